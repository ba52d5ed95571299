import Verif.Format.AnnotationRead
import Verif.Format.AnnotationOk
import Verif.Format.PatternProps

/-!
# C76: a formatted type annotation is read as the same annotation
-/
namespace Verif.Format
open Verif.Lexer Verif.Lexer.Spec Verif.Format.Spec Verif.TypeText

theorem ascii_typeName {width : List Char → Nat} {module name : Option Name} (hm : ∀ m, module = some m → IsName m)
    (hn : ∀ n, name = some n → IsUpName n) (hq : name = none → module ≠ none) {i : Int} {br : Bool} {out : List Char}
    (hl : Pretty.Spec.Layout (typeName width module name) i br out) : Ascii out := by
  cases module with
  | none =>
    cases name with
    | none => exact absurd rfl (hq rfl)
    | some n => cases hl; exact reads_start (hn _ rfl) ⟨rfl, by simp⟩
  | some m =>
    obtain ⟨x, y, rfl, h1, _⟩ := layout_append (show Pretty.Spec.Layout (((text width m).append (text width ['.'])).append _) i br out from hl)
    obtain ⟨a, b, rfl, h3, _⟩ := layout_append h1
    have h3 : a = m := h3
    subst h3
    have h4 : Ascii a := reads_start (hm a rfl) ⟨rfl, by simp⟩
    exact ascii_append (ascii_append h4 _) _

theorem type_start {width : List Char → Nat} (t : TypeAst) (ok : TypeOk t) {i : Int} {br : Bool} {out : List Char}
    (hl : Pretty.Spec.Layout (typeDoc width t) i br out) : Ascii out := by
  match t with
  | .hole name =>
    rw [typeDoc] at hl
    obtain ⟨br, hl⟩ := layout_grouped hl
    cases hl
    rw [TypeOk] at ok
    exact reads_start ok ⟨rfl, by simp⟩
  | .var name =>
    rw [typeDoc] at hl
    obtain ⟨br, hl⟩ := layout_grouped hl
    cases hl
    rw [TypeOk] at ok
    exact reads_start ok ⟨rfl, by simp⟩
  | .constructor module name [] p =>
    rw [typeDoc] at hl
    obtain ⟨br, hl⟩ := layout_grouped hl
    rw [TypeOk] at ok
    exact ascii_typeName ok.1 ok.2.1 (fun e => (ok.2.2.1 e).1) hl
  | .constructor module name (a :: as) p =>
    rw [typeDoc] at hl
    obtain ⟨br, hl⟩ := layout_grouped hl
    rw [TypeOk] at ok
    obtain ⟨x, y, rfl, e1, e2⟩ := layout_append hl
    exact ascii_append (ascii_typeName ok.1 ok.2.1 (fun e => (ok.2.2.1 e).1) e1) _
  | .fn arguments ret =>
    rw [typeDoc] at hl
    obtain ⟨br, hl⟩ := layout_grouped hl
    obtain ⟨x, y, rfl, e1, e2⟩ := layout_append hl
    obtain ⟨x, arrow, rfl, e3, e4⟩ := layout_append e1
    obtain ⟨br, e3⟩ := layout_grouped e3
    obtain ⟨f, args, rfl, e5, e6⟩ := layout_append e3
    cases e5
    exact ⟨_, _, rfl, rfl⟩
  | .tuple elements =>
    rw [typeDoc] at hl
    obtain ⟨br, hl⟩ := layout_grouped hl
    obtain ⟨x, y, rfl, e1, e2⟩ := layout_append hl
    cases e1
    exact ⟨_, _, rfl, rfl⟩

mutual
theorem typeDoc_normal {width : List Char → Nat} : (t : TypeAst) → typeDoc width (normalType t) = typeDoc width t
  | .hole name => by rw [normalType]
  | .var name => by rw [normalType]
  | .constructor module name [] p => by rw [normalType, normalTypes, typeDoc, typeDoc]
  | .constructor module name (a :: as) p => by
    rw [normalType, normalTypes, typeDoc, typeDoc, typeDoc_normal a, typeDocs_normal as]
  | .fn arguments ret => by rw [normalType, typeDoc, typeDoc, typeDocs_normal arguments, typeDoc_normal ret]
  | .tuple elements => by rw [normalType, typeDoc, typeDoc, typeDocs_normal elements]

theorem typeDocs_normal {width : List Char → Nat} : (ts : List TypeAst) → typeDocs width (normalTypes ts) = typeDocs width ts
  | [] => by rw [normalTypes]
  | t :: ts => by rw [normalTypes, typeDocs, typeDocs, typeDoc_normal t, typeDocs_normal ts]
end

mutual
theorem normalType_same : (t : TypeAst) → NoEmptyParentheses t → normalType t = t
  | .hole name, _ => by rw [normalType]
  | .var name, _ => by rw [normalType]
  | .constructor module name arguments p, h => by
    rw [NoEmptyParentheses] at h
    rw [normalType, normalTypes_same arguments h.2, h.1]
  | .fn arguments ret, h => by
    rw [NoEmptyParentheses] at h
    rw [normalType, normalTypes_same arguments h.1, normalType_same ret h.2]
  | .tuple elements, h => by
    rw [NoEmptyParentheses] at h
    rw [normalType, normalTypes_same elements h]

theorem normalTypes_same : (ts : List TypeAst) → NoEmptyParenthesesAll ts → normalTypes ts = ts
  | [], _ => by rw [normalTypes]
  | t :: ts, h => by
    rw [NoEmptyParenthesesAll] at h
    rw [normalTypes, normalType_same t h.1, normalTypes_same ts h.2]
end

theorem normalTypes_length : (ts : List TypeAst) → (normalTypes ts).length = ts.length
  | [] => by rw [normalTypes]
  | t :: ts => by rw [normalTypes, List.length_cons, List.length_cons, normalTypes_length ts]

mutual
theorem meaning_normal {env : Env} {world : World} : (t : TypeAst) → ∀ h r, typeFromAst env world h t = some r →
    typeFromAst env world h (normalType t) = some r
  | .hole name, h, r, e => by rw [normalType]; exact e
  | .var name, h, r, e => by rw [normalType]; exact e
  | .constructor module name arguments p, h, r, e => by
    rw [normalType]
    rw [typeFromAst] at e ⊢
    obtain ⟨⟨types, h1⟩, e1, e⟩ := Option.bind_eq_some_iff.1 e
    rw [meanings_normal arguments h _ e1]
    obtain ⟨n, e2, e⟩ := Option.bind_eq_some_iff.1 e
    obtain ⟨c, e3, e⟩ := Option.bind_eq_some_iff.1 e
    simp only [Option.bind_eq_bind, Option.bind_some]
    rw [e2]
    simp only [Option.bind_some]
    rw [e3]
    simp only [Option.bind_some]
    split at e
    · cases e
    · split at e
      · cases e
      · next h2 h3 =>
        simp only [ne_eq, not_not] at h3
        rw [if_neg, if_neg]
        · exact e
        · simp [normalTypes_length, h3]
        · rintro ⟨h4, h5⟩
          rw [h5] at h3
          have : arguments = [] := List.length_eq_zero_iff.1 (by simpa using h3)
          rw [this] at h4
          simp at h4
  | .fn arguments ret, h, r, e => by
    rw [normalType]
    rw [typeFromAst] at e ⊢
    obtain ⟨⟨types, h1⟩, e1, e⟩ := Option.bind_eq_some_iff.1 e
    obtain ⟨⟨type, h2⟩, e2, e⟩ := Option.bind_eq_some_iff.1 e
    rw [meanings_normal arguments h _ e1]
    simp only [Option.bind_eq_bind, Option.bind_some]
    rw [meaning_normal ret h1 _ e2]
    exact e
  | .tuple elements, h, r, e => by
    rw [normalType]
    rw [typeFromAst] at e ⊢
    obtain ⟨⟨types, h1⟩, e1, e⟩ := Option.bind_eq_some_iff.1 e
    rw [meanings_normal elements h _ e1]
    exact e

theorem meanings_normal {env : Env} {world : World} : (ts : List TypeAst) → ∀ h r, typesFromAst env world h ts = some r →
    typesFromAst env world h (normalTypes ts) = some r
  | [], h, r, e => by rw [normalTypes]; exact e
  | t :: ts, h, r, e => by
    rw [normalTypes]
    rw [typesFromAst] at e ⊢
    obtain ⟨⟨type, h1⟩, e1, e⟩ := Option.bind_eq_some_iff.1 e
    obtain ⟨⟨types, h2⟩, e2, e⟩ := Option.bind_eq_some_iff.1 e
    rw [meaning_normal t h _ e1]
    simp only [Option.bind_eq_bind, Option.bind_some]
    rw [meanings_normal ts h1 _ e2]
    exact e
end

/-- **C76.** An annotation that is made of tokens of the language is written as a text that is read as its normal form,
whatever the length of a line, the width of characters and the token that follows. -/
theorem written_annotation_is_read {t : TypeAst} (ok : TypeOk t) (width : List Char → Nat) (limit : Int) (s : Symbol)
    (hs : s ≠ .dot ∧ s ≠ .leftParen ∧ s ≠ .less) :
    readAnnotation (formatType width limit t ++ (' ' :: symbolText s ++ [' '])) = some (normalType t, [.symbol s]) := by
  have hl := Pretty.print_is_layout limit (typeDoc width t)
  have ha : Ascii (formatType width limit t) := type_start t ok hl
  generalize hsrc : formatType width limit t ++ (' ' :: symbolText s ++ [' ']) = source
  obtain ⟨ks, hk, hseen⟩ := type_seen (eof := endOffset source) t ok _ _ _ hl
  have h1 : Seen (endOffset source) source (ks ++ [.symbol s]) [] := by
    have h2 := Seen.append (rest := []) (u := ' ' :: symbolText s ++ [' '])
      (by simpa using hseen ' ' (symbolText s ++ [' ']) (by simp [Sep])) (seen_after s)
    rw [← hsrc] at h2 ⊢
    exact h2
  have hb : source.head? ≠ some byteOrderMark := by
    obtain ⟨c, r, e, h⟩ := ascii_append ha (' ' :: symbolText s ++ [' '])
    rw [← hsrc, e]
    simp only [List.head?_cons, ne_eq, Option.some.injEq]
    rintro rfl
    revert h
    decide
  obtain ⟨h3, h4⟩ := seen_tokens h1 hb
  have h5 := reads_type t ok ks [.symbol s] (2 * (ks ++ [Token.symbol s]).length + 2) hk (after_symbol hs) (by simp; omega)
  unfold readAnnotation
  generalize tokens source = r at h3 h4
  obtain ⟨ts, e⟩ := r
  cases h4
  simp only at h3 ⊢
  rw [h3, h5]

/-- **C76.** A type annotation that is read from a text, formatted, is read as the same annotation, but that `Foo()` is
read as `Foo`. -/
theorem formatted_annotation_is_read {source : List Char} {t : TypeAst} {rest : List Token}
    (h : readAnnotation source = some (t, rest)) (width : List Char → Nat) (limit : Int) (s : Symbol)
    (hs : s ≠ .dot ∧ s ≠ .leftParen ∧ s ≠ .less) :
    ∃ q, readAnnotation (formatType width limit t ++ (' ' :: symbolText s ++ [' '])) = some (q, [.symbol s]) ∧
      q = normalType t ∧ (NoEmptyParentheses t → q = t) :=
  ⟨_, written_annotation_is_read (read_annotation_ok h) width limit s hs, rfl, normalType_same t⟩

/-- **C76.** In each scope in which the annotation stands for a type, the formatted annotation stands for the same type,
with the same type variables. -/
theorem formatted_annotation_is_the_same_type {source : List Char} {t : TypeAst} {rest : List Token}
    (h : readAnnotation source = some (t, rest)) (width : List Char → Nat) (limit : Int) :
    ∃ q, readAnnotation (formatType width limit t ++ " = ".toList) = some (q, [.symbol .equal]) ∧
      ∀ env world hydrator r, typeFromAst env world hydrator t = some r → typeFromAst env world hydrator q = some r :=
  ⟨_, written_annotation_is_read (read_annotation_ok h) width limit .equal (by simp), fun _ _ _ _ => meaning_normal t _ _⟩

/-- **C76.** A formatted annotation is formatted as it is. -/
theorem formatting_an_annotation_again_is_same {source : List Char} {t : TypeAst} {rest : List Token}
    (h : readAnnotation source = some (t, rest)) (width : List Char → Nat) (limit : Int) :
    ∃ q, readAnnotation (formatType width limit t ++ " = ".toList) = some (q, [.symbol .equal]) ∧
      formatType width limit q = formatType width limit t :=
  ⟨_, written_annotation_is_read (read_annotation_ok h) width limit .equal (by simp),
    congrArg (Pretty.toPrettyString limit) (typeDoc_normal t)⟩

/-! ### Cases that meet the hypotheses -/

/-- An annotation with most constructs. -/
def exampleAnnotation : List Char := "fn(Int,List( a ),) ->  #(option.Option(_x),fn()->Nil) =".toList

example :
    (readAnnotation exampleAnnotation).map (fun r => formatType List.length 80 r.1) =
      some "fn(Int, List(a)) -> #(option.Option(_x), fn() -> Nil)".toList ∧
    (readAnnotation exampleAnnotation).map (fun r => formatType List.length 30 r.1) =
      some "fn(Int, List(a)) ->\n  #(\n    option.Option(_x),\n    fn() -> Nil,\n  )".toList := by
  decide +kernel

/-- A scope that has the type `Int`. -/
def exampleEnv : Env :=
  { current := [], moduleTypes := fun n => if n = "Int".toList then preludeConstructor n 0 else none,
    moduleTypeAliases := fun _ => none, importedModules := fun _ => none, names := Names.new, next := 0 }

/-- An annotation with a type in a scope; and `Int()`, which has none but which after formatting has one. -/
theorem empty_parentheses_are_dropped :
    (readAnnotation "fn(Int, a) -> a =".toList).map
      (fun r => (typeFromAst exampleEnv (fun _ => none) ⟨[], 0, true, false⟩ r.1).isSome) = some true ∧
    (readAnnotation "Int() =".toList).map
      (fun r => (typeFromAst exampleEnv (fun _ => none) ⟨[], 0, true, false⟩ r.1).isSome) = some false ∧
    (readAnnotation "Int() =".toList).map (fun r => formatType List.length 80 r.1) = some "Int".toList ∧
    (readAnnotation "Int =".toList).map
      (fun r => (typeFromAst exampleEnv (fun _ => none) ⟨[], 0, true, false⟩ r.1).isSome) = some true := by
  decide +kernel

end Verif.Format
