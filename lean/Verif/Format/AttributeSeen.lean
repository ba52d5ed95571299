import Verif.Format.ImportSeen
import Verif.Format.Attribute

/-!
# Formatted attributes are read as their tokens
-/
namespace Verif.Format
open Verif.Lexer Verif.Lexer.Spec Verif.Format.Spec Verif.TypeText
open Verif.Pretty (Doc joinWith)
open Verif.Pretty.Spec (Layout)

/-- The tokens of `@deprecated`. -/
def deprecatedToks (message : List Char) : List Token :=
  [.symbol .at_, .name "deprecated".toList, .symbol .leftParen, .string message, .symbol .rightParen]

/-- The tokens of `@external`. -/
def externalToks (target : Name) (module function : List Char) : List Token :=
  [.symbol .at_, .name "external".toList, .symbol .leftParen, .name target, .symbol .comma, .string module, .symbol .comma,
    .string function, .symbol .rightParen]

/-- The tokens of `@internal`. -/
def internalToks : List Token := [.symbol .at_, .name "internal".toList]

/-- The tokens of `@target`. -/
def targetToks (target : Name) : List Token :=
  [.symbol .at_, .name "target".toList, .symbol .leftParen, .name target, .symbol .rightParen]

/-- The tokens of the attributes that `attributeDocs` writes. -/
def attributeToks (deprecated : Option (List Char)) (erlang javascript : Option (List Char × List Char)) (internal : Bool) :
    List (List Token) :=
  (match deprecated with
    | some message => [deprecatedToks message]
    | none => []) ++
  ((match erlang with
    | some (module, function) => [externalToks "erlang".toList module function]
    | none => []) ++
  ((match javascript with
    | some (module, function) => [externalToks "javascript".toList module function]
    | none => []) ++
  (if internal then [internalToks] else [])))

/-- The tokens of all attributes of a definition. -/
def allToks (a : Attributes) : List Token :=
  (match a.target with
    | none => []
    | some .erlang => targetToks "erlang".toList
    | some .javascript => targetToks "javascript".toList) ++
  (attributeToks a.deprecated a.erlang a.javascript a.internal).flatten

/-- A layout of documents one after the other. -/
def LayEach (i : Int) (br : Bool) : List Doc → List Char → Prop
  | [], out => out = []
  | d :: ds, out => ∃ x y, out = x ++ y ∧ Layout d i br x ∧ LayEach i br ds y

theorem layout_concatLoop {i : Int} {br : Bool} : (ds : List Doc) → ∀ {p : Doc} {out : List Char},
    Layout (Pretty.concatLoop p ds) i br out → ∃ x y, out = x ++ y ∧ Layout p i br x ∧ LayEach i br ds y
  | [], p, out, h => ⟨out, [], by simp, h, rfl⟩
  | [a], p, out, h => by
    obtain ⟨x, y, rfl, h1, h2⟩ := layout_append h
    exact ⟨x, y, rfl, h1, y, [], by simp, h2, rfl⟩
  | [a, b], p, out, h => by
    obtain ⟨x, y, z, rfl, h1, h2, h3⟩ := h
    exact ⟨x, y ++ z, by simp, h1, y, z, rfl, h2, z, [], by simp, h3, rfl⟩
  | a :: b :: c :: ds, p, out, h => by
    obtain ⟨x, y, rfl, ⟨p', a', b', c', rfl, h1, h2, h3, h4⟩, h5⟩ := layout_concatLoop ds (p := .join4 p a b c) h
    exact ⟨p', a' ++ (b' ++ (c' ++ y)), by simp, h1, a', _, rfl, h2, b', _, rfl, h3, c', _, rfl, h4, h5⟩

theorem layout_concat {ds : List Doc} {i : Int} {br : Bool} {out : List Char} (h : Layout (Pretty.concat ds) i br out) :
    LayEach i br ds out := by
  cases ds with
  | nil => exact h
  | cons d ds =>
    obtain ⟨x, y, rfl, h1, h2⟩ := layout_concatLoop ds h
    exact ⟨x, y, rfl, h1, h2⟩

section
variable {eof : Nat} {width : List Char → Nat}

theorem seen_at {rest : List Char} : Seen eof ['@'] [.symbol .at_] rest := by
  refine seen_lexes (lexes_token (by simp) fun p he => ?_) rfl
  simp only [List.singleton_append] at he ⊢
  have n1 := next1 he (by decide) (by decide)
  rw [bytes_one (by decide)]
  refine ⟨n1.2, p, (View eof (p + 1) rest).location0, ?_⟩
  simp only [consumeNormal, view_cons_char0, ne_eq, Char.reduceEq, not_false_eq_true, location_cons, view_cons_char1,
    isUpper, isNameStart, isLower, isNumberStart, isDigit, startsDigit, consumeCharacter, singleSymbol, if_true, if_false,
    eatSingleChar, emit, n1.1, Bool.and_eq_true, decide_eq_true_eq]
  rfl

theorem isName_of {n : Name} (h : n ∈ ["deprecated".toList, "external".toList, "internal".toList, "target".toList,
    "erlang".toList, "javascript".toList]) : IsName n := by
  simp only [List.mem_cons, List.not_mem_nil, or_false] at h
  rcases h with rfl | rfl | rfl | rfl | rfl | rfl
  all_goals
    refine ⟨rfl, ⟨_, _, rfl, by decide, by decide⟩, ?_, fun k => by cases k <;> decide⟩
    unfold NameChar
    decide

/-- The document is written as a text that is read as the tokens when a line ending follows. -/
def Written (eof : Nat) (d : Doc) (ks : List Token) : Prop :=
  ∀ i br out rest, Layout d i br out → Seen eof out ks ('\n' :: rest)

theorem seen_attribute {n : Name} (hn : IsName n) {u rest : List Char} {ks : List Token} (h : Seen eof ('(' :: u) ks rest) :
    Seen eof ('@' :: (n ++ '(' :: u)) (.symbol .at_ :: .name n :: ks) rest :=
  Seen.append (t := ['@']) (ks := [.symbol .at_]) seen_at
    (Seen.append (ks := [.name n]) (seen_name (stop_open (.inl rfl)) hn) h)

theorem seen_paren {u rest : List Char} {ks : List Token} (h : Seen eof u ks rest) :
    Seen eof ('(' :: u) (.symbol .leftParen :: ks) rest :=
  Seen.append (t := ['(']) (ks := [.symbol .leftParen]) (seen_symbol (by decide)) h

theorem seen_close {rest : List Char} : Seen eof [')'] [.symbol .rightParen] rest := seen_symbol (by decide)

theorem seen_commaSpace {u rest : List Char} {ks : List Token} (h : Seen eof u ks rest) :
    Seen eof (',' :: ' ' :: u) (.symbol .comma :: ks) rest :=
  Seen.append (t := [',']) (ks := [.symbol .comma]) (seen_symbol (by decide)) (Seen.append (t := [' ']) (ks := []) seen_space h)

theorem seen_quoted {v : List Char} (hv : IsString v) {u rest : List Char} {ks : List Token} (h : Seen eof u ks rest) :
    Seen eof ('"' :: (v ++ '"' :: u)) (.string v :: ks) rest := by
  have := Seen.append (ks := [.string v]) (seen_string (rest := u ++ rest) hv) h
  simpa using this

theorem deprecated_seen {m : List Char} (h : IsString m) :
    Written eof (Pretty.concat [text width "@deprecated(\"".toList, text width m, text width "\")".toList]) (deprecatedToks m) := by
  intro i br out rest hl
  obtain ⟨x, y, rfl, e1, x2, y2, rfl, e2, x3, y3, rfl, e3, e4⟩ := layout_concat hl
  cases e1
  cases e2
  cases e3
  cases e4
  have g := seen_attribute (eof := eof) (rest := '\n' :: rest) (isName_of (n := "deprecated".toList) (by decide))
    (seen_paren (seen_quoted h seen_close))
  simpa [deprecatedToks] using g

theorem external_seen {t m f : List Char} (ht : IsName t) (hm : IsString m) (hf : IsString f) :
    Written eof (Pretty.concat [text width ("@external(".toList ++ (t ++ ", \"".toList)), text width m, text width "\", \"".toList,
      text width f, text width "\")".toList]) (externalToks t m f) := by
  intro i br out rest hl
  obtain ⟨x, y, rfl, e1, x2, y2, rfl, e2, x3, y3, rfl, e3, x4, y4, rfl, e4, x5, y5, rfl, e5, e6⟩ := layout_concat hl
  cases e1
  cases e2
  cases e3
  cases e4
  cases e5
  cases e6
  have g1 := seen_commaSpace (seen_quoted hm (seen_commaSpace (seen_quoted hf (seen_close (eof := eof) (rest := '\n' :: rest)))))
  have g2 := Seen.append (ks := [.name t]) (seen_name (stop_of (by simp)) ht) g1
  have g3 := seen_attribute (isName_of (n := "external".toList) (by decide)) (seen_paren g2)
  simpa [externalToks] using g3

theorem internal_seen : Written eof (text width "@internal".toList) internalToks := by
  intro i br out rest hl
  cases hl
  exact Seen.append (t := ['@']) (u := "internal".toList) (ks := [.symbol .at_]) seen_at
    (seen_name (stop_of (by simp)) (isName_of (by decide)))

theorem target_seen {t : List Char} (ht : IsName t) :
    Written eof (text width ("@target(".toList ++ (t ++ [')']))) (targetToks t) := by
  intro i br out rest hl
  cases hl
  have g2 := Seen.append (ks := [.name t]) (seen_name (stop_sep (by simp [Sep])) ht) (seen_close (eof := eof) (rest := '\n' :: rest))
  have g3 := seen_attribute (isName_of (n := "target".toList) (by decide)) (seen_paren g2)
  simpa [targetToks] using g3

theorem attributeDocs_seen {dep : Option (List Char)} {erl js : Option (List Char × List Char)} {int : Bool}
    (h1 : ∀ m, dep = some m → IsString m) (h2 : ∀ m f, erl = some (m, f) → IsString m ∧ IsString f)
    (h3 : ∀ m f, js = some (m, f) → IsString m ∧ IsString f) :
    List.Forall₂ (Written eof) (attributeDocs width dep erl js int) (attributeToks dep erl js int) := by
  unfold attributeDocs attributeToks
  refine List.rel_append ?_ (List.rel_append ?_ (List.rel_append ?_ ?_))
  · cases dep with
    | none => exact .nil
    | some m => exact .cons (deprecated_seen (h1 m rfl)) .nil
  · match erl, h2 with
    | none, _ => exact .nil
    | some (m, f), h2 => exact .cons (external_seen (t := "erlang".toList) (isName_of (by decide)) (h2 m f rfl).1 (h2 m f rfl).2) .nil
  · match js, h3 with
    | none, _ => exact .nil
    | some (m, f), h3 =>
      exact .cons (external_seen (t := "javascript".toList) (isName_of (by decide)) (h3 m f rfl).1 (h3 m f rfl).2) .nil
  · cases int with
    | false => exact .nil
    | true => exact .cons internal_seen .nil

/-- Attributes after the first, each after a line ending. -/
theorem attributes_more {i : Int} {br : Bool} : {ds : List Doc} → {kss : List (List Token)} → List.Forall₂ (Written eof) ds kss →
    ∀ {out rest : List Char}, LayAll (.line 1) i br ds out →
      Seen eof out kss.flatten ('\n' :: rest) ∧ (out = [] ∨ ∃ r, out = '\n' :: r)
  | [], _, .nil, out, rest, hl => by
    rw [LayAll] at hl
    subst hl
    exact ⟨Seen.nil, .inl rfl⟩
  | d :: ds, ks :: kss, .cons h1 h2, out, rest, hl => by
    obtain ⟨s, x, y, rfl, e1, e2, e3⟩ := hl
    cases e1
    obtain ⟨g1, g2⟩ := attributes_more h2 (rest := rest) e3
    refine ⟨?_, .inr ⟨_, rfl⟩⟩
    rw [List.flatten_cons]
    refine Seen.append (ks := []) (seen_lineEnd _) (Seen.append ?_ g1)
    rcases g2 with rfl | ⟨r, rfl⟩
    · exact h1 _ _ _ _ e2
    · exact h1 _ _ _ _ e2

theorem attributesDoc_seen {ds : List Doc} {kss : List (List Token)} (h : List.Forall₂ (Written eof) ds kss)
    {i : Int} {br : Bool} {out rest : List Char} (hl : Layout (attributesDoc ds) i br out) : Seen eof out kss.flatten rest := by
  cases h with
  | nil => cases hl; exact Seen.nil
  | @cons d ks ds kss h1 h2 =>
    obtain ⟨x, y, rfl, e1, e2⟩ := layout_append (a := joinWith (.line 1) (d :: ds)) (b := .line 1) hl
    cases e2
    obtain ⟨u, v, rfl, e3, e4⟩ := layout_joinWith e1
    obtain ⟨g1, g2⟩ := attributes_more h2 (rest := List.replicate i.toNat ' ' ++ rest) e4
    rw [List.flatten_cons]
    have g3 : Seen eof (u ++ v) (ks ++ kss.flatten) ('\n' :: (List.replicate i.toNat ' ' ++ rest)) := by
      refine Seen.append ?_ g1
      rcases g2 with rfl | ⟨r, rfl⟩
      · exact h1 _ _ _ _ e3
      · exact h1 _ _ _ _ e3
    have := Seen.append (ls := []) g3 (seen_lineEnd (rest := rest) i.toNat)
    simpa using this

/-- The document is written as a text that starts with `@`. -/
def StartsAt (d : Doc) : Prop := ∀ i br out, Layout d i br out → ∃ r, out = '@' :: r

theorem startsAt_concat {t : List Char} {ds : List Doc} : StartsAt (Pretty.concat (text width ('@' :: t) :: ds)) := by
  intro i br out hl
  obtain ⟨x, y, rfl, e1, _⟩ := layout_concat hl
  cases e1
  exact ⟨_, rfl⟩

theorem attributeDocs_startAt {dep : Option (List Char)} {erl js : Option (List Char × List Char)} {int : Bool} :
    ∀ d ∈ attributeDocs width dep erl js int, StartsAt d := by
  intro d hd
  unfold attributeDocs at hd
  simp only [List.mem_append] at hd
  rcases hd with hd | hd | hd | hd
  · cases dep with
    | none => cases hd
    | some m => cases List.mem_singleton.1 hd; exact startsAt_concat (t := "deprecated(\"".toList)
  · match erl with
    | none => cases hd
    | some (m, f) => cases List.mem_singleton.1 hd; exact startsAt_concat (t := "external(erlang, \"".toList)
  · match js with
    | none => cases hd
    | some (m, f) => cases List.mem_singleton.1 hd; exact startsAt_concat (t := "external(javascript, \"".toList)
  · cases int with
    | false => cases hd
    | true =>
      cases List.mem_singleton.1 hd
      intro i br out hl
      cases hl
      exact ⟨_, rfl⟩

theorem attributesDoc_startsAt {ds : List Doc} (h : ∀ d ∈ ds, StartsAt d) {i : Int} {br : Bool} {out : List Char}
    (hl : Layout (attributesDoc ds) i br out) : out = [] ∨ ∃ r, out = '@' :: r := by
  cases ds with
  | nil => cases hl; exact .inl rfl
  | cons d ds =>
    obtain ⟨x, y, rfl, e1, e2⟩ := layout_append (a := joinWith (.line 1) (d :: ds)) (b := .line 1) hl
    obtain ⟨u, v, rfl, e3, e4⟩ := layout_joinWith e1
    obtain ⟨r, rfl⟩ := h d (by simp) _ _ _ e3
    exact .inr ⟨_, rfl⟩

end
end Verif.Format
