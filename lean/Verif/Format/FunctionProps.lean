import Verif.Format.FunctionRead
import Verif.Format.DefinitionProps

/-!
# C80: a formatted signature of a function is read as the same signature
-/
namespace Verif.Format
open Verif.Lexer Verif.Lexer.Spec Verif.Format.Spec Verif.TypeText
open Verif.Pretty (Doc)
open Verif.Pretty.Spec (Layout)

/-! ### The normal form -/

theorem optional_same {f : TypeAst → TypeAst} {o : Option TypeAst} (h : ∀ t, o = some t → f t = t) : o.map f = o := by
  cases o with
  | none => rfl
  | some t => rw [Option.map_some, h t rfl]

theorem normalSignature_same (s : Signature) (h : NoEmptyParenthesesInSignature s) : normalSignature s = s := by
  obtain ⟨attributes, isPublic, name, arguments, returns⟩ := s
  unfold normalSignature
  simp only
  rw [optional_same fun t ht => normalType_same t (h.2 t ht), map_same]
  intro a ha
  obtain ⟨names, annotation⟩ := a
  simp only
  rw [optional_same fun t ht => normalType_same t (h.1 _ ha t ht)]

theorem argDoc_normal {width : List Char → Nat} (a : Arg) : argDoc width (normalArg a) = argDoc width a := by
  obtain ⟨names, annotation⟩ := a
  cases annotation with
  | none => rfl
  | some t =>
    unfold argDoc normalArg
    simp only [Option.map_some, typeDoc_normal]

theorem functionDoc_normal {width : List Char → Nat} (s : Signature) (body : Option Doc) :
    functionDoc width (normalSignature s) body = functionDoc width s body := by
  have h : signatureDoc width (normalSignature s) = signatureDoc width s := by
    obtain ⟨attributes, isPublic, name, arguments, returns⟩ := s
    have ha : (arguments.map fun a => (⟨a.names, a.annotation.map normalType⟩ : Arg)).map (argDoc width) =
        arguments.map (argDoc width) := by
      rw [List.map_map]
      exact List.map_congr_left fun a _ => argDoc_normal a
    unfold signatureDoc normalSignature
    simp only [ha]
    cases returns with
    | none => rfl
    | some t => simp only [Option.map_some, typeDoc_normal]
  unfold functionDoc
  rw [h]
  rfl

/-! ### The theorems -/

/-- **C80.** A signature that is made of tokens of the language, with whatever body that is written as tokens, is written as a
text that is read as the normal form of the signature, and what is left are the tokens of the body in braces and those of the
next definition, whatever the length of a line and the width of characters. -/
theorem written_function_is_read {s : Signature} (ok : SignatureOk s) {body : Option Doc} {B : List Token → Prop}
    (hb : ∀ b, body = some b → BodyReads b B) (width : List Char → Nat) (limit : Int) (k : Keyword) :
    ∃ rest, readFunction (formatFunction width limit s body ++ '\n' :: keywordText k ++ [' ']) =
        some (normalSignature s, rest ++ [.keyword k]) ∧
      (body = none → rest = []) ∧
      (∀ b, body = some b → ∃ bs, B bs ∧ rest = .symbol .leftBrace :: (bs ++ [.symbol .rightBrace])) := by
  have hl := Pretty.print_is_layout limit (functionDoc width s body)
  generalize hsrc : formatFunction width limit s body ++ '\n' :: keywordText k ++ [' '] = source
  obtain ⟨ks, ⟨a, b, h1, hq, rfl⟩, h2, c, r, hc, hbom⟩ := function_seen (eof := endOffset source) ok hb hl
  have h3 : Seen (endOffset source) source (allToks s.attributes ++ a ++ (b ++ [.keyword k])) [] := by
    have h4 : Seen (endOffset source) ('\n' :: keywordText k ++ [' ']) [.keyword k] [] :=
      Seen.append (t := ['\n']) (ks := []) (u := keywordText k ++ [' ']) seen_newline (seen_keywordSpace k)
    have h5 := Seen.append (rest := []) (by simpa using h2 '\n' (keywordText k ++ [' ']) (by simp [Sep])) h4
    rw [← hsrc] at h5 ⊢
    unfold formatFunction at h5 ⊢
    simpa using h5
  have hbom : source.head? ≠ some byteOrderMark := by
    rw [← hsrc]
    unfold formatFunction
    rw [hc]
    simpa using hbom
  obtain ⟨h6, h7⟩ := seen_tokens h3 hbom
  have hrest : After (b ++ [.keyword k]) ∧ (b ++ [Token.keyword k]).head? ≠ some (.symbol .colon) ∧
      (b ++ [Token.keyword k]).head? ≠ some (.symbol .rArrow) := by
    cases body with
    | none =>
      have hq : b = [] := hq
      subst hq
      exact ⟨⟨⟨by simp, by simp, by simp⟩, by simp⟩, by simp, by simp⟩
    | some d =>
      obtain ⟨bs, _, rfl⟩ := hq
      exact ⟨after_symbol (by simp), by simp, by simp⟩
  have h8 := reads_signature ok h1 hrest.1 hrest.2
  refine ⟨b, ?_, fun e => by rw [e] at hq; exact hq, fun d e => by rw [e] at hq; exact hq⟩
  unfold readFunction
  generalize tokens source = q at h6 h7
  obtain ⟨ts, e⟩ := q
  cases h7
  simp only at h6 ⊢
  rw [h6, h8]

/-- **C80.** The signature of a function that is read from a text, formatted, is read as the same signature: the same
attributes, public if it was, the same name, and the same labels, names and annotations of the parameters in the same order. An
annotation `Foo()` in it is read as `Foo`. -/
theorem formatted_function_has_the_same_signature {source : List Char} {s : Signature} {tokens : List Token}
    (h : readFunction source = some (s, tokens)) {body : Option Doc} {B : List Token → Prop}
    (hb : ∀ b, body = some b → BodyReads b B) (width : List Char → Nat) (limit : Int) (k : Keyword) :
    ∃ q rest, readFunction (formatFunction width limit s body ++ '\n' :: keywordText k ++ [' ']) = some (q, rest) ∧
      q = normalSignature s ∧ (NoEmptyParenthesesInSignature s → q = s) := by
  obtain ⟨rest, h1, _⟩ := written_function_is_read (read_function_ok h) hb width limit k
  exact ⟨_, _, h1, rfl, normalSignature_same s⟩

/-- **C80.** The signature of a formatted function is formatted as it is. -/
theorem formatting_a_signature_again_is_same {source : List Char} {s : Signature} {tokens : List Token}
    (h : readFunction source = some (s, tokens)) {body : Option Doc} {B : List Token → Prop}
    (hb : ∀ b, body = some b → BodyReads b B) (width : List Char → Nat) (limit : Int) (k : Keyword) :
    ∃ q rest, readFunction (formatFunction width limit s body ++ '\n' :: keywordText k ++ [' ']) = some (q, rest) ∧
      formatFunction width limit q body = formatFunction width limit s body := by
  obtain ⟨rest, h1, _⟩ := written_function_is_read (read_function_ok h) hb width limit k
  exact ⟨_, _, h1, congrArg (Pretty.toPrettyString limit) (functionDoc_normal s body)⟩

/-! ### Cases that meet the hypotheses -/

/-- A function with most constructs. -/
def exampleFunction : List Char :=
  "@internal pub fn fold(over list:List(a),_,from initial:b,with _f:fn(a)->b,)->Result(b,Nil){todo} fn ".toList

/-- The body `todo`. -/
theorem todo_reads (width : List Char → Nat) : BodyReads (text width "todo".toList) (· = [.keyword .todo_]) := by
  intro eof i br out hl
  cases hl
  exact ⟨_, rfl, fun rest => seen_keyword .todo_ (stop_of (by simp))⟩

example :
    (readFunction exampleFunction).map (fun r =>
        (formatFunction List.length 80 r.1 (some (text List.length "todo".toList)), r.2)) =
      some (("@internal\npub fn fold(\n  over list: List(a),\n  _,\n  from initial: b,\n  with _f: fn(a) -> b,\n" ++
        ") -> Result(b, Nil) {\n  todo\n}").toList, [.symbol .leftBrace, .keyword .todo_, .symbol .rightBrace, .keyword .fn_]) ∧
    (readFunction "@external(erlang,\"a\",\"b\") fn f( ) fn ".toList).map (fun r => (formatFunction List.length 80 r.1 none, r.2)) =
      some ("@external(erlang, \"a\", \"b\")\nfn f()".toList, [.keyword .fn_]) ∧
    readFunction "@internal fn f() { 1 }".toList = none ∧
    readFunction "fn f(): Int { 1 }".toList = none := by
  decide +kernel

end Verif.Format
