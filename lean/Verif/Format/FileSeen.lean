import Verif.Format.ImportProps
import Verif.Format.ConstantRead
import Verif.Format.FileSpec

/-!
# A formatted file is read as the tokens of what it declares
-/
namespace Verif.Format
open Verif.Lexer Verif.Lexer.Spec Verif.Format.Spec Verif.TypeText
open Verif.Pretty (Doc)
open Verif.Pretty.Spec (Layout)

variable {β : Type}

/-- The declaration is made of tokens of the language. -/
def DeclarationOk (Ok : β → Prop) : Declaration β → Prop
  | .type_ d => DefinitionOk d
  | .function s body => SignatureOk s ∧ ∀ b, body = some b → Ok b
  | .constant c => ConstantOk c

/-- The tokens of a declaration. -/
def DeclarationToks (F : BodyFormat β) (norm : β → β) : Declaration β → List Token → Prop
  | .type_ d, ks => ∃ a, TypeDefToks d.definition a ∧ ks = allToks d.attributes ++ a
  | .function s body, ks => ∃ a b, SignatureToks s a ∧ ks = allToks s.attributes ++ (a ++ b) ∧
    match body with
    | none => b = []
    | some body => ∃ bs, (∀ rest, F.parse (bs ++ .symbol .rightBrace :: rest) = some (norm body, .symbol .rightBrace :: rest)) ∧
      b = .symbol .leftBrace :: (bs ++ [.symbol .rightBrace])
  | .constant c, ks => ∃ a, ConstToks c a ∧ ks = allToks c.attributes ++ a

section
variable {eof : Nat} {width : List Char → Nat} {F : BodyFormat β} {Ok : β → Prop} {norm : β → β}

theorem declaration_seen (keeps : KeepsBodies F Ok norm) {blank : Nat → Bool} {d : Declaration β} (ok : DeclarationOk Ok d) {i : Int} {br : Bool} {out : List Char}
    (hl : Layout (declarationDoc F width blank d) i br out) :
    ∃ ks, DeclarationToks F norm d ks ∧ SeenSep eof out ks ∧ ∃ c r, out = c :: r ∧ c ≠ byteOrderMark := by
  cases d with
  | type_ d =>
    obtain ⟨ks, h1, h2, h3⟩ := definition_seen (eof := eof) ok hl
    exact ⟨_, ⟨ks, h1, rfl⟩, h2, h3⟩
  | function s body =>
    cases body with
    | none =>
      have hl : Layout (functionDoc width s none) i br out := hl
      obtain ⟨ks, ⟨a, b, h1, h2, rfl⟩, h3, h4⟩ := function_seen (eof := eof) (B := fun _ => True) ok.1 (by simp) hl
      exact ⟨_, ⟨a, b, h1, rfl, h2⟩, h3, h4⟩
    | some body =>
      have hl : Layout (functionDoc width s (some (F.doc body))) i br out := hl
      obtain ⟨ks, ⟨a, b, h1, h2, rfl⟩, h3, h4⟩ := function_seen (eof := eof) (B := fun bs =>
          ∀ rest, F.parse (bs ++ .symbol .rightBrace :: rest) = some (norm body, .symbol .rightBrace :: rest)) ok.1
        (fun d e => by cases e; exact keeps.reads body (ok.2 body rfl)) hl
      exact ⟨_, ⟨a, b, h1, rfl, h2⟩, h3, h4⟩
  | constant c =>
    have hl : Layout (constantDoc width c) i br out := hl
    obtain ⟨ks, h1, h2, h3⟩ := constant_seen (eof := eof) ok hl
    exact ⟨_, ⟨ks, h1, rfl⟩, h2, h3⟩

theorem seen_emptyLine {n : Nat} {rest : List Char} :
    Seen eof (List.replicate 2 '\n' ++ List.replicate n ' ') [] rest :=
  Seen.append (t := ['\n']) (ks := []) seen_newline (seen_lineEnd n)

theorem declarations_seen (keeps : KeepsBodies F Ok norm) {blanks : Nat → Nat → Bool} {i : Int} {br : Bool} :
    (ds : List (Declaration β)) → (∀ d ∈ ds, DeclarationOk Ok d) → ∀ {first : Bool} {n : Nat} {out : List Char},
    LayEach i br (declarationDocs F width blanks first n ds) out →
    ∃ kss, List.Forall₂ (DeclarationToks F norm) ds kss ∧ (∀ rest, Seen eof out kss.flatten ('\n' :: rest)) ∧
      (out = [] ∨ ∃ c r, out = c :: r ∧ c ≠ byteOrderMark ∧ (first = false → c = '\n'))
  | [], _, first, n, out, hl => by
    have hl : out = [] := hl
    subst hl
    exact ⟨[], .nil, fun _ => Seen.nil, .inl rfl⟩
  | d :: ds, ok, first, n, out, hl => by
    have key : ∀ {out}, LayEach i br (declarationDoc F width (blanks n) d :: declarationDocs F width blanks false (n + 1) ds) out →
        ∃ kss, List.Forall₂ (DeclarationToks F norm) (d :: ds) kss ∧ (∀ rest, Seen eof out kss.flatten ('\n' :: rest)) ∧
          ∃ c r, out = c :: r ∧ c ≠ byteOrderMark := by
      intro out hl
      obtain ⟨x, y, rfl, e1, e2⟩ := hl
      obtain ⟨ks, h1, h2, c, r, rfl, hb⟩ := declaration_seen (eof := eof) keeps (ok d (by simp)) e1
      obtain ⟨kss, h3, h4, h5⟩ := declarations_seen keeps ds (fun e he => ok e (by simp [he])) e2
      refine ⟨ks :: kss, .cons h1 h3, fun rest => ?_, c, r ++ y, rfl, hb⟩
      rw [List.flatten_cons]
      refine Seen.append ?_ (h4 rest)
      rcases h5 with rfl | ⟨c2, r2, rfl, _, h6⟩
      · exact h2 '\n' rest (by simp [Sep])
      · rw [h6 rfl]
        exact h2 '\n' _ (by simp [Sep])
    cases first with
    | true =>
      obtain ⟨kss, h1, h2, c, r, h3, h4⟩ := key hl
      exact ⟨kss, h1, h2, .inr ⟨c, r, h3, h4, by simp⟩⟩
    | false =>
      obtain ⟨x, y, rfl, e1, e2⟩ := hl
      obtain ⟨kss, h1, h2, _⟩ := key e2
      cases e1
      exact ⟨kss, h1, fun rest => Seen.append (ks := []) seen_emptyLine (h2 rest),
        .inr ⟨'\n', _, rfl, by decide, fun _ => rfl⟩⟩

theorem importGroup_seen {is : List Import} (hne : is ≠ []) (ok : ∀ i ∈ is, ImportOk i) {j : Int} {br : Bool} {out : List Char}
    (hl : Layout (importsDoc width is) j br out) (rest : List Char) :
    ∃ kss, List.Forall₂ ImportToks (sortBy (·.module) is) kss ∧ Seen eof out kss.flatten ('\n' :: rest) ∧
      ∃ r, out = 'i' :: r := by
  have hok : ∀ i ∈ sortBy (·.module) is, ImportOk i := fun i hi => ok i (sortBy_mem.1 hi)
  have hne : sortBy (·.module) is ≠ [] := fun e => hne (sortBy_nil.1 e)
  unfold importsDoc at hl
  generalize sortBy (·.module) is = js at hl hok hne
  cases js with
  | nil => exact absurd rfl hne
  | cons j js =>
    rw [List.map_cons] at hl
    obtain ⟨x, y, rfl, e1, e2⟩ := layout_joinWith hl
    obtain ⟨kss, h1, h2, h3⟩ := imports_seen (eof := eof) (rest := '\n' :: rest) (fun i hi => hok i (by simp [hi])) e2
      (stop_of (c := '\n') (by simp))
    obtain ⟨ks, h4, h5, r, rfl⟩ := import_seen (eof := eof) (hok j (by simp)) e1 h3
    refine ⟨ks :: kss, .cons h4 h1, ?_, r ++ y, rfl⟩
    rw [List.flatten_cons]
    exact Seen.append h5 h2

/-- The file is made of tokens of the language. -/
def FileOk (Ok : β → Prop) (f : File β) : Prop :=
  (∀ i ∈ f.imports, ImportOk i) ∧ ∀ d ∈ f.declarations, DeclarationOk Ok d

theorem file_seen (keeps : KeepsBodies F Ok norm) {blanks : Nat → Nat → Bool} {f : File β} (ok : FileOk Ok f) {br : Bool} {out : List Char}
    (hl : Layout (fileDoc F width blanks f) 0 br out) :
    ∃ iss dss, List.Forall₂ ImportToks (sortBy (·.module) f.imports) iss ∧
      List.Forall₂ (DeclarationToks F norm) f.declarations dss ∧
      Seen eof out (iss.flatten ++ dss.flatten) [] ∧ out.head? ≠ some byteOrderMark := by
  obtain ⟨is, ds⟩ := f
  obtain ⟨ok1, ok2⟩ := ok
  unfold fileDoc at hl
  obtain ⟨x, y, rfl, e1, e2⟩ := layout_append hl
  cases e2
  have e1 := layout_concat e1
  simp only at e1 ok1 ok2 ⊢
  have hend : Seen eof (List.replicate 1 '\n' ++ List.replicate (0 : Int).toNat ' ') [] [] := seen_newline
  cases is with
  | nil =>
    obtain ⟨dss, h1, h2, h3⟩ := declarations_seen (eof := eof) keeps ds ok2 e1
    refine ⟨[], dss, .nil, h1, ?_, ?_⟩
    · have := Seen.append (rest := []) (h2 []) hend
      simpa using this
    · rcases h3 with rfl | ⟨c, r, rfl, hb, _⟩
      · decide
      · simpa using hb
  | cons i is =>
    obtain ⟨a, b, rfl, e2, e3⟩ := e1
    obtain ⟨dss, h1, h2, h3⟩ := declarations_seen (eof := eof) keeps ds ok2 e3
    have h4 : ∃ r, b ++ (List.replicate 1 '\n' ++ List.replicate (0 : Int).toNat ' ') = '\n' :: r := by
      rcases h3 with rfl | ⟨c, r, rfl, _, hc⟩
      · exact ⟨_, rfl⟩
      · rw [hc rfl]; exact ⟨_, rfl⟩
    obtain ⟨r, h4⟩ := h4
    obtain ⟨iss, h5, h6, r2, rfl⟩ := importGroup_seen (eof := eof) (by simp) ok1 e2 r
    refine ⟨iss, dss, h5, h1, ?_, by simp [byteOrderMark]⟩
    have h7 := Seen.append (rest := []) (h2 []) hend
    rw [List.append_nil, h4] at h7
    have h8 := Seen.append (rest := []) (by simpa using h6) h7
    rw [List.append_assoc, h4]
    exact h8

end
end Verif.Format
