import Verif.Format.FileSeen

/-!
# The tokens of a file are read as its normal form, and a file that is read can be written
-/
namespace Verif.Format
open Verif.Lexer Verif.Lexer.Spec Verif.Format.Spec Verif.TypeText
open Verif.Pretty (Doc)

variable {β : Type} {F : BodyFormat β} {Ok : β → Prop} {norm : β → β}

theorem allToks_head (a : Attributes) : allToks a = [] ∨ ∃ r, allToks a = .symbol .at_ :: r := by
  obtain ⟨t, dep, erl, js, int⟩ := a
  rcases t with _ | t
  · cases dep with
    | some d => exact .inr ⟨_, rfl⟩
    | none =>
      cases erl with
      | some e => exact .inr ⟨_, rfl⟩
      | none =>
        cases js with
        | some j => exact .inr ⟨_, rfl⟩
        | none =>
          cases int with
          | true => exact .inr ⟨_, rfl⟩
          | false => exact .inl rfl
  · cases t <;> exact .inr ⟨_, rfl⟩

/-- What a formatted declaration is read as. -/
def normalDeclaration (norm : β → β) : Declaration β → Declaration β
  | .type_ d => .type_ (normalDefinition d)
  | .function s body => .function (normalSignature s) (body.map norm)
  | .constant c => .constant (normalConstant c)

/-- The keywords that a declaration starts with. -/
def StartsDeclaration (k : Keyword) : Prop := k = .pub_ ∨ k = .opaque_ ∨ k = .type_ ∨ k = .fn_ ∨ k = .const_

theorem declarationToks_head {d : Declaration β} {ks : List Token} (h : DeclarationToks F norm d ks) :
    (∃ k r, ks = .keyword k :: r ∧ StartsDeclaration k) ∨ ∃ r, ks = .symbol .at_ :: r := by
  cases d with
  | type_ d =>
    obtain ⟨attributes, d⟩ := d
    obtain ⟨a, h1, rfl⟩ := h
    rcases allToks_head attributes with e | ⟨r, e⟩
    · left
      simp only [e, List.nil_append]
      have : ∀ isPublic isOpaque rest, ∃ k r, headToks isPublic isOpaque ++ rest = .keyword k :: r ∧ StartsDeclaration k := by
        intro isPublic isOpaque rest
        cases isPublic <;> cases isOpaque <;> exact ⟨_, _, rfl, by simp [StartsDeclaration]⟩
      cases d with
      | custom => obtain ⟨ps, body, rfl, _⟩ := h1; exact this _ _ _
      | alias_ => obtain ⟨ps, body, rfl, _⟩ := h1; exact this _ _ _
    · right
      simp only [e]
      exact ⟨_, rfl⟩
  | function s body =>
    obtain ⟨a, b, ⟨ps, r, _, _, rfl⟩, rfl, _⟩ := h
    rcases allToks_head s.attributes with e | ⟨r, e⟩
    · left
      rw [e]
      cases s.isPublic <;> exact ⟨_, _, rfl, by simp [StartsDeclaration]⟩
    · right
      rw [e]
      exact ⟨_, rfl⟩
  | constant c =>
    obtain ⟨a, ⟨t, _, rfl⟩, rfl⟩ := h
    rcases allToks_head c.attributes with e | ⟨r, e⟩
    · left
      rw [e]
      cases c.isPublic <;> exact ⟨_, _, rfl, by simp [StartsDeclaration]⟩
    · right
      rw [e]
      exact ⟨_, rfl⟩

theorem function_not_type {d : TypeDef} {a : Attributes} {ks rest : List Token} (h : TypeDefToks d ks) :
    parseFunction (allToks a ++ ks ++ rest) = none := by
  have : ∀ isPublic isOpaque more, parseFunction (allToks a ++ (headToks isPublic isOpaque ++ more)) = none := by
    intro isPublic isOpaque more
    unfold parseFunction
    rw [reads_attributes a (by cases isPublic <;> cases isOpaque <;> simp [headToks])]
    cases isPublic <;> cases isOpaque <;> rfl
  cases d with
  | custom => obtain ⟨ps, body, rfl, _⟩ := h; rw [List.append_assoc, List.append_assoc]; exact this _ _ _
  | alias_ => obtain ⟨ps, body, rfl, _⟩ := h; rw [List.append_assoc, List.append_assoc]; exact this _ _ _

theorem constant_not_type {d : TypeDef} {a : Attributes} {ks rest : List Token} (h : TypeDefToks d ks) :
    parseConstant (allToks a ++ ks ++ rest) = none := by
  have : ∀ isPublic isOpaque more, parseConstant (allToks a ++ (headToks isPublic isOpaque ++ more)) = none := by
    intro isPublic isOpaque more
    unfold parseConstant
    rw [reads_attributes a (by cases isPublic <;> cases isOpaque <;> simp [headToks])]
    cases isPublic <;> cases isOpaque <;> rfl
  cases d with
  | custom => obtain ⟨ps, body, rfl, _⟩ := h; rw [List.append_assoc, List.append_assoc]; exact this _ _ _
  | alias_ => obtain ⟨ps, body, rfl, _⟩ := h; rw [List.append_assoc, List.append_assoc]; exact this _ _ _

theorem function_not_constant {c : ModuleConstant} {ks rest : List Token} (h : ConstToks c ks) :
    parseFunction (allToks c.attributes ++ ks ++ rest) = none := by
  obtain ⟨t, _, rfl⟩ := h
  unfold parseFunction
  cases c.isPublic with
  | false =>
    simp only [Bool.false_eq_true, if_false, List.nil_append, List.append_assoc, List.cons_append]
    rw [reads_attributes _ (by simp)]
  | true =>
    simp only [if_true, List.nil_append, List.append_assoc, List.cons_append]
    rw [reads_attributes _ (by simp)]

theorem reads_declaration {d : Declaration β} (ok : DeclarationOk Ok d) {ks rest : List Token}
    (h : DeclarationToks F norm d ks) (hr : NextDef rest) :
    parseDeclaration F (ks ++ rest) = some (normalDeclaration norm d, rest) := by
  cases d with
  | type_ d =>
    obtain ⟨a, h1, rfl⟩ := h
    unfold parseDeclaration
    rw [function_not_type h1, constant_not_type h1, reads_definition ok h1 hr]
    rfl
  | constant c =>
    obtain ⟨a, h1, rfl⟩ := h
    unfold parseDeclaration
    rw [function_not_constant h1, reads_constant ok h1 hr]
    rfl
  | function s body =>
    obtain ⟨a, b, h1, rfl, hb⟩ := h
    cases body with
    | none =>
      have hb : b = [] := hb
      subst hb
      rw [List.append_nil]
      have h2 := reads_signature ok.1 h1 (nextDef_after hr)
        (by rcases hr with rfl | ⟨k, r, rfl⟩ | ⟨r, rfl⟩ <;> simp)
      unfold parseDeclaration
      rw [h2]
      rcases hr with rfl | ⟨k, r, rfl⟩ | ⟨r, rfl⟩ <;> rfl
    | some body =>
      obtain ⟨bs, h3, rfl⟩ := hb
      have h2 := reads_signature ok.1 h1 (rest := .symbol .leftBrace :: (bs ++ .symbol .rightBrace :: rest))
        (after_symbol (by simp)) (by simp)
      have e : allToks s.attributes ++ (a ++ .symbol .leftBrace :: (bs ++ [.symbol .rightBrace])) ++ rest =
          allToks s.attributes ++ a ++ .symbol .leftBrace :: (bs ++ .symbol .rightBrace :: rest) := by simp
      unfold parseDeclaration
      rw [e, h2]
      simp only
      rw [h3]
      rfl

theorem declarations_next {ds : List (Declaration β)} {kss : List (List Token)}
    (h : List.Forall₂ (DeclarationToks F norm) ds kss) :
    kss.flatten = [] ∨ (∃ k r, kss.flatten = .keyword k :: r ∧ StartsDeclaration k) ∨ ∃ r, kss.flatten = .symbol .at_ :: r := by
  cases h with
  | nil => exact .inl rfl
  | cons h _ =>
    rw [List.flatten_cons]
    rcases declarationToks_head h with ⟨k, r, rfl, hk⟩ | ⟨r, rfl⟩
    · exact .inr (.inl ⟨k, _, rfl, hk⟩)
    · exact .inr (.inr ⟨_, rfl⟩)

theorem reads_declarations : {ds : List (Declaration β)} → (∀ d ∈ ds, DeclarationOk Ok d) →
    ∀ {kss : List (List Token)} {fuel : Nat}, List.Forall₂ (DeclarationToks F norm) ds kss → ds.length < fuel →
    parseDeclarations F fuel kss.flatten = some (ds.map (normalDeclaration norm))
  | [], _, _, fuel, .nil, hf => by
    obtain ⟨k, rfl⟩ : ∃ k, fuel = k + 1 := ⟨fuel - 1, by simp at hf; omega⟩
    rfl
  | d :: ds, ok, ks :: kss, fuel, .cons h1 h2, hf => by
    obtain ⟨k, rfl⟩ : ∃ k, fuel = k + 1 := ⟨fuel - 1, by omega⟩
    have hn : NextDef kss.flatten := by
      rcases declarations_next h2 with e | ⟨k, r, e, _⟩ | ⟨r, e⟩
      · exact .inl e
      · exact .inr (.inl ⟨k, r, e⟩)
      · exact .inr (.inr ⟨r, e⟩)
    have h3 := reads_declaration (ok d (by simp)) h1 hn
    have h4 := reads_declarations (fun e he => ok e (by simp [he])) h2 (fuel := k) (by simp at hf; omega)
    rw [parseDeclarations.eq_def, List.flatten_cons]
    simp only
    split
    · next e =>
      exfalso
      rcases declarationToks_head h1 with ⟨_, _, rfl, _⟩ | ⟨_, rfl⟩ <;> cases e
    · rw [h3]
      simp only
      rw [h4]
      rfl

theorem reads_file {f : File β} (ok : FileOk Ok f) {iss dss : List (List Token)}
    (h1 : List.Forall₂ ImportToks (sortBy (·.module) f.imports) iss) 
    (h2 : List.Forall₂ (DeclarationToks F norm) f.declarations dss) :
    parseFile F (iss.flatten ++ dss.flatten) =
      some ⟨(sortBy (·.module) f.imports).map normalImport, f.declarations.map (normalDeclaration norm)⟩ := by
  have hi : ∀ {js : List Import} {kss : List (List Token)}, List.Forall₂ ImportToks js kss → js.length ≤ kss.flatten.length := by
    intro js kss h
    induction h with
    | nil => simp
    | cons h _ ih =>
      obtain ⟨tail, rfl⟩ := importToks_head h
      rw [List.flatten_cons]
      simp only [List.length_cons, List.length_append]
      omega
  have hd : ∀ {ds : List (Declaration β)} {kss : List (List Token)}, List.Forall₂ (DeclarationToks F norm) ds kss →
      ds.length ≤ kss.flatten.length := by
    intro ds kss h
    induction h with
    | nil => simp
    | cons h _ ih =>
      rw [List.flatten_cons]
      rcases declarationToks_head h with ⟨k, r, rfl, _⟩ | ⟨r, rfl⟩ <;>
        (simp only [List.length_cons, List.length_append]; omega)
  have h3 : AfterImport dss.flatten ∧ dss.flatten.head? ≠ some (.keyword .import_) := by
    rcases declarations_next h2 with e | ⟨k, r, e, hk⟩ | ⟨r, e⟩
    · rw [e]; simp [AfterImport]
    · rw [e]
      rcases hk with rfl | rfl | rfl | rfl | rfl <;> simp [AfterImport]
    · rw [e]; simp [AfterImport]
  have h4 := reads_imports (fun i hi => ok.1 i (sortBy_mem.1 hi)) (rest := dss.flatten)
    (fuel := (iss.flatten ++ dss.flatten).length + 1) h1 h3.1 h3.2 (by have := hi h1; simp only [List.length_append]; omega)
  have h5 := reads_declarations ok.2 (fuel := dss.flatten.length + 1) h2 (by have := hd h2; omega)
  unfold parseFile
  rw [h4]
  simp only
  rw [h5]
  rfl

/-! ### What is read can be written -/

theorem parseDeclaration_ok (keeps : KeepsBodies F Ok norm) {ks : List Token} (h : Spelled ks) {d : Declaration β}
    {rest : List Token} (e : parseDeclaration F ks = some (d, rest)) : DeclarationOk Ok d ∧ Spelled rest := by
  unfold parseDeclaration at e
  split at e
  · next e1 =>
    have h1 := parseFunction_ok h e1
    split at e
    · split at e
      · next e2 =>
        cases e
        have h2 := keeps.ok _ _ _ (spelled_cons h1.2).2 e2
        exact ⟨⟨h1.1, fun b e => by cases e; exact h2.1⟩, (spelled_cons h2.2).2⟩
      · cases e
    · cases e
      exact ⟨⟨h1.1, by simp⟩, h1.2⟩
  · split at e
    · next e1 =>
      cases e
      exact parseConstant_ok h e1
    · obtain ⟨q, e2, e3⟩ := Option.map_eq_some_iff.1 e
      cases e3
      exact parseDefinition_ok h e2

theorem parseDeclarations_ok (keeps : KeepsBodies F Ok norm) : (fuel : Nat) → ∀ {ks : List Token}, Spelled ks →
    ∀ {ds : List (Declaration β)}, parseDeclarations F fuel ks = some ds → ∀ d ∈ ds, DeclarationOk Ok d
  | 0, _, _, _, e => by cases e
  | fuel + 1, ks, h, ds, e => by
    rw [parseDeclarations.eq_def] at e
    simp only at e
    split at e
    · cases e
      simp
    · split at e
      · cases e
      · next e1 =>
        have h1 := parseDeclaration_ok keeps h e1
        obtain ⟨q, e2, e3⟩ := Option.map_eq_some_iff.1 e
        cases e3
        intro d hd
        rcases List.mem_cons.1 hd with rfl | hd
        · exact h1.1
        · exact parseDeclarations_ok keeps fuel h1.2 e2 d hd

theorem read_file_ok (keeps : KeepsBodies F Ok norm) {source : List Char} {f : File β} (h : readFile F source = some f) :
    FileOk Ok f := by
  have hg : Spelled (visible ((tokens source).1.map (·.token))) := by
    intro k hk
    obtain ⟨h1, h2⟩ := List.mem_filter.1 hk
    obtain ⟨t, ht, rfl⟩ := List.mem_map.1 h1
    obtain ⟨x, hx, _⟩ := span_of_token_is_its_text source t ht (by cases hk : t.token <;> simp_all [Inner])
    exact ⟨x, hx⟩
  unfold readFile at h
  generalize tokens source = r at h hg
  obtain ⟨ts, e⟩ := r
  cases e with
  | some e => cases h
  | none =>
    have h : parseFile F (visible (ts.map (·.token))) = some f := h
    unfold parseFile at h
    split at h
    · cases h
    · next e1 =>
      have h1 := parseImports_ok _ hg e1
      obtain ⟨q, e2, e3⟩ := Option.map_eq_some_iff.1 h
      cases e3
      exact ⟨h1.2, parseDeclarations_ok keeps _ h1.1 e2⟩

end Verif.Format
