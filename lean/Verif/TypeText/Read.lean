import Verif.TypeText.Name
import Verif.TypeText.Parse

/-!
# The text of a type is read
-/
namespace Verif.TypeText
open Lexer Lexer.Spec

section
variable {nt : Name → Name → Option Name × Name} {nv : Nat → Name} {env : Env} {world : World}

theorem name_start {n : Name} (h : Reads (.name n) n) : ∃ c r, n = c :: r ∧ c.utf8Size = 1 :=
  reads_start h ⟨rfl, by simp⟩

theorem text_start : (t : Ty) → (t.All fun m n _ => PartsOk (nt m n)) → (∀ i ∈ t.vars, Reads (.name (nv i)) (nv i)) →
    ∃ c r, textOf nt nv t = c :: r ∧ c.utf8Size = 1
  | .named m n ts, ha, _ => by
    rw [Ty.All] at ha
    obtain ⟨h1, h2⟩ := ha.1
    have : ∃ c r, writtenName (nt m n) = c :: r ∧ c.utf8Size = 1 := by
      unfold writtenName
      cases hq : (nt m n).1 with
      | none => exact reads_start h2 ⟨rfl, by simp⟩
      | some q =>
        obtain ⟨c, r, h3, h4⟩ := name_start (h1 q hq)
        exact ⟨c, r ++ '.' :: (nt m n).2, by simp [h3], h4⟩
    obtain ⟨c, r, h3, h4⟩ := this
    exact ⟨c, _, by rw [textOf, h3, List.cons_append], h4⟩
  | .fn ts r, _, _ => ⟨'f', _, by rw [textOf]; rfl, rfl⟩
  | .tuple ts, _, _ => ⟨'#', _, by rw [textOf]; rfl, rfl⟩
  | .var i, _, hv => by
    rw [textOf]
    exact name_start (hv i (by simp [Ty.vars]))
  | .link t, ha, hv => by
    rw [Ty.All] at ha
    rw [textOf]
    exact text_start t ha fun i hi => hv i (by rw [Ty.vars]; exact hi)

theorem text_tokens (t : Ty) (ha : t.All fun m n _ => PartsOk (nt m n)) (hv : ∀ i ∈ t.vars, Reads (.name (nv i)) (nv i)) :
    (tokens (textOf nt nv t)).1.map (·.token) = tokensOf nt nv t ∧ (tokens (textOf nt nv t)).2 = none := by
  have hb : body (textOf nt nv t) = (0, textOf nt nv t) := by
    obtain ⟨c, r, h1, h2⟩ := text_start t ha hv
    rw [h1]
    show (if c = byteOrderMark then _ else _) = _
    rw [if_neg]
    rintro rfl
    revert h2
    decide
  have hn := new_eq (textOf nt nv t)
  rw [hb] at hn
  have hl := lexes_type (eof := endOffset (textOf nt nv t)) (rest := []) (fun c hc => by cases hc) t ha hv
  obtain ⟨h1, h2⟩ := hl 0 (by rw [List.append_nil]; exact hn.2)
  rw [lexes_end h1, List.append_nil, List.append_nil] at h2
  unfold Left at h2
  unfold tokens makeTokenizer
  rw [hn.1]
  exact ⟨congrArg Prod.fst h2, congrArg Prod.snd h2⟩

theorem text_read {P : Name → Name → Nat → Prop} (t : Ty) (ha : t.All P)
    (hP : ∀ m n k, P m n k → Denotes env world nt m n k ∧ PartsOk (nt m n))
    (hv : ∀ i ∈ t.vars, Reads (.name (nv i)) (nv i)) (h : Hydrator) (ok : HydratorOk h) (hp : h.permitNew = true) :
    ∃ t' h', readType env world h (textOf nt nv t) = some (t', h') ∧ HydratorOk h' ∧ Grows h h' ∧
      (∀ i ∈ t.vars, ∃ j, h'.created.lookup (nv i) = some j) ∧ t'.strip = t.rename (numbers h' nv) := by
  obtain ⟨t', h', h1, h2⟩ := reads_type (nv := nv) t (all_mono (fun m n k hk => (hP m n k hk).1) t ha) h ok hp
  refine ⟨t', h', ?_, h2⟩
  obtain ⟨g1, g2⟩ := text_tokens (nv := nv) t (all_mono (fun m n k hk => (hP m n k hk).2) t ha) hv
  unfold readType
  generalize tokens (textOf nt nv t) = r at g1 g2
  obtain ⟨ts, e⟩ := r
  cases g2
  simp only at g1 ⊢
  have hlen : ts.length = (tokensOf nt nv t).length := by rw [← g1, List.length_map]
  have h3 := parses_type (nt := nt) (nv := nv) (rest := []) (by simp [Follows]) t (2 * ts.length + 2) (by omega)
  rw [List.append_nil] at h3
  rw [g1, h3]
  exact h1

end
end Verif.TypeText
