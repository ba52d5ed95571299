import Verif.Uid.Model

/-
**C43**: generated ids are unique.
-/
namespace Verif.Uid

/-- The ids a counter hands out from some point of a history on are those following its value. -/
theorem run_ids (events : List Event) (s : State) (c : Nat) :
    (∀ v, s.counters[c]? = some v →
      ((run s events).filter fun r => r.1 == c).map (·.2) =
        (List.range ((run s events).filter fun r => r.1 == c).length).map fun i => v + UInt64.ofNat i) ∧
    (s.counters[c]? = none →
      ((run s events).filter fun r => r.1 == c).map (·.2) =
        (List.range ((run s events).filter fun r => r.1 == c).length).map fun i => UInt64.ofNat i) := by
  induction events generalizing s with
  | nil => simp [run]
  | cons e events ih =>
    cases e with
    | new =>
      obtain ⟨ih1, ih2⟩ := ih { handles := s.handles ++ [s.counters.length], counters := s.counters ++ [0] }
      simp only [run, step, Option.toList_none, List.nil_append]
      constructor
      · intro v hv
        apply ih1
        obtain ⟨h1, h2⟩ := List.getElem?_eq_some_iff.mp hv
        rw [List.getElem?_append_left h1, hv]
      · intro hn
        rw [List.getElem?_eq_none_iff] at hn
        by_cases h : c = s.counters.length
        · have := ih1 0 (by simp [h])
          simpa using this
        · apply ih2
          rw [List.getElem?_eq_none_iff]
          simp only [List.length_append, List.length_singleton]
          omega
    | clone h =>
      simp only [run, step]
      split
      · rename_i d _
        simpa using ih { s with handles := s.handles ++ [d] }
      · simpa using ih s
    | next h =>
      simp only [run, step]
      split
      · simpa using ih s
      · rename_i d hd
        split
        · simpa using ih s
        · rename_i v hv
          obtain ⟨hlt, hval⟩ := List.getElem?_eq_some_iff.mp hv
          obtain ⟨ih1, ih2⟩ := ih { s with counters := s.counters.set d (v + 1) }
          simp only [Option.toList_some, List.singleton_append]
          by_cases hcd : d = c
          · subst hcd
            constructor
            · intro v' hv'
              rw [hv] at hv'
              cases hv'
              have := ih1 (v + 1) (by simp [hlt])
              simp only [List.filter_cons, beq_self_eq_true, if_true, List.map_cons, List.length_cons, this]
              rw [List.range_succ_eq_map]
              simp only [List.map_cons, List.map_map, List.cons.injEq]
              refine ⟨by simp, ?_⟩
              apply List.map_congr_left
              intro i _
              simp only [Function.comp_apply, Nat.succ_eq_add_one, UInt64.ofNat_add]
              rw [UInt64.add_assoc, UInt64.add_comm 1]
              rfl
            · intro hn; rw [hv] at hn; cases hn
          · have hne : ((d, v).1 == c) = false := by simpa using hcd
            simp only [List.filter_cons, hne, Bool.false_eq_true, if_false]
            constructor
            · intro v' hv'; exact ih1 v' (by simp [List.getElem?_set, hcd, hv'])
            · intro hn; exact ih2 (by simp [List.getElem?_set, hcd, hn])

/-- **C43.** In any history of making, cloning and using generators, the ids that come from one generator and its clones are
pairwise different, for fewer than 2^64 requests in all. -/
theorem ids_unique (events : List Event) (c : Nat) (hlen : (run {} events).length < 2 ^ 64) :
    (((run {} events).filter fun r => r.1 == c).map (·.2)).Nodup := by
  rw [(run_ids events {} c).2 rfl]
  have hl : ((run {} events).filter fun r => r.1 == c).length < 2 ^ 64 := Nat.lt_of_le_of_lt (List.length_filter_le ..) hlen
  generalize ((run {} events).filter fun r => r.1 == c).length = n at hl
  rw [List.Nodup, List.pairwise_map]
  refine List.pairwise_lt_range.imp_of_mem ?_
  intro a b ha hb hab hc
  rw [List.mem_range] at ha hb
  have := congrArg UInt64.toNat hc
  rw [UInt64.toNat_ofNat', UInt64.toNat_ofNat', Nat.mod_eq_of_lt (by omega), Nat.mod_eq_of_lt (by omega)] at this
  omega

/-- Two generators, one cloned. -/
example : run {} [.new, .next 0, .clone 0, .next 1, .new, .next 2, .next 0] = [(0, 0), (0, 1), (1, 0), (0, 2)] := by
  decide +kernel

end Verif.Uid
