import Verif.Comments.Spec

/-
**C37**: comments are attributed to the right place.
-/
namespace Verif.Comments

/-- The binary search of the standard library keeps its promise. -/
theorem searchLoop_spec {α : Type} (cmp : α → Ordering) (list : List α)
    (hs : list.Pairwise fun a b => (cmp a = .gt → cmp b = .gt) ∧ (cmp b = .lt → cmp a = .lt)) (base size : Nat)
    (hlen : base + size ≤ list.length) (x : α) (j : Nat) (hj : list[j]? = some x) (hx : cmp x = .eq)
    (hb : base < list.length) (hlo : base = 0 ∨ ∃ y, list[base]? = some y ∧ cmp y ≠ .gt)
    (hhi : ∀ k y, base + size ≤ k → list[k]? = some y → cmp y = .gt) (hsz : 0 < size) :
    ∃ y, list[searchLoop cmp list base size]? = some y ∧ cmp y = .eq ∧
      ∀ (k : Nat) (z : α), searchLoop cmp list base size < k → list[k]? = some z → cmp z = .gt := by
  have order : ∀ (a b : Nat) (ya yb : α), a < b → list[a]? = some ya → list[b]? = some yb →
      (cmp ya = .gt → cmp yb = .gt) ∧ (cmp yb = .lt → cmp ya = .lt) := by
    intro a b ya yb hab h1 h2
    obtain ⟨ha', rfl⟩ := List.getElem?_eq_some_iff.mp h1
    obtain ⟨hb', rfl⟩ := List.getElem?_eq_some_iff.mp h2
    exact List.pairwise_iff_getElem.mp hs a b ha' hb' hab
  induction base, size using searchLoop.induct (cmp := cmp) (list := list) with
  | case1 base size h =>
    unfold searchLoop
    rw [if_pos h]
    have hs1 : size = 1 := by omega
    subst hs1
    have hjb : j ≤ base := by
      by_cases hc : base + 1 ≤ j
      · have := hhi j x hc hj; rw [hx] at this; cases this
      · omega
    refine ⟨list[base], List.getElem?_eq_getElem hb, ?_, fun k z hk hz => hhi k z hk hz⟩
    rcases Nat.lt_or_eq_of_le hjb with hlt | rfl
    · have h1 := order j base x _ hlt hj (List.getElem?_eq_getElem hb)
      rcases hlo with rfl | ⟨y, hy, hy'⟩
      · omega
      · rw [List.getElem?_eq_getElem hb] at hy
        cases hy
        cases hc : cmp list[base] with
        | lt => have := h1.2 hc; rw [hx] at this; cases this
        | eq => rfl
        | gt => exact absurd hc hy'
    · rw [List.getElem?_eq_getElem hb] at hj
      cases hj; exact hx
  | case2 base size h hn =>
    rw [List.getElem?_eq_none_iff] at hn
    omega
  | case3 base size h y hy ih =>
    unfold searchLoop
    rw [if_neg h, hy]
    simp only
    by_cases hg : cmp y = .gt
    · simp only [hg, if_true, dif_pos] at ih ⊢
      apply ih (by omega) hb hlo ?_ (by omega)
      intro k z hk hz
      rcases Nat.lt_or_eq_of_le (show base + size / 2 ≤ k by omega) with hlt | rfl
      · exact (order _ k y z hlt hy hz).1 hg
      · rw [hy] at hz; cases hz; exact hg
    · simp only [hg, if_false, dite_false] at ih ⊢
      apply ih (by omega) (by omega) (.inr ⟨y, hy, hg⟩) ?_ (by omega)
      intro k z hk hz
      exact hhi k z (by omega) hz

/-- The standard library's algorithm is one of the searches the theorems below are about. -/
theorem binarySearch_isSearch : IsSearch binarySearch where
  found := by
    intro cmp list i h
    unfold binarySearch at h
    cases hx : list[searchLoop cmp list 0 list.length]? with
    | none => simp [hx] at h
    | some x =>
      simp only [hx] at h
      split at h
      · rename_i he
        cases h
        exact ⟨x, hx, he⟩
      · cases h
  finds := by
    intro cmp list hs ⟨x, hm, hx⟩
    obtain ⟨j, hj, rfl⟩ := List.getElem_of_mem hm
    obtain ⟨y, h1, h2, -⟩ := searchLoop_spec cmp list hs 0 list.length (by omega) _ j (List.getElem?_eq_getElem hj) hx (by omega)
      (.inl rfl) (fun k z hk hz => by have := (List.getElem?_eq_some_iff.mp hz).1; omega) (by omega)
    exact ⟨_, by simp only [binarySearch, h1, h2, if_true]; rfl⟩

theorem compareRange_eq (start stop : Nat) (c : Span) : compareRange start stop c = .eq ↔ Overlaps c start stop := by
  unfold compareRange Overlaps
  split
  · simp; omega
  · split <;> simp <;> omega

theorem compareIndex_eq (i : Nat) (c : Span) : compareIndex i c = .eq ↔ Overlaps c i i := by
  unfold compareIndex Overlaps
  split
  · simp; omega
  · split <;> simp <;> omega

theorem compareRange_sorted (comments : List Span) (h : InOrder comments) (start stop : Nat) (hr : start ≤ stop) :
    comments.Pairwise fun a b => (compareRange start stop a = .gt → compareRange start stop b = .gt) ∧
      (compareRange start stop b = .lt → compareRange start stop a = .lt) := by
  refine h.1.imp_of_mem ?_
  intro a b ha hb hab
  have := h.2 a ha
  have := h.2 b hb
  unfold compareRange
  constructor
  · intro hg
    split at hg
    · cases hg
    · split at hg
      · rw [if_neg (by omega), if_pos (by omega)]
      · cases hg
  · intro hl
    split at hl
    · rw [if_pos (by omega)]
    · split at hl <;> cases hl

theorem compareIndex_sorted (comments : List Span) (h : InOrder comments) (i : Nat) :
    comments.Pairwise fun a b => (compareIndex i a = .gt → compareIndex i b = .gt) ∧
      (compareIndex i b = .lt → compareIndex i a = .lt) := by
  refine h.1.imp_of_mem ?_
  intro a b ha hb hab
  have := h.2 a ha
  have := h.2 b hb
  unfold compareIndex
  constructor
  · intro hg
    split at hg
    · rw [if_pos (by omega)]
    · split at hg <;> cases hg
  · intro hl
    split at hl
    · cases hl
    · split at hl
      · rw [if_neg (by omega), if_pos (by omega)]
      · cases hl

/-- Of two comments in order the earlier one in the list is the one further left. -/
theorem inOrder_lt (comments : List Span) (h : InOrder comments) (i j : Nat) (a b : Span) (hij : i < j)
    (ha : comments[i]? = some a) (hb : comments[j]? = some b) : a.stop < b.start := by
  obtain ⟨ha', rfl⟩ := List.getElem?_eq_some_iff.mp ha
  obtain ⟨hb', rfl⟩ := List.getElem?_eq_some_iff.mp hb
  exact List.pairwise_iff_getElem.mp h.1 i j ha' hb' hij

/-- Going back from a comment that overlaps while comments overlap ends at the first one that does. -/
theorem takeWhile_first (comments : List Span) (h : InOrder comments) (start stop : Nat) (i : Nat) (x : Span)
    (hx : comments[i]? = some x) (hov : Overlaps x start stop) :
    ∃ c, ((comments.take (i + 1)).reverse.takeWhile fun c => decide (c.stop ≥ start ∧ c.start ≤ stop)).getLast? = some c ∧
      IsFirst comments start stop c := by
  have hxo : decide (x.stop ≥ start ∧ x.start ≤ stop) = true := by simpa using ⟨hov.2, hov.1⟩
  induction i generalizing x with
  | zero =>
    obtain ⟨hlt, rfl⟩ := List.getElem?_eq_some_iff.mp hx
    have : comments.take 1 = [comments[0]] := by
      cases comments with
      | nil => simp at hlt
      | cons c cs => simp
    simp only [Nat.zero_add, this, List.reverse_singleton, List.takeWhile_cons, hxo, if_true, List.takeWhile_nil,
      List.getLast?_singleton]
    refine ⟨_, rfl, List.getElem_mem hlt, hov, fun d hd _ => ?_⟩
    obtain ⟨k, hk, rfl⟩ := List.getElem_of_mem hd
    rcases Nat.eq_zero_or_pos k with rfl | hpos
    · exact Nat.le_refl _
    · have := inOrder_lt comments h 0 k _ _ hpos hx (List.getElem?_eq_getElem hk)
      have := h.2 _ (List.getElem_mem hlt)
      omega
  | succ i ih =>
    obtain ⟨hlt, hxe⟩ := List.getElem?_eq_some_iff.mp hx
    have hi : i < comments.length := by omega
    have htake : (comments.take (i + 1 + 1)).reverse = x :: (comments.take (i + 1)).reverse := by
      rw [List.take_add_one, hx]
      simp
    have htake' : (comments.take (i + 1)).reverse = comments[i] :: (comments.take i).reverse := by
      rw [List.take_add_one, List.getElem?_eq_getElem hi]
      simp
    rw [htake, List.takeWhile_cons, hxo, if_pos rfl]
    by_cases hprev : decide (comments[i].stop ≥ start ∧ comments[i].start ≤ stop) = true
    · obtain ⟨c, h1, h2⟩ := ih comments[i] (List.getElem?_eq_getElem hi) (by simp at hprev; exact ⟨hprev.2, hprev.1⟩) hprev
      refine ⟨c, ?_, h2⟩
      rw [List.getLast?_cons, h1]
      rfl
    · refine ⟨x, ?_, List.mem_of_getElem? hx, hov, fun d hd hdo => ?_⟩
      · rw [htake', List.takeWhile_cons, if_neg hprev]
        rfl
      · obtain ⟨k, hk, rfl⟩ := List.getElem_of_mem hd
        rcases Nat.lt_trichotomy k (i + 1) with hlt' | rfl | hgt
        · exfalso
          have hki : k ≤ i := by omega
          have hov' : decide (comments[i].stop ≥ start ∧ comments[i].start ≤ stop) = true := by
            have h3 := h.2 _ (List.getElem_mem hi)
            have h4 := inOrder_lt comments h i (i + 1) _ _ (by omega) (List.getElem?_eq_getElem hi) hx
            have h5 := h.2 _ (List.getElem_mem hk)
            rcases Nat.lt_or_eq_of_le hki with h6 | rfl
            · have h7 := inOrder_lt comments h k i _ _ h6 (List.getElem?_eq_getElem hk) (List.getElem?_eq_getElem hi)
              have := hdo.1; have := hdo.2; have := hov.1; have := hov.2
              simp only [decide_eq_true_eq]; omega
            · simp only [decide_eq_true_eq]; exact ⟨hdo.2, hdo.1⟩
          exact hprev hov'
        · rw [hxe]; exact Nat.le_refl _
        · have := inOrder_lt comments h (i + 1) k _ _ hgt hx (List.getElem?_eq_getElem hk)
          have := h.2 x (List.mem_of_getElem? hx)
          omega

/-- **C37, first comment.** For comments in order the first comment between two positions is the first one in the text that
overlaps them, none being given exactly if none does; whichever overlapping comment the binary search happens to find. -/
theorem firstBetween_correct (search : Search) (hsearch : IsSearch search) (comments : List Span) (h : InOrder comments)
    (start stop : Nat) (hr : start ≤ stop) :
    (∀ c, firstBetween search comments start stop = some c ↔ IsFirst comments start stop c) ∧
    (hasBetween search comments start stop = true ↔ ∃ c ∈ comments, Overlaps c start stop) := by
  have hfirst : (∃ c ∈ comments, Overlaps c start stop) →
      ∃ c, firstBetween search comments start stop = some c ∧ IsFirst comments start stop c := by
    rintro ⟨x, hx, hov⟩
    obtain ⟨i, hi⟩ := hsearch.finds (compareRange start stop) comments (compareRange_sorted comments h start stop hr)
      ⟨x, hx, (compareRange_eq _ _ _).mpr hov⟩
    obtain ⟨y, hy, hye⟩ := hsearch.found _ _ _ hi
    obtain ⟨c, h1, h2⟩ := takeWhile_first comments h start stop i y hy ((compareRange_eq _ _ _).mp hye)
    exact ⟨c, by simp only [firstBetween, hi]; exact h1, h2⟩
  have hsound : ∀ c, firstBetween search comments start stop = some c → ∃ c ∈ comments, Overlaps c start stop := by
    intro c hc
    cases hi : search (compareRange start stop) comments with
    | none => simp [firstBetween, hi] at hc
    | some i =>
      obtain ⟨y, hy, hye⟩ := hsearch.found _ _ _ hi
      exact ⟨y, List.mem_of_getElem? hy, (compareRange_eq _ _ _).mp hye⟩
  constructor
  · intro c
    constructor
    · intro hc
      obtain ⟨d, hd, hd'⟩ := hfirst (hsound c hc)
      rw [hc] at hd; cases hd; exact hd'
    · intro hc
      obtain ⟨d, hd, hd'⟩ := hfirst ⟨c, hc.1, hc.2.1⟩
      rw [hd]
      have h1 := hc.2.2 d hd'.1 hd'.2.1
      have h2 := hd'.2.2 c hc.1 hc.2.1
      obtain ⟨i, hi, rfl⟩ := List.getElem_of_mem hc.1
      obtain ⟨j, hj, rfl⟩ := List.getElem_of_mem hd'.1
      rcases Nat.lt_trichotomy i j with hlt | rfl | hlt
      · have := inOrder_lt comments h i j _ _ hlt (List.getElem?_eq_getElem hi) (List.getElem?_eq_getElem hj)
        have := h.2 _ (List.getElem_mem hi)
        omega
      · rfl
      · have := inOrder_lt comments h j i _ _ hlt (List.getElem?_eq_getElem hj) (List.getElem?_eq_getElem hi)
        have := h.2 _ (List.getElem_mem hj)
        omega
  · rw [hasBetween, Option.isSome_iff_exists]
    constructor
    · rintro ⟨c, hc⟩; exact hsound c hc
    · intro hex; obtain ⟨c, hc, -⟩ := hfirst hex; exact ⟨c, hc⟩

/-- The comments of the tests in `extra.rs`, and one more. -/
def sampleComments : List Span := [⟨0, 10⟩, ⟨20, 30⟩, ⟨40, 50⟩, ⟨60, 70⟩, ⟨80, 90⟩]

theorem sampleComments_inOrder : InOrder sampleComments := by
  constructor
  · decide
  · decide

example : IsSearch binarySearch ∧ InOrder sampleComments ∧ IsFirst sampleComments 25 65 ⟨20, 30⟩ :=
  ⟨binarySearch_isSearch, sampleComments_inOrder, by
    refine ⟨by decide, ⟨by decide, by decide⟩, ?_⟩
    intro d hd
    simp only [sampleComments, List.mem_cons, List.not_mem_nil, or_false] at hd
    rcases hd with rfl | rfl | rfl | rfl | rfl <;> simp [Overlaps]⟩

/-- **C37, whether a position is in a comment.** Exactly if some comment of one of the three kinds covers it. -/
theorem isWithin_correct (search : Search) (hsearch : IsSearch search) (comments docs modules : List Span) (h1 : InOrder comments)
    (h2 : InOrder docs) (h3 : InOrder modules) (i : Nat) :
    isWithin search comments docs modules i = true ↔ ∃ c ∈ comments ++ docs ++ modules, c.start ≤ i ∧ i ≤ c.stop := by
  have key : ∀ l, InOrder l → ((search (compareIndex i) l).isSome = true ↔ ∃ c ∈ l, c.start ≤ i ∧ i ≤ c.stop) := by
    intro l hl
    rw [Option.isSome_iff_exists]
    constructor
    · rintro ⟨k, hk⟩
      obtain ⟨y, hy, hye⟩ := hsearch.found _ _ _ hk
      exact ⟨y, List.mem_of_getElem? hy, (compareIndex_eq _ _).mp hye⟩
    · rintro ⟨c, hc, hov⟩
      exact hsearch.finds _ _ (compareIndex_sorted l hl i) ⟨c, hc, (compareIndex_eq _ _).mpr hov⟩
  simp only [isWithin, Bool.or_eq_true, key _ h1, key _ h2, key _ h3, List.mem_append]
  constructor
  · rintro ((⟨c, hc, h⟩ | ⟨c, hc, h⟩) | ⟨c, hc, h⟩)
    · exact ⟨c, .inl (.inl hc), h⟩
    · exact ⟨c, .inl (.inr hc), h⟩
    · exact ⟨c, .inr hc, h⟩
  · rintro ⟨c, (hc | hc) | hc, h⟩
    · exact .inl (.inl ⟨c, hc, h⟩)
    · exact .inl (.inr ⟨c, hc, h⟩)
    · exact .inr ⟨c, hc, h⟩

theorem lastLoop_last (comments : List Span) (h : InOrder comments) (start stop : Nat)
    (hin : ∀ c ∈ comments, Overlaps c start stop → Inside c start stop) (i : Nat) (x : Span) (hx : comments[i]? = some x)
    (hov : Overlaps x start stop) : ∃ c, lastLoop comments start stop i = some c ∧ IsLast comments start stop c := by
  induction i using lastLoop.induct (comments := comments) (start := start) (stop := stop) generalizing x with
  | case1 i hnone =>
    have this : lastLoop comments start stop i = comments[i]? := by
      unfold lastLoop
      split
      · rfl
      · simp_all
    refine ⟨x, ?_, List.mem_of_getElem? hx, hov, fun d hd _ => ?_⟩
    · rw [this]; exact hx
    · obtain ⟨k, hk, rfl⟩ := List.getElem_of_mem hd
      rw [List.getElem?_eq_none_iff] at hnone
      rcases Nat.lt_or_eq_of_le (show k ≤ i by omega) with hlt | rfl
      · have := inOrder_lt comments h k i _ _ hlt (List.getElem?_eq_getElem hk) hx
        have := h.2 _ (List.getElem_mem hk)
        omega
      · rw [List.getElem?_eq_getElem hk] at hx; cases hx; exact Nat.le_refl _
  | case2 i next hnext hcond ih =>
    obtain ⟨c, h1, h2⟩ := ih next hnext ⟨by have := h.2 next (List.mem_of_getElem? hnext); omega, by
      have := h.2 next (List.mem_of_getElem? hnext); omega⟩
    refine ⟨c, ?_, h2⟩
    unfold lastLoop
    split
    · simp_all
    · rename_i next' hnext'
      rw [hnext] at hnext'
      cases hnext'
      rw [if_pos hcond]; exact h1
  | case3 i next hnext hcond =>
    refine ⟨x, ?_, List.mem_of_getElem? hx, hov, fun d hd hdo => ?_⟩
    · unfold lastLoop
      split
      · exact hx
      · rename_i next' hnext'
        rw [hnext] at hnext'
        cases hnext'
        rw [if_neg hcond]; exact hx
    · obtain ⟨k, hk, rfl⟩ := List.getElem_of_mem hd
      rcases Nat.lt_trichotomy k i with hlt | rfl | hgt
      · have := inOrder_lt comments h k i _ _ hlt (List.getElem?_eq_getElem hk) hx
        have := h.2 _ (List.getElem_mem hk)
        omega
      · rw [List.getElem?_eq_getElem hk] at hx; cases hx; exact Nat.le_refl _
      · exfalso
        have hnm := List.mem_of_getElem? hnext
        have hnl := h.2 next hnm
        have hxn := inOrder_lt comments h i (i + 1) _ _ (by omega) hx hnext
        have hxl := h.2 x (List.mem_of_getElem? hx)
        rcases Nat.lt_or_eq_of_le (show i + 1 ≤ k by omega) with h5 | rfl
        · have h6 := inOrder_lt comments h (i + 1) k _ _ h5 hnext (List.getElem?_eq_getElem hk)
          have := hin next hnm ⟨by have := hdo.1; omega, by have := hov.2; omega⟩
          exact hcond this
        · rw [List.getElem?_eq_getElem hk] at hnext
          cases hnext
          exact hcond (hin _ hnm hdo)

/-- **C37, last comment, any search.** If comments are in order and those that overlap the range lie in it, the last comment between
two positions is the last one that overlaps the range, whichever comment the search finds. For ranges that end within a comment this
takes more than `binary_search_by` promises, see `lastBetween_needs_last`. -/
theorem lastBetween_any_search (search : Search) (hsearch : IsSearch search) (comments : List Span) (h : InOrder comments)
    (start stop : Nat) (hr : start ≤ stop) (hin : ∀ c ∈ comments, Overlaps c start stop → Inside c start stop) (c : Span) :
    lastBetween search comments start stop = some c ↔ IsLast comments start stop c := by
  have hlast : (∃ c ∈ comments, Overlaps c start stop) →
      ∃ c, lastBetween search comments start stop = some c ∧ IsLast comments start stop c := by
    rintro ⟨x, hx, hov⟩
    obtain ⟨i, hi⟩ := hsearch.finds (compareRange start stop) comments (compareRange_sorted comments h start stop hr)
      ⟨x, hx, (compareRange_eq _ _ _).mpr hov⟩
    obtain ⟨y, hy, hye⟩ := hsearch.found _ _ _ hi
    obtain ⟨c, h1, h2⟩ := lastLoop_last comments h start stop hin i y hy ((compareRange_eq _ _ _).mp hye)
    exact ⟨c, by simp only [lastBetween, hi]; exact h1, h2⟩
  constructor
  · intro hc
    cases hi : search (compareRange start stop) comments with
    | none => simp [lastBetween, hi] at hc
    | some i =>
      obtain ⟨y, hy, hye⟩ := hsearch.found _ _ _ hi
      obtain ⟨d, hd, hd'⟩ := hlast ⟨y, List.mem_of_getElem? hy, (compareRange_eq _ _ _).mp hye⟩
      rw [hc] at hd; cases hd; exact hd'
  · intro hc
    obtain ⟨d, hd, hd'⟩ := hlast ⟨c, hc.1, hc.2.1⟩
    rw [hd]
    have h1 := hc.2.2 d hd'.1 hd'.2.1
    have h2 := hd'.2.2 c hc.1 hc.2.1
    obtain ⟨i, hi, rfl⟩ := List.getElem_of_mem hc.1
    obtain ⟨j, hj, rfl⟩ := List.getElem_of_mem hd'.1
    rcases Nat.lt_trichotomy i j with hlt | rfl | hlt
    · have := inOrder_lt comments h i j _ _ hlt (List.getElem?_eq_getElem hi) (List.getElem?_eq_getElem hj)
      have := h.2 _ (List.getElem_mem hi)
      omega
    · rfl
    · have := inOrder_lt comments h j i _ _ hlt (List.getElem?_eq_getElem hj) (List.getElem?_eq_getElem hi)
      have := h.2 _ (List.getElem_mem hj)
      omega

/-- Between 15 and 75 all comments that overlap lie in the range. -/
example : IsLast sampleComments 15 75 ⟨60, 70⟩ ∧ ∀ c ∈ sampleComments, Overlaps c 15 75 → Inside c 15 75 := by
  refine ⟨⟨by decide, ⟨by decide, by decide⟩, ?_⟩, ?_⟩
  all_goals
    intro d hd
    simp only [sampleComments, List.mem_cons, List.not_mem_nil, or_false] at hd
    rcases hd with rfl | rfl | rfl | rfl | rfl <;> simp [Overlaps, Inside]

/-- The comment found by the standard library's search is the last one that overlaps. -/
theorem binarySearch_last (comments : List Span) (h : InOrder comments) (start stop : Nat) (hr : start ≤ stop) (i : Nat)
    (hi : binarySearch (compareRange start stop) comments = some i) :
    ∀ (k : Nat) (d : Span), i < k → comments[k]? = some d → compareRange start stop d = .gt := by
  obtain ⟨y, hy, hye⟩ := binarySearch_isSearch.found _ _ _ hi
  obtain ⟨hlt, -⟩ := List.getElem?_eq_some_iff.mp hy
  obtain ⟨-, -, -, h3⟩ := searchLoop_spec (compareRange start stop) comments (compareRange_sorted comments h start stop hr) 0
    comments.length (by omega) y i hy hye (by omega) (.inl rfl)
    (fun k z hk hz => by have := (List.getElem?_eq_some_iff.mp hz).1; omega) (by omega)
  unfold binarySearch at hi
  split at hi
  · cases hi
  · split at hi
    · cases hi; exact h3
    · cases hi

/-- **C37, last comment.** With the standard library's binary search, the last comment between two positions is the last one in the
text that overlaps them, none being given exactly if none does. -/
theorem lastBetween_correct (comments : List Span) (h : InOrder comments) (start stop : Nat) (hr : start ≤ stop) (c : Span) :
    lastBetween binarySearch comments start stop = some c ↔ IsLast comments start stop c := by
  have key : ∀ i x, binarySearch (compareRange start stop) comments = some i → comments[i]? = some x → Overlaps x start stop →
      lastLoop comments start stop i = some x ∧ IsLast comments start stop x := by
    intro i x hi hx hov
    have hgt := binarySearch_last comments h start stop hr i hi
    constructor
    · unfold lastLoop
      split
      · exact hx
      · rename_i next hnext
        have := hgt (i + 1) next (by omega) hnext
        have hl := h.2 next (List.mem_of_getElem? hnext)
        rw [if_neg, hx]
        unfold compareRange at this
        split at this
        · cases this
        · split at this
          · omega
          · cases this
    · refine ⟨List.mem_of_getElem? hx, hov, fun d hd hdo => ?_⟩
      obtain ⟨k, hk, rfl⟩ := List.getElem_of_mem hd
      rcases Nat.lt_trichotomy k i with hlt | rfl | hlt
      · have := inOrder_lt comments h k i _ _ hlt (List.getElem?_eq_getElem hk) hx
        have := h.2 _ (List.getElem_mem hk)
        omega
      · rw [List.getElem?_eq_getElem hk] at hx; cases hx; exact Nat.le_refl _
      · have := hgt k _ hlt (List.getElem?_eq_getElem hk)
        rw [(compareRange_eq _ _ _).mpr hdo] at this
        cases this
  constructor
  · intro hc
    cases hi : binarySearch (compareRange start stop) comments with
    | none => simp [lastBetween, hi] at hc
    | some i =>
      obtain ⟨y, hy, hye⟩ := binarySearch_isSearch.found _ _ _ hi
      obtain ⟨h1, h2⟩ := key i y hi hy ((compareRange_eq _ _ _).mp hye)
      simp only [lastBetween, hi, h1, Option.some.injEq] at hc
      rw [← hc]; exact h2
  · intro hc
    obtain ⟨i, hi⟩ := binarySearch_isSearch.finds (compareRange start stop) comments (compareRange_sorted comments h start stop hr)
      ⟨c, hc.1, (compareRange_eq _ _ _).mpr hc.2.1⟩
    obtain ⟨y, hy, hye⟩ := binarySearch_isSearch.found _ _ _ hi
    obtain ⟨h1, hd'⟩ := key i y hi hy ((compareRange_eq _ _ _).mp hye)
    simp only [lastBetween, hi, h1, Option.some.injEq]
    have h1 := hc.2.2 y hd'.1 hd'.2.1
    have h2 := hd'.2.2 c hc.1 hc.2.1
    obtain ⟨i, hi, rfl⟩ := List.getElem_of_mem hc.1
    obtain ⟨j, hj, rfl⟩ := List.getElem_of_mem hd'.1
    rcases Nat.lt_trichotomy i j with hlt | rfl | hlt
    · have := inOrder_lt comments h i j _ _ hlt (List.getElem?_eq_getElem hi) (List.getElem?_eq_getElem hj)
      have := h.2 _ (List.getElem_mem hi)
      omega
    · rfl
    · have := inOrder_lt comments h j i _ _ hlt (List.getElem?_eq_getElem hj) (List.getElem?_eq_getElem hi)
      have := h.2 _ (List.getElem_mem hj)
      omega

example : lastBetween binarySearch sampleComments 15 45 = some ⟨40, 50⟩ := by
  simp [lastBetween, binarySearch, searchLoop, compareRange, lastLoop, sampleComments]
  rfl

/-- Another search that keeps the promise of `binary_search_by`: the first element that matches. -/
def firstSearch : Search := fun cmp list => list.findIdx? fun x => decide (cmp x = .eq)

theorem firstSearch_isSearch : IsSearch firstSearch where
  found := by
    intro cmp list i h
    obtain ⟨hlt, h1, -⟩ := List.findIdx?_eq_some_iff_getElem.mp h
    exact ⟨_, List.getElem?_eq_getElem hlt, by simpa using h1⟩
  finds := by
    rintro cmp list - ⟨x, hx, hx'⟩
    cases h : firstSearch cmp list with
    | some i => exact ⟨i, rfl⟩
    | none =>
      have := List.findIdx?_eq_none_iff.mp h x hx
      simp [hx'] at this

/-- The code relies on more than what is promised: with a search that finds the first match, the last comment between two positions
would not be found when the range ends within it. -/
theorem lastBetween_needs_last : IsSearch firstSearch ∧
    lastBetween firstSearch [⟨20, 30⟩, ⟨40, 50⟩] 15 45 = some ⟨20, 30⟩ ∧ IsLast [⟨20, 30⟩, ⟨40, 50⟩] 15 45 ⟨40, 50⟩ := by
  refine ⟨firstSearch_isSearch, ?_, by decide, ⟨by decide, by decide⟩, ?_⟩
  · simp [lastBetween, firstSearch, compareRange, lastLoop, List.findIdx?_cons]
    rfl
  · intro d hd
    simp only [List.mem_cons, List.not_mem_nil, or_false] at hd
    rcases hd with rfl | rfl <;> simp [Overlaps]

end Verif.Comments
