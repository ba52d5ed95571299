import Verif.Fields.Spec
import Mathlib.Data.List.Induction
import Mathlib.Data.List.Nodup

namespace Verif.Fields
variable {α : Type}

/-- The position declared for an argument's label, with the argument. -/
def posOf (fm : FieldMap) (a : CallArg α) : Option (Nat × CallArg α) :=
  match a.label with
  | none => none
  | some l => (fm.fields.lookup l).map (·, a)

def known (fm : FieldMap) (a : CallArg α) : Bool := (posOf fm a).isSome

def knownLabel (fm : FieldMap) (a : CallArg α) : Option String :=
  if known fm a then a.label else none

theorem knownLabel_cases (fm : FieldMap) (a : CallArg α) : knownLabel fm a = none ∨ knownLabel fm a = a.label := by
  unfold knownLabel; split <;> simp

def unknownLabel (fm : FieldMap) (a : CallArg α) : Option String :=
  if known fm a then none else a.label

def Inj (fm : FieldMap) : Prop :=
  ∀ l l' p, fm.fields.lookup l = some p → fm.fields.lookup l' = some p → l = l'

theorem collect_ok (fm : FieldMap) (hinj : Inj fm) (pre : List (CallArg α)) :
    ∀ (post : List (CallArg α)) (lab : List (Nat × CallArg α)) (seen unk : List String),
    (pre.filterMap (knownLabel fm)).Nodup → (∀ l ∈ pre.filterMap (knownLabel fm), l ∉ seen) →
    (∀ e ∈ lab, ∃ l ∈ seen, fm.fields.lookup l = some e.1) →
    collectLoop fm pre.length ⟨pre ++ post, lab, seen, unk⟩ =
      .ok ⟨pre.filter (fun a => !known fm a) ++ post, pre.filterMap (posOf fm) ++ lab,
        pre.filterMap (knownLabel fm) ++ seen, unk ++ (pre.filterMap (unknownLabel fm)).reverse⟩ := by
  induction pre using List.reverseRecOn with
  | nil => intro post lab seen unk _ _ _; simp [collectLoop]
  | append_singleton xs x ih =>
    intro post lab seen unk hnd hdis hinv
    have hget : (xs ++ [x] ++ post)[xs.length]? = some x := by simp
    rw [List.length_append, List.length_singleton, collectLoop, hget]
    rw [List.filterMap_append, List.nodup_append] at hnd
    have hdis1 : ∀ l ∈ xs.filterMap (knownLabel fm), l ∉ seen := fun l hl =>
      hdis l (by rw [List.filterMap_append]; exact List.mem_append_left _ hl)
    cases hl : x.label with
    | none =>
      have hk : posOf fm x = none := by simp [posOf, hl]
      have := ih (x :: post) lab seen unk hnd.1 hdis1 hinv
      simp only [hl, List.append_assoc, List.singleton_append]
      rw [this]
      simp [known, knownLabel, unknownLabel, hk, hl]
    | some l =>
      simp only [hl]
      cases hp : fm.fields.lookup l with
      | none =>
        have hk : posOf fm x = none := by simp [posOf, hl, hp]
        have := ih (x :: post) lab seen (unk ++ [l]) hnd.1 hdis1 hinv
        simp only [hp, List.append_assoc, List.singleton_append] at this ⊢
        rw [this]
        simp [known, knownLabel, unknownLabel, hk, hl]
      | some p =>
        have hk : posOf fm x = some (p, x) := by simp [posOf, hl, hp]
        have hkl : knownLabel fm x = some l := by simp [knownLabel, known, hk, hl]
        have hlseen : l ∉ seen := hdis l (by simp [List.filterMap_append, hkl])
        have hc : seen.contains l = false := by simpa using hlseen
        have herase : (xs ++ [x] ++ post).eraseIdx xs.length = xs ++ post := by
          rw [List.append_assoc, List.eraseIdx_append_of_length_le (by simp)]
          simp
        have hfilter : lab.filter (fun e => e.1 != p) = lab := by
          rw [List.filter_eq_self]
          intro e he
          obtain ⟨l', hl', hp'⟩ := hinv e he
          simp only [bne_iff_ne, ne_eq]
          intro hh
          rw [hh] at hp'
          exact hlseen (hinj l' l p hp' hp ▸ hl')
        simp only [hp, hc, Bool.false_eq_true, if_false, herase, hfilter]
        rw [ih post ((p, x) :: lab) (l :: seen) unk hnd.1 ?_ ?_]
        · simp [List.filterMap_append, List.filter_append, known, hk, hkl, unknownLabel]
        · intro l' hl' hm
          rcases List.mem_cons.1 hm with rfl | hm
          · exact hnd.2.2 l' hl' l' (by simp [hkl]) rfl
          · exact hdis1 l' hl' hm
        · intro e he
          rcases List.mem_cons.1 he with rfl | he
          · exact ⟨l, List.mem_cons_self .., hp⟩
          · obtain ⟨l', h1, h2⟩ := hinv e he
            exact ⟨l', List.mem_cons_of_mem _ h1, h2⟩

theorem collect_err (fm : FieldMap) (pre : List (CallArg α)) :
    ∀ (post : List (CallArg α)) (lab : List (Nat × CallArg α)) (seen unk : List String),
    ¬ ((pre.filterMap (knownLabel fm)).Nodup ∧ (∀ l ∈ pre.filterMap (knownLabel fm), l ∉ seen)) →
    ∃ l ∈ pre.filterMap (knownLabel fm), (l ∈ seen ∨ 2 ≤ (pre.filterMap (knownLabel fm)).count l) ∧
      collectLoop fm pre.length ⟨pre ++ post, lab, seen, unk⟩ = .error (.duplicateArgument l) := by
  induction pre using List.reverseRecOn with
  | nil => intro post lab seen unk h; simp at h
  | append_singleton xs x ih =>
    intro post lab seen unk h
    have hget : (xs ++ [x] ++ post)[xs.length]? = some x := by simp
    rw [List.length_append, List.length_singleton, collectLoop, hget]
    rw [List.filterMap_append] at h ⊢
    cases hl : x.label with
    | none =>
      have hk : posOf fm x = none := by simp [posOf, hl]
      have hkl : knownLabel fm x = none := by simp [knownLabel, hl]
      obtain ⟨l', hm, hs, he⟩ := ih (x :: post) lab seen unk (by simpa [hkl] using h)
      exact ⟨l', by simp only [List.mem_append]; exact Or.inl hm, hs.imp_right (fun h => by rw [List.count_append]; omega), by simpa [hl] using he⟩
    | some l =>
      simp only [hl]
      cases hp : fm.fields.lookup l with
      | none =>
        have hkl : knownLabel fm x = none := by simp [knownLabel, known, posOf, hl, hp]
        obtain ⟨l', hm, hs, he⟩ := ih (x :: post) lab seen (unk ++ [l]) (by simpa [hkl] using h)
        exact ⟨l', by simp only [List.mem_append]; exact Or.inl hm, hs.imp_right (fun h => by rw [List.count_append]; omega), by simpa [hl, hp] using he⟩
      | some p =>
        have hkl : knownLabel fm x = some l := by simp [knownLabel, known, posOf, hl, hp]
        by_cases hc : seen.contains l = true
        · simp only [hp, hc, if_true]
          exact ⟨l, by simp [hkl], Or.inl (by simpa using hc), rfl⟩
        · have herase : (xs ++ [x] ++ post).eraseIdx xs.length = xs ++ post := by
            rw [List.append_assoc, List.eraseIdx_append_of_length_le (by simp)]
            simp
          simp only [hp, hc, Bool.false_eq_true, if_false, herase]
          obtain ⟨l', hm, hs, he⟩ := ih post ((p, x) :: lab.filter (fun e => e.1 != p)) (l :: seen) unk (by
            rintro ⟨h1, h2⟩
            apply h
            have hs : List.filterMap (knownLabel fm) [x] = [l] := by simp [hkl]
            rw [hs]
            refine ⟨?_, ?_⟩
            · rw [List.nodup_append]
              refine ⟨h1, by simp, ?_⟩
              intro a ha b hb
              simp at hb; subst hb
              intro hab; subst hab
              exact h2 a ha (by simp)
            · intro l' hl'
              rcases List.mem_append.1 hl' with h' | h'
              · intro hm; exact h2 l' h' (List.mem_cons_of_mem _ hm)
              · simp at h'; subst h'; simpa using hc)
          refine ⟨l', by simp only [List.mem_append]; exact Or.inl hm, ?_, he⟩
          rcases hs with hs | hs
          · rcases List.mem_cons.1 hs with rfl | hs
            · right
              rw [List.count_append]
              have := List.count_pos_iff.2 hm
              have h2 : List.count l' (List.filterMap (knownLabel fm) [x]) = 1 := by simp [hkl]
              omega
            · exact Or.inl hs
          · right; rw [List.count_append]; omega

/-! ### Reinsertion -/

/-- The list the reinsertion loop builds. -/
def fill (lab : List (Nat × CallArg α)) : (i n : Nat) → List (CallArg α) → List (CallArg α)
  | _, 0, rest => rest
  | i, n + 1, rest =>
    match lab.lookup i, rest with
    | some a, _ => a :: fill lab (i + 1) n rest
    | none, [] => []
    | none, r :: rs => r :: fill lab (i + 1) n rs

theorem insertIdx_length {β : Type} (l r : List β) (a : β) : (l ++ r).insertIdx l.length a = l ++ a :: r := by
  induction l with
  | nil => simp
  | cons x l ih => simp [ih]

theorem reinsert_eq (lab : List (Nat × CallArg α)) (n : Nat) :
    ∀ (i : Nat) (done rest : List (CallArg α)), done.length = i →
      rest.length + ((List.range' i n).filterMap (fun k => lab.lookup k)).length = n →
      reinsert lab i n (done ++ rest) = .ok (done ++ fill lab i n rest) := by
  induction n with
  | zero => intro i done rest _ _; simp [reinsert, fill]
  | succ n ih =>
    intro i done rest hd hr
    rw [List.range'_succ] at hr
    unfold reinsert fill
    cases hl : lab.lookup i with
    | some a =>
      simp only [List.filterMap_cons, hl, List.length_cons] at hr
      have hle : i ≤ (done ++ rest).length := by simp; omega
      simp only [hle, if_true]
      have : (done ++ rest).insertIdx i a = (done ++ [a]) ++ rest := by
        subst hd
        rw [insertIdx_length]; simp
      rw [this, ih (i + 1) (done ++ [a]) rest (by simp [hd]) (by omega)]
      simp
    | none =>
      simp only [List.filterMap_cons, hl] at hr
      cases rest with
      | nil =>
        have := List.length_filterMap_le (fun k => lab.lookup k) (List.range' (i + 1) n)
        simp only [List.length_range'] at this
        simp at hr; omega
      | cons r rs =>
        have := ih (i + 1) (done ++ [r]) rs (by simp [hd]) (by simp at hr; omega)
        simp only [List.append_assoc, List.singleton_append] at this
        simp only [this]

theorem fill_perm (lab : List (Nat × CallArg α)) (n : Nat) : ∀ (i : Nat) (rest : List (CallArg α)),
    rest.length + ((List.range' i n).filterMap (fun k => lab.lookup k)).length = n →
    (fill lab i n rest).Perm (rest ++ (List.range' i n).filterMap (fun k => lab.lookup k)) := by
  induction n with
  | zero => intro i rest _; simp [fill]
  | succ n ih =>
    intro i rest hr
    rw [List.range'_succ] at hr ⊢
    unfold fill
    cases hl : lab.lookup i with
    | some a =>
      simp only [List.filterMap_cons, hl, List.length_cons] at hr ⊢
      exact ((ih (i + 1) rest (by omega)).cons a).trans List.perm_middle.symm
    | none =>
      simp only [List.filterMap_cons, hl] at hr ⊢
      cases rest with
      | nil =>
        have := List.length_filterMap_le (fun k => lab.lookup k) (List.range' (i + 1) n)
        simp only [List.length_range'] at this
        simp at hr; omega
      | cons r rs => exact (ih (i + 1) rs (by simp at hr; omega)).cons r

theorem fill_get (lab : List (Nat × CallArg α)) (n : Nat) : ∀ (i : Nat) (rest : List (CallArg α)),
    rest.length + ((List.range' i n).filterMap (fun k => lab.lookup k)).length = n →
    ∀ (j : Nat) a, j < n → lab.lookup (i + j) = some a → (fill lab i n rest)[j]? = some a := by
  induction n with
  | zero => intro i rest _ j a hj; omega
  | succ n ih =>
    intro i rest hr j a hj hla
    rw [List.range'_succ] at hr
    unfold fill
    cases hl : lab.lookup i with
    | some b =>
      simp only [List.filterMap_cons, hl, List.length_cons] at hr ⊢
      cases j with
      | zero => simp at hla; rw [hl] at hla; simpa using hla
      | succ j =>
        rw [List.getElem?_cons_succ]
        exact ih (i + 1) rest (by omega) j a (by omega) (by rw [← hla]; congr 1; omega)
    | none =>
      simp only [List.filterMap_cons, hl] at hr ⊢
      cases rest with
      | nil =>
        have := List.length_filterMap_le (fun k => lab.lookup k) (List.range' (i + 1) n)
        simp only [List.length_range'] at this
        simp at hr; omega
      | cons r rs =>
        cases j with
        | zero => simp at hla; rw [hl] at hla; cases hla
        | succ j =>
          simp only [List.getElem?_cons_succ]
          exact ih (i + 1) rs (by simp at hr; omega) j a (by omega) (by rw [← hla]; congr 1; omega)

theorem fill_filter (lab : List (Nat × CallArg α)) (q : CallArg α → Bool)
    (hq : ∀ k a, lab.lookup k = some a → q a = false) (n : Nat) :
    ∀ (i : Nat) (rest : List (CallArg α)),
    rest.length + ((List.range' i n).filterMap (fun k => lab.lookup k)).length = n →
    (fill lab i n rest).filter q = rest.filter q := by
  induction n with
  | zero => intro i rest _; simp [fill]
  | succ n ih =>
    intro i rest hr
    rw [List.range'_succ] at hr
    unfold fill
    cases hl : lab.lookup i with
    | some a =>
      simp only [List.filterMap_cons, hl, List.length_cons] at hr ⊢
      rw [List.filter_cons, hq i a hl]
      exact ih (i + 1) rest (by omega)
    | none =>
      simp only [List.filterMap_cons, hl] at hr ⊢
      cases rest with
      | nil => rfl
      | cons r rs =>
        simp only [List.filter_cons, ih (i + 1) rs (by simp at hr; omega)]

theorem lookup_of_mem {β : Type} (lab : List (Nat × β)) (hnd : (lab.map Prod.fst).Nodup) (k : Nat) (v : β)
    (h : (k, v) ∈ lab) : lab.lookup k = some v := by
  induction lab with
  | nil => simp at h
  | cons e lab ih =>
    obtain ⟨k', v'⟩ := e
    simp only [List.map_cons, List.nodup_cons] at hnd
    rw [List.lookup_cons]
    rcases List.mem_cons.1 h with h' | h'
    · cases h'; simp
    · have : k ≠ k' := by
        intro hk; subst hk; exact hnd.1 (List.mem_map.2 ⟨(k, v), h', rfl⟩)
      have hb : (k == k') = false := by simpa using this
      rw [hb]; exact ih hnd.2 h'

theorem mem_of_lookup {κ β : Type} [BEq κ] [LawfulBEq κ] (lab : List (κ × β)) (k : κ) (v : β) (h : lab.lookup k = some v) : (k, v) ∈ lab := by
  induction lab with
  | nil => simp at h
  | cons e lab ih =>
    obtain ⟨k', v'⟩ := e
    rw [List.lookup_cons] at h
    split at h
    · rename_i hk; simp at hk h; subst hk; subst h; exact List.mem_cons_self ..
    · exact List.mem_cons_of_mem _ (ih h)

theorem filterMap_lookup_perm {β : Type} (n : Nat) (lab : List (Nat × β)) (hnd : (lab.map Prod.fst).Nodup)
    (hlt : ∀ e ∈ lab, e.1 < n) : ((List.range n).filterMap (fun k => lab.lookup k)).Perm (lab.map Prod.snd) := by
  induction lab with
  | nil => simp
  | cons e lab ih =>
    obtain ⟨k, v⟩ := e
    simp only [List.map_cons, List.nodup_cons] at hnd
    have hk : k ∈ List.range n := List.mem_range.2 (hlt _ (List.mem_cons_self ..))
    obtain ⟨s, t, hst⟩ := List.append_of_mem hk
    have hrn : (List.range n).Nodup := List.nodup_range
    rw [hst] at hrn
    have hks : k ∉ s ∧ k ∉ t := by
      rw [List.nodup_append, List.nodup_cons] at hrn
      exact ⟨fun h => hrn.2.2 k h k (List.mem_cons_self ..) rfl, hrn.2.1.1⟩
    have hout : ∀ u : List Nat, k ∉ u → u.filterMap (fun x => ((k, v) :: lab).lookup x) = u.filterMap (fun k => lab.lookup k) := by
      intro u hu
      apply List.filterMap_congr
      intro x hx
      have : (x == k) = false := by simp; intro hh; exact hu (hh ▸ hx)
      rw [List.lookup_cons, this]
    have hkl : lab.lookup k = none := by
      cases h : lab.lookup k with
      | none => rfl
      | some w =>
        exact absurd (List.mem_map_of_mem (f := Prod.fst) (mem_of_lookup lab k w h)) hnd.1
    have ih := ih hnd.2 (fun e he => hlt e (List.mem_cons_of_mem _ he))
    rw [hst] at ih ⊢
    rw [List.filterMap_append, List.filterMap_cons, hkl] at ih
    rw [List.filterMap_append, List.filterMap_cons, hout s hks.1, hout t hks.2]
    simp only [List.lookup_cons, beq_self_eq_true, List.map_cons]
    exact List.perm_middle.trans (ih.cons v)

theorem filter_known_perm (fm : FieldMap) (args : List (CallArg α)) :
    (args.filter (fun a => !known fm a) ++ (args.filterMap (posOf fm)).map Prod.snd).Perm args := by
  induction args with
  | nil => simp
  | cons a as ih =>
    cases h : posOf fm a with
    | none =>
      have hk : known fm a = false := by simp [known, h]
      simp only [List.filter_cons, hk, List.filterMap_cons, h]
      exact ih.cons a
    | some e =>
      have hk : known fm a = true := by simp [known, h]
      have he : e.2 = a := by
        unfold posOf at h
        split at h
        · cases h
        · simp at h; obtain ⟨_, _, rfl⟩ := h; rfl
      simp only [List.filter_cons, hk, List.filterMap_cons, h, List.map_cons, he]
      exact List.perm_middle.trans (ih.cons a)

/-- A field map represents a declaration. -/
structure Represents (fm : FieldMap) (decl : List (Option String)) : Prop where
  arity : fm.arity = decl.length
  lookup : ∀ l (p : Nat), fm.fields.lookup l = some p ↔ decl[p]? = some (some l)
  keys : (fm.fields.map Prod.fst).Nodup

theorem Represents.inj {fm decl} (h : Represents fm decl) : Inj fm := by
  intro l l' p h1 h2
  rw [h.lookup] at h1 h2
  rw [h1] at h2; simpa using h2

theorem posOf_eq_some {fm : FieldMap} {a : CallArg α} {e} :
    posOf fm a = some e ↔ e.2 = a ∧ ∃ l, a.label = some l ∧ fm.fields.lookup l = some e.1 := by
  unfold posOf
  cases h : a.label with
  | none => simp
  | some l =>
    simp only [Option.map_eq_some_iff]
    constructor
    · rintro ⟨p, hp, rfl⟩; exact ⟨rfl, l, rfl, hp⟩
    · rintro ⟨h1, l', h2, h3⟩
      cases h2
      exact ⟨e.1, h3, by rw [← h1]⟩

theorem labelled_keys_nodup (fm : FieldMap) (hinj : Inj fm) (args : List (CallArg α))
    (hnd : (args.filterMap (knownLabel fm)).Nodup) :
    ((args.filterMap (posOf fm)).map Prod.fst).Nodup := by
  induction args with
  | nil => simp
  | cons a as ih =>
    cases h : posOf fm a with
    | none =>
      have hk : knownLabel fm a = none := by simp [knownLabel, known, h]
      simp only [List.filterMap_cons, hk, h] at hnd ⊢
      exact ih hnd
    | some e =>
      obtain ⟨h1, l, h2, h3⟩ := posOf_eq_some.1 h
      have hk : knownLabel fm a = some l := by simp [knownLabel, known, h, h2]
      simp only [List.filterMap_cons, hk, h, List.nodup_cons, List.map_cons] at hnd ⊢
      refine ⟨?_, ih hnd.2⟩
      intro hm
      obtain ⟨e', he', hee⟩ := List.mem_map.1 hm
      obtain ⟨b, hb, hpb⟩ := List.mem_filterMap.1 he'
      obtain ⟨h1', l', h2', h3'⟩ := posOf_eq_some.1 hpb
      rw [hee] at h3'
      have : l' = l := hinj l' l _ h3' h3
      subst this
      apply hnd.1
      apply List.mem_filterMap.2
      exact ⟨b, hb, by simp [knownLabel, known, hpb, h2']⟩

theorem reinsert_ok (fm : FieldMap) (decl) (hr : Represents fm decl) (args : List (CallArg α))
    (ha : fm.arity = args.length) (hnd : (args.filterMap (knownLabel fm)).Nodup) :
    ∃ result, reinsert (args.filterMap (posOf fm)) 0 args.length (args.filter (fun a => !known fm a)) = .ok result ∧
      result.Perm args ∧
      (∀ a ∈ args, ∀ l, a.label = some l → ∀ p : Nat, decl[p]? = some (some l) → result[p]? = some a) ∧
      result.filter (·.label.isNone) = args.filter (·.label.isNone) := by
  have hkn := labelled_keys_nodup fm hr.inj args hnd
  have hlt : ∀ e ∈ args.filterMap (posOf fm), e.1 < args.length := by
    intro e he
    obtain ⟨b, hb, hpb⟩ := List.mem_filterMap.1 he
    obtain ⟨_, l, _, h3⟩ := posOf_eq_some.1 hpb
    rw [hr.lookup] at h3
    have := (List.getElem?_eq_some_iff.1 h3).1
    have := hr.arity; omega
  have hperm := filterMap_lookup_perm args.length _ hkn hlt
  rw [List.range_eq_range'] at hperm
  have hfp := filter_known_perm fm args
  have hlen : (args.filter (fun a => !known fm a)).length +
      ((List.range' 0 args.length).filterMap (fun k => (args.filterMap (posOf fm)).lookup k)).length = args.length := by
    rw [hperm.length_eq, ← List.length_append, hfp.length_eq]
  refine ⟨fill (args.filterMap (posOf fm)) 0 args.length (args.filter (fun a => !known fm a)), ?_, ?_, ?_, ?_⟩
  · have := reinsert_eq (args.filterMap (posOf fm)) args.length 0 [] (args.filter (fun a => !known fm a)) rfl hlen
    simpa using this
  · exact (fill_perm _ _ _ _ hlen).trans ((hperm.append_left _).trans hfp)
  · intro a hm l hl p hp
    have hlk := (hr.lookup l p).2 hp
    have hpos : posOf fm a = some (p, a) := posOf_eq_some.2 ⟨rfl, l, hl, hlk⟩
    have hmem : (p, a) ∈ args.filterMap (posOf fm) := List.mem_filterMap.2 ⟨a, hm, hpos⟩
    exact fill_get _ _ _ _ hlen p a (hlt _ hmem) (by
      rw [Nat.zero_add]; exact lookup_of_mem _ hkn p a hmem)
  · rw [fill_filter _ (·.label.isNone) ?_ _ _ _ hlen, List.filter_filter]
    · apply List.filter_congr
      intro a _
      cases h : a.label <;> simp [known, posOf, h]
    · intro k a hk
      obtain ⟨b, hb, hpb⟩ := List.mem_filterMap.1 (mem_of_lookup _ k a hk)
      obtain ⟨h1, l, h2, _⟩ := posOf_eq_some.1 hpb
      simp only at h1; subst h1; simp [h2]

/-! ### Error conditions -/

theorem positionalCheck_iff (args : List (CallArg α)) (b : Bool) :
    positionalCheck b args = false ↔
      (b = true ∧ ∃ a ∈ args, a.label = none ∧ a.implicit = none) ∨ Spec.PositionalAfterLabelled args := by
  induction args generalizing b with
  | nil => simp [positionalCheck, Spec.PositionalAfterLabelled]
  | cons a as ih =>
    have shift : Spec.PositionalAfterLabelled (a :: as) ↔
        (a.label.isSome ∧ ∃ c ∈ as, c.label = none ∧ c.implicit = none) ∨ Spec.PositionalAfterLabelled as := by
      constructor
      · rintro ⟨i, j, hij, ⟨x, hx, hxl⟩, ⟨y, hy, hyl, hyi⟩⟩
        cases j with
        | zero => omega
        | succ j =>
          rw [List.getElem?_cons_succ] at hy
          cases i with
          | zero =>
            simp at hx; subst hx
            exact Or.inl ⟨hxl, y, List.mem_of_getElem? hy, hyl, hyi⟩
          | succ i =>
            rw [List.getElem?_cons_succ] at hx
            exact Or.inr ⟨i, j, by omega, ⟨x, hx, hxl⟩, ⟨y, hy, hyl, hyi⟩⟩
      · rintro (⟨h1, c, hc, h2, h3⟩ | ⟨i, j, hij, ⟨x, hx, hxl⟩, ⟨y, hy, hyl, hyi⟩⟩)
        · obtain ⟨j, hj⟩ := List.getElem?_of_mem hc
          exact ⟨0, j + 1, by omega, ⟨a, by simp, h1⟩, ⟨c, by simpa using hj, h2, h3⟩⟩
        · exact ⟨i + 1, j + 1, by omega, ⟨x, by simpa using hx, hxl⟩, ⟨y, by simpa using hy, hyl, hyi⟩⟩
    rw [shift]
    unfold positionalCheck
    cases hl : a.label with
    | some l =>
      simp only [ih, Option.isSome_some, true_and, List.mem_cons, exists_eq_or_imp, hl]
      simp
      grind
    | none =>
      cases hi : a.implicit with
      | some o => simp [CallArg.isImplicit, hi, ih, hl]
      | none =>
        cases b <;> simp [CallArg.isImplicit, hi, ih, hl]

theorem known_iff {fm : FieldMap} {decl} (hr : Represents fm decl) (a : CallArg α) (l : String)
    (hl : a.label = some l) : known fm a = true ↔ some l ∈ decl := by
  unfold known posOf
  simp only [hl, Option.isSome_map]
  constructor
  · intro h
    obtain ⟨p, hp⟩ := Option.isSome_iff_exists.1 h
    exact List.mem_of_getElem? ((hr.lookup l p).1 hp)
  · intro h
    obtain ⟨p, hp⟩ := List.getElem?_of_mem h
    rw [(hr.lookup l p).2 hp]; rfl

theorem knownLabel_eq_some {fm : FieldMap} {decl} (hr : Represents fm decl) (a : CallArg α) (l : String) :
    knownLabel fm a = some l ↔ a.label = some l ∧ some l ∈ decl := by
  unfold knownLabel
  constructor
  · intro h
    split at h
    · rename_i hk
      exact ⟨h, (known_iff hr a l h).1 hk⟩
    · cases h
  · rintro ⟨h1, h2⟩
    rw [if_pos ((known_iff hr a l h1).2 h2), h1]

theorem nodup_iff {fm : FieldMap} {decl} (hr : Represents fm decl) (args : List (CallArg α)) :
    ¬ (args.filterMap (knownLabel fm)).Nodup ↔ Spec.DuplicateLabel decl args := by
  induction args with
  | nil => simp [Spec.DuplicateLabel]
  | cons a as ih =>
    have shift : Spec.DuplicateLabel decl (a :: as) ↔
        (∃ l, a.label = some l ∧ some l ∈ decl ∧ ∃ b ∈ as, b.label = some l) ∨ Spec.DuplicateLabel decl as := by
      constructor
      · rintro ⟨i, j, hij, x, y, l, hx, hy, hxl, hyl, hd⟩
        cases j with
        | zero => omega
        | succ j =>
          rw [List.getElem?_cons_succ] at hy
          cases i with
          | zero => simp at hx; subst hx; exact Or.inl ⟨l, hxl, hd, y, List.mem_of_getElem? hy, hyl⟩
          | succ i =>
            rw [List.getElem?_cons_succ] at hx
            exact Or.inr ⟨i, j, by omega, x, y, l, hx, hy, hxl, hyl, hd⟩
      · rintro (⟨l, hl, hd, b, hb, hbl⟩ | ⟨i, j, hij, x, y, l, hx, hy, hxl, hyl, hd⟩)
        · obtain ⟨j, hj⟩ := List.getElem?_of_mem hb
          exact ⟨0, j + 1, by omega, a, b, l, by simp, by simpa using hj, hl, hbl, hd⟩
        · exact ⟨i + 1, j + 1, by omega, x, y, l, by simpa using hx, by simpa using hy, hxl, hyl, hd⟩
    rw [shift, ← ih, List.filterMap_cons]
    cases hk : knownLabel fm a with
    | none =>
      simp only
      constructor
      · exact Or.inr
      · rintro (⟨l, hl, hd, _⟩ | h)
        · rw [(knownLabel_eq_some hr a l).2 ⟨hl, hd⟩] at hk; cases hk
        · exact h
    | some l =>
      obtain ⟨hl, hd⟩ := (knownLabel_eq_some hr a l).1 hk
      simp only [List.nodup_cons, not_and_or, not_not, List.mem_filterMap]
      constructor
      · rintro (⟨b, hb, hbl⟩ | h)
        · exact Or.inl ⟨l, hl, hd, b, hb, ((knownLabel_eq_some hr b l).1 hbl).1⟩
        · exact Or.inr h
      · rintro (⟨l', hl', _, b, hb, hbl⟩ | h)
        · rw [hl] at hl'; cases hl'
          exact Or.inl ⟨b, hb, (knownLabel_eq_some hr b l).2 ⟨hbl, hd⟩⟩
        · exact Or.inr h

theorem unknown_iff {fm : FieldMap} {decl} (hr : Represents fm decl) (args : List (CallArg α)) (l : String) :
    l ∈ args.filterMap (unknownLabel fm) ↔ ∃ a ∈ args, a.label = some l ∧ some l ∉ decl := by
  rw [List.mem_filterMap]
  constructor
  · rintro ⟨a, ha, h⟩
    unfold unknownLabel at h
    split at h
    · cases h
    · rename_i hk
      exact ⟨a, ha, h, fun hd => hk ((known_iff hr a l h).2 hd)⟩
  · rintro ⟨a, ha, h, hd⟩
    refine ⟨a, ha, ?_⟩
    unfold unknownLabel
    rw [if_neg (fun hk => hd ((known_iff hr a l h).1 hk)), h]

/-! ### The builder -/

structure BuilderInv (b : Builder) (done : List (Option String)) : Prop where
  keys : (b.fieldMap.fields.map Prod.fst).Nodup
  index : b.index = done.length
  any : b.anyLabels = done.any Option.isSome
  lookup : ∀ l (p : Nat), b.fieldMap.fields.lookup l = some p ↔ done[p]? = some (some l)

theorem lookup_filter_ne (fs : List (String × Nat)) (l l' : String) (h : l' ≠ l) :
    (fs.filter (fun e => e.1 != l)).lookup l' = fs.lookup l' := by
  induction fs with
  | nil => rfl
  | cons e fs ih =>
    obtain ⟨k, v⟩ := e
    rw [List.filter_cons]
    by_cases hk : k = l
    · subst hk
      simp only [bne_self_eq_false, Bool.false_eq_true, if_false, ih, List.lookup_cons]
      have : (l' == k) = false := by simpa using h
      rw [this]
    · have : (k != l) = true := by simpa using hk
      simp only [this, if_true, List.lookup_cons, ih]

theorem keys_insert (fs : List (String × Nat)) (h : (fs.map Prod.fst).Nodup) (l : String) (i : Nat) :
    (((l, i) :: fs.filter (fun e => e.1 != l)).map Prod.fst).Nodup := by
  rw [List.map_cons, List.nodup_cons]
  refine ⟨by simp, h.sublist (List.Sublist.map _ List.filter_sublist)⟩

theorem add_ok (b : Builder) (done : List (Option String)) (hb : BuilderInv b done) (x : Option String) :
    ((b.add x).2 = none ↔ match x with
      | some l => some l ∉ done
      | none => done.any Option.isSome = false) ∧
    ((b.add x).2 = none → BuilderInv (b.add x).1 (done ++ [x])) ∧
    (b.add x).1.fieldMap.arity = b.fieldMap.arity := by
  cases x with
  | none =>
    simp only [Builder.add]
    cases ha : b.anyLabels
    · rw [if_neg (by simp)]
      refine ⟨by simp [← hb.any, ha], fun _ => ⟨hb.keys, by simp [hb.index], by simp [← hb.any, ha], ?_⟩, rfl⟩
      intro l p
      rw [hb.lookup, List.getElem?_append]
      split
      · rfl
      · rename_i h
        rw [List.getElem?_eq_none (by omega)]
        simp only [List.getElem?_singleton]
        split <;> simp
    · rw [if_pos rfl]
      refine ⟨by simp only [← hb.any, ha]; simp, by simp, rfl⟩
  | some l =>
    have hfresh : (b.fieldMap.fields.lookup l).isNone = true ↔ some l ∉ done := by
      rw [Option.isNone_iff_eq_none]
      constructor
      · intro h hm
        obtain ⟨p, hp⟩ := List.getElem?_of_mem hm
        rw [(hb.lookup l p).2 hp] at h; cases h
      · intro h
        cases hl : b.fieldMap.fields.lookup l with
        | none => rfl
        | some p => exact absurd (List.mem_of_getElem? ((hb.lookup l p).1 hl)) h
    simp only [Builder.add, FieldMap.insert]
    by_cases hf : (b.fieldMap.fields.lookup l).isNone = true
    · simp only [hf, if_true]
      refine ⟨by simp [← hfresh, hf], fun _ => ⟨keys_insert _ hb.keys l _, by simp [hb.index], by simp, ?_⟩, trivial⟩
      intro l' p
      simp only [List.lookup_cons]
      have hnot := hfresh.1 hf
      by_cases hl : l' = l
      · subst hl
        simp only [beq_self_eq_true, hb.index]
        rw [List.getElem?_append]
        constructor
        · intro h; cases h; simp
        · intro h
          split at h
          · exact absurd (List.mem_of_getElem? h) hnot
          · rename_i hlen
            rw [List.getElem?_singleton] at h
            split at h
            · congr 1; omega
            · cases h
      · have : (l' == l) = false := by simpa using hl
        rw [this]
        simp only [lookup_filter_ne _ _ _ hl, hb.lookup]
        rw [List.getElem?_append]
        split
        · rfl
        · rename_i hlen
          rw [List.getElem?_eq_none (by omega), List.getElem?_singleton]
          split
          · simp; exact fun h => hl h.symm
          · simp
    · simp only [hf, Bool.false_eq_true, if_false]
      refine ⟨by simp [← hfresh]; simpa using hf, by simp, trivial⟩

theorem addAll_errors_mono (ls : List (Option String)) (b : Builder) (es : List BuildErr) :
    (b.addAll es ls).2 = [] → es = [] := by
  induction ls generalizing b es with
  | nil => simp [Builder.addAll]
  | cons l ls ih =>
    intro h
    simp only [Builder.addAll] at h
    have := ih _ _ h
    simp at this; exact this.1

/-- Legality of `done ++ rest`, given that `done` is legal, restated step by step. -/
def LegalFrom (done : List (Option String)) : List (Option String) → Prop
  | [] => True
  | x :: xs => (match x with
      | some l => some l ∉ done
      | none => done.any Option.isSome = false) ∧ LegalFrom (done ++ [x]) xs

theorem addAll_ok (ls : List (Option String)) (b : Builder) (done : List (Option String)) (hb : BuilderInv b done) :
    ((b.addAll [] ls).2 = [] ↔ LegalFrom done ls) ∧
    ((b.addAll [] ls).2 = [] → BuilderInv (b.addAll [] ls).1 (done ++ ls) ∧
      (b.addAll [] ls).1.fieldMap.arity = b.fieldMap.arity) := by
  induction ls generalizing b done with
  | nil => simp [Builder.addAll, LegalFrom, hb]
  | cons x xs ih =>
    obtain ⟨h1, h2, h3⟩ := add_ok b done hb x
    simp only [Builder.addAll, LegalFrom]
    cases he : (b.add x).2 with
    | some e =>
      have hne : ((b.add x).1.addAll ([] ++ (some e).toList) xs).2 ≠ [] := by
        intro h; have := addAll_errors_mono _ _ _ h; simp at this
      constructor
      · constructor
        · intro h; exact absurd h hne
        · intro h; rw [he] at h1; exact absurd (h1.2 h.1) (by simp)
      · intro h; exact absurd h hne
    | none =>
      have hx := h1.1 he
      have hb' := h2 he
      obtain ⟨i1, i2⟩ := ih (b.add x).1 (done ++ [x]) hb'
      simp only [List.nil_append, Option.toList_none]
      constructor
      · rw [i1]; exact ⟨fun h => ⟨hx, h⟩, fun h => h.2⟩
      · intro h
        have := i2 h
        rw [h3] at this
        simpa using this

theorem legalFrom_iff (rest done : List (Option String)) (hdone : Spec.LegalDecl done) :
    LegalFrom done rest ↔ Spec.LegalDecl (done ++ rest) := by
  induction rest generalizing done with
  | nil => simp [LegalFrom, hdone]
  | cons x xs ih =>
    have step : Spec.LegalDecl (done ++ [x]) ↔ (match x with
      | some l => some l ∉ done
      | none => done.any Option.isSome = false) := by
      unfold Spec.LegalDecl
      cases x with
      | none =>
        simp only [List.filterMap_append]
        constructor
        · rintro ⟨_, h⟩
          rw [List.any_eq_false]
          intro y hy hs
          obtain ⟨l, rfl⟩ := Option.isSome_iff_exists.1 hs
          obtain ⟨i, hi⟩ := List.getElem?_of_mem hy
          have hlt := (List.getElem?_eq_some_iff.1 hi).1
          exact h i done.length hlt ⟨l, by rw [List.getElem?_append_left hlt]; exact hi⟩ (by simp)
        · intro h
          refine ⟨by simpa using hdone.1, ?_⟩
          rintro i j hij ⟨l, hl⟩ hj
          rw [List.getElem?_append] at hl
          split at hl
          · rw [List.any_eq_false] at h
            exact h _ (List.mem_of_getElem? hl) rfl
          · rw [List.getElem?_singleton] at hl; split at hl <;> simp at hl
      | some l =>
        simp only [List.filterMap_append]
        have hmem : l ∈ List.filterMap id done ↔ some l ∈ done := by simp
        constructor
        · rintro ⟨h, _⟩ hm
          rw [List.nodup_append] at h
          exact h.2.2 l (hmem.2 hm) l (by simp) rfl
        · intro h
          refine ⟨?_, ?_⟩
          · rw [List.nodup_append]
            refine ⟨hdone.1, by simp, ?_⟩
            intro a ha b hb hab
            simp at hb; subst hb; subst hab
            exact h (hmem.1 ha)
          · rintro i j hij ⟨l', hl'⟩ hj
            rw [List.getElem?_append] at hj
            split at hj
            · rename_i hjl
              rw [List.getElem?_append_left (by omega)] at hl'
              exact hdone.2 i j hij ⟨l', hl'⟩ hj
            · rw [List.getElem?_singleton] at hj; split at hj <;> simp at hj
    simp only [LegalFrom]
    rw [← step]
    constructor
    · rintro ⟨h1, h2⟩
      have := (ih (done ++ [x]) h1).1 h2
      simpa using this
    · intro h
      have h' : Spec.LegalDecl (done ++ [x]) := by
        constructor
        · have := h.1
          rw [show done ++ x :: xs = (done ++ [x]) ++ xs by simp, List.filterMap_append] at this
          exact (List.nodup_append.1 this).1
        · rintro i j hij ⟨l, hl⟩ hj
          have hjl := (List.getElem?_eq_some_iff.1 hj).1
          refine h.2 i j hij ⟨l, ?_⟩ ?_
          · rw [show done ++ x :: xs = (done ++ [x]) ++ xs by simp, List.getElem?_append_left (by omega)]; exact hl
          · rw [show done ++ x :: xs = (done ++ [x]) ++ xs by simp, List.getElem?_append_left (by omega)]; exact hj
      exact ⟨h', (ih _ h').2 (by simpa using h)⟩

theorem build_ok (decl : List (Option String)) :
    ((build decl).2 = [] ↔ Spec.LegalDecl decl) ∧
    (Spec.LegalDecl decl → Represents (build decl).1 decl) := by
  have hb : BuilderInv ⟨0, false, ⟨decl.length, []⟩⟩ [] := ⟨by simp, rfl, rfl, by simp⟩
  obtain ⟨h1, h2⟩ := addAll_ok decl _ [] hb
  have h0 : Spec.LegalDecl [] := ⟨by simp, by simp⟩
  rw [legalFrom_iff decl [] h0, List.nil_append] at h1
  refine ⟨h1, fun h => ?_⟩
  obtain ⟨hi, ha⟩ := h2 (h1.2 h)
  exact ⟨ha, by simpa [build] using hi.lookup, by simpa [build] using hi.keys⟩


/-! ### Missing labels -/

theorem insertByPos_perm (e : String × Nat) (l : List (String × Nat)) : (insertByPos e l).Perm (e :: l) := by
  induction l with
  | nil => simp [insertByPos]
  | cons x xs ih =>
    unfold insertByPos
    split
    · exact List.Perm.refl _
    · exact (ih.cons x).trans (List.Perm.swap e x xs)

theorem sortByPos_perm (l : List (String × Nat)) : (sortByPos l).Perm l := by
  induction l with
  | nil => simp [sortByPos]
  | cons x xs ih => exact (insertByPos_perm x _).trans (ih.cons x)

theorem legal_shape (decl : List (Option String)) (h : Spec.LegalDecl decl) :
    ∃ ls : List String, decl = List.replicate (decl.count none) none ++ ls.map some := by
  have all : ∀ d : List (Option String), (∀ j : Nat, d[j]? ≠ some none) → ∃ ls : List String, d = ls.map some := by
    intro d hd
    induction d with
    | nil => exact ⟨[], rfl⟩
    | cons x xs ih =>
      cases x with
      | none => exact absurd (by simp) (hd 0)
      | some l =>
        obtain ⟨ls, hls⟩ := ih (fun j hj => hd (j + 1) (by simpa using hj))
        exact ⟨l :: ls, by simp [← hls]⟩
  replace h := h.2
  induction decl with
  | nil => exact ⟨[], rfl⟩
  | cons x xs ih =>
    cases x with
    | none =>
      obtain ⟨ls, hls⟩ := ih (fun i j hij ⟨l, hl⟩ hj => h (i + 1) (j + 1) (by omega) ⟨l, by simpa using hl⟩ (by simpa using hj))
      refine ⟨ls, ?_⟩
      rw [List.count_cons_self, List.replicate_succ, List.cons_append, ← hls]
    | some l =>
      obtain ⟨ls, hls⟩ := all (some l :: xs) (by
        intro j hj
        cases j with
        | zero => simp at hj
        | succ j => exact h 0 (j + 1) (by omega) ⟨l, by simp⟩ hj)
      refine ⟨ls, ?_⟩
      have : (some l :: xs).count none = 0 := by
        rw [List.count_eq_zero, hls]; simp
      rw [this, ← hls]; simp

theorem fields_perm {fm : FieldMap} {decl} (hr : Represents fm decl) (hd : Spec.LegalDecl decl) :
    (fm.fields.map Prod.fst).Perm (decl.filterMap id) := by
  rw [List.perm_ext_iff_of_nodup hr.keys hd.1]
  intro l
  simp only [List.mem_filterMap, id]
  constructor
  · intro h
    obtain ⟨e, he, rfl⟩ := List.mem_map.1 h
    have hlk : fm.fields.lookup e.1 = some e.2 := by
      have key : ∀ fs : List (String × Nat), (fs.map Prod.fst).Nodup → e ∈ fs → fs.lookup e.1 = some e.2 := by
        intro fs hnd hm
        induction fs with
        | nil => simp at hm
        | cons f fs ih =>
          obtain ⟨k, v⟩ := f
          simp only [List.map_cons, List.nodup_cons] at hnd
          rw [List.lookup_cons]
          rcases List.mem_cons.1 hm with h' | h'
          · rw [h']; simp
          · have : e.1 ≠ k := fun hk => hnd.1 (hk ▸ List.mem_map_of_mem (f := Prod.fst) h')
            have hb : (e.1 == k) = false := by simpa using this
            rw [hb]; exact ih hnd.2 h'
      exact key _ hr.keys he
    exact ⟨_, List.mem_of_getElem? ((hr.lookup _ _).1 hlk), rfl⟩
  · rintro ⟨o, ho, rfl⟩
    obtain ⟨p, hp⟩ := List.getElem?_of_mem ho
    have := mem_of_lookup _ _ _ ((hr.lookup l p).2 hp)
    exact List.mem_map.2 ⟨_, this, rfl⟩

theorem min_position {fm : FieldMap} {decl} (hr : Represents fm decl) (hd : Spec.LegalDecl decl)
    (m : Nat) (hm : (fm.fields.map Prod.snd).min? = some m) : m = decl.count none := by
  obtain ⟨ls, hls⟩ := legal_shape decl hd
  rw [List.min?_eq_some_iff] at hm
  obtain ⟨hmem, hmin⟩ := hm
  have key : ∀ fs : List (String × Nat), (fs.map Prod.fst).Nodup → ∀ e ∈ fs, fs.lookup e.1 = some e.2 := by
    intro fs hnd e hm
    induction fs with
    | nil => simp at hm
    | cons f fs ih =>
      obtain ⟨k, v⟩ := f
      simp only [List.map_cons, List.nodup_cons] at hnd
      rw [List.lookup_cons]
      rcases List.mem_cons.1 hm with h' | h'
      · rw [h']; simp
      · have : e.1 ≠ k := fun hk => hnd.1 (hk ▸ List.mem_map_of_mem (f := Prod.fst) h')
        have hb : (e.1 == k) = false := by simpa using this
        rw [hb]; exact ih hnd.2 h'
  obtain ⟨e, he, rfl⟩ := List.mem_map.1 hmem
  have hp := (hr.lookup _ _).1 (key _ hr.keys e he)
  generalize hk : decl.count none = k at *
  have hge : k ≤ e.2 := by
    apply Nat.le_of_not_lt; intro hlt
    rw [hls, List.getElem?_append_left (by simpa using hlt)] at hp
    simp [List.getElem?_replicate, hlt] at hp
  have hne : ls ≠ [] := by
    intro hn; subst hn
    rw [hls] at hp
    have := (List.getElem?_eq_some_iff.1 hp).1
    simp at this; omega
  obtain ⟨l, hl⟩ : ∃ l, decl[k]? = some (some l) := by
    cases ls with
    | nil => exact absurd rfl hne
    | cons l ls => exact ⟨l, by rw [hls, List.getElem?_append_right (by simp)]; simp⟩
  have := mem_of_lookup _ _ _ ((hr.lookup l k).2 hl)
  have := hmin k (List.mem_map.2 ⟨_, this, rfl⟩)
  omega

end Verif.Fields
