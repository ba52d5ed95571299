import Verif.Equality.Spec
import Verif.BitArrays.Lemmas
import Mathlib.Data.List.Nodup

namespace Verif.Equality
open Verif.BitArrays

theorem num_strictEq (a b : Num) : a.strictEq b = true ↔ a.Same b := by
  cases a <;> cases b <;> simp [Num.strictEq, Num.Same]

theorem num_refl {a : Num} (h : a ≠ .nan) : a.Same a := by
  cases a <;> simp_all [Num.Same]

mutual
theorem same_refl : ∀ v : Value, NoNaN v → Same v v
  | .num n, h => by
    simp only [NoNaN] at h
    simpa only [Same] using num_refl h
  | .str _, _ => by simp [Same]
  | .bool _, _ => by simp [Same]
  | .undefined, _ => by simp [Same]
  | .fn _, _ => by simp [Same]
  | .obj _ _ fields, h => by
    simp only [NoNaN] at h
    simp only [Same, true_and]
    exact sameFields_refl fields h
  | .bits _ _, _ => by simp [Same]

theorem sameFields_refl : ∀ f : Fields, NoNaNFields f → SameFields f f
  | .nil, _ => by simp [SameFields]
  | .cons _ v rest, h => by
    simp only [NoNaNFields] at h
    simp only [SameFields, true_and]
    exact ⟨same_refl v h.1, sameFields_refl rest h.2⟩
end

theorem num_symm {a b : Num} (h : a.Same b) : b.Same a := by
  cases a <;> cases b <;> simp_all [Num.Same]

theorem num_trans {a b c : Num} (h : a.Same b) (h' : b.Same c) : a.Same c := by
  cases a <;> cases b <;> simp_all [Num.Same] <;> cases c <;> simp_all [Num.Same]

mutual
theorem same_symm : ∀ x y : Value, Same x y → Same y x
  | .num a, .num b, h => by
    simp only [Same] at h ⊢
    exact num_symm h
  | .str a, .str b, h => by simp only [Same] at h ⊢; exact h.symm
  | .bool a, .bool b, h => by simp only [Same] at h ⊢; exact h.symm
  | .undefined, .undefined, _ => by simp [Same]
  | .fn a, .fn b, h => by simp only [Same] at h ⊢; exact h.symm
  | .obj _ ca fa, .obj _ cb fb, h => by
    simp only [Same] at h ⊢
    exact ⟨h.1.symm, sameFields_symm fa fb h.2⟩
  | .bits _ a, .bits _ b, h => by simp only [Same] at h ⊢; exact h.symm
  | .num _, .str _, h | .num _, .bool _, h | .num _, .undefined, h | .num _, .fn _, h | .num _, .obj .., h | .num _, .bits .., h
  | .str _, .num _, h | .str _, .bool _, h | .str _, .undefined, h | .str _, .fn _, h | .str _, .obj .., h | .str _, .bits .., h
  | .bool _, .num _, h | .bool _, .str _, h | .bool _, .undefined, h | .bool _, .fn _, h | .bool _, .obj .., h | .bool _, .bits .., h
  | .undefined, .num _, h | .undefined, .str _, h | .undefined, .bool _, h | .undefined, .fn _, h | .undefined, .obj .., h
  | .undefined, .bits .., h
  | .fn _, .num _, h | .fn _, .str _, h | .fn _, .bool _, h | .fn _, .undefined, h | .fn _, .obj .., h | .fn _, .bits .., h
  | .obj .., .num _, h | .obj .., .str _, h | .obj .., .bool _, h | .obj .., .undefined, h | .obj .., .fn _, h | .obj .., .bits .., h
  | .bits .., .num _, h | .bits .., .str _, h | .bits .., .bool _, h | .bits .., .undefined, h | .bits .., .fn _, h
  | .bits .., .obj .., h => by simp [Same] at h

theorem sameFields_symm : ∀ x y : Fields, SameFields x y → SameFields y x
  | .nil, .nil, _ => by simp [SameFields]
  | .cons ka va fa, .cons kb vb fb, h => by
    simp only [SameFields] at h ⊢
    exact ⟨h.1.symm, same_symm va vb h.2.1, sameFields_symm fa fb h.2.2⟩
  | .nil, .cons .., h | .cons .., .nil, h => by simp [SameFields] at h
end

mutual
theorem same_trans : ∀ x y z : Value, Same x y → Same y z → Same x z
  | .num a, y, z, h, h' => by
    cases y <;> simp only [Same] at h
    cases z <;> simp only [Same] at h' ⊢
    exact num_trans h h'
  | .str a, y, z, h, h' => by
    cases y <;> simp only [Same] at h
    cases z <;> simp only [Same] at h' ⊢
    exact h.trans h'
  | .bool a, y, z, h, h' => by
    cases y <;> simp only [Same] at h
    cases z <;> simp only [Same] at h' ⊢
    exact h.trans h'
  | .undefined, y, z, h, h' => by
    cases y <;> simp only [Same] at h
    exact h'
  | .fn a, y, z, h, h' => by
    cases y <;> simp only [Same] at h
    cases z <;> simp only [Same] at h' ⊢
    exact h.trans h'
  | .obj _ ca fa, y, z, h, h' => by
    cases y <;> simp only [Same] at h
    cases z <;> simp only [Same] at h' ⊢
    exact ⟨h.1.trans h'.1, sameFields_trans fa _ _ h.2 h'.2⟩
  | .bits _ a, y, z, h, h' => by
    cases y <;> simp only [Same] at h
    cases z <;> simp only [Same] at h' ⊢
    exact h.trans h'

theorem sameFields_trans : ∀ x y z : Fields, SameFields x y → SameFields y z → SameFields x z
  | .nil, y, z, h, h' => by
    cases y <;> simp only [SameFields] at h
    exact h'
  | .cons ka va fa, y, z, h, h' => by
    cases y <;> simp only [SameFields] at h
    cases z <;> simp only [SameFields] at h' ⊢
    exact ⟨h.1.trans h'.1, same_trans va _ _ h.2.1 h'.2.1, sameFields_trans fa _ _ h.2.2 h'.2.2⟩
end

/-! ### The loop -/

mutual
def size : Value → Nat
  | .obj _ _ fields => 1 + sizeFields fields
  | _ => 1

def sizeFields : Fields → Nat
  | .nil => 0
  | .cons _ v rest => size v + sizeFields rest
end

def stackSize : List Value → Nat
  | [] => 0
  | v :: rest => size v + stackSize rest

/-- All pairs on the stack are the same. -/
def PairsSame : List Value → Prop
  | [] => True
  | [_] => False
  | a :: b :: rest => Same a b ∧ PairsSame rest

def Good (heap : Nat → Value) (layout : String → List Key) (v : Value) : Prop := NoNaN v ∧ InMemory heap layout v

def GoodFields (heap : Nat → Value) (layout : String → List Key) (f : Fields) : Prop := NoNaNFields f ∧ InMemoryFields heap layout f

/-- The fields in the order of their keys, paired. -/
def values : Fields → List Value
  | .nil => []
  | .cons _ v rest => v :: values rest

theorem get_cons_ne {k k' : Key} {v : Value} {f : Fields} (h : k ≠ k') : (Fields.cons k v f).get k' = f.get k' := by
  simp [Fields.get, h]

theorem sameFields_iff : ∀ (fa fb : Fields), fa.keys = fb.keys → fa.keys.Nodup →
    (SameFields fa fb ↔ ∀ k ∈ fa.keys, Same (fa.get k) (fb.get k))
  | .nil, .nil, _, _ => by simp [SameFields, Fields.keys]
  | .cons ka va fa, .cons kb vb fb, h, hn => by
    simp only [Fields.keys, List.cons.injEq] at h
    simp only [Fields.keys, List.nodup_cons] at hn
    obtain ⟨rfl, h⟩ := h
    have ih := sameFields_iff fa fb h hn.2
    simp only [SameFields, true_and, Fields.keys, List.mem_cons, forall_eq_or_imp]
    rw [ih]
    refine and_congr (by simp [Fields.get]) (forall_congr' fun k => forall_congr' fun hk => ?_)
    have : ka ≠ k := fun he => hn.1 (he ▸ hk)
    rw [get_cons_ne this, get_cons_ne this]
  | .nil, .cons .., h, _ => by simp [Fields.keys] at h
  | .cons .., .nil, h, _ => by simp [Fields.keys] at h

theorem pushAll_same (fa fb : Fields) : ∀ (ks : List Key) (stack : List Value),
    PairsSame (pushAll fa fb ks stack) ↔ (∀ k ∈ ks, Same (fb.get k) (fa.get k)) ∧ PairsSame stack := by
  intro ks
  induction ks with
  | nil => intro stack; simp [pushAll]
  | cons k ks ih =>
    intro stack
    rw [pushAll, ih]
    simp only [PairsSame, List.mem_cons, forall_eq_or_imp]
    tauto

def sizes (f : Fields) : List Key → Nat
  | [] => 0
  | k :: ks => size (f.get k) + sizes f ks

theorem pushAll_size (fa fb : Fields) : ∀ (ks : List Key) (stack : List Value),
    stackSize (pushAll fa fb ks stack) = sizes fa ks + sizes fb ks + stackSize stack := by
  intro ks
  induction ks with
  | nil => intro stack; simp [pushAll, sizes]
  | cons k ks ih =>
    intro stack
    rw [pushAll, ih]
    simp only [sizes, stackSize]
    omega

theorem sizes_cons {k : Key} {v : Value} {f : Fields} : ∀ {ks : List Key}, k ∉ ks → sizes (.cons k v f) ks = sizes f ks
  | [], _ => rfl
  | k' :: ks, h => by
    simp only [List.mem_cons, not_or] at h
    rw [sizes, sizes, get_cons_ne h.1, sizes_cons h.2]

theorem sizes_keys : ∀ (f : Fields), f.keys.Nodup → sizes f f.keys = sizeFields f
  | .nil, _ => rfl
  | .cons k v f, h => by
    simp only [Fields.keys, List.nodup_cons] at h
    rw [Fields.keys, sizes, sizeFields, sizes_cons h.1, sizes_keys f h.2]
    simp [Fields.get]

theorem good_get {heap : Nat → Value} {layout : String → List Key} : ∀ (f : Fields), GoodFields heap layout f → ∀ k, Good heap layout (f.get k)
  | .nil, _, k => by simp [Fields.get, Good, NoNaN, InMemory]
  | .cons k' v f, h, k => by
    simp only [GoodFields, NoNaNFields, InMemoryFields] at h
    simp only [Fields.get]
    split
    · exact ⟨h.1.1, h.2.1⟩
    · exact good_get f ⟨h.1.2, h.2.2⟩ k

theorem pushAll_good {heap : Nat → Value} {layout : String → List Key} {fa fb : Fields} (ha : GoodFields heap layout fa)
    (hb : GoodFields heap layout fb) : ∀ (ks : List Key) (stack : List Value), (∀ v ∈ stack, Good heap layout v) →
      ∀ v ∈ pushAll fa fb ks stack, Good heap layout v := by
  intro ks
  induction ks with
  | nil => intro stack h; exact h
  | cons k ks ih =>
    intro stack h
    rw [pushAll]
    apply ih
    intro v hv
    simp only [List.mem_cons] at hv
    rcases hv with rfl | rfl | hv
    · exact good_get fb hb k
    · exact good_get fa ha k
    · exact h v hv

theorem strictEq_same {heap : Nat → Value} {layout : String → List Key} {a b : Value} (ha : Good heap layout a) (hb : Good heap layout b)
    (h : strictEq a b = true) : Same a b := by
  cases a <;> cases b <;> simp only [strictEq, Bool.false_eq_true, beq_iff_eq] at h
  · simp only [Same]
    exact (num_strictEq _ _).1 h
  · simpa only [Same] using h
  · simpa only [Same] using h
  · simp [Same]
  · simpa only [Same] using h
  · subst h
    have h1 := ha.2
    have h2 := hb.2
    simp only [InMemory] at h1 h2
    have := h1.1.symm.trans h2.1
    rw [this]
    exact same_refl _ hb.1
  · subst h
    have h1 := ha.2
    have h2 := hb.2
    simp only [InMemory] at h1 h2
    have := h1.1.symm.trans h2.1
    rw [this]
    exact same_refl _ hb.1

theorem same_scalar {a b : Value} (h : Same a b) (hne : strictEq a b = false) :
    (∃ r r' c c' f f', a = .obj r c f ∧ b = .obj r' c' f') ∨ (∃ r r' x y, a = .bits r x ∧ b = .bits r' y) := by
  cases a <;> cases b <;> simp only [Same] at h <;> simp only [strictEq] at hne <;>
    first
    | exact .inl ⟨_, _, _, _, _, _, rfl, rfl⟩
    | exact .inr ⟨_, _, _, _, rfl, rfl⟩
    | (have h' := (num_strictEq _ _).2 h; rw [h'] at hne; simp at hne)
    | (subst h; simp at hne)
    | simp at hne

theorem sameFields_keys : ∀ (fa fb : Fields), SameFields fa fb → fa.keys = fb.keys
  | .nil, .nil, _ => rfl
  | .cons .., .cons .., h => by
    simp only [SameFields] at h
    simp only [Fields.keys, h.1, sameFields_keys _ _ h.2.2]
  | .nil, .cons .., h => by simp [SameFields] at h
  | .cons .., .nil, h => by simp [SameFields] at h

theorem keys_nodup {heap : Nat → Value} {layout : String → List Key} (hl : Layout layout) {r : Nat} {c : Ctor} {f : Fields}
    (h : InMemory heap layout (.obj r c f)) : f.keys.Nodup := by
  simp only [InMemory] at h
  have h := h.2.1
  cases c with
  | array =>
    simp only at h
    rw [h]
    apply List.Nodup.map
    · intro a b hab
      cases hab
      rfl
    · exact List.nodup_range
  | cls n =>
    simp only at h
    rw [h]
    exact hl n

theorem keys_eq {heap : Nat → Value} {layout : String → List Key} {r r' : Nat} {c : Ctor} {f f' : Fields}
    (h : InMemory heap layout (.obj r c f)) (h' : InMemory heap layout (.obj r' c f')) (hlen : f.keys.length = f'.keys.length) :
    f.keys = f'.keys := by
  simp only [InMemory] at h h'
  have h := h.2.1
  have h' := h'.2.1
  cases c with
  | array =>
    simp only at h h'
    rw [h, h', hlen]
  | cls n =>
    simp only at h h'
    rw [h, h']

theorem step_spec {heap : Nat → Value} {layout : String → List Key} (hl : Layout layout) {a b : Value} {stack : List Value}
    (ha : Good heap layout a) (hb : Good heap layout b) (hs : ∀ v ∈ stack, Good heap layout v) :
    (step a b stack = none ∧ ¬ Same a b) ∨
    (∃ s', step a b stack = some s' ∧ (PairsSame s' ↔ Same a b ∧ PairsSame stack) ∧ (∀ v ∈ s', Good heap layout v) ∧
      stackSize s' < size a + size b + stackSize stack) := by
  have hpos : ∀ v : Value, 0 < size v := by
    intro v
    cases v <;> simp [size]
  unfold step
  by_cases he : strictEq a b = true
  · rw [if_pos he]
    refine .inr ⟨stack, rfl, ?_, hs, ?_⟩
    · have := strictEq_same ha hb he
      tauto
    · have := hpos a
      omega
  rw [if_neg he]
  have hne : strictEq a b = false := by simpa using he
  have hfalse : ∀ (_ : ¬ ((∃ r r' c c' f f', a = .obj r c f ∧ b = .obj r' c' f') ∨ (∃ r r' x y, a = .bits r x ∧ b = .bits r' y))),
      ¬ Same a b := fun h hsame => h (same_scalar hsame hne)
  split
  · rename_i r ca fa r' cb fb
    have haf : GoodFields heap layout fa := by
      have h1 := ha.1
      have h2 := ha.2
      simp only [NoNaN] at h1
      simp only [InMemory] at h2
      exact ⟨h1, h2.2.2⟩
    have hbf : GoodFields heap layout fb := by
      have h1 := hb.1
      have h2 := hb.2
      simp only [NoNaN] at h1
      simp only [InMemory] at h2
      exact ⟨h1, h2.2.2⟩
    split
    · rename_i hc
      refine .inl ⟨rfl, ?_⟩
      simp only [Same]
      exact fun h => hc h.1
    rename_i hc
    simp only [ne_eq, Decidable.not_not] at hc
    subst hc
    have hlen_ne : fa.keys.length ≠ fb.keys.length → ¬ Same (.obj r ca fa) (.obj r' ca fb) := by
      intro h hsame
      simp only [Same] at hsame
      exact h (congrArg List.length (sameFields_keys _ _ hsame.2))
    split
    · rename_i hk
      exact .inl ⟨rfl, hlen_ne hk.2⟩
    split
    · rename_i hk
      exact .inl ⟨rfl, hlen_ne hk⟩
    · rename_i _ hk
      simp only [ne_eq, Decidable.not_not] at hk
      have hkeys := keys_eq ha.2 hb.2 hk
      have hn := keys_nodup hl ha.2
      refine .inr ⟨_, rfl, ?_, pushAll_good haf hbf _ _ hs, ?_⟩
      · rw [pushAll_same]
        simp only [Same, true_and]
        rw [sameFields_iff fa fb hkeys hn]
        refine and_congr (forall_congr' fun k => forall_congr' fun _ => ⟨same_symm _ _, same_symm _ _⟩) Iff.rfl
      · rw [pushAll_size, sizes_keys fa hn, hkeys, sizes_keys fb (hkeys ▸ hn)]
        simp only [size]
        omega
  · rename_i r x r' y
    have hx : x.Valid := by
      have := ha.2
      simp only [InMemory] at this
      exact this.2
    have hy : y.Valid := by
      have := hb.2
      simp only [InMemory] at this
      exact this.2
    split
    · rename_i heq
      refine .inr ⟨stack, rfl, ?_, hs, ?_⟩
      · simp only [Same]
        have := (equals_iff hx hy).1 heq
        tauto
      · have := hpos (.bits r x)
        omega
    · rename_i heq
      refine .inl ⟨rfl, ?_⟩
      simp only [Same]
      exact fun h => heq ((equals_iff hx hy).2 h)
  · rename_i h1 h2
    refine .inl ⟨rfl, hfalse ?_⟩
    rintro (⟨r, r', c, c', f, f', rfl, rfl⟩ | ⟨r, r', x, y, rfl, rfl⟩)
    · exact h1 _ _ _ _ _ _ rfl rfl
    · exact h2 _ _ _ _ rfl rfl

theorem pushAll_length (fa fb : Fields) : ∀ (ks : List Key) (stack : List Value),
    (pushAll fa fb ks stack).length = 2 * ks.length + stack.length := by
  intro ks
  induction ks with
  | nil => intro stack; simp [pushAll]
  | cons k ks ih =>
    intro stack
    rw [pushAll, ih]
    simp only [List.length_cons]
    omega

theorem step_parity {a b : Value} {stack s' : List Value} (h : step a b stack = some s') : s'.length % 2 = stack.length % 2 := by
  unfold step at h
  split at h
  · cases h
    rfl
  split at h
  · split at h
    · cases h
    split at h
    · cases h
    split at h
    · cases h
    · cases h
      rw [pushAll_length]
      omega
  · split at h
    · cases h
      rfl
    · cases h
  · cases h

theorem loop_spec {heap : Nat → Value} {layout : String → List Key} (hl : Layout layout) :
    ∀ (fuel : Nat) (stack : List Value), (∀ v ∈ stack, Good heap layout v) → stackSize stack ≤ fuel → stack.length % 2 = 0 →
      ∃ r, loop fuel stack = some r ∧ (r = true ↔ PairsSame stack) := by
  intro fuel
  induction fuel with
  | zero =>
    intro stack hg hs he
    match stack, hs with
    | [], _ => exact ⟨true, rfl, by simp [PairsSame]⟩
    | v :: rest, hs =>
      have : 0 < size v := by cases v <;> simp [size]
      simp only [stackSize] at hs
      omega
  | succ fuel ih =>
    intro stack hg hs he
    match stack, hg, hs, he with
    | [], _, _, _ => exact ⟨true, rfl, by simp [PairsSame]⟩
    | [v], _, _, he => simp at he
    | a :: b :: rest, hg, hs, he =>
      simp only [stackSize] at hs
      simp only [List.length_cons] at he
      have hrest : ∀ v ∈ rest, Good heap layout v := fun v hv => hg v (by simp [hv])
      rw [loop]
      rcases step_spec hl (hg a (by simp)) (hg b (by simp)) hrest with ⟨h1, h2⟩ | ⟨s', h1, h2, h3, h4⟩
      · rw [h1]
        exact ⟨false, rfl, by simp [PairsSame, h2]⟩
      · rw [h1]
        have hp := step_parity h1
        obtain ⟨r, hr, hiff⟩ := ih s' h3 (by omega) (by omega)
        exact ⟨r, hr, by rw [hiff, h2, PairsSame]⟩

end Verif.Equality
