import Verif.Etf.Spec
/-! Lemmas for the term format round trip. -/
namespace Verif.Etf

open Spec

theorem fromBe_be4 (n : Nat) : fromBe (be4 n) = n % 4294967296 := by
  simp [fromBe, be4, UInt8.toNat_ofNat']; omega

theorem fromBe_be2 (n : Nat) : fromBe (be2 n) = n % 65536 := by
  simp [fromBe, be2, UInt8.toNat_ofNat']; omega

theorem fromBe_one (n : Nat) : fromBe [UInt8.ofNat n] = n % 256 := by
  simp [fromBe, UInt8.toNat_ofNat']

theorem takeN_append (a r : List UInt8) (n : Nat) (h : a.length = n) : takeN n (a ++ r) = some (a, r) := by
  subst h; simp [takeN]

theorem withCount_be4 (n : Nat) (r : List UInt8) (f : Nat → List UInt8 → Option α) :
    withCount 4 (be4 n ++ r) f = f (n % 4294967296) r := by
  rw [withCount, takeN_append _ _ _ (by rfl)]; simp only [fromBe_be4]

theorem withCount_be2 (n : Nat) (r : List UInt8) (f : Nat → List UInt8 → Option α) :
    withCount 2 (be2 n ++ r) f = f (n % 65536) r := by
  rw [withCount, takeN_append _ _ _ (by rfl)]; simp only [fromBe_be2]

theorem withCount_one (n : Nat) (r : List UInt8) (f : Nat → List UInt8 → Option α) :
    withCount 1 (UInt8.ofNat n :: r) f = f (n % 256) r := by
  have := takeN_append [UInt8.ofNat n] r 1 rfl
  simp only [List.singleton_append] at this
  rw [withCount, this]; simp only [fromBe_one]

theorem fromLe_magnitude (n : Nat) : fromLe (magnitudeLe n) = n := by
  induction n using Nat.strongRecOn with
  | _ n ih =>
    rw [magnitudeLe]
    split
    · simp [fromLe, UInt8.toNat_ofNat']; omega
    · rw [fromLe, ih _ (by omega)]; simp [UInt8.toNat_ofNat']; omega

theorem magnitude_length (n k : Nat) (hk : 0 < k) (h : n < 256 ^ k) : (magnitudeLe n).length ≤ k := by
  induction k generalizing n with
  | zero => omega
  | succ k ih =>
    rw [magnitudeLe]
    split
    · simp
    · rename_i hn
      simp only [List.length_cons, Nat.add_le_add_iff_right]
      have hk : 0 < k := by
        rcases Nat.eq_zero_or_pos k with h0 | h0
        · subst h0; simp at h; omega
        · exact h0
      exact ih _ hk (Nat.div_lt_of_lt_mul (by rw [Nat.pow_succ, Nat.mul_comm] at h; exact h))

theorem readBig_spec (n : Int) (r : List UInt8) :
    readBig (magnitudeLe n.natAbs).length (signByte n :: (magnitudeLe n.natAbs ++ r)) = some (n, r) := by
  rw [readBig, takeN_append _ _ _ rfl]
  simp only [fromLe_magnitude, signByte]
  by_cases h : n < 0
  · simp [h]; omega
  · simp [h]; omega

/-! What the builder appends. -/

mutual
def bytesOf : Term → List UInt8
  | .int n => (TermBuilder.bigint ⟨[]⟩ n).bytes
  | .float bs => 70 :: bs
  | .atom name => (TermBuilder.atom ⟨[]⟩ name).bytes
  | .binary bs => 109 :: (be4 bs.length ++ bs)
  | .tuple es => (tupleHeader ⟨[]⟩ es.length).bytes ++ bytesOfAll es
  | .list es => if es.length = 0 then [106] else 108 :: (be4 es.length ++ (bytesOfAll es ++ [106]))
def bytesOfAll : List Term → List UInt8
  | [] => []
  | t :: ts => bytesOf t ++ bytesOfAll ts
end

theorem bigint_append (b : TermBuilder) (n : Int) :
    (b.bigint n).bytes = b.bytes ++ (TermBuilder.bigint ⟨[]⟩ n).bytes := by
  unfold TermBuilder.bigint
  split
  · simp [TermBuilder.smallInteger, TermBuilder.push]
  · split
    · simp [TermBuilder.integer, TermBuilder.push, TermBuilder.extend]
    · simp [TermBuilder.smallBig, TermBuilder.push, TermBuilder.extend]

theorem atom_append (b : TermBuilder) (n : List UInt8) :
    (b.atom n).bytes = b.bytes ++ (TermBuilder.atom ⟨[]⟩ n).bytes := by
  unfold TermBuilder.atom
  split <;> simp [TermBuilder.smallAtomUtf8, TermBuilder.atomUtf8, TermBuilder.push, TermBuilder.extend]

theorem header_append (b : TermBuilder) (n : Nat) :
    (tupleHeader b n).bytes = b.bytes ++ (tupleHeader ⟨[]⟩ n).bytes := by
  unfold tupleHeader
  split <;> simp [TermBuilder.smallTuple, TermBuilder.largeTuple, TermBuilder.push, TermBuilder.extend]

theorem endList_bytes (pre mid : List UInt8) (n : Nat) :
    (TermBuilder.endList ⟨pre ++ (108 :: 0 :: 0 :: 0 :: 0 :: mid)⟩ (pre.length + 1) n).bytes =
      pre ++ (108 :: (be4 n ++ (mid ++ [106]))) := by
  have h : pre ++ (108 :: 0 :: 0 :: 0 :: 0 :: mid) ++ [106] =
      (pre ++ [108]) ++ ([0, 0, 0, 0] ++ (mid ++ [106])) := by simp
  simp only [TermBuilder.endList, TermBuilder.emptyList, TermBuilder.push, overwrite, h]
  rw [List.take_append_of_le_length (by simp), List.take_of_length_le (by simp)]
  rw [List.drop_append, List.drop_of_length_le (by simp)]
  simp [be4]

mutual
theorem write_append (t : Term) (b : TermBuilder) : (write b t).bytes = b.bytes ++ bytesOf t := by
  cases t with
  | int n => simp only [write, bytesOf]; exact bigint_append b n
  | float bs => simp [write, bytesOf, TermBuilder.newFloat, TermBuilder.push, TermBuilder.extend]
  | atom n => simp only [write, bytesOf]; exact atom_append b n
  | binary bs => simp [write, bytesOf, TermBuilder.binary, TermBuilder.push, TermBuilder.extend]
  | tuple es =>
    simp only [write, bytesOf]
    rw [writeAll_append es, header_append]; simp
  | list es =>
    simp only [write, bytesOf]
    split
    · simp [TermBuilder.emptyList, TermBuilder.push]
    · have h := writeAll_append es b.startList.1
      have h1 : b.startList.1.bytes = b.bytes ++ [108, 0, 0, 0, 0] := by
        simp [TermBuilder.startList, TermBuilder.push]
      have h2 : b.startList.2 = b.bytes.length + 1 := by
        simp [TermBuilder.startList, TermBuilder.push]
      have h3 : writeAll b.startList.1 es = ⟨b.bytes ++ (108 :: 0 :: 0 :: 0 :: 0 :: bytesOfAll es)⟩ := by
        cases hw : writeAll b.startList.1 es with
        | mk bs =>
          rw [hw, h1] at h
          simp only at h
          rw [h]; simp
      rw [h3, h2, endList_bytes]
theorem writeAll_append (ts : List Term) (b : TermBuilder) : (writeAll b ts).bytes = b.bytes ++ bytesOfAll ts := by
  cases ts with
  | nil => simp [writeAll, bytesOfAll]
  | cons t ts =>
    simp only [writeAll, bytesOfAll]
    rw [writeAll_append ts, write_append t]; simp
end

theorem toSigned_i32 (n : Int) (h1 : -2147483648 ≤ n) (h2 : n ≤ 2147483647) :
    toSigned ((n % 4294967296).toNat % 4294967296) = n := by
  unfold toSigned; split <;> omega

theorem bigint_decode (f : Nat) (n : Int) (h : n.natAbs < 256 ^ 255) (r : List UInt8) :
    decodeTerm (f + 1) ((TermBuilder.bigint ⟨[]⟩ n).bytes ++ r) = some (.int n, r) := by
  unfold TermBuilder.bigint
  split
  · rename_i hr
    simp only [TermBuilder.smallInteger, TermBuilder.push, List.nil_append, List.cons_append, decodeTerm, if_true,
      withCount_one]
    congr; omega
  · split
    · rename_i hr
      simp only [TermBuilder.integer, TermBuilder.push, TermBuilder.extend, List.nil_append, List.cons_append, decodeTerm,
        show ((98 : UInt8) = 97) = False by simp, if_false, if_true, i32Bytes, withCount_be4]
      rw [toSigned_i32 n hr.1 hr.2]
    · have hl := magnitude_length n.natAbs 255 (by omega) h
      simp only [TermBuilder.smallBig, TermBuilder.push, TermBuilder.extend, List.nil_append, List.cons_append, decodeTerm,
        show ((110 : UInt8) = 97) = False by simp, show ((110 : UInt8) = 98) = False by simp,
        show ((110 : UInt8) = 70) = False by simp, if_false, if_true, withCount_one]
      rw [Nat.mod_eq_of_lt (by omega), readBig_spec]; rfl

theorem atom_decode (f : Nat) (n : List UInt8) (h : n.length < 65536) (r : List UInt8) :
    decodeTerm (f + 1) ((TermBuilder.atom ⟨[]⟩ n).bytes ++ r) = some (.atom n, r) := by
  unfold TermBuilder.atom
  split
  · simp only [TermBuilder.smallAtomUtf8, TermBuilder.push, TermBuilder.extend, List.nil_append, List.cons_append]
    rw [decodeTerm]
    simp only [withCount_one, show ((119 : UInt8) = 97) = False by simp, show ((119 : UInt8) = 98) = False by simp,
      show ((119 : UInt8) = 70) = False by simp, show ((119 : UInt8) = 110) = False by simp,
      show ((119 : UInt8) = 111) = False by simp, if_false, if_true]
    rw [Nat.mod_eq_of_lt (by omega), takeN_append _ _ _ rfl]; rfl
  · simp only [TermBuilder.atomUtf8, TermBuilder.push, TermBuilder.extend, List.nil_append, List.cons_append,
      List.append_assoc]
    rw [decodeTerm]
    simp only [withCount_be2, show ((118 : UInt8) = 97) = False by simp, show ((118 : UInt8) = 98) = False by simp,
      show ((118 : UInt8) = 70) = False by simp, show ((118 : UInt8) = 110) = False by simp,
      show ((118 : UInt8) = 111) = False by simp, show ((118 : UInt8) = 119) = False by simp, if_false, if_true]
    rw [Nat.mod_eq_of_lt (by omega), takeN_append _ _ _ rfl]; rfl

mutual
def depth : Term → Nat
  | .tuple es => depthAll es + 1
  | .list es => depthAll es + 1
  | _ => 1
def depthAll : List Term → Nat
  | [] => 0
  | t :: ts => max (depth t) (depthAll ts)
end

theorem depth_pos (t : Term) : 1 ≤ depth t := by cases t <;> simp [depth]

mutual
theorem decode_bytesOf (t : Term) (h : Encodable t) (f : Nat) (hf : depth t ≤ f) (r : List UInt8) :
    decodeTerm f (bytesOf t ++ r) = some (t, r) := by
  cases f with
  | zero => cases t <;> simp [depth] at hf
  | succ f =>
  cases t with
  | int n => exact bigint_decode f n h r
  | float bs =>
    simp only [Encodable] at h
    simp only [bytesOf, List.cons_append]
    rw [decodeTerm]
    simp only [show ((70 : UInt8) = 97) = False by simp, show ((70 : UInt8) = 98) = False by simp, if_false, if_true]
    rw [takeN_append _ _ _ h]; rfl
  | atom n => exact atom_decode f n h r
  | binary bs =>
    simp only [Encodable] at h
    simp only [bytesOf, List.cons_append, List.append_assoc]
    rw [decodeTerm]
    simp only [withCount_be4, show ((109 : UInt8) = 97) = False by simp, show ((109 : UInt8) = 98) = False by simp,
      show ((109 : UInt8) = 70) = False by simp, show ((109 : UInt8) = 110) = False by simp,
      show ((109 : UInt8) = 111) = False by simp, show ((109 : UInt8) = 119) = False by simp,
      show ((109 : UInt8) = 118) = False by simp, if_false, if_true]
    rw [Nat.mod_eq_of_lt h, takeN_append _ _ _ rfl]; rfl
  | tuple es =>
    simp only [Encodable] at h
    simp only [depth] at hf
    simp only [bytesOf, tupleHeader]
    have ih := decode_bytesOfAll es h.2 f (by omega) r
    split
    · simp only [TermBuilder.smallTuple, TermBuilder.push, List.nil_append, List.cons_append]
      rw [decodeTerm]
      simp only [withCount_one, show ((104 : UInt8) = 97) = False by simp, show ((104 : UInt8) = 98) = False by simp,
        show ((104 : UInt8) = 70) = False by simp, show ((104 : UInt8) = 110) = False by simp,
        show ((104 : UInt8) = 111) = False by simp, show ((104 : UInt8) = 119) = False by simp,
        show ((104 : UInt8) = 118) = False by simp, show ((104 : UInt8) = 109) = False by simp, if_false, if_true]
      rw [Nat.mod_eq_of_lt (by omega), ih]; rfl
    · simp only [TermBuilder.largeTuple, TermBuilder.push, TermBuilder.extend, List.nil_append, List.cons_append,
        List.append_assoc]
      rw [decodeTerm]
      simp only [withCount_be4, show ((105 : UInt8) = 97) = False by simp, show ((105 : UInt8) = 98) = False by simp,
        show ((105 : UInt8) = 70) = False by simp, show ((105 : UInt8) = 110) = False by simp,
        show ((105 : UInt8) = 111) = False by simp, show ((105 : UInt8) = 119) = False by simp,
        show ((105 : UInt8) = 118) = False by simp, show ((105 : UInt8) = 109) = False by simp,
        show ((105 : UInt8) = 104) = False by simp, if_false, if_true]
      rw [Nat.mod_eq_of_lt h.1, ih]; rfl
  | list es =>
    simp only [Encodable] at h
    simp only [depth] at hf
    have nil : ∀ g, decodeTerm (g + 1) (106 :: r) = some (.list [], r) := by
      intro g
      rw [decodeTerm]
      simp
    simp only [bytesOf]
    split
    · rename_i h0
      have : es = [] := List.length_eq_zero_iff.1 h0
      subst this
      exact nil f
    · have ih := decode_bytesOfAll es h.2 f (by omega) (106 :: r)
      simp only [List.cons_append, List.append_assoc, List.nil_append]
      rw [decodeTerm]
      simp only [withCount_be4, show ((108 : UInt8) = 97) = False by simp, show ((108 : UInt8) = 98) = False by simp,
        show ((108 : UInt8) = 70) = False by simp, show ((108 : UInt8) = 110) = False by simp,
        show ((108 : UInt8) = 111) = False by simp, show ((108 : UInt8) = 119) = False by simp,
        show ((108 : UInt8) = 118) = False by simp, show ((108 : UInt8) = 109) = False by simp,
        show ((108 : UInt8) = 104) = False by simp, show ((108 : UInt8) = 105) = False by simp,
        show ((108 : UInt8) = 106) = False by simp, if_false, if_true]
      obtain ⟨g, rfl⟩ : ∃ g, f = g + 1 := by
        cases es with
        | nil => simp at *
        | cons t ts =>
          have := depth_pos t
          simp only [depthAll] at hf
          exact ⟨f - 1, by omega⟩
      rw [Nat.mod_eq_of_lt h.1, ih]
      simp only [nil g]
theorem decode_bytesOfAll (ts : List Term) (h : AllEncodable ts) (f : Nat) (hf : depthAll ts ≤ f) (r : List UInt8) :
    readMany (decodeTerm f) ts.length (bytesOfAll ts ++ r) = some (ts, r) := by
  cases ts with
  | nil => rfl
  | cons t ts =>
    simp only [AllEncodable] at h
    simp only [depthAll] at hf
    simp only [bytesOfAll, List.length_cons, List.append_assoc, readMany]
    rw [decode_bytesOf t h.1 f (by omega)]
    simp only
    rw [decode_bytesOfAll ts h.2 f (by omega)]
end

mutual
theorem depth_le (t : Term) : depth t ≤ (bytesOf t).length := by
  cases t with
  | int n => simp only [depth, bytesOf, TermBuilder.bigint, TermBuilder.smallInteger, TermBuilder.integer, TermBuilder.smallBig, TermBuilder.push, TermBuilder.extend]; split; (· simp); split <;> simp
  | float bs => simp [depth, bytesOf]
  | atom n => simp only [depth, bytesOf, TermBuilder.atom, TermBuilder.smallAtomUtf8, TermBuilder.atomUtf8, TermBuilder.push, TermBuilder.extend]; split <;> simp
  | binary bs => simp [depth, bytesOf]
  | tuple es =>
    have := depthAll_le es
    simp only [depth, bytesOf, List.length_append, tupleHeader]
    have : 1 ≤ (if es.length ≤ 255 then TermBuilder.smallTuple ⟨[]⟩ es.length else TermBuilder.largeTuple ⟨[]⟩ es.length).bytes.length := by
      split <;> simp [TermBuilder.smallTuple, TermBuilder.largeTuple, TermBuilder.push, TermBuilder.extend]
    omega
  | list es =>
    have := depthAll_le es
    simp only [depth, bytesOf]
    split
    · rename_i h0
      have : es = [] := List.length_eq_zero_iff.1 h0
      subst this
      simp [depthAll]
    · simp [be4]; omega
theorem depthAll_le (ts : List Term) : depthAll ts ≤ (bytesOfAll ts).length := by
  cases ts with
  | nil => simp [depthAll]
  | cons t ts =>
    have := depth_le t
    have := depthAll_le ts
    simp only [depthAll, bytesOfAll, List.length_append]; omega
end

end Verif.Etf
