import Verif.Etf.Lemmas
/-!
# Property C06: the Erlang External Term Format writer
-/
namespace Verif.Etf

open Spec

/-- C06: writing any encodable term to a fresh builder and reading the bytes gives the term back and
consumes exactly the bytes written. Missing for the full property: integers of 256 or more bytes, atoms beyond
65535 bytes (see the witnesses below) and `usize` beyond 31 bits. -/
theorem write_decode_roundtrip_partial (t : Term) (h : Encodable t) (rest : List UInt8) :
    decode ((write .new t).intoVec ++ rest) = some (t, rest) := by
  have h1 : (write .new t).intoVec = 131 :: bytesOf t := by
    rw [TermBuilder.intoVec, write_append]; rfl
  rw [h1, List.cons_append, decode, if_pos rfl]
  apply decode_bytesOf t h
  have := depth_le t
  simp only [List.length_append]; omega

/-- Writing more terms to the same builder keeps the earlier bytes: the written terms are read
one after the other (lists patch their length in place without touching anything else). -/
theorem write_many_decode (ts : List Term) (h : AllEncodable ts) (rest : List UInt8) :
    ∃ body, (writeAll .new ts).intoVec = 131 :: body ∧
      readMany (decodeTerm (body ++ rest).length) ts.length (body ++ rest) = some (ts, rest) := by
  refine ⟨bytesOfAll ts, ?_, ?_⟩
  · simp [TermBuilder.intoVec, writeAll_append, TermBuilder.new, versionNumber]
  · apply decode_bytesOfAll ts h
    have := depthAll_le ts
    simp only [List.length_append]; omega

/-- Distinct encodable terms are never written to the same bytes. -/
theorem write_injective (s t : Term) (hs : Encodable s) (ht : Encodable t)
    (h : (write .new s).intoVec = (write .new t).intoVec) : s = t := by
  have h1 := write_decode_roundtrip_partial s hs []
  have h2 := write_decode_roundtrip_partial t ht []
  rw [h, h2] at h1
  simpa using h1.symm

/-- `{ok, [1, -300, 2^40], <<1,2>>, []}` meets the hypothesis. -/
example : Encodable (.tuple [.atom [111, 107], .list [.int 1, .int (-300), .int (2 ^ 40)], .binary [1, 2], .list []]) := by
  simp [Encodable, AllEncodable]

example : (write .new (.list [.int 1, .list [], .int (2 ^ 40)])).intoVec =
    [131, 108, 0, 0, 0, 3, 97, 1, 106, 110, 6, 0, 0, 0, 0, 0, 0, 1, 106] := by decide +kernel

/-- Line numbers and arities written with `usize` are read back below 2^31. -/
theorem usize_roundtrip (n : Nat) (h : n < 2147483648) (b : TermBuilder) (f : Nat) (rest : List UInt8) :
    ∃ bs, (b.usize n).bytes = b.bytes ++ bs ∧ decodeTerm (f + 1) (bs ++ rest) = some (.int n, rest) := by
  refine ⟨(TermBuilder.bigint ⟨[]⟩ n).bytes, ?_, ?_⟩
  · rw [← bigint_append]
    unfold TermBuilder.usize TermBuilder.bigint
    by_cases h1 : n ≤ 255
    · rw [if_pos h1, if_pos (by omega)]; simp
    · rw [if_neg h1, if_neg (by omega), if_pos (by omega)]
  · apply bigint_decode
    have h2 : (2147483648 : Nat) ≤ 256 ^ 255 := by decide +kernel
    omega

/-- Beyond that `as i32` wraps: `usize` of 2^31 is read back as a negative number. -/
theorem usize_wraps : decode ((TermBuilder.new.usize 2147483648).intoVec) = some (.int (-2147483648), []) := by
  simp [TermBuilder.usize, TermBuilder.new, TermBuilder.integer, TermBuilder.push, TermBuilder.extend,
    TermBuilder.intoVec, versionNumber, decode]
  rw [decodeTerm]
  simp [i32Bytes, be4, withCount, takeN, fromBe, toSigned]

/-- C06 is false of the code for huge integers: the length byte of `small_big` wraps, so an integer of 256
bytes is written with length 0 and read back as 0, leaving 256 stray bytes (`large_big` is never chosen). -/
theorem bigint_truncated : decode ((write .new (.int (256 ^ 255))).intoVec) =
    some (.int 0, List.replicate 255 0 ++ [1]) := by
  have h1 : ∀ k : Nat, magnitudeLe (256 ^ k) = List.replicate k 0 ++ [1] := by
    intro k
    induction k with
    | zero => rw [magnitudeLe]; simp
    | succ k ih =>
      have hp : 0 < 256 ^ k := Nat.pow_pos (by omega)
      rw [magnitudeLe, dif_neg (by rw [Nat.pow_succ]; omega)]
      rw [Nat.pow_succ, Nat.mul_div_cancel _ (by omega), ih]
      rw [List.replicate_succ, List.cons_append]
      congr 1
      apply UInt8.toNat_inj.1
      simp [UInt8.toNat_ofNat']
  have h2 : ((256 : Int) ^ 255).natAbs = 256 ^ 255 := by decide +kernel
  have h3 : ¬ (0 ≤ (256 : Int) ^ 255 ∧ (256 : Int) ^ 255 ≤ 255) := by decide +kernel
  have h4 : ¬ (-2147483648 ≤ (256 : Int) ^ 255 ∧ (256 : Int) ^ 255 ≤ 2147483647) := by decide +kernel
  have h5 : ¬ ((256 : Int) ^ 255 < 0) := by decide +kernel
  simp only [write, TermBuilder.bigint, if_neg h3, if_neg h4, TermBuilder.smallBig, h2, h1, signByte, if_neg h5]
  simp only [TermBuilder.new, TermBuilder.push, TermBuilder.extend, TermBuilder.intoVec, versionNumber, List.singleton_append,
    List.cons_append, List.nil_append, decode, if_true]
  generalize hR : List.replicate 255 (0 : UInt8) ++ [1] = R
  have h6 : R.length = 256 := by subst hR; rw [List.length_append, List.length_replicate]; rfl
  rw [h6, List.length_cons, decodeTerm]
  rw [if_neg (by decide), if_neg (by decide), if_neg (by decide), if_pos rfl, withCount_one]
  simp [readBig, takeN, fromLe]

/-- Atoms beyond 65535 bytes: the length wraps as well. -/
theorem atom_truncated (name : List UInt8) (h : name.length = 65536) :
    decode ((write .new (.atom name)).intoVec) = some (.atom [], name) := by
  simp only [write, TermBuilder.atom, if_neg (show ¬ name.length ≤ 255 by omega), TermBuilder.atomUtf8]
  simp only [TermBuilder.new, TermBuilder.push, TermBuilder.extend, TermBuilder.intoVec, versionNumber, List.singleton_append,
    List.cons_append, List.nil_append, decode, if_true, List.append_assoc]
  rw [List.length_cons, decodeTerm]
  rw [if_neg (by decide), if_neg (by decide), if_neg (by decide), if_neg (by decide), if_neg (by decide),
    if_neg (by decide), if_pos rfl, withCount_be2, h]
  simp [takeN]

/-- The public `large_big` writer does carry integers of any size up to 2^32 bytes. -/
theorem largeBig_roundtrip (n : Int) (h : (magnitudeLe n.natAbs).length < 4294967296) (rest : List UInt8) :
    decode ((TermBuilder.new.largeBig n).intoVec ++ rest) = some (.int n, rest) := by
  simp only [TermBuilder.largeBig, TermBuilder.new, TermBuilder.push, TermBuilder.extend, TermBuilder.intoVec, versionNumber,
    List.singleton_append, List.cons_append, List.nil_append, decode, if_true, List.append_assoc]
  rw [List.length_cons, decodeTerm]
  rw [if_neg (by decide), if_neg (by decide), if_neg (by decide), if_neg (by decide), if_pos rfl, withCount_be4,
    Nat.mod_eq_of_lt h, readBig_spec]
  rfl

example : (magnitudeLe (Int.natAbs (256 ^ 300))).length < 4294967296 := by
  have := magnitude_length (Int.natAbs (256 ^ 300)) 301 (by omega) (by decide +kernel)
  omega

end Verif.Etf
