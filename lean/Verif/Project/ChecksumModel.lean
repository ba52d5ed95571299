/-
Model of package checksums in lockfiles, `/repo/compiler-core/src/manifest.rs:135-179` `Base16Checksum`. The functions
`encode_upper` and `decode` are those of the external crate `base16`, modelled from its documentation: two digits per byte, the high
half first, written in upper case and read in either case. Texts are lists of characters.
-/
namespace Verif.Project

/-- The digits of `base16::encode_upper`. -/
def hexDigit (n : Nat) : Char := if n < 10 then Char.ofNat (48 + n) else Char.ofNat (55 + n)

/-- `manifest.rs:149` `base16::encode_upper`. -/
def encodeUpper (bytes : List UInt8) : List Char :=
  bytes.flatMap fun b => [hexDigit (b.toNat / 16), hexDigit (b.toNat % 16)]

/-- The value of a digit in `base16::decode`. -/
def hexValue (c : Char) : Option Nat :=
  if 48 ≤ c.toNat ∧ c.toNat ≤ 57 then some (c.toNat - 48)
  else if 65 ≤ c.toNat ∧ c.toNat ≤ 70 then some (c.toNat - 55)
  else if 97 ≤ c.toNat ∧ c.toNat ≤ 102 then some (c.toNat - 87)
  else none

/-- `manifest.rs:175` `base16::decode`. -/
def decode : List Char → Option (List UInt8)
  | [] => some []
  | [_] => none
  | a :: b :: rest =>
    match hexValue a, hexValue b, decode rest with
    | some a, some b, some rest => some (UInt8.ofNat (16 * a + b) :: rest)
    | _, _, _ => none

end Verif.Project
