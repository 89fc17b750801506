/-
Shared notation and Go integer arithmetic.

Go `string`/`[]byte` is modelled as `List UInt8` (`Bytes`).  Fixed-width integers are modelled as
`Int`/`Nat` together with explicit wrap functions that are applied wherever the Go code could wrap.
-/
namespace Verif

deriving instance DecidableEq for Except

/-- Go `string` / `[]byte`. -/
abbrev Bytes := List UInt8

open Lean in
/-- `b!"text"` is the list of UTF-8 bytes of a string literal, expanded while elaborating. -/
macro:max "b!" s:str : term => do
  let bs := s.getString.toUTF8.toList
  let xs : Array (TSyntax `term) := (bs.map (fun b => (quote b.toNat : TSyntax `term))).toArray
  `(([$xs,*] : List UInt8))

open Lean in
/-- `ch%'x'` is the byte of an ASCII character literal. -/
macro:max "ch%" s:char : term => `(($(quote s.getChar.toNat) : UInt8))

/-- Two's complement wrap to Go `int64`. -/
def i64 (x : Int) : Int := (x + 2^63) % 2^64 - 2^63

/-- Wrap to Go `uint64`. -/
def u64 (x : Nat) : Nat := x % 2^64

/-- Wrap to Go `uint32`. -/
def u32 (x : Nat) : Nat := x % 2^32

/-- The values of Go's `int64`. -/
def IsI64 (x : Int) : Prop := -(2^63) ≤ x ∧ x < 2^63

instance (x : Int) : Decidable (IsI64 x) := by unfold IsI64; infer_instance

theorem i64_of_isI64 {x : Int} (h : IsI64 x) : i64 x = x := by
  unfold IsI64 at h; unfold i64; omega

theorem isI64_i64 (x : Int) : IsI64 (i64 x) := by
  unfold IsI64 i64; omega

theorem i64_emod (x : Int) : (i64 x) % 2^64 = x % 2^64 := by unfold i64; omega

/-- An ASCII decimal digit, `'0' ≤ b ≤ '9'`. -/
def isDigit (b : UInt8) : Bool := decide (48 ≤ b.toNat) && decide (b.toNat ≤ 57)

/-- The number denoted by a list of decimal digits, most significant first. Used in specifications. -/
def decVal (ds : Bytes) : Nat := ds.foldl (fun a d => 10 * a + (d.toNat - 48)) 0

end Verif
