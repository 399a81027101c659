import Verif.Model.Prims

/-! # `src/scalars.rs` and `src/lib.rs` scalar helpers -/

namespace Schnorrkel

/-- `a += b` on `u8` with overflow detection (`none` = the debug-build panic). [scalars.rs:20, 30] -/
def checkedAddU8 (a b : UInt8) : Option UInt8 :=
  if a.toNat + b.toNat < 256 then some (a + b) else none

/-- `scalars.rs:15-23`: the loop of `divide_scalar_bytes_by_cofactor` on a little-endian slice, high
byte first (`.rev()`); returns the new bytes and the carry `low` left for the next lower byte.
Overflow-checked (debug) arithmetic. -/
def divideLoopChecked : Bytes → Option (Bytes × UInt8)
  | [] => some ([], 0)
  | b :: bs => do
    let (bs', low) ← divideLoopChecked bs
    let r := b &&& 0b00000111
    let i ← checkedAddU8 (b >>> 3) low
    some (i :: bs', r <<< 5)

/-- `scalars.rs:15-23`, release (wrapping) arithmetic. -/
def divideLoop : Bytes → Bytes × UInt8
  | [] => ([], 0)
  | b :: bs =>
    let (bs', low) := divideLoop bs
    let r := b &&& 0b00000111
    (((b >>> 3) + low) :: bs', r <<< 5)

/-- `scalars.rs:25-33`: the loop of `multiply_scalar_bytes_by_cofactor`, low byte first, carrying
`high`; overflow-checked (debug) arithmetic. -/
def multiplyLoopChecked : Bytes → UInt8 → Option Bytes
  | [], _ => some []
  | b :: bs, high => do
    let r := b &&& 0b11100000
    let i ← checkedAddU8 (b <<< 3) high
    let bs' ← multiplyLoopChecked bs (r >>> 5)
    some (i :: bs')

/-- `scalars.rs:25-33`, release (wrapping) arithmetic. -/
def multiplyLoop : Bytes → UInt8 → Bytes
  | [], _ => []
  | b :: bs, high =>
    let r := b &&& 0b11100000
    ((b <<< 3) + high) :: multiplyLoop bs (r >>> 5)

theorem divideLoop_length (l : Bytes) : (divideLoop l).1.length = l.length := by
  induction l with
  | nil => rfl
  | cons b bs ih => simp [divideLoop, ih]

theorem multiplyLoop_length (l : Bytes) (h : UInt8) : (multiplyLoop l h).length = l.length := by
  induction l generalizing h with
  | nil => rfl
  | cons b bs ih => simp [multiplyLoop, ih]

/-- `scalars.rs:15-23` `divide_scalar_bytes_by_cofactor` -/
def divideScalarBytesByCofactor (s : Arr 32) : Arr 32 :=
  ⟨(divideLoop s.1).1, by rw [divideLoop_length, s.2]⟩

/-- `scalars.rs:25-33` `multiply_scalar_bytes_by_cofactor` -/
def multiplyScalarBytesByCofactor (s : Arr 32) : Arr 32 :=
  ⟨multiplyLoop s.1 0, by rw [multiplyLoop_length, s.2]⟩

/-- `lib.rs:273-283` `scalar_from_canonical_bytes` -/
def scalarFromCanonicalBytes (b : Arr 32) : Option Scalar := Scalar.fromCanonicalBytes b

/-- `a[i] = f(a[i])` [keys.rs:195-197, sign.rs:96, 131] -/
def Arr.modify {n : Nat} (a : Arr n) (i : Nat) (f : UInt8 → UInt8) : Arr n :=
  ⟨a.1.modify i f, by simp [a.2]⟩

/-- `a[i]` for an index in bounds. [sign.rs:73] -/
def Arr.get {n : Nat} (a : Arr n) (i : Nat) (h : i < n) : UInt8 := a.1[i]'(by rw [a.2]; exact h)

end Schnorrkel
