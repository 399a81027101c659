import Mathlib.Data.ZMod.Basic
import Verif.Prime

/-! # Bytes, arrays, outcomes, errors

Basic data types of the model.  `[u8]` slices are lists of `UInt8`; `[u8; n]` arrays are lists with
a length proof. -/

namespace Schnorrkel

/-- `&[u8]` / `Vec<u8>`. [e.g. keys.rs:464, context.rs:47] -/
abbrev Bytes := List UInt8

/-- `[u8; n]`. [e.g. keys.rs:95-97, cert.rs:63-64] -/
abbrev Arr (n : Nat) := { l : Bytes // l.length = n }

/-- Rust byte-string literal `b"..."`, expanded at elaboration time to a literal list. [e.g. context.rs:51, sign.rs:171-179] -/
macro "b!" s:str : term => do
  let bytes := s.getString.toUTF8.toList
  let elems ← bytes.mapM fun b => `(($(Lean.quote b.toNat) : UInt8))
  `(([$(elems.toArray),*] : List UInt8))

/-- Little-endian integer value of a byte string. [the value of the bytes given to dalek at keys.rs:149, batch.rs:227] -/
def leNat : Bytes → Nat
  | [] => 0
  | b :: bs => b.toNat + 256 * leNat bs

/-- The `n` low-order little-endian bytes of a natural number (`to_le_bytes`). [context.rs:274, musig.rs:491] -/
def leBytes : Nat → Nat → Bytes
  | 0, _ => []
  | n+1, v => UInt8.ofNat (v % 256) :: leBytes n (v / 256)

@[simp] theorem leBytes_length (n v : Nat) : (leBytes n v).length = n := by
  induction n generalizing v with
  | zero => rfl
  | succ n ih => simp [leBytes, ih]

/-- `[0u8; n]`. [e.g. keys.rs:147, points.rs:35] -/
def zeros (n : Nat) : Arr n := ⟨List.replicate n 0, by simp⟩

/-- `(v as uN).to_le_bytes()` as an array. [the bytes of a dalek scalar, keys.rs:441] -/
def leArr (n v : Nat) : Arr n := ⟨leBytes n v, leBytes_length n v⟩

/-- `&a[i..j]` of an array, for bounds that hold statically. [keys.rs:194, cert.rs:70] -/
def Arr.slice {n : Nat} (a : Arr n) (i k : Nat) (h : i + k ≤ n) : Arr k :=
  ⟨(a.1.drop i).take k, by have := a.2; simp; omega⟩

/-- Concatenation of arrays (the `copy_from_slice` into two halves idiom). [keys.rs:441-442, cert.rs:126-127] -/
def Arr.append {n m : Nat} (a : Arr n) (b : Arr m) : Arr (n + m) :=
  ⟨a.1 ++ b.1, by simp [a.2, b.2]⟩

/-- `errors.rs:24-32` `MultiSignatureStage`. -/
inductive MultiSignatureStage where
  | commitment | reveal | cosignature
deriving DecidableEq, Repr

/-- `errors.rs:66-112` `SignatureError`.  `name`/`description` are the static strings carried by the
length error. -/
inductive SignatureError where
  | equationFalse
  | pointDecompressionError
  | scalarFormatError
  | invalidKey
  | bytesLengthError (name description : String) (length : Nat)
  | notMarkedSchnorrkel
  | muSigAbsent (stage : MultiSignatureStage)
  | muSigInconsistent (stage : MultiSignatureStage) (duplicate : Bool)
deriving DecidableEq, Repr

/-- `errors.rs:21` `SignatureResult`. -/
abbrev SignatureResult (α : Type) := Except SignatureError α

/-- Result of a Rust function that returns `SignatureResult<α>` and may also panic. [e.g. musig.rs:694, batch.rs:130] -/
inductive Outcome (α : Type) where
  | ok (a : α)
  | err (e : SignatureError)
  | panic (msg : String)
deriving DecidableEq, Repr

namespace Outcome
/-- Sequencing: the first error or panic wins (Rust `?` and unwinding). [`?` as at musig.rs:562] -/
def bind {α β : Type} : Outcome α → (α → Outcome β) → Outcome β
  | ok a, f => f a
  | err e, _ => err e
  | panic m, _ => panic m

instance : Monad Outcome where
  pure := ok
  bind := bind

/-- A plain `Result` used inside a function that may panic. [`?` as at musig.rs:263] -/
def ofExcept {α : Type} : SignatureResult α → Outcome α
  | .ok a => .ok a
  | .error e => .err e

@[simp] theorem bind_ok {α β : Type} (a : α) (f : α → Outcome β) : (Outcome.ok a >>= f) = f a := rfl
@[simp] theorem bind_err {α β : Type} (e) (f : α → Outcome β) : (Outcome.err e >>= f) = .err e := rfl
@[simp] theorem bind_panic {α β : Type} (e) (f : α → Outcome β) :
    (Outcome.panic e >>= f) = .panic e := rfl
@[simp] theorem pure_eq {α : Type} (a : α) : (pure a : Outcome α) = .ok a := rfl
@[simp] theorem ofExcept_ok {α : Type} (a : α) : ofExcept (.ok a) = .ok a := rfl
@[simp] theorem ofExcept_error {α : Type} (e) : (ofExcept (.error e) : Outcome α) = .err e := rfl

/-- Did the call panic? [e.g. the `panic!` of musig.rs:310] -/
def isPanic {α : Type} : Outcome α → Bool
  | panic _ => true
  | _ => false
end Outcome

end Schnorrkel
