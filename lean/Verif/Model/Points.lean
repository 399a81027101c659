import Verif.Model.Scalars

/-! # `src/points.rs` -/

namespace Schnorrkel
variable {P : Type} [Ristretto P]

/-- `points.rs:35-39` `RistrettoBoth`. -/
structure RistrettoBoth (P : Type) where
  compressed : Compressed
  point : P

/-- `[u8; 32]::cmp`: lexicographic comparison of byte strings. [points.rs:163] -/
def cmpBytes : Bytes → Bytes → Ordering
  | [], [] => .eq
  | [], _ :: _ => .lt
  | _ :: _, [] => .gt
  | a :: as, b :: bs => if a < b then .lt else if b < a then .gt else cmpBytes as bs

/-- `points.rs:29` -/
def RISTRETTO_POINT_LENGTH : Nat := 32

namespace RistrettoBoth
/-- `points.rs:55` -/
def DESCRIPTION : String := "A ristretto point represented as a 32-byte compressed point"
/-- `points.rs:35` `#[derive(Default)]`: field-wise default, all-zero bytes and the identity. -/
def default : RistrettoBoth P := ⟨zeros 32, 0⟩
/-- `points.rs:75-80` -/
def fromCompressed (compressed : Compressed) : SignatureResult (RistrettoBoth P) :=
  match decompress compressed with
  | none => .error .pointDecompressionError
  | some p => .ok ⟨compressed, p⟩
/-- `points.rs:84-89` -/
def fromPoint (p : P) : RistrettoBoth P := ⟨compress p, p⟩
/-- `points.rs:92-95` -/
def toBytes (r : RistrettoBoth P) : Arr 32 := r.compressed
/-- `points.rs:131-141` -/
def fromBytesSer (name description : String) (bytes : Bytes) : SignatureResult (RistrettoBoth P) :=
  if h : bytes.length ≠ RISTRETTO_POINT_LENGTH then
    .error (.bytesLengthError name description RISTRETTO_POINT_LENGTH)
  else
    fromCompressed ⟨bytes.take 32, by simp [RISTRETTO_POINT_LENGTH] at h; simp [h]⟩
/-- `points.rs:126-128` -/
def fromBytes (bytes : Bytes) : SignatureResult (RistrettoBoth P) :=
  fromBytesSer "RistrettoPoint" DESCRIPTION bytes
/-- `points.rs:147-153` `PartialEq::eq` in a debug build: compares compressed forms, and asserts that
comparing the points agrees. -/
def eqDebug (a b : RistrettoBoth P) : Outcome Bool :=
  let r := decide (a.compressed = b.compressed)
  if r = decide (a.point = b.point) then .ok r else .panic "assertion failed: `(left == right)`"
/-- `points.rs:47-51`, `147-153` equality (constant time and `==` in release). -/
def eq (a b : RistrettoBoth P) : Bool := decide (a.compressed = b.compressed)
/-- `points.rs:161-165` -/
def cmp (a b : RistrettoBoth P) : Ordering := cmpBytes a.compressed.1 b.compressed.1
/-- `points.rs:167-171`: the bytes fed to the hasher.  (`Hash` for arrays also writes the
length, which is the same for all values and is left out.) -/
def hashInput (a : RistrettoBoth P) : Bytes := a.compressed.1
end RistrettoBoth

end Schnorrkel
