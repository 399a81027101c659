import Verif.Spec
import Verif.Model.Batch

/-! # Altered batches -/

namespace Spec
open Schnorrkel SigningTranscript
variable {P : Type} {T : Type} [SigningTranscript T]

/-- The coefficient that batch verification gives to the `i`-th signature: an answer of the transcript hash on the keys,
the `R`s, one digest per transcript and the 32 bytes `rng` supplies.  It is computed from public data alone. -/
def coefficient [Oracles] {n : Nat} (t : Fin n → T) (R : Fin n → Compressed) (pk : Fin n → PublicKey P) (r : Bytes)
    (i : Fin n) : Nat :=
  batchCoeff (List.ofFn fun i => (pk i).compressed.1) (List.ofFn fun i => (R i).1)
    (List.ofFn fun i => (witnessBytesRng (t i) (b! "") 16 [[]] notAnRng).1.1) r i

/-- Add `a` to the scalar of signature `i`, subtract `b` from the scalar of signature `j`, leave everything else. -/
def shiftPair {n : Nat} (sig : Fin n → Signature) (i j : Fin n) (a b : Nat) : Fin n → Signature := fun l =>
  if l = i then ⟨(sig l).R, (sig l).s + Scalar.ofNat a⟩
  else if l = j then ⟨(sig l).R, (sig l).s - Scalar.ofNat b⟩
  else sig l

/-- The hash query for the 16-byte digest that a merlin transcript contributes to a batch. -/
def digestQuery (log : List MOp) : List MOp := log ++ [.rekey (b! "") [], .rngKey (zeros 32).1, .prf 16]

/-- The hash query for the `i`-th coefficient of a batch over merlin transcripts, when the RNG supplies `r`. -/
def coefficientQuery (O : Oracles) {n : Nat} (t : Fin n → Transcript) (R : Fin n → Compressed)
    (pk : Fin n → PublicKey P) (r : Bytes) (i : Fin n) : List MOp :=
  batchQuery (List.ofFn fun i => (pk i).compressed.1) (List.ofFn fun i => (R i).1)
    (List.ofFn fun i => (O.merlin (digestQuery (t i).log) 16).1) r i

/-- The coefficient itself. -/
def coefficientWith (O : Oracles) {n : Nat} (t : Fin n → Transcript) (R : Fin n → Compressed)
    (pk : Fin n → PublicKey P) (r : Bytes) (i : Fin n) : Z :=
  ((leNat (O.merlin (coefficientQuery O t R pk r i) 16).1 : Nat) : Z)

/-- `PreparedBatch::verify` on merlin transcripts with hash functions `O`. -/
def preparedVerifyWith [Ristretto P] (O : Oracles) (mode : ZipMode) (pb : PreparedBatch) (ts : List Transcript)
    (pks : List (PublicKey P)) (dedup : Bool) : Outcome Unit := letI := O; pb.verify mode ts pks dedup

/-- `verify_batch_rng` on merlin transcripts with hash functions `O`. -/
def verifyBatchWith [Ristretto P] (O : Oracles) (mode : ZipMode) (ts : List Transcript) (sigs : List Signature)
    (pks : List (PublicKey P)) (dedup : Bool) (rng : Rng) : Outcome Unit :=
  letI := O; verifyBatchRng mode ts sigs pks dedup rng

end Spec
