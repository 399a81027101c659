import Verif.Spec.RomWide
import Verif.Spec.BatchForge
import Verif.Spec.VrfWire

/-! # What an attacker on batch verification outputs -/

namespace Spec
open Schnorrkel

/-- A batch of signatures. -/
structure SigBatch (P : Type) where
  n : Nat
  t : Fin n → Transcript
  sig : Fin n → Signature
  pk : Fin n → PublicKey P

/-- `verify_batch` with hash functions `O` and an RNG that supplies the 32 bytes `r`. -/
def SigBatch.accepted {P : Type} [Ristretto P] (c : SigBatch P) (O : Oracles) (mode : ZipMode) (dedup : Bool)
    (rng : Rng) : Prop :=
  verifyBatchWith O mode (List.ofFn c.t) (List.ofFn c.sig) (List.ofFn c.pk) dedup rng = .ok ()

/-- The hash query for the `i`-th coefficient that `verify_batch` uses. -/
def SigBatch.coefficientQuery {P : Type} (c : SigBatch P) (O : Oracles) (r : Arr 32) (i : Fin c.n) : List MOp :=
  Spec.coefficientQuery O c.t (fun i => (c.sig i).R) c.pk r.1 i

/-- A batch of DLEQ proofs. -/
structure DleqBatch (P : Type) where
  n : Nat
  p : Fin n → VRFInOut P
  b : Fin n → VRFProofBatchable
  pk : Fin n → PublicKey P

/-- `dleq_verify_batch` with hash functions `O`. -/
def DleqBatch.accepted {P : Type} [Ristretto P] (c : DleqBatch P) (O : Oracles) (kusama : Bool) (sys : Rng) : Prop :=
  letI := O; dleqVerifyBatch (List.ofFn c.p) (List.ofFn c.b) (List.ofFn c.pk) kusama sys = .ok ()

/-- Entry `i` on its own: the shortened proof is accepted by `dleq_verify`, which returns the batchable proof. -/
def DleqBatch.valid {P : Type} [Ristretto P] (c : DleqBatch P) (O : Oracles) (kusama : Bool) (i : Fin c.n) : Prop :=
  letI := O
  let t := Transcript.new (b! "VRF")
  (PublicKey.dleqVerify (c.pk i) t (c.p i) ((c.b i).shortenDleq t (c.pk i) (c.p i) kusama) kusama).1 = .ok (c.b i)

/-- The hash query for the `i`-th coefficient of the batch. -/
def DleqBatch.coefficientQuery {P : Type} (c : DleqBatch P) (r : Arr 32) (i : Fin c.n) : List MOp :=
  dleqBatchQuery (List.ofFn fun i => ((c.pk i).compressed.1, (c.p i).input.compressed.1, (c.p i).output.compressed.1))
    r.1 i

/-- A batch of VRF outputs with batchable proofs, for input transcripts given by kind and history. -/
structure VrfBatch (P : Type) where
  n : Nat
  malleable : Fin n → Bool
  log : Fin n → List MOp
  out : Fin n → VRFPreOut
  b : Fin n → VRFProofBatchable
  pk : Fin n → PublicKey P

/-- `vrf_verify_batch` with hash functions `O`. -/
def VrfBatch.verify {P : Type} [Ristretto P] (c : VrfBatch P) (O : Oracles) (sys : Rng) :
    Outcome (List (VRFInOut P)) :=
  letI := O
  vrfVerifyBatch (List.ofFn fun i => wireInput (c.malleable i) (c.log i)) (List.ofFn c.out) (List.ofFn c.b)
    (List.ofFn c.pk) sys

/-- Entry `i` on its own: shortening the proof succeeds, and `vrf_verify` accepts the short proof and returns the
batchable proof. -/
def VrfBatch.valid {P : Type} [Ristretto P] (c : VrfBatch P) (O : Oracles) (i : Fin c.n) : Prop :=
  letI := O
  let t := wireInput (c.malleable i) (c.log i)
  ∃ proof io, (c.b i).shortenVrf (c.pk i) t (c.out i) = .ok proof ∧
    PublicKey.vrfVerify (c.pk i) t (c.out i) proof = .ok (io, c.b i)

/-- The hash query for the `i`-th coefficient of the batch. -/
def VrfBatch.coefficientQuery {P : Type} [Ristretto P] (c : VrfBatch P) (O : Oracles) (r : Arr 32) (i : Fin c.n) :
    List MOp :=
  letI := O
  dleqBatchQuery (List.ofFn fun i => ((c.pk i).compressed.1,
    (compress (wireInputPoint (c.malleable i) (c.log i) (c.pk i).compressed.1 : P)).1, (c.out i).bytes.1)) r.1 i

/-- The two hash queries of entry `i` itself: its input, and the challenge of its proof. -/
def VrfBatch.entryQueries {P : Type} [Ristretto P] (c : VrfBatch P) (O : Oracles) (i : Fin c.n) : List (List MOp) :=
  letI := O
  [vrfInputQuery (c.malleable i) (c.log i) (c.pk i).compressed.1,
    dleqQuery wireNoExtra true (compress (wireInputPoint (c.malleable i) (c.log i) (c.pk i).compressed.1 : P)).1
      (c.pk i).compressed.1 (c.b i).R.1 (c.b i).Hr.1 (c.out i).bytes.1]

end Spec
