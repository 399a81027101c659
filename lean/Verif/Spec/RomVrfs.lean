import Verif.Spec.RomWide
import Verif.Spec.VrfWire

/-! # What an attacker on the uniqueness of several VRF outputs under one proof outputs -/

namespace Spec
open Schnorrkel
variable {P : Type} [Ristretto P]

/-- Claimed VRF outputs with one proof: the input transcripts (kinds and histories), the history of the extra
transcript, the outputs and the proof. -/
structure VrfsClaim where
  ts : List (Bool × List MOp)
  extra : List MOp
  outs : List VRFPreOut
  proof : VRFProof

/-- `PublicKey::vrfs_verify_extra` on the claim, with hash functions `O`. -/
def VrfsClaim.verify (O : Oracles) (pk : PublicKey P) (c : VrfsClaim) :
    Outcome (List (VRFInOut P) × VRFProofBatchable) :=
  letI := O
  PublicKey.vrfsVerifyExtra pk (c.ts.map fun x => wireInput x.1 x.2) c.outs c.proof (⟨c.extra⟩ : Transcript)

/-- The claimed pairs of input and output points. -/
def VrfsClaim.pairs (O : Oracles) (pk : PublicKey P) (c : VrfsClaim) : List (P × P) :=
  letI := O
  (c.ts.zip c.outs).map fun x => (wireInputPoint x.1.1 x.1.2 pk.compressed.1, (decompress x.2.bytes).getD 0)

/-- The encoding of a pair of points. -/
def encPoints (p : P × P) : Bytes × Bytes := ((compress p.1).1, (compress p.2).1)

/-- The hash query for the coefficient of `p` when merging `ps`. -/
def pairQuery (pk : Bytes) (ps : List (P × P)) (p : P × P) : List MOp :=
  mergeQuery pk (ps.map encPoints) (encPoints p)

/-- A point of each pair, weighted with the coefficient of the pair, summed. -/
def mergedPoint (O : Oracles) (pk : Bytes) (ps : List (P × P)) (side : P × P → P) : P :=
  letI := O
  (ps.map fun p => mergeCoeff pk (ps.map encPoints) (encPoints p) • side p).sum

/-- The hash queries of the verification: the inputs, the coefficients, and the challenge of the proof. (If some output
does not decode verification stops earlier and makes fewer.) -/
def VrfsClaim.queries (O : Oracles) (pk : PublicKey P) (c : VrfsClaim) : List (List MOp) :=
  (c.ts.zip c.outs).map (fun x => vrfInputQuery x.1.1 x.1.2 pk.compressed.1) ++
  ((c.pairs O pk).map (pairQuery pk.compressed.1 (c.pairs O pk)) ++
  [wireQuery c.extra pk.point pk.compressed.1 (mergedPoint O pk.compressed.1 (c.pairs O pk) Prod.fst)
    (mergedPoint O pk.compressed.1 (c.pairs O pk) Prod.snd) c.proof.c.toZ c.proof.s.toZ])

end Spec
