import Verif.Spec.Rom
import Verif.Spec.VrfWire

/-! # What an attacker on the VRF's uniqueness outputs -/

namespace Spec
open Schnorrkel
variable {P : Type} [Ristretto P]

/-- A claimed VRF output: the input transcript (its kind and history), the history of the extra transcript, the output
bytes and the proof. -/
structure VrfClaim where
  malleable : Bool
  log : List MOp
  extra : List MOp
  out : VRFPreOut
  proof : VRFProof

/-- `PublicKey::vrf_verify_extra` on the claim, with hash functions `O`. -/
def VrfClaim.verify (O : Oracles) (pk : PublicKey P) (c : VrfClaim) :
    SignatureResult (VRFInOut P × VRFProofBatchable) :=
  letI := O
  PublicKey.vrfVerifyExtra pk (wireInput c.malleable c.log) c.out c.proof (⟨c.extra⟩ : Transcript)

/-- The point the claim's input transcript hashes to. -/
def VrfClaim.input (O : Oracles) (pk : PublicKey P) (c : VrfClaim) : P :=
  letI := O
  wireInputPoint c.malleable c.log pk.compressed.1

/-- The hash queries made by that verification. -/
def VrfClaim.queries (O : Oracles) (pk : PublicKey P) (c : VrfClaim) : List (List MOp) :=
  vrfInputQuery c.malleable c.log pk.compressed.1 ::
    match (decompress c.out.bytes : Option P) with
    | none => []
    | some o => [wireQuery c.extra pk.point pk.compressed.1 (c.input O pk) o c.proof.c.toZ c.proof.s.toZ]

end Spec
