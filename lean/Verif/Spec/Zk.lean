import Verif.Spec.Domain

/-! # Random-oracle programming, and counting 64-byte strings -/

namespace Spec
open Schnorrkel

/-- The hash functions `O`, except that merlin answers `ans` to the single query `q` of length `n`. -/
def program (O : Oracles) (q : List MOp) {n : Nat} (ans : Arr n) : Oracles :=
  { O with merlin := fun l m => if h : l = q ∧ n = m then h.2 ▸ ans else O.merlin l m }

/-- Residue of a 64-byte string modulo the group order. -/
def residue (w : Arr 64) : Z := ((leNat w.1 : Nat) : Z)

/-- `PublicKey::verify` on a merlin transcript when the hash functions are `O`. -/
def verifyWith {P : Type} [Ristretto P] (O : Oracles) (pk : PublicKey P) (t : Transcript) (sig : Signature) :
    SignatureResult Unit := letI := O; (PublicKey.verify pk t sig).1

/-- `SecretKey::sign` on a merlin transcript when the hash functions are `O`. -/
def signWith {P : Type} [Ristretto P] (O : Oracles) (sk : SecretKey) (t : Transcript) (pk : PublicKey P) (sys : Rng) :
    Signature := letI := O; (sk.sign t pk sys).1

/-- `PublicKey::dleq_verify` on a merlin transcript when the hash functions are `O`. -/
def dleqVerifyWith {P : Type} [Ristretto P] (O : Oracles) (pk : PublicKey P) (t : Transcript) (p : VRFInOut P)
    (proof : VRFProof) (kusama : Bool) : SignatureResult VRFProofBatchable :=
  letI := O; (PublicKey.dleqVerify pk t p proof kusama).1

/-- `Keypair::dleq_proove` on a merlin transcript when the hash functions are `O`. -/
def dleqProoveWith {P : Type} [Ristretto P] (O : Oracles) (kp : Keypair P) (t : Transcript) (p : VRFInOut P)
    (kusama : Bool) (sys : Rng) : VRFProof × VRFProofBatchable :=
  letI := O; (kp.dleqProove t p kusama sys).1

/-- The answer of `O` to a merlin query, as a residue. -/
def hashWith (O : Oracles) (q : List MOp) : Z := letI := O; hashToZ q

end Spec
