import Verif.Spec.MuSig
import Verif.Spec.RomSign
import Verif.Lemmas.Keys

/-! # Attacks on aggregate keys of multi-signatures -/

namespace Spec
open Schnorrkel
variable {P : Type} [Ristretto P]

/-- The map with the given public keys. -/
def keyMap (l : List (PublicKey P)) : BMap P Unit := l.foldl (fun m k => m.set k ()) []

/-- Its keys: the distinct members of the list, in order. -/
def cosigners (l : List (PublicKey P)) : List (PublicKey P) := (keyMap l).keys

/-- Its aggregate public key, as the crate computes it, when the hash functions are `O`. -/
def jointKey (O : Oracles) (l : List (PublicKey P)) : PublicKey P := letI := O; (keyMap l).publicKey

/-- The hash query for the weight of `pk` among the cosigners `l`. -/
def weightOf (l : List (PublicKey P)) (pk : PublicKey P) : List MOp :=
  weightQuery ((cosigners l).map (·.compressed.1)) pk.compressed.1

/-- The attacker controls the aggregate key of some set of well-formed keys that includes `pk`: it knows the discrete
logarithm. -/
def ControlsJoint (O : Oracles) (pk : PublicKey P) (c : List (PublicKey P) × Z) : Prop :=
  (∀ k ∈ c.1, k.WF) ∧ pk ∈ c.1 ∧ (jointKey O c.1).point = c.2 • (basepoint : P)

/-- The secret key computed from two runs that differ only in the answer `v` to the weight of `pk`; `keys` and `log`
give, for each hash function, the cosigners and the logarithm of their aggregate key. -/
def weightExtract (pk : PublicKey P) (keys : Oracles → List (PublicKey P)) (log : Oracles → Z) (O : Oracles) (v : Arr 64) :
    Z :=
  let q := weightOf (keys O) pk
  (log (program O q v) - log O) / (residue v - hashWith O q)

/-- What a forger of multi-signatures outputs: the cosigners, the transcript and the signature in wire format. -/
structure JointClaim (P : Type) where
  keys : List (PublicKey P)
  t : Transcript
  sig : Bytes

/-- The signature verifies under the aggregate key of a set of well-formed keys that includes `pk`. -/
def JointClaim.Forges (O : Oracles) (pk : PublicKey P) (c : JointClaim P) : Prop :=
  (∀ k ∈ c.keys, k.WF) ∧ pk ∈ c.keys ∧
    ∃ σ, Signature.fromBytes c.sig = .ok σ ∧ verifyWith O (jointKey O c.keys) c.t σ = .ok ()

/-- The hash query for the challenge of that signature. -/
def JointClaim.challenge (O : Oracles) (c : JointClaim P) : List MOp :=
  challengeOf (jointKey O c.keys) c.t (c.sig.take 32)

/-- All hash queries of that verification: the weights and the challenge. -/
def JointClaim.queries (O : Oracles) (c : JointClaim P) : List (List MOp) :=
  (cosigners c.keys).map (weightOf c.keys) ++ [c.challenge O]

/-- The logarithm of the aggregate key computed from two runs of a forger that differ only in the answer `w` to the
challenge of its forgery. -/
def jointLog (A : Algo (JointClaim P)) (w : Arr 64) (O : Oracles) : Z :=
  let c := A.run O
  let q := c.challenge O
  (responseOf c.sig - responseOf (A.run (program O q w)).sig) / (hashWith O q - residue w)

/-- The secret key of one cosigner computed from four runs of the forger. -/
def extractMember (pk : PublicKey P) (A : Algo (JointClaim P)) (O : Oracles) (w v : Arr 64) : Z :=
  weightExtract pk (fun O => (A.run O).keys) (jointLog A w) O v

end Spec
