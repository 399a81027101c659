import Verif.Spec.RomDual

/-! # Attacks on plain signatures, VRF proofs and certificates of a key that is also used for multi-signatures -/

namespace Spec
open Schnorrkel
variable {P : Type} [Ristretto P]

/-- The attack: the output, and the signatures, proofs and certificates the owner has given out (latest first).  One key
pair serves all requests. -/
noncomputable def Owner.playMixed (O : Oracles) (kp : Keypair P) : Owner P → List (KeyRequest P × KeyAnswer P) →
    DualClient P (KeyForgery P) → KeyForgery P × List (KeyRequest P × KeyAnswer P)
  | _, log, .ret c => (c, log)
  | o, log, .ask q k => playMixed O kp o log (k (O.merlin q 64))
  | o, log, .request (.inl r) k => playMixed O kp (o.step O kp r).2 log (k (.inl (o.step O kp r).1))
  | o, log, .request (.inr r) k => playMixed O kp o ((r, serveKey O kp r) :: log) (k (.inr (serveKey O kp r)))

/-- The attacker wins: it outputs a signature, VRF proof or certificate that is right under the owner's key and that the
owner has not given out.  Whatever happened in the multi-signature sessions does not matter. -/
def ForgesMixed (O : Oracles) (kp : Keypair P) (sys : Rng) (A : DualClient P (KeyForgery P)) : Prop :=
  let r := (Owner.new sys).playMixed O kp [] A
  r.1.Valid O kp.pub r.2

/-- The attack simulated without the secret key, followed by the check of its claim. -/
noncomputable def simulateMixed (O : Oracles) (pk : PublicKey P) (dh : P → P) {m : Nat} {K : Finset (KeyUse P)}
    (A : DualClient P (KeyForgery P)) (C : (K → Arr 64 × Arr 64) × CosignCoins m) : Algo (KeyForgery P) :=
  (simulateCosign O pk C.2 [] [] (serveInside pk dh (coinsOf C.1) [] A)).bind fun c => .ask (c.query pk) fun _ => .ret c

/-- The secret key of the owner computed from two runs of the simulated attack: the first with the hash answers `f`, the
second with the answers from the query its claim is about on replaced by those of `g`; `dh` gives VRF outputs. -/
noncomputable def extractMixed (O : Oracles) (pk : PublicKey P) (dh : P → P) {m : Nat} {K : Finset (KeyUse P)}
    {D : Finset (List MOp)} (A : DualClient P (KeyForgery P)) (C : (K → Arr 64 × Arr 64) × CosignCoins m) (f g : D → Arr 64) : Z :=
  let B := simulateMixed O pk dh A C
  let r := B.run (table O D f)
  let q := r.query pk
  let f' := rewind ((B.asked (table O D f)).takeWhile (· ≠ q)) f g
  let r' := B.run (table O D f')
  (r.response - r'.response) / (hashWith (table O D f) q - hashWith (table O D f') q)

end Spec
