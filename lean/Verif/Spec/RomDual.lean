import Verif.Spec.RomCosign
import Verif.Spec.RomKey

/-! # Attacks on a cosigner whose key is also used for signatures, VRF proofs and certificates -/

namespace Spec
open Schnorrkel
variable {P : Type} [Ristretto P]

/-- Someone who asks hash queries, takes part in multi-signature sessions of the owner, and asks the owner for plain
signatures, VRF proofs and certificates, all in any order. -/
abbrev DualClient (P α : Type) := Client (CosignRequest P ⊕ KeyRequest P) (CosignAnswer ⊕ KeyAnswer P) α

/-- An attacker who asks hash queries, takes part in multi-signature sessions of the owner, and asks the owner for plain
signatures, VRF proofs and certificates, all in any order; finally it outputs a multi-signature. -/
abbrev DualAttacker (P : Type) := DualClient P (JointClaim P)

/-- The attack: the output, and the owner's state at the end.  One key pair serves all requests. -/
noncomputable def Owner.playDual {α : Type} (O : Oracles) (kp : Keypair P) : Owner P → DualClient P α → α × Owner P
  | o, .ret c => (c, o)
  | o, .ask q k => playDual O kp o (k (O.merlin q 64))
  | o, .request (.inl r) k => playDual O kp (o.step O kp r).2 (k (.inl (o.step O kp r).1))
  | o, .request (.inr r) k => playDual O kp o (k (.inr (serveKey O kp r)))

/-- The attacker wins: it outputs a signature that verifies under the aggregate key of a set of well-formed keys which
includes the owner's, and the owner has revealed in no session with that transcript and that aggregate key. -/
def ForgesDual (O : Oracles) (kp : Keypair P) (sys : Rng) (A : DualAttacker P) : Prop :=
  let r := (Owner.new sys).playDual O kp A
  r.1.Forges O kp.pub ∧ (r.1.t, jointKey O r.1.keys) ∉ r.2.revealed

/-- The same limits as `SessionBounded`, and at most `p` requests for signatures, proofs and certificates, all of a kind
in `K`. -/
def MixedBounded {α : Type} (D T : Finset (List MOp)) (K : Finset (KeyUse P)) (b : Nat) (fin : α → Prop) :
    Nat → Nat → Nat → Nat → DualClient P α → Prop
  | _, _, _, _, .ret c => fin c
  | q, m, r, p, .ask l k => l ∈ D ∧ ∃ q', q = q' + 1 ∧ ∀ w, MixedBounded D T K b fin q' m r p (k w)
  | q, m, r, p, .request (.inl (.start t)) k => t.log ∈ T ∧ ∃ m', m = m' + 1 ∧ ∀ a, MixedBounded D T K b fin q m' r p (k a)
  | q, m, r, p, .request (.inl (.reveal _ cs)) k =>
    cs.length ≤ b ∧ ∃ r', r = r' + 1 ∧ ∀ a, MixedBounded D T K b fin q m r' p (k a)
  | q, m, r, p, .request (.inl (.cosign _ rs)) k =>
    rs.length ≤ b ∧ ∃ r', r = r' + 1 ∧ ∀ a, MixedBounded D T K b fin q m r' p (k a)
  | q, m, r, p, .request (.inr rq) k => rq.use ∈ K ∧ ∃ p', p = p' + 1 ∧ ∀ a, MixedBounded D T K b fin q m r p' (k a)

/-- The same limits as `CosignBounded`, and at most `p` requests for signatures, proofs and certificates, all of a kind
in `K`. -/
def DualBounded (O : Oracles) (D T : Finset (List MOp)) (K : Finset (KeyUse P)) (b g q m r p : Nat) (A : DualAttacker P) : Prop :=
  MixedBounded D T K b (fun c => (cosigners c.keys).length ≤ g ∧ ∀ f : D → Arr 64, ∀ l ∈ c.queries (wideTable O D f), l ∈ D) q m r p A

/-- An attack on the multi-signature sessions alone: requests for signatures, proofs and certificates are answered *without
the secret key*, from coins.  Hash queries in `pg` have been given answers that way. -/
noncomputable def serveInside {α : Type} (pk : PublicKey P) (dh : P → P) (coins : KeyUse P → Arr 64 × Arr 64) :
    Known → DualClient P α → Client (CosignRequest P) CosignAnswer α
  | _, .ret c => .ret c
  | pg, .ask q k => match pg.lookup q with
    | some w => serveInside pk dh coins pg (k w)
    | none => .ask q fun w => serveInside pk dh coins pg (k w)
  | pg, .request (.inl r) k => .request r fun a => serveInside pk dh coins pg (k (.inl a))
  | pg, .request (.inr r) k =>
    let c := coins r.use
    serveInside pk dh coins ((r.use.query pk dh (residue c.1) (residue c.2), c.2) :: pg)
      (k (.inr (r.use.answer pk dh (residue c.1) (residue c.2))))

/-- Bound on how often doing without the secret key goes wrong, for the numbers in `DualBounded`. -/
def dualLoss (b q m r p : Nat) : ℚ :=
  cosignLoss b q m r + p / 2 ^ 256 + p * ((q + p : Nat) * guess + spare) + (q + p + r + 1 : Nat) * guess

/-- The secret key of the owner computed from four runs of the simulated attack; `dh` gives VRF outputs. -/
noncomputable def extractDual (O : Oracles) (me : PublicKey P) (dh : P → P) {m : Nat} {K : Finset (KeyUse P)} (A : DualAttacker P)
    (C : (K → Arr 64 × Arr 64) × CosignCoins m) (O' : Oracles) (w v : Arr 64) : Z :=
  extractCosigner O me (serveInside me dh (coinsOf C.1) [] A) C.2 O' w v

end Spec
