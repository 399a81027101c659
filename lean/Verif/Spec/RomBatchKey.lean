import Verif.Spec.RomBatch
import Verif.Spec.RomKey

/-! # Batch verification in the presence of the owner of a key -/

namespace Spec
open Schnorrkel

/-- The same client, its result passed through `g`. -/
def Client.after {Req Ans α β : Type} (g : α → β) : Client Req Ans α → Client Req Ans β
  | .ret a => .ret (g a)
  | .ask q k => .ask q fun w => (k w).after g
  | .request r k => .request r fun a => (k a).after g

section
variable {P : Type} [Ristretto P]

/-- Entry `i` of the batch is under the key `pk`, its signature was read from bytes, and the owner did not give it out for
that transcript. -/
def SigBatch.Unsigned (c : SigBatch P) (pk : PublicKey P) (log : List (KeyRequest P × KeyAnswer P)) (i : Fin c.n) : Prop :=
  c.pk i = pk ∧ (∃ bytes, Signature.fromBytes bytes = .ok (c.sig i)) ∧
    ∀ sys, (.sign (c.t i) sys, .signature (c.sig i)) ∉ log

/-- The attack succeeds: `verify_batch`, drawing the bytes `rng` supplies, accepts a batch of well-formed keys in which some
entry was not signed by the owner `kp` of its key. -/
def ForgesBatch (O : Oracles) (kp : Keypair P) (mode : ZipMode) (dedup : Bool) (rng : Rng)
    (A : Client (KeyRequest P) (KeyAnswer P) (SigBatch P)) : Prop :=
  let r := (A.logged []).play O (serveKey O kp)
  (∀ i, (r.1.pk i).WF) ∧ r.1.accepted O mode dedup rng ∧ ∃ i, r.1.Unsigned kp.pub r.2 i

open Classical in
/-- Point out an entry that was not signed. -/
noncomputable def SigBatch.accuse (pk : PublicKey P) (r : SigBatch P × List (KeyRequest P × KeyAnswer P)) : KeyForgery P :=
  if h : ∃ i, r.1.Unsigned pk r.2 i then .signature (r.1.t h.choose) (r.1.sig h.choose).toBytes.1
  else .signature ⟨[]⟩ []

/-- The attacker on batches as one that outputs a single forged signature. -/
noncomputable def pickForgery (pk : PublicKey P) (A : Client (KeyRequest P) (KeyAnswer P) (SigBatch P)) :
    Client (KeyRequest P) (KeyAnswer P) (KeyForgery P) :=
  (A.logged []).after (SigBatch.accuse pk)

/-- `D` contains the hash queries that verifying the batch can make. -/
def SigBatch.Within (D : Finset (List MOp)) (c : SigBatch P) : Prop :=
  (∀ i, challengeOf (c.pk i) (c.t i) (c.sig i).R.1 ∈ D) ∧ ∀ O r i, c.coefficientQuery O r i ∈ D

end

end Spec

/-! ## Batches of VRF proofs -/

namespace Spec
open Schnorrkel
variable {P : Type} [Ristretto P]

/-- Entry `i` of the batch is under the key `pk`, its proof was read from bytes, and the owner did not give it out (with a
proof without extra transcript) for that input and output. -/
def VrfBatch.Unproved (c : VrfBatch P) (O : Oracles) (pk : PublicKey P) (log : List (KeyRequest P × KeyAnswer P))
    (i : Fin c.n) : Prop :=
  letI := O
  let input : P := wireInputPoint (c.malleable i) (c.log i) pk.compressed.1
  c.pk i = pk ∧ (∃ bytes, VRFProofBatchable.fromBytes bytes = .ok (c.b i)) ∧
    ∀ output sys π, compress output = (c.out i).bytes →
      (.prove ⟨wireNoExtra⟩ input true sys, .proof (ioOf input output) π (c.b i)) ∉ log

/-- The attack succeeds: `vrf_verify_batch`, drawing the bytes `rng` supplies, accepts a batch in which some proof was not
made by the owner `kp` of its key. -/
def ForgesVrfBatch (O : Oracles) (kp : Keypair P) (rng : Rng) (A : Client (KeyRequest P) (KeyAnswer P) (VrfBatch P)) : Prop :=
  let r := (A.logged []).play O (serveKey O kp)
  (∃ ios, r.1.verify O rng = .ok ios) ∧ ∃ i, r.1.Unproved O kp.pub r.2 i

/-- Asking a list of hash queries, then going on with the answers. -/
def Client.asking {Req Ans α : Type} : List (List MOp) → (List (Arr 64) → Client Req Ans α) → Client Req Ans α
  | [], k => k []
  | q :: qs, k => .ask q fun w => asking qs fun ws => k (w :: ws)

/-- The queries for the inputs of the entries. -/
def VrfBatch.inputQueries (c : VrfBatch P) : List (List MOp) :=
  List.ofFn fun i => vrfInputQuery (c.malleable i) (c.log i) (c.pk i).compressed.1

/-- The queries for the challenges of the entries, whose inputs are made of the bytes `as`. -/
def VrfBatch.challengeQueries (c : VrfBatch P) (as : List (Arr 64)) : List (List MOp) :=
  List.ofFn fun i : Fin c.n => dleqQuery wireNoExtra true (compress (fromUniform (as.getD i (zeros 64)) : P)).1
    (c.pk i).compressed.1 (c.b i).R.1 (c.b i).Hr.1 (c.out i).bytes.1

/-- The attacker on VRF batches, followed by the hash queries of the entries. -/
def thenAnswers : Client (KeyRequest P) (KeyAnswer P) (VrfBatch P) →
    Client (KeyRequest P) (KeyAnswer P) (VrfBatch P × List (Arr 64) × List (Arr 64))
  | .ret c => .asking c.inputQueries fun as => .asking (c.challengeQueries as) fun bs => .ret (c, as, bs)
  | .ask q k => .ask q fun w => thenAnswers (k w)
  | .request r k => .request r fun a => thenAnswers (k a)

/-- The short proof for entry `i`, whose challenge is made of the bytes `bs`. -/
def VrfBatch.short (c : VrfBatch P) (bs : List (Arr 64)) (i : Fin c.n) : VRFProof :=
  ⟨Scalar.ofZ (residue (bs.getD i (zeros 64))), (c.b i).s⟩

/-- Entry `i`, with output `Q`, is a valid proof under `pk` that was not given out. -/
def VrfBatch.Stolen (c : VrfBatch P) (as bs : List (Arr 64)) (pk : PublicKey P) (log : List (KeyRequest P × KeyAnswer P))
    (i : Fin c.n) (Q : P) : Prop :=
  let I : P := fromUniform (as.getD i (zeros 64))
  let w := residue (bs.getD i (zeros 64))
  let s := (c.b i).s.toZ
  c.pk i = pk ∧ (c.b i).s.Canonical ∧ compress Q = (c.out i).bytes ∧
    compress (w • pk.point + s • (basepoint : P)) = (c.b i).R ∧ compress (w • Q + s • I) = (c.b i).Hr ∧
    ∀ sys r, (.prove ⟨wireNoExtra⟩ I true sys, .proof (ioOf I Q) (c.short bs i) r) ∉ log

open Classical in
/-- Point out a proof that was not given out. -/
noncomputable def VrfBatch.accuse (pk : PublicKey P)
    (r : (VrfBatch P × List (Arr 64) × List (Arr 64)) × List (KeyRequest P × KeyAnswer P)) : KeyForgery P :=
  if h : ∃ i Q, r.1.1.Stolen r.1.2.1 r.1.2.2 pk r.2 i Q then
    .proof ⟨wireNoExtra⟩ (fromUniform (r.1.2.1.getD h.choose (zeros 64))) h.choose_spec.choose true
      (r.1.1.short r.1.2.2 h.choose).toBytes.1
  else .signature ⟨[]⟩ []

/-- The attacker on VRF batches as one that outputs a single forged proof. -/
noncomputable def pickProof (pk : PublicKey P) (A : Client (KeyRequest P) (KeyAnswer P) (VrfBatch P)) :
    Client (KeyRequest P) (KeyAnswer P) (KeyForgery P) :=
  ((thenAnswers A).logged []).after (VrfBatch.accuse pk)

/-- The batch has at most `N` entries, and `D` contains the hash queries that verifying it can make. -/
def VrfBatch.Within (D : Finset (List MOp)) (N : Nat) (c : VrfBatch P) : Prop :=
  c.n ≤ N ∧ (∀ l ∈ c.inputQueries, l ∈ D) ∧ (∀ as, ∀ l ∈ c.challengeQueries as, l ∈ D) ∧
    ∀ O r i, c.coefficientQuery O r i ∈ D

end Spec
