import Verif.Spec.RomDh
import Verif.Spec.VrfWire

/-! # The VRF as a random function

A VRF key owner signs VRF input transcripts (output and proof), and for other transcripts shows bytes made from the output
without a proof.  Are these bytes random?  Telling them from random bytes amounts to this problem: given a public key
`X = x • B` and 64 random bytes `w`, find `x • Y`, where `Y` is the point that `w` is mapped to. -/

namespace Spec
open Schnorrkel

section
variable {P : Type} [Ristretto P] {α : Type}

/-- What one can ask of a VRF key owner. -/
inductive WireRequest (P : Type) where
  /-- sign a transcript -/
  | sign (t : Transcript) (sys : Rng)
  /-- issue a certificate -/
  | issue (t : Transcript) (seed : P) (sys : Rng)
  /-- `vrf_sign_extra` on the input transcript with history `log` -/
  | prove (malleable : Bool) (log : List MOp) (extra : Transcript) (sys : Rng)
  /-- `make_bytes` of `n ≤ 64` bytes from the VRF output on the input transcript with history `log` -/
  | bytes (malleable : Bool) (log : List MOp) (ctx : Bytes) (n : Fin 65)

/-- The owner's answer. -/
def serveWire (O : Oracles) (kp : Keypair P) : WireRequest P → KeyAnswer P ⊕ Bytes
  | .sign t sys => .inl (.signature (signWith O kp.secret t kp.pub sys))
  | .issue t seed sys => .inl (.cert (issueWith O kp t (PublicKey.fromPoint seed) sys))
  | .prove malleable log extra sys => letI := O
    let r := kp.vrfSignExtra (wireInput malleable log) extra sys
    .inl (.proof r.1 r.2.1 r.2.2)
  | .bytes malleable log ctx n => letI := O
    .inr ((kp.vrfCreateHash (wireInput malleable log)).makeBytes ctx n.1).1

/-- The owner's answer, except that the bytes are random: one independent string for each context, input point and length. -/
noncomputable def serveIdeal (O : Oracles) (kp : Keypair P) {S : Finset (SecretValue P)} (g : S → Arr 64) :
    WireRequest P → KeyAnswer P ⊕ Bytes
  | .bytes malleable log ctx n =>
    .inr (randomValue g (.vrfBytes ctx (@wireInputPoint P _ O malleable log kp.pub.compressed.1) n))
  | r => serveWire O kp r

/-- Proofs and bytes without proofs are never asked for at the same input (`proved` and `shown` so far), whatever the
answers. -/
def Client.Separate (pk : Bytes) : List (List MOp) → List (List MOp) → Client (WireRequest P) (KeyAnswer P ⊕ Bytes) α → Prop
  | _, _, .ret _ => True
  | proved, shown, .ask _ k => ∀ w, Separate pk proved shown (k w)
  | proved, shown, .request (.prove malleable log _ _) k =>
    vrfInputQuery malleable log pk ∉ shown ∧ ∀ a, Separate pk (vrfInputQuery malleable log pk :: proved) shown (k a)
  | proved, shown, .request (.bytes malleable log _ _) k =>
    vrfInputQuery malleable log pk ∉ proved ∧ ∀ a, Separate pk proved (vrfInputQuery malleable log pk :: shown) (k a)
  | proved, shown, .request (.sign _ _) k => ∀ a, Separate pk proved shown (k a)
  | proved, shown, .request (.issue _ _ _) k => ∀ a, Separate pk proved shown (k a)

/-- The same client, which hashes the VRF inputs by itself and then asks for outputs at points. -/
def Client.onPoints (pk : Bytes) : Client (WireRequest P) (KeyAnswer P ⊕ Bytes) α →
    Client (KeyRequest P ⊕ SecretValue P) (KeyAnswer P ⊕ Bytes) α
  | .ret a => .ret a
  | .ask q k => .ask q fun w => onPoints pk (k w)
  | .request (.sign t sys) k => .request (.inl (.sign t sys)) fun a => onPoints pk (k a)
  | .request (.issue t seed sys) k => .request (.inl (.issue t seed sys)) fun a => onPoints pk (k a)
  | .request (.prove malleable log extra sys) k => .ask (vrfInputQuery malleable log pk) fun w =>
    .request (.inl (.prove extra (fromUniform w) true sys)) fun a => onPoints pk (k a)
  | .request (.bytes malleable log ctx n) k => .ask (vrfInputQuery malleable log pk) fun w =>
    .request (.inr (.vrfBytes ctx (fromUniform w) n)) fun a => onPoints pk (k a)

/-- The message absorbed last by a hash query. -/
def lastMessage (l : List MOp) : Bytes :=
  match absorbed l with
  | [] => []
  | (_, b) :: _ => b

open Classical in
/-- VRF outputs of the owner of `X` at points that hash answers are mapped to, from the logarithms of these points (`F` is a
table of hash answers with logarithms; the entry for `target`, if any, is not used). -/
noncomputable def outputsExcept {D : Finset (List MOp)} (X : P) (F : D → Arr 64 × Z) (target : Option (List MOp)) (I : P) : P :=
  if h : ∃ d : D, some d.1 ≠ target ∧ fromUniform (F d).1 = I then (F h.choose).2 • X else 0

/-- Finding `x • Y` from `X` and 64 bytes `w` that are mapped to `Y`.  Run the client in a world without secrets, with random
hash answers `F` whose points have known logarithms; find its `j`-th hash query, make `w` the answer to that one, run it
again, and read the result off its `i`-th last hash query.  (Hash answers with known logarithms are made by drawing the
logarithm and inverting the map.) -/
noncomputable def vrfSolver (O : Oracles) (X : P) {D : Finset (List MOp)} {K : Finset (KeyUse P)}
    {S : Finset (SecretValue P)} (A : Client (WireRequest P) (KeyAnswer P ⊕ Bytes) α)
    (C : K → Arr 64 × Arr 64) (F : D → Arr 64 × Z) (g : S → Arr 64) (w : Arr 64) (j i : Nat) : Bytes :=
  let pk := PublicKey.fromPoint X
  let T := table O D fun d => (F d).1
  let first := withoutSecrets pk (outputsExcept X F none) (A.onPoints pk.compressed.1) C g
  match (first.asked T)[j]? with
  | none => []
  | some l =>
    let second := withoutSecrets pk (outputsExcept X F (some l)) (A.onPoints pk.compressed.1) C g
    match (second.run (program T l w)).2.1[i]? with
    | none => []
    | some l' => lastMessage l'

/-! ## Predicting outputs -/

/-- A guess: the `n` bytes that `make_bytes` gives in the context `ctx` on the VRF input transcript with history `log`. -/
structure VrfGuess where
  malleable : Bool
  log : List MOp
  ctx : Bytes
  n : Fin 65
  bytes : Bytes

/-- The guess is right, and the bytes were not asked for (at that input, in that context and of that length). -/
def VrfGuess.Right (O : Oracles) (kp : Keypair P) (requests : List (WireRequest P)) (c : VrfGuess) : Prop :=
  letI := O
  c.bytes = ((kp.vrfCreateHash (wireInput c.malleable c.log)).makeBytes c.ctx c.n.1).1 ∧
  ∀ malleable log, .bytes malleable log c.ctx c.n ∈ requests →
    (kp.vrfCreateHash (wireInput malleable log)).input ≠ (kp.vrfCreateHash (wireInput c.malleable c.log)).input

/-- The same client, which then asks for the bytes it guessed; it also hashes the inputs by itself, and notes at which
points, in which contexts and of which lengths it asked for bytes. -/
def Client.tried (pk : Bytes) : List (P × Bytes × Fin 65) → Client (WireRequest P) (KeyAnswer P ⊕ Bytes) VrfGuess →
    Client (WireRequest P) (KeyAnswer P ⊕ Bytes) (VrfGuess × P × (KeyAnswer P ⊕ Bytes) × List (P × Bytes × Fin 65))
  | ps, .ret c => .ask (vrfInputQuery c.malleable c.log pk) fun w =>
    .request (.bytes c.malleable c.log c.ctx c.n) fun a => .ret (c, fromUniform w, a, ps)
  | ps, .ask q k => .ask q fun w => tried pk ps (k w)
  | ps, .request (.bytes malleable log ctx n) k => .ask (vrfInputQuery malleable log pk) fun w =>
    .request (.bytes malleable log ctx n) fun a => tried pk ((fromUniform w, ctx, n) :: ps) (k a)
  | ps, .request (.prove malleable log extra sys) k => .request (.prove malleable log extra sys) fun a => tried pk ps (k a)
  | ps, .request (.sign t sys) k => .request (.sign t sys) fun a => tried pk ps (k a)
  | ps, .request (.issue t seed sys) k => .request (.issue t seed sys) fun a => tried pk ps (k a)

end

end Spec
