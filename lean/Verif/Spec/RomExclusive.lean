import Verif.Spec.RomSign
import Verif.Spec.VrfWire
import Verif.Lemmas.Keys

/-! # One signature, two meanings -/

namespace Spec
open Schnorrkel
variable {P : Type} [Ristretto P]

/-- What an attacker on exclusive ownership outputs: one signature in wire format and two transcripts with keys. -/
structure TwoMeanings (P : Type) where
  t₁ : Transcript
  pk₁ : PublicKey P
  t₂ : Transcript
  pk₂ : PublicKey P
  sig : Bytes

/-- The two meanings differ, the keys are well-formed and not the identity, and the signature verifies for both. -/
def TwoMeanings.Valid (O : Oracles) (c : TwoMeanings P) : Prop :=
  (c.t₁, c.pk₁) ≠ (c.t₂, c.pk₂) ∧ c.pk₁.WF ∧ c.pk₂.WF ∧ c.pk₁.point ≠ 0 ∧ c.pk₂.point ≠ 0 ∧
    ∃ σ, Signature.fromBytes c.sig = .ok σ ∧ verifyWith O c.pk₁ c.t₁ σ = .ok () ∧ verifyWith O c.pk₂ c.t₂ σ = .ok ()

/-- The hash queries of those two verifications. -/
def TwoMeanings.queries (c : TwoMeanings P) : List (List MOp) :=
  [challengeOf c.pk₁ c.t₁ (c.sig.take 32), challengeOf c.pk₂ c.t₂ (c.sig.take 32)]

/-- A statement about equal discrete logarithms, as given to `dleq_verify`. -/
structure DleqStatement (P : Type) where
  t : Transcript
  pk : PublicKey P
  io : VRFInOut P
  kusama : Bool

/-- All encodings in the statement match their points. -/
def DleqStatement.WF (s : DleqStatement P) : Prop := s.pk.WF ∧ s.io.input.WF ∧ s.io.output.WF

/-- The hash query when checking the proof for the statement. -/
def DleqStatement.query (s : DleqStatement P) (proof : VRFProof) : List MOp :=
  (Use.dleq s.t.log s.kusama s.io.input.compressed.1 s.pk.compressed.1
    (compress (proof.c.toZ • s.pk.point + proof.s.toZ • (basepoint : P))).1
    (compress (proof.c.toZ • s.io.output.point + proof.s.toZ • s.io.input.point)).1 s.io.output.compressed.1).query

end Spec
