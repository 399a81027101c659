import Verif.Lemmas.RomCosignView
import Verif.Lemmas.RomSeed

/-! # The games between the attacker and a cosigner -/

namespace Schnorrkel
open Spec Schnorrkel.Props
variable {P : Type} [Ristretto P] {D : Finset (List MOp)}

/-- The nonce points made from random bytes. -/
def noncePoints (P : Type) [Ristretto P] (v : Fin 3 → Arr 64) : RevealedPoints P :=
  ⟨⟨[residue (v 0) • (basepoint : P), residue (v 1) • basepoint, residue (v 2) • basepoint], rfl⟩⟩

theorem nonceReveal_eq (v : Fin 3 → Arr 64) : nonceReveal P v = (noncePoints P v).toReveal := rfl

/-- The query for the owner's weight. -/
def ownWeight (me : PublicKey P) (V : View P) : List MOp := weightQuery (V.keys.map (·.compressed.1)) me.compressed.1

/-- The owner's cosignature for a view. -/
noncomputable def shareIn (O : Oracles) (x : Z) (me : PublicKey P) (t : Transcript) (v : Fin 3 → Arr 64) (V : View P) : Z :=
  (List.zipWith (· * ·) (coeffO O t V me.compressed) [residue (v 0), residue (v 1), residue (v 2)]).sum +
    hashWith O (chalQ O t V) * hashWith O (ownWeight me V) * x

/-- The owner's cosignature, when the nonce points of the others are `es`. -/
noncomputable def realShare (O : Oracles) (x : Z) (me : PublicKey P) (t : Transcript) (v : Fin 3 → Arr 64) (es : View P) : Scalar :=
  Scalar.ofZ (shareIn O x me t v (BMap.set es me (noncePoints P v)))

/-- A session of the owner; its nonces are drawn when it reveals. -/
abbrev RealPhase (P : Type) := Phase P (Arr 64) (Fin 3 → Arr 64)

/-- The transcripts and the commitments on record of all sessions in which the owner has revealed. -/
def revealedIn {K V : Type} (ss : List (Phase P K V)) : List (Transcript × BMap P Commitment) :=
  ss.filterMap fun
    | .committing _ _ => none
    | .revealing t _ coms => some (t, coms)
    | .finished t coms => some (t, coms)

/-- What an attack on the sessions may be after. -/
class Goal (P : Type) [Ristretto P] (α : Type) where
  /-- The keys it names. -/
  keys : α → List (PublicKey P)
  /-- The hash queries of its verification, under the owner's key. -/
  queries : Oracles → PublicKey P → α → List (List MOp)
  /-- It is right. -/
  Wins : Oracles → PublicKey P → α → Prop
  /-- A session for that transcript and that aggregate key spoils it. -/
  About : Oracles → PublicKey P → α → Transcript → PublicKey P → Prop
  /-- Nothing but the answers to these queries matters. -/
  wins_congr : ∀ (O₁ O₂ : Oracles) (me : PublicKey P) (c : α), (∀ l ∈ queries O₁ me c, O₁.merlin l 64 = O₂.merlin l 64) →
    (Wins O₁ me c ↔ Wins O₂ me c)
  about_congr : ∀ (O₁ O₂ : Oracles) (me : PublicKey P) (c : α) (t : Transcript) (a : PublicKey P),
    (∀ l ∈ queries O₁ me c, O₁.merlin l 64 = O₂.merlin l 64) → (About O₁ me c t a ↔ About O₂ me c t a)
  /-- The queries are for challenges. -/
  ends : ∀ (O : Oracles) (me : PublicKey P) (c : α), ∀ l ∈ queries O me c, l.getLast? ≠ some (.challenge (b! "commitment") 16) ∧ l.getLast? ≠ some (.prf 64)

/-- Sessions that do not spoil the outcome have other challenges. -/
class Goal.Separated (P : Type) [Ristretto P] (α : Type) [Goal P α] : Prop where
  about : ∀ (O : Oracles) (me : PublicKey P) (c : α) (t : Transcript) (a : P) (R : Bytes), Goal.Wins O me c →
    challengeOf (PublicKey.fromPoint a) t R ∈ Goal.queries O me c → Goal.About O me c t (PublicKey.fromPoint a)

/-- The claim is a forgery that no revealed session is about. -/
def WinJoint {α : Type} [Goal P α] {K V : Type} (O : Oracles) (me : PublicKey P) (ss : List (Phase P K V)) (c : α) : Prop :=
  Goal.Wins O me c ∧ ∀ s ∈ revealedIn ss, ¬ Goal.About O me c s.1 (PublicKey.fromPoint (aggO O (groupKeys me s.2)))

variable {α : Type} [Goal P α]

/-- The answer to a request for a cosignature. -/
noncomputable def cosignAnswer (O : Oracles) (x : Z) (me : PublicKey P) (t : Transcript) (v : Fin 3 → Arr 64)
    (coms : BMap P Commitment) (rs : List (P × Reveal)) : CosignAnswer :=
  match openBy O coms rs with
  | some es => .share ⟨(realShare O x me t v es).bytes⟩
  | none => .refused

open Classical in
/-- The chance that the attack succeeds when the owner draws a random commitment when a session starts, and draws the
nonces and makes the hash function answer with that commitment when it reveals. -/
noncomputable def val1 (O : Oracles) (hD : ∀ r, commitmentQuery r ∈ D) (me : PublicKey P) (x : Z) :
    (D → Arr 64) → List (RealPhase P) → Client (CosignRequest P) CosignAnswer α → ℚ
  | F, ss, .ret c => ind (WinJoint (wideTable O D F) me ss c)
  | F, ss, .ask q k => val1 O hD me x F ss (k ((wideTable O D F).merlin q 64))
  | F, ss, .request (.start t) k =>
    avg fun κ : Arr 64 => val1 O hD me x F (ss ++ [.committing t κ]) (k (.commitment (pref κ)))
  | F, ss, .request (.reveal i cs) k =>
    match ss[i]? with
    | some (.committing t κ) =>
      avg fun v : Fin 3 → Arr 64 => val1 O hD me x (Function.update F ⟨_, hD (nonceReveal P v)⟩ κ)
        (ss.set i (.revealing t v (registered me cs))) (k (.reveal (nonceReveal P v)))
    | _ => val1 O hD me x F ss (k .refused)
  | F, ss, .request (.cosign i rs) k =>
    match ss[i]? with
    | some (.revealing t v coms) =>
      val1 O hD me x F (ss.set i (.finished t coms)) (k (cosignAnswer (wideTable O D F) x me t v coms rs))
    | _ => val1 O hD me x F ss (k .refused)

/-- The commitments not yet opened. -/
def pendingOf {V : Type} (ss : List (Phase P (Arr 64) V)) : List Commitment :=
  ss.filterMap fun
    | .committing _ κ => some (pref κ)
    | _ => none

/-- The nonces that make the simulated points equal to those made from `v`. -/
def shifted (x : Z) (w : Arr 64) (v : Fin 3 → Arr 64) : Fin 3 → Arr 64 := fun j =>
  if j = 0 then shift (residue w * x) (v j) else v j

/-- Settling a session. -/
noncomputable def sampleOne (O : Oracles) (me : PublicKey P) (t : Transcript) (c : (Fin 3 → Arr 64) × Arr 64) (es : View P) (S : TB)
    (φ : TB → View P × Scalar → ℚ) : ℚ :=
  let V : View P := BMap.set es me (fakePoints me c)
  sampleAll (weightQueries V.keys) S fun S₂ =>
  sampleAll (coeffQueries me t (aggO (S₂.1.oracle O) V.keys) V) S₂ fun S₃ =>
  let x := coeffO (S₃.1.oracle O) t V me.compressed
  let a := hashWith (S₃.1.oracle O) (ownWeight me V)
  let Q := challengeOf (PublicKey.fromPoint (aggO (S₂.1.oracle O) V.keys)) t (compress (nonceO (S₃.1.oracle O) t V)).1
  let s := (List.zipWith (· * ·) x [residue (c.1 0), residue (c.1 1), residue (c.1 2)]).sum
  φ ((Q, rescale (x.headD 0 / a) c.2) :: S₃.1, S₃.2) (es, Scalar.ofZ s)

/-- Settling sessions; `ns` are the nonces. -/
noncomputable def sampleSettle (O : Oracles) (me : PublicKey P) (x : Z) (ns : Nat → Fin 3 → Arr 64)
    (φ : TB → List (FakePhase P) → ℚ) : List Nat → TB → List (FakePhase P) → ℚ
  | [], S, ss => φ S ss
  | j :: js, S, ss =>
    match ripe S.1 ss j with
    | some (t, coms, es) => avg fun w : Arr 64 => sampleOne O me t (shifted x w (ns j), w) es S fun S o =>
        sampleSettle O me x ns φ js S (ss.set j (.revealing t (some o) coms))
    | none => sampleSettle O me x ns φ js S ss

open Classical in
/-- The answer of a simulated session to a request for a cosignature. -/
noncomputable def fakeAnswer (o : Option (View P × Scalar)) (rs : List (P × Reveal)) : CosignAnswer :=
  match o with
  | some (es, s) => if allRevealed es rs then .share ⟨s.bytes⟩ else .refused
  | none => .refused

open Classical in
/-- A game between the two: the nonces `ns` are drawn as in the real one, the coins for settling a session are drawn when it
is settled. -/
noncomputable def val2 (O : Oracles) (D : Finset (List MOp)) (me : PublicKey P) (x : Z) :
    (Nat → Fin 3 → Arr 64) → TB → List (FakePhase P) → Client (CosignRequest P) CosignAnswer α → ℚ
  | _, S, _, .ret c => avg fun f : D → Arr 64 => ind (Goal.Wins (wideTable O D (ov (Lk S.2) f)) me c)
  | ns, S, ss, .ask q k => sample q S fun S => val2 O D me x ns S ss (k ((S.1.oracle O).merlin q 64))
  | ns, S, ss, .request (.start t) k =>
    avg fun κ : Arr 64 => val2 O D me x ns S (ss ++ [.committing t κ]) (k (.commitment (pref κ)))
  | ns, S, ss, .request (.reveal i cs) k =>
    match ss[i]? with
    | some (.committing t κ) => avg fun v : Fin 3 → Arr 64 => if Beyond (v 0) then 0 else
        sampleSettle O me x (Function.update ns i v)
          (fun S ss => val2 O D me x (Function.update ns i v) S ss (k (.reveal (nonceReveal P v)))) (List.range ss.length)
          ((commitmentQuery (nonceReveal P v), κ) :: S.1, S.2) (ss.set i (.revealing t none (registered me cs)))
    | _ => val2 O D me x ns S ss (k .refused)
  | ns, S, ss, .request (.cosign i rs) k =>
    match ss[i]? with
    | some (.revealing t o coms) =>
      sampleAll (rs.map fun e => commitmentQuery e.2) S fun S =>
        val2 O D me x ns S (ss.set i (.finished t coms)) (k (fakeAnswer o rs))
    | _ => val2 O D me x ns S ss (k .refused)

end Schnorrkel
