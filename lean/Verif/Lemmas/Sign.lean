import Verif.Lemmas.Keys
import Verif.Spec

namespace Schnorrkel
open SigningTranscript

namespace TSim
variable {T₁ T₂ : Type} [SigningTranscript T₁] [SigningTranscript T₂] {R : T₁ → T₂ → Prop}

theorem proto (h : TSim R) {a b} (l) (hr : R a b) : R (protoName a l) (protoName b l) :=
  h.commit _ _ _ _ hr
theorem point (h : TSim R) {a b} (l c) (hr : R a b) : R (commitPoint a l c) (commitPoint b l c) :=
  h.commit _ _ _ _ hr
theorem challengeScalar_eq (h : TSim R) {a b} (l) (hr : R a b) :
    (challengeScalar a l).1 = (challengeScalar b l).1 := by
  simp only [challengeScalar]; rw [(h.challenge a b l 64 hr).1]
theorem challengeScalar_rel (h : TSim R) {a b} (l) (hr : R a b) :
    R (challengeScalar a l).2 (challengeScalar b l).2 := (h.challenge a b l 64 hr).2
theorem witnessScalar_left (h : TSim R) {a b} (l s rng) (hr : R a b) :
    R (witnessScalar a l s rng).2.1 b := h.witness_left a b l 64 s rng hr
theorem witnessScalar_right (h : TSim R) {a b} (l s rng) (hr : R a b) :
    R a (witnessScalar b l s rng).2.1 := h.witness_right a b l 64 s rng hr
end TSim

theorem merlin_sim [Oracles] : TSim (fun a b : Transcript => a = b) where
  commit := by rintro a b l x rfl; rfl
  challenge := by rintro a b l n rfl; exact ⟨rfl, rfl⟩
  witness_left := by rintro a b l n s rng rfl; rfl
  witness_right := by rintro a b l n s rng rfl; rfl

theorem xof_sim [Oracles] : TSim (fun a b : XoFTranscript => a = b) where
  commit := by rintro a b l x rfl; rfl
  challenge := by rintro a b l n rfl; exact ⟨rfl, rfl⟩
  witness_left := by rintro a b l n s rng rfl; rfl
  witness_right := by rintro a b l n s rng rfl; rfl

theorem withRng_sim {T₁ T₂ : Type} [SigningTranscript T₁] [SigningTranscript T₂] {R : T₁ → T₂ → Prop}
    (h : TSim R) : TSim (fun (a : WithRng T₁) (b : T₂) => R a.t b) where
  commit _ _ _ _ hr := h.commit _ _ _ _ hr
  challenge _ _ _ _ hr := h.challenge _ _ _ _ hr
  witness_left _ _ _ _ _ _ hr := hr
  witness_right _ _ _ _ _ _ hr := h.witness_right _ _ _ _ _ _ hr

theorem sim_symm {T₁ T₂ : Type} [SigningTranscript T₁] [SigningTranscript T₂] {R : T₁ → T₂ → Prop}
    (h : TSim R) : TSim (fun (a : T₂) (b : T₁) => R b a) where
  commit _ _ _ _ hr := h.commit _ _ _ _ hr
  challenge _ _ _ _ hr := ⟨(h.challenge _ _ _ _ hr).1.symm, (h.challenge _ _ _ _ hr).2⟩
  witness_left _ _ _ _ _ _ hr := h.witness_right _ _ _ _ _ _ hr
  witness_right _ _ _ _ _ _ hr := h.witness_left _ _ _ _ _ _ hr

variable {P : Type} [Ristretto P] {T : Type} [SigningTranscript T]

theorem canonical_challenge (t : T) (l : Bytes) : (challengeScalar t l).1.Canonical :=
  Scalar.canonical_wide _
theorem canonical_witness (t : T) (l : Bytes) (s : List Bytes) (rng : Rng) :
    (witnessScalar t l s rng).1.Canonical := Scalar.canonical_wide _

theorem verify_ok_iff (pk : PublicKey P) (t : T) (sig : Signature) :
    (PublicKey.verify pk t sig).1 = .ok () ↔
      compress (sig.s.toZ • (basepoint : P) - sigChallenge t pk.compressed sig.R • pk.point) = sig.R := by
  simp only [PublicKey.verify, doubleScalarMulBasepoint, mulPoint_eq]
  rw [show ∀ k : Z, k • (-pk.point) + sig.s.toZ • (basepoint : P) =
    sig.s.toZ • (basepoint : P) - k • pk.point from fun k => by module]
  unfold sigChallenge preChallenge
  split
  · simp only [true_iff]; assumption
  · simp only [reduceCtorEq, false_iff]; assumption

theorem verify_eq (pk : PublicKey P) (t : T) (sig : Signature) :
    PublicKey.verify pk t sig =
      (if compress (sig.s.toZ • (basepoint : P) - sigChallenge t pk.compressed sig.R • pk.point) = sig.R
        then .ok () else .error .equationFalse,
       (challengeScalar (preChallenge t pk.compressed sig.R) (b! "sign:c")).2) := by
  simp only [PublicKey.verify, doubleScalarMulBasepoint, mulPoint_eq]
  rw [show ∀ k : Z, k • (-pk.point) + sig.s.toZ • (basepoint : P) =
    sig.s.toZ • (basepoint : P) - k • pk.point from fun k => by module]
  unfold sigChallenge preChallenge
  split <;> rfl

/-- Equation form: `R` decodes to a point with `s•B = R + k•A`. -/
theorem verify_ok_iff' (pk : PublicKey P) (t : T) (sig : Signature) :
    (PublicKey.verify pk t sig).1 = .ok () ↔
      ∃ R : P, compress R = sig.R ∧
        sig.s.toZ • (basepoint : P) = R + sigChallenge t pk.compressed sig.R • pk.point := by
  rw [verify_ok_iff]
  constructor
  · intro h; exact ⟨_, h, by module⟩
  · rintro ⟨R, hR, h⟩; rw [h, ← hR]; congr 1; module

/-- The signer's nonce for given inputs. -/
def signNonce (sk : SecretKey) (t : T) (pk : Compressed) (sys : Rng) : Scalar :=
  (witnessScalar (commitPoint (protoName t (b! "Schnorr-sig")) (b! "sign:pk") pk) (b! "signing")
    [sk.nonce.1] sys).1

theorem sign_sim {T' : Type} [SigningTranscript T'] {R : T → T' → Prop} (hR : TSim R)
    (sk : SecretKey) (t : T) (t' : T') (ht : R t t') (pk : PublicKey P)
    (sys : Rng) :
    let out := sk.sign t pk sys
    out.1.R = compress ((signNonce sk t pk.compressed sys).toZ • (basepoint : P)) ∧
    out.1.s.Canonical ∧
    out.1.s.toZ = sigChallenge t' pk.compressed out.1.R * sk.key.toZ +
      (signNonce sk t pk.compressed sys).toZ ∧
    R out.2.1 (PublicKey.verify pk t' out.1).2 := by
  intro out
  have h0 : R (commitPoint (protoName t (b! "Schnorr-sig")) (b! "sign:pk") pk.compressed)
      (commitPoint (protoName t' (b! "Schnorr-sig")) (b! "sign:pk") pk.compressed) :=
    hR.point _ _ (hR.proto _ ht)
  have h1 := hR.witnessScalar_left (b! "signing") [sk.nonce.1] sys h0
  have hRR : out.1.R = compress ((signNonce sk t pk.compressed sys) •. (basepoint : P)) := rfl
  have h2 := hR.point (b! "sign:R") out.1.R h1
  have hk := hR.challengeScalar_eq (b! "sign:c") h2
  have hs : out.1.s = (challengeScalar (commitPoint (witnessScalar (commitPoint (protoName t
      (b! "Schnorr-sig")) (b! "sign:pk") pk.compressed) (b! "signing") [sk.nonce.1] sys).2.1
      (b! "sign:R") out.1.R) (b! "sign:c")).1 * sk.key + signNonce sk t pk.compressed sys := rfl
  refine ⟨by rw [hRR, mulPoint_eq], ?_, ?_, ?_⟩
  · rw [hs]; exact Scalar.canonical_add (Scalar.canonical_mul _ _) (canonical_witness _ _ _ _)
  · have hn : (signNonce sk t pk.compressed sys).Canonical := canonical_witness _ _ _ _
    rw [hs, Scalar.toZ_add (Scalar.canonical_mul _ _) hn, Scalar.toZ_mul]
    unfold sigChallenge preChallenge
    rw [← hk]
  · rw [verify_eq]
    exact hR.challengeScalar_rel (b! "sign:c") h2

theorem sign_verify_sim {T' : Type} [SigningTranscript T'] {R : T → T' → Prop} (hR : TSim R)
    (sk : SecretKey) (t : T) (t' : T') (ht : R t t') (sys : Rng) :
    let pk : PublicKey P := sk.toPublic
    (PublicKey.verify pk t' (sk.sign t pk sys).1).1 = .ok () := by
  intro pk
  obtain ⟨h1, _, h3, _⟩ := sign_sim (P := P) hR sk t t' ht pk sys
  rw [verify_ok_iff, h3, h1]
  congr 1
  show _ - _ • (sk.key •. (basepoint : P)) = _
  rw [mulPoint_eq]
  module

end Schnorrkel
