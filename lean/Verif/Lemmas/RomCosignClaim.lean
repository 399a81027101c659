import Verif.Lemmas.RomCosignReal

/-! # Attacks that are after a multi-signature -/

namespace Schnorrkel
open Spec Schnorrkel.Props
variable {P : Type} [Ristretto P]

theorem joint_agree {O₁ O₂ : Oracles} {c : JointClaim P} (h : ∀ l ∈ c.queries O₁, O₁.merlin l 64 = O₂.merlin l 64) :
    jointKey O₁ c.keys = jointKey O₂ c.keys := by
  rw [jointKey_aggO, jointKey_aggO]
  refine congrArg _ (aggO_congr _ fun q hq => ?_)
  refine hashWith_congr (h q ?_)
  unfold JointClaim.queries
  exact List.mem_append_left _ hq

noncomputable instance : Goal P (JointClaim P) where
  keys := JointClaim.keys
  queries O _ c := c.queries O
  Wins O me c := c.Forges O me
  About O _ c t a := c.t = t ∧ jointKey O c.keys = a
  wins_congr O₁ O₂ me c h := by
    unfold JointClaim.Forges
    rw [joint_agree h]
    refine and_congr_right fun _ => and_congr_right fun _ => exists_congr fun σ => and_congr_right fun hs => ?_
    refine verifyWith_congr _ _ _ (hashWith_congr ?_)
    obtain ⟨-, hR, -, -⟩ := (signature_from_bytes_ok_iff c.sig σ).mp hs
    have hc : c.challenge O₁ = challengeOf (jointKey O₂ c.keys) c.t σ.R.1 := by
      unfold JointClaim.challenge; rw [hR, joint_agree h]
    rw [← hc]
    exact h _ (by unfold JointClaim.queries; simp)
  about_congr O₁ O₂ me c t a h := by rw [joint_agree h]
  ends O me c l hl := by
    unfold JointClaim.queries at hl
    rcases List.mem_append.mp hl with h | h
    · obtain ⟨k, -, rfl⟩ := List.mem_map.mp h
      exact ⟨not_isCommit_weight _ _, not_isPrf_weight _ _⟩
    · rw [List.mem_singleton.mp h]
      exact ⟨not_isCommit_challengeOf _ _ _, not_isPrf_challengeOf _ _ _⟩

instance : Goal.Separated P (JointClaim P) where
  about O me c t a R hw hl := by
    obtain ⟨-, -, σ, hs, -⟩ := hw
    obtain ⟨-, hR, -, -⟩ := (signature_from_bytes_ok_iff c.sig σ).mp hs
    change _ ∈ c.queries O at hl
    unfold JointClaim.queries at hl
    rcases List.mem_append.mp hl with h | h
    · obtain ⟨k, -, h⟩ := List.mem_map.mp h
      exact (not_isSig_weight _ _ (h ▸ isSig_challengeOf _ _ _)).elim
    · have h5 := List.mem_singleton.mp h
      unfold JointClaim.challenge at h5
      obtain ⟨e1, e2, -⟩ := signature_query_inj h5
      refine ⟨?_, ?_⟩
      · cases hct : c.t
        cases t
        rw [hct] at e1
        exact congrArg Transcript.mk e1.symm
      · rw [jointKey_aggO] at e2 ⊢
        have e3 : compress a = compress (aggO O (cosigners c.keys)) := Subtype.ext e2
        rw [compress_inj.mp e3]

end Schnorrkel
