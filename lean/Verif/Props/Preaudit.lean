import Verif.Props.Sign

/-! # C45, errors: what `verify_simple_preaudit_deprecated` answers for an unmarked string, in every case -/

namespace Schnorrkel.Props
open SigningTranscript Spec
variable {P : Type} [Ristretto P]

/-- **C45** the complete answer for a string that is not a marked signature: a wrong length is a length error, an
out-of-range scalar is a scalar format error, and a scalar in range gives success or `EquationFalse` according to the
legacy equation. -/
theorem preaudit_unmarked_table [Oracles] (pk : PublicKey P) (ctx msg sig : Bytes) :
    let result := PublicKey.verifySimplePreauditDeprecated pk ctx msg sig
    let scalar := leNat (sig.drop 32)
    let valid := Spec.SchnorrValid pk.point (legacyChallenge ctx msg pk.compressed.1 (sig.take 32)) (sig.take 32) scalar
    (sig.length ≠ 64 → result = .error (.bytesLengthError "Signature" Signature.DESCRIPTION 64)) ∧
    (sig.length = 64 → ell ≤ scalar → scalar < 2 ^ 255 → result = .error .scalarFormatError) ∧
    (sig.length = 64 → scalar < ell → valid → result = .ok ()) ∧
    (sig.length = 64 → scalar < ell → ¬ valid → result = .error .equationFalse) := by
  intro result scalar valid
  have hell : ell < 2 ^ 255 := by unfold ell; norm_num
  refine ⟨fun hl => ?_, fun hl hs hm => ?_, fun hl hs hv => ?_, fun hl hs hv => ?_⟩
  · show PublicKey.verifySimplePreauditDeprecated pk ctx msg sig = _
    unfold PublicKey.verifySimplePreauditDeprecated
    rw [(signature_from_bytes_err_iff sig _).mpr (.inl ⟨hl, rfl⟩)]
    simp only
    rw [((unmarked_from_bytes_table sig).2 _).mpr (.inl ⟨hl, rfl⟩)]; rfl
  · show PublicKey.verifySimplePreauditDeprecated pk ctx msg sig = _
    unfold PublicKey.verifySimplePreauditDeprecated
    rw [(signature_from_bytes_err_iff sig .notMarkedSchnorrkel).mpr (.inr (.inl ⟨hl, hm, rfl⟩))]
    simp only
    rw [((unmarked_from_bytes_table sig).2 _).mpr (.inr ⟨hl, by rw [Nat.mod_eq_of_lt hm]; exact hs, rfl⟩)]; rfl
  · exact (preaudit_unmarked_is_legacy pk ctx msg sig hl (hs.trans hell)).mpr ⟨hs, hv⟩
  · have hm := hs.trans hell
    have hno : result ≠ .ok () := fun h => hv ((preaudit_unmarked_is_legacy pk ctx msg sig hl hm).mp h).2
    revert hno
    show PublicKey.verifySimplePreauditDeprecated pk ctx msg sig ≠ _ →
      PublicKey.verifySimplePreauditDeprecated pk ctx msg sig = _
    unfold PublicKey.verifySimplePreauditDeprecated
    rw [(signature_from_bytes_err_iff sig .notMarkedSchnorrkel).mpr (.inr (.inl ⟨hl, hm, rfl⟩))]
    simp only
    cases h : Signature.fromBytesNotDistinguishedFromEd25519 sig with
    | error e =>
      rcases ((unmarked_from_bytes_table sig).2 e).mp h with ⟨h1, -⟩ | ⟨-, h1, -⟩
      · exact absurd hl h1
      · rw [Nat.mod_eq_of_lt hm] at h1
        exact absurd hs (Nat.not_lt.mpr h1)
    | ok s =>
      simp only [bind, Except.bind]
      split
      · intro h; exact absurd rfl h
      · intro _; rfl

/-- Each line of the table is met by a concrete string. -/
example : (leNat ((zeros 64).1.drop 32) < ell ∧ (zeros 64).1.length = 64) ∧
    (ell ≤ leNat (((zeros 63).1 ++ [127]).drop 32) ∧ leNat (((zeros 63).1 ++ [127]).drop 32) < 2 ^ 255 ∧
      ((zeros 63).1 ++ [127]).length = 64) ∧ ([] : Bytes).length ≠ 64 := by
  unfold ell
  decide +kernel

end Schnorrkel.Props
