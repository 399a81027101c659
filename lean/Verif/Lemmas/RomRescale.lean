import Verif.Spec.RomCosign
import Verif.Lemmas.RomShift

/-! # Multiplying the residue of 64 random bytes -/

namespace Schnorrkel
open Spec Schnorrkel.Props

private theorem quot_rem {l q r : Nat} (hl : 0 < l) (hr : r < l) : (q * l + r) / l = q ∧ (q * l + r) % l = r := by
  constructor
  · rw [Nat.add_comm, Nat.add_mul_div_right _ _ hl, Nat.div_eq_of_lt hr, Nat.zero_add]
  · rw [Nat.add_comm, Nat.add_mul_mod_self_right, Nat.mod_eq_of_lt hr]

private theorem in_range {N l n r : Nat} (h : n < N * l) (hr : r < l) : n / l * l + r < N * l := by
  have h1 : n / l < N := Nat.div_lt_of_lt_mul (by rw [mul_comm]; exact h)
  calc n / l * l + r < n / l * l + l := by omega
    _ = (n / l + 1) * l := by ring
    _ ≤ N * l := Nat.mul_le_mul_right _ h1

private theorem residue_eq (w : Arr 64) : residue w = ((leNat w.1 % ell : Nat) : Z) := (ZMod.natCast_mod _ _).symm

theorem leNat_rescale (m : Z) (hm : m ≠ 0) (w : Arr 64) (h : ¬ Beyond w) :
    leNat (rescale m w).1 = leNat w.1 / ell * ell + (m * residue w).val := by
  haveI : NeZero ell := ⟨ell_prime.ne_zero⟩
  unfold rescale
  rw [if_pos ⟨not_le.mp h, hm⟩]
  simp only
  rw [leNat_leBytes]
  apply Nat.mod_eq_of_lt
  refine lt_of_lt_of_le (in_range (not_le.mp h) (ZMod.val_lt _)) ?_
  refine le_trans (Nat.div_mul_le_self _ _) ?_
  rw [show (256 : Nat) = 2 ^ 8 by norm_num, ← pow_mul]

theorem rescale_beyond (m : Z) (w : Arr 64) (h : Beyond w) : rescale m w = w := by
  unfold rescale
  rw [if_neg (fun h' => absurd h'.1 (not_lt.mpr h))]

theorem residue_rescale (m : Z) (hm : m ≠ 0) (w : Arr 64) (h : ¬ Beyond w) : residue (rescale m w) = m * residue w := by
  haveI : NeZero ell := ⟨ell_prime.ne_zero⟩
  rw [residue, leNat_rescale m hm w h, Nat.cast_add, Nat.cast_mul, ZMod.natCast_self, mul_zero, zero_add,
    ZMod.natCast_zmod_val]

theorem not_beyond_rescale (m : Z) (hm : m ≠ 0) (w : Arr 64) (h : ¬ Beyond w) : ¬ Beyond (rescale m w) := by
  haveI : NeZero ell := ⟨ell_prime.ne_zero⟩
  unfold Beyond
  rw [leNat_rescale m hm w h]
  exact not_le.mpr (in_range (not_le.mp h) (ZMod.val_lt _))

theorem rescale_inv (m : Z) (hm : m ≠ 0) (w : Arr 64) : rescale m⁻¹ (rescale m w) = w := by
  haveI : NeZero ell := ⟨ell_prime.ne_zero⟩
  haveI : Fact ell.Prime := ⟨ell_prime⟩
  by_cases h : Beyond w
  · rw [rescale_beyond m w h, rescale_beyond _ w h]
  · apply Arr.leNat_inj
    rw [leNat_rescale _ (inv_ne_zero hm) _ (not_beyond_rescale m hm w h), residue_rescale m hm w h,
      leNat_rescale m hm w h, (quot_rem ell_prime.pos (ZMod.val_lt _)).1, ← mul_assoc, inv_mul_cancel₀ hm, one_mul,
      residue_eq, ZMod.val_natCast, Nat.mod_mod]
    rw [Nat.mul_comm]
    exact Nat.div_add_mod _ _

/-- The permutation. -/
noncomputable def rescaleEquiv (m : Z) (hm : m ≠ 0) : Arr 64 ≃ Arr 64 :=
  ⟨rescale m, rescale m⁻¹, rescale_inv m hm, fun w => by
    have := rescale_inv m⁻¹ (inv_ne_zero hm) w
    rwa [inv_inv] at this⟩

attribute [local irreducible] rescale in
theorem avg_rescale (m : Z) (hm : m ≠ 0) (G : Arr 64 → ℚ) : (avg fun w => G (rescale m w)) = avg G := by
  have := avg_equiv (rescaleEquiv m hm) G
  unfold rescaleEquiv at this
  exact this

end Schnorrkel
