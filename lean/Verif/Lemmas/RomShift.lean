import Verif.Lemmas.RomAvg

/-! # Shifting the residue of 64 random bytes -/

namespace Schnorrkel
open Spec Schnorrkel.Props

/-- Strings beyond the largest multiple of `ℓ`. -/
def Beyond (v : Arr 64) : Prop := (2 ^ 512 / ell) * ell ≤ leNat v.1

private def sh (N l : Nat) (c n : Nat) : Nat := if n < N * l then (n / l) * l + (n % l + c) % l else n

private theorem sh_lt {N l c n : Nat} (hl : 0 < l) (h : n < N * l) : (n / l) * l + (n % l + c) % l < N * l := by
  have h1 : n / l < N := Nat.div_lt_of_lt_mul (by rw [mul_comm]; exact h)
  have h2 := Nat.mod_lt (n % l + c) hl
  calc (n / l) * l + (n % l + c) % l < (n / l) * l + l := by omega
    _ = (n / l + 1) * l := by ring
    _ ≤ N * l := Nat.mul_le_mul_right _ h1

private theorem sh_sh {N l c d n : Nat} (hl : 0 < l) (hcd : (c + d) % l = 0) : sh N l d (sh N l c n) = n := by
  unfold sh
  by_cases h : n < N * l
  · simp only [h, if_true, sh_lt hl h]
    have h2 := Nat.mod_lt (n % l + c) hl
    have e1 : ((n / l) * l + (n % l + c) % l) / l = n / l := by
      rw [Nat.add_comm, Nat.add_mul_div_right _ _ hl, Nat.div_eq_of_lt h2, Nat.zero_add]
    have e2 : ((n / l) * l + (n % l + c) % l) % l = (n % l + c) % l := by
      rw [Nat.add_comm, Nat.add_mul_mod_self_right, Nat.mod_mod]
    rw [e1, e2]
    have e3 : ((n % l + c) % l + d) % l = n % l := by
      rw [Nat.mod_add_mod, Nat.add_assoc, Nat.add_mod, hcd, Nat.add_zero, Nat.mod_mod, Nat.mod_mod]
    rw [e3, Nat.mul_comm]
    exact Nat.div_add_mod n l
  · simp [h]

private theorem sh_bound {M l c n : Nat} (hl : 0 < l) (h : n < M) : sh (M / l) l c n < M := by
  unfold sh
  split
  · rename_i h1
    exact lt_of_lt_of_le (sh_lt hl h1) (Nat.div_mul_le_self _ _)
  · exact h

private def shFin (M l : Nat) (hl : 0 < l) (c d : Nat) (h : (c + d) % l = 0) : Fin M ≃ Fin M where
  toFun := fun n => ⟨sh (M / l) l c n.1, sh_bound hl n.2⟩
  invFun := fun n => ⟨sh (M / l) l d n.1, sh_bound hl n.2⟩
  left_inv := fun n => Fin.ext (sh_sh hl h)
  right_inv := fun n => Fin.ext (sh_sh hl (by rwa [Nat.add_comm] at h))

private theorem shFin_val (M l : Nat) (hl : 0 < l) (c d : Nat) (h : (c + d) % l = 0) (n : Fin M) :
    (shFin M l hl c d h n).1 = sh (M / l) l c n.1 := rfl

private theorem arr64_val (v : Arr 64) : (arr64Equiv v).1 = leNat v.1 := rfl

private theorem leNat_symm (n : Fin (2 ^ 512)) : leNat (arr64Equiv.symm n).1 = n.1 := by
  rw [← arr64_val, Equiv.apply_symm_apply]

private theorem val_add_neg (c : Z) : (c.val + (-c).val) % ell = 0 := by
  have : ((c.val + (-c).val : Nat) : Z) = 0 := by push_cast; simp
  exact Nat.mod_eq_zero_of_dvd ((ZMod.natCast_eq_zero_iff _ _).mp this)

/-- A permutation of the 64-byte strings that adds `c` to the residue, except for strings beyond the largest multiple
of `ℓ`. -/
def shift (c : Z) : Arr 64 ≃ Arr 64 :=
  arr64Equiv.trans ((shFin (2 ^ 512) ell ell_prime.pos c.val (-c).val (val_add_neg c)).trans arr64Equiv.symm)

private theorem leNat_shift (c : Z) (v : Arr 64) :
    leNat (shift c v).1 = sh (2 ^ 512 / ell) ell c.val (leNat v.1) := by
  unfold shift
  rw [Equiv.trans_apply, Equiv.trans_apply, leNat_symm, shFin_val, arr64_val]

theorem residue_shift (c : Z) (v : Arr 64) (h : ¬ Beyond v) : residue (shift c v) = residue v + c := by
  unfold residue
  rw [leNat_shift]
  unfold sh
  rw [if_pos (not_le.mp h)]
  have hm : ((ell : Nat) : Z) = 0 := ZMod.natCast_self ell
  have hmod : ∀ n : Nat, ((n % ell : Nat) : Z) = (n : Z) := fun n => ZMod.natCast_mod n ell
  rw [Nat.cast_add, Nat.cast_mul, hm, mul_zero, zero_add, hmod, Nat.cast_add, hmod, ZMod.natCast_zmod_val]

theorem spare_nonneg : (0 : ℚ) ≤ spare := by unfold spare; positivity

theorem chance_beyond : chance Beyond ≤ spare := by
  unfold chance spare
  rw [card_arr64]
  push_cast
  gcongr
  have e : Nat.card {v : Arr 64 // Beyond v} = Nat.card {n : Fin (2 ^ 512) // (2 ^ 512 / ell) * ell ≤ n.1} :=
    Nat.card_congr (arr64Equiv.subtypeEquiv fun v => Iff.rfl)
  rw [e]
  have h2 : Nat.card {n : Fin (2 ^ 512) // (2 ^ 512 / ell) * ell ≤ n.1} ≤ Nat.card (Fin ell) := by
    refine Nat.card_le_card_of_injective
      (fun n => (⟨n.1.1 - (2 ^ 512 / ell) * ell, ?_⟩ : Fin ell)) ?_
    · have h1 := n.1.2
      have h3 := n.2
      have h4 := Nat.div_add_mod (2 ^ 512) ell
      have h5 := Nat.mod_lt (2 ^ 512) ell_prime.pos
      rw [Nat.mul_comm] at h4
      omega
    · rintro ⟨a, ha⟩ ⟨b, hb⟩ h
      simp only [Fin.mk.injEq] at h
      ext
      simp only at ha hb ⊢
      omega
  simpa using h2

end Schnorrkel
