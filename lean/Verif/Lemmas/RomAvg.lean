import Verif.Lemmas.RomAlgo
import Mathlib.Algebra.BigOperators.Field

/-! # Averages over finite types -/

namespace Schnorrkel
open Spec Classical

/-- Average of `F`. -/
noncomputable def avg {Ω : Type} [Finite Ω] (F : Ω → ℚ) : ℚ :=
  letI := Fintype.ofFinite Ω
  (∑ ω, F ω) / Fintype.card Ω

/-- `1` if true, `0` if false. -/
noncomputable def ind (p : Prop) : ℚ := if p then 1 else 0

theorem ind_le_one (p : Prop) : ind p ≤ 1 := by unfold ind; split <;> norm_num
theorem ind_nonneg (p : Prop) : 0 ≤ ind p := by unfold ind; split <;> norm_num
theorem ind_mono {p q : Prop} (h : p → q) : ind p ≤ ind q := by
  unfold ind
  by_cases hp : p
  · simp [hp, h hp]
  · simp only [hp, if_false]; split <;> norm_num

section
variable {Ω Ω' : Type} [Finite Ω] [Finite Ω']

theorem avg_eq [Fintype Ω] (F : Ω → ℚ) : avg F = (∑ ω, F ω) / Fintype.card Ω := by
  unfold avg
  congr 2
  · congr!
  · congr!

theorem chance_eq_avg (p : Ω → Prop) : chance p = avg fun ω => ind (p ω) := by
  letI := Fintype.ofFinite Ω
  rw [avg_eq]
  unfold chance ind
  rw [Nat.card_eq_fintype_card, Nat.card_eq_fintype_card, Fintype.card_subtype, Finset.sum_boole]

theorem avg_congr {F G : Ω → ℚ} (h : ∀ ω, F ω = G ω) : avg F = avg G := by
  rw [funext h]

theorem avg_equiv (e : Ω ≃ Ω') (F : Ω' → ℚ) : avg (fun ω => F (e ω)) = avg F := by
  letI := Fintype.ofFinite Ω
  letI := Fintype.ofFinite Ω'
  rw [avg_eq, avg_eq, Equiv.sum_comp e F, Fintype.card_congr e]

theorem avg_prod (F : Ω × Ω' → ℚ) : avg F = avg fun a => avg fun b => F (a, b) := by
  letI := Fintype.ofFinite Ω
  letI := Fintype.ofFinite Ω'
  rw [avg_eq, avg_eq]
  simp only [avg_eq (Ω := Ω')]
  rw [Fintype.sum_prod_type, ← Finset.sum_div, Fintype.card_prod, div_div, mul_comm]
  push_cast
  rfl

theorem avg_comm (F : Ω → Ω' → ℚ) : (avg fun a => avg fun b => F a b) = avg fun b => avg fun a => F a b := by
  rw [← avg_prod (fun x : Ω × Ω' => F x.1 x.2), ← avg_prod (fun x : Ω' × Ω => F x.2 x.1)]
  exact (avg_equiv (Equiv.prodComm Ω' Ω) (fun x : Ω × Ω' => F x.1 x.2)).symm

theorem avg_mono {F G : Ω → ℚ} (h : ∀ ω, F ω ≤ G ω) : avg F ≤ avg G := by
  letI := Fintype.ofFinite Ω
  rw [avg_eq, avg_eq]
  gcongr with ω
  exact h ω

theorem avg_nonneg {F : Ω → ℚ} (h : ∀ ω, 0 ≤ F ω) : 0 ≤ avg F := by
  letI := Fintype.ofFinite Ω
  rw [avg_eq]
  exact div_nonneg (Finset.sum_nonneg fun ω _ => h ω) (by positivity)

theorem avg_add (F G : Ω → ℚ) : (avg fun ω => F ω + G ω) = avg F + avg G := by
  letI := Fintype.ofFinite Ω
  rw [avg_eq, avg_eq, avg_eq, Finset.sum_add_distrib, add_div]

theorem avg_const [Nonempty Ω] (c : ℚ) : (avg fun _ : Ω => c) = c := by
  letI := Fintype.ofFinite Ω
  rw [avg_eq, Finset.sum_const, nsmul_eq_mul, Finset.card_univ]
  field_simp

theorem avg_mul_const (F : Ω → ℚ) (c : ℚ) : (avg fun ω => F ω * c) = avg F * c := by
  letI := Fintype.ofFinite Ω
  rw [avg_eq, avg_eq, ← Finset.sum_mul]
  ring

theorem avg_le_const [Nonempty Ω] {F : Ω → ℚ} {c : ℚ} (h : ∀ ω, F ω ≤ c) : avg F ≤ c := by
  rw [← avg_const (Ω := Ω) c]
  exact avg_mono h

/-- The square of an average is at most the average of the square. -/
theorem sq_avg_le (F : Ω → ℚ) : avg F ^ 2 ≤ avg fun ω => F ω ^ 2 := by
  letI := Fintype.ofFinite Ω
  rcases isEmpty_or_nonempty Ω with h | h
  · simp [avg_eq]
  rw [avg_eq, avg_eq, div_pow, div_le_div_iff₀ (by positivity) (by positivity)]
  have := sq_sum_le_card_mul_sum_sq (s := (Finset.univ : Finset Ω)) (f := F)
  rw [Finset.card_univ] at this
  have hc : (0 : ℚ) < Fintype.card Ω := by positivity
  nlinarith

/-- Drawing one entry of a table separately. -/
theorem avg_update {ι S : Type} [DecidableEq ι] [Finite ι] [Finite S] (k : ι) (G : (ι → S) → ℚ) :
    avg G = avg fun w : S => avg fun f : ι → S => G (Function.update f k w) := by
  rcases isEmpty_or_nonempty S with h | h
  · have : IsEmpty (ι → S) := ⟨fun f => h.elim (f k)⟩
    letI := Fintype.ofFinite S
    letI := Fintype.ofFinite (ι → S)
    rw [avg_eq, avg_eq]
    simp
  have h1 : avg G = avg fun x : (ι → S) × S => G x.1 := by
    rw [avg_prod]
    exact avg_congr fun f => (avg_const _).symm
  let e : (ι → S) × S ≃ (ι → S) × S :=
    { toFun := fun x => (Function.update x.1 k x.2, x.1 k)
      invFun := fun x => (Function.update x.1 k x.2, x.1 k)
      left_inv := fun x => by simp
      right_inv := fun x => by simp }
  rw [h1, ← avg_equiv e, avg_prod, avg_comm]
  rfl

end

/-- The partial table `L`, completed by `f`. -/
def ov {ι S : Type} (L : ι → Option S) (f : ι → S) : ι → S := fun k => (L k).getD (f k)

theorem ov_update {ι S : Type} [DecidableEq ι] (L : ι → Option S) (f : ι → S) (k : ι) (w : S) (h : L k = none) :
    ov L (Function.update f k w) = ov (Function.update L k (some w)) f := by
  funext j
  unfold ov
  by_cases hj : j = k
  · subst hj; simp [h]
  · simp [Function.update_of_ne hj]

/-- Lazy sampling of one entry. -/
theorem avg_ov {ι S : Type} [DecidableEq ι] [Finite ι] [Finite S] (L : ι → Option S) (k : ι) (h : L k = none) (G : (ι → S) → ℚ) :
    (avg fun f => G (ov L f)) = avg fun w => avg fun f => G (ov (Function.update L k (some w)) f) := by
  rw [avg_update k]
  simp only [ov_update _ _ _ _ h]

theorem ov_of_some {ι S : Type} (L : ι → Option S) (f : ι → S) (k : ι) (w : S) (h : L k = some w) : ov L f k = w := by
  simp [ov, h]

end Schnorrkel
