import Mathlib.Algebra.Order.Chebyshev
import Mathlib.Algebra.BigOperators.Ring.Finset
import Mathlib.SetTheory.Cardinal.Finite
import Mathlib.Tactic.Linarith
import Mathlib.Tactic.Ring
import Mathlib.Data.Fintype.BigOperators

/-! # Counting tables of a random function

`ι → S` is the set of all tables of a random function on the finite set `ι` of queries.  A *stopping set* assigns to
each table the set of queries asked up to some moment: it depends only on the answers to those queries. -/

namespace Rom
open Classical
variable {ι S : Type}

/-- `f` on `K`, `g` elsewhere. -/
noncomputable def mixOn (K : Set ι) (f g : ι → S) : ι → S := fun k => if k ∈ K then f k else g k

/-- A set of queries that depends only on the answers to them. -/
def Stopping (K : (ι → S) → Set ι) : Prop := ∀ f f', (∀ k ∈ K f, f' k = f k) → K f' = K f

theorem Stopping.mix {K : (ι → S) → Set ι} (h : Stopping K) (f g : ι → S) : K (mixOn (K f) f g) = K f :=
  h _ _ fun k hk => by simp [mixOn, hk]

theorem mixOn_mix (K : Set ι) (f g h : ι → S) : mixOn K (mixOn K f g) h = mixOn K f h := by
  funext k; by_cases hk : k ∈ K <;> simp [mixOn, hk]

theorem mixOn_swap (K : Set ι) (f g : ι → S) : mixOn K (mixOn K f g) (mixOn K g f) = f := by
  funext k; by_cases hk : k ∈ K <;> simp [mixOn, hk]

/-- Exchange what is outside the stopping set. -/
noncomputable def swapEquiv {K : (ι → S) → Set ι} (h : Stopping K) : ((ι → S) × (ι → S)) ≃ ((ι → S) × (ι → S)) where
  toFun x := (mixOn (K x.1) x.1 x.2, mixOn (K x.1) x.2 x.1)
  invFun x := (mixOn (K x.1) x.1 x.2, mixOn (K x.1) x.2 x.1)
  left_inv := fun ⟨f, g⟩ => by
    simp only [h.mix]
    rw [mixOn_swap, mixOn_swap]
  right_inv := fun ⟨f, g⟩ => by
    simp only [h.mix]
    rw [mixOn_swap, mixOn_swap]

section
variable [Finite ι] [Finite S]

/-- Forking: running again with fresh answers outside the stopping set succeeds, together with the first run, at least
as often as two independent runs. -/
theorem fork_count {K : (ι → S) → Set ι} (hK : Stopping K) (p : (ι → S) → Prop) :
    Nat.card {f // p f} ^ 2 ≤ Nat.card {x : (ι → S) × (ι → S) // p x.1 ∧ p (mixOn (K x.1) x.1 x.2)} := by
  haveI : Fintype ι := Fintype.ofFinite ι
  haveI : Fintype S := Fintype.ofFinite S
  haveI : Fintype (ι → S) := Fintype.ofFinite _
  let χ : (ι → S) → ℕ := fun f => if p f then 1 else 0
  let φ : (ι → S) → ℕ := fun f => ∑ g, χ (mixOn (K f) f g)
  have hP : Nat.card {f // p f} = ∑ f, χ f := by
    rw [Nat.card_eq_fintype_card, Fintype.card_subtype]
    simp [χ]
  have hT : Nat.card {x : (ι → S) × (ι → S) // p x.1 ∧ p (mixOn (K x.1) x.1 x.2)} = ∑ f, χ f * φ f := by
    rw [Nat.card_eq_fintype_card, Fintype.card_subtype]
    rw [Finset.card_filter, Fintype.sum_prod_type]
    apply Finset.sum_congr rfl
    intro f _
    simp only [φ, Finset.mul_sum]
    apply Finset.sum_congr rfl
    intro g _
    simp only [χ]
    by_cases h1 : p f <;> by_cases h2 : p (mixOn (K f) f g) <;> simp [h1, h2]
  have hφmix : ∀ f g, φ (mixOn (K f) f g) = φ f := by
    intro f g
    simp only [φ, hK.mix, mixOn_mix]
  have h1 : ∑ f, φ f = Fintype.card (ι → S) * ∑ f, χ f := by
    have : ∑ f, φ f = ∑ x : (ι → S) × (ι → S), χ (swapEquiv hK x).1 := by
      rw [Fintype.sum_prod_type]; rfl
    rw [this, Equiv.sum_comp (swapEquiv hK) (fun x => χ x.1), Fintype.sum_prod_type]
    simp [Finset.mul_sum]
  have h2 : Fintype.card (ι → S) * ∑ f, χ f * φ f = ∑ f, φ f ^ 2 := by
    have e1 : Fintype.card (ι → S) * ∑ f, χ f * φ f = ∑ x : (ι → S) × (ι → S), χ x.1 * φ x.1 := by
      rw [Fintype.sum_prod_type]; simp [Finset.mul_sum]
    rw [e1, ← Equiv.sum_comp (swapEquiv hK) (fun x => χ x.1 * φ x.1), Fintype.sum_prod_type]
    apply Finset.sum_congr rfl
    intro f _
    rw [sq]
    conv_rhs => rw [show φ f = ∑ g, χ (mixOn (K f) f g) from rfl]
    rw [Finset.sum_mul]
    apply Finset.sum_congr rfl
    intro g _
    show χ (mixOn (K f) f g) * φ (mixOn (K f) f g) = _
    rw [hφmix]
  have h3 : (∑ f, φ f) ^ 2 ≤ Fintype.card (ι → S) * ∑ f, φ f ^ 2 := by
    have := sq_sum_le_card_mul_sum_sq (s := (Finset.univ : Finset (ι → S))) (f := φ)
    simpa using this
  rw [hP, hT]
  rw [h1, ← h2] at h3
  rcases Nat.eq_zero_or_pos (Fintype.card (ι → S)) with h0 | h0
  · haveI := Fintype.card_eq_zero_iff.mp h0
    simp
  · have : (Fintype.card (ι → S)) ^ 2 * (∑ f, χ f) ^ 2 ≤ (Fintype.card (ι → S)) ^ 2 * ∑ f, χ f * φ f := by
      calc _ = (Fintype.card (ι → S) * ∑ f, χ f) ^ 2 := by ring
        _ ≤ _ := h3
        _ = _ := by ring
    exact Nat.le_of_mul_le_mul_left this (by positivity)

/-- Resample the answer to one query. -/
noncomputable def resample (q : (ι → S) → Option ι) (x : (ι → S) × S) : (ι → S) × S :=
  match q x.1 with
  | none => x
  | some k => (Function.update x.1 k x.2, x.1 k)

theorem resample_invol {K : (ι → S) → Set ι} {q : (ι → S) → Option ι}
    (hq : ∀ f f', (∀ k ∈ K f, f' k = f k) → q f' = q f) (hn : ∀ f k, q f = some k → k ∉ K f) :
    Function.Involutive (resample q) := by
  rintro ⟨f, a⟩
  unfold resample
  cases h : q f with
  | none => simp [h]
  | some k =>
    have : q (Function.update f k a) = some k := by
      rw [hq f _ ?_, h]
      intro k' hk'
      have : k' ≠ k := fun e => hn f k h (e ▸ hk')
      simp [this]
    simp [this]

/-- If the answer to a query asked after the stopping set must land in one of `b` values that were determined before
asking, it does so for at most a fraction `b / |S|` of the tables. -/
theorem guess_count {K : (ι → S) → Set ι} {q : (ι → S) → Option ι}
    (hq : ∀ f f', (∀ k ∈ K f, f' k = f k) → q f' = q f) (hn : ∀ f k, q f = some k → k ∉ K f)
    (bad : (ι → S) → Set S) (hbad : ∀ f f', (∀ k ∈ K f, f' k = f k) → bad f' = bad f) (b : ℕ)
    (hb : ∀ f k, q f = some k → Nat.card (bad f) ≤ b) :
    Nat.card {f // ∃ k, q f = some k ∧ f k ∈ bad f} * Nat.card S ≤ b * Nat.card (ι → S) := by
  haveI : Fintype ι := Fintype.ofFinite ι
  haveI : Fintype S := Fintype.ofFinite S
  haveI : Fintype (ι → S) := Fintype.ofFinite _
  let E : (ι → S) × S → Prop := fun x => ∃ k, q x.1 = some k ∧ x.2 ∈ bad x.1
  have e1 : Nat.card {f // ∃ k, q f = some k ∧ f k ∈ bad f} * Nat.card S =
      Nat.card {x : (ι → S) × S // ∃ k, q x.1 = some k ∧ x.1 k ∈ bad x.1} := by
    rw [← Nat.card_prod]
    exact Nat.card_congr
      { toFun := fun x => ⟨(x.1.1, x.2), x.1.2⟩
        invFun := fun x => (⟨x.1.1, x.2⟩, x.1.2)
        left_inv := fun _ => rfl
        right_inv := fun _ => rfl }
  have e2 : Nat.card {x : (ι → S) × S // ∃ k, q x.1 = some k ∧ x.1 k ∈ bad x.1} = Nat.card {x // E x} := by
    apply Nat.card_congr
    refine (resample_invol hq hn).toPerm.subtypeEquiv ?_
    rintro ⟨f, a⟩
    show _ ↔ E (resample q (f, a))
    unfold resample
    cases h : q f with
    | none => simp [E, h]
    | some k =>
      have hagree : ∀ k' ∈ K f, Function.update f k a k' = f k' := by
        intro k' hk'
        have : k' ≠ k := fun e => hn f k h (e ▸ hk')
        simp [this]
      simp only [E]
      rw [hq f _ hagree, hbad f _ hagree, h]
      simp
  rw [e1, e2, Nat.card_eq_fintype_card, Fintype.card_subtype, Finset.card_filter, Fintype.sum_prod_type]
  calc ∑ f : ι → S, ∑ a : S, (if E (f, a) then 1 else 0) ≤ ∑ _f : ι → S, b := by
        apply Finset.sum_le_sum
        intro f _
        cases h : q f with
        | none => simp [E, h]
        | some k =>
          have hb' := hb f k h
          rw [Nat.card_eq_fintype_card, ← Set.toFinset_card] at hb'
          refine le_trans (le_of_eq ?_) hb'
          rw [← Finset.card_filter]
          congr 1
          ext a
          simp [E, h]
    _ = b * Nat.card (ι → S) := by
        rw [Finset.sum_const, Finset.card_univ, smul_eq_mul, Nat.card_eq_fintype_card, mul_comm]

end
end Rom
