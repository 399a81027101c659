import Verif.Lemmas.RomWide

/-! # Bad answers that depend on the earlier answers -/

namespace Schnorrkel
open Spec Schnorrkel.Props Rom
variable {α : Type} (O : Oracles) {D : Finset (List MOp)}

open Classical in
/-- The answers known before step `i`. -/
noncomputable def known (A : Algo α) (i : Nat) (f : D → Arr 64) : List MOp → Option (Arr 64) :=
  fun q => if h : q ∈ D then if (⟨q, h⟩ : D) ∈ before O A i f then some (f ⟨q, h⟩) else none else none

theorem known_adapted (A : Algo α) (n i : Nat) (hA : A.Within O D n) (f f' : D → Arr 64)
    (h : ∀ k ∈ before O A i f, f' k = f k) : known O A i f' = known O A i f := by
  have hs := before_stopping O A n i hA f f' h
  funext q
  unfold known
  by_cases hq : q ∈ D
  · rw [dif_pos hq, dif_pos hq, hs]
    by_cases hb : (⟨q, hq⟩ : D) ∈ before O A i f
    · rw [if_pos hb, if_pos hb, h _ hb]
    · rw [if_neg hb, if_neg hb]
  · rw [dif_neg hq, dif_neg hq]

/-- The answer to a query asked earlier is known. -/
theorem known_of_idx (A : Algo α) (n : Nat) (hA : A.Within O D n) (f : D → Arr 64) (q : List MOp) (i : Nat)
    (hq : q ∈ A.asked (table O D f)) (hi : (A.asked (table O D f)).idxOf q < i) :
    known O A i f q = some ((table O D f).merlin q 64) := by
  have hD := (hA f).2 q hq
  have hlt : (A.asked (table O D f)).idxOf q < (A.asked (table O D f)).length := List.idxOf_lt_length_of_mem hq
  have hb : (⟨q, hD⟩ : D) ∈ before O A i f := by
    show q ∈ (A.asked (table O D f)).take i
    rw [List.mem_take_iff_getElem]
    exact ⟨_, lt_min hi hlt, List.getElem_idxOf _⟩
  unfold known
  rw [dif_pos hD, if_pos hb, table_hit O D f q hD]

/-- Union bound over the steps of an algorithm: the probability that some new query gets an answer in a set, determined
by the query and the earlier answers, that fixes the first 16 bytes. -/
theorem chance_late (A : Algo α) (n : Nat) (hA : A.Within O D n)
    (bad : (List MOp → Option (Arr 64)) → List MOp → Set (Arr 64))
    (hb : ∀ kn q, ∃ c, ∀ w ∈ bad kn q, leNat (w.1.take 16) = c) :
    chance (fun f : D → Arr 64 => ∃ q, q ∈ A.asked (table O D f) ∧
      (table O D f).merlin q 64 ∈ bad (known O A ((A.asked (table O D f)).idxOf q) f) q) ≤ n * (1 / 2 ^ 128) := by
  refine le_trans (chance_mono (p' := fun f => ∃ i, i < n ∧ ∃ k, newAt O A i f = some k ∧ f k ∈
    (match newAt O A i f with | none => ∅ | some k => bad (known O A i f) k.1)) ?_)
    (chance_exists_lt_le n _ _ fun i _ => ?_)
  · rintro f ⟨q, hq, hbq⟩
    obtain ⟨h1, h2⟩ := exists_newAt O A n hA f q hq
    refine ⟨_, h1, ⟨q, (hA f).2 q hq⟩, h2, ?_⟩
    rw [h2]
    rw [table_hit _ _ _ _ ((hA f).2 q hq)] at hbq
    exact hbq
  · have := guess_count (K := before O A i) (q := newAt O A i) (newAt_adapted O A n i hA)
      (fun f k h => (newAt_new O A i f k h).1)
      (fun f => match newAt O A i f with | none => ∅ | some k => bad (known O A i f) k.1) (by
        intro f f' h
        simp only [newAt_adapted O A n i hA f f' h, known_adapted O A n i hA f f' h]) (2 ^ 384) (by
        intro f k h
        simp only [h]
        obtain ⟨c, hc⟩ := hb (known O A i f) k.1
        exact card_prefix_le _ c hc)
    rw [card_arr64, show (2 : ℕ) ^ 512 = 2 ^ 384 * 2 ^ 128 from by rw [← pow_add], mul_left_comm] at this
    have := Nat.le_of_mul_le_mul_left this (by positivity)
    unfold chance
    rw [div_le_div_iff₀ (by exact_mod_cast card_tables_pos D) (by positivity), one_mul]
    exact_mod_cast this

end Schnorrkel
