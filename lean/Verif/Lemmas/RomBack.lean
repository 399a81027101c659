import Verif.Lemmas.RomCollide

/-! # Answers that refer back to earlier queries -/

namespace Schnorrkel
open Spec Schnorrkel.Props Classical
variable {α : Type} (O : Oracles) {D : Finset (List MOp)}

/-- The answer to a query refers back to a query asked before it, or to itself, when each query leaves at most `b` answers
that refer to it. -/
theorem chance_back (A : Algo α) (n b : Nat) (hA : A.Within O D n) (R : Arr 64 → List MOp → Prop)
    (hb : ∀ q, Nat.card {w | R w q} ≤ b) :
    chance (fun f : D → Arr 64 => let O' := table O D f
      ∃ q ∈ A.asked O', ∃ q' ∈ A.asked O', (A.asked O').idxOf q' ≤ (A.asked O').idxOf q ∧ R (O'.merlin q 64) q') ≤
      (n * (n + 1) : ℚ) / 2 * (b / 2 ^ 512) := by
  let bad : Nat → (D → Arr 64) → Set (Arr 64) := fun i f =>
    {w | ∃ k, newAt O A i f = some k ∧ ∃ j, j < i + 1 ∧ ∃ d : D, (A.asked (table O D f))[j]? = some d.1 ∧ R w d.1}
  refine le_trans (chance_mono (p' := fun f => ∃ i, i < n ∧ ∃ k, newAt O A i f = some k ∧ f k ∈ bad i f) ?_)
    (le_trans (chance_exists_lt_sum n _ (fun i => ((i + 1 : Nat) : ℚ) * (b / 2 ^ 512)) fun i hi => ?_) ?_)
  · rintro f ⟨q, hq, q', hq', hne, he⟩
    have hqD := (hA f).2 q hq
    have hqD' := (hA f).2 q' hq'
    rw [table_hit O D f q hqD] at he
    obtain ⟨h1, h2⟩ := exists_newAt O A n hA f q hq
    refine ⟨_, h1, _, h2, _, h2, _, Nat.lt_succ_of_le hne, ⟨q', hqD'⟩, ?_, he⟩
    have hl : (A.asked (table O D f)).idxOf q' < (A.asked (table O D f)).length := List.idxOf_lt_length_of_mem hq'
    rw [List.getElem?_eq_getElem hl, List.getElem_idxOf]
  · have hcard : ∀ f k, newAt O A i f = some k → Nat.card (bad i f) ≤ (i + 1) * b := by
      intro f k hk
      let c : Fin (i + 1) → Set (Arr 64) := fun j =>
        if h : ∃ d : D, (A.asked (table O D f))[j.1]? = some d.1 then {w | R w h.choose.1} else ∅
      have hc : ∀ j, Set.ncard (c j) ≤ b := by
        intro j
        show Set.ncard (if h : _ then _ else _) ≤ b
        split_ifs with h
        · exact hb _
        · simp
      have hsub : bad i f ⊆ ⋃ j : Fin (i + 1), c j := by
        rintro w ⟨k', hk', j, hj, d, hd, hw⟩
        refine Set.mem_iUnion.mpr ⟨⟨j, hj⟩, ?_⟩
        have hex : ∃ d : D, (A.asked (table O D f))[j]? = some d.1 := ⟨d, hd⟩
        have he : hex.choose = d := Subtype.ext (Option.some.inj (hex.choose_spec.symm.trans hd))
        show w ∈ if h : _ then _ else _
        rw [dif_pos hex, he]
        exact hw
      refine le_trans (Nat.card_mono (Set.toFinite _) hsub) ?_
      have h1 : ∀ s : Finset (Fin (i + 1)), Set.ncard (⋃ j ∈ s, c j) ≤ s.card * b := by
        intro s
        induction s using Finset.induction_on with
        | empty => simp
        | insert a s ha ih =>
          rw [Finset.set_biUnion_insert, Finset.card_insert_of_notMem ha, Nat.add_mul, one_mul]
          exact le_trans (Set.ncard_union_le _ _) (le_trans (Nat.add_le_add (hc _) ih) (le_of_eq (Nat.add_comm _ _)))
      have h2 := h1 Finset.univ
      simpa using h2
    have hstop := before_stopping O A n i hA
    have hsame : ∀ f f' : D → Arr 64, (∀ k ∈ before O A i f, f' k = f k) → bad i f' = bad i f := by
      have one : ∀ f f' : D → Arr 64, (∀ k ∈ before O A i f, f' k = f k) → bad i f ⊆ bad i f' := by
        rintro f f' h w ⟨k, hk, j, hj, d, hd, hw⟩
        have ht := asked_take_table O A n i hA f f' h
        have hd' : (A.asked (table O D f'))[j]? = some d.1 := by
          have := congrArg (·[j]?) ht
          simp only [List.getElem?_take, hj, if_true] at this
          rw [this]; exact hd
        exact ⟨k, by rw [newAt_adapted O A n i hA f f' h]; exact hk, j, hj, d, hd', hw⟩
      intro f f' h
      refine Set.Subset.antisymm (one f' f ?_) (one f f' h)
      intro k hk
      rw [hstop f f' h] at hk
      exact (h k hk).symm
    have := Rom.guess_count (newAt_adapted O A n i hA) (fun f k h => (newAt_new O A i f k h).1) (bad i) hsame _
      (fun f k h => hcard f k h)
    rw [card_arr64] at this
    unfold chance
    rw [mul_div_assoc', div_le_div_iff₀ (by exact_mod_cast card_tables_pos D) (by positivity)]
    exact_mod_cast this
  · rw [← Finset.sum_mul]
    have : ∀ n : Nat, (∑ i ∈ Finset.range n, ((i + 1 : Nat) : ℚ)) = (n * (n + 1) : ℚ) / 2 := by
      intro n
      induction n with
      | zero => simp
      | succ n ih => rw [Finset.sum_range_succ, ih]; push_cast; ring
    rw [this]

/-- `chance_back` for answers cut to `m` bytes, when each query names at most one value. -/
theorem chance_back_prefix (A : Algo α) (n m : Nat) (hm : m ≤ 64) (hA : A.WideWithin O D n) (names : List MOp → Bytes → Prop)
    (hf : ∀ q c c', names q c → names q c' → c = c') :
    chance (fun f : D → Arr 64 => let O' := wideTable O D f
      ∃ q ∈ A.asked O', ∃ q' ∈ A.asked O', (A.asked O').idxOf q' ≤ (A.asked O').idxOf q ∧ names q' (O'.merlin q m).1) ≤
      (n * (n + 1) : ℚ) / 2 / 256 ^ m := by
  have hW := wideWithin_within O A n hA
  have h := chance_back O A n (2 ^ 512 / 256 ^ m) hW (fun w q => names q (w.1.take m)) (fun q =>
    (Nat.le_div_iff_mul_le (by positivity)).mpr (by
      by_cases hc : ∃ c, names q c
      · exact card_prefix m hm hc.choose _ fun w hw => hf q _ _ hw hc.choose_spec
      · exact card_prefix m hm [] _ fun w hw => absurd ⟨_, hw⟩ hc))
  refine le_trans (chance_mono ?_) (le_trans h ?_)
  · rintro f ⟨q, hq, q', hq', hne, he⟩
    rw [← (run_wideTable O A n hA f).2] at hq hq' hne
    have hqD := (hW f).2 q hq
    refine ⟨q, hq, q', hq', hne, ?_⟩
    rw [wideTable_short O f q hqD m hm, wideTable_hit O f q hqD] at he
    rw [table_hit O D f q hqD]
    exact he
  · have h3 : (2 ^ 512 / 256 ^ m) * 256 ^ m = 2 ^ 512 := by
      apply Nat.div_mul_cancel
      refine ⟨256 ^ (64 - m), ?_⟩
      rw [← pow_add, Nat.add_sub_cancel' hm, show (256 : Nat) = 2 ^ 8 from rfl, ← pow_mul]
    have h4 : ((2 ^ 512 / 256 ^ m : Nat) : ℚ) / 2 ^ 512 = 1 / 256 ^ m := by
      rw [div_eq_div_iff (by positivity) (by positivity), one_mul]
      exact_mod_cast h3
    rw [h4, mul_one_div]

end Schnorrkel
