import Verif.Lemmas.RomWide

/-! # Predicting and colliding answers of a random table -/

namespace Schnorrkel
open Spec Schnorrkel.Props Classical
variable {α : Type} (O : Oracles) {D : Finset (List MOp)}

/-- Entries with a given prefix of `m` bytes. -/
theorem card_prefix (m : Nat) (hm : m ≤ 64) (c : Bytes) (bad : Set (Arr 64)) (h : ∀ w ∈ bad, w.1.take m = c) :
    Nat.card bad * 256 ^ m ≤ 2 ^ 512 := by
  have hp : 0 < 256 ^ (64 - m) := by positivity
  let g : bad → Fin (256 ^ (64 - m)) := fun w => ⟨leNat (w.1.1.drop m), by
    have := leNat_lt (w.1.1.drop m)
    rwa [List.length_drop, w.1.2] at this⟩
  have hg : Function.Injective g := by
    rintro ⟨w, hw⟩ ⟨w', hw'⟩ e
    have e1 : leNat (w.1.drop m) = leNat (w'.1.drop m) := congrArg Fin.val e
    have e2 : w.1.drop m = w'.1.drop m := by
      have a := w.2; have b := w'.2
      have : (⟨w.1.drop m, by simp [a]⟩ : Arr (64 - m)) = ⟨w'.1.drop m, by simp [b]⟩ := Arr.leNat_inj e1
      exact congrArg Subtype.val this
    apply Subtype.ext
    apply Subtype.ext
    rw [← List.take_append_drop m w.1, ← List.take_append_drop m w'.1, e2, h w hw, h w' hw']
  have h1 := Nat.card_le_card_of_injective g hg
  rw [Nat.card_eq_fintype_card (α := Fin _), Fintype.card_fin] at h1
  have h2 : 256 ^ (64 - m) * 256 ^ m = 2 ^ 512 := by
    rw [← pow_add, Nat.sub_add_cancel hm, show (256 : Nat) = 2 ^ 8 from rfl, ← pow_mul]
  calc Nat.card bad * 256 ^ m ≤ 256 ^ (64 - m) * 256 ^ m := Nat.mul_le_mul_right _ h1
    _ = 2 ^ 512 := h2

/-- Predicting the first `m` bytes of an answer without asking for it. -/
theorem chance_predict (A : Algo α) (n m : Nat) (hm : m ≤ 64) (hA : A.WideWithin O D n) (target : α → List MOp)
    (value : α → Bytes) (hD : ∀ f : D → Arr 64, target (A.run (wideTable O D f)) ∈ D) :
    chance (fun f : D → Arr 64 => let O' := wideTable O D f
      target (A.run O') ∉ A.asked O' ∧ (O'.merlin (target (A.run O')) m).1 = value (A.run O')) ≤ 1 / 256 ^ m := by
  let q : (D → Arr 64) → Option D := fun f =>
    if target (A.run (wideTable O D f)) ∉ A.asked (wideTable O D f) then some ⟨_, hD f⟩ else none
  let bad : (D → Arr 64) → Set (Arr 64) := fun f => {w | w.1.take m = value (A.run (wideTable O D f))}
  have hp : (0 : ℚ) < 256 ^ m := by positivity
  have hcard : ∀ c : Bytes, Nat.card {w : Arr 64 | w.1.take m = c} ≤ 2 ^ 512 / 256 ^ m := fun c =>
    (Nat.le_div_iff_mul_le (by positivity)).mpr (card_prefix m hm c _ fun w hw => hw)
  have h := chance_guess_update (D := D) q bad (2 ^ 512 / 256 ^ m) ?_ (fun f k _ => hcard _)
  · refine le_trans (chance_mono ?_) (le_trans h ?_)
    · rintro f ⟨h1, h2⟩
      refine ⟨⟨_, hD f⟩, if_pos h1, ?_⟩
      show (f _).1.take m = _
      rw [← h2, wideTable_short O f _ (hD f) m hm, wideTable_hit O f _ (hD f)]
    · rw [div_le_div_iff₀ (by positivity) hp, one_mul]
      have : (2 ^ 512 / 256 ^ m) * 256 ^ m ≤ 2 ^ 512 := Nat.div_mul_le_self _ _
      exact_mod_cast this
  · intro f k w hk
    by_cases hc : target (A.run (wideTable O D f)) ∉ A.asked (wideTable O D f)
    · have hk' : k = ⟨_, hD f⟩ := by
        have : q f = some ⟨_, hD f⟩ := if_pos hc
        rw [this] at hk; exact (Option.some.inj hk).symm
      have hr := Algo.run_congr (wideTable O D f) (wideTable O D (Function.update f k w)) A (by
        intro l hl
        apply wideTable_update
        rintro rfl
        rw [hk'] at hl
        exact hc hl)
      refine ⟨?_, ?_⟩
      · have : target (A.run (wideTable O D (Function.update f k w))) ∉ A.asked (wideTable O D (Function.update f k w)) := by
          rw [hr.1, hr.2]; exact hc
        show (if _ then _ else _) = _
        rw [if_pos this]
        refine congrArg some (Subtype.ext ?_)
        rw [hk'] at hr ⊢
        exact congrArg target hr.1
      · show {w' : Arr 64 | _} = {w' : Arr 64 | _}
        rw [hr.1]
    · have : q f = none := if_neg hc
      rw [this] at hk; cases hk

theorem chance_exists_lt_sum (n : Nat) (p : Nat → (D → Arr 64) → Prop) (c : Nat → ℚ) (h : ∀ i, i < n → chance (p i) ≤ c i) :
    chance (fun f => ∃ i, i < n ∧ p i f) ≤ ∑ i ∈ Finset.range n, c i := by
  induction n with
  | zero =>
    have : chance (fun f : D → Arr 64 => ∃ i, i < 0 ∧ p i f) = 0 := by
      unfold chance; simp
    rw [this]; simp
  | succ n ih =>
    rw [Finset.sum_range_succ]
    refine le_trans (chance_mono (p' := fun f => (∃ i, i < n ∧ p i f) ∨ p n f) ?_) (le_trans chance_or ?_)
    · rintro f ⟨i, hi, hp⟩
      rcases Nat.lt_succ_iff_lt_or_eq.mp hi with h | rfl
      · exact Or.inl ⟨i, h, hp⟩
      · exact Or.inr hp
    · exact add_le_add (ih fun i hi => h i (by omega)) (h n (by omega))

/-- Two different queries among those asked whose answers are related, when each answer leaves at most `b` values
related to it: the birthday bound. -/
theorem chance_pair (A : Algo α) (n b : Nat) (hA : A.Within O D n) (R : List MOp → Arr 64 → List MOp → Arr 64 → Prop)
    (hs : ∀ q w q' w', R q w q' w' → R q' w' q w)
    (hb : ∀ q q' w', q ≠ q' → Nat.card {w | R q w q' w'} ≤ b) :
    chance (fun f : D → Arr 64 => let O' := table O D f
      ∃ q ∈ A.asked O', ∃ q' ∈ A.asked O', q ≠ q' ∧ R q (O'.merlin q 64) q' (O'.merlin q' 64)) ≤
      (n * (n - 1) : ℚ) / 2 * (b / 2 ^ 512) := by
  let bad : Nat → (D → Arr 64) → Set (Arr 64) := fun i f =>
    {w | ∃ k, newAt O A i f = some k ∧ ∃ j, j < i ∧ ∃ d : D, (A.asked (table O D f))[j]? = some d.1 ∧ k ≠ d ∧ R k.1 w d.1 (f d)}
  refine le_trans (chance_mono (p' := fun f => ∃ i, i < n ∧ ∃ k, newAt O A i f = some k ∧ f k ∈ bad i f) ?_)
    (le_trans (chance_exists_lt_sum n _ (fun i => (i : ℚ) * (b / 2 ^ 512)) fun i hi => ?_) ?_)
  · rintro f ⟨q, hq, q', hq', hne, he⟩
    have hqD := (hA f).2 q hq
    have hqD' := (hA f).2 q' hq'
    rw [table_hit O D f q hqD, table_hit O D f q' hqD'] at he
    have key : ∀ (a b : List MOp) (ha : a ∈ A.asked (table O D f)) (hb : b ∈ A.asked (table O D f)), a ≠ b →
        R a (f ⟨a, (hA f).2 a ha⟩) b (f ⟨b, (hA f).2 b hb⟩) →
        (A.asked (table O D f)).idxOf b < (A.asked (table O D f)).idxOf a →
        ∃ i, i < n ∧ ∃ k, newAt O A i f = some k ∧ f k ∈ bad i f := by
      intro a b ha hb hab e hlt
      obtain ⟨h1, h2⟩ := exists_newAt O A n hA f a ha
      refine ⟨_, h1, _, h2, _, h2, _, hlt, ⟨b, (hA f).2 b hb⟩, ?_, fun h => hab (congrArg Subtype.val h), e⟩
      have hl : (A.asked (table O D f)).idxOf b < (A.asked (table O D f)).length := List.idxOf_lt_length_of_mem hb
      rw [List.getElem?_eq_getElem hl, List.getElem_idxOf]
    rcases Nat.lt_trichotomy ((A.asked (table O D f)).idxOf q) ((A.asked (table O D f)).idxOf q') with h | h | h
    · exact key q' q hq' hq hne.symm (hs _ _ _ _ he) h
    · exact absurd ((List.idxOf_inj hq).mp h) hne
    · exact key q q' hq hq' hne he h
  · have hcard : ∀ f k, newAt O A i f = some k → Nat.card (bad i f) ≤ i * b := by
      intro f k hk
      let c : Fin i → Set (Arr 64) := fun j =>
        if h : ∃ d : D, (A.asked (table O D f))[j.1]? = some d.1 ∧ k ≠ d then {w | R k.1 w h.choose.1 (f h.choose)} else ∅
      have hc : ∀ j, Set.ncard (c j) ≤ b := by
        intro j
        show Set.ncard (if h : _ then _ else _) ≤ b
        split_ifs with h
        · exact hb _ _ _ fun e => h.choose_spec.2 (Subtype.ext e)
        · simp
      have hsub : bad i f ⊆ ⋃ j : Fin i, c j := by
        rintro w ⟨k', hk', j, hj, d, hd, hkd, hw⟩
        rw [hk] at hk'
        cases hk'
        refine Set.mem_iUnion.mpr ⟨⟨j, hj⟩, ?_⟩
        have hex : ∃ d : D, (A.asked (table O D f))[j]? = some d.1 ∧ k ≠ d := ⟨d, hd, hkd⟩
        have he : hex.choose = d := Subtype.ext (Option.some.inj (hex.choose_spec.1.symm.trans hd))
        show w ∈ if h : _ then _ else _
        rw [dif_pos hex, he]
        exact hw
      refine le_trans (Nat.card_mono (Set.toFinite _) hsub) ?_
      have h1 : ∀ s : Finset (Fin i), Set.ncard (⋃ j ∈ s, c j) ≤ s.card * b := by
        intro s
        induction s using Finset.induction_on with
        | empty => simp
        | insert a s ha ih =>
          rw [Finset.set_biUnion_insert, Finset.card_insert_of_notMem ha, Nat.add_mul, one_mul, Nat.add_comm]
          refine le_trans (Set.ncard_union_le _ _) (Nat.add_le_add (hc _) ih)
      have h2 := h1 Finset.univ
      simpa using h2
    have hstop := before_stopping O A n i hA
    have hsame : ∀ f f' : D → Arr 64, (∀ k ∈ before O A i f, f' k = f k) → bad i f' = bad i f := by
      have one : ∀ f f' : D → Arr 64, (∀ k ∈ before O A i f, f' k = f k) → bad i f ⊆ bad i f' := by
        rintro f f' h w ⟨k, hk, j, hj, d, hd, hkd, hw⟩
        have ht := take_of_take_succ (asked_take_table O A n i hA f f' h)
        have hd' : (A.asked (table O D f'))[j]? = some d.1 := by
          have := congrArg (·[j]?) ht
          simp only [List.getElem?_take, hj, if_true] at this
          rw [this]; exact hd
        have hdb : d ∈ before O A i f := by
          show d.1 ∈ (A.asked (table O D f)).take i
          refine List.mem_of_getElem? (i := j) ?_
          rw [List.getElem?_take, if_pos hj]; exact hd
        exact ⟨k, by rw [newAt_adapted O A n i hA f f' h]; exact hk, j, hj, d, hd', hkd, by rw [h d hdb]; exact hw⟩
      intro f f' h
      refine Set.Subset.antisymm (one f' f ?_) (one f f' h)
      intro k hk
      rw [hstop f f' h] at hk
      exact (h k hk).symm
    have := Rom.guess_count (newAt_adapted O A n i hA) (fun f k h => (newAt_new O A i f k h).1) (bad i) hsame _
      (fun f k h => hcard f k h)
    rw [card_arr64] at this
    unfold chance
    rw [mul_div_assoc', div_le_div_iff₀ (by exact_mod_cast card_tables_pos D) (by positivity)]
    exact_mod_cast this
  · rw [← Finset.sum_mul]
    have : ∀ n : Nat, (∑ i ∈ Finset.range n, (i : ℚ)) = (n * (n - 1) : ℚ) / 2 := by
      intro n
      induction n with
      | zero => simp
      | succ n ih => rw [Finset.sum_range_succ, ih]; push_cast; ring
    rw [this]

/-- Two different queries among those asked with the same first `m` bytes of answer. -/
theorem chance_collide (A : Algo α) (n m : Nat) (hm : m ≤ 64) (hA : A.WideWithin O D n) :
    chance (fun f : D → Arr 64 => let O' := wideTable O D f
      ∃ q ∈ A.asked O', ∃ q' ∈ A.asked O', q ≠ q' ∧ (O'.merlin q m).1 = (O'.merlin q' m).1) ≤
      (n * (n - 1) : ℚ) / 2 / 256 ^ m := by
  have hW := wideWithin_within O A n hA
  have h := chance_pair O A n (2 ^ 512 / 256 ^ m) hW (fun _ w _ w' => w.1.take m = w'.1.take m)
    (fun _ _ _ _ h => h.symm) (fun q q' w' _ => (Nat.le_div_iff_mul_le (by positivity)).mpr
      (card_prefix m hm (w'.1.take m) _ fun w hw => hw))
  refine le_trans (chance_mono ?_) (le_trans h ?_)
  · rintro f ⟨q, hq, q', hq', hne, he⟩
    rw [← (run_wideTable O A n hA f).2] at hq hq'
    have hqD := (hW f).2 q hq
    have hqD' := (hW f).2 q' hq'
    refine ⟨q, hq, q', hq', hne, ?_⟩
    rw [wideTable_short O f q hqD m hm, wideTable_short O f q' hqD' m hm, wideTable_hit O f q hqD,
      wideTable_hit O f q' hqD'] at he
    rw [table_hit O D f q hqD, table_hit O D f q' hqD']
    exact he
  · have h3 : (2 ^ 512 / 256 ^ m) * 256 ^ m = 2 ^ 512 := by
      apply Nat.div_mul_cancel
      refine ⟨256 ^ (64 - m), ?_⟩
      rw [← pow_add, Nat.add_sub_cancel' hm, show (256 : Nat) = 2 ^ 8 from rfl, ← pow_mul]
    have h4 : ((2 ^ 512 / 256 ^ m : Nat) : ℚ) / 2 ^ 512 = 1 / 256 ^ m := by
      rw [div_eq_div_iff (by positivity) (by positivity), one_mul]
      exact_mod_cast h3
    rw [h4, mul_one_div]

/-- An algorithm followed by two queries about its result. -/
def thenTwo (A : Algo α) (u v : α → List MOp) : Algo α := A.bind fun r => .ask (u r) fun _ => .ask (v r) fun _ => .ret r

theorem thenTwo_run (A : Algo α) (u v : α → List MOp) (O : Oracles) : (thenTwo A u v).run O = A.run O ∧
    (thenTwo A u v).asked O = A.asked O ++ [u (A.run O), v (A.run O)] := by
  unfold thenTwo
  rw [Algo.run_bind, Algo.asked_bind]
  exact ⟨rfl, rfl⟩

/-- `chance_pair` for two queries named by the result. -/
theorem chance_pair_out (A : Algo α) (n b : Nat) (hA : A.Within O D n) (R : List MOp → Arr 64 → List MOp → Arr 64 → Prop)
    (hs : ∀ q w q' w', R q w q' w' → R q' w' q w) (hb : ∀ q q' w', q ≠ q' → Nat.card {w | R q w q' w'} ≤ b)
    (u v : α → List MOp) (hD : ∀ f : D → Arr 64, let r := A.run (table O D f); u r ∈ D ∧ v r ∈ D) :
    chance (fun f : D → Arr 64 => let O' := table O D f
      let r := A.run O'
      u r ≠ v r ∧ R (u r) (O'.merlin (u r) 64) (v r) (O'.merlin (v r) 64)) ≤
      ((n + 2) * (n + 1) : ℚ) / 2 * (b / 2 ^ 512) := by
  have hB : (thenTwo A u v).Within O D (n + 2) := by
    intro f
    rw [(thenTwo_run A u v _).2]
    refine ⟨?_, ?_⟩
    · have := (hA f).1
      simp only [List.length_append, List.length_cons, List.length_nil]
      omega
    · intro q hq
      rcases List.mem_append.mp hq with h | h
      · exact (hA f).2 q h
      · rcases List.mem_cons.mp h with rfl | h
        · exact (hD f).1
        · rw [List.mem_singleton.mp h]
          exact (hD f).2
  have h := chance_pair O (thenTwo A u v) (n + 2) b hB R hs hb
  have hn : (((n + 2 : Nat) : ℚ) * (((n + 2 : Nat) : ℚ) - 1)) = (n + 2) * (n + 1) := by push_cast; ring
  rw [hn] at h
  refine le_trans (chance_mono ?_) h
  rintro f ⟨h1, h2⟩
  refine ⟨_, ?_, _, ?_, h1, h2⟩ <;> rw [(thenTwo_run A u v _).2] <;> simp

/-- `chance_collide` for two queries named by the result. -/
theorem chance_collide_out (A : Algo α) (n m : Nat) (hm : m ≤ 64) (hA : A.WideWithin O D n)
    (u v : α → List MOp) (hD : ∀ f : D → Arr 64, let r := A.run (wideTable O D f); u r ∈ D ∧ v r ∈ D) :
    chance (fun f : D → Arr 64 => let O' := wideTable O D f
      let r := A.run O'
      u r ≠ v r ∧ (O'.merlin (u r) m).1 = (O'.merlin (v r) m).1) ≤ ((n + 2) * (n + 1) : ℚ) / 2 / 256 ^ m := by
  have hB : (thenTwo A u v).WideWithin O D (n + 2) := by
    intro f
    rw [(thenTwo_run A u v _).2]
    refine ⟨?_, ?_⟩
    · have := (hA f).1
      simp only [List.length_append, List.length_cons, List.length_nil]
      omega
    · intro q hq
      rcases List.mem_append.mp hq with h | h
      · exact (hA f).2 q h
      · rcases List.mem_cons.mp h with rfl | h
        · exact (hD f).1
        · rw [List.mem_singleton.mp h]
          exact (hD f).2
  have h := chance_collide O (thenTwo A u v) (n + 2) m hm hB
  have hn : (((n + 2 : Nat) : ℚ) * (((n + 2 : Nat) : ℚ) - 1)) = (n + 2) * (n + 1) := by push_cast; ring
  rw [hn] at h
  refine le_trans (chance_mono ?_) h
  rintro f ⟨h1, h2⟩
  refine ⟨_, ?_, _, ?_, h1, h2⟩ <;> rw [(thenTwo_run A u v _).2] <;> simp

/-- Two different queries whose answers make two independent affine functions meet: the birthday bound. -/
theorem chance_pair_points {P : Type} [Ristretto P] (A : Algo α) (n : Nat) (hA : A.Within O D n)
    (pt off : List MOp → P) (u v : α → List MOp)
    (hD : ∀ f : D → Arr 64, let r := A.run (table O D f); u r ∈ D ∧ v r ∈ D) :
    chance (fun f : D → Arr 64 => let O' := table O D f
      let r := A.run O'
      u r ≠ v r ∧ pt (u r) ≠ 0 ∧ pt (v r) ≠ 0 ∧
        hashWith O' (u r) • pt (u r) + off (u r) = hashWith O' (v r) • pt (v r) + off (v r)) ≤
      ((n + 2) * (n + 1) : ℚ) / 2 * guess := by
  refine chance_pair_out O A n (2 ^ 512 / ell + 1) hA (fun q w q' w' => pt q ≠ 0 ∧ pt q' ≠ 0 ∧
    residue w • pt q + off q = residue w' • pt q' + off q') ?_ ?_ u v hD
  · rintro q w q' w' ⟨h1, h2, h3⟩
    exact ⟨h2, h1, h3.symm⟩
  · intro q q' w' _
    by_cases hne : {w : Arr 64 | pt q ≠ 0 ∧ pt q' ≠ 0 ∧ residue w • pt q + off q = residue w' • pt q' + off q'}.Nonempty
    · obtain ⟨w0, h1, h2, h3⟩ := hne
      refine card_bad_le _ (residue w0) ?_
      rintro w ⟨-, -, h⟩
      have : (residue w - residue w0) • pt q = 0 := by
        rw [sub_smul, sub_eq_zero]
        exact add_right_cancel (h.trans h3.symm)
      rcases smul_eq_zero.mp this with h | h
      · exact sub_eq_zero.mp h
      · exact absurd h h1
    · rw [Set.not_nonempty_iff_eq_empty.mp hne]
      simp

/-- Every algorithm meets the hypotheses above, for some `D` and `n`, whatever two queries its result names. -/
theorem exists_domain_two (A : Algo α) (u v : α → List MOp) : ∃ (D : Finset (List MOp)) (n : Nat),
    A.Within O D n ∧ A.WideWithin O D n ∧ ∀ O' : Oracles, u (A.run O') ∈ D ∧ v (A.run O') ∈ D := by
  obtain ⟨D, n, h⟩ := exists_within (thenTwo A u v)
  have hm : ∀ O', (A.asked O').length ≤ n ∧ ∀ q ∈ A.asked O', q ∈ D := by
    intro O'
    have := h O'
    rw [(thenTwo_run _ _ _ _).2, List.length_append] at this
    exact ⟨by omega, fun q hq => this.2 q (List.mem_append_left _ hq)⟩
  refine ⟨D, n, fun f => hm _, fun f => hm _, fun O' => ?_⟩
  have := (h O').2
  rw [(thenTwo_run _ _ _ _).2] at this
  exact ⟨this _ (by simp), this _ (by simp)⟩

end Schnorrkel
