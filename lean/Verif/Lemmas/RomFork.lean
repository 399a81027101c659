import Verif.Lemmas.RomAlgo
import Verif.Lemmas.RomAvg

/-! # The forking lemma for algorithms with a random table -/

namespace Schnorrkel
open Spec Schnorrkel.Props Rom

theorem take_idxOf {β : Type} [BEq β] [LawfulBEq β] (l : List β) (c : β) (p : β → Bool) (hp : ∀ x, p x = true ↔ x ≠ c) :
    l.take (l.idxOf c) = l.takeWhile p := by
  induction l with
  | nil => rfl
  | cons a l ih =>
    by_cases h : a = c
    · subst h
      have : p a = false := by
        rw [← Bool.not_eq_true, hp]; simp
      simp [List.takeWhile_cons, this]
    · rw [List.idxOf_cons_ne _ h, List.take_succ_cons, ih, List.takeWhile_cons, (hp a).mpr h]
      rfl

variable {α : Type} (O : Oracles) {D : Finset (List MOp)}

theorem mixOn_before (B : Algo α) (i : Nat) (f g : D → Arr 64) :
    mixOn (before O B i f) f g = rewind ((B.asked (table O D f)).take i) f g := by
  funext k
  unfold mixOn rewind before
  by_cases h : k.1 ∈ (B.asked (table O D f)).take i <;> simp [h]

theorem hashWith_table_ne {f f' : D → Arr 64} {q : List MOp} (h : q ∈ D) :
    hashWith (table O D f) q ≠ hashWith (table O D f') q ↔ residue (f ⟨q, h⟩) ≠ residue (f' ⟨q, h⟩) := by
  rw [hashWith_table _ _ _ _ h, hashWith_table _ _ _ _ h]

open Classical in
/-- Forking lemma, general form: `K i` is a stopping set that contains the queries asked before step `i` and not the
one asked at step `i`. -/
theorem forking_gen (B : Algo α) (n : Nat) (hB : B.Within O D n) (win : (D → Arr 64) → Prop)
    (tq : (D → Arr 64) → List MOp) (htq : ∀ f, win f → tq f ∈ B.asked (table O D f))
    (K : Nat → (D → Arr 64) → Set D) (hK : ∀ i, Stopping (K i)) (hKb : ∀ i f, before O B i f ⊆ K i f)
    (hKn : ∀ i f k, newAt O B i f = some k → k ∉ K i f) :
    chance win * (chance win / n - guess) ≤ chance fun x : (D → Arr 64) × (D → Arr 64) =>
      let f' := mixOn (K ((B.asked (table O D x.1)).idxOf (tq x.1)) x.1) x.1 x.2
      win x.1 ∧ win f' ∧ tq f' = tq x.1 ∧ hashWith (table O D x.1) (tq x.1) ≠ hashWith (table O D f') (tq x.1) := by
  haveI : Fintype (D → Arr 64) := Fintype.ofFinite _
  let idx : (D → Arr 64) → Nat := fun f => (B.asked (table O D f)).idxOf (tq f)
  let W : Nat → (D → Arr 64) → Prop := fun i f => win f ∧ idx f = i
  let T : Nat → (D → Arr 64) × (D → Arr 64) → Prop := fun i x =>
    W i x.1 ∧ W i (mixOn (K i x.1) x.1 x.2)
  let C : Nat → (D → Arr 64) × (D → Arr 64) → Prop := fun i x => W i x.1 ∧
    ∃ h : tq x.1 ∈ D, residue (x.2 ⟨_, h⟩) = residue (x.1 ⟨_, h⟩)
  let good : (D → Arr 64) × (D → Arr 64) → Prop := fun x =>
    let f' := mixOn (K (idx x.1) x.1) x.1 x.2
    win x.1 ∧ win f' ∧ tq f' = tq x.1 ∧ hashWith (table O D x.1) (tq x.1) ≠ hashWith (table O D f') (tq x.1)
  have hD : ∀ f, win f → tq f ∈ D := fun f h => (hB f).2 _ (htq f h)
  have hidx : ∀ f, win f → idx f < n := fun f h => (exists_newAt O B n hB f (tq f) (htq f h)).1
  -- the sum over positions
  have hsum : Nat.card {f // win f} = ∑ i ∈ Finset.range n, Nat.card {f // W i f} := by
    simp only [Nat.card_eq_fintype_card, Fintype.card_subtype]
    rw [Finset.card_eq_sum_card_fiberwise (f := idx) (t := Finset.range n)]
    · apply Finset.sum_congr rfl
      intro i _
      congr 1
      ext f
      simp [W]
    · intro f hf
      simp only [Finset.coe_filter, Finset.mem_univ, true_and, Set.mem_setOf_eq] at hf
      simpa using hidx f hf
  -- forks at position i
  have hT : ∀ i, Nat.card {f // W i f} ^ 2 ≤ Nat.card {x // T i x} := fun i =>
    fork_count (hK i) (W i)
  -- coincidences of the challenge
  have hC : ∀ i, (Nat.card {x // C i x} : ℚ) ≤ Nat.card {f // W i f} * (Nat.card (D → Arr 64) * guess) := by
    intro i
    have h1 : Nat.card {x // C i x} = ∑ f : {f // W i f}, Nat.card {g : D → Arr 64 // ∃ h : tq f.1 ∈ D,
        residue (g ⟨_, h⟩) = residue (f.1 ⟨_, h⟩)} := by
      rw [← Nat.card_sigma]
      exact Nat.card_congr
        { toFun := fun x => ⟨⟨x.1.1, x.2.1⟩, ⟨x.1.2, x.2.2⟩⟩
          invFun := fun x => ⟨(x.1.1, x.2.1), x.1.2, x.2.2⟩
          left_inv := fun _ => rfl
          right_inv := fun _ => rfl }
    rw [h1]
    push_cast
    calc ∑ f : {f // W i f}, (Nat.card {g : D → Arr 64 // ∃ h : tq f.1 ∈ D,
          residue (g ⟨_, h⟩) = residue (f.1 ⟨_, h⟩)} : ℚ)
        ≤ ∑ _f : {f // W i f}, (Nat.card (D → Arr 64) * guess : ℚ) := by
          apply Finset.sum_le_sum
          rintro ⟨f, hf⟩ _
          have hq := hD f hf.1
          have := chance_guess (D := D) (K := fun _ => ∅) (q := fun _ => some ⟨tq f, hq⟩) (fun _ _ _ => rfl)
            (fun _ _ _ => by simp) (fun _ => {w | residue w = residue (f ⟨tq f, hq⟩)}) (fun _ _ _ => rfl)
            (fun _ _ _ => ⟨_, fun w hw => hw⟩)
          unfold chance at this
          rw [div_le_iff₀ (by exact_mod_cast card_tables_pos D)] at this
          rw [mul_comm]
          refine le_trans ?_ this
          norm_cast
          apply Nat.card_mono (Set.toFinite {g : D → Arr 64 | _})
          rintro g ⟨h, hg⟩
          exact ⟨_, rfl, hg⟩
      _ = _ := by
          rw [Finset.sum_const, Finset.card_univ, nsmul_eq_mul, Nat.card_eq_fintype_card (α := {f // W i f})]
  -- a fork without coincidence is good
  have hgood : ∀ i x, T i x → ¬ C i x → good x ∧ idx x.1 = i := by
    rintro i ⟨f, g⟩ ⟨⟨hw, hi⟩, ⟨hw', hi'⟩⟩ hc
    simp only at hw hi hw' hi'
    set f' := mixOn (K i f) f g with hf'
    have hagree : ∀ k ∈ before O B i f, f' k = f k := by
      intro k hk
      simp [hf', mixOn, hKb i f hk]
    have htake := asked_take_table O B n i hB f f' hagree
    have hget := getElem?_of_take_succ htake
    have hq : tq f' = tq f := by
      have e1 : (B.asked (table O D f))[i]? = some (tq f) := by
        rw [← hi, List.getElem?_eq_getElem (List.idxOf_lt_length_of_mem (htq f hw)), List.getElem_idxOf]
      have e2 : (B.asked (table O D f'))[i]? = some (tq f') := by
        rw [← hi', List.getElem?_eq_getElem (List.idxOf_lt_length_of_mem (htq f' hw')), List.getElem_idxOf]
      rw [hget, e1] at e2
      exact (Option.some.inj e2).symm
    have hnew : (⟨tq f, hD f hw⟩ : D) ∉ K i f := by
      have := (exists_newAt O B n hB f (tq f) (htq f hw)).2
      rw [show (B.asked (table O D f)).idxOf (tq f) = i from hi] at this
      exact hKn i f _ this
    have hgk : f' ⟨tq f, hD f hw⟩ = g ⟨tq f, hD f hw⟩ := by simp [hf', mixOn, hnew]
    refine ⟨⟨hw, ?_⟩, hi⟩
    simp only
    rw [show idx f = i from hi, ← hf']
    refine ⟨hw', hq, ?_⟩
    rw [hashWith_table_ne O (hD f hw), hgk]
    intro h
    exact hc ⟨⟨hw, hi⟩, hD f hw, h.symm⟩
  -- counting good pairs
  have hcount : (∑ i ∈ Finset.range n, ((Nat.card {x // T i x} : ℚ) - Nat.card {x // C i x})) ≤
      Nat.card {x // good x} := by
    have h1 : ∀ i, (Nat.card {x // T i x} : ℚ) - Nat.card {x // C i x} ≤ Nat.card {x // good x ∧ idx x.1 = i} := by
      intro i
      have : Nat.card {x // T i x} ≤ Nat.card {x // good x ∧ idx x.1 = i} + Nat.card {x // C i x} := by
        refine le_trans (Nat.card_mono (Set.toFinite ({x | good x ∧ idx x.1 = i} ∪ {x | C i x})) ?_)
          (Set.ncard_union_le _ _)
        intro x hx
        by_cases hc : C i x
        · exact Or.inr hc
        · exact Or.inl (hgood i x hx hc)
      have : (Nat.card {x // T i x} : ℚ) ≤ Nat.card {x // good x ∧ idx x.1 = i} + Nat.card {x // C i x} := by
        exact_mod_cast this
      linarith
    refine le_trans (Finset.sum_le_sum fun i _ => h1 i) ?_
    rw [← Nat.cast_sum]
    apply Nat.cast_le.mpr
    apply le_of_eq
    simp only [Nat.card_eq_fintype_card, Fintype.card_subtype]
    rw [Finset.card_eq_sum_card_fiberwise (f := fun x => idx x.1) (t := Finset.range n)]
    · apply Finset.sum_congr rfl
      intro i _
      congr 1
      ext x
      simp
    · intro x hx
      simp only [Finset.coe_filter, Finset.mem_univ, true_and, Set.mem_setOf_eq] at hx
      simpa using hidx x.1 hx.1
  -- putting it together
  have hN : (0 : ℚ) < Nat.card (D → Arr 64) := by exact_mod_cast card_tables_pos D
  rcases Nat.eq_zero_or_pos n with rfl | hn
  · have : Nat.card {f // win f} = 0 := by rw [hsum]; simp
    unfold chance
    rw [this]
    simp only [Nat.cast_zero, zero_div, zero_mul]
    positivity
  have hn' : (0 : ℚ) < n := by exact_mod_cast hn
  have hsq : (Nat.card {f // win f} : ℚ) ^ 2 ≤ n * ∑ i ∈ Finset.range n, (Nat.card {f // W i f} : ℚ) ^ 2 := by
    rw [hsum]
    push_cast
    have := sq_sum_le_card_mul_sum_sq (s := Finset.range n) (f := fun i => (Nat.card {f // W i f} : ℚ))
    simpa using this
  have hfinal : (Nat.card {f // win f} : ℚ) ^ 2 / n - Nat.card {f // win f} * (Nat.card (D → Arr 64) * guess) ≤
      Nat.card {x // good x} := by
    refine le_trans ?_ hcount
    rw [Finset.sum_sub_distrib]
    apply sub_le_sub
    · rw [div_le_iff₀ hn', mul_comm]
      refine le_trans hsq ?_
      gcongr with i
      exact_mod_cast hT i
    · refine le_trans (Finset.sum_le_sum fun i _ => hC i) ?_
      rw [← Finset.sum_mul, hsum]
      push_cast
      rfl
  show _ ≤ chance good
  unfold chance
  rw [le_div_iff₀ (by rw [Nat.card_prod]; push_cast; positivity), Nat.card_prod]
  push_cast
  refine le_trans (le_of_eq ?_) hfinal
  field_simp

open Classical in
/-- Forking lemma: rewinding the algorithm to the query `tq` it won with, and giving fresh answers from there, makes it
win again with the same query but a different challenge with probability at least `ε (ε/n − guess)`. -/
theorem forking (B : Algo α) (n : Nat) (hB : B.Within O D n) (win : (D → Arr 64) → Prop)
    (tq : (D → Arr 64) → List MOp) (htq : ∀ f, win f → tq f ∈ B.asked (table O D f)) :
    chance win * (chance win / n - guess) ≤ chance fun x : (D → Arr 64) × (D → Arr 64) =>
      let f' := rewind ((B.asked (table O D x.1)).takeWhile (· ≠ tq x.1)) x.1 x.2
      win x.1 ∧ win f' ∧ tq f' = tq x.1 ∧ hashWith (table O D x.1) (tq x.1) ≠ hashWith (table O D f') (tq x.1) := by
  have := forking_gen O B n hB win tq htq (before O B) (fun i => before_stopping O B n i hB) (fun i f => le_rfl)
    (fun i f k h => (newAt_new O B i f k h).1)
  refine le_trans this (le_of_eq (congrArg chance (funext fun x => ?_)))
  rw [mixOn_before, take_idxOf _ _ (· ≠ tq x.1) (by simp)]

theorem redraw_table {f : D → Arr 64} {q : List MOp} (h : q ∈ D) (w : Arr 64) :
    program (table O D f) q w = table O D (Function.update f ⟨q, h⟩ w) := by
  unfold program table
  refine congrArg (fun m : (l : List MOp) → (n : Nat) → Arr n => ({ O with merlin := m } : Oracles)) ?_
  funext p n
  by_cases hp : p ∈ D ∧ 64 = n
  · obtain ⟨h1, rfl⟩ := hp
    by_cases e : p = q
    · subst e; simp [h1]
    · have : (⟨p, h1⟩ : D) ≠ ⟨q, h⟩ := fun e' => e (congrArg Subtype.val e')
      simp [h1, e, this]
  · have e : ¬ (p = q ∧ 64 = n) := by
      rintro ⟨rfl, rfl⟩; exact hp ⟨h, rfl⟩
    simp only [dif_neg hp]
    simp only [dif_neg e]

open Classical in
/-- Forking lemma for changing a single answer: answering only the query `tq` it won with afresh, and all others as
before, makes the algorithm win again with the same query but another challenge with probability at least
`ε (ε/n − guess)`. -/
theorem forking_one (B : Algo α) (n : Nat) (hB : B.Within O D n) (win : Oracles → Prop)
    (tq : Oracles → List MOp) (htq : ∀ f : D → Arr 64, win (table O D f) → tq (table O D f) ∈ B.asked (table O D f)) :
    let ε := chance fun f : D → Arr 64 => win (table O D f)
    ε * (ε / n - guess) ≤ chance fun x : (D → Arr 64) × Arr 64 =>
      let O₁ := table O D x.1
      let O₂ := program O₁ (tq O₁) x.2
      win O₁ ∧ win O₂ ∧ tq O₂ = tq O₁ ∧ residue x.2 ≠ hashWith O₁ (tq O₁) := by
  intro ε
  have h := forking_gen O B n hB (fun f => win (table O D f)) (fun f => tq (table O D f)) htq
    (fun i f => {k | newAt O B i f ≠ some k}) ?_ ?_ ?_
  · refine le_trans h ?_
    rw [chance_eq_avg, chance_eq_avg, avg_prod, avg_prod]
    refine avg_mono fun f => ?_
    by_cases hw : win (table O D f)
    · have hmem := (hB f).2 _ (htq f hw)
      have hnew := (exists_newAt O B n hB f _ (htq f hw)).2
      have hmix : ∀ g : D → Arr 64, mixOn {k | newAt O B ((B.asked (table O D f)).idxOf (tq (table O D f))) f ≠ some k} f g =
          Function.update f ⟨tq (table O D f), hmem⟩ (g ⟨tq (table O D f), hmem⟩) := by
        intro g
        funext k
        unfold mixOn
        rw [hnew]
        by_cases hk : k = ⟨tq (table O D f), hmem⟩
        · subst hk; simp
        · rw [Function.update_of_ne hk, if_pos]
          simp only [Set.mem_setOf_eq, ne_eq, Option.some.injEq]
          exact fun e => hk e.symm
      rw [avg_update (⟨tq (table O D f), hmem⟩ : D)]
      refine avg_mono fun w => avg_le_const fun g => ind_mono ?_
      simp only [hmix, Function.update_self]
      rw [redraw_table O hmem, hashWith_table O D _ _ hmem, hashWith_table O D _ _ hmem, Function.update_self]
      rintro ⟨h1, h2, h3, h4⟩
      exact ⟨h1, h2, h3, fun e => h4 e.symm⟩
    · refine le_trans (avg_le_const (c := 0) fun g => ?_) (avg_nonneg fun w => ind_nonneg _)
      unfold ind
      rw [if_neg]
      exact fun h => hw h.1
  · intro i f f' hf
    have : newAt O B i f' = newAt O B i f := newAt_adapted O B n i hB f f' fun k hk => hf k fun e =>
      (newAt_new O B i f k e).1 hk
    simp only [this]
  · intro i f k hk e
    exact (newAt_new O B i f k e).1 hk
  · intro i f k hk h
    exact h hk

end Schnorrkel
