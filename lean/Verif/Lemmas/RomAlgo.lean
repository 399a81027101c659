import Verif.Lemmas.Rom
import Verif.Spec.Rom
import Verif.Props.Zk
import Mathlib.Data.Rat.Cast.Order
import Mathlib.Algebra.Order.Field.Basic
import Mathlib.Tactic.Positivity
import Mathlib.Tactic.FieldSimp
import Mathlib.Tactic.GCongr
import Mathlib.Algebra.Order.Field.Rat

/-! # Running algorithms against random tables -/

namespace Schnorrkel
open Spec Schnorrkel.Props

instance : Finite (Arr 64) := Finite.of_equiv _ arr64Equiv.symm
instance : Nonempty (Arr 64) := ⟨zeros 64⟩

theorem card_arr64 : Nat.card (Arr 64) = 2 ^ 512 := by
  rw [Nat.card_congr arr64Equiv, Nat.card_eq_fintype_card, Fintype.card_fin]

theorem table_hit (O : Oracles) (D : Finset (List MOp)) (f : D → Arr 64) (q : List MOp) (h : q ∈ D) :
    (table O D f).merlin q 64 = f ⟨q, h⟩ := by
  show (if h : q ∈ D ∧ 64 = 64 then h.2 ▸ f ⟨q, h.1⟩ else O.merlin q 64) = _
  rw [dif_pos ⟨h, rfl⟩]

theorem table_miss (O : Oracles) (D : Finset (List MOp)) (f : D → Arr 64) (q : List MOp) (n : Nat)
    (h : ¬ (q ∈ D ∧ 64 = n)) : (table O D f).merlin q n = O.merlin q n := by
  show (if h : q ∈ D ∧ 64 = n then h.2 ▸ f ⟨q, h.1⟩ else O.merlin q n) = _
  rw [dif_neg h]

theorem hashWith_table (O : Oracles) (D : Finset (List MOp)) (f : D → Arr 64) (q : List MOp) (h : q ∈ D) :
    hashWith (table O D f) q = residue (f ⟨q, h⟩) := by
  unfold hashWith hashToZ residue
  rw [show @Oracles.merlin (table O D f) q 64 = _ from table_hit O D f q h]

end Schnorrkel

namespace Spec.Algo
open Schnorrkel
variable {α β : Type}

theorem run_bind (O : Oracles) (A : Algo α) (g : α → Algo β) : (A.bind g).run O = (g (A.run O)).run O := by
  induction A with
  | ret a => rfl
  | ask q k ih => exact ih _

theorem asked_bind (O : Oracles) (A : Algo α) (g : α → Algo β) :
    (A.bind g).asked O = A.asked O ++ (g (A.run O)).asked O := by
  induction A with
  | ret a => rfl
  | ask q k ih =>
    simp only [bind, asked, run, List.cons_append, List.cons.injEq, true_and]
    exact ih _

/-- What is asked next depends only on the answers so far. -/
theorem asked_take (O O' : Oracles) (A : Algo α) (i : Nat)
    (h : ∀ q ∈ (A.asked O).take i, O'.merlin q 64 = O.merlin q 64) :
    (A.asked O').take (i + 1) = (A.asked O).take (i + 1) := by
  induction A generalizing i with
  | ret a => rfl
  | ask q k ih =>
    simp only [asked, List.take_succ_cons, List.cons.injEq, true_and]
    cases i with
    | zero => simp
    | succ i =>
      simp only [asked, List.take_succ_cons, List.mem_cons, forall_eq_or_imp] at h
      rw [h.1]
      exact ih _ i h.2

/-- The result depends only on the answers to the queries asked. -/
theorem run_congr (O O' : Oracles) (A : Algo α) (h : ∀ q ∈ A.asked O, O'.merlin q 64 = O.merlin q 64) :
    A.run O' = A.run O ∧ A.asked O' = A.asked O := by
  induction A with
  | ret a => exact ⟨rfl, rfl⟩
  | ask q k ih =>
    simp only [asked, List.mem_cons, forall_eq_or_imp] at h
    simp only [asked, run]
    rw [h.1]
    obtain ⟨h1, h2⟩ := ih _ h.2
    exact ⟨h1, by rw [h2]⟩

end Spec.Algo

namespace Schnorrkel
open Spec Schnorrkel.Props Rom
variable {α : Type} (O : Oracles) {D : Finset (List MOp)}

/-- The queries asked before step `i`. -/
def before (A : Algo α) (i : Nat) (f : D → Arr 64) : Set D :=
  {d | d.1 ∈ (A.asked (table O D f)).take i}

open Classical in
/-- The query asked at step `i`, if it was not asked before. -/
noncomputable def newAt (A : Algo α) (i : Nat) (f : D → Arr 64) : Option D :=
  match (A.asked (table O D f))[i]? with
  | none => none
  | some q => if h : q ∈ D ∧ q ∉ (A.asked (table O D f)).take i then some ⟨q, h.1⟩ else none

theorem asked_take_table (A : Algo α) (n i : Nat) (hA : A.Within O D n) (f f' : D → Arr 64)
    (h : ∀ k ∈ before O A i f, f' k = f k) :
    (A.asked (table O D f')).take (i + 1) = (A.asked (table O D f)).take (i + 1) := by
  apply Algo.asked_take
  intro q hq
  have hD : q ∈ D := (hA f).2 q (List.mem_of_mem_take hq)
  rw [table_hit _ _ _ _ hD, table_hit _ _ _ _ hD]
  exact h ⟨q, hD⟩ hq

theorem take_of_take_succ {β : Type} {l l' : List β} {i : Nat} (h : l.take (i + 1) = l'.take (i + 1)) :
    l.take i = l'.take i := by
  have := congrArg (List.take i) h
  simpa [List.take_take] using this

theorem getElem?_of_take_succ {β : Type} {l l' : List β} {i : Nat} (h : l.take (i + 1) = l'.take (i + 1)) :
    l[i]? = l'[i]? := by
  have := congrArg (·[i]?) h
  simpa [List.getElem?_take] using this

theorem before_stopping (A : Algo α) (n i : Nat) (hA : A.Within O D n) : Stopping (before O A i : (D → Arr 64) → _) := by
  intro f f' h
  have := take_of_take_succ (asked_take_table O A n i hA f f' h)
  unfold before
  rw [this]

theorem newAt_adapted (A : Algo α) (n i : Nat) (hA : A.Within O D n) (f f' : D → Arr 64)
    (h : ∀ k ∈ before O A i f, f' k = f k) : newAt O A i f' = newAt O A i f := by
  have h0 := asked_take_table O A n i hA f f' h
  unfold newAt
  simp only [getElem?_of_take_succ h0, take_of_take_succ h0]

theorem newAt_new (A : Algo α) (i : Nat) (f : D → Arr 64) (k : D) (h : newAt O A i f = some k) :
    k ∉ before O A i f ∧ (A.asked (table O D f))[i]? = some k.1 := by
  unfold newAt at h
  cases hq : (A.asked (table O D f))[i]? with
  | none => rw [hq] at h; cases h
  | some q =>
    rw [hq] at h
    simp only at h
    split at h
    · rename_i hh
      cases h
      exact ⟨hh.2, rfl⟩
    · cases h

/-- Every query asked is new at some step. -/
theorem exists_newAt (A : Algo α) (n : Nat) (hA : A.Within O D n) (f : D → Arr 64) (q : List MOp)
    (hq : q ∈ A.asked (table O D f)) :
    (A.asked (table O D f)).idxOf q < n ∧
    newAt O A ((A.asked (table O D f)).idxOf q) f = some ⟨q, (hA f).2 q hq⟩ := by
  have hlt : (A.asked (table O D f)).idxOf q < (A.asked (table O D f)).length := List.idxOf_lt_length_of_mem hq
  refine ⟨lt_of_lt_of_le hlt (hA f).1, ?_⟩
  unfold newAt
  rw [List.getElem?_eq_getElem hlt, List.getElem_idxOf]
  have hn : q ∉ (A.asked (table O D f)).take ((A.asked (table O D f)).idxOf q) := by
    intro hm
    obtain ⟨j, hj, he⟩ := List.getElem_of_mem hm
    have hj' : j < (A.asked (table O D f)).idxOf q := by
      rw [List.length_take] at hj; omega
    rw [List.getElem_take] at he
    have := List.not_of_lt_findIdx (p := (· == q)) hj'
    simp [he] at this
  simp [hn, (hA f).2 q hq]

/-- Every algorithm asks a bounded number of queries, from a finite set. -/
theorem exists_within (A : Algo α) : ∃ (D : Finset (List MOp)) (n : Nat), ∀ O : Oracles,
    (A.asked O).length ≤ n ∧ ∀ q ∈ A.asked O, q ∈ D := by
  classical
  induction A with
  | ret a => exact ⟨∅, 0, fun O => by simp [Algo.asked]⟩
  | ask l k ih =>
    choose D n h using ih
    haveI := Fintype.ofFinite (Arr 64)
    refine ⟨insert l (Finset.univ.biUnion D), Finset.univ.sup n + 1, fun O => ⟨?_, ?_⟩⟩
    · simp only [Algo.asked, List.length_cons]
      have h1 := (h (O.merlin l 64) O).1
      have h2 : n (O.merlin l 64) ≤ Finset.univ.sup n := Finset.le_sup (Finset.mem_univ _)
      omega
    · intro q hq
      simp only [Algo.asked, List.mem_cons] at hq
      rcases hq with rfl | hq
      · exact Finset.mem_insert_self _ _
      · exact Finset.mem_insert_of_mem (Finset.mem_biUnion.mpr ⟨_, Finset.mem_univ _, (h _ O).2 q hq⟩)

theorem guess_nonneg : (0 : ℚ) ≤ guess := by unfold guess; positivity

theorem card_tables_pos (D : Finset (List MOp)) : 0 < Nat.card (D → Arr 64) := Nat.card_pos

theorem chance_mono {Ω : Type} [Finite Ω] {p p' : Ω → Prop} (h : ∀ f, p f → p' f) : chance p ≤ chance p' := by
  unfold chance
  gcongr
  exact Nat.card_mono (Set.toFinite {f | p' f}) h

theorem chance_or_le {p p' : (D → Arr 64) → Prop} : chance (fun f => p f ∨ p' f) ≤ chance p + chance p' := by
  unfold chance
  rw [← add_div]
  gcongr
  have : Nat.card {f // p f ∨ p' f} ≤ Nat.card {f // p f} + Nat.card {f // p' f} := by
    have := Set.ncard_union_le {f : D → Arr 64 | p f} {f | p' f}
    exact this
  exact_mod_cast this

theorem chance_exists_lt_le (n : Nat) (p : Nat → (D → Arr 64) → Prop) (c : ℚ) (h : ∀ i, i < n → chance (p i) ≤ c) :
    chance (fun f => ∃ i, i < n ∧ p i f) ≤ n * c := by
  induction n with
  | zero =>
    have : chance (fun f : D → Arr 64 => ∃ i, i < 0 ∧ p i f) = 0 := by
      unfold chance; simp
    rw [this]; simp
  | succ n ih =>
    calc chance (fun f => ∃ i, i < n + 1 ∧ p i f) ≤ chance (fun f => (∃ i, i < n ∧ p i f) ∨ p n f) := by
          apply chance_mono
          rintro f ⟨i, hi, hp⟩
          rcases Nat.lt_succ_iff_lt_or_eq.mp hi with h1 | rfl
          · exact Or.inl ⟨i, h1, hp⟩
          · exact Or.inr hp
      _ ≤ chance (fun f => ∃ i, i < n ∧ p i f) + chance (p n) := chance_or_le
      _ ≤ n * c + c := add_le_add (ih fun i hi => h i (by omega)) (h n (by omega))
      _ = ((n + 1 : Nat) : ℚ) * c := by push_cast; ring

/-- Sets of answers within one residue class. -/
theorem card_bad_le (bad : Set (Arr 64)) (z : Z) (h : ∀ w ∈ bad, residue w = z) :
    Nat.card bad ≤ 2 ^ 512 / ell + 1 := by
  have h1 : Nat.card bad ≤ Nat.card {w : Arr 64 // residue w = z} :=
    Nat.card_mono (Set.toFinite {w | residue w = z}) h
  rcases wide_reduction_uniform z with h2 | h2 <;> omega

/-- One step: the answer to a new query lies in a residue class fixed before with probability at most `guess`. -/
theorem chance_guess {K : (D → Arr 64) → Set D} {q : (D → Arr 64) → Option D}
    (hq : ∀ f f', (∀ k ∈ K f, f' k = f k) → q f' = q f) (hn : ∀ f k, q f = some k → k ∉ K f)
    (bad : (D → Arr 64) → Set (Arr 64)) (hbad : ∀ f f', (∀ k ∈ K f, f' k = f k) → bad f' = bad f)
    (hb : ∀ f k, q f = some k → ∃ z, ∀ w ∈ bad f, residue w = z) :
    chance (fun f => ∃ k, q f = some k ∧ f k ∈ bad f) ≤ guess := by
  have := guess_count hq hn bad hbad (2 ^ 512 / ell + 1) (fun f k h => by
    obtain ⟨z, hz⟩ := hb f k h
    exact card_bad_le _ z hz)
  rw [card_arr64] at this
  unfold chance guess
  rw [div_le_div_iff₀ (by exact_mod_cast card_tables_pos D) (by positivity)]
  exact_mod_cast this

/-- Union bound over the steps of an algorithm: the probability that some query it asks gets an answer in a residue
class determined by the query. -/
theorem chance_asked_bad (A : Algo α) (n : Nat) (hA : A.Within O D n) (bad : List MOp → Set (Arr 64))
    (hb : ∀ q, ∃ z, ∀ w ∈ bad q, residue w = z) :
    chance (fun f : D → Arr 64 => ∃ q, q ∈ A.asked (table O D f) ∧ (table O D f).merlin q 64 ∈ bad q) ≤ n * guess := by
  refine le_trans (chance_mono (p' := fun f => ∃ i, i < n ∧ ∃ k, newAt O A i f = some k ∧ f k ∈
    (match newAt O A i f with | none => ∅ | some k => bad k.1)) ?_) (chance_exists_lt_le n _ guess fun i _ => ?_)
  · rintro f ⟨q, hq, hbq⟩
    obtain ⟨h1, h2⟩ := exists_newAt O A n hA f q hq
    refine ⟨_, h1, ⟨q, (hA f).2 q hq⟩, h2, ?_⟩
    rw [h2]
    rw [table_hit _ _ _ _ ((hA f).2 q hq)] at hbq
    exact hbq
  · refine chance_guess (K := before O A i) (newAt_adapted O A n i hA) (fun f k h => (newAt_new O A i f k h).1) _ ?_ ?_
    · intro f f' h
      simp only [newAt_adapted O A n i hA f f' h]
    · intro f k h
      simp only [h]
      exact hb k.1

end Schnorrkel
