import Verif.Lemmas.RomSeed
import Verif.Spec.RomWide

/-! # Answers drawn after the attacker has finished -/

namespace Schnorrkel
open Spec Schnorrkel.Props Rom
variable {α : Type} (O : Oracles) {D : Finset (List MOp)}

theorem wideTable_hit (f : D → Arr 64) (q : List MOp) (h : q ∈ D) :
    (wideTable O D f).merlin q 64 = f ⟨q, h⟩ := by
  show (if h : q ∈ D ∧ 64 ≤ 64 then _ else _) = _
  rw [dif_pos ⟨h, le_refl _⟩]
  apply Subtype.ext
  simp only
  rw [List.take_of_length_le]
  rw [(f ⟨q, h⟩).2]

theorem wideTable_short (f : D → Arr 64) (q : List MOp) (h : q ∈ D) (n : Nat) (hn : n ≤ 64) :
    ((wideTable O D f).merlin q n).1 = ((wideTable O D f).merlin q 64).1.take n := by
  rw [wideTable_hit O f q h]
  show (if h : q ∈ D ∧ n ≤ 64 then _ else _ : Arr n).1 = _
  rw [dif_pos ⟨h, hn⟩]

theorem wideTable_update [DecidableEq D] (f : D → Arr 64) (k : D) (w : Arr 64) (q : List MOp) (n : Nat) (h : q ≠ k.1) :
    (wideTable O D (Function.update f k w)).merlin q n = (wideTable O D f).merlin q n := by
  show (if h : q ∈ D ∧ n ≤ 64 then _ else _) = (if h : q ∈ D ∧ n ≤ 64 then _ else _ : Arr n)
  split_ifs with h1
  · apply Subtype.ext
    simp only
    rw [Function.update_of_ne]
    intro e
    exact h (by rw [← e])
  · rfl

/-- The 64-byte strings starting with a given 16-byte number. -/
theorem card_prefix_le (bad : Set (Arr 64)) (c : Nat) (h : ∀ w ∈ bad, leNat (w.1.take 16) = c) :
    Nat.card bad ≤ 2 ^ 384 := by
  let g : bad → Fin (2 ^ 384) := fun w => ⟨leNat (w.1.1.drop 16), by
    have := leNat_lt (w.1.1.drop 16)
    rw [List.length_drop, w.1.2, show (64 - 16 : Nat) = 48 from rfl, show (256 : Nat) = 2 ^ 8 from rfl, ← pow_mul] at this
    exact this⟩
  have hg : Function.Injective g := by
    rintro ⟨w, hw⟩ ⟨w', hw'⟩ e
    apply Subtype.ext
    apply Arr.leNat_inj
    have e1 : leNat (w.1.drop 16) = leNat (w'.1.drop 16) := congrArg Fin.val e
    have e2 : leNat (w.1.take 16) = leNat (w'.1.take 16) := (h w hw).trans (h w' hw').symm
    rw [← List.take_append_drop 16 w.1, ← List.take_append_drop 16 w'.1, leNat_append, leNat_append, e1, e2,
      List.length_take, List.length_take, w.2, w'.2]
  have := Nat.card_le_card_of_injective g hg
  rwa [Nat.card_eq_fintype_card (α := Fin _), Fintype.card_fin] at this

/-- The answer to a query that is determined by all *other* answers lies in a set of size at most `b`, also determined
by all other answers, with probability at most `b / 2^512`. -/
theorem chance_guess_update (q : (D → Arr 64) → Option D) (bad : (D → Arr 64) → Set (Arr 64)) (b : Nat)
    (hq : ∀ f k w, q f = some k → q (Function.update f k w) = some k ∧ bad (Function.update f k w) = bad f)
    (hb : ∀ f k, q f = some k → Nat.card (bad f) ≤ b) :
    chance (fun f => ∃ k, q f = some k ∧ f k ∈ bad f) ≤ b / 2 ^ 512 := by
  have key : ∀ f f' : D → Arr 64, (∀ k ∈ {k | q f ≠ some k}, f' k = f k) → q f' = q f ∧ bad f' = bad f := by
    intro f f' h
    cases hf : q f with
    | none =>
      have : f' = f := by
        funext k; exact h k (by simp [hf])
      rw [this]; exact ⟨hf, rfl⟩
    | some k =>
      have : f' = Function.update f k (f' k) := by
        funext k'
        by_cases hk : k' = k
        · subst hk; simp
        · rw [Function.update_of_ne hk]
          refine h k' ?_
          rw [Set.mem_setOf_eq, hf]
          intro e; cases e; exact hk rfl
      rw [this]
      exact hq f k _ hf
  have := guess_count (K := fun f => {k | q f ≠ some k}) (q := q) (fun f f' h => (key f f' h).1)
    (fun f k h => by simp [h]) bad (fun f f' h => (key f f' h).2) b hb
  rw [card_arr64] at this
  unfold chance
  rw [div_le_div_iff₀ (by exact_mod_cast card_tables_pos D) (by positivity)]
  exact_mod_cast this

theorem chance_prod {Ω Ω' : Type} [Finite Ω] [Finite Ω'] (p : Ω × Ω' → Prop) :
    chance p = avg fun a => chance fun b => p (a, b) := by
  rw [chance_eq_avg, avg_prod]
  simp only [chance_eq_avg]

theorem chance_prod' {Ω Ω' : Type} [Finite Ω] [Finite Ω'] (p : Ω × Ω' → Prop) :
    chance p = avg fun b => chance fun a => p (a, b) := by
  rw [chance_prod]
  simp only [chance_eq_avg]
  rw [avg_comm]

theorem chance_or {Ω : Type} [Finite Ω] {p p' : Ω → Prop} : chance (fun f => p f ∨ p' f) ≤ chance p + chance p' := by
  unfold chance
  rw [← add_div]
  gcongr
  have : Nat.card {f // p f ∨ p' f} ≤ Nat.card {f // p f} + Nat.card {f // p' f} := by
    have := Set.ncard_union_le {f : Ω | p f} {f | p' f}
    exact this
  exact_mod_cast this

/-- Few of the 32-byte strings are named by a list of queries. -/
theorem chance_named (ls : List (List MOp)) (N : Arr 32 → Option (List MOp))
    (hN : ∀ r r' l, N r = some l → N r' = some l → r = r') :
    chance (fun r : Arr 32 => ∃ l ∈ ls, N r = some l) ≤ ls.length / 2 ^ 256 := by
  have hex : ∀ l : List MOp, ∃ n₀ : Arr 32, ∀ n : Arr 32, N n = some l → n = n₀ := by
    intro l
    by_cases h : ∃ n : Arr 32, N n = some l
    · obtain ⟨n₀, h0⟩ := h
      exact ⟨n₀, fun n h => hN _ _ _ h h0⟩
    · exact ⟨zeros 32, fun n hn => (h ⟨n, hn⟩).elim⟩
  choose c hc using hex
  have : Nat.card {n : Arr 32 // ∃ l ∈ ls, N n = some l} ≤ Nat.card (Fin ls.length) := by
    have hsub : {n : Arr 32 | ∃ l ∈ ls, N n = some l} ⊆ Set.range fun i : Fin ls.length => c ls[i] := by
      rintro n ⟨l, hl, h⟩
      obtain ⟨i, hi, rfl⟩ := List.getElem_of_mem hl
      exact ⟨⟨i, hi⟩, (hc _ n h).symm⟩
    refine le_trans (Nat.card_mono (Set.toFinite _) hsub) ?_
    exact Finite.card_range_le _
  unfold chance
  rw [card_arr32]
  rw [Nat.card_eq_fintype_card (α := Fin _), Fintype.card_fin] at this
  have e : ((2 ^ 256 : ℕ) : ℚ) = 2 ^ 256 := by push_cast; rfl
  rw [e]
  gcongr

theorem finite_arr (n : Nat) : Finite (Arr n) := by
  have hp : ∀ m, 0 < 256 ^ m := fun m => by positivity
  haveI : NeZero (256 ^ n) := ⟨(hp n).ne'⟩
  refine Finite.of_injective (fun b : Arr n => Fin.ofNat (256 ^ n) (leNat b.1)) ?_
  intro a b h
  apply Arr.leNat_inj
  have h1 := leNat_lt a.1
  have h2 := leNat_lt b.1
  rw [a.2] at h1
  rw [b.2] at h2
  have := congrArg Fin.val h
  simp only [Fin.ofNat] at this
  rwa [Nat.mod_eq_of_lt h1, Nat.mod_eq_of_lt h2] at this

/-- An algorithm has finitely many possible results. -/
theorem finite_results (A : Algo α) : (Set.range fun O : Oracles => A.run O).Finite := by
  induction A with
  | ret a =>
    refine (Set.finite_singleton a).subset ?_
    rintro _ ⟨O, rfl⟩; rfl
  | ask q k ih =>
    refine (Set.finite_iUnion ih).subset ?_
    rintro _ ⟨O, rfl⟩
    exact Set.mem_iUnion.mpr ⟨O.merlin q 64, O, rfl⟩

/-- Checks whose decisive hash answer is drawn after the attacker has finished: the query names 32 random bytes the
attacker does not know, and the answer must start with a 16-byte number determined by all other answers. -/
theorem chance_late_check (A : Algo α) (n : Nat) (hA : A.WideWithin O D n)
    (target : α → Oracles → Arr 32 → Option (List MOp)) (bad : α → Oracles → Arr 32 → Set (Arr 64))
    (hu : ∀ a (O O' : Oracles) r Q, target a O r = some Q → (∀ q n, q ≠ Q → O'.merlin q n = O.merlin q n) →
      target a O' r = some Q ∧ bad a O' r = bad a O r)
    (hi : ∀ a (O : Oracles) r r' Q, target a O r = some Q → target a O r' = some Q → r = r')
    (hc : ∀ a (O : Oracles) r Q, target a O r = some Q → ∃ c, ∀ w ∈ bad a O r, leNat (w.1.take 16) = c)
    (hD : ∀ (f : D → Arr 64) r Q, target (A.run (wideTable O D f)) (wideTable O D f) r = some Q → Q ∈ D) :
    chance (fun x : (D → Arr 64) × Arr 32 =>
      let O' := wideTable O D x.1
      ∃ Q, target (A.run O') O' x.2 = some Q ∧ O'.merlin Q 64 ∈ bad (A.run O') O' x.2) ≤ 1 / 2 ^ 128 + n / 2 ^ 256 := by
  classical
  refine le_trans (chance_mono (p' := fun x : (D → Arr 64) × Arr 32 =>
    (∃ Q, target (A.run (wideTable O D x.1)) (wideTable O D x.1) x.2 = some Q ∧ Q ∉ A.asked (wideTable O D x.1) ∧
      (wideTable O D x.1).merlin Q 64 ∈ bad (A.run (wideTable O D x.1)) (wideTable O D x.1) x.2) ∨
    (∃ Q ∈ A.asked (wideTable O D x.1), target (A.run (wideTable O D x.1)) (wideTable O D x.1) x.2 = some Q)) ?_)
    (le_trans chance_or (add_le_add ?_ ?_))
  · rintro ⟨f, r⟩ ⟨Q, h1, h2⟩
    by_cases h : Q ∈ A.asked (wideTable O D f)
    · exact .inr ⟨Q, h, h1⟩
    · exact .inl ⟨Q, h1, h, h2⟩
  · rw [chance_prod']
    apply avg_le_const
    intro r
    have hsub : ∀ f k w, k.1 ∉ A.asked (wideTable O D f) →
        A.run (wideTable O D (Function.update f k w)) = A.run (wideTable O D f) ∧
        A.asked (wideTable O D (Function.update f k w)) = A.asked (wideTable O D f) := by
      intro f k w hk
      apply Algo.run_congr
      intro q hq
      exact wideTable_update O f k w q 64 (fun e => hk (e ▸ hq))
    let q : (D → Arr 64) → Option D := fun f =>
      if h : ∃ k : D, target (A.run (wideTable O D f)) (wideTable O D f) r = some k.1 ∧ k.1 ∉ A.asked (wideTable O D f)
      then some h.choose else none
    have hq : ∀ f k, q f = some k ↔ target (A.run (wideTable O D f)) (wideTable O D f) r = some k.1 ∧
        k.1 ∉ A.asked (wideTable O D f) := by
      intro f k
      simp only [q]
      split
      · rename_i h
        have h2 := h.choose_spec
        rw [Option.some.injEq]
        constructor
        · rintro rfl; exact h2
        · intro h3
          apply Subtype.ext
          have := h2.1.symm.trans h3.1
          simpa using this
      · rename_i h
        constructor
        · intro h; cases h
        · intro h3; exact (h ⟨k, h3⟩).elim
    refine le_trans (chance_mono ?_) (le_trans (chance_guess_update q
      (fun f => bad (A.run (wideTable O D f)) (wideTable O D f) r) (2 ^ 384) ?_ ?_) ?_)
    · rintro f ⟨Q, h1, h2, h3⟩
      have hQ := hD f r Q h1
      refine ⟨⟨Q, hQ⟩, (hq f _).mpr ⟨h1, h2⟩, ?_⟩
      rw [wideTable_hit O f Q hQ] at h3
      exact h3
    · intro f k w hk
      obtain ⟨h1, h2⟩ := (hq f k).mp hk
      obtain ⟨e1, e2⟩ := hsub f k w h2
      have := hu (A.run (wideTable O D f)) (wideTable O D f) (wideTable O D (Function.update f k w)) r k.1 h1
        (fun q n h => wideTable_update O f k w q n h)
      refine ⟨(hq _ k).mpr ?_, ?_⟩
      · rw [e1, e2]
        exact ⟨this.1, h2⟩
      · rw [e1]
        exact this.2
    · intro f k hk
      obtain ⟨c, h⟩ := hc _ _ _ _ ((hq f k).mp hk).1
      exact card_prefix_le _ c h
    · rw [show (2 : ℚ) ^ 512 = 2 ^ 384 * 2 ^ 128 from by rw [← pow_add]]
      push_cast
      rw [div_le_div_iff₀ (by positivity) (by positivity), one_mul]
  · rw [chance_prod]
    apply avg_le_const
    intro f
    refine le_trans (chance_named (A.asked (wideTable O D f)) _ (fun r r' l h h' => hi _ _ _ _ _ h h')) ?_
    gcongr
    exact_mod_cast (hA f).1

/-- Ask a list of queries. -/
def askAll : List (List MOp) → Algo (List (Arr 64))
  | [] => .ret []
  | q :: qs => .ask q fun a => (askAll qs).bind fun as => .ret (a :: as)

theorem askAll_run (O : Oracles) (qs : List (List MOp)) :
    (askAll qs).run O = qs.map (O.merlin · 64) ∧ (askAll qs).asked O = qs := by
  induction qs with
  | nil => exact ⟨rfl, rfl⟩
  | cons q qs ih =>
    unfold askAll
    simp only [Algo.run, Algo.asked, Algo.run_bind, Algo.asked_bind, ih.1, ih.2, List.append_nil, List.map_cons]
    exact ⟨trivial, trivial⟩

/-- On answers of 64 bytes the two kinds of table agree. -/
theorem run_wideTable (A : Algo α) (n : Nat) (hA : A.WideWithin O D n) (f : D → Arr 64) :
    A.run (table O D f) = A.run (wideTable O D f) ∧ A.asked (table O D f) = A.asked (wideTable O D f) := by
  apply Algo.run_congr
  intro q hq
  have := (hA f).2 q hq
  rw [wideTable_hit O f q this, table_hit O D f q this]

theorem wideWithin_within (A : Algo α) (n : Nat) (hA : A.WideWithin O D n) : A.Within O D n := by
  intro f
  rw [(run_wideTable O A n hA f).2]
  exact hA f

end Schnorrkel
