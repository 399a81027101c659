import Verif.Lemmas.RomCosignInv

/-! # The hash queries of the simulated attack -/

namespace Schnorrkel
open Spec Schnorrkel.Props
variable {P : Type} [Ristretto P] {D : Finset (List MOp)} {α : Type} {fin : α → Prop}

theorem learn_asked (O' : Oracles) (tab : Known) (q : List MOp) : ((tab.learn q).asked O').length ≤ 1 ∧ ∀ l ∈ (tab.learn q).asked O', l = q := by
  unfold Known.learn
  split
  · exact ⟨by simp [Algo.asked], fun l h => by simp [Algo.asked] at h⟩
  · exact ⟨by simp [Algo.asked], fun l h => by simpa [Algo.asked] using h⟩

theorem learnAll_asked (O' : Oracles) : ∀ (qs : List (List MOp)) (tab : Known), ((tab.learnAll qs).asked O').length ≤ qs.length ∧
    ∀ l ∈ (tab.learnAll qs).asked O', l ∈ qs := by
  intro qs
  induction qs with
  | nil => intro tab; exact ⟨by simp [Known.learnAll, Algo.asked], fun l h => by simp [Known.learnAll, Algo.asked] at h⟩
  | cons q qs ih =>
    intro tab
    simp only [Known.learnAll, Algo.asked_bind, List.length_append, List.length_cons]
    obtain ⟨h1, h2⟩ := learn_asked O' tab q
    obtain ⟨h3, h4⟩ := ih ((tab.learn q).run O')
    refine ⟨by omega, fun l hl => ?_⟩
    rcases List.mem_append.mp hl with h | h
    · rw [h2 l h]; exact List.mem_cons_self
    · exact List.mem_cons_of_mem _ (h4 l h)

theorem length_bset_le {V : Type} (me : PublicKey P) (v : V) : ∀ m : BMap P V, (BMap.set m me v).length ≤ m.length + 1 := by
  intro m
  induction m with
  | nil => simp [BMap.set]
  | cons a m ih =>
    obtain ⟨k, x⟩ := a
    simp only [BMap.set]
    split
    · simp
    · simp
    · simpa using ih

theorem length_coeffs (t : Transcript) (agg : P) (V : View P) : ∀ W : View P,
    (W.flatMap fun e => [0, 1, 2].map fun i => coeffOf t agg V e.1 i).length = 3 * W.length := by
  intro W
  induction W with
  | nil => rfl
  | cons e W ih =>
    rw [List.flatMap_cons, List.length_append, ih]
    simp only [List.length_map, List.length_cons, List.length_nil]
    omega

section
variable (O : Oracles) (T : Finset (List MOp)) (b g : Nat) (me : PublicKey P)
  (hwD : ∀ ks : List (PublicKey P), ks.length ≤ b + 1 → ∀ q ∈ weightQueries ks, q ∈ D)
  (hcD : ∀ t : Transcript, t.log ∈ T → ∀ V : View P, V.length ≤ b + 1 → ∀ (agg : P) (k : PublicKey P), ∀ j < 3, coeffOf t agg V k j ∈ D)
  (hD : ∀ r, commitmentQuery r ∈ D)
include hwD hcD

theorem fakeSettle_asked (O' : Oracles) (t : Transcript) (ht : t.log ∈ T) (c : (Fin 3 → Arr 64) × Arr 64) (es : View P)
    (hl : es.length ≤ b) (tab : Known) :
    ((fakeSettle O me t c es tab).asked O').length ≤ 4 * b + 5 ∧ ∀ l ∈ (fakeSettle O me t c es tab).asked O', l ∈ D := by
  unfold fakeSettle
  simp only [Algo.asked_bind, Algo.asked, List.append_nil]
  have hV : (BMap.set es me (fakePoints me c)).length ≤ b + 1 := by
    have := length_bset_le me (fakePoints me c) es
    omega
  generalize BMap.set es me (fakePoints me c) = V at hV ⊢
  have h1 := fun tab => learnAll_asked O' (weightQueries (View.keys V)) tab
  have h2 := fun tab agg => learnAll_asked O' (coeffQueries me t agg V) tab
  have hk : (View.keys V).length ≤ b + 1 := by
    unfold View.keys; rw [List.length_map]; exact hV
  have hw : (weightQueries (View.keys V)).length ≤ b + 1 := by
    unfold weightQueries; rw [List.length_map]; exact hk
  have hc : ∀ agg, (coeffQueries me t agg V).length ≤ 3 * (b + 1) + 1 := by
    intro agg
    unfold coeffQueries
    rw [List.length_append, List.length_singleton]
    have := List.length_filter_le (· ≠ coeffOf t agg V me 0) (V.flatMap fun e => [0, 1, 2].map fun i => coeffOf t agg V e.1 i)
    rw [length_coeffs] at this
    omega
  have hcm : ∀ agg, ∀ l ∈ coeffQueries me t agg V, l ∈ D := by
    intro agg l hl
    unfold coeffQueries at hl
    rcases List.mem_append.mp hl with h | h
    · obtain ⟨e, -, he⟩ := List.mem_flatMap.mp (List.mem_of_mem_filter h)
      obtain ⟨i, hi, rfl⟩ := List.mem_map.mp he
      refine hcD t ht V hV agg e.1 i ?_
      simp only [List.mem_cons, List.not_mem_nil, or_false] at hi
      omega
    · rw [List.mem_singleton.mp h]
      exact hcD t ht V hV agg me 0 (by omega)
  refine ⟨?_, ?_⟩
  · rw [List.length_append]
    refine le_trans (add_le_add ((h1 _).1.trans hw) ((h2 _ _).1.trans (hc _))) ?_
    omega
  · intro l hl
    rcases List.mem_append.mp hl with h | h
    · exact hwD _ hk _ ((h1 _).2 l h)
    · exact hcm _ _ ((h2 _ _).2 l h)

omit hwD hcD in
/-- The sessions are for transcripts in `T`, with at most `b` others. -/
def Sized (T : Finset (List MOp)) (b : Nat) (ss : List (FakePhase P)) : Prop :=
  (∀ t κ, .committing t κ ∈ ss → t.log ∈ T) ∧ ∀ t coms, .revealing t none coms ∈ ss → t.log ∈ T ∧ coms.length ≤ b

omit hwD hcD in
variable {T b} in
theorem Sized.set {ss : List (FakePhase P)} (h : Sized T b ss) (i : Nat) (p : FakePhase P) (h1 : ∀ t κ, p ≠ .committing t κ)
    (h2 : ∀ t coms, p = .revealing t none coms → t.log ∈ T ∧ coms.length ≤ b) : Sized T b (ss.set i p) := by
  refine ⟨fun t κ hm => ?_, fun t coms hm => ?_⟩
  · rcases List.mem_or_eq_of_mem_set hm with h' | h'
    · exact h.1 t κ h'
    · exact absurd h'.symm (h1 t κ)
  · rcases List.mem_or_eq_of_mem_set hm with h' | h'
    · exact h.2 t coms h'
    · exact h2 t coms h'.symm

theorem settleAll_asked {m : Nat} (C : CosignCoins m) (O' : Oracles) (js : List Nat) : ∀ (tab : Known) (ss : List (FakePhase P)), Sized T b ss →
    ((settleAll O me C js tab ss).asked O').length + waiting ((settleAll O me C js tab ss).run O').2 * (4 * b + 5) ≤ waiting ss * (4 * b + 5) ∧
      (∀ l ∈ (settleAll O me C js tab ss).asked O', l ∈ D) ∧ Sized T b ((settleAll O me C js tab ss).run O').2 := by
  induction js with
  | nil =>
    intro tab ss hss
    exact ⟨by simp [settleAll, Algo.asked, Algo.run], by simp [settleAll, Algo.asked], hss⟩
  | cons j js ih =>
    intro tab ss hss
    simp only [settleAll]
    cases hr : ripe tab ss j with
    | none => exact ih tab ss hss
    | some p =>
      obtain ⟨t, coms, es⟩ := p
      obtain ⟨hj, ho⟩ := ripe_eq_some.mp hr
      simp only
      split
      · rename_i hlt
        simp only [Algo.asked_bind, Algo.run_bind, List.length_append]
        obtain ⟨ht, hlen⟩ := hss.2 t coms (List.mem_of_getElem? hj)
        have hes : es.length = coms.length := by simpa using congrArg List.length (openings_keys ho)
        obtain ⟨h1, h2⟩ := fakeSettle_asked O T b me hwD hcD O' t ht (C.2 ⟨j, hlt⟩) es (by omega) tab
        generalize (fakeSettle O me t (C.2 ⟨j, hlt⟩) es tab).run O' = r
        have hw : waiting (ss.set j (.revealing t (some r.2) coms)) + 1 = waiting ss :=
          waiting_set hj (.revealing t (some r.2) coms)
        obtain ⟨h3, h4, h5⟩ := ih r.1 (ss.set j (.revealing t (some r.2) coms))
          (hss.set j _ (fun _ _ h => by cases h) (fun _ _ h => by cases h))
        refine ⟨?_, fun l hl => ?_, h5⟩
        · rw [← hw, Nat.add_mul]
          omega
        · rcases List.mem_append.mp hl with h | h
          · exact h2 l h
          · exact h4 l h
      · exact ih tab ss hss

include hD

theorem sim_within {m : Nat} (C : CosignCoins m) (O' : Oracles) (A : Client (CosignRequest P) CosignAnswer α) : ∀ (q m' r : Nat) (tab : Known) (ss : List (FakePhase P)),
    SessionBounded D T b fin q m' r A → Sized T b ss →
    ((simulateCosign O me C tab ss A).asked O').length ≤ q + (r + waiting ss) * (4 * b + 5) ∧
      (∀ l ∈ (simulateCosign O me C tab ss A).asked O', l ∈ D) ∧
      fin ((simulateCosign O me C tab ss A).run O') := by
  induction A with
  | ret c =>
    intro q m' r tab ss hb _
    simp only [simulateCosign, Algo.asked, Algo.run]
    exact ⟨by simp, by simp, hb⟩
  | ask l k ih =>
    intro q m' r tab ss hb hT
    obtain ⟨hl, q', rfl, hk⟩ := hb
    simp only [simulateCosign, Algo.asked_bind, Algo.run_bind, List.length_append]
    obtain ⟨h1, h2⟩ := learn_asked O' tab l
    obtain ⟨h3, h4, h5⟩ := ih ((Known.oracle O ((tab.learn l).run O')).merlin l 64) q' m' r ((tab.learn l).run O') ss (hk _) hT
    refine ⟨by omega, fun l' hl' => ?_, h5⟩
    rcases List.mem_append.mp hl' with h | h
    · rw [h2 l' h]; exact hl
    · exact h4 l' h
  | request rq k ih =>
    intro q m' r tab ss hb hT
    have more : ∀ {a r' : Nat}, a ≤ q + (r' + waiting ss) * (4 * b + 5) → a ≤ q + (r' + 1 + waiting ss) * (4 * b + 5) := by
      intro a r' h
      rw [show r' + 1 + waiting ss = (r' + waiting ss) + 1 by omega, Nat.add_mul]
      omega
    cases rq with
    | start t =>
      obtain ⟨ht, m'', rfl, hk⟩ := hb
      simp only [simulateCosign]
      split
      · rename_i hlt
        have := ih (.commitment ⟨firstBytes (C.1 ⟨_, hlt⟩) 16 (by omega)⟩) q m'' r tab (ss ++ [.committing t (C.1 ⟨_, hlt⟩)]) (hk _) (by
          refine ⟨fun t' κ hm => ?_, fun t' coms hm => ?_⟩
          · rcases List.mem_append.mp hm with h | h
            · exact hT.1 t' κ h
            · simp only [List.mem_singleton, Phase.committing.injEq] at h
              rw [h.1]; exact ht
          · rcases List.mem_append.mp hm with h | h
            · exact hT.2 t' coms h
            · simp at h)
        rw [waiting_append] at this
        exact this
      · exact ih _ q m'' r tab ss (hk _) hT
    | reveal i cs =>
      obtain ⟨hl, r', rfl, hk⟩ := hb
      have skip : ∀ a, ((simulateCosign O me C tab ss (k a)).asked O').length ≤ q + (r' + 1 + waiting ss) * (4 * b + 5) ∧
          (∀ l ∈ (simulateCosign O me C tab ss (k a)).asked O', l ∈ D) ∧
          fin ((simulateCosign O me C tab ss (k a)).run O') := by
        intro a
        obtain ⟨h1, h2⟩ := ih a q m' r' tab ss (hk _) hT
        exact ⟨more h1, h2⟩
      simp only [simulateCosign]
      split
      · rename_i t κ hi
        split
        · rename_i him
          simp only [Algo.asked_bind, Algo.run_bind, List.length_append]
          have ht : t.log ∈ T := hT.1 t κ (List.mem_of_getElem? hi)
          have hS : Sized T b (ss.set i (.revealing t none (registered me cs))) := by
            refine hT.set i _ (fun _ _ h => by cases h) ?_
            rintro t' coms' h
            cases h
            exact ⟨ht, (registered_ok me cs).len.trans hl⟩
          have hw : waiting (ss.set i (.revealing t none (registered me cs))) = waiting ss + 1 :=
            waiting_set hi (.revealing t none (registered me cs))
          obtain ⟨h1, h2, h3⟩ := settleAll_asked O T b me hwD hcD C O' (List.range ss.length)
            ((commitmentQuery (fakePoints me (C.2 ⟨i, him⟩)).toReveal, κ) :: tab) _ hS
          generalize (settleAll O me C (List.range ss.length) ((commitmentQuery (fakePoints me (C.2 ⟨i, him⟩)).toReveal, κ) :: tab)
            (ss.set i (.revealing t none (registered me cs)))) = G at h1 h2 h3 ⊢
          obtain ⟨h4, h5, h6⟩ := ih (.reveal (fakePoints me (C.2 ⟨i, him⟩)).toReveal) q m' r' (G.run O').1 (G.run O').2 (hk _) h3
          refine ⟨?_, fun l hl' => ?_, h6⟩
          · rw [hw] at h1
            have e1 : (r' + 1 + waiting ss) * (4 * b + 5) = r' * (4 * b + 5) + (waiting ss + 1) * (4 * b + 5) := by ring
            have e2 : (r' + waiting (G.run O').2) * (4 * b + 5) = r' * (4 * b + 5) + waiting (G.run O').2 * (4 * b + 5) := by ring
            rw [e1]
            rw [e2] at h4
            omega
          · rcases List.mem_append.mp hl' with h | h
            · exact h2 l h
            · exact h5 l h
        · exact skip _
      · exact skip _
    | cosign i rs =>
      obtain ⟨hl, r', rfl, hk⟩ := hb
      simp only [simulateCosign]
      split
      · rename_i t o coms hi
        simp only [Algo.asked_bind, Algo.run_bind, List.length_append]
        obtain ⟨h1, h2⟩ := learnAll_asked O' (rs.map fun e => commitmentQuery e.2) tab
        rw [List.length_map] at h1
        have hS : Sized T b (ss.set i (.finished t coms)) := hT.set i _ (fun _ _ h => by cases h) (fun _ _ h => by cases h)
        have hw : waiting (ss.set i (.finished t coms)) ≤ waiting ss := by
          have h := waiting_set hi (.finished t coms)
          have e0 : Phase.waits (.finished t coms : FakePhase P) = false := rfl
          rw [e0] at h
          simp only [Bool.false_eq_true, if_false, add_zero] at h
          omega
        have hw' := Nat.mul_le_mul_right (4 * b + 5) hw
        have := fun a => ih a q m' r' ((tab.learnAll (rs.map fun e => commitmentQuery e.2)).run O') (ss.set i (.finished t coms)) (hk _) hS
        refine ⟨?_, fun l hl' => ?_, (this _).2.2⟩
        · refine le_trans (add_le_add h1 (this _).1) ?_
          have e1 : (r' + 1 + waiting ss) * (4 * b + 5) = r' * (4 * b + 5) + (4 * b + 5) + waiting ss * (4 * b + 5) := by ring
          have e2 : (r' + waiting (ss.set i (.finished t coms))) * (4 * b + 5) =
            r' * (4 * b + 5) + waiting (ss.set i (.finished t coms)) * (4 * b + 5) := by ring
          rw [e1, e2]
          omega
        · rcases List.mem_append.mp hl' with h | h
          · obtain ⟨e, -, rfl⟩ := List.mem_map.mp (h2 l h)
            exact hD _
          · exact (this _).2.1 l h
      · obtain ⟨h1, h2⟩ := ih .refused q m' r' tab ss (hk _) hT
        exact ⟨more h1, h2⟩

end

end Schnorrkel
