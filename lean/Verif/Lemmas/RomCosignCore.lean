import Verif.Lemmas.RomCosignReveal

/-! # The two games are close -/

namespace Schnorrkel
open Spec Schnorrkel.Props
variable {P : Type} [Ristretto P] {D : Finset (List MOp)} {α : Type} [Goal P α] {fin : α → Prop}

attribute [local irreducible] guess spare hit rescale

/-! ## Lists -/

theorem chance_mem_rel {Ω β : Type} [Finite Ω] (R : Ω → β → Prop) (c : ℚ) (h : ∀ l, chance (fun v => R v l) ≤ c) (ls : List β) :
    chance (fun v => ∃ l ∈ ls, R v l) ≤ ls.length * c := by
  have := Schnorrkel.chance_exists_le (fun (i : Fin ls.length) (v : Ω) => R v (ls.get i)) c (fun i => h (ls.get i))
  rw [Fintype.card_fin] at this
  refine le_trans (chance_mono ?_) this
  rintro v ⟨l, hl, h⟩
  obtain ⟨i, hi, rfl⟩ := List.getElem_of_mem hl
  exact ⟨⟨i, hi⟩, h⟩

theorem mem_set_val {V : Type} {m : BMap P V} {k : PublicKey P} {v : V} {e : PublicKey P × V} (h : e ∈ m.set k v) : e.2 = v ∨ e ∈ m := by
  induction m with
  | nil =>
    simp only [BMap.set, List.mem_singleton] at h
    exact Or.inl (by rw [h])
  | cons a m ih =>
    unfold BMap.set at h
    split at h
    · rcases List.mem_cons.mp h with h | h
      · exact Or.inl (by rw [h])
      · exact Or.inr (by first | exact h | exact List.mem_cons_of_mem _ h)
    · rcases List.mem_cons.mp h with h | h
      · exact Or.inl (by rw [h])
      · exact Or.inr (by first | exact h | exact List.mem_cons_of_mem _ h)
    · rcases List.mem_cons.mp h with h | h
      · exact Or.inr (by rw [h]; exact List.mem_cons_self)
      · exact (ih h).imp id (List.mem_cons_of_mem _)

theorem registered_mem (me : PublicKey P) (cs : List (P × Commitment)) : ∀ e ∈ registered me cs, ∃ a ∈ cs, a.2 = e.2 := by
  have key : ∀ (cs l : List (P × Commitment)) (m : BMap P Commitment), (∀ e ∈ m, ∃ a ∈ l, a.2 = e.2) →
      ∀ e ∈ cs.foldl (fun m e => if compress e.1 = me.compressed ∨ (m.get? (PublicKey.fromPoint e.1)).isSome then m
        else m.set (PublicKey.fromPoint e.1) e.2) m, ∃ a ∈ l ++ cs, a.2 = e.2 := by
    intro cs
    induction cs with
    | nil => intro l m h; simpa using h
    | cons a cs ih =>
      intro l m h
      rw [List.foldl_cons, show l ++ a :: cs = (l ++ [a]) ++ cs by simp]
      refine ih _ _ ?_
      intro e he
      split at he
      · obtain ⟨a', ha', h'⟩ := h e he
        exact ⟨a', List.mem_append_left _ ha', h'⟩
      · rcases mem_set_val he with h' | h'
        · exact ⟨a, by simp, h'.symm⟩
        · obtain ⟨a', ha', h''⟩ := h e h'
          exact ⟨a', List.mem_append_left _ ha', h''⟩
  have := key cs [] [] (by simp)
  rw [List.nil_append] at this
  exact this

/-! ## Revealing -/

/-- No known answer is for a nonce coefficient that depends on these points of the owner. -/
def OwnFree (me : PublicKey P) (v : Fin 3 → Arr 64) (S : TB) : Prop :=
  ∀ (t : Transcript) (agg : P) (V : View P) (k : PublicKey P) (j : Nat), (∀ e ∈ V, e.1.WF) → (me, noncePoints P v) ∈ V →
    (∀ e ∈ V, e.1.compressed = me.compressed → e = (me, noncePoints P v)) → S.1.lookup (coeffOf t agg V k j) = none

theorem OwnFree.cons {me : PublicKey P} {v : Fin 3 → Arr 64} {S : TB} (h : OwnFree me v S) (q : List MOp) (w : Arr 64) (tab : Known)
    (hq : ∀ (t : Transcript) (agg : P) (V : View P) (k : PublicKey P) (j : Nat), coeffOf t agg V k j ≠ q) :
    OwnFree me v ((q, w) :: S.1, tab) := by
  intro t agg V k j h1 h2 h3
  show List.lookup _ ((q, w) :: S.1) = none
  rw [lookup_cons_ne (hq t agg V k j)]
  exact h t agg V k j h1 h2 h3

theorem chance_own (me : PublicKey P) (S : TB) : chance (fun v => ¬ OwnFree me v S) ≤ S.1.length * guess := by
  let R : (Fin 3 → Arr 64) → List MOp → Prop := fun v q => ∃ (t : Transcript) (agg : P) (V : View P) (k : PublicKey P) (j : Nat),
    (∀ e ∈ V, e.1.WF) ∧ (me, noncePoints P v) ∈ V ∧ (∀ e ∈ V, e.1.compressed = me.compressed → e = (me, noncePoints P v)) ∧
      coeffOf t agg V k j = q
  have hR : ∀ q, chance (fun v => R v q) ≤ guess := by
    intro q
    by_cases h : ∃ v, R v q
    · obtain ⟨v₀, t₀, agg₀, V₀, k₀, j₀, hw₀, hm₀, hu₀, he₀⟩ := h
      refine le_trans (chance_mono ?_) (chance_nonceReveal_one (P := P) (commitmentQuery (nonceReveal P v₀)))
      rintro v ⟨t, agg, V, k, j, hw, hm, hu, he⟩
      letI : Oracles := toyOracles
      obtain ⟨-, -, hV, -, -⟩ := musig_coeff_query_injective t.log t₀.log agg agg₀ V V₀ k.compressed k₀.compressed j j₀ hw hw₀
        (he.trans he₀.symm)
      subst hV
      have h1 := hu₀ _ hm rfl
      simp only [Prod.mk.injEq, true_and] at h1
      rw [nonceReveal_eq, nonceReveal_eq, h1]
    · exact le_trans (chance_mono fun v hv => (h ⟨v, hv⟩).elim) (chance_nonceReveal_one (P := P) [])
  have := chance_mem_rel R guess hR (S.1.map (·.1))
  rw [List.length_map] at this
  refine le_trans (chance_mono ?_) this
  intro v hv
  by_contra hn
  refine hv fun t agg V k j h1 h2 h3 => lookup_none_iff.mpr fun hm => hn ⟨_, hm, t, agg, V, k, j, h1, h2, h3, rfl⟩

theorem chance_opened (S : TB) :
    chance (fun v : Fin 3 → Arr 64 => S.1.lookup (commitmentQuery (nonceReveal P v)) ≠ none) ≤ S.1.length * guess := by
  have := chance_nonceReveal (P := P) (S.1.map (·.1))
  rw [List.length_map] at this
  refine le_trans (chance_mono ?_) this
  intro v hv
  by_contra hn
  exact hv (lookup_none_iff.mpr fun hm => hn ⟨_, hm, rfl⟩)

section
variable (O : Oracles) (hD : ∀ r, commitmentQuery r ∈ D) (T : Finset (List MOp)) (me : PublicKey P) (x : Z) (b N : Nat)

/-- Settling one session: the weights, then the rest. -/
theorem close_one (hx : me.point = x • (basepoint : P)) (hme : me.WF)
    (hwD : ∀ ks : List (PublicKey P), ks.length ≤ b + 1 → ∀ q ∈ weightQueries ks, q ∈ D)
    (hcD : ∀ t : Transcript, t.log ∈ T → ∀ V : View P, V.length ≤ b + 1 → ∀ (agg : P) (k : PublicKey P), ∀ j < 3, coeffOf t agg V k j ∈ D)
    (hQD : ∀ t : Transcript, t.log ∈ T → ∀ agg R : P, challengeOf (PublicKey.fromPoint agg) t (compress R).1 ∈ D)
    {n j : Nat} {js : List Nat} {ns : Nat → Fin 3 → Arr 64} {S : TB} {ss : List (RealPhase P)} {ss' : List (FakePhase P)}
    (h : Paired O D T me x b n (j :: js) ns S ss ss') (hnd : j ∉ js) (t : Transcript) (coms : BMap P Commitment) (es : View P)
    (hr : ripe S.1 ss' j = some (t, coms, es)) (hfr : ∀ j' ∈ j :: js, Fresh me ns S.1 ss' j')
    (A : Client (CosignRequest P) CosignAnswer α) (Ψ : TB → View P × Scalar → ℚ) (hΨ : ∀ S o, 0 ≤ Ψ S o) (E : ℚ) (hE : 0 ≤ E)
    (hk : ∀ S' s, Paired O D T me x b (n + (4 * b + 6)) js ns S' ss (ss'.set j (.revealing t (some (es, s)) coms)) → Kept ss' S S' →
      (∀ j' ∈ js, Fresh me ns S'.1 ss' j') → real O hD me x S' ss A ≤ Ψ S' (es, s) + E) (hn : n + (4 * b + 6) ≤ N) :
    real O hD me x S ss A ≤
      (avg fun w : Arr 64 => sampleOne O me t (shifted x w (ns j), w) es S Ψ) + ((4 * b + 5 : Nat) * e1 N + N * guess + spare + E) := by
  obtain ⟨hj', ho⟩ := ripe_eq_some.mp hr
  obtain ⟨hj, ht, hok, hv, hv0⟩ := h.get hj'
  set V : View P := BMap.set es me (noncePoints P (ns j)) with hV
  have hvo : ViewOk me (noncePoints P (ns j)) b V := view_ok hme _ hok (openings_keys ho)
  set qs := weightQueries V.keys with hqs
  have hqslen : qs.length ≤ b + 1 := by
    rw [hqs]
    unfold weightQueries View.keys
    rw [List.length_map, List.length_map]
    exact hvo.len
  have hqD : ∀ q ∈ qs, q ∈ D := hwD _ (by unfold View.keys; rw [List.length_map]; exact hvo.len)
  have he := e1_nonneg N
  have hg := guess_nonneg
  have hsp := spare_nonneg
  have hqk : ∀ q ∈ qs, ∃ ks k, q = weightQuery ks k := by
    intro q hq
    obtain ⟨k, -, rfl⟩ := List.mem_map.mp hq
    exact ⟨_, _, rfl⟩
  have e : (avg fun w : Arr 64 => sampleOne O me t (shifted x w (ns j), w) es S Ψ) = avg fun w : Arr 64 =>
      sampleAll qs S fun S₂ => sampleAll (coeffQueries me t (aggO (S₂.1.oracle O) V.keys) V) S₂ fun S => Ψ
        ((challengeOf (PublicKey.fromPoint (aggO (S₂.1.oracle O) V.keys)) t (compress (nonceO (S.1.oracle O) t V)).1,
          rescale (factor (S.1.oracle O) me t V) w) :: S.1, S.2)
        (es, Scalar.ofZ (fakeShare (S.1.oracle O) me t V (shifted x w (ns j)))) := by
    refine avg_congr fun w => ?_
    unfold sampleOne
    simp only [fakePoints_shifted hx (ns j) hv w]
    rfl
  rw [e, sampleAll_avg]
  set Φ : TB → ℚ := fun S₂ => avg fun w : Arr 64 => sampleAll (coeffQueries me t (aggO (S₂.1.oracle O) V.keys) V) S₂ fun S => Ψ
        ((challengeOf (PublicKey.fromPoint (aggO (S₂.1.oracle O) V.keys)) t (compress (nonceO (S.1.oracle O) t V)).1,
          rescale (factor (S.1.oracle O) me t V) w) :: S.1, S.2)
        (es, Scalar.ofZ (fakeShare (S.1.oracle O) me t V (shifted x w (ns j)))) with hΦ
  have hΦ0 : ∀ S, 0 ≤ Φ S := fun S => avg_nonneg fun w => sampleAll_nonneg (fun S => hΨ _ _) _ _
  have er : real O hD me x S ss A = sampleAll qs S fun S => real O hD me x S ss A := by
    unfold real
    exact avg_sampleAll qs hqD S fun F => val1 O hD me x F ss A
  rw [er]
  refine le_trans (sampleAll_le N (e1 N) he (fun n S' => Going O D T me x b j js ns ss ss' S n S' ∧
      (∀ agg : P, S'.1.lookup (coeffOf t agg V me 0) = none) ∧ (S'.1.openings coms : Option (View P)) = some es)
      (fun n S hp => ⟨⟨hp.1.paired.mono (by omega), hp.1.kept, hp.1.fresh⟩, hp.2⟩) _ Φ
      (fun S => real_le_one O hD me x _ _ _) hΦ0
      ((3 * (b + 1) : Nat) * e1 N + (e1 N + N * guess + (spare + E)))
      (by positivity) qs ?_ n S (by omega) ⟨⟨h, Kept.refl _ _, fun j' hj' => hfr j' (List.mem_cons_of_mem _ hj')⟩,
        fun agg => hfr j List.mem_cons_self t coms es hr agg, ho⟩ ?_) ?_
  · rintro n' S' q hn' ⟨hp1, hp2, hp3⟩ hq hl
    obtain ⟨ks, kk, hqq⟩ := hqk q hq
    have hne : ∀ (t : Transcript) (agg : P) (V : View P) (k : PublicKey P) (i : Nat), coeffOf t agg V k i ≠ q :=
      fun t agg V k i h'' => weight_ne_coeff ks kk t agg V k i (hqq ▸ h''.symm)
    refine le_trans (chance_mono ?_) (hp1.paired.chance_bad (N := N) (by omega))
    intro w hw h'
    refine hw ⟨hp1.add q (hqD q hq) w hl h'.1 h'.2 fun _ _ _ _ _ _ _ => hne _ _ _ _ _, fun agg => ?_, ?_⟩
    · show List.lookup _ ((q, w) :: S'.1) = none
      rw [lookup_cons_ne (hne _ _ _ _ _)]
      exact hp2 agg
    · rw [show (S'.add q w).1 = (q, w) :: S'.1 from rfl, openings_cons _ _ _ _ fun h' => absurd h' (hqq ▸ not_isCommit_weight _ _)]
      exact hp3
  · rintro S' ⟨hp1, hp2, hp3⟩ hext hall
    have := close_coeffs O hD T me x b N hx hp1 hnd t coms hj' hme es hp3 V hV hall
      (aggO (S'.1.oracle O) V.keys) rfl (hp2 _) (fun k i hi => hcD t ht V hvo.len _ k i hi) (fun R => hQD t ht _ R)
      A Ψ hΨ E hE (fun S'' s hpair hkept hfresh => hk S'' s (hpair.mono (by omega)) hkept hfresh) (by omega)
    rw [← add_assoc]
    exact this
  · have h1 : (qs.length : ℚ) * e1 N ≤ (b + 1 : Nat) * e1 N := by
      refine mul_le_mul_of_nonneg_right ?_ he
      exact_mod_cast hqslen
    have h2 : ((b + 1 : Nat) : ℚ) * e1 N + ((3 * (b + 1) : Nat) * e1 N + e1 N) = (4 * b + 5 : Nat) * e1 N := by
      push_cast; ring
    show sampleAll qs S Φ + _ + _ ≤ sampleAll qs S Φ + _
    linarith

theorem ripe_set {tab : Known} {ss : List (FakePhase P)} {j j' : Nat} (h : j' ≠ j) (p : FakePhase P) : ripe tab (ss.set j p) j' = ripe tab ss j' := by
  unfold ripe
  rw [List.getElem?_set_ne (fun h' => h h'.symm)]

theorem ripeOf_set {tab : Known} {ss : List (FakePhase P)} {j : Nat} {js : List Nat} (h : j ∉ js) (p : FakePhase P) :
    ripeOf tab (ss.set j p) js = ripeOf tab ss js := by
  unfold ripeOf
  refine List.countP_congr fun j' hj' => ?_
  rw [ripe_set (fun h' : j' = j => h (by rw [← h']; exact hj'))]

theorem ripeOf_nodup (tab : Known) (ss : List (FakePhase P)) {js : List Nat} (h : js.Nodup) : ripeOf tab ss js ≤ waiting ss := by
  refine le_trans ?_ (ripeOf_le tab ss)
  unfold ripeOf
  rw [List.countP_eq_length_filter, List.countP_eq_length_filter]
  refine (List.subperm_of_subset (h.filter _) ?_).length_le
  intro j hj
  obtain ⟨h1, h2⟩ := List.mem_filter.mp hj
  refine List.mem_filter.mpr ⟨List.mem_range.mpr ?_, h2⟩
  obtain ⟨⟨t, coms, es⟩, h3⟩ := Option.isSome_iff_exists.mp h2
  exact (List.getElem?_eq_some_iff.mp (ripe_eq_some.mp h3).1).1

/-- Settling sessions. -/
theorem close_loop (hx : me.point = x • (basepoint : P)) (hme : me.WF)
    (hwD : ∀ ks : List (PublicKey P), ks.length ≤ b + 1 → ∀ q ∈ weightQueries ks, q ∈ D)
    (hcD : ∀ t : Transcript, t.log ∈ T → ∀ V : View P, V.length ≤ b + 1 → ∀ (agg : P) (k : PublicKey P), ∀ j < 3, coeffOf t agg V k j ∈ D)
    (hQD : ∀ t : Transcript, t.log ∈ T → ∀ agg R : P, challengeOf (PublicKey.fromPoint agg) t (compress R).1 ∈ D)
    (A : Client (CosignRequest P) CosignAnswer α) (c : Nat) (E : ℚ) (hE : 0 ≤ E) (hk : Close O hD T me x b N c E A) (ns : Nat → Fin 3 → Arr 64) (ss : List (RealPhase P))
    (js : List Nat) : js.Nodup → ∀ n S ss', Paired O D T me x b n js ns S ss ss' → (∀ j ∈ js, Fresh me ns S.1 ss' j) →
      n + waiting ss' * (4 * b + 6) + c ≤ N →
      real O hD me x S ss A ≤ sampleSettle O me x ns (fun S ss => val2 O D me x ns S ss A) js S ss' +
        (E + waiting ss' * e3 b N - ripeOf S.1 ss' js * (N * guess)) := by
  have hg := guess_nonneg
  have he3 := e3_nonneg b N
  induction js with
  | nil =>
    intro _ n S ss' h _ hn
    have := hk n ns S ss ss' h hn
    have e0 : ripeOf S.1 ss' [] = 0 := rfl
    rw [e0]
    show _ ≤ val2 O D me x ns S ss' A + _
    push_cast
    linarith
  | cons j js ih =>
    intro hnd n S ss' h hfr hn
    obtain ⟨hj, hnd⟩ := List.nodup_cons.mp hnd
    cases hr : ripe S.1 ss' j with
    | none =>
      have := ih hnd n S ss' (h.skip hr) (fun j' hj' => hfr j' (List.mem_cons_of_mem _ hj')) hn
      have e0 : ripeOf S.1 ss' (j :: js) = ripeOf S.1 ss' js := by
        unfold ripeOf
        rw [List.countP_cons_of_neg (by rw [hr]; simp)]
      rw [e0]
      simp only [sampleSettle, hr]
      exact this
    | some o =>
      obtain ⟨t, coms, es⟩ := o
      have e0 : ripeOf S.1 ss' (j :: js) = ripeOf S.1 ss' js + 1 := by
        unfold ripeOf
        rw [List.countP_cons_of_pos (by rw [hr]; rfl)]
      rw [e0]
      simp only [sampleSettle, hr]
      have hw : ∀ o, waiting (ss'.set j (.revealing t (some o) coms)) + 1 = waiting ss' := fun o =>
        waiting_set (ripe_eq_some.mp hr).1 (.revealing t (some o) coms)
      have hrip : ripeOf S.1 ss' js + 1 ≤ waiting ss' := by
        have := ripeOf_nodup S.1 (ss'.set j (.revealing t (some (es, Scalar.ofZ 0)) coms)) hnd
        rw [ripeOf_set hj] at this
        have := hw (es, Scalar.ofZ 0)
        omega
      have hge : (2 * (N * guess) : ℚ) ≤ e3 b N := by
        have := e1_nonneg N
        have := spare_nonneg
        unfold e3
        have : 0 ≤ ((4 * b + 5 : Nat) : ℚ) * e1 N := by positivity
        linarith
      set R := ripeOf S.1 ss' js with hR
      have hE' : 0 ≤ E + (waiting ss' - 1) * e3 b N - R * (N * guess) := by
        have h1 : (R : ℚ) + 1 ≤ waiting ss' := by exact_mod_cast hrip
        have h2 : (R : ℚ) * (N * guess) ≤ (waiting ss' - 1) * e3 b N := by
          refine mul_le_mul (by linarith) ?_ (by positivity) (by linarith [show (0 : ℚ) ≤ R from Nat.cast_nonneg R])
          have : 0 ≤ (N : ℚ) * guess := by positivity
          linarith
        linarith
      have := close_one O hD T me x b N hx hme hwD hcD hQD h hj t coms es hr hfr A
        (fun S o => sampleSettle O me x ns (fun S ss => val2 O D me x ns S ss A) js S (ss'.set j (.revealing t (some o) coms)))
        (fun S o => sampleSettle_nonneg O me x ns (fun S ss => val2_nonneg O me x A _ _ _) _ _ _)
        (E + (waiting ss' - 1) * e3 b N - R * (N * guess)) hE' (by
          intro S' s hpair hkept hfresh
          have hw' := hw (es, s)
          have hmul : waiting ss' * (4 * b + 6) = waiting (ss'.set j (.revealing t (some (es, s)) coms)) * (4 * b + 6) + (4 * b + 6) := by
            rw [← hw']; ring
          have := ih hnd _ S' _ hpair (by
            intro j' hj' t' coms' es' hr' agg
            rw [ripe_set (fun h' : j' = j => hj (by rw [← h']; exact hj'))] at hr'
            exact hfresh j' hj' t' coms' es' hr' agg) (by omega)
          have e1 : ripeOf S'.1 (ss'.set j (.revealing t (some (es, s)) coms)) js = R := by
            rw [ripeOf_set hj, hR]
            unfold ripeOf
            refine List.countP_congr fun j' _ => ?_
            rw [hkept.ripe]
          rw [e1] at this
          have e2 : ((waiting (ss'.set j (.revealing t (some (es, s)) coms)) : Nat) : ℚ) = waiting ss' - 1 := by
            rw [← hw']; push_cast; ring
          rw [e2] at this
          exact this) (by
          have h1 : 1 * (4 * b + 6) ≤ waiting ss' * (4 * b + 6) := Nat.mul_le_mul_right _ (by omega)
          omega)
      refine le_trans this (le_of_eq ?_)
      unfold e3
      push_cast
      ring

/-- The cost of a reveal beyond the hash answers. -/
def e2 (N : Nat) : ℚ := 2 * spare + (3 * N + 1) * guess

theorem e2_nonneg (N : Nat) : 0 ≤ e2 N := by
  have hg := guess_nonneg
  have hsp := spare_nonneg
  unfold e2; positivity

/-- Whether a session is ripe does not depend on the nonces. -/
theorem ripe_any (tab : Known) (ss : List (FakePhase P)) (j : Nat) (κ : Arr 64) (v v' : Fin 3 → Arr 64) :
    ((ripe ((commitmentQuery (nonceReveal P v), κ) :: tab) ss j).isSome = true) ↔
      ((ripe ((commitmentQuery (nonceReveal P v'), κ) :: tab) ss j).isSome = true) := by
  have hpts : ∀ v : Fin 3 → Arr 64, points (nonceReveal P v) = some (noncePoints P v) := fun v => by
    rw [nonceReveal_eq]; exact points_toReveal _
  have hind : ∀ v v', (ripe ((commitmentQuery (nonceReveal P v), κ) :: tab) ss j).isSome →
      (ripe ((commitmentQuery (nonceReveal P v'), κ) :: tab) ss j).isSome := by
    intro v v' hs
    obtain ⟨⟨t', coms', es'⟩, hr⟩ := Option.isSome_iff_exists.mp hs
    obtain ⟨h1, h2⟩ := ripe_eq_some.mp hr
    have h3 : (Known.openings ((commitmentQuery (nonceReveal P v), κ) :: tab) coms' : Option (View P)) ≠ none := by
      rw [h2]; exact fun h => by cases h
    rw [openings_ripen_iff _ _ (hpts v), ← openings_ripen_iff (nonceReveal P v') κ (hpts v')] at h3
    obtain ⟨es'', h4⟩ := Option.ne_none_iff_exists'.mp h3
    rw [ripe_eq_some.mpr ⟨h1, h4⟩]
    rfl
  exact ⟨hind v v', hind v' v⟩

theorem mem_set_other {V : Type} {m : BMap P V} {k : PublicKey P} {v : V} {e : PublicKey P × V} (h : e ∈ m)
    (hne : e.1.compressed ≠ k.compressed) : e ∈ m.set k v := by
  induction m with
  | nil => cases h
  | cons a m ih =>
    unfold BMap.set
    split
    · rename_i hc
      rcases List.mem_cons.mp h with rfl | h
      · exact absurd ((cmp_eq_iff _ _).mp hc).symm hne
      · exact List.mem_cons_of_mem _ h
    · exact List.mem_cons_of_mem _ h
    · rcases List.mem_cons.mp h with rfl | h
      · exact List.mem_cons_self
      · exact List.mem_cons_of_mem _ (ih h)

/-- The nonce points of a session that just revealed are on no list. -/
theorem chance_stale (hme : me.WF) {n : Nat} {ns : Nat → Fin 3 → Arr 64} {S : TB} {ss : List (RealPhase P)} {ss' : List (FakePhase P)}
    (h : Paired O D T me x b n [] ns S ss ss') (i : Nat) (t : Transcript) (κ : Arr 64) (hi : ss'[i]? = some (.committing t κ))
    (coms : BMap P Commitment) (hok : ComsOk me b coms) (v₀ : Fin 3 → Arr 64) (j : Nat) :
    chance (fun v => ¬ Fresh me (Function.update ns i v) ((commitmentQuery (nonceReveal P v), κ) :: S.1) (ss'.set i (.revealing t none coms)) j) ≤
      (if (ripe ((commitmentQuery (nonceReveal P v₀), κ) :: S.1) (ss'.set i (.revealing t none coms)) j).isSome then S.1.length * guess else 0) := by
  set ss'' := ss'.set i (.revealing t none coms) with hss
  have hpts : ∀ v : Fin 3 → Arr 64, points (nonceReveal P v) = some (noncePoints P v) := fun v => by
    rw [nonceReveal_eq]; exact points_toReveal _
  have hnc : ∀ (v : Fin 3 → Arr 64) (t : Transcript) (agg : P) (V : View P) (k : PublicKey P) (l : Nat),
      coeffOf t agg V k l ≠ commitmentQuery (nonceReveal P v) := by
    intro v t agg V k l heq
    have : IsCommit (coeffOf t agg V k l) := by rw [heq]; exact isCommit_commitmentQuery _
    exact not_isCommit_coeff t agg V k l this
  split
  · rename_i hs
    obtain ⟨⟨t', coms', es₀⟩, hr₀⟩ := Option.isSome_iff_exists.mp hs
    obtain ⟨hg, ho₀⟩ := ripe_eq_some.mp hr₀
    -- the key under which the new points appear
    have key : ∃ K : PublicKey P, ∀ v es', ripe ((commitmentQuery (nonceReveal P v), κ) :: S.1) ss'' j = some (t', coms', es') →
        (∀ e ∈ BMap.set es' me (noncePoints P (Function.update ns i v j)), e.1.WF) ∧
        (K, noncePoints P v) ∈ BMap.set es' me (noncePoints P (Function.update ns i v j)) ∧
        ∀ e ∈ BMap.set es' me (noncePoints P (Function.update ns i v j)), e.1.compressed = K.compressed → e = (K, noncePoints P v) := by
      rcases get_set hg with ⟨rfl, hq⟩ | ⟨hne, hg'⟩
      · cases hq
        refine ⟨me, fun v es' hr => ?_⟩
        have hvo := view_ok hme (noncePoints P v) hok (openings_keys (ripe_eq_some.mp hr).2)
        rw [Function.update_self]
        exact ⟨hvo.wf, hvo.mem, hvo.uniq⟩
      · obtain ⟨-, -, hok', -, -⟩ := h.get hg'
        have hnone := h.strict j t' coms' hg' (by simp)
        obtain ⟨e, hem, heq, -⟩ := openings_ripen (nonceReveal P v₀) κ (hpts v₀) hnone ho₀
        refine ⟨e.1, fun v es' hr => ?_⟩
        obtain ⟨-, ho⟩ := ripe_eq_some.mp hr
        have hvo := view_ok hme (noncePoints P (Function.update ns i v j)) hok' (openings_keys ho)
        have hmem : (e.1, noncePoints P v) ∈ es' := by
          obtain ⟨p, h1, h2⟩ := openings_mem ho e hem
          rw [heq, opening_cons_self S.1 _ κ (hpts v)] at h1
          cases h1
          exact h2
        have hsrt : BMap.Sorted es' := by
          have h1 : (coms'.map (·.1)).Pairwise fun a b => RistrettoBoth.cmp a b = .lt := List.pairwise_map.mpr hok'.sorted
          rw [← openings_keys ho] at h1
          exact List.pairwise_map.mp h1
        have hsrt' := BMap.sorted_set hsrt me (noncePoints P (Function.update ns i v j))
        have hin : (e.1, noncePoints P v) ∈ BMap.set es' me (noncePoints P (Function.update ns i v j)) :=
          mem_set_other hmem (hok'.me e hem)
        refine ⟨hvo.wf, hin, fun e' he' hk => ?_⟩
        exact Prod.ext (BMap.key_ext (hvo.wf e' he') (hvo.wf _ hin) hk) (BMap.keys_inj hsrt' he' hin hk)
    obtain ⟨K, hK⟩ := key
    refine le_trans (chance_mono ?_) (chance_own K S)
    intro v hv hfree
    refine hv fun t₁ coms₁ es₁ hr agg => ?_
    rw [lookup_cons_ne (hnc v _ _ _ _ _)]
    have hg₁ := (ripe_eq_some.mp hr).1
    rw [hg] at hg₁
    cases hg₁
    obtain ⟨a1, a2, a3⟩ := hK v es₁ hr
    exact hfree t' agg _ me 0 a1 a2 a3
  · rename_i hs
    refine le_of_eq ?_
    have : (fun v => ¬ Fresh me (Function.update ns i v) ((commitmentQuery (nonceReveal P v), κ) :: S.1) ss'' j) = fun _ => False := by
      funext v
      refine eq_false fun hv => hv fun t₁ coms₁ es₁ hr agg => ?_
      exact (hs ((ripe_any S.1 ss'' j κ v v₀).mp (by rw [hr]; rfl))).elim
    rw [this]
    unfold chance
    simp

theorem chance_list {Ω : Type} [Finite Ω] (B : Nat → Ω → Prop) (R : Nat → Bool) (c : ℚ) (hB : ∀ j, chance (B j) ≤ if R j then c else 0)
    (js : List Nat) : chance (fun v => ∃ j ∈ js, B j v) ≤ js.countP R * c := by
  induction js with
  | nil =>
    refine le_of_eq ?_
    unfold chance
    simp
  | cons j js ih =>
    refine le_trans (chance_mono (p' := fun v => B j v ∨ ∃ j ∈ js, B j v) ?_) (le_trans chance_or ?_)
    · rintro v ⟨j', hj', hb⟩
      rcases List.mem_cons.mp hj' with rfl | hj'
      · exact Or.inl hb
      · exact Or.inr ⟨j', hj', hb⟩
    · have := hB j
      rw [List.countP_cons]
      split at this
      · rename_i hr
        rw [if_pos hr]
        push_cast
        linarith
      · rename_i hr
        rw [if_neg hr]
        push_cast
        linarith

open Classical in
theorem close_reveal (hx : me.point = x • (basepoint : P)) (hme : me.WF) (i : Nat) (cs : List (P × Commitment)) (hcs : cs.length ≤ b)
    (hwD : ∀ ks : List (PublicKey P), ks.length ≤ b + 1 → ∀ q ∈ weightQueries ks, q ∈ D)
    (hcD : ∀ t : Transcript, t.log ∈ T → ∀ V : View P, V.length ≤ b + 1 → ∀ (agg : P) (k : PublicKey P), ∀ j < 3, coeffOf t agg V k j ∈ D)
    (hQD : ∀ t : Transcript, t.log ∈ T → ∀ agg R : P, challengeOf (PublicKey.fromPoint agg) t (compress R).1 ∈ D)
    (k : CosignAnswer → Client (CosignRequest P) CosignAnswer α) (c : Nat) (E : ℚ) (hE : 0 ≤ E) (hk : ∀ a, Close O hD T me x b N c E (k a)) :
    Close O hD T me x b N (c + (5 * b + 7)) (E + (5 * b + 7 : Nat) * e1 N + e2 N) (.request (.reveal i cs) k) := by
  intro n ns S ss ss' h hn
  have he := e1_nonneg N
  have he2 := e2_nonneg N
  have he3 := e3_nonneg b N
  have hg := guess_nonneg
  have hsp := spare_nonneg
  have hh : 0 ≤ ((5 * b + 7 : Nat) : ℚ) * e1 N := by positivity
  rcases forall₂_get h.rel i with ⟨h1, h2⟩ | ⟨p, p', h1, h2, hr⟩
  · unfold real
    simp only [val1, val2, h1, h2]
    have := hk .refused n ns S ss ss' h (by omega)
    unfold real at this
    linarith
  cases hr with
  | finished t coms =>
    unfold real
    simp only [val1, val2, h1, h2]
    have := hk .refused n ns S ss ss' h (by omega)
    unfold real at this
    linarith
  | revealing t v o coms _ _ _ _ ho hs =>
    unfold real
    simp only [val1, val2, h1, h2]
    have := hk .refused n ns S ss ss' h (by omega)
    unfold real at this
    linarith
  | committing t κ ht =>
    unfold real
    simp only [val1, val2, h1, h2]
    set coms := registered me cs with hcoms
    have hok : ComsOk me b coms := by
      have := registered_ok me cs
      exact ⟨this.sorted, this.wf, this.me, this.len.trans hcs⟩
    rw [avg_comm]
    set js := List.range ss'.length with hjs
    set ss'' := ss'.set i (.revealing t none coms) with hss
    have hw : waiting ss'' = waiting ss' + 1 := waiting_set h2 (.revealing t none coms)
    set v₀ : Fin 3 → Arr 64 := fun _ => κ with hv₀
    set R := js.countP fun j => (ripe ((commitmentQuery (nonceReveal P v₀), κ) :: S.1) ss'' j).isSome with hR
    have hRv : ∀ v : Fin 3 → Arr 64, ripeOf ((commitmentQuery (nonceReveal P v), κ) :: S.1) ss'' js = R := by
      intro v
      refine List.countP_congr fun j _ => ?_
      exact ripe_any S.1 ss'' j κ v v₀
    have hRle : R ≤ waiting ss' + 1 := by
      rw [← hRv v₀, ← hw]
      exact ripeOf_nodup _ _ List.nodup_range
    have hge : (2 * (N * guess) : ℚ) ≤ e3 b N := by
      unfold e3
      have : 0 ≤ ((4 * b + 5 : Nat) : ℚ) * e1 N := by positivity
      linarith
    have hN : 0 ≤ (N : ℚ) * guess := by positivity
    set E' : ℚ := E + (waiting ss' + 1 : Nat) * e3 b N - R * (N * guess) with hE'
    have hE0 : 0 ≤ E' := by
      have h1 : (R : ℚ) * (N * guess) ≤ (waiting ss' + 1 : Nat) * e3 b N :=
        mul_le_mul (by exact_mod_cast hRle) (by linarith) hN (Nat.cast_nonneg _)
      linarith
    have key : ∀ v : Fin 3 → Arr 64,
        (avg fun f : D → Arr 64 => val1 O hD me x (Function.update (ov (Lk S.1) f) ⟨_, hD (nonceReveal P v)⟩ κ)
          (ss.set i (.revealing t v coms)) (k (.reveal (nonceReveal P v)))) ≤
        ((if Beyond (v 0) then 0 else
        sampleSettle O me x (Function.update ns i v)
          (fun S ss => val2 O D me x (Function.update ns i v) S ss (k (.reveal (nonceReveal P v)))) js
          ((commitmentQuery (nonceReveal P v), κ) :: S.1, S.2) ss'') +
          (ind (Beyond (v 0)) + (ind (residue (v 0) = 0) + (ind (S.1.lookup (commitmentQuery (nonceReveal P v)) ≠ none) +
            ind (∃ j ∈ js, ¬ Fresh me (Function.update ns i v) ((commitmentQuery (nonceReveal P v), κ) :: S.1) ss'' j))))) + E' := by
      intro v
      set q := commitmentQuery (nonceReveal P v) with hq
      set S₁ : TB := ((q, κ) :: S.1, S.2) with hS₁
      have e : (avg fun f : D → Arr 64 => val1 O hD me x (Function.update (ov (Lk S.1) f) ⟨_, hD (nonceReveal P v)⟩ κ)
          (ss.set i (.revealing t v coms)) (k (.reveal (nonceReveal P v)))) =
          real O hD me x S₁ (ss.set i (.revealing t v coms)) (k (.reveal (nonceReveal P v))) := by
        unfold real
        refine avg_congr fun f => ?_
        rw [update_Lk]
      rw [e]
      have ho := real_le_one O hD me x (k (.reveal (nonceReveal P v))) S₁ (ss.set i (.revealing t v coms))
      have hz : 0 ≤ (if Beyond (v 0) then 0 else sampleSettle O me x (Function.update ns i v)
          (fun S ss => val2 O D me x (Function.update ns i v) S ss (k (.reveal (nonceReveal P v)))) js S₁ ss'') := by
        split
        · exact le_refl _
        · exact sampleSettle_nonneg O me x _ (fun S ss => val2_nonneg O me x _ _ _ _) _ _ _
      have i1 := ind_nonneg (Beyond (v 0))
      have i2 := ind_nonneg (residue (v 0) = 0)
      have i3 := ind_nonneg (S.1.lookup q ≠ none)
      have i4 := ind_nonneg (∃ j ∈ js, ¬ Fresh me (Function.update ns i v) ((q, κ) :: S.1) ss'' j)
      by_cases g1 : Beyond (v 0)
      · have j : ind (Beyond (v 0)) = 1 := if_pos g1
        linarith
      by_cases g2 : residue (v 0) = 0
      · have j : ind (residue (v 0) = 0) = 1 := if_pos g2
        linarith
      by_cases g3 : S.1.lookup q = none
      swap
      · have j : ind (S.1.lookup q ≠ none) = 1 := if_pos g3
        linarith
      by_cases g4 : ∃ j ∈ js, ¬ Fresh me (Function.update ns i v) ((q, κ) :: S.1) ss'' j
      · have j : ind (∃ j ∈ js, ¬ Fresh me (Function.update ns i v) ((q, κ) :: S.1) ss'' j) = 1 := if_pos g4
        linarith
      have hp := h.reveal i t κ h1 h2 coms hok v g1 g2 (hD _) g3
      have := close_loop O hD T me x b N hx hme hwD hcD hQD (k (.reveal (nonceReveal P v))) c E hE (hk _) (Function.update ns i v)
        (ss.set i (.revealing t v coms)) js List.nodup_range _ S₁ ss'' hp
        (fun j hj => by_contra fun h' => g4 ⟨j, hj, h'⟩) (by
          rw [hw, Nat.add_mul]; omega)
      rw [hw, hRv v] at this
      rw [if_neg g1]
      linarith
    refine le_trans (avg_mono key) ?_
    rw [avg_add, avg_add, avg_add, avg_add, avg_add, avg_const (Ω := Fin 3 → Arr 64)]
    simp only [← chance_eq_avg]
    have c1 : chance (fun v : Fin 3 → Arr 64 => Beyond (v 0)) ≤ spare := by
      rw [chance_coord (X := Fin 3) (Y := Arr 64) 0 Beyond]; exact chance_beyond
    have c2 : chance (fun v : Fin 3 → Arr 64 => residue (v 0) = 0) ≤ guess := by
      rw [chance_coord (X := Fin 3) (Y := Arr 64) 0 fun w => residue w = 0]; exact chance_residue 0
    have hlen : (S.1.length : ℚ) * guess ≤ N * guess := by
      refine mul_le_mul_of_nonneg_right ?_ hg
      have : S.1.length ≤ N := h.tidy.len.trans (by omega)
      exact_mod_cast this
    have c3 := (chance_opened (P := P) S).trans hlen
    have c4 : chance (fun v : Fin 3 → Arr 64 => ∃ j ∈ js, ¬ Fresh me (Function.update ns i v)
        ((commitmentQuery (nonceReveal P v), κ) :: S.1) ss'' j) ≤ R * (N * guess) := by
      refine le_trans (chance_list _ _ _ (fun j => chance_stale O T me x b hme h i t κ h2 coms hok v₀ j) js) ?_
      exact mul_le_mul_of_nonneg_left hlen (Nat.cast_nonneg _)
    have e5 : ((waiting ss' + 1 : Nat) : ℚ) * e3 b N = waiting ss' * e3 b N + ((4 * b + 5 : Nat) * e1 N + 2 * N * guess + spare) := by
      unfold e3; push_cast; ring
    have e6 : ((4 * b + 5 : Nat) : ℚ) * e1 N ≤ (5 * b + 7 : Nat) * e1 N := by
      refine mul_le_mul_of_nonneg_right ?_ he
      have h3 : 4 * b + 5 ≤ 5 * b + 7 := by omega
      exact_mod_cast h3
    unfold e2
    linarith

/-- The cost of a whole attack. -/
def simCost (N b q m r : Nat) : ℚ := (q + r * (5 * b + 7) : Nat) * e1 N + r * e2 N + m * (2 * N * hit)

/-- **The two games are close.** -/
theorem close_all [Goal.Separated P α] (hx : me.point = x • (basepoint : P)) (hme : me.WF)
    (hfin : ∀ c, fin c → ∀ f : D → Arr 64, ∀ l ∈ Goal.queries (wideTable O D f) me c, l ∈ D)
    (hwD : ∀ ks : List (PublicKey P), ks.length ≤ b + 1 → ∀ q ∈ weightQueries ks, q ∈ D)
    (hcD : ∀ t : Transcript, t.log ∈ T → ∀ V : View P, V.length ≤ b + 1 → ∀ (agg : P) (k : PublicKey P), ∀ j < 3, coeffOf t agg V k j ∈ D)
    (hQD : ∀ t : Transcript, t.log ∈ T → ∀ agg R : P, challengeOf (PublicKey.fromPoint agg) t (compress R).1 ∈ D)
    (A : Client (CosignRequest P) CosignAnswer α) : ∀ q m r, SessionBounded D T b fin q m r A →
      Close O hD T me x b N (q + m + r * (5 * b + 7)) (simCost N b q m r) A := by
  have he := e1_nonneg N
  have he2 := e2_nonneg N
  have hh := hit_nonneg
  have hnn : ∀ q m r, 0 ≤ simCost N b q m r := by
    intro q m r; unfold simCost; positivity
  have weaken : ∀ {A : Client (CosignRequest P) CosignAnswer α} {c c' : Nat} {E E' : ℚ}, Close O hD T me x b N c E A → c ≤ c' → E ≤ E' →
      Close O hD T me x b N c' E' A := by
    intro A c c' E E' h hc hE n ns S ss ss' hp hn
    have := h n ns S ss ss' hp (by omega)
    linarith
  induction A with
  | ret c =>
    intro q m r hb
    exact weaken (close_ret O hD T me x b N c (hfin c hb) 0) (by omega) (hnn q m r)
  | ask l k ih =>
    intro q m r hb
    obtain ⟨hl, q', rfl, hk⟩ := hb
    refine weaken (close_ask O hD T me x b N l hl k _ _ (hnn q' m r) fun w => ih w q' m r (hk w)) (by omega) ?_
    unfold simCost
    push_cast
    linarith
  | request rq k ih =>
    intro q m r hb
    cases rq with
    | start t =>
      obtain ⟨ht, m', rfl, hk⟩ := hb
      refine weaken (close_start O hD T me x b N t ht k _ _ (hnn q m' r) fun a => ih a q m' r (hk a)) (by omega) ?_
      unfold simCost
      push_cast
      linarith
    | reveal i cs =>
      obtain ⟨hcs, r', rfl, hk⟩ := hb
      refine weaken (close_reveal O hD T me x b N hx hme i cs hcs hwD hcD hQD k _ _ (hnn q m r') fun a => ih a q m r' (hk a))
        (by rw [Nat.add_mul]; omega) ?_
      unfold simCost
      push_cast
      linarith
    | cosign i rs =>
      obtain ⟨hrs, r', rfl, hk⟩ := hb
      refine weaken (close_cosign O hD T me x b N i rs hrs k _ _ (hnn q m r') fun a => ih a q m r' (hk a))
        (by rw [Nat.add_mul]; omega) ?_
      unfold simCost
      push_cast
      have : 0 ≤ (b : ℚ) * e1 N := by positivity
      linarith

end

end Schnorrkel
