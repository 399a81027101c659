import Verif.Lemmas.RomCosignInv
import Verif.Lemmas.RomRescale
import Verif.Lemmas.RomCollide

/-! # The two games, step by step -/

namespace Schnorrkel
open Spec Schnorrkel.Props
variable {P : Type} [Ristretto P] {D : Finset (List MOp)} {α : Type} [Goal P α] {fin : α → Prop}

/-! ## Chances -/

/-- Bound on the chance that a given commitment is hit by a random answer. -/
def hit : ℚ := 1 / 2 ^ 128

theorem hit_nonneg : 0 ≤ hit := by unfold hit; positivity

theorem chance_pref_one (c : Commitment) : chance (fun w : Arr 64 => pref w = c) ≤ hit := by
  have h := card_prefix 16 (by omega) c.bytes.1 {w | pref w = c} (by
    intro w hw
    have : pref w = c := hw
    rw [← this]
    rfl)
  have h' : Nat.card {w : Arr 64 // pref w = c} * 2 ^ 128 ≤ 2 ^ 512 := by
    have e : (256 : Nat) ^ 16 = 2 ^ 128 := by norm_num
    rw [← e]
    exact h
  unfold chance hit
  rw [card_arr64]
  have h'' : ((Nat.card {w : Arr 64 // pref w = c} : Nat) : ℚ) * 2 ^ 128 ≤ 2 ^ 512 := by exact_mod_cast h'
  push_cast
  rw [div_le_div_iff₀ (by positivity) (by positivity), one_mul]
  exact h''

theorem chance_pref (l : List Commitment) : chance (fun w : Arr 64 => pref w ∈ l) ≤ l.length * hit := by
  refine le_trans (chance_mono ?_) (chance_mem_of_one pref hit chance_pref_one l)
  intro w hw
  exact ⟨_, hw, rfl⟩

attribute [local irreducible] guess spare hit

theorem val1_le_one (O : Oracles) (hD : ∀ r, commitmentQuery r ∈ D) (me : PublicKey P) (x : Z) (A : Client (CosignRequest P) CosignAnswer α) :
    ∀ (F : D → Arr 64) (ss : List (RealPhase P)), val1 O hD me x F ss A ≤ 1 := by
  induction A with
  | ret c => intro F ss; exact ind_le_one _
  | ask q k ih => intro F ss; exact ih _ _ _
  | request r k ih =>
    intro F ss
    cases r with
    | start t => exact avg_le_const fun κ => ih _ _ _
    | reveal i cs =>
      simp only [val1]
      split
      · exact avg_le_const fun v => ih _ _ _
      · exact ih _ _ _
    | cosign i rs =>
      simp only [val1]
      split
      · exact ih _ _ _
      · exact ih _ _ _

theorem sampleOne_nonneg (O : Oracles) (me : PublicKey P) (t : Transcript) (c : (Fin 3 → Arr 64) × Arr 64) (es : View P) (S : TB)
    {φ : TB → View P × Scalar → ℚ} (h : ∀ S o, 0 ≤ φ S o) : 0 ≤ sampleOne O me t c es S φ :=
  sampleAll_nonneg (fun S => sampleAll_nonneg (fun S => h _ _) _ _) _ _

theorem sampleSettle_nonneg (O : Oracles) (me : PublicKey P) (x : Z) (ns : Nat → Fin 3 → Arr 64) {φ : TB → List (FakePhase P) → ℚ}
    (h : ∀ S ss, 0 ≤ φ S ss) (js : List Nat) : ∀ S ss, 0 ≤ sampleSettle O me x ns φ js S ss := by
  induction js with
  | nil => exact h
  | cons j js ih =>
    intro S ss
    simp only [sampleSettle]
    split
    · exact avg_nonneg fun w => sampleOne_nonneg O me _ _ _ _ fun S o => ih _ _
    · exact ih _ _

theorem val2_nonneg (O : Oracles) (me : PublicKey P) (x : Z) (A : Client (CosignRequest P) CosignAnswer α) :
    ∀ (ns : Nat → Fin 3 → Arr 64) (S : TB) (ss : List (FakePhase P)), 0 ≤ val2 O D me x ns S ss A := by
  induction A with
  | ret c => intro ns S ss; exact avg_nonneg fun f => ind_nonneg _
  | ask q k ih => intro ns S ss; exact sample_nonneg fun S => ih _ _ _ _
  | request r k ih =>
    intro ns S ss
    cases r with
    | start t => exact avg_nonneg fun κ => ih _ _ _ _
    | reveal i cs =>
      simp only [val2]
      split
      · refine avg_nonneg fun v => ?_
        split
        · exact le_refl _
        · exact sampleSettle_nonneg O me x _ (fun S ss => ih _ _ _ _) _ _ _
      · exact ih _ _ _ _
    | cosign i rs =>
      simp only [val2]
      split
      · exact sampleAll_nonneg (fun S => ih _ _ _ _) _ _
      · exact ih _ _ _ _

/-- Bound on the chance that a random answer is unlucky. -/
def e1 (N : Nat) : ℚ := guess + 2 * N * hit

theorem e1_nonneg (N : Nat) : 0 ≤ e1 N := by
  have := guess_nonneg
  have := hit_nonneg
  unfold e1; positivity

section
variable {O : Oracles} {T : Finset (List MOp)} {me : PublicKey P} {x : Z} {b n : Nat} {js : List Nat} {ns : Nat → Fin 3 → Arr 64} {S : TB}
  {ss : List (RealPhase P)} {ss' : List (FakePhase P)}

theorem Paired.exlen (h : Paired O D T me x b n js ns S ss ss') : (exOf ss' ++ S.1.map fun e => pref e.2).length ≤ 2 * n := by
  have h1 := h.tidy.exlen
  have h2 := h.tidy.len
  rw [List.length_append, List.length_map]
  omega

theorem Paired.chance_hit (h : Paired O D T me x b n js ns S ss ss') {N : Nat} (hn : n ≤ N) :
    chance (fun w : Arr 64 => pref w ∈ exOf ss' ++ S.1.map fun e => pref e.2) ≤ 2 * N * hit := by
  refine le_trans (chance_pref _) ?_
  have h1 := h.exlen
  have h2 : (((exOf ss' ++ S.1.map fun e => pref e.2).length : Nat) : ℚ) ≤ 2 * N := by
    have : (exOf ss' ++ S.1.map fun e => pref e.2).length ≤ 2 * N := h1.trans (by omega)
    exact_mod_cast this
  exact mul_le_mul_of_nonneg_right h2 hit_nonneg

theorem Paired.chance_bad (h : Paired O D T me x b n js ns S ss ss') {N : Nat} (hn : n ≤ N) :
    chance (fun w : Arr 64 => ¬ (pref w ∉ (exOf ss' ++ S.1.map fun e => pref e.2) ∧ residue w ≠ 0)) ≤ e1 N := by
  refine le_trans (chance_mono (p' := fun w => residue w = 0 ∨ pref w ∈ (exOf ss' ++ S.1.map fun e => pref e.2)) ?_) ?_
  · intro w hw
    by_cases hr : residue w = 0
    · exact Or.inl hr
    · exact Or.inr (by_contra fun h' => hw ⟨h', hr⟩)
  · refine le_trans chance_or ?_
    unfold e1
    exact add_le_add (chance_residue 0) (h.chance_hit hn)

end

/-! ## The output -/

theorem merlin_agree (O : Oracles) {S : TB} (hb : ∀ q w, S.2.lookup q = some w → S.1.lookup q = some w) {q : List MOp} (hq : q ∈ D)
    (h : ∀ w, S.1.lookup q = some w → S.2.lookup q ≠ none) (f : D → Arr 64) :
    (wideTable O D (ov (Lk S.1) f)).merlin q 64 = (wideTable O D (ov (Lk S.2) f)).merlin q 64 := by
  rw [wideTable_hit O _ _ hq, wideTable_hit O _ _ hq]
  cases h1 : S.1.lookup q with
  | none =>
    have h2 : S.2.lookup q = none := by
      cases h2 : S.2.lookup q with
      | none => rfl
      | some w => rw [hb q w h2] at h1; cases h1
    show (S.1.lookup q).getD _ = (S.2.lookup q).getD _
    rw [h1, h2]
  | some w =>
    cases h2 : S.2.lookup q with
    | none => exact absurd h2 (h w h1)
    | some w' =>
      have := hb q w' h2
      show (S.1.lookup q).getD _ = (S.2.lookup q).getD _
      rw [h2, this]

theorem jointKey_aggO (O : Oracles) (l : List (PublicKey P)) : jointKey O l = PublicKey.fromPoint (aggO O (cosigners l)) := by
  letI := O
  exact aggregatePoint_eq _

theorem win_forges [Goal.Separated P α] (O : Oracles) {T : Finset (List MOp)} {me : PublicKey P} {x : Z} {b n : Nat} {js : List Nat} {ns : Nat → Fin 3 → Arr 64} {S : TB}
    {ss : List (RealPhase P)} {ss' : List (FakePhase P)} (h : Paired O D T me x b n js ns S ss ss') (c : α)
    (hq : ∀ f : D → Arr 64, ∀ l ∈ Goal.queries (wideTable O D f) me c, l ∈ D) (f : D → Arr 64)
    (hw : WinJoint (wideTable O D (ov (Lk S.1) f)) me ss c) : Goal.Wins (wideTable O D (ov (Lk S.2) f)) me c := by
  obtain ⟨hwin, hu⟩ := hw
  refine (Goal.wins_congr _ _ me c fun l hl => ?_).mp hwin
  refine merlin_agree O h.tidy.base (hq _ l hl) (fun w h1 h2 => ?_) f
  rcases h.prog _ w h1 h2 with h3 | ⟨s, hsm, h4⟩
  · exact (Goal.ends _ me c l hl).1 h3
  · obtain ⟨R, h5⟩ := h4 f
    exact hu s hsm (Goal.Separated.about _ me c s.1 _ R hwin (h5 ▸ hl))

/-! ## Steps -/

/-- The chance that the attack succeeds after the answers `S`. -/
noncomputable def real (O : Oracles) (hD : ∀ r, commitmentQuery r ∈ D) (me : PublicKey P) (x : Z) (S : TB)
    (ss : List (RealPhase P)) (A : Client (CosignRequest P) CosignAnswer α) : ℚ :=
  avg fun f : D → Arr 64 => val1 O hD me x (ov (Lk S.1) f) ss A

theorem real_le_one (O : Oracles) (hD : ∀ r, commitmentQuery r ∈ D) (me : PublicKey P) (x : Z) (A : Client (CosignRequest P) CosignAnswer α) (S : TB)
    (ss : List (RealPhase P)) : real O hD me x S ss A ≤ 1 := avg_le_const fun f => val1_le_one O hD me x A _ _

/-- The cost of settling a session. -/
def e3 (b N : Nat) : ℚ := (4 * b + 5 : Nat) * e1 N + 2 * N * guess + spare

theorem e3_nonneg (b N : Nat) : 0 ≤ e3 b N := by
  have hg := guess_nonneg
  have hsp := spare_nonneg
  have := e1_nonneg N
  unfold e3; positivity

/-- From paired states with enough budget, the attack succeeds as often in the simulation, up to `E` and the cost of settling
the sessions that wait. -/
def Close (O : Oracles) (hD : ∀ r, commitmentQuery r ∈ D) (T : Finset (List MOp)) (me : PublicKey P) (x : Z) (b N c : Nat) (E : ℚ)
    (A : Client (CosignRequest P) CosignAnswer α) : Prop :=
  ∀ n ns S ss ss', Paired O D T me x b n [] ns S ss ss' → n + waiting ss' * (4 * b + 6) + c ≤ N →
    real O hD me x S ss A ≤ val2 O D me x ns S ss' A + (E + waiting ss' * e3 b N)

section
variable (O : Oracles) (hD : ∀ r, commitmentQuery r ∈ D) (T : Finset (List MOp)) (me : PublicKey P) (x : Z) (b N : Nat)

theorem close_ret [Goal.Separated P α] (c : α) (hq : ∀ f : D → Arr 64, ∀ l ∈ Goal.queries (wideTable O D f) me c, l ∈ D) (k : Nat) :
    Close O hD T me x b N k 0 (.ret c) := by
  intro n ns S ss ss' h _
  have he := e3_nonneg b N
  have : real O hD me x S ss (.ret c) ≤ val2 O D me x ns S ss' (.ret c) := avg_mono fun f => ind_mono (win_forges O h c hq f)
  have : 0 ≤ (waiting ss' : ℚ) * e3 b N := by positivity
  linarith

theorem close_ask (q : List MOp) (hq : q ∈ D) (k : Arr 64 → Client (CosignRequest P) CosignAnswer α) (c : Nat) (E : ℚ) (hE : 0 ≤ E)
    (hk : ∀ w, Close O hD T me x b N c E (k w)) : Close O hD T me x b N (c + 1) (E + e1 N) (.ask q k) := by
  intro n ns S ss ss' h hn
  have e : real O hD me x S ss (.ask q k) = sample q S fun S => avg fun f : D → Arr 64 =>
      val1 O hD me x (ov (Lk S.1) f) ss (k ((wideTable O D (ov (Lk S.1) f)).merlin q 64)) :=
    avg_sample q hq S fun F => val1 O hD me x F ss (k ((wideTable O D F).merlin q 64))
  rw [e]
  have he3 := e3_nonneg b N
  have hw : 0 ≤ (waiting ss' : ℚ) * e3 b N := by positivity
  set E' : ℚ := E + waiting ss' * e3 b N with hE'
  have hk' : ∀ (S' : TB) n' w, Paired O D T me x b n' [] ns S' ss ss' → n' + waiting ss' * (4 * b + 6) + c ≤ N → S'.1.lookup q = some w →
      (avg fun f : D → Arr 64 => val1 O hD me x (ov (Lk S'.1) f) ss (k ((wideTable O D (ov (Lk S'.1) f)).merlin q 64))) ≤
      val2 O D me x ns S' ss' (k ((S'.1.oracle O).merlin q 64)) + E' := by
    intro S' n' w hp hn' hl
    simp only [wideTable_known O hq hl, oracle_known O hl]
    exact hk w n' ns S' ss ss' hp hn'
  have he := e1_nonneg N
  cases hl : S.1.lookup q with
  | some w =>
    rw [sample_known hl]
    show _ ≤ sample q S _ + _
    rw [sample_known hl]
    have := hk' S n w h (by omega) hl
    linarith
  | none =>
    refine le_trans (sample_le q S _ (fun S => val2 O D me x ns S ss' (k ((S.1.oracle O).merlin q 64)))
      (fun S => avg_le_const fun f => val1_le_one O hD me x _ _ _)
      (fun S => val2_nonneg O me x _ _ _ _) (fun w => pref w ∉ (exOf ss' ++ S.1.map fun e => pref e.2) ∧ residue w ≠ 0)
      (e1 N) E' (by positivity) hl (h.chance_bad (by omega)) ?_) ?_
    · rintro w ⟨hw1, hw2⟩
      exact hk' _ (n + 1) w (h.add q hq w hl hw1 hw2) (by omega) (lookup_cons_self q w S.1)
    · show _ ≤ sample q S _ + _
      linarith

theorem close_start (t : Transcript) (ht : t.log ∈ T) (k : CosignAnswer → Client (CosignRequest P) CosignAnswer α) (c : Nat) (E : ℚ) (hE : 0 ≤ E)
    (hk : ∀ a, Close O hD T me x b N c E (k a)) : Close O hD T me x b N (c + 1) (E + 2 * N * hit) (.request (.start t) k) := by
  intro n ns S ss ss' h hn
  have e : real O hD me x S ss (.request (.start t) k) = avg fun κ : Arr 64 =>
      real O hD me x S (ss ++ [.committing t κ]) (k (.commitment (pref κ))) := avg_comm _
  rw [e]
  have he3 := e3_nonneg b N
  have hw : 0 ≤ (waiting ss' : ℚ) * e3 b N := by positivity
  have h1 : ∀ κ : Arr 64, real O hD me x S (ss ++ [.committing t κ]) (k (.commitment (pref κ))) ≤
      (val2 O D me x ns S (ss' ++ [.committing t κ]) (k (.commitment (pref κ))) +
        ind (pref κ ∈ exOf ss' ++ S.1.map fun e => pref e.2)) + (E + waiting ss' * e3 b N) := by
    intro κ
    by_cases hκ : pref κ ∈ exOf ss' ++ S.1.map fun e => pref e.2
    · rw [show ind (pref κ ∈ exOf ss' ++ S.1.map fun e => pref e.2) = 1 from if_pos hκ]
      have := real_le_one O hD me x (k (.commitment (pref κ))) S (ss ++ [.committing t κ])
      have := val2_nonneg (D := D) O me x (k (.commitment (pref κ))) ns S (ss' ++ [.committing t κ])
      linarith
    · rw [show ind (pref κ ∈ exOf ss' ++ S.1.map fun e => pref e.2) = 0 from if_neg hκ, add_zero]
      have := hk (.commitment (pref κ)) (n + 1) ns S _ _ (h.start t ht κ hκ) (by rw [waiting_append]; omega)
      rwa [waiting_append] at this
  refine le_trans (avg_mono h1) ?_
  rw [avg_add, avg_add, avg_const (Ω := Arr 64), ← chance_eq_avg]
  have := h.chance_hit (N := N) (by omega)
  show _ ≤ (avg fun κ : Arr 64 => _) + _
  linarith

theorem close_cosign (i : Nat) (rs : List (P × Reveal)) (hrs : rs.length ≤ b) (k : CosignAnswer → Client (CosignRequest P) CosignAnswer α) (c : Nat) (E : ℚ)
    (hE : 0 ≤ E) (hk : ∀ a, Close O hD T me x b N c E (k a)) :
    Close O hD T me x b N (c + b) (E + b * e1 N) (.request (.cosign i rs) k) := by
  intro n ns S ss ss' h hn
  have he := e1_nonneg N
  have hb : 0 ≤ (b : ℚ) * e1 N := by positivity
  have he3 := e3_nonneg b N
  have hw : 0 ≤ (waiting ss' : ℚ) * e3 b N := by positivity
  rcases forall₂_get h.rel i with ⟨h1, h2⟩ | ⟨p, p', h1, h2, hr⟩
  · unfold real
    simp only [val1, val2, h1, h2]
    have := hk .refused n ns S ss ss' h (by omega)
    unfold real at this
    linarith
  cases hr with
  | committing t κ _ =>
    unfold real
    simp only [val1, val2, h1, h2]
    have := hk .refused n ns S ss ss' h (by omega)
    unfold real at this
    linarith
  | finished t coms =>
    unfold real
    simp only [val1, val2, h1, h2]
    have := hk .refused n ns S ss ss' h (by omega)
    unfold real at this
    linarith
  | revealing t v o coms _ _ _ _ ho hs =>
    unfold real
    simp only [val1, val2, h1, h2]
    set qs := rs.map fun e => commitmentQuery e.2 with hqs
    rw [avg_sampleAll qs (by
      intro q hq
      obtain ⟨e, -, rfl⟩ := List.mem_map.mp hq
      exact hD _) S fun F => val1 O hD me x F (ss.set i (.finished t coms)) (k (cosignAnswer (wideTable O D F) x me t v coms rs))]
    have hlen : qs.length = rs.length := by rw [hqs, List.length_map]
    refine le_trans (sampleAll_le N (e1 N) he (fun n S => Paired O D T me x b n [] ns S ss ss') (fun n S hp => hp.mono (by omega)) _
      (fun S => val2 O D me x ns S (ss'.set i (.finished t coms)) (k (fakeAnswer o rs)))
      (fun S => avg_le_const fun f => val1_le_one O hD me x _ _ _) (fun S => val2_nonneg O me x _ _ _ _) (E + waiting ss' * e3 b N)
      (by positivity) qs ?_ n S (by omega) h ?_) ?_
    · intro n' S' q hn' hp hq hl
      have hqD : q ∈ D := by
        obtain ⟨e, -, rfl⟩ := List.mem_map.mp hq
        exact hD _
      refine le_trans (chance_mono ?_) (hp.chance_bad (N := N) (by omega))
      intro w hw h'
      exact hw (hp.add q hqD w hl h'.1 h'.2)
    · intro S' hp _ hall
      have hrel := forall₂_get hp.rel i
      rw [h1, h2] at hrel
      rcases hrel with ⟨h', -⟩ | ⟨_, _, hh1, hh2, hr⟩
      · cases h'
      simp only [Option.some.injEq] at hh1 hh2
      subst hh1; subst hh2
      have hans : ∀ f : D → Arr 64, cosignAnswer (wideTable O D (ov (Lk S'.1) f)) x me t v coms rs = fakeAnswer o rs := by
        intro f
        cases hr with
        | revealing _ _ _ _ _ _ _ _ ho hs =>
          have hob := openBy_iff O hp.tidy coms rs (fun a ha => hall _ (List.mem_map.mpr ⟨a, ha, rfl⟩)) f
          unfold cosignAnswer fakeAnswer
          cases o with
          | none =>
            have ho := hp.strict i t coms h2 (by simp)
            have : openBy (wideTable O D (ov (Lk S'.1) f)) coms rs = none := by
              cases hh : openBy (wideTable O D (ov (Lk S'.1) f)) coms rs with
              | none => rfl
              | some es => rw [((hob es).mp hh).1] at ho; cases ho
            rw [this]
          | some oo =>
            obtain ⟨es, s⟩ := oo
            have ho := ho es s rfl
            by_cases hall' : allRevealed es rs
            · rw [(hob es).mpr ⟨ho, hall'⟩]
              simp only [if_pos hall']
              rw [hs es s rfl f]
            · have : openBy (wideTable O D (ov (Lk S'.1) f)) coms rs = none := by
                cases hh : openBy (wideTable O D (ov (Lk S'.1) f)) coms rs with
                | none => rfl
                | some es' =>
                  obtain ⟨g1, g2⟩ := (hob es').mp hh
                  rw [ho] at g1
                  simp only [Option.some.injEq] at g1
                  subst g1
                  exact absurd g2 hall'
              rw [this]
              simp only [if_neg hall']
      simp only [hans]
      have hwt := waiting_set h2 (.finished t coms)
      have hle : waiting (ss'.set i (.finished t coms)) ≤ waiting ss' := by
        have e0 : Phase.waits (.finished t coms : FakePhase P) = false := rfl
        rw [e0] at hwt
        simp only [Bool.false_eq_true, if_false, add_zero] at hwt
        omega
      have hle' : waiting (ss'.set i (.finished t coms)) * (4 * b + 6) ≤ waiting ss' * (4 * b + 6) := Nat.mul_le_mul_right _ hle
      have := hk (fakeAnswer o rs) _ ns S' _ _ (hp.finish i t v o coms h1 h2) (by omega)
      refine le_trans this ?_
      have hle'' : (waiting (ss'.set i (.finished t coms)) : ℚ) * e3 b N ≤ waiting ss' * e3 b N :=
        mul_le_mul_of_nonneg_right (by exact_mod_cast hle) he3
      linarith
    · have : (qs.length : ℚ) * e1 N ≤ b * e1 N := by
        refine mul_le_mul_of_nonneg_right ?_ he
        rw [hlen]
        exact_mod_cast hrs
      linarith

end

end Schnorrkel
