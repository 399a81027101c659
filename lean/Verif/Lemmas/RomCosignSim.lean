import Verif.Lemmas.RomCosignCore

/-! # Running the simulated attack -/

namespace Schnorrkel
open Spec Schnorrkel.Props
variable {P : Type} [Ristretto P] {D : Finset (List MOp)} {α : Type} [Goal P α] {fin : α → Prop}

/-- Whatever is not known has not been answered. -/
def Base (S : TB) : Prop := ∀ q, S.1.lookup q = none → S.2.lookup q = none

theorem Base.cons {S : TB} (h : Base S) (q : List MOp) (w : Arr 64) : Base ((q, w) :: S.1, S.2) := by
  intro q' hq'
  by_cases hqq : q' = q
  · subst hqq
    rw [show (((q', w) :: S.1, S.2) : TB).1 = (q', w) :: S.1 from rfl, lookup_cons_self] at hq'
    cases hq'
  · rw [show (((q, w) :: S.1, S.2) : TB).1 = (q, w) :: S.1 from rfl, lookup_cons_ne hqq] at hq'
    exact h q' hq'

theorem Base.add {S : TB} (h : Base S) (q : List MOp) (w : Arr 64) : Base (S.add q w) := by
  intro q' hq'
  by_cases hqq : q' = q
  · subst hqq
    rw [show (S.add q' w).1 = (q', w) :: S.1 from rfl, lookup_cons_self] at hq'
    cases hq'
  · rw [show (S.add q w).1 = (q, w) :: S.1 from rfl, lookup_cons_ne hqq] at hq'
    rw [show (S.add q w).2 = (q, w) :: S.2 from rfl, lookup_cons_ne hqq]
    exact h q' hq'

theorem sample_congr {q : List MOp} {S : TB} (h : Base S) {φ ψ : TB → ℚ} (hφ : ∀ S, Base S → (∃ w, S.1.lookup q = some w) → φ S = ψ S) :
    sample q S φ = sample q S ψ := by
  cases hl : S.1.lookup q with
  | some w => rw [sample_known hl, sample_known hl]; exact hφ S h ⟨w, hl⟩
  | none =>
    rw [sample_new hl, sample_new hl]
    exact avg_congr fun w => hφ _ (h.add q w) ⟨w, lookup_cons_self q w S.1⟩

theorem sampleAll_congr (qs : List (List MOp)) {φ ψ : TB → ℚ} (hφ : ∀ S, Base S → φ S = ψ S) :
    ∀ {S : TB}, Base S → sampleAll qs S φ = sampleAll qs S ψ := by
  induction qs with
  | nil => intro S h; exact hφ S h
  | cons q qs ih => intro S h; exact sample_congr h fun S hS _ => ih hS

/-- The hash functions after the answers `S`. -/
def after (O : Oracles) (D : Finset (List MOp)) (S : TB) (f : D → Arr 64) : Oracles := wideTable O D (ov (Lk S.2) f)

theorem avg_learn {α : Type} (O : Oracles) (q : List MOp) (hq : q ∈ D) (k : Known → Algo α) (Ψ : α → Oracles → ℚ) {S : TB} (h : Base S) :
    (avg fun f : D → Arr 64 => Ψ (((S.1.learn q).bind k).run (after O D S f)) (after O D S f)) =
      sample q S fun S => avg fun f : D → Arr 64 => Ψ ((k S.1).run (after O D S f)) (after O D S f) := by
  unfold Known.learn
  cases hl : S.1.lookup q with
  | some w => rw [sample_known hl]; rfl
  | none =>
    rw [sample_new hl]
    simp only [Algo.bind, Algo.run]
    unfold after
    have h2 := h q hl
    have := avg_ov (Lk S.2 : D → Option (Arr 64)) ⟨q, hq⟩ h2 fun F =>
      Ψ ((k ((q, (wideTable O D F).merlin q 64) :: S.1)).run (wideTable O D F)) (wideTable O D F)
    rw [this]
    refine avg_congr fun w => avg_congr fun f => ?_
    have e : (Function.update (Lk S.2) ⟨q, hq⟩ (some w) : D → Option (Arr 64)) = Lk ((q, w) :: S.2) := (Lk_cons q hq w S.2).symm
    rw [e, wideTable_known O hq (lookup_cons_self q w S.2)]
    rfl

theorem avg_learnAll {α : Type} (O : Oracles) (k : Known → Algo α) (Ψ : α → Oracles → ℚ) (qs : List (List MOp)) (hq : ∀ q ∈ qs, q ∈ D) :
    ∀ {S : TB}, Base S → (avg fun f : D → Arr 64 => Ψ (((S.1.learnAll qs).bind k).run (after O D S f)) (after O D S f)) =
      sampleAll qs S fun S => avg fun f : D → Arr 64 => Ψ ((k S.1).run (after O D S f)) (after O D S f) := by
  induction qs with
  | nil => intro S h; rfl
  | cons q qs ih =>
    intro S h
    have e : ∀ f : D → Arr 64, ((S.1.learnAll (q :: qs)).bind k).run (after O D S f) =
        ((S.1.learn q).bind fun tab => (tab.learnAll qs).bind k).run (after O D S f) := by
      intro f
      simp only [Known.learnAll, Algo.run_bind]
    simp only [e]
    rw [avg_learn O q (hq q (by simp)) _ Ψ h]
    exact sample_congr h fun S hS _ => ih (fun q hq' => hq q (by simp [hq'])) hS

theorem avg_fakeSettle {α : Type} (O : Oracles) (me : PublicKey P) (t : Transcript) (c : (Fin 3 → Arr 64) × Arr 64)
    (es : View P) (b : Nat) (hlen : es.length ≤ b)
    (hwD : ∀ ks : List (PublicKey P), ks.length ≤ b + 1 → ∀ q ∈ weightQueries ks, q ∈ D)
    (hcD : ∀ V : View P, V.length ≤ b + 1 → ∀ (agg : P) (k : PublicKey P), ∀ j < 3, coeffOf t agg V k j ∈ D)
    (k : Known × (View P × Scalar) → Algo α) (Ψ : α → Oracles → ℚ) {S : TB} (h1 : Base S) :
    (avg fun f : D → Arr 64 => Ψ (((fakeSettle O me t c es S.1).bind k).run (after O D S f)) (after O D S f)) =
      sampleOne O me t c es S fun S o => avg fun f : D → Arr 64 => Ψ ((k (S.1, o)).run (after O D S f)) (after O D S f) := by
  unfold fakeSettle sampleOne
  simp only
  set own := fakePoints me c
  set V : View P := BMap.set es me own with hV
  have hVl : V.length ≤ b + 1 := by
    refine (length_set_le es me own).trans ?_
    omega
  have hVk : V.keys.length ≤ b + 1 := by
    unfold View.keys
    rw [List.length_map]; exact hVl
  simp only [Algo.run_bind]
  have e1 := avg_learnAll (D := D) O (fun tab₂ => ((tab₂.learnAll (coeffQueries me t (aggO (tab₂.oracle O) V.keys) V)).bind fun tab₃ =>
    (.ret ((challengeOf (PublicKey.fromPoint (aggO (tab₂.oracle O) V.keys)) t (compress (nonceO (tab₃.oracle O) t V)).1,
      rescale ((coeffO (tab₃.oracle O) t V me.compressed).headD 0 / hashWith (tab₃.oracle O) (ownWeight me V)) c.2) :: tab₃,
      (es, Scalar.ofZ (List.zipWith (· * ·) (coeffO (tab₃.oracle O) t V me.compressed)
        [residue (c.1 0), residue (c.1 1), residue (c.1 2)]).sum)) : Algo (Known × (View P × Scalar)))).bind k) Ψ
    (weightQueries V.keys) (hwD _ hVk) h1
  simp only [Algo.run_bind] at e1
  refine Eq.trans e1 (sampleAll_congr _ (fun S₂ h2 => ?_) h1)
  have e2 := avg_learnAll (D := D) O (fun tab₃ =>
    k ((challengeOf (PublicKey.fromPoint (aggO (S₂.1.oracle O) V.keys)) t (compress (nonceO (tab₃.oracle O) t V)).1,
      rescale ((coeffO (tab₃.oracle O) t V me.compressed).headD 0 / hashWith (tab₃.oracle O) (ownWeight me V)) c.2) :: tab₃,
      (es, Scalar.ofZ (List.zipWith (· * ·) (coeffO (tab₃.oracle O) t V me.compressed)
        [residue (c.1 0), residue (c.1 1), residue (c.1 2)]).sum))) Ψ
    (coeffQueries me t (aggO (S₂.1.oracle O) V.keys) V) (by
      intro q hq
      unfold coeffQueries at hq
      rcases List.mem_append.mp hq with hq | hq
      · obtain ⟨⟨e, -, j, hj, rfl⟩, -⟩ := mem_otherCoeffs.mp hq
        exact hcD V hVl _ _ j hj
      · rw [List.mem_singleton] at hq
        rw [hq]
        exact hcD V hVl _ _ 0 (by omega)) h2
  simp only [Algo.run_bind] at e2
  exact e2

/-- A session that has not revealed. -/
def Unrevealed (ss : List (FakePhase P)) (k : Nat) : Prop := ∀ p, ss[k]? = some p → ∃ t κ, p = .committing t κ

theorem sample_mono {q : List MOp} {S : TB} (h : Base S) {φ ψ : TB → ℚ} (hφ : ∀ S, Base S → (∃ w, S.1.lookup q = some w) → φ S ≤ ψ S) :
    sample q S φ ≤ sample q S ψ := by
  cases hl : S.1.lookup q with
  | some w => rw [sample_known hl, sample_known hl]; exact hφ S h ⟨w, hl⟩
  | none =>
    rw [sample_new hl, sample_new hl]
    exact avg_mono fun w => hφ _ (h.add q w) ⟨w, lookup_cons_self q w S.1⟩

theorem sampleAll_mono (qs : List (List MOp)) {φ ψ : TB → ℚ} (hφ : ∀ S, Base S → φ S ≤ ψ S) :
    ∀ {S : TB}, Base S → sampleAll qs S φ ≤ sampleAll qs S ψ := by
  induction qs with
  | nil => intro S h; exact hφ S h
  | cons q qs ih => intro S h; exact sample_mono h fun S hS _ => ih hS

theorem sampleOne_mono {O : Oracles} {me : PublicKey P} {t : Transcript} {c : (Fin 3 → Arr 64) × Arr 64}
    {es : View P} {S : TB} (h : Base S) {φ ψ : TB → View P × Scalar → ℚ}
    (hφ : ∀ S o, Base S → φ S o ≤ ψ S o) :
    sampleOne O me t c es S φ ≤ sampleOne O me t c es S ψ :=
  sampleAll_mono _ (fun S₂ h2 => sampleAll_mono _ (fun S₃ h3 => hφ _ _ (h3.cons _ _)) h2) h

theorem sampleOne_avg {Ω : Type} [Finite Ω] [Nonempty Ω] (O : Oracles) (me : PublicKey P) (t : Transcript)
    (c : (Fin 3 → Arr 64) × Arr 64) (es : View P) (S : TB) (φ : Ω → TB → View P × Scalar → ℚ) :
    (avg fun a => sampleOne O me t c es S (φ a)) = sampleOne O me t c es S fun S o => avg fun a => φ a S o := by
  unfold sampleOne
  simp only
  rw [sampleAll_avg]
  simp only [sampleAll_avg]

theorem sim_cosign_step (O : Oracles) (me : PublicKey P) {m : Nat} (C : CosignCoins m) (tab : Known) (ss : List (FakePhase P)) (i : Nat)
    (rs : List (P × Reveal)) (k : CosignAnswer → Client (CosignRequest P) CosignAnswer α) {t : Transcript} {o : Option (View P × Scalar)} {coms : BMap P Commitment}
    (h : ss[i]? = some (.revealing t o coms)) :
    simulateCosign O me C tab ss (.request (.cosign i rs) k) = (tab.learnAll (rs.map fun e => commitmentQuery e.2)).bind fun tab =>
      simulateCosign O me C tab (ss.set i (.finished t coms)) (k (fakeAnswer o rs)) := by
  simp only [simulateCosign, h]
  rfl

theorem val2_cosign_step (O : Oracles) (me : PublicKey P) (x : Z) (ns : Nat → Fin 3 → Arr 64) (S : TB) (ss : List (FakePhase P)) (i : Nat)
    (rs : List (P × Reveal)) (k : CosignAnswer → Client (CosignRequest P) CosignAnswer α) {t : Transcript} {o : Option (View P × Scalar)} {coms : BMap P Commitment}
    (h : ss[i]? = some (.revealing t o coms)) :
    val2 O D me x ns S ss (.request (.cosign i rs) k) = sampleAll (rs.map fun e => commitmentQuery e.2) S fun S =>
      val2 O D me x ns S (ss.set i (.finished t coms)) (k (fakeAnswer o rs)) := by
  simp only [val2, h]

section
variable (O : Oracles) (T : Finset (List MOp)) (me : PublicKey P) (x : Z) (b g : Nat) {m : Nat}

/-- The coins of simulated sessions, from real nonces `vs`. -/
def coinsOf (x : Z) {m : Nat} (vs : Fin m → Fin 3 → Arr 64) (ws : Fin m → Arr 64) : Fin m → (Fin 3 → Arr 64) × Arr 64 :=
  fun k => (shifted x (ws k) (vs k), ws k)

/-- The chance that a simulated attack succeeds, when some of the coins have been used. -/
noncomputable def simRun (L : Fin m → Option (Arr 64)) (M : Fin m → Option (Fin 3 → Arr 64)) (Z : Fin m → Option (Arr 64)) (S : TB)
    (B : CosignCoins m → Known → Algo α) : ℚ :=
  avg fun κs : Fin m → Arr 64 => avg fun vs : Fin m → Fin 3 → Arr 64 => avg fun ws : Fin m → Arr 64 => avg fun f : D → Arr 64 =>
    ind (Goal.Wins (after O D S f) me ((B (ov L κs, coinsOf x (ov M vs) (ov Z ws)) S.1).run (after O D S f)))

/-- The chance that the simulated attack succeeds, when some of the coins have been used. -/
noncomputable def simVal (L : Fin m → Option (Arr 64)) (M : Fin m → Option (Fin 3 → Arr 64)) (Z : Fin m → Option (Arr 64)) (S : TB)
    (ss : List (FakePhase P)) (A : Client (CosignRequest P) CosignAnswer α) : ℚ :=
  simRun (D := D) O me x L M Z S fun C tab => simulateCosign O me C tab ss A

variable {O me x} in
theorem simRun_nonneg (L : Fin m → Option (Arr 64)) (M : Fin m → Option (Fin 3 → Arr 64)) (Z : Fin m → Option (Arr 64)) (S : TB)
    (B : CosignCoins m → Known → Algo α) : 0 ≤ simRun (D := D) O me x L M Z S B :=
  avg_nonneg fun _ => avg_nonneg fun _ => avg_nonneg fun _ => avg_nonneg fun _ => ind_nonneg _

theorem simRun_learnAll (L : Fin m → Option (Arr 64)) (M : Fin m → Option (Fin 3 → Arr 64)) (Z : Fin m → Option (Arr 64)) {S : TB} (h : Base S)
    (qs : List (List MOp)) (hq : ∀ q ∈ qs, q ∈ D) (B : CosignCoins m → Known → Algo α) :
    simRun (D := D) O me x L M Z S (fun C tab => (tab.learnAll qs).bind (B C)) =
      sampleAll qs S fun S => simRun (D := D) O me x L M Z S B := by
  unfold simRun
  refine Eq.trans (avg_congr fun κs => avg_congr fun vs => avg_congr fun ws => avg_learnAll (D := D) O
    (B (ov L κs, coinsOf x (ov M vs) (ov Z ws))) (fun (c : α) O' => ind (Goal.Wins O' me c)) qs hq h) ?_
  simp only [sampleAll_avg]

theorem simRun_learn (L : Fin m → Option (Arr 64)) (M : Fin m → Option (Fin 3 → Arr 64)) (Z : Fin m → Option (Arr 64)) {S : TB} (h : Base S)
    (q : List MOp) (hq : q ∈ D) (B : CosignCoins m → Known → Algo α) :
    simRun (D := D) O me x L M Z S (fun C tab => (tab.learn q).bind (B C)) =
      sample q S fun S => simRun (D := D) O me x L M Z S B := by
  unfold simRun
  refine Eq.trans (avg_congr fun κs => avg_congr fun vs => avg_congr fun ws => avg_learn (D := D) O q hq
    (B (ov L κs, coinsOf x (ov M vs) (ov Z ws))) (fun (c : α) O' => ind (Goal.Wins O' me c)) h) ?_
  simp only [sample_avg]

theorem simRun_settle (L : Fin m → Option (Arr 64)) (M : Fin m → Option (Fin 3 → Arr 64)) (Z : Fin m → Option (Arr 64)) {S : TB} (h : Base S)
    (j : Fin m) (v : Fin 3 → Arr 64) (hM : M j = some v) (hZ : Z j = none) (t : Transcript) (es : View P) (hlen : es.length ≤ b)
    (hwD : ∀ ks : List (PublicKey P), ks.length ≤ b + 1 → ∀ q ∈ weightQueries ks, q ∈ D)
    (hcD : ∀ V : View P, V.length ≤ b + 1 → ∀ (agg : P) (k : PublicKey P), ∀ j < 3, coeffOf t agg V k j ∈ D)
    (B : View P × Scalar → CosignCoins m → Known → Algo α) :
    simRun (D := D) O me x L M Z S (fun C tab => (fakeSettle O me t (C.2 j) es tab).bind fun r => B r.2 C r.1) =
      avg fun w : Arr 64 => sampleOne O me t (shifted x w v, w) es S fun S o =>
        simRun (D := D) O me x L M (Function.update Z j (some w)) S (B o) := by
  have e1 : ∀ (κs : Fin m → Arr 64) (vs : Fin m → Fin 3 → Arr 64), (avg fun ws : Fin m → Arr 64 => avg fun f : D → Arr 64 =>
      ind (Goal.Wins (after O D S f) me (((fakeSettle O me t (coinsOf x (ov M vs) (ov Z ws) j) es S.1).bind fun r => B r.2 (ov L κs, coinsOf x (ov M vs) (ov Z ws)) r.1).run
        (after O D S f)))) =
      avg fun w : Arr 64 => sampleOne O me t (shifted x w v, w) es S fun S o => avg fun ws : Fin m → Arr 64 => avg fun f : D → Arr 64 =>
        ind (Goal.Wins (after O D S f) me ((B o (ov L κs, coinsOf x (ov M vs) (ov (Function.update Z j (some w)) ws)) S.1).run (after O D S f))) := by
    intro κs vs
    have := avg_ov Z j hZ fun F => avg fun f : D → Arr 64 =>
      ind (Goal.Wins (after O D S f) me (((fakeSettle O me t (coinsOf x (ov M vs) F j) es S.1).bind fun r => B r.2 (ov L κs, coinsOf x (ov M vs) F) r.1).run
        (after O D S f)))
    refine Eq.trans this (avg_congr fun w => ?_)
    have e : ∀ ws : Fin m → Arr 64, coinsOf x (ov M vs) (ov (Function.update Z j (some w)) ws) j = (shifted x w v, w) := fun ws => by
      unfold coinsOf
      rw [ov_of_some _ _ _ _ (Function.update_self _ _ _), ov_of_some _ _ _ _ hM]
    simp only [e]
    rw [← sampleOne_avg]
    refine avg_congr fun ws => ?_
    exact avg_fakeSettle (D := D) O me t (shifted x w v, w) es b hlen hwD hcD
      (fun r => B r.2 (ov L κs, coinsOf x (ov M vs) (ov (Function.update Z j (some w)) ws)) r.1)
      (fun (c : α) O' => ind (Goal.Wins O' me c)) h
  unfold simRun
  refine Eq.trans (avg_congr fun κs => avg_congr fun vs => e1 κs vs) ?_
  refine Eq.trans (avg_congr fun κs => avg_comm _) ?_
  rw [avg_comm]
  refine avg_congr fun w => ?_
  simp only [sampleOne_avg]

/-- What is known about the coins. -/
structure Coins (ns : Nat → Fin 3 → Arr 64) (L : Fin m → Option (Arr 64)) (M : Fin m → Option (Fin 3 → Arr 64)) (Z : Fin m → Option (Arr 64))
    (ss : List (FakePhase P)) : Prop where
  tr : ∀ t κ, .committing t κ ∈ ss → t.log ∈ T
  late : ∀ k : Fin m, ss.length ≤ k.1 → L k = none
  unrev : ∀ k : Fin m, Unrevealed ss k.1 → M k = none ∧ Z k = none
  wait : ∀ (k : Fin m) t coms, ss[k.1]? = some (.revealing t none coms) → t.log ∈ T ∧ coms.length ≤ b ∧ M k = some (ns k) ∧ Z k = none

variable {T b} in
theorem Coins.settle {ns : Nat → Fin 3 → Arr 64} {L : Fin m → Option (Arr 64)} {M : Fin m → Option (Fin 3 → Arr 64)} {Z : Fin m → Option (Arr 64)}
    {ss : List (FakePhase P)} (h : Coins T b ns L M Z ss) (j : Fin m) (w : Arr 64) {t : Transcript} {coms : BMap P Commitment}
    (hj : ss[j.1]? = some (.revealing t none coms)) (o : View P × Scalar) :
    Coins T b ns L M (Function.update Z j (some w)) (ss.set j.1 (.revealing t (some o) coms)) := by
  refine ⟨?_, ?_, ?_, ?_⟩
  · intro t' κ' hm
    rcases List.mem_or_eq_of_mem_set hm with h' | h'
    · exact h.tr t' κ' h'
    · cases h'
  · intro k hk
    rw [List.length_set] at hk
    exact h.late k hk
  · intro k hk
    by_cases hkj : k = j
    · subst hkj
      obtain ⟨t', κ', h'⟩ := hk (.revealing t (some o) coms) (by simp [(List.getElem?_eq_some_iff.mp hj).1])
      cases h'
    · rw [Function.update_of_ne hkj]
      refine h.unrev k fun p hp => hk p ?_
      rw [List.getElem?_set_ne (fun h' => hkj (Fin.ext h'.symm))]
      exact hp
  · intro k t' coms' hk
    rcases get_set hk with ⟨h1, h2⟩ | ⟨h1, h2⟩
    · cases h2
    · rw [Function.update_of_ne (fun h' => h1 (congrArg Fin.val h'))]
      exact h.wait k t' coms' h2

theorem sim_settle (ns : Nat → Fin 3 → Arr 64)
    (hwD : ∀ ks : List (PublicKey P), ks.length ≤ b + 1 → ∀ q ∈ weightQueries ks, q ∈ D)
    (hcD : ∀ t : Transcript, t.log ∈ T → ∀ V : View P, V.length ≤ b + 1 → ∀ (agg : P) (k : PublicKey P), ∀ j < 3, coeffOf t agg V k j ∈ D)
    (A : Client (CosignRequest P) CosignAnswer α) (l : Nat) (hl : l ≤ m) (L : Fin m → Option (Arr 64)) (M : Fin m → Option (Fin 3 → Arr 64))
    (hA : ∀ Z S ss, ss.length = l → Base S → Coins (m := m) T b ns L M Z ss → val2 O D me x ns S ss A ≤ simVal (D := D) O me x L M Z S ss A)
    (js : List Nat) : ∀ Z S ss, ss.length = l → Base S → Coins (m := m) T b ns L M Z ss →
      sampleSettle O me x ns (fun S ss => val2 O D me x ns S ss A) js S ss ≤
        simRun (D := D) O me x L M Z S fun C tab => (settleAll O me C js tab ss).bind fun r => simulateCosign O me C r.1 r.2 A := by
  induction js with
  | nil => exact hA
  | cons j js ih =>
    intro Z S ss hss hS hC
    simp only [sampleSettle]
    cases hr : ripe S.1 ss j with
    | none =>
      have e : (simRun (D := D) O me x L M Z S fun C tab => (settleAll O me C (j :: js) tab ss).bind fun r => simulateCosign O me C r.1 r.2 A) =
          simRun (D := D) O me x L M Z S fun C tab => (settleAll O me C js tab ss).bind fun r => simulateCosign O me C r.1 r.2 A := by
        unfold simRun
        simp only [settleAll, hr]
      rw [e]
      exact ih Z S ss hss hS hC
    | some p =>
      obtain ⟨t, coms, es⟩ := p
      obtain ⟨hj, ho⟩ := ripe_eq_some.mp hr
      have hlt : j < m := by
        have := (List.getElem?_eq_some_iff.mp hj).1
        omega
      obtain ⟨ht, hlen, hM, hZ⟩ := hC.wait ⟨j, hlt⟩ t coms hj
      have e : (simRun (D := D) O me x L M Z S fun C tab => (settleAll O me C (j :: js) tab ss).bind fun r => simulateCosign O me C r.1 r.2 A) =
          simRun (D := D) O me x L M Z S fun C tab => (fakeSettle O me t (C.2 ⟨j, hlt⟩) es tab).bind fun r =>
            (settleAll O me C js r.1 (ss.set j (.revealing t (some r.2) coms))).bind fun r => simulateCosign O me C r.1 r.2 A := by
        unfold simRun
        simp only [settleAll, hr, dif_pos hlt, Algo.run_bind]
      rw [e, simRun_settle O me x b L M Z hS ⟨j, hlt⟩ (ns j) hM hZ t es (by
        have : es.length = coms.length := by simpa using congrArg List.length (openings_keys ho)
        omega) hwD (hcD t ht)
        (fun o C tab => (settleAll O me C js tab (ss.set j (.revealing t (some o) coms))).bind fun r => simulateCosign O me C r.1 r.2 A)]
      refine avg_mono fun w => sampleOne_mono hS fun S' o hS' => ?_
      exact ih _ S' _ (by rw [List.length_set]; exact hss) hS' (hC.settle ⟨j, hlt⟩ w hj o)

theorem simVal_ge (hx : me.point = x • (basepoint : P)) (hD : ∀ r, commitmentQuery r ∈ D)
    (hwD : ∀ ks : List (PublicKey P), ks.length ≤ b + 1 → ∀ q ∈ weightQueries ks, q ∈ D)
    (hcD : ∀ t : Transcript, t.log ∈ T → ∀ V : View P, V.length ≤ b + 1 → ∀ (agg : P) (k : PublicKey P), ∀ j < 3, coeffOf t agg V k j ∈ D)
    (A : Client (CosignRequest P) CosignAnswer α) : ∀ (q m' r : Nat) (ns : Nat → Fin 3 → Arr 64) (L : Fin m → Option (Arr 64)) (M : Fin m → Option (Fin 3 → Arr 64))
      (Z : Fin m → Option (Arr 64)) (S : TB) (ss : List (FakePhase P)), SessionBounded D T b fin q m' r A → ss.length + m' ≤ m → Base S →
      Coins T b ns L M Z ss → val2 O D me x ns S ss A ≤ simVal (D := D) O me x L M Z S ss A := by
  induction A with
  | ret c =>
    intro q m' r ns L M Z S ss _ _ _ _
    unfold simVal simRun
    simp only [simulateCosign, Algo.run, val2]
    rw [avg_const (Ω := Fin m → Arr 64), avg_const (Ω := Fin m → Fin 3 → Arr 64), avg_const (Ω := Fin m → Arr 64)]
    exact le_refl _
  | ask l k ih =>
    intro q m' r ns L M Z S ss hb hm hS hC
    obtain ⟨hl, q', rfl, hk⟩ := hb
    unfold simVal
    simp only [simulateCosign, val2]
    rw [simRun_learn O me x L M Z hS l hl fun C tab => simulateCosign O me C tab ss (k ((tab.oracle O).merlin l 64))]
    refine sample_mono hS fun S' hS' _ => ?_
    exact ih _ q' m' r ns L M Z S' ss (hk _) hm hS' hC
  | request rq k ih =>
    intro q m' r ns L M Z S ss hb hm hS hC
    cases rq with
    | start t =>
      obtain ⟨ht, m'', rfl, hk⟩ := hb
      have hlt : ss.length < m := by omega
      unfold simVal simRun
      simp only [simulateCosign, val2, dif_pos hlt]
      have := avg_ov L ⟨ss.length, hlt⟩ (hC.late _ (le_refl _)) fun F => avg fun vs : Fin m → Fin 3 → Arr 64 => avg fun ws : Fin m → Arr 64 =>
        avg fun f : D → Arr 64 =>
        ind (Goal.Wins (after O D S f) me ((simulateCosign O me (F, coinsOf x (ov M vs) (ov Z ws)) S.1 (ss ++ [.committing t (F ⟨ss.length, hlt⟩)])
          (k (.commitment (pref (F ⟨ss.length, hlt⟩))))).run (after O D S f)))
      refine le_trans (avg_mono fun κ => ?_) (ge_of_eq this)
      have e : ∀ κs : Fin m → Arr 64, ov (Function.update L ⟨ss.length, hlt⟩ (some κ)) κs ⟨ss.length, hlt⟩ = κ := fun κs =>
        ov_of_some _ _ _ _ (Function.update_self _ _ _)
      simp only [e]
      refine ih _ q m'' r ns _ M Z S _ (hk _) (by simp only [List.length_append, List.length_singleton]; omega) hS ⟨?_, ?_, ?_, ?_⟩
      · intro t' κ' hmem
        rcases List.mem_append.mp hmem with h | h
        · exact hC.tr t' κ' h
        · rw [List.mem_singleton] at h
          cases h; exact ht
      · intro k' hk'
        rw [List.length_append, List.length_singleton] at hk'
        rw [Function.update_of_ne]
        · exact hC.late k' (by omega)
        · rintro rfl
          simp at hk'
      · intro k' hk'
        refine hC.unrev k' fun p hp => hk' p ?_
        rw [List.getElem?_append_left (List.getElem?_eq_some_iff.mp hp).1]
        exact hp
      · intro k' t' coms' hk'
        rcases Nat.lt_or_ge k'.1 ss.length with h | h
        · rw [List.getElem?_append_left h] at hk'
          exact hC.wait k' t' coms' hk'
        · rw [List.getElem?_append_right h] at hk'
          have := List.mem_of_getElem? hk'
          simp at this
    | reveal i cs =>
      obtain ⟨hcs, r', rfl, hk⟩ := hb
      unfold simVal simRun
      simp only [simulateCosign, val2]
      cases hi : ss[i]? with
      | none => exact ih _ q m' r' ns L M Z S ss (hk _) hm hS hC
      | some p =>
        cases p with
        | revealing t o coms => exact ih _ q m' r' ns L M Z S ss (hk _) hm hS hC
        | finished t coms => exact ih _ q m' r' ns L M Z S ss (hk _) hm hS hC
        | committing t κ =>
          have hlti := (List.getElem?_eq_some_iff.mp hi).1
          have hlt : i < m := by omega
          simp only [dif_pos hlt]
          have ht : t.log ∈ T := hC.tr t κ (List.mem_of_getElem? hi)
          obtain ⟨hMi, hZi⟩ := hC.unrev ⟨i, hlt⟩ fun p hp' => ⟨t, κ, by rw [hi] at hp'; cases hp'; rfl⟩
          have hco : (registered me cs).length ≤ b := (registered_ok me cs).len.trans hcs
          set coms := registered me cs with hcoms
          have e1 : ∀ κs : Fin m → Arr 64, (avg fun vs : Fin m → Fin 3 → Arr 64 => avg fun ws : Fin m → Arr 64 => avg fun f : D → Arr 64 =>
              ind (Goal.Wins (after O D S f) me (((settleAll O me (ov L κs, coinsOf x (ov M vs) (ov Z ws)) (List.range ss.length)
                  ((commitmentQuery (fakePoints me (coinsOf x (ov M vs) (ov Z ws) ⟨i, hlt⟩)).toReveal, κ) :: S.1)
                  (ss.set i (.revealing t none coms))).bind fun r =>
                simulateCosign O me (ov L κs, coinsOf x (ov M vs) (ov Z ws)) r.1 r.2
                  (k (.reveal (fakePoints me (coinsOf x (ov M vs) (ov Z ws) ⟨i, hlt⟩)).toReveal))).run
                  (after O D S f)))) =
              avg fun v : Fin 3 → Arr 64 => avg fun vs : Fin m → Fin 3 → Arr 64 => avg fun ws : Fin m → Arr 64 => avg fun f : D → Arr 64 =>
              ind (Goal.Wins (after O D S f) me (((settleAll O me (ov L κs, coinsOf x (ov (Function.update M ⟨i, hlt⟩ (some v)) vs) (ov Z ws)) (List.range ss.length)
                  ((commitmentQuery (fakePoints me (shifted x (ov Z ws ⟨i, hlt⟩) v, ov Z ws ⟨i, hlt⟩)).toReveal, κ) :: S.1)
                  (ss.set i (.revealing t none coms))).bind fun r =>
                simulateCosign O me (ov L κs, coinsOf x (ov (Function.update M ⟨i, hlt⟩ (some v)) vs) (ov Z ws)) r.1 r.2
                  (k (.reveal (fakePoints me (shifted x (ov Z ws ⟨i, hlt⟩) v, ov Z ws ⟨i, hlt⟩)).toReveal))).run
                  (after O D S f))) := by
            intro κs
            have := avg_ov M ⟨i, hlt⟩ hMi fun F => avg fun ws : Fin m → Arr 64 => avg fun f : D → Arr 64 =>
              ind (Goal.Wins (after O D S f) me (((settleAll O me (ov L κs, coinsOf x F (ov Z ws)) (List.range ss.length)
                  ((commitmentQuery (fakePoints me (coinsOf x F (ov Z ws) ⟨i, hlt⟩)).toReveal, κ) :: S.1)
                  (ss.set i (.revealing t none coms))).bind fun r =>
                simulateCosign O me (ov L κs, coinsOf x F (ov Z ws)) r.1 r.2
                  (k (.reveal (fakePoints me (coinsOf x F (ov Z ws) ⟨i, hlt⟩)).toReveal))).run
                  (after O D S f)))
            refine Eq.trans this (avg_congr fun v => ?_)
            have e : ∀ (vs : Fin m → Fin 3 → Arr 64) (ws : Fin m → Arr 64),
                coinsOf x (ov (Function.update M ⟨i, hlt⟩ (some v)) vs) (ov Z ws) ⟨i, hlt⟩ = (shifted x (ov Z ws ⟨i, hlt⟩) v, ov Z ws ⟨i, hlt⟩) :=
              fun vs ws => by
                unfold coinsOf
                have e0 : ov (Function.update M ⟨i, hlt⟩ (some v)) vs ⟨i, hlt⟩ = v := ov_of_some _ _ _ _ (Function.update_self _ _ _)
                rw [e0]
            simp only [e]
          refine le_trans ?_ (ge_of_eq (avg_congr e1))
          rw [avg_comm]
          refine avg_mono fun v => ?_
          by_cases hv : Beyond (v 0)
          · rw [if_pos hv]
            exact avg_nonneg fun _ => avg_nonneg fun _ => avg_nonneg fun _ => avg_nonneg fun _ => ind_nonneg _
          rw [if_neg hv]
          simp only [fakePoints_shifted hx v hv]
          rw [← nonceReveal_eq]
          refine sim_settle O T me x b (Function.update ns i v) hwD hcD (k (.reveal (nonceReveal P v))) ss.length (by omega) L
            (Function.update M ⟨i, hlt⟩ (some v)) (fun Z' S' ss' hl' hS' hC' => ih _ q m' r' _ L _ Z' S' ss' (hk _) (by omega) hS' hC')
            (List.range ss.length) Z ((commitmentQuery (nonceReveal P v), κ) :: S.1, S.2) (ss.set i (.revealing t none coms))
            (List.length_set ..) (hS.cons _ _) ⟨?_, ?_, ?_, ?_⟩
          · intro t' κ' hmem
            rcases List.mem_or_eq_of_mem_set hmem with h | h
            · exact hC.tr t' κ' h
            · cases h
          · intro k' hk'
            rw [List.length_set] at hk'
            exact hC.late k' hk'
          · intro k' hk'
            by_cases hki : k' = ⟨i, hlt⟩
            · subst hki
              obtain ⟨t', κ', h'⟩ := hk' (.revealing t none coms) (by simp [hlti])
              cases h'
            · rw [Function.update_of_ne hki]
              refine hC.unrev k' fun p hp => hk' p ?_
              rw [List.getElem?_set_ne]
              · exact hp
              · intro h; exact hki (Fin.ext h.symm)
          · intro k' t' coms' hk'
            rcases get_set hk' with ⟨h1, h2⟩ | ⟨h1, h2⟩
            · cases h2
              have : k' = ⟨i, hlt⟩ := Fin.ext h1
              subst this
              exact ⟨ht, hco, by rw [Function.update_self, Function.update_self], hZi⟩
            · obtain ⟨g1, g2, g3, g4⟩ := hC.wait k' t' coms' h2
              refine ⟨g1, g2, ?_, g4⟩
              rw [Function.update_of_ne (fun h' => h1 (congrArg Fin.val h')), Function.update_of_ne h1]
              exact g3
    | cosign i rs =>
      obtain ⟨hrs, r', rfl, hk⟩ := hb
      cases hi : ss[i]? with
      | none =>
        unfold simVal simRun
        simp only [simulateCosign, val2, hi]
        exact ih _ q m' r' ns L M Z S ss (hk _) hm hS hC
      | some p =>
        cases p with
        | committing t κ =>
          unfold simVal simRun
          simp only [simulateCosign, val2, hi]
          exact ih _ q m' r' ns L M Z S ss (hk _) hm hS hC
        | finished t coms =>
          unfold simVal simRun
          simp only [simulateCosign, val2, hi]
          exact ih _ q m' r' ns L M Z S ss (hk _) hm hS hC
        | revealing t o coms =>
          have hqD : ∀ q ∈ rs.map fun e => commitmentQuery e.2, q ∈ D := by
            intro q hq
            obtain ⟨e, -, rfl⟩ := List.mem_map.mp hq
            exact hD _
          unfold simVal
          simp only [sim_cosign_step O me _ _ ss i rs k hi, val2_cosign_step O me x ns S ss i rs k hi]
          rw [simRun_learnAll O me x L M Z hS _ hqD fun C tab => simulateCosign O me C tab (ss.set i (.finished t coms)) (k (fakeAnswer o rs))]
          refine sampleAll_mono _ (fun S' hS' => ?_) hS
          have hlti := (List.getElem?_eq_some_iff.mp hi).1
          refine ih _ q m' r' ns L M Z S' (ss.set i (.finished t coms)) (hk _) (by rw [List.length_set]; exact hm) hS' ⟨?_, ?_, ?_, ?_⟩
          · intro t' κ' hmem
            rcases List.mem_or_eq_of_mem_set hmem with h | h
            · exact hC.tr t' κ' h
            · cases h
          · intro k' hk'
            rw [List.length_set] at hk'
            exact hC.late k' hk'
          · intro k' hk'
            refine hC.unrev k' fun p hp => ?_
            by_cases hki : k'.1 = i
            · obtain ⟨t', κ', h'⟩ := hk' (.finished t coms) (by rw [hki]; simp [hlti])
              cases h'
            · refine hk' p ?_
              rw [List.getElem?_set_ne]
              · exact hp
              · exact fun h => hki h.symm
          · intro k' t' coms' hk'
            rcases get_set hk' with ⟨-, h2⟩ | ⟨-, h2⟩
            · cases h2
            · exact hC.wait k' t' coms' h2

/-- The coins can be drawn either way. -/
theorem avg_coins (φ : (Fin m → (Fin 3 → Arr 64) × Arr 64) → ℚ) :
    (avg fun vs : Fin m → Fin 3 → Arr 64 => avg fun ws : Fin m → Arr 64 => φ (coinsOf x vs ws)) = avg φ := by
  rw [avg_comm]
  have e : ∀ ws : Fin m → Arr 64, (avg fun vs : Fin m → Fin 3 → Arr 64 => φ (coinsOf x vs ws)) =
      avg fun vs : Fin m → Fin 3 → Arr 64 => φ fun k => (vs k, ws k) := by
    intro ws
    have := avg_equiv (Equiv.piCongrRight fun k => shiftedEquiv x (ws k)) fun vs : Fin m → Fin 3 → Arr 64 => φ fun k => (vs k, ws k)
    rw [← this]
    refine avg_congr fun vs => congrArg φ (funext fun k => ?_)
    unfold coinsOf
    rw [Equiv.piCongrRight_apply, Pi.map_apply, shiftedEquiv_apply]
  rw [avg_congr e, avg_comm]
  have h2 := avg_prod fun p : (Fin m → Fin 3 → Arr 64) × (Fin m → Arr 64) => φ fun k => (p.1 k, p.2 k)
  have h3 := avg_equiv (Equiv.arrowProdEquivProdArrow (Fin m) (fun _ => Fin 3 → Arr 64) (fun _ => Arr 64)).symm φ
  rw [← h3]
  exact h2.symm

end

end Schnorrkel
