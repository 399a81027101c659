import Verif.Spec.RomMuSig
import Verif.Lemmas.RomFork
import Verif.Lemmas.RomWide
import Verif.Props.Fork

/-! # C68: aggregate keys cannot be controlled by rogue keys, in the random-oracle model -/

namespace Schnorrkel.Props
open Spec Schnorrkel
variable {P : Type} [Ristretto P] {D : Finset (List MOp)}

/-! ## The aggregate key -/

private theorem keyMap_eq (l : List (PublicKey P)) : keyMap l = insertAll (l.map fun k => (k, ())) := by
  unfold keyMap insertAll
  rw [List.foldl_map]

theorem cosigners_spec (l : List (PublicKey P)) (hl : ∀ k ∈ l, k.WF) :
    Increasing (cosigners l) ∧ ∀ k, k ∈ cosigners l ↔ k ∈ l := by
  obtain ⟨ks, h1, h2⟩ := increasing_list_exists l hl
  have : cosigners l = ks := by
    unfold cosigners
    rw [keyMap_eq]
    refine insertAll_keys _ ?_ ks h1 ?_
    · intro e he
      obtain ⟨k, hk, rfl⟩ := List.mem_map.mp he
      exact hl k hk
    · intro k
      rw [h2]
      simp
  rw [this]
  exact ⟨h1, h2⟩

private theorem jointKey_eq (O : Oracles) (l : List (PublicKey P)) :
    jointKey O l = PublicKey.fromPoint (aggregateWith O (cosigners l)) := by
  letI := O
  exact aggregatePoint_eq _

theorem cosigners_nodup {l : List (PublicKey P)} (hl : ∀ k ∈ l, k.WF) :
    ((cosigners l).map (·.compressed)).Nodup := by
  have h := cosigners_spec l hl
  refine List.Nodup.map_on ?_ (increasing_nodup h.1)
  intro a ha b hb e
  exact BMap.key_ext (hl a ((h.2 a).mp ha)) (hl b ((h.2 b).mp hb)) e

/-! ## Two runs that differ in one weight -/

/-- Any computation `B` against the hash that wins by controlling an aggregate key with `pk` among the cosigners. -/
private theorem weight_fork {β : Type} (O : Oracles) (pk : PublicKey P) (B : Algo β) (n : Nat) (hB : B.Within O D n)
    (win : Oracles → Prop) (keys : Oracles → List (PublicKey P)) (log : Oracles → Z)
    (hwin : ∀ f : D → Arr 64, win (table O D f) → ControlsJoint (table O D f) pk (keys (table O D f), log (table O D f)) ∧
      weightOf (keys (table O D f)) pk ∈ B.asked (table O D f)) :
    let ε := chance fun f : D → Arr 64 => win (table O D f)
    ε * (ε / n - guess) ≤ chance fun x : (D → Arr 64) × Arr 64 =>
      pk.point = weightExtract pk keys log (table O D x.1) x.2 • (basepoint : P) := by
  intro ε
  refine le_trans (forking_one O B n hB win (fun O => weightOf (keys O) pk) (fun f h => (hwin f h).2)) (chance_mono ?_)
  rintro ⟨f, v⟩ ⟨h1, h2, h3, h4⟩
  simp only at h1 h2 h3 h4
  obtain ⟨⟨hw, hm, hx⟩, hq⟩ := hwin f h1
  have hD := (hB f).2 _ hq
  rw [redraw_table O hD] at h2 h3
  obtain ⟨⟨hw', hm', hx'⟩, -⟩ := hwin _ h2
  rw [← redraw_table O hD] at h2 h3 hx' hw' hm'
  set O₁ := table O D f
  have hs := cosigners_spec _ hw
  have hs' := cosigners_spec _ hw'
  have hk : cosigners (keys (program O₁ (weightOf (keys O₁) pk) v)) = cosigners (keys O₁) := by
    have e := (weightQuery_injective h3).1
    have hinj : ∀ (l l' : List (PublicKey P)), (∀ k ∈ l, k.WF) → (∀ k ∈ l', k.WF) →
        l.map (·.compressed.1) = l'.map (·.compressed.1) → l = l' := by
      intro l
      induction l with
      | nil => intro l' _ _ h; cases l' with
        | nil => rfl
        | cons a l' => simp at h
      | cons a l ih =>
        intro l' h1 h2 h
        cases l' with
        | nil => simp at h
        | cons b l' =>
          simp only [List.map_cons, List.cons.injEq] at h
          rw [BMap.key_ext (h1 a (by simp)) (h2 b (by simp)) (Subtype.ext h.1),
            ih l' (fun k hk => h1 k (by simp [hk])) (fun k hk => h2 k (by simp [hk])) h.2]
    exact hinj _ _ (fun k hk => hw' k ((hs'.2 k).mp hk)) (fun k hk => hw k ((hs.2 k).mp hk)) e
  simp only at hx hx'
  rw [jointKey_eq] at hx hx'
  rw [hk] at hx'
  exact musig_weight_fork_extracts O₁ _ (cosigners_nodup hw) pk ((hs.2 pk).mpr hm) v _ _ h4 hx hx'

/-- **C68** rogue keys, random-oracle model.  Whoever can name a set of keys that includes `pk`, together with the
discrete logarithm of the aggregate key, with probability `ε`, can compute the secret key of `pk`: run it again with
only the weight of `pk` answered afresh, and divide; this succeeds with probability at least `ε(ε/(q+1) − guess)`. -/
theorem rogue_keys_random_oracle (O : Oracles) (pk : PublicKey P) (A : Algo (List (PublicKey P) × Z)) (q : Nat)
    (hA : A.Within O D q) (hD : ∀ f : D → Arr 64, weightOf (A.run (table O D f)).1 pk ∈ D) :
    let ε := chance fun f : D → Arr 64 => ControlsJoint (table O D f) pk (A.run (table O D f))
    ε * (ε / (q + 1 : Nat) - guess) ≤ chance fun x : (D → Arr 64) × Arr 64 =>
      pk.point = weightExtract pk (fun O => (A.run O).1) (fun O => (A.run O).2) (table O D x.1) x.2 • (basepoint : P) := by
  refine weight_fork O pk (A.bind fun c => .ask (weightOf c.1 pk) fun _ => .ret c) (q + 1) ?_
    (fun O => ControlsJoint O pk (A.run O)) _ _ ?_
  · intro f
    rw [Algo.asked_bind]
    obtain ⟨h1, h2⟩ := hA f
    refine ⟨by simpa [Algo.asked] using h1, fun l hl => ?_⟩
    rcases List.mem_append.mp hl with h | h
    · exact h2 l h
    · simp only [Algo.asked, List.mem_singleton] at h
      rw [h]; exact hD f
  · intro f h
    refine ⟨h, ?_⟩
    rw [Algo.asked_bind]
    simp [Algo.asked]

/-! ## Forged multi-signatures -/

/-- The aggregate point from answers to the weight queries. -/
private def pointOf (ks : List (PublicKey P)) (as : List (Arr 64)) : P :=
  (List.zipWith (fun (k : PublicKey P) a => residue a • k.point) ks as).sum

private theorem jointKey_answers (O : Oracles) (l : List (PublicKey P)) :
    jointKey O l = PublicKey.fromPoint (pointOf (cosigners l) (((cosigners l).map (weightOf l)).map (O.merlin · 64))) := by
  rw [jointKey_eq]
  congr 1
  show ((cosigners l).map fun k => hashWith O (weightOf l k) • k.point).sum = _
  unfold pointOf
  rw [List.map_map]
  congr 1
  generalize hks : cosigners l = ks
  have : ∀ ks : List (PublicKey P), (ks.map fun k => hashWith O (weightOf l k) • k.point) =
      List.zipWith (fun (k : PublicKey P) a => residue a • k.point) ks (ks.map ((fun x => O.merlin x 64) ∘ weightOf l)) := by
    intro ks
    induction ks with
    | nil => rfl
    | cons k ks ih =>
      simp only [List.map_cons, List.zipWith_cons_cons, ih]
      rfl
  exact this ks

/-- The forger, followed by all queries of the verification; returns also the challenge query. -/
private def withChecks (A : Algo (JointClaim P)) : Algo (JointClaim P × List MOp) :=
  A.bind fun c => (askAll ((cosigners c.keys).map (weightOf c.keys))).bind fun as =>
    let q := challengeOf (PublicKey.fromPoint (pointOf (cosigners c.keys) as)) c.t (c.sig.take 32)
    .ask q fun _ => .ret (c, q)

private theorem withChecks_run (O : Oracles) (A : Algo (JointClaim P)) :
    (withChecks A).run O = (A.run O, (A.run O).challenge O) := by
  unfold withChecks
  simp only [Algo.run_bind, (askAll_run _ _).1, Algo.run]
  unfold JointClaim.challenge
  rw [jointKey_answers]

private theorem withChecks_asked (O : Oracles) (A : Algo (JointClaim P)) :
    (withChecks A).asked O = A.asked O ++ (A.run O).queries O := by
  unfold withChecks
  simp only [Algo.asked_bind, (askAll_run _ _).1, (askAll_run _ _).2, Algo.asked]
  unfold JointClaim.queries JointClaim.challenge
  rw [jointKey_answers]

/-- Run with one query answered by `w`. -/
private def override {α : Type} (q : List MOp) (w : Arr 64) : Algo α → Algo α
  | .ret a => .ret a
  | .ask l k => if l = q then override q w (k w) else .ask l fun a => override q w (k a)

private theorem override_run {α : Type} (O : Oracles) (q : List MOp) (w : Arr 64) (A : Algo α) :
    (override q w A).run O = A.run (program O q w) ∧
    ((override q w A).asked O).length ≤ (A.asked (program O q w)).length ∧
    ∀ l ∈ (override q w A).asked O, l ∈ A.asked (program O q w) := by
  induction A with
  | ret a => exact ⟨rfl, le_rfl, fun l h => h⟩
  | ask l k ih =>
    unfold override
    by_cases h : l = q
    · subst h
      rw [if_pos rfl]
      simp only [Algo.run, Algo.asked, program_hit]
      obtain ⟨h1, h2, h3⟩ := ih w
      exact ⟨h1, by simp only [List.length_cons]; omega, fun l hl => List.mem_cons_of_mem _ (h3 l hl)⟩
    · rw [if_neg h]
      simp only [Algo.run, Algo.asked, program_miss _ _ _ _ _ h]
      obtain ⟨h1, h2, h3⟩ := ih (O.merlin l 64)
      refine ⟨h1, by simp only [List.length_cons]; omega, fun l' hl => ?_⟩
      rcases List.mem_cons.mp hl with h | h
      · rw [h]; exact List.mem_cons_self
      · exact List.mem_cons_of_mem _ (h3 _ h)

/-- Averaging the bound of a fork. -/
theorem fork_avg {Ω : Type} [Finite Ω] (p F : Ω → ℚ) (n δ : ℚ) (hn : 0 < n) (h : ∀ ω, p ω * (p ω / n - guess) ≤ F ω)
    (h0 : ∀ ω, 0 ≤ F ω) (hδ : 0 ≤ δ) (hp : δ ≤ avg p) : δ * (δ / n - guess) ≤ avg F := by
  have hg := guess_nonneg
  have hF : 0 ≤ avg F := avg_nonneg h0
  by_cases hc : δ / n ≤ guess
  · exact le_trans (mul_nonpos_of_nonneg_of_nonpos hδ (by linarith)) hF
  have h3 : 0 ≤ δ / n - guess := by linarith
  have h4 : δ / n ≤ avg p / n := by gcongr
  have h5 : (avg fun ω => p ω * (p ω / n - guess)) = (avg fun ω => p ω ^ 2) * (1 / n) + avg p * (-guess) := by
    rw [← avg_mul_const, ← avg_mul_const, ← avg_add]
    exact avg_congr fun ω => by ring
  have h6 := mul_le_mul_of_nonneg_right (sq_avg_le p) (show 0 ≤ 1 / n by positivity)
  calc δ * (δ / n - guess) ≤ avg p * (avg p / n - guess) := mul_le_mul hp (by linarith) h3 (by linarith)
    _ = avg p ^ 2 * (1 / n) + avg p * (-guess) := by ring
    _ ≤ avg fun ω => p ω * (p ω / n - guess) := by rw [h5]; linarith
    _ ≤ avg F := avg_mono h

private theorem forges_challenge {O : Oracles} {pk : PublicKey P} {c : JointClaim P} (h : c.Forges O pk) :
    ∃ σ, Signature.fromBytes c.sig = .ok σ ∧ verifyWith O (jointKey O c.keys) c.t σ = .ok () ∧
      c.challenge O = challengeOf (jointKey O c.keys) c.t σ.R.1 ∧ responseOf c.sig = σ.s.toZ := by
  obtain ⟨-, -, σ, h1, h2⟩ := h
  obtain ⟨-, hR, -, -⟩ := (signature_from_bytes_ok_iff c.sig σ).mp h1
  refine ⟨σ, h1, h2, ?_, ?_⟩
  · unfold JointClaim.challenge; rw [hR]
  · unfold responseOf; rw [h1]

/-- Two runs of a forger that both succeed and differ only in the answer to the challenge. -/
private def forked (pk : PublicKey P) (A : Algo (JointClaim P)) (w : Arr 64) (O : Oracles) : Prop :=
  (A.run O).Forges O pk ∧ (A.run (program O ((A.run O).challenge O) w)).Forges (program O ((A.run O).challenge O) w) pk ∧
    (A.run (program O ((A.run O).challenge O) w)).challenge (program O ((A.run O).challenge O) w) = (A.run O).challenge O ∧
    residue w ≠ hashWith O ((A.run O).challenge O)

section
variable (O : Oracles) (pk : PublicKey P) (A : Algo (JointClaim P)) (q m : Nat) (hA : A.Within O D q)
  (hD : ∀ f : D → Arr 64, (cosigners (A.run (table O D f)).keys).length ≤ m ∧
      ∀ l ∈ (A.run (table O D f)).queries (table O D f), l ∈ D)

include hA hD in
private theorem withChecks_within : (withChecks A).Within O D (q + m + 1) := by
  intro f
  rw [withChecks_asked]
  obtain ⟨h1, h2⟩ := hA f
  obtain ⟨h3, h4⟩ := hD f
  refine ⟨?_, fun l hl => (List.mem_append.mp hl).elim (h2 l) (h4 l)⟩
  simp only [JointClaim.queries, List.length_append, List.length_map, List.length_singleton]
  omega

private theorem withChecks_challenge (f : D → Arr 64) : (A.run (table O D f)).challenge (table O D f) ∈ (withChecks A).asked (table O D f) := by
  rw [withChecks_asked]
  simp [JointClaim.queries]

include hA hD in
/-- The first fork. -/
private theorem joint_fork_one :
    (chance fun f : D → Arr 64 => (A.run (table O D f)).Forges (table O D f) pk) *
      ((chance fun f : D → Arr 64 => (A.run (table O D f)).Forges (table O D f) pk) / (q + m + 1 : Nat) - guess) ≤
      avg fun w => chance fun f : D → Arr 64 => forked pk A w (table O D f) := by
  refine le_trans (forking_one O (withChecks A) (q + m + 1) (withChecks_within O A q m hA hD) (fun O => (A.run O).Forges O pk)
    (fun O => (A.run O).challenge O) (fun f _ => withChecks_challenge O A f)) (le_of_eq ?_)
  rw [chance_eq_avg, avg_prod, avg_comm]
  exact avg_congr fun w => (chance_eq_avg _).symm

include hA hD in
/-- The second fork. -/
private theorem joint_fork_two (w : Arr 64) :
    (chance fun f : D → Arr 64 => forked pk A w (table O D f)) *
      ((chance fun f : D → Arr 64 => forked pk A w (table O D f)) / (2 * ((q + m + 1 : Nat) : ℚ)) - guess) ≤
      chance fun x : (D → Arr 64) × Arr 64 => pk.point = extractMember pk A (table O D x.1) w x.2 • (basepoint : P) := by
  have hB := withChecks_within O A q m hA hD
  have hq := withChecks_challenge (D := D) O A
  let tq : Oracles → List MOp := fun O => (A.run O).challenge O
  have h2 := weight_fork (D := D) O pk ((withChecks A).bind fun r => (override r.2 w (withChecks A)).bind fun r' => .ret (r, r'))
    (2 * (q + m + 1)) ?_ (forked pk A w) (fun O => (A.run O).keys) (jointLog A w) ?_
  · simp only [Nat.cast_mul, Nat.cast_ofNat] at h2
    exact h2
  · intro f
    simp only [Algo.asked_bind, withChecks_run, Algo.asked, List.append_nil]
    obtain ⟨-, o2, o3⟩ := override_run (table O D f) (tq (table O D f)) w (withChecks A)
    have hm := (hB f).2 _ (hq f)
    rw [redraw_table O hm] at o2 o3
    obtain ⟨b1, b2⟩ := hB f
    obtain ⟨b3, b4⟩ := hB (Function.update f ⟨_, hm⟩ w)
    refine ⟨?_, fun l hl => (List.mem_append.mp hl).elim (b2 l) fun h => b4 l (o3 l h)⟩
    rw [List.length_append]
    have : ((override ((A.run (table O D f)).challenge (table O D f)) w (withChecks A)).asked (table O D f)).length ≤
      q + m + 1 := le_trans o2 b3
    omega
  · rintro f ⟨g1, g2, g3, g4⟩
    have hw := g1.1
    have hpk := g1.2.1
    refine ⟨⟨hw, hpk, ?_⟩, ?_⟩
    · obtain ⟨σ, -, v1, c1, r1⟩ := forges_challenge g1
      obtain ⟨σ', -, v2, c2, r2⟩ := forges_challenge g2
      have e : challengeOf (jointKey (program (table O D f) (tq (table O D f)) w)
          (A.run (program (table O D f) (tq (table O D f)) w)).keys)
          (A.run (program (table O D f) (tq (table O D f)) w)).t σ'.R.1 =
          challengeOf (jointKey (table O D f) (A.run (table O D f)).keys) (A.run (table O D f)).t σ.R.1 :=
        c2.symm.trans (g3.trans c1)
      obtain ⟨e1, e2, e3⟩ := signature_query_inj e
      have hX : jointKey (program (table O D f) (tq (table O D f)) w)
          (A.run (program (table O D f) (tq (table O D f)) w)).keys = jointKey (table O D f) (A.run (table O D f)).keys := by
        rw [jointKey_eq, jointKey_eq] at e2 ⊢
        have : compress (aggregateWith (program (table O D f) (tq (table O D f)) w) (cosigners
          (A.run (program (table O D f) (tq (table O D f)) w)).keys)) = compress (aggregateWith (table O D f)
          (cosigners (A.run (table O D f)).keys)) := Subtype.ext e2
        rw [compress_inj.mp this]
      have ht : (A.run (program (table O D f) (tq (table O D f)) w)).t = (A.run (table O D f)).t := by
        cases h : (A.run (program (table O D f) (tq (table O D f)) w)).t
        cases h' : (A.run (table O D f)).t
        simp only [h, h'] at e1
        rw [e1]
      have hR : σ'.R = σ.R := Subtype.ext e3
      rw [hX, ht, show σ' = ⟨σ.R, σ'.s⟩ by rw [← hR]] at v2
      have hc : tq (table O D f) = (Use.signature (A.run (table O D f)).t.log
        (jointKey (table O D f) (A.run (table O D f)).keys).compressed.1 σ.R.1).query := c1
      have hne := g4
      have := (signature_fork_extracts (table O D f) (program (table O D f) (tq (table O D f)) w) _ _ σ.s σ'.s σ.R v1 v2
        (by rw [← hc, hashWith_hit]; exact fun e => g4 e.symm)).1
      rw [← hc, hashWith_hit] at this
      show (jointKey (table O D f) (A.run (table O D f)).keys).point = jointLog A w (table O D f) • (basepoint : P)
      rw [this]
      unfold jointLog
      simp only
      rw [show (A.run (table O D f)).challenge (table O D f) = tq (table O D f) from rfl, r1, r2]
    · rw [Algo.asked_bind, withChecks_asked]
      refine List.mem_append_left _ (List.mem_append_right _ (List.mem_append_left _ ?_))
      exact List.mem_map_of_mem ((((cosigners_spec _ hw).2 pk).mpr hpk))

end

/-- **C68** The same for an attacker that draws coins. -/
theorem joint_forgery_coins {Ω : Type} [Finite Ω] (O : Oracles) (pk : PublicKey P) (A : Ω → Algo (JointClaim P)) (q m : Nat)
    (hA : ∀ ω, (A ω).Within O D q)
    (hD : ∀ (ω : Ω) (f : D → Arr 64), (cosigners ((A ω).run (table O D f)).keys).length ≤ m ∧
      ∀ l ∈ ((A ω).run (table O D f)).queries (table O D f), l ∈ D)
    (ε : ℚ) (hε : 0 ≤ ε) (hp : ε ≤ avg fun ω => chance fun f : D → Arr 64 => ((A ω).run (table O D f)).Forges (table O D f) pk) :
    let n : ℚ := (q + m + 1 : Nat)
    let δ := ε * (ε / n - guess)
    0 ≤ δ →
    δ * (δ / (2 * n) - guess) ≤ avg fun ω => chance fun x : Arr 64 × ((D → Arr 64) × Arr 64) =>
      pk.point = extractMember pk (A ω) (table O D x.2.1) x.1 x.2.2 • (basepoint : P) := by
  intro n δ hδ
  have hn : 0 < n := by simp only [n]; positivity
  have h1 : δ ≤ avg fun ω => avg fun w => chance fun f : D → Arr 64 => forked pk (A ω) w (table O D f) :=
    fork_avg _ _ n ε hn (fun ω => joint_fork_one O pk (A ω) q m (hA ω) (hD ω))
      (fun ω => avg_nonneg fun w => by rw [chance_eq_avg]; exact avg_nonneg fun _ => ind_nonneg _) hε hp
  rw [← avg_prod (fun p : Ω × Arr 64 => chance fun f : D → Arr 64 => forked pk (A p.1) p.2 (table O D f))] at h1
  have h2 := fork_avg _ _ (2 * n) δ (by linarith) (fun p : Ω × Arr 64 => joint_fork_two O pk (A p.1) q m (hA p.1) (hD p.1) p.2)
    (fun p => by rw [chance_eq_avg]; exact avg_nonneg fun _ => ind_nonneg _) hδ h1
  refine le_trans h2 (le_of_eq ?_)
  rw [avg_prod]
  refine avg_congr fun ω => ?_
  rw [chance_eq_avg, avg_prod]
  exact avg_congr fun w => chance_eq_avg _

/-- **C68** multi-signatures cannot be forged without the honest key, random-oracle model, without signing queries.
Take any attacker with at most `q` hash queries who names a set of keys that includes `pk`, at most `m` of them chosen by
itself in any way, and a signature that verifies under their aggregate key, with probability `ε`.  Then the explicit
procedure `extractMember`, four runs of the attacker and some arithmetic, finds the secret key of `pk` with probability
at least `δ(δ/2n − guess)` where `δ = ε(ε/n − guess)` and `n = q + m + 1`. -/
theorem joint_forgery_random_oracle (O : Oracles) (pk : PublicKey P) (A : Algo (JointClaim P)) (q m : Nat)
    (hA : A.Within O D q)
    (hD : ∀ f : D → Arr 64, (cosigners (A.run (table O D f)).keys).length ≤ m ∧
      ∀ l ∈ (A.run (table O D f)).queries (table O D f), l ∈ D) :
    let n : ℚ := (q + m + 1 : Nat)
    let ε := chance fun f : D → Arr 64 => (A.run (table O D f)).Forges (table O D f) pk
    let δ := ε * (ε / n - guess)
    0 ≤ δ →
    δ * (δ / (2 * n) - guess) ≤ chance fun x : Arr 64 × ((D → Arr 64) × Arr 64) =>
      pk.point = extractMember pk A (table O D x.2.1) x.1 x.2.2 • (basepoint : P) := by
  intro n ε δ hδ
  have h := joint_forgery_coins (D := D) (Ω := Unit) O pk (fun _ => A) q m (fun _ => hA) (fun _ => hD) ε
    (by simp only [ε]; rw [chance_eq_avg]; exact avg_nonneg fun _ => ind_nonneg _) (by rw [avg_const]) hδ
  rw [avg_const] at h
  exact h

/-! ### The hypotheses can be met -/

/-- Non-vacuity: every attacker meets the hypotheses of `joint_forgery_random_oracle` for some `D`, `q` and `m`. -/
example (O : Oracles) (A : Algo (JointClaim P)) : ∃ (D : Finset (List MOp)) (q m : Nat), A.Within O D q ∧
    ∀ f : D → Arr 64, (cosigners (A.run (table O D f)).keys).length ≤ m ∧
      ∀ l ∈ (A.run (table O D f)).queries (table O D f), l ∈ D := by
  obtain ⟨D, n, h⟩ := exists_within (withChecks A)
  refine ⟨D, n, n, fun f => ?_, fun f => ?_⟩ <;> obtain ⟨h1, h2⟩ := h (table O D f) <;>
    rw [withChecks_asked] at h1 h2 <;> rw [List.length_append] at h1
  · exact ⟨by omega, fun q hq => h2 q (List.mem_append_left _ hq)⟩
  · refine ⟨?_, fun q hq => h2 q (List.mem_append_right _ hq)⟩
    simp only [JointClaim.queries, List.length_append, List.length_map] at h1
    omega

/-- An attacker who knows all secret keys computes the logarithm of the aggregate key from the weights. -/
def allInsiders (l : List (PublicKey P)) (secret : PublicKey P → Z) : Algo (List (PublicKey P) × Z) :=
  (askAll ((cosigners l).map (weightOf l))).bind fun as =>
    .ret (l, (List.zipWith (fun k a => residue a * secret k) (cosigners l) as).sum)

/-- Non-vacuity: it wins for every hash function, so `ε = 1` in `rogue_keys_random_oracle` is possible. -/
example (O : Oracles) (l : List (PublicKey P)) (hl : ∀ k ∈ l, k.WF) (pk : PublicKey P) (hpk : pk ∈ l)
    (secret : PublicKey P → Z) (hs : ∀ k ∈ l, k.point = secret k • (basepoint : P)) (D : Finset (List MOp)) :
    (chance fun f : D → Arr 64 => ControlsJoint (table O D f) pk ((allInsiders l secret).run (table O D f))) = 1 := by
  have h : ∀ f : D → Arr 64, ControlsJoint (table O D f) pk ((allInsiders l secret).run (table O D f)) := by
    intro f
    unfold allInsiders
    simp only [Algo.run_bind, (askAll_run _ _).1, Algo.run]
    refine ⟨hl, hpk, ?_⟩
    rw [jointKey_answers]
    show pointOf _ _ = _
    unfold pointOf
    have hc : ∀ k ∈ cosigners l, k.point = secret k • (basepoint : P) := fun k hk =>
      hs k (((cosigners_spec l hl).2 k).mp hk)
    have : ∀ (ks : List (PublicKey P)) (as : List (Arr 64)), (∀ k ∈ ks, k.point = secret k • (basepoint : P)) →
        (List.zipWith (fun (k : PublicKey P) a => residue a • k.point) ks as).sum =
        (List.zipWith (fun k a => residue a * secret k) ks as).sum • (basepoint : P) := by
      intro ks
      induction ks with
      | nil => intro as _; simp
      | cons k ks ih =>
        intro as hk
        cases as with
        | nil => simp
        | cons a as =>
          simp only [List.zipWith_cons_cons, List.sum_cons, add_smul, mul_smul]
          rw [ih as fun k' h' => hk k' (List.mem_cons_of_mem _ h'), hk k List.mem_cons_self]
    exact this _ _ hc
  rw [chance_eq_avg]
  simp only [ind, h, if_true]
  exact avg_const 1

end Schnorrkel.Props
