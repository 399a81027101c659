import Verif.Lemmas.RomCosignCore
import Verif.Lemmas.RomCosignClaim
import Verif.Lemmas.RomCosignHide
import Verif.Lemmas.RomCosignPlay
import Verif.Lemmas.RomCosignWithin
import Verif.Props.RomMuSig
import Mathlib.Data.Set.List
import Mathlib.Data.Set.Finite.List
import Mathlib.Data.Finite.Sum

/-! # C82: a cosigner in many concurrent sessions, in the random-oracle model -/

namespace Schnorrkel.Props
open Spec Schnorrkel
variable {P : Type} [Ristretto P] {D : Finset (List MOp)}

/-! ## The queries in `D` -/

section
variable {T : Finset (List MOp)} {b m : Nat} {sys : Rng} (h : CosignCovers D T b m sys)
include h

theorem covers_weight (ks : List (PublicKey P)) (hk : ks.length ≤ b + 1) : ∀ q ∈ weightQueries ks, q ∈ D := by
  intro q hq
  obtain ⟨k, -, rfl⟩ := List.mem_map.mp hq
  have := h.weight (ks.map (·.compressed)) k.compressed (by rw [List.length_map]; exact hk)
  rw [List.map_map] at this
  exact this

theorem covers_coeff (t : Transcript) (ht : t.log ∈ T) (V : View P) (hV : V.length ≤ b + 1) (agg : P) (k : PublicKey P) :
    ∀ j < 3, coeffOf t agg V k j ∈ D := by
  intro j hj
  have := h.coeff t.log ht (compress agg) (V.map fun e => (e.1.compressed, e.2.pts.1.map compress)) k.compressed j hj
    (by rw [List.length_map]; exact hV) (by
      intro e he
      obtain ⟨e', -, rfl⟩ := List.mem_map.mp he
      simp only [List.length_map]
      exact e'.2.pts.2)
  rw [List.map_map] at this
  unfold coeffOf
  simpa only [Function.comp_def, List.map_map] using this

theorem covers_challenge (t : Transcript) (ht : t.log ∈ T) (agg R : P) : challengeOf (PublicKey.fromPoint agg) t (compress R).1 ∈ D :=
  h.challenge t.log ht (compress agg) (compress R)

end

/-! ## From the crate to the simulation -/

section
variable (O : Oracles) (T : Finset (List MOp)) (b g q m r : Nat) (A : CosignAttacker P) (x : Scalar) (sys : Rng)

/-- The query for a nonce. -/
def nonceQ (T : Finset (List MOp)) (m : Nat) (sys : Rng) (s : Arr 32) (y : (T × Fin m) × Fin 3) : List MOp :=
  musigNonceQuery y.1.1.1 s.1 y.2 (drawOf sys y.1.2 y.2).1

theorem nonceQ_inj (hs : NoRepeat sys m) (s s' : Arr 32) (y y' : (T × Fin m) × Fin 3) (h : nonceQ T m sys s y = nonceQ T m sys s' y') :
    s = s' ∧ y = y' := by
  obtain ⟨⟨t, k⟩, j⟩ := y
  obtain ⟨⟨t', k'⟩, j'⟩ := y'
  obtain ⟨h1, h2, h3, h4⟩ := (musig_nonce_query_injective _ _ _ _ _ _ _ _ (by have := j.2; omega) (by have := j'.2; omega)).mp h
  simp only at h1 h3 h4
  have hj : j = j' := Fin.ext h3
  subst hj
  have hk := hs j j.2 k k.2 k' k'.2 (Subtype.ext h4)
  exact ⟨Subtype.ext h2, Prod.ext (Prod.ext (Subtype.ext h1) (Fin.ext hk)) rfl⟩

private theorem forges_le (hA : CosignBounded O D T b g q m r A) (hC : CosignCovers D T b m sys) (hs : NoRepeat sys m) (me : PublicKey P)
    (hme : ∀ s, ((SecretKey.mk x s).toPublic : PublicKey P) = me) :
    (chance fun y : Arr 32 × (D → Arr 64) => ForgesJoint (wideTable O D y.2) ((SecretKey.mk x y.1).toKeypair : Keypair P) sys A) ≤
      (avg fun f : D → Arr 64 => avg fun N : Fin m → Fin 3 → Arr 64 => ind (WinN (wideTable O D f) N me x.toZ [] A)) + q / 2 ^ 256 := by
  have hin : ∀ s y, nonceQ T m sys s y ∈ D := by
    rintro s ⟨⟨t, k⟩, j⟩
    have := hC.nonce t.1 t.2 s j j.2 k k.2
    have e : (Use.musigNonce t.1 s.1 j (drawOf sys k j).1).query = nonceQ T m sys s ((t, k), j) := by
      simp [Use.query, witnessQuery, nonceQ, musigNonceQuery]
    rw [← e]
    exact this
  have hinj : ∀ s, Function.Injective (nonceQ T m sys s) := fun s y y' h => (nonceQ_inj T m sys hs s s y y' h).2
  let cur : ((T × Fin m) × Fin 3 → Arr 64) ≃ (T × Fin m → Fin 3 → Arr 64) := Equiv.curry (T × Fin m) (Fin 3) (Arr 64)
  rw [chance_eq_avg, avg_prod]
  have h1 : ∀ s : Arr 32, (avg fun f : D → Arr 64 => ind (ForgesJoint (wideTable O D f) ((SecretKey.mk x s).toKeypair : Keypair P) sys A)) ≤
      avg fun f : D → Arr 64 => avg fun w : (T × Fin m) × Fin 3 → Arr 64 =>
        ind (WinS (wideTable O D (withKeyed (nonceQ T m sys s) f w)) (nvOf (cur w)) me x.toZ [] A) := by
    intro s
    rw [avg_withKeyed (nonceQ T m sys s) (hinj s) (hin s)]
    refine avg_mono fun f => avg_mono fun w => ind_mono ?_
    rintro ⟨w1, w2⟩
    have := play_win (D := D) O (wideTable O D (withKeyed (nonceQ T m sys s) f w)) T b g m ((SecretKey.mk x s).toKeypair : Keypair P) rfl sys (nvOf (cur w)) (by
      intro t k ht hk j
      have hq := wideTable_keyed64 O (nonceQ T m sys s) (hinj s) f w ((⟨t.log, ht⟩, ⟨k, hk⟩), j) (hin s _)
      unfold nvOf
      rw [dif_pos ⟨ht, hk⟩]
      exact hq.symm) A q m r (Owner.new sys) [] hA (by simp) rfl (by simp [Owner.new]) List.Forall₂.nil (by
        intro s hs; simp [revealedIn] at hs) w1 (by
        rintro ⟨t', a'⟩ hs' ⟨rfl, rfl⟩
        exact w2 hs')
    rw [← hme s]
    exact this
  have h2 : ∀ (f : D → Arr 64) (w : (T × Fin m) × Fin 3 → Arr 64), (avg fun s : Arr 32 =>
      ind (WinS (wideTable O D (withKeyed (nonceQ T m sys s) f w)) (nvOf (cur w)) me x.toZ [] A)) ≤
      ind (WinS (wideTable O D f) (nvOf (cur w)) me x.toZ [] A) + q / 2 ^ 256 := by
    intro f w
    refine seed_step O T b g (nonceQ T m sys) (fun s y s' y' h => (nonceQ_inj T m sys hs s s' y y' h).1) ?_ _ me x.toZ f w A q m r [] hA
    intro s y
    exact isPrf_musigNonceQuery _ _ _ _
  have h3 : ∀ f : D → Arr 64, (avg fun w : (T × Fin m) × Fin 3 → Arr 64 => ind (WinS (wideTable O D f) (nvOf (cur w)) me x.toZ [] A)) =
      avg fun N : Fin m → Fin 3 → Arr 64 => ind (WinN (wideTable O D f) N me x.toZ [] A) := by
    intro f
    rw [avg_equiv cur (fun w => ind (WinS (wideTable O D f) (nvOf w) me x.toZ [] A))]
    exact draw_step (D := D) O (wideTable O D f) T b g m me x.toZ A q m r (fun _ => none) (fun _ => none) [] [] hA (by simp) List.Forall₂.nil
      (fun _ _ => rfl) (fun _ _ => rfl)
  refine le_trans (avg_mono h1) ?_
  rw [avg_comm]
  have h4 : (avg fun f : D → Arr 64 => avg fun s : Arr 32 => avg fun w : (T × Fin m) × Fin 3 → Arr 64 =>
        ind (WinS (wideTable O D (withKeyed (nonceQ T m sys s) f w)) (nvOf (cur w)) me x.toZ [] A)) ≤
      avg fun f : D → Arr 64 => (avg fun N : Fin m → Fin 3 → Arr 64 => ind (WinN (wideTable O D f) N me x.toZ [] A)) + q / 2 ^ 256 := by
    refine avg_mono fun f => ?_
    rw [avg_comm, ← h3 f]
    refine le_trans (avg_mono (h2 f)) (le_of_eq ?_)
    rw [avg_add, avg_const]
  refine le_trans h4 (le_of_eq ?_)
  rw [avg_add, avg_const]

theorem winN_le {α : Type} [Goal P α] {fin : α → Prop} {A : Client (CosignRequest P) CosignAnswer α} (hA : SessionBounded D T b fin q m r A) (hD : ∀ r, commitmentQuery r ∈ D) (me : PublicKey P) (z : Z) :
    (avg fun f : D → Arr 64 => avg fun N : Fin m → Fin 3 → Arr 64 => ind (WinN (wideTable O D f) N me z [] A)) ≤
      (avg fun f : D → Arr 64 => val1 O hD me z f [] A) + (q + r * b : Nat) * m * guess + m * m * guess := by
  have h1 : ∀ N : Fin m → Fin 3 → Arr 64, (avg fun f : D → Arr 64 => ind (WinN (wideTable O D f) N me z [] A)) ≤
      ind (¬ Function.Injective (commitQs P N)) + avg fun f : D → Arr 64 => avg fun κ : Fin m → Arr 64 =>
        ind (Function.Injective (commitQs P N) ∧ WinN (hiddenO P O f N κ) N me z [] A) := by
    intro N
    by_cases hi : Function.Injective (commitQs P N)
    · rw [avg_withKeyed (commitQs P N) hi (fun k => hD _)]
      rw [show ind (¬ Function.Injective (commitQs P N)) = 0 from if_neg (not_not.mpr hi), zero_add]
      exact avg_mono fun f => avg_mono fun κ => ind_mono fun h => ⟨hi, h⟩
    · rw [show ind (¬ Function.Injective (commitQs P N)) = 1 from if_pos hi]
      have : (0 : ℚ) ≤ avg fun f : D → Arr 64 => avg fun κ : Fin m → Arr 64 =>
        ind (Function.Injective (commitQs P N) ∧ WinN (hiddenO P O f N κ) N me z [] A) := avg_nonneg fun _ => avg_nonneg fun _ => ind_nonneg _
      have h' := avg_le_const (fun f : D → Arr 64 => ind_le_one (WinN (wideTable O D f) N me z [] A))
      linarith
  rw [avg_comm]
  refine le_trans (avg_mono h1) ?_
  rw [avg_add, avg_comm (fun (N : Fin m → Fin 3 → Arr 64) (f : D → Arr 64) => avg fun κ : Fin m → Arr 64 =>
        ind (Function.Injective (commitQs P N) ∧ WinN (hiddenO P O f N κ) N me z [] A))]
  have h2 : ∀ f : D → Arr 64, (avg fun N : Fin m → Fin 3 → Arr 64 => avg fun κ : Fin m → Arr 64 =>
        ind (Function.Injective (commitQs P N) ∧ WinN (hiddenO P O f N κ) N me z [] A)) ≤
      val1 O hD me z f [] A + (q + r * b : Nat) * m * guess := fun f =>
    hide_step O hD T b 0 m me z A q m r (fun _ => none) (fun _ => none) f [] [] hA (by simp)
      ⟨List.Forall₂.nil, by simp, fun _ _ => rfl, fun _ _ => rfl, fun _ _ h => nomatch h⟩
  have h3 := avg_mono h2
  rw [avg_add, avg_const] at h3
  have h4 := chance_nonces_equal (P := P) m
  refine le_trans (add_le_add h4 h3) (le_of_eq ?_)
  ring


theorem table64 (f : D → Arr 64) (l : List MOp) : (wideTable O D f).merlin l 64 = (table O D f).merlin l 64 := by
  by_cases h : l ∈ D
  · rw [wideTable_hit O f l h, table_hit O D f l h]
  · unfold wideTable table
    simp [h]

theorem forges_table (f : D → Arr 64) (c : JointClaim P) (me : PublicKey P) :
    c.Forges (wideTable O D f) me ↔ c.Forges (table O D f) me := by
  have hh : ∀ l, hashWith (wideTable O D f) l = hashWith (table O D f) l := fun l => hashWith_congr (table64 O f l)
  have hj : jointKey (wideTable O D f) c.keys = jointKey (table O D f) c.keys := by
    rw [jointKey_aggO, jointKey_aggO, aggO_congr _ fun q _ => hh q]
  unfold JointClaim.Forges
  rw [hj]
  refine and_congr_right fun _ => and_congr_right fun _ => exists_congr fun σ => and_congr_right fun _ => ?_
  exact verifyWith_congr _ _ _ (hh _)

theorem queries_table (f : D → Arr 64) (c : JointClaim P) : c.queries (wideTable O D f) = c.queries (table O D f) := by
  have hh : ∀ l, hashWith (wideTable O D f) l = hashWith (table O D f) l := fun l => hashWith_congr (table64 O f l)
  have hj : jointKey (wideTable O D f) c.keys = jointKey (table O D f) c.keys := by
    rw [jointKey_aggO, jointKey_aggO, aggO_congr _ fun q _ => hh q]
  unfold JointClaim.queries JointClaim.challenge
  rw [hj]

theorem run_table {α : Type} (f : D → Arr 64) (B : Algo α) : B.run (wideTable O D f) = B.run (table O D f) :=
  (Algo.run_congr _ _ B fun l _ => table64 O f l).1

theorem val1_le {α : Type} [Goal P α] [Goal.Separated P α] {fin : α → Prop} {A : Client (CosignRequest P) CosignAnswer α}
    (hA : SessionBounded D T b fin q m r A) (hC : CosignCovers D T b m sys) (me : PublicKey P) (hme : me.WF) (z : Z)
    (hz : me.point = z • (basepoint : P)) (hfin : ∀ c, fin c → ∀ f : D → Arr 64, ∀ l ∈ Goal.queries (wideTable O D f) me c, l ∈ D) :
    (avg fun f : D → Arr 64 => val1 O hC.commitment me z f [] A) ≤
      (avg fun C : CosignCoins m => chance fun f : D → Arr 64 =>
        Goal.Wins (table O D f) me ((simulateCosign O me C [] [] A).run (table O D f))) +
        simCost (q + m + r * (5 * b + 7)) b q m r := by
  have h1 := close_all (D := D) O hC.commitment T me z b (q + m + r * (5 * b + 7)) hz hme hfin (fun ks hk => covers_weight hC ks hk)
    (fun t ht V hV agg k => covers_coeff hC t ht V hV agg k) (fun t ht agg R => covers_challenge hC t ht agg R) A q m r hA
    0 (fun _ _ => zeros 64) ([], []) [] []
    ⟨⟨by simp, by simp [exOf], by simp, by simp, by simp, by simp, by simp, by simp⟩, List.Forall₂.nil, by simp [pendingOf], by simp,
      by simp, by simp, by simp, by simp⟩ (by simp [waiting])
  have e0 : ((waiting ([] : List (FakePhase P)) : Nat) : ℚ) = 0 := by simp [waiting]
  rw [e0, zero_mul, add_zero] at h1
  refine le_trans h1 (add_le_add ?_ le_rfl)
  have h2 := simVal_ge (D := D) (m := m) (b := b) (T := T) O me z hz hC.commitment (fun ks hk => covers_weight hC ks hk)
    (fun t ht V hV agg k => covers_coeff hC t ht V hV agg k) A q m r (fun _ _ => zeros 64) (fun _ => none) (fun _ => none) (fun _ => none)
    ([], []) [] hA (by simp) (fun q _ => rfl) ⟨by simp, fun _ _ => rfl, fun _ _ => ⟨rfl, rfl⟩, by simp⟩
  refine le_trans h2 (le_of_eq ?_)
  rw [avg_prod]
  unfold simVal simRun
  refine avg_congr fun κs => ?_
  refine Eq.trans (avg_coins (m := m) z fun cs => avg fun f : D → Arr 64 =>
    ind (Goal.Wins (wideTable O D f) me ((simulateCosign O me (κs, cs) [] [] A).run (wideTable O D f)))) ?_
  refine avg_congr fun cs => ?_
  rw [chance_eq_avg]
  refine avg_congr fun f => ?_
  rw [run_table, Goal.wins_congr (wideTable O D f) (table O D f) me _ fun l _ => table64 O f l]

end

/-- **C82** multi-signatures cannot be forged by someone who runs any number of concurrent sessions with the owner of a key,
in the random-oracle model, if discrete logarithms are hard.  The attacker starts sessions for transcripts of its choice,
plays all other cosigners, with keys it makes up as it goes, and interleaves commitments, reveals and cosignatures of all
sessions as it likes; it wins by a signature under the aggregate key of any set of keys that includes the owner's, for a
transcript and aggregate key for which the owner has revealed in no session.  The explicit procedure `extractCosigner` runs
the attack four times *without the secret key*, and finds the secret key with probability at least `δ(δ/2n − guess)`, where
`δ = ε(ε/n − guess)`, `n = q + r(4b + 5) + g + 1`, and `ε` is the probability that the attack on the owner succeeds, minus
`cosignLoss`. -/
theorem cosigner_forgery_random_oracle (O : Oracles) (x : Scalar) (sys : Rng) (T : Finset (List MOp)) (b g q m r : Nat)
    (A : CosignAttacker P) (hA : CosignBounded O D T b g q m r A) (hC : CosignCovers D T b m sys) (hs : NoRepeat sys m) :
    let pk : PublicKey P := (SecretKey.mk x (zeros 32)).toPublic
    let n : ℚ := (q + r * (4 * b + 5) + g + 1 : Nat)
    let ε := (chance fun y : Arr 32 × (D → Arr 64) =>
      ForgesJoint (wideTable O D y.2) ((SecretKey.mk x y.1).toKeypair : Keypair P) sys A) - cosignLoss b q m r
    let δ := ε * (ε / n - guess)
    0 ≤ ε → 0 ≤ δ →
    δ * (δ / (2 * n) - guess) ≤ chance fun y : CosignCoins m × (Arr 64 × ((D → Arr 64) × Arr 64)) =>
      pk.point = extractCosigner O pk A y.1 (table O D y.2.2.1) y.2.1 y.2.2.2 • (basepoint : P) := by
  intro pk n ε δ hε hδ
  have hz : pk.point = x.toZ • (basepoint : P) := mulPoint_eq _ _
  have e1 := forges_le (D := D) O T b g q m r A x sys hA hC hs pk (fun s => rfl)
  have e2 := winN_le (D := D) O T b q m r hA hC.commitment pk x.toZ
  have e3 : (avg fun f : D → Arr 64 => val1 O hC.commitment pk x.toZ f [] A) ≤
      (avg fun C : CosignCoins m => chance fun f : D → Arr 64 =>
        ((simulateCosign O pk C [] [] A).run (table O D f)).Forges (table O D f) pk) +
        simCost (q + m + r * (5 * b + 7)) b q m r := val1_le (D := D) O T b q m r sys hA hC pk rfl x.toZ hz (fun c hc => hc.2)
  have hp : ε ≤ avg fun C : CosignCoins m => chance fun f : D → Arr 64 =>
        ((simulateCosign O pk C [] [] A).run (table O D f)).Forges (table O D f) pk := by
    have hl : cosignLoss b q m r = simCost (q + m + r * (5 * b + 7)) b q m r + (q + r * b : Nat) * m * guess + m * m * guess + q / 2 ^ 256 := rfl
    simp only [ε]
    rw [hl]
    generalize simCost (q + m + r * (5 * b + 7)) b q m r = c at *
    linarith
  have hW : ∀ (C : CosignCoins m) (O' : Oracles), _ := fun C O' =>
    sim_within (D := D) O T b pk (fun ks hk => covers_weight hC ks hk) (fun t ht V hV agg k => covers_coeff hC t ht V hV agg k) hC.commitment
      C O' A q m r [] [] hA ⟨by simp, by simp⟩
  have h := joint_forgery_coins (D := D) O pk (fun C : CosignCoins m => simulateCosign O pk C [] [] A) (q + r * (4 * b + 5)) g
    (fun C f => ⟨by simpa [waiting] using (hW C _).1, (hW C _).2.1⟩)
    (fun C f => ⟨(hW C _).2.2.1, by rw [← queries_table]; exact (hW C _).2.2.2 f⟩) ε hε hp hδ
  rw [chance_eq_avg, avg_prod]
  refine le_trans h (le_of_eq (avg_congr fun C => ?_))
  rw [chance_eq_avg]
  rfl

/-! ### The hypotheses can be met -/

theorem finite_answer : Finite CosignAnswer := by
  have h16 := finite_arr 16
  have h96 := finite_arr 96
  refine Finite.of_injective (fun a : CosignAnswer => (match a with
    | .commitment c => some (.inl c.bytes)
    | .reveal r => some (.inr (.inl r.bytes))
    | .share s => some (.inr (.inr s.bytes))
    | .refused => none : Option (Arr 16 ⊕ Arr 96 ⊕ Arr 32))) ?_
  intro a b h
  cases a <;> cases b <;> first | rfl | (simp only [Option.some.injEq, Sum.inl.injEq, Sum.inr.injEq, reduceCtorEq] at h)
  · exact congrArg _ (congrArg Commitment.mk h)
  · exact congrArg _ (congrArg Reveal.mk h)
  · exact congrArg _ (congrArg Cosignature.mk h)

/-- Every attacker is bounded in the required way by some numbers and some finite sets of queries and transcripts. -/
theorem cosign_bounded_exists (O : Oracles) (A : CosignAttacker P) : ∃ (D₀ T₀ : Finset (List MOp)) (N : Nat), ∀ D T : Finset (List MOp),
    D₀ ⊆ D → T₀ ⊆ T → ∀ b g q m r : Nat, N ≤ b → N ≤ g → N ≤ q → N ≤ m → N ≤ r → CosignBounded O D T b g q m r A := by
  have := finite_answer
  have hsup : ∀ {ι : Type} [Finite ι] (s : ι → Finset (List MOp)), ∃ t : Finset (List MOp), ∀ i, s i ⊆ t := by
    intro ι _ s
    let _ := Fintype.ofFinite ι
    exact ⟨Finset.univ.biUnion s, fun i => Finset.subset_biUnion_of_mem s (Finset.mem_univ i)⟩
  have hmax : ∀ {ι : Type} [Finite ι] (s : ι → Nat), ∃ t : Nat, ∀ i, s i ≤ t := by
    intro ι _ s
    let _ := Fintype.ofFinite ι
    exact ⟨Finset.univ.sup s, fun i => Finset.le_sup (f := s) (Finset.mem_univ i)⟩
  induction A with
  | ret c =>
    obtain ⟨S, hS⟩ := hsup fun pk : Arr 32 => {(Use.signature c.t.log pk.1 (c.sig.take 32)).query}
    refine ⟨((cosigners c.keys).map (weightOf c.keys)).toFinset ∪ S, ∅, (cosigners c.keys).length, fun D T hD _ b g q m r _ hg _ _ _ => ?_⟩
    refine ⟨hg, fun f l hl => hD ?_⟩
    rcases List.mem_append.mp hl with h | h
    · exact Finset.mem_union_left _ (List.mem_toFinset.mpr h)
    · rw [List.mem_singleton.mp h]
      exact Finset.mem_union_right _ (hS (jointKey (wideTable O D f) c.keys).compressed (Finset.mem_singleton_self _))
  | ask l k ih =>
    choose D₁ T₁ N₁ h using ih
    obtain ⟨D₂, hD₂⟩ := hsup D₁
    obtain ⟨T₂, hT₂⟩ := hsup T₁
    obtain ⟨N₂, hN₂⟩ := hmax N₁
    refine ⟨{l} ∪ D₂, T₂, N₂ + 1, fun D T hD hT b g q m r hb hg hq hm hr => ⟨hD (by simp), q - 1, by omega, fun w => ?_⟩⟩
    have := hN₂ w
    exact h w D T ((hD₂ w).trans (Finset.subset_union_right.trans hD)) ((hT₂ w).trans hT) _ _ _ _ _ (by omega) (by omega) (by omega) (by omega) (by omega)
  | request rq k ih =>
    choose D₁ T₁ N₁ h using ih
    obtain ⟨D₂, hD₂⟩ := hsup D₁
    obtain ⟨T₂, hT₂⟩ := hsup T₁
    obtain ⟨N₂, hN₂⟩ := hmax N₁
    cases rq with
    | start t =>
      refine ⟨D₂, {t.log} ∪ T₂, N₂ + 1, fun D T hD hT b g q m r hb hg hq hm hr => ⟨hT (by simp), m - 1, by omega, fun w => ?_⟩⟩
      have := hN₂ w
      exact h w D T ((hD₂ w).trans hD) ((hT₂ w).trans (Finset.subset_union_right.trans hT)) _ _ _ _ _ (by omega) (by omega) (by omega) (by omega) (by omega)
    | reveal i cs =>
      refine ⟨D₂, T₂, N₂ + cs.length + 1, fun D T hD hT b g q m r hb hg hq hm hr => ⟨by omega, r - 1, by omega, fun w => ?_⟩⟩
      have := hN₂ w
      exact h w D T ((hD₂ w).trans hD) ((hT₂ w).trans hT) _ _ _ _ _ (by omega) (by omega) (by omega) (by omega) (by omega)
    | cosign i rs =>
      refine ⟨D₂, T₂, N₂ + rs.length + 1, fun D T hD hT b g q m r hb hg hq hm hr => ⟨by omega, r - 1, by omega, fun w => ?_⟩⟩
      have := hN₂ w
      exact h w D T ((hD₂ w).trans hD) ((hT₂ w).trans hT) _ _ _ _ _ (by omega) (by omega) (by omega) (by omega) (by omega)

private theorem finite_reveal : Finite Reveal :=
  have := finite_arr 96
  Finite.of_injective (fun r : Reveal => r.bytes) fun _ _ h => congrArg Reveal.mk h

/-- The owner's hash queries are finitely many. -/
theorem cosign_covers_exists (T : Finset (List MOp)) (b m : Nat) (sys : Rng) : ∃ D₀ : Finset (List MOp), ∀ D, D₀ ⊆ D →
    CosignCovers D T b m sys := by
  have := finite_reveal
  have f1 : (Set.range commitmentQuery).Finite := Set.finite_range _
  have f2 : ((fun p : List (Arr 32) × Arr 32 => weightQuery (p.1.map (·.1)) p.2.1) '' ({l | l.length ≤ b + 1} ×ˢ Set.univ)).Finite :=
    ((List.finite_length_le _ _).prod Set.finite_univ).image _
  have : Finite {l : List (Arr 32) // l.length = 3} := (List.finite_length_eq (Arr 32) 3).to_subtype
  have f3' : ({es : List (Arr 32 × List (Arr 32)) | es.length ≤ b + 1 ∧ ∀ e ∈ es, e.2.length = 3}).Finite := by
    refine ((List.finite_length_le (Arr 32 × {l : List (Arr 32) // l.length = 3}) (b + 1)).image (List.map fun e => (e.1, e.2.1))).subset ?_
    rintro es ⟨h1, h2⟩
    have : es ∈ Set.range (List.map fun e : Arr 32 × {l : List (Arr 32) // l.length = 3} => (e.1, e.2.1)) := by
      rw [Set.range_list_map]
      exact fun e he => ⟨(e.1, ⟨e.2, h2 e he⟩), rfl⟩
    obtain ⟨l, rfl⟩ := this
    exact ⟨l, by simpa using h1, rfl⟩
  have f3 : ((fun p : List MOp × Arr 32 × List (Arr 32 × List (Arr 32)) × Arr 32 × Nat =>
      (Use.musigCoeff p.1 p.2.1.1 (p.2.2.1.map fun e => (e.1.1, e.2.map (·.1))) p.2.2.2.1.1 p.2.2.2.2).query) ''
      ((T : Set (List MOp)) ×ˢ Set.univ ×ˢ {es | es.length ≤ b + 1 ∧ ∀ e ∈ es, e.2.length = 3} ×ˢ Set.univ ×ˢ Set.Iio 3)).Finite :=
    (T.finite_toSet.prod (Set.finite_univ.prod (f3'.prod (Set.finite_univ.prod (Set.finite_Iio 3))))).image _
  have f4 : ((fun p : List MOp × Arr 32 × Arr 32 => (Use.signature p.1 p.2.1.1 p.2.2.1).query) '' ((T : Set (List MOp)) ×ˢ Set.univ)).Finite :=
    (T.finite_toSet.prod Set.finite_univ).image _
  have f5 : ((fun p : List MOp × Arr 32 × Nat × Nat => (Use.musigNonce p.1 p.2.1.1 p.2.2.1 (drawOf sys p.2.2.2 p.2.2.1).1).query) ''
      ((T : Set (List MOp)) ×ˢ Set.univ ×ˢ Set.Iio 3 ×ˢ Set.Iio m)).Finite :=
    (T.finite_toSet.prod (Set.finite_univ.prod ((Set.finite_Iio 3).prod (Set.finite_Iio m)))).image _
  refine ⟨f1.toFinset ∪ f2.toFinset ∪ f3.toFinset ∪ f4.toFinset ∪ f5.toFinset, fun D hD => ?_⟩
  have hm : ∀ l, (l ∈ f1.toFinset ∨ l ∈ f2.toFinset ∨ l ∈ f3.toFinset ∨ l ∈ f4.toFinset ∨ l ∈ f5.toFinset) → l ∈ D := by
    intro l h
    refine hD ?_
    simp only [Finset.mem_union]
    tauto
  constructor
  · intro r
    exact hm _ (Or.inl (f1.mem_toFinset.mpr ⟨r, rfl⟩))
  · intro ks k hk
    exact hm _ (Or.inr (Or.inl (f2.mem_toFinset.mpr ⟨(ks, k), ⟨hk, trivial⟩, rfl⟩)))
  · intro log hl agg es k i hi h1 h2
    exact hm _ (Or.inr (Or.inr (Or.inl (f3.mem_toFinset.mpr ⟨(log, agg, es, k, i), ⟨hl, trivial, ⟨h1, h2⟩, trivial, hi⟩, rfl⟩))))
  · intro log hl pk R
    exact hm _ (Or.inr (Or.inr (Or.inr (Or.inl (f4.mem_toFinset.mpr ⟨(log, pk, R), ⟨hl, trivial⟩, rfl⟩)))))
  · intro log hl seed j hj k hk
    exact hm _ (Or.inr (Or.inr (Or.inr (Or.inr (f5.mem_toFinset.mpr ⟨(log, seed, j, k), ⟨hl, trivial, hj, hk⟩, rfl⟩)))))

/-- A system RNG that returns the number of the call. -/
def countingRng : Rng := ⟨fun hist n => ⟨leBytes n hist.length, by simp⟩, []⟩

/-- Non-vacuity: for every attacker there are numbers and sets that meet the hypotheses of
`cosigner_forgery_random_oracle`, with a system RNG that does not repeat itself. -/
example (O : Oracles) (A : CosignAttacker P) : ∃ (D T : Finset (List MOp)) (b g q m r : Nat), CosignBounded O D T b g q m r A ∧
    CosignCovers D T b m countingRng := by
  obtain ⟨D₀, T₀, N, h⟩ := cosign_bounded_exists O A
  obtain ⟨D₁, h'⟩ := cosign_covers_exists T₀ N N countingRng
  exact ⟨D₀ ∪ D₁, T₀, N, N, N, N, N, h _ _ Finset.subset_union_left (Finset.Subset.refl _) N N N N N le_rfl le_rfl le_rfl le_rfl le_rfl,
    h' _ Finset.subset_union_right⟩

private theorem mod_cancel (M j k k' m : Nat) (hm : 3 * m + 3 ≤ M) (hj : j < 3) (hk : k < m) (hk' : k' < m)
    (h : (3 * k + j) % M = (3 * k' + j) % M) : k = k' := by
  rw [Nat.mod_eq_of_lt (by omega), Nat.mod_eq_of_lt (by omega)] at h
  omega

/-- Non-vacuity: `countingRng` does not repeat itself for up to about `2^254` sessions. -/
theorem countingRng_noRepeat (m : Nat) (hm : 3 * m + 3 ≤ 256 ^ 32) : NoRepeat countingRng m := by
  intro j hj k hk k' hk' h
  have h1 : leBytes 32 (3 * k + j) = leBytes 32 (3 * k' + j) := by
    have := congrArg Subtype.val h
    simp only [drawOf, countingRng, List.nil_append, List.length_replicate] at this
    exact this
  have h2 := congrArg leNat h1
  rw [leNat_leBytes, leNat_leBytes] at h2
  exact mod_cancel _ j k k' m hm hj hk hk' h2

/-- Someone who knows the secret key signs alone, with the nonce 1: a group with a single member. -/
noncomputable def thief (P : Type) [Ristretto P] (x : Scalar) (t : Transcript) : CosignAttacker P :=
  let pk : PublicKey P := (SecretKey.mk x (zeros 32)).toPublic
  .ask (weightOf [pk] pk) fun a =>
    .ask (challengeOf (PublicKey.fromPoint (residue a • pk.point)) t (compress (basepoint : P)).1) fun c =>
      .ret ⟨[pk], t, (Signature.mk (compress (basepoint : P)) (Scalar.ofZ (1 + residue c * (residue a * x.toZ)))).toBytes.1⟩

/-- Non-vacuity: the thief always succeeds, so the success probability in `cosigner_forgery_random_oracle` can be 1. -/
theorem thief_wins (O : Oracles) (x : Scalar) (s : Arr 32) (sys : Rng) (t : Transcript) :
    ForgesJoint O ((SecretKey.mk x s).toKeypair : Keypair P) sys (thief P x t) := by
  set pk : PublicKey P := (SecretKey.mk x s).toPublic with hpk
  have hx : pk.point = x.toZ • (basepoint : P) := mulPoint_eq _ _
  have hj : jointKey O [pk] = PublicKey.fromPoint (residue (O.merlin (weightOf [pk] pk) 64) • pk.point) := by
    rw [jointKey_aggO]
    congr 1
    show ([pk].map fun k => hashWith O (weightOf [pk] k) • k.point).sum = _
    simp only [List.map_cons, List.map_nil, List.sum_cons, List.sum_nil, add_zero]
    rfl
  refine ⟨⟨?_, ?_, ?_⟩, ?_⟩
  · intro k hk
    have hk' : k = pk := List.mem_singleton.mp hk
    rw [hk']; rfl
  · exact List.mem_singleton.mpr rfl
  · refine ⟨_, Signature.fromBytes_eq_ok.mpr ⟨rfl, Scalar.canonical_ofZ _⟩, ?_⟩
    show verifyWith O (jointKey O [pk]) t _ = _
    rw [hj, verifyWith_iff]
    simp only [Scalar.toZ_ofZ]
    rw [compress_inj]
    show _ - residue (O.merlin (challengeOf (PublicKey.fromPoint (residue (O.merlin (weightOf [pk] pk) 64) • pk.point)) t (compress (basepoint : P)).1) 64) •
      (residue (O.merlin (weightOf [pk] pk) 64) • pk.point) = _
    rw [hx, smul_smul, smul_smul, ← sub_smul, ← hx]
    have : ∀ a c : Z, (1 + c * (a * x.toZ) - c * (a * x.toZ)) • (basepoint : P) = basepoint := by
      intro a c; rw [add_sub_cancel_right, one_smul]
    rw [mul_assoc]
    exact this _ _
  · show _ ∉ ([] : List _)
    simp

end Schnorrkel.Props
