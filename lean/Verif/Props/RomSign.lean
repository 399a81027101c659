import Verif.Lemmas.RomSeed
import Verif.Lemmas.RomFork
import Verif.Props.Fork

/-! # C63: signatures cannot be forged, in the random-oracle model -/

namespace Schnorrkel.Props
open Spec Schnorrkel
variable {P : Type} [Ristretto P] {D : Finset (List MOp)} {K : Finset (List MOp × Arr 32)}

/-- Hash functions after programming a list of answers, the latest first. -/
private def progAll (O : Oracles) : List (List MOp × Arr 64) → Oracles
  | [] => O
  | (q, w) :: pg => program (progAll O pg) q w

private theorem progAll_merlin (O : Oracles) (pg : List (List MOp × Arr 64)) (q : List MOp) :
    (progAll O pg).merlin q 64 = (pg.lookup q).getD (O.merlin q 64) := by
  induction pg with
  | nil => rfl
  | cons x pg ih =>
    obtain ⟨q', w⟩ := x
    show (program (progAll O pg) q' w).merlin q 64 = _
    rw [List.lookup_cons]
    by_cases h : q = q'
    · subst h
      refine (program_hit _ _ _).trans ?_
      simp
    · have hb : (q == q') = false := by simpa using h
      refine (program_miss _ _ _ _ _ h).trans ?_
      rw [hb]
      exact ih

/-- Programmed answers belong to signatures given out. -/
private def PgInv (pk : PublicKey P) (pg : List (List MOp × Arr 64)) (log : List (Transcript × Signature)) : Prop :=
  ∀ q w, pg.lookup q = some w → ∃ t σ, (t, σ) ∈ log ∧ q = challengeOf pk t σ.R.1 ∧ σ.s.Canonical ∧
    compress (σ.s.toZ • (basepoint : P) - residue w • pk.point) = σ.R

private theorem fromBytes_canonical {b : Bytes} {σ : Signature} (h : Signature.fromBytes b = .ok σ) :
    σ.s.Canonical ∧ b.take 32 = σ.R.1 := by
  obtain ⟨-, h1, -, h2⟩ := (signature_from_bytes_ok_iff b σ).mp h
  exact ⟨h2, h1⟩

/-- A win in the simulated game is a forgery for the hash function before programming. -/
private theorem simulated_win (O : Oracles) (pk : PublicKey P) (C : Coins K) (A : Attacker (Transcript × Bytes)) :
    ∀ pg log, PgInv pk pg log → win2 pk C (progAll O pg) log A →
    ∃ σ, Signature.fromBytes ((A.simulate pk C pg).run O).2 = .ok σ ∧
      verifyWith O pk ((A.simulate pk C pg).run O).1 σ = .ok () := by
  induction A with
  | ret a =>
    rintro pg log hI ⟨σ, h1, h2, h3⟩
    refine ⟨σ, h1, ?_⟩
    simp only [Attacker.simulate, Algo.run]
    have hm := progAll_merlin O pg (challengeOf pk a.1 σ.R.1)
    cases hl : pg.lookup (challengeOf pk a.1 σ.R.1) with
    | none =>
      rw [hl] at hm
      exact (verifyWith_congr pk _ _ (hashWith_congr hm)).mp h2
    | some w =>
      exfalso
      rw [hl] at hm
      obtain ⟨t, σ', hmem, hq, hc, he⟩ := hI _ _ hl
      obtain ⟨e1, -, e2⟩ := signature_query_inj hq
      have et : a.1 = t := by
        cases ha : a.1; cases t; simp only [ha] at e1; rw [e1]
      have eR : σ.R = σ'.R := Subtype.ext e2
      rw [verifyWith_iff] at h2
      have hh : hashWith (progAll O pg) (Use.signature a.1.log pk.compressed.1 σ.R.1).query = residue w := by
        unfold hashWith hashToZ residue
        rw [show @Oracles.merlin (progAll O pg) (Use.signature a.1.log pk.compressed.1 σ.R.1).query 64 = w from hm]
      rw [hh, eR, ← he] at h2
      have h4 := compress_inj.mp h2
      have h5 := smul_basepoint_inj.mp (sub_left_injective h4)
      have hs := (fromBytes_canonical h1).1
      have : σ = σ' := by
        cases σ; cases σ'
        simp only at eR h5 hs hc
        subst eR
        congr 1
        rw [← hs.ofZ_toZ, h5, hc.ofZ_toZ]
      rw [et, this] at h3
      exact h3 hmem
  | ask q k ih =>
    intro pg log hI h
    simp only [win2, progAll_merlin] at h
    simp only [Attacker.simulate]
    cases hl : pg.lookup q with
    | some w =>
      rw [hl] at h
      exact ih w pg log hI h
    | none =>
      rw [hl] at h
      exact ih _ pg log hI h
  | sign t sys k ih =>
    intro pg log hI h
    simp only [win2] at h
    simp only [Attacker.simulate]
    refine ih _ _ _ ?_ h
    intro q w hq
    simp only [List.lookup_cons] at hq
    by_cases he : q = challengeOf pk t (fakeSignature pk (coinsAt C t sys)).R.1
    · have hb : (q == challengeOf pk t (fakeSignature pk (coinsAt C t sys)).R.1) = true := by simpa using he
      rw [hb] at hq
      cases hq
      refine ⟨t, _, List.mem_cons_self, he, ?_, ?_⟩
      · exact Scalar.canonical_ofZ _
      · unfold fakeSignature
        simp only [Scalar.toZ_ofZ]
    · have hb : (q == challengeOf pk t (fakeSignature pk (coinsAt C t sys)).R.1) = false := by simpa using he
      rw [hb] at hq
      obtain ⟨t', σ', h1, h2⟩ := hI q w hq
      exact ⟨t', σ', List.mem_cons_of_mem _ h1, h2⟩

private theorem simulate_bounded (O : Oracles) (pk : PublicKey P) (C : Coins K) (A : Attacker (Transcript × Bytes)) :
    ∀ (q m : Nat) (pg : List (List MOp × Arr 64)), A.Bounded pk D K q m →
    ((A.simulate pk C pg).asked O).length ≤ q ∧ (∀ l ∈ (A.simulate pk C pg).asked O, l ∈ D) ∧
    challengeOf pk ((A.simulate pk C pg).run O).1 (((A.simulate pk C pg).run O).2.take 32) ∈ D := by
  induction A with
  | ret a => intro q m pg h; exact ⟨by simp [Attacker.simulate, Algo.asked], by simp [Attacker.simulate, Algo.asked], h⟩
  | ask l k ih =>
    rintro q m pg ⟨hl, q', rfl, hk⟩
    simp only [Attacker.simulate]
    cases hlo : pg.lookup l with
    | some w =>
      obtain ⟨h1, h2, h3⟩ := ih w q' m pg (hk w)
      exact ⟨le_trans h1 (Nat.le_succ _), h2, h3⟩
    | none =>
      obtain ⟨h1, h2, h3⟩ := ih (O.merlin l 64) q' m pg (hk _)
      refine ⟨by simp only [Algo.asked, List.length_cons]; omega, ?_, h3⟩
      simp only [Algo.asked, List.mem_cons, forall_eq_or_imp]
      exact ⟨hl, h2⟩
  | sign t sys k ih =>
    rintro q m pg ⟨hK, m', rfl, hk⟩
    exact ih _ q m' _ (hk _)

/-- For fixed coins: the extractor succeeds about as often as the square of the simulated attack. -/
private theorem extract_coins (O : Oracles) (pk : PublicKey P) (C : Coins K) (A : Attacker (Transcript × Bytes))
    (q m : Nat) (hA : A.Bounded pk D K q m) :
    ∃ p, (chance fun f : D → Arr 64 => win2 pk C (table O D f) [] A) ≤ p ∧ p ^ 2 / (q + 1 : Nat) - guess * p ≤
      chance fun x : (D → Arr 64) × (D → Arr 64) => pk.point = extractKey O pk A C x.1 x.2 • (basepoint : P) := by
  let B := A.simulateAndCheck pk C
  have hrun : ∀ O, B.run O = (A.simulate pk C []).run O := fun O => by
    simp only [B, Attacker.simulateAndCheck, Algo.run_bind, Algo.run]
  have hasked : ∀ O, B.asked O = (A.simulate pk C []).asked O ++ [challengeOf pk (B.run O).1 ((B.run O).2.take 32)] :=
    fun O => by
      rw [hrun]
      simp only [B, Attacker.simulateAndCheck, Algo.asked_bind, Algo.asked]
  have hB : B.Within O D (q + 1) := by
    intro f
    obtain ⟨h1, h2, h3⟩ := simulate_bounded (D := D) (table O D f) pk C A q m [] hA
    rw [hasked, hrun]
    refine ⟨by simpa using h1, fun l hl => ?_⟩
    rcases List.mem_append.mp hl with h | h
    · exact h2 l h
    · rw [List.mem_singleton.mp h]; exact h3
  let win : (D → Arr 64) → Prop := fun f => ∃ σ, Signature.fromBytes (B.run (table O D f)).2 = .ok σ ∧
    verifyWith (table O D f) pk (B.run (table O D f)).1 σ = .ok ()
  let tq : (D → Arr 64) → List MOp := fun f =>
    challengeOf pk (B.run (table O D f)).1 ((B.run (table O D f)).2.take 32)
  have hf := forking O B (q + 1) hB win tq (fun f _ => by rw [hasked]; simp [tq])
  refine ⟨chance win, chance_mono fun f h => ?_, ?_⟩
  · simp only [win, hrun]
    exact simulated_win (table O D f) pk C A [] [] (fun q w h => by simp at h) h
  refine le_trans (le_of_eq (by ring)) (le_trans hf (chance_mono ?_))
  rintro ⟨f, g⟩ ⟨⟨σ, h1, h2⟩, ⟨σ', h1', h2'⟩, htq, hne⟩
  simp only at h1 h2 h1' h2' htq hne
  have hR := (fromBytes_canonical h1).2
  have hR' := (fromBytes_canonical h1').2
  set f' := rewind ((B.asked (table O D f)).takeWhile (· ≠ tq f)) f g with hf'
  simp only [tq] at htq
  rw [hR, hR'] at htq
  obtain ⟨e1, -, e2⟩ := signature_query_inj htq
  have et : (B.run (table O D f')).1 = (B.run (table O D f)).1 := by
    cases h : (B.run (table O D f')).1; cases h' : (B.run (table O D f)).1
    simp only [h, h'] at e1; rw [e1]
  have eR : σ'.R = σ.R := Subtype.ext e2
  rw [et] at h2'
  rw [show σ' = ⟨σ.R, σ'.s⟩ by rw [← eR]] at h2'
  have htf : tq f = challengeOf pk (B.run (table O D f)).1 σ.R.1 := by simp only [tq]; rw [hR]
  rw [htf] at hne
  have := (signature_fork_extracts _ _ pk (B.run (table O D f)).1 σ.s σ'.s σ.R h2 h2' hne).1
  rw [this]
  congr 1
  unfold extractKey
  simp only
  rw [show challengeOf pk ((A.simulateAndCheck pk C).run (table O D f)).1
    (((A.simulateAndCheck pk C).run (table O D f)).2.take 32) = tq f from rfl]
  rw [show rewind (((A.simulateAndCheck pk C).asked (table O D f)).takeWhile (· ≠ tq f)) f g = f' from rfl]
  rw [htf]
  unfold responseOf
  rw [show (A.simulateAndCheck pk C) = B from rfl, h1, h1']
  rfl

/-- **C63** unforgeability under chosen-message attack, in the random-oracle model.  Take any attacker with at most
`q` hash queries and `m` signing queries, who also controls the signer's system RNG.  If it produces a new signature
(a new transcript, or another signature for a transcript that was signed) with probability `ε` over the signer's secret
nonce seed and the hash function, then the explicit procedure `extractKey`, which knows only the public key, finds the
secret key with probability at least `δ(δ/(q+1) − guess)` where `δ = ε − q/2²⁵⁶ − m((q+m)·guess + spare)`. -/
theorem signatures_unforgeable (O : Oracles) (pk : PublicKey P) (key : Scalar)
    (hpk : pk.point = key.toZ • (basepoint : P)) (A : Attacker (Transcript × Bytes)) (q m : Nat)
    (hA : A.Bounded pk D K q m) (hC : Covers pk D K) :
    let ε := chance fun ω : Arr 32 × (D → Arr 64) => Forges (table O D ω.2) ⟨key, ω.1⟩ pk A
    let loss : ℚ := q / 2 ^ 256 + m * ((q + m : Nat) * guess + spare)
    loss ≤ ε →
    (ε - loss) * ((ε - loss) / (q + 1 : Nat) - guess) ≤
      chance fun x : Coins K × ((D → Arr 64) × (D → Arr 64)) =>
        pk.point = extractKey O pk A x.1 x.2.1 x.2.2 • (basepoint : P) := by
  intro ε loss hle
  let n : ℚ := (q + 1 : Nat)
  have hn : 0 < n := by simp only [n]; positivity
  choose p hp1 hp2 using fun C : Coins K => extract_coins O pk C A q m hA
  -- the attack in the simulated game
  have h1 : ε - loss ≤ avg p := by
    have s1 := seed_le O pk key hC A q m hA
    have s2 := real_le_simulated O pk key.toZ hpk hC A q m 0 (fun _ => none) (fun _ => none) (fun _ => none) []
      hA ⟨[], by simp, fun d h => (h rfl).elim⟩ (fun _ => Or.inl ⟨rfl, rfl⟩)
    have hov : ∀ {ι S : Type} (f : ι → S), ov (fun _ => none) f = f := fun f => rfl
    simp only [hov, Nat.zero_add] at s2
    have s3 : (avg fun f => avg fun C : Coins K => ind (win2 pk C (table O D f) [] A)) ≤ avg p := by
      rw [avg_comm]
      refine avg_mono fun C => ?_
      rw [← chance_eq_avg]
      exact hp1 C
    simp only [ε, loss]
    linarith
  have h2 : avg p ^ 2 / n - guess * avg p ≤ chance fun x : Coins K × ((D → Arr 64) × (D → Arr 64)) =>
      pk.point = extractKey O pk A x.1 x.2.1 x.2.2 • (basepoint : P) := by
    rw [chance_eq_avg, avg_prod]
    have s1 : (avg fun C => p C ^ 2 / n - guess * p C) ≤ avg fun C : Coins K =>
        avg fun x : (D → Arr 64) × (D → Arr 64) => ind (pk.point = extractKey O pk A C x.1 x.2 • (basepoint : P)) := by
      refine avg_mono fun C => ?_
      rw [← chance_eq_avg]
      exact hp2 C
    refine le_trans ?_ s1
    have e : (avg fun C => p C ^ 2 / n - guess * p C) = (avg fun C => p C ^ 2) * (1 / n) + avg p * (-guess) := by
      rw [← avg_mul_const, ← avg_mul_const, ← avg_add]
      exact avg_congr fun C => by ring
    rw [e]
    have := sq_avg_le p
    have hn' : 0 ≤ 1 / n := by positivity
    have h3 := mul_le_mul_of_nonneg_right this hn'
    have h4 : avg p ^ 2 / n = avg p ^ 2 * (1 / n) := by ring
    linarith
  refine le_trans ?_ (max_le h2 (?_ : (0 : ℚ) ≤ _))
  · have hg := guess_nonneg
    set δ := ε - loss
    have hδ : 0 ≤ δ := by simp only [δ]; linarith
    by_cases h : δ / n ≤ guess
    · refine le_trans ?_ (le_max_right _ _)
      exact mul_nonpos_of_nonneg_of_nonpos hδ (by linarith)
    · refine le_trans ?_ (le_max_left _ _)
      have h3 : 0 ≤ δ / n - guess := by linarith
      have h4 : δ / n ≤ avg p / n := by gcongr
      calc δ * (δ / n - guess) ≤ avg p * (avg p / n - guess) := by
            apply mul_le_mul h1 (by linarith) h3 (by linarith)
        _ = _ := by ring
  · unfold chance; positivity

/-! ### The hypotheses are met by every attacker -/

private instance : Finite Scalar :=
  Finite.of_injective Scalar.bytes fun a b h => by cases a; cases b; simpa using h
private instance : Finite Signature :=
  Finite.of_injective (fun σ : Signature => (σ.R, σ.s)) fun a b h => by cases a; cases b; simpa using h

private theorem Bounded.mono (pk : PublicKey P) (A : Attacker (Transcript × Bytes)) :
    ∀ {D D' : Finset (List MOp)} {K K' : Finset (List MOp × Arr 32)} {q q' m m' : Nat}, D ⊆ D' → K ⊆ K' → q ≤ q' →
    m ≤ m' → A.Bounded pk D K q m → A.Bounded pk D' K' q' m' := by
  induction A with
  | ret a => intro D D' K K' q q' m m' hD _ _ _ h; exact hD h
  | ask l k ih =>
    rintro D D' K K' q q' m m' hD hK hq hm ⟨h1, q₁, rfl, h2⟩
    refine ⟨hD h1, q' - 1, by omega, fun w => ih w hD hK (by omega) hm (h2 w)⟩
  | sign t sys k ih =>
    rintro D D' K K' q q' m m' hD hK hq hm ⟨h1, m₁, rfl, h2⟩
    refine ⟨hK h1, m' - 1, by omega, fun w => ih w hD hK hq (by omega) (h2 w)⟩

private theorem exists_bounded (pk : PublicKey P) (A : Attacker (Transcript × Bytes)) :
    ∃ D K q m, A.Bounded pk D K q m := by
  classical
  induction A with
  | ret a => exact ⟨{challengeOf pk a.1 (a.2.take 32)}, ∅, 0, 0, by simp [Attacker.Bounded]⟩
  | ask l k ih =>
    choose D K q m h using ih
    haveI := Fintype.ofFinite (Arr 64)
    refine ⟨insert l (Finset.univ.biUnion D), Finset.univ.biUnion K, Finset.univ.sup q + 1, Finset.univ.sup m,
      Finset.mem_insert_self _ _, _, rfl, fun w => ?_⟩
    exact Bounded.mono pk _ (fun x hx => Finset.mem_insert_of_mem (Finset.mem_biUnion.mpr ⟨w, Finset.mem_univ _, hx⟩))
      (Finset.subset_biUnion_of_mem K (Finset.mem_univ w)) (Finset.le_sup (Finset.mem_univ w))
      (Finset.le_sup (Finset.mem_univ w)) (h w)
  | sign t sys k ih =>
    choose D K q m h using ih
    haveI := Fintype.ofFinite Signature
    refine ⟨Finset.univ.biUnion D, insert (t.log, (sys.fill 32).1) (Finset.univ.biUnion K), Finset.univ.sup q,
      Finset.univ.sup m + 1, Finset.mem_insert_self _ _, _, rfl, fun w => ?_⟩
    exact Bounded.mono pk _ (Finset.subset_biUnion_of_mem D (Finset.mem_univ w))
      (fun x hx => Finset.mem_insert_of_mem (Finset.mem_biUnion.mpr ⟨w, Finset.mem_univ _, hx⟩))
      (Finset.le_sup (Finset.mem_univ w)) (Finset.le_sup (Finset.mem_univ w)) (h w)

/-- **C63** every attacker satisfies the hypotheses of `signatures_unforgeable`, for suitable finite sets and bounds. -/
theorem every_attacker_is_bounded (pk : PublicKey P) (A : Attacker (Transcript × Bytes)) :
    ∃ D K q m, A.Bounded pk D K q m ∧ Covers pk D K := by
  classical
  obtain ⟨D, K, q, m, h⟩ := exists_bounded pk A
  haveI := Fintype.ofFinite (Arr 32)
  refine ⟨D ∪ K.biUnion (fun r => Finset.univ.image (fun R : Arr 32 => challengeOf pk ⟨r.1⟩ R.1) ∪
    Finset.univ.image (fun n : Arr 32 => (Use.signNonce r.1 pk.compressed.1 n.1 r.2.1).query)), K, q, m,
    Bounded.mono pk A Finset.subset_union_left (Finset.Subset.refl _) le_rfl le_rfl h, fun r hr => ⟨fun R => ?_, fun n => ?_⟩⟩
  · refine Finset.mem_union_right _ (Finset.mem_biUnion.mpr ⟨r, hr, Finset.mem_union_left _ ?_⟩)
    exact Finset.mem_image_of_mem _ (Finset.mem_univ R)
  · refine Finset.mem_union_right _ (Finset.mem_biUnion.mpr ⟨r, hr, Finset.mem_union_right _ ?_⟩)
    exact Finset.mem_image_of_mem (fun n : Arr 32 => (Use.signNonce r.1 pk.compressed.1 n.1 r.2.1).query) (Finset.mem_univ n)

/-- An attacker who knows the secret key: asks for one signature, then computes a signature with nonce `1` on another
transcript. -/
def insider (pk : PublicKey P) (x : Z) (t t' : Transcript) (sys : Rng) : Attacker (Transcript × Bytes) :=
  .sign t sys fun _ =>
  .ask (challengeOf pk t' (compress (basepoint : P)).1) fun w =>
  .ret (t', (Signature.toBytes ⟨compress (basepoint : P), Scalar.ofZ (residue w * x + 1)⟩).1)

/-- Non-vacuity: that attacker forges with probability one, so `ε` can be as large as possible. -/
example (O : Oracles) (pk : PublicKey P) (key : Scalar) (hpk : pk.point = key.toZ • (basepoint : P))
    (t t' : Transcript) (ht : t ≠ t') (sys : Rng) (D : Finset (List MOp)) :
    (chance fun ω : Arr 32 × (D → Arr 64) =>
      Forges (table O D ω.2) ⟨key, ω.1⟩ pk (insider pk key.toZ t t' sys)) = 1 := by
  have h : ∀ ω : Arr 32 × (D → Arr 64), Forges (table O D ω.2) ⟨key, ω.1⟩ pk (insider pk key.toZ t t' sys) := by
    intro ω
    simp only [Forges, insider, Attacker.play]
    generalize hw : (table O D ω.2).merlin (challengeOf pk t' (compress (basepoint : P)).1) 64 = w
    have hcan : (Scalar.ofZ (residue w * key.toZ + 1)).Canonical := Scalar.canonical_ofZ _
    refine ⟨⟨compress (basepoint : P), Scalar.ofZ (residue w * key.toZ + 1)⟩, Signature.fromBytes_eq_ok.mpr ⟨rfl, hcan⟩, ?_, ?_⟩
    · rw [verifyWith_iff]
      simp only [Scalar.toZ_ofZ]
      have hh : hashWith (table O D ω.2) (Use.signature t'.log pk.compressed.1 (compress (basepoint : P)).1).query =
          residue w := by
        unfold hashWith hashToZ residue
        rw [show @Oracles.merlin (table O D ω.2) (Use.signature t'.log pk.compressed.1 (compress (basepoint : P)).1).query
          64 = w from hw]
      rw [hh, hpk, smul_smul, ← sub_smul, add_sub_cancel_left, one_smul]
    · intro hm
      simp only [List.mem_cons, List.not_mem_nil, or_false] at hm
      exact ht (congrArg Prod.fst hm).symm
  rw [chance_eq_avg]
  simp only [ind, h, if_true]
  exact avg_const 1

end Schnorrkel.Props
