import Verif.Props.VrfMulti

/-! # C32, C33: DLEQ batches and bytes derived from VRF outputs -/

namespace Schnorrkel.Props
open SigningTranscript
variable {P : Type} [Ristretto P] {T T' E E' : Type} [SigningTranscript T] [SigningTranscript T']
  [SigningTranscript E] [SigningTranscript E']

/-! ## C32 -/

private theorem opt_ms (a b c : List Scalar) (Rs : List Compressed) (As Bs : List P)
    (h1 : a.length = Rs.length) (h2 : b.length = As.length) (h3 : c.length = Bs.length) :
    optionalMultiscalar (a ++ b ++ c) (Rs.map decompress ++ As.map some ++ Bs.map some) =
      .ok (((Rs.map decompress).mapM id : Option (List P)).map fun pts =>
        zsum (a.map Scalar.toZ) pts + zsum (b.map Scalar.toZ) As + zsum (c.map Scalar.toZ) Bs) := by
  unfold optionalMultiscalar
  rw [if_pos (by simp [h1, h2, h3])]
  simp only [mapM_id_append, mapM_id_map_some]
  cases hm : ((Rs.map decompress).mapM id : Option (List P)) with
  | none => rfl
  | some pts =>
    have hl := length_of_mapM hm
    simp only [Option.map_some, Option.bind_some]
    rw [multiscalar_zip, List.map_append, List.map_append,
      zsum_append (by simp; omega), zsum_append (by simp; omega)]

/-- The challenge of a batchable proof in a batch, which always uses the transcript labelled `VRF`. -/
def dleqBatchChallenge [Oracles] (p : VRFInOut P) (b : VRFProofBatchable) (pk : PublicKey P)
    (kusama : Bool) : Z :=
  (dleqChallenge (Transcript.new (b! "VRF")) kusama p.input.compressed pk.compressed b.R b.Hr
    p.output.compressed).toZ

/-- Defects of the two equations. -/
def dleqDefects [Oracles] (p : VRFInOut P) (b : VRFProofBatchable) (pk : PublicKey P)
    (kusama : Bool) (R Hr : P) : P × P :=
  let c := dleqBatchChallenge p b pk kusama
  (c • pk.point + b.s.toZ • (basepoint : P) - R, c • p.output.point + b.s.toZ • p.input.point - Hr)

private theorem decode_iff {n : Nat} (R : Fin n → Compressed) :
    (∀ q : Fin n → P, ((List.ofFn R).map decompress).mapM id = some (List.ofFn q) ↔
      ∀ i, compress (q i) = R i) ∧
    ((((List.ofFn R).map decompress).mapM id : Option (List P)) = none ↔
      ¬ ∃ q : Fin n → P, ∀ i, compress (q i) = R i) := by
  have h1 : ∀ q : Fin n → P, ((List.ofFn R).map decompress).mapM id = some (List.ofFn q) ↔
      ∀ i, compress (q i) = R i := by
    intro q
    rw [mapM_decompress_iff, List.map_ofFn]
    constructor
    · intro h i; exact congrFun (List.ofFn_injective h) i
    · intro h; congr 1; funext i; exact h i
  refine ⟨h1, ?_⟩
  constructor
  · rintro h ⟨q, hq⟩; rw [(h1 q).mpr hq] at h; cases h
  · intro h
    cases hm : (((List.ofFn R).map decompress).mapM id : Option (List P)) with
    | none => rfl
    | some pts =>
      obtain ⟨q, rfl, hq⟩ := map_eq_ofFn_iff.mp (mapM_decompress_iff.mp hm)
      exact absurd ⟨q, hq⟩ h

/-- **C32** the check after drawing coefficients `z`: accepts iff all commitments decode and both
weighted sums of defects vanish; otherwise `EquationFalse`. -/
theorem dleq_batch_equation_iff [Oracles] {n : Nat} (p : Fin n → VRFInOut P)
    (b : Fin n → VRFProofBatchable) (pk : Fin n → PublicKey P) (kusama : Bool)
    (z : Fin n → Fin (2 ^ 128)) :
    let out := dleqBatchEquation (List.ofFn p) (List.ofFn b) (List.ofFn pk) kusama
      (List.ofFn fun i => Scalar.ofNat (z i))
    (out = .ok () ↔ ∃ R Hr : Fin n → P, (∀ i, compress (R i) = (b i).R) ∧
      (∀ i, compress (Hr i) = (b i).Hr) ∧
      ∑ i, ((z i : Nat) : Z) • (dleqDefects (p i) (b i) (pk i) kusama (R i) (Hr i)).1 = 0 ∧
      ∑ i, ((z i : Nat) : Z) • (dleqDefects (p i) (b i) (pk i) kusama (R i) (Hr i)).2 = 0) ∧
    (out = .ok () ∨ out = .err .equationFalse) := by
  intro out
  have hzlt : ∀ x : Fin (2 ^ 128), (x : Nat) < ell := fun x =>
    x.2.trans (lt_trans (by norm_num) ell_gt)
  have hz : ∀ i, (Scalar.ofNat (z i : Nat)).toZ = ((z i : Nat) : Z) := fun i => Scalar.toZ_ofNat (hzlt _)
  let zz := List.ofFn fun i => Scalar.ofNat (z i : Nat)
  let c : Fin n → Scalar := fun i => dleqChallenge (Transcript.new (b! "VRF")) kusama
    (p i).input.compressed (pk i).compressed (b i).R (b i).Hr (p i).output.compressed
  have ezs : List.zipWith (fun z (proof : VRFProofBatchable) => z * proof.s) zz (List.ofFn b) =
      List.ofFn fun i => Scalar.ofNat (z i : Nat) * (b i).s := zipWith_ofFn _ _ _
  have ezc : List.zipWith (fun z (x : VRFProofBatchable × PublicKey P × VRFInOut P) =>
      z * (x.1.shortenDleq (Transcript.new (b! "VRF")) x.2.1 x.2.2 kusama).c) zz
      ((List.ofFn b).zip ((List.ofFn pk).zip (List.ofFn p))) =
      List.ofFn fun i => Scalar.ofNat (z i : Nat) * c i := by
    unfold List.zip
    rw [zipWith_ofFn, zipWith_ofFn, zipWith_ofFn]; rfl
  have hbsum : (Scalar.sum (List.ofFn fun i => Scalar.ofNat (z i : Nat) * (b i).s)).toZ =
      ∑ i, ((z i : Nat) : Z) * (b i).s.toZ := by
    rw [Scalar.toZ_sum (by
      intro s hs; rw [List.mem_ofFn] at hs; obtain ⟨i, rfl⟩ := hs; exact Scalar.canonical_mul _ _),
      List.map_ofFn, List.sum_ofFn]
    refine Finset.sum_congr rfl fun i _ => ?_
    simp only [Function.comp, Scalar.toZ_mul, hz]
  have hneg : (zz.map (- ·)).map Scalar.toZ = List.ofFn fun i => -((z i : Nat) : Z) := by
    simp only [zz, List.map_ofFn]
    congr 1; funext i; simp [Scalar.toZ_neg, hz]
  have hzc : (List.ofFn fun i => Scalar.ofNat (z i : Nat) * c i).map Scalar.toZ =
      List.ofFn fun i => ((z i : Nat) : Z) * (c i).toZ := by
    simp only [List.map_ofFn]
    congr 1; funext i; simp [Scalar.toZ_mul, hz]
  have hzs : (List.ofFn fun i => Scalar.ofNat (z i : Nat) * (b i).s).map Scalar.toZ =
      List.ofFn fun i => ((z i : Nat) : Z) * (b i).s.toZ := by
    simp only [List.map_ofFn]
    congr 1; funext i; simp [Scalar.toZ_mul, hz]
  -- the two multiscalar products
  have hms1 := opt_ms (zz.map (- ·)) (List.ofFn fun i => Scalar.ofNat (z i : Nat) * c i)
    [Scalar.sum (List.ofFn fun i => Scalar.ofNat (z i : Nat) * (b i).s)]
    (List.ofFn fun i => (b i).R) (List.ofFn fun i => (pk i).point) [(basepoint : P)]
    (by simp [zz]) (by simp) (by simp)
  have hms2 := opt_ms (zz.map (- ·)) (List.ofFn fun i => Scalar.ofNat (z i : Nat) * c i)
    (List.ofFn fun i => Scalar.ofNat (z i : Nat) * (b i).s)
    (List.ofFn fun i => (b i).Hr) (List.ofFn fun i => (p i).output.point)
    (List.ofFn fun i => (p i).input.point)
    (by simp [zz]) (by simp) (by simp)
  have hout : out = (do
      let b1 ← optionalMultiscalar (zz.map (- ·) ++ (List.ofFn fun i => Scalar.ofNat (z i : Nat) * c i) ++
          [Scalar.sum (List.ofFn fun i => Scalar.ofNat (z i : Nat) * (b i).s)])
        ((List.ofFn fun i => (b i).R).map decompress ++ (List.ofFn fun i => (pk i).point).map some ++
          [(basepoint : P)].map some)
      let b2 ← optionalMultiscalar (zz.map (- ·) ++ (List.ofFn fun i => Scalar.ofNat (z i : Nat) * c i) ++
          (List.ofFn fun i => Scalar.ofNat (z i : Nat) * (b i).s))
        ((List.ofFn fun i => (b i).Hr).map decompress ++ (List.ofFn fun i => (p i).output.point).map some ++
          (List.ofFn fun i => (p i).input.point).map some)
      let b := (b1.map fun id => decide (id = 0)).getD false &&
        (b2.map fun id => decide (id = 0)).getD false
      if b then .ok () else .err .equationFalse) := by
    simp only [out]
    unfold dleqBatchEquation
    simp only [zz] at ezs ezc
    simp only [ezs, ezc, zz]
    simp only [List.map_ofFn, List.map_cons, List.map_nil]
    rfl
  rw [hout, hms1, hms2]
  simp only [Outcome.bind_ok, hneg, hzc, hzs, List.map_cons, List.map_nil, hbsum]
  obtain ⟨hR1, hR2⟩ := decode_iff (P := P) fun i => (b i).R
  obtain ⟨hH1, hH2⟩ := decode_iff (P := P) fun i => (b i).Hr
  by_cases hdR : ∃ q : Fin n → P, ∀ i, compress (q i) = (b i).R
  · by_cases hdH : ∃ q : Fin n → P, ∀ i, compress (q i) = (b i).Hr
    · obtain ⟨R, hR⟩ := hdR
      obtain ⟨Hr, hHr⟩ := hdH
      rw [(hR1 R).mpr hR, (hH1 Hr).mpr hHr]
      simp only [Option.map_some, Option.getD_some, zsum_ofFn, zsum_cons, zsum_nil_left, add_zero]
      have s1 : ∑ i, (-((z i : Nat) : Z)) • R i + ∑ i, (((z i : Nat) : Z) * (c i).toZ) • (pk i).point +
          (∑ i, ((z i : Nat) : Z) * (b i).s.toZ) • (basepoint : P) =
          ∑ i, ((z i : Nat) : Z) • (dleqDefects (p i) (b i) (pk i) kusama (R i) (Hr i)).1 := by
        rw [Finset.sum_smul, ← Finset.sum_add_distrib, ← Finset.sum_add_distrib]
        refine Finset.sum_congr rfl fun i _ => ?_
        show _ = ((z i : Nat) : Z) • ((c i).toZ • (pk i).point + (b i).s.toZ • (basepoint : P) - R i)
        module
      have s2 : ∑ i, (-((z i : Nat) : Z)) • Hr i + ∑ i, (((z i : Nat) : Z) * (c i).toZ) • (p i).output.point +
          ∑ i, (((z i : Nat) : Z) * (b i).s.toZ) • (p i).input.point =
          ∑ i, ((z i : Nat) : Z) • (dleqDefects (p i) (b i) (pk i) kusama (R i) (Hr i)).2 := by
        rw [← Finset.sum_add_distrib, ← Finset.sum_add_distrib]
        refine Finset.sum_congr rfl fun i _ => ?_
        show _ = ((z i : Nat) : Z) • ((c i).toZ • (p i).output.point + (b i).s.toZ • (p i).input.point - Hr i)
        module
      rw [s1, s2]
      have huniq : (∃ R' Hr' : Fin n → P, (∀ i, compress (R' i) = (b i).R) ∧
          (∀ i, compress (Hr' i) = (b i).Hr) ∧
          ∑ i, ((z i : Nat) : Z) • (dleqDefects (p i) (b i) (pk i) kusama (R' i) (Hr' i)).1 = 0 ∧
          ∑ i, ((z i : Nat) : Z) • (dleqDefects (p i) (b i) (pk i) kusama (R' i) (Hr' i)).2 = 0) ↔
          ∑ i, ((z i : Nat) : Z) • (dleqDefects (p i) (b i) (pk i) kusama (R i) (Hr i)).1 = 0 ∧
          ∑ i, ((z i : Nat) : Z) • (dleqDefects (p i) (b i) (pk i) kusama (R i) (Hr i)).2 = 0 := by
        constructor
        · rintro ⟨R', Hr', a1, a2, a3⟩
          have e1 : R' = R := by funext i; exact compress_inj.mp (by rw [a1, hR])
          have e2 : Hr' = Hr := by funext i; exact compress_inj.mp (by rw [a2, hHr])
          rw [e1, e2] at a3; exact a3
        · intro h; exact ⟨R, Hr, hR, hHr, h⟩
      rw [huniq]
      simp only [Bool.and_eq_true, decide_eq_true_eq]
      constructor
      · constructor
        · intro h; split at h
          · assumption
          · cases h
        · intro h; rw [if_pos h]
      · split
        · exact .inl rfl
        · exact .inr rfl
    · rw [hH2.mpr hdH]
      simp only [Option.map_none, Option.getD_none, Bool.and_false, Bool.false_eq_true, if_false,
        reduceCtorEq, false_iff, or_true, and_true]
      rintro ⟨R', Hr', _, h, _⟩; exact hdH ⟨Hr', h⟩
  · rw [hR2.mpr hdR]
    simp only [Option.map_none, Option.getD_none, Bool.false_and, Bool.false_eq_true, if_false,
      reduceCtorEq, false_iff, or_true, and_true]
    rintro ⟨R', Hr', h, _⟩; exact hdR ⟨R', h⟩

private theorem dleq_fold_log [Oracles] (l : List (PublicKey P × VRFInOut P)) : ∀ t : Transcript,
    (l.foldl (fun t x => x.2.commit (commitPoint t (b! "") x.1.compressed)) t).log =
      t.log ++ ((l.map fun x => (x.1.compressed.1, encPair x.2)).map fun e =>
        MOp.append (b! "") e.1 :: Spec.pairFrames e.2).flatten := by
  induction l with
  | nil => intro t; simp
  | cons x l ih =>
    intro t
    rw [List.foldl_cons, ih]
    simp [VRFInOut.commit, commitPoint, commitBytes, Transcript.appendMessage, Spec.pairFrames, encPair]

/-- What the coefficients of a DLEQ batch are hashed from. -/
def batchEntries {n : Nat} (p : Fin n → VRFInOut P) (pk : Fin n → PublicKey P) :
    List (Bytes × Bytes × Bytes) :=
  List.ofFn fun i => ((pk i).compressed.1, (p i).input.compressed.1, (p i).output.compressed.1)

/-- **C32** `dleq_verify_batch` is "draw a coefficient vector, then check".  The coefficients are
128-bit hashes of the keys, inputs, outputs and 32 fresh system RNG bytes — and of nothing else: they
do not depend on the proofs, so the system RNG is what soundness rests on. -/
theorem dleq_verify_batch_is_check_of_drawn_coefficients [Oracles] {n : Nat} (p : Fin n → VRFInOut P)
    (b : Fin n → VRFProofBatchable) (pk : Fin n → PublicKey P) (kusama : Bool) (sys : Rng) :
    ∃ z : Fin n → Fin (2 ^ 128),
      (∀ i, (z i : Nat) = Spec.dleqBatchCoeff (batchEntries p pk) (sys.fill 32).1.1 i) ∧
      dleqVerifyBatch (List.ofFn p) (List.ofFn b) (List.ofFn pk) kusama sys =
        dleqBatchEquation (List.ofFn p) (List.ofFn b) (List.ofFn pk) kusama
          (List.ofFn fun i => Scalar.ofNat (z i)) := by
  refine ⟨fun i => ⟨Spec.dleqBatchCoeff (batchEntries p pk) (sys.fill 32).1.1 i, ?_⟩, fun i => rfl, ?_⟩
  · exact (Arr.leNat_lt _).trans_eq (by norm_num)
  · unfold dleqVerifyBatch
    rw [if_neg (by simp), if_neg (by simp)]
    simp only [Transcript.finalizeRng, Transcript.rekeyAll, List.map_nil, List.append_nil]
    rw [drawZs_eq, dleq_fold_log]
    congr 1
    apply List.ext_getElem (by simp)
    intro i h1 h2
    have hb : ((List.ofFn pk).zip (List.ofFn p)).map (fun x => (x.1.compressed.1, encPair x.2)) =
        batchEntries p pk := by
      unfold List.zip
      rw [zipWith_ofFn, List.map_ofFn]; rfl
    simp only [List.getElem_map, List.getElem_range, List.getElem_ofFn, Scalar.fromU128,
      Spec.dleqBatchCoeff, Spec.dleqBatchQuery, hb]
    rfl

/-- **C32** completeness: a batch of individually valid batchable proofs is accepted whatever the RNG.
Individually valid means: the shortened proof is accepted by `dleq_verify` and gives this batchable
proof back. -/
theorem dleq_verify_batch_complete [Oracles] {n : Nat} (p : Fin n → VRFInOut P)
    (b : Fin n → VRFProofBatchable) (pk : Fin n → PublicKey P) (kusama : Bool) (sys : Rng)
    (hv : ∀ i, (PublicKey.dleqVerify (pk i) (Transcript.new (b! "VRF")) (p i)
      ((b i).shortenDleq (Transcript.new (b! "VRF")) (pk i) (p i) kusama) kusama).1 = .ok (b i)) :
    dleqVerifyBatch (List.ofFn p) (List.ofFn b) (List.ofFn pk) kusama sys = .ok () := by
  obtain ⟨z, _, h⟩ := dleq_verify_batch_is_check_of_drawn_coefficients p b pk kusama sys
  rw [h, (dleq_batch_equation_iff p b pk kusama z).1]
  have hv' := fun i => ((dleq_verify_iff _ _ _ _ _).1 _ |>.mp (hv i)).2.1
  choose R Hr h1 h2 h3 h4 using hv'
  refine ⟨R, Hr, h1, h2, Finset.sum_eq_zero fun i _ => ?_, Finset.sum_eq_zero fun i _ => ?_⟩
  · have : (dleqDefects (p i) (b i) (pk i) kusama (R i) (Hr i)).1 = 0 := by
      rw [dleqDefects]; simp only
      rw [h3 i]; exact sub_self _
    rw [this, smul_zero]
  · have : (dleqDefects (p i) (b i) (pk i) kusama (R i) (Hr i)).2 = 0 := by
      rw [dleqDefects]; simp only
      rw [h4 i]; exact sub_self _
    rw [this, smul_zero]

/-- **C32** soundness by counting: if entry `j` is not a valid batchable proof, then of the `2^(128 n)`
coefficient vectors at most `2^(128 (n-1))` make the check succeed. -/
theorem dleq_verify_batch_sound_count [Oracles] {n : Nat} (p : Fin n → VRFInOut P)
    (b : Fin n → VRFProofBatchable) (pk : Fin n → PublicKey P) (kusama : Bool) (j : Fin n)
    (hbad : ¬ Spec.DleqValid (pk j).point (p j).input.point (p j).output.point (b j).R (b j).Hr
      (dleqBatchChallenge (p j) (b j) (pk j) kusama) (b j).s.toZ) :
    (Finset.univ.filter fun z : Fin n → Fin (2 ^ 128) =>
      dleqBatchEquation (List.ofFn p) (List.ofFn b) (List.ofFn pk) kusama
        (List.ofFn fun i => Scalar.ofNat (z i)) = .ok ()).card ≤ (2 ^ 128) ^ (n - 1) := by
  by_cases hd : (∃ R : Fin n → P, ∀ i, compress (R i) = (b i).R) ∧
      ∃ Hr : Fin n → P, ∀ i, compress (Hr i) = (b i).Hr
  · obtain ⟨⟨R, hR⟩, Hr, hHr⟩ := hd
    have hor : (dleqDefects (p j) (b j) (pk j) kusama (R j) (Hr j)).1 ≠ 0 ∨
        (dleqDefects (p j) (b j) (pk j) kusama (R j) (Hr j)).2 ≠ 0 := by
      by_contra hcon
      push Not at hcon
      exact hbad ⟨R j, Hr j, hR j, hHr j, (sub_eq_zero.mp hcon.1).symm, (sub_eq_zero.mp hcon.2).symm⟩
    have hsub : ∀ z : Fin n → Fin (2 ^ 128), dleqBatchEquation (List.ofFn p) (List.ofFn b)
        (List.ofFn pk) kusama (List.ofFn fun i => Scalar.ofNat (z i)) = .ok () →
        ∑ i, ((z i : Nat) : Z) • (dleqDefects (p i) (b i) (pk i) kusama (R i) (Hr i)).1 = 0 ∧
        ∑ i, ((z i : Nat) : Z) • (dleqDefects (p i) (b i) (pk i) kusama (R i) (Hr i)).2 = 0 := by
      intro z hz
      obtain ⟨R', Hr', a1, a2, a3⟩ := (dleq_batch_equation_iff p b pk kusama z).1.mp hz
      have e1 : R' = R := by funext i; exact compress_inj.mp (by rw [a1, hR])
      have e2 : Hr' = Hr := by funext i; exact compress_inj.mp (by rw [a2, hHr])
      rw [e1, e2] at a3; exact a3
    rcases hor with h | h
    · refine le_trans (Finset.card_le_card ?_) (vanishing_count
        (fun i => (dleqDefects (p i) (b i) (pk i) kusama (R i) (Hr i)).1) j h)
      intro z hz
      simp only [Finset.mem_filter, Finset.mem_univ, true_and] at hz ⊢
      exact (hsub z hz).1
    · refine le_trans (Finset.card_le_card ?_) (vanishing_count
        (fun i => (dleqDefects (p i) (b i) (pk i) kusama (R i) (Hr i)).2) j h)
      intro z hz
      simp only [Finset.mem_filter, Finset.mem_univ, true_and] at hz ⊢
      exact (hsub z hz).2
  · rw [Finset.filter_eq_empty_iff.mpr, Finset.card_empty]
    · exact Nat.zero_le _
    · intro z _ h
      obtain ⟨R, Hr, hR, hHr, _⟩ := (dleq_batch_equation_iff p b pk kusama z).1.mp h
      exact hd ⟨⟨R, hR⟩, Hr, hHr⟩

/-- **C32** an entry is a valid batchable proof iff the shortened proof verifies to it. -/
theorem dleq_valid_iff_shortened_verifies [Oracles] (p : VRFInOut P) (b : VRFProofBatchable)
    (pk : PublicKey P) (kusama : Bool) :
    Spec.DleqValid pk.point p.input.point p.output.point b.R b.Hr (dleqBatchChallenge p b pk kusama)
      b.s.toZ ↔
    (PublicKey.dleqVerify pk (Transcript.new (b! "VRF")) p
      (b.shortenDleq (Transcript.new (b! "VRF")) pk p kusama) kusama).1 = .ok b := by
  rw [(dleq_verify_iff _ _ _ _ _).1]
  constructor
  · intro h; exact ⟨rfl, h, rfl⟩
  · intro h; exact h.2.1

/-- **C32** `dleq_verify_batch` panics iff the three lengths are not all equal. -/
theorem dleq_verify_batch_panics_iff [Oracles] (ps : List (VRFInOut P))
    (proofs : List VRFProofBatchable) (pks : List (PublicKey P)) (kusama : Bool) (sys : Rng) :
    (dleqVerifyBatch ps proofs pks kusama sys).isPanic = true ↔
      ¬ (ps.length = proofs.length ∧ proofs.length = pks.length) := by
  by_cases h : ps.length = proofs.length
  · by_cases h2 : proofs.length = pks.length
    · have : ∃ (n : Nat) (p : Fin n → VRFInOut P) (b : Fin n → VRFProofBatchable)
          (pk : Fin n → PublicKey P), ps = List.ofFn p ∧ proofs = List.ofFn b ∧ pks = List.ofFn pk := by
        refine ⟨ps.length, fun i => ps[i], fun i => proofs[i]'(h ▸ i.2), fun i => pks[i]'(h2 ▸ h ▸ i.2),
          ?_, ?_, ?_⟩
        · exact (List.ofFn_getElem (xs := ps)).symm
        · apply List.ext_getElem (by simp [h]); intro i _ _; simp
        · apply List.ext_getElem (by simp [h, h2]); intro i _ _; simp
      obtain ⟨n, p, b, pk, rfl, rfl, rfl⟩ := this
      obtain ⟨z, _, hz⟩ := dleq_verify_batch_is_check_of_drawn_coefficients p b pk kusama sys
      rw [hz]
      rcases (dleq_batch_equation_iff p b pk kusama z).2 with h3 | h3 <;> rw [h3] <;>
        simp [Outcome.isPanic]
    · unfold dleqVerifyBatch
      rw [if_neg (by simpa using h), if_pos h2]
      simp [Outcome.isPanic, h2]
  · unfold dleqVerifyBatch
    rw [if_pos h]
    simp [Outcome.isPanic, h]

/-- **C32** `vrf_verify_batch` on `n` entries (with at most one surplus transcript, which is ignored):
if every claimed output decodes to a non-identity point, the verdict is that of `dleq_verify_batch` on
the attached pairs, which are also returned; otherwise `PointDecompressionError`. -/
theorem vrf_verify_batch_spec [Oracles] {n : Nat} (t : Fin n → VRFTranscript T)
    (extra : List (VRFTranscript T)) (hx : extra.length ≤ 1) (o : Fin n → VRFPreOut)
    (b : Fin n → VRFProofBatchable) (pk : Fin n → PublicKey P) (sys : Rng) :
    (∀ q : Fin n → P, (∀ i, q i ≠ 0 ∧ compress (q i) = (o i).bytes) →
      let io : Fin n → VRFInOut P := fun i => ⟨PublicKey.vrfHash (pk i) (t i), ⟨(o i).bytes, q i⟩⟩
      vrfVerifyBatch (List.ofFn t ++ extra) (List.ofFn o) (List.ofFn b) (List.ofFn pk) sys =
        if dleqVerifyBatch (List.ofFn io) (List.ofFn b) (List.ofFn pk) KUSAMA_VRF sys = .ok ()
        then .ok (List.ofFn io) else .err .equationFalse) ∧
    ((¬ ∃ q : Fin n → P, ∀ i, q i ≠ 0 ∧ compress (q i) = (o i).bytes) →
      vrfVerifyBatch (List.ofFn t ++ extra) (List.ofFn o) (List.ofFn b) (List.ofFn pk) sys =
        .err .pointDecompressionError) := by
  have hzip : ((List.ofFn t ++ extra).zip (List.ofFn pk)).zip (List.ofFn o) =
      List.ofFn fun i => ((t i, pk i), o i) := by
    have : (List.ofFn t ++ extra).zip (List.ofFn pk) = (List.ofFn t).zip (List.ofFn pk) := by
      rw [← List.append_nil (List.ofFn pk), List.zip_append (by simp)]; simp
    rw [this]
    unfold List.zip
    rw [zipWith_ofFn, zipWith_ofFn]
  have hforall : ∀ (m : Nat) (f : Fin m → (VRFTranscript T × PublicKey P) × VRFPreOut),
      (∀ q : Fin m → P, (∀ i, q i ≠ 0 ∧ compress (q i) = (f i).2.bytes) →
        ((List.ofFn f).mapM fun x => x.2.attachInputHash x.1.2 x.1.1) =
          .ok (List.ofFn fun i => ⟨PublicKey.vrfHash (f i).1.2 (f i).1.1, ⟨(f i).2.bytes, q i⟩⟩)) ∧
      ((¬ ∃ q : Fin m → P, ∀ i, q i ≠ 0 ∧ compress (q i) = (f i).2.bytes) →
        ((List.ofFn f).mapM fun x => x.2.attachInputHash x.1.2 x.1.1) =
          .error .pointDecompressionError) := by
    intro m
    induction m with
    | zero =>
      intro f
      refine ⟨fun _ _ => by simp; rfl, fun h => absurd ⟨Fin.elim0, fun i => i.elim0⟩ h⟩
    | succ m ih =>
      intro f
      obtain ⟨ih1, ih2⟩ := ih fun i => f i.succ
      rw [List.ofFn_succ, List.mapM_cons]
      constructor
      · intro q hq
        have h0 : (f 0).2.attachInputHash (f 0).1.2 (f 0).1.1 =
            .ok ⟨PublicKey.vrfHash (f 0).1.2 (f 0).1.1, ⟨(f 0).2.bytes, q 0⟩⟩ :=
          (attach_input_hash_table _ _ _).1 _ |>.mpr ⟨rfl, rfl, (hq 0).2, (hq 0).1⟩
        rw [h0, ih1 (fun i => q i.succ) (fun i => hq i.succ), List.ofFn_succ]
        rfl
      · intro hno
        by_cases h0 : ∃ q : P, q ≠ 0 ∧ compress q = (f 0).2.bytes
        · obtain ⟨q0, hq0⟩ := h0
          have h0 : (f 0).2.attachInputHash (f 0).1.2 (f 0).1.1 =
              .ok ⟨PublicKey.vrfHash (f 0).1.2 (f 0).1.1, ⟨(f 0).2.bytes, q0⟩⟩ :=
            (attach_input_hash_table _ _ _).1 _ |>.mpr ⟨rfl, rfl, hq0.2, hq0.1⟩
          rw [h0, ih2]
          · rfl
          · rintro ⟨q, hq⟩
            refine hno ⟨Fin.cons q0 q, fun i => ?_⟩
            refine Fin.cases ?_ (fun i => ?_) i
            · exact hq0
            · simpa using hq i
        · rw [((attach_input_hash_table _ _ _).2 _).mpr ⟨rfl, h0⟩]
          rfl
  obtain ⟨m1, m2⟩ := hforall n fun i => ((t i, pk i), o i)
  unfold vrfVerifyBatch
  rw [hzip]
  constructor
  · intro q hq io
    rw [m1 q hq]
    simp only [Outcome.ofExcept, Outcome.bind_ok]
    rw [if_neg (by simp; omega), if_neg (by simp)]
    have hnp : (dleqVerifyBatch (List.ofFn io) (List.ofFn b) (List.ofFn pk) KUSAMA_VRF sys).isPanic ≠ true := by
      rw [Ne, dleq_verify_batch_panics_iff]; simp
    show (match dleqVerifyBatch (List.ofFn io) (List.ofFn b) (List.ofFn pk) KUSAMA_VRF sys with
      | .ok () => _ | .err _ => _ | .panic m => _) = _
    cases hd : dleqVerifyBatch (List.ofFn io) (List.ofFn b) (List.ofFn pk) KUSAMA_VRF sys with
    | ok u => cases u; rw [if_pos rfl]
    | err e => rw [if_neg (by simp)]
    | panic m => rw [hd] at hnp; simp [Outcome.isPanic] at hnp
  · intro h
    rw [m2 h]; rfl

/-- **C31/C32** exactly when `vrf_verify_batch` panics: all outputs it gets to look at encode points other than the identity, and the
numbers of outputs, proofs and keys are not all equal, or there are fewer transcripts than outputs or at
least two more. -/
theorem vrf_verify_batch_panics_iff [Oracles] (ts : List (VRFTranscript T)) (outs : List VRFPreOut)
    (proofs : List VRFProofBatchable) (pks : List (PublicKey P)) (sys : Rng) :
    (vrfVerifyBatch ts outs proofs pks sys).isPanic = true ↔
      (∀ o ∈ outs.take (min ts.length pks.length), ∃ q : P, q ≠ 0 ∧ compress q = o.bytes) ∧
      ¬ (outs.length = proofs.length ∧ proofs.length = pks.length ∧ outs.length ≤ ts.length ∧
        ts.length ≤ outs.length + 1) := by
  have hmap : (∃ ps, (((ts.zip pks).zip outs).mapM fun x => x.2.attachInputHash x.1.2 x.1.1) = Except.ok ps) ↔
      ∀ o ∈ outs.take (min ts.length pks.length), ∃ q : P, q ≠ 0 ∧ compress q = o.bytes := by
    clear proofs
    induction ts generalizing outs pks with
    | nil => simp; exact ⟨[], rfl⟩
    | cons t ts ih =>
      cases pks with
      | nil => simp; exact ⟨[], rfl⟩
      | cons pk pks =>
        cases outs with
        | nil => simp; exact ⟨[], rfl⟩
        | cons o outs =>
          have ih := ih outs pks
          simp only [List.zip_cons_cons, List.length_cons, Nat.add_min_add_right, List.take_succ_cons, List.mem_cons,
            forall_eq_or_imp]
          rw [← ih]
          constructor
          · rintro ⟨ps, h⟩
            obtain _ | ⟨h1, h2⟩ := (mapM_except_forall₂ _).mp h
            obtain ⟨_, _, a, b⟩ := (attach_input_hash_table o pk t).1 _ |>.mp h1
            exact ⟨⟨_, b, a⟩, _, (mapM_except_forall₂ _).mpr h2⟩
          · rintro ⟨⟨q, h1, h2⟩, ps, h3⟩
            refine ⟨⟨PublicKey.vrfHash pk t, ⟨o.bytes, q⟩⟩ :: ps, (mapM_except_forall₂ _).mpr (.cons ?_
              ((mapM_except_forall₂ _).mp h3))⟩
            exact (attach_input_hash_table o pk t).1 _ |>.mpr ⟨rfl, rfl, h2, h1⟩
  rw [← hmap]
  unfold vrfVerifyBatch
  cases hm : (((ts.zip pks).zip outs).mapM fun x => x.2.attachInputHash x.1.2 x.1.1) with
  | error e => simp [Outcome.ofExcept, Outcome.isPanic]
  | ok ps =>
    have hl := mapM_except_length _ hm
    simp only [List.length_zip] at hl
    have hex : ∃ a, (Except.ok ps : SignatureResult (List (VRFInOut P))) = Except.ok a := ⟨ps, rfl⟩
    simp only [Outcome.ofExcept, Outcome.bind_ok, hex, true_and]
    by_cases h1 : ts.drop (min pks.length outs.length + 1) ≠ []
    · rw [if_pos h1]
      have : min pks.length outs.length + 1 < ts.length := by simpa using h1
      simp only [Outcome.isPanic, true_iff]; omega
    · rw [if_neg h1]
      have h1' : ts.length ≤ min pks.length outs.length + 1 := by simpa using h1
      by_cases h2 : ps.length ≠ outs.length
      · rw [if_pos h2]; simp only [Outcome.isPanic, true_iff]; omega
      · rw [if_neg h2]
        push Not at h2
        have hd := dleq_verify_batch_panics_iff ps proofs pks KUSAMA_VRF sys
        have h3 : ¬ (ps.length = proofs.length ∧ proofs.length = pks.length) ↔
            ¬ (outs.length = proofs.length ∧ proofs.length = pks.length ∧ outs.length ≤ ts.length ∧
              ts.length ≤ outs.length + 1) := by omega
        rw [← h3, ← hd]
        cases dleqVerifyBatch ps proofs pks KUSAMA_VRF sys <;> rfl

/-! ## C33: bytes derived from a VRF output -/

/-- **C33** `make_bytes` is a hash of the context, the encoded input and the encoded output, and of
nothing else. -/
theorem make_bytes_is_query [Oracles] (p : VRFInOut P) (context : Bytes) (n : Nat) :
    p.makeBytes context n =
      Oracles.merlin (Spec.vrfResultQuery context (p.input.compressed.1, p.output.compressed.1) n) n := by
  unfold VRFInOut.makeBytes VRFInOut.commit Spec.vrfResultQuery Spec.pairFrames
  simp [commitPoint, commitBytes, Transcript.appendMessage, Transcript.new, Transcript.challengeBytes]

/-- **C33** different contexts, inputs, outputs or lengths are different queries. -/
theorem vrf_result_query_injective {c₁ c₂ : Bytes} {p₁ p₂ : Bytes × Bytes} {n₁ n₂ : Nat}
    (h : Spec.vrfResultQuery c₁ p₁ n₁ = Spec.vrfResultQuery c₂ p₂ n₂) : c₁ = c₂ ∧ p₁ = p₂ ∧ n₁ = n₂ := by
  simp [Spec.vrfResultQuery, Spec.pairFrames] at h
  exact ⟨h.1, Prod.ext h.2.1 h.2.2.1, h.2.2.2⟩

/-- **C33** signer and verifier derive the same bytes; and any two *valid* proofs for the same key and
transcript — different RNGs, extra transcripts, even different proof values — give the same bytes,
provided the outputs are the true ones. -/
theorem make_bytes_agree [Oracles] (sk : SecretKey)
    (t : VRFTranscript Transcript) (e₁ e₂ : E) (sys₁ sys₂ : Rng) (context : Bytes) (n : Nat)
    (io : VRFInOut P) (b : VRFProofBatchable) (proof : VRFProof) (o : VRFPreOut) (e : E')
    (hv : PublicKey.vrfVerifyExtra (sk.toPublic : PublicKey P) t o proof e = .ok (io, b))
    (htrue : io.output.point = sk.key.val • io.input.point) :
    let kp : Keypair P := sk.toKeypair
    (kp.vrfSignExtra t e₁ sys₁).1.makeBytes context n = (kp.vrfSignExtra t e₂ sys₂).1.makeBytes context n ∧
    io.makeBytes context n = (kp.vrfSignExtra t e₁ sys₁).1.makeBytes context n := by
  intro kp
  refine ⟨rfl, ?_⟩
  obtain ⟨h1, h2, h3, _⟩ := vrf_verify_rejects_identity _ _ _ _ _ _ _ hv
  have hin : io.input = (kp.vrfCreateHash t).input := h3
  have hout : io.output.compressed = (kp.vrfCreateHash t).output.compressed := by
    have ho : io.output.compressed = o.bytes := by
      unfold PublicKey.vrfVerifyExtra at hv
      cases ha : o.attachInputHash (sk.toPublic : PublicKey P) t with
      | error er => rw [ha] at hv; cases hv
      | ok io' =>
        rw [ha] at hv
        have hv : (do let b ← (PublicKey.dleqVerify (sk.toPublic : PublicKey P) e io' proof KUSAMA_VRF).1
                      Except.ok (io', b)) = Except.ok (io, b) := hv
        cases hd : (PublicKey.dleqVerify (sk.toPublic : PublicKey P) e io' proof KUSAMA_VRF).1 with
        | error er => rw [hd] at hv; cases hv
        | ok b' =>
          rw [hd] at hv; injection hv with hv; injection hv with e1 e2
          subst e1
          exact ((attach_input_hash_table o _ t).1 io' |>.mp ha).2.1
    rw [ho, ← h2, htrue, hin]
    rfl
  have : (kp.vrfSignExtra t e₁ sys₁).1 = kp.vrfCreateHash t := rfl
  rw [make_bytes_is_query, make_bytes_is_query, this, hin, hout]


/-! ## Non-vacuity -/

/-- secret key 3 in the toy environment -/
def toySk : SecretKey := ⟨Scalar.ofNat 3, zeros 32⟩

theorem toy_output_ne : letI := toyOracles
    ((toySk.toKeypair : Keypair Toy).vrfCreateHash
      (.plain (Transcript.new (b! "demo")))).output.point ≠ 0 := by
  letI := toyOracles
  rw [Ne, vrf_output_identity_iff toySk (by decide +kernel)]
  decide +kernel

/-- Non-vacuity (C25–C29): a concrete key and transcript whose VRF output is not the identity, so the
honest proof is accepted with the pair and batchable proof returned by signing. -/
example : letI := toyOracles
    let kp : Keypair Toy := toySk.toKeypair
    let t : VRFTranscript Transcript := .plain (Transcript.new (b! "demo"))
    let out := kp.vrfSign t zeroRng
    PublicKey.vrfVerify kp.pub t out.1.toPreout out.2.1 = .ok (out.1, out.2.2) := by
  letI := toyOracles
  intro kp t out
  have h := vrf_sign_then_verify_merlin (P := Toy) toySk t zeroRng
  have h0 : out.1.output.point ≠ 0 := toy_output_ne
  simp only at h
  exact h.trans (if_neg h0)

/-- Non-vacuity (C30, C31): two transcripts, one of them repeated input, accepted; and accepted again
with a surplus transcript. -/
example : letI := toyOracles
    let kp : Keypair Toy := toySk.toKeypair
    let t : VRFTranscript Transcript := .plain (Transcript.new (b! "demo"))
    ∃ ps proof b, kp.vrfsSign [t, t] zeroRng = .ok (ps, proof, b) ∧
      PublicKey.vrfsVerify kp.pub [t, t] (ps.map (·.toPreout)) proof = .ok (ps, b) ∧
      PublicKey.vrfsVerify kp.pub ([t, t] ++ [.malleable (Transcript.new (b! "other"))])
        (ps.map (·.toPreout)) proof = .ok (ps, b) := by
  letI := toyOracles
  intro kp t
  obtain ⟨ps, proof, b, h1, h2, h3⟩ := vrfs_sign_then_verify (P := Toy) merlin_sim merlin_sim toySk
    (ts := [t, t]) (ts' := [t, t]) (by simp)
    (.cons (.plain rfl) (.cons (.plain rfl) .nil)) (e := Transcript.new (b! "VRF")) rfl zeroRng
  have h0 : (kp.vrfCreateHash t).output.point ≠ 0 := toy_output_ne
  have h4 : PublicKey.vrfsVerify kp.pub [t, t] (ps.map (·.toPreout)) proof = .ok (ps, b) := by
    refine h3.trans (if_pos ?_)
    rw [h2]
    simp only [List.map_cons, List.map_nil, List.all_cons, List.all_nil, Bool.and_true,
      Bool.and_eq_true, decide_eq_true_eq]
    exact ⟨h0, h0⟩
  refine ⟨ps, proof, b, h1, h4, ?_⟩
  have h5 := vrfs_verify_ignores_one_surplus kp.pub [t, t] (.malleable (Transcript.new (b! "other")))
    (ps.map fun p => p.toPreout) (by simp [h2]) proof (Transcript.new (b! "VRF"))
  exact h5.trans h4

/-- Non-vacuity (C27): the all-zero bytes are rejected as an output for every key and transcript. -/
example (pk : PublicKey P) (t : VRFTranscript T) :
    (VRFPreOut.mk (zeros 32)).attachInputHash pk t = .error .pointDecompressionError := by
  rw [((attach_input_hash_table _ pk t).2 _)]
  refine ⟨rfl, ?_⟩
  rintro ⟨q, h1, h2⟩
  exact h1 (compress_inj.mp (h2.trans Ristretto.compress_zero.symm))

/-- Non-vacuity (C32): a batch of two honest proofs is accepted. -/
example : letI := toyOracles
    let kp : Keypair Toy := toySk.toKeypair
    let t : VRFTranscript Transcript := .plain (Transcript.new (b! "demo"))
    let out := kp.vrfSign t zeroRng
    dleqVerifyBatch [out.1, out.1] [out.2.2, out.2.2] [kp.pub, kp.pub] KUSAMA_VRF zeroRng = .ok () := by
  letI := toyOracles
  intro kp t out
  have h := dleq_verify_batch_complete (P := Toy) (n := 2) (fun _ => out.1) (fun _ => out.2.2)
    (fun _ => kp.pub) KUSAMA_VRF zeroRng (by
      intro _
      have e := vrf_shorten_agrees.1 merlin_sim kp (Transcript.new (b! "VRF")) _ rfl
        (kp.vrfCreateHash t) KUSAMA_VRF zeroRng
      have e' : out.2.2.shortenDleq (Transcript.new (b! "VRF")) kp.pub out.1 KUSAMA_VRF = out.2.1 := e
      rw [e']
      exact (dleq_prove_then_verify merlin_sim toySk rfl (kp.vrfCreateHash t) rfl KUSAMA_VRF zeroRng).1)
  simpa using h

end Schnorrkel.Props
