import Verif.Props.Batch
import Verif.Props.Sign
import Verif.Spec.BatchForge
import Verif.Props.Zk

/-! # C64: the batch coefficients do not depend on the signatures' scalars -/

namespace Schnorrkel.Props
open SigningTranscript
variable {P : Type} [Ristretto P] {T : Type} [SigningTranscript T]

/-- **C64** two batches with the same transcripts, keys and `R`s, whose scalars have the same coefficient-weighted sum,
always get the same verdict. -/
theorem batch_verdict_by_weighted_sum [Oracles] {n : Nat} (mode : ZipMode) (t : Fin n → T) (sig sig' : Fin n → Signature)
    (pk : Fin n → PublicKey P) (hw : ∀ i, (pk i).WF) (dedup : Bool) (rng : Rng) (hR : ∀ i, (sig' i).R = (sig i).R)
    (hs : ∑ i, ((Spec.coefficient t (fun i => (sig i).R) pk (rng.fill 32).1.1 i : Nat) : Z) * (sig' i).s.toZ =
      ∑ i, ((Spec.coefficient t (fun i => (sig i).R) pk (rng.fill 32).1.1 i : Nat) : Z) * (sig i).s.toZ) :
    verifyBatchRng mode (List.ofFn t) (List.ofFn sig') (List.ofFn pk) dedup rng =
      verifyBatchRng mode (List.ofFn t) (List.ofFn sig) (List.ofFn pk) dedup rng := by
  have h1 := verify_batch_iff mode t sig pk hw dedup rng
  have h2 := verify_batch_iff mode t sig' pk hw dedup rng
  simp only [hR] at h2
  have key : ∀ R : Fin n → P, ∀ s : Fin n → Signature,
      (∑ i, ((Spec.coefficient t (fun i => (sig i).R) pk (rng.fill 32).1.1 i : Nat) : Z) •
        Spec.defect (R i) (pk i).point (sigChallenge (t i) (pk i).compressed (sig i).R) (s i).s.toZ) =
      (∑ i, ((Spec.coefficient t (fun i => (sig i).R) pk (rng.fill 32).1.1 i : Nat) : Z) •
        (R i + sigChallenge (t i) (pk i).compressed (sig i).R • (pk i).point)) -
      (∑ i, ((Spec.coefficient t (fun i => (sig i).R) pk (rng.fill 32).1.1 i : Nat) : Z) * (s i).s.toZ) •
        (basepoint : P) := by
    intro R s
    rw [Finset.sum_smul, ← Finset.sum_sub_distrib]
    apply Finset.sum_congr rfl
    intro i _
    unfold Spec.defect
    module
  have e : verifyBatchRng mode (List.ofFn t) (List.ofFn sig') (List.ofFn pk) dedup rng = .ok () ↔
      verifyBatchRng mode (List.ofFn t) (List.ofFn sig) (List.ofFn pk) dedup rng = .ok () := by
    rw [h1.1, h2.1]
    constructor <;> rintro ⟨R, hRR, hsum⟩ <;> refine ⟨R, hRR, ?_⟩
    · exact ((key R sig).trans (by rw [← hs]; exact (key R sig').symm)).trans hsum
    · exact ((key R sig').trans (by rw [hs]; exact (key R sig).symm)).trans hsum
  rcases h1.2 with a | a <;> rcases h2.2 with b | b
  · rw [a, b]
  · rw [e.mpr a] at b; cases b
  · rw [e.mp b] at a; cases a
  · rw [a, b]

/-- **C64 (defect)** take any batch of valid signatures and any two positions `i ≠ j`. Adding the `j`-th coefficient to
the `i`-th scalar and subtracting the `i`-th coefficient from the `j`-th scalar, which needs no secret, gives a batch
that `verify_batch_deterministic` still accepts although (the coefficients being non-zero) neither altered signature is
valid. -/
theorem deterministic_batch_accepts_invalid_signatures [Oracles] {n : Nat} (mode : ZipMode) (t : Fin n → T)
    (sig : Fin n → Signature) (pk : Fin n → PublicKey P) (hw : ∀ i, (pk i).WF) (hc : ∀ i, (sig i).s.Canonical)
    (hv : ∀ i, (PublicKey.verify (pk i) (t i) (sig i)).1 = .ok ()) (dedup : Bool) (i j : Fin n) (hij : i ≠ j) :
    let z := Spec.coefficient t (fun i => (sig i).R) pk (zeros 32).1
    let sig' := Spec.shiftPair sig i j (z j) (z i)
    verifyBatchDeterministic mode (List.ofFn t) (List.ofFn sig') (List.ofFn pk) dedup = .ok () ∧
    (z j ≠ 0 → (PublicKey.verify (pk i) (t i) (sig' i)).1 = .error .equationFalse) ∧
    (z i ≠ 0 → (PublicKey.verify (pk j) (t j) (sig' j)).1 = .error .equationFalse) := by
  intro z sig'
  have hR : ∀ l, (sig' l).R = (sig l).R := by
    intro l; simp only [sig', Spec.shiftPair]; split_ifs <;> rfl
  have hzlt : ∀ l, z l < ell := fun l => Scalar.u128_lt _
  have hz : ∀ l, (Scalar.ofNat (z l)).toZ = ((z l : Nat) : Z) := fun l => Scalar.toZ_ofNat (hzlt l)
  have hzc : ∀ l, (Scalar.ofNat (z l)).Canonical := fun l => Scalar.canonical_ofNat (hzlt l)
  have hsi : (sig' i).s.toZ = (sig i).s.toZ + (z j : Z) := by
    simp only [sig', Spec.shiftPair, if_true]; exact (Scalar.toZ_add (hc i) (hzc j)).trans (by rw [hz])
  have hsj : (sig' j).s.toZ = (sig j).s.toZ - (z i : Z) := by
    simp only [sig', Spec.shiftPair, if_neg hij.symm, if_true]; exact (Scalar.toZ_sub (hc j) (hzc i)).trans (by rw [hz])
  have hsl : ∀ l, l ≠ i → l ≠ j → sig' l = sig l := by
    intro l h1 h2; simp only [sig', Spec.shiftPair, if_neg h1, if_neg h2]
  have hne : ∀ l, z l ≠ 0 → ((z l : Nat) : Z) ≠ 0 := by
    intro l h h0
    rw [ZMod.natCast_eq_zero_iff] at h0
    exact h (Nat.eq_zero_of_dvd_of_lt h0 (hzlt l))
  have hbad : ∀ l, (sig' l).s.Canonical → (sig' l).s.toZ ≠ (sig l).s.toZ →
      (PublicKey.verify (pk l) (t l) (sig' l)).1 = .error .equationFalse := by
    intro l hcl hl
    have hnot : (PublicKey.verify (pk l) (t l) (sig' l)).1 ≠ .ok () := by
      intro h
      have := signature_s_unique (pk l) (t l) (sig' l) (sig l) (hR l) hcl (hc l) h (hv l)
      exact hl (by rw [this])
    revert hnot
    unfold PublicKey.verify
    simp only
    split_ifs <;> simp
  refine ⟨?_, fun h => hbad i ?_ ?_, fun h => hbad j ?_ ?_⟩
  · refine (batch_verdict_by_weighted_sum mode t sig sig' pk hw dedup notAnRng hR ?_).trans
      (verify_batch_complete mode t sig pk hw hv dedup notAnRng).1
    show ∑ l, (z l : Z) * (sig' l).s.toZ = ∑ l, (z l : Z) * (sig l).s.toZ
    rw [← sub_eq_zero, ← Finset.sum_sub_distrib, ← Finset.add_sum_erase _ _ (Finset.mem_univ i),
      ← Finset.add_sum_erase _ _ (Finset.mem_erase.mpr ⟨hij.symm, Finset.mem_univ j⟩), Finset.sum_eq_zero, hsi, hsj]
    · ring
    · intro l hl
      rw [Finset.mem_erase, Finset.mem_erase] at hl
      rw [hsl l hl.2.1 hl.1, sub_self]
  · simp only [sig', Spec.shiftPair, if_true]; exact Scalar.canonical_add (hc i) (hzc j)
  · rw [hsi]; intro h'; exact hne j h (by simpa using h')
  · simp only [sig', Spec.shiftPair, if_neg hij.symm, if_true]; exact Scalar.canonical_sub (hc j) (hzc i)
  · rw [hsj]; intro h'; exact hne i h (by simpa using h')

/-! ## What an accepted half-aggregate proves -/

/-- **C64** the verdict of `PreparedBatch::verify`: `Ok` iff every `R` decodes and the coefficient-weighted sum of
`R + k·A` is the prepared scalar times the base point; otherwise `EquationFalse`. -/
theorem prepared_batch_verify_iff [Oracles] {n : Nat} (mode : ZipMode) (t : Fin n → T) (R : Fin n → Compressed)
    (pk : Fin n → PublicKey P) (hw : ∀ i, (pk i).WF) (dedup : Bool) (bs : Scalar) :
    let out := PreparedBatch.verify mode ⟨bs, List.ofFn R⟩ (List.ofFn t) (List.ofFn pk) dedup
    (out = .ok () ↔ ∃ p : Fin n → P, (∀ i, compress (p i) = R i) ∧
      ∑ i, ((Spec.coefficient t R pk (zeros 32).1 i : Nat) : Z) •
        (p i + sigChallenge (t i) (pk i).compressed (R i) • (pk i).point) = bs.toZ • basepoint) ∧
    (out = .ok () ∨ out = .err .equationFalse) := by
  intro out
  have he : mode.rest (List.ofFn t ++ []) n = [] := by
    rw [rest_nil_iff]; cases mode <;> simp
  have hp := prepare_ofFn mode t [] R pk notAnRng he
  rw [List.append_nil] at hp
  set z : Fin n → Scalar := fun i => Scalar.ofNat (Spec.coefficient t R pk (zeros 32).1 i) with hzdef
  set k : Fin n → Scalar := fun i => entryChallenge (t i) (pk i).compressed (R i) with hk
  have hz : ∀ i, (z i).toZ = ((Spec.coefficient t R pk (zeros 32).1 i : Nat) : Z) :=
    fun i => Scalar.toZ_ofNat (Scalar.u128_lt _)
  have hout : out = verifyBatchEquation bs (List.ofFn z) (List.ofFn k) (List.ofFn R) (List.ofFn pk) dedup := by
    show PreparedBatch.verify mode ⟨bs, List.ofFn R⟩ (List.ofFn t) (List.ofFn pk) dedup = _
    unfold PreparedBatch.verify
    rw [if_neg (by simp), hp]
    rfl
  rw [hout, verifyBatchEquation_eq _ _ _ _ _ _ (by
      intro p hp; rw [List.mem_ofFn] at hp; obtain ⟨i, rfl⟩ := hp; exact hw i) (by simp) (by simp)
      (by simp)]
  have hh : hzsum (List.ofFn k) (List.ofFn z) (List.ofFn pk) =
      ∑ i, ((k i).toZ * (z i).toZ) • (pk i).point := by
    unfold hzsum
    rw [zipWith_ofFn, List.map_ofFn, zsum_ofFn]; rfl
  have hsum : ∀ p : Fin n → P, zsum ((List.ofFn z).map Scalar.toZ) (List.ofFn p) +
      hzsum (List.ofFn k) (List.ofFn z) (List.ofFn pk) =
      ∑ i, ((Spec.coefficient t R pk (zeros 32).1 i : Nat) : Z) •
        (p i + sigChallenge (t i) (pk i).compressed (R i) • (pk i).point) := by
    intro p
    rw [hh, List.map_ofFn, zsum_ofFn, ← Finset.sum_add_distrib]
    apply Finset.sum_congr rfl
    intro i _
    rw [← hz]
    show (z i).toZ • p i + ((k i).toZ * (z i).toZ) • (pk i).point = (z i).toZ • (p i + (k i).toZ • (pk i).point)
    module
  cases hm : (((List.ofFn R).map decompress).mapM id : Option (List P)) with
  | none =>
    refine ⟨?_, .inr rfl⟩
    simp only [reduceCtorEq, false_iff]
    rintro ⟨q, hq, _⟩
    have : (((List.ofFn R).map decompress).mapM id : Option (List P)) = some (List.ofFn q) := by
      rw [mapM_decompress_iff, List.map_ofFn]
      congr 1; funext i; exact hq i
    rw [this] at hm; cases hm
  | some pts =>
    obtain ⟨q, rfl, hq⟩ := map_eq_ofFn_iff.mp (mapM_decompress_iff.mp hm)
    simp only [hsum]
    constructor
    · constructor
      · intro h
        split at h
        · rename_i h2; exact ⟨q, hq, h2⟩
        · cases h
      · rintro ⟨p, hp, h⟩
        have : p = q := by funext i; exact compress_inj.mp (by rw [hp, hq])
        subst this
        rw [if_pos h]
    · split
      · exact .inl rfl
      · exact .inr rfl

/-- The query for coefficient `j` is never the query for a digest or for a signature challenge. -/
theorem batchQuery_ne (a b c : List Bytes) (r : Bytes) (j : Nat) (l : List MOp) (x : MOp) (y : Bytes) :
    l ++ [.rekey (b! "") [], .rngKey y, .prf 16] ≠ Spec.batchQuery a b c r j ∧
    (∀ lb m, x = .challenge lb m → l ++ [x] ≠ Spec.batchQuery a b c r j) := by
  constructor
  · intro h
    have h2 := congrArg List.reverse h
    unfold Spec.batchQuery at h2
    simp only [List.reverse_append, List.reverse_replicate, List.replicate_succ, List.reverse_cons, List.reverse_nil,
      List.nil_append, List.cons_append, List.append_assoc, List.cons.injEq] at h2
    cases j with
    | zero =>
      simp only [List.replicate_zero, List.nil_append, List.cons.injEq, ← List.map_reverse] at h2
      have h3 := h2.2.2
      rcases hc : c.reverse with _ | ⟨c0, cs⟩
      · rcases hb : b.reverse with _ | ⟨b0, bs⟩
        · rcases ha : a.reverse with _ | ⟨a0, as⟩ <;> simp [hc, hb, ha] at h3
        · simp [hc, hb] at h3
      · simp [hc] at h3
    | succ j =>
      rw [List.replicate_succ, List.cons_append, List.cons.injEq] at h2
      cases j <;> simp [List.replicate_succ] at h2
  · rintro lb m rfl h
    have h2 := congrArg List.reverse h
    unfold Spec.batchQuery at h2
    rw [List.reverse_append, List.reverse_append, List.reverse_replicate, List.replicate_succ] at h2
    simp at h2

open Spec in
/-- The verdict over merlin transcripts, in terms of hash queries. -/
theorem preparedVerifyWith_iff (O : Oracles) {n : Nat} (mode : ZipMode) (t : Fin n → Transcript)
    (R : Fin n → Compressed) (pk : Fin n → PublicKey P) (hw : ∀ i, (pk i).WF) (dedup : Bool) (bs : Scalar) :
    preparedVerifyWith O mode ⟨bs, List.ofFn R⟩ (List.ofFn t) (List.ofFn pk) dedup = .ok () ↔
      ∃ p : Fin n → P, (∀ i, compress (p i) = R i) ∧
      ∑ i, coefficientWith O t R pk (zeros 32).1 i •
        (p i + hashWith O (Use.signature (t i).log (pk i).compressed.1 (R i).1).query • (pk i).point) =
        bs.toZ • basepoint := by
  letI := O
  refine (prepared_batch_verify_iff mode t R pk hw dedup bs).1.trans ?_
  simp only [sigChallenge_merlin]
  have : ∀ i, ((Spec.coefficient t R pk (zeros 32).1 i : Nat) : Z) = coefficientWith O t R pk (zeros 32).1 i := by
    intro i
    unfold Spec.coefficient coefficientWith coefficientQuery batchCoeff
    have : ∀ i, (witnessBytesRng (t i) (b! "") 16 [[]] notAnRng).1 = O.merlin (digestQuery (t i).log) 16 := by
      intro i
      show O.merlin ((t i).log ++ [MOp.rekey (b! "") []] ++ [MOp.rngKey _] ++ [MOp.prf 16]) 16 = _
      unfold digestQuery
      rw [List.append_assoc, List.append_assoc]
      rfl
    simp only [this]
  simp only [this]
  rfl

open Spec in
/-- **C64** special soundness of half-aggregation: two scalars that make the same `R`s verify for the same transcripts
and keys, under hash functions that differ only in the answer for the `j`-th coefficient, give a valid signature of
the `j`-th transcript under the `j`-th key.  So although the scalars in an accepted batch may be wrong, whoever can make
such batches can make every signature in them. -/
theorem half_aggregate_extracts (O O' : Oracles) {n : Nat} (mode mode' : ZipMode) (t : Fin n → Transcript)
    (R : Fin n → Compressed) (pk : Fin n → PublicKey P) (hw : ∀ i, (pk i).WF) (dedup dedup' : Bool) (bs bs' : Scalar)
    (j : Fin n) (hO : ∀ q m, q ≠ coefficientQuery O t R pk (zeros 32).1 j → O'.merlin q m = O.merlin q m)
    (hne : coefficientWith O t R pk (zeros 32).1 j ≠ coefficientWith O' t R pk (zeros 32).1 j)
    (h : preparedVerifyWith O mode ⟨bs, List.ofFn R⟩ (List.ofFn t) (List.ofFn pk) dedup = .ok ())
    (h' : preparedVerifyWith O' mode' ⟨bs', List.ofFn R⟩ (List.ofFn t) (List.ofFn pk) dedup' = .ok ()) :
    verifyWith O (pk j) (t j) ⟨R j, Scalar.ofZ ((bs.toZ - bs'.toZ) /
      (coefficientWith O t R pk (zeros 32).1 j - coefficientWith O' t R pk (zeros 32).1 j))⟩ = .ok () := by
  obtain ⟨p, hp, e⟩ := (preparedVerifyWith_iff O mode t R pk hw dedup bs).mp h
  obtain ⟨p', hp', e'⟩ := (preparedVerifyWith_iff O' mode' t R pk hw dedup' bs').mp h'
  have : p' = p := by funext i; exact compress_inj.mp (by rw [hp, hp'])
  subst this
  have hdig : ∀ i, O'.merlin (digestQuery (t i).log) 16 = O.merlin (digestQuery (t i).log) 16 := fun i =>
    hO _ _ (batchQuery_ne _ _ _ _ _ _ (.prf 0) _).1
  have hch : ∀ i, hashWith O' (Use.signature (t i).log (pk i).compressed.1 (R i).1).query =
      hashWith O (Use.signature (t i).log (pk i).compressed.1 (R i).1).query := by
    intro i
    unfold hashWith hashToZ
    have := hO (Use.signature (t i).log (pk i).compressed.1 (R i).1).query 64
      ((batchQuery_ne _ _ _ _ _ _ _ (b! "")).2 _ _ rfl)
    exact congrArg (fun a : Arr 64 => ((leNat a.1 : Nat) : Z)) this
  have hq : ∀ i, coefficientQuery O' t R pk (zeros 32).1 i = coefficientQuery O t R pk (zeros 32).1 i := by
    intro i; unfold coefficientQuery; simp only [hdig]
  have hco : ∀ i, i ≠ j → coefficientWith O' t R pk (zeros 32).1 i = coefficientWith O t R pk (zeros 32).1 i := by
    intro i hi
    unfold coefficientWith
    rw [hq, hO]
    unfold coefficientQuery
    intro hq
    exact hi (Fin.ext (batch_query_injective rfl rfl hq).2.2.2.2)
  simp only [hch] at e'
  rw [← Finset.add_sum_erase _ _ (Finset.mem_univ j)] at e e'
  rw [Finset.sum_congr rfl fun i hi => by rw [hco i (Finset.ne_of_mem_erase hi)]] at e'
  have e2 := congrArg₂ (· - ·) e e'
  simp only [add_sub_add_right_eq_sub] at e2
  rw [← sub_smul, ← sub_smul] at e2
  rw [verifyWith_iff]
  simp only [Scalar.toZ_ofZ]
  rw [div_eq_inv_mul, mul_smul, ← e2, smul_smul, inv_mul_cancel₀ (sub_ne_zero.mpr hne), one_smul, add_sub_cancel_right,
    hp]

/-- Two signatures by two different keys on two different messages, in the toy environment. -/
private def toyBatch : Fin 2 → Signature × PublicKey Toy × Transcript := fun i =>
  letI := toyOracles
  let sk : SecretKey := ⟨Scalar.ofNat (12345 + i), zeros 32⟩
  let t := (SigningContext.new (b! "ctx")).bytes [UInt8.ofNat i]
  ((sk.sign t (sk.toPublic : PublicKey Toy) zeroRng).1, sk.toPublic, t)

/-- Non-vacuity for C64: the altered batch is accepted, and neither of its signatures verifies. -/
example :
    letI := toyOracles
    let sig := fun i => (toyBatch i).1
    let pk := fun i => (toyBatch i).2.1
    let t := fun i => (toyBatch i).2.2
    let z := Spec.coefficient t (fun i => (sig i).R) pk (zeros 32).1
    let sig' := Spec.shiftPair sig 0 1 (z 1) (z 0)
    (∀ i, (PublicKey.verify (pk i) (t i) (sig i)).1 = .ok ()) ∧
    verifyBatchDeterministic .generic (List.ofFn t) (List.ofFn sig') (List.ofFn pk) false = .ok () ∧
    (∀ i, (PublicKey.verify (pk i) (t i) (sig' i)).1 = .error .equationFalse) := by
  decide +kernel

open Spec in
/-- Non-vacuity for `half_aggregate_extracts`: for all hash functions, keys and nonces there are other hash functions,
different in the `j`-th coefficient only, and prepared scalars satisfying all its hypotheses. -/
example (O : Oracles) {n : Nat} (mode : ZipMode) (t : Fin n → Transcript) (x r : Fin n → Z) (dedup : Bool) (j : Fin n) :
    let R : Fin n → Compressed := fun i => compress (r i • (basepoint : P))
    let pk : Fin n → PublicKey P := fun i => PublicKey.fromPoint (x i • (basepoint : P))
    ∃ (O' : Oracles) (bs bs' : Scalar),
      (∀ q m, q ≠ coefficientQuery O t R pk (zeros 32).1 j → O'.merlin q m = O.merlin q m) ∧
      coefficientWith O t R pk (zeros 32).1 j ≠ coefficientWith O' t R pk (zeros 32).1 j ∧
      preparedVerifyWith O mode ⟨bs, List.ofFn R⟩ (List.ofFn t) (List.ofFn pk) dedup = .ok () ∧
      preparedVerifyWith O' mode ⟨bs', List.ofFn R⟩ (List.ofFn t) (List.ofFn pk) dedup = .ok () := by
  intro R pk
  have hex : ∀ O : Oracles, ∃ bs, preparedVerifyWith O mode ⟨bs, List.ofFn R⟩ (List.ofFn t) (List.ofFn pk) dedup = .ok () := by
    intro O
    refine ⟨Scalar.ofZ (∑ i, coefficientWith O t R pk (zeros 32).1 i *
      (r i + hashWith O (Use.signature (t i).log (pk i).compressed.1 (R i).1).query * x i)), ?_⟩
    refine (preparedVerifyWith_iff O mode t R pk (fun i => rfl) dedup _).mpr ⟨fun i => r i • basepoint, fun i => rfl, ?_⟩
    rw [Scalar.toZ_ofZ, Finset.sum_smul]
    apply Finset.sum_congr rfl
    intro i _
    show _ • (r i • basepoint + _ • x i • (basepoint : P)) = _
    rw [mul_smul, add_smul, mul_smul]
  let v : Nat := if leNat (O.merlin (coefficientQuery O t R pk (zeros 32).1 j) 16).1 = 0 then 1 else 0
  let Q := coefficientQuery O t R pk (zeros 32).1 j
  let O' : Oracles := { O with merlin := fun q m => if q = Q then leArr m v else O.merlin q m }
  have hO : ∀ q m, q ≠ coefficientQuery O t R pk (zeros 32).1 j → O'.merlin q m = O.merlin q m :=
    fun q m h => if_neg h
  obtain ⟨bs, h⟩ := hex O
  obtain ⟨bs', h'⟩ := hex O'
  refine ⟨O', bs, bs', hO, ?_, h, h'⟩
  have hdig : ∀ i, O'.merlin (digestQuery (t i).log) 16 = O.merlin (digestQuery (t i).log) 16 := fun i =>
    hO _ _ (batchQuery_ne _ _ _ _ _ _ (.prf 0) _).1
  have hq : coefficientQuery O' t R pk (zeros 32).1 j = coefficientQuery O t R pk (zeros 32).1 j := by
    unfold coefficientQuery; simp only [hdig]
  unfold coefficientWith
  rw [hq]
  have hv : O'.merlin (coefficientQuery O t R pk (zeros 32).1 j) 16 = leArr 16 v := if_pos rfl
  rw [hv]
  intro h0
  have h5 := congrArg ZMod.val h0
  rw [ZMod.val_natCast, ZMod.val_natCast, Nat.mod_eq_of_lt (Scalar.u128_lt _), Nat.mod_eq_of_lt (Scalar.u128_lt _)] at h5
  simp only [leArr, leNat_leBytes, v] at h5
  split_ifs at h5 with h6
  · rw [h6] at h5; norm_num at h5
  · exact h6 (by simpa using h5)

end Schnorrkel.Props
