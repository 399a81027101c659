import Verif.Lemmas.Batch
import Verif.Instance
import Mathlib.Algebra.BigOperators.Fin
import Mathlib.Data.Fintype.BigOperators
import Mathlib.Data.Fintype.Pi

/-! # C21–C24: batch verification -/

namespace Schnorrkel.Props
open SigningTranscript
variable {P : Type} [Ristretto P] {T : Type} [SigningTranscript T]

/-- The last phase, in indexed form. -/
private theorem equation_iff {n : Nat} (sig : Fin n → Signature) (pk : Fin n → PublicKey P)
    (hw : ∀ i, (pk i).WF) (z k : Fin n → Scalar) (dedup : Bool) :
    (verifyBatchEquation (basepointCoefficient (List.ofFn sig) (List.ofFn z)) (List.ofFn z)
      (List.ofFn k) (List.ofFn fun i => (sig i).R) (List.ofFn pk) dedup = .ok () ↔
      ∃ R : Fin n → P, (∀ i, compress (R i) = (sig i).R) ∧
        ∑ i, (z i).toZ • Spec.defect (R i) (pk i).point (k i).toZ (sig i).s.toZ = 0) ∧
    (verifyBatchEquation (basepointCoefficient (List.ofFn sig) (List.ofFn z)) (List.ofFn z)
      (List.ofFn k) (List.ofFn fun i => (sig i).R) (List.ofFn pk) dedup = .ok () ∨
     verifyBatchEquation (basepointCoefficient (List.ofFn sig) (List.ofFn z)) (List.ofFn z)
      (List.ofFn k) (List.ofFn fun i => (sig i).R) (List.ofFn pk) dedup = .err .equationFalse) := by
  rw [verifyBatchEquation_eq _ _ _ _ _ _ (by
      intro p hp; rw [List.mem_ofFn] at hp; obtain ⟨i, rfl⟩ := hp; exact hw i) (by simp) (by simp)
      (by simp)]
  have hb : (basepointCoefficient (List.ofFn sig) (List.ofFn z)).toZ • (basepoint : P) =
      ∑ i, ((z i).toZ * (sig i).s.toZ) • (basepoint : P) := by
    rw [basepointCoefficient_toZ, zipWith_ofFn, List.sum_ofFn, Finset.sum_smul]
  have hh : hzsum (List.ofFn k) (List.ofFn z) (List.ofFn pk) =
      ∑ i, ((k i).toZ * (z i).toZ) • (pk i).point := by
    unfold hzsum
    rw [zipWith_ofFn, List.map_ofFn, zsum_ofFn]; rfl
  have hsum : ∀ R : Fin n → P, (zsum ((List.ofFn z).map Scalar.toZ) (List.ofFn R) +
      hzsum (List.ofFn k) (List.ofFn z) (List.ofFn pk) =
      (basepointCoefficient (List.ofFn sig) (List.ofFn z)).toZ • (basepoint : P)) ↔
      ∑ i, (z i).toZ • Spec.defect (R i) (pk i).point (k i).toZ (sig i).s.toZ = 0 := by
    intro R
    rw [hb, hh, List.map_ofFn, zsum_ofFn, ← sub_eq_zero, ← Finset.sum_add_distrib,
      ← Finset.sum_sub_distrib]
    have : ∀ i, (z i).toZ • R i + ((k i).toZ * (z i).toZ) • (pk i).point -
        ((z i).toZ * (sig i).s.toZ) • (basepoint : P) =
        (z i).toZ • Spec.defect (R i) (pk i).point (k i).toZ (sig i).s.toZ := by
      intro i; unfold Spec.defect; module
    rw [← Finset.sum_congr rfl fun i _ => this i]
    rfl
  cases hm : (((List.ofFn fun i => (sig i).R).map decompress).mapM id : Option (List P)) with
  | none =>
    refine ⟨?_, .inr rfl⟩
    simp only [reduceCtorEq, false_iff]
    rintro ⟨R, hR, _⟩
    have : (((List.ofFn fun i => (sig i).R).map decompress).mapM id : Option (List P)) =
        some (List.ofFn R) := by
      rw [mapM_decompress_iff, List.map_ofFn]
      congr 1; funext i; exact hR i
    rw [this] at hm; cases hm
  | some pts =>
    obtain ⟨q, rfl, hq⟩ := map_eq_ofFn_iff.mp (mapM_decompress_iff.mp hm)
    simp only [hsum]
    constructor
    · constructor
      · intro h
        split at h
        · rename_i h2; exact ⟨q, hq, h2⟩
        · cases h
      · rintro ⟨R, hR, h⟩
        have : R = q := by funext i; exact compress_inj.mp (by rw [hR, hq])
        subst this
        rw [if_pos h]
    · split
      · exact .inl rfl
      · exact .inr rfl

theorem rest_nil_iff {α : Type} (mode : ZipMode) (l : List α) (n : Nat) :
    mode.rest l n = [] ↔ l.length ≤ (match mode with | .generic => n + 1 | .trustedLen => n) := by
  cases mode <;> simp [ZipMode.rest]

/-- The drawn coefficients of a batch, in indexed form. -/
theorem coeffs_ofFn [Oracles] (a b c : List Bytes) (r : Bytes) (n : Nat) :
    coeffs a b c r n = List.ofFn fun i : Fin n => Scalar.ofNat (Spec.batchCoeff a b c r i) := by
  unfold coeffs
  apply List.ext_getElem (by simp)
  intro i h1 h2
  simp [Scalar.fromU128, Spec.batchCoeff, Spec.batchQuery, coeffLog]

/-- Everything after drawing the coefficients `z`: what `verify_batch_rng` computes from them. -/
def batchCheck {n : Nat} (t : Fin n → T) (sig : Fin n → Signature) (pk : Fin n → PublicKey P)
    (dedup : Bool) (z : Fin n → Nat) : Outcome Unit :=
  let zs := List.ofFn fun i => Scalar.ofNat (z i)
  let ks := List.ofFn fun i => entryChallenge (t i) (pk i).compressed (sig i).R
  verifyBatchEquation (basepointCoefficient (List.ofFn sig) zs) zs ks (List.ofFn fun i => (sig i).R)
    (List.ofFn pk) dedup

theorem prepare_ofFn [Oracles] {n : Nat} (mode : ZipMode) (t : Fin n → T) (extra : List T)
    (R : Fin n → Compressed) (pk : Fin n → PublicKey P) (rng : Rng)
    (he : mode.rest (List.ofFn t ++ extra) n = []) :
    prepareBatch mode (List.ofFn t ++ extra) (List.ofFn R) (List.ofFn pk) rng =
    .ok (List.ofFn fun i : Fin n => Scalar.ofNat (Spec.batchCoeff
          (List.ofFn fun i => (pk i).compressed.1) (List.ofFn fun i => (R i).1)
          (List.ofFn fun i => (entryDigest (t i)).1) (rng.fill 32).1.1 i),
        List.ofFn fun i => entryChallenge (t i) (pk i).compressed (R i)) := by
  rw [prepareBatch_eq _ _ _ _ _ (by simp)]
  simp only [List.length_ofFn]
  rw [if_neg (by simp [he])]
  have htk : (List.ofFn t ++ extra).take n = List.ofFn t := by
    rw [List.take_append_of_le_length (by simp)]; simp
  rw [htk]
  have h1 : (List.ofFn pk).map (fun x => x.compressed.1) = List.ofFn fun i => (pk i).compressed.1 := by
    rw [List.map_ofFn]; rfl
  have h2 : (List.ofFn R).map (fun x => x.1) = List.ofFn fun i => (R i).1 := by
    rw [List.map_ofFn]; rfl
  have h3 : (List.ofFn t).map (fun x => (entryDigest x).1) = List.ofFn fun i => (entryDigest (t i)).1 := by
    rw [List.map_ofFn]; rfl
  rw [h1, h2, h3, coeffs_ofFn]
  have h4 : ((List.ofFn pk).map (·.compressed)).zip (List.ofFn R) =
      List.ofFn fun i => ((pk i).compressed, R i) := by
    rw [List.map_ofFn]
    unfold List.zip
    rw [zipWith_ofFn]; rfl
  rw [h4, zipWith_ofFn]

private theorem batch_run [Oracles] {n : Nat} (mode : ZipMode) (t : Fin n → T) (extra : List T)
    (sig : Fin n → Signature) (pk : Fin n → PublicKey P) (dedup : Bool) (rng : Rng)
    (he : mode.rest (List.ofFn t ++ extra) n = []) :
    verifyBatchRng mode (List.ofFn t ++ extra) (List.ofFn sig) (List.ofFn pk) dedup rng =
      batchCheck t sig pk dedup (fun i : Fin n => Spec.batchCoeff
        (List.ofFn fun i => (pk i).compressed.1) (List.ofFn fun i => (sig i).R.1)
        (List.ofFn fun i => (entryDigest (t i)).1) (rng.fill 32).1.1 i) := by
  unfold verifyBatchRng
  rw [if_neg (by simp)]
  have hR : (List.ofFn sig).map (·.R) = List.ofFn fun i => (sig i).R := by rw [List.map_ofFn]; rfl
  rw [hR, prepare_ofFn mode t extra _ pk rng he]
  rfl

/-! ## C21: completeness, and the exact meaning of the verdict -/

/-- **C21/C22** the verdict of batch verification on `n` triples: `Ok` iff every `R` decodes and the
coefficient-weighted sum of the individual defects vanishes; otherwise `EquationFalse`.  The
coefficients are 128-bit hash outputs over everything in the batch.  Independent of `dedup` and of
the iterator kind. -/
theorem verify_batch_iff [Oracles] {n : Nat} (mode : ZipMode) (t : Fin n → T)
    (sig : Fin n → Signature) (pk : Fin n → PublicKey P) (hw : ∀ i, (pk i).WF) (dedup : Bool)
    (rng : Rng) :
    let z : Fin n → Z := fun i => ((Spec.batchCoeff (List.ofFn fun i => (pk i).compressed.1)
      (List.ofFn fun i => (sig i).R.1)
      (List.ofFn fun i => (witnessBytesRng (t i) (b! "") 16 [[]] notAnRng).1.1)
      (rng.fill 32).1.1 i : Nat) : Z)
    let out := verifyBatchRng mode (List.ofFn t) (List.ofFn sig) (List.ofFn pk) dedup rng
    (out = .ok () ↔ ∃ R : Fin n → P, (∀ i, compress (R i) = (sig i).R) ∧
      ∑ i, z i • Spec.defect (R i) (pk i).point (sigChallenge (t i) (pk i).compressed (sig i).R)
        (sig i).s.toZ = 0) ∧
    (out = .ok () ∨ out = .err .equationFalse) := by
  intro z out
  have he : mode.rest (List.ofFn t ++ []) n = [] := by
    rw [rest_nil_iff]; cases mode <;> simp
  have hrun := batch_run mode t [] sig pk dedup rng he
  rw [List.append_nil] at hrun
  have hz : ∀ i : Fin n, (Scalar.ofNat (Spec.batchCoeff (List.ofFn fun i => (pk i).compressed.1)
      (List.ofFn fun i => (sig i).R.1) (List.ofFn fun i => (entryDigest (t i)).1)
      (rng.fill 32).1.1 i)).toZ = z i := fun i => Scalar.toZ_ofNat (Scalar.u128_lt _)
  have h := equation_iff sig pk hw (fun i => Scalar.ofNat (Spec.batchCoeff
      (List.ofFn fun i => (pk i).compressed.1) (List.ofFn fun i => (sig i).R.1)
      (List.ofFn fun i => (entryDigest (t i)).1) (rng.fill 32).1.1 i))
      (fun i => entryChallenge (t i) (pk i).compressed (sig i).R) dedup
  simp only [hz] at h
  have hrun' : out = _ := hrun
  rw [hrun']
  exact h

theorem verify_iff_defect (pk : PublicKey P) (t : T) (sig : Signature) (R : P)
    (hR : compress R = sig.R) :
    (PublicKey.verify pk t sig).1 = .ok () ↔
      Spec.defect R pk.point (sigChallenge t pk.compressed sig.R) sig.s.toZ = 0 := by
  rw [verify_ok_iff']
  unfold Spec.defect
  rw [sub_eq_zero]
  constructor
  · rintro ⟨R', h1, h2⟩
    rw [h2, compress_inj.mp (h1.trans hR.symm)]
  · intro h; exact ⟨R, hR, h.symm⟩

/-- **C21** a batch of individually valid triples always verifies: every size, RNG, iterator kind,
with or without deduplication; `verify_batch` and `verify_batch_deterministic` included. -/
theorem verify_batch_complete [Oracles] {n : Nat} (mode : ZipMode) (t : Fin n → T)
    (sig : Fin n → Signature) (pk : Fin n → PublicKey P) (hw : ∀ i, (pk i).WF)
    (hv : ∀ i, (PublicKey.verify (pk i) (t i) (sig i)).1 = .ok ()) (dedup : Bool) (rng : Rng) :
    verifyBatchRng mode (List.ofFn t) (List.ofFn sig) (List.ofFn pk) dedup rng = .ok () ∧
    verifyBatch mode (List.ofFn t) (List.ofFn sig) (List.ofFn pk) dedup rng = .ok () ∧
    verifyBatchDeterministic mode (List.ofFn t) (List.ofFn sig) (List.ofFn pk) dedup = .ok () := by
  have key : ∀ rng, verifyBatchRng mode (List.ofFn t) (List.ofFn sig) (List.ofFn pk) dedup rng = .ok () := by
    intro rng
    rw [(verify_batch_iff mode t sig pk hw dedup rng).1]
    choose R hR _ using fun i => (verify_ok_iff' _ _ _).mp (hv i)
    refine ⟨R, hR, Finset.sum_eq_zero fun i _ => ?_⟩
    rw [(verify_iff_defect _ _ _ _ (hR i)).mp (hv i), smul_zero]
  exact ⟨key rng, key rng, key notAnRng⟩

/-- **C21** deduplicating public keys never changes the outcome (verdict or panic), for arbitrary
lists of arbitrary lengths. -/
theorem dedup_irrelevant [Oracles] (mode : ZipMode) (ts : List T) (sigs : List Signature)
    (pks : List (PublicKey P)) (hw : ∀ p ∈ pks, p.WF) (rng : Rng) :
    verifyBatchRng mode ts sigs pks true rng = verifyBatchRng mode ts sigs pks false rng := by
  unfold verifyBatchRng
  by_cases h : sigs.length = pks.length
  · rw [if_neg (by simpa using h), if_neg (by simpa using h)]
    rw [prepareBatch_eq _ _ _ _ _ (by simpa using h)]
    split
    · rfl
    · rename_i h2
      simp only [Outcome.bind_ok]
      push Not at h2
      simp only [List.length_map] at h2
      rw [verifyBatchEquation_eq _ _ _ _ _ _ hw (by simp [coeffs_length]) (by simp; omega) (by simpa using h),
        verifyBatchEquation_eq _ _ _ _ _ _ hw (by simp [coeffs_length]) (by simp; omega) (by simpa using h)]
  · rw [if_pos h, if_pos h]

/-- **C21** with exactly as many transcripts as signatures the iterator kind is irrelevant. -/
theorem iterator_kind_irrelevant [Oracles] (m₁ m₂ : ZipMode) (ts : List T) (sigs : List Signature)
    (pks : List (PublicKey P)) (hl : ts.length = sigs.length) (dedup : Bool) (rng : Rng) :
    verifyBatchRng m₁ ts sigs pks dedup rng = verifyBatchRng m₂ ts sigs pks dedup rng := by
  unfold verifyBatchRng prepareBatch
  have : ∀ m : ZipMode, m.rest ts (sigs.map (·.R)).length = [] := by
    intro m; rw [rest_nil_iff]; cases m <;> simp [hl]
  simp only [this]

/-! ## C22: soundness by counting -/

/-- A linear form with a non-zero coefficient vanishes on at most a `2⁻¹²⁸` fraction of the vectors of
128-bit integers. -/
theorem vanishing_count {n : Nat} (D : Fin n → P) (j : Fin n) (hj : D j ≠ 0) :
    (Finset.univ.filter fun z : Fin n → Fin (2 ^ 128) => ∑ i, ((z i : Nat) : Z) • D i = 0).card ≤
      (2 ^ 128) ^ (n - 1) := by
  have hinj : Set.InjOn (fun (z : Fin n → Fin (2 ^ 128)) (i : {i : Fin n // i ≠ j}) => z i)
      (Finset.univ.filter fun z : Fin n → Fin (2 ^ 128) => ∑ i, ((z i : Nat) : Z) • D i = 0) := by
    intro z hz z' hz' h
    simp only [Finset.coe_filter, Finset.mem_univ, true_and, Set.mem_setOf_eq] at hz hz'
    have hoff : ∀ i, i ≠ j → z i = z' i := fun i hi => congrFun h ⟨i, hi⟩
    rw [← Finset.add_sum_erase _ _ (Finset.mem_univ j)] at hz hz'
    have hs : ∑ i ∈ Finset.univ.erase j, ((z i : Nat) : Z) • D i =
        ∑ i ∈ Finset.univ.erase j, ((z' i : Nat) : Z) • D i :=
      Finset.sum_congr rfl fun i hi => by rw [hoff i (Finset.ne_of_mem_erase hi)]
    rw [hs, ← hz'] at hz
    have h2 := add_right_cancel hz
    have h3 : (((z j : Nat) : Z) - ((z' j : Nat) : Z)) • D j = 0 := by
      rw [sub_smul, h2, sub_self]
    rcases smul_eq_zero.mp h3 with h4 | h4
    · funext i
      by_cases hi : i = j
      · subst hi
        have h5 := congrArg ZMod.val (sub_eq_zero.mp h4)
        have hlt : ∀ x : Fin (2 ^ 128), (x : Nat) < ell := fun x =>
          x.2.trans (lt_trans (by norm_num) ell_gt)
        rw [ZMod.val_natCast, ZMod.val_natCast, Nat.mod_eq_of_lt (hlt _), Nat.mod_eq_of_lt (hlt _)] at h5
        exact Fin.ext h5
      · exact hoff i hi
    · exact absurd h4 hj
  calc _ = ((Finset.univ.filter fun z : Fin n → Fin (2 ^ 128) => ∑ i, ((z i : Nat) : Z) • D i = 0).image
        (fun z (i : {i : Fin n // i ≠ j}) => z i)).card := (Finset.card_image_of_injOn hinj).symm
    _ ≤ Fintype.card ({i : Fin n // i ≠ j} → Fin (2 ^ 128)) := Finset.card_le_univ _
    _ = (2 ^ 128) ^ (n - 1) := by
      rw [Fintype.card_fun, Fintype.card_fin]
      congr 1
      rw [Fintype.card_subtype_compl]
      simp

/-- **C22** `verify_batch_rng` is "draw a coefficient vector, then `batchCheck`". -/
theorem verify_batch_is_check_of_drawn_coefficients [Oracles] {n : Nat} (mode : ZipMode)
    (t : Fin n → T) (sig : Fin n → Signature) (pk : Fin n → PublicKey P) (dedup : Bool) (rng : Rng) :
    ∃ z : Fin n → Fin (2 ^ 128),
      (∀ i, (z i : Nat) = Spec.batchCoeff (List.ofFn fun i => (pk i).compressed.1)
        (List.ofFn fun i => (sig i).R.1)
        (List.ofFn fun i => (witnessBytesRng (t i) (b! "") 16 [[]] notAnRng).1.1) (rng.fill 32).1.1 i) ∧
      verifyBatchRng mode (List.ofFn t) (List.ofFn sig) (List.ofFn pk) dedup rng =
        batchCheck t sig pk dedup fun i => z i := by
  have he : mode.rest (List.ofFn t ++ []) n = [] := by
    rw [rest_nil_iff]; cases mode <;> simp
  have hrun := batch_run mode t [] sig pk dedup rng he
  rw [List.append_nil] at hrun
  refine ⟨fun i => ⟨Spec.batchCoeff (List.ofFn fun i => (pk i).compressed.1)
        (List.ofFn fun i => (sig i).R.1)
        (List.ofFn fun i => (entryDigest (t i)).1) (rng.fill 32).1.1 i, ?_⟩, fun i => rfl, hrun⟩
  have := (Oracles.merlin (Spec.batchQuery (List.ofFn fun i => (pk i).compressed.1)
        (List.ofFn fun i => (sig i).R.1)
        (List.ofFn fun i => (entryDigest (t i)).1) (rng.fill 32).1.1 i) 16).leNat_lt
  unfold Spec.batchCoeff
  calc _ < 256 ^ 16 := this
    _ = 2 ^ 128 := by norm_num

/-- **C22** if some triple of the batch does not verify individually, at most `2^(128(n-1))` of the
`2^(128n)` coefficient vectors make the batch verify. -/
theorem verify_batch_sound_count {n : Nat} (t : Fin n → T) (sig : Fin n → Signature)
    (pk : Fin n → PublicKey P) (hw : ∀ i, (pk i).WF) (j : Fin n)
    (hbad : (PublicKey.verify (pk j) (t j) (sig j)).1 ≠ .ok ()) (dedup : Bool) :
    (Finset.univ.filter fun z : Fin n → Fin (2 ^ 128) =>
      batchCheck t sig pk dedup (fun i => z i) = .ok ()).card ≤ (2 ^ 128) ^ (n - 1) := by
  have hz : ∀ z : Fin n → Fin (2 ^ 128), ∀ i, (Scalar.ofNat (z i : Nat)).toZ = ((z i : Nat) : Z) :=
    fun z i => Scalar.toZ_ofNat ((z i).2.trans (lt_trans (by norm_num) ell_gt))
  by_cases hdec : ∃ R : Fin n → P, ∀ i, compress (R i) = (sig i).R
  · obtain ⟨R, hR⟩ := hdec
    refine le_trans (Finset.card_le_card ?_) (vanishing_count (fun i => Spec.defect (R i) (pk i).point
      (sigChallenge (t i) (pk i).compressed (sig i).R) (sig i).s.toZ) j
      (fun h => hbad ((verify_iff_defect _ _ _ _ (hR j)).mpr h)))
    intro z hz'
    simp only [Finset.mem_filter, Finset.mem_univ, true_and] at hz' ⊢
    have := (equation_iff sig pk hw (fun i => Scalar.ofNat (z i : Nat))
      (fun i => entryChallenge (t i) (pk i).compressed (sig i).R) dedup).1.mp hz'
    obtain ⟨R', hR', hs⟩ := this
    have : R' = R := by funext i; exact compress_inj.mp (by rw [hR, hR'])
    subst this
    simp only [hz] at hs
    exact hs
  · rw [Finset.filter_eq_empty_iff.mpr, Finset.card_empty]
    · exact Nat.zero_le _
    · intro z _ h
      obtain ⟨R, hR, _⟩ := (equation_iff sig pk hw (fun i => Scalar.ofNat (z i : Nat))
        (fun i => entryChallenge (t i) (pk i).compressed (sig i).R) dedup).1.mp h
      exact hdec ⟨R, hR⟩

/-- **C22** the delinearisation queries of two batches coincide only if keys, `R`s, transcript digests
(with equal lengths), RNG bytes and position coincide. -/
theorem batch_query_injective {p₁ p₂ R₁ R₂ d₁ d₂ : List Bytes} {r₁ r₂ : Bytes} {i₁ i₂ : Nat}
    (hp : p₁.length = p₂.length) (hR : R₁.length = R₂.length)
    (h : Spec.batchQuery p₁ R₁ d₁ r₁ i₁ = Spec.batchQuery p₂ R₂ d₂ r₂ i₂) :
    p₁ = p₂ ∧ R₁ = R₂ ∧ d₁ = d₂ ∧ r₁ = r₂ ∧ i₁ = i₂ := by
  have inj : Function.Injective (MOp.append (b! "")) := by intro a b h; injection h
  -- strip the common prefix
  unfold Spec.batchQuery at h
  simp only [List.append_assoc] at h
  have h := List.append_cancel_left h
  obtain ⟨e1, h⟩ := List.append_inj h (by simpa using hp)
  obtain ⟨e2, h⟩ := List.append_inj h (by simpa using hR)
  have e1 := List.map_injective_iff.mpr inj e1
  have e2 := List.map_injective_iff.mpr inj e2
  -- the key separates the digests from the squeezes
  have key : ∀ (d₁ d₂ : List Bytes), d₁.map (MOp.append (b! "")) ++ ([MOp.rngKey r₁] ++
      List.replicate (i₁ + 1) (.prf 16)) = d₂.map (MOp.append (b! "")) ++ ([MOp.rngKey r₂] ++
      List.replicate (i₂ + 1) (.prf 16)) → d₁ = d₂ ∧ r₁ = r₂ ∧ i₁ = i₂ := by
    intro d₁
    induction d₁ with
    | nil =>
      intro d₂ h
      cases d₂ with
      | nil =>
        simp only [List.map_nil, List.nil_append, List.singleton_append, List.cons.injEq,
          MOp.rngKey.injEq] at h
        have := congrArg List.length h.2
        simp at this
        exact ⟨rfl, h.1, this⟩
      | cons d d₂ => simp at h
    | cons d d₁ ih =>
      intro d₂ h
      cases d₂ with
      | nil => simp at h
      | cons d' d₂ =>
        simp only [List.map_cons, List.cons_append, List.cons.injEq, MOp.append.injEq, true_and] at h
        obtain ⟨a, b⟩ := ih d₂ h.2
        exact ⟨by rw [h.1, a], b⟩
  obtain ⟨e3, e4⟩ := key _ _ h
  exact ⟨e1, e2, e3, e4⟩

/-! ## C23: lengths -/

/-- **C23** exactly when batch verification panics.  For the `TrustedLen` zip this is "lengths not all
equal"; for the generic zip one surplus transcript goes unnoticed. -/
theorem verify_batch_panics_iff [Oracles] (mode : ZipMode) (ts : List T) (sigs : List Signature)
    (pks : List (PublicKey P)) (hw : ∀ p ∈ pks, p.WF) (dedup : Bool) (rng : Rng) :
    (verifyBatchRng mode ts sigs pks dedup rng).isPanic = true ↔
      sigs.length ≠ pks.length ∨ ts.length < sigs.length ∨
      (match mode with
       | .generic => sigs.length + 1 < ts.length
       | .trustedLen => sigs.length < ts.length) := by
  unfold verifyBatchRng
  by_cases h : sigs.length = pks.length
  · rw [if_neg (by simpa using h), prepareBatch_eq _ _ _ _ _ (by simpa using h)]
    have hr := rest_nil_iff mode ts sigs.length
    by_cases hc : mode.rest ts (sigs.map (·.R)).length ≠ [] ∨ ts.length < (sigs.map (·.R)).length
    · rw [if_pos hc]
      simp only [Outcome.bind_panic, Outcome.isPanic, true_iff]
      simp only [List.length_map, ne_eq] at hc
      rcases hc with hc | hc
      · rw [hr] at hc; cases mode <;> simp at hc ⊢ <;> omega
      · omega
    · rw [if_neg hc]
      simp only [Outcome.bind_ok]
      push Not at hc
      simp only [List.length_map] at hc
      rw [hr] at hc
      rw [verifyBatchEquation_eq _ _ _ _ _ _ hw (by simp [coeffs_length]) (by simp; omega)
        (by simpa using h)]
      constructor
      · intro h2
        exfalso
        split at h2
        · cases h2
        · split at h2 <;> cases h2
      · intro h2
        cases mode <;> simp at hc h2 <;> omega
  · rw [if_pos h]
    simp [Outcome.isPanic, h]

/-- **C23 (defect)** with a generic iterator one surplus transcript is silently ignored: the outcome
is the outcome without it, although the documentation promises a panic. -/
theorem surplus_transcript_ignored [Oracles] {n : Nat} (t : Fin n → T) (extra : T)
    (sig : Fin n → Signature) (pk : Fin n → PublicKey P) (dedup : Bool) (rng : Rng) :
    verifyBatchRng .generic (List.ofFn t ++ [extra]) (List.ofFn sig) (List.ofFn pk) dedup rng =
      verifyBatchRng .generic (List.ofFn t) (List.ofFn sig) (List.ofFn pk) dedup rng := by
  have h1 := batch_run .generic t [extra] sig pk dedup rng (by rw [rest_nil_iff]; simp)
  have h2 := batch_run .generic t [] sig pk dedup rng (by rw [rest_nil_iff]; simp)
  rw [List.append_nil] at h2
  rw [h1, h2]

/-- Non-vacuity (C21–C23): the empty batch verifies for the generic iterator, and still verifies with
one transcript too many. -/
example [Oracles] (t : Transcript) (rng : Rng) :
    verifyBatchRng (P := Toy) .generic [t] [] [] false rng = .ok () ∧
    verifyBatchRng (P := Toy) .trustedLen [t] [] [] false rng = .panic ASSERT_MESSAGE := by
  have h := surplus_transcript_ignored (P := Toy) (n := 0) (T := Transcript) Fin.elim0 t Fin.elim0
    Fin.elim0 false rng
  have h2 := (verify_batch_complete (P := Toy) (n := 0) (T := Transcript) .generic Fin.elim0 Fin.elim0
    Fin.elim0 (fun i => i.elim0) (fun i => i.elim0) false rng).1
  refine ⟨?_, rfl⟩
  simpa using h.trans h2

/-! ## Half-aggregation -/

/-- A prepared (half-aggregated) batch made from signatures verifies, against any transcripts and
keys of the right number, exactly when deterministic batch verification of those signatures does. -/
theorem prepared_batch_agrees [Oracles] {n : Nat} (m₁ m₂ : ZipMode) (t : Fin n → T)
    (sig : Fin n → Signature) (pk : Fin n → PublicKey P) (dedup : Bool) (pb : PreparedBatch)
    (h : PreparedBatch.new m₁ (List.ofFn t) (List.ofFn sig) (List.ofFn pk) = .ok pb) :
    pb.verify m₂ (List.ofFn t) (List.ofFn pk) dedup =
      verifyBatchDeterministic m₂ (List.ofFn t) (List.ofFn sig) (List.ofFn pk) dedup ∧
    pb.Rs = List.ofFn (fun i => (sig i).R) ∧ pb.bs.Canonical := by
  have hR : (List.ofFn sig).map (·.R) = List.ofFn fun i => (sig i).R := by rw [List.map_ofFn]; rfl
  have e : ∀ m : ZipMode, m.rest (List.ofFn t ++ []) n = [] := by
    intro m; rw [rest_nil_iff]; cases m <;> simp
  have hp := fun m => prepare_ofFn m t [] (fun i => (sig i).R) pk notAnRng (e m)
  simp only [List.append_nil] at hp
  unfold PreparedBatch.new at h
  rw [if_neg (by simp), hR, hp] at h
  simp only [Outcome.bind_ok, Outcome.ok.injEq] at h
  subst h
  refine ⟨?_, rfl, ?_⟩
  · unfold PreparedBatch.verify verifyBatchDeterministic verifyBatchRng
    rw [if_neg (by simp), if_neg (by simp), hR, hp]
    rfl
  · apply Scalar.canonical_sum
    intro s hs
    obtain ⟨i, hi, rfl⟩ := List.getElem_of_mem hs
    simp only [List.getElem_zipWith]
    exact Scalar.canonical_mul _ _

/-- Valid signatures always yield a prepared batch, and it verifies. -/
theorem prepared_batch_complete [Oracles] {n : Nat} (m₁ m₂ : ZipMode) (t : Fin n → T)
    (sig : Fin n → Signature) (pk : Fin n → PublicKey P) (hw : ∀ i, (pk i).WF)
    (hv : ∀ i, (PublicKey.verify (pk i) (t i) (sig i)).1 = .ok ()) (dedup : Bool) :
    ∃ pb, PreparedBatch.new m₁ (List.ofFn t) (List.ofFn sig) (List.ofFn pk) = .ok pb ∧
      pb.verify m₂ (List.ofFn t) (List.ofFn pk) dedup = .ok () := by
  have hR : (List.ofFn sig).map (·.R) = List.ofFn fun i => (sig i).R := by rw [List.map_ofFn]; rfl
  have e : m₁.rest (List.ofFn t ++ []) n = [] := by rw [rest_nil_iff]; cases m₁ <;> simp
  have hp := prepare_ofFn m₁ t [] (fun i => (sig i).R) pk notAnRng e
  simp only [List.append_nil] at hp
  have hn : ∃ pb, PreparedBatch.new m₁ (List.ofFn t) (List.ofFn sig) (List.ofFn pk) = .ok pb := by
    unfold PreparedBatch.new
    rw [if_neg (by simp), hR, hp]
    exact ⟨_, rfl⟩
  obtain ⟨pb, h⟩ := hn
  refine ⟨pb, h, ?_⟩
  rw [(prepared_batch_agrees m₁ m₂ t sig pk dedup pb h).1]
  exact (verify_batch_complete m₂ t sig pk hw hv dedup notAnRng).2.2

/-! ## C24: serialization of prepared batches -/

private theorem place_ok {s : Bytes} (hs : s.length = 32) (done heap : Bytes) (hh : 32 ≤ heap.length) :
    PreparedBatch.place s (done, heap) = .ok (done ++ s, heap.drop 32) := by
  unfold PreparedBatch.place PreparedBatch.reserveMut
  rw [if_pos hh]
  simp only [Outcome.bind_ok]
  rw [if_neg]
  rw [List.length_take, hs]
  omega

private theorem placeAll_ok (Rs : List Compressed) : ∀ done heap : Bytes, heap.length = 32 * Rs.length →
    PreparedBatch.placeAll Rs (done, heap) = .ok (done ++ (Rs.map (·.1)).flatten, []) := by
  induction Rs with
  | nil =>
    intro done heap h
    have : heap = [] := List.length_eq_zero_iff.mp (by simpa using h)
    simp [PreparedBatch.placeAll, this]
  | cons R Rs ih =>
    intro done heap h
    rw [List.length_cons] at h
    unfold PreparedBatch.placeAll
    rw [place_ok R.2 _ _ (by omega), Outcome.bind_ok, ih _ _ (by rw [List.length_drop]; omega)]
    simp

/-- **C24** what `write_bytes` leaves in the buffer: nothing of what it held before. -/
theorem prepared_batch_write (pb : PreparedBatch) (bytes : Bytes) (h : bytes.length = pb.byteLen) :
    pb.writeBytes bytes = .ok ((pb.bs.bytes.modify 31 (· ||| 128)).1 ++ (pb.Rs.map (·.1)).flatten) := by
  unfold PreparedBatch.writeBytes
  unfold PreparedBatch.byteLen at h ⊢
  rw [if_neg (by simpa using h)]
  simp only
  rw [place_ok (pb.bs.bytes.modify 31 (· ||| 128)).2 _ _ (by omega), Outcome.bind_ok, placeAll_ok _ _ _ (by rw [List.length_drop]; omega)]
  simp

/-- **C24** `write_bytes` writes exactly `byte_len = 32 + 32n` bytes, the marked scalar then the `R`s, whatever the
buffer held before, and panics iff the buffer has another length. -/
theorem prepared_batch_write_layout (pb : PreparedBatch) (bytes : Bytes) :
    pb.byteLen = 32 + 32 * pb.Rs.length ∧
    (bytes.length ≠ pb.byteLen ↔ (pb.writeBytes bytes).isPanic = true) ∧
    ∀ out, pb.writeBytes bytes = .ok out → out.length = pb.byteLen ∧
      (pb.bs.Canonical → leNat (out.take 32) = pb.bs.val + 2 ^ 255) ∧
      out.drop 32 = (pb.Rs.map (·.1)).flatten := by
  refine ⟨rfl, ?_, ?_⟩
  · by_cases h : bytes.length = pb.byteLen
    · simp [prepared_batch_write pb bytes h, h, Outcome.isPanic]
    · simp [PreparedBatch.writeBytes, h, Outcome.isPanic]
  · intro out h
    by_cases hl : bytes.length = pb.byteLen
    swap
    · rw [PreparedBatch.writeBytes, if_pos hl] at h
      cases h
    · rw [prepared_batch_write pb bytes hl] at h
      injection h with h
      subst h
      have hfl : ∀ l : List Compressed, (l.map (·.1)).flatten.length = 32 * l.length := by
        intro l
        induction l with
        | nil => rfl
        | cons a l ih => simp only [List.map_cons, List.flatten_cons, List.length_append, ih, a.2,
            List.length_cons]; omega
      have h32 := (pb.bs.bytes.modify 31 (· ||| 128)).2
      refine ⟨?_, ?_, ?_⟩
      · rw [List.length_append, hfl, h32]; rfl
      · intro hc
        rw [List.take_append_of_le_length (by omega), List.take_of_length_le (by omega),
          Arr.leNat_modify31, u8_or128]
        have h1 := Canonical.top_lt hc
        have h2 := pb.bs.bytes.leNat31
        unfold Scalar.val
        rw [show (256:Nat) ^ 31 = 2 ^ 248 by norm_num] at *
        omega
      · rw [List.drop_append_of_le_length (by omega), List.drop_of_length_le (by omega), List.nil_append]

/-- **C24 (defect)** `read_bytes` never succeeds, on any input, in either build profile; on every
string of acceptable length it panics in debug builds, and in release builds it panics or reports a
scalar error. -/
theorem prepared_batch_read_never_ok (profile : Profile) (bytes : Bytes) :
    (∀ pb, PreparedBatch.readBytes profile bytes ≠ .ok pb) ∧
    (bytes.length % 32 = 0 ∧ 64 ≤ bytes.length →
      (profile = .debug → (PreparedBatch.readBytes profile bytes).isPanic = true) ∧
      ((PreparedBatch.readBytes profile bytes).isPanic = true ∨
        PreparedBatch.readBytes profile bytes = .err .scalarFormatError)) := by
  unfold PreparedBatch.readBytes
  by_cases h : bytes.length % 32 ≠ 0 ∨ bytes.length < 64
  · rw [if_pos h]
    exact ⟨fun pb h => (nomatch h), fun h2 => by omega⟩
  · rw [if_neg h]
    push Not at h
    rw [h.1]
    cases profile with
    | debug => simp [Profile.subUsize, Outcome.isPanic]
    | release =>
      simp only [Profile.subUsize]
      rw [if_neg (by omega)]
      simp only [Outcome.bind_ok]
      unfold PreparedBatch.readBody PreparedBatch.read32
      rw [dif_pos (by omega)]
      simp only [Outcome.bind_ok, checkScalar_eq]
      split
      · have : withCapacity 18446744073709551615 32 = .panic "capacity overflow" := by
          unfold withCapacity; rw [if_neg (by norm_num)]
        simp [this, Outcome.isPanic]
      · simp [Outcome.isPanic]

private theorem readMany_spec (l : List Compressed) : PreparedBatch.readMany l.length (l.map (·.1)).flatten = .ok l := by
  induction l with
  | nil => rfl
  | cons a l ih =>
    rw [List.length_cons, PreparedBatch.readMany]
    unfold PreparedBatch.read32
    have h : 32 ≤ ((a :: l).map (·.1)).flatten.length := by simp [a.2]
    rw [dif_pos h]
    simp only [Outcome.bind_ok, List.map_cons, List.flatten_cons]
    rw [List.drop_append_of_le_length (by rw [a.2]), List.drop_of_length_le (by rw [a.2]), List.nil_append, ih]
    simp only [Outcome.bind_ok]
    congr 2
    apply Subtype.ext
    simp only
    rw [List.take_append_of_le_length (by rw [a.2]), List.take_of_length_le (by rw [a.2])]

private theorem clear_mark {s : Scalar} (h : s.Canonical) :
    ((s.bytes.modify 31 (· ||| 128)).modify 31 (· &&& 127)) = s.bytes := by
  have h1 := Canonical.top_lt h
  have hl := s.bytes.2
  apply Subtype.ext
  have : ∀ (b : Bytes) (h : b.length = 32), (b[31]'(by omega)).toNat < 128 →
      (b.modify 31 (· ||| 128)).modify 31 (· &&& 127) = b := by
    intro b hb ht
    apply List.ext_getElem (by simp)
    intro i h1 h2
    simp only [List.getElem_modify]
    by_cases e : 31 = i
    · subst e
      simp only [if_true]
      generalize b[31] = x at ht ⊢
      exact UInt8.toNat_inj.mp (by rw [u8_and127, u8_or128]; omega)
    · simp [e]
  exact this _ hl (lt_trans (show (s.bytes.get 31 (by omega)).toNat < 32 from h1) (by norm_num))

/-- **C24** the defect is confined to the computed number of points: with the right number, what follows in `read_bytes`
reads back every batch that `write_bytes` wrote. -/
theorem prepared_batch_read_body (pb : PreparedBatch) (hc : pb.bs.Canonical) (hl : pb.Rs.length * 32 < 2 ^ 63)
    (bytes : Bytes) (hb : bytes.length = pb.byteLen) :
    ∃ out, pb.writeBytes bytes = .ok out ∧ out.length = pb.byteLen ∧
      PreparedBatch.readBody pb.Rs.length out = .ok pb := by
  have hw := prepared_batch_write pb bytes hb
  refine ⟨_, hw, ?_, ?_⟩
  · exact ((prepared_batch_write_layout pb bytes).2.2 _ hw).1
  · unfold PreparedBatch.readBody PreparedBatch.read32
    have h32 := (pb.bs.bytes.modify 31 (· ||| 128)).2
    rw [dif_pos (by rw [List.length_append, h32]; omega)]
    simp only [Outcome.bind_ok]
    have e : (⟨((pb.bs.bytes.modify 31 (· ||| 128)).1 ++ (pb.Rs.map (·.1)).flatten).take 32, by simp [h32]⟩ : Arr 32) =
        pb.bs.bytes.modify 31 (· ||| 128) := by
      apply Subtype.ext
      simp only
      rw [List.take_append_of_le_length (by omega), List.take_of_length_le (by omega)]
    rw [e, clear_mark hc, checkScalar_eq, if_pos (by exact hc)]
    rw [List.drop_append_of_le_length (by omega), List.drop_of_length_le (by omega), List.nil_append, readMany_spec]
    unfold withCapacity
    rw [if_pos hl]
    rfl

/-- Non-vacuity for C24: a concrete well-formed serialization of a two-signature batch, of acceptable
length, which `read_bytes` cannot read. -/
example : ∃ out, (PreparedBatch.mk (Scalar.ofNat 7) [zeros 32, zeros 32]).writeBytes (List.replicate 96 170) = .ok out ∧
    out.length = 96 ∧
    PreparedBatch.readBytes .debug out = .panic "attempt to subtract with overflow" ∧
    PreparedBatch.readBytes .release out = .panic "capacity overflow" := by
  refine ⟨_, rfl, by decide +kernel, by decide +kernel, by decide +kernel⟩

end Schnorrkel.Props
