import Verif.Model.Batch
import Verif.Lemmas.Sign
import Mathlib.Algebra.BigOperators.Fin

namespace Schnorrkel
open SigningTranscript
variable {P : Type} [Ristretto P] {T : Type} [SigningTranscript T]

/-- `Σ aᵢ•pᵢ` over two lists. -/
def zsum (a : List Z) (p : List P) : P := (List.zipWith (· • ·) a p).sum

@[simp] theorem zsum_nil_left (p : List P) : zsum [] p = 0 := by simp [zsum]
@[simp] theorem zsum_nil_right (a : List Z) : zsum a ([] : List P) = 0 := by simp [zsum]
@[simp] theorem zsum_cons (a : Z) (as : List Z) (p : P) (ps : List P) :
    zsum (a :: as) (p :: ps) = a • p + zsum as ps := by simp [zsum]

theorem zsum_append {a b : List Z} {p q : List P} (h : a.length = p.length) :
    zsum (a ++ b) (p ++ q) = zsum a p + zsum b q := by
  unfold zsum
  rw [List.zipWith_append h, List.sum_append]

theorem multiscalar_zip (ss : List Scalar) (ps : List P) :
    multiscalar (ss.zip ps) = zsum (ss.map Scalar.toZ) ps := by
  unfold multiscalar zsum
  induction ss generalizing ps with
  | nil => simp
  | cons s ss ih =>
    cases ps with
    | nil => simp
    | cons p ps =>
      simp only [List.zip_cons_cons, List.map_cons, List.sum_cons, List.zipWith_cons_cons]
      rw [ih ps, mulPoint_eq]

theorem mapM_id_map_some {α : Type} (l : List α) : (l.map some).mapM id = some l := by
  induction l with
  | nil => rfl
  | cons a l ih => simp [List.mapM_cons, ih]

theorem mapM_id_append {α : Type} (l m : List (Option α)) :
    (l ++ m).mapM id = (l.mapM id).bind fun a => (m.mapM id).map fun b => a ++ b := by
  induction l with
  | nil => simp
  | cons x l ih =>
    cases x with
    | none => simp [List.mapM_cons]
    | some x =>
      simp only [List.cons_append, List.mapM_cons, ih, id]
      cases h : l.mapM id <;> simp
      cases h2 : m.mapM id <;> simp [h2]

theorem mapM_decompress_iff {Rs : List Compressed} {pts : List P} :
    (Rs.map decompress).mapM id = some pts ↔ pts.map compress = Rs := by
  induction Rs generalizing pts with
  | nil => cases pts <;> simp
  | cons R Rs ih =>
    cases pts with
    | nil =>
      simp only [List.map_cons, List.mapM_cons, id, List.map_nil, reduceCtorEq, iff_false]
      cases (decompress R : Option P) with
      | none => simp
      | some q => cases h : ((Rs.map decompress).mapM id : Option (List P)) <;> simp [h]
    | cons p pts =>
      simp only [List.map_cons, List.mapM_cons, id, List.cons.injEq]
      rw [← ih, ← Ristretto.decompress_iff]
      cases (decompress R : Option P) with
      | none => simp
      | some q => cases h : ((Rs.map decompress).mapM id : Option (List P)) <;> simp [h]

theorem length_of_mapM {Rs : List Compressed} {pts : List P}
    (h : (Rs.map decompress).mapM id = some pts) : pts.length = Rs.length := by
  rw [← mapM_decompress_iff.mp h]; simp

/-- Sum of `(h*z)•A`. -/
def hzsum (hs zs : List Scalar) (pks : List (PublicKey P)) : P :=
  zsum (List.zipWith (fun h z => h.toZ * z.toZ) hs zs) (pks.map (·.point))

theorem eqDebug_wf {a b : RistrettoBoth P} (ha : a.WF) (hb : b.WF) :
    RistrettoBoth.eqDebug a b = .ok (decide (a.point = b.point)) := by
  have h : a.compressed = b.compressed ↔ a.point = b.point := by
    rw [← ha, ← hb, compress_inj]
  unfold RistrettoBoth.eqDebug
  by_cases hp : a.point = b.point
  · simp [hp, h.mpr hp]
  · simp [hp, mt h.mp hp]

theorem dedupLoop_spec (zs : List Scalar) : ∀ (pks : List (PublicKey P)) (i : Nat)
    (ppks : List (PublicKey P)) (hrams : List Scalar),
    ppks.length ≤ i → i + pks.length ≤ hrams.length → i + pks.length ≤ zs.length →
    (∀ s ∈ hrams.take ppks.length, s.Canonical) → (∀ p ∈ ppks, p.WF) → (∀ p ∈ pks, p.WF) →
    ∃ ppks' hrams', dedupLoop zs pks i ppks hrams = .ok (ppks', hrams') ∧
      ppks'.length ≤ hrams'.length ∧
      zsum ((hrams'.take ppks'.length).map Scalar.toZ) (ppks'.map (·.point)) =
        zsum ((hrams.take ppks.length).map Scalar.toZ) (ppks.map (·.point)) +
          hzsum (hrams.drop i) (zs.drop i) pks
  | [], i, ppks, hrams, h1, h2, _, _, _, _ =>
    ⟨ppks, hrams, rfl, by simp at h2; omega, by simp [hzsum]⟩
  | pk :: pks, i, ppks, hrams, h1, h2, h3, hc, hw, hw' => by
    simp only [List.length_cons] at h2 h3
    have hi : i < hrams.length := by omega
    have hz : i < zs.length := by omega
    have hwpk := hw' pk (by simp)
    have hw'' : ∀ p ∈ pks, p.WF := fun p hp => hw' p (by simp [hp])
    have hcm : ((hrams[i]'hi) * (zs[i]'hz)).Canonical := Scalar.canonical_mul _ _
    have hd : hrams.drop i = (hrams[i]'hi) :: hrams.drop (i + 1) := List.drop_eq_getElem_cons hi
    have hdz : zs.drop i = (zs[i]'hz) :: zs.drop (i + 1) := List.drop_eq_getElem_cons hz
    have hrhs : hzsum (hrams.drop i) (zs.drop i) (pk :: pks) =
        ((hrams[i]'hi).toZ * (zs[i]'hz).toZ) • pk.point + hzsum (hrams.drop (i + 1)) (zs.drop (i + 1)) pks := by
      rw [hd, hdz]; simp only [hzsum, List.zipWith_cons_cons, List.map_cons, zsum_cons]
    -- the "push" branch
    have push : ∃ ppks' hrams',
        dedupLoop zs pks (i + 1) (ppks ++ [pk]) (hrams.set ppks.length ((hrams[i]'hi) * (zs[i]'hz))) =
          .ok (ppks', hrams') ∧ ppks'.length ≤ hrams'.length ∧
        zsum ((hrams'.take ppks'.length).map Scalar.toZ) (ppks'.map (·.point)) =
          zsum ((hrams.take ppks.length).map Scalar.toZ) (ppks.map (·.point)) +
            hzsum (hrams.drop i) (zs.drop i) (pk :: pks) := by
      have hl : ppks.length < hrams.length := by omega
      have htake : (hrams.set ppks.length ((hrams[i]'hi) * (zs[i]'hz))).take (ppks.length + 1) =
          hrams.take ppks.length ++ [(hrams[i]'hi) * (zs[i]'hz)] := by
        rw [List.take_add_one, List.take_set_of_le (by omega)]
        simp [hl]
      obtain ⟨p', h', e1, e2, e3⟩ := dedupLoop_spec zs pks (i + 1) (ppks ++ [pk])
        (hrams.set ppks.length ((hrams[i]'hi) * (zs[i]'hz))) (by simp; omega) (by simp; omega) (by omega)
        (by
          simp only [List.length_append, List.length_singleton, htake]
          intro s hs
          rcases List.mem_append.mp hs with h | h
          · exact hc s h
          · rw [List.mem_singleton] at h; rw [h]; exact hcm)
        (by
          intro p hp
          rcases List.mem_append.mp hp with h | h
          · exact hw p h
          · rw [List.mem_singleton] at h; rw [h]; exact hwpk) hw''
      refine ⟨p', h', e1, e2, ?_⟩
      rw [e3, hrhs]
      simp only [List.length_append, List.length_singleton, htake, List.map_append, List.map_cons,
        List.map_nil]
      rw [zsum_append (by simp; omega), List.drop_set_of_lt (by omega)]
      simp [Scalar.toZ_mul, add_assoc]
    unfold dedupLoop
    rw [List.getElem?_eq_getElem hi, List.getElem?_eq_getElem hz]
    simp only
    cases hlast : ppks.getLast? with
    | none => simp only; exact push
    | some last =>
      simp only
      have hwl : last.WF := hw last (List.mem_of_getLast? hlast)
      rw [eqDebug_wf hwl hwpk]
      simp only [Outcome.bind_ok]
      by_cases hp : last.point = pk.point
      · simp only [hp, decide_true, Bool.not_true, Bool.false_eq_true, if_false]
        obtain ⟨pre, rfl⟩ : ∃ pre, ppks = pre ++ [last] := by
          obtain ⟨pre, h⟩ := List.getLast?_eq_some_iff.mp hlast; exact ⟨pre, h⟩
        have hl : pre.length < hrams.length := by simp at h1; omega
        simp only [List.length_append, List.length_singleton, Nat.add_sub_cancel] at hc ⊢
        rw [List.getElem?_eq_getElem hl]
        simp only
        have htake0 : hrams.take (pre.length + 1) = hrams.take pre.length ++ [(hrams[pre.length]'hl)] := by
          rw [List.take_add_one, List.getElem?_eq_getElem hl]; rfl
        have htake : (hrams.set pre.length ((hrams[pre.length]'hl) + (hrams[i]'hi) * (zs[i]'hz))).take (pre.length + 1) =
            hrams.take pre.length ++ [(hrams[pre.length]'hl) + (hrams[i]'hi) * (zs[i]'hz)] := by
          rw [List.take_add_one, List.take_set_of_le (by omega), List.getElem?_set_self hl]; rfl
        have hcp : ((hrams[pre.length]'hl)).Canonical := by
          exact hc _ (by rw [htake0]; exact List.mem_append_right _ (List.mem_singleton.mpr rfl))
        obtain ⟨p', h', e1, e2, e3⟩ := dedupLoop_spec zs pks (i + 1) (pre ++ [last])
          (hrams.set pre.length ((hrams[pre.length]'hl) + (hrams[i]'hi) * (zs[i]'hz))) (by simp at h1 ⊢; omega)
          (by simp; omega) (by omega)
          (by
            simp only [List.length_append, List.length_singleton, htake]
            intro s hs
            rcases List.mem_append.mp hs with h | h
            · apply hc; rw [htake0]; exact List.mem_append_left _ h
            · rw [List.mem_singleton] at h; rw [h]; exact Scalar.canonical_add hcp hcm)
          hw hw''
        refine ⟨p', h', e1, e2, ?_⟩
        rw [e3, hrhs]
        simp only [List.length_append, List.length_singleton, htake, htake0, List.map_append,
          List.map_cons, List.map_nil]
        rw [zsum_append (by simp; omega), zsum_append (by simp; omega),
          List.drop_set_of_lt (by simp at h1; omega)]
        simp only [zsum_cons, zsum_nil_left, Scalar.toZ_add hcp hcm, Scalar.toZ_mul, hp]
        module
      · simp only [hp, decide_false, Bool.not_false, if_true]
        exact push

theorem zipWith_drop_self {a b : List Scalar} (h : a.length = b.length) :
    List.zipWith (· * ·) a b ++ a.drop b.length = List.zipWith (· * ·) a b := by
  rw [List.drop_eq_nil_of_le (by omega), List.append_nil]

/-- The final check in terms of the group equation; deduplication does not matter. -/
theorem verifyBatchEquation_eq (bs : Scalar) (zs hrams : List Scalar) (Rs : List Compressed)
    (pks : List (PublicKey P)) (dedup : Bool) (hw : ∀ p ∈ pks, p.WF)
    (h1 : zs.length = Rs.length) (h2 : hrams.length = pks.length) (h3 : Rs.length = pks.length) :
    verifyBatchEquation bs zs hrams Rs pks dedup =
      match ((Rs.map decompress).mapM id : Option (List P)) with
      | none => .err .equationFalse
      | some pts =>
        if zsum (zs.map Scalar.toZ) pts + hzsum hrams zs pks = bs.toZ • basepoint then .ok ()
        else .err .equationFalse := by
  -- the `(As, hrams)` pair
  obtain ⟨As, hs, he, hlen, hsum⟩ : ∃ (As : List (PublicKey P)) (hs : List Scalar),
      batchAs zs hrams pks dedup = .ok (As, hs) ∧ hs.length = As.length ∧
      zsum (hs.map Scalar.toZ) (As.map (·.point)) = hzsum hrams zs pks := by
    cases dedup with
    | false =>
      refine ⟨pks, List.zipWith (· * ·) hrams zs, ?_, ?_, ?_⟩
      · simp only [batchAs, Bool.not_false, if_true]; rw [zipWith_drop_self (by omega)]
      · simp; omega
      · unfold hzsum
        rw [List.map_zipWith]
        simp only [Scalar.toZ_mul]
    | true =>
      obtain ⟨p', h', e1, e2, e3⟩ := dedupLoop_spec zs pks 0 [] hrams (by simp) (by omega) (by omega)
        (by simp) (by simp) hw
      refine ⟨p', h'.take p'.length, ?_, by simp [e2], ?_⟩
      · simp [batchAs, e1]
      · simpa using e3
  unfold verifyBatchEquation
  rw [he]
  simp only [Outcome.bind_ok]
  unfold optionalMultiscalar
  rw [if_pos (by simp [h1, hlen])]
  simp only [Outcome.bind_ok, List.mapM_cons, id, mapM_id_append]
  rw [show (As.map fun pk => some pk.point) = (As.map (·.point)).map some by simp, mapM_id_map_some]
  cases hm : ((Rs.map decompress).mapM id : Option (List P)) with
  | none => simp
  | some pts =>
    have hl := length_of_mapM hm
    simp only [Option.map_some, Option.bind_some]
    have hms : multiscalar ((-bs :: (zs ++ hs)).zip ((basepoint : P) :: (pts ++ As.map (·.point)))) =
        zsum (zs.map Scalar.toZ) pts + hzsum hrams zs pks - bs.toZ • basepoint := by
      rw [multiscalar_zip]
      simp only [List.map_cons, List.map_append, zsum_cons]
      rw [zsum_append (by simp; omega), hsum, Scalar.toZ_neg]
      module
    have hopt : (Option.map (fun id : P => decide (id = 0)) (Option.map (fun qs =>
        multiscalar ((-bs :: (zs ++ hs)).zip qs)) (do
          let a ← some (basepoint : P)
          let b ← some (pts ++ As.map (·.point))
          pure (a :: b)))).getD false =
        decide (zsum (zs.map Scalar.toZ) pts + hzsum hrams zs pks = bs.toZ • basepoint) := by
      show decide (multiscalar ((-bs :: (zs ++ hs)).zip ((basepoint : P) :: (pts ++ As.map (·.point)))) = 0) = _
      simp only [hms, sub_eq_zero]
    simp only [hopt, decide_eq_true_eq]

/-- Challenge of one batch entry, as a scalar. -/
def entryChallenge (t : T) (pk R : Compressed) : Scalar :=
  (challengeScalar (preChallenge t pk R) (b! "sign:c")).1

/-- The 16 bytes a transcript contributes to the delinearisation. -/
def entryDigest (t : T) : Arr 16 := (witnessBytesRng t (b! "") 16 [[]] notAnRng).1

theorem hramLoop_spec [Oracles] (Rs : List Compressed) (pks : List (PublicKey P)) :
    ∀ (ts : List T) (i : Nat) (zt : Transcript), i + ts.length ≤ Rs.length →
      i + ts.length ≤ pks.length →
      hramLoop Rs pks ts i zt = .ok
        (List.zipWith (fun t x => entryChallenge t x.1 x.2) ts
            (((pks.map (·.compressed)).zip Rs).drop i),
         ⟨zt.log ++ ts.map fun t => .append (b! "") (entryDigest t).1⟩)
  | [], i, zt, _, _ => by simp [hramLoop]
  | t :: ts, i, zt, h1, h2 => by
    simp only [List.length_cons] at h1 h2
    have hi : i < Rs.length := by omega
    have hp : i < pks.length := by omega
    unfold hramLoop
    rw [List.getElem?_eq_getElem hi, List.getElem?_eq_getElem hp]
    simp only
    rw [hramLoop_spec Rs pks ts (i + 1) _ (by omega) (by omega)]
    simp only [Outcome.bind_ok, Outcome.ok.injEq, Prod.mk.injEq, Transcript.mk.injEq]
    constructor
    · rw [List.drop_eq_getElem_cons (i := i) (by simp; omega)]
      simp [entryChallenge, preChallenge]
    · simp [Transcript.appendMessage, entryDigest]

theorem commitAll_log [Oracles] (l : List Compressed) : ∀ t : Transcript,
    (commitAll t l).log = t.log ++ l.map fun c => MOp.append (b! "") c.1 := by
  induction l with
  | nil => intro t; simp [commitAll]
  | cons c l ih =>
    intro t
    unfold commitAll at ih ⊢
    rw [List.foldl_cons, ih]
    simp [commitPoint, commitBytes, Transcript.appendMessage]

theorem drawZs_eq [Oracles] : ∀ (n : Nat) (l : List MOp), drawZs n l =
    (List.range n).map fun i =>
      Scalar.fromU128 (Oracles.merlin (l ++ List.replicate (i + 1) (.prf 16)) 16)
  | 0, l => rfl
  | n + 1, l => by
    simp only [drawZs, Transcript.rngFill]
    rw [drawZs_eq n, List.range_succ_eq_map]
    simp only [List.map_cons, List.map_map, zero_add]
    congr 1
    apply List.map_congr_left
    intro i _
    simp [Function.comp, List.replicate_succ (n := i + 1)]

/-- The whole log behind the coefficients. -/
def coeffLog (pks Rs ds : List Bytes) (r : Bytes) : List MOp :=
  [.append (b! "dom-sep") (b! "V-RNG")] ++ pks.map (.append (b! "")) ++ Rs.map (.append (b! "")) ++
    ds.map (.append (b! "")) ++ [.rngKey r]

/-- Coefficients drawn for a batch. -/
def coeffs [Oracles] (pks Rs ds : List Bytes) (r : Bytes) (n : Nat) : List Scalar :=
  (List.range n).map fun i =>
    Scalar.fromU128 (Oracles.merlin (coeffLog pks Rs ds r ++ List.replicate (i + 1) (.prf 16)) 16)

theorem prepareBatch_eq [Oracles] (mode : ZipMode) (ts : List T) (Rs : List Compressed)
    (pks : List (PublicKey P)) (rng : Rng) (h : Rs.length = pks.length) :
    prepareBatch mode ts Rs pks rng =
      if mode.rest ts Rs.length ≠ [] ∨ ts.length < Rs.length then .panic ASSERT_MESSAGE
      else .ok (coeffs (pks.map (·.compressed.1)) (Rs.map (·.1))
                  ((ts.take Rs.length).map fun t => (entryDigest t).1) (rng.fill 32).1.1 Rs.length,
                List.zipWith (fun t x => entryChallenge t x.1 x.2) (ts.take Rs.length)
                  ((pks.map (·.compressed)).zip Rs)) := by
  unfold prepareBatch
  simp only
  rw [hramLoop_spec Rs pks _ 0 _ (by simp) (by simp; omega)]
  simp only [Outcome.bind_ok, List.drop_zero]
  by_cases h1 : mode.rest ts Rs.length ≠ []
  · rw [if_pos h1, if_pos (.inl h1)]
  · rw [if_neg h1]
    by_cases h2 : ts.length < Rs.length
    · rw [if_pos (by simp; omega), if_pos (.inr h2)]
    · rw [if_neg (by simp; omega), if_neg (by tauto)]
      congr 2
      rw [drawZs_eq]
      unfold coeffs coeffLog
      simp [Transcript.finalizeRng, Transcript.rekeyAll, commitAll_log, Transcript.new,
        Transcript.appendMessage, Function.comp_def]

theorem coeffs_length [Oracles] (a b c : List Bytes) (r : Bytes) (n : Nat) :
    (coeffs a b c r n).length = n := by simp [coeffs]

theorem basepointCoefficient_toZ : ∀ (sigs : List Signature) (zs : List Scalar),
    (basepointCoefficient sigs zs).toZ =
      (List.zipWith (fun (sig : Signature) (z : Scalar) => z.toZ * sig.s.toZ) sigs zs).sum := by
  intro sigs zs
  unfold basepointCoefficient
  rw [Scalar.toZ_sum]
  · rw [List.map_zipWith]; simp only [Scalar.toZ_mul]
  · intro s hs
    obtain ⟨i, hi, rfl⟩ := List.getElem_of_mem hs
    simp only [List.getElem_zipWith]
    exact Scalar.canonical_mul _ _

/-! ## From lists to indexed sums -/

theorem zsum_ofFn {n : Nat} (a : Fin n → Z) (p : Fin n → P) :
    zsum (List.ofFn a) (List.ofFn p) = ∑ i, a i • p i := by
  unfold zsum
  rw [← List.sum_ofFn]
  congr 1
  apply List.ext_getElem (by simp)
  intro i h1 h2
  simp

theorem zipWith_ofFn {α β γ : Type} {n : Nat} (f : α → β → γ) (a : Fin n → α)
    (b : Fin n → β) : List.zipWith f (List.ofFn a) (List.ofFn b) = List.ofFn fun i => f (a i) (b i) := by
  apply List.ext_getElem (by simp)
  intro i h1 h2
  simp

theorem map_eq_ofFn_iff {n : Nat} {pts : List P} {R : Fin n → Compressed} :
    pts.map compress = List.ofFn R ↔ ∃ q : Fin n → P, pts = List.ofFn q ∧ ∀ i, compress (q i) = R i := by
  constructor
  · intro h
    have hl : pts.length = n := by simpa using congrArg List.length h
    subst hl
    refine ⟨fun i => pts[i], ?_, fun i => ?_⟩
    · exact (List.ofFn_getElem (xs := pts)).symm
    · have h3 : (pts.map compress)[i.1]? = (List.ofFn R)[i.1]? := by rw [h]
      simpa using h3
  · rintro ⟨q, rfl, h⟩
    rw [List.map_ofFn]
    congr 1
    funext i
    exact h i

end Schnorrkel
