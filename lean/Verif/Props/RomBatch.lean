import Verif.Spec.RomBatch
import Verif.Lemmas.RomWide
import Verif.Props.BatchForge

/-! # C65: soundness of batch verification in the random-oracle model -/

namespace Schnorrkel.Props
open SigningTranscript Spec
variable {P : Type} [Ristretto P]

/-- The verdict of `verify_batch` over merlin transcripts, in terms of hash queries. -/
theorem verifyBatchWith_iff (O : Oracles) {n : Nat} (mode : ZipMode) (t : Fin n → Transcript)
    (sig : Fin n → Signature) (pk : Fin n → PublicKey P) (hw : ∀ i, (pk i).WF) (dedup : Bool) (rng : Rng) :
    verifyBatchWith O mode (List.ofFn t) (List.ofFn sig) (List.ofFn pk) dedup rng = .ok () ↔
      ∃ p : Fin n → P, (∀ i, compress (p i) = (sig i).R) ∧
      ∑ i, coefficientWith O t (fun i => (sig i).R) pk (rng.fill 32).1.1 i •
        Spec.defect (p i) (pk i).point (hashWith O (Use.signature (t i).log (pk i).compressed.1 (sig i).R.1).query)
          (sig i).s.toZ = 0 := by
  letI := O
  refine (verify_batch_iff mode t sig pk hw dedup rng).1.trans ?_
  simp only [sigChallenge_merlin]
  have : ∀ i, ((Spec.coefficient t (fun i => (sig i).R) pk (rng.fill 32).1.1 i : Nat) : Z) =
      coefficientWith O t (fun i => (sig i).R) pk (rng.fill 32).1.1 i := by
    intro i
    unfold Spec.coefficient coefficientWith Spec.coefficientQuery batchCoeff
    have : ∀ i, (witnessBytesRng (t i) (b! "") 16 [[]] notAnRng).1 = O.merlin (digestQuery (t i).log) 16 := by
      intro i
      show O.merlin ((t i).log ++ [MOp.rekey (b! "") []] ++ [MOp.rngKey _] ++ [MOp.prf 16]) 16 = _
      unfold digestQuery
      rw [List.append_assoc, List.append_assoc]
      rfl
    simp only [this]
  unfold Spec.coefficient at this
  simp only [this]
  rfl

/-- Batch coefficients are determined by 16 bytes. -/
theorem u128_cast_inj {w w' : Bytes} (h : w.length = 64) (h' : w'.length = 64)
    (e : ((leNat (w.take 16) : Nat) : Z) = ((leNat (w'.take 16) : Nat) : Z)) :
    leNat (w.take 16) = leNat (w'.take 16) := by
  have h5 := congrArg ZMod.val e
  have l1 : (w.take 16).length = 16 := by rw [List.length_take, h]; rfl
  have l2 : (w'.take 16).length = 16 := by rw [List.length_take, h']; rfl
  rwa [ZMod.val_natCast, ZMod.val_natCast, Nat.mod_eq_of_lt (Scalar.u128_lt ⟨_, l1⟩),
    Nat.mod_eq_of_lt (Scalar.u128_lt ⟨_, l2⟩)] at h5

open Classical in
/-- An index with the property. -/
noncomputable def pick {n : Nat} (V : Fin n → Prop) : Option (Fin n) := if h : ∃ j, V j then some h.choose else none

theorem pick_some {n : Nat} {V : Fin n → Prop} {j : Fin n} (h : pick V = some j) : V j := by
  unfold pick at h
  split at h
  · rename_i h2; cases h; exact h2.choose_spec
  · cases h

theorem pick_none {n : Nat} {V : Fin n → Prop} (h : pick V = none) (j : Fin n) : ¬ V j := by
  unfold pick at h
  split at h
  · cases h
  · rename_i h2; exact fun hj => h2 ⟨j, hj⟩

/-- An invalid signature of the batch. -/
private noncomputable def culprit (c : SigBatch P) (O : Oracles) : Option (Fin c.n) :=
  pick fun j => verifyWith O (c.pk j) (c.t j) (c.sig j) ≠ .ok ()

private theorem culprit_none {c : SigBatch P} {O : Oracles} (h : culprit c O = none) (j : Fin c.n) :
    verifyWith O (c.pk j) (c.t j) (c.sig j) = .ok () := by
  unfold culprit at h
  exact not_not.mp (pick_none h j)

private theorem culprit_some {c : SigBatch P} {O : Oracles} {j : Fin c.n} (h : culprit c O = some j) :
    verifyWith O (c.pk j) (c.t j) (c.sig j) ≠ .ok () := by
  unfold culprit at h
  exact pick_some h

private def defects (c : SigBatch P) (O : Oracles) (p : Fin c.n → P) (i : Fin c.n) : P :=
  Spec.defect (p i) (c.pk i).point
    (hashWith O (Use.signature (c.t i).log (c.pk i).compressed.1 (c.sig i).R.1).query) (c.sig i).s.toZ

private noncomputable def target (c : SigBatch P) (O : Oracles) (r : Arr 32) : Option (List MOp) :=
  (culprit c O).map (c.coefficientQuery O r)

private noncomputable def bad (c : SigBatch P) (O : Oracles) (r : Arr 32) : Set (Arr 64) :=
  match culprit c O with
  | none => ∅
  | some j => {w | ∃ p : Fin c.n → P, (∀ i, compress (p i) = (c.sig i).R) ∧
      ((leNat (w.1.take 16) : Nat) : Z) • defects c O p j + ∑ i ∈ Finset.univ.erase j,
        coefficientWith O c.t (fun i => (c.sig i).R) c.pk r.1 i • defects c O p i = 0}

private theorem invalid_iff (O : Oracles) (pk : PublicKey P) (t : Transcript) (sig : Signature) (R : P)
    (hR : compress R = sig.R) : verifyWith O pk t sig = .ok () ↔
      Spec.defect R pk.point (hashWith O (Use.signature t.log pk.compressed.1 sig.R.1).query) sig.s.toZ = 0 := by
  letI := O
  have := verify_iff_defect pk t sig R hR
  rw [sigChallenge_merlin] at this
  exact this

private theorem target_some {c : SigBatch P} {O : Oracles} {r : Arr 32} {Q : List MOp} (h : target c O r = some Q) :
    ∃ j, culprit c O = some j ∧ c.coefficientQuery O r j = Q := by
  unfold target at h
  cases hj : culprit c O with
  | none => rw [hj] at h; cases h
  | some j => rw [hj] at h; exact ⟨j, rfl, Option.some.inj h⟩

private theorem hits (c : SigBatch P) (O : Oracles) (r : Arr 32) (mode : ZipMode) (dedup : Bool) (rng : Rng)
    (hr : (rng.fill 32).1 = r) (hw : ∀ i, (c.pk i).WF) (hacc : c.accepted O mode dedup rng) (i : Fin c.n)
    (hi : verifyWith O (c.pk i) (c.t i) (c.sig i) ≠ .ok ())
    (hs : ∀ j, (O.merlin (c.coefficientQuery O r j) 16).1 = (O.merlin (c.coefficientQuery O r j) 64).1.take 16) :
    ∃ Q, target c O r = some Q ∧ O.merlin Q 64 ∈ bad c O r := by
  cases hj : culprit c O with
  | none => exact (hi (culprit_none hj i)).elim
  | some j =>
    refine ⟨c.coefficientQuery O r j, by unfold target; rw [hj]; rfl, ?_⟩
    unfold bad
    rw [hj]
    unfold SigBatch.accepted at hacc
    obtain ⟨p, hp, e⟩ := (verifyBatchWith_iff O mode c.t c.sig c.pk hw dedup rng).mp hacc
    refine ⟨p, hp, ?_⟩
    rw [hr, ← Finset.add_sum_erase _ _ (Finset.mem_univ j)] at e
    rw [← hs j]
    exact e

private theorem target_upd (c : SigBatch P) (O O' : Oracles) (r : Arr 32) (Q : List MOp) (hQ : target c O r = some Q)
    (hO : ∀ q n, q ≠ Q → O'.merlin q n = O.merlin q n) : target c O' r = some Q ∧ bad c O' r = bad c O r := by
  obtain ⟨j, hj, hQ'⟩ := target_some hQ
  have hdig : ∀ i, O'.merlin (digestQuery (c.t i).log) 16 = O.merlin (digestQuery (c.t i).log) 16 := by
    intro i
    apply hO
    rw [← hQ']
    exact (batchQuery_ne _ _ _ _ _ _ (.prf 0) _).1
  have hch : ∀ i, hashWith O' (Use.signature (c.t i).log (c.pk i).compressed.1 (c.sig i).R.1).query =
      hashWith O (Use.signature (c.t i).log (c.pk i).compressed.1 (c.sig i).R.1).query := by
    intro i
    have := hO (Use.signature (c.t i).log (c.pk i).compressed.1 (c.sig i).R.1).query 64 (by
      rw [← hQ']
      exact (batchQuery_ne _ _ _ _ _ _ _ (b! "")).2 _ _ rfl)
    unfold hashWith hashToZ
    exact congrArg (fun a : Arr 64 => ((leNat a.1 : Nat) : Z)) this
  have hcul : culprit c O' = culprit c O := by
    unfold culprit
    refine congrArg pick (funext fun i => ?_)
    rw [Ne, Ne, verifyWith_iff, verifyWith_iff, hch]
  have hq : ∀ i, c.coefficientQuery O' r i = c.coefficientQuery O r i := by
    intro i; unfold SigBatch.coefficientQuery Spec.coefficientQuery; simp only [hdig]
  have hco : ∀ i, i ≠ j → coefficientWith O' c.t (fun i => (c.sig i).R) c.pk r.1 i =
      coefficientWith O c.t (fun i => (c.sig i).R) c.pk r.1 i := by
    intro i hi
    have h1 := hq i
    unfold SigBatch.coefficientQuery at h1
    unfold coefficientWith
    rw [h1, hO]
    rw [← hQ']
    intro h2
    exact hi (Fin.ext (batch_query_injective rfl rfl h2).2.2.2.2)
  have hdef : ∀ p i, defects c O' p i = defects c O p i := by
    intro p i; unfold defects; rw [hch]
  refine ⟨by unfold target; rw [hcul, hj]; simp only [Option.map_some, hq, hQ'], ?_⟩
  unfold bad
  rw [hcul, hj]
  simp only [hdef]
  apply Set.ext
  intro w
  apply exists_congr
  intro p
  rw [Finset.sum_congr rfl fun i hi => by rw [hco i (Finset.ne_of_mem_erase hi)]]

private theorem target_inj (c : SigBatch P) (O : Oracles) (r r' : Arr 32) (Q : List MOp) (h : target c O r = some Q)
    (h' : target c O r' = some Q) : r = r' := by
  obtain ⟨j, hj, e⟩ := target_some h
  obtain ⟨j', hj', e'⟩ := target_some h'
  exact Subtype.ext (batch_query_injective rfl rfl (e.trans e'.symm)).2.2.2.1

private theorem bad_one (c : SigBatch P) (O : Oracles) (r : Arr 32) :
    ∃ v, ∀ w ∈ bad c O r, leNat (w.1.take 16) = v := by
  by_cases hne : (bad c O r).Nonempty
  · obtain ⟨w, hw⟩ := hne
    refine ⟨leNat (w.1.take 16), fun w' hw' => ?_⟩
    unfold bad at hw hw'
    cases hj : culprit c O with
    | none => rw [hj] at hw; exact hw.elim
    | some j =>
      rw [hj] at hw hw'
      obtain ⟨p, hp, e⟩ := hw
      obtain ⟨p', hp', e'⟩ := hw'
      have : p' = p := by funext i; exact compress_inj.mp (by rw [hp, hp'])
      subst this
      have hd : defects c O p' j ≠ 0 := by
        intro h0
        exact culprit_some hj ((invalid_iff O _ _ _ _ (hp j)).mpr h0)
      have e2 := congrArg₂ (· - ·) e' e
      simp only [add_sub_add_right_eq_sub, sub_zero] at e2
      rw [← sub_smul, smul_eq_zero] at e2
      exact u128_cast_inj w'.2 w.2 (sub_eq_zero.mp (e2.resolve_right hd))
  · exact ⟨0, fun w hw => (hne ⟨w, hw⟩).elim⟩

/-- **C65** `verify_batch` is sound: whoever makes at most `q` hash queries — with unlimited computing power, choosing
all keys, transcripts and signatures — gets a batch with an invalid signature past `verify_batch` with probability at
most `2^-128 + q/2^256`, over the hash function and the 32 bytes the verifier's RNG supplies. -/
theorem verify_batch_sound_random_oracle (O : Oracles) (A : Algo (SigBatch P)) (D : Finset (List MOp)) (q : Nat)
    (hA : A.WideWithin O D q)
    (hD : ∀ (f : D → Arr 64) r i, (A.run (wideTable O D f)).coefficientQuery (wideTable O D f) r i ∈ D)
    (rng : Arr 32 → Rng) (hr : ∀ r, ((rng r).fill 32).1 = r) (mode : ZipMode) (dedup : Bool) :
    chance (fun x : (D → Arr 64) × Arr 32 =>
      let O' := wideTable O D x.1
      let c := A.run O'
      (∀ i, (c.pk i).WF) ∧ c.accepted O' mode dedup (rng x.2) ∧
        ∃ i, verifyWith O' (c.pk i) (c.t i) (c.sig i) ≠ .ok ()) ≤ 1 / 2 ^ 128 + q / 2 ^ 256 := by
  refine le_trans (chance_mono ?_) (chance_late_check O A q hA target bad target_upd target_inj
    (fun c O r _ _ => bad_one c O r) ?_)
  · rintro ⟨f, r⟩ ⟨hw, hacc, i, hi⟩
    exact hits _ _ r mode dedup (rng r) (hr r) hw hacc i hi fun j => wideTable_short O f _ (hD f r j) 16 (by norm_num)
  · intro f r Q h
    obtain ⟨j, -, rfl⟩ := target_some h
    exact hD f r j

/-- Non-vacuity: every attacker meets the hypotheses of `verify_batch_sound_random_oracle` for some `D`, `q`. -/
example (O : Oracles) (A : Algo (SigBatch P)) : ∃ (D : Finset (List MOp)) (q : Nat), A.WideWithin O D q ∧
    (∀ (f : D → Arr 64) r i, (A.run (wideTable O D f)).coefficientQuery (wideTable O D f) r i ∈ D) ∧
    ∃ rng : Arr 32 → Rng, ∀ r, ((rng r).fill 32).1 = r := by
  classical
  haveI := finite_arr 16
  obtain ⟨D₀, n, h⟩ := exists_within A
  have hfin : (⋃ c ∈ Set.range fun O : Oracles => A.run O, ⋃ (r : Arr 32) (i : Fin c.n) (d : Fin c.n → Arr 16),
      {batchQuery (List.ofFn fun i => (c.pk i).compressed.1) (List.ofFn fun i => (c.sig i).R.1)
        (List.ofFn fun i => (d i).1) r.1 i}).Finite :=
    (finite_results A).biUnion fun c _ => Set.finite_iUnion fun r => Set.finite_iUnion fun i =>
      Set.finite_iUnion fun d => Set.finite_singleton _
  refine ⟨D₀ ∪ hfin.toFinset, n, fun f => ⟨(h _).1, fun q hq => Finset.mem_union_left _ ((h _).2 q hq)⟩, ?_,
    fun r => ⟨fun _ m => if e : 32 = m then e ▸ r else zeros m, []⟩, fun r => ?_⟩
  · intro f r i
    refine Finset.mem_union_right _ (hfin.mem_toFinset.mpr ?_)
    refine Set.mem_biUnion ⟨_, rfl⟩ (Set.mem_iUnion.mpr ⟨r, Set.mem_iUnion.mpr ⟨i, Set.mem_iUnion.mpr
      ⟨fun i => Oracles.merlin (self := wideTable O _ f) (digestQuery ((A.run (wideTable O _ f)).t i).log) 16, ?_⟩⟩⟩)
    rfl
  · simp [Rng.fill]

end Schnorrkel.Props
