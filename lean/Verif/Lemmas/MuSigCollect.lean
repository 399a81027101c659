import Verif.Lemmas.MuSigSign

/-! # Collectors, and panics in the reveal stage -/

namespace Schnorrkel
open SigningTranscript Spec
variable {P : Type} [Ristretto P] {T T' : Type}

theorem runReveal_no_panic [Oracles] (cs : List (RevealCall P T)) (m : MuSig P T (RevealStage P)) (hm : m.Rs.Sorted)
    (hE : ∀ k, ∃ s, m.Rs.get? k = CoR.ofStatus s) : ∀ r ∈ (runReveal m cs).1, r.isPanic = false := by
  induction cs generalizing m with
  | nil => simp [runReveal]
  | cons c cs ih =>
    cases c with
    | reveal k r =>
      have h1 := ih (m.addTheirReveal k r).2 (addTheirReveal_sorted hm _ _) (fun k' => by
        obtain ⟨s, hs⟩ := hE k'
        exact ⟨_, addTheirReveal_get hm k' k r s hs⟩)
      simp only [runReveal, List.mem_cons, forall_eq_or_imp]
      refine ⟨?_, h1⟩
      obtain ⟨s, hs⟩ := hE k
      rw [addTheirReveal_spec', hs]
      cases s with
      | absent => rfl
      | committed c =>
        simp only [CoR.ofStatus]
        split
        · rfl
        · split <;> rfl
      | revealed p =>
        simp only [CoR.ofStatus]
        split
        · rfl
        · split <;> rfl
    | trusted k r =>
      have h1 := ih (m.addTrusted k r).2 (addTrusted_sorted hm _ _) (fun k' => by
        obtain ⟨s, hs⟩ := hE k'
        exact ⟨_, addTrusted_get hm k' k r s hs⟩)
      simp only [runReveal, List.mem_cons, forall_eq_or_imp]
      refine ⟨?_, h1⟩
      rw [addTrusted_spec]
      split
      · rfl
      · split
        · rfl
        · split <;> rfl
    | transcript f =>
      simp only [runReveal, List.mem_cons, forall_eq_or_imp]
      exact ⟨rfl, ih (m.editTranscript f) hm hE⟩

/-! ## Collector -/

theorem add_spec (m : MuSig P T CollectStage) (k : PublicKey P) (r : Reveal) (c : Cosignature) :
    m.add k r c = match (points r : Option (RevealedPoints P)) with
      | none => (.err .pointDecompressionError, m)
      | some p => match Scalar.fromCanonicalBytes c.bytes with
        | none => (.err .scalarFormatError, m)
        | some s => match m.Rs.get? k with
          | none => (.ok (), { m with Rs := m.Rs.set k (.collect p s) })
          | some o => if o = .collect p s then (.ok (), m) else (.err (.muSigInconsistent .reveal true), m) := by
  unfold MuSig.add
  rw [intoPoints_eq, scalarFromCanonicalBytes_eq']
  cases (points r : Option (RevealedPoints P)) with
  | none => rfl
  | some p =>
    simp only []
    cases Scalar.fromCanonicalBytes c.bytes with
    | none => rfl
    | some s =>
      simp only []
      cases m.Rs.get? k with
      | none => rfl
      | some o => by_cases h : o = .collect p s <;> simp [h]

theorem add_sorted {m : MuSig P T CollectStage} (hm : m.Rs.Sorted) (k : PublicKey P) (r : Reveal) (c : Cosignature) :
    (m.add k r c).2.Rs.Sorted := by
  rw [add_spec]
  split
  · exact hm
  · split
    · exact hm
    · split
      · exact BMap.sorted_set hm _ _
      · split <;> exact hm

theorem add_t (m : MuSig P T CollectStage) (k : PublicKey P) (r : Reveal) (c : Cosignature) :
    (m.add k r c).2.t = m.t := by
  rw [add_spec]
  split
  · rfl
  · split
    · rfl
    · split
      · rfl
      · split <;> rfl

theorem runCollect_t (cs : List (CollectCall P)) (m : MuSig P T CollectStage) : (runCollect m cs).2.t = m.t := by
  induction cs generalizing m with
  | nil => rfl
  | cons c cs ih => simp only [runCollect]; rw [ih, add_t]

theorem runCollect_sorted (cs : List (CollectCall P)) (m : MuSig P T CollectStage) (hm : m.Rs.Sorted) :
    (runCollect m cs).2.Rs.Sorted := by
  induction cs generalizing m with
  | nil => exact hm
  | cons c cs ih => simp only [runCollect]; exact ih _ (add_sorted hm _ _ _)

theorem runCollect_wf (cs : List (CollectCall P)) (m : MuSig P T CollectStage) (hm : m.Rs.KeysWF)
    (hc : ∀ c ∈ cs, c.them.WF) : (runCollect m cs).2.Rs.KeysWF := by
  induction cs generalizing m with
  | nil => exact hm
  | cons c cs ih =>
    simp only [runCollect]
    apply ih _ _ (fun x hx => hc x (by simp [hx]))
    rw [add_spec]
    split
    · exact hm
    · split
      · exact hm
      · split
        · exact BMap.keysWF_set hm (hc c (by simp)) _
        · split <;> exact hm

theorem runCollect_get (cs : List (CollectCall P)) (m : MuSig P T CollectStage) (hm : m.Rs.Sorted)
    (k : PublicKey P) :
    (runCollect m cs).2.Rs.get? k = match m.Rs.get? k with
      | some o => some o
      | none => (firstAdd cs k.compressed).map fun x => .collect x.1 x.2 := by
  induction cs generalizing m with
  | nil => simp only [runCollect, firstAdd]; split <;> simp_all
  | cons c cs ih =>
    simp only [runCollect]
    rw [ih _ (add_sorted hm _ _ _), add_spec]
    have skip : (if c.them.compressed = k.compressed then c.parts else none) = none → firstAdd (c :: cs) k.compressed = firstAdd cs k.compressed := by
      intro h
      unfold firstAdd
      rw [List.findSome?_cons, h]
    cases hp : (points c.rev : Option (RevealedPoints P)) with
    | none =>
      simp only []
      rw [skip (by simp [CollectCall.parts, hp])]
    | some p =>
      simp only []
      cases hs : Scalar.fromCanonicalBytes c.share.bytes with
      | none => simp only []; rw [skip (by simp [CollectCall.parts, hp, hs])]
      | some s =>
        simp only []
        by_cases hk : c.them.compressed = k.compressed
        · rw [BMap.get?_congr _ hk]
          cases hg : m.Rs.get? k with
          | none =>
            simp only [BMap.get?_set hm, hk, if_true]
            simp [firstAdd, hk, CollectCall.parts, hp, hs]
          | some o =>
            by_cases ho : o = .collect p s <;> simp [ho, hg]
        · have hk' : ¬ k.compressed = c.them.compressed := fun h => hk h.symm
          rw [skip (by simp [hk])]
          cases hg : m.Rs.get? c.them with
          | none => simp only [BMap.get?_set hm, hk', if_false]
          | some o =>
            by_cases ho : o = .collect p s <;> simp [ho]

theorem runCollect_no_panic (cs : List (CollectCall P)) (m : MuSig P T CollectStage) :
    ∀ r ∈ (runCollect m cs).1, r.isPanic = false := by
  induction cs generalizing m with
  | nil => simp [runCollect]
  | cons c cs ih =>
    simp only [runCollect, List.mem_cons, forall_eq_or_imp]
    refine ⟨?_, ih _⟩
    rw [add_spec]
    split
    · rfl
    · split
      · rfl
      · split
        · rfl
        · split <;> rfl

section
variable [SigningTranscript T]

theorem collector_sorted (t : T) (cs : List (CollectCall P)) : (collector t cs).Rs.Sorted :=
  runCollect_sorted _ _ (by simp [collectCosignatures, BMap.Sorted])

theorem collector_wf (t : T) (cs : List (CollectCall P)) (hc : ∀ c ∈ cs, c.them.WF) : (collector t cs).Rs.KeysWF :=
  runCollect_wf _ _ (by intro e he; simp [collectCosignatures] at he) hc

theorem collector_get (t : T) (cs : List (CollectCall P)) (k : PublicKey P) :
    (collector t cs).Rs.get? k = (firstAdd cs k.compressed).map fun x => .collect x.1 x.2 := by
  unfold collector
  rw [runCollect_get _ _ (by simp [collectCosignatures, BMap.Sorted])]
  rfl

theorem collector_all (t : T) (cs : List (CollectCall P)) : ∀ e ∈ (collector t cs).Rs,
    ∃ p s, e.2 = .collect p s ∧ firstAdd cs e.1.compressed = some (p, s) := by
  intro e he
  have := BMap.get?_of_mem (collector_sorted t cs) (k := e.1) (v := e.2) he
  rw [collector_get, Option.map_eq_some_iff] at this
  obtain ⟨⟨p, s⟩, h1, h2⟩ := this
  exact ⟨p, s, h2.symm, h1⟩

theorem collectSharesGo_ok (m : BMap P (CoR P)) (h : ∀ e ∈ m, ∃ p s, e.2 = .collect p s) :
    MuSig.collectSharesGo m = .ok (m.filterMap fun e => match e.2 with | .collect _ s => some s | _ => none) := by
  induction m with
  | nil => rfl
  | cons e m ih =>
    obtain ⟨k, v⟩ := e
    have ih := ih (fun e he => h e (by simp [he]))
    obtain ⟨p, s, hv⟩ := h (k, v) (by simp)
    simp only at hv
    subst hv
    simp only [MuSig.collectSharesGo, ih]; rfl

theorem collector_view_shares (m : BMap P (CoR P)) (f : Compressed → Option (RevealedPoints P × Scalar))
    (h : ∀ e ∈ m, ∃ p s, e.2 = .collect p s ∧ f e.1.compressed = some (p, s)) :
    (viewOf m).mapM (fun e => (f e.1.compressed).map (·.2)) =
      some (m.filterMap fun e => match e.2 with | .collect _ s => some s | _ => none) := by
  induction m with
  | nil => rfl
  | cons e m ih =>
    obtain ⟨k, v⟩ := e
    have ih := ih (fun e he => h e (by simp [he]))
    obtain ⟨p, s, hv, hf⟩ := h (k, v) (by simp)
    simp only at hv hf
    subst hv
    have : viewOf ((k, CoR.collect p s) :: m) = (k, p) :: viewOf m := rfl
    rw [this, List.mapM_cons, ih, hf]
    rfl

theorem signature_run [Oracles] (t : T) (cs : List (CollectCall P)) :
    ∃ ss, (viewOf (collector t cs).Rs).mapM (fun e => (firstAdd cs e.1.compressed).map (·.2)) = some ss ∧
      (collector t cs).signature = .ok ⟨compress (musigR t (viewOf (collector t cs).Rs)), Scalar.sum ss⟩ := by
  have hall := collector_all t cs
  refine ⟨_, collector_view_shares _ _ hall, ?_⟩
  have hE' : ∀ e ∈ (collector t cs).Rs, ∀ s, e.2 ≠ .cosigned s := by
    intro e he s h
    obtain ⟨p, s', h1, _⟩ := hall e he
    rw [h1] at h; cases h
  have ht : (collector t cs).t = protoName t (b! "Schnorr-sig") := by
    unfold collector; rw [runCollect_t]; rfl
  have hshares := collectSharesGo_ok (collector t cs).Rs (fun e he => by
    obtain ⟨p, s, h, _⟩ := hall e he; exact ⟨p, s, h⟩)
  generalize collector t cs = m at *
  obtain ⟨t0, Rs, stage⟩ := m
  simp only at ht hE' hshares ⊢
  subst ht
  set V := viewOf Rs with hV
  have hpk : (MuSig.publicKey (P := P) (T := T) (S := CollectStage) ⟨protoName t (b! "Schnorr-sig"), Rs, stage⟩).compressed =
      compress (aggregate V.keys) := by
    unfold MuSig.publicKey MuSig.computePublicKey
    rw [publicKeys_true _ hE', aggregatePoint_eq]; rfl
  have hrew : ∀ t, (MuSig.rewinder (⟨t, Rs, stage⟩ : MuSig P T CollectStage)) =
      .ok (MuSig.rewindsOf (MuSig.rewinderTranscript t V)) := by
    intro t
    unfold MuSig.rewinder MuSig.iterRs
    rw [iterRsGo_ok _ hE']; rfl
  set t1 := commitPoint (protoName t (b! "Schnorr-sig")) (b! "sign:pk") (compress (aggregate V.keys)) with ht1
  have hR : (MuSig.computeR (⟨t1, Rs, stage⟩ : MuSig P T CollectStage)
      (MuSig.rewindsOf (MuSig.rewinderTranscript t1 V))) = .ok (compress (musigR t V)) := by
    unfold MuSig.computeR MuSig.iterRs
    rw [iterRsGo_ok _ hE']
    simp only [Outcome.bind_ok, multiscalar_zipWith, ht1, rewindsOf_toZ]
    rfl
  simp only [MuSig.signature, hpk, hrew, ← ht1, Outcome.bind_ok, hR, hshares]

end
end Schnorrkel
