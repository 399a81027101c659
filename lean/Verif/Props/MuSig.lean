import Verif.Lemmas.MuSigCollect
import Verif.Instance

/-! # C39, C40: multi-signature sessions under arbitrary message histories -/

namespace Schnorrkel.Props
open SigningTranscript Spec
variable {P : Type} [Ristretto P] {T : Type}

/-! ## C39: errors change nothing, nothing panics -/

/-- **C39** every rejected message leaves the session exactly as it was — for every session value, every
message and every key (also a call that panicked would). -/
theorem musig_rejection_changes_nothing [Oracles] (k : PublicKey P) :
    (∀ (m : MuSig P T (CommitStage P)) c, (m.addTheirCommitment k c).1 ≠ .ok () →
      (m.addTheirCommitment k c).2 = m) ∧
    (∀ (m : MuSig P T (RevealStage P)) r, (m.addTheirReveal k r).1 ≠ .ok () → (m.addTheirReveal k r).2 = m) ∧
    (∀ (m : MuSig P T (RevealStage P)) r, (m.addTrusted k r).1 ≠ .ok () → (m.addTrusted k r).2 = m) ∧
    (∀ (m : MuSig P T CosignStage) c, (m.addTheirCosignature k c).1 ≠ .ok () →
      (m.addTheirCosignature k c).2 = m) ∧
    (∀ (m : MuSig P T CollectStage) r c, (m.add k r c).1 ≠ .ok () → (m.add k r c).2 = m) := by
  refine ⟨?_, ?_, ?_, ?_, ?_⟩
  · intro m c h
    rw [addTheirCommitment_spec] at h ⊢
    split at h
    · exact absurd rfl h
    · split at h
      · exact absurd rfl h
      · rename_i ho; simp [ho]
  · intro m r h
    rw [addTheirReveal_spec'] at h ⊢
    split at h
    · rfl
    · split at h
      · rfl
      · split at h
        · split at h
          · exact absurd rfl h
          · rename_i hc; rw [if_neg hc]
        · split <;> rfl
        · rfl
        · rfl
  · intro m r h
    rw [addTrusted_spec] at h ⊢
    split at h
    · rfl
    · split at h
      · exact absurd rfl h
      · split at h
        · exact absurd rfl h
        · rename_i hc; simp [hc]
  · intro m c h
    rw [addTheirCosignature_spec] at h ⊢
    split at h
    · rfl
    · split at h
      · rfl
      · rfl
      · exact absurd rfl h
      · split <;> rfl
      · rfl
  · intro m r c h
    rw [add_spec] at h ⊢
    split at h
    · rfl
    · split at h
      · rfl
      · split at h
        · exact absurd rfl h
        · split at h
          · exact absurd rfl h
          · rename_i hc; simp [hc]

/-- **C39** no call of a cosigner's session ever panics: for every keypair (also an inconsistent one),
transcript type, transcript, RNG, and every history of calls of each stage with arbitrary bytes from
arbitrary keys, including edits of the transcript. -/
theorem musig_session_never_panics [Oracles] [SigningTranscript T] (kp : Keypair P) (t : T) (sys : Rng)
    (cs : List (CommitCall P T)) (rs : List (RevealCall P T)) (co : List (CosignCall P)) :
    (runCommit (MuSig.new kp t sys).1 cs).2.ourCommitment = .ok (commitmentTo (ownPoints kp t sys).toReveal) ∧
    (∀ r ∈ (runReveal (runCommit (MuSig.new kp t sys).1 cs).2.revealStage rs).1, r.isPanic = false) ∧
    (session kp t sys cs rs).ourReveal = (ownPoints kp t sys).toReveal ∧
    ∃ m0, (session kp t sys cs rs).cosignStage = .ok m0 ∧
      (∀ r ∈ (runCosign m0 co).1, r.isPanic = false) ∧
      (∃ l, (runCosign m0 co).2.cosigned = .ok l) ∧
      (∃ l, (runCosign m0 co).2.uncosigned = .ok l) ∧
      ∃ o, (runCosign m0 co).2.sign = .ok o := by
  have hg := session_good kp t sys cs rs
  refine ⟨?_, ?_, ?_, ?_⟩
  · have : (runCommit (MuSig.new kp t sys).1 cs).2.stage.RMe = (ownPoints kp t sys).toReveal := by
      have := session_stage kp t sys cs []
      unfold session at this
      rw [runReveal_stage] at this
      exact congrArg RevealStage.RMe this
    unfold MuSig.ourCommitment
    rw [toCommitment_eq, this]
  · exact runReveal_no_panic rs _ (commit_sorted kp t sys cs) (fun k => ⟨_, commit_get kp t sys cs k⟩)
  · unfold MuSig.ourReveal; rw [session_stage]
  · obtain ⟨m0, s, h1, h2, _, _, h3⟩ := cosign_run _ hg
    obtain ⟨h4, h5, h6⟩ := h3 co
    have hc : ∀ e ∈ (runCosign m0 co).2.Rs, ∀ p s, e.2 ≠ .collect p s := by
      rw [h4]
      intro e he p s
      rw [List.mem_map] at he
      obtain ⟨e', he', rfl⟩ := he
      exact lateEntry_ne_collect (hg.early e' he') p s
    exact ⟨m0, h1, h6, ⟨_, cosignedGo_ok _ hc⟩, ⟨_, uncosignedGo_ok _ hc⟩, ⟨_, sign_run _ hg _ s co h4⟩⟩

/-- **C39** a collector never panics, whatever it is given. -/
theorem musig_collector_never_panics [Oracles] [SigningTranscript T] (t : T) (cs : List (CollectCall P)) :
    (∀ r ∈ (runCollect (collectCosignatures t : MuSig P T CollectStage) cs).1, r.isPanic = false) ∧
    ∃ σ, (collector t cs).signature = .ok σ := by
  obtain ⟨ss, _, h⟩ := signature_run t cs
  exact ⟨runCollect_no_panic _ _, _, h⟩

/-! ## C40: what a session knows is a function of the first acceptable message per key -/

/-- **C40** the keys listed by `public_keys(false)` and `public_keys(true)` after any history: exactly
those with a status, respectively those revealed; each list is strictly increasing, so free of
duplicates. -/
theorem musig_public_keys [Oracles] [SigningTranscript T] (kp : Keypair P) (hk : kp.pub.WF) (t : T) (sys : Rng)
    (cs : List (CommitCall P T)) (rs : List (RevealCall P T)) (hc : ∀ c ∈ cs, CommitCall.WF c)
    (hr : ∀ c ∈ rs, RevealCall.WF c) (k : PublicKey P) (hkw : k.WF) :
    let m := session kp t sys cs rs
    (k ∈ m.publicKeys false ↔ status kp t sys cs rs k.compressed ≠ .absent) ∧
    (k ∈ m.publicKeys true ↔ ∃ p, status kp t sys cs rs k.compressed = .revealed p) ∧
    ∀ b, (m.publicKeys b).Pairwise fun a b => lexLt a.compressed.1 b.compressed.1 := by
  intro m
  have hs := session_sorted kp t sys cs rs
  have hw := session_wf kp hk t sys cs rs hc hr
  have hget : ∀ k, m.Rs.get? k = CoR.ofStatus (status kp t sys cs rs k.compressed) := session_get kp t sys cs rs
  have hmem : ∀ v, (k, v) ∈ m.Rs ↔ m.Rs.get? k = some v := by
    intro v
    rw [BMap.get?_eq_some_iff hs]
    constructor
    · intro h; exact ⟨k, h, rfl⟩
    · rintro ⟨k', h1, h2⟩
      have := BMap.key_ext (hw _ h1) hkw h2
      simp only at this
      subst this; exact h1
  refine ⟨?_, ?_, ?_⟩
  · unfold MuSig.publicKeys
    rw [List.mem_filterMap]
    constructor
    · rintro ⟨⟨k', v⟩, h1, h2⟩ ha
      have hkk : k' = k := by cases v <;> simpa using h2
      subst hkk
      rw [hmem, hget, ha] at h1; cases h1
    · intro ha
      cases hst : status kp t sys cs rs k.compressed with
      | absent => exact absurd hst ha
      | committed c => exact ⟨(k, .commit c), (hmem _).mpr (by rw [hget, hst]; rfl), rfl⟩
      | revealed p => exact ⟨(k, .reveal p), (hmem _).mpr (by rw [hget, hst]; rfl), rfl⟩
  · unfold MuSig.publicKeys
    rw [List.mem_filterMap]
    constructor
    · rintro ⟨⟨k', v⟩, h1, h2⟩
      have hkk : k' = k := by cases v <;> simp at h2 <;> exact h2
      subst hkk
      rw [hmem, hget] at h1
      cases hst : status kp t sys cs rs k'.compressed with
      | absent => rw [hst] at h1; cases h1
      | committed c => rw [hst] at h1; cases h1; simp at h2
      | revealed p => exact ⟨p, rfl⟩
    · rintro ⟨p, hst⟩
      exact ⟨(k, .reveal p), (hmem _).mpr (by rw [hget, hst]; rfl), rfl⟩
  · intro b
    unfold MuSig.publicKeys
    rw [List.pairwise_filterMap]
    refine List.Pairwise.imp ?_ hs
    rintro ⟨k1, v1⟩ ⟨k2, v2⟩ h12 x hx y hy
    have e1 : k1 = x := by cases v1 <;> cases b <;> simp at hx <;> exact hx
    have e2 : k2 = y := by cases v2 <;> cases b <;> simp at hy <;> exact hy
    subst e1; subst e2
    exact (cmpBytes_lt _ _).mp h12

/-- **C40** `add_their_commitment`: accepted iff it is the first for its key or repeats the recorded
one; our own key and any different commitment give `MuSigInconsistent`. -/
theorem add_their_commitment_table [SigningTranscript T] (kp : Keypair P) (t : T) (sys : Rng)
    (cs : List (CommitCall P T)) (them : PublicKey P) (c : Commitment) :
    ((runCommit (MuSig.new kp t sys).1 cs).2.addTheirCommitment them c).1 =
      if them.compressed = kp.pub.compressed then .error (.muSigInconsistent .commitment true)
      else match firstCommitment cs them.compressed with
        | none => .ok ()
        | some c' => if c' = c then .ok () else .error (.muSigInconsistent .commitment true) := by
  letI : Oracles := toyOracles
  rw [addTheirCommitment_spec, commit_get]
  unfold statusCommit
  by_cases hk : them.compressed = kp.pub.compressed
  · simp [hk, CoR.ofStatus]
  · rw [if_neg hk, if_neg hk]
    cases firstCommitment cs them.compressed with
    | none => rfl
    | some c' =>
      by_cases h : c' = c <;> simp [CoR.ofStatus, h]

/-- **C40** `add_their_reveal`: accepted iff well-formed and either opening the recorded commitment or
repeating the recorded reveal; otherwise the error says which. -/
theorem add_their_reveal_table [Oracles] [SigningTranscript T] (kp : Keypair P) (t : T) (sys : Rng)
    (cs : List (CommitCall P T)) (rs : List (RevealCall P T)) (them : PublicKey P) (r : Reveal) :
    ((session kp t sys cs rs).addTheirReveal them r).1 =
      match status kp t sys cs rs them.compressed, (points r : Option (RevealedPoints P)) with
      | .absent, _ => .err (.muSigAbsent .commitment)
      | _, none => .err .pointDecompressionError
      | .committed c, some _ =>
        if commitmentTo r = c then .ok () else .err (.muSigInconsistent .commitment false)
      | .revealed q, some p => if p = q then .ok () else .err (.muSigInconsistent .reveal true) := by
  rw [addTheirReveal_spec', session_get]
  cases status kp t sys cs rs them.compressed with
  | absent => rfl
  | committed c =>
    cases (points r : Option (RevealedPoints P)) with
    | none => rfl
    | some p =>
      by_cases h : c = commitmentTo r
      · simp [CoR.ofStatus, h]
      · have h' : commitmentTo r ≠ c := fun e => h e.symm
        simp [CoR.ofStatus, h, h']
  | revealed q =>
    cases (points r : Option (RevealedPoints P)) with
    | none => rfl
    | some p =>
      by_cases h : q = p
      · simp [CoR.ofStatus, h]
      · have h' : p ≠ q := fun e => h e.symm
        simp [CoR.ofStatus, h, h']

/-- **C40** `add_trusted`: accepted iff well-formed and the key is new or already revealed the same
points; a key that only committed cannot be added as trusted. -/
theorem add_trusted_table [Oracles] [SigningTranscript T] (kp : Keypair P) (t : T) (sys : Rng)
    (cs : List (CommitCall P T)) (rs : List (RevealCall P T)) (them : PublicKey P) (r : Reveal) :
    ((session kp t sys cs rs).addTrusted them r).1 =
      match (points r : Option (RevealedPoints P)), status kp t sys cs rs them.compressed with
      | none, _ => .err .pointDecompressionError
      | some _, .absent => .ok ()
      | some _, .committed _ => .err (.muSigInconsistent .reveal true)
      | some p, .revealed q => if p = q then .ok () else .err (.muSigInconsistent .reveal true) := by
  rw [addTrusted_spec, session_get]
  cases (points r : Option (RevealedPoints P)) with
  | none => rfl
  | some p =>
    cases status kp t sys cs rs them.compressed with
    | absent => rfl
    | committed c => simp [CoR.ofStatus]
    | revealed q =>
      by_cases h : q = p
      · simp [CoR.ofStatus, h]
      · have h' : p ≠ q := fun e => h e.symm
        simp [CoR.ofStatus, h, h']

/-- **C40** `add_their_cosignature`: accepted iff the scalar is reduced and the key revealed, and either
no cosignature of it is recorded yet or the same one is. -/
theorem add_their_cosignature_table [Oracles] [SigningTranscript T] (kp : Keypair P) (t : T) (sys : Rng)
    (cs : List (CommitCall P T)) (rs : List (RevealCall P T)) (m0 : MuSig P T CosignStage)
    (h0 : (session kp t sys cs rs).cosignStage = .ok m0) (co : List (CosignCall P)) (them : PublicKey P)
    (c : Cosignature) :
    ((runCosign m0 co).2.addTheirCosignature them c).1 =
      match Scalar.fromCanonicalBytes c.bytes, status kp t sys cs rs them.compressed with
      | none, _ => .err .scalarFormatError
      | some _, .absent => .err (.muSigAbsent .reveal)
      | some _, .committed _ => .err (.muSigAbsent .reveal)
      | some s, .revealed _ =>
        match shareOf kp.pub.compressed ⟨m0.ourCosignature.bytes⟩ co them.compressed with
        | none => .ok ()
        | some s' => if s = s' then .ok () else .err (.muSigInconsistent .cosignature true) := by
  have hg := session_good kp t sys cs rs
  obtain ⟨m0', s, h1, h2, _, _, h3⟩ := cosign_run _ hg
  rw [h0] at h1
  cases h1
  have hs : (⟨m0.ourCosignature.bytes⟩ : Scalar) = s := by
    unfold MuSig.ourCosignature; rw [h2]
  rw [hs]
  rw [addTheirCosignature_spec, (h3 co).1, BMap.get?_mapKV, session_get, session_stage]
  have hme := status_me kp t sys cs rs
  cases Scalar.fromCanonicalBytes c.bytes with
  | none => rfl
  | some s' =>
    by_cases hk : them.compressed = kp.pub.compressed
    · rw [hk, hme]
      simp only [CoR.ofStatus, Option.map_some, lateEntry, if_true, shareOf]
      by_cases h : s = s'
      · simp [h]
      · have h' : s' ≠ s := fun e => h e.symm
        simp [h, h']
    · cases status kp t sys cs rs them.compressed with
      | absent => rfl
      | committed c => simp [CoR.ofStatus, lateEntry, hk]
      | revealed p =>
        simp only [CoR.ofStatus, Option.map_some, lateEntry, hk, if_false, shareOf]
        cases firstShare co them.compressed with
        | none => rfl
        | some s2 =>
          by_cases h : s2 = s'
          · simp [h]
          · have h' : s' ≠ s2 := fun e => h e.symm
            simp [h, h']

/-- **C40** a collector's `add`: both parts must be well-formed; the first contribution of a key is
recorded, a repetition accepted, a different one refused. -/
theorem collector_add_table [SigningTranscript T] (t : T) (cs : List (CollectCall P)) (c : CollectCall P) :
    ((collector t cs).add c.them c.rev c.share).1 =
      match (points c.rev : Option (RevealedPoints P)), Scalar.fromCanonicalBytes c.share.bytes with
      | none, _ => .err .pointDecompressionError
      | some _, none => .err .scalarFormatError
      | some p, some s => match firstAdd cs c.them.compressed with
        | none => .ok ()
        | some x => if x = (p, s) then .ok () else .err (.muSigInconsistent .reveal true) := by
  rw [add_spec, collector_get]
  cases (points c.rev : Option (RevealedPoints P)) with
  | none => rfl
  | some p =>
    cases Scalar.fromCanonicalBytes c.share.bytes with
    | none => rfl
    | some s =>
      cases firstAdd cs c.them.compressed with
      | none => rfl
      | some x =>
        obtain ⟨q, s'⟩ := x
        simp only [Option.map_some, CoR.collect.injEq, Prod.mk.injEq]
        split <;> rfl

/-- **C40** entries are immutable: commitments, reveals and cosignatures on record survive every
further history. -/
theorem musig_entries_immutable [Oracles] [SigningTranscript T] (kp : Keypair P) (t : T) (sys : Rng)
    (cs cs' : List (CommitCall P T)) (rs rs' : List (RevealCall P T)) (co co' : List (CosignCall P))
    (k : Compressed) :
    (∀ c, status kp t sys cs [] k = .committed c → status kp t sys (cs ++ cs') [] k = .committed c) ∧
    (∀ c, status kp t sys cs [] k = .committed c → status kp t sys cs rs k = .committed c ∨
      ∃ r them p, RevealCall.reveal them r ∈ rs ∧ them.compressed = k ∧ commitmentTo r = c ∧
        points r = some p ∧ status kp t sys cs rs k = .revealed p) ∧
    (∀ p, status kp t sys cs rs k = .revealed p → status kp t sys cs (rs ++ rs') k = .revealed p) ∧
    (∀ s, firstShare co k = some s → firstShare (co ++ co') k = some s) := by
  refine ⟨?_, ?_, ?_, ?_⟩
  · intro c h
    unfold status statusReveal statusCommit at h ⊢
    by_cases hk : k = kp.pub.compressed
    · simp [hk] at h
    · simp only [hk, if_false] at h ⊢
      have : firstCommitment (cs ++ cs') k = (firstCommitment cs k).or (firstCommitment cs' k) := by
        unfold firstCommitment; rw [List.findSome?_append]
      rw [this]
      cases hf : firstCommitment cs k with
      | none => rw [hf] at h; simp [firstTrusted] at h
      | some c' => rw [hf] at h; simpa [firstOpening] using h
  · intro c h
    have hsc : statusCommit kp.pub.compressed (ownPoints kp t sys) cs k = .committed c := by
      unfold status at h
      cases hs : statusCommit kp.pub.compressed (ownPoints kp t sys) cs k with
      | absent => rw [hs] at h; simp [statusReveal, firstTrusted] at h
      | committed c' => rw [hs] at h; simpa [statusReveal, firstOpening] using h
      | revealed p => rw [hs] at h; simp [statusReveal] at h
    unfold status
    rw [hsc]
    simp only [statusReveal]
    cases ho : firstOpening rs k c with
    | none => left; rfl
    | some p =>
      right
      unfold firstOpening at ho
      obtain ⟨x, hx, hxp⟩ := List.exists_of_findSome?_eq_some ho
      cases x with
      | reveal them r =>
        simp only at hxp
        split at hxp
        · rename_i hh
          exact ⟨r, them, p, hx, hh.1, hh.2, hxp, rfl⟩
        · cases hxp
      | trusted them r => cases hxp
      | transcript f => cases hxp
  · intro p h
    unfold status at h ⊢
    generalize statusCommit kp.pub.compressed (ownPoints kp t sys) cs k = s at h
    induction rs generalizing s with
    | nil =>
      have : s = .revealed p := by
        cases s <;> simpa [statusReveal, firstOpening, firstTrusted] using h
      rw [this]; rfl
    | cons c rs ih =>
      rw [statusReveal_cons] at h
      rw [List.cons_append, statusReveal_cons]
      exact ih _ h
  · intro s h
    unfold firstShare at h ⊢
    rw [List.findSome?_append, h]; rfl

/-- **C40** binding: if a session recorded the commitment to a reveal message `r0` and a *different*
reveal `r` for that key is accepted as its opening, then two different hash queries have the same
128-bit answer. -/
theorem musig_commitment_binding [Oracles] (r r0 : Reveal) (h : commitmentTo r = commitmentTo r0) (hne : r ≠ r0) :
    commitmentQuery r ≠ commitmentQuery r0 ∧
      Oracles.merlin (commitmentQuery r) 16 = Oracles.merlin (commitmentQuery r0) 16 := by
  refine ⟨?_, congrArg Commitment.bytes h⟩
  intro hq
  apply hne
  have split : ∀ r : Reveal, r.bytes.1 = r.bytes.1.take 32 ++ ((r.bytes.1.drop 32).take 32 ++ (r.bytes.1.drop 64).take 32) := by
    intro r
    have hl := r.bytes.2
    rw [List.take_of_length_le (l := r.bytes.1.drop 64) (by simp [hl])]
    rw [show r.bytes.1.drop 64 = (r.bytes.1.drop 32).drop 32 by rw [List.drop_drop], List.take_append_drop]
    simp
  simp only [commitmentQuery, List.cons.injEq, MOp.append.injEq, true_and, and_true] at hq
  obtain ⟨h1, h2, h3⟩ := hq
  have : r.bytes = r0.bytes := Arr.ext' (by rw [split r, split r0, h1, h2, h3])
  exact (congrArg Reveal.mk this : _)

/-- **C40** The same on the recorded entries themselves: once a key has a commitment it keeps it through
the commit stage, once it is revealed it keeps its points through the reveal stage, and once it has
cosigned it keeps its share through the cosign stage, whatever calls follow. -/
theorem musig_recorded_entries_persist [Oracles] [SigningTranscript T] (kp : Keypair P) (t : T) (sys : Rng)
    (cs cs' : List (CommitCall P T)) (rs rs' : List (RevealCall P T)) (k : PublicKey P) :
    (∀ v, (runCommit (MuSig.new kp t sys).1 cs).2.Rs.get? k = some v →
      (runCommit (MuSig.new kp t sys).1 (cs ++ cs')).2.Rs.get? k = some v) ∧
    (∀ p, (session kp t sys cs rs).Rs.get? k = some (.reveal p) →
      (session kp t sys cs (rs ++ rs')).Rs.get? k = some (.reveal p)) ∧
    ∃ m0, (session kp t sys cs rs).cosignStage = .ok m0 ∧ ∀ (co co' : List (CosignCall P)) (s : Scalar),
      (runCosign m0 co).2.Rs.get? k = some (.cosigned s) →
        (runCosign m0 (co ++ co')).2.Rs.get? k = some (.cosigned s) := by
  refine ⟨?_, ?_, ?_⟩
  · intro v
    rw [commit_get, commit_get]
    unfold statusCommit
    by_cases hk : k.compressed = kp.pub.compressed
    · simp [hk]
    · simp only [hk, if_false]
      have : firstCommitment (cs ++ cs') k.compressed =
          (firstCommitment cs k.compressed).or (firstCommitment cs' k.compressed) := by
        unfold firstCommitment; rw [List.findSome?_append]
      rw [this]
      cases firstCommitment cs k.compressed with
      | none => intro h; cases h
      | some c => exact id
  · intro p
    rw [session_get, session_get]
    intro h
    have : status kp t sys cs rs k.compressed = .revealed p := CoR.ofStatus_inj (by rw [h]; rfl)
    rw [(musig_entries_immutable kp t sys cs [] rs rs' [] [] k.compressed).2.2.1 p this]; rfl
  · have hg := session_good kp t sys cs rs
    obtain ⟨m0, s, h1, h2, _, _, h3⟩ := cosign_run _ hg
    refine ⟨m0, h1, ?_⟩
    intro co co' s'
    rw [(h3 co).1, (h3 (co ++ co')).1, BMap.get?_mapKV, BMap.get?_mapKV, session_get]
    cases status kp t sys cs rs k.compressed with
    | absent => intro h; cases h
    | committed c =>
      simp only [CoR.ofStatus, Option.map_some, Option.some.injEq, lateEntry]
      exact id
    | revealed p =>
      simp only [CoR.ofStatus, Option.map_some, Option.some.injEq, lateEntry]
      split
      · exact id
      · cases hf : firstShare co k.compressed with
        | none => intro h; cases h
        | some s'' =>
          have : firstShare (co ++ co') k.compressed = some s'' := by
            unfold firstShare at hf ⊢; rw [List.findSome?_append, hf]; rfl
          rw [this]; exact id

/-! ## Concrete sessions -/

section Examples

/-- Our key (1), another key (2). -/
private def toyMe : Keypair Toy := SecretKey.toKeypair ⟨⟨leArr 32 1⟩, zeros 32⟩
private def toyThem : PublicKey Toy := SecretKey.toPublic ⟨⟨leArr 32 2⟩, zeros 32⟩
/-- A well-formed reveal message with the points 5, 6, 7, another one, and a malformed one. -/
private def toyReveal : Reveal := (⟨⟨[Toy.ofZ 5, Toy.ofZ 6, Toy.ofZ 7], rfl⟩⟩ : RevealedPoints Toy).toReveal
private def toyReveal' : Reveal := (⟨⟨[Toy.ofZ 5, Toy.ofZ 6, Toy.ofZ 8], rfl⟩⟩ : RevealedPoints Toy).toReveal
private def badReveal : Reveal := ⟨leArr 96 (256 ^ 96 - 1)⟩
private def toyT : Transcript := Transcript.new (b! "msg")

/-- Commit stage: first commitment accepted, repeated accepted, other one and one in our name rejected. -/
example : letI := toyOracles
    (runCommit (MuSig.new toyMe toyT zeroRng).1 [.commitment toyThem (commitmentTo toyReveal),
      .commitment toyThem (commitmentTo toyReveal), .commitment toyThem (commitmentTo toyReveal'),
      .commitment toyMe.pub (commitmentTo toyReveal)]).1 =
    [.ok (), .ok (), .error (.muSigInconsistent .commitment true),
      .error (.muSigInconsistent .commitment true)] := by decide +kernel

/-- Reveal stage: malformed, not matching the commitment, matching, repeated, changed, and from a key
without commitment. -/
example : letI := toyOracles
    (runReveal (runCommit (MuSig.new toyMe toyT zeroRng).1
        [.commitment toyThem (commitmentTo toyReveal)]).2.revealStage
      [.reveal toyThem badReveal, .reveal toyThem toyReveal', .reveal toyThem toyReveal, .reveal toyThem toyReveal,
       .reveal toyThem toyReveal', .reveal (PublicKey.fromPoint (Toy.ofZ 9)) toyReveal]).1 =
    [.err .pointDecompressionError, .err (.muSigInconsistent .commitment false), .ok (), .ok (),
      .err (.muSigInconsistent .reveal true), .err (.muSigAbsent .commitment)] := by decide +kernel

/-- Cosign stage: unreduced scalar, first share, repeated, changed, and unknown key; then `sign` answers
`Some` although the share is bogus. -/
example : letI := toyOracles
    ((session toyMe toyT zeroRng [.commitment toyThem (commitmentTo toyReveal)] [.reveal toyThem toyReveal]).cosignStage.bind
      fun m0 =>
        let r := runCosign m0 [⟨toyThem, ⟨leArr 32 (256 ^ 32 - 1)⟩⟩, ⟨toyThem, ⟨leArr 32 4⟩⟩, ⟨toyThem, ⟨leArr 32 4⟩⟩,
          ⟨toyThem, ⟨leArr 32 3⟩⟩, ⟨PublicKey.fromPoint (Toy.ofZ 9), ⟨leArr 32 4⟩⟩]
        r.2.sign.bind fun σ => .ok (r.1, σ.isSome)) =
    .ok ([.err .scalarFormatError, .ok (), .ok (), .err (.muSigInconsistent .cosignature true),
      .err (.muSigAbsent .reveal)], true) := by decide +kernel

end Examples

end Schnorrkel.Props
