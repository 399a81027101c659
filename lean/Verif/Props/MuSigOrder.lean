import Verif.Lemmas.Interleave
import Verif.Lemmas.MuSigCollect
import Verif.Instance

/-! # C93–C95: the order in which different participants' messages arrive, and delivering them again, do not matter, and nobody influences how others are answered -/

namespace Schnorrkel.Props
open SigningTranscript Spec
variable {P : Type} [Ristretto P] {T : Type}

/-! ### What one message does to one entry -/

private def edit (m : MuSig P T S) : Option Compressed → T ⊕ Option (CoR P)
  | none => .inl m.t
  | some k => .inr (entry m k)

private def commitLoc : CommitCall P T → T ⊕ Option (CoR P) → SignatureResult Unit × (T ⊕ Option (CoR P))
  | .transcript f, .inl t => (.ok (), .inl (f t))
  | .commitment _ c, .inr none => (.ok (), .inr (some (.commit c)))
  | .commitment _ c, .inr (some o) =>
    (if o ≠ .commit c then .error (.muSigInconsistent .commitment true) else .ok (), .inr (some o))
  | _, x => (.ok (), x)

private def commitStep (m : MuSig P T (CommitStage P)) : CommitCall P T → SignatureResult Unit × MuSig P T (CommitStage P)
  | .commitment k c => m.addTheirCommitment k c
  | .transcript f => (.ok (), m.editTranscript f)

private theorem edit_ext {S : Type} {s : S} {m m' : MuSig P T S} (hm : Proper s m) (hm' : Proper s m')
    (h : ∀ k, edit m k = edit m' k) : m = m' :=
  proper_ext hm hm' (Sum.inl.inj (h none)) fun k => Sum.inr.inj (h (some k))

private theorem edit_there {S : Type} {s : S} {m m' : MuSig P T S} {k : PublicKey P} {o : Option (CoR P)} (hm : Proper s m)
    (hk : k.WF) (h : Touches m m' k o) (y : Option Compressed) (hy : y ≠ some k.compressed) : edit m' y = edit m y := by
  obtain ⟨-, h2, -, h4⟩ := touches hm hk h
  cases y with
  | none => exact congrArg Sum.inl h2
  | some y => exact congrArg Sum.inr (h4 y fun e => hy (congrArg some e))

private theorem transcript_there {S : Type} (m : MuSig P T S) (f : T → T) (y : Option Compressed) (hy : y ≠ none) :
    edit (m.editTranscript f) y = edit m y := by
  cases y with
  | none => exact absurd rfl hy
  | some y => rfl

private theorem commit_one (m : MuSig P T (CommitStage P)) (k : PublicKey P) (c : Commitment) :
    ∃ o, commitLoc (.commitment k c : CommitCall P T) (edit m (some k.compressed)) = ((m.addTheirCommitment k c).1, .inr o) ∧
      Touches m (m.addTheirCommitment k c).2 k o := by
  have e : edit m (some k.compressed) = .inr (m.Rs.get? k) := congrArg Sum.inr (entry_eq m k)
  rw [e]
  unfold MuSig.addTheirCommitment Touches
  cases h : m.Rs.get? k with
  | none => exact ⟨_, rfl, .inr ⟨_, rfl, rfl⟩⟩
  | some v =>
    refine ⟨some v, ?_, .inl ⟨?_, rfl⟩⟩ <;> by_cases hv : v = .commit c <;> simp [commitLoc, hv]

private theorem commit_local (s : CommitStage P) :
    Locality (commitStep (P := P) (T := T)) CommitCall.who edit commitLoc (Proper s) CommitCall.WF where
  res m c _ _ := by
    cases c with
    | commitment k c =>
      obtain ⟨o, h, -⟩ := commit_one m k c
      exact (congrArg Prod.fst h).symm
    | transcript f => rfl
  here m c hm hc := by
    cases c with
    | commitment k c =>
      obtain ⟨o, h, h'⟩ := commit_one m k c
      exact (congrArg Sum.inr (touches hm hc h').2.2.1).trans (congrArg Prod.snd h).symm
    | transcript f => rfl
  there m c y hm hc hy := by
    cases c with
    | commitment k c =>
      obtain ⟨o, h, h'⟩ := commit_one m k c
      exact edit_there hm hc h' y hy
    | transcript f => exact transcript_there m f y hy
  inv m c hm hc := by
    cases c with
    | commitment k c =>
      obtain ⟨o, h, h'⟩ := commit_one m k c
      exact (touches hm hc h').1
    | transcript f => exact hm
  ext _ _ := edit_ext

private theorem commit_interleave {s : CommitStage P} (m : MuSig P T (CommitStage P)) (hm : Proper s m) (cs cs' : List (CommitCall P T))
    (hw : ∀ c ∈ cs, CommitCall.WF c) (h : SameStreams CommitCall.who cs cs') :
    (runCommit m cs).2 = (runCommit m cs').2 ∧
    (∀ who, answersTo CommitCall.who cs (runCommit m cs).1 who = answersTo CommitCall.who cs' (runCommit m cs').1 who) ∧
    Proper s (runCommit m cs).2 :=
  (commit_local s).interleave runCommit (fun _ => rfl) (fun m c cs => by cases c <;> rfl) cs cs' m hm hw h

/-! ### Reveal stage -/

private def revealLoc [Oracles] : RevealCall P T → T ⊕ Option (CoR P) → Outcome Unit × (T ⊕ Option (CoR P))
  | .transcript f, .inl t => (.ok (), .inl (f t))
  | .reveal _ _, .inr none => (.err (.muSigAbsent .commitment), .inr none)
  | .reveal _ r, .inr (some o) => ((o.setRevealed r).1, .inr (some (o.setRevealed r).2))
  | .trusted _ r, .inr v =>
    match (r.intoPoints : Outcome (RevealedPoints P)) with
    | .err e => (.err e, .inr v)
    | .panic s => (.panic s, .inr v)
    | .ok p => match v with
      | none => (.ok (), .inr (some (.reveal p)))
      | some o => (if o ≠ .reveal p then .err (.muSigInconsistent .reveal true) else .ok (), .inr (some o))
  | _, x => (.ok (), x)

private def revealStep [Oracles] (m : MuSig P T (RevealStage P)) : RevealCall P T → Outcome Unit × MuSig P T (RevealStage P)
  | .reveal k r => m.addTheirReveal k r
  | .trusted k r => m.addTrusted k r
  | .transcript f => (.ok (), m.editTranscript f)

private theorem reveal_one [Oracles] (m : MuSig P T (RevealStage P)) (k : PublicKey P) (r : Reveal) :
    ∃ o, revealLoc (.reveal k r : RevealCall P T) (edit m (some k.compressed)) = ((m.addTheirReveal k r).1, .inr o) ∧
      Touches m (m.addTheirReveal k r).2 k o := by
  have e : edit m (some k.compressed) = .inr (m.Rs.get? k) := congrArg Sum.inr (entry_eq m k)
  rw [e]
  unfold MuSig.addTheirReveal Touches
  cases h : m.Rs.get? k with
  | none => exact ⟨none, rfl, .inl ⟨rfl, rfl⟩⟩
  | some v => exact ⟨_, rfl, .inr ⟨_, rfl, rfl⟩⟩

private theorem trusted_one [Oracles] (m : MuSig P T (RevealStage P)) (k : PublicKey P) (r : Reveal) :
    ∃ o, revealLoc (.trusted k r : RevealCall P T) (edit m (some k.compressed)) = ((m.addTrusted k r).1, .inr o) ∧
      Touches m (m.addTrusted k r).2 k o := by
  have e : edit m (some k.compressed) = .inr (m.Rs.get? k) := congrArg Sum.inr (entry_eq m k)
  rw [e]
  unfold MuSig.addTrusted Touches
  simp only [revealLoc]
  cases (r.intoPoints : Outcome (RevealedPoints P)) with
  | err e => exact ⟨_, rfl, .inl ⟨rfl, rfl⟩⟩
  | panic s => exact ⟨_, rfl, .inl ⟨rfl, rfl⟩⟩
  | ok p =>
    cases h : m.Rs.get? k with
    | none => exact ⟨_, rfl, .inr ⟨_, rfl, rfl⟩⟩
    | some v =>
      refine ⟨some v, ?_, .inl ⟨?_, rfl⟩⟩ <;> by_cases hv : v = .reveal p <;> simp [hv]

private theorem reveal_local [Oracles] (s : RevealStage P) :
    Locality (revealStep (P := P) (T := T)) RevealCall.who edit revealLoc (Proper s) RevealCall.WF where
  res m c _ _ := by
    cases c with
    | reveal k r =>
      obtain ⟨o, h, -⟩ := reveal_one m k r
      exact (congrArg Prod.fst h).symm
    | trusted k r =>
      obtain ⟨o, h, -⟩ := trusted_one m k r
      exact (congrArg Prod.fst h).symm
    | transcript f => rfl
  here m c hm hc := by
    cases c with
    | reveal k r =>
      obtain ⟨o, h, h'⟩ := reveal_one m k r
      exact (congrArg Sum.inr (touches hm hc h').2.2.1).trans (congrArg Prod.snd h).symm
    | trusted k r =>
      obtain ⟨o, h, h'⟩ := trusted_one m k r
      exact (congrArg Sum.inr (touches hm hc h').2.2.1).trans (congrArg Prod.snd h).symm
    | transcript f => rfl
  there m c y hm hc hy := by
    cases c with
    | reveal k r =>
      obtain ⟨o, h, h'⟩ := reveal_one m k r
      exact edit_there hm hc h' y hy
    | trusted k r =>
      obtain ⟨o, h, h'⟩ := trusted_one m k r
      exact edit_there hm hc h' y hy
    | transcript f => exact transcript_there m f y hy
  inv m c hm hc := by
    cases c with
    | reveal k r =>
      obtain ⟨o, h, h'⟩ := reveal_one m k r
      exact (touches hm hc h').1
    | trusted k r =>
      obtain ⟨o, h, h'⟩ := trusted_one m k r
      exact (touches hm hc h').1
    | transcript f => exact hm
  ext _ _ := edit_ext

private theorem reveal_interleave [Oracles] {s : RevealStage P} (m : MuSig P T (RevealStage P)) (hm : Proper s m)
    (rs rs' : List (RevealCall P T)) (hw : ∀ r ∈ rs, RevealCall.WF r) (h : SameStreams RevealCall.who rs rs') :
    (runReveal m rs).2 = (runReveal m rs').2 ∧
    (∀ who, answersTo RevealCall.who rs (runReveal m rs).1 who = answersTo RevealCall.who rs' (runReveal m rs').1 who) ∧
    Proper s (runReveal m rs).2 :=
  (reveal_local s).interleave runReveal (fun _ => rfl) (fun m c cs => by cases c <;> rfl) rs rs' m hm hw h

/-! ### Cosign stage and collectors: the transcript is not touched, so its value is part of the invariant -/

private def cosignLoc (c : CosignCall P) (v : Option (CoR P)) : Outcome Unit × Option (CoR P) :=
  match scalarFromCanonicalBytes c.share.bytes, v with
  | none, v => (.err .scalarFormatError, v)
  | some _, none => (.err (.muSigAbsent .reveal), none)
  | some s, some o => ((o.setCosigned s).1, some (o.setCosigned s).2)

private theorem cosign_one (m : MuSig P T CosignStage) (c : CosignCall P) :
    (cosignLoc c (entry m c.who)).1 = (m.addTheirCosignature c.them c.share).1 ∧
      Touches m (m.addTheirCosignature c.them c.share).2 c.them (cosignLoc c (entry m c.who)).2 := by
  have e : entry m c.who = m.Rs.get? c.them := entry_eq m c.them
  rw [e]
  unfold MuSig.addTheirCosignature Touches cosignLoc
  cases scalarFromCanonicalBytes c.share.bytes with
  | none => exact ⟨rfl, .inl ⟨rfl, rfl⟩⟩
  | some s =>
    cases h : m.Rs.get? c.them with
    | none => exact ⟨rfl, .inl ⟨rfl, rfl⟩⟩
    | some v => exact ⟨rfl, .inr ⟨_, rfl, rfl⟩⟩

private theorem cosign_local (s : CosignStage) (t : T) :
    Locality (fun (m : MuSig P T CosignStage) (c : CosignCall P) => m.addTheirCosignature c.them c.share) CosignCall.who entry
      cosignLoc (fun m => Proper s m ∧ m.t = t) (fun c => c.them.WF) where
  res m c _ _ := (cosign_one m c).1.symm
  here m c hm hc := (touches hm.1 hc (cosign_one m c).2).2.2.1
  there m c y hm hc hy := (touches hm.1 hc (cosign_one m c).2).2.2.2 y hy
  inv m c hm hc :=
    have h := touches hm.1 hc (cosign_one m c).2
    ⟨h.1, h.2.1.trans hm.2⟩
  ext _ _ hm hm' := proper_ext hm.1 hm'.1 (hm.2.trans hm'.2.symm)

private def collectLoc (c : CollectCall P) (v : Option (CoR P)) : Outcome Unit × Option (CoR P) :=
  match (c.rev.intoPoints : Outcome (RevealedPoints P)) with
  | .err e => (.err e, v)
  | .panic s => (.panic s, v)
  | .ok p => match scalarFromCanonicalBytes c.share.bytes with
    | none => (.err .scalarFormatError, v)
    | some s => match v with
      | none => (.ok (), some (.collect p s))
      | some o => (if o ≠ .collect p s then .err (.muSigInconsistent .reveal true) else .ok (), some o)

private theorem collect_one (m : MuSig P T CollectStage) (c : CollectCall P) :
    (collectLoc c (entry m c.who)).1 = (m.add c.them c.rev c.share).1 ∧
      Touches m (m.add c.them c.rev c.share).2 c.them (collectLoc c (entry m c.who)).2 := by
  have e : entry m c.who = m.Rs.get? c.them := entry_eq m c.them
  rw [e]
  unfold MuSig.add Touches collectLoc
  cases (c.rev.intoPoints : Outcome (RevealedPoints P)) with
  | err e => exact ⟨rfl, .inl ⟨rfl, rfl⟩⟩
  | panic s => exact ⟨rfl, .inl ⟨rfl, rfl⟩⟩
  | ok p =>
    cases scalarFromCanonicalBytes c.share.bytes with
    | none => exact ⟨rfl, .inl ⟨rfl, rfl⟩⟩
    | some s =>
      cases h : m.Rs.get? c.them with
      | none => exact ⟨rfl, .inr ⟨_, rfl, rfl⟩⟩
      | some v =>
        refine ⟨?_, .inl ⟨?_, rfl⟩⟩ <;> by_cases hv : v = .collect p s <;> simp [hv]

private theorem collect_local (s : CollectStage) (t : T) :
    Locality (fun (m : MuSig P T CollectStage) (c : CollectCall P) => m.add c.them c.rev c.share) CollectCall.who entry
      collectLoc (fun m => Proper s m ∧ m.t = t) (fun c => c.them.WF) where
  res m c _ _ := (collect_one m c).1.symm
  here m c hm hc := (touches hm.1 hc (collect_one m c).2).2.2.1
  there m c y hm hc hy := (touches hm.1 hc (collect_one m c).2).2.2.2 y hy
  inv m c hm hc :=
    have h := touches hm.1 hc (collect_one m c).2
    ⟨h.1, h.2.1.trans hm.2⟩
  ext _ _ hm hm' := proper_ext hm.1 hm'.1 (hm.2.trans hm'.2.symm)

/-! ### The theorems -/

private theorem new_proper [SigningTranscript T] (kp : Keypair P) (hk : kp.pub.WF) (t : T) (sys : Rng) :
    Proper (MuSig.new kp t sys).1.stage (MuSig.new kp t sys).1 := by
  obtain ⟨p, h⟩ : ∃ p, (MuSig.new kp t sys).1.Rs = [(kp.pub, p)] := ⟨_, rfl⟩
  refine ⟨rfl, ?_, ?_⟩ <;> rw [h]
  · simp [BMap.Sorted]
  · intro e he
    obtain rfl := List.mem_singleton.mp he
    exact hk

/-- **C93** commit stage: however the commitments of different participants are interleaved with each other and with the
caller's edits of the transcript, the session ends up the same, and everybody's messages get the same answers. -/
theorem commitments_order [SigningTranscript T] (kp : Keypair P) (hk : kp.pub.WF) (t : T) (sys : Rng)
    (cs cs' : List (CommitCall P T)) (hw : ∀ c ∈ cs, CommitCall.WF c) (h : SameStreams CommitCall.who cs cs') :
    let m := (MuSig.new kp t sys).1
    (runCommit m cs).2 = (runCommit m cs').2 ∧
    ∀ who, answersTo CommitCall.who cs (runCommit m cs).1 who = answersTo CommitCall.who cs' (runCommit m cs').1 who := by
  intro m
  obtain ⟨h1, h2, -⟩ := commit_interleave m (new_proper kp hk t sys) cs cs' hw h
  exact ⟨h1, h2⟩

private theorem commit_proper [SigningTranscript T] (kp : Keypair P) (hk : kp.pub.WF) (t : T) (sys : Rng)
    (cs : List (CommitCall P T)) (hw : ∀ c ∈ cs, CommitCall.WF c) :
    ∃ s, Proper s (runCommit (MuSig.new kp t sys).1 cs).2.revealStage := by
  obtain ⟨-, -, h1, h2, h3⟩ := commit_interleave _ (new_proper kp hk t sys) cs cs hw fun _ => rfl
  exact ⟨_, rfl, h2, h3⟩

/-- **C93** reveal stage, after any commit stage: the same for reveals, trusted reveals and edits of the transcript. -/
theorem reveals_order [Oracles] [SigningTranscript T] (kp : Keypair P) (hk : kp.pub.WF) (t : T) (sys : Rng)
    (cs : List (CommitCall P T)) (hw : ∀ c ∈ cs, CommitCall.WF c) (rs rs' : List (RevealCall P T)) (hr : ∀ r ∈ rs, RevealCall.WF r)
    (h : SameStreams RevealCall.who rs rs') :
    let m := (runCommit (MuSig.new kp t sys).1 cs).2.revealStage
    (runReveal m rs).2 = (runReveal m rs').2 ∧
    ∀ who, answersTo RevealCall.who rs (runReveal m rs).1 who = answersTo RevealCall.who rs' (runReveal m rs').1 who := by
  intro m
  obtain ⟨s, hs⟩ := commit_proper kp hk t sys cs hw
  obtain ⟨h1, h2, -⟩ := reveal_interleave m hs rs rs' hr h
  exact ⟨h1, h2⟩

/-- **C93** two whole sessions of one participant, up to the moment it cosigns, that differ only in the interleaving of
messages within each stage: they are in the same state. -/
theorem session_order [Oracles] [SigningTranscript T] (kp : Keypair P) (hk : kp.pub.WF) (t : T) (sys : Rng)
    (cs cs' : List (CommitCall P T)) (hw : ∀ c ∈ cs, CommitCall.WF c) (h : SameStreams CommitCall.who cs cs')
    (rs rs' : List (RevealCall P T)) (hr : ∀ r ∈ rs, RevealCall.WF r) (h' : SameStreams RevealCall.who rs rs') :
    session kp t sys cs rs = session kp t sys cs' rs' := by
  have h1 := (commitments_order kp hk t sys cs cs' hw h).1
  have h2 := (reveals_order kp hk t sys cs hw rs rs' hr h').1
  unfold session
  rw [h2, h1]

private theorem cosign_entries [Oracles] [SigningTranscript T] (kp : Keypair P) (hk : kp.pub.WF) (t : T) (sys : Rng)
    (cs : List (CommitCall P T)) (hw : ∀ c ∈ cs, CommitCall.WF c) (rs : List (RevealCall P T)) (hr : ∀ r ∈ rs, RevealCall.WF r)
    (m : MuSig P T CosignStage) (h : (session kp t sys cs rs).cosignStage = .ok m) : Proper m.stage m ∧
    ∀ y, y ≠ kp.pub.compressed → entry m y = entry (session kp t sys cs rs) y := by
  obtain ⟨s, hs⟩ := commit_proper kp hk t sys cs hw
  obtain ⟨-, -, h1, h2, h3⟩ := reveal_interleave _ hs rs rs hr fun _ => rfl
  have hkey : (session kp t sys cs rs).stage.keypair = kp := by
    rw [session_stage]
  have bind_ok : ∀ {α β : Type} {x : Outcome α} {f : α → Outcome β} {y : β}, (x >>= f) = .ok y → ∃ a, f a = .ok y := by
    intro α β x f y h
    cases x with
    | ok a => exact ⟨a, h⟩
    | err => cases h
    | panic => cases h
  simp only [MuSig.cosignStage] at h
  obtain ⟨_, h⟩ := bind_ok h
  obtain ⟨_, h⟩ := bind_ok h
  split at h
  · cases h
  · cases h
    refine ⟨⟨rfl, BMap.sorted_set h2 _ _, BMap.keysWF_set h3 ?_ _⟩, fun y hy => ?_⟩
    · rw [hkey]
      exact hk
    · refine (BMap.get?_set h2 _ _ _).trans (if_neg ?_)
      rw [hkey]
      exact hy

private theorem cosign_proper [Oracles] [SigningTranscript T] (kp : Keypair P) (hk : kp.pub.WF) (t : T) (sys : Rng)
    (cs : List (CommitCall P T)) (hw : ∀ c ∈ cs, CommitCall.WF c) (rs : List (RevealCall P T)) (hr : ∀ r ∈ rs, RevealCall.WF r)
    (m : MuSig P T CosignStage) (h : (session kp t sys cs rs).cosignStage = .ok m) : Proper m.stage m :=
  (cosign_entries kp hk t sys cs hw rs hr m h).1

/-- **C93** cosign stage, after any session: however the shares of different participants are interleaved, the session ends
up the same (so `sign` returns the same), and everybody's messages get the same answers. -/
theorem cosignatures_order [Oracles] [SigningTranscript T] (kp : Keypair P) (hk : kp.pub.WF) (t : T) (sys : Rng)
    (cs : List (CommitCall P T)) (hw : ∀ c ∈ cs, CommitCall.WF c) (rs : List (RevealCall P T)) (hr : ∀ r ∈ rs, RevealCall.WF r)
    (m : MuSig P T CosignStage) (hm : (session kp t sys cs rs).cosignStage = .ok m)
    (co co' : List (CosignCall P)) (hc : ∀ c ∈ co, c.them.WF) (h : SameStreams CosignCall.who co co') :
    (runCosign m co).2 = (runCosign m co').2 ∧ (runCosign m co).2.sign = (runCosign m co').2.sign ∧
    ∀ who, answersTo CosignCall.who co (runCosign m co).1 who = answersTo CosignCall.who co' (runCosign m co').1 who := by
  obtain ⟨h1, h2, -⟩ := (cosign_local m.stage m.t).interleave runCosign (fun _ => rfl) (fun _ _ _ => rfl) co co' m
    ⟨cosign_proper kp hk t sys cs hw rs hr m hm, rfl⟩ hc h
  exact ⟨h1, congrArg _ h1, h2⟩

/-- **C93** from start to finish: two runs of one participant that differ only in the order of delivery within each stage get
the same result of `cosign_stage`, and of `sign`. -/
theorem delivery_order [Oracles] [SigningTranscript T] (kp : Keypair P) (hk : kp.pub.WF) (t : T) (sys : Rng)
    (cs cs' : List (CommitCall P T)) (hw : ∀ c ∈ cs, CommitCall.WF c) (h : SameStreams CommitCall.who cs cs')
    (rs rs' : List (RevealCall P T)) (hr : ∀ r ∈ rs, RevealCall.WF r) (h' : SameStreams RevealCall.who rs rs')
    (co co' : List (CosignCall P)) (hc : ∀ c ∈ co, c.them.WF) (h'' : SameStreams CosignCall.who co co') :
    (session kp t sys cs rs).cosignStage = (session kp t sys cs' rs').cosignStage ∧
    ((session kp t sys cs rs).cosignStage.bind fun m => (runCosign m co).2.sign) =
      ((session kp t sys cs' rs').cosignStage.bind fun m => (runCosign m co').2.sign) := by
  rw [← session_order kp hk t sys cs cs' hw h rs rs' hr h']
  refine ⟨rfl, ?_⟩
  cases hm : (session kp t sys cs rs).cosignStage with
  | ok m => exact (cosignatures_order kp hk t sys cs hw rs hr m hm co co' hc h'').2.1
  | err => rfl
  | panic => rfl

/-- **C93** collectors: the same for contributions given to a collector. -/
theorem contributions_order [Oracles] [SigningTranscript T] (t : T) (cs cs' : List (CollectCall P))
    (hc : ∀ c ∈ cs, c.them.WF) (h : SameStreams CollectCall.who cs cs') :
    collector t cs = collector t cs' ∧ (collector t cs).signature = (collector t cs').signature ∧
    ∀ who, answersTo CollectCall.who cs (runCollect (collectCosignatures t) cs).1 who =
      answersTo CollectCall.who cs' (runCollect (collectCosignatures t) cs').1 who := by
  obtain ⟨h1, h2, -⟩ := (collect_local (P := P) ⟨⟩ (collectCosignatures (P := P) t).t).interleave runCollect (fun _ => rfl) (fun _ _ _ => rfl)
    cs cs' (collectCosignatures t) ⟨⟨rfl, by simp [collectCosignatures, BMap.Sorted], fun e he => by simp [collectCosignatures] at he⟩, rfl⟩ hc h
  exact ⟨h1, congrArg _ h1, h2⟩

/-! ### Delivering a message again -/

private theorem transcript_who {c : CommitCall P T} (h : c.who ≠ none) : ∃ k m, c = .commitment k m := by
  cases c with
  | commitment k m => exact ⟨k, m, rfl⟩
  | transcript f => exact absurd rfl h

/-- **C94** commit stage: delivering somebody's commitment again changes nothing, and if it was accepted, it is again. -/
theorem commitment_again [SigningTranscript T] (kp : Keypair P) (hk : kp.pub.WF) (t : T) (sys : Rng)
    (before after : List (CommitCall P T)) (hw : ∀ c ∈ before, CommitCall.WF c) (c : CommitCall P T) (hc : c ∈ before)
    (hm : c.who ≠ none) : Harmless runCommit (.ok ()) (MuSig.new kp t sys).1 before c after := by
  obtain ⟨k, m, rfl⟩ := transcript_who hm
  refine (commit_local _).again runCommit (fun _ => rfl) (fun m c cs => by cases c <;> rfl) _ _ ?_ ?_ ?_ ?_ _ before after
    (new_proper kp hk t sys) hw hc
  · rintro (t | _ | o) <;> rfl
  · intro c' x hc' hx
    obtain ⟨k', m', rfl⟩ := transcript_who (hc' ▸ hm)
    rcases x with t | _ | o
    · rfl
    · exact nomatch hx
    · rfl
  · rintro (t | _ | o) <;> simp [commitLoc]
  · intro c' x hc' hx hg
    obtain ⟨k', m', rfl⟩ := transcript_who (hc' ▸ hm)
    rcases x with t | _ | o
    · rfl
    · exact nomatch hx
    · exact hg

private theorem setRevealed_cases [Oracles] (r : Reveal) :
    (∃ e : Outcome Unit, e ≠ .ok () ∧ ∀ o : CoR P, o.setRevealed r = (e, o)) ∨
    ∃ (c : Commitment) (p : RevealedPoints P), ∀ o : CoR P, o.setRevealed r = match o with
      | .collect _ _ => (.panic "Internal error, set_reveal during collection phase.", o)
      | .cosigned _ => (.panic "Internal error, cosigning during reveal phase.", o)
      | .commit c' => if c' = c then (.ok (), .reveal p) else (.err (.muSigInconsistent .commitment false), o)
      | .reveal p' => if p' = p then (.ok (), o) else (.err (.muSigInconsistent .reveal true), o) := by
  unfold CoR.setRevealed
  cases r.toCommitment with
  | error e => exact .inl ⟨.err e, nofun, fun _ => rfl⟩
  | ok c =>
    simp only
    cases (r.intoPoints : Outcome (RevealedPoints P)) with
    | err e => exact .inl ⟨.err e, nofun, fun _ => rfl⟩
    | panic s => exact .inl ⟨.panic s, nofun, fun _ => rfl⟩
    | ok p => exact .inr ⟨c, p, fun o => by cases o <;> rfl⟩

private theorem setRevealed_again [Oracles] (r : Reveal) (o : CoR P) :
    ((o.setRevealed r).2.setRevealed r).2 = (o.setRevealed r).2 ∧
    ((o.setRevealed r).1 = .ok () → ((o.setRevealed r).2.setRevealed r).1 = .ok ()) := by
  rcases setRevealed_cases (P := P) r with ⟨e, -, h⟩ | ⟨c, p, h⟩
  · simp [h]
  · cases o with
    | commit c' => by_cases hc : c' = c <;> simp [h, hc]
    | reveal p' => by_cases hc : p' = p <;> simp [h, hc]
    | cosigned s => simp [h]
    | collect p s => simp [h]

private theorem setRevealed_stable [Oracles] (r r' : Reveal) (o : CoR P) (ho : (o.setRevealed r).2 = o) :
    (((o.setRevealed r').2).setRevealed r).2 = (o.setRevealed r').2 ∧
    ((o.setRevealed r).1 = .ok () → ((o.setRevealed r').2.setRevealed r).1 = .ok ()) := by
  rcases setRevealed_cases (P := P) r' with ⟨e, -, h'⟩ | ⟨c', p', h'⟩
  · rw [h' o]
    exact ⟨ho, id⟩
  · rcases setRevealed_cases (P := P) r with ⟨e, he, h⟩ | ⟨c, p, h⟩
    · simp [h]
    · cases o with
      | commit c0 =>
        by_cases h0 : c0 = c
        · simp [h, h0] at ho
        · by_cases h1 : c0 = c' <;> simp only [h, h', h0, h1, if_true, if_false] <;>
            by_cases h2 : p' = p <;> simp_all
      | reveal p0 => by_cases h1 : p0 = p' <;> by_cases h2 : p0 = p <;> simp_all
      | cosigned s => simp [h, h']
      | collect p s => simp [h, h']

private theorem reveal_who {c : RevealCall P T} (h : c.who ≠ none) : ∃ k r, c = .reveal k r ∨ c = .trusted k r := by
  cases c with
  | reveal k r => exact ⟨k, r, .inl rfl⟩
  | trusted k r => exact ⟨k, r, .inr rfl⟩
  | transcript f => exact absurd rfl h

private theorem trusted_some [Oracles] (k : PublicKey P) (r : Reveal) (o : CoR P) :
    (revealLoc (.trusted k r : RevealCall P T) (.inr (some o))).2 = .inr (some o) := by
  simp only [revealLoc]
  cases (r.intoPoints : Outcome (RevealedPoints P)) <;> rfl

private theorem trusted_answer [Oracles] (k : PublicKey P) (r : Reveal) :
    (∃ e : Outcome Unit, e ≠ .ok () ∧ ∀ v, revealLoc (.trusted k r : RevealCall P T) (.inr v) = (e, .inr v)) ∨
    ∃ p : RevealedPoints P, ∀ v, revealLoc (.trusted k r : RevealCall P T) (.inr v) = match v with
      | none => (.ok (), .inr (some (.reveal p)))
      | some o => (if o ≠ .reveal p then .err (.muSigInconsistent .reveal true) else .ok (), .inr (some o)) := by
  simp only [revealLoc]
  cases (r.intoPoints : Outcome (RevealedPoints P)) with
  | err e => exact .inl ⟨.err e, nofun, fun _ => rfl⟩
  | panic s => exact .inl ⟨.panic s, nofun, fun _ => rfl⟩
  | ok p => exact .inr ⟨p, fun v => by cases v <;> rfl⟩

private theorem revealLoc_again [Oracles] (c : RevealCall P T) (hm : c.who ≠ none) (x : T ⊕ Option (CoR P)) :
    (revealLoc c (revealLoc c x).2).2 = (revealLoc c x).2 ∧
    ((revealLoc c x).1 = .ok () → (revealLoc c (revealLoc c x).2).1 = .ok ()) := by
  obtain ⟨k, r, rfl | rfl⟩ := reveal_who hm
  · rcases x with t | _ | o
    · exact ⟨rfl, id⟩
    · exact ⟨rfl, id⟩
    · obtain ⟨h1, h2⟩ := setRevealed_again r o
      exact ⟨congrArg (fun o => Sum.inr (some o)) h1, h2⟩
  · rcases x with t | v
    · exact ⟨rfl, id⟩
    · rcases trusted_answer (T := T) k r with ⟨e, he, h⟩ | ⟨p, h⟩
      · simp [h]
      · cases v with
        | none => simp [h]
        | some o => simp [h]

private theorem revealLoc_stable [Oracles] (c c' : RevealCall P T) (hm : c.who ≠ none) (hm' : c'.who ≠ none)
    (x : T ⊕ Option (CoR P)) (hx : (revealLoc c x).2 = x) :
    (revealLoc c (revealLoc c' x).2).2 = (revealLoc c' x).2 ∧
    ((revealLoc c x).1 = .ok () → (revealLoc c (revealLoc c' x).2).1 = .ok ()) := by
  obtain ⟨k, r, hc⟩ := reveal_who hm
  obtain ⟨k', r', hc'⟩ := reveal_who hm'
  rcases x with t | _ | o
  · rcases hc with rfl | rfl <;> rcases hc' with rfl | rfl <;> exact ⟨rfl, id⟩
  · have hn : (revealLoc c (.inr none)).1 ≠ .ok () := by
      rcases hc with rfl | rfl
      · exact nofun
      · rcases trusted_answer (T := T) k r with ⟨e, he, h⟩ | ⟨p, h⟩
        · rw [h]; exact he
        · rw [h] at hx; exact nomatch hx
    refine ⟨?_, fun h => absurd h hn⟩
    rcases hc' with rfl | rfl
    · exact hx
    · rcases trusted_answer (T := T) k' r' with ⟨e', -, h'⟩ | ⟨p', h'⟩
      · rw [h']; exact hx
      · rw [h']
        simp only
        rcases hc with rfl | rfl
        · show Sum.inr (some _) = _
          rcases setRevealed_cases (P := P) r with ⟨e, -, h⟩ | ⟨c, p, h⟩
          · rw [h]
          · rw [h]
            by_cases hp : p' = p <;> simp [hp]
        · exact trusted_some _ _ _
  · rcases hc with rfl | rfl
    · rcases hc' with rfl | rfl
      · obtain ⟨h1, h2⟩ := setRevealed_stable r r' o (by simpa [revealLoc] using hx)
        exact ⟨congrArg (fun o => Sum.inr (some o)) h1, h2⟩
      · rw [trusted_some]
        exact ⟨hx, id⟩
    · rcases hc' with rfl | rfl
      · show (revealLoc _ (.inr (some _))).2 = _ ∧ (_ → (revealLoc _ (.inr (some _))).1 = _)
        refine ⟨trusted_some _ _ _, ?_⟩
        rcases trusted_answer (T := T) k r with ⟨e, he, h⟩ | ⟨p, h⟩
        · intro hg
          rw [h] at hg
          exact absurd hg he
        · rw [h, h]
          rcases setRevealed_cases (P := P) r' with ⟨e', -, h'⟩ | ⟨c', p', h'⟩
          · rw [h']; exact id
          · rw [h']
            by_cases ho : o = .reveal p
            · subst ho
              by_cases hp : p = p' <;> simp [hp]
            · simp [ho]
      · rw [trusted_some]
        exact ⟨hx, id⟩

/-- **C94** reveal stage: the same for reveals and trusted reveals. -/
theorem reveal_again [Oracles] [SigningTranscript T] (kp : Keypair P) (hk : kp.pub.WF) (t : T) (sys : Rng)
    (cs : List (CommitCall P T)) (hw : ∀ c ∈ cs, CommitCall.WF c)
    (before after : List (RevealCall P T)) (hr : ∀ r ∈ before, RevealCall.WF r) (c : RevealCall P T) (hc : c ∈ before)
    (hm : c.who ≠ none) :
    Harmless runReveal (.ok ()) (runCommit (MuSig.new kp t sys).1 cs).2.revealStage before c after := by
  obtain ⟨s, hs⟩ := commit_proper kp hk t sys cs hw
  exact (reveal_local s).again runReveal (fun _ => rfl) (fun m c cs => by cases c <;> rfl) _ _
    (fun x => (revealLoc_again c hm x).1) (fun c' x hc' hx => (revealLoc_stable c c' hm (hc' ▸ hm) x hx).1)
    (fun x => (revealLoc_again c hm x).2) (fun c' x hc' hx => (revealLoc_stable c c' hm (hc' ▸ hm) x hx).2)
    _ before after hs hr hc

/-- **C94** cosign stage: the same for shares. -/
theorem cosignature_again [Oracles] [SigningTranscript T] (kp : Keypair P) (hk : kp.pub.WF) (t : T) (sys : Rng)
    (cs : List (CommitCall P T)) (hw : ∀ c ∈ cs, CommitCall.WF c) (rs : List (RevealCall P T)) (hr : ∀ r ∈ rs, RevealCall.WF r)
    (m : MuSig P T CosignStage) (hm : (session kp t sys cs rs).cosignStage = .ok m)
    (before after : List (CosignCall P)) (hco : ∀ c ∈ before, c.them.WF) (c : CosignCall P) (hc : c ∈ before) :
    Harmless runCosign (.ok ()) m before c after := by
  refine (cosign_local m.stage m.t).again runCosign (fun _ => rfl) (fun _ _ _ => rfl) _ _ ?_ ?_ ?_ ?_ _ before after
    ⟨cosign_proper kp hk t sys cs hw rs hr m hm, rfl⟩ hco hc
  · intro x
    unfold cosignLoc
    cases scalarFromCanonicalBytes c.share.bytes with
    | none => rfl
    | some s =>
      rcases x with _ | (_ | _ | s' | _)
      case some.cosigned => by_cases hs : s' = s <;> simp [CoR.setCosigned, hs]
      all_goals simp [CoR.setCosigned]
  · intro c' x _ hx
    revert hx
    unfold cosignLoc
    cases scalarFromCanonicalBytes c.share.bytes <;> cases scalarFromCanonicalBytes c'.share.bytes <;>
      rcases x with _ | (_ | _ | s' | _) <;> simp [CoR.setCosigned] <;> (repeat' split) <;> simp_all
  · intro x
    unfold cosignLoc
    cases scalarFromCanonicalBytes c.share.bytes with
    | none => exact id
    | some s =>
      rcases x with _ | (_ | _ | s' | _)
      case some.cosigned => by_cases hs : s' = s <;> simp [CoR.setCosigned, hs]
      all_goals simp [CoR.setCosigned]
  · intro c' x _ hx
    revert hx
    unfold cosignLoc
    cases scalarFromCanonicalBytes c.share.bytes <;> cases scalarFromCanonicalBytes c'.share.bytes <;>
      rcases x with _ | (_ | _ | s' | _) <;> simp [CoR.setCosigned] <;> (repeat' split) <;> simp_all

private theorem collectLoc_cases (c : CollectCall P) :
    (∃ e : Outcome Unit, e ≠ .ok () ∧ ∀ v, collectLoc c v = (e, v)) ∨
    ∃ o : CoR P, ∀ v, collectLoc c v = match v with
      | none => (.ok (), some o)
      | some o' => (if o' ≠ o then .err (.muSigInconsistent .reveal true) else .ok (), some o') := by
  unfold collectLoc
  cases (c.rev.intoPoints : Outcome (RevealedPoints P)) with
  | err e => exact .inl ⟨.err e, nofun, fun _ => rfl⟩
  | panic s => exact .inl ⟨.panic s, nofun, fun _ => rfl⟩
  | ok p =>
    cases scalarFromCanonicalBytes c.share.bytes with
    | none => exact .inl ⟨.err .scalarFormatError, nofun, fun _ => rfl⟩
    | some s => exact .inr ⟨_, fun v => by cases v <;> rfl⟩

/-- **C94** collectors: the same for contributions. -/
theorem contribution_again [Oracles] [SigningTranscript T] (t : T) (before after : List (CollectCall P))
    (hco : ∀ c ∈ before, c.them.WF) (c : CollectCall P) (hc : c ∈ before) :
    Harmless runCollect (.ok ()) (collectCosignatures t) before c after := by
  have h1 := collectLoc_cases c
  refine (collect_local (P := P) ⟨⟩ (collectCosignatures (P := P) t).t).again runCollect (fun _ => rfl) (fun _ _ _ => rfl) _ _
    ?_ ?_ ?_ ?_ (collectCosignatures t) before after
    ⟨⟨rfl, by simp [collectCosignatures, BMap.Sorted], fun e he => by simp [collectCosignatures] at he⟩, rfl⟩ hco hc
  · intro x
    rcases h1 with ⟨e, he, h⟩ | ⟨o, h⟩ <;> cases x <;> simp [h]
  · intro c' x _
    have h2 := collectLoc_cases c'
    rcases h1 with ⟨e, he, h⟩ | ⟨o, h⟩ <;> rcases h2 with ⟨e', he', h'⟩ | ⟨o', h'⟩ <;> cases x <;> simp [h, h']
  · intro x
    rcases h1 with ⟨e, he, h⟩ | ⟨o, h⟩ <;> cases x <;> simp [h]
  · intro c' x _
    have h2 := collectLoc_cases c'
    rcases h1 with ⟨e, he, h⟩ | ⟨o, h⟩ <;> rcases h2 with ⟨e', he', h'⟩ | ⟨o', h'⟩ <;> cases x <;> simp_all

/-! ### Isolation -/

/-- **C95** commit stage: how somebody's commitments are answered depends on nothing the others send. -/
theorem commitments_isolated [SigningTranscript T] (kp : Keypair P) (hk : kp.pub.WF) (t : T) (sys : Rng)
    (cs cs' : List (CommitCall P T)) (hw : ∀ c ∈ cs, CommitCall.WF c) (hw' : ∀ c ∈ cs', CommitCall.WF c) (k : Compressed)
    (h : SameStream CommitCall.who (some k) cs cs') :
    answersTo CommitCall.who cs (runCommit (MuSig.new kp t sys).1 cs).1 (some k) =
      answersTo CommitCall.who cs' (runCommit (MuSig.new kp t sys).1 cs').1 (some k) := by
  have h1 := ((commit_local _).run runCommit (fun _ => rfl) (fun m c cs => by cases c <;> rfl) cs _ (new_proper kp hk t sys) hw).2
    (some k)
  have h2 := ((commit_local _).run runCommit (fun _ => rfl) (fun m c cs => by cases c <;> rfl) cs' _ (new_proper kp hk t sys) hw').2
    (some k)
  rw [h1.2, h2.2, h]

private theorem reveal_stage_isolated [Oracles] [SigningTranscript T] (kp : Keypair P) (hk : kp.pub.WF) (t : T) (sys : Rng)
    (cs cs' : List (CommitCall P T)) (hw : ∀ c ∈ cs, CommitCall.WF c) (hw' : ∀ c ∈ cs', CommitCall.WF c)
    (rs rs' : List (RevealCall P T)) (hr : ∀ r ∈ rs, RevealCall.WF r) (hr' : ∀ r ∈ rs', RevealCall.WF r) (k : Compressed)
    (h : SameStream CommitCall.who (some k) cs cs') (h' : SameStream RevealCall.who (some k) rs rs') :
    edit (session kp t sys cs rs) (some k) = edit (session kp t sys cs' rs') (some k) ∧
    answersTo RevealCall.who rs (runReveal (runCommit (MuSig.new kp t sys).1 cs).2.revealStage rs).1 (some k) =
      answersTo RevealCall.who rs' (runReveal (runCommit (MuSig.new kp t sys).1 cs').2.revealStage rs').1 (some k) := by
  have h1 := ((commit_local _).run runCommit (fun _ => rfl) (fun m c cs => by cases c <;> rfl) cs _ (new_proper kp hk t sys) hw).2
    (some k)
  have h2 := ((commit_local _).run runCommit (fun _ => rfl) (fun m c cs => by cases c <;> rfl) cs' _ (new_proper kp hk t sys) hw').2
    (some k)
  have he : edit (runCommit (MuSig.new kp t sys).1 cs).2.revealStage (some k) =
      edit (runCommit (MuSig.new kp t sys).1 cs').2.revealStage (some k) := by
    show edit (runCommit (MuSig.new kp t sys).1 cs).2 (some k) = edit (runCommit (MuSig.new kp t sys).1 cs').2 (some k)
    rw [h1.1, h2.1, h]
  obtain ⟨s, hs⟩ := commit_proper kp hk t sys cs hw
  obtain ⟨s', hs'⟩ := commit_proper kp hk t sys cs' hw'
  have h3 := ((reveal_local s).run runReveal (fun _ => rfl) (fun m c cs => by cases c <;> rfl) rs _ hs hr).2 (some k)
  have h4 := ((reveal_local s').run runReveal (fun _ => rfl) (fun m c cs => by cases c <;> rfl) rs' _ hs' hr').2 (some k)
  refine ⟨?_, ?_⟩
  · show edit (runReveal (runCommit (MuSig.new kp t sys).1 cs).2.revealStage rs).2 (some k) =
      edit (runReveal (runCommit (MuSig.new kp t sys).1 cs').2.revealStage rs').2 (some k)
    rw [h3.1, h4.1, he, h']
  · rw [h3.2, h4.2, he, h']

/-- **C95** reveal stage: how somebody's reveals (and the caller's trusted reveals for them) are answered depends only on them
and on the commitments received for the same key. -/
theorem reveals_isolated [Oracles] [SigningTranscript T] (kp : Keypair P) (hk : kp.pub.WF) (t : T) (sys : Rng)
    (cs cs' : List (CommitCall P T)) (hw : ∀ c ∈ cs, CommitCall.WF c) (hw' : ∀ c ∈ cs', CommitCall.WF c)
    (rs rs' : List (RevealCall P T)) (hr : ∀ r ∈ rs, RevealCall.WF r) (hr' : ∀ r ∈ rs', RevealCall.WF r) (k : Compressed)
    (h : SameStream CommitCall.who (some k) cs cs') (h' : SameStream RevealCall.who (some k) rs rs') :
    answersTo RevealCall.who rs (runReveal (runCommit (MuSig.new kp t sys).1 cs).2.revealStage rs).1 (some k) =
      answersTo RevealCall.who rs' (runReveal (runCommit (MuSig.new kp t sys).1 cs').2.revealStage rs').1 (some k) :=
  (reveal_stage_isolated kp hk t sys cs cs' hw hw' rs rs' hr hr' k h h').2

/-- **C95** cosign stage: how somebody else's shares are answered depends only on them and on the commitments and reveals
received for the same key. -/
theorem cosignatures_isolated [Oracles] [SigningTranscript T] (kp : Keypair P) (hk : kp.pub.WF) (t : T) (sys : Rng)
    (cs cs' : List (CommitCall P T)) (hw : ∀ c ∈ cs, CommitCall.WF c) (hw' : ∀ c ∈ cs', CommitCall.WF c)
    (rs rs' : List (RevealCall P T)) (hr : ∀ r ∈ rs, RevealCall.WF r) (hr' : ∀ r ∈ rs', RevealCall.WF r)
    (m m' : MuSig P T CosignStage) (hm : (session kp t sys cs rs).cosignStage = .ok m)
    (hm' : (session kp t sys cs' rs').cosignStage = .ok m')
    (co co' : List (CosignCall P)) (hc : ∀ c ∈ co, c.them.WF) (hc' : ∀ c ∈ co', c.them.WF) (k : Compressed)
    (hkme : k ≠ kp.pub.compressed) (h : SameStream CommitCall.who (some k) cs cs')
    (h' : SameStream RevealCall.who (some k) rs rs') (h'' : SameStream CosignCall.who k co co') :
    answersTo CosignCall.who co (runCosign m co).1 k = answersTo CosignCall.who co' (runCosign m' co').1 k := by
  obtain ⟨hp, he⟩ := cosign_entries kp hk t sys cs hw rs hr m hm
  obtain ⟨hp', he'⟩ := cosign_entries kp hk t sys cs' hw' rs' hr' m' hm'
  have hs : edit (session kp t sys cs rs) (some k) = edit (session kp t sys cs' rs') (some k) :=
    (reveal_stage_isolated kp hk t sys cs cs' hw hw' rs rs' hr hr' k h h').1
  have h1 := ((cosign_local m.stage m.t).run runCosign (fun _ => rfl) (fun _ _ _ => rfl) co _ ⟨hp, rfl⟩ hc).2 k
  have h2 := ((cosign_local m'.stage m'.t).run runCosign (fun _ => rfl) (fun _ _ _ => rfl) co' _ ⟨hp', rfl⟩ hc').2 k
  rw [h1.2, h2.2, h'', he k hkme, he' k hkme, Sum.inr.inj hs]

/-- **C95** collectors: the same for contributions. -/
theorem contributions_isolated [Oracles] [SigningTranscript T] (t : T) (cs cs' : List (CollectCall P))
    (hc : ∀ c ∈ cs, c.them.WF) (hc' : ∀ c ∈ cs', c.them.WF) (k : Compressed) (h : SameStream CollectCall.who k cs cs') :
    answersTo CollectCall.who cs (runCollect (collectCosignatures t) cs).1 k =
      answersTo CollectCall.who cs' (runCollect (collectCosignatures t) cs').1 k := by
  have hp : Proper (P := P) (⟨⟩ : CollectStage) (collectCosignatures t) :=
    ⟨rfl, by simp [collectCosignatures, BMap.Sorted], fun e he => by simp [collectCosignatures] at he⟩
  have h1 := ((collect_local (P := P) ⟨⟩ (collectCosignatures (P := P) t).t).run runCollect (fun _ => rfl) (fun _ _ _ => rfl) cs _
    ⟨hp, rfl⟩ hc).2 k
  have h2 := ((collect_local (P := P) ⟨⟩ (collectCosignatures (P := P) t).t).run runCollect (fun _ => rfl) (fun _ _ _ => rfl) cs' _
    ⟨hp, rfl⟩ hc').2 k
  rw [h1.2, h2.2, h]

/-! ### A concrete case: two participants, in both orders, one of them contradicting itself -/

private def toyMe : Keypair Toy := SecretKey.toKeypair ⟨⟨leArr 32 1⟩, zeros 32⟩
private def toyThem : PublicKey Toy := PublicKey.fromPoint (Toy.ofZ 2)
private def toyOther : PublicKey Toy := PublicKey.fromPoint (Toy.ofZ 9)
private def toyT : Transcript := Transcript.new (b! "msg")
private def c1 : Commitment := ⟨leArr 16 1⟩
private def c2 : Commitment := ⟨leArr 16 2⟩
private def forward : List (CommitCall Toy Transcript) :=
  [.commitment toyThem c1, .commitment toyThem c2, .commitment toyOther c1, .transcript fun t => t.appendMessage (b! "x") []]
private def shuffled : List (CommitCall Toy Transcript) :=
  [.transcript fun t => t.appendMessage (b! "x") [], .commitment toyThem c1, .commitment toyOther c1, .commitment toyThem c2]

/-- The hypotheses are met by two different histories, -/
example : (∀ c ∈ forward, CommitCall.WF c) ∧ SameStreams CommitCall.who forward shuffled := by
  constructor
  · simp only [forward, List.mem_cons, List.not_mem_nil, or_false]
    rintro c (rfl | rfl | rfl | rfl)
    exacts [rfl, rfl, rfl, trivial]
  · intro k
    simp only [forward, shuffled, CommitCall.who, List.filter_cons, List.filter_nil]
    have h1 : toyThem.compressed ≠ toyOther.compressed := by decide +kernel
    by_cases a : none = k
    · subst a; simp
    · by_cases b : some toyThem.compressed = k
      · subst b; simp [Ne.symm h1]
      · by_cases c : some toyOther.compressed = k
        · subst c; simp [h1]
        · simp [a, b, c]

/-- whose answers come in different orders: `toyThem`'s second commitment, which contradicts its first, is the second message of
one and the fourth of the other. -/
example : letI := toyOracles
    (runCommit (MuSig.new toyMe toyT zeroRng).1 forward).1 =
      [.ok (), .error (.muSigInconsistent .commitment true), .ok (), .ok ()] ∧
    (runCommit (MuSig.new toyMe toyT zeroRng).1 shuffled).1 =
      [.ok (), .ok (), .ok (), .error (.muSigInconsistent .commitment true)] := by
  decide +kernel

/-- The accepted commitment of `toyThem`, delivered again at the end, is accepted again; the contradictory one is refused again. -/
example : letI := toyOracles
    (runCommit (MuSig.new toyMe toyT zeroRng).1 (forward ++ [.commitment toyThem c1, .commitment toyThem c2])).1 =
      [.ok (), .error (.muSigInconsistent .commitment true), .ok (), .ok (), .ok (),
        .error (.muSigInconsistent .commitment true)] := by
  decide +kernel

/-- Isolation: `toyOther`'s messages are the same in `forward` and in a history in which `toyThem` floods the session. -/
example : SameStream CommitCall.who (some toyOther.compressed) forward
    [.commitment toyThem c2, .commitment toyOther c1, .commitment toyThem c1, .commitment toyThem c2] := by
  have h1 : toyThem.compressed ≠ toyOther.compressed := by decide +kernel
  simp [SameStream, forward, CommitCall.who, h1]

end Schnorrkel.Props
