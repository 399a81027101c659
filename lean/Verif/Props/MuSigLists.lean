import Verif.Props.MuSigKeys
import Verif.Props.Witness

/-! # C60: who has cosigned -/

namespace Schnorrkel.Props
open SigningTranscript Spec
variable {P T : Type} [Ristretto P]

/-- **C60** after every history of a session, `cosigned` lists exactly those cosigners whose share is on record (our
own key included), `uncosigned` exactly the others, both in the order of `public_keys`; and `sign` withholds the
signature exactly as long as someone is listed by `uncosigned`. -/
theorem musig_cosigned_lists [Oracles] [SigningTranscript T] (kp : Keypair P) (t : T) (sys : Rng)
    (cs : List (CommitCall P T)) (rs : List (RevealCall P T)) (m0 : MuSig P T CosignStage)
    (h0 : (session kp t sys cs rs).cosignStage = .ok m0) (co : List (CosignCall P)) :
    let signers := (session kp t sys cs rs).publicKeys true
    let share := shareOf kp.pub.compressed ⟨m0.ourCosignature.bytes⟩ co
    let m := (runCosign m0 co).2
    m.cosigned = .ok (signers.filter fun k => (share k.compressed).isSome) ∧
    m.uncosigned = .ok (signers.filter fun k => (share k.compressed).isNone) ∧
    (m.sign = .ok none ↔ ∃ k ∈ signers, share k.compressed = none) := by
  intro signers share m
  have hg := session_good kp t sys cs rs
  obtain ⟨m0', s, h1, h2, _, _, h3⟩ := cosign_run _ hg
  rw [h0] at h1
  cases h1
  have hs : (⟨m0.ourCosignature.bytes⟩ : Scalar) = s := by
    unfold MuSig.ourCosignature; rw [h2]
  obtain ⟨h4, h5, h6⟩ := h3 co
  have hstage := session_stage kp t sys cs rs
  have hkp : (session kp t sys cs rs).stage.keypair.pub.compressed = kp.pub.compressed := by rw [hstage]
  rw [hkp] at h4
  have hme : ∀ e ∈ (session kp t sys cs rs).Rs, e.1.compressed = kp.pub.compressed → ∃ p, e.2 = .reveal p := by
    intro e he hk
    obtain ⟨p, hp⟩ := hg.own
    have := BMap.get?_of_mem hg.sorted (k := e.1) (v := e.2) he
    rw [BMap.get?_congr _ (hk.trans hkp.symm), hp] at this
    exact ⟨p, (Option.some.inj this).symm⟩
  have hc : ∀ e ∈ m.Rs, ∀ p s, e.2 ≠ .collect p s := by
    show ∀ e ∈ (runCosign m0 co).2.Rs, _
    rw [h4]
    intro e he p s
    rw [List.mem_map] at he
    obtain ⟨e', he', rfl⟩ := he
    exact lateEntry_ne_collect (hg.early e' he') p s
  have hu : m.uncosigned = .ok (signers.filter fun k => (share k.compressed).isNone) := by
    unfold MuSig.uncosigned
    rw [uncosignedGo_ok _ hc]
    congr 1
    show List.filterMap _ (runCosign m0 co).2.Rs = _
    rw [h4, List.filterMap_map]
    show _ = List.filter _ (MuSig.publicKeys _ true)
    unfold MuSig.publicKeys
    rw [List.filter_filterMap]
    apply List.filterMap_congr
    rintro ⟨k, v⟩ he
    have hearly := hg.early _ he
    have hown := hme _ he
    simp only [share, shareOf, hs, lateEntry, Function.comp] at hearly hown ⊢
    by_cases hk : k.compressed = kp.pub.compressed
    · obtain ⟨p, hp⟩ := hown hk
      subst hp
      simp [hk, Option.filter]
    · cases v with
      | commit c => simp [hk]
      | reveal p => cases hf : firstShare co k.compressed <;> simp [hk, hf, Option.filter]
      | cosigned s => exact hearly.elim
      | collect p s => exact hearly.elim
  refine ⟨?_, hu, ?_⟩
  · unfold MuSig.cosigned
    rw [cosignedGo_ok _ hc]
    congr 1
    show List.filterMap _ (runCosign m0 co).2.Rs = _
    rw [h4, List.filterMap_map]
    show _ = List.filter _ (MuSig.publicKeys _ true)
    unfold MuSig.publicKeys
    rw [List.filter_filterMap]
    apply List.filterMap_congr
    rintro ⟨k, v⟩ he
    have hearly := hg.early _ he
    have hown := hme _ he
    simp only [share, shareOf, hs, lateEntry, Function.comp] at hearly hown ⊢
    by_cases hk : k.compressed = kp.pub.compressed
    · obtain ⟨p, hp⟩ := hown hk
      subst hp
      simp [hk, Option.filter]
    · cases v with
      | commit c => simp [hk]
      | reveal p => cases hf : firstShare co k.compressed <;> simp [hk, hf, Option.filter]
      | cosigned s => exact hearly.elim
      | collect p s => exact hearly.elim
  · have hsome := sign_run _ hg m s co (by rw [hkp]; exact h4)
    have hsig : m.sign = .ok none ↔ (signers.filter fun k => (share k.compressed).isNone) ≠ [] := by
      unfold MuSig.sign at hsome ⊢
      rw [hu] at hsome ⊢
      simp only [Outcome.bind_ok] at hsome ⊢
      by_cases hnil : (signers.filter fun k => (share k.compressed).isNone) = []
      · rw [hnil] at hsome ⊢
        simp only [List.getLast?_nil, Option.isSome_none, Bool.false_eq_true, if_false, ne_eq, not_true_eq_false,
          iff_false] at hsome ⊢
        intro h
        cases hsh : MuSig.sharesGo m.Rs with
        | ok l => rw [hsh] at h; cases h
        | err e => rw [hsh] at h; cases h
        | panic e => rw [hsh] at h; cases h
      · clear hsome
        generalize List.filter (fun k : PublicKey P => (share k.compressed).isNone) signers = l at hnil
        rw [List.getLast?_eq_some_getLast hnil]
        simp [hnil]
    rw [hsig, ne_eq, List.filter_eq_nil_iff]
    simp

/-- Non-vacuity: for every session the cosign stage is reached, and right after it only our own key has cosigned. -/
example [Oracles] [SigningTranscript T] (kp : Keypair P) (t : T) (sys : Rng) (cs : List (CommitCall P T))
    (rs : List (RevealCall P T)) : ∃ m0, (session kp t sys cs rs).cosignStage = .ok m0 ∧
      m0.cosigned = .ok (((session kp t sys cs rs).publicKeys true).filter fun k => k.compressed = kp.pub.compressed) := by
  obtain ⟨m0, h0, -⟩ := (musig_session_never_panics kp t sys cs rs []).2.2.2
  refine ⟨m0, h0, (musig_cosigned_lists kp t sys cs rs m0 h0 []).1.trans ?_⟩
  congr 2
  funext k
  by_cases h : k.compressed = kp.pub.compressed <;> simp [shareOf, firstShare, h]

private theorem runCommit_edits (cs : List (CommitCall P T)) : ∀ m : MuSig P T (CommitStage P),
    (runCommit m cs).2.t = commitEdits cs m.t := by
  induction cs with
  | nil => intro m; rfl
  | cons c cs ih =>
    intro m
    cases c with
    | commitment k c =>
      simp only [runCommit]
      rw [ih, addTheirCommitment_spec]
      split
      · rfl
      · split <;> rfl
    | transcript f => simp only [runCommit]; rw [ih]; rfl

private theorem runReveal_edits [Oracles] (cs : List (RevealCall P T)) : ∀ m : MuSig P T (RevealStage P),
    (runReveal m cs).2.t = revealEdits cs m.t := by
  induction cs with
  | nil => intro m; rfl
  | cons c cs ih =>
    intro m
    cases c with
    | reveal k c =>
      simp only [runReveal]
      rw [ih, addTheirReveal_spec']
      repeat' first | rfl | split
    | trusted k c =>
      simp only [runReveal]
      rw [ih, addTrusted_spec]
      repeat' first | rfl | split
    | transcript f => simp only [runReveal]; rw [ih]; rfl

private theorem runCosign_t (cs : List (CosignCall P)) : ∀ m : MuSig P T CosignStage, (runCosign m cs).2.t = m.t := by
  induction cs with
  | nil => intro m; rfl
  | cons c cs ih =>
    intro m
    simp only [runCosign]
    rw [ih]
    unfold MuSig.addTheirCosignature
    repeat' first | rfl | split

/-- **C60** what gets signed: at the end of the reveal stage a session's transcript is the one left by drawing the
nonces, with exactly the edits the caller made through `transcript()`, in order; no message from a cosigner changes it. For
a merlin transcript, drawing the nonces leaves the transcript itself unchanged. Once cosigning has started nothing changes
it any more. -/
theorem musig_transcript_edits [Oracles] [SigningTranscript T] (kp : Keypair P) (t : T) (sys : Rng)
    (cs : List (CommitCall P T)) (rs : List (RevealCall P T)) :
    (session kp t sys cs rs).t = revealEdits rs (commitEdits cs (MuSig.drawNonces t kp.secret.nonce sys).2.1) ∧
    (∀ (m0 : MuSig P T CosignStage) (co : List (CosignCall P)), (runCosign m0 co).2.t = m0.t) ∧
    ∀ (t : Transcript) (cs : List (CommitCall P Transcript)) (rs : List (RevealCall P Transcript)),
      (session kp t sys cs rs).t = revealEdits rs (commitEdits cs t) := by
  have key : ∀ {T : Type} [SigningTranscript T] (t : T) (cs : List (CommitCall P T)) (rs : List (RevealCall P T)),
      (session kp t sys cs rs).t = revealEdits rs (commitEdits cs (MuSig.drawNonces t kp.secret.nonce sys).2.1) := by
    intro T _ t cs rs
    unfold session
    rw [runReveal_edits]
    show revealEdits rs (runCommit _ cs).2.t = _
    rw [runCommit_edits]
    rfl
  refine ⟨key t cs rs, fun m0 co => runCosign_t co m0, fun t cs rs => ?_⟩
  rw [key]
  have : (MuSig.drawNonces t kp.secret.nonce sys).2.1 = t := by
    simp only [MuSig.drawNonces, (merlin_witness_scalar _ _ _ _).2]
  rw [this]

/-- Non-vacuity: a history with commitments, reveals and two edits. -/
example (kp : Keypair P) (sys : Rng) [Oracles] (k : PublicKey P) (c : Commitment) (r : Reveal) (a b : Bytes) :
    (session kp (Transcript.new a) sys [.transcript fun t => t.appendMessage (b! "m") b, .commitment k c]
      [.reveal k r, .transcript fun t => t.appendMessage (b! "n") a]).t =
    ((Transcript.new a).appendMessage (b! "m") b).appendMessage (b! "n") a :=
  (musig_transcript_edits kp (Transcript.new a) sys [] []).2.2 _ _ _

end Schnorrkel.Props
