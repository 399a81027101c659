import Verif.Props.MuSig

/-! # C41, C42, C43, C49: multi-signatures and aggregate keys -/

namespace Schnorrkel.Props
open SigningTranscript Spec
variable {P : Type} [Ristretto P] {T T' : Type}

/-! ## C49: when does a multi-signature verify? -/

private theorem mapM_canonical {α : Type} (f : α → Option Scalar) (hf : ∀ a s, f a = some s → s.Canonical) :
    ∀ (l : List α) (ss : List Scalar), l.mapM f = some ss → ∀ s ∈ ss, s.Canonical := by
  intro l
  induction l with
  | nil => intro ss h; simp at h; subst h; simp
  | cons a l ih =>
    intro ss h
    rw [List.mapM_cons] at h
    cases ha : f a with
    | none => rw [ha] at h; cases h
    | some s =>
      cases hl : l.mapM f with
      | none => rw [ha, hl] at h; cases h
      | some ss' =>
        rw [ha, hl] at h
        cases h
        intro x hx
        simp only [List.mem_cons] at hx
        rcases hx with rfl | hx
        · exact hf a _ ha
        · exact ih ss' hl x hx

private theorem mapM_sum {α : Type} (f : α → Option Scalar) (g : α → P) :
    ∀ (l : List α) (ss : List Scalar), l.mapM f = some ss →
      (ss.map Scalar.toZ).sum • (basepoint : P) - (l.map g).sum =
        (l.map fun a => ((f a).getD Scalar.zero).toZ • (basepoint : P) - g a).sum := by
  intro l
  induction l with
  | nil => intro ss h; simp at h; subst h; simp
  | cons a l ih =>
    intro ss h
    rw [List.mapM_cons] at h
    cases ha : f a with
    | none => rw [ha] at h; cases h
    | some s =>
      cases hl : l.mapM f with
      | none => rw [ha, hl] at h; cases h
      | some ss' =>
        rw [ha, hl] at h
        cases h
        simp only [List.map_cons, List.sum_cons, ← ih ss' hl, ha, Option.getD_some]
        module

theorem firstShare_canonical {co : List (CosignCall P)} {k : Compressed} {s : Scalar}
    (h : firstShare co k = some s) : s.Canonical := by
  obtain ⟨c, _, h⟩ := List.exists_of_findSome?_eq_some h
  split at h
  · exact (Scalar.fromCanonicalBytes_eq_some.mp h).2
  · cases h

theorem firstAdd_canonical {cs : List (CollectCall P)} {k : Compressed} {p : RevealedPoints P} {s : Scalar}
    (h : firstAdd cs k = some (p, s)) : s.Canonical := by
  obtain ⟨c, _, h⟩ := List.exists_of_findSome?_eq_some h
  split at h
  · unfold CollectCall.parts at h
    split at h
    · rename_i h2; cases h; exact (Scalar.fromCanonicalBytes_eq_some.mp h2).2
    · cases h
  · cases h

theorem shareOf_canonical {me : Compressed} {sMe : Scalar} (hs : sMe.Canonical) {co : List (CosignCall P)}
    {k : Compressed} {s : Scalar} (h : shareOf me sMe co k = some s) : s.Canonical := by
  unfold shareOf at h
  split at h
  · cases h; exact hs
  · exact firstShare_canonical h

/-- A sum of shares verifies iff the shares' defects cancel. -/
private theorem sum_verifies_iff [Oracles] [SigningTranscript T'] (V : View P) (t' : T')
    (f : PublicKey P × RevealedPoints P → Option Scalar) (hf : ∀ a s, f a = some s → s.Canonical)
    (ss : List Scalar) (hss : V.mapM f = some ss) :
    (PublicKey.verify (PublicKey.fromPoint (aggregate V.keys)) t'
      ⟨compress (musigR t' V), Scalar.sum ss⟩).1 = .ok () ↔
    (V.map fun e => ((f e).getD Scalar.zero).toZ • (basepoint : P) - sharePoint t' V e).sum = 0 := by
  rw [verify_ok_iff']
  have hsum := Scalar.toZ_sum (mapM_canonical f hf V ss hss)
  have hm := mapM_sum f (sharePoint t' V) V ss hss
  rw [sum_sharePoint] at hm
  rw [← hm, ← hsum]
  have hch : sigChallenge t' (PublicKey.fromPoint (aggregate V.keys)).compressed (compress (musigR t' V)) =
      musigChallenge t' V := rfl
  simp only [hch]
  constructor
  · rintro ⟨R, h1, h2⟩
    rw [compress_inj] at h1
    subst h1
    rw [h2]
    exact sub_self _
  · intro h
    exact ⟨_, rfl, sub_eq_zero.mp h⟩

/-- **C49** `sign` does not check the shares it was given.  For every history of every stage: it returns
`None` iff some participant other than us has sent no well-formed cosignature; otherwise its signature
verifies under the session's `public_key()`, for any verifier transcript with the same history, iff the
defects `s·B − (nonce part + challenge·weight·key)` of the shares on record add up to zero.  Our own
defect is zero. -/
theorem musig_sign_verifies_iff [Oracles] [SigningTranscript T] [SigningTranscript T'] {Rel : T → T' → Prop}
    (hR : TSim Rel) (sk : SecretKey) (t : T) (sys : Rng)
    (cs : List (CommitCall P T)) (rs : List (RevealCall P T)) (co : List (CosignCall P)) (t' : T') :
    let m := session sk.toKeypair t sys cs rs
    Rel m.t t' →
    ∃ (V : View P) (m0 : MuSig P T CosignStage) (sMe : Scalar), m.cosignStage = .ok m0 ∧
      m0.ourCosignature.bytes = sMe.bytes ∧
      V.keys = m.publicKeys true ∧
      (∀ e ∈ V, status sk.toKeypair t sys cs rs e.1.compressed = .revealed e.2) ∧
      ((sk.toPublic : PublicKey P), ownPoints sk.toKeypair t sys) ∈ V ∧
      ValidShare t' V (sk.toPublic, ownPoints sk.toKeypair t sys) sMe ∧
      m.publicKey = PublicKey.fromPoint (aggregate V.keys) ∧
      ((runCosign m0 co).2.sign = .ok none ↔
        ∃ e ∈ V, e.1.compressed ≠ (sk.toPublic : PublicKey P).compressed ∧ firstShare co e.1.compressed = none) ∧
      ∀ σ, (runCosign m0 co).2.sign = .ok (some σ) →
        ((PublicKey.verify m.publicKey t' σ).1 = .ok () ↔
          (V.map fun e => ((shareOf (sk.toPublic : PublicKey P).compressed sMe co e.1.compressed).getD
            Scalar.zero).toZ • (basepoint : P) - sharePoint t' V e).sum = 0) := by
  intro m hRel
  have hg : Good m := session_good _ t sys cs rs
  obtain ⟨m0, s, h1, h2, h3, h4, h5⟩ := cosign_run m hg
  have hstage : m.stage = ⟨sk.toKeypair, (MuSig.drawNonces t sk.nonce sys).1, (ownPoints (P := P) sk.toKeypair t sys).toReveal⟩ :=
    session_stage _ t sys cs rs
  have hE' : ∀ e ∈ m.Rs, ∀ s, e.2 ≠ .cosigned s := by
    intro e he s h; have := hg.early e he; rw [h] at this; exact this
  have hpub : m.stage.keypair.pub = (sk.toPublic : PublicKey P) := by rw [hstage]; rfl
  rw [hstage] at h4
  have hV : ∀ e : PublicKey P × RevealedPoints P, e ∈ viewOf m.Rs → status sk.toKeypair t sys cs rs e.1.compressed = .revealed e.2 := by
    rintro ⟨k, p⟩ he
    obtain ⟨v, hv, hr⟩ := BMap.mem_mapVal.mp he
    have := BMap.get?_of_mem hg.sorted hv
    rw [session_get] at this
    have hE := hg.early _ hv
    cases v with
    | commit c => cases hr
    | reveal q =>
      cases hr
      exact CoR.ofStatus_inj (a := status sk.toKeypair t sys cs rs k.compressed) (b := .revealed p) this
    | cosigned s => exact absurd hE id
    | collect q s => exact absurd hE id
  have hpk : m.publicKey = PublicKey.fromPoint (aggregate (viewOf m.Rs).keys) := by
    unfold MuSig.publicKey MuSig.computePublicKey
    rw [publicKeys_true _ hE', aggregatePoint_eq]
  have hsign := sign_run m hg (runCosign m0 co).2 s co (h5 co).1
  rw [(h5 co).2.1, h2, hpub] at hsign
  refine ⟨viewOf m.Rs, m0, s, h1, ?_, (publicKeys_true _ hE').symm, hV, ?_, ?_, hpk, ?_, ?_⟩
  · unfold MuSig.ourCosignature; rw [h2]
  · have hown : m.Rs.get? sk.toPublic = some (.reveal (ownPoints sk.toKeypair t sys)) := by
      have := session_get (P := P) sk.toKeypair t sys cs rs sk.toPublic
      rw [show (sk.toPublic : PublicKey P).compressed = (sk.toKeypair : Keypair P).pub.compressed from rfl, status_me] at this
      exact this
    -- the stored key is the session's own key
    have hmem : ((sk.toPublic : PublicKey P), CoR.reveal (ownPoints sk.toKeypair t sys)) ∈ m.Rs := by
      have key : ∀ (cs : List (CommitCall P T)) (m : MuSig P T (CommitStage P)) (k : PublicKey P) (v : CoR P),
          (k, v) ∈ m.Rs → ∃ v', (k, v') ∈ (runCommit m cs).2.Rs := by
        intro cs
        induction cs with
        | nil => intro m k v h; exact ⟨v, h⟩
        | cons c cs ih =>
          intro m k v h
          cases c with
          | commitment k' c =>
            simp only [runCommit]
            have : ∃ v', (k, v') ∈ (m.addTheirCommitment k' c).2.Rs := by
              rw [addTheirCommitment_spec]
              split
              · exact BMap.mem_set_of_mem h _ _
              · split <;> exact ⟨v, h⟩
            obtain ⟨v', h'⟩ := this
            exact ih _ k v' h'
          | transcript f => simp only [runCommit]; exact ih _ k v h
      have key2 : ∀ (rs : List (RevealCall P T)) (m : MuSig P T (RevealStage P)) (k : PublicKey P) (v : CoR P),
          (k, v) ∈ m.Rs → ∃ v', (k, v') ∈ (runReveal m rs).2.Rs := by
        intro rs
        induction rs with
        | nil => intro m k v h; exact ⟨v, h⟩
        | cons c rs ih =>
          intro m k v h
          cases c with
          | reveal k' c =>
            simp only [runReveal]
            have : ∃ v', (k, v') ∈ (m.addTheirReveal k' c).2.Rs := by
              rw [addTheirReveal_spec']
              split
              · exact ⟨v, h⟩
              · split
                · exact ⟨v, h⟩
                · split <;> first | exact ⟨v, h⟩ | (split <;> first | exact ⟨v, h⟩ | exact BMap.mem_set_of_mem h _ _)
            obtain ⟨v', h'⟩ := this
            exact ih _ k v' h'
          | trusted k' c =>
            simp only [runReveal]
            have : ∃ v', (k, v') ∈ (m.addTrusted k' c).2.Rs := by
              rw [addTrusted_spec]
              split
              · exact ⟨v, h⟩
              · split
                · exact BMap.mem_set_of_mem h _ _
                · split <;> exact ⟨v, h⟩
            obtain ⟨v', h'⟩ := this
            exact ih _ k v' h'
          | transcript f => simp only [runReveal]; exact ih _ k v h
      obtain ⟨v1, hv1⟩ := key cs (MuSig.new sk.toKeypair t sys).1 sk.toPublic
        (.reveal (ownPoints sk.toKeypair t sys)) (by rw [new_Rs]; exact List.mem_singleton.mpr rfl)
      obtain ⟨v2, hv2⟩ := key2 rs (runCommit (MuSig.new sk.toKeypair t sys).1 cs).2.revealStage _ _ hv1
      have : m.Rs.get? sk.toPublic = some v2 := BMap.get?_of_mem hg.sorted hv2
      rw [hown] at this
      cases this
      exact hv2
    exact BMap.mem_mapVal.mpr ⟨_, hmem, rfl⟩
  · have hv := honest_share (P := P) m.t (viewOf m.Rs) sk.key.toZ
      ((MuSig.drawNonces t sk.nonce sys).1.1.map Scalar.toZ) sk.toPublic (ownPoints sk.toKeypair t sys)
      (by show sk.key •. (basepoint : P) = _; rw [mulPoint_eq])
      (by simp only [ownPoints, List.map_map]; rfl) s h4
    unfold ValidShare at hv ⊢
    rw [hv, sharePoint_sim hR hRel]
  · rw [hsign]
    have hnone : ∀ (l : View P) (f : PublicKey P × RevealedPoints P → Option Scalar),
        l.mapM f = none ↔ ∃ e ∈ l, f e = none := by
      intro l f
      induction l with
      | nil => simp
      | cons a l ih =>
        rw [List.mapM_cons]
        cases ha : f a with
        | none => simp [ha]
        | some s =>
          cases hl : l.mapM f with
          | none => simp only [List.mem_cons, exists_eq_or_imp, ha]; simpa using ih.mp hl
          | some ss =>
            simp only [List.mem_cons, exists_eq_or_imp, ha]
            have := ih.not.mp (by rw [hl]; simp)
            simpa using this
    simp only [Outcome.ok.injEq, Option.map_eq_none_iff, hnone]
    constructor
    · rintro ⟨e, he, h⟩
      unfold shareOf at h
      split at h
      · cases h
      · rename_i hk; exact ⟨e, he, hk, h⟩
    · rintro ⟨e, he, hk, h⟩
      exact ⟨e, he, by unfold shareOf; rw [if_neg hk, h]⟩
  · intro σ hσ
    rw [hsign] at hσ
    simp only [Outcome.ok.injEq, Option.map_eq_some_iff] at hσ
    obtain ⟨ss, hss, rfl⟩ := hσ
    rw [hpk, musigR_sim hR hRel]
    exact sum_verifies_iff (viewOf m.Rs) t' _ (fun a s h => shareOf_canonical h3 h) ss hss

/-- **C49** In particular, if all shares but one are valid, the signature verifies iff that one is valid
(so any single corrupted share is caught by verifying the result), and if all are valid it verifies. -/
theorem musig_single_share [Oracles] [SigningTranscript T] [SigningTranscript T'] {Rel : T → T' → Prop}
    (hR : TSim Rel) (sk : SecretKey) (t : T) (sys : Rng)
    (cs : List (CommitCall P T)) (rs : List (RevealCall P T)) (co : List (CosignCall P)) (t' : T') :
    let m := session sk.toKeypair t sys cs rs
    Rel m.t t' →
    ∃ (V : View P) (m0 : MuSig P T CosignStage) (sMe : Scalar), m.cosignStage = .ok m0 ∧
      m0.ourCosignature.bytes = sMe.bytes ∧
      V.keys = m.publicKeys true ∧
      (∀ e ∈ V, status sk.toKeypair t sys cs rs e.1.compressed = .revealed e.2) ∧
      ∀ σ, (runCosign m0 co).2.sign = .ok (some σ) →
        let Valid := fun e : PublicKey P × RevealedPoints P => ∃ s,
          shareOf (sk.toPublic : PublicKey P).compressed sMe co e.1.compressed = some s ∧ ValidShare t' V e s
        ((∀ e ∈ V, Valid e) → (PublicKey.verify m.publicKey t' σ).1 = .ok ()) ∧
        ∀ V1 e V2, V = V1 ++ e :: V2 → (∀ e' ∈ V1 ++ V2, Valid e') →
          ((PublicKey.verify m.publicKey t' σ).1 = .ok () ↔ Valid e) := by
  intro m hRel
  obtain ⟨V, m0, sMe, h1, h2, h3, h4, h5, h6, h7, h8, h9⟩ :=
    musig_sign_verifies_iff hR sk t sys cs rs co t' hRel
  refine ⟨V, m0, sMe, h1, h2, h3, h4, ?_⟩
  intro σ hσ Valid
  have hv := h9 σ hσ
  have hall : ∀ e ∈ V, ∃ s, shareOf (sk.toPublic : PublicKey P).compressed sMe co e.1.compressed = some s := by
    intro e he
    cases hs : shareOf (sk.toPublic : PublicKey P).compressed sMe co e.1.compressed with
    | some s => exact ⟨s, rfl⟩
    | none =>
      exfalso
      unfold shareOf at hs
      split at hs
      · cases hs
      · rename_i hk
        have := h8.mpr ⟨e, he, hk, hs⟩
        rw [hσ] at this; cases this
  have hz : ∀ L : View P, (∀ e ∈ L, Valid e) → (L.map fun e => ((shareOf (sk.toPublic : PublicKey P).compressed sMe co
      e.1.compressed).getD Scalar.zero).toZ • (basepoint : P) - sharePoint t' V e).sum = 0 := by
    intro L
    induction L with
    | nil => intro _; rfl
    | cons e L ih =>
      intro hL
      obtain ⟨s, hs, hval⟩ := hL e (by simp)
      rw [List.map_cons, List.sum_cons, ih (fun e he => hL e (by simp [he])), hs, Option.getD_some,
        show s.toZ • (basepoint : P) = sharePoint t' V e from hval]
      simp
  constructor
  · intro h
    rw [hv]
    exact hz V h
  · intro V1 e V2 hV hothers
    rw [hv]
    have hs1 := hz V1 (fun e he => hothers e (by simp [he]))
    have hs2 := hz V2 (fun e he => hothers e (by simp [he]))
    obtain ⟨s, hs⟩ := hall e (by rw [hV]; simp)
    have : (V.map fun e => ((shareOf (sk.toPublic : PublicKey P).compressed sMe co
        e.1.compressed).getD Scalar.zero).toZ • (basepoint : P) - sharePoint t' V e).sum =
        s.toZ • (basepoint : P) - sharePoint t' V e := by
      conv_lhs => rw [show V.map (fun e => ((shareOf (sk.toPublic : PublicKey P).compressed sMe co
        e.1.compressed).getD Scalar.zero).toZ • (basepoint : P) - sharePoint t' V e) = (V1 ++ e :: V2).map _ from
          congrArg _ hV]
      rw [List.map_append, List.sum_append, List.map_cons, List.sum_cons, hs1, hs2, hs]
      simp
    rw [this, sub_eq_zero]
    constructor
    · intro h; exact ⟨s, hs, h⟩
    · rintro ⟨s', hs', hval⟩
      rw [hs] at hs'; cases hs'
      exact hval

/-! ## C41: honest completeness -/

/-- Two strictly increasing key lists with the same members are equal. -/
theorem sorted_keys_ext {ks ks' : List (PublicKey P)} (hw : ∀ k ∈ ks, k.WF) (hw' : ∀ k ∈ ks', k.WF)
    (hs : ks.Pairwise fun a b => lexLt a.compressed.1 b.compressed.1)
    (hs' : ks'.Pairwise fun a b => lexLt a.compressed.1 b.compressed.1)
    (h : ∀ k, k ∈ ks ↔ k ∈ ks') : ks = ks' := by
  have key : ∀ (ks : List (PublicKey P)), (ks.Pairwise fun a b => lexLt a.compressed.1 b.compressed.1) →
      BMap.Sorted (ks.map fun k => (k, ())) := by
    intro ks hs
    unfold BMap.Sorted
    rw [List.pairwise_map]
    exact hs.imp fun h => (cmpBytes_lt _ _).mpr h
  have hwf : ∀ (ks : List (PublicKey P)), (∀ k ∈ ks, k.WF) → BMap.KeysWF (ks.map fun k => (k, ())) := by
    intro ks hw e he
    rw [List.mem_map] at he
    obtain ⟨k, hk, rfl⟩ := he
    exact hw k hk
  have hget : ∀ (ks : List (PublicKey P)), (ks.Pairwise fun a b => lexLt a.compressed.1 b.compressed.1) →
      (∀ k ∈ ks, k.WF) → ∀ x : PublicKey P, x.WF → (BMap.get? (ks.map fun k => (k, ())) x = some () ↔ x ∈ ks) := by
    intro ks hs hw x hx
    rw [BMap.get?_eq_some_iff (key ks hs)]
    constructor
    · rintro ⟨k, h1, h2⟩
      rw [List.mem_map] at h1
      obtain ⟨k', h3, h4⟩ := h1
      cases h4
      rw [← BMap.key_ext (hw k h3) hx h2]; exact h3
    · intro h; exact ⟨x, List.mem_map.mpr ⟨x, h, rfl⟩, rfl⟩
  have : (ks.map fun k => (k, ())) = ks'.map fun k => (k, ()) := by
    apply BMap.ext_get? (key ks hs) (key ks' hs') (hwf ks hw) (hwf ks' hw')
    intro x hx
    apply Option.ext
    rintro ⟨⟩
    rw [hget ks hs hw x hx, hget ks' hs' hw' x hx]
    exact h x
  have := congrArg (List.map Prod.fst) this
  simpa [List.map_map, Function.comp_def] using this

theorem genuine_commit {c : CommitCall P T} (h : c.Genuine) : CommitCall.WF c := by
  cases c with
  | commitment k c => exact h
  | transcript f => trivial
theorem genuine_reveal {c : RevealCall P T} (h : c.Genuine) : RevealCall.WF c := by
  cases c with
  | reveal k c => exact h
  | trusted k c => exact h
  | transcript f => trivial

section Honest
variable [Oracles] [SigningTranscript T']

/-- Nonce points of a cosigner. -/
private def own (i : Cosigner P) : RevealedPoints P := ownPoints i.sk.toKeypair i.t i.sys

private theorem revealMsg_eq (i : Cosigner P) : i.revealMsg = (own i).toReveal :=
  (musig_session_never_panics (P := P) i.sk.toKeypair i.t i.sys i.commits i.reveals []).2.2.1

private theorem commitment_eq (i : Cosigner P) : i.commitment = .ok (commitmentTo (own i).toReveal) :=
  (musig_session_never_panics (P := P) i.sk.toKeypair i.t i.sys i.commits i.reveals []).1

private theorem pk_inj {a b : Cosigner P} (h : a.pk.compressed = b.pk.compressed) : a.pk = b.pk :=
  BMap.key_ext (wf_toPublic _) (wf_toPublic _) h

/-- Who is revealed in whose session. -/
private theorem honest_status {parties : List (Cosigner P)} {t' : T'} (h : HonestRun parties t')
    {i : Cosigner P} (hi : i ∈ parties) (k : PublicKey P) (hk : k.WF) (p : RevealedPoints P) :
    status i.sk.toKeypair i.t i.sys i.commits i.reveals k.compressed = .revealed p ↔
      ∃ j ∈ parties, k = j.pk ∧ p = own j := by
  by_cases hmem : ∃ j ∈ parties, k = j.pk
  · obtain ⟨j, hj, rfl⟩ := hmem
    have huniq : (∃ j' ∈ parties, j.pk = j'.pk ∧ p = own j') ↔ p = own j := by
      constructor
      · rintro ⟨j', hj', h1, h2⟩
        rw [h.distinct j hj j' hj' h1]; exact h2
      · intro hp; exact ⟨j, hj, rfl, hp⟩
    rw [huniq]
    have : status i.sk.toKeypair i.t i.sys i.commits i.reveals j.pk.compressed = .revealed (own j) := by
      by_cases hji : j.pk = i.pk
      · have := h.distinct j hj i hi hji
        subst this
        exact status_me _ _ _ _ _
      · have hne : j.pk.compressed ≠ (i.sk.toKeypair : Keypair P).pub.compressed := fun he => hji (pk_inj he)
        obtain ⟨c, hc1, hc2⟩ := h.commits i hi j hj hji
        rw [commitment_eq] at hc1
        cases hc1
        unfold status statusCommit
        rw [if_neg hne, hc2]
        simp only [statusReveal]
        have hrev := h.reveals i hi j hj hji
        rw [revealMsg_eq] at hrev
        cases ho : firstOpening i.reveals j.pk.compressed (commitmentTo (own j).toReveal) with
        | none =>
          unfold firstOpening at ho
          rw [List.findSome?_eq_none_iff] at ho
          have := ho _ hrev
          simp only [and_self, if_true] at this
          rw [points_toReveal] at this; cases this
        | some q =>
          obtain ⟨x, hx, hxq⟩ := List.exists_of_findSome?_eq_some ho
          cases x with
          | reveal them r =>
            simp only at hxq
            split at hxq
            · rename_i hh
              obtain ⟨j', hj', e1, e2⟩ := h.no_other_reveal i hi them r hx (by rw [hxq]; simp) (by rw [hh.1, hc2, hh.2])
              have hjj : j' = j := h.distinct j' hj' j hj (pk_inj (by rw [← e1, hh.1]))
              subst hjj
              rw [e2, revealMsg_eq, points_toReveal] at hxq
              cases hxq; rfl
            · cases hxq
          | trusted them r => cases hxq
          | transcript f => cases hxq
    rw [this]
    simp only [Status.revealed.injEq]
    exact eq_comm
  · constructor
    · intro hst
      exfalso
      apply hmem
      unfold status statusCommit at hst
      by_cases hki : k.compressed = (i.sk.toKeypair : Keypair P).pub.compressed
      · exact ⟨i, hi, BMap.key_ext hk (wf_toPublic _) hki⟩
      · rw [if_neg hki] at hst
        cases hf : firstCommitment i.commits k.compressed with
        | some c =>
          rw [hf] at hst
          simp only [statusReveal] at hst
          cases ho : firstOpening i.reveals k.compressed c with
          | none => rw [ho] at hst; cases hst
          | some q =>
            obtain ⟨x, hx, hxq⟩ := List.exists_of_findSome?_eq_some ho
            cases x with
            | reveal them r =>
              simp only at hxq
              split at hxq
              · rename_i hh
                obtain ⟨j', hj', e1, _⟩ := h.no_other_reveal i hi them r hx (by rw [hxq]; simp) (by rw [hh.1, hf, hh.2])
                exact ⟨j', hj', BMap.key_ext hk (wf_toPublic _) (by rw [← hh.1, e1])⟩
              · cases hxq
            | trusted them r => cases hxq
            | transcript f => cases hxq
        | none =>
          rw [hf] at hst
          simp only [statusReveal] at hst
          cases ho : firstTrusted i.reveals k.compressed with
          | none => rw [ho] at hst; cases hst
          | some q =>
            obtain ⟨x, hx, hxq⟩ := List.exists_of_findSome?_eq_some ho
            cases x with
            | reveal them r => cases hxq
            | trusted them r =>
              simp only at hxq
              split at hxq
              · rename_i hh
                obtain ⟨j', hj', e1⟩ := h.no_trusted i hi them r hx
                exact ⟨j', hj', BMap.key_ext hk (wf_toPublic _) (by rw [← hh, e1])⟩
              · cases hxq
            | transcript f => cases hxq
    · rintro ⟨j, hj, rfl, _⟩
      exact absurd ⟨j, hj, rfl⟩ hmem

private theorem honest_view_get {parties : List (Cosigner P)} {t' : T'} (h : HonestRun parties t')
    {i : Cosigner P} (hi : i ∈ parties) (k : PublicKey P) (hk : k.WF) (p : RevealedPoints P) :
    BMap.get? (viewOf i.atReveal.Rs) k = some p ↔ ∃ j ∈ parties, k = j.pk ∧ p = own j := by
  unfold viewOf
  have hs : i.atReveal.Rs.Sorted := session_sorted _ _ _ _ _
  have hg : i.atReveal.Rs.get? k = CoR.ofStatus (status i.sk.toKeypair i.t i.sys i.commits i.reveals k.compressed) :=
    session_get _ _ _ _ _ _
  rw [BMap.get?_mapVal _ hs, ← honest_status h hi k hk, hg]
  cases status i.sk.toKeypair i.t i.sys i.commits i.reveals k.compressed with
  | absent => simp [CoR.ofStatus]
  | committed c => simp [CoR.ofStatus, CoR.revealed]
  | revealed q => simp [CoR.ofStatus, CoR.revealed]

private theorem view_sorted (i : Cosigner P) : BMap.Sorted (viewOf i.atReveal.Rs) :=
  BMap.sorted_mapVal _ (session_sorted _ _ _ _ _)

private theorem view_wf {parties : List (Cosigner P)} {t' : T'} (h : HonestRun parties t')
    {i : Cosigner P} (hi : i ∈ parties) : BMap.KeysWF (viewOf i.atReveal.Rs) :=
  BMap.keysWF_mapVal _ (session_wf _ (wf_toPublic _) _ _ _ _ (fun c hc => genuine_commit ((h.genuine i hi).1 c hc))
    (fun c hc => genuine_reveal ((h.genuine i hi).2 c hc)))

/-- **C41** Any nonempty group of cosigners (any number, each with its own transcript type and RNG) who
exchange honest messages in any order, with any repetitions and among arbitrary messages in the names of
others: every one's `sign()` returns `Some` of the same signature; every collector given the
contributions in any order returns that signature too; and it verifies, by ordinary verification with
any transcript of the same history, under the aggregate of the group's keys, which is also every
session's `public_key()`. -/
theorem musig_complete {parties : List (Cosigner P)} {t' : T'} (h : HonestRun parties t') (hne : parties ≠ [])
    (ks : List (PublicKey P)) (hks : ks.Pairwise fun a b => lexLt a.compressed.1 b.compressed.1)
    (hkm : ∀ k, k ∈ ks ↔ ∃ i ∈ parties, k = i.pk) :
    ∃ σ : Signature,
      (∀ i ∈ parties, i.result = .ok (some σ) ∧ i.atReveal.publicKey = PublicKey.fromPoint (aggregate ks)) ∧
      (PublicKey.verify (PublicKey.fromPoint (aggregate ks)) t' σ).1 = .ok () ∧
      ∀ (T'' : Type) [SigningTranscript T''] (Rel : T'' → T' → Prop) (t'' : T''), TSim Rel → Rel t'' t' →
        ∀ calls, HonestCollect parties calls → (collector t'' calls).signature = .ok σ := by
  obtain ⟨i0, hi0⟩ := List.exists_mem_of_ne_nil _ hne
  set V := viewOf i0.atReveal.Rs with hVdef
  have hVwf := view_wf h hi0
  have hVsorted := view_sorted i0
  rw [← hVdef] at hVwf hVsorted
  have hview : ∀ i ∈ parties, viewOf i.atReveal.Rs = V := by
    intro i hi
    apply BMap.ext_get? (view_sorted i) hVsorted (view_wf h hi) hVwf
    intro x hx
    apply Option.ext
    intro p
    rw [honest_view_get h hi x hx, hVdef, honest_view_get h hi0 x hx]
  have hVmem : ∀ e : PublicKey P × RevealedPoints P, e ∈ V → ∃ j ∈ parties, e.1 = j.pk ∧ e.2 = own j := by
    rintro ⟨k, p⟩ he
    exact (honest_view_get h hi0 k (hVwf _ he) p).mp (BMap.get?_of_mem hVsorted he)
  have hVkeys : V.keys = ks := by
    apply sorted_keys_ext
    · intro k hk
      unfold View.keys at hk
      rw [List.mem_map] at hk
      obtain ⟨e, he, rfl⟩ := hk
      exact hVwf e he
    · intro k hk
      obtain ⟨i, _, rfl⟩ := (hkm k).mp hk
      exact wf_toPublic _
    · unfold View.keys
      rw [List.pairwise_map]
      exact hVsorted.imp fun h => (cmpBytes_lt _ _).mp h
    · exact hks
    · intro k
      rw [hkm]
      unfold View.keys
      rw [List.mem_map]
      constructor
      · rintro ⟨e, he, rfl⟩
        obtain ⟨j, hj, h1, _⟩ := hVmem e he
        exact ⟨j, hj, h1⟩
      · rintro ⟨j, hj, rfl⟩
        have := (honest_view_get h hi0 j.pk (wf_toPublic _) (own j)).mpr ⟨j, hj, rfl, rfl⟩
        obtain ⟨k', h1, h2⟩ := BMap.mem_of_get? this
        exact ⟨_, h1, BMap.key_ext (hVwf _ h1) (wf_toPublic _) h2⟩
  -- what each cosigner computes
  have hper : ∀ j ∈ parties, ∃ (m0 : MuSig P j.T CosignStage) (s : Scalar), j.atReveal.cosignStage = .ok m0 ∧
      m0.stage = ⟨compress (musigR t' V), s⟩ ∧ s.Canonical ∧ ValidShare t' V (j.pk, own j) s ∧
      ∀ cs, (runCosign m0 cs).2.sign = .ok ((V.mapM fun e => shareOf j.pk.compressed s cs e.1.compressed).map
        fun ss => ⟨compress (musigR t' V), Scalar.sum ss⟩) := by
    intro j hj
    obtain ⟨Rel, hR, hRel⟩ := h.transcripts j hj
    have hg : Good j.atReveal := session_good _ _ _ _ _
    obtain ⟨m0, s, h1, h2, h3, h4, h5⟩ := cosign_run j.atReveal hg
    have hstage : j.atReveal.stage = ⟨j.sk.toKeypair, (MuSig.drawNonces j.t j.sk.nonce j.sys).1, (own j).toReveal⟩ :=
      session_stage _ _ _ _ _
    rw [hview j hj, hstage] at h4
    rw [hview j hj, musigR_sim hR hRel] at h2
    refine ⟨m0, s, h1, h2, h3, ?_, ?_⟩
    · have hv := honest_share (P := P) j.atReveal.t V j.sk.key.toZ
        ((MuSig.drawNonces j.t j.sk.nonce j.sys).1.1.map Scalar.toZ) j.pk (own j)
        (by show j.sk.key •. (basepoint : P) = _; rw [mulPoint_eq])
        (by simp only [own, ownPoints, List.map_map]; rfl) s h4
      unfold ValidShare at hv ⊢
      rw [hv, sharePoint_sim hR hRel]
    · intro cs
      have := sign_run j.atReveal hg (runCosign m0 cs).2 s cs (h5 cs).1
      rw [(h5 cs).2.1, h2, hview j hj, hstage] at this
      exact this
  -- one share per key
  have hfun : ∃ f : Compressed → Option Scalar, (∀ k s, f k = some s → s.Canonical) ∧ ∀ j ∈ parties, ∃ (m0 : MuSig P j.T CosignStage) (s : Scalar),
      j.atReveal.cosignStage = .ok m0 ∧ m0.stage = ⟨compress (musigR t' V), s⟩ ∧ s.Canonical ∧
      ValidShare t' V (j.pk, own j) s ∧ f j.pk.compressed = some s ∧
      ∀ cs, (runCosign m0 cs).2.sign = .ok ((V.mapM fun e => shareOf j.pk.compressed s cs e.1.compressed).map
        fun ss => ⟨compress (musigR t' V), Scalar.sum ss⟩) := by
    classical
    let Q : Cosigner P → Scalar → Prop := fun j s => ∃ m0 : MuSig P j.T CosignStage,
      j.atReveal.cosignStage = .ok m0 ∧
      m0.stage = ⟨compress (musigR t' V), s⟩ ∧ s.Canonical ∧ ValidShare t' V (j.pk, own j) s ∧
      ∀ cs, (runCosign m0 cs).2.sign = .ok ((V.mapM fun e => shareOf j.pk.compressed s cs e.1.compressed).map
        fun ss => ⟨compress (musigR t' V), Scalar.sum ss⟩)
    refine ⟨fun k => if hx : ∃ s, ∃ j ∈ parties, j.pk.compressed = k ∧ Q j s then some (Classical.choose hx)
      else none, ?_, ?_⟩
    · intro k s hk
      simp only at hk
      split at hk
      · rename_i hx
        cases hk
        obtain ⟨j, _, _, m0, _, _, hc, _⟩ := Classical.choose_spec hx
        exact hc
      · cases hk
    · intro j hj
      have hx : ∃ s, ∃ j' ∈ parties, j'.pk.compressed = j.pk.compressed ∧ Q j' s := by
        obtain ⟨m0, s, hq⟩ := hper j hj
        exact ⟨s, j, hj, rfl, m0, hq⟩
      obtain ⟨j', hj', hjj, hq⟩ := Classical.choose_spec hx
      have : j' = j := h.distinct _ hj' j hj (pk_inj hjj)
      subst this
      obtain ⟨m0, h1, h2, h3, h4, h5⟩ := hq
      exact ⟨m0, _, h1, h2, h3, h4, dif_pos hx, h5⟩
  clear hper
  obtain ⟨f, hfcan, hf⟩ := hfun
  have hVf : ∀ e ∈ V, ∃ s : Scalar, f e.1.compressed = some s ∧ s.Canonical ∧ ValidShare t' V e s := by
    rintro ⟨k, p⟩ he
    obtain ⟨j, hj, h1, h2⟩ := hVmem _ he
    simp only at h1 h2
    subst h1; subst h2
    obtain ⟨m0, s, _, _, h3, h4, h5, _⟩ := hf j hj
    exact ⟨s, h5, h3, h4⟩
  obtain ⟨ss, hss⟩ : ∃ ss, V.mapM (fun e => f e.1.compressed) = some ss := by
    clear hVmem hVkeys hview hVsorted hVwf hVdef hf
    generalize V = L at hVf
    have : ∀ L' : View P, (∀ e ∈ L', ∃ s : Scalar, f e.1.compressed = some s) →
        ∃ ss, L'.mapM (fun e => f e.1.compressed) = some ss := by
      intro L'
      induction L' with
      | nil => intro _; exact ⟨[], rfl⟩
      | cons e L' ih =>
        intro hL
        obtain ⟨s, hs⟩ := hL e (by simp)
        obtain ⟨ss, hss⟩ := ih (fun e he => hL e (by simp [he]))
        exact ⟨s :: ss, by rw [List.mapM_cons, hs, hss]; rfl⟩
    exact this L (fun e he => by obtain ⟨s, hs, _⟩ := hVf e he; exact ⟨s, hs⟩)
  have mapM_congr : ∀ (L : View P) (g g' : PublicKey P × RevealedPoints P → Option Scalar),
      (∀ e ∈ L, g e = g' e) → L.mapM g = L.mapM g' := by
    intro L g g' hgg
    induction L with
    | nil => rfl
    | cons e L ih =>
      rw [List.mapM_cons, List.mapM_cons, hgg e (by simp), ih (fun e he => hgg e (by simp [he]))]
  refine ⟨⟨compress (musigR t' V), Scalar.sum ss⟩, ?_, ?_, ?_⟩
  · intro i hi
    obtain ⟨m0, s, h1, h2, h3, h4, h5, h6⟩ := hf i hi
    constructor
    · unfold Cosigner.result
      rw [h1, Outcome.bind_ok, h6]
      have : (V.mapM fun e => shareOf i.pk.compressed s i.cosigns e.1.compressed) = some ss := by
        rw [← hss]
        apply mapM_congr
        intro e he
        obtain ⟨j, hj, e1, _⟩ := hVmem e he
        rw [e1]
        unfold shareOf
        by_cases hji : j.pk = i.pk
        · rw [hji, if_pos rfl, h5]
        · rw [if_neg (fun hc => hji (pk_inj hc))]
          obtain ⟨c, s', hc1, hc2, hc3⟩ := h.cosigns i hi j hj hji
          obtain ⟨m0j, sj, g1, g2, g3, g4, g5, g6⟩ := hf j hj
          unfold Cosigner.cosignature at hc1
          rw [g1, Outcome.bind_ok] at hc1
          cases hc1
          rw [hc3, g5]
          congr 1
          have : (m0j.ourCosignature).bytes = sj.bytes := by unfold MuSig.ourCosignature; rw [g2]
          rw [this] at hc2
          cases s'; cases sj; simp only [Scalar.mk.injEq]; exact hc2.symm
      rw [this]
      rfl
    · have hE' : ∀ e ∈ i.atReveal.Rs, ∀ s, e.2 ≠ .cosigned s := by
        intro e he s h
        have hg : Good i.atReveal := session_good _ _ _ _ _
        have := hg.early e he; rw [h] at this; exact this
      unfold MuSig.publicKey MuSig.computePublicKey
      rw [publicKeys_true _ hE', aggregatePoint_eq, hview i hi, hVkeys]
  · rw [← hVkeys, sum_verifies_iff V t' (fun e => f e.1.compressed) ?_ ss hss]
    · have : ∀ L : View P, (∀ e ∈ L, ∃ s : Scalar, f e.1.compressed = some s ∧ ValidShare t' V e s) →
          (L.map fun e => ((f e.1.compressed).getD Scalar.zero).toZ • (basepoint : P) - sharePoint t' V e).sum = 0 := by
        intro L
        induction L with
        | nil => intro _; rfl
        | cons e L ih =>
          intro hL
          obtain ⟨s, hs, hv⟩ := hL e (by simp)
          rw [List.map_cons, List.sum_cons, ih (fun e he => hL e (by simp [he])), hs, Option.getD_some, hv]
          simp
      exact this V (fun e he => by obtain ⟨s, h1, _, h2⟩ := hVf e he; exact ⟨s, h1, h2⟩)
    · -- only keys of the group have a share: make the function total on the rest
      intro e s hs
      obtain ⟨k, p⟩ := e
      exact hfcan _ s hs
  · intro T'' _ Rel t'' hR hRel calls hcol
    obtain ⟨ss', hss', hsig⟩ := signature_run t'' calls
    have hadd : ∀ k : PublicKey P, k.WF → ∀ p s, firstAdd calls k.compressed = some (p, s) ↔
        ∃ j ∈ parties, k = j.pk ∧ p = own j ∧ f j.pk.compressed = some s := by
      have hparts : ∀ j ∈ parties, ∀ c, j.cosignature = .ok c → ∃ s, f j.pk.compressed = some s ∧
          (CollectCall.mk j.pk j.revealMsg c).parts = some (own j, s) := by
        intro j hj c hc
        obtain ⟨m0j, sj, g1, g2, g3, g4, g5, g6⟩ := hf j hj
        unfold Cosigner.cosignature at hc
        rw [g1, Outcome.bind_ok] at hc
        cases hc
        refine ⟨sj, g5, ?_⟩
        unfold CollectCall.parts
        have : Scalar.fromCanonicalBytes (m0j.ourCosignature).bytes = some sj := by
          rw [Scalar.fromCanonicalBytes_eq_some]
          unfold MuSig.ourCosignature; rw [g2]
          exact ⟨rfl, g3⟩
        simp only [revealMsg_eq, points_toReveal, this]
      intro k hk p s
      constructor
      · intro hfa
        obtain ⟨x, hx, hxp⟩ := List.exists_of_findSome?_eq_some hfa
        split at hxp
        · rename_i hkk
          obtain ⟨j, hj, c, hc, rfl⟩ := hcol.only x hx (by rw [hxp]; simp)
          obtain ⟨s', h1, h2⟩ := hparts j hj c hc
          rw [h2] at hxp
          cases hxp
          exact ⟨j, hj, BMap.key_ext hk (wf_toPublic _) hkk.symm, rfl, h1⟩
        · cases hxp
      · rintro ⟨j, hj, rfl, rfl, hs⟩
        obtain ⟨c, hc, hin⟩ := hcol.all j hj
        obtain ⟨s', h1, h2⟩ := hparts j hj c hc
        rw [hs] at h1; cases h1
        cases hfa : firstAdd calls j.pk.compressed with
        | none =>
          unfold firstAdd at hfa
          rw [List.findSome?_eq_none_iff] at hfa
          have := hfa _ hin
          simp only [if_true] at this
          rw [h2] at this; cases this
        | some x =>
          obtain ⟨y, hy, hyp⟩ := List.exists_of_findSome?_eq_some hfa
          split at hyp
          · rename_i hkk
            obtain ⟨j', hj', c', hc', rfl⟩ := hcol.only y hy (by rw [hyp]; simp)
            have hjj : j' = j := h.distinct j' hj' j hj (pk_inj hkk)
            subst hjj
            rw [hc] at hc'
            cases hc'
            rw [h2] at hyp
            exact hyp.symm
          · cases hyp
    have hcv : viewOf (collector t'' calls).Rs = V := by
      apply BMap.ext_get? (BMap.sorted_mapVal _ (collector_sorted t'' calls)) hVsorted
        (BMap.keysWF_mapVal _ (collector_wf t'' calls hcol.genuine)) hVwf
      intro x hx
      apply Option.ext
      intro p
      rw [hVdef, honest_view_get h hi0 x hx]
      show (BMap.get? (BMap.mapVal _ _) x = _) ↔ _
      rw [BMap.get?_mapVal _ (collector_sorted t'' calls), collector_get]
      constructor
      · intro hh
        cases hfa : firstAdd calls x.compressed with
        | none => rw [hfa] at hh; cases hh
        | some y =>
          obtain ⟨q, s⟩ := y
          rw [hfa] at hh
          simp only [Option.map_some, Option.bind_some, CoR.revealed, Option.some.injEq] at hh
          subst hh
          obtain ⟨j, hj, h1, h2, _⟩ := (hadd x hx q s).mp hfa
          exact ⟨j, hj, h1, h2⟩
      · rintro ⟨j, hj, rfl, rfl⟩
        obtain ⟨m0j, sj, g1, g2, g3, g4, g5, g6⟩ := hf j hj
        rw [(hadd j.pk (wf_toPublic _) (own j) sj).mpr ⟨j, hj, rfl, rfl, g5⟩]
        rfl
    rw [hsig, hcv, musigR_sim hR hRel]
    rw [hcv] at hss'
    have : ss' = ss := by
      rw [← Option.some.injEq, ← hss', ← hss]
      apply mapM_congr
      intro e he
      obtain ⟨s, hs, _⟩ := hVf e he
      obtain ⟨j, hj, e1, e2⟩ := hVmem e he
      rw [e1] at hs ⊢
      rw [(hadd j.pk (wf_toPublic _) (own j) s).mpr ⟨j, hj, rfl, rfl, hs⟩, hs]
      rfl
    rw [this]

end Honest

end Schnorrkel.Props
