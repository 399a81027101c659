import Verif.Lemmas.RomCosignCrate

/-! # The attack on the owner, as the crate implements it -/

namespace Schnorrkel
open Spec Schnorrkel.Props SigningTranscript
variable {P : Type} [Ristretto P] {D : Finset (List MOp)} {α : Type} [Goal P α] {fin : α → Prop}

theorem drawNonces_hash (O : Oracles) (t : Transcript) (seed : Arr 32) (sys : Rng) :
    (letI := O; (MuSig.drawNonces t seed sys).1.1.map Scalar.toZ) =
      [hashWith O (musigNonceQuery t.log seed.1 0 (sys.fill 32).1.1),
       hashWith O (musigNonceQuery t.log seed.1 1 ((sys.fill 32).2.fill 32).1.1),
       hashWith O (musigNonceQuery t.log seed.1 2 (((sys.fill 32).2.fill 32).2.fill 32).1.1)] := by
  letI := O
  have key : ∀ (i : Nat) (sys : Rng), (SigningTranscript.witnessScalar t (b! "MuSigWitness") [seed.1, leBytes 8 i] sys).1.toZ =
      hashToZ (musigNonceQuery t.log seed.1 i (sys.fill 32).1.1) := by
    intro i sys
    unfold SigningTranscript.witnessScalar hashToZ musigNonceQuery
    rw [Scalar.toZ_wide]
    simp [SigningTranscript.witnessBytes, witnessBytesRng, Transcript.rekeyAll, Transcript.finalizeRng,
      Transcript.rngFill]
  have ht : ∀ i sys, (SigningTranscript.witnessScalar t (b! "MuSigWitness") [seed.1, leBytes 8 i] sys).2 =
      (t, (sys.fill 32).2) := by
    intro i sys; rfl
  unfold MuSig.drawNonces
  simp only [List.map_cons, List.map_nil, ht, key]
  rfl

/-- The nonces of a session are the residues of `v`. -/
def HasNonces (O : Oracles) (kp : Keypair P) (t : Transcript) (sys : Rng) (v : Fin 3 → Arr 64) : Prop :=
  (letI := O; (MuSig.drawNonces t kp.secret.nonce sys).1.1.map Scalar.toZ) = [residue (v 0), residue (v 1), residue (v 2)]

theorem HasNonces.points {O : Oracles} {kp : Keypair P} {t : Transcript} {sys : Rng} {v : Fin 3 → Arr 64} (h : HasNonces O kp t sys v) :
    (letI := O; ownPoints kp t sys) = noncePoints P v := by
  letI := O
  have : (ownPoints kp t sys).pts.1 = (noncePoints P v).pts.1 := by
    have : (ownPoints kp t sys).pts.1 = ((MuSig.drawNonces t kp.secret.nonce sys).1.1.map Scalar.toZ).map fun z => z • basepoint := by
      rw [List.map_map]; rfl
    rw [this, h]; rfl
  show RevealedPoints.mk _ = RevealedPoints.mk _
  exact congrArg RevealedPoints.mk (Subtype.ext this)

/-- A session of the crate, and what is kept about it. -/
inductive CrateSession (O : Oracles) (kp : Keypair P) : OwnSession P → KeptPhase P → Prop
  | committing (t : Transcript) (sys : Rng) (v : Fin 3 → Arr 64) (h : HasNonces O kp t sys v) :
    CrateSession O kp (.committing (letI := O; MuSig.new kp t sys).1) (.committing t v)
  | revealing (t : Transcript) (sys : Rng) (v : Fin 3 → Arr 64) (h : HasNonces O kp t sys v) (cs : List (P × Commitment)) :
    CrateSession O kp (.revealing (letI := O; session kp t sys (commitCalls cs) [])) (.revealing t v (registered kp.pub cs))
  | finished (t : Transcript) (coms : BMap P Commitment) : CrateSession O kp .finished (.finished t coms)

theorem new_commitment {O : Oracles} {kp : Keypair P} {t : Transcript} {sys : Rng} {v : Fin 3 → Arr 64} (h : HasNonces O kp t sys v) :
    (letI := O; (MuSig.new kp t sys).1.ourCommitment) = .ok (commitO P O v) := by
  letI := O
  have hR : (MuSig.new kp t sys).1.stage.RMe = (noncePoints P v).toReveal := by
    have := session_stage kp t sys [] []
    rw [h.points] at this
    exact congrArg RevealStage.RMe this
  unfold MuSig.ourCommitment
  rw [hR, toCommitment_eq]
  rfl

theorem session_transcript (O : Oracles) (kp : Keypair P) (t : Transcript) (sys : Rng) (cs : List (P × Commitment)) (rs : List (P × Reveal)) :
    (letI := O; session kp t sys (commitCalls cs) (revealCalls rs)).t = t := by
  letI := O
  rw [(musig_transcript_edits kp t sys [] []).2.2 t (commitCalls cs) (revealCalls rs)]
  have h1 : ∀ t : Transcript, commitEdits (commitCalls cs) t = t := by
    unfold commitEdits commitCalls
    induction cs with
    | nil => intro t; rfl
    | cons e cs ih => intro t; exact ih t
  have h2 : ∀ t : Transcript, revealEdits (revealCalls rs) t = t := by
    unfold revealEdits revealCalls
    induction rs with
    | nil => intro t; rfl
    | cons e cs ih => intro t; exact ih t
  rw [h1, h2]

theorem session_group (O : Oracles) (kp : Keypair P) (hk : kp.pub.WF) (t : Transcript) (sys : Rng) (cs : List (P × Commitment)) :
    (letI := O; (session kp t sys (commitCalls cs) []).expectedPublicKey) = PublicKey.fromPoint (aggO O (groupKeys kp.pub (registered kp.pub cs))) := by
  letI := O
  unfold MuSig.expectedPublicKey MuSig.computePublicKey
  rw [aggregatePoint_eq]
  have := session_keys O kp hk t sys cs []
  exact congrArg (fun l => PublicKey.fromPoint (aggregate l)) this

/-- The cosignature the crate computes. -/
theorem session_share {O : Oracles} {kp : Keypair P} (hk : kp.pub.WF) {t : Transcript} {sys : Rng} {v : Fin 3 → Arr 64} (h : HasNonces O kp t sys v)
    (cs : List (P × Commitment)) (rs : List (P × Reveal)) (es : View P) (he : openBy O (registered kp.pub cs) rs = some es) :
    ∃ m0, (letI := O; (session kp t sys (commitCalls cs) (revealCalls rs)).cosignStage) = .ok m0 ∧
      m0.ourCosignature = ⟨(realShare O kp.secret.key.toZ kp.pub t v es).bytes⟩ := by
  letI := O
  obtain ⟨m0, s, h1, h2, h3, h4, -⟩ := cosign_run _ (session_good kp t sys (commitCalls cs) (revealCalls rs))
  refine ⟨m0, h1, ?_⟩
  unfold MuSig.ourCosignature
  rw [h2]
  simp only
  congr 2
  unfold realShare
  refine Scalar.Canonical.eq_of_toZ h3 (Scalar.canonical_ofZ _) ?_
  rw [Scalar.toZ_ofZ, h4]
  rw [session_view O kp hk t sys cs rs es he, session_stage, session_transcript O kp t sys cs rs, h.points]
  have hc := musigChallenge_eq O t (BMap.set es kp.pub (noncePoints P v))
  rw [hc]
  unfold shareIn
  rw [← h]
  rfl

theorem new_nonces (O : Oracles) (kp : Keypair P) (sys : Rng) (t : Transcript) (k : Nat) (v : Fin 3 → Arr 64) (sys' : Rng) (hs : sys'.src = sys.src)
    (hh : sys'.hist = sys.hist ++ List.replicate (3 * k) 32)
    (hv : ∀ j : Fin 3, v j = O.merlin (musigNonceQuery t.log kp.secret.nonce.1 j (drawOf sys k j).1) 64) :
    HasNonces O kp t sys' v ∧ (letI := O; (MuSig.new kp t sys').2).src = sys.src ∧
      (letI := O; (MuSig.new kp t sys').2).hist = sys.hist ++ List.replicate (3 * (k + 1)) 32 := by
  obtain ⟨src, hist⟩ := sys'
  simp only at hs hh
  subst hs hh
  have h1 : sys.hist ++ List.replicate (3 * k) 32 ++ [32] = sys.hist ++ List.replicate (3 * k + 1) 32 := by
    rw [List.append_assoc, ← List.replicate_succ']
  have h2 : sys.hist ++ List.replicate (3 * k + 1) 32 ++ [32] = sys.hist ++ List.replicate (3 * k + 2) 32 := by
    rw [List.append_assoc, ← List.replicate_succ']
  have h3 : sys.hist ++ List.replicate (3 * k + 2) 32 ++ [32] = sys.hist ++ List.replicate (3 * (k + 1)) 32 := by
    rw [List.append_assoc, ← List.replicate_succ', show 3 * k + 2 + 1 = 3 * (k + 1) by omega]
  refine ⟨?_, rfl, ?_⟩
  · unfold HasNonces
    rw [drawNonces_hash]
    simp only [Rng.fill, h1, h2]
    rw [hv 0, hv 1, hv 2]
    rfl
  · show ((sys.hist ++ List.replicate (3 * k) 32 ++ [32]) ++ [32]) ++ [32] = _
    rw [h1, h2, h3]

/-- An attack on the crate is one of the attacks `WinS` is about. -/
theorem play_win (O O' : Oracles) (T : Finset (List MOp)) (b g m : Nat) (kp : Keypair P) (hk : kp.pub.WF) (sys : Rng)
    (nv : Transcript → Nat → Fin 3 → Arr 64)
    (hnv : ∀ t k, t.log ∈ T → k < m → ∀ j : Fin 3, nv t k j = O'.merlin (musigNonceQuery t.log kp.secret.nonce.1 j (drawOf sys k j).1) 64)
    (A : Client (CosignRequest P) CosignAnswer α) : ∀ (q m' r : Nat) (o : Owner P) (ss : List (KeptPhase P)), SessionBounded D T b fin q m' r A → ss.length + m' ≤ m →
      o.sys.src = sys.src → o.sys.hist = sys.hist ++ List.replicate (3 * ss.length) 32 → List.Forall₂ (CrateSession O' kp) o.sessions ss →
      (∀ s ∈ revealedIn ss, (s.1, PublicKey.fromPoint (aggO O' (groupKeys kp.pub s.2))) ∈ o.revealed) →
      Goal.Wins O' kp.pub (o.play O' kp A).1 → (∀ s ∈ (o.play O' kp A).2.revealed, ¬ Goal.About O' kp.pub (o.play O' kp A).1 s.1 s.2) →
      WinS O' nv kp.pub kp.secret.key.toZ ss A := by
  induction A with
  | ret c =>
    intro q m' r o ss _ _ _ _ _ hrev h1 h2
    simp only [Owner.play] at h1 h2
    simp only [WinS]
    exact ⟨h1, fun s hs => h2 _ (hrev s hs)⟩
  | ask l k ih =>
    intro q m' r o ss hb hm hs hh hF hrev h1 h2
    obtain ⟨-, q', rfl, hk⟩ := hb
    simp only [Owner.play] at h1 h2
    simp only [WinS]
    exact ih _ q' m' r o ss (hk _) hm hs hh hF hrev h1 h2
  | request rq k ih =>
    intro q m' r o ss hb hm hs hh hF hrev h1 h2
    simp only [Owner.play] at h1 h2
    obtain ⟨osys, os, orev⟩ := o
    simp only at hs hh hF hrev
    cases rq with
    | start t =>
      obtain ⟨ht, m'', rfl, hk'⟩ := hb
      obtain ⟨n1, n2, n3⟩ := new_nonces O' kp sys t ss.length (nv t ss.length) osys hs hh (hnv t ss.length ht (by omega))
      simp only [Owner.step, new_commitment n1] at h1 h2
      simp only [WinS]
      refine ih _ q m'' r _ _ (hk' _) ?_ ?_ ?_ ?_ ?_ h1 h2
      · rw [List.length_append, List.length_singleton]; omega
      · exact n2
      · rw [List.length_append, List.length_singleton]; exact n3
      · exact List.rel_append hF (List.Forall₂.cons (.committing t osys _ n1) .nil)
      · intro s hs'
        refine hrev s ?_
        unfold revealedIn at hs' ⊢
        rw [List.filterMap_append] at hs'
        simpa using hs'
    | reveal i cs =>
      obtain ⟨-, r', rfl, hk'⟩ := hb
      simp only [WinS]
      simp only [Owner.step] at h1 h2
      rcases forall₂_get hF i with ⟨e1, e2⟩ | ⟨a, p, e1, e2, hab⟩
      · rw [e1] at h1 h2
        simp only [e2]
        exact ih _ q m' r' _ _ (hk' _) hm hs hh hF hrev h1 h2
      · rw [e1] at h1 h2
        simp only [e2]
        cases hab with
        | committing t sys' v h =>
          simp only at h1 h2 ⊢
          have hR : (letI := O'; (session kp t sys' (commitCalls cs) [])).ourReveal = nonceReveal P v := by
            letI := O'
            unfold MuSig.ourReveal
            rw [session_stage, h.points]
            rfl
          have hR' : (runCommit (letI := O'; (MuSig.new kp t sys').1) (commitCalls cs)).2.revealStage.ourReveal = nonceReveal P v := hR
          rw [hR'] at h1 h2
          refine ih _ q m' r' _ _ (hk' _) ?_ hs ?_ ?_ ?_ h1 h2
          · rw [List.length_set]; exact hm
          · rw [List.length_set]; exact hh
          · exact forall₂_set hF i (.revealing t sys' v h cs)
          · intro s hs'
            unfold revealedIn at hs'
            obtain ⟨ph, hph, hsp⟩ := List.mem_filterMap.mp hs'
            rcases List.mem_or_eq_of_mem_set hph with hph | rfl
            · exact List.mem_cons_of_mem _ (hrev s (List.mem_filterMap.mpr ⟨ph, hph, hsp⟩))
            · simp only [Option.some.injEq] at hsp
              subst hsp
              refine List.mem_cons.mpr (Or.inl ?_)
              rw [Prod.mk.injEq]
              exact ⟨(session_transcript O' kp t sys' cs []).symm, (session_group O' kp hk t sys' cs).symm⟩
        | revealing t sys' v h cs' => exact ih _ q m' r' _ _ (hk' _) hm hs hh hF hrev h1 h2
        | finished t coms => exact ih _ q m' r' _ _ (hk' _) hm hs hh hF hrev h1 h2
    | cosign i rs =>
      obtain ⟨-, r', rfl, hk'⟩ := hb
      simp only [WinS]
      simp only [Owner.step] at h1 h2
      rcases forall₂_get hF i with ⟨e1, e2⟩ | ⟨a, p, e1, e2, hab⟩
      · rw [e1] at h1 h2
        simp only [e2]
        exact ih _ q m' r' _ _ (hk' _) hm hs hh hF hrev h1 h2
      · rw [e1] at h1 h2
        simp only [e2]
        cases hab with
        | revealing t sys' v h cs =>
          simp only at h1 h2 ⊢
          have hc := session_complete O' kp hk t sys' cs rs
          have hF' : List.Forall₂ (CrateSession O' kp) (os.set i .finished) (ss.set i (.finished t (registered kp.pub cs))) :=
            forall₂_set hF i (.finished t _)
          have hrev' : ∀ s ∈ revealedIn (ss.set i (.finished t (registered kp.pub cs))),
              (s.1, PublicKey.fromPoint (aggO O' (groupKeys kp.pub s.2))) ∈ orev := by
            intro s hs'
            unfold revealedIn at hs'
            obtain ⟨ph, hph, hsp⟩ := List.mem_filterMap.mp hs'
            rcases List.mem_or_eq_of_mem_set hph with hph | rfl
            · exact hrev s (List.mem_filterMap.mpr ⟨ph, hph, hsp⟩)
            · refine hrev s (List.mem_filterMap.mpr ⟨_, List.mem_of_getElem? e2, ?_⟩)
              exact hsp
          have hl : (ss.set i (.finished t (registered kp.pub cs))).length = ss.length := List.length_set
          cases ho : openBy O' (registered kp.pub cs) rs with
          | none =>
            have hn : ¬ (letI := O'; (runReveal (session kp t sys' (commitCalls cs) []) (revealCalls rs)).2.publicKeys true =
                (runReveal (session kp t sys' (commitCalls cs) []) (revealCalls rs)).2.publicKeys false) :=
              fun hcon => hc.mp hcon ho
            rw [if_neg hn] at h1 h2
            have : cosignAnswer O' kp.secret.key.toZ kp.pub t v (registered kp.pub cs) rs = .refused := by
              unfold cosignAnswer; rw [ho]
            rw [this]
            exact ih _ q m' r' _ _ (hk' _) (by rw [hl]; exact hm) hs (by rw [hl]; exact hh) hF' hrev' h1 h2
          | some es =>
            have hn : (letI := O'; (runReveal (session kp t sys' (commitCalls cs) []) (revealCalls rs)).2.publicKeys true =
                (runReveal (session kp t sys' (commitCalls cs) []) (revealCalls rs)).2.publicKeys false) :=
              hc.mpr (by rw [ho]; simp)
            rw [if_pos hn] at h1 h2
            have : cosignAnswer O' kp.secret.key.toZ kp.pub t v (registered kp.pub cs) rs =
                .share ⟨(realShare O' kp.secret.key.toZ kp.pub t v es).bytes⟩ := by
              unfold cosignAnswer; rw [ho]
            rw [this]
            obtain ⟨m0, hm0, hsh⟩ := session_share hk h cs rs es ho
            have hm0' : (letI := O'; (runReveal (session kp t sys' (commitCalls cs) []) (revealCalls rs)).2.cosignStage) = .ok m0 := hm0
            simp only [hm0', hsh] at h1 h2
            exact ih _ q m' r' _ _ (hk' _) (by rw [hl]; exact hm) hs (by rw [hl]; exact hh) hF' hrev' h1 h2
        | committing t sys' v h => exact ih _ q m' r' _ _ (hk' _) hm hs hh hF hrev h1 h2
        | finished t coms => exact ih _ q m' r' _ _ (hk' _) hm hs hh hF hrev h1 h2

end Schnorrkel
