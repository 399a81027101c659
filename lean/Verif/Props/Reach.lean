import Verif.Lemmas.Reach
import Verif.Props.Serde
import Verif.Props.Batch
import Verif.Props.VrfMulti

/-! # C07, C08: invariants of every value the API can produce -/

namespace Schnorrkel.Props
open SigningTranscript Spec
variable {P : Type} [Ristretto P] [Oracles]

/-- Reduced scalars, matching encodings. -/
def Sound (v : Val P) : Prop := (∀ s ∈ v.scalars, s.Canonical) ∧ ∀ k ∈ v.points, k.WF

private theorem s_secret {sk : SecretKey} : Sound (.secret sk : Val P) ↔ sk.key.Canonical := by
  simp [Sound, Val.scalars, Val.points]
private theorem s_pub {pk : PublicKey P} : Sound (.pub pk) ↔ pk.WF := by
  simp [Sound, Val.scalars, Val.points]
private theorem s_keypair {kp : Keypair P} : Sound (.keypair kp) ↔ kp.secret.key.Canonical ∧ kp.pub.WF := by
  simp [Sound, Val.scalars, Val.points]
private theorem s_sig {s : Signature} : Sound (.sig s : Val P) ↔ s.s.Canonical := by
  simp [Sound, Val.scalars, Val.points]
private theorem s_prepared {b : PreparedBatch} : Sound (.prepared b : Val P) ↔ b.bs.Canonical := by
  simp [Sound, Val.scalars, Val.points]
private theorem s_inout {p : VRFInOut P} : Sound (.inout p) ↔ p.input.WF ∧ p.output.WF := by
  simp [Sound, Val.scalars, Val.points]
private theorem s_proof {p : VRFProof} : Sound (.proof p : Val P) ↔ p.c.Canonical ∧ p.s.Canonical := by
  simp [Sound, Val.scalars, Val.points]
private theorem s_batchable {p : VRFProofBatchable} : Sound (.batchable p : Val P) ↔ p.s.Canonical := by
  simp [Sound, Val.scalars, Val.points]
private theorem s_scalar {s : Scalar} : Sound (.scalar s : Val P) ↔ s.Canonical := by
  simp [Sound, Val.scalars, Val.points]
private theorem soundMap_iff {m : BMap P (CoR P)} : SoundMap m ↔
    (∀ s ∈ m.flatMap fun e => corScalars e.2, s.Canonical) ∧ ∀ k ∈ m.map (·.1), k.WF := by
  unfold SoundMap
  constructor
  · intro h
    constructor
    · intro s hs
      obtain ⟨e, he, h2⟩ := List.mem_flatMap.mp hs
      exact (h e he).2 s h2
    · intro k hk
      obtain ⟨e, he, rfl⟩ := List.mem_map.mp hk
      exact (h e he).1
  · rintro ⟨h1, h2⟩ e he
    exact ⟨h2 _ (List.mem_map.mpr ⟨e, he, rfl⟩), fun s hs => h1 s (List.mem_flatMap.mpr ⟨e, he, hs⟩)⟩
private theorem s_mc {T : Type} {m : MuSig P T (CommitStage P)} : Sound (.musigCommit m) ↔
    (m.stage.keypair.secret.key.Canonical ∧ m.stage.keypair.pub.WF ∧ ∀ s ∈ m.stage.rMe.1, s.Canonical) ∧
      SoundMap m.Rs := by
  rw [soundMap_iff]
  simp only [Sound, Val.scalars, Val.points, List.cons_append, List.mem_cons, forall_eq_or_imp, List.mem_append, or_imp, forall_and, forall_eq]
  tauto
private theorem s_mr {T : Type} {m : MuSig P T (RevealStage P)} : Sound (.musigReveal m) ↔
    (m.stage.keypair.secret.key.Canonical ∧ m.stage.keypair.pub.WF ∧ ∀ s ∈ m.stage.rMe.1, s.Canonical) ∧
      SoundMap m.Rs := by
  rw [soundMap_iff]
  simp only [Sound, Val.scalars, Val.points, List.cons_append, List.mem_cons, forall_eq_or_imp, List.mem_append, or_imp, forall_and, forall_eq]
  tauto
private theorem s_ms {T : Type} {m : MuSig P T CosignStage} : Sound (.musigCosign m) ↔
    m.stage.sMe.Canonical ∧ SoundMap m.Rs := by
  rw [soundMap_iff]
  simp only [Sound, Val.scalars, Val.points, List.mem_cons, forall_eq_or_imp]
  tauto
private theorem s_mt {T : Type} {m : MuSig P T CollectStage} : Sound (.musigCollect m) ↔ SoundMap m.Rs := by
  rw [soundMap_iff]; rfl

private theorem wf_vrfHash {T : Type} [SigningTranscript T] (pk : PublicKey P) (t : VRFTranscript T) :
    (PublicKey.vrfHash pk t).WF := rfl

private theorem dleq_s {T : Type} [SigningTranscript T] (kp : Keypair P) (hc : kp.secret.key.Canonical) (t : T) (p : VRFInOut P)
    (kusama : Bool) (sys : Rng) : (kp.dleqProove t p kusama sys).1.1.c.Canonical ∧
      (kp.dleqProove t p kusama sys).1.1.s.Canonical ∧ (kp.dleqProove t p kusama sys).1.2.s.Canonical := by
  have h : ∀ a b c : Scalar, a.Canonical → (a - b * c).Canonical := fun a b c ha =>
    Scalar.canonical_sub ha (Scalar.canonical_mul _ _)
  exact ⟨canonical_challenge _ _, h _ _ _ (canonical_witness _ _ _ _), h _ _ _ (canonical_witness _ _ _ _)⟩

private theorem shorten_s {T : Type} [SigningTranscript T] (b : VRFProofBatchable) (hc : b.s.Canonical) (t : T)
    (pk : PublicKey P) (p : VRFInOut P) (kusama : Bool) :
    (b.shortenDleq t pk p kusama).c.Canonical ∧ (b.shortenDleq t pk p kusama).s.Canonical :=
  ⟨canonical_challenge _ _, hc⟩

private theorem dleqVerify_s {T : Type} [SigningTranscript T] {pk : PublicKey P} {t : T} {p : VRFInOut P} {proof : VRFProof}
    {kusama : Bool} {b : VRFProofBatchable} (h : (PublicKey.dleqVerify pk t p proof kusama).1 = .ok b) :
    b.s = proof.s := by
  have key : ∀ {c : Prop} [Decidable c] {x : VRFProofBatchable} {e : SignatureError} {t : T},
      x.s = proof.s → (if c then ((.ok x : SignatureResult VRFProofBatchable), t) else (.error e, t)).1 = .ok b →
      b.s = proof.s := by
    intro c _ x e t hx h
    split at h
    · cases h; exact hx
    · cases h
  exact key rfl h

private theorem wf_merge {pk : PublicKey P} {ps : List (VRFInOut P)} {p : VRFInOut P}
    (h : PublicKey.vrfsMerge pk ps = .ok p) : p.input.WF ∧ p.output.WF := by
  unfold PublicKey.vrfsMerge at h
  split at h
  · cases h
  · cases h; exact ⟨rfl, rfl⟩

private theorem wf_attach {T : Type} [SigningTranscript T] {o : VRFPreOut} {pk : PublicKey P} {t : VRFTranscript T} {p : VRFInOut P}
    (h : o.attachInputHash pk t = .ok p) : p.input.WF ∧ p.output.WF := by
  obtain ⟨h1, _, h2, _⟩ := attachInputHash_ok.mp h
  exact ⟨h1 ▸ wf_vrfHash pk t, h2⟩

private theorem wf_attach_all {α : Type} {f : α → SignatureResult (VRFInOut P)} {l : List α} {ps : List (VRFInOut P)}
    (hf : ∀ a p, f a = .ok p → p.input.WF ∧ p.output.WF)
    (h : l.mapM f = Except.ok ps) : ∀ p ∈ ps, p.input.WF ∧ p.output.WF := by
  have h2 := (mapM_except_forall₂ _).mp h
  clear h
  induction h2 with
  | nil => simp
  | cons h1 _ ih =>
    intro p hp
    rcases List.mem_cons.mp hp with rfl | hp
    · exact hf _ _ h1
    · exact ih p hp

private theorem cert_scalar_canonical {T : Type} [SigningTranscript T] (kp : Keypair P) (t : T) (seed : PublicKey P) (sys : Rng) :
    (⟨(kp.issueAdaptorCert t seed sys).1.bytes.slice 32 32 (by omega)⟩ : Scalar).Canonical := by
  have key : ∀ (g : Arr 32) (s : Scalar), s.Canonical →
      (⟨(Arr.append g s.bytes).slice 32 32 (by omega)⟩ : Scalar).Canonical := by
    intro g s hs
    have : (Arr.append g s.bytes).slice 32 32 (by omega) = s.bytes := by
      apply Arr.ext'
      simp [Arr.slice, Arr.append, g.2, s.bytes.2, List.take_of_length_le]
    rw [this]; exact hs
  exact key _ _ (Scalar.canonical_add (canonical_witness _ _ _ _) (Scalar.canonical_mul _ _))

section
variable {T : Type} [SigningTranscript T]
private theorem d_keypair {kp : Keypair P} (h : kp.secret.key.Canonical) (t : T) (cc : ChainCode) (sys : Rng) :
    (Derivation.derivedKey kp t cc sys).1.secret.key.Canonical ∧ (Derivation.derivedKey kp t cc sys).1.pub.WF :=
  ⟨canonical_deriveSecretKey h t cc sys, rfl⟩
private theorem d_keypair_simple {kp : Keypair P} (h : kp.secret.key.Canonical) (cc : ChainCode) (i : Bytes) (sys : Rng) :
    (derivedKeySimple kp cc i sys).1.secret.key.Canonical ∧ (derivedKeySimple kp cc i sys).1.pub.WF := by
  unfold derivedKeySimple; exact d_keypair h _ cc sys
private theorem d_keypair_rng {kp : Keypair P} (h : kp.secret.key.Canonical) (cc : ChainCode) (i : Bytes) (rng sys : Rng) :
    (derivedKeySimpleRng kp cc i rng sys).1.secret.key.Canonical ∧ (derivedKeySimpleRng kp cc i rng sys).1.pub.WF := by
  unfold derivedKeySimpleRng; exact d_keypair h _ cc sys
private theorem d_secret {sk : SecretKey} (h : sk.key.Canonical) (t : T) (cc : ChainCode) (sys : Rng) :
    ((secretKeyDerivation P).derivedKey sk t cc sys).1.key.Canonical :=
  canonical_deriveSecretKey (kp := (sk.toKeypair : Keypair P)) h t cc sys
private theorem d_secret_simple {sk : SecretKey} (h : sk.key.Canonical) (cc : ChainCode) (i : Bytes) (sys : Rng) :
    (@derivedKeySimple _ _ (secretKeyDerivation P) sk cc i sys).1.key.Canonical := by
  unfold derivedKeySimple; exact d_secret h _ cc sys
private theorem d_secret_rng {sk : SecretKey} (h : sk.key.Canonical) (cc : ChainCode) (i : Bytes) (rng sys : Rng) :
    (@derivedKeySimpleRng _ _ (secretKeyDerivation P) sk cc i rng sys).1.key.Canonical := by
  unfold derivedKeySimpleRng; exact d_secret h _ cc sys
private theorem d_public (pk : PublicKey P) (t : T) (cc : ChainCode) (sys : Rng) :
    (Derivation.derivedKey pk t cc sys).1.WF := rfl
private theorem d_public_simple (pk : PublicKey P) (cc : ChainCode) (i : Bytes) (sys : Rng) :
    (derivedKeySimple pk cc i sys).1.WF := by unfold derivedKeySimple; exact d_public _ _ cc sys
private theorem d_public_rng (pk : PublicKey P) (cc : ChainCode) (i : Bytes) (rng sys : Rng) :
    (derivedKeySimpleRng pk cc i rng sys).1.WF := by unfold derivedKeySimpleRng; exact d_public _ _ cc sys
end

private theorem sound_of_reach {v : Val P} (h : Reach v) : Sound v := by
  induction h with
  | secretFromBytes h => exact s_secret.mpr (SecretKey.fromBytes_ok.mp h).2
  | secretFromEd25519 h => exact s_secret.mpr (SecretKey.fromEd25519Bytes_ok.mp h).2.2.1
  | secretGenerate rng => exact s_secret.mpr (Scalar.canonical_wide _)
  | miniExpand m mode =>
    refine s_secret.mpr ?_
    cases mode
    · exact (expand_uniform_spec m).2.2
    · exact (expand_ed25519_spec m).2.2.2.1
  | miniExpandKeypair m mode =>
    refine s_keypair.mpr ⟨?_, rfl⟩
    cases mode
    · exact (expand_uniform_spec m).2.2
    · exact (expand_ed25519_spec m).2.2.2.1
  | miniExpandPublic m mode => exact s_pub.mpr rfl
  | secretZeroize _ _ => exact s_secret.mpr (show (⟨zeros 32⟩ : Scalar).Canonical by decide +kernel)
  | toPublic _ _ => exact s_pub.mpr rfl
  | toKeypair _ ih => exact s_keypair.mpr ⟨s_secret.mp ih, rfl⟩
  | keypairFrom _ ih => exact s_keypair.mpr ⟨s_secret.mp ih, rfl⟩
  | pubFromCompressed h => exact s_pub.mpr (fromCompressed_ok.mp h).2
  | pubFromPoint p => exact s_pub.mpr rfl
  | pubFromBytes h => exact s_pub.mpr (fromBytesSer_ok.mp h).2
  | keypairFromBytes h =>
    obtain ⟨_, h1, h2⟩ := ((keypair_from_bytes_table _).1 _).mp h
    exact s_keypair.mpr ⟨(SecretKey.fromBytes_ok.mp h1).2, (fromBytesSer_ok.mp h2).2⟩
  | keypairFromHalf h =>
    obtain ⟨_, h1, h2⟩ := ((keypair_from_half_ed25519_bytes_table _).1 _).mp h
    exact s_keypair.mpr ⟨(SecretKey.fromEd25519Bytes_ok.mp h1).2.2.1, (fromBytesSer_ok.mp h2).2⟩
  | keypairGenerate rng => exact s_keypair.mpr ⟨Scalar.canonical_wide _, rfl⟩
  | keypairZeroize _ ih => exact s_keypair.mpr ⟨(show (⟨zeros 32⟩ : Scalar).Canonical by decide +kernel), (s_keypair.mp ih).2⟩
  | keypairSecret _ ih => exact s_secret.mpr (s_keypair.mp ih).1
  | keypairPublic _ ih => exact s_pub.mpr (s_keypair.mp ih).2
  | keypairLiteral _ _ ih1 ih2 => exact s_keypair.mpr ⟨s_secret.mp ih1, s_pub.mp ih2⟩
  | bothDefault => exact s_pub.mpr wf_default
  | bothFromCompressed h => exact s_pub.mpr (fromCompressed_ok.mp h).2
  | bothFromPoint p => exact s_pub.mpr rfl
  | bothFromBytes h => exact s_pub.mpr (fromBytesSer_ok.mp h).2
  | sigFromBytes h => exact s_sig.mpr (Signature.fromBytes_eq_ok.mp h).2
  | sigFromBytesUnmarked h =>
    unfold Signature.fromBytesNotDistinguishedFromEd25519 at h
    split at h
    · cases h
    · exact s_sig.mpr (Signature.fromBytes_eq_ok.mp h).2
  | secretSign t sys _ _ ih1 _ => exact s_sig.mpr (canonical_sign t _ sys)
  | secretSignSimple ctx msg sys _ _ ih1 _ => exact s_sig.mpr (canonical_sign _ _ sys)
  | secretSignDoublecheck t sys _ _ h _ _ => exact s_sig.mpr (doublecheck_canonical h)
  | secretSignSimpleDoublecheck ctx msg sys _ _ h _ _ => exact s_sig.mpr (doublecheck_canonical h)
  | keypairSign t sys _ ih => exact s_sig.mpr (canonical_sign t _ sys)
  | keypairSignSimple ctx msg sys _ ih => exact s_sig.mpr (canonical_sign _ _ sys)
  | keypairSignDoublecheck t sys _ h _ => exact s_sig.mpr (doublecheck_canonical h)
  | keypairSignSimpleDoublecheck ctx msg sys _ h _ => exact s_sig.mpr (doublecheck_canonical h)
  | preparedNew h1 h2 h ih1 ih2 =>
    unfold PreparedBatch.new at h
    split at h
    · cases h
    · obtain ⟨⟨zs, hrams⟩, _, h⟩ := outcome_ok_of_bind h
      cases h
      refine s_prepared.mpr (Scalar.canonical_sum ?_)
      intro s hs
      obtain ⟨i, hi, rfl⟩ := List.getElem_of_mem hs
      simp only [List.getElem_zipWith]
      exact Scalar.canonical_mul _ _
  | preparedRead h => exact absurd h ((prepared_batch_read_never_ok _ _).1 _)
  | deriveScalar t cc _ _ => exact s_scalar.mpr (canonical_challenge _ _)
  | deriveSecretKey t cc sys _ ih => exact s_secret.mpr (canonical_deriveSecretKey (s_keypair.mp ih).1 t cc sys)
  | derivedKeypair t cc sys _ ih => exact s_keypair.mpr (d_keypair (s_keypair.mp ih).1 t cc sys)
  | derivedKeypairSimple cc i sys _ ih => exact s_keypair.mpr (d_keypair_simple (s_keypair.mp ih).1 cc i sys)
  | derivedKeypairSimpleRng cc i rng sys _ ih => exact s_keypair.mpr (d_keypair_rng (s_keypair.mp ih).1 cc i rng sys)
  | derivedSecret t cc sys _ ih => exact s_secret.mpr (d_secret (s_secret.mp ih) t cc sys)
  | derivedSecretSimple cc i sys _ ih => exact s_secret.mpr (d_secret_simple (s_secret.mp ih) cc i sys)
  | derivedSecretSimpleRng cc i rng sys _ ih => exact s_secret.mpr (d_secret_rng (s_secret.mp ih) cc i rng sys)
  | derivedPublic t cc sys _ _ => exact s_pub.mpr (d_public _ t cc sys)
  | derivedPublicSimple cc i sys _ _ => exact s_pub.mpr (d_public_simple _ cc i sys)
  | derivedPublicSimpleRng cc i rng sys _ _ => exact s_pub.mpr (d_public_rng _ cc i rng sys)
  | extendedKeypair t cc sys _ ih => exact s_keypair.mpr (d_keypair (s_keypair.mp ih).1 t cc sys)
  | extendedPublic t cc sys _ _ => exact s_pub.mpr (d_public _ t cc sys)
  | extendedSecret t cc sys _ ih => exact s_secret.mpr (d_secret (P := P) (s_secret.mp ih) t cc sys)
  | extendedHard x i mode _ _ =>
    refine s_secret.mpr ?_
    cases mode
    · exact (expand_uniform_spec _).2.2
    · exact (expand_ed25519_spec _).2.2.2.1
  | certScalar t sys _ _ _ _ => exact s_scalar.mpr (cert_scalar_canonical _ _ _ _)
  | certAccept t sys _ _ h _ ih => exact s_secret.mpr (canonical_acceptAdaptorCert (s_secret.mp ih) h)
  | certSelf t sys _ h ih => exact s_secret.mpr (canonical_issueSelf h)
  | certOpen t _ h _ =>
    unfold PublicKey.openAdaptorCert PublicKey.openAdaptorCertT at h
    simp only at h
    split at h
    · cases h
    · cases h; exact s_pub.mpr rfl
  | vrfHash t _ _ => exact s_pub.mpr rfl
  | vrfMalleable t => exact s_pub.mpr rfl
  | vrfAttach t _ h _ => exact s_inout.mpr (wf_attach h)
  | vrfCreatePoint _ _ _ ih => exact s_inout.mpr ⟨s_pub.mp ih, rfl⟩
  | vrfCreateCompressed _ h _ =>
    unfold SecretKey.vrfCreateFromCompressedPoint at h
    obtain ⟨i, h1, h⟩ := ok_of_bind h
    cases h
    exact s_inout.mpr ⟨(fromCompressed_ok.mp h1).2, rfl⟩
  | vrfCreate t _ _ => exact s_inout.mpr ⟨rfl, rfl⟩
  | inoutLiteral _ _ ih1 ih2 => exact s_inout.mpr ⟨s_pub.mp ih1, s_pub.mp ih2⟩
  | inoutInput _ ih => exact s_pub.mpr (s_inout.mp ih).1
  | inoutOutput _ ih => exact s_pub.mpr (s_inout.mp ih).2
  | vrfsMerge _ _ h _ _ => exact s_inout.mpr (wf_merge h)
  | proofFromBytes h => exact s_proof.mpr (((vrf_proof_codec _).1 _).mp h).2
  | batchableFromBytes h => exact s_batchable.mpr (((vrf_proof_batchable_codec _).1 _).mp h).2
  | shortenDleq t kusama _ _ _ ih _ _ => exact s_proof.mpr (shorten_s _ (s_batchable.mp ih) _ _ _ _)
  | shortenVrf t _ _ h ih _ =>
    unfold VRFProofBatchable.shortenVrf at h
    obtain ⟨i, h1, h⟩ := ok_of_bind h
    cases h
    exact s_proof.mpr (shorten_s _ (s_batchable.mp ih) _ _ _ _)
  | @dleqProof _ _ kp p t kusama sys _ _ ih _ =>
    have := dleq_s kp (s_keypair.mp ih).1 t p kusama sys
    exact s_proof.mpr ⟨this.1, this.2.1⟩
  | dleqBatchable t kusama sys _ _ ih _ => exact s_batchable.mpr (dleq_s _ (s_keypair.mp ih).1 t _ kusama sys).2.2
  | vrfSign t extra sys _ _ => exact s_inout.mpr ⟨rfl, rfl⟩
  | @vrfSignProof _ _ _ _ kp t extra sys _ ih =>
    have := dleq_s kp (s_keypair.mp ih).1 extra (kp.vrfCreateHash t) KUSAMA_VRF sys
    exact s_proof.mpr ⟨this.1, this.2.1⟩
  | @vrfSignBatchable _ _ _ _ kp t extra sys _ ih =>
    exact s_batchable.mpr (dleq_s kp (s_keypair.mp ih).1 extra (kp.vrfCreateHash t) KUSAMA_VRF sys).2.2
  | vrfSignCheckInout t check sys _ h _ =>
    unfold Keypair.vrfSignExtraAfterCheck at h
    simp only at h
    split at h
    · cases h
    · cases h; exact s_inout.mpr ⟨rfl, rfl⟩
  | @vrfSignCheckProof _ _ _ _ kp _ t check sys _ h ih =>
    unfold Keypair.vrfSignExtraAfterCheck at h
    simp only at h
    split at h
    · cases h
    · rename_i extra _
      cases h
      have := dleq_s kp (s_keypair.mp ih).1 extra (kp.vrfCreateHash t) KUSAMA_VRF sys
      exact s_proof.mpr ⟨this.1, this.2.1⟩
  | @vrfSignCheckBatchable _ _ _ _ kp _ t check sys _ h ih =>
    unfold Keypair.vrfSignExtraAfterCheck at h
    simp only at h
    split at h
    · cases h
    · rename_i extra _
      cases h
      exact s_batchable.mpr (dleq_s kp (s_keypair.mp ih).1 extra (kp.vrfCreateHash t) KUSAMA_VRF sys).2.2
  | vrfsSignInout ts extra sys _ h p hp _ =>
    unfold Keypair.vrfsSignExtra at h
    obtain ⟨q, _, h⟩ := outcome_ok_of_bind h
    cases h
    obtain ⟨t, _, rfl⟩ := List.mem_map.mp hp
    exact s_inout.mpr ⟨rfl, rfl⟩
  | @vrfsSignProof _ _ _ _ kp _ ts extra sys _ h ih =>
    unfold Keypair.vrfsSignExtra at h
    obtain ⟨q, _, h⟩ := outcome_ok_of_bind h
    cases h
    have := dleq_s kp (s_keypair.mp ih).1 extra q KUSAMA_VRF sys
    exact s_proof.mpr ⟨this.1, this.2.1⟩
  | @vrfsSignBatchable _ _ _ _ kp _ ts extra sys _ h ih =>
    unfold Keypair.vrfsSignExtra at h
    obtain ⟨q, _, h⟩ := outcome_ok_of_bind h
    cases h
    exact s_batchable.mpr (dleq_s kp (s_keypair.mp ih).1 extra q KUSAMA_VRF sys).2.2
  | dleqVerify t kusama _ _ _ h _ _ ih =>
    refine s_batchable.mpr ?_
    rw [dleqVerify_s h]; exact (s_proof.mp ih).2
  | vrfVerifyInout t extra _ _ h _ _ =>
    unfold PublicKey.vrfVerifyExtra at h
    obtain ⟨p, h1, h⟩ := ok_of_bind h
    obtain ⟨b, h2, h⟩ := ok_of_bind h
    cases h
    exact s_inout.mpr (wf_attach h1)
  | vrfVerifyBatchable t extra _ _ h _ ih =>
    unfold PublicKey.vrfVerifyExtra at h
    obtain ⟨p, h1, h⟩ := ok_of_bind h
    obtain ⟨b, h2, h⟩ := ok_of_bind h
    cases h
    refine s_batchable.mpr ?_
    rw [dleqVerify_s h2]; exact (s_proof.mp ih).2
  | vrfsVerifyInout ts extra _ _ h p hp _ _ =>
    unfold PublicKey.vrfsVerifyExtra at h
    obtain ⟨ps, h1, h⟩ := outcome_ok_of_bind h
    split at h
    · cases h
    · split at h
      · cases h
      · obtain ⟨q, _, h⟩ := outcome_ok_of_bind h
        obtain ⟨b, _, h⟩ := outcome_ok_of_bind h
        cases h
        exact s_inout.mpr (wf_attach_all (fun _ _ => wf_attach) (outcome_ofExcept_ok h1) p hp)
  | vrfsVerifyBatchable ts extra _ _ h _ ih =>
    unfold PublicKey.vrfsVerifyExtra at h
    obtain ⟨ps, h1, h⟩ := outcome_ok_of_bind h
    split at h
    · cases h
    · split at h
      · cases h
      · obtain ⟨q, _, h⟩ := outcome_ok_of_bind h
        obtain ⟨b, h2, h⟩ := outcome_ok_of_bind h
        cases h
        refine s_batchable.mpr ?_
        rw [dleqVerify_s (outcome_ofExcept_ok h2)]; exact (s_proof.mp ih).2
  | vrfVerifyBatch ts sys _ _ h p hp _ _ =>
    unfold Schnorrkel.vrfVerifyBatch at h
    obtain ⟨ps, h1, h⟩ := outcome_ok_of_bind h
    split at h
    · cases h
    · split at h
      · cases h
      · split at h
        · cases h
          exact s_inout.mpr (wf_attach_all (fun _ _ => wf_attach) (outcome_ofExcept_ok h1) p hp)
        · cases h
        · cases h
  | sliceKey _ _ _ => exact s_pub.mpr rfl
  | sliceWeight _ _ _ h _ _ =>
    unfold AggregatePublicKeySlice.weighting at h
    split at h
    · cases h
    · cases h; exact s_scalar.mpr (canonical_computeWeighting _ _)
  | sortedSliceKey _ _ _ => exact s_pub.mpr rfl
  | sortedSliceWeight _ _ _ h _ _ =>
    unfold AggregatePublicKeySlice.weighting at h
    split at h
    · cases h
    · cases h; exact s_scalar.mpr (canonical_computeWeighting _ _)
  | mapKey _ _ => exact s_pub.mpr rfl
  | mapWeight _ _ h _ _ =>
    unfold BMap.weighting at h
    split at h
    · cases h
    · cases h; exact s_scalar.mpr (canonical_computeWeighting _ _)
  | musigNew t sys _ ih =>
    obtain ⟨h1, h2⟩ := s_keypair.mp ih
    refine s_mc.mpr ⟨⟨h1, h2, drawNonces_canonical _ _ _⟩, ?_⟩
    exact SoundMap.set (m := []) (by intro e he; simp at he) h2 (by simp [corScalars])
  | musigAddCommitment c _ _ ih ih2 =>
    obtain ⟨h1, h2⟩ := s_mc.mp ih
    refine s_mc.mpr ⟨?_, addTheirCommitment_sound h2 (s_pub.mp ih2) c⟩
    rw [addTheirCommitment_spec]
    split
    · exact h1
    · split <;> exact h1
  | musigEditC f _ ih => exact s_mc.mpr (s_mc.mp ih)
  | musigToReveal _ ih => exact s_mr.mpr (s_mc.mp ih)
  | @musigAddReveal T m k r _ _ ih ih2 =>
    obtain ⟨h1, h2⟩ := s_mr.mp ih
    refine s_mr.mpr ⟨?_, addTheirReveal_sound h2 (s_pub.mp ih2) r⟩
    have : (m.addTheirReveal k r).2.stage = m.stage := by
      unfold MuSig.addTheirReveal; split <;> rfl
    rw [this]; exact h1
  | @musigAddTrusted T m k r _ _ ih ih2 =>
    obtain ⟨h1, h2⟩ := s_mr.mp ih
    refine s_mr.mpr ⟨?_, addTrusted_sound h2 (s_pub.mp ih2) r⟩
    have : (m.addTrusted k r).2.stage = m.stage := by
      unfold MuSig.addTrusted
      split
      · rfl
      · rfl
      · simp only []
        split
        · rfl
        · split <;> rfl
    rw [this]; exact h1
  | musigEditR f _ ih => exact s_mr.mpr (s_mr.mp ih)
  | musigToCosign _ h ih =>
    obtain ⟨h1, h2⟩ := s_mr.mp ih
    exact s_ms.mpr (cosignStage_sound h2 h1.2.1 h)
  | musigCosignature _ ih => exact s_scalar.mpr (s_ms.mp ih).1
  | @musigAddCosignature T m k c _ _ ih ih2 =>
    obtain ⟨h1, h2⟩ := s_ms.mp ih
    refine s_ms.mpr ⟨?_, addTheirCosignature_sound h2 (s_pub.mp ih2) c⟩
    have : (m.addTheirCosignature k c).2.stage = m.stage := by
      unfold MuSig.addTheirCosignature
      split
      · rfl
      · split <;> rfl
    rw [this]; exact h1
  | musigSign _ h ih => exact s_sig.mpr (sign_canonical (s_ms.mp ih).2 h)
  | musigCollectNew t => exact s_mt.mpr (by intro e he; cases he)
  | musigCollectAdd r c _ _ ih ih2 => exact s_mt.mpr (collectAdd_sound (s_mt.mp ih) (s_pub.mp ih2) r c)
  | musigSignature _ h ih => exact s_sig.mpr (signature_canonical (s_mt.mp ih) h)
  | musigPublicC _ _ _ => exact s_pub.mpr rfl
  | musigPublicR _ _ _ => exact s_pub.mpr rfl
  | musigPublicS _ _ _ => exact s_pub.mpr rfl
  | musigPublicT _ _ _ => exact s_pub.mpr rfl
  | musigKeysC b _ k hk ih =>
    obtain ⟨v, hv⟩ := publicKeys_mem hk
    exact s_pub.mpr ((s_mc.mp ih).2 _ hv).1
  | musigKeysR b _ k hk ih =>
    obtain ⟨v, hv⟩ := publicKeys_mem hk
    exact s_pub.mpr ((s_mr.mp ih).2 _ hv).1
  | musigKeysS b _ k hk ih =>
    obtain ⟨v, hv⟩ := publicKeys_mem hk
    exact s_pub.mpr ((s_ms.mp ih).2 _ hv).1
  | musigKeysT b _ k hk ih =>
    obtain ⟨v, hv⟩ := publicKeys_mem hk
    exact s_pub.mpr (s_mt.mp ih _ hv).1
  | serdeSecret h => exact s_secret.mpr ((deserialize_validates (P := P) _ _ _).1 _ h)
  | serdePublic h => exact s_pub.mpr ((deserialize_validates _ _ _).2.1 _ h)
  | serdeKeypair h => exact s_keypair.mpr ((deserialize_validates _ _ _).2.2.1 _ h)
  | serdeBoth h => exact s_pub.mpr ((deserialize_validates _ _ _).2.2.2.1 _ h)
  | serdeSig h => exact s_sig.mpr ((deserialize_validates (P := P) _ _ _).2.2.2.2.1 _ h)
  | serdeProof h => exact s_proof.mpr ((deserialize_validates (P := P) _ _ _).2.2.2.2.2.1 _ h)
  | serdeBatchable h => exact s_batchable.mpr ((deserialize_validates (P := P) _ _ _).2.2.2.2.2.2 _ h)

/-- **C07** Every scalar inside any value obtainable through the API — secret keys, signatures, prepared
batches, VRF proofs, derived keys, certificates, aggregation weights, cosigning sessions and cosignatures —
is reduced modulo the group order. -/
theorem reach_scalars_canonical {v : Val P} (h : Reach v) : ∀ s ∈ v.scalars, leNat s.bytes.1 < ell :=
  (sound_of_reach h).1

/-- **C08** Every public key or VRF point inside any value obtainable through the API has an encoding that
is the compression of its point. -/
theorem reach_points_consistent {v : Val P} (h : Reach v) : ∀ k ∈ v.points, compress k.point = k.compressed :=
  (sound_of_reach h).2

/-- **C08** So the debug assertion inside `==` on public keys never fires, and `==` decides equality of
group elements, for any two public keys obtainable through the API. -/
theorem reach_eq_never_panics {a b : PublicKey P} (ha : Reach (.pub a)) (hb : Reach (.pub b)) :
    RistrettoBoth.eqDebug a b = .ok (decide (a.point = b.point)) ∧
    (a.compressed = b.compressed ↔ a.point = b.point) := by
  have h1 : compress a.point = a.compressed := reach_points_consistent ha a (by simp [Val.points])
  have h2 : compress b.point = b.compressed := reach_points_consistent hb b (by simp [Val.points])
  have h3 : a.compressed = b.compressed ↔ a.point = b.point := by
    rw [← h1, ← h2]; exact compress_inj
  refine ⟨?_, h3⟩
  unfold RistrettoBoth.eqDebug
  simp only [h3, if_true]

/-- Non-vacuity: a signature made by a freshly generated keypair on a derived message transcript, the
keypair obtained through the API, and a cosigning session started from it, are all obtainable. -/
example (sys : Rng) : letI := toyOracles
    let kp : Keypair Toy := (Keypair.generateWith zeroRng).1
    Reach (.sig (kp.signSimple [1] [2] sys) : Val Toy) ∧
    Reach (.musigReveal (MuSig.new kp (Transcript.new [3]) sys).1.revealStage) := by
  letI := toyOracles
  exact ⟨.keypairSignSimple _ _ _ (.keypairGenerate _), .musigToReveal (.musigNew _ _ (.keypairGenerate _))⟩

end Schnorrkel.Props
