import Verif.Spec.Protocol
import Verif.Model.Aead
import Verif.Model.Derive
import Verif.Props.Sign
import Verif.Props.Vrf
import Verif.Props.Cert
import Verif.Props.Derive
import Verif.Props.Aead
import Verif.Instance

/-! # C67: transcripts passed by mutable reference, and protocols of many steps over one transcript -/

namespace Schnorrkel.Props
open SigningTranscript Spec
variable {P : Type} [Ristretto P] {T T' : Type} [SigningTranscript T] [SigningTranscript T']

/-- **C67** a reference to a transcript simulates whatever the transcript itself simulates. -/
theorem mutRef_sim {R : T → T' → Prop} (h : TSim R) : TSim (fun (a : MutRef T) (b : T') => R a.t b) where
  commit _ _ _ _ hr := h.commit _ _ _ _ hr
  challenge _ _ _ _ hr := h.challenge _ _ _ _ hr
  witness_left _ _ _ _ _ _ hr := h.witness_left _ _ _ _ _ _ hr
  witness_right _ _ _ _ _ _ hr := h.witness_right _ _ _ _ _ _ hr

/-- **C67** the same for references on both sides. -/
theorem mutRef_sim_both {R : T → T' → Prop} (h : TSim R) :
    TSim (fun (a : MutRef T) (b : MutRef T') => R a.t b.t) where
  commit _ _ _ _ hr := h.commit _ _ _ _ hr
  challenge _ _ _ _ hr := h.challenge _ _ _ _ hr
  witness_left _ _ _ _ _ _ hr := h.witness_left _ _ _ _ _ _ hr
  witness_right _ _ _ _ _ _ hr := h.witness_right _ _ _ _ _ _ hr

/-- **C67** passing `&mut t` gives the results of passing `t` — including the randomness drawn from an attached RNG —
and leaves in `t` the transcript the callee ended with. -/
theorem mut_ref_transparent (t : T) (sk : SecretKey) (kp : Keypair P) (pk : PublicKey P) (sig : Signature)
    (p : VRFInOut P) (proof : VRFProof) (kusama : Bool) (cc : ChainCode) (sys : Rng) :
    (let r := sk.sign (⟨t⟩ : MutRef T) pk sys; (r.1, r.2.1.t, r.2.2)) = sk.sign t pk sys ∧
    (let r := PublicKey.verify pk (⟨t⟩ : MutRef T) sig; (r.1, r.2.t)) = PublicKey.verify pk t sig ∧
    (let r := kp.dleqProove (⟨t⟩ : MutRef T) p kusama sys; (r.1, r.2.1.t, r.2.2)) = kp.dleqProove t p kusama sys ∧
    (let r := PublicKey.dleqVerify pk (⟨t⟩ : MutRef T) p proof kusama; (r.1, r.2.t)) =
      PublicKey.dleqVerify pk t p proof kusama ∧
    (let r := PublicKey.deriveScalarAndChaincode pk (⟨t⟩ : MutRef T) cc; (r.1, r.2.1, r.2.2.t)) =
      PublicKey.deriveScalarAndChaincode pk t cc ∧
    ∀ ctx, (kp.commitKeyExchange (⟨t⟩ : MutRef T) ctx pk).t = kp.commitKeyExchange t ctx pk := by
  have hfold : ∀ (l : List Compressed) (t : T), (l.foldl (fun t pk => commitPoint t (b! "pk") pk) (⟨t⟩ : MutRef T)) =
      ⟨l.foldl (fun t pk => commitPoint t (b! "pk") pk) t⟩ := by
    intro l
    induction l with
    | nil => intro t; rfl
    | cons c l ih => intro t; exact ih _
  refine ⟨rfl, ?_, ?_, ?_, rfl, fun ctx => ?_⟩
  · show (_, _) = _
    rw [verify_eq, verify_eq]
    rfl
  · cases kusama <;> rfl
  · rw [dleqVerify_eq, dleqVerify_eq]
    cases kusama <;> rfl
  · unfold Keypair.commitKeyExchange
    simp only [hfold]
    rfl

private theorem exchange_mut (t : T) (kp : Keypair P) (ctx : Bytes) (pk : PublicKey P) :
    kp.commitKeyExchange (⟨t⟩ : MutRef T) ctx pk = ⟨kp.commitKeyExchange t ctx pk⟩ :=
  congrArg MutRef.mk ((mut_ref_transparent t kp.secret kp pk ⟨zeros 32, Scalar.ofNat 0⟩
    (⟨⟨zeros 32, 0⟩, ⟨zeros 32, 0⟩⟩ : VRFInOut P) ⟨Scalar.ofNat 0, Scalar.ofNat 0⟩ true ⟨zeros 32⟩ noRng).2.2.2.2.2 ctx)

/-- **C67** the same for certificates, derivations and key exchanges. -/
theorem mut_ref_transparent_more (t : T) (kp : Keypair P) (pk spk : PublicKey P) (seed : SecretKey)
    (cert : AdaptorCertSecret) (pub : AdaptorCertPublic) (cc : ChainCode) (n : Nat) (sys : Rng) :
    (let r := kp.issueAdaptorCertT (⟨t⟩ : MutRef T) pk sys; (r.1, r.2.1.t, r.2.2)) = kp.issueAdaptorCertT t pk sys ∧
    (let r := PublicKey.acceptAdaptorCertT pk (⟨t⟩ : MutRef T) seed cert sys; (r.1, r.2.1.t, r.2.2)) =
      PublicKey.acceptAdaptorCertT pk t seed cert sys ∧
    (let r := PublicKey.openAdaptorCertT pk (⟨t⟩ : MutRef T) pub; (r.1, r.2.t)) = PublicKey.openAdaptorCertT pk t pub ∧
    (let r := Derivation.derivedKeyT kp (⟨t⟩ : MutRef T) cc sys; (r.1, r.2.1, r.2.2.1.t, r.2.2.2)) =
      Derivation.derivedKeyT kp t cc sys ∧
    (let r := Derivation.derivedKeyT pk (⟨t⟩ : MutRef T) cc sys; (r.1, r.2.1, r.2.2.1.t, r.2.2.2)) =
      Derivation.derivedKeyT pk t cc sys ∧
    (let r := kp.senderAeadT (⟨t⟩ : MutRef T) pk n sys; (r.1, r.2.1.t, r.2.2)) = kp.senderAeadT t pk n sys ∧
    (let r := kp.recieverAeadT (⟨t⟩ : MutRef T) pk spk n; (r.1, r.2.t)) = kp.recieverAeadT t pk spk n := by
  refine ⟨rfl, ?_, ?_, rfl, rfl, ?_, ?_⟩
  · rcases hs : scalarFromCanonicalBytes (cert.bytes.slice 32 32 (by omega)) with _ | s <;>
    (simp only [PublicKey.acceptAdaptorCertT, hs]; rfl)
  · rcases hd : (decompress pub.bytes : Option P) with _ | Γ <;>
    (simp only [PublicKey.openAdaptorCertT, hd]; rfl)
  · let w := witnessScalar t (b! "make_esk") [kp.secret.nonce.1] sys
    let e : Keypair P := (⟨w.1, kp.secret.nonce⟩ : SecretKey).toKeypair
    show (_, _, _) = _
    have e1 : kp.senderAeadT (⟨t⟩ : MutRef T) pk n sys =
        ((e.pub.compressed, (makeAeadT (kp.commitKeyExchange (e.commitKeyExchange (⟨w.2.1⟩ : MutRef T) (b! "epk") pk)
          (b! "epk") pk) n).1), (makeAeadT (kp.commitKeyExchange (e.commitKeyExchange (⟨w.2.1⟩ : MutRef T) (b! "epk") pk)
          (b! "epk") pk) n).2, w.2.2) := rfl
    rw [e1, exchange_mut, exchange_mut]
    rfl
  · show (_, _) = _
    unfold Keypair.recieverAeadT
    simp only [exchange_mut]
    rfl

/-! ## The two sides of a step end in step -/

private theorem open_final (pk : PublicKey P) (t : T) (cert : AdaptorCertPublic) {Γ : P} (h : decompress cert.bytes = some Γ) :
    (PublicKey.openAdaptorCertT pk t cert).2 = (challengeScalar (commitPoint (commitPoint (protoName t (b! "Adaptor"))
      (b! "issuer-pk") pk.compressed) (b! "gamma") cert.bytes) (b! "adaptor-e")).2 := by
  unfold PublicKey.openAdaptorCertT
  simp only [h]
  rfl

private theorem cert_step {R : T → T' → Prop} (hR : TSim R) {t : T} {t' : T'} (ht : R t t') {T'' : Type}
    [SigningTranscript T''] (t'' : T'') (issuer seed : SecretKey) (hc : issuer.key.Canonical) (hs : seed.key.Canonical)
    (sys : Rng) :
    let kp : Keypair P := issuer.toKeypair
    let c := kp.issueAdaptorCertT t seed.toPublic sys
    let o := PublicKey.openAdaptorCertT kp.pub t' c.1.toPublic
    ∃ r, (PublicKey.acceptAdaptorCert kp.pub t'' seed c.1 c.2.2).1 = .ok r ∧ o.1 = .ok r.2.toPublic ∧ R c.2.1 o.2 := by
  intro kp c o
  obtain ⟨pub, sk, h1, h2, -, h4⟩ := adaptor_cert_complete (P := P) hR ht t'' issuer seed hs sys c.2.2
  refine ⟨(pub, sk), h1, by rw [h2] at h4; exact h4, ?_⟩
  have hd : ∃ Γ : P, decompress c.1.toPublic.bytes = some Γ := by
    rcases hd : (decompress c.1.toPublic.bytes : Option P) with _ | Γ
    · rw [h2] at h4
      have : PublicKey.openAdaptorCert kp.pub t' c.1.toPublic = .error .pointDecompressionError := by
        unfold PublicKey.openAdaptorCert PublicKey.openAdaptorCertT
        simp only [hd]
      exact absurd (h4.symm.trans this) (by simp)
    · exact ⟨Γ, rfl⟩
  obtain ⟨Γ, hd⟩ := hd
  show R _ (PublicKey.openAdaptorCertT kp.pub t' c.1.toPublic).2
  rw [open_final _ _ _ hd]
  let w := witnessScalar (commitPoint (protoName t (b! "Adaptor")) (b! "issuer-pk") kp.pub.compressed) (b! "issuing")
    [kp.secret.nonce.1, (seed.toPublic : PublicKey P).compressed.1] sys
  have hg : c.1.toPublic.bytes = compress ((seed.toPublic : PublicKey P).point + w.1 •. basepoint) :=
    congrArg AdaptorCertPublic.bytes (cert_toPublic_append _ _)
  rw [hg]
  exact hR.challengeScalar_rel _ (hR.point _ _ (hR.witnessScalar_left _ _ _ (hR.point _ _ (hR.proto _ ht))))

private theorem derive_step {R : T → T' → Prop} (hR : TSim R) {t : T} {t' : T'} (ht : R t t') (sk : SecretKey)
    (hc : sk.key.Canonical) (cc : ChainCode) (sys sys' : Rng) :
    let kp : Keypair P := sk.toKeypair
    let d := Derivation.derivedKeyT kp t cc sys
    let d' := Derivation.derivedKeyT kp.pub t' cc sys'
    d.1.pub = d'.1 ∧ d.2.1 = d'.2.1 ∧ R d.2.2.1 d'.2.2.1 := by
  intro kp d d'
  obtain ⟨h1, h2, -⟩ := soft_derivation_commutes (P := P) hR ht sk hc cc sys sys'
  refine ⟨h1, h2, ?_⟩
  have h3 : R (PublicKey.deriveScalarAndChaincode kp.pub t cc).2.2 (PublicKey.deriveScalarAndChaincode kp.pub t' cc).2.2 :=
    (hR.challenge _ _ (b! "HDKD-chaincode") 32 (hR.challengeScalar_rel (b! "HDKD-scalar")
      (hR.point (b! "public-key") _ (hR.commit _ _ (b! "chain-code") cc.bytes.1 ht)))).2
  exact hR.witness_left _ _ _ _ _ _ h3

private theorem aead_step {R : T → T' → Prop} (hR : TSim R) {t : T} {t' : T'} (ht : R t t') (a b : SecretKey) (n : Nat)
    (sys : Rng) :
    let s := (a.toKeypair : Keypair P).senderAeadT t b.toPublic n sys
    ∃ epk : PublicKey P, PublicKey.fromCompressed s.1.1 = .ok epk ∧
      ((b.toKeypair : Keypair P).recieverAeadT t' epk a.toPublic n).1 = s.1.2 ∧
      R s.2.1 ((b.toKeypair : Keypair P).recieverAeadT t' epk a.toPublic n).2 := by
  intro s
  let w := witnessScalar t (b! "make_esk") [a.nonce.1] sys
  let e : SecretKey := ⟨w.1, a.nonce⟩
  have h0 : R w.2.1 t' := hR.witnessScalar_left _ _ _ ht
  have h1 := commit_key_exchange_agree (P := P) hR h0 e b (b! "epk")
  have h2 := commit_key_exchange_agree (P := P) hR h1 a b (b! "epk")
  obtain ⟨h3, h4⟩ := hR.challenge _ _ (b! "") n h2
  exact ⟨e.toPublic, fromCompressed_ok.mpr ⟨rfl, rfl⟩, h3.symm, h4⟩

/-- **C67** the holder of a certificate does *not* end in step with the issuer and with those who open the certificate: if
it passes `&mut t` to `accept_adaptor_cert`, it has to draw the challenge `adaptor-e` from `t` afterwards to catch up. -/
theorem accept_one_challenge_behind {R : T → T' → Prop} (hR : TSim R) {t : T} {t' : T'} (ht : R t t') (pk : PublicKey P)
    (seed : SecretKey) (cert : AdaptorCertSecret) (sys : Rng) {r : AdaptorCertPublic × SecretKey} {k : PublicKey P}
    (ha : (PublicKey.acceptAdaptorCertT pk t seed cert sys).1 = .ok r)
    (ho : (PublicKey.openAdaptorCertT pk t' r.1).1 = .ok k) :
    R (challengeScalar (PublicKey.acceptAdaptorCertT pk t seed cert sys).2.1 (b! "adaptor-e")).2
      (PublicKey.openAdaptorCertT pk t' r.1).2 := by
  have hd : ∃ Γ : P, decompress r.1.bytes = some Γ := by
    rcases hd : (decompress r.1.bytes : Option P) with _ | Γ
    · unfold PublicKey.openAdaptorCertT at ho
      simp only [hd] at ho
      cases ho
    · exact ⟨Γ, rfl⟩
  obtain ⟨Γ, hd⟩ := hd
  rw [open_final _ _ _ hd]
  unfold PublicKey.acceptAdaptorCertT at ha ⊢
  rcases hs : scalarFromCanonicalBytes (cert.bytes.slice 32 32 (by omega)) with _ | s
  · simp only [hs] at ha
    cases ha
  · simp only [hs] at ha ⊢
    have : r.1 = cert.toPublic := by
      injection ha with ha
      rw [← ha]
    rw [this]
    exact hR.challengeScalar_rel _ (hR.point _ _ (hR.witness_left _ _ _ _ _ _ (hR.point _ _ (hR.proto _ ht))))

/-- **C67** so with merlin transcripts they always differ; and what a refused certificate leaves in the caller's
transcript. -/
theorem cert_logs [Oracles] (pk : PublicKey P) (t : Transcript) (seed : SecretKey) (cert : AdaptorCertSecret)
    (pub : AdaptorCertPublic) (sys : Rng) :
    let start := t.log ++ [.append (b! "proto-name") (b! "Adaptor"), .append (b! "issuer-pk") pk.compressed.1]
    let a := PublicKey.acceptAdaptorCertT pk t seed cert sys
    let o := PublicKey.openAdaptorCertT pk t pub
    (∀ r, a.1 = .ok r → a.2.1.log = start ++ [.append (b! "gamma") r.1.bytes.1]) ∧
    (∀ e, a.1 = .error e → a.2.1.log = start) ∧
    (∀ k, o.1 = .ok k → o.2.log = start ++ [.append (b! "gamma") pub.bytes.1, .challenge (b! "adaptor-e") 64]) ∧
    (∀ e, o.1 = .error e → o.2.log = start ++ [.append (b! "gamma") pub.bytes.1]) := by
  intro start a o
  have ha : (∀ r, a.1 = .ok r → a.2.1.log = start ++ [.append (b! "gamma") r.1.bytes.1]) ∧
      (∀ e, a.1 = .error e → a.2.1.log = start) := by
    simp only [a, PublicKey.acceptAdaptorCertT]
    rcases scalarFromCanonicalBytes (cert.bytes.slice 32 32 (by omega)) with _ | s
    · refine ⟨fun r h => (nomatch h), fun e _ => ?_⟩
      simp [start, commitPoint, protoName, commitBytes, Transcript.appendMessage, witnessBytes]
    · refine ⟨fun r h => ?_, fun e h => nomatch h⟩
      injection h with h
      rw [← h]
      simp [start, commitPoint, protoName, commitBytes, Transcript.appendMessage, witnessBytes]
  have ho : (∀ k, o.1 = .ok k → o.2.log = start ++ [.append (b! "gamma") pub.bytes.1, .challenge (b! "adaptor-e") 64]) ∧
      (∀ e, o.1 = .error e → o.2.log = start ++ [.append (b! "gamma") pub.bytes.1]) := by
    simp only [o, PublicKey.openAdaptorCertT]
    rcases (decompress pub.bytes : Option P) with _ | Γ
    · refine ⟨fun r h => (nomatch h), fun e _ => ?_⟩
      simp [start, commitPoint, protoName, commitBytes, Transcript.appendMessage]
    · refine ⟨fun r _ => ?_, fun e h => nomatch h⟩
      simp [start, commitPoint, protoName, commitBytes, Transcript.appendMessage, AdaptorCertPublic.deriveE,
        challengeScalar, SigningTranscript.challengeBytes, Transcript.challengeBytes]
  exact ⟨ha.1, ha.2, ho.1, ho.2⟩

/-- **C67** attaching an RNG to `&mut t` gives what attaching it to `t` gives: same signatures and proofs, same
randomness drawn, and the referent ends up with the same history. -/
theorem mut_ref_attach_rng (t : T) (rng : Rng) (sk : SecretKey) (kp : Keypair P) (pk : PublicKey P)
    (p : VRFInOut P) (kusama : Bool) (cc : ChainCode) (sys : Rng) :
    (let r := sk.sign (attachRng (⟨t⟩ : MutRef T) rng) pk sys; (r.1, r.2.1.t.t, r.2.1.rng, r.2.2)) =
      (let r := sk.sign (attachRng t rng) pk sys; (r.1, r.2.1.t, r.2.1.rng, r.2.2)) ∧
    (let r := kp.dleqProove (attachRng (⟨t⟩ : MutRef T) rng) p kusama sys; (r.1, r.2.1.t.t, r.2.1.rng, r.2.2)) =
      (let r := kp.dleqProove (attachRng t rng) p kusama sys; (r.1, r.2.1.t, r.2.1.rng, r.2.2)) ∧
    kp.deriveSecretKey (attachRng (⟨t⟩ : MutRef T) rng) cc sys = kp.deriveSecretKey (attachRng t rng) cc sys ∧
    kp.issueAdaptorCert (attachRng (⟨t⟩ : MutRef T) rng) pk sys = kp.issueAdaptorCert (attachRng t rng) pk sys := by
  refine ⟨rfl, ?_, rfl, rfl⟩
  cases kusama <;> rfl

/-- **C67** attaching an RNG twice: the outer one is used, the inner one is left as it was. -/
theorem attach_rng_twice (t : T) (inner outer : Rng) (sk : SecretKey) (kp : Keypair P) (pk : PublicKey P)
    (p : VRFInOut P) (kusama : Bool) (sys : Rng) :
    (let r := sk.sign (attachRng (attachRng t inner) outer) pk sys; (r.1, r.2.1.t.t, r.2.1.rng, r.2.1.t.rng, r.2.2)) =
      (let r := sk.sign (attachRng t outer) pk sys; (r.1, r.2.1.t, r.2.1.rng, inner, r.2.2)) ∧
    (let r := kp.dleqProove (attachRng (attachRng t inner) outer) p kusama sys;
      (r.1, r.2.1.t.t, r.2.1.rng, r.2.1.t.rng, r.2.2)) =
      (let r := kp.dleqProove (attachRng t outer) p kusama sys; (r.1, r.2.1.t, r.2.1.rng, inner, r.2.2)) := by
  refine ⟨rfl, ?_⟩
  cases kusama <;> rfl

/-- **C67** a protocol of any length, made of commitments, challenges, signatures, DLEQ proofs, certificates, soft
derivations and key exchanges over one transcript: the verifier accepts every step, obtains the prover's challenges,
certified keys, derived keys and AEAD keys, and the transcripts end related again — whatever the RNGs,
for every pair of transcript types with the same history. -/
theorem protocol_in_step {R : T → T' → Prop} (hR : TSim R) (ss : List (PStep P)) (hh : ∀ s ∈ ss, s.Honest)
    (t : T) (t' : T') (ht : R t t') (sys : Rng) :
    let out := prover t sys ss
    ∃ t'', verifier t' out.1 = (true, out.2.1, t'') ∧ R out.2.2.1 t'' := by
  induction ss generalizing t t' sys with
  | nil => exact ⟨t', rfl, ht⟩
  | cons s ss ih =>
    have hs := hh s (by simp)
    have ih := ih (fun s h => hh s (by simp [h]))
    cases s with
    | commit l x =>
      obtain ⟨t'', h1, h2⟩ := ih _ _ (hR.commit _ _ l x ht) sys
      exact ⟨t'', h1, h2⟩
    | challenge l n =>
      obtain ⟨e, hc⟩ := hR.challenge _ _ l n ht
      obtain ⟨t'', h1, h2⟩ := ih _ _ hc sys
      refine ⟨t'', ?_, h2⟩
      show (_, _, _) = _
      simp only [prover]
      rw [h1, e]
    | sign sk =>
      obtain ⟨hv, hr, -⟩ := sign_then_verify (P := P) (mutRef_sim hR) sk (⟨t⟩ : MutRef T) t' ht sys
      have e := (mut_ref_transparent t' sk (sk.toKeypair : Keypair P) (sk.toPublic : PublicKey P)
        (sk.sign (⟨t⟩ : MutRef T) (sk.toPublic : PublicKey P) sys).1 (⟨⟨zeros 32, 0⟩, ⟨zeros 32, 0⟩⟩ : VRFInOut P)
        ⟨Scalar.ofNat 0, Scalar.ofNat 0⟩ true ⟨zeros 32⟩ sys).2.1
      simp only at e
      rw [← e] at hv hr
      simp only at hv hr
      obtain ⟨t'', h1, h2⟩ := ih _ _ hr (sk.sign (⟨t⟩ : MutRef T) (sk.toPublic : PublicKey P) sys).2.2
      refine ⟨t'', ?_, h2⟩
      show ((_ : Bool), _) = _
      rw [hv, h1]
      simp [prover]
    | dleq sk p kusama =>
      obtain ⟨hv, hr⟩ := dleq_complete_sim (P := P) (mutRef_sim hR) (sk.toKeypair : Keypair P)
        (by show sk.key •. (basepoint : P) = _; rw [mulPoint_eq]; rfl) (⟨t⟩ : MutRef T) t' ht p hs.2 kusama sys
      have e := (mut_ref_transparent t' sk (sk.toKeypair : Keypair P) (sk.toKeypair : Keypair P).pub
        ⟨zeros 32, Scalar.ofNat 0⟩ p
        ((sk.toKeypair : Keypair P).dleqProove (⟨t⟩ : MutRef T) p kusama sys).1.1 kusama ⟨zeros 32⟩ sys).2.2.2.1
      simp only at e
      rw [← e] at hv hr
      simp only at hv hr
      obtain ⟨t'', h1, h2⟩ := ih _ _ hr ((sk.toKeypair : Keypair P).dleqProove (⟨t⟩ : MutRef T) p kusama sys).2.2
      refine ⟨t'', ?_, h2⟩
      show ((_ : Bool), _) = _
      rw [hv, h1]
      simp [prover, Except.isOk, Except.toBool]
    | cert issuer seed =>
      obtain ⟨r, e1, e2, hr⟩ := cert_step (P := P) (mutRef_sim_both hR) (t := ⟨t⟩) (t' := ⟨t'⟩) ht t issuer seed hs.1 hs.2 sys
      obtain ⟨t'', h1, h2⟩ := ih _ _ hr (PublicKey.acceptAdaptorCert (issuer.toKeypair : Keypair P).pub t seed
        ((issuer.toKeypair : Keypair P).issueAdaptorCertT (⟨t⟩ : MutRef T) seed.toPublic sys).1
        ((issuer.toKeypair : Keypair P).issueAdaptorCertT (⟨t⟩ : MutRef T) seed.toPublic sys).2.2).2
      refine ⟨t'', ?_, h2⟩
      simp only [prover, verifier]
      rw [h1, e2, e1]
      simp [Except.isOk, Except.toBool]
    | derive sk cc =>
      obtain ⟨e1, e2, hr⟩ := derive_step (P := P) (mutRef_sim_both hR) (t := ⟨t⟩) (t' := ⟨t'⟩) ht sk hs cc sys noRng
      obtain ⟨t'', h1, h2⟩ := ih _ _ hr (Derivation.derivedKeyT (sk.toKeypair : Keypair P) (⟨t⟩ : MutRef T) cc sys).2.2.2
      refine ⟨t'', ?_, h2⟩
      simp only [prover, verifier]
      rw [h1, e2, e1]
    | aead sk peer n =>
      obtain ⟨epk, e1, e2, hr⟩ := aead_step (P := P) (mutRef_sim_both hR) (t := ⟨t⟩) (t' := ⟨t'⟩) ht sk peer n sys
      obtain ⟨t'', h1, h2⟩ := ih _ _ hr ((sk.toKeypair : Keypair P).senderAeadT (⟨t⟩ : MutRef T) peer.toPublic n sys).2.2
      refine ⟨t'', ?_, h2⟩
      simp only [prover, verifier]
      rw [e1]
      show (_, _, _) = _
      rw [show (sk.toKeypair : Keypair P).pub = sk.toPublic from rfl, h1, e2]

private theorem verify_mut (t : T) (pk : PublicKey P) (sig : Signature) :
    (PublicKey.verify pk (⟨t⟩ : MutRef T) sig).1 = (PublicKey.verify pk t sig).1 ∧
    (PublicKey.verify pk (⟨t⟩ : MutRef T) sig).2.t = (PublicKey.verify pk t sig).2 := by
  rw [verify_eq, verify_eq]
  exact ⟨rfl, rfl⟩

private theorem dleq_mut (t : T) (pk : PublicKey P) (p : VRFInOut P) (proof : VRFProof) (kusama : Bool) :
    (PublicKey.dleqVerify pk (⟨t⟩ : MutRef T) p proof kusama).1 = (PublicKey.dleqVerify pk t p proof kusama).1 ∧
    (PublicKey.dleqVerify pk (⟨t⟩ : MutRef T) p proof kusama).2.t = (PublicKey.dleqVerify pk t p proof kusama).2 := by
  rw [dleqVerify_eq, dleqVerify_eq]
  cases kusama <;> exact ⟨rfl, rfl⟩

private theorem lowHigh_sort2 (a b : Compressed) : (sort2 a b).map (·.1) = lowHigh a.1 b.1 := by
  unfold sort2 lowHigh
  by_cases h : b.1 < a.1
  · rw [if_pos ((cmpBytes_lt _ _).mpr h), if_pos h]; rfl
  · rw [if_neg (fun h2 => h ((cmpBytes_lt _ _).mp h2)), if_neg h]; rfl

private theorem exchange_log [Oracles] (t : Transcript) (kp : Keypair P) (pk : PublicKey P) :
    kp.commitKeyExchange t (b! "epk") pk = ⟨t.log ++ exchangeFrames kp pk⟩ := by
  have hf : ∀ (l : List Compressed) (t : Transcript), l.foldl (fun t pk => commitPoint t (b! "pk") pk) t =
      ⟨t.log ++ (l.map (·.1)).map (MOp.append (b! "pk"))⟩ := by
    intro l
    induction l with
    | nil => intro t; simp
    | cons c l ih =>
      intro t
      rw [List.foldl_cons, ih]
      simp [commitPoint, commitBytes, Transcript.appendMessage]
  unfold Keypair.commitKeyExchange SecretKey.commitRawKeyExchange
  simp only [hf, lowHigh_sort2]
  simp [commitPoint, commitBytes, Transcript.appendMessage, exchangeFrames, SecretKey.rawKeyExchange, mulPoint_eq]

private theorem exchange_length (kp : Keypair P) (pk : PublicKey P) : (exchangeFrames kp pk).length = 3 := by
  unfold exchangeFrames lowHigh
  split <;> rfl

private theorem lowHigh_cancel {a b c : Bytes} (h : lowHigh a b = lowHigh a c) : b = c := by
  unfold lowHigh at h
  split_ifs at h <;> simp only [List.cons.injEq, and_true] at h
  all_goals first | exact h | exact h.1.trans h.2 | exact h.2.trans h.1 | exact h.1 | exact h.2

private theorem step_log [Oracles] (t : Transcript) (v : VStep P) (vs : List (VStep P)) :
    ∃ b cs, verifier t (v :: vs) = (b && (verifier (⟨t.log ++ v.frames⟩ : Transcript) vs).1,
      cs ++ (verifier (⟨t.log ++ v.frames⟩ : Transcript) vs).2.1,
      (verifier (⟨t.log ++ v.frames⟩ : Transcript) vs).2.2) ∧
      (b = true → match v with
        | .verify pk sig => (PublicKey.verify pk t sig).1 = .ok ()
        | .dleq pk p kusama proof => ∃ b, (PublicKey.dleqVerify pk t p proof kusama).1 = .ok b
        | .cert _ γ => ∃ Γ : P, decompress γ.bytes = some Γ
        | .aead _ epk _ _ => ∃ E : P, decompress epk = some E
        | _ => True) := by
  cases v with
  | commit l x => exact ⟨true, [], rfl, fun _ => trivial⟩
  | challenge l n => exact ⟨true, [(challengeBytes t l n).1.1], rfl, fun _ => trivial⟩
  | verify pk sig =>
    obtain ⟨h1, h2⟩ := verify_mut t pk sig
    refine ⟨decide ((PublicKey.verify pk t sig).1 = .ok ()), [], ?_, fun h => of_decide_eq_true h⟩
    simp only [verifier]
    rw [h1, h2]
    have : (PublicKey.verify pk t sig).2 = ⟨t.log ++ (VStep.verify pk sig).frames⟩ := by
      rw [verify_eq]
      simp [preChallenge, commitPoint, protoName, commitBytes, challengeScalar, challengeBytes,
        Transcript.appendMessage, Transcript.challengeBytes, VStep.frames]
    rw [this]
    rfl
  | dleq pk p kusama proof =>
    obtain ⟨h1, h2⟩ := dleq_mut t pk p proof kusama
    refine ⟨(PublicKey.dleqVerify pk t p proof kusama).1.isOk, [], ?_, fun h => ?_⟩
    · simp only [verifier]
      rw [h1, h2]
      have : (PublicKey.dleqVerify pk t p proof kusama).2 = ⟨t.log ++ (VStep.dleq pk p kusama proof).frames⟩ := by
        rw [dleqVerify_eq]
        cases kusama <;>
        simp [dleqPre, commitPoint, protoName, commitBytes, challengeScalar, challengeBytes,
          Transcript.appendMessage, Transcript.challengeBytes, VStep.frames]
      rw [this]
      rfl
    · have key : ∀ r : SignatureResult VRFProofBatchable, r.isOk = true → ∃ b, r = .ok b := by
        intro r hr
        cases r with
        | ok b => exact ⟨b, rfl⟩
        | error e => simp [Except.isOk, Except.toBool] at hr
      exact key _ h
  | cert pk γ =>
    rcases hd : (decompress γ.bytes : Option P) with _ | Γ
    · refine ⟨false, [[]], ?_, fun h => nomatch h⟩
      simp only [verifier, PublicKey.openAdaptorCertT, hd]
      simp [VStep.frames, hd, commitPoint, protoName, commitBytes, Transcript.appendMessage, Except.isOk, Except.toBool]
    · refine ⟨true, [(PublicKey.fromPoint ((challengeScalar (commitPoint (commitPoint (protoName t (b! "Adaptor"))
        (b! "issuer-pk") pk.compressed) (b! "gamma") γ.bytes) (b! "adaptor-e")).1 •. pk.point + Γ)).compressed.1], ?_,
        fun _ => ⟨Γ, hd⟩⟩
      simp only [verifier, PublicKey.openAdaptorCertT, hd]
      simp [VStep.frames, hd, commitPoint, protoName, commitBytes, Transcript.appendMessage, Except.isOk, Except.toBool,
        AdaptorCertPublic.deriveE, challengeScalar, SigningTranscript.challengeBytes, Transcript.challengeBytes]
  | derive pk cc =>
    refine ⟨true, [(Derivation.derivedKeyT pk (⟨t⟩ : MutRef Transcript) cc noRng).1.compressed.1 ++
      (Derivation.derivedKeyT pk (⟨t⟩ : MutRef Transcript) cc noRng).2.1.bytes.1], ?_, fun _ => trivial⟩
    have hl : (Derivation.derivedKeyT pk (⟨t⟩ : MutRef Transcript) cc noRng).2.2.1.t =
        ⟨t.log ++ (VStep.derive pk cc).frames⟩ := by
      simp [VStep.frames, Derivation.derivedKeyT, PublicKey.deriveScalarAndChaincode, commitPoint, commitBytes,
        Transcript.appendMessage, challengeScalar, SigningTranscript.challengeBytes, Transcript.challengeBytes]
    simp only [verifier]
    rw [hl]
    rfl
  | aead kp epk spk n =>
    rcases hd : (decompress epk : Option P) with _ | E
    · refine ⟨false, [], ?_, fun h => nomatch h⟩
      simp only [verifier, PublicKey.fromCompressed, RistrettoBoth.fromCompressed, hd]
      simp [VStep.frames, hd]
    · refine ⟨true, [(kp.recieverAeadT t ⟨epk, E⟩ spk n).1.1], ?_, fun _ => ⟨E, hd⟩⟩
      have hl : (kp.recieverAeadT t ⟨epk, E⟩ spk n).2 = ⟨t.log ++ (VStep.aead kp epk spk n).frames⟩ := by
        rw [show (kp.recieverAeadT t ⟨epk, E⟩ spk n).2 = (makeAeadT (kp.commitKeyExchange (kp.commitKeyExchange t (b! "epk")
          ⟨epk, E⟩) (b! "epk") spk) n).2 from rfl, exchange_log, exchange_log]
        simp [VStep.frames, hd, makeAeadT, SigningTranscript.challengeBytes, Transcript.challengeBytes]
      have hm := (mut_ref_transparent_more t kp (⟨epk, E⟩ : PublicKey P) spk kp.secret ⟨zeros 64⟩ ⟨zeros 32⟩ ⟨zeros 32⟩ n
        noRng).2.2.2.2.2.2
      have hm1 := congrArg Prod.fst hm
      have hm2 := congrArg Prod.snd hm
      simp only at hm1 hm2
      simp only [verifier, PublicKey.fromCompressed, RistrettoBoth.fromCompressed, hd]
      rw [hm1, hm2, hl]
      rfl

/-- **C67** what the verifier's merlin transcript records: the frames of the steps in order, whether or not the checks
succeed. -/
theorem protocol_log [Oracles] (vs : List (VStep P)) (t : Transcript) :
    (verifier t vs).2.2.log = t.log ++ (vs.map VStep.frames).flatten := by
  induction vs generalizing t with
  | nil => simp [verifier]
  | cons v vs ih =>
    obtain ⟨b, cs, h, -⟩ := step_log t v vs
    rw [h]
    simp only [ih, List.map_cons, List.flatten_cons, List.append_assoc]

/-- **C67** binding: two accepted runs of the same protocol (the same kinds of steps) with well-formed keys and points and
reduced scalars that end with the same merlin transcript are the same in every committed byte, key, signature, statement
and proof. So whatever is derived from the transcript afterwards binds all of it. -/
theorem protocol_binding [Oracles] (vs vs' : List (VStep P)) (t : Transcript)
    (hs : List.Forall₂ SameKind vs vs') (hw : ∀ v ∈ vs, v.WF) (hw' : ∀ v ∈ vs', v.WF)
    (ha : (verifier t vs).1 = true) (ha' : (verifier t vs').1 = true)
    (he : (verifier t vs).2.2 = (verifier t vs').2.2) : vs = vs' := by
  induction hs generalizing t with
  | nil => rfl
  | @cons v v' vs vs' hk hs ih =>
    have hl : (verifier t (v :: vs)).2.2.log = (verifier t (v' :: vs')).2.2.log := by rw [he]
    rw [protocol_log, protocol_log] at hl
    have hl := List.append_cancel_left hl
    simp only [List.map_cons, List.flatten_cons] at hl
    obtain ⟨b, cs, h, hb⟩ := step_log t v vs
    obtain ⟨b', cs', h', hb'⟩ := step_log t v' vs'
    rw [h] at ha he
    rw [h'] at ha' he
    simp only [Bool.and_eq_true] at ha ha'
    have hlen : v.frames.length = v'.frames.length := by
      replace hb := hb ha.1
      replace hb' := hb' ha'.1
      cases v <;> cases v' <;> simp only [SameKind] at hk <;> try rfl
      · subst hk
        simp only [VStep.frames]
        split <;> rfl
      · obtain ⟨Γ, hb⟩ := hb
        obtain ⟨Γ', hb'⟩ := hb'
        simp only [VStep.frames, hb, hb', List.length_append, List.length_cons, List.length_nil]
      · obtain ⟨E, hb⟩ := hb
        obtain ⟨E', hb'⟩ := hb'
        simp only [VStep.frames, hb, hb', List.length_append, exchange_length, List.length_cons, List.length_nil]
    obtain ⟨hf, -⟩ := List.append_inj hl hlen
    rw [← hf] at ha' he
    have htail := ih _ (fun v h => hw v (by simp [h])) (fun v h => hw' v (by simp [h])) ha.2 ha'.2 he
    replace hb := hb ha.1
    replace hb' := hb' ha'.1
    have hv := hw v (by simp)
    have hv' := hw' v' (by simp)
    rw [htail]
    congr 1
    cases v with
    | commit l x => cases v' <;> simp only [SameKind] at hk; simpa [VStep.frames] using hf
    | challenge l n => cases v' <;> simp only [SameKind] at hk; simpa [VStep.frames] using hf
    | verify pk sig =>
      cases v' with
      | commit | challenge | dleq | cert | derive | aead => exact hk.elim
      | verify pk' sig' =>
      simp [VStep.frames] at hf
      have e1 : pk = pk' := RistrettoBoth.WF.ext hv.1 hv'.1 (by rw [← compress_inj, hv.1, hv'.1]; exact Subtype.ext hf.1)
      subst e1
      rw [signature_s_unique pk t sig sig' (Subtype.ext hf.2) hv.2 hv'.2 hb hb']
    | dleq pk p kusama proof =>
      cases v' with
      | commit | challenge | verify | cert | derive | aead => exact hk.elim
      | dleq pk' p' kusama' proof' =>
      have hk : kusama = kusama' := hk
      subst hk
      obtain ⟨bb, hb⟩ := hb
      obtain ⟨bb', hb'⟩ := hb'
      obtain ⟨w1, w2, w3, w4⟩ := hv
      obtain ⟨w1', w2', w3', w4'⟩ := hv'
      have hh : p.input.compressed = p'.input.compressed ∧ pk.compressed = pk'.compressed ∧
          p.output.compressed = p'.output.compressed ∧
          compress (proof.c.toZ • pk.point + proof.s.toZ • (basepoint : P)) =
            compress (proof'.c.toZ • pk'.point + proof'.s.toZ • (basepoint : P)) ∧
          compress (proof.c.toZ • p.output.point + proof.s.toZ • p.input.point) =
            compress (proof'.c.toZ • p'.output.point + proof'.s.toZ • p'.input.point) := by
        cases kusama <;>
        · simp [VStep.frames] at hf
          refine ⟨Subtype.ext ?_, Subtype.ext ?_, Subtype.ext ?_, Subtype.ext ?_, Subtype.ext ?_⟩ <;> tauto
      obtain ⟨h1, h2, h3, h4, h5⟩ := hh
      have e1 : pk = pk' := RistrettoBoth.WF.ext w1 w1' (by rw [← compress_inj, w1, w1', h2])
      have e2 : p.input = p'.input := RistrettoBoth.WF.ext w2 w2' (by rw [← compress_inj, w2, w2', h1])
      have e3 : p.output = p'.output := RistrettoBoth.WF.ext w3 w3' (by rw [← compress_inj, w3, w3', h3])
      have e4 : p = p' := by cases p; cases p'; simp only at e2 e3; rw [e2, e3]
      subst e1 e4
      rw [dleqVerify_eq] at hb hb'
      have c1 : proof.c = dleqChallenge t kusama p.input.compressed pk.compressed
          (compress (proof.c.toZ • pk.point + proof.s.toZ • (basepoint : P)))
          (compress (proof.c.toZ • p.output.point + proof.s.toZ • p.input.point)) p.output.compressed := by
        by_contra hn
        simp only [if_neg hn] at hb
        cases hb
      have c2 : proof'.c = dleqChallenge t kusama p.input.compressed pk.compressed
          (compress (proof'.c.toZ • pk.point + proof'.s.toZ • (basepoint : P)))
          (compress (proof'.c.toZ • p.output.point + proof'.s.toZ • p.input.point)) p.output.compressed := by
        by_contra hn
        simp only [if_neg hn] at hb'
        cases hb'
      have ec : proof.c = proof'.c := by rw [c1, h4, h5]; exact c2.symm
      have es : proof.s = proof'.s := by
        have := compress_inj.mp h4
        rw [ec] at this
        exact Scalar.Canonical.eq_of_toZ w4 w4' (smul_basepoint_inj.mp (add_left_cancel this))
      cases proof; cases proof'
      simp only at ec es
      rw [ec, es]
    | cert pk γ =>
      cases v' with
      | commit | challenge | verify | dleq | derive | aead => exact hk.elim
      | cert pk' γ' =>
      obtain ⟨Γ, hb⟩ := hb
      obtain ⟨Γ', hb'⟩ := hb'
      simp [VStep.frames, hb, hb'] at hf
      have e1 : pk = pk' := RistrettoBoth.WF.ext hv hv' (by rw [← compress_inj, hv, hv']; exact Subtype.ext hf.1)
      cases γ; cases γ'
      simp only at hf
      rw [e1, Subtype.ext hf.2]
    | derive pk cc =>
      cases v' with
      | commit | challenge | verify | dleq | cert | aead => exact hk.elim
      | derive pk' cc' =>
      simp [VStep.frames] at hf
      have e1 : pk = pk' := RistrettoBoth.WF.ext hv hv' (by rw [← compress_inj, hv, hv']; exact Subtype.ext hf.2)
      cases cc; cases cc'
      simp only at hf
      rw [e1, Subtype.ext hf.1]
    | aead kp epk spk n =>
      cases v' with
      | commit | challenge | verify | dleq | cert | derive => exact hk.elim
      | aead kp' epk' spk' n' =>
      obtain ⟨E, hb⟩ := hb
      obtain ⟨E', hb'⟩ := hb'
      have hk : kp = kp' := hk
      subst hk
      simp only [VStep.frames, hb, hb'] at hf
      obtain ⟨h1, h2⟩ := List.append_inj' hf rfl
      obtain ⟨h1, h3⟩ := List.append_inj h1 (by rw [exchange_length, exchange_length])
      have key : ∀ a a' : PublicKey P, exchangeFrames kp a = exchangeFrames kp a' → a.compressed = a'.compressed := by
        intro a a' h
        obtain ⟨h, -⟩ := List.append_inj' h rfl
        exact Subtype.ext (lowHigh_cancel ((List.map_injective_iff.mpr fun x y h => by cases h; rfl) h))
      have e1 : epk = epk' := key _ _ h1
      have e2 : spk = spk' := RistrettoBoth.WF.ext hv hv' (by rw [← compress_inj, hv, hv', key _ _ h3])
      have e3 : n = n' := by simpa using h2
      rw [e1, e2, e3]

/-- Non-vacuity: a protocol with a commitment, a signature, a challenge, a DLEQ proof, a certificate, a derivation and a key
exchange, run by a prover with an attached RNG and a verifier without. -/
example [Oracles] (sk sk' : SecretKey) (hc : sk.key.Canonical) (hc' : sk'.key.Canonical) (I : P) (m : Bytes) (cc : ChainCode)
    (rng sys : Rng) (kusama : Bool) :
    ∃ (vs : List (VStep P)) (cs : List Bytes) (t' : Transcript),
      (prover (attachRng (Transcript.new m) rng) sys
        [.commit (b! "m") m, .sign sk, .challenge (b! "c") 32,
          .dleq sk ⟨RistrettoBoth.fromPoint I, RistrettoBoth.fromPoint (sk.key.toZ • I)⟩ kusama,
          .cert sk sk', .derive sk cc, .aead sk sk' 32]).1 = vs ∧
      vs.length = 7 ∧ cs.length = 4 ∧ verifier (Transcript.new m) vs = (true, cs, t') := by
  obtain ⟨t', h, -⟩ := protocol_in_step (P := P) (withRng_sim merlin_sim)
    [.commit (b! "m") m, .sign sk, .challenge (b! "c") 32,
      .dleq sk ⟨RistrettoBoth.fromPoint I, RistrettoBoth.fromPoint (sk.key.toZ • I)⟩ kusama,
      .cert sk sk', .derive sk cc, .aead sk sk' 32]
    (by
      intro s hs
      simp only [List.mem_cons, List.not_mem_nil, or_false] at hs
      rcases hs with rfl | rfl | rfl | rfl | rfl | rfl | rfl
      · trivial
      · exact hc
      · trivial
      · exact ⟨hc, rfl⟩
      · exact ⟨hc, hc'⟩
      · exact hc
      · trivial)
    (attachRng (Transcript.new m) rng) (Transcript.new m) rfl sys
  exact ⟨_, _, t', rfl, rfl, rfl, h⟩

/-- Non-vacuity of `accept_one_challenge_behind`: an honest certificate. -/
example [Oracles] (sk sk' : SecretKey) (hc : sk.key.Canonical) (hc' : sk'.key.Canonical) (t : Transcript) (sys : Rng) :
    let kp : Keypair P := sk.toKeypair
    let cert := (kp.issueAdaptorCert t sk'.toPublic sys).1
    ∃ r k, (PublicKey.acceptAdaptorCertT kp.pub t sk' cert sys).1 = .ok r ∧
      (PublicKey.openAdaptorCertT kp.pub t r.1).1 = .ok k := by
  intro kp cert
  obtain ⟨pub, s, h1, -, -, h4⟩ := adaptor_cert_complete (P := P) merlin_sim (t := t) (t'' := t) rfl t sk sk' hc' sys sys
  exact ⟨(pub, s), _, h1, h4⟩

end Schnorrkel.Props
