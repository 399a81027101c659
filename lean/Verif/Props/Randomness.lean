import Verif.Spec.Randomness
import Verif.Props.Protocol
import Verif.Props.MuSigRun

/-! # C86: what each call reads from the random number generator -/

namespace Schnorrkel.Props
open SigningTranscript Spec
variable {P : Type} [Ristretto P] {T : Type} [SigningTranscript T] {α β : Type} {ns ms : List Nat}

private theorem answers_length (r : Rng) : ∀ ns, (answers r ns).length = ns.length
  | [] => rfl
  | _ :: ns => by simp [answers, answers_length _ ns]

private theorem answers_append (r : Rng) (ms : List Nat) : ∀ ns, answers r (ns ++ ms) = answers r ns ++ answers (after r ns) ms
  | [] => rfl
  | n :: ns => by simp [answers, after, answers_append _ ms ns]

private theorem after_append (r : Rng) (ms : List Nat) : ∀ ns, after r (ns ++ ms) = after (after r ns) ms
  | [] => rfl
  | n :: ns => by simp [after, after_append _ ms ns]

private theorem uses_mono {out : Rng → α} (h : Uses ns out) (f : α → β) : Uses ns fun r => f (out r) :=
  fun r r' e => congrArg f (h r r' e)

private theorem reads_mono {out : Rng → α} {rng : Rng → Rng} (h : Reads ns out rng) (f : α → β) :
    Reads ns (fun r => f (out r)) rng := ⟨uses_mono h.1 f, h.2⟩

private theorem reads_congr {out out' : Rng → α} {rng rng' : Rng → Rng} (h : Reads ns out rng)
    (h1 : ∀ r, out' r = out r) (h2 : ∀ r, rng' r = rng r) : Reads ns out' rng' := by
  rw [funext h1, funext h2]; exact h

private theorem uses_const (a : α) : Uses ns fun _ => a := fun _ _ _ => rfl

private theorem reads_bind {out : Rng → α} {rng : Rng → Rng} (h : Reads ns out rng) {out' : α → Rng → β}
    {rng' : α → Rng → Rng} (h' : ∀ a, Reads ms (out' a) (rng' a)) :
    Reads (ns ++ ms) (fun r => out' (out r) (rng r)) (fun r => rng' (out r) (rng r)) := by
  refine ⟨fun r r' e => ?_, fun r => ?_⟩
  · rw [answers_append, answers_append] at e
    obtain ⟨e1, e2⟩ := List.append_inj e (by rw [answers_length, answers_length])
    show out' (out r) (rng r) = out' (out r') (rng r')
    rw [h.1 r r' e1, h.2 r, h.2 r']
    exact (h' _).1 _ _ e2
  · show rng' (out r) (rng r) = _
    rw [(h' _).2, h.2, after_append]

private theorem reads_fill (n : Nat) : Reads [n] (fun r => (r.fill n).1) fun r => (r.fill n).2 := by
  refine ⟨fun r r' e => ?_, fun r => rfl⟩
  simp only [answers, List.cons.injEq, and_true] at e
  exact Subtype.ext e

/-- **C86** Witness requests on merlin and on extendable-output transcripts read 32 bytes, in one request; on a transcript
with an attached RNG they read nothing from the system RNG; transcripts passed by mutable reference behave like the
transcripts they refer to. -/
theorem witness_reads [Oracles] :
    WitnessReads Transcript [32] ∧ WitnessReads XoFTranscript [32] ∧ WitnessReads (WithRng T) [] ∧
    ∀ ns, WitnessReads T ns → WitnessReads (MutRef T) ns := by
  refine ⟨fun t label n seeds => ?_, fun t label n seeds => ?_, fun t label n seeds => ?_, fun ns h t label n seeds => ?_⟩
  · exact reads_mono (reads_fill 32) fun a => ((Transcript.rngFill (t.rekeyAll label seeds ++ [.rngKey a.1]) n).1, t)
  · exact reads_mono (reads_fill 32) fun a => (Oracles.xof (t.absorbed ++ XoFTranscript.witnessInput label n seeds a.1) n, t)
  · exact ⟨fun _ _ _ => rfl, fun _ => rfl⟩
  · exact reads_mono (h t.t label n seeds) fun a => (a.1, (⟨a.2⟩ : MutRef T))

private theorem scalar_reads (hT : WitnessReads T ns) (t : T) (label : Bytes) (seeds : List Bytes) :
    Reads ns (fun sys => ((witnessScalar t label seeds sys).1, (witnessScalar t label seeds sys).2.1))
      (fun sys => (witnessScalar t label seeds sys).2.2) :=
  reads_mono (hT t label 64 seeds) fun a => (Scalar.fromBytesModOrderWide a.1, a.2)

/-- **C86** Signing, in all variants, makes one witness request. -/
theorem signing_reads (hT : WitnessReads T ns) (sk : SecretKey) (t : T) (pk : PublicKey P) :
    Reads ns (fun sys => ((sk.sign t pk sys).1, (sk.sign t pk sys).2.1)) (fun sys => (sk.sign t pk sys).2.2) ∧
    Uses ns (fun sys => sk.signDoublecheck t pk sys) ∧
    Uses ns (fun sys => Keypair.signDoublecheck ⟨sk, pk⟩ t sys) := by
  have h : Reads ns (fun sys => ((sk.sign t pk sys).1, (sk.sign t pk sys).2.1)) (fun sys => (sk.sign t pk sys).2.2) :=
    reads_mono (scalar_reads hT _ _ _) fun a =>
      let R := compress (a.1 •. (basepoint : P))
      let c := challengeScalar (commitPoint a.2 (b! "sign:R") R) (b! "sign:c")
      ((⟨R, c.1 * sk.key + a.1⟩ : Signature), c.2)
  refine ⟨h, fun r r' e => ?_, fun r r' e => ?_⟩
  · unfold SecretKey.signDoublecheck
    simp only [(Prod.mk.inj (h.1 r r' e)).1]
  · unfold Keypair.signDoublecheck Keypair.sign
    simp only [(Prod.mk.inj (h.1 r r' e)).1]

/-- **C86** … and signing a message reads exactly 32 bytes. -/
theorem sign_simple_reads [Oracles] (sk : SecretKey) (ctx msg : Bytes) (pk : PublicKey P) :
    Uses [32] (fun sys => sk.signSimple ctx msg pk sys) ∧
    Uses [32] (fun sys => sk.signSimpleDoublecheck ctx msg pk sys) ∧
    Uses [32] (fun sys => Keypair.signSimple ⟨sk, pk⟩ ctx msg sys) ∧
    Uses [32] (fun sys => Keypair.signSimpleDoublecheck ⟨sk, pk⟩ ctx msg sys) := by
  have h := fun t => (signing_reads (witness_reads (T := Transcript)).1 sk t pk).1.1
  refine ⟨fun r r' e => ?_, fun r r' e => ?_, fun r r' e => ?_, fun r r' e => ?_⟩
  · exact (Prod.mk.inj (h _ r r' e)).1
  · unfold SecretKey.signSimpleDoublecheck
    simp only [(Prod.mk.inj (h ((SigningContext.new ctx).bytes msg) r r' e)).1]
  · exact (Prod.mk.inj (h _ r r' e)).1
  · unfold Keypair.signSimpleDoublecheck Keypair.sign
    simp only [(Prod.mk.inj (h ((SigningContext.new ctx).bytes msg) r r' e)).1]

/-- **C86** DLEQ and VRF proofs make one witness request on the extra transcript, whatever the number of outputs; the
VRF outputs themselves do not depend on the RNG, and neither does the decision of a check. -/
theorem proving_reads [Oracles] (hT : WitnessReads T ns) (kp : Keypair P) (e : T) (p : VRFInOut P) (k : Bool) {U : Type}
    [SigningTranscript U] (t : VRFTranscript U) (ts : List (VRFTranscript U)) (check : VRFInOut P → Option T) :
    Reads ns (fun sys => ((kp.dleqProove e p k sys).1, (kp.dleqProove e p k sys).2.1))
      (fun sys => (kp.dleqProove e p k sys).2.2) ∧
    Uses ns (fun sys => kp.vrfSignExtra t e sys) ∧
    Uses [] (fun sys => (kp.vrfSignExtra t e sys).1) ∧
    Uses ns (fun sys => kp.vrfSignExtraAfterCheck t check sys) ∧
    Uses [] (fun sys => (kp.vrfSignExtraAfterCheck t check sys).isSome) ∧
    Uses ns (fun sys => kp.vrfsSignExtra ts e sys) ∧
    Uses [32] (fun sys => kp.vrfSign t sys) ∧
    Uses [32] (fun sys => kp.vrfsSign ts sys) := by
  have key : ∀ {V : Type} [SigningTranscript V] {ms : List Nat}, WitnessReads V ms → ∀ (e : V) (p : VRFInOut P) (k : Bool),
      Reads ms (fun sys => ((kp.dleqProove e p k sys).1, (kp.dleqProove e p k sys).2.1))
        (fun sys => (kp.dleqProove e p k sys).2.2) := by
    intro V _ ms hV e p k
    exact reads_mono (scalar_reads hV _ _ _) fun a =>
      let R := compress (a.1 •. (basepoint : P))
      let t := commitPoint a.2 (b! "vrf:R=g^r") R
      let Hr := compress (a.1 •. p.input.point)
      let t := commitPoint t (b! "vrf:h^r") Hr
      let t := if k then commitPoint t (b! "vrf:pk") kp.pub.compressed else t
      let t := commitPoint t (b! "vrf:h^sk") p.output.compressed
      let c := challengeScalar t (b! "prove")
      let s := a.1 - c.1 * kp.secret.key
      (((⟨c.1, s⟩, ⟨R, Hr, s⟩) : VRFProof × VRFProofBatchable), c.2)
  have one : ∀ {V : Type} [SigningTranscript V] {ms : List Nat}, WitnessReads V ms → ∀ (e : V) (p : VRFInOut P) (k : Bool),
      Uses ms (fun sys => (kp.dleqProove e p k sys).1) := fun hV e p k => uses_mono (key hV e p k).1 Prod.fst
  have sx : ∀ {V : Type} [SigningTranscript V] {ms : List Nat}, WitnessReads V ms → ∀ (e : V),
      Uses ms (fun sys => kp.vrfSignExtra t e sys) := fun hV e =>
    uses_mono (one hV e (kp.vrfCreateHash t) KUSAMA_VRF) fun a => (kp.vrfCreateHash t, a.1, a.2)
  have sm : ∀ {V : Type} [SigningTranscript V] {ms : List Nat}, WitnessReads V ms → ∀ (e : V),
      Uses ms (fun sys => kp.vrfsSignExtra ts e sys) := by
    intro V _ ms hV e r r' h
    have h1 : ∀ p, (kp.dleqProove e p KUSAMA_VRF r).1 = (kp.dleqProove e p KUSAMA_VRF r').1 :=
      fun p => one hV e p KUSAMA_VRF r r' h
    unfold Keypair.vrfsSignExtra
    simp only [h1]
  refine ⟨key hT e p k, sx hT e, fun _ _ _ => rfl, fun r r' h => ?_, fun r r' _ => ?_, sm hT e,
    sx (witness_reads (T := Transcript)).1 _, sm (witness_reads (T := Transcript)).1 _⟩
  · have h1 : ∀ e : T, (kp.dleqProove e (kp.vrfCreateHash t) KUSAMA_VRF r).1 =
        (kp.dleqProove e (kp.vrfCreateHash t) KUSAMA_VRF r').1 := fun e => one hT e _ KUSAMA_VRF r r' h
    unfold Keypair.vrfSignExtraAfterCheck
    simp only [h1]
  · unfold Keypair.vrfSignExtraAfterCheck
    simp only
    cases check (kp.vrfCreateHash t) <;> rfl

/-- **C86** Issuing or accepting a certificate makes one witness request (accepting also when it fails), certifying one's
own key three; opening a certificate reads nothing. -/
theorem certificate_reads (hT : WitnessReads T ns) (kp : Keypair P) (t : T) (pk : PublicKey P) (sk : SecretKey)
    (cert : AdaptorCertSecret) :
    Reads ns (fun sys => ((kp.issueAdaptorCertT t pk sys).1, (kp.issueAdaptorCertT t pk sys).2.1))
      (fun sys => (kp.issueAdaptorCertT t pk sys).2.2) ∧
    Reads ns (fun sys => ((PublicKey.acceptAdaptorCertT pk t sk cert sys).1, (PublicKey.acceptAdaptorCertT pk t sk cert sys).2.1))
      (fun sys => (PublicKey.acceptAdaptorCertT pk t sk cert sys).2.2) ∧
    Reads (ns ++ (ns ++ ns)) (fun sys => (kp.issueSelfAdaptorCert t sys).1) (fun sys => (kp.issueSelfAdaptorCert t sys).2) := by
  have hi : ∀ (t : T) (pk : PublicKey P),
      Reads ns (fun sys => ((kp.issueAdaptorCertT t pk sys).1, (kp.issueAdaptorCertT t pk sys).2.1))
        (fun sys => (kp.issueAdaptorCertT t pk sys).2.2) := fun t pk =>
    reads_mono (scalar_reads hT _ _ _) fun a =>
      let gamma := compress (pk.point + a.1 •. basepoint)
      let x := (AdaptorCertPublic.mk gamma).deriveE (commitPoint a.2 (b! "gamma") gamma)
      ((⟨Arr.append gamma (a.1 + x.1 * kp.secret.key).bytes⟩ : AdaptorCertSecret), x.2)
  have ha : ∀ (t : T) (pk : PublicKey P) (sk : SecretKey) (cert : AdaptorCertSecret),
      Reads ns (fun sys => ((PublicKey.acceptAdaptorCertT pk t sk cert sys).1,
        (PublicKey.acceptAdaptorCertT pk t sk cert sys).2.1)) (fun sys => (PublicKey.acceptAdaptorCertT pk t sk cert sys).2.2) := by
    intro t pk sk cert
    have h := hT (commitPoint (protoName t (b! "Adaptor")) (b! "issuer-pk") pk.compressed) (b! "accepting") 32
      [cert.bytes.1, sk.nonce.1]
    refine reads_congr (reads_mono h fun a =>
      match scalarFromCanonicalBytes (cert.bytes.slice 32 32 (by omega)) with
      | none => ((.error .scalarFormatError : SignatureResult (AdaptorCertPublic × SecretKey)), a.2)
      | some s => (.ok (cert.toPublic, ⟨s + sk.key, a.1⟩), commitPoint a.2 (b! "gamma") cert.toPublic.bytes)) ?_ ?_ <;>
    · intro r
      simp only [PublicKey.acceptAdaptorCertT]
      cases scalarFromCanonicalBytes (cert.bytes.slice 32 32 (by omega)) <;> rfl
  refine ⟨hi t pk, ha t pk sk cert, ?_⟩
  have hi' : ∀ (t : T) (pk : PublicKey P), Reads ns (fun sys => (kp.issueAdaptorCert t pk sys).1)
      (fun sys => (kp.issueAdaptorCert t pk sys).2) := fun t pk => reads_mono (hi t pk) Prod.fst
  have ha' : ∀ (t : T) (sk : SecretKey) (cert : AdaptorCertSecret),
      Reads ns (fun sys => match (PublicKey.acceptAdaptorCert kp.pub t sk cert sys).1 with
        | .ok r => Outcome.ok r
        | .error _ => .panic "Cert issued above and known to produce signature errors; qed")
      (fun sys => (PublicKey.acceptAdaptorCert kp.pub t sk cert sys).2) := fun t sk cert =>
    reads_mono (ha t kp.pub sk cert) fun a => match a.1 with
        | .ok r => Outcome.ok r
        | .error _ => .panic "Cert issued above and known to produce signature errors; qed"
  have h := reads_bind (hT t (b! "issue_self_adaptor_cert") 96 [kp.secret.nonce.1, kp.secret.toBytes.1]) fun a =>
    let seed : Keypair P := (⟨Scalar.fromBytesModOrderWide (a.1.slice 0 64 (by omega)), a.1.slice 64 32 (by omega)⟩ : SecretKey).toKeypair
    reads_bind (hi' a.2 seed.pub) fun c => ha' a.2 seed.secret c
  refine reads_congr h ?_ ?_ <;>
  · intro sys
    unfold Keypair.issueSelfAdaptorCert
    simp only
    split <;> simp_all

/-- **C86** Deriving a child secret key (from a key pair, or from a secret key) makes one witness request, deriving a child
public key none; the derived key itself (as opposed to its nonce seed) and the chain code do not depend on the RNG. -/
theorem derivation_reads (hT : WitnessReads T ns) (kp : Keypair P) (sk : SecretKey) (pk : PublicKey P) (t : T)
    (cc : ChainCode) :
    Reads ns (fun sys => ((kp.deriveSecretKeyT t cc sys).1, (kp.deriveSecretKeyT t cc sys).2.1,
      (kp.deriveSecretKeyT t cc sys).2.2.1)) (fun sys => (kp.deriveSecretKeyT t cc sys).2.2.2) ∧
    Uses [] (fun sys => ((kp.deriveSecretKeyT t cc sys).1.key, (kp.deriveSecretKeyT t cc sys).2.1)) ∧
    Reads ns (fun sys => ((Derivation.derivedKey kp t cc sys).1, (Derivation.derivedKey kp t cc sys).2.1))
      (fun sys => (Derivation.derivedKey kp t cc sys).2.2) ∧
    Reads ns (fun sys => (((secretKeyDerivation P).derivedKeyT sk t cc sys).1,
      ((secretKeyDerivation P).derivedKeyT sk t cc sys).2.1)) (fun sys => ((secretKeyDerivation P).derivedKeyT sk t cc sys).2.2.2) ∧
    Reads [] (fun sys => ((Derivation.derivedKey pk t cc sys).1, (Derivation.derivedKey pk t cc sys).2.1))
      (fun sys => (Derivation.derivedKey pk t cc sys).2.2) := by
  have key : ∀ kp : Keypair P, Reads ns (fun sys => ((kp.deriveSecretKeyT t cc sys).1, (kp.deriveSecretKeyT t cc sys).2.1,
      (kp.deriveSecretKeyT t cc sys).2.2.1)) (fun sys => (kp.deriveSecretKeyT t cc sys).2.2.2) := fun kp =>
    reads_mono (hT _ _ _ _) fun a =>
      let x := PublicKey.deriveScalarAndChaincode kp.pub t cc
      ((⟨kp.secret.key + x.1, a.1⟩ : SecretKey), x.2.1, a.2)
  refine ⟨key kp, fun _ _ _ => rfl, ?_, ?_, ⟨fun _ _ _ => rfl, fun _ => rfl⟩⟩
  · exact reads_mono (key kp) fun a => ((⟨a.1, a.1.toPublic⟩ : Keypair P), a.2.1)
  · exact reads_mono (key (sk.toKeypair : Keypair P)) fun a => (a.1, a.2.1)

/-- **C86** Key generation reads 64 then 32 bytes, generation of a mini secret key 32 bytes, the start of an encryption to
a public key as much as key generation; the two-key exchange makes one witness request, the one with a certificate three. -/
theorem generation_reads [Oracles] (hT : WitnessReads T ns) (kp : Keypair P) (pk : PublicKey P) (t : T) (ctx : Bytes)
    (n : Nat) :
    Reads [32] (fun sys => (MiniSecretKey.generateWith sys).1) (fun sys => (MiniSecretKey.generateWith sys).2) ∧
    Reads [64, 32] (fun sys => (SecretKey.generateWith sys).1) (fun sys => (SecretKey.generateWith sys).2) ∧
    Reads [64, 32] (fun sys => (Keypair.generateWith sys : Keypair P × Rng).1)
      (fun sys => (Keypair.generateWith sys : Keypair P × Rng).2) ∧
    Reads [64, 32] (fun sys => (PublicKey.initAeadUnauthenticated pk ctx n sys).1)
      (fun sys => (PublicKey.initAeadUnauthenticated pk ctx n sys).2) ∧
    Reads [64, 32] (fun sys => (PublicKey.initAead32Unauthenticated pk sys).1)
      (fun sys => (PublicKey.initAead32Unauthenticated pk sys).2) ∧
    Reads ns (fun sys => ((kp.senderAeadT t pk n sys).1, (kp.senderAeadT t pk n sys).2.1))
      (fun sys => (kp.senderAeadT t pk n sys).2.2) ∧
    Reads (ns ++ (ns ++ ns)) (fun sys => (kp.senderAeadWithAdaptorCert t pk n sys).1)
      (fun sys => (kp.senderAeadWithAdaptorCert t pk n sys).2) := by
  have hg : Reads [64, 32] (fun sys => (SecretKey.generateWith sys).1) (fun sys => (SecretKey.generateWith sys).2) :=
    reads_bind (reads_fill 64) fun a => reads_mono (reads_fill 32) fun b =>
      (⟨Scalar.fromBytesModOrderWide a, b⟩ : SecretKey)
  refine ⟨reads_mono (reads_fill 32) MiniSecretKey.mk, hg, reads_mono hg SecretKey.toKeypair, ?_, ?_, ?_, ?_⟩
  · exact reads_mono hg fun sk => ((sk.toPublic : PublicKey P).compressed,
      (sk.toKeypair : Keypair P).aeadUnauthenticated ctx pk n)
  · exact reads_mono hg fun sk => ((sk.toPublic : PublicKey P).compressed, sk.aead32Unauthenticated pk)
  · exact reads_mono (scalar_reads hT _ _ _) fun a =>
      let ekey : Keypair P := (⟨a.1, kp.secret.nonce⟩ : SecretKey).toKeypair
      let x := makeAeadT (kp.commitKeyExchange (ekey.commitKeyExchange a.2 (b! "epk") pk) (b! "epk") pk) n
      ((ekey.pub.compressed, x.1), x.2)
  · refine reads_congr (reads_mono (certificate_reads hT kp t pk kp.secret ⟨zeros 64⟩).2.2 fun a => match a with
      | .ok (cert, secret) =>
        Outcome.ok (cert, (secret.toKeypair : Keypair P).aeadUnauthenticated (b! "") pk n)
      | .err e => .err e
      | .panic m => .panic m) ?_ ?_ <;>
    · intro sys
      unfold Keypair.senderAeadWithAdaptorCert
      generalize kp.issueSelfAdaptorCert t sys = x
      obtain ⟨x, sys'⟩ := x
      cases x <;> rfl

/-- **C86** Starting a multi-signature session makes three witness requests; nothing later in the session reads the RNG
(no other call of the session takes one). -/
theorem musig_reads (hT : WitnessReads T ns) (kp : Keypair P) (t : T) :
    Reads (ns ++ (ns ++ ns)) (fun sys => (MuSig.new kp t sys).1) (fun sys => (MuSig.new kp t sys).2) := by
  refine reads_mono (out := fun sys => ((MuSig.drawNonces t kp.secret.nonce sys).1, (MuSig.drawNonces t kp.secret.nonce sys).2.1))
    ?_ fun a =>
      let pts : RevealedPoints P := ⟨⟨a.1.1.map fun r => r •. basepoint, by simp [a.1.2]⟩⟩
      (⟨a.2, BMap.set [] kp.pub (.reveal pts), ⟨kp, a.1, pts.toReveal⟩⟩ : MuSig P T (CommitStage P))
  exact reads_bind (scalar_reads hT t (b! "MuSigWitness") [kp.secret.nonce.1, leBytes 8 0]) fun a =>
    reads_bind (scalar_reads hT a.2 (b! "MuSigWitness") [kp.secret.nonce.1, leBytes 8 1]) fun b =>
    reads_mono (scalar_reads hT b.2 (b! "MuSigWitness") [kp.secret.nonce.1, leBytes 8 2]) fun c => ((⟨[a.1, b.1, c.1], rfl⟩ : Rewinds Scalar), c.2)

/-- **C86** Batch verification of signatures and of VRF proofs reads 32 bytes at most, whatever the size of the batch. -/
theorem batch_reads [Oracles] (mode : ZipMode) (ts : List T) (sigs : List Signature) (pks : List (PublicKey P))
    (dedup : Bool) (ps : List (VRFInOut P)) (proofs : List VRFProofBatchable) (kusama : Bool)
    (vts : List (VRFTranscript T)) (outs : List VRFPreOut) :
    Uses [32] (fun sys => verifyBatch mode ts sigs pks dedup sys) ∧
    Uses [32] (fun sys => verifyBatchRng mode ts sigs pks dedup sys) ∧
    Uses [32] (fun sys => dleqVerifyBatch ps proofs pks kusama sys) ∧
    Uses [32] (fun sys => vrfVerifyBatch vts outs proofs pks sys) := by
  have hf : ∀ r r' : Rng, answers r [32] = answers r' [32] → ∀ b, (Transcript.finalizeRng b r).1 = (Transcript.finalizeRng b r').1 := by
    intro r r' h b
    have := (reads_fill 32).1 r r' h
    simp only at this
    simp only [Transcript.finalizeRng, this]
  have hb : Uses [32] (fun sys => verifyBatchRng mode ts sigs pks dedup sys) := by
    intro r r' h
    unfold verifyBatchRng prepareBatch
    simp only [hf r r' h]
  have hd : ∀ ps : List (VRFInOut P), Uses [32] (fun sys => dleqVerifyBatch ps proofs pks kusama sys) := by
    intro ps r r' h
    unfold dleqVerifyBatch
    simp only [hf r r' h]
  have hd' : ∀ r r' : Rng, answers r [32] = answers r' [32] → ∀ ps : List (VRFInOut P),
      dleqVerifyBatch ps proofs pks KUSAMA_VRF r = dleqVerifyBatch ps proofs pks KUSAMA_VRF r' := by
    intro r r' h ps
    unfold dleqVerifyBatch
    simp only [hf r r' h]
  refine ⟨hb, hb, hd ps, fun r r' h => ?_⟩
  unfold vrfVerifyBatch
  simp only [hd' r r' h]

/-- Non-vacuity, and the bytes read do matter: in the toy environment two RNGs with different first answers lead to
different signatures on one message. -/
example : letI := toyOracles
    (SecretKey.mk (Scalar.ofNat 3) (zeros 32)).signSimple (b! "ctx") (b! "msg")
      ((SecretKey.mk (Scalar.ofNat 3) (zeros 32)).toPublic : PublicKey Toy) zeroRng ≠
    (SecretKey.mk (Scalar.ofNat 3) (zeros 32)).signSimple (b! "ctx") (b! "msg")
      ((SecretKey.mk (Scalar.ofNat 3) (zeros 32)).toPublic : PublicKey Toy) ⟨fun _ n => leArr n 1, []⟩ := by
  decide +kernel

end Schnorrkel.Props
