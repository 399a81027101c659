import Verif.Spec.Limit
import Verif.Model.Derive
import Verif.Model.Aead
import Verif.Model.Vrf
import Verif.Model.MuSig
import Verif.Instance

/-! # C92: only strings supplied by the caller can exceed merlin's length limit -/

namespace Schnorrkel.Props
open SigningTranscript Spec
variable {P : Type} [Ristretto P]

theorem fits_append (a b : List MOp) : Fits (a ++ b) ↔ Fits a ∧ Fits b := by
  simp [Fits, or_imp, forall_and]
theorem fits_cons (a : MOp) (b : List MOp) : Fits (a :: b) ↔ fitsOp a ∧ Fits b := by simp [Fits]
theorem fits_nil : Fits [] := by simp [Fits]
private theorem arr_len {n : Nat} (a : Arr n) : a.1.length = n := a.2
private theorem fits_flatMap {α : Type} (f : α → List MOp) (l : List α) : Fits (l.flatMap f) ↔ ∀ x ∈ l, Fits (f x) := by
  simp only [Fits, List.mem_flatMap]
  constructor
  · exact fun h x hx op ho => h op ⟨x, hx, ho⟩
  · rintro h op ⟨x, hx, ho⟩; exact h x hx op ho
private theorem fold_log {α : Type} (f : α → List MOp) (l : List α) (t : Transcript) :
    (l.foldl (fun t x => (⟨t.log ++ f x⟩ : Transcript)) t).log = t.log ++ l.flatMap f := by
  induction l generalizing t with
  | nil => simp
  | cons a l ih => simp [ih, List.append_assoc]

local macro "lim" "[" ids:Lean.Parser.Tactic.simpLemma,* "]" : tactic =>
  `(tactic| simp only [$ids,*, protoName, commitPoint, challengeScalar, witnessScalar, SigningTranscript.commitBytes,
     SigningTranscript.challengeBytes, SigningTranscript.witnessBytes, SigningTranscript.witnessBytesRng,
     Transcript.new, Transcript.appendMessage, Transcript.challengeBytes, Transcript.rekeyAll, Transcript.finalizeRng,
     Transcript.rngFill, SigningContext.new, SigningContext.bytes, SigningContext.xof, SigningContext.hash256,
     SigningContext.hash512, List.map, List.append_assoc, List.cons_append, List.nil_append, fold_log,
     fits_append, fits_cons, fits_nil, fits_flatMap, fitsOp, arr_len, List.length_cons, List.length_nil,
     CHAIN_CODE_LENGTH, and_true, true_and, Nat.reduceLT, Nat.reducePow, Nat.reduceAdd, and_self, implies_true])

/-- **C92** transcripts: exactly the caller's context and message can exceed the limit; hashed messages never do. -/
theorem context_limit (ctx msg : Bytes) (h32 : Arr 32) (h64 : Arr 64) :
    (Fits (signingContext ctx).t.log ↔ ctx.length < 2 ^ 32) ∧
    (Fits ((signingContext ctx).bytes msg).log ↔ ctx.length < 2 ^ 32 ∧ msg.length < 2 ^ 32) ∧
    (Fits ((signingContext ctx).xof h32).log ↔ ctx.length < 2 ^ 32) ∧
    (Fits ((signingContext ctx).hash256 h32).log ↔ ctx.length < 2 ^ 32) ∧
    (Fits ((signingContext ctx).hash512 h64).log ↔ ctx.length < 2 ^ 32) := by
  lim [signingContext]

/-- **C92** key expansion never does. -/
theorem expand_limit (m : MiniSecretKey) (mode : ExpansionMode) : BelowLimit fun O => letI := O; m.expand mode := by
  intro O O' h
  have h1 := h.merlin
  have h2 := h.sha512
  cases mode
  · lim [MiniSecretKey.expand, MiniSecretKey.expandUniform, h1]
  · simp only [MiniSecretKey.expand, MiniSecretKey.expandEd25519, h2]

/-- **C92** signing and verifying on a transcript within the limit. -/
theorem sign_limit (sk : SecretKey) (pk : PublicKey P) (t : Transcript) (ht : Fits t.log) (sig : Signature) (sys : Rng) :
    (BelowLimit fun O => letI := O; sk.sign t pk sys) ∧ (BelowLimit fun O => letI := O; PublicKey.verify pk t sig) ∧
    (BelowLimit fun O => letI := O; sk.signDoublecheck t pk sys) ∧
    ∀ O : Oracles, Fits (letI := O; sk.sign t pk sys).2.1.log ∧ Fits (letI := O; PublicKey.verify pk t sig).2.log := by
  have hv : ∀ (pk : PublicKey P) sig, BelowLimit fun O => letI := O; PublicKey.verify pk t sig := by
    intro pk sig O O' h
    have h1 := h.merlin
    lim [PublicKey.verify, ht, h1]
  have hs : BelowLimit fun O => letI := O; sk.sign t pk sys := by
    intro O O' h
    have h1 := h.merlin
    lim [SecretKey.sign, ht, h1]
  refine ⟨hs, hv pk sig, ?_, fun O => ⟨?_, ?_⟩⟩
  · intro O O' h
    simp only [SecretKey.signDoublecheck]
    have e := hs O O' h
    have e' := fun pk sig => hv pk sig O O' h
    dsimp only at e e'
    simp only [e, e']
  · lim [SecretKey.sign, ht]
  · unfold PublicKey.verify
    dsimp only
    split <;> lim [ht]

/-- **C92** the one-call forms, with a context and a message within the limit. -/
theorem sign_simple_limit (sk : SecretKey) (pk : PublicKey P) (ctx msg sigBytes : Bytes) (hc : ctx.length < 2 ^ 32)
    (hm : msg.length < 2 ^ 32) (sig : Signature) (sys : Rng) :
    (BelowLimit fun O => letI := O; sk.signSimple ctx msg pk sys) ∧
    (BelowLimit fun O => letI := O; PublicKey.verifySimple pk ctx msg sig) ∧
    (BelowLimit fun O => letI := O; sk.signSimpleDoublecheck ctx msg pk sys) ∧
    (BelowLimit fun O => letI := O; PublicKey.verifySimplePreauditDeprecated pk ctx msg sigBytes) := by
  have ht : Fits ((SigningContext.new ctx).bytes msg).log := (context_limit ctx msg (zeros 32) (zeros 64)).2.1.mpr ⟨hc, hm⟩
  have hv : ∀ (pk : PublicKey P) sig, BelowLimit fun O => letI := O; PublicKey.verifySimple pk ctx msg sig := by
    intro pk sig O O' h
    exact congrArg Prod.fst ((sign_limit sk pk _ ht sig sys).2.1 O O' h)
  refine ⟨?_, hv pk sig, ?_, ?_⟩
  · intro O O' h
    exact congrArg Prod.fst ((sign_limit sk pk _ ht sig sys).1 O O' h)
  · intro O O' h
    have e := (sign_limit sk pk _ ht sig sys).1 O O' h
    have e' := fun pk sig => hv pk sig O O' h
    dsimp only at e e'
    simp only [SecretKey.signSimpleDoublecheck, e, e']
  · intro O O' h
    have h1 := h.merlin
    have hc' : ctx.length < 4294967296 := hc
    have hm' : msg.length < 4294967296 := hm
    have e' := fun sig => (sign_limit sk pk _ ht sig sys).2.1 O O' h
    dsimp only at e'
    simp only [PublicKey.verifySimplePreauditDeprecated]
    cases Signature.fromBytes sigBytes with
    | ok sig => simp only [e']
    | error =>
      have hl : Fits ((Transcript.new ctx).appendMessage (b! "sign-bytes") msg).log := by lim [hc', hm']
      generalize (Transcript.new ctx).appendMessage (b! "sign-bytes") msg = t at hl
      refine congrArg (fun f => Signature.fromBytesNotDistinguishedFromEd25519 sigBytes >>= f) (funext fun signature => ?_)
      lim [hl, h1]

/-- **C92** hard derivation, with an index string within the limit. -/
theorem hard_derivation_limit (sk : SecretKey) (cc : Option ChainCode) (i : Bytes) (hi : i.length < 2 ^ 32) :
    BelowLimit fun O => letI := O; sk.hardDeriveMiniSecretKey cc i := by
  intro O O' h
  have h1 := h.merlin
  have hi' : i.length < 4294967296 := hi
  cases cc <;> lim [SecretKey.hardDeriveMiniSecretKey, hi', h1]

/-- **C92** soft derivation of key pairs, secret keys and public keys: on a transcript within the limit, and from an index
string within the limit. -/
theorem soft_derivation_limit (kp : Keypair P) (pk : PublicKey P) (cc : ChainCode) (t : Transcript) (ht : Fits t.log)
    (i : Bytes) (hi : i.length < 2 ^ 32) (sys : Rng) :
    (BelowLimit fun O => letI := O; Derivation.derivedKeyT kp t cc sys) ∧
    (BelowLimit fun O => letI := O; Derivation.derivedKeyT pk t cc sys) ∧
    (BelowLimit fun O => letI := O; derivedKeySimple kp cc i sys) ∧
    (BelowLimit fun O => letI := O; derivedKeySimple pk cc i sys) ∧
    ∀ O : Oracles, Fits (letI := O; Derivation.derivedKeyT kp t cc sys).2.2.1.log ∧
      Fits (letI := O; Derivation.derivedKeyT pk t cc sys).2.2.1.log := by
  have h1 : ∀ t : Transcript, Fits t.log → BelowLimit fun O => letI := O; Derivation.derivedKeyT kp t cc sys := by
    intro t ht O O' h
    have h1 := h.merlin
    lim [Derivation.derivedKeyT, Keypair.deriveSecretKeyT, PublicKey.deriveScalarAndChaincode, ht, h1]
  have h2 : ∀ t : Transcript, Fits t.log → BelowLimit fun O => letI := O; Derivation.derivedKeyT pk t cc sys := by
    intro t ht O O' h
    have h1 := h.merlin
    lim [Derivation.derivedKeyT, PublicKey.deriveScalarAndChaincode, ht, h1]
  have hl : Fits ((Transcript.new (b! "SchnorrRistrettoHDKD")).appendMessage (b! "sign-bytes") i).log := by
    have hi' : i.length < 4294967296 := hi
    lim [hi']
  refine ⟨h1 t ht, h2 t ht, ?_, ?_, fun O => ⟨?_, ?_⟩⟩
  · intro O O' h
    have e := h1 _ hl O O' h
    dsimp only at e
    simp only [derivedKeySimple, Derivation.derivedKey, e]
  · intro O O' h
    have e := h2 _ hl O O' h
    dsimp only at e
    simp only [derivedKeySimple, Derivation.derivedKey, e]
  · lim [Derivation.derivedKeyT, Keypair.deriveSecretKeyT, PublicKey.deriveScalarAndChaincode, ht]
  · lim [Derivation.derivedKeyT, PublicKey.deriveScalarAndChaincode, ht]

/-- **C92** certificates. -/
theorem cert_limit (kp : Keypair P) (pk : PublicKey P) (sk : SecretKey) (cs : AdaptorCertSecret) (cp : AdaptorCertPublic)
    (t : Transcript) (ht : Fits t.log) (sys : Rng) :
    (BelowLimit fun O => letI := O; kp.issueAdaptorCertT t pk sys) ∧
    (BelowLimit fun O => letI := O; PublicKey.acceptAdaptorCertT pk t sk cs sys) ∧
    (BelowLimit fun O => letI := O; kp.issueSelfAdaptorCert t sys) ∧
    (BelowLimit fun O => letI := O; PublicKey.openAdaptorCertT pk t cp) ∧
    ∀ O : Oracles, Fits (letI := O; kp.issueAdaptorCertT t pk sys).2.1.log ∧
      Fits (letI := O; PublicKey.acceptAdaptorCertT pk t sk cs sys).2.1.log ∧
      Fits (letI := O; PublicKey.openAdaptorCertT pk t cp).2.log := by
  have hi : ∀ (pk : PublicKey P) sys, BelowLimit fun O => letI := O; kp.issueAdaptorCertT t pk sys := by
    intro pk sys O O' h
    have h1 := h.merlin
    lim [Keypair.issueAdaptorCertT, AdaptorCertPublic.deriveE, ht, h1]
  have ha : ∀ (pk : PublicKey P) sk cs sys, BelowLimit fun O => letI := O; PublicKey.acceptAdaptorCertT pk t sk cs sys := by
    intro pk sk cs sys O O' h
    have h1 := h.merlin
    lim [PublicKey.acceptAdaptorCertT, ht, h1]
  refine ⟨hi pk sys, ha pk sk cs sys, ?_, ?_, fun O => ⟨?_, ?_, ?_⟩⟩
  · intro O O' h
    have h1 := h.merlin
    have e1 := fun pk sys => hi pk sys O O' h
    have e2 := fun pk sk cs sys => ha pk sk cs sys O O' h
    dsimp only at e1 e2
    have ew : (letI := O; witnessBytes t (b! "issue_self_adaptor_cert") 96 [kp.secret.nonce.1, kp.secret.toBytes.1] sys) =
        (letI := O'; witnessBytes t (b! "issue_self_adaptor_cert") 96 [kp.secret.nonce.1, kp.secret.toBytes.1] sys) := by
      lim [ht, h1]
    have et : (letI := O'; witnessBytes t (b! "issue_self_adaptor_cert") 96
        [kp.secret.nonce.1, kp.secret.toBytes.1] sys).2.1 = t := rfl
    simp only [Keypair.issueSelfAdaptorCert, Keypair.issueAdaptorCert, PublicKey.acceptAdaptorCert]
    rw [ew, et]
    simp only [e1, e2]
  · intro O O' h
    have h1 := h.merlin
    lim [PublicKey.openAdaptorCertT, AdaptorCertPublic.deriveE, ht, h1]
  · lim [Keypair.issueAdaptorCertT, AdaptorCertPublic.deriveE, ht]
  · unfold PublicKey.acceptAdaptorCertT
    dsimp only
    split <;> lim [ht]
  · unfold PublicKey.openAdaptorCertT
    dsimp only
    split <;> lim [AdaptorCertPublic.deriveE, ht]

private theorem sort2_fits (a b : Compressed) : ∀ x ∈ sort2 a b, x.1.length < 4294967296 := by
  intro x _; rw [x.2]; omega

/-- **C92** key exchange: a context, a key size and a transcript within the limit. -/
theorem aead_limit (kp : Keypair P) (pk pk' : PublicKey P) (cp : AdaptorCertPublic) (t : Transcript) (ht : Fits t.log)
    (ctx : Bytes) (hc : ctx.length < 2 ^ 32) (n : Nat) (hn : n < 2 ^ 32) (sys : Rng) :
    (BelowLimit fun O => letI := O; kp.aeadUnauthenticated ctx pk n) ∧
    (BelowLimit fun O => letI := O; PublicKey.initAeadUnauthenticated pk ctx n sys) ∧
    (BelowLimit fun O => letI := O; kp.recieverAeadT t pk pk' n) ∧
    (BelowLimit fun O => letI := O; kp.senderAeadT t pk n sys) ∧
    (BelowLimit fun O => letI := O; kp.recieverAeadWithAdaptorCert t cp pk n) ∧
    (BelowLimit fun O => letI := O; kp.senderAeadWithAdaptorCert t pk n sys) ∧
    ∀ O : Oracles, Fits (letI := O; kp.recieverAeadT t pk pk' n).2.log ∧
      Fits (letI := O; kp.senderAeadT t pk n sys).2.1.log := by
  have hn' : n < 4294967296 := hn
  have hu : ∀ (kp : Keypair P) (pk : PublicKey P) (ctx : Bytes), ctx.length < 4294967296 →
      BelowLimit fun O => letI := O; kp.aeadUnauthenticated ctx pk n := by
    intro kp pk ctx hc O O' h
    have h1 := h.merlin
    lim [Keypair.aeadUnauthenticated, Keypair.commitKeyExchange, SecretKey.commitRawKeyExchange, makeAead, makeAeadT,
      hc, hn', h1]
  refine ⟨hu kp pk ctx hc, ?_, ?_, ?_, ?_, ?_, fun O => ⟨?_, ?_⟩⟩
  · intro O O' h
    have e := fun kp => hu kp pk ctx hc O O' h
    dsimp only at e
    simp only [PublicKey.initAeadUnauthenticated, e]
  · intro O O' h
    have h1 := h.merlin
    lim [Keypair.recieverAeadT, Keypair.commitKeyExchange, SecretKey.commitRawKeyExchange, makeAeadT, ht, hn', h1]
  · intro O O' h
    have h1 := h.merlin
    lim [Keypair.senderAeadT, Keypair.commitKeyExchange, SecretKey.commitRawKeyExchange, makeAeadT, ht, hn', h1]
  · intro O O' h
    have e := fun pk => hu kp pk (b! "") (by decide) O O' h
    have e2 := (cert_limit kp pk kp.secret ⟨zeros 64⟩ cp t ht sys).2.2.2.1 O O' h
    dsimp only at e e2
    simp only [Keypair.recieverAeadWithAdaptorCert, PublicKey.openAdaptorCert, e, e2]
  · intro O O' h
    have e := fun kp => hu kp pk (b! "") (by decide) O O' h
    have e2 := (cert_limit kp pk kp.secret ⟨zeros 64⟩ cp t ht sys).2.2.1 O O' h
    dsimp only at e e2
    simp only [Keypair.senderAeadWithAdaptorCert, e, e2]
  · lim [Keypair.recieverAeadT, Keypair.commitKeyExchange, SecretKey.commitRawKeyExchange, makeAeadT, ht, hn']
  · lim [Keypair.senderAeadT, Keypair.commitKeyExchange, SecretKey.commitRawKeyExchange, makeAeadT, ht, hn']

private theorem mapM_congr {m : Type → Type} [Monad m] [LawfulMonad m] {α β : Type} (l : List α) (f g : α → m β)
    (h : ∀ x ∈ l, f x = g x) : l.mapM f = l.mapM g := by
  induction l with
  | nil => rfl
  | cons a l ih =>
    rw [List.mapM_cons, List.mapM_cons, h a List.mem_cons_self, ih fun x hx => h x (List.mem_cons_of_mem _ hx)]

private theorem vrfHash_limit (pk : PublicKey P) (t : VRFTranscript Transcript) (ht : Spec.VrfFits t) :
    BelowLimit fun O => letI := O; PublicKey.vrfHash pk t := by
  intro O O' h
  have h1 := h.merlin
  cases t with
  | plain t =>
    have ht' : Fits t.log := ht
    lim [PublicKey.vrfHash, VRFTranscript.addressed, vrfMalleableHash, ht', h1]
  | malleable t =>
    have ht' : Fits t.log := ht
    lim [PublicKey.vrfHash, VRFTranscript.addressed, vrfMalleableHash, ht', h1]

private theorem attach_limit (o : VRFPreOut) (pk : PublicKey P) (t : VRFTranscript Transcript) (ht : Spec.VrfFits t) :
    BelowLimit fun O => letI := O; (o.attachInputHash pk t : SignatureResult (VRFInOut P)) := by
  intro O O' h
  have e := vrfHash_limit pk t ht O O' h
  dsimp only at e
  simp only [VRFPreOut.attachInputHash, e]

private theorem dleqProove_limit (kp : Keypair P) (t : Transcript) (ht : Fits t.log) (p : VRFInOut P) (kusama : Bool) (sys : Rng) :
    (BelowLimit fun O => letI := O; kp.dleqProove t p kusama sys) ∧
    ∀ O : Oracles, Fits (letI := O; kp.dleqProove t p kusama sys).2.1.log := by
  constructor
  · intro O O' h
    have h1 := h.merlin
    cases kusama <;> lim [Keypair.dleqProove, Bool.not_true, Bool.not_false, if_true, if_false, Bool.false_eq_true, ht, h1]
  · intro O
    cases kusama <;> lim [Keypair.dleqProove, Bool.not_true, Bool.not_false, if_true, if_false, Bool.false_eq_true, ht]

private theorem dleqVerify_limit (pk : PublicKey P) (t : Transcript) (ht : Fits t.log) (p : VRFInOut P) (proof : VRFProof)
    (kusama : Bool) :
    (BelowLimit fun O => letI := O; PublicKey.dleqVerify pk t p proof kusama) ∧
    ∀ O : Oracles, Fits (letI := O; PublicKey.dleqVerify pk t p proof kusama).2.log := by
  constructor
  · intro O O' h
    have h1 := h.merlin
    cases kusama <;> lim [PublicKey.dleqVerify, Bool.not_true, Bool.not_false, if_true, if_false, Bool.false_eq_true, ht, h1]
  · intro O
    cases kusama <;> lim [PublicKey.dleqVerify, Bool.not_true, Bool.not_false, if_true, if_false, Bool.false_eq_true] <;>
      split <;> lim [ht]

omit [Ristretto P] in
private theorem shorten_limit (b : VRFProofBatchable) (t : Transcript) (ht : Fits t.log) (pk : PublicKey P) (p : VRFInOut P)
    (kusama : Bool) : BelowLimit fun O => letI := O; b.shortenDleq t pk p kusama := by
  intro O O' h
  have h1 := h.merlin
  cases kusama <;> lim [VRFProofBatchable.shortenDleq, Bool.not_true, Bool.not_false, if_true, if_false, Bool.false_eq_true, ht, h1]

private theorem drawZs_limit (l : List MOp) (hl : Fits l) (n : Nat) : BelowLimit fun O => letI := O; drawZs n l := by
  intro O O' h
  have h1 := h.merlin
  induction n generalizing l with
  | zero => rfl
  | succ n ih =>
    have hl' : Fits (l ++ [.prf 16]) := by lim [hl]
    have := ih _ hl'
    simp only [drawZs, Transcript.rngFill, h1 _ _ hl', this]

private theorem merge_limit (pk : PublicKey P) (ps : List (VRFInOut P)) :
    BelowLimit fun O => letI := O; PublicKey.vrfsMerge pk ps := by
  intro O O' h
  have h1 := h.merlin
  have e : (letI := O; mergeCoefficients pk ps) = (letI := O'; mergeCoefficients pk ps) := by
    simp only [mergeCoefficients, List.map_inj_left]
    intro p _
    lim [challengeScalar128, VRFInOut.commit, h1]
  simp only [PublicKey.vrfsMerge, e]

private theorem fitsNew (label : Bytes) (hl : label.length < 2 ^ 32) : Fits (Transcript.new label).log := by
  have hl' : label.length < 4294967296 := hl
  lim [hl']

/-- **C92** VRF inputs, proofs and their verification, one input at a time: transcripts within the limit. -/
theorem vrf_limit (kp : Keypair P) (pk : PublicKey P) (t : VRFTranscript Transcript) (ht : Spec.VrfFits t) (extra : Transcript)
    (he : Fits extra.log) (o : VRFPreOut) (p : VRFInOut P) (proof : VRFProof) (b : VRFProofBatchable) (kusama : Bool)
    (check : VRFInOut P → Bool) (sys : Rng) :
    (BelowLimit fun O => letI := O; kp.vrfCreateHash t) ∧
    (BelowLimit fun O => letI := O; (o.attachInputHash pk t : SignatureResult (VRFInOut P))) ∧
    (BelowLimit fun O => letI := O; kp.dleqProove extra p kusama sys) ∧
    (BelowLimit fun O => letI := O; PublicKey.dleqVerify pk extra p proof kusama) ∧
    (BelowLimit fun O => letI := O; b.shortenDleq extra pk p kusama) ∧
    (BelowLimit fun O => letI := O; b.shortenVrf pk t o) ∧
    (BelowLimit fun O => letI := O; kp.vrfSign t sys) ∧
    (BelowLimit fun O => letI := O; kp.vrfSignExtra t extra sys) ∧
    (BelowLimit fun O => letI := O; kp.vrfSignAfterCheck t check sys) ∧
    (BelowLimit fun O => letI := O; PublicKey.vrfVerify pk t o proof) ∧
    (BelowLimit fun O => letI := O; PublicKey.vrfVerifyExtra pk t o proof extra) ∧
    ∀ O : Oracles, Fits (letI := O; kp.dleqProove extra p kusama sys).2.1.log ∧
      Fits (letI := O; PublicKey.dleqVerify pk extra p proof kusama).2.log := by
  have hvrf : Fits (Transcript.new (b! "VRF")).log := fitsNew _ (by decide)
  have hc : BelowLimit fun O => letI := O; kp.vrfCreateHash t := by
    intro O O' h
    have e := vrfHash_limit kp.pub t ht O O' h
    dsimp only at e
    simp only [Keypair.vrfCreateHash, e]
  have hse : ∀ extra : Transcript, Fits extra.log → BelowLimit fun O => letI := O; kp.vrfSignExtra t extra sys := by
    intro extra he O O' h
    have e := hc O O' h
    have e2 := fun p => (dleqProove_limit kp extra he p KUSAMA_VRF sys).1 O O' h
    dsimp only at e e2
    simp only [Keypair.vrfSignExtra, e, e2]
  have hve : ∀ extra : Transcript, Fits extra.log → BelowLimit fun O => letI := O; PublicKey.vrfVerifyExtra pk t o proof extra := by
    intro extra he O O' h
    have e := attach_limit o pk t ht O O' h
    have e2 := fun p => (dleqVerify_limit pk extra he p proof KUSAMA_VRF).1 O O' h
    dsimp only at e e2
    simp only [PublicKey.vrfVerifyExtra, e, e2]
  refine ⟨hc, attach_limit o pk t ht, (dleqProove_limit kp extra he p kusama sys).1,
    (dleqVerify_limit pk extra he p proof kusama).1, shorten_limit b extra he pk p kusama, ?_, ?_, hse extra he, ?_, ?_,
    hve extra he, fun O => ⟨(dleqProove_limit kp extra he p kusama sys).2 O, (dleqVerify_limit pk extra he p proof kusama).2 O⟩⟩
  · intro O O' h
    have e := attach_limit o pk t ht O O' h
    have e2 := fun p => shorten_limit b _ hvrf pk p KUSAMA_VRF O O' h
    dsimp only at e e2
    simp only [VRFProofBatchable.shortenVrf, e, e2]
  · exact fun O O' h => hse _ hvrf O O' h
  · intro O O' h
    have e := hc O O' h
    have e2 := fun p => (dleqProove_limit kp _ hvrf p KUSAMA_VRF sys).1 O O' h
    dsimp only at e e2
    simp only [Keypair.vrfSignAfterCheck, Keypair.vrfSignExtraAfterCheck, e]
    cases check _
    · rfl
    · simp only [if_true, e2]
  · exact fun O O' h => hve _ hvrf O O' h

/-- **C92** several VRF inputs under one proof, and batches of VRF proofs, of any sizes. -/
theorem vrfs_limit (kp : Keypair P) (pk : PublicKey P) (pks : List (PublicKey P)) (ts : List (VRFTranscript Transcript))
    (ht : ∀ t ∈ ts, Spec.VrfFits t) (extra : Transcript) (he : Fits extra.log) (outs : List VRFPreOut) (ps : List (VRFInOut P))
    (proof : VRFProof) (proofs : List VRFProofBatchable) (kusama : Bool) (sys : Rng) :
    (BelowLimit fun O => letI := O; PublicKey.vrfsMerge pk ps) ∧
    (BelowLimit fun O => letI := O; kp.vrfsSignExtra ts extra sys) ∧
    (BelowLimit fun O => letI := O; PublicKey.vrfsVerifyExtra pk ts outs proof extra) ∧
    (BelowLimit fun O => letI := O; dleqVerifyBatch ps proofs pks kusama sys) ∧
    (BelowLimit fun O => letI := O; vrfVerifyBatch ts outs proofs pks sys) := by
  have hvrf : Fits (Transcript.new (b! "VRF")).log := fitsNew _ (by decide)
  have hb : ∀ kusama ps, BelowLimit fun O => letI := O; dleqVerifyBatch (P := P) ps proofs pks kusama sys := by
    intro kusama ps O O' h
    have e : ∀ zz, (letI := O; dleqBatchEquation ps proofs pks kusama zz) =
        (letI := O'; dleqBatchEquation ps proofs pks kusama zz) := by
      intro zz
      have e2 := fun b (pk : PublicKey P) p => shorten_limit b _ hvrf pk p kusama O O' h
      dsimp only at e2
      simp only [dleqBatchEquation, e2]
    have e2 := fun l hl n => drawZs_limit l hl n O O' h
    dsimp only at e2
    simp only [dleqVerifyBatch, e]
    split
    · rfl
    split
    · rfl
    have hl : ∀ O : Oracles, Fits (Transcript.finalizeRng ((((letI := O; (pks.zip ps).foldl
        (fun t x => x.2.commit (commitPoint t (b! "") x.1.compressed)) (Transcript.new (b! "VB-RNG"))) : Transcript)).rekeyAll
          (b! "") []) sys).1 := by
      intro O
      lim [VRFInOut.commit]
    rw [e2 _ (hl O)]
    lim [VRFInOut.commit]
  have hm : ∀ pk ps, BelowLimit fun O => letI := O; PublicKey.vrfsMerge (P := P) pk ps := fun pk ps => merge_limit pk ps
  refine ⟨merge_limit pk ps, ?_, ?_, hb kusama ps, ?_⟩
  · intro O O' h
    have e : (letI := O; ts.map fun t => kp.vrfCreateHash t) = (letI := O'; ts.map fun t => kp.vrfCreateHash t) := by
      refine List.map_congr_left fun t h' => ?_
      exact congrArg _ (vrfHash_limit kp.pub t (ht t h') O O' h)
    have e1 := fun ps => hm kp.pub ps O O' h
    have e2 := fun p => (dleqProove_limit kp extra he p KUSAMA_VRF sys).1 O O' h
    dsimp only at e1 e2
    simp only [Keypair.vrfsSignExtra, e, e1, e2]
  · intro O O' h
    have e : (letI := O; (ts.zip outs).mapM fun x => (x.2.attachInputHash pk x.1 : SignatureResult (VRFInOut P))) =
        (letI := O'; (ts.zip outs).mapM fun x => x.2.attachInputHash pk x.1) :=
      mapM_congr _ _ _ fun x hx => attach_limit x.2 pk x.1 (ht _ (List.of_mem_zip hx).1) O O' h
    have e1 := fun ps => hm pk ps O O' h
    have e2 := fun p => (dleqVerify_limit pk extra he p proof KUSAMA_VRF).1 O O' h
    dsimp only at e1 e2
    simp only [PublicKey.vrfsVerifyExtra, e, e1, e2]
  · intro O O' h
    have e : (letI := O; ((ts.zip pks).zip outs).mapM fun x =>
        (x.2.attachInputHash x.1.2 x.1.1 : SignatureResult (VRFInOut P))) =
        (letI := O'; ((ts.zip pks).zip outs).mapM fun x => x.2.attachInputHash x.1.2 x.1.1) :=
      mapM_congr _ _ _ fun x hx => attach_limit x.2 x.1.2 x.1.1 (ht _ (List.of_mem_zip (List.of_mem_zip hx).1).1) O O' h
    have e1 := fun ps => hb KUSAMA_VRF ps O O' h
    dsimp only at e1
    simp only [vrfVerifyBatch, e, e1]

omit [Ristretto P] in
/-- **C92** bytes made from a VRF output, for a context and an output length within the limit. -/
theorem vrf_bytes_limit (p : VRFInOut P) (ctx : Bytes) (hc : ctx.length < 2 ^ 32) (n : Nat) (hn : n < 2 ^ 32) :
    (BelowLimit fun O => letI := O; p.makeBytes ctx n) ∧ ∀ O : Oracles, Fits (letI := O; p.makeMerlinRng ctx) := by
  have hc' : ctx.length < 4294967296 := hc
  have hn' : n < 4294967296 := hn
  constructor
  · intro O O' h
    have h1 := h.merlin
    lim [VRFInOut.makeBytes, VRFInOut.commit, hc', hn', h1]
  · intro O
    lim [VRFInOut.makeMerlinRng, VRFInOut.commit, hc']

omit [Ristretto P] in
private theorem hram_limit (Rs : List Compressed) (pks : List (PublicKey P)) (ts : List Transcript)
    (ht : ∀ t ∈ ts, Fits t.log) (O O' : Oracles) (h : AgreeBelowLimit O O') (i : Nat) (zt : Transcript) (hz : Fits zt.log) :
    (letI := O; hramLoop Rs pks ts i zt) = (letI := O'; hramLoop Rs pks ts i zt) ∧
    ∀ ks zt', (letI := O'; hramLoop Rs pks ts i zt) = .ok (ks, zt') → Fits zt'.log := by
  have h1 := h.merlin
  induction ts generalizing i zt with
  | nil => exact ⟨rfl, fun ks zt' e => by cases e; exact hz⟩
  | cons t ts ih =>
    have htt := ht t List.mem_cons_self
    have ew : (letI := O; witnessBytesRng t (b! "") 16 [[]] notAnRng) = (letI := O'; witnessBytesRng t (b! "") 16 [[]] notAnRng) := by
      lim [htt, h1]
    have ec : ∀ (pk : PublicKey P) R, (letI := O; challengeScalar (commitPoint (commitPoint (protoName t (b! "Schnorr-sig"))
        (b! "sign:pk") pk.compressed) (b! "sign:R") R) (b! "sign:c")) = (letI := O'; challengeScalar (commitPoint (commitPoint
        (protoName t (b! "Schnorr-sig")) (b! "sign:pk") pk.compressed) (b! "sign:R") R) (b! "sign:c")) := by
      intro pk R
      lim [htt, h1]
    have hz' : Fits (zt.appendMessage (b! "") (letI := O'; witnessBytesRng t (b! "") 16 [[]] notAnRng).1.1).log := by
      lim [hz]
    obtain ⟨e, hf⟩ := ih (fun t h => ht t (List.mem_cons_of_mem _ h)) (i + 1) _ hz'
    constructor
    · simp only [hramLoop]
      rw [ew]
      cases pks[i]? with
      | none => rfl
      | some pk =>
        cases Rs[i]? with
        | none => rfl
        | some R =>
          have e3 := ec pk R
          dsimp only
          rw [e3, e]
    · intro ks zt'
      rw [hramLoop]
      dsimp only
      cases pks[i]? with
      | none => exact fun h => by cases h
      | some pk =>
        cases Rs[i]? with
        | none => exact fun h => by cases h
        | some R =>
          dsimp only
          intro hk
          cases hr : (letI := O'; hramLoop Rs pks ts (i + 1) (zt.appendMessage (b! "")
            (witnessBytesRng t (b! "") 16 [[]] notAnRng).1.1)) with
          | ok r =>
            rw [hr] at hk
            cases hk
            exact hf _ _ hr
          | err => rw [hr] at hk; cases hk
          | panic => rw [hr] at hk; cases hk

/-- **C92** batch verification and half-aggregation, of any sizes, of transcripts within the limit. -/
theorem batch_limit (mode : ZipMode) (ts : List Transcript) (ht : ∀ t ∈ ts, Fits t.log) (sigs : List Signature)
    (pks : List (PublicKey P)) (dedup : Bool) (rng : Rng) (pb : PreparedBatch) :
    (BelowLimit fun O => letI := O; verifyBatchRng mode ts sigs pks dedup rng) ∧
    (BelowLimit fun O => letI := O; PreparedBatch.new mode ts sigs pks) ∧
    (BelowLimit fun O => letI := O; PreparedBatch.verify mode pb ts pks dedup) := by
  have hp : ∀ Rs rng, BelowLimit fun O => letI := O; prepareBatch mode ts Rs pks rng := by
    intro Rs rng O O' h
    have hl : ∀ O : Oracles, Fits (letI := O; commitAll (commitAll (Transcript.new (b! "V-RNG")) (pks.map (·.compressed))) Rs).log := by
      intro O
      lim [commitAll]
    have e0 : (letI := O; commitAll (commitAll (Transcript.new (b! "V-RNG")) (pks.map (·.compressed))) Rs) =
        (letI := O'; commitAll (commitAll (Transcript.new (b! "V-RNG")) (pks.map (·.compressed))) Rs) := by
      lim [commitAll]
    obtain ⟨e, hf⟩ := hram_limit Rs pks (ts.take Rs.length) (fun t h => ht t (List.mem_of_mem_take h)) O O' h 0 _ (hl O')
    simp only [prepareBatch]
    rw [e0, e]
    generalize (letI := O'; hramLoop Rs pks (ts.take Rs.length) 0 _) = r at hf
    cases r with
    | err => rfl
    | panic => rfl
    | ok r =>
      obtain ⟨ks, zt⟩ := r
      have hz := hf ks zt rfl
      have e2 := drawZs_limit (Transcript.finalizeRng (zt.rekeyAll (b! "") []) rng).1 (by lim [hz]) Rs.length O O' h
      dsimp only at e2
      simp only [bind, Outcome.bind, e2]
  refine ⟨?_, ?_, ?_⟩ <;> intro O O' h
  · have e := hp (sigs.map (·.R)) rng O O' h
    dsimp only at e
    simp only [verifyBatchRng, e]
  · have e := hp (sigs.map (·.R)) notAnRng O O' h
    dsimp only at e
    simp only [PreparedBatch.new, e]
  · have e := hp pb.Rs notAnRng O O' h
    dsimp only at e
    simp only [PreparedBatch.verify, e]

private theorem aggregate_limit (keys : List (PublicKey P)) (pk : PublicKey P) (O O' : Oracles) (h : AgreeBelowLimit O O') :
    (letI := O; computeWeighting (commitPublicKeys keys) pk) = (letI := O'; computeWeighting (commitPublicKeys keys) pk) ∧
    (letI := O; aggregatePoint keys) = (letI := O'; aggregatePoint keys) := by
  have h1 := h.merlin
  have e : ∀ pk : PublicKey P,
      (letI := O; computeWeighting (commitPublicKeys keys) pk) = (letI := O'; computeWeighting (commitPublicKeys keys) pk) := by
    intro pk
    lim [computeWeighting, commitPublicKeys, h1]
  exact ⟨e pk, by simp only [aggregatePoint, e]⟩

private theorem aggregate_key_limit (keys : List (PublicKey P)) (O O' : Oracles) (h : AgreeBelowLimit O O') :
    (letI := O; aggregatePoint keys) = (letI := O'; aggregatePoint keys) := by
  have e := fun pk => (aggregate_limit keys pk O O' h).1
  simp only [aggregatePoint, e]

private theorem rewinder_fits [Oracles] (l : List (PublicKey P × RevealedPoints P)) (t : Transcript) (ht : Fits t.log) :
    Fits (MuSig.rewinderTranscript t l).log := by
  induction l generalizing t with
  | nil => exact ht
  | cons a l ih =>
    refine ih _ ?_
    lim [ht]

omit [Ristretto P] in
private theorem rewinds_limit (pk : PublicKey P) (t : Transcript) (ht : Fits t.log) :
    BelowLimit fun O => letI := O; MuSig.rewindsOf t pk := by
  intro O O' h
  have h1 := h.merlin
  lim [MuSig.rewindsOf, ht, h1]

private theorem rewinder_limit {S : Type} (m : MuSig P Transcript S) (hm : Fits m.t.log) :
    BelowLimit fun O => letI := O; m.rewinder := by
  intro O O' h
  unfold MuSig.rewinder
  cases m.iterRs with
  | err => rfl
  | panic => rfl
  | ok l =>
    refine congrArg Outcome.ok (funext fun pk => ?_)
    have hf : Fits (letI := O'; MuSig.rewinderTranscript m.t l).log := by
      let _ := O'
      exact rewinder_fits l m.t hm
    exact rewinds_limit pk _ hf O O' h

private theorem cosign_limit (mr : MuSig P Transcript (RevealStage P)) (hr : Fits mr.t.log) :
    BelowLimit fun O => letI := O; mr.cosignStage := by
  intro O O' h
  have h1 := h.merlin
  have ep : ∀ m : MuSig P Transcript (RevealStage P), (letI := O; m.publicKey) = (letI := O'; m.publicKey) :=
    fun m => (aggregate_limit _ m.stage.keypair.pub O O' h).2
  have ew : ∀ keys (pk : PublicKey P), (letI := O; computeWeighting (commitPublicKeys keys) pk) =
    (letI := O'; computeWeighting (commitPublicKeys keys) pk) := fun keys pk => (aggregate_limit keys pk O O' h).1
  have epn : ∀ (t : Transcript) l, (letI := O; protoName t l) = (letI := O'; protoName t l) := fun _ _ => rfl
  have ecp : ∀ (t : Transcript) l c, (letI := O; commitPoint t l c) = (letI := O'; commitPoint t l c) := fun _ _ _ => rfl
  have er : ∀ m : MuSig P Transcript (RevealStage P), Fits m.t.log → (letI := O; m.rewinder) = (letI := O'; m.rewinder) :=
    fun m hm => rewinder_limit m hm O O' h
  have ec : ∀ t : Transcript, Fits t.log →
      (letI := O; challengeScalar t (b! "sign:c")) = (letI := O'; challengeScalar t (b! "sign:c")) := by
    intro t ht
    lim [ht, h1]
  have fpn : ∀ t : Transcript, Fits (letI := O'; protoName t (b! "Schnorr-sig")).log ↔ Fits t.log := by
    intro t
    lim [iff_self]
  have fcp : ∀ (t : Transcript) l c, Fits (letI := O'; commitPoint t l c).log ↔ Fits t.log := by
    intro t l c
    lim [iff_self]
  simp only [MuSig.cosignStage]
  simp only [ep, ew, epn, ecp, er, ec, fpn, fcp, hr]

private theorem signature_limit (mc : MuSig P Transcript CollectStage) (hc : Fits mc.t.log) :
    BelowLimit fun O => letI := O; mc.signature := by
  intro O O' h
  have ep : (letI := O; mc.publicKey) = (letI := O'; mc.publicKey) := aggregate_key_limit _ O O' h
  have ecp : ∀ (t : Transcript) l c, (letI := O; commitPoint t l c) = (letI := O'; commitPoint t l c) := fun _ _ _ => rfl
  have er : ∀ m : MuSig P Transcript CollectStage, Fits m.t.log → (letI := O; m.rewinder) = (letI := O'; m.rewinder) :=
    fun m hm => rewinder_limit m hm O O' h
  have fcp : ∀ (t : Transcript) l c, Fits (letI := O'; commitPoint t l c).log ↔ Fits t.log := by
    intro t l c
    lim [iff_self]
  simp only [MuSig.signature]
  simp only [ep, ecp, er, fcp, hc]

private theorem cosign_fits [O : Oracles] (mr : MuSig P Transcript (RevealStage P)) (hr : Fits mr.t.log)
    (m' : MuSig P Transcript CosignStage) (h : mr.cosignStage = .ok m') : Fits m'.t.log := by
  have bind_ok : ∀ {α β : Type} {x : Outcome α} {f : α → Outcome β} {y : β}, (x >>= f) = .ok y → ∃ a, f a = .ok y := by
    intro α β x f y h
    cases x with
    | ok a => exact ⟨a, h⟩
    | err => cases h
    | panic => cases h
  simp only [MuSig.cosignStage] at h
  obtain ⟨_, h⟩ := bind_ok h
  obtain ⟨_, h⟩ := bind_ok h
  split at h
  · cases h
  · cases h
    lim [hr]

/-- **C92** multi-signatures with any number of participants: a session on a transcript within the limit. -/
theorem musig_limit {S V : Type} (kp : Keypair P) (t : Transcript) (ht : Fits t.log) (keys : BMap P V)
    (slice : AggregatePublicKeySlice P) (pk : PublicKey P)
    (reveal : Reveal) (m : MuSig P Transcript S) (mr : MuSig P Transcript (RevealStage P)) (hr : Fits mr.t.log)
    (mc : MuSig P Transcript CollectStage) (hc : Fits mc.t.log) (sys : Rng) :
    (BelowLimit fun O => letI := O; keys.weighting pk) ∧ (BelowLimit fun O => letI := O; keys.publicKey) ∧
    (BelowLimit fun O => letI := O; slice.weighting pk) ∧ (BelowLimit fun O => letI := O; slice.publicKey) ∧
    (BelowLimit fun O => letI := O; MuSig.new kp t sys) ∧ (BelowLimit fun O => letI := O; reveal.toCommitment) ∧
    (BelowLimit fun O => letI := O; mr.addTheirReveal pk reveal) ∧
    (BelowLimit fun O => letI := O; m.publicKey) ∧ (BelowLimit fun O => letI := O; m.expectedPublicKey) ∧
    (BelowLimit fun O => letI := O; mr.cosignStage) ∧ (BelowLimit fun O => letI := O; mc.signature) ∧
    ∀ O : Oracles, Fits (letI := O; MuSig.new kp t sys).1.t.log ∧
      ∀ m', (letI := O; mr.cosignStage) = .ok m' → Fits m'.t.log := by
  have hcom : ∀ r : Reveal, BelowLimit fun O => letI := O; r.toCommitment := by
    intro r O O' h
    have h1 := h.merlin
    have e : (letI := O; Commitment.forR r.iterPoints) = (letI := O'; Commitment.forR r.iterPoints) := by
      lim [Commitment.forR, h1]
    simp only [Reveal.toCommitment, e]
  refine ⟨?_, ?_, ?_, ?_, ?_, hcom reveal, ?_, ?_, ?_, ?_, ?_, fun O => ⟨?_, ?_⟩⟩
  · intro O O' h
    have e := (aggregate_limit keys.keys pk O O' h).1
    simp only [BMap.weighting, e]
  · exact fun O O' h => (aggregate_limit keys.keys pk O O' h).2
  · intro O O' h
    have e := (aggregate_limit slice.keys pk O O' h).1
    simp only [AggregatePublicKeySlice.weighting, e]
  · exact fun O O' h => (aggregate_limit slice.keys pk O O' h).2
  · intro O O' h
    have h1 := h.merlin
    lim [MuSig.new, MuSig.drawNonces, leBytes_length, ht, h1]
  · intro O O' h
    have e := hcom reveal O O' h
    dsimp only at e
    simp only [MuSig.addTheirReveal, CoR.setRevealed, e]
  · exact fun O O' h => (aggregate_limit _ pk O O' h).2
  · exact fun O O' h => (aggregate_limit _ pk O O' h).2
  · exact cosign_limit mr hr
  · exact signature_limit mc hc
  · lim [MuSig.new, MuSig.drawNonces, ht]
  · exact fun m' h => cosign_fits mr hr m' h

open Classical in
/-- Two hash functions that differ on everything merlin refuses, and agree on everything else. -/
private theorem differ_beyond : ∃ O O' : Oracles, AgreeBelowLimit O O' ∧
    ∀ l n, ¬ Fits l → 0 < n → O.merlin l n ≠ O'.merlin l n := by
  refine ⟨⟨fun _ n => zeros n, fun _ => zeros 64, fun _ n => zeros n⟩,
    ⟨fun l n => if Fits l then zeros n else ⟨List.replicate n 1, by simp⟩, fun _ => zeros 64, fun _ n => zeros n⟩, ⟨?_, rfl, rfl⟩, ?_⟩
  · intro l n h
    simp [h]
  · intro l n h hn he
    obtain _ | n := n
    · omega
    have := congrArg (fun a : Arr (n + 1) => a.1) he
    simp [h, zeros, List.replicate_succ] at this

/-- **C92** beyond the limit these calls do reach it, so the bounds above are exact: hard derivation, session keys and bytes
made from a VRF output stay below it exactly if the caller's string and the length asked for fit in 32 bits. -/
theorem limit_exact (sk : SecretKey) (cc : Option ChainCode) (i ctx : Bytes) (kp : Keypair P) (pk : PublicKey P)
    (p : VRFInOut P) (n : Nat) (hn : 0 < n) :
    ((BelowLimit fun O => letI := O; sk.hardDeriveMiniSecretKey cc i) ↔ i.length < 2 ^ 32) ∧
    ((BelowLimit fun O => letI := O; kp.aeadUnauthenticated ctx pk n) ↔ ctx.length < 2 ^ 32 ∧ n < 2 ^ 32) ∧
    ((BelowLimit fun O => letI := O; p.makeBytes ctx n) ↔ ctx.length < 2 ^ 32 ∧ n < 2 ^ 32) := by
  obtain ⟨O, O', h, hd⟩ := differ_beyond
  refine ⟨⟨fun hb => ?_, hard_derivation_limit sk cc i⟩,
    ⟨fun hb => ?_, fun hh => (aead_limit kp pk pk ⟨zeros 32⟩ ⟨[]⟩ fits_nil ctx hh.1 n hh.2 ⟨fun _ n => zeros n, []⟩).1⟩,
    ⟨fun hb => ?_, fun hh => (vrf_bytes_limit p ctx hh.1 n hh.2).1⟩⟩
  · by_contra hi
    have e := congrArg (fun x => x.1.bytes) (hb O O' h)
    have hi' : ¬ i.length < 4294967296 := hi
    revert e
    cases cc <;> (refine hd _ _ ?_ (by omega); lim [hi', false_and, and_false, not_false_eq_true])
  · by_contra hi
    have hi' : ¬ (ctx.length < 4294967296 ∧ n < 4294967296) := hi
    refine hd _ _ ?_ hn (hb O O' h)
    lim [Keypair.commitKeyExchange, SecretKey.commitRawKeyExchange]
    exact hi'
  · by_contra hi
    have hi' : ¬ (ctx.length < 4294967296 ∧ n < 4294967296) := hi
    refine hd _ _ ?_ hn (hb O O' h)
    lim [VRFInOut.commit]
    exact hi'

/-- **C92** the same with an RNG attached to the transcript (`attach_rng`): signing, verifying, derivation, certificates and
VRF proofs (the calls that do not need to clone the transcript) stay below the limit, and hand back transcripts within it. -/
theorem attached_rng_limit (sk : SecretKey) (kp : Keypair P) (pk : PublicKey P) (cc : ChainCode) (t : Transcript)
    (ht : Fits t.log) (i : Bytes) (hi : i.length < 2 ^ 32) (sig : Signature) (cs : AdaptorCertSecret)
    (p : VRFInOut P) (kusama : Bool) (rng sys : Rng) :
    (BelowLimit fun O => letI := O; sk.sign (attachRng t rng) pk sys) ∧
    (BelowLimit fun O => letI := O; PublicKey.verify pk (attachRng t rng) sig) ∧
    (BelowLimit fun O => letI := O; Derivation.derivedKeyT kp (attachRng t rng) cc sys) ∧
    (BelowLimit fun O => letI := O; Derivation.derivedKeyT pk (attachRng t rng) cc sys) ∧
    (BelowLimit fun O => letI := O; derivedKeySimpleRng kp cc i rng sys) ∧
    (BelowLimit fun O => letI := O; derivedKeySimpleRng pk cc i rng sys) ∧
    (BelowLimit fun O => letI := O; kp.issueAdaptorCertT (attachRng t rng) pk sys) ∧
    (BelowLimit fun O => letI := O; PublicKey.acceptAdaptorCertT pk (attachRng t rng) sk cs sys) ∧
    (BelowLimit fun O => letI := O; kp.dleqProove (attachRng t rng) p kusama sys) ∧
    ∀ O : Oracles, Fits (letI := O; sk.sign (attachRng t rng) pk sys).2.1.t.log ∧
      Fits (letI := O; PublicKey.verify pk (attachRng t rng) sig).2.t.log ∧
      Fits (letI := O; Derivation.derivedKeyT kp (attachRng t rng) cc sys).2.2.1.t.log := by
  have hv : ∀ (pk : PublicKey P) sig, BelowLimit fun O => letI := O; PublicKey.verify pk (attachRng t rng) sig := by
    intro pk sig O O' h
    have h1 := h.merlin
    lim [PublicKey.verify, attachRng, ht, h1]
  have hs : BelowLimit fun O => letI := O; sk.sign (attachRng t rng) pk sys := by
    intro O O' h
    have h1 := h.merlin
    lim [SecretKey.sign, attachRng, ht, h1]
  have hk : ∀ t : Transcript, Fits t.log → BelowLimit fun O => letI := O; Derivation.derivedKeyT kp (attachRng t rng) cc sys := by
    intro t ht O O' h
    have h1 := h.merlin
    lim [Derivation.derivedKeyT, Keypair.deriveSecretKeyT, PublicKey.deriveScalarAndChaincode, attachRng, ht, h1]
  have hp : ∀ t : Transcript, Fits t.log → BelowLimit fun O => letI := O; Derivation.derivedKeyT pk (attachRng t rng) cc sys := by
    intro t ht O O' h
    have h1 := h.merlin
    lim [Derivation.derivedKeyT, PublicKey.deriveScalarAndChaincode, attachRng, ht, h1]
  have hl : Fits ((Transcript.new (b! "SchnorrRistrettoHDKD")).appendMessage (b! "sign-bytes") i).log := by
    have hi' : i.length < 4294967296 := hi
    lim [hi']
  refine ⟨hs, hv pk sig, hk t ht, hp t ht, ?_, ?_, ?_, ?_, ?_, fun O => ⟨?_, ?_, ?_⟩⟩
  · intro O O' h
    have e := hk _ hl O O' h
    dsimp only at e
    simp only [derivedKeySimpleRng, Derivation.derivedKey, e]
  · intro O O' h
    have e := hp _ hl O O' h
    dsimp only at e
    simp only [derivedKeySimpleRng, Derivation.derivedKey, e]
  · intro O O' h
    have h1 := h.merlin
    lim [Keypair.issueAdaptorCertT, AdaptorCertPublic.deriveE, attachRng, ht, h1]
  · intro O O' h
    have h1 := h.merlin
    lim [PublicKey.acceptAdaptorCertT, attachRng, ht, h1]
  · intro O O' h
    have h1 := h.merlin
    cases kusama <;> lim [Keypair.dleqProove, Bool.not_true, Bool.not_false, if_true, if_false, Bool.false_eq_true, attachRng, ht, h1]
  · lim [SecretKey.sign, attachRng, ht]
  · unfold PublicKey.verify
    dsimp only
    split <;> lim [attachRng, ht]
  · lim [Derivation.derivedKeyT, Keypair.deriveSecretKeyT, PublicKey.deriveScalarAndChaincode, attachRng, ht]

/-- A short context and message are within the limit; a message of 4 GiB is not. -/
example : Fits ((signingContext (b! "ctx")).bytes (b! "message")).log ∧
    ¬ Fits ((signingContext (b! "ctx")).bytes (List.replicate (2 ^ 32) 0)).log := by
  constructor
  · exact (context_limit _ _ (zeros 32) (zeros 64)).2.1.mpr ⟨by decide, by decide⟩
  · intro h
    have := ((context_limit _ _ (zeros 32) (zeros 64)).2.1.mp h).2
    rw [List.length_replicate] at this
    exact absurd this (lt_irrefl _)

/-- Signing that message with a toy key stays below the limit. -/
example (sys : Rng) : BelowLimit fun O => letI := O;
    (⟨Scalar.ofNat 5, zeros 32⟩ : SecretKey).signSimple (b! "ctx") (b! "message")
      ((⟨Scalar.ofNat 5, zeros 32⟩ : SecretKey).toPublic : PublicKey Toy) sys :=
  (sign_simple_limit _ _ _ _ [] (by decide) (by decide) ⟨zeros 32, Scalar.ofNat 0⟩ sys).1

end Schnorrkel.Props
