import Verif.Spec.Witness
import Verif.Props.Sign
import Verif.Props.Vrf
import Verif.Props.Cert
import Verif.Props.Derive
import Verif.Props.Aead
import Verif.Instance

/-! # C51–C53: where every secret random value comes from -/

namespace Schnorrkel.Props
open SigningTranscript Spec
variable {P : Type} [Ristretto P]

/-- Witness bytes of a merlin transcript. -/
theorem merlin_witness_bytes [Oracles] (t : Transcript) (l : Bytes) (n : Nat) (seeds : List Bytes) (sys : Rng) :
    witnessBytes t l n seeds sys =
      (Oracles.merlin (witnessQuery t.log l seeds (sys.fill 32).1.1 n) n, t, (sys.fill 32).2) := by
  simp [SigningTranscript.witnessBytes, witnessBytesRng, Transcript.rekeyAll, Transcript.finalizeRng,
    Transcript.rngFill, witnessQuery]

/-- Witness scalars of a merlin transcript. -/
theorem merlin_witness_scalar [Oracles] (t : Transcript) (l : Bytes) (seeds : List Bytes) (sys : Rng) :
    (witnessScalar t l seeds sys).1.toZ = hashToZ (witnessQuery t.log l seeds (sys.fill 32).1.1 64) ∧
    (witnessScalar t l seeds sys).2 = (t, (sys.fill 32).2) := by
  unfold witnessScalar
  rw [merlin_witness_bytes]
  exact ⟨Scalar.toZ_wide _, rfl⟩

/-- **C51** `witnessQuery` is injective in everything it names (a single label: the number of seeds is
read off the query). -/
theorem witness_query_injective (log₁ log₂ : List MOp) (l₁ l₂ : Bytes) (s₁ s₂ : List Bytes) (r₁ r₂ : Bytes)
    (n₁ n₂ : Nat) (hs : s₁.length = s₂.length) (hne : s₁ ≠ []) :
    witnessQuery log₁ l₁ s₁ r₁ n₁ = witnessQuery log₂ l₂ s₂ r₂ n₂ ↔
      log₁ = log₂ ∧ l₁ = l₂ ∧ s₁ = s₂ ∧ r₁ = r₂ ∧ n₁ = n₂ := by
  constructor
  · intro h
    unfold witnessQuery at h
    obtain ⟨h1, h2⟩ := List.append_inj' h rfl
    obtain ⟨h3, h4⟩ := List.append_inj' h1 (by simp [hs])
    simp only [List.cons.injEq, MOp.rngKey.injEq, MOp.prf.injEq, and_true] at h2
    have hl : l₁ = l₂ := by
      cases s₁ with
      | nil => exact absurd rfl hne
      | cons a as =>
        cases s₂ with
        | nil => simp at hs
        | cons b bs => simp at h4; exact h4.1.1
    subst hl
    have : s₁ = s₂ := by
      have hinj : Function.Injective (MOp.rekey l₁) := fun a b h => by simpa using h
      exact List.map_injective_iff.mpr hinj h4
    exact ⟨h3, rfl, this, h2.1, h2.2⟩
  · rintro ⟨rfl, rfl, rfl, rfl, rfl⟩; rfl

/-! ## C51: VRF/DLEQ proof nonces -/

/-- **C51** On a merlin `extra` transcript the published commitments of a DLEQ/VRF proof are `r·B` and
`r·H` and the response is `r − c·x`, where `r` is the hash of the transcript history, the protocol name, the
input point, (the public key in non-Kusama mode,) the secret nonce seed and 32 RNG bytes. -/
theorem vrf_nonce_is_hash [Oracles] (kp : Keypair P) (t : Transcript) (p : VRFInOut P) (kusama : Bool)
    (sys : Rng) :
    let r := hashToZ (dleqNonceQuery t.log kusama p.input.compressed.1 kp.pub.compressed.1
      kp.secret.nonce.1 (sys.fill 32).1.1)
    let out := (kp.dleqProove t p kusama sys).1
    out.2.R = compress (r • (basepoint : P)) ∧ out.2.Hr = compress (r • p.input.point) ∧
      out.1.s.toZ = r - out.1.c.toZ * kp.secret.key.toZ ∧ out.2.s = out.1.s := by
  intro r out
  have hw : ∀ t' : Transcript, t'.log = t.log ++ dleqNonceFrames kusama p.input.compressed.1 kp.pub.compressed.1 →
      (witnessScalar t' (b! "proving\x000") [kp.secret.nonce.1] sys).1.toZ = r := by
    intro t' h
    rw [(merlin_witness_scalar _ _ _ _).1, h]; rfl
  have hlog : (if (!kusama) = true then
        commitPoint (commitPoint (protoName t (b! "DLEQProof")) (b! "vrf:h") p.input.compressed)
          (b! "vrf:pk") kp.pub.compressed
        else commitPoint (protoName t (b! "DLEQProof")) (b! "vrf:h") p.input.compressed).log =
      t.log ++ dleqNonceFrames kusama p.input.compressed.1 kp.pub.compressed.1 := by
    cases kusama <;> simp [commitPoint, protoName, commitBytes, Transcript.appendMessage, dleqNonceFrames]
  have := hw _ hlog
  refine ⟨?_, ?_, ?_, rfl⟩
  · simp only [out, Keypair.dleqProove, mulPoint_eq]
    rw [this]
  · simp only [out, Keypair.dleqProove, mulPoint_eq]
    rw [this]
  · simp only [out, Keypair.dleqProove]
    rw [Scalar.toZ_sub (canonical_witness _ _ _ _) (Scalar.canonical_mul _ _), Scalar.toZ_mul, this]

/-- **C51** Non-Kusama nonce queries bind history, input, public key, nonce seed and RNG bytes; Kusama
queries bind history, input, seed and RNG bytes; the two framings never collide. -/
theorem vrf_nonce_query_injective (l₁ l₂ : List MOp) (h₁ h₂ p₁ p₂ s₁ s₂ r₁ r₂ : Bytes) :
    (dleqNonceQuery l₁ false h₁ p₁ s₁ r₁ = dleqNonceQuery l₂ false h₂ p₂ s₂ r₂ ↔
      l₁ = l₂ ∧ h₁ = h₂ ∧ p₁ = p₂ ∧ s₁ = s₂ ∧ r₁ = r₂) ∧
    (dleqNonceQuery l₁ true h₁ p₁ s₁ r₁ = dleqNonceQuery l₂ true h₂ p₂ s₂ r₂ ↔
      l₁ = l₂ ∧ h₁ = h₂ ∧ s₁ = s₂ ∧ r₁ = r₂) ∧
    dleqNonceQuery l₁ true h₁ p₁ s₁ r₁ ≠ dleqNonceQuery l₂ false h₂ p₂ s₂ r₂ := by
  unfold dleqNonceQuery
  refine ⟨?_, ?_, ?_⟩
  · rw [witness_query_injective _ _ _ _ [s₁] [s₂] _ _ _ _ rfl (by simp)]
    constructor
    · rintro ⟨h, -, hs, hr, -⟩
      obtain ⟨ha, hb⟩ := List.append_inj' h rfl
      simp [dleqNonceFrames] at hb hs
      exact ⟨ha, hb.1, hb.2, hs, hr⟩
    · rintro ⟨rfl, rfl, rfl, rfl, rfl⟩; simp
  · rw [witness_query_injective _ _ _ _ [s₁] [s₂] _ _ _ _ rfl (by simp)]
    constructor
    · rintro ⟨h, -, hs, hr, -⟩
      obtain ⟨ha, hb⟩ := List.append_inj' h rfl
      simp [dleqNonceFrames] at hb hs
      exact ⟨ha, hb, hs, hr⟩
    · rintro ⟨rfl, rfl, rfl, rfl⟩; simp [dleqNonceFrames]
  · rw [Ne, witness_query_injective _ _ _ _ [s₁] [s₂] _ _ _ _ rfl (by simp)]
    rintro ⟨h, -⟩
    have := congrArg List.getLast? h
    simp [dleqNonceFrames] at this

/-- **C51** (defect) In Kusama mode, the one every `vrf_sign*` uses, the nonce does not depend on the public
key or on the output: proofs for the same secret seed, input, extra transcript and RNG answers share their
commitments, and two of them with different challenges reveal the secret scalar. -/
theorem vrf_kusama_nonce_ignores_public_key [Oracles] (sk : SecretKey) (pk₁ pk₂ : PublicKey P)
    (t : Transcript) (h : RistrettoBoth P) (o₁ o₂ : RistrettoBoth P) (sys : Rng) :
    let out₁ := ((⟨sk, pk₁⟩ : Keypair P).dleqProove t ⟨h, o₁⟩ KUSAMA_VRF sys).1
    let out₂ := ((⟨sk, pk₂⟩ : Keypair P).dleqProove t ⟨h, o₂⟩ KUSAMA_VRF sys).1
    out₁.2.R = out₂.2.R ∧ out₁.2.Hr = out₂.2.Hr ∧
      (out₁.1.c.toZ ≠ out₂.1.c.toZ →
        sk.key.toZ = (out₁.1.s.toZ - out₂.1.s.toZ) / (out₂.1.c.toZ - out₁.1.c.toZ)) := by
  intro out₁ out₂
  obtain ⟨a1, a2, a3, -⟩ := vrf_nonce_is_hash (⟨sk, pk₁⟩ : Keypair P) t ⟨h, o₁⟩ KUSAMA_VRF sys
  obtain ⟨b1, b2, b3, -⟩ := vrf_nonce_is_hash (⟨sk, pk₂⟩ : Keypair P) t ⟨h, o₂⟩ KUSAMA_VRF sys
  have hq : dleqNonceQuery t.log KUSAMA_VRF h.compressed.1 pk₁.compressed.1 sk.nonce.1 (sys.fill 32).1.1 =
      dleqNonceQuery t.log KUSAMA_VRF h.compressed.1 pk₂.compressed.1 sk.nonce.1 (sys.fill 32).1.1 :=
    ((vrf_nonce_query_injective _ _ _ _ _ _ _ _ _ _).2.1).mpr ⟨rfl, rfl, rfl, rfl⟩
  simp only [] at a1 a2 a3 b1 b2 b3
  rw [hq] at a1 a2 a3
  refine ⟨a1.trans b1.symm, a2.trans b2.symm, ?_⟩
  intro hne
  have hne' : out₂.1.c.toZ - out₁.1.c.toZ ≠ 0 := sub_ne_zero.mpr (Ne.symm hne)
  rw [eq_div_iff hne']
  simp only [out₁, out₂] at *
  rw [a3, b3]; ring

/-- **C51** the same through the public `vrf_sign_extra` with `Malleable` transcripts: two keypairs holding
the same secret beside different public keys (which `Keypair::from_bytes` accepts) share the commitments. -/
theorem vrf_sign_malleable_shares_nonce [Oracles] {T : Type} [SigningTranscript T] (sk : SecretKey)
    (pk₁ pk₂ : PublicKey P) (t : T) (extra : Transcript) (sys : Rng) :
    let o₁ := (⟨sk, pk₁⟩ : Keypair P).vrfSignExtra (.malleable t) extra sys
    let o₂ := (⟨sk, pk₂⟩ : Keypair P).vrfSignExtra (.malleable t) extra sys
    o₁.1 = o₂.1 ∧ o₁.2.2.R = o₂.2.2.R ∧ o₁.2.2.Hr = o₂.2.2.Hr ∧
      (o₁.2.1.c.toZ ≠ o₂.2.1.c.toZ →
        sk.key.toZ = (o₁.2.1.s.toZ - o₂.2.1.s.toZ) / (o₂.2.1.c.toZ - o₁.2.1.c.toZ)) := by
  intro o₁ o₂
  have hp : (⟨sk, pk₁⟩ : Keypair P).vrfCreateHash (.malleable t) = (⟨sk, pk₂⟩ : Keypair P).vrfCreateHash (.malleable t) := rfl
  have := vrf_kusama_nonce_ignores_public_key sk pk₁ pk₂ extra (vrfMalleableHash t : RistrettoBoth P)
    ((⟨sk, pk₁⟩ : Keypair P).vrfCreateHash (.malleable t)).output ((⟨sk, pk₂⟩ : Keypair P).vrfCreateHash (.malleable t)).output sys
  exact ⟨hp, this⟩

/-! ## C52: certificates, derivation, key exchange -/

/-- **C52** the issuer's blinding scalar is the hash of history, issuer key, issuer's secret seed, the
holder's seed public key and 32 RNG bytes; the certificate is built from it. -/
theorem issuing_nonce_is_hash [Oracles] (kp : Keypair P) (t : Transcript) (seedPk : PublicKey P) (sys : Rng) :
    let k := hashToZ (witnessQuery (t.log ++ certFrames kp.pub.compressed.1) (b! "issuing")
      [kp.secret.nonce.1, seedPk.compressed.1] (sys.fill 32).1.1 64)
    let Γ := compress (seedPk.point + k • (basepoint : P))
    ∃ s : Scalar, s.Canonical ∧ (kp.issueAdaptorCert t seedPk sys).1.bytes.1 = Γ.1 ++ s.bytes.1 ∧
      s.toZ = k + hashToZ (certQuery t.log kp.pub.compressed.1 Γ.1) * kp.secret.key.toZ := by
  intro k Γ
  let t1 := commitPoint (protoName t (b! "Adaptor")) (b! "issuer-pk") kp.pub.compressed
  have hlog : t1.log = t.log ++ certFrames kp.pub.compressed.1 := by
    simp [t1, commitPoint, protoName, commitBytes, Transcript.appendMessage, certFrames]
  let w := witnessScalar t1 (b! "issuing") [kp.secret.nonce.1, seedPk.compressed.1] sys
  obtain ⟨hk1, hk2⟩ := merlin_witness_scalar t1 (b! "issuing") [kp.secret.nonce.1, seedPk.compressed.1] sys
  rw [hlog] at hk1
  have hΓ : compress (seedPk.point + w.1 •. (basepoint : P)) = Γ := by rw [mulPoint_eq, hk1]
  let e := (challengeScalar (commitPoint w.2.1 (b! "gamma") (compress (seedPk.point + w.1 •. (basepoint : P)))) (b! "adaptor-e")).1
  have he : e.toZ = hashToZ (certQuery t.log kp.pub.compressed.1 Γ.1) := by
    have h2 : w.2.1 = t1 := congrArg Prod.fst hk2
    simp only [e]
    rw [hΓ, h2]
    exact cert_challenge_is_query t kp.pub.compressed Γ
  refine ⟨w.1 + e * kp.secret.key, Scalar.canonical_add (canonical_witness _ _ _ _) (Scalar.canonical_mul _ _), ?_, ?_⟩
  · rw [← hΓ]; rfl
  · rw [Scalar.toZ_add (canonical_witness _ _ _ _) (Scalar.canonical_mul _ _), Scalar.toZ_mul, he, hk1]

/-- **C52** the nonce seed of an accepted key is the hash of history, issuer key, the whole certificate,
the holder's own nonce seed and 32 RNG bytes. -/
theorem accepting_nonce_is_hash [Oracles] (pk : PublicKey P) (t : Transcript) (seed : SecretKey)
    (cert : AdaptorCertSecret) (sys : Rng) (out : AdaptorCertPublic × SecretKey)
    (h : (pk.acceptAdaptorCert t seed cert sys).1 = .ok out) :
    out.2.nonce = Oracles.merlin (witnessQuery (t.log ++ certFrames pk.compressed.1) (b! "accepting")
      [cert.bytes.1, seed.nonce.1] (sys.fill 32).1.1 32) 32 := by
  unfold PublicKey.acceptAdaptorCert PublicKey.acceptAdaptorCertT at h
  simp only [merlin_witness_bytes] at h
  split at h
  · exact nomatch h
  · simp only [Except.ok.injEq] at h
    subst h
    simp [commitPoint, protoName, commitBytes, Transcript.appendMessage, certFrames]

/-- **C52** self-issued certificates: the intermediate seed key is made of 96 bytes hashed from history, the
nonce seed and all 64 secret-key bytes, and 32 RNG bytes; the certified secret key combines it with the
issuing nonce (fresh RNG bytes) and the issuer's key, its nonce seed with a third read of the RNG. -/
theorem self_cert_randomness_is_hash [Oracles] (kp : Keypair P) (t : Transcript) (sys : Rng) :
    let b := (Oracles.merlin (witnessQuery t.log (b! "issue_self_adaptor_cert")
      [kp.secret.nonce.1, kp.secret.key.bytes.1 ++ kp.secret.nonce.1] (sys.fill 32).1.1 96) 96).1
    let y : Z := (leNat (b.take 64) : Z)
    let k := hashToZ (witnessQuery (t.log ++ certFrames kp.pub.compressed.1) (b! "issuing")
      [kp.secret.nonce.1, (compress (y • (basepoint : P))).1] ((sys.fill 32).2.fill 32).1.1 64)
    let Γ := compress ((y + k) • (basepoint : P))
    ∃ (cert : AdaptorCertPublic) (sk : SecretKey) (s : Scalar), (kp.issueSelfAdaptorCert t sys).1 = .ok (cert, sk) ∧
      cert.bytes = Γ ∧ sk.key.toZ = y + k + hashToZ (certQuery t.log kp.pub.compressed.1 Γ.1) * kp.secret.key.toZ ∧
      s.toZ = k + hashToZ (certQuery t.log kp.pub.compressed.1 Γ.1) * kp.secret.key.toZ ∧
      sk.nonce = Oracles.merlin (witnessQuery (t.log ++ certFrames kp.pub.compressed.1) (b! "accepting")
        [Γ.1 ++ s.bytes.1, b.drop 64] (((sys.fill 32).2.fill 32).2.fill 32).1.1 32) 32 := by
  intro b y k Γ
  let w := Oracles.merlin (witnessQuery t.log (b! "issue_self_adaptor_cert")
      [kp.secret.nonce.1, kp.secret.toBytes.1] (sys.fill 32).1.1 96) 96
  have hw : w.1 = b := rfl
  let seedKey := Scalar.fromBytesModOrderWide (w.slice 0 64 (by omega))
  let seed : Keypair P := (⟨seedKey, w.slice 64 32 (by omega)⟩ : SecretKey).toKeypair
  have hy : seedKey.toZ = y := by
    simp only [seedKey, Scalar.toZ_wide, Arr.slice, hw, List.drop_zero, y]
  have hpt : seed.pub.point = y • (basepoint : P) := by
    show seedKey •. _ = _
    rw [mulPoint_eq, hy]
  have hpc : seed.pub.compressed = compress (y • (basepoint : P)) := by
    rw [← hpt]; rfl
  obtain ⟨s, hs, hb, hsz⟩ := issuing_nonce_is_hash kp t seed.pub (sys.fill 32).2
  rw [hpt, hpc, ← add_smul] at hb
  rw [hpt, hpc, ← add_smul] at hsz
  let cs := kp.issueAdaptorCert t seed.pub (sys.fill 32).2
  have hcs : cs.1 = ⟨Arr.append Γ s.bytes⟩ := by
    have : cs.1.bytes = Arr.append Γ s.bytes := Subtype.ext hb
    cases h : cs.1; rw [h] at this; simp at this; rw [this]
  have hcs2 : cs.2 = ((sys.fill 32).2.fill 32).2 := rfl
  have hacc : PublicKey.acceptAdaptorCert kp.pub t seed.secret cs.1 cs.2 =
      (.ok (⟨Γ⟩, ⟨s + seedKey, Oracles.merlin (witnessQuery (t.log ++ certFrames kp.pub.compressed.1) (b! "accepting")
        [Γ.1 ++ s.bytes.1, b.drop 64] (((sys.fill 32).2.fill 32).2.fill 32).1.1 32) 32⟩),
        (((sys.fill 32).2.fill 32).2.fill 32).2) := by
    rw [hcs, hcs2]
    unfold PublicKey.acceptAdaptorCert PublicKey.acceptAdaptorCertT
    have hlog : (commitPoint (protoName t (b! "Adaptor")) (b! "issuer-pk") kp.pub.compressed).log =
        t.log ++ certFrames kp.pub.compressed.1 := by
      simp [commitPoint, protoName, commitBytes, Transcript.appendMessage, certFrames]
    have hd : (seed.secret.nonce).1 = b.drop 64 := by
      show (w.slice 64 32 (by omega)).1 = _
      simp [Arr.slice, List.take_of_length_le, ← hw, w.2]
    have hv : scalarFromCanonicalBytes s.bytes = some s := by
      rw [scalarFromCanonicalBytes, Scalar.fromCanonicalBytes, if_pos (show leNat s.bytes.1 < ell from hs)]
    simp only [merlin_witness_bytes, cert_scalar_append, hv, cert_toPublic_append, hlog, hd]
    rfl
  refine ⟨⟨Γ⟩, ⟨s + seedKey, _⟩, s, ?_, rfl, ?_, hsz, rfl⟩
  · have e : (kp.issueSelfAdaptorCert t sys) =
      match PublicKey.acceptAdaptorCert kp.pub t seed.secret cs.1 cs.2 with
      | (.ok r, sys) => (.ok r, sys)
      | (.error _, sys) =>
        (.panic "Cert issued above and known to produce signature errors; qed", sys) := by
      unfold Keypair.issueSelfAdaptorCert
      simp only [merlin_witness_bytes]
      rfl
    rw [e, hacc]
  · rw [Scalar.toZ_add hs (Scalar.canonical_wide _), hsz, hy]; ring

/-- **C52** the nonce seed of a soft-derived key is the hash of the whole derivation history (including both
derivation challenges), the parent's nonce seed and all 64 bytes of the parent secret key, and 32 RNG bytes. -/
theorem derived_nonce_is_hash [Oracles] (kp : Keypair P) (t : Transcript) (cc : ChainCode) (sys : Rng) :
    (Derivation.derivedKey kp t cc sys).1.secret.nonce =
      Oracles.merlin (witnessQuery (softQuery t.log cc.bytes.1 kp.pub.compressed.1 ++
        [.challenge (b! "HDKD-chaincode") 32]) (b! "HDKD-nonce")
        [kp.secret.nonce.1, kp.secret.key.bytes.1 ++ kp.secret.nonce.1] (sys.fill 32).1.1 32) 32 := by
  show (kp.deriveSecretKey t cc sys).1.nonce = _
  unfold Keypair.deriveSecretKey Keypair.deriveSecretKeyT
  simp only [merlin_witness_bytes]
  have : (PublicKey.deriveScalarAndChaincode kp.pub t cc).2.2.log =
      softQuery t.log cc.bytes.1 kp.pub.compressed.1 ++ [.challenge (b! "HDKD-chaincode") 32] := by
    simp [PublicKey.deriveScalarAndChaincode, challengeScalar, SigningTranscript.challengeBytes, softQuery,
      commitPoint, SigningTranscript.commitBytes, Transcript.challengeBytes, Transcript.appendMessage]
  rw [this]; rfl

/-- **C52** 2DH sender: the ephemeral key sent is `r·B` with `r` the hash of the history, the sender's nonce
seed and 32 RNG bytes, and the AEAD key is the answer to the query naming history, both exchanges and all
three public keys. -/
theorem sender_ephemeral_is_hash [Oracles] (kp : Keypair P) (t : Transcript) (pk : PublicKey P) (n : Nat) (sys : Rng) :
    let r := hashToZ (witnessQuery t.log (b! "make_esk") [kp.secret.nonce.1] (sys.fill 32).1.1 64)
    let E := compress (r • (basepoint : P))
    ∃ lo hi lo' hi' : Compressed, SortedPair E.1 pk.compressed.1 lo.1 hi.1 ∧
      SortedPair kp.pub.compressed.1 pk.compressed.1 lo'.1 hi'.1 ∧
      (kp.senderAead t pk n sys).1 = (E, Oracles.merlin (twoDhQuery t.log lo.1 hi.1 (compress (r • pk.point)).1
        lo'.1 hi'.1 (compress (kp.secret.key.toZ • pk.point)).1 n) n) := by
  intro r E
  obtain ⟨hk1, hk2⟩ := merlin_witness_scalar t (b! "make_esk") [kp.secret.nonce.1] sys
  obtain ⟨lo, hi, h1, h2⟩ := sort2_spec E pk.compressed
  obtain ⟨lo', hi', h3, h4⟩ := sort2_spec kp.pub.compressed pk.compressed
  refine ⟨lo, hi, lo', hi', h2, h4, ?_⟩
  let w := witnessScalar t (b! "make_esk") [kp.secret.nonce.1] sys
  have hw : w = (w.1, t, (sys.fill 32).2) := by rw [← hk2]
  have hE : ((⟨w.1, kp.secret.nonce⟩ : SecretKey).toKeypair : Keypair P).pub.compressed = E := by
    show compress (w.1 •. (basepoint : P)) = E
    rw [mulPoint_eq, hk1]
  have e : (kp.senderAead t pk n sys).1 =
    ((((⟨w.1, kp.secret.nonce⟩ : SecretKey).toKeypair : Keypair P).pub.compressed),
      makeAead (kp.commitKeyExchange ((((⟨w.1, kp.secret.nonce⟩ : SecretKey).toKeypair : Keypair P)).commitKeyExchange
        t (b! "epk") pk) (b! "epk") pk) n) := by
    unfold Keypair.senderAead Keypair.senderAeadT
    have : witnessScalar t (b! "make_esk") [kp.secret.nonce.1] sys = (w.1, t, (sys.fill 32).2) := hw
    simp only [this]
    rfl
  have hs : (SecretKey.rawKeyExchange ⟨w.1, kp.secret.nonce⟩ pk : Compressed) = compress (r • pk.point) := by
    show compress (w.1 •. pk.point) = _
    rw [mulPoint_eq, hk1]
  have hs' : (SecretKey.rawKeyExchange kp.secret pk : Compressed) = compress (kp.secret.key.toZ • pk.point) := by
    show compress (_ •. pk.point) = _
    rw [mulPoint_eq]
  rw [e, hE]
  congr 1
  have hs0 : ((⟨w.1, kp.secret.nonce⟩ : SecretKey).toKeypair : Keypair P).secret = ⟨w.1, kp.secret.nonce⟩ := rfl
  simp only [Keypair.commitKeyExchange, hE, h1, h3, makeAead, makeAeadT, SecretKey.commitRawKeyExchange, hs, hs', hs0,
    List.foldl_cons, List.foldl_nil, commitPoint, commitBytes, SigningTranscript.challengeBytes,
    Transcript.challengeBytes, Transcript.appendMessage, twoDhQuery, kexFrames, List.append_assoc,
    List.cons_append, List.nil_append]

/-! ## C53: an attached RNG replaces the system RNG, and how much randomness each call draws -/

/-- Transcripts whose `witness_bytes` is the trait's default: only the caller's RNG is consumed. -/
def DefaultWitness (T : Type) [SigningTranscript T] : Prop :=
  ∀ (t : T) (l : Bytes) (n : Nat) (s : List Bytes) (sys : Rng),
    witnessBytes t l n s sys = ((witnessBytesRng t l n s sys).1, t, (witnessBytesRng t l n s sys).2)

theorem merlin_default_witness [Oracles] : DefaultWitness Transcript := fun _ _ _ _ _ => rfl
theorem xof_default_witness [Oracles] : DefaultWitness XoFTranscript := fun _ _ _ _ _ => rfl

/-- **C53** signing, VRF proving, derivation, certificates and key exchange with `attach_rng(t, rng)` give
exactly the values obtained from `t` when the *system* RNG is `rng`, and do not touch the real system RNG.
(`issue_self_adaptor_cert` needs a `Clone` transcript, which `SigningTranscriptWithRng` is not.) -/
theorem attached_rng_is_the_rng {T : Type} [SigningTranscript T] (hT : DefaultWitness T) (t : T) (rng sys : Rng)
    (kp : Keypair P) :
    (∀ pk : PublicKey P, (kp.secret.sign (attachRng t rng) pk sys).1 = (kp.secret.sign t pk rng).1 ∧
      (kp.secret.sign (attachRng t rng) pk sys).2.2 = sys) ∧
    (∀ p k, (kp.dleqProove (attachRng t rng) p k sys).1 = (kp.dleqProove t p k rng).1 ∧
      (kp.dleqProove (attachRng t rng) p k sys).2.2 = sys) ∧
    (∀ cc, (Derivation.derivedKey kp (attachRng t rng) cc sys).1 = (Derivation.derivedKey kp t cc rng).1 ∧
      (Derivation.derivedKey kp (attachRng t rng) cc sys).2.1 = (Derivation.derivedKey kp t cc rng).2.1 ∧
      (Derivation.derivedKey kp (attachRng t rng) cc sys).2.2 = sys) ∧
    (∀ pk : PublicKey P, (kp.issueAdaptorCert (attachRng t rng) pk sys) = ((kp.issueAdaptorCert t pk rng).1, sys)) ∧
    (∀ (pk : PublicKey P) seed cert, (pk.acceptAdaptorCert (attachRng t rng) seed cert sys) =
      ((pk.acceptAdaptorCert t seed cert rng).1, sys)) ∧
    (∀ (pk : PublicKey P) n, (kp.senderAead (attachRng t rng) pk n sys) = ((kp.senderAead t pk n rng).1, sys)) := by
  have hw : ∀ (t : T) (l : Bytes) (n : Nat) (s : List Bytes),
      witnessBytes (attachRng t rng) l n s sys =
        ((witnessBytes t l n s rng).1, attachRng t (witnessBytes t l n s rng).2.2, sys) := by
    intro t l n s; rw [hT]; rfl
  have hw' : ∀ (t : T) (l : Bytes) (n : Nat) (s : List Bytes),
      witnessBytes t l n s rng = ((witnessBytes t l n s rng).1, t, (witnessBytes t l n s rng).2.2) := by
    intro t l n s; rw [hT]
  have hs : ∀ (t : T) (l : Bytes) (s : List Bytes),
      witnessScalar (attachRng t rng) l s sys =
        ((witnessScalar t l s rng).1, attachRng t (witnessScalar t l s rng).2.2, sys) := by
    intro t l s; unfold witnessScalar; rw [hw]
  have hs' : ∀ (t : T) (l : Bytes) (s : List Bytes),
      witnessScalar t l s rng = ((witnessScalar t l s rng).1, t, (witnessScalar t l s rng).2.2) := by
    intro t l s; unfold witnessScalar; rw [hw']
  have hc : ∀ (t : T) (r : Rng) (l : Bytes) (b : Compressed),
      commitPoint (attachRng t r) l b = attachRng (commitPoint t l b) r := fun _ _ _ _ => rfl
  have hp : ∀ (t : T) (r : Rng) (l : Bytes), protoName (attachRng t r) l = attachRng (protoName t l) r :=
    fun _ _ _ => rfl
  have hi : ∀ (b : Bool) (t t' : T) (r : Rng), (if b = true then attachRng t r else attachRng t' r) =
      attachRng (if b = true then t else t') r := by intro b t t' r; cases b <;> rfl
  refine ⟨fun pk => ?_, fun p k => ?_, fun cc => ?_, fun pk => ?_, fun pk seed cert => ?_, fun pk n => ?_⟩
  · unfold SecretKey.sign
    simp only [hp, hc, hs]
    rw [hs']
    exact ⟨rfl, trivial⟩
  · unfold Keypair.dleqProove
    simp only [hp, hc, hi, hs]
    rw [hs']
    simp only [hc, hi]
    exact ⟨rfl, trivial⟩
  · have hd : PublicKey.deriveScalarAndChaincode kp.pub (attachRng t rng) cc =
      ((PublicKey.deriveScalarAndChaincode kp.pub t cc).1, (PublicKey.deriveScalarAndChaincode kp.pub t cc).2.1,
        attachRng (PublicKey.deriveScalarAndChaincode kp.pub t cc).2.2 rng) := rfl
    simp only [Derivation.derivedKey, Derivation.derivedKeyT, Keypair.deriveSecretKey, Keypair.deriveSecretKeyT, hd, hw, and_self]
  · unfold Keypair.issueAdaptorCert Keypair.issueAdaptorCertT
    simp only [hp, hc, hs]
    rw [hs']
    rfl
  · unfold PublicKey.acceptAdaptorCert PublicKey.acceptAdaptorCertT
    simp only [hp, hc, hw]
    cases scalarFromCanonicalBytes (cert.bytes.slice 32 32 (by omega)) <;> rfl
  · unfold Keypair.senderAead Keypair.senderAeadT
    have hf : ∀ (l : List Compressed) (t : T) (r : Rng),
        l.foldl (fun t pk => commitPoint t (b! "pk") pk) (attachRng t r) =
          attachRng (l.foldl (fun t pk => commitPoint t (b! "pk") pk) t) r := by
      intro l
      induction l with
      | nil => intro t r; rfl
      | cons a as ih => intro t r; exact ih _ _
    have hk : ∀ (kp : Keypair P) (t : T) (r : Rng) (l : Bytes),
        kp.commitKeyExchange (attachRng t r) l pk = attachRng (kp.commitKeyExchange t l pk) r := by
      intro kp t r l
      unfold Keypair.commitKeyExchange SecretKey.commitRawKeyExchange
      simp only [hf, hc]
    simp only [hs]
    rw [hs']
    simp only [hk]
    rfl

private def w3 : SecretKey := ⟨Scalar.ofNat 3, zeros 32⟩
private def w5 : SecretKey := ⟨Scalar.ofNat 5, zeros 32⟩

/-- Non-vacuity for C51: with the toy hash and a constant RNG, a secret key beside two different public keys
gives two VRF proofs with equal commitments and different challenges; and the honest proof verifies. -/
example : letI := toyOracles
    let kp : Keypair Toy := w3.toKeypair
    let kp' : Keypair Toy := ⟨w3, w5.toPublic⟩
    let t : Transcript := ⟨ctxLog (b! "c") (b! "m")⟩
    let a := kp.vrfSignExtra (.malleable t) (Transcript.new (b! "VRF")) zeroRng
    let b := kp'.vrfSignExtra (.malleable t) (Transcript.new (b! "VRF")) zeroRng
    a.2.2.R = b.2.2.R ∧ a.2.1.c ≠ b.2.1.c ∧
    (match PublicKey.vrfVerify kp.pub (.malleable t) a.1.toPreout a.2.1 with
      | .ok _ => true | .error _ => false) = true := by
  letI := toyOracles
  refine ⟨?_, ?_, ?_⟩ <;> decide +kernel

/-- Non-vacuity for C52: acceptance succeeds in a concrete run, so the nonce theorem is not vacuous. -/
example : letI := toyOracles
    let t : Transcript := ⟨ctxLog (b! "c") (b! "m")⟩
    let kp : Keypair Toy := w3.toKeypair
    (match (PublicKey.acceptAdaptorCert kp.pub t w5 (kp.issueAdaptorCert t w5.toPublic zeroRng).1 zeroRng).1 with
     | .ok _ => true
     | .error _ => false) = true := by
  letI := toyOracles
  decide +kernel

end Schnorrkel.Props
