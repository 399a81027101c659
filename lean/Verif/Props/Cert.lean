import Verif.Spec.Cert
import Verif.Lemmas.Sign
import Verif.Instance

/-! # C37: Adaptor implicit certificates -/

namespace Schnorrkel.Props
open SigningTranscript Spec
variable {P : Type} [Ristretto P] {T T' T'' : Type} [SigningTranscript T] [SigningTranscript T']
  [SigningTranscript T'']

/-- First half of the certificate: reconstruction data. -/
theorem cert_toPublic_append (g : Arr 32) (s : Arr 32) :
    (⟨Arr.append g s⟩ : AdaptorCertSecret).toPublic = ⟨g⟩ := by
  unfold AdaptorCertSecret.toPublic
  congr 1
  apply Arr.ext'
  simp [Arr.slice, Arr.append, g.2, List.take_of_length_le]

theorem cert_scalar_append (g : Arr 32) (s : Arr 32) :
    (Arr.append g s : Arr 64).slice 32 32 (by omega) = s := by
  apply Arr.ext'
  simp [Arr.slice, Arr.append, g.2, s.2, List.take_of_length_le]

/-- **C37** exact result of `accept_adaptor_cert` on arbitrary certificate bytes: it fails (with
`ScalarFormatError`) exactly when the second half is not a reduced scalar; otherwise the new secret
scalar is that scalar plus the seed's, and the public part is the first half, undecoded. -/
theorem accept_adaptor_cert_table (pk : PublicKey P) (t : T) (seed : SecretKey)
    (hc : seed.key.Canonical) (cert : AdaptorCertSecret) (sys : Rng) :
    let s := leNat (cert.bytes.1.drop 32)
    (ell ≤ s ∧ (PublicKey.acceptAdaptorCert pk t seed cert sys).1 = .error .scalarFormatError) ∨
    (s < ell ∧ ∃ pub sk, (PublicKey.acceptAdaptorCert pk t seed cert sys).1 = .ok (pub, sk) ∧
      pub.bytes.1 = cert.bytes.1.take 32 ∧ sk.key.toZ = (s : Z) + seed.key.toZ ∧ sk.key.Canonical) := by
  intro s
  have hs : (cert.bytes.slice 32 32 (by omega)).1 = cert.bytes.1.drop 32 := by
    simp [Arr.slice, List.take_of_length_le, cert.bytes.2]
  unfold PublicKey.acceptAdaptorCert PublicKey.acceptAdaptorCertT
  by_cases h : s < ell
  · right
    have hv : scalarFromCanonicalBytes (cert.bytes.slice 32 32 (by omega)) =
        some ⟨cert.bytes.slice 32 32 (by omega)⟩ := by
      rw [scalarFromCanonicalBytes, Scalar.fromCanonicalBytes, if_pos (by rw [hs]; exact h)]
    have hcan : Scalar.Canonical ⟨cert.bytes.slice 32 32 (by omega)⟩ := by
      unfold Scalar.Canonical Scalar.val; rw [hs]; exact h
    refine ⟨h, cert.toPublic, _, by simp only [hv]; rfl, ?_, ?_, ?_⟩
    · simp [AdaptorCertSecret.toPublic, Arr.slice]
    · show Scalar.toZ (_ + seed.key) = _
      rw [Scalar.toZ_add hcan hc]
      congr 1
      unfold Scalar.toZ Scalar.val; rw [hs]
    · exact Scalar.canonical_add hcan hc
  · left
    have hv : scalarFromCanonicalBytes (cert.bytes.slice 32 32 (by omega)) = none := by
      rw [scalarFromCanonicalBytes, Scalar.fromCanonicalBytes, if_neg (by rw [hs]; exact h)]
    exact ⟨by omega, by simp only [hv]⟩

/-- **C37** exact result of `open_adaptor_cert`: it fails (with `PointDecompressionError`) exactly when
the data is not a point encoding; otherwise it is the point `e·A + Γ`. -/
theorem open_adaptor_cert_table (pk : PublicKey P) (t : T) (cert : AdaptorCertPublic) :
    ((∀ Γ : P, compress Γ ≠ cert.bytes) ∧
      PublicKey.openAdaptorCert pk t cert = .error .pointDecompressionError) ∨
    (∃ Γ : P, compress Γ = cert.bytes ∧ PublicKey.openAdaptorCert pk t cert =
      .ok (RistrettoBoth.fromPoint (certChallenge t pk.compressed cert.bytes • pk.point + Γ))) := by
  unfold PublicKey.openAdaptorCert PublicKey.openAdaptorCertT
  rcases hd : (decompress cert.bytes : Option P) with _ | Γ
  · left
    refine ⟨fun Γ hΓ => ?_, by simp only [hd]⟩
    rw [(Ristretto.decompress_iff _ _).mpr hΓ] at hd; cases hd
  · right
    refine ⟨Γ, compress_of_decompress hd, ?_⟩
    simp only [hd, mulPoint_eq]; rfl

/-- **C37** what the issuer produces. -/
theorem issue_adaptor_cert_spec {Rel : T → T' → Prop} (hR : TSim Rel) {t : T} {t' : T'} (ht : Rel t t')
    (issuer : Keypair P) (seedPk : PublicKey P) (sys : Rng) :
    ∃ (k s : Scalar), k.Canonical ∧ s.Canonical ∧
      let Γ : P := seedPk.point + k.toZ • basepoint
      (issuer.issueAdaptorCert t seedPk sys).1.bytes = Arr.append (compress Γ) s.bytes ∧
      s.toZ = k.toZ + certChallenge t' issuer.pub.compressed (compress Γ) * issuer.secret.key.toZ := by
  let t1 := commitPoint (protoName t (b! "Adaptor")) (b! "issuer-pk") issuer.pub.compressed
  let w := witnessScalar t1 (b! "issuing") [issuer.secret.nonce.1, seedPk.compressed.1] sys
  let Γ : P := seedPk.point + w.1 •. basepoint
  let e := (challengeScalar (commitPoint w.2.1 (b! "gamma") (compress Γ)) (b! "adaptor-e")).1
  have hΓ : Γ = seedPk.point + w.1.toZ • basepoint := by simp only [Γ, mulPoint_eq]
  have hk : w.1.Canonical := canonical_witness _ _ _ _
  have h1 : Rel t1 _ := hR.point (b! "issuer-pk") issuer.pub.compressed (hR.proto (b! "Adaptor") ht)
  have h2 := hR.point (b! "gamma") (compress Γ) (hR.witnessScalar_left (b! "issuing")
    [issuer.secret.nonce.1, seedPk.compressed.1] sys h1)
  have he : e.toZ = certChallenge t' issuer.pub.compressed (compress Γ) :=
    congrArg Scalar.toZ (hR.challengeScalar_eq (b! "adaptor-e") h2)
  refine ⟨w.1, w.1 + e * issuer.secret.key, hk, Scalar.canonical_add hk (Scalar.canonical_mul _ _), ?_⟩
  intro Γ'
  have : Γ' = Γ := hΓ.symm
  rw [this]
  refine ⟨rfl, ?_⟩
  rw [Scalar.toZ_add hk (Scalar.canonical_mul _ _), Scalar.toZ_mul, he]

/-- **C37** honest issuance, by three parties (issuer, holder, third party) whose transcripts may have
different types but the same history, whatever the RNGs: acceptance succeeds, opening succeeds, and the
opened public key is the public key of the accepted secret key, which is reduced. -/
theorem adaptor_cert_complete {Rel : T → T'' → Prop} (hR : TSim Rel) {t : T} {t'' : T''} (ht : Rel t t'')
    (t' : T') (issuer : SecretKey) (seed : SecretKey)
    (hs : seed.key.Canonical) (sys sys' : Rng) :
    let kp : Keypair P := issuer.toKeypair
    let cert := (kp.issueAdaptorCert t seed.toPublic sys).1
    ∃ pub sk, (PublicKey.acceptAdaptorCert kp.pub t' seed cert sys').1 = .ok (pub, sk) ∧
      pub = cert.toPublic ∧ sk.key.Canonical ∧
      PublicKey.openAdaptorCert kp.pub t'' pub = .ok sk.toPublic := by
  intro kp cert
  obtain ⟨k, s, hk, hsc, hb, hst⟩ := issue_adaptor_cert_spec hR ht kp seed.toPublic sys
  let Γ : P := (seed.toPublic : PublicKey P).point + k.toZ • basepoint
  have hcert : cert = ⟨Arr.append (compress Γ) s.bytes⟩ := by
    show (⟨cert.bytes⟩ : AdaptorCertSecret) = _
    rw [show cert.bytes = _ from hb]
  have hacc : (PublicKey.acceptAdaptorCert kp.pub t' seed cert sys').1 =
      .ok (cert.toPublic, ⟨s + seed.key, (witnessBytes (commitPoint (protoName t' (b! "Adaptor"))
        (b! "issuer-pk") kp.pub.compressed) (b! "accepting") 32 [cert.bytes.1, seed.nonce.1] sys').1⟩) := by
    have : scalarFromCanonicalBytes (cert.bytes.slice 32 32 (by omega)) = some s := by
      rw [hcert, cert_scalar_append]
      exact Scalar.fromCanonicalBytes_eq_some.mpr ⟨rfl, hsc⟩
    simp only [PublicKey.acceptAdaptorCert, PublicKey.acceptAdaptorCertT, this]
  refine ⟨_, _, hacc, rfl, Scalar.canonical_add hsc hs, ?_⟩
  have hpub : cert.toPublic = ⟨compress Γ⟩ := by rw [hcert, cert_toPublic_append]
  rw [hpub]
  rcases open_adaptor_cert_table kp.pub t'' ⟨compress Γ⟩ with ⟨h, _⟩ | ⟨Γ', h, h2⟩
  · exact absurd rfl (h Γ)
  · rw [h2, compress_inj.mp h]
    congr 1
    show RistrettoBoth.fromPoint _ = RistrettoBoth.fromPoint ((s + seed.key) •. basepoint)
    congr 1
    have hst' : s.toZ = k.toZ + certChallenge t'' kp.pub.compressed (compress Γ) * issuer.key.toZ := hst
    rw [mulPoint_eq, Scalar.toZ_add hsc hs, hst']
    generalize certChallenge t'' kp.pub.compressed (compress Γ) = e
    have e1 : kp.pub.point = issuer.key.toZ • (basepoint : P) := mulPoint_eq _ _
    have e2 : Γ = seed.key.toZ • (basepoint : P) + k.toZ • basepoint := by
      simp only [Γ]; congr 1; exact mulPoint_eq _ _
    rw [e1, e2]
    module

/-- **C37** self issuance never reaches its `expect` panic, for any transcript and RNG, even when the
issuing keypair is inconsistent or its scalar not reduced; for a consistent one the returned secret key matches what third parties
open (`t'` has the history of `t`). -/
theorem issue_self_adaptor_cert_complete {Rel : T → T' → Prop} (hR : TSim Rel) {t : T} {t' : T'}
    (ht : Rel t t') (kp : Keypair P) (sys : Rng) :
    ∃ pub sk, (kp.issueSelfAdaptorCert t sys).1 = .ok (pub, sk) ∧ sk.key.Canonical ∧
      (kp = kp.secret.toKeypair → PublicKey.openAdaptorCert kp.pub t' pub = .ok sk.toPublic) := by
  let w := witnessBytes t (b! "issue_self_adaptor_cert") 96 [kp.secret.nonce.1, kp.secret.toBytes.1] sys
  let seed : SecretKey := ⟨Scalar.fromBytesModOrderWide (w.1.slice 0 64 (by omega)),
    w.1.slice 64 32 (by omega)⟩
  have hseed : seed.key.Canonical := Scalar.canonical_wide _
  have hw : Rel w.2.1 t' := hR.witness_left _ _ _ _ _ _ ht
  let ic := kp.issueAdaptorCert w.2.1 (seed.toPublic : PublicKey P) w.2.2
  have key : ∀ pub sk, (PublicKey.acceptAdaptorCert kp.pub w.2.1 seed ic.1 ic.2).1 = .ok (pub, sk) →
      (kp.issueSelfAdaptorCert t sys).1 = .ok (pub, sk) := by
    intro pub sk h
    have e : (kp.issueSelfAdaptorCert t sys) =
      match PublicKey.acceptAdaptorCert kp.pub w.2.1 seed ic.1 ic.2 with
      | (.ok r, sys) => (.ok r, sys)
      | (.error _, sys) =>
        (.panic "Cert issued above and known to produce signature errors; qed", sys) := rfl
    rw [e]
    rcases hr : PublicKey.acceptAdaptorCert kp.pub w.2.1 seed ic.1 ic.2 with ⟨r, q⟩
    rw [hr] at h
    simp only at h
    rw [h]
  obtain ⟨k, s, hk, hsc, hb, hst⟩ := issue_adaptor_cert_spec hR hw kp (seed.toPublic : PublicKey P) w.2.2
  rcases accept_adaptor_cert_table kp.pub w.2.1 seed hseed ic.1 ic.2 with ⟨h, _⟩ | ⟨_, pub, sk, h1, h2, h3, h4⟩
  · exfalso
    have hb' : ic.1.bytes = Arr.append _ s.bytes := hb
    rw [hb'] at h
    simp only [Arr.append, Arr.drop_append] at h
    unfold Scalar.Canonical Scalar.val at hsc
    omega
  · refine ⟨pub, sk, key _ _ h1, h4, fun hkp => ?_⟩
    have := adaptor_cert_complete hR hw w.2.1 kp.secret seed hseed w.2.2 ic.2 (P := P)
    rw [← hkp] at this
    obtain ⟨pub', sk', g1, _, _, g4⟩ := this
    have : PublicKey.acceptAdaptorCert kp.pub w.2.1 seed ic.1 ic.2 = _ := rfl
    have e : (.ok (pub, sk) : SignatureResult (AdaptorCertPublic × SecretKey)) = .ok (pub', sk') := by
      rw [← h1]; exact g1
    cases e
    exact g4

/-- **C37** malicious issuers: acceptance does not check the reconstruction data.  When both acceptance
and opening succeed, the accepted secret key belongs to the opened public key exactly when
`Γ = (s + seed)·B − e·A`; nothing in `accept_adaptor_cert` enforces it. -/
theorem accepted_cert_matches_iff (pk : PublicKey P) (t : T) (t' : T') (seed : SecretKey)
    (hc : seed.key.Canonical) (cert : AdaptorCertSecret) (sys : Rng) (pub : AdaptorCertPublic)
    (sk : SecretKey) (opened : PublicKey P)
    (hacc : (PublicKey.acceptAdaptorCert pk t seed cert sys).1 = .ok (pub, sk))
    (hopen : PublicKey.openAdaptorCert pk t' pub = .ok opened) :
    ∃ Γ : P, (compress Γ).1 = cert.bytes.1.take 32 ∧
      (opened = sk.toPublic ↔
        CertRel pk.point Γ (certChallenge t' pk.compressed (compress Γ))
          ((leNat (cert.bytes.1.drop 32) : Z) + seed.key.toZ)) := by
  rcases accept_adaptor_cert_table pk t seed hc cert sys with ⟨_, h⟩ | ⟨_, pub', sk', h1, h2, h3, h4⟩
  · rw [h] at hacc; cases hacc
  · rw [h1] at hacc; cases hacc
    rcases open_adaptor_cert_table pk t' pub with ⟨_, h⟩ | ⟨Γ, g1, g2⟩
    · rw [h] at hopen; cases hopen
    · rw [g2] at hopen; cases hopen
      refine ⟨Γ, by rw [g1]; exact h2, ?_⟩
      rw [g1, ← h3]
      unfold CertRel
      rw [← mulPoint_eq]
      constructor
      · intro h; exact (congrArg RistrettoBoth.point h).symm
      · intro h; show RistrettoBoth.fromPoint _ = RistrettoBoth.fromPoint _; rw [h]

/-- **C37** two certified keys with known secrets, under the same issuer and reconstruction data but
different challenges, reveal the issuer's secret key: certificates cannot be transplanted to another
context without it. -/
theorem cert_transplant_reveals_issuer (a x₁ x₂ e₁ e₂ : Z) (Γ : P) (he : e₁ ≠ e₂)
    (h₁ : CertRel (a • basepoint) Γ e₁ x₁) (h₂ : CertRel (a • basepoint) Γ e₂ x₂) :
    a = (x₁ - x₂) / (e₁ - e₂) := by
  unfold CertRel at *
  have : (x₁ - x₂) • (basepoint : P) = ((e₁ - e₂) * a) • basepoint := by
    rw [sub_smul, h₁, h₂]; module
  rw [smul_basepoint_inj] at this
  rw [this, mul_comm, mul_div_cancel_right₀ _ (sub_ne_zero.mpr he)]

/-- **C37** the challenge is the answer to a query naming history, issuer key and reconstruction data
injectively. -/
theorem cert_challenge_is_query [Oracles] (t : Transcript) (pk g : Compressed) :
    certChallenge t pk g = hashToZ (certQuery t.log pk.1 g.1) := by
  unfold certChallenge hashToZ
  simp only [challengeScalar]
  rw [Scalar.toZ_wide]
  simp [certQuery, SigningTranscript.challengeBytes, Transcript.challengeBytes, commitPoint, protoName,
    SigningTranscript.commitBytes, Transcript.appendMessage]

theorem cert_query_injective (l₁ l₂ : List MOp) (p₁ p₂ g₁ g₂ : Bytes) :
    certQuery l₁ p₁ g₁ = certQuery l₂ p₂ g₂ ↔ l₁ = l₂ ∧ p₁ = p₂ ∧ g₁ = g₂ := by
  constructor
  · intro h
    have := List.append_inj' h rfl
    simp at this
    tauto
  · rintro ⟨rfl, rfl, rfl⟩; rfl

private def k3 : SecretKey := ⟨Scalar.ofNat 3, zeros 32⟩
private def k5 : SecretKey := ⟨Scalar.ofNat 5, zeros 32⟩

/-- Non-vacuity for C37, and the malicious case: in the toy group, issuer key 3 and seed key 5; the honest
certificate opens to the accepted key, and a garbage certificate (`Γ` = identity, `s = 1`) is *accepted*
while the key it opens to is a different one. -/
example : letI := toyOracles
    let t : Transcript := ⟨ctxLog (b! "c") (b! "m")⟩
    let kp : Keypair Toy := k3.toKeypair
    k3.key.Canonical ∧ k5.key.Canonical ∧
    (match (PublicKey.acceptAdaptorCert kp.pub t k5 (kp.issueAdaptorCert t k5.toPublic zeroRng).1 zeroRng).1 with
     | .ok (pub, sk) => (match PublicKey.openAdaptorCert kp.pub t pub with
        | .ok pk => decide (pk.point = (sk.toPublic : PublicKey Toy).point)
        | .error _ => false)
     | .error _ => false) = true ∧
    (match (PublicKey.acceptAdaptorCert kp.pub t k5 ⟨Arr.append (zeros 32) (leArr 32 1)⟩ zeroRng).1 with
     | .ok (pub, sk) => (match PublicKey.openAdaptorCert kp.pub t pub with
        | .ok pk => decide (pk.point ≠ (sk.toPublic : PublicKey Toy).point)
        | .error _ => false)
     | .error _ => false) = true := by
  letI := toyOracles
  refine ⟨?_, ?_, ?_, ?_⟩ <;> decide +kernel

end Schnorrkel.Props
