import Verif.Model.Sign

/-! # `src/cert.rs`: Adaptor implicit certificates -/

namespace Schnorrkel
open SigningTranscript
variable {P : Type} [Ristretto P] {T : Type} [SigningTranscript T]

/-- `cert.rs:63-64` -/
structure AdaptorCertSecret where
  bytes : Arr 64
deriving DecidableEq

/-- `cert.rs:80-81` -/
structure AdaptorCertPublic where
  bytes : Arr 32
deriving DecidableEq

/-- `cert.rs:67-73` `From<AdaptorCertSecret> for AdaptorCertPublic` -/
def AdaptorCertSecret.toPublic (c : AdaptorCertSecret) : AdaptorCertPublic :=
  ⟨c.bytes.slice 0 32 (by omega)⟩

/-- `cert.rs:85-87` (does not use `self`); the second component is the final transcript. -/
def AdaptorCertPublic.deriveE (_ : AdaptorCertPublic) (t : T) : Scalar × T :=
  challengeScalar t (b! "adaptor-e")

/-- `cert.rs:101-130`; with the final transcript, which the caller sees if it passed `&mut t`, and the system RNG. -/
def Keypair.issueAdaptorCertT (kp : Keypair P) (t : T) (seedPublicKey : PublicKey P) (sys : Rng) :
    AdaptorCertSecret × T × Rng :=
  let t := protoName t (b! "Adaptor")
  let t := commitPoint t (b! "issuer-pk") kp.pub.compressed
  let (k, t, sys) := witnessScalar t (b! "issuing") [kp.secret.nonce.1, seedPublicKey.compressed.1] sys
  let gamma := compress (seedPublicKey.point + k •. basepoint)
  let t := commitPoint t (b! "gamma") gamma
  let certPublic : AdaptorCertPublic := ⟨gamma⟩
  let (e, t) := certPublic.deriveE t
  let s := k + e * kp.secret.key
  (⟨Arr.append certPublic.bytes s.bytes⟩, t, sys)

/-- `cert.rs:101-130`, for a caller who gives the transcript away; the second component is the system RNG. -/
def Keypair.issueAdaptorCert (kp : Keypair P) (t : T) (seedPublicKey : PublicKey P) (sys : Rng) :
    AdaptorCertSecret × Rng :=
  ((kp.issueAdaptorCertT t seedPublicKey sys).1, (kp.issueAdaptorCertT t seedPublicKey sys).2.2)

/-- `cert.rs:151-177`; with the final transcript, which the caller sees if it passed `&mut t`, and the system RNG. -/
def PublicKey.acceptAdaptorCertT (pk : PublicKey P) (t : T) (seedSecretKey : SecretKey)
    (certSecret : AdaptorCertSecret) (sys : Rng) :
    SignatureResult (AdaptorCertPublic × SecretKey) × T × Rng :=
  let t := protoName t (b! "Adaptor")
  let t := commitPoint t (b! "issuer-pk") pk.compressed
  let (nonce, t, sys) := witnessBytes t (b! "accepting") 32 [certSecret.bytes.1, seedSecretKey.nonce.1] sys
  let s := certSecret.bytes.slice 32 32 (by omega)
  match scalarFromCanonicalBytes s with
  | none => (.error .scalarFormatError, t, sys)
  | some s =>
    let certPublic := certSecret.toPublic
    let gamma : Compressed := certPublic.bytes
    let t := commitPoint t (b! "gamma") gamma
    let key := s + seedSecretKey.key
    (.ok (certPublic, ⟨key, nonce⟩), t, sys)

/-- `cert.rs:151-177`, for a caller who gives the transcript away; the second component is the system RNG. -/
def PublicKey.acceptAdaptorCert (pk : PublicKey P) (t : T) (seedSecretKey : SecretKey)
    (certSecret : AdaptorCertSecret) (sys : Rng) :
    SignatureResult (AdaptorCertPublic × SecretKey) × Rng :=
  ((PublicKey.acceptAdaptorCertT pk t seedSecretKey certSecret sys).1,
    (PublicKey.acceptAdaptorCertT pk t seedSecretKey certSecret sys).2.2)

/-- `cert.rs:196-219`.  The `expect` is the panic. -/
def Keypair.issueSelfAdaptorCert (kp : Keypair P) (t : T) (sys : Rng) :
    Outcome (AdaptorCertPublic × SecretKey) × Rng :=
  let (bytes, t, sys) := witnessBytes t (b! "issue_self_adaptor_cert") 96
    [kp.secret.nonce.1, kp.secret.toBytes.1] sys
  let nonce := bytes.slice 64 32 (by omega)
  let key := bytes.slice 0 64 (by omega)
  let key := Scalar.fromBytesModOrderWide key
  let seed : Keypair P := (⟨key, nonce⟩ : SecretKey).toKeypair
  let (certSecret, sys) := kp.issueAdaptorCert t seed.pub sys
  match PublicKey.acceptAdaptorCert kp.pub t seed.secret certSecret sys with
  | (.ok r, sys) => (.ok r, sys)
  | (.error _, sys) => (.panic "Cert issued above and known to produce signature errors; qed", sys)

/-- `cert.rs:228-247`; with the final transcript, which the caller sees if it passed `&mut t`. -/
def PublicKey.openAdaptorCertT (pk : PublicKey P) (t : T) (certPublic : AdaptorCertPublic) :
    SignatureResult (PublicKey P) × T :=
  let t := protoName t (b! "Adaptor")
  let t := commitPoint t (b! "issuer-pk") pk.compressed
  let gamma : Compressed := certPublic.bytes
  let t := commitPoint t (b! "gamma") gamma
  match decompress gamma with
  | none => (.error .pointDecompressionError, t)
  | some gamma =>
    let (e, t) := certPublic.deriveE t
    let point := e •. pk.point + gamma
    (.ok (PublicKey.fromPoint point), t)

/-- `cert.rs:228-247`, for a caller who gives the transcript away. -/
def PublicKey.openAdaptorCert (pk : PublicKey P) (t : T) (certPublic : AdaptorCertPublic) :
    SignatureResult (PublicKey P) :=
  (PublicKey.openAdaptorCertT pk t certPublic).1

end Schnorrkel
