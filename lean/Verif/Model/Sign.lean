import Verif.Model.Keys

/-! # `src/sign.rs` -/

namespace Schnorrkel
open SigningTranscript
variable {P : Type} [Ristretto P] [Oracles] {T : Type} [SigningTranscript T]

/-- `sign.rs:26` -/
def SIGNATURE_LENGTH : Nat := 64

/-- `sign.rs:32-56` -/
structure Signature where
  R : Compressed
  s : Scalar
deriving DecidableEq

/-- `sign.rs:64-79` -/
def checkScalar (bytes : Arr 32) : SignatureResult Scalar :=
  if bytes.get 31 (by omega) &&& 0b11110000 = 0 then
    .ok (Scalar.fromBits bytes)
  else
    match scalarFromCanonicalBytes bytes with
    | none => .error .scalarFormatError
    | some s => .ok s

namespace Signature
/-- `sign.rs:82` -/
def DESCRIPTION : String := "A 64 byte Ristretto Schnorr signature"
/-- `sign.rs:92-98` -/
def toBytes (sig : Signature) : Arr 64 :=
  (Arr.append sig.R sig.s.bytes : Arr 64).modify 63 (· ||| 128)
/-- `sign.rs:115-134` -/
def fromBytes (bytes : Bytes) : SignatureResult Signature :=
  if h : bytes.length ≠ SIGNATURE_LENGTH then
    .error (.bytesLengthError "Signature" DESCRIPTION SIGNATURE_LENGTH)
  else
    have h : bytes.length = 64 := not_not.mp h
    let lower : Arr 32 := ⟨bytes.take 32, by simp [h]⟩
    let upper : Arr 32 := ⟨bytes.drop 32, by simp [h]⟩
    if upper.get 31 (by omega) &&& 128 = 0 then .error .notMarkedSchnorrkel
    else do
      let upper := upper.modify 31 (· &&& 127)
      let s ← checkScalar upper
      .ok ⟨lower, s⟩
/-- `sign.rs:140-152` (feature `preaudit_deprecated`) -/
def fromBytesNotDistinguishedFromEd25519 (bytes : Bytes) : SignatureResult Signature :=
  if bytes.length ≠ SIGNATURE_LENGTH then
    .error (.bytesLengthError "Signature" DESCRIPTION SIGNATURE_LENGTH)
  else
    fromBytes (bytes.modify 63 (· ||| 128))
end Signature

/-- `sign.rs:172-187` `SecretKey::sign`; returns also the final transcript (for `&mut` callers) and
the system RNG. -/
def SecretKey.sign (sk : SecretKey) (t : T) (publicKey : PublicKey P) (sys : Rng) :
    Signature × T × Rng :=
  let t := protoName t (b! "Schnorr-sig")
  let t := commitPoint t (b! "sign:pk") publicKey.compressed
  let (r, t, sys) := witnessScalar t (b! "signing") [sk.nonce.1] sys
  let R := compress (r •. (basepoint : P))
  let t := commitPoint t (b! "sign:R") R
  let (k, t) := challengeScalar t (b! "sign:c")
  let s := k * sk.key + r
  (⟨R, s⟩, t, sys)

/-- `RistrettoPoint::vartime_double_scalar_mul_basepoint(a, A, b) = a*A + b*B`. [called at sign.rs:240, 287, vrf.rs:820] -/
def doubleScalarMulBasepoint (a : Scalar) (A : P) (b : Scalar) : P := a •. A + b •. basepoint

/-- `sign.rs:228-247` `PublicKey::verify`; returns also the final transcript. -/
def PublicKey.verify (pk : PublicKey P) (t : T) (signature : Signature) :
    SignatureResult Unit × T :=
  let A := pk.point
  let t := protoName t (b! "Schnorr-sig")
  let t := commitPoint t (b! "sign:pk") pk.compressed
  let t := commitPoint t (b! "sign:R") signature.R
  let (k, t) := challengeScalar t (b! "sign:c")
  let R := doubleScalarMulBasepoint k (-A) signature.s
  if compress R = signature.R then (.ok (), t) else (.error .equationFalse, t)

/-- `sign.rs:250-258` -/
def PublicKey.verifySimple (pk : PublicKey P) (ctx msg : Bytes) (signature : Signature) :
    SignatureResult Unit :=
  let t := (SigningContext.new ctx).bytes msg
  (PublicKey.verify pk t signature).1

/-- `sign.rs:190-197` -/
def SecretKey.signDoublecheck (sk : SecretKey) (t : T) (publicKey : PublicKey P) (sys : Rng) :
    SignatureResult Signature := do
  let sig := (sk.sign t publicKey sys).1
  let sig ← Signature.fromBytes sig.toBytes.1
  let pk : PublicKey P ← PublicKey.fromBytes (PublicKey.toBytes publicKey).1
  let () ← (PublicKey.verify pk t sig).1
  .ok sig

/-- `sign.rs:200-203` -/
def SecretKey.signSimple (sk : SecretKey) (ctx msg : Bytes) (publicKey : PublicKey P) (sys : Rng) :
    Signature :=
  let t := (SigningContext.new ctx).bytes msg
  (sk.sign t publicKey sys).1

/-- `sign.rs:206-218` -/
def SecretKey.signSimpleDoublecheck (sk : SecretKey) (ctx msg : Bytes) (publicKey : PublicKey P)
    (sys : Rng) : SignatureResult Signature := do
  let t := (SigningContext.new ctx).bytes msg
  let sig := (sk.sign t publicKey sys).1
  let sig ← Signature.fromBytes sig.toBytes.1
  let pk : PublicKey P ← PublicKey.fromBytes (PublicKey.toBytes publicKey).1
  let () ← PublicKey.verifySimple pk ctx msg sig
  .ok sig

/-- `sign.rs:261-294` (feature `preaudit_deprecated`) -/
def PublicKey.verifySimplePreauditDeprecated (pk : PublicKey P) (ctx msg sig : Bytes) :
    SignatureResult Unit :=
  let t := (SigningContext.new ctx).bytes msg
  match Signature.fromBytes sig with
  | .ok signature => (PublicKey.verify pk t signature).1
  | .error _ => do
    let signature ← Signature.fromBytesNotDistinguishedFromEd25519 sig
    let t := Transcript.new ctx
    let t := t.appendMessage (b! "sign-bytes") msg
    let A := pk.point
    let t := protoName t (b! "Schnorr-sig")
    let t := commitPoint t (b! "pk") pk.compressed
    let t := commitPoint t (b! "no") signature.R
    let (k, _) := challengeScalar t (b! "")
    let R := doubleScalarMulBasepoint k (-A) signature.s
    if compress R = signature.R then .ok () else .error .equationFalse

namespace Keypair
/-- `sign.rs:358-360` -/
def sign (kp : Keypair P) (t : T) (sys : Rng) : Signature × T × Rng := kp.secret.sign t kp.pub sys
/-- `sign.rs:363-365` -/
def signSimple (kp : Keypair P) (ctx msg : Bytes) (sys : Rng) : Signature :=
  kp.secret.signSimple ctx msg kp.pub sys
/-- `sign.rs:394-396` -/
def verify (kp : Keypair P) (t : T) (sig : Signature) : SignatureResult Unit × T :=
  PublicKey.verify kp.pub t sig
/-- `sign.rs:399-406` -/
def verifySimple (kp : Keypair P) (ctx msg : Bytes) (sig : Signature) : SignatureResult Unit :=
  PublicKey.verifySimple kp.pub ctx msg sig
/-- `sign.rs:409-416` -/
def signDoublecheck (kp : Keypair P) (t : T) (sys : Rng) : SignatureResult Signature := do
  let sig := (kp.sign t sys).1
  let sig ← Signature.fromBytes sig.toBytes.1
  let pk : PublicKey P ← PublicKey.fromBytes (PublicKey.toBytes kp.pub).1
  let () ← (PublicKey.verify pk t sig).1
  .ok sig
/-- `sign.rs:419-426` -/
def signSimpleDoublecheck (kp : Keypair P) (ctx msg : Bytes) (sys : Rng) :
    SignatureResult Signature := do
  let t := (SigningContext.new ctx).bytes msg
  let sig := (kp.sign t sys).1
  let sig ← Signature.fromBytes sig.toBytes.1
  let pk : PublicKey P ← PublicKey.fromBytes (PublicKey.toBytes kp.pub).1
  let () ← PublicKey.verifySimple pk ctx msg sig
  .ok sig
end Keypair

end Schnorrkel
