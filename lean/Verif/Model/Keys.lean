import Verif.Model.Points
import Verif.Model.Context

/-! # `src/keys.rs` -/

namespace Schnorrkel
variable {P : Type} [Ristretto P] [Oracles]

/-- `keys.rs:30` -/
def MINI_SECRET_KEY_LENGTH : Nat := 32
/-- `keys.rs:33` -/
def PUBLIC_KEY_LENGTH : Nat := 32
/-- `keys.rs:42` -/
def SECRET_KEY_LENGTH : Nat := 64
/-- `keys.rs:45` -/
def KEYPAIR_LENGTH : Nat := 96

/-- `keys.rs:55-86` -/
inductive ExpansionMode where
  | uniform | ed25519
deriving DecidableEq

/-- `keys.rs:95-97` -/
structure MiniSecretKey where
  bytes : Arr 32
deriving DecidableEq

/-- `keys.rs:360-370`.  The derived Lean equality is *full* equality, including the nonce; the Rust
`==` is `SecretKey.eq` below. -/
structure SecretKey where
  key : Scalar
  nonce : Arr 32
deriving DecidableEq

/-- `keys.rs:598-599` `PublicKey(RistrettoBoth)`. -/
abbrev PublicKey (P : Type) := RistrettoBoth P

/-- `keys.rs:711-719` -/
structure Keypair (P : Type) where
  secret : SecretKey
  pub : PublicKey P

namespace PublicKey
/-- `keys.rs:630` -/
def DESCRIPTION : String :=
  "A Ristretto Schnorr public key represented as a 32-byte Ristretto compressed point"
/-- `keys.rs:646-648` -/
def fromCompressed (c : Compressed) : SignatureResult (PublicKey P) := RistrettoBoth.fromCompressed c
/-- `keys.rs:652-654` -/
def fromPoint (p : P) : PublicKey P := RistrettoBoth.fromPoint p
/-- `keys.rs:671-673` -/
def toBytes (pk : PublicKey P) : Arr 32 := pk.compressed
/-- `keys.rs:697-699` -/
def fromBytes (bytes : Bytes) : SignatureResult (PublicKey P) :=
  RistrettoBoth.fromBytesSer "PublicKey" DESCRIPTION bytes
end PublicKey

namespace SecretKey
/-- `keys.rs:413-414` -/
def DESCRIPTION : String :=
  "An ed25519-like expanded secret key as 64 bytes, as specified in RFC8032."
/-- `keys.rs:379-388` `==` / `ct_eq`: compares only the scalar. -/
def eq (a b : SecretKey) : Bool := decide (a.key.bytes = b.key.bytes)
/-- `keys.rs:439-444` -/
def toBytes (sk : SecretKey) : Arr 64 := Arr.append sk.key.bytes sk.nonce
/-- `keys.rs:464-482` -/
def fromBytes (bytes : Bytes) : SignatureResult SecretKey :=
  if h : bytes.length ≠ SECRET_KEY_LENGTH then
    .error (.bytesLengthError "SecretKey" DESCRIPTION SECRET_KEY_LENGTH)
  else
    have h : bytes.length = 64 := not_not.mp h
    let key : Arr 32 := ⟨bytes.take 32, by simp [h]⟩
    match scalarFromCanonicalBytes key with
    | none => .error .scalarFormatError
    | some key =>
      let nonce : Arr 32 := ⟨bytes.drop 32, by simp [h]⟩
      .ok ⟨key, nonce⟩
/-- `keys.rs:491-500` -/
def toEd25519Bytes (sk : SecretKey) : Arr 64 :=
  let key := multiplyScalarBytesByCofactor sk.key.bytes
  Arr.append key sk.nonce
/-- `keys.rs:526-552` -/
def fromEd25519Bytes (bytes : Bytes) : SignatureResult SecretKey :=
  if h : bytes.length ≠ SECRET_KEY_LENGTH then
    .error (.bytesLengthError "SecretKey" DESCRIPTION SECRET_KEY_LENGTH)
  else
    have h : bytes.length = 64 := not_not.mp h
    let key : Arr 32 := ⟨bytes.take 32, by simp [h]⟩
    let key := divideScalarBytesByCofactor key
    match Scalar.fromCanonicalBytes key with
    | none => .error .invalidKey
    | some key =>
      let nonce : Arr 32 := ⟨bytes.drop 32, by simp [h]⟩
      .ok ⟨key, nonce⟩
/-- `keys.rs:557-566` -/
def generateWith (csprng : Rng) : SecretKey × Rng :=
  let (key, csprng) := csprng.fill 64
  let (nonce, csprng) := csprng.fill 32
  (⟨Scalar.fromBytesModOrderWide key, nonce⟩, csprng)
/-- `keys.rs:576-579` -/
def toPublic (sk : SecretKey) : PublicKey P := PublicKey.fromPoint (sk.key •. basepoint)
/-- `keys.rs:582-585` -/
def toKeypair (sk : SecretKey) : Keypair P := ⟨sk, sk.toPublic⟩
/-- `keys.rs:360` `#[derive(Zeroize)]`: every field is overwritten by zero bytes. -/
def zeroize (_ : SecretKey) : SecretKey := ⟨⟨zeros 32⟩, zeros 32⟩
end SecretKey

namespace MiniSecretKey
/-- `keys.rs:118` -/
def DESCRIPTION : String := "Analogous to ed25519 secret key as 32 bytes, see RFC8032."
/-- `keys.rs:106-115` -/
def eq (a b : MiniSecretKey) : Bool := decide (a.bytes = b.bytes)
/-- `keys.rs:143-155` -/
def expandUniform (m : MiniSecretKey) : SecretKey :=
  let t := Transcript.new (b! "ExpandSecretKeys")
  let t := t.appendMessage (b! "mini") m.bytes.1
  let (scalarBytes, t) := t.challengeBytes (b! "sk") 64
  let key := Scalar.fromBytesModOrderWide scalarBytes
  let (nonce, _) := t.challengeBytes (b! "no") 32
  ⟨key, nonce⟩
/-- `keys.rs:181-209` -/
def expandEd25519 (m : MiniSecretKey) : SecretKey :=
  let r := Oracles.sha512 m.bytes.1
  let key := r.slice 0 32 (by omega)
  let key := key.modify 0 (· &&& 248)
  let key := key.modify 31 (· &&& 63)
  let key := key.modify 31 (· ||| 64)
  let key := divideScalarBytesByCofactor key
  let key := Scalar.fromBits key
  let nonce := r.slice 32 32 (by omega)
  ⟨key, nonce⟩
/-- `keys.rs:231-236` -/
def expand (m : MiniSecretKey) : ExpansionMode → SecretKey
  | .uniform => m.expandUniform
  | .ed25519 => m.expandEd25519
/-- `keys.rs:239-241` with `From<SecretKey> for Keypair`, 732-737 -/
def expandToKeypair (m : MiniSecretKey) (mode : ExpansionMode) : Keypair P :=
  ⟨m.expand mode, (m.expand mode).toPublic⟩
/-- `keys.rs:244-246` -/
def expandToPublic (m : MiniSecretKey) (mode : ExpansionMode) : PublicKey P :=
  (m.expand mode).toPublic
/-- `keys.rs:250-252` -/
def toBytes (m : MiniSecretKey) : Arr 32 := m.bytes
/-- `keys.rs:281-292` -/
def fromBytes (bytes : Bytes) : SignatureResult MiniSecretKey :=
  if h : bytes.length ≠ MINI_SECRET_KEY_LENGTH then
    .error (.bytesLengthError "MiniSecretKey" DESCRIPTION MINI_SECRET_KEY_LENGTH)
  else
    .ok ⟨⟨bytes.take 32, by simp [MINI_SECRET_KEY_LENGTH] at h; simp [h]⟩⟩
/-- `keys.rs:308-315` -/
def generateWith (csprng : Rng) : MiniSecretKey × Rng :=
  let (b, csprng) := csprng.fill 32
  (⟨b⟩, csprng)
/-- `keys.rs:95` `#[derive(Zeroize)]` -/
def zeroize (_ : MiniSecretKey) : MiniSecretKey := ⟨zeros 32⟩
end MiniSecretKey

namespace Keypair
/-- `keys.rs:740` -/
def DESCRIPTION : String := "A 96 bytes Ristretto Schnorr keypair"
/-- `keys.rs:732-737` `From<SecretKey>` -/
def ofSecret (secret : SecretKey) : Keypair P := ⟨secret, secret.toPublic⟩
/-- `keys.rs:771-777` -/
def toBytes (kp : Keypair P) : Arr 96 := Arr.append kp.secret.toBytes (PublicKey.toBytes kp.pub)
/-- `keys.rs:803-815` -/
def fromBytes (bytes : Bytes) : SignatureResult (Keypair P) :=
  if bytes.length ≠ KEYPAIR_LENGTH then
    .error (.bytesLengthError "Keypair" DESCRIPTION KEYPAIR_LENGTH)
  else do
    let secret ← SecretKey.fromBytes (bytes.take SECRET_KEY_LENGTH)
    let pub ← PublicKey.fromBytes (bytes.drop SECRET_KEY_LENGTH)
    .ok ⟨secret, pub⟩
/-- `keys.rs:826-832` -/
def toHalfEd25519Bytes (kp : Keypair P) : Arr 96 :=
  Arr.append kp.secret.toEd25519Bytes (PublicKey.toBytes kp.pub)
/-- `keys.rs:856-868` -/
def fromHalfEd25519Bytes (bytes : Bytes) : SignatureResult (Keypair P) :=
  if bytes.length ≠ KEYPAIR_LENGTH then
    .error (.bytesLengthError "Keypair" DESCRIPTION KEYPAIR_LENGTH)
  else do
    let secret ← SecretKey.fromEd25519Bytes (bytes.take SECRET_KEY_LENGTH)
    let pub ← PublicKey.fromBytes (bytes.drop SECRET_KEY_LENGTH)
    .ok ⟨secret, pub⟩
/-- `keys.rs:896-904` -/
def generateWith (csprng : Rng) : Keypair P × Rng :=
  let (secret, csprng) := SecretKey.generateWith csprng
  (⟨secret, secret.toPublic⟩, csprng)
/-- `keys.rs:721-725` `Zeroize for Keypair` (also run by `Drop`, 726-730) -/
def zeroize (kp : Keypair P) : Keypair P := ⟨kp.secret.zeroize, kp.pub⟩
end Keypair

end Schnorrkel
