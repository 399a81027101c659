import Verif.Model.Sign

/-! # `src/derive.rs`: hierarchical deterministic key derivation -/

namespace Schnorrkel
open SigningTranscript
variable {P : Type} [Ristretto P] {T : Type} [SigningTranscript T]

/-- `derive.rs:41` -/
abbrev CHAIN_CODE_LENGTH : Nat := 32

/-- `derive.rs:50-51` -/
structure ChainCode where
  bytes : Arr CHAIN_CODE_LENGTH
deriving DecidableEq

/-- `derive.rs:129-142` `PublicKey::derive_scalar_and_chaincode`; returns also the `&mut` transcript. -/
def PublicKey.deriveScalarAndChaincode (pk : PublicKey P) (t : T) (cc : ChainCode) :
    Scalar × ChainCode × T :=
  let t := commitBytes t (b! "chain-code") cc.bytes.1
  let t := commitPoint t (b! "public-key") pk.compressed
  let (scalar, t) := challengeScalar t (b! "HDKD-scalar")
  let (chaincode, t) := challengeBytes t (b! "HDKD-chaincode") 32
  (scalar, ⟨chaincode⟩, t)

/-- `derive.rs:159-179` -/
def SecretKey.hardDeriveMiniSecretKey [Oracles] (sk : SecretKey) (cc : Option ChainCode) (i : Bytes) :
    MiniSecretKey × ChainCode :=
  let t := Transcript.new (b! "SchnorrRistrettoHDKD")
  let t := t.appendMessage (b! "sign-bytes") i
  let t := match cc with
    | some c => t.appendMessage (b! "chain-code") c.bytes.1
    | none => t
  let t := t.appendMessage (b! "secret-key") sk.key.bytes.1
  let (msk, t) := t.challengeBytes (b! "HDKD-hard") 32
  let (chaincode, _) := t.challengeBytes (b! "HDKD-chaincode") 32
  (⟨msk⟩, ⟨chaincode⟩)

/-- `derive.rs:196-203` -/
def MiniSecretKey.hardDeriveMiniSecretKey [Oracles] (m : MiniSecretKey) (cc : Option ChainCode)
    (i : Bytes) (mode : ExpansionMode) : MiniSecretKey × ChainCode :=
  (m.expand mode).hardDeriveMiniSecretKey cc i

/-- `derive.rs:220-226` -/
def Keypair.hardDeriveMiniSecretKey [Oracles] (kp : Keypair P) (cc : Option ChainCode) (i : Bytes) :
    MiniSecretKey × ChainCode :=
  kp.secret.hardDeriveMiniSecretKey cc i

/-- `derive.rs:248-268`; with the final transcript, which the caller sees if it passed `&mut t`, and the system RNG. -/
def Keypair.deriveSecretKeyT (kp : Keypair P) (t : T) (cc : ChainCode) (sys : Rng) :
    SecretKey × ChainCode × T × Rng :=
  let (scalar, chaincode, t) := PublicKey.deriveScalarAndChaincode kp.pub t cc
  let (nonce, t, sys) := witnessBytes t (b! "HDKD-nonce") 32 [kp.secret.nonce.1, kp.secret.toBytes.1] sys
  (⟨kp.secret.key + scalar, nonce⟩, chaincode, t, sys)

/-- `derive.rs:248-268`, for a caller who gives the transcript away; the last component is the system RNG. -/
def Keypair.deriveSecretKey (kp : Keypair P) (t : T) (cc : ChainCode) (sys : Rng) :
    SecretKey × ChainCode × Rng :=
  ((kp.deriveSecretKeyT t cc sys).1, (kp.deriveSecretKeyT t cc sys).2.1, (kp.deriveSecretKeyT t cc sys).2.2.2)

/-- `derive.rs:54-118` trait `Derivation`: the required method, over any transcript type; the system
RNG is an explicit argument and result, and the final transcript is returned, as the caller sees it if it passed `&mut t`. -/
class Derivation (K : Type) where
  /-- `derive.rs:81-83` -/
  derivedKeyT : {T : Type} → [SigningTranscript T] → K → T → ChainCode → Rng → K × ChainCode × T × Rng

/-- `derive.rs:81-83`, for a caller who gives the transcript away. -/
def Derivation.derivedKey {K : Type} [Derivation K] {T : Type} [SigningTranscript T] (k : K) (t : T) (cc : ChainCode)
    (sys : Rng) : K × ChainCode × Rng :=
  ((derivedKeyT k t cc sys).1, (derivedKeyT k t cc sys).2.1, (derivedKeyT k t cc sys).2.2.2)

/-- `derive.rs:101-105` (provided method) -/
def derivedKeySimple [Oracles] {K : Type} [Derivation K] (k : K) (cc : ChainCode) (i : Bytes)
    (sys : Rng) : K × ChainCode × Rng :=
  let t := Transcript.new (b! "SchnorrRistrettoHDKD")
  let t := t.appendMessage (b! "sign-bytes") i
  Derivation.derivedKey k t cc sys

/-- `derive.rs:109-117` (provided method) -/
def derivedKeySimpleRng [Oracles] {K : Type} [Derivation K] (k : K) (cc : ChainCode) (i : Bytes)
    (rng : Rng) (sys : Rng) : K × ChainCode × Rng :=
  let t := Transcript.new (b! "SchnorrRistrettoHDKD")
  let t := t.appendMessage (b! "sign-bytes") i
  Derivation.derivedKey k (attachRng t rng) cc sys

/-- `derive.rs:271-280` -/
instance : Derivation (Keypair P) where
  derivedKeyT kp t cc sys :=
    let (secret, chaincode, t, sys) := kp.deriveSecretKeyT t cc sys
    let pub := secret.toPublic
    (⟨secret, pub⟩, chaincode, t, sys)

/-- `derive.rs:282-289`: `self.clone().to_keypair().derive_secret_key(t, cc)`.  A definition rather
than an instance because the group `P` used internally is not determined by `SecretKey`. -/
@[reducible] def secretKeyDerivation (P : Type) [Ristretto P] : Derivation SecretKey where
  derivedKeyT sk t cc sys := (sk.toKeypair : Keypair P).deriveSecretKeyT t cc sys

/-- `derive.rs:291-300` -/
instance : Derivation (PublicKey P) where
  derivedKeyT pk t cc sys :=
    let (scalar, chaincode, t) := PublicKey.deriveScalarAndChaincode pk t cc
    let point := pk.point + scalar •. basepoint
    (PublicKey.fromPoint point, chaincode, t, sys)

/-- `derive.rs:303-314` -/
structure ExtendedKey (K : Type) where
  key : K
  chaincode : ChainCode

namespace ExtendedKey
variable {K : Type} [Derivation K]

/-- `derive.rs:337-343` -/
def derivedKey (x : ExtendedKey K) (t : T) (sys : Rng) : ExtendedKey K × Rng :=
  let (key, chaincode, sys) := Derivation.derivedKey x.key t x.chaincode sys
  (⟨key, chaincode⟩, sys)

/-- `derive.rs:347-350` -/
def derivedKeySimple [Oracles] (x : ExtendedKey K) (i : Bytes) (sys : Rng) : ExtendedKey K × Rng :=
  let (key, chaincode, sys) := Schnorrkel.derivedKeySimple x.key x.chaincode i sys
  (⟨key, chaincode⟩, sys)

/-- `derive.rs:367-375` -/
def hardDeriveMiniSecretKey [Oracles] (x : ExtendedKey SecretKey) (i : Bytes) (mode : ExpansionMode) :
    ExtendedKey SecretKey :=
  let (key, chaincode) := x.key.hardDeriveMiniSecretKey (some x.chaincode) i
  let key := key.expand mode
  ⟨key, chaincode⟩
end ExtendedKey

end Schnorrkel
