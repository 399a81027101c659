import Verif.Model.Cert

/-! # `src/aead.rs`: key exchange

`AEAD::new(key)` is an arbitrary function of the key bytes, so an AEAD is modelled by the `n` bytes of
key it is initialised with (`n` is its `KeySize`). -/

namespace Schnorrkel
open SigningTranscript
variable {P : Type} [Ristretto P] {T : Type} [SigningTranscript T]

/-- `aead.rs:44-52`; the second component is the final transcript. -/
def makeAeadT (t : T) (n : Nat) : Arr n × T := challengeBytes t (b! "") n

/-- `aead.rs:44-52`, for a caller who gives the transcript away. -/
def makeAead (t : T) (n : Nat) : Arr n := (makeAeadT t n).1

/-- `aead.rs:57-59` -/
def SecretKey.rawKeyExchange (sk : SecretKey) (pub : PublicKey P) : Compressed :=
  compress (sk.key •. pub.point)

/-- `aead.rs:62-68` -/
def SecretKey.commitRawKeyExchange (sk : SecretKey) (t : T) (ctx : Bytes) (pub : PublicKey P) : T :=
  let p := sk.rawKeyExchange pub
  commitPoint t ctx p

/-- `aead.rs:73-80` -/
def SecretKey.aead32Unauthenticated (sk : SecretKey) (pub : PublicKey P) : Arr 32 :=
  sk.rawKeyExchange pub

/-- `sort_unstable_by_key` of a two-element array of byte strings: ties are identical values. [aead.rs:118] -/
def sort2 (a b : Compressed) : List Compressed :=
  if cmpBytes b.1 a.1 = .lt then [b, a] else [a, b]

/-- `aead.rs:113-123` -/
def Keypair.commitKeyExchange (kp : Keypair P) (t : T) (ctx : Bytes) (pub : PublicKey P) : T :=
  let pks := sort2 kp.pub.compressed pub.compressed
  let t := pks.foldl (fun t pk => commitPoint t (b! "pk") pk) t
  kp.secret.commitRawKeyExchange t ctx pub

/-- `aead.rs:126-131` -/
def Keypair.aeadUnauthenticated [Oracles] (kp : Keypair P) (ctx : Bytes) (pub : PublicKey P) (n : Nat) :
    Arr n :=
  let t := Transcript.new (b! "KEX")
  let t := t.appendMessage (b! "ctx") ctx
  let t := kp.commitKeyExchange t (b! "kex") pub
  makeAead t n

/-- `aead.rs:87-94`; `Keypair::generate()` draws from the system RNG. -/
def PublicKey.initAeadUnauthenticated [Oracles] (pk : PublicKey P) (ctx : Bytes) (n : Nat) (sys : Rng) :
    (Compressed × Arr n) × Rng :=
  let (ephemeral, sys) := (Keypair.generateWith sys : Keypair P × Rng)
  let aead := ephemeral.aeadUnauthenticated ctx pk n
  ((ephemeral.pub.compressed, aead), sys)

/-- `aead.rs:100-107` -/
def PublicKey.initAead32Unauthenticated (pk : PublicKey P) (sys : Rng) :
    (Compressed × Arr 32) × Rng :=
  let (secret, sys) := SecretKey.generateWith sys
  let aead := secret.aead32Unauthenticated pk
  (((secret.toPublic : PublicKey P).compressed, aead), sys)

/-- `aead.rs:134-147`; with the final transcript, which the caller sees if it passed `&mut t`. -/
def Keypair.recieverAeadT (kp : Keypair P) (t : T) (ephemeralPk staticPk : PublicKey P) (n : Nat) :
    Arr n × T :=
  let t := kp.commitKeyExchange t (b! "epk") ephemeralPk
  let t := kp.commitKeyExchange t (b! "epk") staticPk
  makeAeadT t n

/-- `aead.rs:134-147`, for a caller who gives the transcript away. -/
def Keypair.recieverAead (kp : Keypair P) (t : T) (ephemeralPk staticPk : PublicKey P) (n : Nat) :
    Arr n :=
  (kp.recieverAeadT t ephemeralPk staticPk n).1

/-- `aead.rs:150-160`; with the final transcript, which the caller sees if it passed `&mut t`, and the system RNG. -/
def Keypair.senderAeadT (kp : Keypair P) (t : T) (pub : PublicKey P) (n : Nat) (sys : Rng) :
    (Compressed × Arr n) × T × Rng :=
  let (key, t, sys) := witnessScalar t (b! "make_esk") [kp.secret.nonce.1] sys
  let ekey : Keypair P := (⟨key, kp.secret.nonce⟩ : SecretKey).toKeypair
  let t := ekey.commitKeyExchange t (b! "epk") pub
  let t := kp.commitKeyExchange t (b! "epk") pub
  let (aead, t) := makeAeadT t n
  ((ekey.pub.compressed, aead), t, sys)

/-- `aead.rs:150-160`, for a caller who gives the transcript away; the second component is the system RNG. -/
def Keypair.senderAead (kp : Keypair P) (t : T) (pub : PublicKey P) (n : Nat) (sys : Rng) :
    (Compressed × Arr n) × Rng :=
  ((kp.senderAeadT t pub n sys).1, (kp.senderAeadT t pub n sys).2.2)

/-- `aead.rs:167-179` (the final transcript is that of `open_adaptor_cert`) -/
def Keypair.recieverAeadWithAdaptorCert [Oracles] (kp : Keypair P) (t : T)
    (certPublic : AdaptorCertPublic) (pub : PublicKey P) (n : Nat) : SignatureResult (Arr n) := do
  let epk ← PublicKey.openAdaptorCert pub t certPublic
  .ok (kp.aeadUnauthenticated (b! "") epk n)

/-- `aead.rs:185-197` -/
def Keypair.senderAeadWithAdaptorCert [Oracles] (kp : Keypair P) (t : T) (pub : PublicKey P) (n : Nat)
    (sys : Rng) : Outcome (AdaptorCertPublic × Arr n) × Rng :=
  match kp.issueSelfAdaptorCert t sys with
  | (.ok (cert, secret), sys) =>
    let aead := (secret.toKeypair : Keypair P).aeadUnauthenticated (b! "") pub n
    (.ok (cert, aead), sys)
  | (.err e, sys) => (.err e, sys)
  | (.panic m, sys) => (.panic m, sys)

end Schnorrkel
