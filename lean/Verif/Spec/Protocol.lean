import Verif.Model.Vrf
import Verif.Model.Derive
import Verif.Model.Aead
import Verif.Model.MutRef

/-! # Protocols built from several signatures, proofs, certificates, derivations and key exchanges over one transcript -/

namespace Spec
open Schnorrkel SigningTranscript
variable {P : Type} [Ristretto P] {T : Type} [SigningTranscript T]

/-- One step of the prover. -/
inductive PStep (P : Type) where
  | commit (label bytes : Bytes)
  | challenge (label : Bytes) (n : Nat)
  | sign (sk : SecretKey)
  | dleq (sk : SecretKey) (p : VRFInOut P) (kusama : Bool)
  /-- issue a certificate; the holder of the seed key accepts it, with a copy of the transcript -/
  | cert (issuer seed : SecretKey)
  /-- soft derivation -/
  | derive (sk : SecretKey) (cc : ChainCode)
  /-- agree on an AEAD key of `n` bytes with the verifier, whose public key is `peer` -/
  | aead (sk : SecretKey) (peer : SecretKey) (n : Nat)

/-- One step of the verifier. -/
inductive VStep (P : Type) where
  | commit (label bytes : Bytes)
  | challenge (label : Bytes) (n : Nat)
  | verify (pk : PublicKey P) (sig : Signature)
  | dleq (pk : PublicKey P) (p : VRFInOut P) (kusama : Bool) (proof : VRFProof)
  | cert (issuer : PublicKey P) (cert : AdaptorCertPublic)
  | derive (pk : PublicKey P) (cc : ChainCode)
  | aead (kp : Keypair P) (epk : Compressed) (spk : PublicKey P) (n : Nat)

/-- Deriving a public key needs no randomness; any RNG will do. -/
def noRng : Rng := ⟨fun _ n => zeros n, []⟩

/-- The prover passes `&mut t` to every step. Returns what the verifier gets to see, the values obtained (challenges,
certified keys, derived keys with chain codes, AEAD keys), the transcript and the system RNG. -/
def prover (t : T) (sys : Rng) : List (PStep P) → List (VStep P) × List Bytes × T × Rng
  | [] => ([], [], t, sys)
  | .commit l x :: ss =>
    let out := prover (commitBytes t l x) sys ss
    (.commit l x :: out.1, out.2)
  | .challenge l n :: ss =>
    let c := challengeBytes t l n
    let out := prover c.2 sys ss
    (.challenge l n :: out.1, c.1.1 :: out.2.1, out.2.2)
  | .sign sk :: ss =>
    let pk : PublicKey P := sk.toPublic
    let s := sk.sign (⟨t⟩ : MutRef T) pk sys
    let out := prover s.2.1.t s.2.2 ss
    (.verify pk s.1 :: out.1, out.2)
  | .dleq sk p kusama :: ss =>
    let kp : Keypair P := sk.toKeypair
    let s := kp.dleqProove (⟨t⟩ : MutRef T) p kusama sys
    let out := prover s.2.1.t s.2.2 ss
    (.dleq kp.pub p kusama s.1.1 :: out.1, out.2)
  | .cert issuer seed :: ss =>
    let kp : Keypair P := issuer.toKeypair
    let c := kp.issueAdaptorCertT (⟨t⟩ : MutRef T) seed.toPublic sys
    let a := PublicKey.acceptAdaptorCert kp.pub t seed c.1 c.2.2
    let out := prover c.2.1.t a.2 ss
    (.cert kp.pub c.1.toPublic :: out.1, (match a.1 with
      | .ok r => (r.2.toPublic : PublicKey P).compressed.1
      | .error _ => []) :: out.2.1, out.2.2)
  | .derive sk cc :: ss =>
    let kp : Keypair P := sk.toKeypair
    let d := Derivation.derivedKeyT kp (⟨t⟩ : MutRef T) cc sys
    let out := prover d.2.2.1.t d.2.2.2 ss
    (.derive kp.pub cc :: out.1, (d.1.pub.compressed.1 ++ d.2.1.bytes.1) :: out.2.1, out.2.2)
  | .aead sk peer n :: ss =>
    let kp : Keypair P := sk.toKeypair
    let a := kp.senderAeadT (⟨t⟩ : MutRef T) peer.toPublic n sys
    let out := prover a.2.1.t a.2.2 ss
    (.aead peer.toKeypair a.1.1 kp.pub n :: out.1, a.1.2.1 :: out.2.1, out.2.2)

/-- The verifier passes `&mut t` to every step. Returns whether all checks succeeded, the values obtained and the
transcript. -/
def verifier (t : T) : List (VStep P) → Bool × List Bytes × T
  | [] => (true, [], t)
  | .commit l x :: ss => verifier (commitBytes t l x) ss
  | .challenge l n :: ss =>
    let c := challengeBytes t l n
    let out := verifier c.2 ss
    (out.1, c.1.1 :: out.2.1, out.2.2)
  | .verify pk sig :: ss =>
    let v := PublicKey.verify pk (⟨t⟩ : MutRef T) sig
    let out := verifier v.2.t ss
    (v.1 = .ok () && out.1, out.2)
  | .dleq pk p kusama proof :: ss =>
    let v := PublicKey.dleqVerify pk (⟨t⟩ : MutRef T) p proof kusama
    let out := verifier v.2.t ss
    (v.1.isOk && out.1, out.2)
  | .cert issuer cert :: ss =>
    let v := PublicKey.openAdaptorCertT issuer (⟨t⟩ : MutRef T) cert
    let out := verifier v.2.t ss
    (v.1.isOk && out.1, (match v.1 with
      | .ok pk => pk.compressed.1
      | .error _ => []) :: out.2.1, out.2.2)
  | .derive pk cc :: ss =>
    let d := Derivation.derivedKeyT pk (⟨t⟩ : MutRef T) cc noRng
    let out := verifier d.2.2.1.t ss
    (out.1, (d.1.compressed.1 ++ d.2.1.bytes.1) :: out.2.1, out.2.2)
  | .aead kp epk spk n :: ss =>
    match PublicKey.fromCompressed epk with
    | .ok e =>
      let a := kp.recieverAeadT (⟨t⟩ : MutRef T) e spk n
      let out := verifier a.2.t ss
      (out.1, a.1.1 :: out.2.1, out.2.2)
    | .error _ =>
      let out := verifier t ss
      (false, out.2)

/-- The prover's secrets are reduced, and it makes only proofs of true statements. -/
def PStep.Honest : PStep P → Prop
  | .sign sk => sk.key.Canonical
  | .dleq sk p _ => sk.key.Canonical ∧ p.output.point = sk.key.toZ • p.input.point
  | .cert issuer seed => issuer.key.Canonical ∧ seed.key.Canonical
  | .derive sk _ => sk.key.Canonical
  | _ => True

/-- Two byte strings, the smaller one first. -/
def lowHigh (a b : Bytes) : List Bytes := if b < a then [b, a] else [a, b]

/-- What a key exchange between `kp` and `pk` records: both public keys, the smaller one first, and the shared point. -/
def exchangeFrames (kp : Keypair P) (pk : PublicKey P) : List MOp :=
  (lowHigh kp.pub.compressed.1 pk.compressed.1).map (MOp.append (b! "pk")) ++
    [.append (b! "epk") (compress (kp.secret.key.toZ • pk.point)).1]

/-- What the verifier's merlin transcript records for one step.  Certificates with a malformed point are recorded without
a challenge, and nothing is recorded of a malformed ephemeral key. -/
def VStep.frames : VStep P → List MOp
  | .commit l x => [.append l x]
  | .challenge l n => [.challenge l n]
  | .verify pk sig => [.append (b! "proto-name") (b! "Schnorr-sig"), .append (b! "sign:pk") pk.compressed.1,
      .append (b! "sign:R") sig.R.1, .challenge (b! "sign:c") 64]
  | .dleq pk p kusama proof =>
    [.append (b! "proto-name") (b! "DLEQProof"), .append (b! "vrf:h") p.input.compressed.1] ++
    (if kusama then [] else [.append (b! "vrf:pk") pk.compressed.1]) ++
    [.append (b! "vrf:R=g^r") (compress (proof.c.toZ • pk.point + proof.s.toZ • (basepoint : P))).1,
      .append (b! "vrf:h^r") (compress (proof.c.toZ • p.output.point + proof.s.toZ • p.input.point)).1] ++
    (if kusama then [.append (b! "vrf:pk") pk.compressed.1] else []) ++
    [.append (b! "vrf:h^sk") p.output.compressed.1, .challenge (b! "prove") 64]
  | .cert issuer γ =>
    [.append (b! "proto-name") (b! "Adaptor"), .append (b! "issuer-pk") issuer.compressed.1,
      .append (b! "gamma") γ.bytes.1] ++
    (match (decompress γ.bytes : Option P) with
      | some _ => [.challenge (b! "adaptor-e") 64]
      | none => [])
  | .derive pk cc => [.append (b! "chain-code") cc.bytes.1, .append (b! "public-key") pk.compressed.1,
      .challenge (b! "HDKD-scalar") 64, .challenge (b! "HDKD-chaincode") 32]
  | .aead kp epk spk n =>
    match (decompress epk : Option P) with
    | some E => exchangeFrames kp ⟨epk, E⟩ ++ exchangeFrames kp spk ++ [.challenge (b! "") n]
    | none => []

/-- Two verifier steps of the same kind, with the same key on the verifier's side of a key exchange. -/
def SameKind : VStep P → VStep P → Prop
  | .commit _ _, .commit _ _ => True
  | .challenge _ _, .challenge _ _ => True
  | .verify _ _, .verify _ _ => True
  | .dleq _ _ k _, .dleq _ _ k' _ => k = k'
  | .cert _ _, .cert _ _ => True
  | .derive _ _, .derive _ _ => True
  | .aead kp _ _ _, .aead kp' _ _ _ => kp = kp'
  | _, _ => False

/-- Keys and points are stored with their own encodings, and `s` is reduced — as everything decoded from bytes is. -/
def VStep.WF : VStep P → Prop
  | .verify pk sig => compress pk.point = pk.compressed ∧ sig.s.Canonical
  | .dleq pk p _ proof => compress pk.point = pk.compressed ∧ compress p.input.point = p.input.compressed ∧
      compress p.output.point = p.output.compressed ∧ proof.s.Canonical
  | .cert pk _ => compress pk.point = pk.compressed
  | .derive pk _ => compress pk.point = pk.compressed
  | .aead _ _ spk _ => compress spk.point = spk.compressed
  | _ => True

end Spec
