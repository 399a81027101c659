import Verif.Spec.Vrf
import Verif.Spec.Cert
import Verif.Spec.Derive
import Verif.Spec.Aead
import Verif.Spec.Witness

/-! # Every use the crate makes of the merlin hash

One constructor per place where bytes are squeezed out of a merlin transcript or its RNG, with everything the
place feeds in.  `log` is always a transcript history chosen by the caller. -/

namespace Spec
open Schnorrkel

/-- merlin query for nonce coefficient number `i` of cosigner `pk`: aggregate key, all participating keys with
their revealed points, the chosen key, then `i+1` squeezes. -/
def coeffQuery (log : List MOp) (agg : Bytes) (es : List (Bytes × List Bytes)) (pk : Bytes) (i : Nat) : List MOp :=
  log ++ [.append (b! "proto-name") (b! "Schnorr-sig"), .append (b! "sign:pk") agg] ++
    (es.flatMap fun e => .append (b! "pk-set") e.1 :: e.2.map (.append (b! "R"))) ++
    [.append (b! "pk-choice") pk] ++ List.replicate (i + 1) (.challenge (b! "R") 64)

/-- The places where merlin output is used. -/
inductive Use where
  /-- challenge of a signature, also of a multi-signature (`sign:c`) -/
  | signature (log : List MOp) (pk R : Bytes)
  /-- challenge of a pre-audit signature -/
  | legacy (ctx msg pk R : Bytes)
  /-- challenge of a VRF / DLEQ proof -/
  | dleq (log : List MOp) (kusama : Bool) (h pk R Hr o : Bytes)
  /-- VRF input point -/
  | vrfInput (malleable : Bool) (log : List MOp) (pk : Bytes)
  /-- VRF output bytes -/
  | vrfResult (context : Bytes) (p : Bytes × Bytes) (n : Nat)
  /-- RNG made from a VRF output, after requests of the listed sizes -/
  | vrfRng (context : Bytes) (p : Bytes × Bytes) (ns : List Nat)
  /-- coefficient for merging VRFs -/
  | merge (pk : Bytes) (ps : List (Bytes × Bytes)) (p : Bytes × Bytes)
  /-- coefficient of a VRF batch verification -/
  | vrfBatch (entries : List (Bytes × Bytes × Bytes)) (r : Bytes) (i : Nat)
  /-- soft derivation: tweak -/
  | softKey (log : List MOp) (cc pk : Bytes)
  /-- soft derivation: chain code -/
  | softChain (log : List MOp) (cc pk : Bytes)
  /-- hard derivation: mini secret key -/
  | hardKey (i : Bytes) (cc : Option Bytes) (key : Bytes)
  /-- hard derivation: chain code -/
  | hardChain (i : Bytes) (cc : Option Bytes) (key : Bytes)
  /-- expansion of a mini secret key: scalar -/
  | expandKey (mini : Bytes)
  /-- expansion of a mini secret key: nonce seed -/
  | expandNonce (mini : Bytes)
  /-- implicit certificate challenge -/
  | cert (log : List MOp) (issuer gamma : Bytes)
  /-- one-exchange AEAD key -/
  | kex (ctx lo hi shared : Bytes) (n : Nat)
  /-- two-exchange AEAD key -/
  | twoDh (log : List MOp) (lo hi shared lo' hi' shared' : Bytes) (n : Nat)
  /-- MuSig commitment to nonce points -/
  | musigCommitment (a b c : Bytes)
  /-- MuSig key weight -/
  | musigWeight (keys : List Bytes) (pk : Bytes)
  /-- MuSig nonce coefficient -/
  | musigCoeff (log : List MOp) (agg : Bytes) (es : List (Bytes × List Bytes)) (pk : Bytes) (i : Nat)
  /-- digest of a transcript put into a batch verification -/
  | batchDigest (log : List MOp)
  /-- coefficient of a batch verification -/
  | batchCoeff (pks Rs digests : List Bytes) (r : Bytes) (i : Nat)
  /-- signing nonce -/
  | signNonce (log : List MOp) (pk seed rng : Bytes)
  /-- VRF / DLEQ nonce -/
  | dleqNonce (log : List MOp) (kusama : Bool) (h pk seed rng : Bytes)
  /-- certificate issuer's nonce -/
  | issuing (log : List MOp) (issuer seed seedPk rng : Bytes)
  /-- accepted certificate's nonce seed -/
  | accepting (log : List MOp) (issuer cert seed rng : Bytes)
  /-- intermediate key of a self-issued certificate -/
  | selfIssuing (log : List MOp) (seed secret rng : Bytes)
  /-- ephemeral key of an AEAD sender -/
  | ephemeral (log : List MOp) (seed rng : Bytes)
  /-- nonce seed of a soft-derived key -/
  | derivedNonce (log : List MOp) (cc pk seed secret rng : Bytes)
  /-- MuSig nonce -/
  | musigNonce (log : List MOp) (seed : Bytes) (i : Nat) (rng : Bytes)
deriving DecidableEq

/-- What merlin has absorbed when the output is produced. -/
def Use.query : Use → List MOp
  | .signature log pk R => log ++ schnorrFrames pk R ++ [.challenge (b! "sign:c") 64]
  | .legacy ctx msg pk R => [.append (b! "dom-sep") ctx, .append (b! "sign-bytes") msg,
      .append (b! "proto-name") (b! "Schnorr-sig"), .append (b! "pk") pk, .append (b! "no") R, .challenge (b! "") 64]
  | .dleq log kusama h pk R Hr o => dleqQuery log kusama h pk R Hr o
  | .vrfInput m log pk => vrfInputQuery m log pk
  | .vrfResult ctx p n => vrfResultQuery ctx p n
  | .vrfRng ctx p ns => [.append (b! "dom-sep") (b! "VRFResult"), .append (b! "") ctx] ++ pairFrames p ++
      [.rngKey (zeros 32).1] ++ ns.map .prf
  | .merge pk ps p => mergeQuery pk ps p
  | .vrfBatch es r i => dleqBatchQuery es r i
  | .softKey log cc pk => softQuery log cc pk
  | .softChain log cc pk => softQuery log cc pk ++ [.challenge (b! "HDKD-chaincode") 32]
  | .hardKey i cc key => hardQuery i cc key
  | .hardChain i cc key => hardQuery i cc key ++ [.challenge (b! "HDKD-chaincode") 32]
  | .expandKey mini => [.append (b! "dom-sep") (b! "ExpandSecretKeys"), .append (b! "mini") mini, .challenge (b! "sk") 64]
  | .expandNonce mini => [.append (b! "dom-sep") (b! "ExpandSecretKeys"), .append (b! "mini") mini,
      .challenge (b! "sk") 64, .challenge (b! "no") 32]
  | .cert log issuer gamma => certQuery log issuer gamma
  | .kex ctx lo hi s n => kexQuery ctx lo hi s n
  | .twoDh log lo hi s lo' hi' s' n => twoDhQuery log lo hi s lo' hi' s' n
  | .musigCommitment a b c => [.append (b! "dom-sep") (b! "MuSig-commitment"), .append (b! "sign:R") a,
      .append (b! "sign:R") b, .append (b! "sign:R") c, .challenge (b! "commitment") 16]
  | .musigWeight keys pk => [.append (b! "dom-sep") (b! "MuSig-aggregate-public_key")] ++
      keys.map (.append (b! "pk-set")) ++ [.append (b! "pk-choice") pk, .challenge (b! "") 64]
  | .musigCoeff log agg es pk i => coeffQuery log agg es pk i
  | .batchDigest log => witnessQuery log (b! "") [[]] (zeros 32).1 16
  | .batchCoeff pks Rs ds r i => batchQuery pks Rs ds r i
  | .signNonce log pk seed rng => log ++ [.append (b! "proto-name") (b! "Schnorr-sig"), .append (b! "sign:pk") pk,
      .rekey (b! "signing") seed, .rngKey rng, .prf 64]
  | .dleqNonce log kusama h pk seed rng => dleqNonceQuery log kusama h pk seed rng
  | .issuing log issuer seed seedPk rng => witnessQuery (log ++ certFrames issuer) (b! "issuing") [seed, seedPk] rng 64
  | .accepting log issuer c seed rng => witnessQuery (log ++ certFrames issuer) (b! "accepting") [c, seed] rng 32
  | .selfIssuing log seed secret rng => witnessQuery log (b! "issue_self_adaptor_cert") [seed, secret] rng 96
  | .ephemeral log seed rng => witnessQuery log (b! "make_esk") [seed] rng 64
  | .derivedNonce log cc pk seed secret rng => witnessQuery (softQuery log cc pk ++
      [.challenge (b! "HDKD-chaincode") 32]) (b! "HDKD-nonce") [seed, secret] rng 32
  | .musigNonce log seed i rng => witnessQuery log (b! "MuSigWitness") [seed, leBytes 8 i] rng 64

/-- Side conditions that hold for every call the crate makes: list lengths agree, at least one request was
made, indices fit 64 bits.  The one condition on the caller: a history wrapped in `Malleable` must not itself
end with the frame that non-malleable transcripts get (label `vrf-nm-pk`). -/
def Use.WF : Use → Prop
  | .vrfInput true log _ => ∀ b, log.getLast? ≠ some (.append (b! "vrf-nm-pk") b)
  | .vrfRng _ _ ns => ns ≠ []
  | .musigCoeff _ _ es _ _ => ∀ e ∈ es, e.2.length = 3
  | .batchCoeff pks Rs ds _ _ => pks.length = Rs.length ∧ Rs.length = ds.length
  | .musigNonce _ _ i _ => i < 2 ^ 64
  | _ => True

/-- Forget parameters that do not reach the hash: the public key in a malleable VRF input and in a Kusama
proof nonce. -/
def Use.norm : Use → Use
  | .vrfInput true log _ => .vrfInput true log []
  | .dleqNonce log true h _ seed rng => .dleqNonce log true h [] seed rng
  | u => u

end Spec
