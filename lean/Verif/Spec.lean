import Verif.Model.Context

/-! # Small independent specifications

Plain mathematical notions the property theorems are stated with.  Nothing here mentions the
model's own helpers for signing, verifying, decoding etc.; only bytes (`leNat` is the little-endian
integer of a byte string), the group, and hash oracles. -/

namespace Spec
open Schnorrkel

/-- Ed25519 clamping (RFC 8032 §5.1.5) of a 256-bit integer: clear the low three bits and the top
two bits, set bit 254. -/
def clamp (n : Nat) : Nat := 8 * (n % 2 ^ 254 / 8) + 2 ^ 254

/-- `[u8]::cmp` as an order: `a` strictly precedes `b` lexicographically. -/
def lexLt (a b : Bytes) : Prop := List.Lex (· < ·) a b

/-- The integer a challenge of 64 bytes denotes, modulo ℓ. -/
def hashToZ [Oracles] (log : List MOp) : Z := ((leNat (Oracles.merlin log 64).1 : Nat) : Z)

/-- The frames a Schnorr signature adds to a merlin transcript before its challenge. -/
def schnorrFrames (pk R : Bytes) : List MOp :=
  [.append (b! "proto-name") (b! "Schnorr-sig"), .append (b! "sign:pk") pk, .append (b! "sign:R") R]

/-- The Fiat–Shamir challenge of a Schnorr signature over a merlin transcript with history `log`. -/
def schnorrChallenge [Oracles] (log : List MOp) (pk R : Bytes) : Z :=
  hashToZ (log ++ schnorrFrames pk R ++ [.challenge (b! "sign:c") 64])

/-- Textbook Schnorr verification for public key point `A`: the encoded commitment `Rb` is the
encoding of a group element `R` with `s·B = R + k·A`. -/
def SchnorrValid {P : Type} [Ristretto P] (A : P) (k : Z) (Rb : Bytes) (s : Nat) : Prop :=
  ∃ R : P, (compress R).1 = Rb ∧ s • (basepoint : P) = R + k.val • A

/-- `b` is the (unique) canonical encoding of the group element `p`. -/
def Encodes {P : Type} [Ristretto P] (b : Bytes) (p : P) : Prop := (compress p).1 = b

/-- merlin history of `signing_context(ctx).bytes(msg)`. -/
def ctxLog (ctx msg : Bytes) : List MOp :=
  [.append (b! "dom-sep") (b! "SigningContext"), .append (b! "") ctx, .append (b! "sign-bytes") msg]

end Spec

namespace Schnorrkel
open SigningTranscript
variable {T : Type} [SigningTranscript T]

/-- A simulation between two transcript implementations: they answer every challenge alike, stay
related under every commit and challenge, and drawing witnesses (which may only consume randomness)
does not disturb the relation.  It is the precise meaning of "the signer's and the verifier's
transcripts have the same history". -/
structure TSim {T₁ T₂ : Type} [SigningTranscript T₁] [SigningTranscript T₂] (R : T₁ → T₂ → Prop) :
    Prop where
  commit : ∀ a b l x, R a b → R (commitBytes a l x) (commitBytes b l x)
  challenge : ∀ a b l n, R a b → (challengeBytes a l n).1 = (challengeBytes b l n).1 ∧
    R (challengeBytes a l n).2 (challengeBytes b l n).2
  witness_left : ∀ a b l n s rng, R a b → R (witnessBytes a l n s rng).2.1 b
  witness_right : ∀ a b l n s rng, R a b → R a (witnessBytes b l n s rng).2.1

/-- Transcript right before the challenge of a Schnorr signature. -/
def preChallenge (t : T) (pk R : Compressed) : T :=
  commitPoint (commitPoint (protoName t (b! "Schnorr-sig")) (b! "sign:pk") pk) (b! "sign:R") R

/-- The Schnorr challenge a verifier computes. -/
def sigChallenge (t : T) (pk R : Compressed) : Z :=
  (challengeScalar (preChallenge t pk R) (b! "sign:c")).1.toZ

end Schnorrkel

namespace Spec
open Schnorrkel

/-- One `&mut` call on an XoF transcript. -/
inductive XEv where
  | commit (label bytes : Bytes)
  | challenge (label : Bytes) (len : Nat)
deriving DecidableEq

/-- Every length in the call fits the `u64` it is framed with (always true of Rust values on 64-bit
targets). -/
def XEv.Fits : XEv → Prop
  | .commit l b => l.length < 2 ^ 64 ∧ b.length < 2 ^ 64
  | .challenge l n => l.length < 2 ^ 64 ∧ n < 2 ^ 64

/-- A request for output: a challenge, or witness bytes with nonce seeds and 32 RNG bytes. -/
inductive XReq where
  | challenge (label : Bytes) (len : Nat)
  | witness (label : Bytes) (len : Nat) (seeds : List Bytes) (rng : Arr 32)
deriving DecidableEq

/-- Lengths in the request fit in a `u64`. -/
def XReq.Fits : XReq → Prop
  | .challenge l n => l.length < 2 ^ 64 ∧ n < 2 ^ 64
  | .witness l n s _ => l.length < 2 ^ 64 ∧ n < 2 ^ 64 ∧ ∀ x ∈ s, x.length < 2 ^ 64

/-- A byte string framed by its 64-bit little-endian length. -/
def frame (b : Bytes) : Bytes := leBytes 8 b.length ++ b

/-- Bytes a `&mut` call makes the underlying hash absorb. -/
def XEv.enc : XEv → Bytes
  | .commit l b => b! "co" ++ frame l ++ frame b
  | .challenge l n => b! "ch" ++ frame l ++ leBytes 8 n

/-- Bytes absorbed for a request after the history, before squeezing. -/
def XReq.enc : XReq → Bytes
  | .challenge l n => (XEv.challenge l n).enc ++ b! "xof"
  | .witness l n s r => b! "wb" ++ frame l ++ (s.map frame).flatten ++ leBytes 8 n ++ r.1

/-- The whole input of the extensible-output hash for a request after a history, for a hash state
which had absorbed `h` before being wrapped. -/
def xofQuery (h : Bytes) (evs : List XEv) (req : XReq) : Bytes :=
  h ++ (evs.map XEv.enc).flatten ++ req.enc

/-- Replay a history of `&mut` calls. -/
def XEv.replay {T : Type} [SigningTranscript T] (t : T) : List XEv → T
  | [] => t
  | .commit l b :: es => replay (SigningTranscript.commitBytes t l b) es
  | .challenge l n :: es => replay (SigningTranscript.challengeBytes t l n).2 es

end Spec

namespace Spec
open Schnorrkel

/-- The defect of a Schnorr triple: zero iff the signature equation holds. -/
def defect {P : Type} [Ristretto P] (R A : P) (k s : Z) : P := R + k • A - s • basepoint

/-- Hash query for the `i`-th delinearisation coefficient of a batch: all public keys, all `R`s, a
digest of every transcript, 32 RNG bytes, then `i+1` squeezes of 16 bytes. -/
def batchQuery (pks Rs digests : List Bytes) (r : Bytes) (i : Nat) : List MOp :=
  [.append (b! "dom-sep") (b! "V-RNG")] ++ pks.map (.append (b! "")) ++ Rs.map (.append (b! "")) ++
    digests.map (.append (b! "")) ++ [.rngKey r] ++ List.replicate (i + 1) (.prf 16)

/-- The 128-bit integer answered to `batchQuery`. -/
def batchCoeff [Oracles] (pks Rs digests : List Bytes) (r : Bytes) (i : Nat) : Nat :=
  leNat (Oracles.merlin (batchQuery pks Rs digests r i) 16).1

end Spec
