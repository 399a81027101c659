import Verif.Spec.RomWide
import Verif.Spec.RomCollide
import Verif.Spec.Derive

/-! # Secrecy games in the random-oracle model -/

namespace Spec
open Schnorrkel

/-- Somebody trying to tell two services apart: it adaptively asks for hash values and sends requests to the service,
then finishes.  There is no limit on its computing power. -/
inductive Client (Req Ans α : Type) where
  | ret (a : α)
  | ask (q : List MOp) (k : Arr 64 → Client Req Ans α)
  | request (r : Req) (k : Ans → Client Req Ans α)

namespace Client
variable {Req Ans α : Type}
/-- The result, when the hash functions are `O` and requests are answered by `serve`. -/
def play (O : Oracles) (serve : Req → Ans) : Client Req Ans α → α
  | .ret a => a
  | .ask q k => play O serve (k (O.merlin q 64))
  | .request r k => play O serve (k (serve r))
/-- The hash queries asked by the client itself. -/
def asked (O : Oracles) (serve : Req → Ans) : Client Req Ans α → List (List MOp)
  | .ret _ => []
  | .ask q k => q :: asked O serve (k (O.merlin q 64))
  | .request r k => asked O serve (k (serve r))
/-- At most `q` hash queries whatever the answers, and all requests in `S`. -/
def Bounded (S : Set Req) : Nat → Client Req Ans α → Prop
  | _, .ret _ => True
  | q, .ask _ k => ∃ q', q = q' + 1 ∧ ∀ w, Bounded S q' (k w)
  | q, .request r k => r ∈ S ∧ ∀ a, Bounded S q (k a)
/-- All requests are in `S`, whatever the answers. -/
def Requests (S : Set Req) : Client Req Ans α → Prop
  | .ret _ => True
  | .ask _ k => ∀ w, Requests S (k w)
  | .request r k => r ∈ S ∧ ∀ a, Requests S (k a)
end Client

/-- Hashing `l` absorbs the string `b` as one of the messages. -/
def Names (b : Bytes) (l : List MOp) : Prop := ∃ label, MOp.append label b ∈ l

/-! ## Services -/

/-- The first `n ≤ 64` bytes. -/
def firstBytes (w : Arr 64) (n : Nat) (h : n ≤ 64) : Arr n :=
  ⟨w.1.take n, by rw [List.length_take, w.2]; exact Nat.min_eq_left h⟩

section
variable {P : Type} [Ristretto P]

/-- Soft derivation of children of given public keys, with the chain code `cc`. -/
def softChild (O : Oracles) (cc : Arr 32) (sys : Rng) (r : Transcript × PublicKey P) : PublicKey P × ChainCode :=
  letI := O
  let c := Derivation.derivedKey r.2 r.1 ⟨cc⟩ sys
  (c.1, c.2.1)

/-- Children made with fresh random bytes for each pair of a transcript and a parent: the parent plus a random multiple of
the base point, and a random chain code. -/
def freshChild {S : Finset (List MOp × Arr 32)} (g : S × Bool → Arr 64) (r : Transcript × PublicKey P) :
    PublicKey P × ChainCode :=
  if h : (r.1.log, r.2.compressed) ∈ S then
    (RistrettoBoth.fromPoint (r.2.point + residue (g (⟨_, h⟩, false)) • basepoint),
      ⟨firstBytes (g (⟨_, h⟩, true)) 32 (by omega)⟩)
  else (r.2, ⟨zeros 32⟩)

/-- Children of one fixed public key, likewise. -/
def freshChildOf {S : Finset (List MOp)} (pk : PublicKey P) (g : S × Bool → Arr 64) (t : Transcript) :
    PublicKey P × ChainCode :=
  if h : t.log ∈ S then
    (RistrettoBoth.fromPoint (pk.point + residue (g (⟨_, h⟩, false)) • basepoint),
      ⟨firstBytes (g (⟨_, h⟩, true)) 32 (by omega)⟩)
  else (pk, ⟨zeros 32⟩)

/-- Hard derivation of children of the secret key `sk`. -/
def hardChild (O : Oracles) (sk : SecretKey) (r : Option ChainCode × Bytes) : MiniSecretKey × ChainCode :=
  letI := O
  sk.hardDeriveMiniSecretKey r.1 r.2

/-- Random children. -/
def randomChild {S : Finset (Option ChainCode × Bytes)} (g : S × Bool → Arr 64) (r : Option ChainCode × Bytes) :
    MiniSecretKey × ChainCode :=
  if h : r ∈ S then (⟨firstBytes (g (⟨_, h⟩, false)) 32 (by omega)⟩, ⟨firstBytes (g (⟨_, h⟩, true)) 32 (by omega)⟩)
  else (⟨zeros 32⟩, ⟨zeros 32⟩)

/-- The hash query behind the session key of `reciever_aead`. -/
noncomputable def twoDhOf (log : List MOp) (kp : Keypair P) (epk spk : PublicKey P) (n : Nat) : List MOp :=
  open Classical in
  let a := kp.pub.compressed.1
  let b := epk.compressed.1
  let c := spk.compressed.1
  twoDhQuery log (if lexLt b a then b else a) (if lexLt b a then a else b) (compress (kp.secret.key.val • epk.point)).1
    (if lexLt c a then c else a) (if lexLt c a then a else c) (compress (kp.secret.key.val • spk.point)).1 n

/-- A cosigner's reveal message, when the three nonces come from 64 random bytes each. -/
def nonceReveal (P : Type) [Ristretto P] (v : Fin 3 → Arr 64) : Reveal :=
  RevealedPoints.toReveal
    (⟨⟨[residue (v 0) • (basepoint : P), residue (v 1) • basepoint, residue (v 2) • basepoint], rfl⟩⟩ : RevealedPoints P)

/-- A random commitment. -/
def randomCommitment (w : Arr 64) : SignatureResult Commitment := .ok ⟨firstBytes w 16 (by omega)⟩

/-- The merlin query for the scalar of `expand_uniform`. -/
def expandQuery (m : Bytes) : List MOp :=
  [.append (b! "dom-sep") (b! "ExpandSecretKeys"), .append (b! "mini") m, .challenge (b! "sk") 64]

/-- A secret key made from random bytes: a scalar from 64 of them and a nonce seed from 32 others. -/
def randomSecretKey (g : Bool → Arr 64) : SecretKey :=
  ⟨Scalar.ofZ (residue (g false)), firstBytes (g true) 32 (by omega)⟩

/-- The secret key that a mini secret key expands to. -/
def expandedKey (O : Oracles) (m : Arr 32) : SecretKey :=
  letI := O
  MiniSecretKey.expand ⟨m⟩ .uniform

/-- Random `n`-byte strings, one for each request in `S`. -/
def randomBytes {Req : Type} [DecidableEq Req] {S : Finset Req} (g : S → Arr 64) (n : Nat) (hn : n ≤ 64) (r : Req) : Arr n :=
  if h : r ∈ S then firstBytes (g ⟨_, h⟩) n hn else zeros n

end

end Spec
