import Verif.Spec.RomMini
import Verif.Spec.RomOwner

/-! # Signing messages: the game for the byte-level API

Keys are made by `MiniSecretKey::expand_to_keypair` from 32 random bytes, messages are signed by `Keypair::sign_simple`,
public keys and signatures travel as bytes, and the verifier uses `PublicKey::from_bytes`, `Signature::from_bytes` and
`PublicKey::verify_simple`. -/

namespace Spec
open Schnorrkel

/-- A request for a signature; the attacker also chooses what the signer's system RNG will answer. -/
structure SignRequest where
  context : Bytes
  message : Bytes
  rng : Rng

/-- What the attacker comes up with. -/
structure SimpleForgery where
  context : Bytes
  message : Bytes
  signature : Bytes

/-- An attacker: it may ask for hash values (merlin), for signatures (64 bytes), and evaluate SHA-512 on 32 bytes. -/
abbrev SimpleAttacker : Type := Client (SignRequest ⊕ Arr 32) (Arr 64 ⊕ Arr 64) SimpleForgery

/-- At most `q` hash queries, `m` requests of the first sort and `s` of the second, whatever the answers. -/
def Client.Counts {Req Ans V Val α : Type} : Nat → Nat → Nat → Client (Req ⊕ V) (Ans ⊕ Val) α → Prop
  | _, _, _, .ret _ => True
  | q, m, s, .ask _ k => ∃ q', q = q' + 1 ∧ ∀ w, Counts q' m s (k w)
  | q, m, s, .request (.inl _) k => ∃ m', m = m' + 1 ∧ ∀ a, Counts q m' s (k a)
  | q, m, s, .request (.inr _) k => ∃ s', s = s' + 1 ∧ ∀ a, Counts q m s' (k a)

section
variable (P : Type) [Ristretto P]

/-- The attacker, given the public key bytes of the mini secret key `mini`, finds a context, a message and 64 bytes that
decode to a signature accepted by `verify_simple` under that public key, although the signer never returned these bytes for
this context and message.  SHA-512 of 32-byte strings is `h`, all other hash functions are `O`. -/
def ForgesSimple (O : Oracles) (h : Arr 32 → Arr 64) (mode : ExpansionMode) (mini : Arr 32) (A : Bytes → SimpleAttacker) : Prop :=
  letI := withSha O h
  let kp : Keypair P := MiniSecretKey.expandToKeypair ⟨mini⟩ mode
  let sign := fun r : SignRequest => (kp.signSimple r.context r.message r.rng).toBytes
  let result := (((A (PublicKey.toBytes kp.pub).1).given h).logged []).play (withSha O h) sign
  let c := result.1
  (∃ (pk : PublicKey P) (σ : Signature), PublicKey.fromBytes (PublicKey.toBytes kp.pub).1 = .ok pk ∧
    Signature.fromBytes c.signature = .ok σ ∧ PublicKey.verifySimple pk c.context c.message σ = .ok ()) ∧
  ∀ rng b, (⟨c.context, c.message, rng⟩, b) ∈ result.2 → b.1 ≠ c.signature

/-- The secret scalar made of random bytes: by reduction of 64 bytes, or the way Ed25519 makes it of the first 32. -/
def secretOf (mode : ExpansionMode) (w : Arr 64) : Z :=
  match mode with
  | .uniform => residue w
  | .ed25519 => clampedScalar (firstBytes w 32 (by omega))

variable {P}

/-- The attacker as one on the transcript-level API. -/
def asKeyAttacker : Client SignRequest (Arr 64) SimpleForgery → Client (KeyRequest P) (KeyAnswer P) (KeyForgery P)
  | .ret c => .ret (.signature ((SigningContext.new c.context).bytes c.message) c.signature)
  | .ask q k => .ask q fun w => asKeyAttacker (k w)
  | .request r k => .request (.sign ((SigningContext.new r.context).bytes r.message) r.rng) fun a => match a with
    | .signature σ => asKeyAttacker (k σ.toBytes)
    | _ => .ret (.signature ⟨[]⟩ [])

/-- Computing the discrete logarithm of `pk` with the help of the attacker, from the public key alone: signatures are made
from the coins `C`, SHA-512 is evaluated by `h`; run, rewind to the hash query that the forgery is about, run again with
fresh answers, and divide. -/
noncomputable def extractSimple (O : Oracles) (pk : PublicKey P) (A : SimpleAttacker) (h : Arr 32 → Arr 64) {K : Finset (KeyUse P)}
    {D : Finset (List MOp)} (C : K → Arr 64 × Arr 64) (f g : D → Arr 64) : Z :=
  extractKeyFrom O pk (fun _ => 0) (asKeyAttacker (A.given h)) C f g

end

end Spec
