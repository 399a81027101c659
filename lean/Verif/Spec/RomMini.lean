import Verif.Spec.RomWallet

/-! # A wallet made from a random mini secret key -/

namespace Spec
open Schnorrkel

section
variable {P : Type} [Ristretto P]

/-- The public key of the secret scalar `x`. -/
def publicOf (x : Z) : PublicKey P := RistrettoBoth.fromPoint (x • basepoint)

/-- The attacker, given the root public key, wins against the wallet with root secret key `sk` and chain code `cc`: it has a
signature, VRF proof or certificate that verifies under the public key at the end of some path, and the owner did not give
it out under that public key. -/
def ForgesWallet (O : Oracles) (cc : ChainCode) (A : PublicKey P → Client (WalletRequest P) (KeyAnswer P) (WalletForgery P))
    (sk : SecretKey) : Prop :=
  let kp : Keypair P := sk.toKeypair
  let r := ((A kp.pub).logged []).play O (serveWallet O kp cc)
  r.1.Valid O (walletKey O kp.pub cc) r.2

/-- `D` contains the two hash queries of the expansion of each mini secret key. -/
def CoversExpand (D : Finset (List MOp)) : Prop :=
  ∀ m : Arr 32, expandQuery m.1 ∈ D ∧ expandQuery m.1 ++ [.challenge (b! "no") 32] ∈ D

/-! ## Expansion in Ed25519 mode -/

/-- The hash functions `O`, but with SHA-512 of 32-byte strings given by `h`. -/
def withSha (O : Oracles) (h : Arr 32 → Arr 64) : Oracles :=
  { O with sha512 := fun b => if e : b.length = 32 then h ⟨b, e⟩ else O.sha512 b }

/-- The secret key that a mini secret key expands to in Ed25519 mode. -/
def expandedEdKey (O : Oracles) (m : Arr 32) : SecretKey :=
  letI := O
  MiniSecretKey.expand ⟨m⟩ .ed25519

/-- The secret scalar that Ed25519 makes of 32 bytes: clamp, then divide by the cofactor. -/
def clampedScalar (s : Arr 32) : Z := ((clamp (leNat s.1) / 8 : Nat) : Z)

/-- At most `s` requests of the second sort, whatever the answers. -/
def Client.Second {Req Ans V Val α : Type} : Nat → Client (Req ⊕ V) (Ans ⊕ Val) α → Prop
  | _, .ret _ => True
  | s, .ask _ k => ∀ w, Second s (k w)
  | s, .request (.inl _) k => ∀ a, Second s (k a)
  | s, .request (.inr _) k => ∃ s', s = s' + 1 ∧ ∀ a, Second s' (k a)

end

end Spec
