import Verif.Spec.RomKey

/-! # A key pair whose owner also derives secret values from it

Beyond signatures, VRF proofs and certificates (`KeyRequest`), the owner of a key pair derives secret values from it: VRF
output bytes, session keys, hard-derived children.  Here a client is shown such values on request, and tries to tell them
from random strings. -/

namespace Spec
open Schnorrkel

namespace Client
variable {Req Ans V Val α : Type}

/-- The same client, which also reports the hash queries it asked and the requests it sent (latest first). -/
def noted : List (List MOp) → List Req → Client Req Ans α → Client Req Ans (α × List (List MOp) × List Req)
  | as, rs, .ret a => .ret (a, as, rs)
  | as, rs, .ask q k => .ask q fun w => noted (q :: as) rs (k w)
  | as, rs, .request r k => .request r fun a => noted as (r :: rs) (k a)

/-- The client when its requests of the second sort are answered by the function `g`. -/
def given (g : V → Val) : Client (Req ⊕ V) (Ans ⊕ Val) α → Client Req Ans α
  | .ret a => .ret a
  | .ask q k => .ask q fun w => given g (k w)
  | .request (.inl r) k => .request r fun a => given g (k (.inl a))
  | .request (.inr v) k => given g (k (.inr (g v)))

/-- Requests of the second sort are in `S`, whatever the answers, as long as values `ok`. -/
def Values (ok : V → Val → Prop) (S : Set V) : Client (Req ⊕ V) (Ans ⊕ Val) α → Prop
  | .ret _ => True
  | .ask _ k => ∀ w, Values ok S (k w)
  | .request (.inl _) k => ∀ a, Values ok S (k (.inl a))
  | .request (.inr v) k => v ∈ S ∧ ∀ y, ok v y → Values ok S (k (.inr y))
end Client

section
variable {P : Type} [Ristretto P]

/-- Secret values that the owner of a key pair derives from it. -/
inductive SecretValue (P : Type) where
  /-- `n` bytes made from the VRF output at `input` -/
  | vrfBytes (ctx : Bytes) (input : P) (n : Fin 65)
  /-- the `n`-byte AEAD key shared with the holder of `peer` -/
  | sessionKey (ctx : Bytes) (peer : P) (n : Fin 65)
  /-- the receiver's `n`-byte AEAD key after two key exchanges -/
  | twoDhKey (t : Transcript) (ephemeral static : P) (n : Fin 65)
  /-- hard-derived mini secret key -/
  | childSecret (cc : Option ChainCode) (i : Bytes)
  /-- the chain code that goes with it -/
  | childChain (cc : Option ChainCode) (i : Bytes)

/-- Number of bytes of the value. -/
def SecretValue.size : SecretValue P → Nat
  | .vrfBytes _ _ n => n.1
  | .sessionKey _ _ n => n.1
  | .twoDhKey _ _ _ n => n.1
  | .childSecret _ _ => 32
  | .childChain _ _ => 32

/-- The string has the right length. -/
def SecretValue.Fits (v : SecretValue P) (b : Bytes) : Prop := b.length = v.size

/-- The owner's answer. -/
def serveValue (O : Oracles) (kp : Keypair P) : SecretValue P → Bytes
  | .vrfBytes ctx input n => letI := O
    ((kp.secret.vrfCreateFromPoint (RistrettoBoth.fromPoint input)).makeBytes ctx n.1).1
  | .sessionKey ctx peer n => letI := O; (kp.aeadUnauthenticated ctx (PublicKey.fromPoint peer) n.1).1
  | .twoDhKey t e s n => letI := O; (kp.recieverAead t (PublicKey.fromPoint e) (PublicKey.fromPoint s) n.1).1
  | .childSecret cc i => letI := O; (kp.hardDeriveMiniSecretKey cc i).1.1.1
  | .childChain cc i => letI := O; (kp.hardDeriveMiniSecretKey cc i).2.bytes.1

/-- The hash query behind the value.  It contains the VRF output point, the shared point(s), the secret scalar. -/
noncomputable def SecretValue.query (kp : Keypair P) : SecretValue P → List MOp
  | .vrfBytes ctx input n => vrfResultQuery ctx ((compress input).1, (compress (kp.secret.key.toZ • input)).1) n.1
  | .sessionKey ctx peer n => kexOf ctx kp (PublicKey.fromPoint peer) n.1
  | .twoDhKey t e s n => twoDhOf t.log kp (PublicKey.fromPoint e) (PublicKey.fromPoint s) n.1
  | .childSecret cc i => hardQuery i (cc.map (·.bytes.1)) kp.secret.key.bytes.1
  | .childChain cc i => hardQuery i (cc.map (·.bytes.1)) kp.secret.key.bytes.1 ++ [.challenge (b! "HDKD-chaincode") 32]

/-- All that can be asked of the owner. -/
def serveOwner (O : Oracles) (kp : Keypair P) : KeyRequest P ⊕ SecretValue P → KeyAnswer P ⊕ Bytes
  | .inl r => .inl (serveKey O kp r)
  | .inr v => .inr (serveValue O kp v)

open Classical in
/-- Random values, one independent string for each value in `S`. -/
noncomputable def randomValue {S : Finset (SecretValue P)} (g : S → Arr 64) (v : SecretValue P) : Bytes :=
  if h : v ∈ S then (g ⟨v, h⟩).1.take v.size else List.replicate v.size 0

/-- The client in a world without the secret key: values are random strings, signatures, proofs and certificates are
simulated from coins.  The result comes with the hash queries and the requests. -/
noncomputable def withoutSecrets (pk : PublicKey P) (dh : P → P) {K : Finset (KeyUse P)} {S : Finset (SecretValue P)} {α : Type}
    (A : Client (KeyRequest P ⊕ SecretValue P) (KeyAnswer P ⊕ Bytes) α) (C : K → Arr 64 × Arr 64) (g : S → Arr 64) :
    Algo (α × List (List MOp) × List (KeyRequest P ⊕ SecretValue P)) :=
  ((A.noted [] []).given (randomValue g)).simulate (KeyUse.query pk dh) (KeyUse.answer pk dh) KeyRequest.use (coinsOf C) []

/-- An attacker on the owner succeeds in making a new signature, a new proof or a new certificate. -/
def ForgesWith (O : Oracles) (kp : Keypair P) (A : Client (KeyRequest P) (KeyAnswer P) (KeyForgery P)) : Prop :=
  let r := (A.logged []).play O (serveKey O kp)
  r.1.Valid O kp.pub r.2

/-- The same for an attacker who also gets secret values. -/
def ForgesWithValues (O : Oracles) (kp : Keypair P)
    (A : Client (KeyRequest P ⊕ SecretValue P) (KeyAnswer P ⊕ Bytes) (KeyForgery P)) : Prop :=
  ForgesWith O kp (A.given (serveValue O kp))

/-- `D` contains the hash queries of the values in `S`. -/
def CoversValues (kp : Keypair P) (D : Finset (List MOp)) (S : Finset (SecretValue P)) : Prop := ∀ v ∈ S, v.query kp ∈ D

end

end Spec
