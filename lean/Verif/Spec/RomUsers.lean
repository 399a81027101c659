import Verif.Spec.RomKey
import Verif.Spec.RomMini

/-! # Many users, some of whose keys leak

There are any number of users, each with a secret key of its own.  An attacker knows all public keys, uses all of their
services at once, and can obtain the secret keys (with the nonce seeds) of users of its choice at any time.  It wins with a
claim under the public key of a user whose secret key it has not obtained. -/

namespace Spec
open Schnorrkel

section
variable {P : Type} [Ristretto P] {ι : Type}

/-- What the attacker can do to the users: have one of them serve a request, or get hold of one's secret key. -/
inductive UserRequest (ι P : Type) where
  | serve (i : ι) (r : KeyRequest P)
  | leak (i : ι)

/-- What it gets. -/
inductive UserAnswer (P : Type) where
  | served (a : KeyAnswer P)
  | secret (sk : SecretKey)

/-- The users answer, each with its own secret key. -/
def serveUsers (O : Oracles) (sks : ι → SecretKey) : UserRequest ι P → UserAnswer P
  | .serve i r => .served (serveKey O (sks i).toKeypair r)
  | .leak i => .secret (sks i)

/-- A claim about user `user`. -/
structure UserForgery (ι P : Type) where
  user : ι
  claim : KeyForgery P

/-- What user `j` was asked, and answered. -/
def servedBy [DecidableEq ι] (j : ι) (log : List (UserRequest ι P × UserAnswer P)) : List (KeyRequest P × KeyAnswer P) :=
  log.filterMap fun x => match x with
    | (.serve i r, .served a) => if i = j then some (r, a) else none
    | _ => none

/-- The claim is right: it verifies under the user's public key, the user did not give it out, and its secret key did not
leak. -/
def UserForgery.Valid [DecidableEq ι] (O : Oracles) (pks : ι → PublicKey P) (log : List (UserRequest ι P × UserAnswer P))
    (c : UserForgery ι P) : Prop :=
  c.claim.Valid O (pks c.user) (servedBy c.user log) ∧ ∀ a, (.leak c.user, a) ∉ log

/-- The secret key with scalar `s.1` and nonce seed `s.2`. -/
def userSecret (s : Z × Arr 32) : SecretKey := ⟨Scalar.ofZ s.1, s.2⟩

/-- The public keys of the users with these secrets. -/
def userKeys (s : ι → Z × Arr 32) (i : ι) : PublicKey P := (userSecret (s i)).toPublic

/-- The attacker makes a valid claim about some user, when the users' secrets are `s`. -/
def ForgesUser [DecidableEq ι] (O : Oracles) (A : (ι → PublicKey P) → Client (UserRequest ι P) (UserAnswer P) (UserForgery ι P))
    (s : ι → Z × Arr 32) : Prop :=
  let r := ((A (userKeys s)).logged []).play O (serveUsers O fun i => userSecret (s i))
  r.1.Valid O (userKeys s) r.2

/-- What an answer depends on (nothing, for a leak). -/
def UserRequest.use : UserRequest ι P → Option (KeyUse P)
  | .serve _ r => some r.use
  | .leak _ => none

/-! ## Playing all users but one -/

/-- Answering like the owner of the key pair `kp`, one hash query at a time. -/
def serveStepwise (kp : Keypair P) (r : KeyRequest P) (k : KeyAnswer P → Client (KeyRequest P) (KeyAnswer P) (KeyForgery P)) :
    Client (KeyRequest P) (KeyAnswer P) (KeyForgery P) :=
  let x := kp.secret.key.toZ
  let dh : P → P := fun I => x • I
  let sec : Z := match r with
    | .prove _ _ _ _ => -x
    | _ => x
  .ask (r.use.nonceQuery kp.pub kp.secret.nonce) fun v =>
  .ask (r.use.query kp.pub dh (residue v) 0) fun w =>
  k (r.use.answer kp.pub dh (residue w * sec + residue v) (residue w))

/-- An attacker on user `j` alone made from an attacker on all users: it plays the other users, with their secret keys,
and passes on to user `j` what is for `j`.  (If the secret key of `j` is asked for it shows a zero key; then the attacker
must not attack `j`.) -/
def alone [DecidableEq ι] (j : ι) (others : {i // i ≠ j} → SecretKey) :
    Client (UserRequest ι P) (UserAnswer P) (UserForgery ι P) → Client (KeyRequest P) (KeyAnswer P) (KeyForgery P)
  | .ret c => .ret c.claim
  | .ask q k => .ask q fun w => alone j others (k w)
  | .request (.serve i r) k =>
    if h : i = j then .request r fun a => alone j others (k (.served a))
    else serveStepwise (others ⟨i, h⟩).toKeypair r fun a => alone j others (k (.served a))
  | .request (.leak i) k =>
    if h : i = j then alone j others (k (.secret ⟨Scalar.ofZ 0, zeros 32⟩))
    else alone j others (k (.secret (others ⟨i, h⟩)))

/-- Computing the discrete logarithm of `pk`, made to be the public key of user `j`, with the help of an attacker on all
users: play the other users, whose secret keys one chooses, and proceed as with an attacker on one user. -/
noncomputable def extractUser [DecidableEq ι] (O : Oracles) (j : ι) (pk : PublicKey P) (dh : P → P)
    (others : {i // i ≠ j} → Z × Arr 32)
    {K : Finset (KeyUse P)} {D : Finset (List MOp)}
    (A : (ι → PublicKey P) → Client (UserRequest ι P) (UserAnswer P) (UserForgery ι P))
    (C : K → Arr 64 × Arr 64) (f g : D → Arr 64) : Z :=
  let pks : ι → PublicKey P := fun i => if h : i = j then pk else (userSecret (others ⟨i, h⟩)).toPublic
  extractKeyFrom O pk dh (alone j (fun i => userSecret (others i)) (A pks)) C f g

/-- `D` contains the hash queries that the requests in `K` and the claim's check can make, whatever the keys. -/
def CoversUsers (P : Type) [Ristretto P] (D : Finset (List MOp)) (K : Finset (KeyUse P)) : Prop :=
  ∀ x : Z, CoversKey (publicOf x : PublicKey P) (fun I => x • I) D K

end

end Spec
