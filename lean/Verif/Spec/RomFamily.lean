import Verif.Spec.RomWallet
import Verif.Spec.Cert

/-! # All the key pairs that come from one key pair

From a key pair its owner makes further ones: by soft derivation with any (public) chain code, and by accepting certificates
from any issuer, with the key pair as the seed key; and so on from the new ones.  The issuers may be anybody and do anything:
each chooses its public key, the transcript and the certificate. -/

namespace Spec
open Schnorrkel

section
variable {P : Type} [Ristretto P]

/-- One step from a key pair to another one, with the state of the system RNG on that occasion.  (A certificate is `gamma`
and the encoding of a scalar `s`; one with a scalar out of range is refused and makes no key, see C37.) -/
inductive Step (P : Type) where
  /-- `derived_key` -/
  | soft (t : Transcript) (cc : ChainCode) (sys : Rng)
  /-- `accept_adaptor_cert` -/
  | accept (issuer : PublicKey P) (t : Transcript) (gamma : Arr 32) (s : Z) (sys : Rng)

/-- The certificate in an accepting step. -/
def certOf (gamma : Arr 32) (s : Z) : AdaptorCertSecret := ⟨Arr.append gamma (Scalar.ofZ s).bytes⟩

/-- One step of the owner. -/
def stepTo (O : Oracles) (kp : Keypair P) : Step P → Option (Keypair P)
  | .soft t cc sys => letI := O
    some (Derivation.derivedKey kp t cc sys).1
  | .accept issuer t gamma s sys => letI := O
    match (issuer.acceptAdaptorCert t kp.secret (certOf gamma s) sys).1 with
    | .ok (_, sk) => some sk.toKeypair
    | .error _ => none

/-- The owner's key pair at the end of a path (the latest step first). -/
def memberOf (O : Oracles) (kp : Keypair P) : List (Step P) → Option (Keypair P)
  | [] => some kp
  | s :: p => (memberOf O kp p).bind fun kp' => stepTo O kp' s

/-- The public part of a step. -/
inductive Origin where
  | soft (log : List MOp) (cc : ChainCode)
  | accept (log : List MOp) (issuer gamma : Arr 32) (s : Z)
deriving DecidableEq

/-- The public part of a step. -/
def Step.origin : Step P → Origin
  | .soft t cc _ => .soft t.log cc
  | .accept issuer t gamma s _ => .accept t.log issuer.compressed gamma s

/-- What a step takes from the system RNG. -/
def Step.drawn : Step P → Arr 32
  | .soft _ _ sys => (sys.fill 32).1
  | .accept _ _ _ _ sys => (sys.fill 32).1

/-- Public keys of the family, as those who know the public parts of the steps compute them. -/
noncomputable def memberKey (O : Oracles) (pk : PublicKey P) : List Origin → PublicKey P
  | [] => pk
  | .soft log cc :: p => letI := O
    (Derivation.derivedKey (memberKey O pk p) (⟨log⟩ : Transcript) cc notAnRng).1
  | .accept _ _ _ s :: p => PublicKey.fromPoint ((memberKey O pk p).point + s • basepoint)

/-- The difference between the secret scalars at the two ends of a path. -/
noncomputable def shiftOf (O : Oracles) (pk : PublicKey P) : List Origin → Z
  | [] => 0
  | .soft log cc :: p => letI := O
    shiftOf O pk p + softTweak log cc.bytes.1 (memberKey O pk p).compressed.1
  | .accept _ _ _ s :: p => shiftOf O pk p + s

/-- A request to the key pair at the end of a path. -/
structure FamilyRequest (P : Type) where
  path : List (Step P)
  req : KeyRequest P

/-- The owner answers. -/
def serveFamily (O : Oracles) (kp : Keypair P) (r : FamilyRequest P) : KeyAnswer P :=
  serveKey O ((memberOf O kp r.path).getD kp) r.req

/-- A claim about the public key at the end of a path. -/
structure FamilyForgery (P : Type) where
  path : List Origin
  claim : KeyForgery P

/-- Those requests and answers that were for the public key `pk`, if `keyAt` gives the public keys. -/
def askedUnder (keyAt : List Origin → PublicKey P) (pk : PublicKey P) (log : List (FamilyRequest P × KeyAnswer P)) :
    List (KeyRequest P × KeyAnswer P) :=
  log.filterMap fun x => if (keyAt (x.1.path.map Step.origin)).compressed = pk.compressed then some (x.1.req, x.2) else none

/-- The claim is right: under the public key at the end of the path it verifies, and the owner did not give it out under
that public key. -/
def FamilyForgery.Valid (O : Oracles) (keyAt : List Origin → PublicKey P) (log : List (FamilyRequest P × KeyAnswer P))
    (c : FamilyForgery P) : Prop :=
  c.claim.Valid O (keyAt c.path) (askedUnder keyAt (keyAt c.path) log)

/-! ## Serving without the secret keys -/

/-- What an answer depends on. -/
structure FamilyUse (P : Type) where
  path : List (Origin × Arr 32)
  use : KeyUse P

/-- What an answer depends on. -/
def FamilyRequest.use (r : FamilyRequest P) : FamilyUse P := ⟨r.path.map fun s => (s.origin, s.drawn), r.req.use⟩

/-- VRF outputs of the members, from those of the root key. -/
noncomputable def memberDh (O : Oracles) (pk : PublicKey P) (dh : P → P) (p : List Origin) (I : P) : P :=
  dh I + shiftOf O pk p • I

/-- The challenge query of a simulated answer. -/
noncomputable def FamilyUse.query (O : Oracles) (pk : PublicKey P) (dh : P → P) (k : FamilyUse P) (z w : Z) : List MOp :=
  k.use.query (memberKey O pk (k.path.map Prod.fst)) (memberDh O pk dh (k.path.map Prod.fst)) z w

/-- A simulated answer. -/
noncomputable def FamilyUse.answer (O : Oracles) (pk : PublicKey P) (dh : P → P) (k : FamilyUse P) (z w : Z) : KeyAnswer P :=
  k.use.answer (memberKey O pk (k.path.map Prod.fst)) (memberDh O pk dh (k.path.map Prod.fst)) z w

/-- The nonce query of the owner, when the nonce seed of the member is `n`. -/
noncomputable def FamilyUse.nonceQuery (O : Oracles) (pk : PublicKey P) (n : Arr 32) (k : FamilyUse P) : List MOp :=
  k.use.nonceQuery (memberKey O pk (k.path.map Prod.fst)) n

/-- The hash that gives the nonce seed of a new member: it contains the nonce seed `n` of its parent. -/
noncomputable def memberSeedUse (O : Oracles) (pk : PublicKey P) (key : Scalar) (s : Origin × Arr 32)
    (p : List (Origin × Arr 32)) (n : Arr 32) : Use :=
  match s.1 with
  | .soft log cc => .derivedNonce log cc.bytes.1 (memberKey O pk (p.map Prod.fst)).compressed.1
    n.1 ((Scalar.ofZ (key.toZ + shiftOf O pk (p.map Prod.fst))).bytes.1 ++ n.1) s.2.1
  | .accept log issuer gamma z => .accepting log issuer.1 (certOf gamma z).bytes.1 n.1 s.2.1

/-- `J` contains all the nodes on the paths used by requests in `K`, and `D` contains the hash queries that answering them
can make, except those for tweaks and chain codes. -/
structure CoversFamily (O : Oracles) (pk : PublicKey P) (key : Scalar) (D : Finset (List MOp))
    (J : Finset (List (Origin × Arr 32))) (K : Finset (FamilyUse P)) : Prop where
  root : [] ∈ J
  parents : ∀ s p, s :: p ∈ J → p ∈ J
  uses : ∀ k ∈ K, k.path ∈ J
  challenges : ∀ k ∈ K, ∀ v : Z, k.query O pk (fun I => key.toZ • I) v 0 ∈ D
  nonces : ∀ k ∈ K, ∀ n : Arr 32, k.nonceQuery O pk n ∈ D
  seeds : ∀ s p, s :: p ∈ J → ∀ n : Arr 32, (memberSeedUse O pk key s p n).query ∈ D
  noSoft : NoSoftQuery D

/-- The attack simulated with coins `C`, followed by the check of its claim. -/
noncomputable def simulateFamily (O : Oracles) (pk : PublicKey P) (dh : P → P) {K : Finset (FamilyUse P)}
    (C : K → Arr 64 × Arr 64) (A : Client (FamilyRequest P) (KeyAnswer P) (FamilyForgery P)) : Algo (FamilyForgery P) :=
  (A.simulate (FamilyUse.query O pk dh) (FamilyUse.answer O pk dh) FamilyRequest.use (coinsOf C) []).bind fun r =>
    .ask (r.claim.query (memberKey O pk r.path)) fun _ => .ret r

/-- Computing the discrete logarithm of the root public key with the help of the attacker, from the public key and the VRF
outputs `dh` of the root key: run the simulated attack, rewind it to the query its claim is about, run it again with fresh
answers, divide, and subtract the shift of the path. -/
noncomputable def extractFamilyFrom (O : Oracles) (pk : PublicKey P) (dh : P → P) {K : Finset (FamilyUse P)}
    {D : Finset (List MOp)} (A : Client (FamilyRequest P) (KeyAnswer P) (FamilyForgery P)) (C : K → Arr 64 × Arr 64)
    (f g : D → Arr 64) : Z :=
  let B := simulateFamily O pk dh C A
  let r := B.run (table O D f)
  let q := r.claim.query (memberKey O pk r.path)
  let f' := rewind ((B.asked (table O D f)).takeWhile (· ≠ q)) f g
  let r' := B.run (table O D f')
  (r.claim.response - r'.claim.response) / (hashWith (table O D f) q - hashWith (table O D f') q) - shiftOf O pk r.path

end

end Spec
