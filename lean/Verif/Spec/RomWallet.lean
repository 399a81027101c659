import Verif.Spec.RomKey
import Verif.Spec.Derive
import Verif.Model.Batch

/-! # A key pair together with everything soft-derived from it

The owner holds one key pair and a chain code, and uses all key pairs that soft derivation makes of it, along any paths.
The public key and the chain code are known to everybody, so everybody can compute all the public keys. -/

namespace Spec
open Schnorrkel

section
variable {P : Type} [Ristretto P]

/-- The owner's key pair and chain code at the end of a path of soft derivations (the latest step first).  Each step comes
with the state of the system RNG on that occasion. -/
def childOf (O : Oracles) (kp : Keypair P) (cc : ChainCode) : List (Transcript × Rng) → Keypair P × ChainCode
  | [] => (kp, cc)
  | s :: p =>
    letI := O
    let c := Derivation.derivedKey (childOf O kp cc p).1 s.1 (childOf O kp cc p).2 s.2
    (c.1, c.2.1)

/-- The public key and the chain code at the end of a path, as anybody derives them (no randomness is drawn). -/
def publicChildOf (O : Oracles) (pk : PublicKey P) (cc : ChainCode) : List Transcript → PublicKey P × ChainCode
  | [] => (pk, cc)
  | t :: p =>
    letI := O
    let c := Derivation.derivedKey (publicChildOf O pk cc p).1 t (publicChildOf O pk cc p).2 notAnRng
    (c.1, c.2.1)

/-- The difference between the secret scalars at the two ends of a path. -/
noncomputable def tweakOf (O : Oracles) (pk : PublicKey P) (cc : ChainCode) : List Transcript → Z
  | [] => 0
  | t :: p =>
    letI := O
    tweakOf O pk cc p + softTweak t.log (publicChildOf O pk cc p).2.bytes.1 (publicChildOf O pk cc p).1.compressed.1

/-- A request to the key pair at the end of a path. -/
structure WalletRequest (P : Type) where
  path : List (Transcript × Rng)
  req : KeyRequest P

/-- The owner answers. -/
def serveWallet (O : Oracles) (kp : Keypair P) (cc : ChainCode) (r : WalletRequest P) : KeyAnswer P :=
  serveKey O (childOf O kp cc r.path).1 r.req

/-- A claim about the public key at the end of a path. -/
structure WalletForgery (P : Type) where
  path : List Transcript
  claim : KeyForgery P

/-- Those requests and answers that were for the public key `pk`, if `keyAt` gives the public keys. -/
def requestsUnder (keyAt : List Transcript → PublicKey P) (pk : PublicKey P) (log : List (WalletRequest P × KeyAnswer P)) :
    List (KeyRequest P × KeyAnswer P) :=
  log.filterMap fun x => if (keyAt (x.1.path.map Prod.fst)).compressed = pk.compressed then some (x.1.req, x.2) else none

/-- The claim is right: under the public key at the end of the path it verifies, and the owner did not give it out under
that public key. -/
def WalletForgery.Valid (O : Oracles) (keyAt : List Transcript → PublicKey P) (log : List (WalletRequest P × KeyAnswer P))
    (c : WalletForgery P) : Prop :=
  c.claim.Valid O (keyAt c.path) (requestsUnder keyAt (keyAt c.path) log)

/-! ## Serving without the secret keys -/

/-- What an answer depends on. -/
structure WalletUse (P : Type) where
  path : List (List MOp × Arr 32)
  use : KeyUse P

/-- What a step depends on. -/
def stepUse (s : Transcript × Rng) : List MOp × Arr 32 := (s.1.log, (s.2.fill 32).1)

/-- What an answer depends on. -/
def WalletRequest.use (r : WalletRequest P) : WalletUse P := ⟨r.path.map stepUse, r.req.use⟩

/-- The transcripts along a path. -/
def transcriptsOf (p : List (List MOp × Arr 32)) : List Transcript := p.map fun s => ⟨s.1⟩

/-- Public keys of the wallet. -/
def walletKey (O : Oracles) (pk : PublicKey P) (cc : ChainCode) (p : List Transcript) : PublicKey P := (publicChildOf O pk cc p).1

/-- VRF outputs of derived keys, from those of the root key. -/
noncomputable def walletDh (O : Oracles) (pk : PublicKey P) (cc : ChainCode) (dh : P → P) (p : List Transcript) (I : P) : P :=
  dh I + tweakOf O pk cc p • I

/-- The challenge query of a simulated answer. -/
noncomputable def WalletUse.query (O : Oracles) (pk : PublicKey P) (cc : ChainCode) (dh : P → P) (k : WalletUse P) (z w : Z) :
    List MOp :=
  k.use.query (walletKey O pk cc (transcriptsOf k.path)) (walletDh O pk cc dh (transcriptsOf k.path)) z w

/-- A simulated answer. -/
noncomputable def WalletUse.answer (O : Oracles) (pk : PublicKey P) (cc : ChainCode) (dh : P → P) (k : WalletUse P) (z w : Z) :
    KeyAnswer P :=
  k.use.answer (walletKey O pk cc (transcriptsOf k.path)) (walletDh O pk cc dh (transcriptsOf k.path)) z w

/-- The nonce query of the owner, when the nonce seed of the derived key is `n`. -/
def WalletUse.nonceQuery (O : Oracles) (pk : PublicKey P) (cc : ChainCode) (n : Arr 32) (k : WalletUse P) : List MOp :=
  k.use.nonceQuery (walletKey O pk cc (transcriptsOf k.path)) n

/-- The query for the nonce seed of a child: it contains the nonce seed `n` and the secret scalar of the parent. -/
noncomputable def seedQuery (O : Oracles) (pk : PublicKey P) (cc : ChainCode) (key : Scalar) (s : List MOp × Arr 32)
    (p : List (List MOp × Arr 32)) (n : Arr 32) : List MOp :=
  (Use.derivedNonce s.1 (publicChildOf O pk cc (transcriptsOf p)).2.bytes.1 (walletKey O pk cc (transcriptsOf p)).compressed.1
    n.1 ((Scalar.ofZ (key.toZ + tweakOf O pk cc (transcriptsOf p))).bytes.1 ++ n.1) s.2.1).query

/-- No hash query for the tweak or the chain code of a soft derivation is in `D`: those answers are fixed once and for all,
in any way. -/
def NoSoftQuery (D : Finset (List MOp)) : Prop := ∀ log cc pk, softQuery log cc pk ∉ D ∧
  softQuery log cc pk ++ [.challenge (b! "HDKD-chaincode") 32] ∉ D

/-- `J` contains all the nodes on the paths used by requests in `K`, and `D` contains the hash queries that answering them
can make, except those for tweaks and chain codes. -/
structure CoversWallet (O : Oracles) (pk : PublicKey P) (cc : ChainCode) (key : Scalar) (D : Finset (List MOp))
    (J : Finset (List (List MOp × Arr 32))) (K : Finset (WalletUse P)) : Prop where
  root : [] ∈ J
  parents : ∀ s p, s :: p ∈ J → p ∈ J
  uses : ∀ k ∈ K, k.path ∈ J
  challenges : ∀ k ∈ K, ∀ v : Z, k.query O pk cc (fun I => key.toZ • I) v 0 ∈ D
  nonces : ∀ k ∈ K, ∀ n : Arr 32, k.nonceQuery O pk cc n ∈ D
  seeds : ∀ s p, s :: p ∈ J → ∀ n : Arr 32, seedQuery O pk cc key s p n ∈ D
  noSoft : NoSoftQuery D

/-- The attack simulated with coins `C`, followed by the check of its claim. -/
noncomputable def simulateWallet (O : Oracles) (pk : PublicKey P) (cc : ChainCode) (dh : P → P) {K : Finset (WalletUse P)}
    (C : K → Arr 64 × Arr 64) (A : Client (WalletRequest P) (KeyAnswer P) (WalletForgery P)) : Algo (WalletForgery P) :=
  (A.simulate (WalletUse.query O pk cc dh) (WalletUse.answer O pk cc dh) WalletRequest.use (coinsOf C) []).bind fun r =>
    .ask (r.claim.query (walletKey O pk cc r.path)) fun _ => .ret r

/-- Computing the discrete logarithm of the root public key with the help of the attacker, from the public key, the chain
code and the VRF outputs `dh` of the root key: run the simulated attack, rewind it to the query its claim is about, run it
again with fresh answers, divide, and subtract the tweak of the path. -/
noncomputable def extractWalletFrom (O : Oracles) (pk : PublicKey P) (cc : ChainCode) (dh : P → P) {K : Finset (WalletUse P)}
    {D : Finset (List MOp)} (A : Client (WalletRequest P) (KeyAnswer P) (WalletForgery P)) (C : K → Arr 64 × Arr 64)
    (f g : D → Arr 64) : Z :=
  let B := simulateWallet O pk cc dh C A
  let r := B.run (table O D f)
  let q := r.claim.query (walletKey O pk cc r.path)
  let f' := rewind ((B.asked (table O D f)).takeWhile (· ≠ q)) f g
  let r' := B.run (table O D f')
  (r.claim.response - r'.claim.response) / (hashWith (table O D f) q - hashWith (table O D f') q) - tweakOf O pk cc r.path

/-- The client that looks up some hash values (those with `fixed q`) by itself. -/
noncomputable def Client.knowing {Req Ans α : Type} (O : Oracles) (fixed : Set (List MOp)) : Client Req Ans α → Client Req Ans α
  | .ret a => .ret a
  | .ask q k => open Classical in
    if q ∈ fixed then knowing O fixed (k (O.merlin q 64)) else .ask q fun w => knowing O fixed (k w)
  | .request r k => .request r fun a => knowing O fixed (k a)

end

end Spec
