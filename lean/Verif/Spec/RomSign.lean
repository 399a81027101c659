import Verif.Spec.Rom

/-! # Chosen-message attacks on signatures -/

namespace Spec
open Schnorrkel
variable {P : Type} [Ristretto P] {α : Type}

/-- An attacker on the signature scheme: it adaptively asks for hash values and for signatures on transcripts of its
choice, *and chooses the behaviour of the signer's system RNG at each request*; then it finishes. -/
inductive Attacker (α : Type) where
  | ret (a : α)
  | ask (q : List MOp) (k : Arr 64 → Attacker α)
  | sign (t : Transcript) (sys : Rng) (k : Signature → Attacker α)

/-- The attack on the real signer: the result and the signatures that were given out. -/
def Attacker.play (O : Oracles) (sk : SecretKey) (pk : PublicKey P) : Attacker α → α × List (Transcript × Signature)
  | .ret a => (a, [])
  | .ask q k => play O sk pk (k (O.merlin q 64))
  | .sign t sys k =>
    let r := play O sk pk (k (signWith O sk t pk sys))
    (r.1, (t, signWith O sk t pk sys) :: r.2)

/-- The attacker wins if the bytes it outputs parse as a signature that verifies on the transcript it outputs, and
that signature was not given out for that transcript. -/
def Forges (O : Oracles) (sk : SecretKey) (pk : PublicKey P) (A : Attacker (Transcript × Bytes)) : Prop :=
  let r := A.play O sk pk
  ∃ σ, Signature.fromBytes r.1.2 = .ok σ ∧ verifyWith O pk r.1.1 σ = .ok () ∧ (r.1.1, σ) ∉ r.2

/-- The hash query for the challenge of a signature. -/
def challengeOf (pk : PublicKey P) (t : Transcript) (R : Bytes) : List MOp :=
  (Use.signature t.log pk.compressed.1 R).query

/-- The attacker asks at most `q` hash queries and `m` signatures whatever the answers; the hash queries, and the one
for the verification of its output, are in `D`, and the signing requests (transcript and RNG output) in `K`. -/
def Attacker.Bounded (pk : PublicKey P) (D : Finset (List MOp)) (K : Finset (List MOp × Arr 32)) :
    Nat → Nat → Attacker (Transcript × Bytes) → Prop
  | _, _, .ret a => challengeOf pk a.1 (a.2.take 32) ∈ D
  | q, m, .ask l k => l ∈ D ∧ ∃ q', q = q' + 1 ∧ ∀ w, Bounded pk D K q' m (k w)
  | q, m, .sign t sys k => (t.log, (sys.fill 32).1) ∈ K ∧ ∃ m', m = m' + 1 ∧ ∀ σ, Bounded pk D K q m' (k σ)

/-- `D` contains the hash queries that signing the requests in `K` can make, for all values of the secret nonce. -/
def Covers (pk : PublicKey P) (D : Finset (List MOp)) (K : Finset (List MOp × Arr 32)) : Prop :=
  ∀ r ∈ K, (∀ R : Arr 32, challengeOf pk ⟨r.1⟩ R.1 ∈ D) ∧
    ∀ n : Arr 32, (Use.signNonce r.1 pk.compressed.1 n.1 r.2.1).query ∈ D

/-- Random bytes for answering each signing request. -/
abbrev Coins (K : Finset (List MOp × Arr 32)) : Type := K → Arr 64 × Arr 64

/-- The coins for a request. -/
def coinsAt {K : Finset (List MOp × Arr 32)} (C : Coins K) (t : Transcript) (sys : Rng) : Arr 64 × Arr 64 :=
  if h : (t.log, (sys.fill 32).1) ∈ K then C ⟨_, h⟩ else (zeros 64, zeros 64)

/-- A signature made without the secret key, from coins `(v, w)`: it verifies if its challenge is `w`. -/
def fakeSignature (pk : PublicKey P) (c : Arr 64 × Arr 64) : Signature :=
  ⟨compress (residue c.1 • (basepoint : P) - residue c.2 • pk.point), Scalar.ofZ (residue c.1)⟩

/-- Running the attacker *without the secret key*: signing requests are answered with fake signatures, and the answers
they need are recorded and used for later hash queries. -/
def Attacker.simulate (pk : PublicKey P) {K : Finset (List MOp × Arr 32)} (C : Coins K) :
    List (List MOp × Arr 64) → Attacker α → Algo α
  | _, .ret a => .ret a
  | pg, .ask q k => match pg.lookup q with
    | some w => simulate pk C pg (k w)
    | none => .ask q fun w => simulate pk C pg (k w)
  | pg, .sign t sys k =>
    let c := coinsAt C t sys
    let σ := fakeSignature pk c
    simulate pk C ((challengeOf pk t σ.R.1, c.2) :: pg) (k σ)

/-- The `s` part of a signature in wire format. -/
def responseOf (b : Bytes) : Z :=
  match Signature.fromBytes b with
  | .ok σ => σ.s.toZ
  | .error _ => 0

/-- The simulated attack, followed by the hash query for the signature it outputs. -/
def Attacker.simulateAndCheck (pk : PublicKey P) {K : Finset (List MOp × Arr 32)} (C : Coins K)
    (A : Attacker (Transcript × Bytes)) : Algo (Transcript × Bytes) :=
  (A.simulate pk C []).bind fun r => .ask (challengeOf pk r.1 (r.2.take 32)) fun _ => .ret r

/-- Computing a discrete logarithm with the help of the attacker, from the public key alone: run the simulated attack,
rewind it to the query its forgery is about, run it again with fresh answers from there, and divide. -/
def extractKey (O : Oracles) (pk : PublicKey P) {K : Finset (List MOp × Arr 32)} {D : Finset (List MOp)}
    (A : Attacker (Transcript × Bytes)) (C : Coins K) (f g : D → Arr 64) : Z :=
  let B := A.simulateAndCheck pk C
  let r := B.run (table O D f)
  let q := challengeOf pk r.1 (r.2.take 32)
  let f' := rewind ((B.asked (table O D f)).takeWhile (· ≠ q)) f g
  let r' := B.run (table O D f')
  (responseOf r.2 - responseOf r'.2) / (hashWith (table O D f) q - hashWith (table O D f') q)

end Spec
