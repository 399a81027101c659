import Verif.Spec.RomPrf
import Verif.Spec.RomSign
import Verif.Spec.Cert
import Verif.Spec.Domain

/-! # One key pair used for signatures, VRF proofs and certificates at the same time -/

namespace Spec
open Schnorrkel

/-! ## Attacks on a service, and their simulation -/

namespace Client
variable {Req Ans α κ : Type}

/-- The same client, which also reports the requests it sent and the answers it got (latest first). -/
def logged : List (Req × Ans) → Client Req Ans α → Client Req Ans (α × List (Req × Ans))
  | log, .ret a => .ret (a, log)
  | log, .ask q k => .ask q fun w => logged log (k w)
  | log, .request r k => .request r fun a => logged ((r, a) :: log) (k a)

/-- At most `q` hash queries, all in `D`, and at most `m` requests, all of them of a kind (`key`) in `K`, whatever the
answers; the result satisfies `fin`. -/
def Limited (D : Finset (List MOp)) (key : Req → κ) (K : Finset κ) (fin : α → Prop) : Nat → Nat → Client Req Ans α → Prop
  | _, _, .ret a => fin a
  | q, m, .ask l k => l ∈ D ∧ ∃ q', q = q' + 1 ∧ ∀ w, Limited D key K fin q' m (k w)
  | q, m, .request r k => key r ∈ K ∧ ∃ m', m = m' + 1 ∧ ∀ a, Limited D key K fin q m' (k a)

/-- Running the client when requests are answered from random coins `(z, w)` alone: the answer is `answer key z w`, and
from then on the hash query `query key z w` is answered by `w`. -/
noncomputable def simulate (query : κ → Z → Z → List MOp) (answer : κ → Z → Z → Ans) (key : Req → κ)
    (coins : κ → Arr 64 × Arr 64) : List (List MOp × Arr 64) → Client Req Ans α → Algo α
  | _, .ret a => .ret a
  | pg, .ask q k => match pg.lookup q with
    | some w => simulate query answer key coins pg (k w)
    | none => .ask q fun w => simulate query answer key coins pg (k w)
  | pg, .request r k =>
    let c := coins (key r)
    simulate query answer key coins ((query (key r) (residue c.1) (residue c.2), c.2) :: pg)
      (k (answer (key r) (residue c.1) (residue c.2)))
end Client

open Classical in
/-- Coins for the requests in `K`. -/
noncomputable def coinsOf {κ : Type} {K : Finset κ} (C : K → Arr 64 × Arr 64) (k : κ) : Arr 64 × Arr 64 :=
  if h : k ∈ K then C ⟨_, h⟩ else (zeros 64, zeros 64)

/-! ## The services of a key pair -/

section
variable {P : Type} [Ristretto P]

/-- What one can ask the owner of a key pair to do: sign a transcript, evaluate and prove the VRF at a point (with extra
transcript), issue a certificate for a seed public key.  The asker also chooses the system RNG for the occasion. -/
inductive KeyRequest (P : Type) where
  | sign (t : Transcript) (sys : Rng)
  | prove (extra : Transcript) (input : P) (kusama : Bool) (sys : Rng)
  | issue (t : Transcript) (seed : P) (sys : Rng)

/-- The answers. -/
inductive KeyAnswer (P : Type) where
  | signature (σ : Signature)
  | proof (io : VRFInOut P) (π : VRFProof) (b : VRFProofBatchable)
  | cert (c : AdaptorCertSecret)

/-- `issue_adaptor_cert` when the hash functions are `O`. -/
def issueWith (O : Oracles) (kp : Keypair P) (t : Transcript) (seed : PublicKey P) (sys : Rng) : AdaptorCertSecret :=
  letI := O; (kp.issueAdaptorCert t seed sys).1

/-- `open_adaptor_cert` when the hash functions are `O`. -/
def openWith (O : Oracles) (pk : PublicKey P) (t : Transcript) (c : AdaptorCertPublic) : SignatureResult (PublicKey P) :=
  letI := O; PublicKey.openAdaptorCert pk t c

/-- The owner of the key pair answers. -/
def serveKey (O : Oracles) (kp : Keypair P) : KeyRequest P → KeyAnswer P
  | .sign t sys => .signature (signWith O kp.secret t kp.pub sys)
  | .prove extra input kusama sys =>
    let io := kp.secret.vrfCreateFromPoint (RistrettoBoth.fromPoint input)
    let r := dleqProoveWith O kp extra io kusama sys
    .proof io r.1 r.2
  | .issue t seed sys => .cert (issueWith O kp t (PublicKey.fromPoint seed) sys)

/-- What an attacker may claim to have made by itself. -/
inductive KeyForgery (P : Type) where
  | signature (t : Transcript) (bytes : Bytes)
  | proof (extra : Transcript) (input output : P) (kusama : Bool) (bytes : Bytes)
  | cert (t : Transcript) (c : AdaptorCertPublic) (sk : SecretKey)

/-- An input/output pair. -/
def ioOf (input output : P) : VRFInOut P := ⟨RistrettoBoth.fromPoint input, RistrettoBoth.fromPoint output⟩

/-- The claim is right: the signature verifies and was not given out for that transcript; or the VRF proof verifies and
was not given out for that input, output and extra transcript; or the certificate opens to the public key of the secret
key shown and was not issued on that transcript. -/
def KeyForgery.Valid (O : Oracles) (pk : PublicKey P) (log : List (KeyRequest P × KeyAnswer P)) : KeyForgery P → Prop
  | .signature t b => ∃ σ, Signature.fromBytes b = .ok σ ∧ verifyWith O pk t σ = .ok () ∧
      ∀ sys, (.sign t sys, .signature σ) ∉ log
  | .proof extra input output kusama b => ∃ π, VRFProof.fromBytes b = .ok π ∧
      (∃ r, dleqVerifyWith O pk extra (ioOf input output) π kusama = .ok r) ∧
      ∀ sys r, (.prove extra input kusama sys, .proof (ioOf input output) π r) ∉ log
  | .cert t c sk => openWith O pk t c = .ok sk.toPublic ∧
      ∀ seed sys cs, (.issue t seed sys, .cert cs) ∈ log → cs.toPublic ≠ c

/-- The hash query that checking the claim comes down to. -/
def KeyForgery.query (pk : PublicKey P) : KeyForgery P → List MOp
  | .signature t b => challengeOf pk t (b.take 32)
  | .proof extra input output kusama b => match VRFProof.fromBytes b with
    | .ok π => dleqQuery extra.log kusama (compress input).1 pk.compressed.1
        (compress (π.c.toZ • pk.point + π.s.toZ • (basepoint : P))).1
        (compress (π.c.toZ • output + π.s.toZ • input)).1 (compress output).1
    | .error _ => []
  | .cert t c _ => certQuery t.log pk.compressed.1 c.bytes.1

/-- The scalar in the claim. -/
def KeyForgery.response : KeyForgery P → Z
  | .signature _ b => responseOf b
  | .proof _ _ _ _ b => match VRFProof.fromBytes b with
    | .ok π => -π.s.toZ
    | .error _ => 0
  | .cert _ _ sk => sk.key.toZ

/-! ## Serving without the secret key -/

/-- What an answer depends on: the history of the transcript, the points, and the 32 bytes taken from the RNG. -/
inductive KeyUse (P : Type) where
  | sign (log : List MOp) (rng : Arr 32)
  | prove (log : List MOp) (input : P) (kusama : Bool) (rng : Arr 32)
  | issue (log : List MOp) (seed : P) (rng : Arr 32)

/-- What an answer depends on. -/
def KeyRequest.use : KeyRequest P → KeyUse P
  | .sign t sys => .sign t.log (sys.fill 32).1
  | .prove extra input kusama sys => .prove extra.log input kusama (sys.fill 32).1
  | .issue t seed sys => .issue t.log seed (sys.fill 32).1

/-- The challenge query of a simulated answer with response `z` and challenge `w`.  The function `dh` gives VRF outputs. -/
def KeyUse.query (pk : PublicKey P) (dh : P → P) : KeyUse P → Z → Z → List MOp
  | .sign log _, z, w => challengeOf pk ⟨log⟩ (compress (z • (basepoint : P) - w • pk.point)).1
  | .prove log input kusama _, z, w => dleqQuery log kusama (compress input).1 pk.compressed.1
      (compress (w • pk.point + z • (basepoint : P))).1 (compress (w • dh input + z • input)).1 (compress (dh input)).1
  | .issue log seed _, z, w => certQuery log pk.compressed.1 (compress (seed + z • (basepoint : P) - w • pk.point)).1

/-- A simulated answer with response `z` and challenge `w`. -/
def KeyUse.answer (pk : PublicKey P) (dh : P → P) : KeyUse P → Z → Z → KeyAnswer P
  | .sign _ _, z, w => .signature ⟨compress (z • (basepoint : P) - w • pk.point), Scalar.ofZ z⟩
  | .prove _ input _ _, z, w => .proof (ioOf input (dh input)) ⟨Scalar.ofZ w, Scalar.ofZ z⟩
      ⟨compress (w • pk.point + z • (basepoint : P)), compress (w • dh input + z • input), Scalar.ofZ z⟩
  | .issue _ seed _, z, w =>
      .cert ⟨Arr.append (compress (seed + z • (basepoint : P) - w • pk.point)) (Scalar.ofZ z).bytes⟩

/-- The nonce query of the owner with nonce seed `n`. -/
def KeyUse.nonceQuery (pk : PublicKey P) (n : Arr 32) : KeyUse P → List MOp
  | .sign log rng => (Use.signNonce log pk.compressed.1 n.1 rng.1).query
  | .prove log input kusama rng => (Use.dleqNonce log kusama (compress input).1 pk.compressed.1 n.1 rng.1).query
  | .issue log seed rng => (Use.issuing log pk.compressed.1 n.1 (compress seed).1 rng.1).query

/-- `D` contains the hash queries that answering the requests in `K` can make. -/
def CoversKey (pk : PublicKey P) (dh : P → P) (D : Finset (List MOp)) (K : Finset (KeyUse P)) : Prop :=
  ∀ k ∈ K, (∀ v : Z, k.query pk dh v 0 ∈ D) ∧ ∀ n : Arr 32, k.nonceQuery pk n ∈ D

/-- The attack simulated with coins `C`, followed by the check of its claim. -/
noncomputable def simulateKey (pk : PublicKey P) (dh : P → P) {K : Finset (KeyUse P)} (C : K → Arr 64 × Arr 64)
    (A : Client (KeyRequest P) (KeyAnswer P) (KeyForgery P)) : Algo (KeyForgery P) :=
  (A.simulate (KeyUse.query pk dh) (KeyUse.answer pk dh) KeyRequest.use (coinsOf C) []).bind fun r =>
    .ask (r.query pk) fun _ => .ret r

/-- Computing the discrete logarithm of `pk` with the help of the attacker, from the public key and the VRF outputs `dh`:
run the simulated attack, rewind it to the query its claim is about, run it again with fresh answers, and divide. -/
noncomputable def extractKeyFrom (O : Oracles) (pk : PublicKey P) (dh : P → P) {K : Finset (KeyUse P)}
    {D : Finset (List MOp)} (A : Client (KeyRequest P) (KeyAnswer P) (KeyForgery P)) (C : K → Arr 64 × Arr 64)
    (f g : D → Arr 64) : Z :=
  let B := simulateKey pk dh C A
  let r := B.run (table O D f)
  let q := r.query pk
  let f' := rewind ((B.asked (table O D f)).takeWhile (· ≠ q)) f g
  let r' := B.run (table O D f')
  (r.response - r'.response) / (hashWith (table O D f) q - hashWith (table O D f') q)

end

end Spec
