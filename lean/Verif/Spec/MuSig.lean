import Verif.Model.MuSig
import Verif.Spec

/-! # Specification vocabulary for multi-signatures

Histories of calls on a session, what they say about each public key, and the textbook MuSig
quantities. -/

namespace Spec
open Schnorrkel SigningTranscript
variable {P : Type} [Ristretto P] {T : Type}

/-! ## Histories -/

/-- A call on a session in its commit stage. -/
inductive CommitCall (P T : Type) where
  /-- `add_their_commitment(them, c)` -/
  | commitment (them : PublicKey P) (c : Commitment)
  /-- `*session.transcript() = f(..)` -/
  | transcript (f : T → T)

/-- A call on a session in its reveal stage. -/
inductive RevealCall (P T : Type) where
  /-- `add_their_reveal(them, r)` -/
  | reveal (them : PublicKey P) (r : Reveal)
  /-- `add_trusted(them, r)` -/
  | trusted (them : PublicKey P) (r : Reveal)
  /-- `*session.transcript() = f(..)` -/
  | transcript (f : T → T)

/-- `add_their_cosignature(them, s)` on a session in its cosign stage. -/
structure CosignCall (P : Type) where
  them : PublicKey P
  share : Cosignature

/-- `add(them, r, s)` on a collector. -/
structure CollectCall (P : Type) where
  them : PublicKey P
  rev : Reveal
  share : Cosignature

/-- The caller's edits of the transcript, in order, applied to `t`. -/
def commitEdits (cs : List (CommitCall P T)) (t : T) : T :=
  cs.foldl (fun t c => match c with | .transcript f => f t | .commitment _ _ => t) t

/-- The caller's edits of the transcript, in order, applied to `t`. -/
def revealEdits (cs : List (RevealCall P T)) (t : T) : T :=
  cs.foldl (fun t c => match c with | .transcript f => f t | .reveal _ _ => t | .trusted _ _ => t) t

/-- All results and the final session. -/
def runCommit : MuSig P T (CommitStage P) → List (CommitCall P T) →
    List (SignatureResult Unit) × MuSig P T (CommitStage P)
  | m, [] => ([], m)
  | m, .commitment k c :: cs =>
    let (r, m) := m.addTheirCommitment k c
    let (rs, m) := runCommit m cs
    (r :: rs, m)
  | m, .transcript f :: cs =>
    let (rs, m) := runCommit (m.editTranscript f) cs
    (.ok () :: rs, m)

/-- All results and the final session. -/
def runReveal [Oracles] : MuSig P T (RevealStage P) → List (RevealCall P T) →
    List (Outcome Unit) × MuSig P T (RevealStage P)
  | m, [] => ([], m)
  | m, .reveal k c :: cs =>
    let (r, m) := m.addTheirReveal k c
    let (rs, m) := runReveal m cs
    (r :: rs, m)
  | m, .trusted k c :: cs =>
    let (r, m) := m.addTrusted k c
    let (rs, m) := runReveal m cs
    (r :: rs, m)
  | m, .transcript f :: cs =>
    let (rs, m) := runReveal (m.editTranscript f) cs
    (.ok () :: rs, m)

/-- All results and the final session. -/
def runCosign : MuSig P T CosignStage → List (CosignCall P) → List (Outcome Unit) × MuSig P T CosignStage
  | m, [] => ([], m)
  | m, c :: cs =>
    let (r, m) := m.addTheirCosignature c.them c.share
    let (rs, m) := runCosign m cs
    (r :: rs, m)

/-- All results and the final collector. -/
def runCollect : MuSig P T CollectStage → List (CollectCall P) → List (Outcome Unit) × MuSig P T CollectStage
  | m, [] => ([], m)
  | m, c :: cs =>
    let (r, m) := m.add c.them c.rev c.share
    let (rs, m) := runCollect m cs
    (r :: rs, m)

/-! ## What a history says about a public key (given by its 32 bytes) -/

/-- The first commitment received for `k`. -/
def firstCommitment (cs : List (CommitCall P T)) (k : Compressed) : Option Commitment :=
  cs.findSome? fun
    | .commitment them c => if them.compressed = k then some c else none
    | .transcript _ => none

/-- The three group elements a reveal message encodes, if it does. -/
def points (r : Reveal) : Option (RevealedPoints P) :=
  match decompress (r.bytes.slice 0 32 (by omega)), decompress (r.bytes.slice 32 32 (by omega)),
    decompress (r.bytes.slice 64 32 (by omega)) with
  | some a, some b, some c => some ⟨⟨[a, b, c], rfl⟩⟩
  | _, _, _ => none

/-- Hash query behind a commitment to the three encoded points. -/
def commitmentQuery (r : Reveal) : List MOp :=
  [.append (b! "dom-sep") (b! "MuSig-commitment"),
   .append (b! "sign:R") (r.bytes.1.take 32), .append (b! "sign:R") ((r.bytes.1.drop 32).take 32),
   .append (b! "sign:R") ((r.bytes.1.drop 64).take 32), .challenge (b! "commitment") 16]

/-- The commitment to a reveal message. -/
def commitmentTo [Oracles] (r : Reveal) : Commitment := ⟨Oracles.merlin (commitmentQuery r) 16⟩

/-- The first well-formed reveal for `k` that opens the commitment `c`. -/
def firstOpening [Oracles] (cs : List (RevealCall P T)) (k : Compressed) (c : Commitment) :
    Option (RevealedPoints P) :=
  cs.findSome? fun
    | .reveal them r => if them.compressed = k ∧ commitmentTo r = c then points r else none
    | _ => none

/-- The first well-formed trusted reveal for `k`. -/
def firstTrusted (cs : List (RevealCall P T)) (k : Compressed) : Option (RevealedPoints P) :=
  cs.findSome? fun
    | .trusted them r => if them.compressed = k then points r else none
    | _ => none

/-- The first well-formed (reduced) cosignature scalar for `k`. -/
def firstShare (cs : List (CosignCall P)) (k : Compressed) : Option Scalar :=
  cs.findSome? fun c => if c.them.compressed = k then Scalar.fromCanonicalBytes c.share.bytes else none

/-- The share `sign` uses for the key `k` in the session of `me`. -/
def shareOf (me : Compressed) (sMe : Scalar) (cs : List (CosignCall P)) (k : Compressed) : Option Scalar :=
  if k = me then some sMe else firstShare cs k

/-- The points and the scalar of a contribution, if both are well-formed. -/
def CollectCall.parts (c : CollectCall P) : Option (RevealedPoints P × Scalar) :=
  match (points c.rev : Option (RevealedPoints P)), Scalar.fromCanonicalBytes c.share.bytes with
  | some p, some s => some (p, s)
  | _, _ => none

/-- The first well-formed contribution for `k` given to a collector. -/
def firstAdd (cs : List (CollectCall P)) (k : Compressed) : Option (RevealedPoints P × Scalar) :=
  cs.findSome? fun c => if c.them.compressed = k then c.parts else none

/-- What a session knows about a public key before cosigning. -/
inductive Status (P : Type) where
  | absent
  | committed (c : Commitment)
  | revealed (p : RevealedPoints P)
deriving DecidableEq

/-- Status of `k` in the session of `me`, whose own points are `own`, after a history of the commit
stage. -/
def statusCommit (me : Compressed) (own : RevealedPoints P) (cs : List (CommitCall P T)) (k : Compressed) :
    Status P :=
  if k = me then .revealed own
  else match firstCommitment cs k with
    | some c => .committed c
    | none => .absent

/-- Effect of a history of the reveal stage on a status. -/
def statusReveal [Oracles] (s : Status P) (rs : List (RevealCall P T)) (k : Compressed) : Status P :=
  match s with
  | .revealed p => .revealed p
  | .committed c => match firstOpening rs k c with
    | some p => .revealed p
    | none => .committed c
  | .absent => match firstTrusted rs k with
    | some p => .revealed p
    | none => .absent

/-- The nonce points of a fresh session: the three witness scalars drawn from the transcript, times the
base point. -/
def ownPoints [SigningTranscript T] (kp : Keypair P) (t : T) (sys : Rng) : RevealedPoints P :=
  ⟨⟨(MuSig.drawNonces t kp.secret.nonce sys).1.1.map fun r => r.toZ • basepoint,
    by simp [(MuSig.drawNonces t kp.secret.nonce sys).1.2]⟩⟩

/-- A session of `kp` after an arbitrary history of the commit and the reveal stage. -/
def session [Oracles] [SigningTranscript T] (kp : Keypair P) (t : T) (sys : Rng)
    (cs : List (CommitCall P T)) (rs : List (RevealCall P T)) : MuSig P T (RevealStage P) :=
  (runReveal (runCommit (MuSig.new kp t sys).1 cs).2.revealStage rs).2

/-- What that session knows about the public key with bytes `k`. -/
def status [Oracles] [SigningTranscript T] (kp : Keypair P) (t : T) (sys : Rng)
    (cs : List (CommitCall P T)) (rs : List (RevealCall P T)) (k : Compressed) : Status P :=
  statusReveal (statusCommit kp.pub.compressed (ownPoints kp t sys) cs k) rs k

/-- A collector after a history of `add` calls. -/
def collector [SigningTranscript T] (t : T) (cs : List (CollectCall P)) : MuSig P T CollectStage :=
  (runCollect (collectCosignatures t) cs).2

/-! ## Textbook MuSig -/

/-- Hash query behind the weight of `pk` among the keys `keys`. -/
def weightQuery (keys : List Bytes) (pk : Bytes) : List MOp :=
  [.append (b! "dom-sep") (b! "MuSig-aggregate-public_key")] ++ keys.map (.append (b! "pk-set")) ++
    [.append (b! "pk-choice") pk, .challenge (b! "") 64]

/-- The weight of `pk` among the keys `keys`. -/
def weight [Oracles] (keys : List Bytes) (pk : Bytes) : Z := hashToZ (weightQuery keys pk)

/-- The aggregate of a list of keys: sum of weight times key. -/
def aggregate [Oracles] (keys : List (PublicKey P)) : P :=
  (keys.map fun pk => weight (keys.map (·.compressed.1)) pk.compressed.1 • pk.point).sum

/-- Commit a list of labelled byte strings. -/
def commitFrames [SigningTranscript T] (t : T) (fs : List (Bytes × Bytes)) : T :=
  fs.foldl (fun t f => commitBytes t f.1 f.2) t

/-- Who takes part, with which nonce points. -/
abbrev View (P : Type) := List (PublicKey P × RevealedPoints P)

/-- The keys in a view. -/
def View.keys (V : View P) : List (PublicKey P) := V.map (·.1)

/-- Everything committed before the nonce coefficients are drawn for the key `pk`. -/
def coeffFrames (agg : P) (V : View P) (pk : Compressed) : List (Bytes × Bytes) :=
  [(b! "proto-name", b! "Schnorr-sig"), (b! "sign:pk", (compress agg).1)] ++
  (V.flatMap fun e => (b! "pk-set", e.1.compressed.1) :: e.2.pts.1.map fun p => (b! "R", (compress p).1)) ++
  [(b! "pk-choice", pk.1)]

/-- The three nonce coefficients of `pk`: successive challenges. -/
def nonceCoeffs [Oracles] [SigningTranscript T] (t : T) (V : View P) (pk : Compressed) : List Z :=
  let t0 := commitFrames t (coeffFrames (aggregate V.keys) V pk)
  let x0 := challengeScalar t0 (b! "R")
  let x1 := challengeScalar x0.2 (b! "R")
  let x2 := challengeScalar x1.2 (b! "R")
  [x0.1.toZ, x1.1.toZ, x2.1.toZ]

/-- Nonce point contributed by one participant. -/
def noncePoint [Oracles] [SigningTranscript T] (t : T) (V : View P) (pk : Compressed)
    (r : RevealedPoints P) : P :=
  (List.zipWith (· • ·) (nonceCoeffs t V pk) r.pts.1).sum

/-- The collective nonce point. -/
def musigR [Oracles] [SigningTranscript T] (t : T) (V : View P) : P :=
  (V.map fun e => noncePoint t V e.1.compressed e.2).sum

/-- The challenge: that of an ordinary Schnorr signature under the aggregate key. -/
def musigChallenge [Oracles] [SigningTranscript T] (t : T) (V : View P) : Z :=
  sigChallenge t (compress (aggregate V.keys)) (compress (musigR t V))

/-- The public point a valid share `s` of the participant `e` satisfies: `s·B` must equal it. -/
def sharePoint [Oracles] [SigningTranscript T] (t : T) (V : View P) (e : PublicKey P × RevealedPoints P) : P :=
  noncePoint t V e.1.compressed e.2 +
    (musigChallenge t V * weight (V.keys.map (·.compressed.1)) e.1.compressed.1) • e.1.point

/-- Is `s` a valid share of participant `e`? -/
def ValidShare [Oracles] [SigningTranscript T] (t : T) (V : View P)
    (e : PublicKey P × RevealedPoints P) (s : Scalar) : Prop :=
  s.toZ • (basepoint : P) = sharePoint t V e

end Spec

namespace Spec
open Schnorrkel SigningTranscript
variable {P : Type} [Ristretto P]

/-! ## A group of cosigners -/

/-- One cosigner: secret key, transcript (of its own type), RNG, and the calls it makes on its session
in each stage. -/
structure Cosigner (P : Type) : Type 1 where
  T : Type
  [inst : SigningTranscript T]
  sk : SecretKey
  t : T
  sys : Rng
  commits : List (CommitCall P T)
  reveals : List (RevealCall P T)
  cosigns : List (CosignCall P)

attribute [instance] Cosigner.inst

namespace Cosigner
/-- Its public key. -/
def pk (i : Cosigner P) : PublicKey P := i.sk.toPublic
/-- Its session at the end of the reveal stage. -/
def atReveal [Oracles] (i : Cosigner P) : MuSig P i.T (RevealStage P) :=
  session i.sk.toKeypair i.t i.sys i.commits i.reveals
/-- The commitment message it sends. -/
def commitment [Oracles] (i : Cosigner P) : Outcome Commitment :=
  (runCommit (MuSig.new i.sk.toKeypair i.t i.sys).1 i.commits).2.ourCommitment
/-- The reveal message it sends. -/
def revealMsg [Oracles] (i : Cosigner P) : Reveal := i.atReveal.ourReveal
/-- The cosignature it sends. -/
def cosignature [Oracles] (i : Cosigner P) : Outcome Cosignature := do
  let m ← i.atReveal.cosignStage
  .ok m.ourCosignature
/-- Its result of `sign` at the end. -/
def result [Oracles] (i : Cosigner P) : Outcome (Option Signature) := do
  let m ← i.atReveal.cosignStage
  (runCosign m i.cosigns).2.sign
end Cosigner

/-- Keys in calls are values of type `PublicKey` (both representations agree). -/
def CommitCall.Genuine {T : Type} : CommitCall P T → Prop
  | .commitment k _ => compress k.point = k.compressed
  | .transcript _ => True
/-- Keys in calls are values of type `PublicKey` (both representations agree). -/
def RevealCall.Genuine {T : Type} : RevealCall P T → Prop
  | .reveal k _ => compress k.point = k.compressed
  | .trusted k _ => compress k.point = k.compressed
  | .transcript _ => True

/-- The cosigners run the protocol honestly with each other, possibly among other traffic. `t'` is the
verifier's transcript. -/
structure HonestRun {T' : Type} [Oracles] [SigningTranscript T'] (parties : List (Cosigner P)) (t' : T') :
    Prop where
  /-- secret scalars are reduced (C07) -/
  canonical : ∀ i ∈ parties, i.sk.key.Canonical
  /-- no two cosigners share a key -/
  distinct : ∀ i ∈ parties, ∀ j ∈ parties, i.pk = j.pk → i = j
  genuine : ∀ i ∈ parties, (∀ c ∈ i.commits, c.Genuine) ∧ ∀ c ∈ i.reveals, c.Genuine
  /-- every cosigner's transcript has, when it cosigns, the history of the verifier's transcript -/
  transcripts : ∀ i ∈ parties, ∃ Rel : i.T → T' → Prop, TSim Rel ∧ Rel i.atReveal.t t'
  /-- the first commitment each receives in the name of another is the other's -/
  commits : ∀ i ∈ parties, ∀ j ∈ parties, j.pk ≠ i.pk →
    ∃ c, j.commitment = .ok c ∧ firstCommitment i.commits j.pk.compressed = some c
  /-- each receives the others' reveals … -/
  reveals : ∀ i ∈ parties, ∀ j ∈ parties, j.pk ≠ i.pk → .reveal j.pk j.revealMsg ∈ i.reveals
  /-- … and no other well-formed reveal that opens a commitment -/
  no_other_reveal : ∀ i ∈ parties, ∀ k r, .reveal k r ∈ i.reveals → (points r : Option (RevealedPoints P)) ≠ none →
    firstCommitment i.commits k.compressed = some (commitmentTo r) →
    ∃ j ∈ parties, k = j.pk ∧ r = j.revealMsg
  /-- nobody outside the group is added as trusted -/
  no_trusted : ∀ i ∈ parties, ∀ k r, .trusted k r ∈ i.reveals → ∃ j ∈ parties, k = j.pk
  /-- the first well-formed cosignature each receives in the name of another is the other's -/
  cosigns : ∀ i ∈ parties, ∀ j ∈ parties, j.pk ≠ i.pk →
    ∃ c s, j.cosignature = .ok c ∧ c.bytes = Scalar.bytes s ∧ firstShare i.cosigns j.pk.compressed = some s

/-- A collector's calls carry exactly the contributions of the cosigners, in any order and number. -/
structure HonestCollect [Oracles] (parties : List (Cosigner P)) (calls : List (CollectCall P)) : Prop where
  genuine : ∀ c ∈ calls, compress c.them.point = c.them.compressed
  all : ∀ j ∈ parties, ∃ c, j.cosignature = .ok c ∧ ⟨j.pk, j.revealMsg, c⟩ ∈ calls
  only : ∀ x ∈ calls, x.parts ≠ none → ∃ j ∈ parties, ∃ c, j.cosignature = .ok c ∧ x = ⟨j.pk, j.revealMsg, c⟩

end Spec
