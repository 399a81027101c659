import Verif.Spec.RomMuSig
import Verif.Spec.RomPrf

/-! # Attacks on a cosigner who takes part in many multi-signature sessions at once -/

namespace Spec
open Schnorrkel
variable {P : Type} [Ristretto P]

/-! ## The cosigner -/

/-- What the attacker, in the role of all other cosigners, can ask the owner of a key to do.  Keys are given as group
elements. -/
inductive CosignRequest (P : Type) where
  /-- start a new session for a transcript -/
  | start (t : Transcript)
  /-- in session number `i`, receive all commitments of the others and reveal -/
  | reveal (i : Nat) (cs : List (P × Commitment))
  /-- in session number `i`, receive the reveals of the others and cosign -/
  | cosign (i : Nat) (rs : List (P × Reveal))

/-- What the owner answers. -/
inductive CosignAnswer where
  | commitment (c : Commitment)
  | reveal (r : Reveal)
  | share (s : Cosignature)
  | refused
deriving DecidableEq

/-- One of the owner's sessions. -/
inductive OwnSession (P : Type) where
  | committing (m : MuSig P Transcript (CommitStage P))
  | revealing (m : MuSig P Transcript (RevealStage P))
  | finished

/-- The owner: its system RNG, its sessions in the order they were started, and the transcript and the aggregate public key
of each session in which it has revealed. -/
structure Owner (P : Type) where
  sys : Rng
  sessions : List (OwnSession P)
  revealed : List (Transcript × PublicKey P)

/-- The calls behind the messages in a request. -/
def commitCalls (cs : List (P × Commitment)) : List (CommitCall P Transcript) :=
  cs.map fun e => .commitment (PublicKey.fromPoint e.1) e.2

/-- The calls behind the messages in a request. -/
def revealCalls (rs : List (P × Reveal)) : List (RevealCall P Transcript) :=
  rs.map fun e => .reveal (PublicKey.fromPoint e.1) e.2

open Classical in
/-- How the owner answers: it goes through the three stages of the crate's `MuSig` type, ignoring messages the crate reports
as wrong, and it cosigns only when everyone who has committed has revealed, otherwise it gives up the session. -/
noncomputable def Owner.step (O : Oracles) (kp : Keypair P) (o : Owner P) : CosignRequest P → CosignAnswer × Owner P
  | .start t =>
    letI := O
    let m := MuSig.new kp t o.sys
    match m.1.ourCommitment with
    | .ok c => (.commitment c, { o with sys := m.2, sessions := o.sessions ++ [.committing m.1] })
    | _ => (.refused, o)
  | .reveal i cs =>
    letI := O
    match o.sessions[i]? with
    | some (.committing m) =>
      let m := (runCommit m (commitCalls cs)).2.revealStage
      (.reveal m.ourReveal, { o with sessions := o.sessions.set i (.revealing m),
                                     revealed := (m.t, m.expectedPublicKey) :: o.revealed })
    | _ => (.refused, o)
  | .cosign i rs =>
    letI := O
    match o.sessions[i]? with
    | some (.revealing m) =>
      let m := (runReveal m (revealCalls rs)).2
      if m.publicKeys true = m.publicKeys false then
        match m.cosignStage with
        | .ok m => (.share m.ourCosignature, { o with sessions := o.sessions.set i .finished })
        | _ => (.refused, { o with sessions := o.sessions.set i .finished })
      else (.refused, { o with sessions := o.sessions.set i .finished })
    | _ => (.refused, o)

/-- An attacker who asks hash queries and talks to the owner, in any order, and finally outputs a multi-signature. -/
abbrev CosignAttacker (P : Type) := Client (CosignRequest P) CosignAnswer (JointClaim P)

/-- The attack: the output, and the owner's state at the end. -/
noncomputable def Owner.play {α : Type} (O : Oracles) (kp : Keypair P) : Owner P → Client (CosignRequest P) CosignAnswer α → α × Owner P
  | o, .ret c => (c, o)
  | o, .ask q k => play O kp o (k (O.merlin q 64))
  | o, .request r k => play O kp (o.step O kp r).2 (k (o.step O kp r).1)

/-- The owner before the attack. -/
def Owner.new (sys : Rng) : Owner P := ⟨sys, [], []⟩

/-- The attacker wins: it outputs a signature that verifies under the aggregate key of a set of well-formed keys which
includes the owner's, and the owner has revealed in no session with that transcript and that aggregate key. -/
def ForgesJoint (O : Oracles) (kp : Keypair P) (sys : Rng) (A : CosignAttacker P) : Prop :=
  let r := (Owner.new sys).play O kp A
  r.1.Forges O kp.pub ∧ (r.1.t, jointKey O r.1.keys) ∉ r.2.revealed

/-! ## Limits on the attack -/

/-- The 32 bytes read from the system RNG for nonce number `j` of session number `k`. -/
def drawOf (sys : Rng) (k j : Nat) : Arr 32 := sys.src (sys.hist ++ List.replicate (3 * k + j) 32) 32

/-- The system RNG does not repeat itself in the first `m` sessions. -/
def NoRepeat (sys : Rng) (m : Nat) : Prop :=
  ∀ j < 3, ∀ k < m, ∀ k' < m, drawOf sys k j = drawOf sys k' j → k = k'

/-- The attacker asks at most `q` hash queries, all in `D`, starts at most `m` sessions, for transcripts in `T`, and makes
at most `r` other requests, each with at most `b` messages; its output is as `fin` says. -/
def SessionBounded {α : Type} (D T : Finset (List MOp)) (b : Nat) (fin : α → Prop) :
    Nat → Nat → Nat → Client (CosignRequest P) CosignAnswer α → Prop
  | _, _, _, .ret c => fin c
  | q, m, r, .ask l k => l ∈ D ∧ ∃ q', q = q' + 1 ∧ ∀ w, SessionBounded D T b fin q' m r (k w)
  | q, m, r, .request (.start t) k => t.log ∈ T ∧ ∃ m', m = m' + 1 ∧ ∀ a, SessionBounded D T b fin q m' r (k a)
  | q, m, r, .request (.reveal _ cs) k => cs.length ≤ b ∧ ∃ r', r = r' + 1 ∧ ∀ a, SessionBounded D T b fin q m r' (k a)
  | q, m, r, .request (.cosign _ rs) k => rs.length ≤ b ∧ ∃ r', r = r' + 1 ∧ ∀ a, SessionBounded D T b fin q m r' (k a)

/-- The same limits; the output names at most `g` keys, and the hash queries of its verification are in `D`. -/
def CosignBounded (O : Oracles) (D T : Finset (List MOp)) (b g q m r : Nat) (A : CosignAttacker P) : Prop :=
  SessionBounded D T b (fun c => (cosigners c.keys).length ≤ g ∧ ∀ f : D → Arr 64, ∀ l ∈ c.queries (wideTable O D f), l ∈ D) q m r A

/-- `D` contains the hash queries the owner can make in sessions for transcripts in `T` with at most `b` cosigners. -/
structure CosignCovers (D T : Finset (List MOp)) (b m : Nat) (sys : Rng) : Prop where
  commitment : ∀ r : Reveal, commitmentQuery r ∈ D
  weight : ∀ (ks : List (Arr 32)) (k : Arr 32), ks.length ≤ b + 1 → weightQuery (ks.map (·.1)) k.1 ∈ D
  coeff : ∀ log ∈ T, ∀ (agg : Arr 32) (es : List (Arr 32 × List (Arr 32))) (k : Arr 32), ∀ i < 3, es.length ≤ b + 1 →
    (∀ e ∈ es, e.2.length = 3) →
    (Use.musigCoeff log agg.1 (es.map fun e => (e.1.1, e.2.map (·.1))) k.1 i).query ∈ D
  challenge : ∀ log ∈ T, ∀ pk R : Arr 32, (Use.signature log pk.1 R.1).query ∈ D
  nonce : ∀ log ∈ T, ∀ seed : Arr 32, ∀ j < 3, ∀ k < m, (Use.musigNonce log seed.1 j (drawOf sys k j).1).query ∈ D

/-! ## Playing the owner without the secret key -/

/-- Hash answers that are known. -/
abbrev Known := List (List MOp × Arr 64)

/-- The hash functions that give the known answers. -/
def Known.oracle (O : Oracles) (tab : Known) : Oracles :=
  { O with merlin := fun q n => match tab.lookup q with
    | some w => if h : n ≤ 64 then firstBytes w n h else O.merlin q n
    | none => O.merlin q n }

/-- Ask a query, unless the answer is known. -/
def Known.learn (tab : Known) (q : List MOp) : Algo Known :=
  match tab.lookup q with
  | some _ => .ret tab
  | none => .ask q fun w => .ret ((q, w) :: tab)

/-- Ask some queries, unless the answers are known. -/
def Known.learnAll : Known → List (List MOp) → Algo Known
  | tab, [] => .ret tab
  | tab, q :: qs => (tab.learn q).bind fun tab => learnAll tab qs

/-- The nonce points in a hash query for a commitment. -/
def committedIn (q : List MOp) : Option (RevealedPoints P) :=
  match q with
  | [_, .append _ a, .append _ b, .append _ c, _] =>
    if h : (a ++ b ++ c).length = 96 then
      if commitmentQuery ⟨⟨a ++ b ++ c, h⟩⟩ = q then points ⟨⟨a ++ b ++ c, h⟩⟩ else none
    else none
  | _ => none

/-- The nonce points behind a commitment, if the hash query that made it is known. -/
def Known.opening (tab : Known) (c : Commitment) : Option (RevealedPoints P) :=
  tab.findSome? fun e => if firstBytes e.2 16 (by omega) = c.bytes then committedIn e.1 else none

/-- The commitments on record in a session of `me`: the first one for each key other than `me`. -/
def registered (me : PublicKey P) (cs : List (P × Commitment)) : BMap P Commitment :=
  cs.foldl (fun m e => if compress e.1 = me.compressed ∨ (m.get? (PublicKey.fromPoint e.1)).isSome then m
    else m.set (PublicKey.fromPoint e.1) e.2) []

/-- The nonce points behind all commitments on record, if known. -/
def Known.openings (tab : Known) (coms : BMap P Commitment) : Option (View P) :=
  coms.mapM fun e => (tab.opening e.2).map fun p => (e.1, p)

/-- The keys in a session of `me`. -/
def groupKeys (me : PublicKey P) (coms : BMap P Commitment) : List (PublicKey P) :=
  (BMap.set (coms.map fun e => (e.1, ())) me ()).keys

/-- The hash queries for the weights of a list of keys. -/
def weightQueries (ks : List (PublicKey P)) : List (List MOp) :=
  ks.map fun k => weightQuery (ks.map (·.compressed.1)) k.compressed.1

/-- The hash query for a nonce coefficient. -/
def coeffOf (t : Transcript) (agg : P) (V : View P) (k : PublicKey P) (i : Nat) : List MOp :=
  (Use.musigCoeff t.log (compress agg).1 (V.map fun e => (e.1.compressed.1, e.2.pts.1.map fun p => (compress p).1))
    k.compressed.1 i).query

/-- The hash queries for all nonce coefficients; the first one of `me` comes last. -/
def coeffQueries (me : PublicKey P) (t : Transcript) (agg : P) (V : View P) : List (List MOp) :=
  (V.flatMap fun e => [0, 1, 2].map fun i => coeffOf t agg V e.1 i).filter (· ≠ coeffOf t agg V me 0) ++
    [coeffOf t agg V me 0]

/-- Multiply the residue of a 64-byte string by `m ≠ 0` (strings beyond the largest multiple of `ℓ` are left alone). -/
def rescale (m : Z) (w : Arr 64) : Arr 64 :=
  if leNat w.1 < 2 ^ 512 / ell * ell ∧ m ≠ 0 then
    ⟨leBytes 64 (leNat w.1 / ell * ell + (m * residue w).val), by simp⟩
  else w

/-- A session as seen by whoever plays the owner: `K` is kept until the reveal, `V` from then on. -/
inductive Phase (P K V : Type) where
  | committing (t : Transcript) (κ : K)
  | revealing (t : Transcript) (v : V) (coms : BMap P Commitment)
  | finished (t : Transcript) (coms : BMap P Commitment)

/-- The state of one simulated session: the commitment sent; after the reveal the nonce points of the others and the
cosignature to send, or nothing while some commitment on record cannot be opened. -/
abbrev FakePhase (P : Type) := Phase P (Arr 64) (Option (View P × Scalar))

/-- Nonce points made without the secret key, from coins `(v, w)`. -/
def fakePoints (me : PublicKey P) (c : (Fin 3 → Arr 64) × Arr 64) : RevealedPoints P :=
  ⟨⟨[residue (c.1 0) • (basepoint : P) - residue c.2 • me.point, residue (c.1 1) • basepoint, residue (c.1 2) • basepoint], rfl⟩⟩

/-- Settle a simulated session, when the nonce points `es` of the others are known: everything that will be signed is
determined, and the challenge is chosen such that the cosignature is known. -/
noncomputable def fakeSettle (O : Oracles) (me : PublicKey P) (t : Transcript) (c : (Fin 3 → Arr 64) × Arr 64) (es : View P)
    (tab : Known) : Algo (Known × (View P × Scalar)) :=
  let V : View P := BMap.set es me (fakePoints me c)
  (tab.learnAll (weightQueries V.keys)).bind fun tab₂ =>
  let agg : P := letI := tab₂.oracle O; aggregate V.keys
  (tab₂.learnAll (coeffQueries me t agg V)).bind fun tab₃ =>
  letI := tab₃.oracle O
  let x := nonceCoeffs t V me.compressed
  let a := weight (V.keys.map (·.compressed.1)) me.compressed.1
  let Q := challengeOf (PublicKey.fromPoint agg) t (compress (musigR t V)).1
  let s := (List.zipWith (· * ·) x [residue (c.1 0), residue (c.1 1), residue (c.1 2)]).sum
  .ret ((Q, rescale (x.headD 0 / a) c.2) :: tab₃, (es, Scalar.ofZ s))

/-- Session number `j` waits to be settled, and all its commitments can be opened now. -/
def ripe (tab : Known) (ss : List (FakePhase P)) (j : Nat) : Option (Transcript × BMap P Commitment × View P) :=
  match ss[j]? with
  | some (.revealing t none coms) => (tab.openings coms).map fun es => (t, coms, es)
  | _ => none

/-- Coins for simulated sessions: the commitments, and what is used for revealing. -/
abbrev CosignCoins (m : Nat) := (Fin m → Arr 64) × (Fin m → (Fin 3 → Arr 64) × Arr 64)

/-- Settle those of the sessions `js` that can be settled. -/
noncomputable def settleAll (O : Oracles) (me : PublicKey P) {m : Nat} (C : CosignCoins m) :
    List Nat → Known → List (FakePhase P) → Algo (Known × List (FakePhase P))
  | [], tab, ss => .ret (tab, ss)
  | j :: js, tab, ss =>
    match ripe tab ss j with
    | some (t, coms, es) =>
      if h : j < m then
        (fakeSettle O me t (C.2 ⟨j, h⟩) es tab).bind fun r =>
          settleAll O me C js r.1 (ss.set j (.revealing t (some r.2) coms))
      else settleAll O me C js tab ss
    | none => settleAll O me C js tab ss

/-- All nonce points in `es` have been revealed. -/
def allRevealed (es : View P) (rs : List (P × Reveal)) : Prop :=
  ∀ e ∈ es, ∃ a ∈ rs, compress a.1 = e.1.compressed ∧ a.2 = e.2.toReveal

open Classical in
/-- Running the attack *without the secret key*.  When a session reveals, its own commitment is opened; this can make it
possible to settle other sessions too, if their commitments on record include this one. -/
noncomputable def simulateCosign {α : Type} (O : Oracles) (me : PublicKey P) {m : Nat} (C : CosignCoins m) :
    Known → List (FakePhase P) → Client (CosignRequest P) CosignAnswer α → Algo α
  | _, _, .ret c => .ret c
  | tab, ss, .ask q k => (tab.learn q).bind fun tab => simulateCosign O me C tab ss (k ((tab.oracle O).merlin q 64))
  | tab, ss, .request (.start t) k =>
    if h : ss.length < m then
      simulateCosign O me C tab (ss ++ [.committing t (C.1 ⟨_, h⟩)])
        (k (.commitment ⟨firstBytes (C.1 ⟨_, h⟩) 16 (by omega)⟩))
    else simulateCosign O me C tab ss (k .refused)
  | tab, ss, .request (.reveal i cs) k =>
    match ss[i]? with
    | some (.committing t κ) =>
      if h : i < m then
        let own := (fakePoints me (C.2 ⟨i, h⟩)).toReveal
        (settleAll O me C (List.range ss.length) ((commitmentQuery own, κ) :: tab)
          (ss.set i (.revealing t none (registered me cs)))).bind fun r =>
        simulateCosign O me C r.1 r.2 (k (.reveal own))
      else simulateCosign O me C tab ss (k .refused)
    | _ => simulateCosign O me C tab ss (k .refused)
  | tab, ss, .request (.cosign i rs) k =>
    match ss[i]? with
    | some (.revealing t o coms) =>
      (tab.learnAll (rs.map fun e => commitmentQuery e.2)).bind fun tab =>
      simulateCosign O me C tab (ss.set i (.finished t coms)) (k (match o with
        | some (es, s) => if allRevealed es rs then .share ⟨s.bytes⟩ else .refused
        | none => .refused))
    | _ => simulateCosign O me C tab ss (k .refused)

/-- Bound on how often playing the owner without the secret key goes wrong, for the numbers in `CosignBounded`.  Most of it
comes from commitments having only 16 bytes. -/
def cosignLoss (b q m r : Nat) : ℚ :=
  let N : Nat := q + m + r * (5 * b + 7)
  (q + r * (5 * b + 7) : Nat) * (guess + 2 * N * (1 / 2 ^ 128)) + r * (2 * spare + (3 * N + 1) * guess) + m * (2 * N * (1 / 2 ^ 128)) +
    (q + r * b : Nat) * m * guess + m * m * guess + q / 2 ^ 256

/-- The secret key of the owner computed from four runs of the simulated attack. -/
noncomputable def extractCosigner (O : Oracles) (me : PublicKey P) {m : Nat} (A : CosignAttacker P) (C : CosignCoins m)
    (O' : Oracles) (w v : Arr 64) : Z :=
  extractMember me (simulateCosign O me C [] [] A) O' w v

end Spec
