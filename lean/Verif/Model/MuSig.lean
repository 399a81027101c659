import Verif.Model.Sign

/-! # `src/musig.rs`: three-round multi-signatures

`BTreeMap<PublicKey, V>` is a list of entries kept in increasing key order, searched and updated by
comparing keys with `Ord for PublicKey`; session-type stages are the parameter `S` of `MuSig`.
Functions that contain a `panic!`, `expect` or `unwrap` return an `Outcome`. -/

namespace Schnorrkel
open SigningTranscript
variable {P : Type} [Ristretto P] {T S : Type} [SigningTranscript T]

/-- `musig.rs:59` -/
abbrev REWINDS : Nat := 3

/-- `alloc::collections::BTreeMap<PublicKey, V>`: entries in key order. [musig.rs:105, 351] -/
abbrev BMap (P V : Type) := List (PublicKey P × V)

namespace BMap
variable {V : Type}
/-- `BTreeMap::get` / occupied `entry`: search by comparison. [musig.rs:109, 519, 560, 597, 629, 661, 730] -/
def get? : BMap P V → PublicKey P → Option V
  | [], _ => none
  | (k, v) :: m, x => match RistrettoBoth.cmp x k with
    | .eq => some v
    | .lt => none
    | .gt => get? m x
/-- `BTreeMap::insert`, `VacantEntry::insert`, `OccupiedEntry::get_mut`, `get_mut`: an existing key is
kept, its value replaced. [musig.rs:503, 520, 561, 598, 629, 662, 731] -/
def set : BMap P V → PublicKey P → V → BMap P V
  | [], x, v => [(x, v)]
  | (k, w) :: m, x, v => match RistrettoBoth.cmp x k with
    | .eq => (k, v) :: m
    | .lt => (x, v) :: (k, w) :: m
    | .gt => (k, w) :: set m x v
/-- `BTreeMap::keys` [musig.rs:109-117] -/
def keys (m : BMap P V) : List (PublicKey P) := m.map (·.1)
end BMap

/-- `musig.rs:71-79` -/
def commitPublicKeys [Oracles] (keys : List (PublicKey P)) : Transcript :=
  keys.foldl (fun t pk => commitPoint t (b! "pk-set") pk.compressed)
    (Transcript.new (b! "MuSig-aggregate-public_key"))

/-- `musig.rs:86-89` -/
def computeWeighting [Oracles] (t : Transcript) (pk : PublicKey P) : Scalar :=
  let t := commitPoint t (b! "pk-choice") pk.compressed
  (challengeScalar t (b! "")).1

/-- The body shared by `musig.rs:116-123`, `171-178` and `371-377`: weighted sum of public keys. -/
def aggregatePoint [Oracles] (keys : List (PublicKey P)) : PublicKey P :=
  let t0 := commitPublicKeys keys
  PublicKey.fromPoint (keys.map fun pk => computeWeighting t0 pk •. pk.point).sum

/-- `musig.rs:108-114` `<BTreeMap as AggregatePublicKey>::weighting` -/
def BMap.weighting [Oracles] {V : Type} (m : BMap P V) (choice : PublicKey P) : Option Scalar :=
  if (m.get? choice).isNone then none
  else some (computeWeighting (commitPublicKeys m.keys) choice)

/-- `musig.rs:116-123` `<BTreeMap as AggregatePublicKey>::public_key` -/
def BMap.publicKey [Oracles] {V : Type} (m : BMap P V) : PublicKey P := aggregatePoint m.keys

/-- `musig.rs:127-128` -/
structure AggregatePublicKeySlice (P : Type) where
  keys : List (PublicKey P)

/-- insertion step of `sortKeys` [musig.rs:135, 145] -/
def insertKey (x : PublicKey P) : List (PublicKey P) → List (PublicKey P)
  | [] => [x]
  | y :: ys => if RistrettoBoth.cmp y x = .lt then y :: insertKey x ys else x :: y :: ys

/-- `slice::sort_unstable` on public keys.  Simplification: insertion sort; keys comparing equal have
identical bytes, so every sorting algorithm yields the same list (`Props.sort_unstable_any`).
[musig.rs:135, 145] -/
def sortKeys : List (PublicKey P) → List (PublicKey P)
  | [] => []
  | x :: xs => insertKey x (sortKeys xs)

/-- `windows(2).any(|x| f(x[0], x[1]))` [musig.rs:136, 146, 156] -/
def anyWindow (f : PublicKey P → PublicKey P → Bool) : List (PublicKey P) → Bool
  | x :: y :: l => f x y || anyWindow f (y :: l)
  | _ => false

/-- `musig.rs:131-138` (and `141-148` for slices of references): result and the sorted slice. -/
def aggregatePublicKeyFromSlice (l : List (PublicKey P)) : Option (AggregatePublicKeySlice P) :=
  if l.length = 1 then none
  else
    let l := sortKeys l
    if anyWindow (fun x y => RistrettoBoth.eq x y) l then none else some ⟨l⟩

/-- `musig.rs:151-158` -/
def aggregatePublicKeyFromSortedSlice (l : List (PublicKey P)) : Option (AggregatePublicKeySlice P) :=
  if l.length = 1 then none
  else if anyWindow (fun x y => RistrettoBoth.cmp x y ≠ .lt) l then none else some ⟨l⟩

namespace AggregatePublicKeySlice
/-- `musig.rs:163-169` -/
def weighting [Oracles] (s : AggregatePublicKeySlice P) (choice : PublicKey P) : Option Scalar :=
  if s.keys.any fun pk => RistrettoBoth.eq pk choice then none
  else some (computeWeighting (commitPublicKeys s.keys) choice)
/-- `musig.rs:171-178` -/
def publicKey [Oracles] (s : AggregatePublicKeySlice P) : PublicKey P := aggregatePoint s.keys
end AggregatePublicKeySlice

/-- `musig.rs:187-188` -/
structure Commitment where
  bytes : Arr 16
deriving DecidableEq

/-- `musig.rs:192-200` -/
def Commitment.forR [Oracles] (R : List Compressed) : Commitment :=
  let t := R.foldl (fun t R0 => commitPoint t (b! "sign:R") R0) (Transcript.new (b! "MuSig-commitment"))
  ⟨(t.challengeBytes (b! "commitment") 16).1⟩

/-- `[α; REWINDS]` [musig.rs:209, 403] -/
abbrev Rewinds (α : Type) := { l : List α // l.length = REWINDS }

/-- `musig.rs:208-209` -/
structure RevealedPoints (P : Type) where
  pts : Rewinds P
deriving DecidableEq

/-- `musig.rs:230-232` -/
structure Reveal where
  bytes : Arr 96
deriving DecidableEq

/-- `musig.rs:220-227`: the three encodings in a row. -/
def RevealedPoints.toReveal (r : RevealedPoints P) : Reveal :=
  ⟨⟨(r.pts.1.map fun p => (compress p).1).flatten, by
    obtain ⟨⟨l, h⟩⟩ := r
    match l, h with
    | [a, b, c], _ => simp [REWINDS, (compress a).2, (compress b).2, (compress c).2]⟩⟩

namespace Reveal
/-- `musig.rs:247-249`; the length of the array is the constant `32*REWINDS`. -/
def checkLength (r : Reveal) : SignatureResult Unit :=
  if r.bytes.1.length % 32 = 0 then .ok () else .error .pointDecompressionError
/-- `musig.rs:252-254`: `chunks(32)` of a 96-byte array. -/
def iterPoints (r : Reveal) : List Compressed :=
  [r.bytes.slice 0 32 (by omega), r.bytes.slice 32 32 (by omega), r.bytes.slice 64 32 (by omega)]
/-- `musig.rs:256-259` -/
def toCommitment [Oracles] (r : Reveal) : SignatureResult Commitment := do
  r.checkLength
  .ok (Commitment.forR r.iterPoints)
/-- `musig.rs:262-268` -/
def intoPoints (r : Reveal) : Outcome (RevealedPoints P) := do
  Outcome.ofExcept r.checkLength
  let a : List P ← Outcome.ofExcept (r.iterPoints.mapM fun x => match decompress x with
    | some p => .ok p
    | none => .error .pointDecompressionError)
  if h : a.length = REWINDS then .ok ⟨⟨a, h⟩⟩ else .panic "called `Result::unwrap()` on an `Err` value"
end Reveal

/-- `musig.rs:272-279` -/
inductive CoR (P : Type) where
  | commit (c : Commitment)
  | reveal (r : RevealedPoints P)
  | cosigned (s : Scalar)
  | collect (r : RevealedPoints P) (s : Scalar)
deriving DecidableEq

namespace CoR
/-- `musig.rs:303-323`: result and the (possibly updated) entry. -/
def setRevealed [Oracles] (self : CoR P) (reveal : Reveal) : Outcome Unit × CoR P :=
  match reveal.toCommitment with
  | .error e => (.err e, self)
  | .ok commitment =>
    match (reveal.intoPoints : Outcome (RevealedPoints P)) with
    | .err e => (.err e, self)
    | .panic m => (.panic m, self)
    | .ok reveal =>
      match self with
      | .collect _ _ => (.panic "Internal error, set_reveal during collection phase.", self)
      | .cosigned _ => (.panic "Internal error, cosigning during reveal phase.", self)
      | .commit cOld =>
        if cOld = commitment then (.ok (), .reveal reveal)
        else (.err (.muSigInconsistent .commitment false), self)
      | .reveal revealOld =>
        if revealOld = reveal then (.ok (), self)
        else (.err (.muSigInconsistent .reveal true), self)
/-- `musig.rs:326-343` -/
def setCosigned (self : CoR P) (s : Scalar) : Outcome Unit × CoR P :=
  match self with
  | .collect _ _ => (.panic "Internal error, set_cosigned during collection phase.", self)
  | .commit _ => (.err (.muSigAbsent .reveal), self)
  | .reveal _ => (.ok (), .cosigned s)
  | .cosigned sOld =>
    if sOld = s then (.ok (), self) else (.err (.muSigInconsistent .cosignature true), self)
end CoR

/-- `musig.rs:348-353` -/
structure MuSig (P T S : Type) where
  t : T
  Rs : BMap P (CoR P)
  stage : S

namespace MuSig
/-- `musig.rs:359-366` -/
def publicKeys (m : MuSig P T S) (requireReveal : Bool) : List (PublicKey P) :=
  m.Rs.filterMap fun e => match e.2 with
    | .commit _ => if requireReveal then none else some e.1
    | .reveal _ => some e.1
    | .cosigned _ => some e.1
    | .collect _ _ => some e.1
/-- `musig.rs:371-377` -/
def computePublicKey [Oracles] (m : MuSig P T S) (requireReveal : Bool) : PublicKey P :=
  aggregatePoint (m.publicKeys requireReveal)
/-- `musig.rs:380-381` -/
def publicKey [Oracles] (m : MuSig P T S) : PublicKey P := m.computePublicKey true
/-- `musig.rs:384-385` -/
def expectedPublicKey [Oracles] (m : MuSig P T S) : PublicKey P := m.computePublicKey false

/-- `musig.rs:391-398`, on the entries of the map. -/
def iterRsGo : BMap P (CoR P) → Outcome (List (PublicKey P × RevealedPoints P))
  | [] => .ok []
  | (pk, cor) :: m =>
    match cor with
    | .commit _ => iterRsGo m
    | .reveal r => do let l ← iterRsGo m; .ok ((pk, r) :: l)
    | .cosigned _ => .panic "Internal error, compute_R called during cosigning phase."
    | .collect r _ => do let l ← iterRsGo m; .ok ((pk, r) :: l)
/-- `musig.rs:391-398` -/
def iterRs (m : MuSig P T S) : Outcome (List (PublicKey P × RevealedPoints P)) := iterRsGo m.Rs

/-- `musig.rs:406-412`: commit the keys and their revealed points. -/
def rewinderTranscript (t : T) (l : List (PublicKey P × RevealedPoints P)) : T :=
  l.foldl (fun t0 e =>
    e.2.pts.1.foldl (fun t0 anR => commitPoint t0 (b! "R") (compress anR))
      (commitPoint t0 (b! "pk-set") e.1.compressed)) t

/-- `musig.rs:413-421`: three successive challenges. -/
def rewindsOf (t0 : T) (pk : PublicKey P) : Rewinds Scalar :=
  let t1 := commitPoint t0 (b! "pk-choice") pk.compressed
  let (x0, t1) := challengeScalar t1 (b! "R")
  let (x1, t1) := challengeScalar t1 (b! "R")
  let (x2, _) := challengeScalar t1 (b! "R")
  ⟨[x0, x1, x2], rfl⟩

/-- `musig.rs:405-422` -/
def rewinder (m : MuSig P T S) : Outcome (PublicKey P → Rewinds Scalar) := do
  let l ← m.iterRs
  let t0 := rewinderTranscript m.t l
  .ok (rewindsOf t0)

/-- `musig.rs:429-435` -/
def computeR (m : MuSig P T S) (rewinder : PublicKey P → Rewinds Scalar) : Outcome Compressed := do
  let l ← m.iterRs
  .ok (compress (l.map fun e => multiscalar ((rewinder e.1).1.zip e.2.pts.1)).sum)
end MuSig

/-- `musig.rs:446-453` `MuSig::transcript`, available in the commit and reveal stages: the caller gets
`&mut T` and may replace the transcript by any other value. -/
def MuSig.editTranscript {T S : Type} (m : MuSig P T S) (f : T → T) : MuSig P T S := { m with t := f m.t }

/-- `musig.rs:470-474` (with `K = Keypair`) -/
structure CommitStage (P : Type) where
  keypair : Keypair P
  rMe : Rewinds Scalar
  RMe : Reveal

/-- `musig.rs:540-544` -/
structure RevealStage (P : Type) where
  keypair : Keypair P
  rMe : Rewinds Scalar
  RMe : Reveal

/-- `musig.rs:638-643` -/
structure CosignStage where
  R : Compressed
  sMe : Scalar

/-- `musig.rs:646-647` -/
structure Cosignature where
  bytes : Arr 32
deriving DecidableEq

/-- `musig.rs:717` -/
structure CollectStage where

namespace MuSig

/-- `musig.rs:489-493`: the three witness scalars, seeded by the nonce and the index as a 64-bit
little-endian integer (`usize` is taken to have 64 bits). -/
def drawNonces (t : T) (nonce : Arr 32) (sys : Rng) : Rewinds Scalar × T × Rng :=
  let (r0, t, sys) := witnessScalar t (b! "MuSigWitness") [nonce.1, leBytes 8 0] sys
  let (r1, t, sys) := witnessScalar t (b! "MuSigWitness") [nonce.1, leBytes 8 1] sys
  let (r2, t, sys) := witnessScalar t (b! "MuSigWitness") [nonce.1, leBytes 8 2] sys
  (⟨[r0, r1, r2], rfl⟩, t, sys)

/-- `musig.rs:486-507` (also `Keypair::musig`, 462-465); the second component is the system RNG. -/
def new (keypair : Keypair P) (t : T) (sys : Rng) : MuSig P T (CommitStage P) × Rng :=
  let (rMe, t, sys) := drawNonces t keypair.secret.nonce sys
  let RMePoints : RevealedPoints P := ⟨⟨rMe.1.map fun r => r •. basepoint, by simp [rMe.2]⟩⟩
  let RMe := RMePoints.toReveal
  let Rs : BMap P (CoR P) := BMap.set [] keypair.pub (.reveal RMePoints)
  (⟨t, Rs, ⟨keypair, rMe, RMe⟩⟩, sys)

/-- `musig.rs:510-512` -/
def ourCommitment [Oracles] (m : MuSig P T (CommitStage P)) : Outcome Commitment :=
  match m.stage.RMe.toCommitment with
  | .ok c => .ok c
  | .error _ => .panic "called `Result::unwrap()` on an `Err` value"

/-- `musig.rs:515-529`: result and the (possibly updated) session. -/
def addTheirCommitment (m : MuSig P T (CommitStage P)) (them : PublicKey P) (theirs : Commitment) :
    SignatureResult Unit × MuSig P T (CommitStage P) :=
  let theirs : CoR P := .commit theirs
  match m.Rs.get? them with
  | none => (.ok (), { m with Rs := m.Rs.set them theirs })
  | some o => if o ≠ theirs then (.error (.muSigInconsistent .commitment true), m) else (.ok (), m)

/-- `musig.rs:532-535` -/
def revealStage (m : MuSig P T (CommitStage P)) : MuSig P T (RevealStage P) :=
  ⟨m.t, m.Rs, ⟨m.stage.keypair, m.stage.rMe, m.stage.RMe⟩⟩

/-- `musig.rs:550` -/
def ourReveal (m : MuSig P T (RevealStage P)) : Reveal := m.stage.RMe

/-- `musig.rs:557-568` -/
def addTheirReveal [Oracles] (m : MuSig P T (RevealStage P)) (them : PublicKey P) (theirs : Reveal) :
    Outcome Unit × MuSig P T (RevealStage P) :=
  match m.Rs.get? them with
  | none => (.err (.muSigAbsent .commitment), m)
  | some o =>
    let (r, o) := o.setRevealed theirs
    (r, { m with Rs := m.Rs.set them o })

/-- `musig.rs:592-606` -/
def addTrusted (m : MuSig P T (RevealStage P)) (them : PublicKey P) (theirs : Reveal) :
    Outcome Unit × MuSig P T (RevealStage P) :=
  match (theirs.intoPoints : Outcome (RevealedPoints P)) with
  | .err e => (.err e, m)
  | .panic s => (.panic s, m)
  | .ok reveal =>
    let theirs : CoR P := .reveal reveal
    match m.Rs.get? them with
    | none => (.ok (), { m with Rs := m.Rs.set them theirs })
    | some o => if o ≠ theirs then (.err (.muSigInconsistent .reveal true), m) else (.ok (), m)

/-- `musig.rs:610-634` -/
def cosignStage [Oracles] (m : MuSig P T (RevealStage P)) : Outcome (MuSig P T CosignStage) := do
  let m := { m with t := protoName m.t (b! "Schnorr-sig") }
  let pk := m.publicKey.compressed
  let m := { m with t := commitPoint m.t (b! "sign:pk") pk }
  let rewinder ← m.rewinder
  let rewinds := rewinder m.stage.keypair.pub
  let R ← m.computeR rewinder
  let m := { m with t := commitPoint m.t (b! "sign:R") R }
  let t0 := commitPublicKeys (m.publicKeys true)
  let aMe := computeWeighting t0 m.stage.keypair.pub
  let (c, t) := challengeScalar m.t (b! "sign:c")
  let sMe := Scalar.sum ((m.stage.rMe.1.zip rewinds.1).map fun (y, x) => x * y)
  let sMe := sMe + c * aMe * m.stage.keypair.secret.key
  match m.Rs.get? m.stage.keypair.pub with
  | none => .panic "Rs known to contain this public; qed"
  | some _ => .ok ⟨t, m.Rs.set m.stage.keypair.pub (.cosigned sMe), ⟨R, sMe⟩⟩

/-- `musig.rs:651-653` -/
def ourCosignature (m : MuSig P T CosignStage) : Cosignature := ⟨m.stage.sMe.bytes⟩

/-- `musig.rs:656-668` -/
def addTheirCosignature (m : MuSig P T CosignStage) (them : PublicKey P) (theirs : Cosignature) :
    Outcome Unit × MuSig P T CosignStage :=
  match scalarFromCanonicalBytes theirs.bytes with
  | none => (.err .scalarFormatError, m)
  | some theirs =>
    match m.Rs.get? them with
    | none => (.err (.muSigAbsent .reveal), m)
    | some o =>
      let (r, o) := o.setCosigned theirs
      (r, { m with Rs := m.Rs.set them o })

/-- `musig.rs:672-679`, on the entries -/
def cosignedGo : BMap P (CoR P) → Outcome (List (PublicKey P))
  | [] => .ok []
  | (pk, cor) :: m =>
    match cor with
    | .commit _ => cosignedGo m
    | .reveal _ => cosignedGo m
    | .cosigned _ => do let l ← cosignedGo m; .ok (pk :: l)
    | .collect _ _ => .panic "Collect found in Cosign phase."
/-- `musig.rs:672-679` -/
def cosigned (m : MuSig P T CosignStage) : Outcome (List (PublicKey P)) := cosignedGo m.Rs

/-- `musig.rs:683-690`, on the entries -/
def uncosignedGo : BMap P (CoR P) → Outcome (List (PublicKey P))
  | [] => .ok []
  | (pk, cor) :: m =>
    match cor with
    | .commit _ => uncosignedGo m
    | .reveal _ => do let l ← uncosignedGo m; .ok (pk :: l)
    | .cosigned _ => uncosignedGo m
    | .collect _ _ => .panic "Collect found in Cosign phase."
/-- `musig.rs:683-690` -/
def uncosigned (m : MuSig P T CosignStage) : Outcome (List (PublicKey P)) := uncosignedGo m.Rs

/-- `musig.rs:697-703`: the shares summed up by `sign`. -/
def sharesGo : BMap P (CoR P) → Outcome (List Scalar)
  | [] => .ok []
  | (_, cor) :: m =>
    match cor with
    | .commit _ => sharesGo m
    | .reveal _ => .panic "Internal error, MuSig<T,CosignStage>::uncosigned broken."
    | .cosigned s => do let l ← sharesGo m; .ok (s :: l)
    | .collect _ _ => .panic "Collect found in Cosign phase."

/-- `musig.rs:694-705` -/
def sign (m : MuSig P T CosignStage) : Outcome (Option Signature) := do
  let u ← m.uncosigned
  if u.getLast?.isSome then .ok none
  else do
    let ss ← sharesGo m.Rs
    .ok (some ⟨m.stage.R, Scalar.sum ss⟩)

/-- `musig.rs:722-739` -/
def add (m : MuSig P T CollectStage) (them : PublicKey P) (theirReveal : Reveal)
    (theirCosignature : Cosignature) : Outcome Unit × MuSig P T CollectStage :=
  match (theirReveal.intoPoints : Outcome (RevealedPoints P)) with
  | .err e => (.err e, m)
  | .panic s => (.panic s, m)
  | .ok reveal =>
    match scalarFromCanonicalBytes theirCosignature.bytes with
    | none => (.err .scalarFormatError, m)
    | some s =>
      let cor : CoR P := .collect reveal s
      match m.Rs.get? them with
      | none => (.ok (), { m with Rs := m.Rs.set them cor })
      | some o => if o ≠ cor then (.err (.muSigInconsistent .reveal true), m) else (.ok (), m)

/-- `musig.rs:749-752`: the shares summed up by `signature`. -/
def collectSharesGo : BMap P (CoR P) → Outcome (List Scalar)
  | [] => .ok []
  | (_, cor) :: m =>
    match cor with
    | .collect _ s => do let l ← collectSharesGo m; .ok (s :: l)
    | _ => .panic "Reached CollectStage from another stage"

/-- `musig.rs:743-754` -/
def signature [Oracles] (m : MuSig P T CollectStage) : Outcome Signature := do
  let pk := m.publicKey.compressed
  let m := { m with t := commitPoint m.t (b! "sign:pk") pk }
  let rewinder ← m.rewinder
  let R ← m.computeR rewinder
  let ss ← collectSharesGo m.Rs
  .ok ⟨R, Scalar.sum ss⟩

end MuSig

/-- `musig.rs:711-714` -/
def collectCosignatures (t : T) : MuSig P T CollectStage :=
  ⟨protoName t (b! "Schnorr-sig"), [], ⟨⟩⟩

end Schnorrkel
