import Verif.Model.Vrf
import Verif.Spec

/-! # Specification vocabulary for VRFs -/

namespace Schnorrkel
open SigningTranscript
variable {P : Type} [Ristretto P] {T : Type} [SigningTranscript T]

/-- Transcript right before the challenge of a DLEQ proof: protocol name, then input `h`, public key,
commitments `R`, `Hr` and output `o`; the Kusama framing places the public key after the commitments. -/
def dleqPre (t : T) (kusama : Bool) (h pk R Hr o : Compressed) : T :=
  let t := protoName t (b! "DLEQProof")
  let t := commitPoint t (b! "vrf:h") h
  let t := if !kusama then commitPoint t (b! "vrf:pk") pk else t
  let t := commitPoint t (b! "vrf:R=g^r") R
  let t := commitPoint t (b! "vrf:h^r") Hr
  let t := if kusama then commitPoint t (b! "vrf:pk") pk else t
  commitPoint t (b! "vrf:h^sk") o

/-- The DLEQ challenge scalar. -/
def dleqChallenge (t : T) (kusama : Bool) (h pk R Hr o : Compressed) : Scalar :=
  (challengeScalar (dleqPre t kusama h pk R Hr o) (b! "prove")).1

/-- Two VRF transcript arguments of the same malleability whose transcripts are related. -/
inductive VRel {T' : Type} (Rel : T → T' → Prop) : VRFTranscript T → VRFTranscript T' → Prop
  | plain {t t'} : Rel t t' → VRel Rel (.plain t) (.plain t')
  | malleable {t t'} : Rel t t' → VRel Rel (.malleable t) (.malleable t')

end Schnorrkel

namespace Spec
open Schnorrkel

/-- The two discrete-log-equality equations of a proof `(c,s)` with commitments `R`, `Hr`, for public
key point `A`, input point `I`, output point `O`. -/
def DleqEqns {P : Type} [Ristretto P] (A I O R Hr : P) (c s : Z) : Prop :=
  R = c • A + s • (basepoint : P) ∧ Hr = c • O + s • I

/-- A batchable DLEQ proof is valid for challenge `c`. -/
def DleqValid {P : Type} [Ristretto P] (A I O : P) (Rb Hrb : Compressed) (c s : Z) : Prop :=
  ∃ R Hr : P, compress R = Rb ∧ compress Hr = Hrb ∧ DleqEqns A I O R Hr c s

/-- merlin query answered by the DLEQ challenge, for an extra transcript with history `log`. -/
def dleqQuery (log : List MOp) (kusama : Bool) (h pk R Hr o : Bytes) : List MOp :=
  log ++ [.append (b! "proto-name") (b! "DLEQProof"), .append (b! "vrf:h") h] ++
    (if kusama then [.append (b! "vrf:R=g^r") R, .append (b! "vrf:h^r") Hr, .append (b! "vrf:pk") pk]
     else [.append (b! "vrf:pk") pk, .append (b! "vrf:R=g^r") R, .append (b! "vrf:h^r") Hr]) ++
    [.append (b! "vrf:h^sk") o, .challenge (b! "prove") 64]

/-- merlin query whose answer is hashed to the VRF input point. -/
def vrfInputQuery (malleable : Bool) (log : List MOp) (pk : Bytes) : List MOp :=
  log ++ (if malleable then [] else [.append (b! "vrf-nm-pk") pk]) ++ [.challenge (b! "VRFHash") 64]

/-- frames committing one input/output pair -/
def pairFrames (p : Bytes × Bytes) : List MOp :=
  [.append (b! "vrf-in") p.1, .append (b! "vrf-out") p.2]

/-- merlin query behind `make_bytes::<[u8; n]>(context)`. -/
def vrfResultQuery (context : Bytes) (p : Bytes × Bytes) (n : Nat) : List MOp :=
  [.append (b! "dom-sep") (b! "VRFResult"), .append (b! "") context] ++ pairFrames p ++
    [.challenge (b! "") n]

/-- merlin query for the coefficient of pair `p` when merging `ps` under `pk`. -/
def mergeQuery (pk : Bytes) (ps : List (Bytes × Bytes)) (p : Bytes × Bytes) : List MOp :=
  [.append (b! "dom-sep") (b! "MergeVRFs"), .append (b! "vrf:pk") pk] ++
    (ps.map pairFrames).flatten ++ pairFrames p ++ [.challenge (b! "") 16]

/-- The 128-bit merging coefficient. -/
def mergeCoeff [Oracles] (pk : Bytes) (ps : List (Bytes × Bytes)) (p : Bytes × Bytes) : Nat :=
  leNat (Oracles.merlin (mergeQuery pk ps p) 16).1

/-- merlin query for the `i`-th coefficient of a DLEQ batch: public keys, inputs and outputs, and 32
bytes of system randomness; *not* the proofs. -/
def dleqBatchQuery (entries : List (Bytes × Bytes × Bytes)) (r : Bytes) (i : Nat) : List MOp :=
  [.append (b! "dom-sep") (b! "VB-RNG")] ++
    (entries.map fun e => .append (b! "") e.1 :: pairFrames e.2).flatten ++ [.rngKey r] ++
    List.replicate (i + 1) (.prf 16)

/-- The 128-bit coefficient. -/
def dleqBatchCoeff [Oracles] (entries : List (Bytes × Bytes × Bytes)) (r : Bytes) (i : Nat) : Nat :=
  leNat (Oracles.merlin (dleqBatchQuery entries r i) 16).1

end Spec
