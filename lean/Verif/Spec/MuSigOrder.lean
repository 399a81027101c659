import Verif.Spec.MuSig

/-! # Histories that differ only in how the messages of different participants are interleaved -/

namespace Spec
open Schnorrkel
variable {P : Type} {T : Type}

/-- Two histories in which everybody says the same things in the same order. -/
def SameStreams {C K : Type} [DecidableEq K] (who : C → K) (cs cs' : List C) : Prop :=
  ∀ k, cs.filter (fun c => who c = k) = cs'.filter (fun c => who c = k)

/-- Two histories in which `k` says the same things in the same order, whatever the others say. -/
def SameStream {C K : Type} [DecidableEq K] (who : C → K) (k : K) (cs cs' : List C) : Prop :=
  cs.filter (fun c => who c = k) = cs'.filter (fun c => who c = k)

/-- The answers to what `k` said, in order. -/
def answersTo {C K R : Type} [DecidableEq K] (who : C → K) (cs : List C) (answers : List R) (k : K) : List R :=
  ((cs.zip answers).filter fun x => who x.1 = k).map Prod.snd

/-- Delivering `c` once more after the calls `before` changes neither the state reached in the end nor the answer to any other
call, and if `c` was answered `good` once, it is again. -/
def Harmless {S C R : Type} (run : S → List C → List R × S) (good : R) (s : S) (before : List C) (c : C) (after : List C) : Prop :=
  (run s (before ++ c :: after)).2 = (run s (before ++ after)).2 ∧
  ∃ earlier again later, earlier.length = before.length ∧
    (run s (before ++ after)).1 = earlier ++ later ∧ (run s (before ++ c :: after)).1 = earlier ++ again :: later ∧
    ((c, good) ∈ before.zip earlier → again = good)

/-- The participant a call is about, given by the 32 bytes of the key; `none` for the caller's edits of the transcript. -/
def CommitCall.who : CommitCall P T → Option Compressed
  | .commitment them _ => some them.compressed
  | .transcript _ => none
/-- The participant a call is about; `none` for the caller's edits of the transcript. -/
def RevealCall.who : RevealCall P T → Option Compressed
  | .reveal them _ => some them.compressed
  | .trusted them _ => some them.compressed
  | .transcript _ => none
/-- The participant a call is about. -/
def CosignCall.who (c : CosignCall P) : Compressed := c.them.compressed
/-- The participant a call is about. -/
def CollectCall.who (c : CollectCall P) : Compressed := c.them.compressed

end Spec
