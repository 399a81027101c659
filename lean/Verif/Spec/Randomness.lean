import Verif.Model.Prims
import Verif.Model.Context

/-! # Vocabulary for C86: what a call reads from a random number generator -/

namespace Schnorrkel.Spec

/-- The answers of an RNG to consecutive requests for the given numbers of bytes. -/
def answers (r : Rng) : List Nat → List Bytes
  | [] => []
  | n :: ns => (r.fill n).1.1 :: answers (r.fill n).2 ns

/-- The RNG after these requests. -/
def after (r : Rng) : List Nat → Rng
  | [] => r
  | n :: ns => after (r.fill n).2 ns

/-- The result of a call is a function of the RNG's answers to these requests, and of nothing else of the RNG. -/
def Uses {α : Type} (ns : List Nat) (out : Rng → α) : Prop :=
  ∀ r r', answers r ns = answers r' ns → out r = out r'

/-- … and the call makes these requests, in this order, and no others: it leaves the RNG `rng` behind. -/
def Reads {α : Type} (ns : List Nat) (out : Rng → α) (rng : Rng → Rng) : Prop :=
  Uses ns out ∧ ∀ r, rng r = after r ns

/-- A request for secret witness bytes, on every transcript of this type, makes the requests `ns` to the system RNG. -/
def WitnessReads (T : Type) [SigningTranscript T] (ns : List Nat) : Prop :=
  ∀ (t : T) label n seeds,
    Reads ns (fun sys => ((SigningTranscript.witnessBytes t label n seeds sys).1,
      (SigningTranscript.witnessBytes t label n seeds sys).2.1))
      (fun sys => (SigningTranscript.witnessBytes t label n seeds sys).2.2)

end Schnorrkel.Spec
