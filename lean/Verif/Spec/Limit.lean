import Verif.Model.Vrf

/-! # merlin's length limit

merlin encodes the length of every message, witness and output in 32 bits and panics (`assert!`) when one does not fit. -/

namespace Spec
open Schnorrkel

/-- The limit for one operation. -/
def fitsOp : MOp → Prop
  | .append _ m => m.length < 2 ^ 32
  | .challenge _ n => n < 2 ^ 32
  | .rekey _ w => w.length < 2 ^ 32
  | .rngKey _ => True
  | .prf n => n < 2 ^ 32

/-- A sequence of operations during which merlin does not panic. -/
def Fits (l : List MOp) : Prop := ∀ op ∈ l, fitsOp op

/-- The same hash functions on every input that merlin accepts. -/
structure AgreeBelowLimit (O O' : Oracles) : Prop where
  merlin : ∀ l n, Fits l → O.merlin l n = O'.merlin l n
  sha512 : O.sha512 = O'.sha512
  xof : O.xof = O'.xof

/-- The call never depends on what merlin would answer beyond its limit, where the real merlin panics: its result is the
same for any two hash functions that differ only there. -/
def BelowLimit {α : Type} (f : Oracles → α) : Prop := ∀ O O', AgreeBelowLimit O O' → f O = f O'

/-- A VRF input transcript within the limit. -/
def VrfFits : VRFTranscript Transcript → Prop
  | .plain t => Fits t.log
  | .malleable t => Fits t.log

end Spec
