import Verif.Model.MuSig
import Verif.Model.Vrf

/-! # Derived comparisons, views and conversions of protocol values

`#[derive(PartialEq, PartialOrd, Ord, Hash)]` is expanded field by field in declaration order. -/

namespace Schnorrkel
variable {P : Type} [Ristretto P]

namespace RistrettoBoth
/-- `points.rs:62` `as_compressed`, and `points.rs:65` `into_compressed` -/
def asCompressed (a : RistrettoBoth P) : Compressed := a.compressed
/-- `points.rs:68` `as_point`, and `points.rs:71` `into_point` -/
def asPoint (a : RistrettoBoth P) : P := a.point
/-- `points.rs:47-51` `ct_eq` (the `Choice` as a `Bool`) -/
def ctEq (a b : RistrettoBoth P) : Bool := decide (a.compressed = b.compressed)
/-- `points.rs:155-159` -/
def partialCmp (a b : RistrettoBoth P) : Option Ordering := some (a.cmp b)
end RistrettoBoth

/-- `keys.rs:607-611` `ConstantTimeEq for PublicKey` -/
def PublicKey.ctEq (a b : PublicKey P) : Bool := RistrettoBoth.ctEq a b
/-- `keys.rs:622-626` `AsRef<[u8]> for PublicKey` -/
def PublicKey.asRef (a : PublicKey P) : Bytes := (RistrettoBoth.asCompressed a).1

/-- the derived `Ord` on a struct of two fields: the second decides when the first ties [vrf.rs:283] -/
def thenCmp (a b : Ordering) : Ordering := match a with
  | .eq => b
  | c => c

/-- the derived `PartialOrd` on a struct of two fields [vrf.rs:283] -/
def thenPartialCmp (a b : Option Ordering) : Option Ordering := match a with
  | some .eq => b
  | c => c

namespace VRFInOut
/-- `vrf.rs:283` derived `PartialEq` in a debug build: the output is compared only if the inputs agree. -/
def eqDebug (a b : VRFInOut P) : Outcome Bool := do
  let r ← RistrettoBoth.eqDebug a.input b.input
  if r then RistrettoBoth.eqDebug a.output b.output else .ok false
/-- `vrf.rs:283` derived `PartialEq` in a release build -/
def eq (a b : VRFInOut P) : Bool := RistrettoBoth.eq a.input b.input && RistrettoBoth.eq a.output b.output
/-- `vrf.rs:283` derived `Ord` -/
def cmp (a b : VRFInOut P) : Ordering := thenCmp (a.input.cmp b.input) (a.output.cmp b.output)
/-- `vrf.rs:283` derived `PartialOrd` -/
def partialCmp (a b : VRFInOut P) : Option Ordering :=
  thenPartialCmp (a.input.partialCmp b.input) (a.output.partialCmp b.output)
/-- `vrf.rs:283` derived `Hash`: what the fields feed to the hasher, one after the other -/
def hashInput (a : VRFInOut P) : Bytes := a.input.hashInput ++ a.output.hashInput
end VRFInOut

namespace VRFPreOut
/-- `vrf.rs:244-246` -/
def asBytes (o : VRFPreOut) : Arr 32 := o.bytes
/-- `vrf.rs:229` derived `PartialEq` -/
def eq (a b : VRFPreOut) : Bool := decide (a.bytes = b.bytes)
/-- `vrf.rs:229` derived `Ord` -/
def cmp (a b : VRFPreOut) : Ordering := cmpBytes a.bytes.1 b.bytes.1
/-- `vrf.rs:229` derived `Hash` (without the constant length, as in `RistrettoBoth.hashInput`) -/
def hashInput (a : VRFPreOut) : Bytes := a.bytes.1
/-- `vrf.rs:229` derived `Default` -/
def default : VRFPreOut := ⟨zeros 32⟩
end VRFPreOut

/-- `sign.rs:33` derived `PartialEq` (`Scalar`s are compared by their bytes) -/
def Signature.eq (a b : Signature) : Bool := decide (a.R = b.R) && decide (a.s.bytes = b.s.bytes)
/-- `vrf.rs:499` derived `PartialEq` -/
def VRFProof.eq (a b : VRFProof) : Bool := decide (a.c.bytes = b.c.bytes) && decide (a.s.bytes = b.s.bytes)
/-- `vrf.rs:546` derived `PartialEq` -/
def VRFProofBatchable.eq (a b : VRFProofBatchable) : Bool :=
  decide (a.R = b.R) && decide (a.Hr = b.Hr) && decide (a.s.bytes = b.s.bytes)
/-- `musig.rs:238-243` -/
def Reveal.eq (a b : Reveal) : Bool := decide (a.bytes.1 = b.bytes.1)

/-- `keys.rs:702-706` `From<SecretKey> for PublicKey` -/
def PublicKey.ofSecret (secret : SecretKey) : PublicKey P := secret.toPublic
/-- `keys.rs:256-258` -/
def MiniSecretKey.asBytes (m : MiniSecretKey) : Arr 32 := m.bytes

/-- `keys.rs:340-342` `MiniSecretKey::generate`; `sys` is `getrandom_or_panic()` -/
def MiniSecretKey.generate (sys : Rng) : MiniSecretKey := (MiniSecretKey.generateWith sys).1
/-- `keys.rs:571-573` `SecretKey::generate` -/
def SecretKey.generate (sys : Rng) : SecretKey := (SecretKey.generateWith sys).1
/-- `keys.rs:909-911` `Keypair::generate` -/
def Keypair.generate (sys : Rng) : Keypair P := (Keypair.generateWith sys).1

/-- `keys.rs:96` `#[zeroize(drop)]`: the memory of a dropped `MiniSecretKey` -/
def MiniSecretKey.dropped (m : MiniSecretKey) : MiniSecretKey := m.zeroize
/-- `keys.rs:361` `#[zeroize(drop)]` -/
def SecretKey.dropped (sk : SecretKey) : SecretKey := sk.zeroize
/-- `keys.rs:726-730` `Drop for Keypair`, followed by the drop of the field `secret` -/
def Keypair.dropped (kp : Keypair P) : Keypair P :=
  let kp := kp.zeroize
  ⟨kp.secret.dropped, kp.pub⟩

end Schnorrkel
