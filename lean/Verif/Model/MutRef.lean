import Verif.Model.Context

/-! # `impl SigningTranscript for &mut T` -/

namespace Schnorrkel

/-- A `&mut T`, as the state `t` of the transcript it refers to: whatever the callee does to the reference is done to the
caller's transcript. [context.rs:97-99] -/
structure MutRef (T : Type) where
  t : T

/-- `context.rs:99-128`: every method is forwarded to the referent, including `witness_bytes`, so that an RNG attached to
the referent is used. (`proto_name`, `commit_point`, `challenge_scalar` and `witness_scalar` are forwarded too; for the
transcript types of the crate, which keep the default methods, that is the default method on the reference.) -/
instance {T : Type} [SigningTranscript T] : SigningTranscript (MutRef T) where
  commitBytes r label bytes := ⟨SigningTranscript.commitBytes r.t label bytes⟩
  challengeBytes r label n :=
    let (c, t) := SigningTranscript.challengeBytes r.t label n
    (c, ⟨t⟩)
  witnessBytesRng r label n seeds rng := SigningTranscript.witnessBytesRng r.t label n seeds rng
  witnessBytes r label n seeds sys :=
    let (c, t, sys) := SigningTranscript.witnessBytes r.t label n seeds sys
    (c, ⟨t⟩, sys)

end Schnorrkel
