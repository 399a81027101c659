import Verif.Model.Prims

/-! # `src/context.rs`: signing transcripts and contexts -/

namespace Schnorrkel

/-- `context.rs:45-93` trait `SigningTranscript`, required methods plus `witness_bytes`, which
`SigningTranscriptWithRng` overrides.  `&mut self` methods return the new transcript; `witness_bytes`
takes `&self` but may advance an attached RNG (`RefCell`), hence also returns a transcript, and takes
the system RNG (`getrandom_or_panic()`) as an explicit argument. -/
class SigningTranscript (T : Type) where
  /-- `context.rs:46-47` -/
  commitBytes : T → (label bytes : Bytes) → T
  /-- `context.rs:59-60` -/
  challengeBytes : T → (label : Bytes) → (n : Nat) → Arr n × T
  /-- `context.rs:83-92` -/
  witnessBytesRng : T → (label : Bytes) → (n : Nat) → (seeds : List Bytes) → Rng → Arr n × Rng
  /-- `context.rs:77-81` (default implementation below) -/
  witnessBytes : T → (label : Bytes) → (n : Nat) → (seeds : List Bytes) → (sys : Rng) →
    Arr n × T × Rng := fun t label n seeds sys =>
      let (w, sys) := witnessBytesRng t label n seeds sys
      (w, t, sys)

namespace SigningTranscript
variable {T : Type} [SigningTranscript T]

/-- `context.rs:49-52` -/
def protoName (t : T) (label : Bytes) : T := commitBytes t (b! "proto-name") label
/-- `context.rs:54-57` -/
def commitPoint (t : T) (label : Bytes) (compressed : Compressed) : T :=
  commitBytes t label compressed.1
/-- `context.rs:62-67` -/
def challengeScalar (t : T) (label : Bytes) : Scalar × T :=
  let (buf, t) := challengeBytes t label 64
  (Scalar.fromBytesModOrderWide buf, t)
/-- `context.rs:69-75` -/
def witnessScalar (t : T) (label : Bytes) (seeds : List Bytes) (sys : Rng) : Scalar × T × Rng :=
  let (buf, t, sys) := witnessBytes t label 64 seeds sys
  (Scalar.fromBytesModOrderWide buf, t, sys)
end SigningTranscript

/-- `context.rs:133-158` `impl SigningTranscript for merlin::Transcript`. -/
instance [Oracles] : SigningTranscript Transcript where
  commitBytes t label bytes := t.appendMessage label bytes
  challengeBytes t label n := t.challengeBytes label n
  witnessBytesRng t label n seeds rng :=
    let br := t.rekeyAll label seeds
    let (r, rng) := Transcript.finalizeRng br rng
    ((Transcript.rngFill r n).1, rng)

/-- `context.rs:176-177` `SigningContext(Transcript)`. -/
structure SigningContext where
  t : Transcript
deriving DecidableEq

namespace SigningContext
/-- `context.rs:189-194` -/
def new (context : Bytes) : SigningContext :=
  ⟨(Transcript.new (b! "SigningContext")).appendMessage (b! "") context⟩
/-- `context.rs:201-206` -/
def bytes (c : SigningContext) (bytes : Bytes) : Transcript :=
  c.t.appendMessage (b! "sign-bytes") bytes
/-- `context.rs:211-218`; `prehash` is the 32 bytes read from `h.finalize_xof()`. -/
def xof (c : SigningContext) (prehash : Arr 32) : Transcript :=
  c.t.appendMessage (b! "sign-XoF") prehash.1
/-- `context.rs:222-229`; `prehash` is `h.finalize_fixed()`. -/
def hash256 (c : SigningContext) (prehash : Arr 32) : Transcript :=
  c.t.appendMessage (b! "sign-256") prehash.1
/-- `context.rs:233-240`; `prehash` is `h.finalize_fixed()`. -/
def hash512 (c : SigningContext) (prehash : Arr 64) : Transcript :=
  c.t.appendMessage (b! "sign-512") prehash.1
end SigningContext

/-- `context.rs:179-184` -/
def signingContext (context : Bytes) : SigningContext := SigningContext.new context

/-- `context.rs:268-270` `XoFTranscript(H)`: the state of a hash is what it has absorbed. -/
structure XoFTranscript where
  absorbed : Bytes
deriving DecidableEq

/-- `(l as u64).to_le_bytes()` for a length. [context.rs:273-274, 316-317, 335-336] -/
def le64 (l : Nat) : Bytes := leBytes 8 l

/-- `context.rs:272-276` `input_bytes`: what is appended to the hash input. -/
def inputBytes (bytes : Bytes) : Bytes := le64 bytes.length ++ bytes

namespace XoFTranscript
/-- `context.rs:287-290` (also `From<H>`, 297-300) -/
def new (h : Bytes) : XoFTranscript := ⟨h⟩
/-- `context.rs:307-311` -/
def commitInput (label bytes : Bytes) : Bytes := b! "co" ++ inputBytes label ++ inputBytes bytes
/-- `context.rs:313-317` -/
def challengeInput (label : Bytes) (n : Nat) : Bytes := b! "ch" ++ inputBytes label ++ le64 n
/-- `context.rs:330-340`: everything absorbed after the transcript for a witness request. -/
def witnessInput (label : Bytes) (n : Nat) (seeds : List Bytes) (r : Bytes) : Bytes :=
  b! "wb" ++ inputBytes label ++ (seeds.map inputBytes).flatten ++ le64 n ++ r
end XoFTranscript

/-- `context.rs:303-343` `impl SigningTranscript for XoFTranscript<H>`. -/
instance [Oracles] : SigningTranscript XoFTranscript where
  commitBytes t label bytes := ⟨t.absorbed ++ XoFTranscript.commitInput label bytes⟩
  challengeBytes t label n :=
    let h := t.absorbed ++ XoFTranscript.challengeInput label n
    (Oracles.xof (h ++ b! "xof") n, ⟨h⟩)
  witnessBytesRng t label n seeds rng :=
    let (r, rng) := rng.fill 32
    (Oracles.xof (t.absorbed ++ XoFTranscript.witnessInput label n seeds r.1) n, rng)

/-- `context.rs:359-366` `SigningTranscriptWithRng`. -/
structure WithRng (T : Type) where
  t : T
  rng : Rng

/-- `context.rs:369-385` `impl SigningTranscript for SigningTranscriptWithRng<T,R>`. -/
instance {T : Type} [SigningTranscript T] : SigningTranscript (WithRng T) where
  commitBytes w label bytes := { w with t := SigningTranscript.commitBytes w.t label bytes }
  challengeBytes w label n :=
    let (c, t) := SigningTranscript.challengeBytes w.t label n
    (c, { w with t := t })
  witnessBytesRng w label n seeds rng := SigningTranscript.witnessBytesRng w.t label n seeds rng
  witnessBytes w label n seeds sys :=
    let (c, rng) := SigningTranscript.witnessBytesRng w.t label n seeds w.rng
    (c, { w with rng := rng }, sys)

/-- `context.rs:394-400` `attach_rng`. -/
def attachRng {T : Type} (t : T) (rng : Rng) : WithRng T := ⟨t, rng⟩
/-- `context.rs:407-413`; `fromSeed` is `ChaChaRng::from_seed`. -/
def attachChachaRng {T : Type} (fromSeed : Arr 32 → Rng) (t : T) (seed : Arr 32) : WithRng T :=
  attachRng t (fromSeed seed)

end Schnorrkel
