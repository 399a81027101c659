import Verif.Spec.Vrf
import Verif.Spec

/-! # The VRF on the wire

What an independent implementation must compute to interoperate, in terms of hash queries and group equations only. -/

namespace Spec
open Schnorrkel
variable {P : Type} [Ristretto P]

/-- The VRF input transcript with history `log`. -/
def wireInput (malleable : Bool) (log : List MOp) : VRFTranscript Transcript :=
  if malleable then .malleable ⟨log⟩ else .plain ⟨log⟩

/-- The VRF input point: hash of the history and, unless malleable, the public key. -/
def wireInputPoint [Oracles] (malleable : Bool) (log : List MOp) (pk : Bytes) : P :=
  fromUniform (Oracles.merlin (vrfInputQuery malleable log pk) 64)

/-- The query behind the challenge of a VRF proof `(c, s)` for the key `A` (encoded `pk`), input `I` and output `O`,
with an extra transcript of history `extra`.  The public key is hashed *after* the two commitments. -/
def wireQuery (extra : List MOp) (A : P) (pk : Bytes) (I O : P) (c s : Z) : List MOp :=
  extra ++ [.append (b! "proto-name") (b! "DLEQProof"), .append (b! "vrf:h") (compress I).1,
    .append (b! "vrf:R=g^r") (compress (c • A + s • basepoint)).1,
    .append (b! "vrf:h^r") (compress (c • O + s • I)).1, .append (b! "vrf:pk") pk,
    .append (b! "vrf:h^sk") (compress O).1, .challenge (b! "prove") 64]

/-- The challenge of a VRF proof. -/
def wireChallenge [Oracles] (extra : List MOp) (A : P) (pk : Bytes) (I O : P) (c s : Z) : Z :=
  hashToZ (wireQuery extra A pk I O c s)

/-- The history of the extra transcript when the caller gives none. -/
def wireNoExtra : List MOp := [.append (b! "dom-sep") (b! "VRF")]

end Spec
