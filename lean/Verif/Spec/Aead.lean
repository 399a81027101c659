import Verif.Model.Aead
import Verif.Spec

/-! # Specification vocabulary for key exchange -/

namespace Spec
open Schnorrkel

/-- Frames of one key exchange: the smaller public key, the larger one, the shared point. -/
def kexFrames (label lo hi shared : Bytes) : List MOp :=
  [.append (b! "pk") lo, .append (b! "pk") hi, .append label shared]

/-- merlin query behind `aead_unauthenticated(ctx, _)` with an `n`-byte key. -/
def kexQuery (ctx lo hi shared : Bytes) (n : Nat) : List MOp :=
  [.append (b! "dom-sep") (b! "KEX"), .append (b! "ctx") ctx] ++ kexFrames (b! "kex") lo hi shared ++
    [.challenge (b! "") n]

/-- The lexicographically smaller and larger of two byte strings. -/
def SortedPair (a b lo hi : Bytes) : Prop :=
  (lo = a ∧ hi = b ∧ ¬ lexLt b a) ∨ (lo = b ∧ hi = a ∧ lexLt b a)

/-- merlin query behind the 2DH AEADs on a transcript with history `log`. -/
def twoDhQuery (log : List MOp) (lo hi shared lo' hi' shared' : Bytes) (n : Nat) : List MOp :=
  log ++ kexFrames (b! "epk") lo hi shared ++ kexFrames (b! "epk") lo' hi' shared' ++
    [.challenge (b! "") n]

end Spec
