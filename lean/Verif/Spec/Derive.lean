import Verif.Model.Derive
import Verif.Spec

/-! # Specification vocabulary for key derivation -/

namespace Spec
open Schnorrkel

/-- merlin query behind the tweak of a soft derivation from public key bytes `pk` with chain code `cc`,
for a caller's transcript with history `log`. -/
def softQuery (log : List MOp) (cc pk : Bytes) : List MOp :=
  log ++ [.append (b! "chain-code") cc, .append (b! "public-key") pk, .challenge (b! "HDKD-scalar") 64]

/-- The tweak: a public function of history, chain code and parent public key. -/
def softTweak [Oracles] (log : List MOp) (cc pk : Bytes) : Z := hashToZ (softQuery log cc pk)

/-- The child's chain code. -/
def softChaincode [Oracles] (log : List MOp) (cc pk : Bytes) : Arr 32 :=
  Oracles.merlin (softQuery log cc pk ++ [.challenge (b! "HDKD-chaincode") 32]) 32

/-- merlin history of `derived_key_simple(_, i)`. -/
def simpleLog (i : Bytes) : List MOp :=
  [.append (b! "dom-sep") (b! "SchnorrRistrettoHDKD"), .append (b! "sign-bytes") i]

/-- merlin query behind a hard derivation of index `i`, optional chain code, secret scalar bytes. -/
def hardQuery (i : Bytes) (cc : Option Bytes) (key : Bytes) : List MOp :=
  simpleLog i ++ (match cc with | some c => [.append (b! "chain-code") c] | none => []) ++
    [.append (b! "secret-key") key, .challenge (b! "HDKD-hard") 32]

/-- What the holder of public data computes along a path of merlin histories: final public point,
final chain code and the sum of all tweaks. -/
def publicPath [Oracles] {P : Type} [Ristretto P] (A : P) (cc : Bytes) : List (List MOp) → P × Bytes × Z
  | [] => (A, cc, 0)
  | log :: rest =>
    let z := softTweak log cc (compress A).1
    let (A', cc', zs) := publicPath (A + z • basepoint) (softChaincode log cc (compress A).1).1 rest
    (A', cc', z + zs)

end Spec

namespace Schnorrkel

/-- One step of a derivation path, as taken by the holder of the secret key (transcript `t`) and by the
holder of the public key (transcript `t'`): possibly different transcript types (one may carry its own
RNG) with the same history. -/
structure DStep : Type 1 where
  T : Type
  T' : Type
  inst : SigningTranscript T
  inst' : SigningTranscript T'
  Rel : T → T' → Prop
  sim : TSim Rel
  t : T
  t' : T'
  rel : Rel t t'

/-- The path as walked with a key type `K` on the secret side, threading the chain code. -/
def derivePath {K : Type} [Derivation K] : List DStep → K → ChainCode → Rng → K × ChainCode × Rng
  | [], k, cc, sys => (k, cc, sys)
  | s :: path, k, cc, sys =>
    let (k, cc, sys) := letI := s.inst; Derivation.derivedKey k s.t cc sys
    derivePath path k cc sys

/-- The same path on the public side. -/
def derivePath' {K : Type} [Derivation K] : List DStep → K → ChainCode → Rng → K × ChainCode × Rng
  | [], k, cc, sys => (k, cc, sys)
  | s :: path, k, cc, sys =>
    let (k, cc, sys) := letI := s.inst'; Derivation.derivedKey k s.t' cc sys
    derivePath' path k cc sys

end Schnorrkel
