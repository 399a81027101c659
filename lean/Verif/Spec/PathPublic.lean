import Verif.Spec.Path

/-! # What a watch-only wallet hashes to keys -/

namespace Spec
open Schnorrkel

/-- What is hashed to the tweak of the child's public key in a watch-only step. -/
def publicKeyInput {P : Type} [Ristretto P] (x : ExtendedKey (PublicKey P)) (i : Bytes) : List MOp :=
  softQuery (simpleLog i) x.chaincode.bytes.1 x.key.compressed.1

/-- All that is hashed to keys along a watch-only walk. -/
def publicWalkKeyInputs [Oracles] {P : Type} [Ristretto P] (sys : Rng) (x : ExtendedKey (PublicKey P)) :
    List Bytes → List (List MOp)
  | [] => []
  | i :: p => publicKeyInput x i :: publicWalkKeyInputs sys (x.derivedKeySimple i sys).1 p

end Spec
