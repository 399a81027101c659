import Verif.Spec.PathModes
import Verif.Spec.PathEd

/-! # What is hashed to keys along paths with mixed expansion modes -/

namespace Spec
open Schnorrkel

/-- What is hashed to the child's key. -/
def modedKeyInputs [Oracles] (P : Type) [Ristretto P] (x : ExtendedKey SecretKey) (j : ModedJunction) : List (List MOp) :=
  match j.2 with
  | .uniform => junctionKeyInputs P x j.1
  | .ed25519 => junctionKeyInputsEd P x j.1

/-- All that is hashed to keys along such a path. -/
def modedWalkKeyInputs [Oracles] (P : Type) [Ristretto P] (x : ExtendedKey SecretKey × Rng) :
    List ModedJunction → List (List MOp)
  | [] => []
  | j :: p => modedKeyInputs P x.1 j ++ modedWalkKeyInputs P (takeJunction P j.2 x j.1) p

/-- A junction without the mode if it is soft, where the mode plays no role. -/
def effective : ModedJunction → Junction × Option ExpansionMode
  | (.soft i, _) => (.soft i, none)
  | (.hard i, mode) => (.hard i, some mode)

end Spec
