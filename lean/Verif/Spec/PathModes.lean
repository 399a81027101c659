import Verif.Spec.Path

/-! # Derivation paths whose hard junctions choose the expansion mode one by one -/

namespace Spec
open Schnorrkel

/-- A junction with the expansion mode used if it is a hard one. -/
abbrev ModedJunction := Junction × ExpansionMode

/-- Walking such a path. -/
def modedWalk [Oracles] (P : Type) [Ristretto P] (x : ExtendedKey SecretKey × Rng) (p : List ModedJunction) :
    ExtendedKey SecretKey × Rng := p.foldl (fun x j => takeJunction P j.2 x j.1) x

/-- All that is hashed to chain codes along it. -/
def modedWalkInputs [Oracles] (P : Type) [Ristretto P] (x : ExtendedKey SecretKey × Rng) : List ModedJunction → List (List MOp)
  | [] => []
  | j :: p => junctionInput P x.1 j.1 :: modedWalkInputs P (takeJunction P j.2 x j.1) p

end Spec
