import Verif.Spec.Path
import Verif.Spec.RomWide

/-! # Random tables for merlin and SHA-512 together -/

namespace Spec
open Schnorrkel

/-- The name of a SHA-512 input among the queries of an algorithm.  No merlin transcript begins like this. -/
def shaQuery (b : Bytes) : List MOp := [.prf 0, .append [] b]

/-- Both hash functions answered from one table of independent random bytes: a merlin history under its own name, an input of
SHA-512 under the name `shaQuery`. -/
def bothTable (O : Oracles) (D : Finset (List MOp)) (f : D → Arr 64) : Oracles :=
  { wideTable O D f with sha512 := fun b => (wideTable O D f).merlin (shaQuery b) 64 }

/-- What is hashed to the child's key in expansion mode `Ed25519`: for a soft junction to its tweak; for a hard one to its
mini secret key, and that, with SHA-512, to its scalar. -/
def junctionKeyInputsEd [O : Oracles] (P : Type) [Ristretto P] (x : ExtendedKey SecretKey) : Junction → List (List MOp)
  | .soft i => [softQuery (simpleLog i) x.chaincode.bytes.1 (x.key.toPublic : PublicKey P).compressed.1]
  | .hard i =>
    let q := hardQuery i (some x.chaincode.bytes.1) x.key.key.bytes.1
    [q, shaQuery (O.merlin q 32).1]

/-- All that is hashed to keys along a path in that mode. -/
def walkKeyInputsEd [Oracles] (P : Type) [Ristretto P] (x : ExtendedKey SecretKey × Rng) : List Junction → List (List MOp)
  | [] => []
  | j :: p => junctionKeyInputsEd P x.1 j ++ walkKeyInputsEd P (takeJunction P .ed25519 x j) p

end Spec
