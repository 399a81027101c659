import Verif.Spec.Derive
import Verif.Spec.RomPrf

/-! # Derivation paths that mix soft and hard junctions -/

namespace Spec
open Schnorrkel

/-- One junction of a derivation path, as in `//hard/soft`. -/
inductive Junction where
  | soft (i : Bytes)
  | hard (i : Bytes)
deriving DecidableEq

/-- Taking one junction from an extended secret key; the second component is the system RNG. -/
def takeJunction [Oracles] (P : Type) [Ristretto P] (mode : ExpansionMode) (x : ExtendedKey SecretKey × Rng) :
    Junction → ExtendedKey SecretKey × Rng
  | .soft i => letI := secretKeyDerivation P; x.1.derivedKeySimple i x.2
  | .hard i => (x.1.hardDeriveMiniSecretKey i mode, x.2)

/-- Walking a path. -/
def walk [Oracles] (P : Type) [Ristretto P] (mode : ExpansionMode) (x : ExtendedKey SecretKey × Rng) (p : List Junction) :
    ExtendedKey SecretKey × Rng := p.foldl (takeJunction P mode) x

/-- What is hashed to the child's chain code: everything the derivation uses of the parent, and the junction. -/
def junctionInput (P : Type) [Ristretto P] (x : ExtendedKey SecretKey) : Junction → List MOp
  | .soft i => softQuery (simpleLog i) x.chaincode.bytes.1 (x.key.toPublic : PublicKey P).compressed.1 ++
      [.challenge (b! "HDKD-chaincode") 32]
  | .hard i => hardQuery i (some x.chaincode.bytes.1) x.key.key.bytes.1 ++ [.challenge (b! "HDKD-chaincode") 32]

/-- All that is hashed to chain codes along a path. -/
def walkInputs [Oracles] (P : Type) [Ristretto P] (mode : ExpansionMode) (x : ExtendedKey SecretKey × Rng) :
    List Junction → List (List MOp)
  | [] => []
  | j :: p => junctionInput P x.1 j :: walkInputs P mode (takeJunction P mode x j) p

/-- What is hashed to the child's key: for a soft junction to its tweak; for a hard one to its mini secret key, and that to
its scalar (expansion mode `Uniform`). -/
def junctionKeyInputs [O : Oracles] (P : Type) [Ristretto P] (x : ExtendedKey SecretKey) : Junction → List (List MOp)
  | .soft i => [softQuery (simpleLog i) x.chaincode.bytes.1 (x.key.toPublic : PublicKey P).compressed.1]
  | .hard i =>
    let q := hardQuery i (some x.chaincode.bytes.1) x.key.key.bytes.1
    [q, expandQuery (O.merlin q 32).1]

/-- All that is hashed to keys along a path. -/
def walkKeyInputs [Oracles] (P : Type) [Ristretto P] (mode : ExpansionMode) (x : ExtendedKey SecretKey × Rng) :
    List Junction → List (List MOp)
  | [] => []
  | j :: p => junctionKeyInputs P x.1 j ++ walkKeyInputs P mode (takeJunction P mode x j) p

/-- Two different inputs of the hash function, one from each walk, with the same 32 bytes of output. -/
def CollisionBetween [O : Oracles] (a b : List (List MOp)) : Prop :=
  ∃ h ∈ a, ∃ h' ∈ b, h ≠ h' ∧ (O.merlin h 32).1 = (O.merlin h' 32).1

/-- The secret scalar and the chain code: all that later derivations depend on. -/
def SameNode (x y : ExtendedKey SecretKey) : Prop := x.key.key = y.key.key ∧ x.chaincode = y.chaincode

/-- A watch-only walk along soft junctions, from an extended public key. -/
def publicWalk [Oracles] {P : Type} [Ristretto P] (sys : Rng) (x : ExtendedKey (PublicKey P)) (p : List Bytes) :
    ExtendedKey (PublicKey P) := p.foldl (fun x i => (x.derivedKeySimple i sys).1) x

/-- What is hashed to the child's chain code in a watch-only step. -/
def publicInput {P : Type} [Ristretto P] (x : ExtendedKey (PublicKey P)) (i : Bytes) : List MOp :=
  softQuery (simpleLog i) x.chaincode.bytes.1 x.key.compressed.1 ++ [.challenge (b! "HDKD-chaincode") 32]

/-- All that is hashed to chain codes along a watch-only walk. -/
def publicWalkInputs [Oracles] {P : Type} [Ristretto P] (sys : Rng) (x : ExtendedKey (PublicKey P)) :
    List Bytes → List (List MOp)
  | [] => []
  | i :: p => publicInput x i :: publicWalkInputs sys (x.derivedKeySimple i sys).1 p

end Spec
