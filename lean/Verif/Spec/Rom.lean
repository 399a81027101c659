import Verif.Spec.Zk
import Mathlib.SetTheory.Cardinal.Finite
import Mathlib.Data.Rat.Defs

/-! # The random-oracle model

The transcript hash is replaced, on a finite set `D` of queries that contains all queries of interest, by a uniformly
random table of 64-byte answers. Probabilities are fractions of tables. An algorithm is an arbitrary computation that
adaptively asks for answers; there is no limit on its computing power, and it may depend on anything fixed before the
table is drawn. A randomised algorithm is one such computation for each value of its coins. -/

namespace Spec
open Schnorrkel

/-- An algorithm with access to the transcript hash: finishes, or asks a query and continues with the answer. -/
inductive Algo (α : Type) where
  | ret (a : α)
  | ask (q : List MOp) (k : Arr 64 → Algo α)

namespace Algo
variable {α : Type}
/-- The result when the hash functions are `O`. -/
def run (O : Oracles) : Algo α → α
  | ret a => a
  | ask q k => (k (O.merlin q 64)).run O
/-- The queries asked, in order, when the hash functions are `O`. -/
def asked (O : Oracles) : Algo α → List (List MOp)
  | ret _ => []
  | ask q k => q :: (k (O.merlin q 64)).asked O
/-- Sequencing. -/
def bind {β : Type} : Algo α → (α → Algo β) → Algo β
  | ret a, g => g a
  | ask q k, g => ask q fun a => (k a).bind g
end Algo

/-- The random table `f` on the queries in `D`; the fixed functions `O` elsewhere. -/
def table (O : Oracles) (D : Finset (List MOp)) (f : D → Arr 64) : Oracles :=
  { O with merlin := fun q n => if h : q ∈ D ∧ 64 = n then h.2 ▸ f ⟨q, h.1⟩ else O.merlin q n }

/-- The probability that a uniformly random `ω` satisfies `p`. -/
noncomputable def chance {Ω : Type} (p : Ω → Prop) : ℚ := (Nat.card {ω // p ω} : ℚ) / Nat.card Ω

/-- Largest probability of a residue class of 64 random bytes: `(⌊2^512/ℓ⌋ + 1) / 2^512`, that is `1/ℓ` up to one
part in `2^259`. -/
def guess : ℚ := ((2 ^ 512 / ell + 1 : Nat) : ℚ) / 2 ^ 512

/-- Bound on the probability that 64 random bytes lie beyond the largest multiple of `ℓ`; below `2^-259`. -/
def spare : ℚ := (ell : ℚ) / 2 ^ 512

/-- `A` asks at most `n` queries, all of them among `D`. -/
def Algo.Within {α : Type} (A : Algo α) (O : Oracles) (D : Finset (List MOp)) (n : Nat) : Prop :=
  ∀ f : D → Arr 64, (A.asked (table O D f)).length ≤ n ∧ ∀ q ∈ A.asked (table O D f), q ∈ D

/-- The table `f` on the queries in `asked`, and `g` elsewhere: what a second run sees when it is rewound to the moment
just before the next query and given fresh answers. -/
def rewind {D : Finset (List MOp)} (asked : List (List MOp)) (f g : D → Arr 64) : D → Arr 64 :=
  fun q => if q.1 ∈ asked then f q else g q

end Spec
