import Verif.Spec.Rom

/-! # Random tables that also answer short queries -/

namespace Spec
open Schnorrkel

/-- As `table`, but requests for fewer than 64 bytes are also answered from the table, with the first bytes of the
entry.  (The length is part of every query the crate makes, so no query is asked for two lengths; and whoever asks for
64 bytes learns at least as much.) -/
def wideTable (O : Oracles) (D : Finset (List MOp)) (f : D → Arr 64) : Oracles :=
  { O with merlin := fun q n => if h : q ∈ D ∧ n ≤ 64 then
      ⟨(f ⟨q, h.1⟩).1.take n, by rw [List.length_take, (f ⟨q, h.1⟩).2]; exact Nat.min_eq_left h.2⟩
    else O.merlin q n }

/-- `A` asks at most `n` queries, all of them among `D`, when the answers come from a wide table. -/
def Algo.WideWithin {α : Type} (A : Algo α) (O : Oracles) (D : Finset (List MOp)) (n : Nat) : Prop :=
  ∀ f : D → Arr 64, (A.asked (wideTable O D f)).length ≤ n ∧ ∀ q ∈ A.asked (wideTable O D f), q ∈ D

end Spec
