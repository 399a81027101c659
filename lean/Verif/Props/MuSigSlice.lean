import Verif.Model.MuSigSlice
import Verif.Props.MuSigKeys

/-! # C42: what happens to the caller's slice of keys -/

namespace Schnorrkel.Props
open SigningTranscript Spec
variable {P : Type} [Ristretto P]

/-- **C42** the caller's slice afterwards: the same keys with the same multiplicities, whatever the answer; untouched if it
holds exactly one key, and otherwise in non-decreasing order of encodings, even when the answer is `None` because of a
duplicate; a successful answer aggregates exactly the slice as it now is.  The variant for sorted slices changes nothing. -/
theorem aggregate_slice_after (l : List (PublicKey P)) :
    let (r, l') := aggregatePublicKeyFromSliceMut l
    let (r', l'') := aggregatePublicKeyFromSortedSliceMut l
    r = aggregatePublicKeyFromSlice l ∧ l'.Perm l ∧ (l.length = 1 → l' = l) ∧
    (l'.Pairwise fun a b => ¬ lexLt b.compressed.1 a.compressed.1) ∧ (∀ s, r = some s → s.keys = l') ∧
    r' = aggregatePublicKeyFromSortedSlice l ∧ l'' = l ∧ (∀ s, r' = some s → s.keys = l) := by
  have hs : (sortKeys l).Pairwise fun a b => ¬ lexLt b.compressed.1 a.compressed.1 :=
    (sortKeys_sorted l).imp fun h h' => h ((cmpBytes_lt _ _).mpr h')
  unfold aggregatePublicKeyFromSliceMut aggregatePublicKeyFromSortedSliceMut aggregatePublicKeyFromSlice
    aggregatePublicKeyFromSortedSlice
  by_cases h1 : l.length = 1
  · rw [if_pos h1, if_pos h1, if_pos h1, if_pos h1]
    obtain ⟨a, rfl⟩ := List.length_eq_one_iff.mp h1
    exact ⟨rfl, .refl _, fun _ => rfl, List.pairwise_singleton _ _, fun _ h => (nomatch h), rfl, rfl, fun _ h => (nomatch h)⟩
  · rw [if_neg h1, if_neg h1, if_neg h1, if_neg h1]
    have hn : ∀ {q : Prop}, l.length = 1 → q := fun h => absurd h h1
    dsimp only
    by_cases h2 : anyWindow (fun x y => RistrettoBoth.eq x y) (sortKeys l) <;>
    by_cases h3 : anyWindow (fun x y => RistrettoBoth.cmp x y ≠ .lt) l
    all_goals
      first | rw [if_pos h2, if_pos h2] | rw [if_neg h2, if_neg h2]
      first | rw [if_pos h3, if_pos h3] | rw [if_neg h3, if_neg h3]
      refine ⟨rfl, sortKeys_perm l, fun h => hn h, hs, ?_, rfl, rfl, ?_⟩ <;> intro s h <;> cases h <;> rfl

/-- Three toy keys out of order are sorted; with a duplicate they are sorted although the answer is `None`. -/
example : let k (n : Nat) : PublicKey Toy := (SecretKey.toPublic ⟨Scalar.ofNat n, zeros 32⟩)
    let a := aggregatePublicKeyFromSliceMut [k 3, k 1, k 2]
    let b := aggregatePublicKeyFromSliceMut [k 3, k 1, k 3]
    a.1.isSome ∧ (a.2.map (·.compressed)) ≠ [k 3, k 1, k 2].map (·.compressed) ∧
    b.1.isNone ∧ (b.2.map (·.compressed)) ≠ [k 3, k 1, k 3].map (·.compressed) := by
  decide +kernel

end Schnorrkel.Props
