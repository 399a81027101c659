import Verif.Model.MuSig

/-! # `src/musig.rs`: what happens to the caller's slice of keys -/

namespace Schnorrkel
variable {P : Type} [Ristretto P]

/-- `musig.rs:131-138` (and `141-148` for slices of references): the result, and the slice behind `&mut [PublicKey]` when
the call returns (and, after a `Some`, when the returned borrow ends). -/
def aggregatePublicKeyFromSliceMut (l : List (PublicKey P)) : Option (AggregatePublicKeySlice P) × List (PublicKey P) :=
  if l.length = 1 then (none, l)
  else
    let l := sortKeys l
    if anyWindow (fun x y => RistrettoBoth.eq x y) l then (none, l) else (some ⟨l⟩, l)

/-- `musig.rs:151-158`: the result and the slice behind `&mut [K]`, which is not written to. -/
def aggregatePublicKeyFromSortedSliceMut (l : List (PublicKey P)) : Option (AggregatePublicKeySlice P) × List (PublicKey P) :=
  if l.length = 1 then (none, l)
  else if anyWindow (fun x y => RistrettoBoth.cmp x y ≠ .lt) l then (none, l) else (some ⟨l⟩, l)

end Schnorrkel
