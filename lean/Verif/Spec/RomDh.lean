import Verif.Spec.RomOwner
import Verif.Spec.RomMini

/-! # Secret values and the Diffie–Hellman problem

Given two points `X = x • B` and `Y = y • B`, find (the encoding of) `xy • B`.  Here is how to do that with the help of
someone who can tell the secret values that the owner of `X` derives with `Y` (session keys, VRF bytes, …) from random
strings: simulate the owner of `X` without knowing `x`, and read the answer off one of the helper's hash queries. -/

namespace Spec
open Schnorrkel

section
variable {P : Type} [Ristretto P]

/-- The labels and messages absorbed by a hash query, last one first. -/
def absorbed (l : List MOp) : List (Bytes × Bytes) :=
  l.reverse.filterMap fun
    | .append label b => some (label, b)
    | _ => none

/-- The value has to do with the point `Y`: session keys shared with the holder of `Y`, with `Y` as the ephemeral or the
static key of the peer if there are two, VRF bytes at the input `Y`, and any hard-derived secret. -/
def SecretValue.Targets (Y : P) : SecretValue P → Prop
  | .vrfBytes _ input _ => input = Y
  | .sessionKey _ peer _ => peer = Y
  | .twoDhKey _ e s _ => e = Y ∨ s = Y
  | .childSecret _ _ => True
  | .childChain _ _ => True

open Classical in
/-- Reading the shared point off a hash query: the last message is the point or (`secret-key`) the scalar; if there are two
exchanges, the public keys tell whether the last one is with `Y`. -/
noncomputable def sharedIn (X Y : P) (l : List MOp) : Bytes :=
  match absorbed l with
  | [] => []
  | (label, b) :: before =>
    if label = b! "secret-key" then (compress ((leNat b : Z) • Y)).1
    else if label = b! "epk" then
      match before with
      | (_, hi) :: (_, lo) :: (_, b') :: _ =>
        if (lo = (compress X).1 ∧ hi = (compress Y).1) ∨ (lo = (compress Y).1 ∧ hi = (compress X).1) then b else b'
      | _ => b
    else b

/-- Proofs are requested only at points whose discrete logarithm is known. -/
def KnownInputs (known : P → Z) (K : Finset (KeyUse P)) : Prop :=
  ∀ u ∈ K, match u with
    | .prove _ input _ _ => input = known input • (basepoint : P)
    | _ => True

/-- Finding `xy • B` from `X` and `Y`: run `A` in the world without secrets, with random answers `f` to its hash queries,
random values `g` and coins `C`, and read the answer off its `i`-th last hash query. -/
noncomputable def dhSolver (O : Oracles) (known : P → Z) (X Y : P) {D : Finset (List MOp)} {K : Finset (KeyUse P)}
    {S : Finset (SecretValue P)} {α : Type} (A : Client (KeyRequest P ⊕ SecretValue P) (KeyAnswer P ⊕ Bytes) α)
    (C : K → Arr 64 × Arr 64) (f : D → Arr 64) (g : S → Arr 64) (i : Nat) : Bytes :=
  let r := (withoutSecrets (PublicKey.fromPoint X) (fun I => known I • X) A C g).run (table O D f)
  match r.2.1[i]? with
  | some l => sharedIn X Y l
  | none => []

end

end Spec
