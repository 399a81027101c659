import Verif.Lemmas.Scalar

/-! # A concrete environment, showing that the assumptions are jointly satisfiable

`Toy` is the cyclic group of order ℓ with base point 1 and little-endian encoding; the hash oracles
are simple checksums.  It is used only in non-vacuity examples and in concrete counterexamples. -/

namespace Schnorrkel

/-- The additive group of residues mod ℓ. -/
def Toy : Type := ZMod ell

namespace Toy
/-- Multiples are computed by one modular multiplication so that concrete examples evaluate. -/
instance : AddCommGroup Toy :=
  { (inferInstanceAs (AddCommGroup (ZMod ell)) : AddCommGroup (ZMod ell)) with
    nsmul := fun n (z : ZMod ell) => ((n : ZMod ell) * z : ZMod ell)
    nsmul_zero := fun (z : ZMod ell) => show ((0 : ℕ) : ZMod ell) * z = (0 : ZMod ell) by simp
    nsmul_succ := fun n (z : ZMod ell) => show ((n + 1 : ℕ) : ZMod ell) * z = (n : ZMod ell) * z + z by
      push_cast; ring }
instance : DecidableEq Toy := fun a b =>
  decidable_of_iff (ZMod.val (n := ell) a = ZMod.val (n := ell) b)
    (ZMod.val_injective ell).eq_iff

/-- residue → group element -/
def ofZ (z : Z) : Toy := z
/-- group element → residue -/
def toZ (z : Toy) : Z := z

def compress (p : Toy) : Compressed := leArr 32 (ZMod.val (toZ p))
def decompress (b : Compressed) : Option Toy :=
  if leNat b.1 < ell then some (ofZ ((leNat b.1 : Nat) : Z)) else none

theorem decompress_iff (b : Compressed) (p : Toy) : decompress b = some p ↔ compress p = b := by
  unfold decompress compress
  have hv : leNat (leArr 32 (ZMod.val (toZ p))).1 = ZMod.val (toZ p) := by
    simp only [leArr, leNat_leBytes]
    exact Nat.mod_eq_of_lt ((ZMod.val_lt _).trans ell_lt256)
  constructor
  · intro h
    split at h
    · cases h
      apply Arr.leNat_inj
      rw [hv]
      simp only [toZ, ofZ]
      rw [ZMod.val_natCast]
      exact Nat.mod_eq_of_lt (by assumption)
    · cases h
  · rintro rfl
    rw [hv, if_pos (ZMod.val_lt _)]
    exact congrArg (some (α := Toy)) (ZMod.natCast_zmod_val (n := ell) (toZ p))

instance : Ristretto Toy where
  decEq := inferInstance
  basepoint := ofZ 1
  basepoint_ne := (one_ne_zero : (1 : Z) ≠ 0)
  order p := by
    have : ((ell : Nat) : Z) * toZ p = 0 := by simp
    exact this
  generates p := ⟨ZMod.val (toZ p), by
    have : toZ p = ((ZMod.val (toZ p) : Nat) : Z) * 1 := by
      rw [mul_one, ZMod.natCast_zmod_val]
    exact this⟩
  compress := compress
  decompress := decompress
  decompress_iff := decompress_iff
  compress_zero := by
    apply Arr.ext'
    show leBytes 32 (ZMod.val (0 : Z)) = List.replicate 32 0
    rw [ZMod.val_zero, leBytes_zero]
  fromUniform b := ofZ ((leNat b.1 : Nat) : Z)
end Toy

/-- Checksum of one transcript operation. -/
def toyOp : MOp → Nat
  | .append l m => 3 + 7 * leNat l + 11 * leNat m + 13 * m.length
  | .challenge l n => 5 + 17 * leNat l + 19 * n
  | .rekey l w => 7 + 23 * leNat l + 29 * leNat w
  | .rngKey r => 11 + 31 * leNat r
  | .prf n => 13 + 37 * n

/-- Toy hash oracles. -/
@[reducible] def toyOracles : Oracles where
  merlin log n := leArr n (log.foldl (fun a o => 257 * a + toyOp o) 1)
  sha512 b := leArr 64 (leNat b * 65539 + 12345)
  xof b n := leArr n (leNat b * 65537 + b.length + 1)

/-- An RNG that always returns zero bytes. -/
def zeroRng : Rng := ⟨fun _ n => zeros n, []⟩

end Schnorrkel
