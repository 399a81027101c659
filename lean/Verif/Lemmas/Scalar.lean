import Verif.Lemmas.Bytes
import Mathlib.Tactic.Module
import Mathlib.Tactic.LinearCombination

namespace Schnorrkel

theorem ell_lt : ell < 2 ^ 253 := by decide +kernel
theorem ell_gt : 2 ^ 252 < ell := by decide +kernel
theorem ell_lt256 : ell < 256 ^ 32 := by decide +kernel
theorem ell_pos : 0 < ell := by decide +kernel

namespace Scalar

theorem val_lt (s : Scalar) : s.val < 256 ^ 32 := s.bytes.leNat_lt

theorem ext_val {a b : Scalar} (h : a.val = b.val) : a = b := by
  cases a; cases b; congr; exact Arr.leNat_inj h

theorem val_ofNat {n : Nat} (h : n < 256 ^ 32) : (ofNat n).val = n := by
  simp only [ofNat, val, leArr, leNat_leBytes]; exact Nat.mod_eq_of_lt h

theorem val_ofNat_ell {n : Nat} (h : n < ell) : (ofNat n).val = n :=
  val_ofNat (h.trans ell_lt256)

theorem canonical_ofNat {n : Nat} (h : n < ell) : (ofNat n).Canonical := by
  unfold Canonical; rw [val_ofNat_ell h]; exact h

theorem ofNat_val (s : Scalar) : ofNat s.val = s := ext_val (val_ofNat s.val_lt)

theorem toZ_ofNat {n : Nat} (h : n < ell) : (ofNat n).toZ = (n : Z) := by
  unfold toZ; rw [val_ofNat_ell h]

theorem toZ_ofZ (z : Z) : (ofZ z).toZ = z := by
  unfold ofZ; rw [toZ_ofNat z.val_lt]; simp

theorem canonical_ofZ (z : Z) : (ofZ z).Canonical := canonical_ofNat z.val_lt

theorem val_ofZ (z : Z) : (ofZ z).val = z.val := val_ofNat_ell z.val_lt

theorem Canonical.ofZ_toZ {s : Scalar} (h : s.Canonical) : ofZ s.toZ = s := by
  unfold ofZ toZ
  rw [ZMod.val_natCast, Nat.mod_eq_of_lt h, ofNat_val]

theorem Canonical.eq_of_toZ {a b : Scalar} (ha : a.Canonical) (hb : b.Canonical)
    (h : a.toZ = b.toZ) : a = b := by
  rw [← ha.ofZ_toZ, ← hb.ofZ_toZ, h]

theorem canonical_mul (a b : Scalar) : (a * b).Canonical :=
  canonical_ofNat (Nat.mod_lt _ ell_pos)

theorem toZ_mul (a b : Scalar) : (a * b).toZ = a.toZ * b.toZ := by
  show (ofNat _).toZ = _
  rw [toZ_ofNat (Nat.mod_lt _ ell_pos)]
  simp [toZ]

theorem canonical_neg (a : Scalar) : (-a).Canonical :=
  canonical_ofNat (Nat.mod_lt _ ell_pos)

theorem toZ_neg (a : Scalar) : (-a).toZ = -a.toZ := by
  show (ofNat _).toZ = _
  rw [toZ_ofNat (Nat.mod_lt _ ell_pos), ZMod.natCast_mod]
  have : a.val % ell ≤ ell := (Nat.mod_lt _ ell_pos).le
  rw [Nat.cast_sub this]; simp [toZ]

theorem canonical_add {a b : Scalar} (ha : a.Canonical) (hb : b.Canonical) :
    (a + b).Canonical := by
  show (add a b).Canonical
  unfold Canonical at ha hb; unfold add
  split
  · exact canonical_ofNat (by assumption)
  · exact canonical_ofNat (by omega)

theorem toZ_add {a b : Scalar} (ha : a.Canonical) (hb : b.Canonical) :
    (a + b).toZ = a.toZ + b.toZ := by
  show (add a b).toZ = _
  unfold Canonical at ha hb; unfold add
  split
  · rw [toZ_ofNat (by assumption)]; simp [toZ]
  · rw [toZ_ofNat (by omega), Nat.cast_sub (by omega)]; simp [toZ]

theorem canonical_sub {a b : Scalar} (ha : a.Canonical) (hb : b.Canonical) :
    (a - b).Canonical := by
  show (sub a b).Canonical
  unfold Canonical at ha hb; unfold sub
  split
  · exact canonical_ofNat (by omega)
  · exact canonical_ofNat (by omega)

theorem toZ_sub {a b : Scalar} (ha : a.Canonical) (hb : b.Canonical) :
    (a - b).toZ = a.toZ - b.toZ := by
  show (sub a b).toZ = _
  unfold Canonical at ha hb; unfold sub
  split
  · rw [toZ_ofNat (by omega), Nat.cast_sub (by omega)]; simp [toZ]
  · rw [toZ_ofNat (by omega), Nat.cast_sub (by omega)]; simp [toZ]

theorem canonical_zero : zero.Canonical := canonical_ofNat ell_pos
theorem toZ_zero : zero.toZ = 0 := by unfold zero; rw [toZ_ofNat ell_pos]; simp
theorem one_lt_ell : 1 < ell := by decide +kernel
theorem canonical_one : one.Canonical := canonical_ofNat one_lt_ell
theorem toZ_one : one.toZ = 1 := by unfold one; rw [toZ_ofNat one_lt_ell]; simp

theorem canonical_wide (b : Arr 64) : (fromBytesModOrderWide b).Canonical :=
  canonical_ofNat (Nat.mod_lt _ ell_pos)

theorem toZ_wide (b : Arr 64) : (fromBytesModOrderWide b).toZ = (leNat b.1 : Z) := by
  unfold fromBytesModOrderWide; rw [toZ_ofNat (Nat.mod_lt _ ell_pos), ZMod.natCast_mod]

theorem u128_lt (b : Arr 16) : leNat b.1 < ell :=
  b.leNat_lt.trans (by decide +kernel)
theorem canonical_fromU128 (b : Arr 16) : (fromU128 b).Canonical := canonical_ofNat (u128_lt b)
theorem val_fromU128 (b : Arr 16) : (fromU128 b).val = leNat b.1 := val_ofNat_ell (u128_lt b)
theorem toZ_fromU128 (b : Arr 16) : (fromU128 b).toZ = (leNat b.1 : Z) := toZ_ofNat (u128_lt b)

theorem fromCanonicalBytes_eq_some {b : Arr 32} {s : Scalar} :
    fromCanonicalBytes b = some s ↔ s.bytes = b ∧ s.Canonical := by
  unfold fromCanonicalBytes Canonical val
  split
  · constructor
    · rintro h; cases h; exact ⟨rfl, by assumption⟩
    · rintro ⟨h, _⟩; cases s; cases h; rfl
  · constructor
    · rintro h; cases h
    · rintro ⟨h, h2⟩; rw [h] at h2; contradiction

theorem foldl_add_spec (l : List Scalar) (hl : ∀ s ∈ l, s.Canonical) (a : Scalar) (ha : a.Canonical) :
    (l.foldl add a).Canonical ∧ (l.foldl add a).toZ = a.toZ + (l.map toZ).sum := by
  induction l generalizing a with
  | nil => simp [ha]
  | cons x xs ih =>
    have hx : x.Canonical := hl x (by simp)
    have := ih (fun s hs => hl s (by simp [hs])) (add a x) (canonical_add ha hx)
    simp only [List.foldl_cons, List.map_cons, List.sum_cons]
    refine ⟨this.1, ?_⟩
    rw [this.2, show (add a x).toZ = a.toZ + x.toZ from toZ_add ha hx, add_assoc]

theorem canonical_sum {l : List Scalar} (hl : ∀ s ∈ l, s.Canonical) : (sum l).Canonical :=
  (foldl_add_spec l hl zero canonical_zero).1
theorem toZ_sum {l : List Scalar} (hl : ∀ s ∈ l, s.Canonical) :
    (sum l).toZ = (l.map toZ).sum := by
  rw [show sum l = l.foldl add zero from rfl, (foldl_add_spec l hl zero canonical_zero).2, toZ_zero,
    zero_add]

end Scalar

section group
variable {P : Type} [Ristretto P]

theorem natCast_smul (n : Nat) (p : P) : ((n : Z) • p) = n • p := by
  rw [Nat.cast_smul_eq_nsmul]

theorem mulPoint_eq (s : Scalar) (p : P) : s •. p = s.toZ • p := by
  unfold Scalar.mulPoint Scalar.toZ; rw [natCast_smul]

theorem exists_smul_basepoint (p : P) : ∃ z : Z, p = z • (basepoint : P) := by
  obtain ⟨n, h⟩ := Ristretto.generates p
  exact ⟨n, by rw [natCast_smul]; exact h⟩

theorem smul_eq_zero' {z : Z} {p : P} : z • p = 0 ↔ z = 0 ∨ p = 0 := smul_eq_zero

theorem basepoint_ne_zero : (basepoint : P) ≠ 0 := Ristretto.basepoint_ne

theorem smul_basepoint_inj {a b : Z} : a • (basepoint : P) = b • basepoint ↔ a = b := by
  constructor
  · intro h
    have : (a - b) • (basepoint : P) = 0 := by rw [sub_smul, h, sub_self]
    rcases smul_eq_zero.mp this with h | h
    · exact sub_eq_zero.mp h
    · exact absurd h basepoint_ne_zero
  · rintro rfl; rfl

theorem decompress_compress (p : P) : decompress (compress p) = some p :=
  (Ristretto.decompress_iff _ _).mpr rfl

theorem compress_inj {p q : P} : compress p = compress q ↔ p = q := by
  constructor
  · intro h
    have := decompress_compress p
    rw [h, decompress_compress] at this
    exact (Option.some.inj this).symm
  · rintro rfl; rfl

theorem compress_of_decompress {b : Compressed} {p : P} (h : decompress b = some p) :
    compress p = b := (Ristretto.decompress_iff _ _).mp h

theorem decompress_zeros : decompress (zeros 32) = some (0 : P) :=
  (Ristretto.decompress_iff _ _).mpr Ristretto.compress_zero

end group

end Schnorrkel
