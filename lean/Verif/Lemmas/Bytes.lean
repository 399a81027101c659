import Verif.Model.Scalars

namespace Schnorrkel

theorem Arr.ext' {n : Nat} {a b : Arr n} (h : a.1 = b.1) : a = b := Subtype.ext h

theorem leNat_lt : ∀ l : Bytes, leNat l < 256 ^ l.length
  | [] => by simp [leNat]
  | b :: bs => by
    have := leNat_lt bs
    have hb := b.toNat_lt
    simp only [leNat, List.length_cons, Nat.pow_succ]
    omega

theorem leNat_leBytes (n v : Nat) : leNat (leBytes n v) = v % 256 ^ n := by
  induction n generalizing v with
  | zero => simp [leBytes, leNat, Nat.mod_one]
  | succ n ih =>
    simp only [leBytes, leNat, ih]
    have h1 : (UInt8.ofNat (v % 256)).toNat = v % 256 := by simp
    rw [h1, Nat.pow_succ, Nat.mul_comm (256 ^ n) 256, Nat.mod_mul]

theorem leBytes_leNat : ∀ l : Bytes, leBytes l.length (leNat l) = l
  | [] => rfl
  | b :: bs => by
    have hb := b.toNat_lt
    have ih := leBytes_leNat bs
    simp only [List.length_cons, leBytes, leNat]
    rw [show (b.toNat + 256 * leNat bs) % 256 = b.toNat by omega,
      show (b.toNat + 256 * leNat bs) / 256 = leNat bs by omega, ih]
    simp

theorem leNat_inj {a b : Bytes} (hl : a.length = b.length) (h : leNat a = leNat b) : a = b := by
  rw [← leBytes_leNat a, ← leBytes_leNat b, hl, h]

theorem leNat_append (a b : Bytes) : leNat (a ++ b) = leNat a + 256 ^ a.length * leNat b := by
  induction a with
  | nil => simp [leNat]
  | cons x xs ih =>
    simp only [List.cons_append, leNat, ih, List.length_cons, Nat.pow_succ]; ring

theorem Arr.leNat_inj {n : Nat} {a b : Arr n} (h : leNat a.1 = leNat b.1) : a = b :=
  Arr.ext' (Schnorrkel.leNat_inj (by rw [a.2, b.2]) h)

theorem Arr.leNat_lt {n : Nat} (a : Arr n) : leNat a.1 < 256 ^ n := by
  have := Schnorrkel.leNat_lt a.1; rwa [a.2] at this

/-- A 32-byte value is its low 31 bytes plus the top byte. -/
theorem leNat_split {l : Bytes} (n : Nat) (h : n < l.length) (hl : l.length = n + 1) :
    leNat l = leNat (l.take n) + 256 ^ n * (l[n]).toNat := by
  conv_lhs => rw [← List.take_append_drop n l]
  rw [leNat_append]
  have : l.drop n = [l[n]] := by
    rw [List.drop_eq_getElem_cons h, List.drop_eq_nil_of_le (by omega)]
  rw [this]; simp [leNat]; left; omega

theorem leBytes_inj {n a b : Nat} (ha : a < 256 ^ n) (hb : b < 256 ^ n)
    (h : leBytes n a = leBytes n b) : a = b := by
  have := congrArg leNat h
  rwa [leNat_leBytes, leNat_leBytes, Nat.mod_eq_of_lt ha, Nat.mod_eq_of_lt hb] at this

theorem leNat_replicate_zero (n : Nat) : leNat (List.replicate n 0) = 0 := by
  induction n with
  | zero => rfl
  | succ n ih => simp [List.replicate_succ, leNat, ih]

theorem Arr.take_append {n : Nat} (a : Arr n) (l : Bytes) : (a.1 ++ l).take n = a.1 := by
  rw [List.take_append_of_le_length (by rw [a.2]), List.take_of_length_le (by rw [a.2])]

theorem Arr.drop_append {n : Nat} (a : Arr n) (l : Bytes) : (a.1 ++ l).drop n = l := by
  rw [List.drop_append_of_le_length (by rw [a.2]), List.drop_eq_nil_of_le (by rw [a.2])]; rfl

theorem leBytes_zero (n : Nat) : leBytes n 0 = List.replicate n 0 := by
  induction n with
  | zero => rfl
  | succ n ih => simp [List.replicate_succ, leBytes, ih]

end Schnorrkel
