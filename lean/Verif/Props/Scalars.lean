import Verif.Lemmas.Codec
import Verif.Instance

/-! # C01, C02: scalar byte helpers -/

namespace Schnorrkel.Props

/-- **C01** dividing by the cofactor is integer division by 8 of the little-endian value. -/
theorem divide_by_cofactor_value (s : Arr 32) :
    leNat (divideScalarBytesByCofactor s).1 = leNat s.1 / 8 := (divideLoop_spec s.1).1

/-- **C01** multiplying by the cofactor is multiplication by 8 modulo 2^256. -/
theorem multiply_by_cofactor_value (s : Arr 32) :
    leNat (multiplyScalarBytesByCofactor s).1 = 8 * leNat s.1 % 2 ^ 256 := by
  have := (multiplyLoop_spec s.1 0 (by decide)).1
  rw [s.2] at this
  show leNat (multiplyLoop s.1 0) = _
  rw [this, show (256 : Nat) ^ 32 = 2 ^ 256 by norm_num]; simp

/-- **C01** no byte addition overflows: the overflow-checked (debug) loops never stop, and compute
what the release loops compute. -/
theorem cofactor_helpers_never_overflow (s : Arr 32) :
    divideLoopChecked s.1 = some ((divideScalarBytesByCofactor s).1, UInt8.ofNat (32 * (leNat s.1 % 8)))
    ∧ multiplyLoopChecked s.1 0 = some (multiplyScalarBytesByCofactor s).1 := by
  obtain ⟨_, h2, h3⟩ := divideLoop_spec s.1
  refine ⟨?_, (multiplyLoop_spec s.1 0 (by decide)).2⟩
  rw [h3, ← h2]; simp [divideScalarBytesByCofactor]

/-- **C01** multiply then divide is the identity iff the top three bits are clear. -/
theorem divide_multiply_iff (s : Arr 32) :
    divideScalarBytesByCofactor (multiplyScalarBytesByCofactor s) = s ↔ leNat s.1 < 2 ^ 253 := by
  have hlt : leNat s.1 < 2 ^ 256 := by
    have := s.leNat_lt; rwa [show (256 : Nat) ^ 32 = 2 ^ 256 by norm_num] at this
  constructor
  · intro h
    have := congrArg (fun a : Arr 32 => leNat a.1) h
    simp only [divide_by_cofactor_value, multiply_by_cofactor_value] at this
    omega
  · intro h
    apply Arr.leNat_inj
    rw [divide_by_cofactor_value, multiply_by_cofactor_value]
    omega

/-- **C01** divide then multiply clears exactly the low three bits. -/
theorem multiply_divide_value (s : Arr 32) :
    leNat (multiplyScalarBytesByCofactor (divideScalarBytesByCofactor s)).1
      = leNat s.1 - leNat s.1 % 8 := by
  have hlt : leNat s.1 < 2 ^ 256 := by
    have := s.leNat_lt; rwa [show (256 : Nat) ^ 32 = 2 ^ 256 by norm_num] at this
  rw [multiply_by_cofactor_value, divide_by_cofactor_value]; omega

/-- **C01** divide then multiply is the identity iff the low three bits are clear. -/
theorem multiply_divide_iff (s : Arr 32) :
    multiplyScalarBytesByCofactor (divideScalarBytesByCofactor s) = s ↔ leNat s.1 % 8 = 0 := by
  constructor
  · intro h
    have h2 := multiply_divide_value s
    rw [h] at h2; have := Nat.mod_le (leNat s.1) 8; omega
  · intro h
    apply Arr.leNat_inj
    rw [multiply_divide_value, h]; rfl

/-- Non-vacuity of C01's hypotheses: a value with carries in every byte. -/
example : leNat (leArr 32 (2 ^ 253 - 1)).1 < 2 ^ 253 ∧ leNat (leArr 32 (2 ^ 256 - 8)).1 % 8 = 0 := by
  decide +kernel

/-- **C02** the scalar check accepts exactly integers below ℓ, with the bytes unchanged, and its
only error is `ScalarFormatError`. -/
theorem check_scalar_iff (b : Arr 32) :
    (∀ s, checkScalar b = .ok s ↔ leNat b.1 < ell ∧ s.bytes = b) ∧
    (∀ e, checkScalar b = .error e ↔ ell ≤ leNat b.1 ∧ e = .scalarFormatError) := by
  rw [checkScalar_eq]
  constructor
  · intro s
    split
    · constructor
      · intro h; cases h; exact ⟨by assumption, rfl⟩
      · rintro ⟨_, h⟩; cases s; cases h; rfl
    · constructor
      · intro h; cases h
      · rintro ⟨h, _⟩; contradiction
  · intro e
    split
    · constructor
      · intro h; cases h
      · rintro ⟨h, _⟩; omega
    · constructor
      · intro h; cases h; exact ⟨by omega, rfl⟩
      · rintro ⟨_, rfl⟩; rfl

/-- Non-vacuity: both sides of the boundary occur, also above the fast path's 2^252. -/
example : (leNat (leArr 32 (ell - 1)).1 < ell) ∧ (ell ≤ leNat (leArr 32 ell).1) ∧
    2 ^ 252 < leNat (leArr 32 (ell - 1)).1 := by decide +kernel

end Schnorrkel.Props
