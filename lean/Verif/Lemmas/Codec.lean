import Verif.Lemmas.U8
import Verif.Lemmas.Scalar
import Verif.Model.Sign

namespace Schnorrkel

/-! ### cofactor helpers -/

theorem divideLoop_spec (l : Bytes) :
    leNat (divideLoop l).1 = leNat l / 8 ∧ (divideLoop l).2.toNat = 32 * (leNat l % 8) ∧
      divideLoopChecked l = some (divideLoop l) := by
  induction l with
  | nil => simp [divideLoop, leNat, divideLoopChecked]
  | cons b bs ih =>
    obtain ⟨h1, h2, h3⟩ := ih
    have hb := b.toNat_lt
    have hadd : (b >>> 3).toNat + (divideLoop bs).2.toNat < 256 := by rw [u8_shr3, h2]; omega
    refine ⟨?_, ?_, ?_⟩
    · simp only [divideLoop, leNat, UInt8.toNat_add, h1]
      rw [Nat.mod_eq_of_lt hadd, u8_shr3, h2]; omega
    · simp only [divideLoop, leNat]; rw [u8_low3]; omega
    · simp only [divideLoopChecked, divideLoop, h3, checkedAddU8, Option.bind_eq_bind,
        Option.bind_some, if_pos hadd]

theorem multiplyLoop_spec (l : Bytes) (h : UInt8) (hh : h.toNat < 8) :
    leNat (multiplyLoop l h) = (8 * leNat l + h.toNat) % 256 ^ l.length ∧
      multiplyLoopChecked l h = some (multiplyLoop l h) := by
  induction l generalizing h with
  | nil => simp [multiplyLoop, leNat, multiplyLoopChecked, Nat.mod_one]
  | cons b bs ih =>
    have hb := b.toNat_lt
    obtain ⟨h1, h3⟩ := ih ((b &&& 224) >>> 5) (by rw [u8_high3]; omega)
    have hadd : (b <<< 3).toNat + h.toNat < 256 := by rw [u8_shl3]; omega
    refine ⟨?_, ?_⟩
    · simp only [multiplyLoop, leNat, UInt8.toNat_add, h1, List.length_cons]
      rw [Nat.mod_eq_of_lt hadd, u8_shl3, u8_high3, Nat.pow_succ, Nat.mul_comm (256 ^ _) 256]
      rw [Nat.mod_mul]
      congr 1
      · omega
      · congr 2; omega
    · simp only [multiplyLoopChecked, multiplyLoop, h3, checkedAddU8, Option.bind_eq_bind,
        Option.bind_some, if_pos hadd]

theorem modify_append_right (a b : Bytes) (i : Nat) (f : UInt8 → UInt8) (h : a.length ≤ i) :
    (a ++ b).modify i f = a ++ b.modify (i - a.length) f := by
  induction a generalizing i with
  | nil => simp
  | cons x xs ih =>
    cases i with
    | zero => simp at h
    | succ i => simp at h; simp [ih i h]

/-! ### top byte of a 32-byte array -/

theorem Arr.split31 (b : Arr 32) : b.1 = b.1.take 31 ++ [b.get 31 (by omega)] := by
  conv_lhs => rw [← List.take_append_drop 31 b.1]
  congr 1
  rw [List.drop_eq_getElem_cons (by rw [b.2]; omega), List.drop_eq_nil_of_le (by rw [b.2])]
  rfl

theorem Arr.take31_length (b : Arr 32) : (b.1.take 31).length = 31 := by simp [b.2]

theorem Arr.leNat31 (b : Arr 32) :
    leNat b.1 = leNat (b.1.take 31) + 256 ^ 31 * (b.get 31 (by omega)).toNat := by
  conv_lhs => rw [b.split31]
  rw [leNat_append, b.take31_length]; simp [leNat]

theorem Arr.take31_lt (b : Arr 32) : leNat (b.1.take 31) < 256 ^ 31 := by
  have := Schnorrkel.leNat_lt (b.1.take 31); rwa [b.take31_length] at this

theorem Arr.modify31 (b : Arr 32) (f : UInt8 → UInt8) :
    (b.modify 31 f).1 = b.1.take 31 ++ [f (b.get 31 (by omega))] := by
  unfold Arr.modify
  simp only
  conv_lhs => rw [b.split31]
  rw [modify_append_right _ _ _ _ (by simp)]; simp [b.2]

theorem Arr.get_modify31 (b : Arr 32) (f : UInt8 → UInt8) :
    (b.modify 31 f).get 31 (by omega) = f (b.get 31 (by omega)) := by
  unfold Arr.get
  simp [Arr.modify]

theorem Arr.leNat_modify31 (b : Arr 32) (f : UInt8 → UInt8) :
    leNat (b.modify 31 f).1 = leNat (b.1.take 31) + 256 ^ 31 * (f (b.get 31 (by omega))).toNat := by
  rw [b.modify31, leNat_append, b.take31_length]; simp [leNat]

theorem Scalar.fromBits_val (b : Arr 32) : (Scalar.fromBits b).val = leNat b.1 % 2 ^ 255 := by
  have h : (Scalar.fromBits b).bytes = b.modify 31 (· &&& 0x7f) := by
    apply Arr.ext'
    rw [b.modify31]
    unfold Scalar.fromBits
    simp only
    congr 1
    rw [List.drop_eq_getElem_cons (by rw [b.2]; omega), List.drop_eq_nil_of_le (by rw [b.2])]
    rfl
  unfold Scalar.val
  rw [h, b.leNat_modify31, u8_and127]
  have h1 := b.take31_lt
  have h2 := b.leNat31
  have h3 := (b.get 31 (by omega)).toNat_lt
  rw [show (256:Nat) ^ 31 = 2 ^ 248 by norm_num] at *
  omega

theorem Scalar.fromBits_of_lt {b : Arr 32} (h : leNat b.1 < 2 ^ 255) : Scalar.fromBits b = ⟨b⟩ := by
  apply Scalar.ext_val
  rw [Scalar.fromBits_val, Nat.mod_eq_of_lt h]; rfl

theorem checkScalar_eq (b : Arr 32) :
    checkScalar b = if leNat b.1 < ell then .ok ⟨b⟩ else .error .scalarFormatError := by
  unfold checkScalar scalarFromCanonicalBytes Scalar.fromCanonicalBytes
  have h1 := b.take31_lt
  have h2 := b.leNat31
  have h3 := (b.get 31 (by omega)).toNat_lt
  have h4 := ell_gt
  simp only [u8_and240]
  rw [show (256:Nat) ^ 31 = 2 ^ 248 by norm_num] at *
  split
  · have hlt : leNat b.1 < ell := by omega
    rw [if_pos hlt, Scalar.fromBits_of_lt (by omega)]
  · split
    · rename_i h5; split at h5
      · cases h5
      · rename_i h6; rw [if_neg h6]
    · rename_i h5; split at h5
      · rename_i h6; cases h5; rw [if_pos h6]
      · cases h5

/-! ### signatures -/

theorem Signature.toBytes_eq (sig : Signature) :
    sig.toBytes.1 = sig.R.1 ++ (sig.s.bytes.modify 31 (· ||| 128)).1 := by
  unfold Signature.toBytes Arr.modify Arr.append
  simp only
  rw [modify_append_right _ _ _ _ (by rw [sig.R.2]; omega), sig.R.2]

theorem ell_le_255 : ell ≤ 2 ^ 255 := by have := ell_lt; omega

theorem Canonical.top_lt {s : Scalar} (h : s.Canonical) : (s.bytes.get 31 (by omega)).toNat < 32 := by
  have h2 := s.bytes.leNat31
  have := ell_lt
  unfold Scalar.Canonical Scalar.val at h
  rw [show (256:Nat) ^ 31 = 2 ^ 248 by norm_num] at *
  omega

theorem unmark_mark {b : Arr 32} (h : (b.get 31 (by omega)).toNat < 128) :
    (b.modify 31 (· ||| 128)).modify 31 (· &&& 127) = b := by
  apply Arr.leNat_inj
  rw [Arr.leNat_modify31, Arr.get_modify31, u8_and127, u8_or128, b.modify31, b.leNat31]
  rw [List.take_append_of_le_length (by rw [b.take31_length])]
  simp only [List.take_take]
  congr 2; omega

theorem mark_unmark {b : Arr 32} (h : ¬ (b.get 31 (by omega)).toNat < 128) :
    (b.modify 31 (· &&& 127)).modify 31 (· ||| 128) = b := by
  apply Arr.leNat_inj
  have := (b.get 31 (by omega)).toNat_lt
  rw [Arr.leNat_modify31, Arr.get_modify31, u8_or128, u8_and127, b.modify31, b.leNat31]
  rw [List.take_append_of_le_length (by rw [b.take31_length])]
  simp only [List.take_take]
  congr 2; omega

theorem Signature.fromBytes_eq_ok {bs : Bytes} {sig : Signature} :
    Signature.fromBytes bs = .ok sig ↔ bs = sig.toBytes.1 ∧ sig.s.Canonical := by
  constructor
  · intro h
    unfold Signature.fromBytes at h
    split at h
    · cases h
    · rename_i hl
      have hl : bs.length = 64 := not_not.mp hl
      simp only at h
      split at h
      · cases h
      · rename_i hm
        rw [u8_and128] at hm
        rw [checkScalar_eq] at h
        split at h
        · rename_i hc
          cases h
          refine ⟨?_, hc⟩
          rw [Signature.toBytes_eq]
          simp only
          rw [mark_unmark hm]
          simp
        · cases h
  · rintro ⟨rfl, hc⟩
    have hlen := sig.toBytes.2
    unfold Signature.fromBytes
    rw [dif_neg (by rw [hlen]; simp [SIGNATURE_LENGTH])]
    have htop := Canonical.top_lt hc
    have e1 : (⟨sig.toBytes.1.drop 32, by simp [hlen]⟩ : Arr 32) = sig.s.bytes.modify 31 (· ||| 128) := by
      apply Arr.ext'
      simp only [Signature.toBytes_eq]
      rw [List.drop_append_of_le_length (by rw [sig.R.2]), List.drop_eq_nil_of_le (by rw [sig.R.2])]
      rfl
    have e2 : (⟨sig.toBytes.1.take 32, by simp [hlen]⟩ : Arr 32) = sig.R := by
      apply Arr.ext'
      simp only [Signature.toBytes_eq]
      rw [List.take_append_of_le_length (by rw [sig.R.2]), List.take_of_length_le (by rw [sig.R.2])]
    simp only [e1, e2]
    rw [if_neg (by rw [u8_and128, Arr.get_modify31, u8_or128]; omega)]
    rw [unmark_mark (by omega), checkScalar_eq, if_pos (show leNat _ < ell from hc)]
    rfl

end Schnorrkel
