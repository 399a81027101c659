import Verif.Lemmas.Bytes

/-! Facts about single bytes, each checked on the whole 256-element domain. -/

namespace Schnorrkel

theorem u8_forall (p : UInt8 → Bool) (h : ((List.range 256).all fun n => p (UInt8.ofNat n)) = true)
    (b : UInt8) : p b = true := by
  rw [List.all_eq_true] at h
  have := h b.toNat (List.mem_range.mpr b.toNat_lt)
  simpa using this

theorem u8_shr3 (b : UInt8) : (b >>> 3).toNat = b.toNat / 8 := by
  have := u8_forall (fun b => decide ((b >>> 3).toNat = b.toNat / 8)) (by decide +kernel) b
  simpa using this
theorem u8_low3 (b : UInt8) : ((b &&& 7) <<< 5).toNat = 32 * (b.toNat % 8) := by
  have := u8_forall (fun b => decide (((b &&& 7) <<< 5).toNat = 32 * (b.toNat % 8))) (by decide +kernel) b
  simpa using this
theorem u8_shl3 (b : UInt8) : (b <<< 3).toNat = 8 * (b.toNat % 32) := by
  have := u8_forall (fun b => decide ((b <<< 3).toNat = 8 * (b.toNat % 32))) (by decide +kernel) b
  simpa using this
theorem u8_high3 (b : UInt8) : ((b &&& 224) >>> 5).toNat = b.toNat / 32 := by
  have := u8_forall (fun b => decide (((b &&& 224) >>> 5).toNat = b.toNat / 32)) (by decide +kernel) b
  simpa using this
theorem u8_and127 (b : UInt8) : (b &&& 127).toNat = b.toNat % 128 := by
  have := u8_forall (fun b => decide ((b &&& 127).toNat = b.toNat % 128)) (by decide +kernel) b
  simpa using this
theorem u8_and128 (b : UInt8) : (b &&& 128 = 0) ↔ b.toNat < 128 := by
  have := u8_forall (fun b => decide ((b &&& 128 = 0) ↔ b.toNat < 128)) (by decide +kernel) b
  simpa using this
theorem u8_and240 (b : UInt8) : (b &&& 240 = 0) ↔ b.toNat < 16 := by
  have := u8_forall (fun b => decide ((b &&& 240 = 0) ↔ b.toNat < 16)) (by decide +kernel) b
  simpa using this
theorem u8_or128 (b : UInt8) : (b ||| 128).toNat = b.toNat % 128 + 128 := by
  have := u8_forall (fun b => decide ((b ||| 128).toNat = b.toNat % 128 + 128)) (by decide +kernel) b
  simpa using this
theorem u8_and248 (b : UInt8) : (b &&& 248).toNat = 8 * (b.toNat / 8) := by
  have := u8_forall (fun b => decide ((b &&& 248).toNat = 8 * (b.toNat / 8))) (by decide +kernel) b
  simpa using this
theorem u8_clamp31 (b : UInt8) : ((b &&& 63) ||| 64).toNat = b.toNat % 64 + 64 := by
  have := u8_forall (fun b => decide (((b &&& 63) ||| 64).toNat = b.toNat % 64 + 64)) (by decide +kernel) b
  simpa using this

end Schnorrkel
