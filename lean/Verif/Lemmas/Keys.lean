import Verif.Lemmas.Codec
import Verif.Spec

namespace Schnorrkel
variable {P : Type} [Ristretto P]

/-- Both representations held by a `RistrettoBoth` agree. -/
def RistrettoBoth.WF (r : RistrettoBoth P) : Prop := compress r.point = r.compressed

theorem RistrettoBoth.WF.ext {a b : RistrettoBoth P} (ha : a.WF) (hb : b.WF)
    (h : a.point = b.point) : a = b := by
  obtain ⟨ac, ap⟩ := a
  obtain ⟨bc, bp⟩ := b
  simp only [WF] at *
  subst h
  rw [← ha, ← hb]

theorem wf_default : (RistrettoBoth.default : RistrettoBoth P).WF := Ristretto.compress_zero
theorem wf_fromPoint (p : P) : (RistrettoBoth.fromPoint p).WF := rfl
theorem wf_toPublic (sk : SecretKey) : (sk.toPublic : PublicKey P).WF := rfl

theorem fromCompressed_ok {c : Compressed} {r : RistrettoBoth P} :
    RistrettoBoth.fromCompressed c = .ok r ↔ r.compressed = c ∧ r.WF := by
  unfold RistrettoBoth.fromCompressed RistrettoBoth.WF
  constructor
  · intro h
    split at h
    · cases h
    · cases h; rename_i hd; exact ⟨rfl, compress_of_decompress hd⟩
  · rintro ⟨rfl, h⟩
    have : decompress r.compressed = some r.point := (Ristretto.decompress_iff _ _).mpr h
    rw [this]

theorem fromCompressed_err {c : Compressed} {e : SignatureError} :
    (RistrettoBoth.fromCompressed c : SignatureResult (RistrettoBoth P)) = .error e ↔
      e = .pointDecompressionError ∧ ∀ p : P, compress p ≠ c := by
  unfold RistrettoBoth.fromCompressed
  constructor
  · intro h
    split at h
    · cases h; rename_i hd
      exact ⟨rfl, fun p hp => by rw [(Ristretto.decompress_iff _ _).mpr hp] at hd; cases hd⟩
    · cases h
  · rintro ⟨rfl, h⟩
    split
    · rfl
    · rename_i hd; exact absurd (compress_of_decompress hd) (h _)

theorem fromBytesSer_ok {n d : String} {bs : Bytes} {r : RistrettoBoth P} :
    RistrettoBoth.fromBytesSer n d bs = .ok r ↔ bs = r.compressed.1 ∧ r.WF := by
  unfold RistrettoBoth.fromBytesSer
  split
  · constructor
    · intro h; cases h
    · rintro ⟨h, _⟩; rename_i h2 _
      exact absurd (by rw [h, r.compressed.2]; rfl) h2
  · rename_i h
    have h : bs.length = 32 := not_not.mp h
    rw [fromCompressed_ok]
    constructor
    · rintro ⟨h1, h2⟩; rw [h1]; exact ⟨by simp [List.take_of_length_le, h], h2⟩
    · rintro ⟨h1, h2⟩
      exact ⟨Arr.ext' (by simp [List.take_of_length_le, h, ← h1]), h2⟩

theorem fromBytesSer_err {n d : String} {bs : Bytes} {e : SignatureError} :
    (RistrettoBoth.fromBytesSer n d bs : SignatureResult (RistrettoBoth P)) = .error e ↔
      (bs.length ≠ 32 ∧ e = .bytesLengthError n d 32) ∨
      (bs.length = 32 ∧ (∀ p : P, (compress p).1 ≠ bs) ∧ e = .pointDecompressionError) := by
  unfold RistrettoBoth.fromBytesSer
  split
  · rename_i h
    have h : bs.length ≠ 32 := h
    constructor
    · intro h2; cases h2; exact .inl ⟨h, rfl⟩
    · rintro (⟨_, rfl⟩ | ⟨h2, _⟩)
      · rfl
      · contradiction
  · rename_i h
    have h : bs.length = 32 := not_not.mp h
    rw [fromCompressed_err]
    constructor
    · rintro ⟨h1, h2⟩
      refine .inr ⟨h, fun p hp => h2 p (Arr.ext' ?_), h1⟩
      simp [List.take_of_length_le, h, hp]
    · rintro (⟨h1, _⟩ | ⟨_, h1, h2⟩)
      · contradiction
      · refine ⟨h2, fun p hp => h1 p ?_⟩
        rw [hp]; simp [List.take_of_length_le, h]

theorem SecretKey.fromBytes_ok {bs : Bytes} {sk : SecretKey} :
    SecretKey.fromBytes bs = .ok sk ↔ bs = sk.toBytes.1 ∧ sk.key.Canonical := by
  unfold SecretKey.fromBytes
  split
  · rename_i h
    constructor
    · intro h; cases h
    · rintro ⟨rfl, _⟩; exact absurd sk.toBytes.2 h
  · rename_i h
    have h : bs.length = 64 := not_not.mp h
    simp only [scalarFromCanonicalBytes]
    constructor
    · intro h2
      split at h2
      · cases h2
      · rename_i s hs
        cases h2
        rw [Scalar.fromCanonicalBytes_eq_some] at hs
        refine ⟨?_, hs.2⟩
        simp [SecretKey.toBytes, Arr.append, hs.1]
    · rintro ⟨rfl, h2⟩
      have e1 : (⟨sk.toBytes.1.take 32, by simp [h]⟩ : Arr 32) = sk.key.bytes := by
        apply Arr.ext'
        simp [SecretKey.toBytes, Arr.append, sk.key.bytes.2]
      have e2 : (⟨sk.toBytes.1.drop 32, by simp [h]⟩ : Arr 32) = sk.nonce := by
        apply Arr.ext'
        simp [SecretKey.toBytes, Arr.append, sk.key.bytes.2]
      simp only [e1, e2]
      rw [show Scalar.fromCanonicalBytes sk.key.bytes = some sk.key from
        Scalar.fromCanonicalBytes_eq_some.mpr ⟨rfl, h2⟩]

theorem SecretKey.fromBytes_err {bs : Bytes} {e : SignatureError} :
    SecretKey.fromBytes bs = .error e ↔
      (bs.length ≠ 64 ∧ e = .bytesLengthError "SecretKey" SecretKey.DESCRIPTION 64) ∨
      (bs.length = 64 ∧ ell ≤ leNat (bs.take 32) ∧ e = .scalarFormatError) := by
  unfold SecretKey.fromBytes
  split
  · rename_i h
    have h : bs.length ≠ 64 := h
    constructor
    · intro h2; cases h2; exact .inl ⟨h, rfl⟩
    · rintro (⟨_, rfl⟩ | ⟨h2, _⟩)
      · rfl
      · contradiction
  · rename_i h
    have h : bs.length = 64 := not_not.mp h
    simp only [scalarFromCanonicalBytes, Scalar.fromCanonicalBytes]
    by_cases hc : leNat (bs.take 32) < ell
    · simp only [if_pos hc]
      constructor
      · intro h2; cases h2
      · rintro (⟨h2, _⟩ | ⟨_, h2, _⟩)
        · contradiction
        · omega
    · simp only [if_neg hc]
      constructor
      · intro h2; cases h2; exact .inr ⟨h, by omega, rfl⟩
      · rintro (⟨h2, _⟩ | ⟨_, _, rfl⟩)
        · contradiction
        · rfl

theorem leNat_divide (s : Arr 32) :
    leNat (divideScalarBytesByCofactor s).1 = leNat s.1 / 8 := (divideLoop_spec s.1).1

theorem SecretKey.fromEd25519Bytes_ok {bs : Bytes} {sk : SecretKey} :
    SecretKey.fromEd25519Bytes bs = .ok sk ↔
      bs.length = 64 ∧ sk.key.val = leNat (bs.take 32) / 8 ∧ sk.key.Canonical ∧
        sk.nonce.1 = bs.drop 32 := by
  unfold SecretKey.fromEd25519Bytes
  split
  · rename_i h
    constructor
    · intro h; cases h
    · rintro ⟨h2, _⟩; exact absurd h2 h
  · rename_i h
    have h : bs.length = 64 := not_not.mp h
    simp only
    constructor
    · intro h2
      split at h2
      · cases h2
      · rename_i s hs
        cases h2
        rw [Scalar.fromCanonicalBytes_eq_some] at hs
        refine ⟨h, ?_, hs.2, rfl⟩
        simp only [Scalar.val, hs.1, leNat_divide]
    · rintro ⟨_, h1, h2, h3⟩
      have : divideScalarBytesByCofactor ⟨bs.take 32, by simp [h]⟩ = sk.key.bytes := by
        apply Arr.leNat_inj; rw [leNat_divide]; exact h1.symm
      simp only [this, Scalar.fromCanonicalBytes]
      rw [if_pos (show leNat _ < ell from h2)]
      simp only [← h3]

theorem SecretKey.fromEd25519Bytes_err {bs : Bytes} {e : SignatureError} :
    SecretKey.fromEd25519Bytes bs = .error e ↔
      (bs.length ≠ 64 ∧ e = .bytesLengthError "SecretKey" SecretKey.DESCRIPTION 64) ∨
      (bs.length = 64 ∧ ell ≤ leNat (bs.take 32) / 8 ∧ e = .invalidKey) := by
  unfold SecretKey.fromEd25519Bytes
  split
  · rename_i h
    have h : bs.length ≠ 64 := h
    constructor
    · intro h2; cases h2; exact .inl ⟨h, rfl⟩
    · rintro (⟨_, rfl⟩ | ⟨h2, _⟩)
      · rfl
      · contradiction
  · rename_i h
    have h : bs.length = 64 := not_not.mp h
    simp only [Scalar.fromCanonicalBytes, leNat_divide]
    by_cases hc : leNat (bs.take 32) / 8 < ell
    · simp only [if_pos hc]
      constructor
      · intro h2; cases h2
      · rintro (⟨h2, _⟩ | ⟨_, h2, _⟩)
        · contradiction
        · omega
    · simp only [if_neg hc]
      constructor
      · intro h2; cases h2; exact .inr ⟨h, by omega, rfl⟩
      · rintro (⟨h2, _⟩ | ⟨_, _, rfl⟩)
        · contradiction
        · rfl

end Schnorrkel
