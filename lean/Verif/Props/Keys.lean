import Verif.Lemmas.Keys
import Verif.Lemmas.Order
import Verif.Instance

/-! # C03–C06, C08, C16, C46, C47: keys -/

namespace Schnorrkel.Props
variable {P : Type} [Ristretto P]

/-! ## C03: Ed25519 expansion -/

private theorem clamp_bytes (x : Arr 32) :
    leNat (((x.modify 0 (· &&& 248)).modify 31 (· &&& 63)).modify 31 (· ||| 64)).1
      = Spec.clamp (leNat x.1) := by
  have hx := x.leNat31
  have h1 := x.take31_lt
  rw [Arr.leNat_modify31, Arr.get_modify31, u8_clamp31, Arr.modify31,
    List.take_append_of_le_length (by rw [Arr.take31_length])]
  have hg : ((x.modify 0 (· &&& 248)).get 31 (by omega)) = x.get 31 (by omega) := by
    simp [Arr.get, Arr.modify]
  have ht : leNat (((x.modify 0 (· &&& 248)).1.take 31).take 31) = 8 * (leNat (x.1.take 31) / 8) := by
    rw [List.take_take]
    obtain ⟨l, hl⟩ := x
    match l, hl with
    | b :: bs, hl =>
      simp only [Arr.modify, List.modify_zero_cons, List.take_succ_cons, leNat, Nat.min_self]
      rw [u8_and248]
      have := b.toNat_lt
      omega
  rw [hg, ht]
  have := (x.get 31 (by omega)).toNat_lt
  unfold Spec.clamp
  rw [show (256:Nat) ^ 31 = 2 ^ 248 by norm_num] at *
  omega

/-- **C03** value, range, canonicity and nonce of the Ed25519-style expansion. -/
theorem expand_ed25519_spec [Oracles] (m : MiniSecretKey) :
    (m.expand .ed25519).key.val = Spec.clamp (leNat ((Oracles.sha512 m.bytes.1).1.take 32)) / 8 ∧
    2 ^ 251 ≤ (m.expand .ed25519).key.val ∧ (m.expand .ed25519).key.val < 2 ^ 252 ∧
    (m.expand .ed25519).key.Canonical ∧
    (m.expand .ed25519).nonce.1 = (Oracles.sha512 m.bytes.1).1.drop 32 := by
  have hv : (m.expand .ed25519).key.val =
      Spec.clamp (leNat ((Oracles.sha512 m.bytes.1).1.take 32)) / 8 := by
    simp only [MiniSecretKey.expand, MiniSecretKey.expandEd25519]
    rw [Scalar.fromBits_val, leNat_divide, clamp_bytes]
    simp only [Arr.slice, List.drop_zero]
    unfold Spec.clamp; omega
  have h1 : 2 ^ 251 ≤ (m.expand .ed25519).key.val := by rw [hv]; unfold Spec.clamp; omega
  have h2 : (m.expand .ed25519).key.val < 2 ^ 252 := by rw [hv]; unfold Spec.clamp; omega
  refine ⟨hv, h1, h2, lt_trans h2 ell_gt, ?_⟩
  simp only [MiniSecretKey.expand, MiniSecretKey.expandEd25519, Arr.slice]
  rw [List.take_of_length_le]; simp [(Oracles.sha512 m.bytes.1).2]

/-- **C03** the expansion is what `from_ed25519_bytes` reads from the clamped digest. -/
theorem expand_ed25519_eq_from_ed25519_bytes [Oracles] (m : MiniSecretKey) (bs : Bytes)
    (hlen : bs.length = 64)
    (hkey : leNat (bs.take 32) = Spec.clamp (leNat ((Oracles.sha512 m.bytes.1).1.take 32)))
    (hnonce : bs.drop 32 = (Oracles.sha512 m.bytes.1).1.drop 32) :
    SecretKey.fromEd25519Bytes bs = .ok (m.expand .ed25519) := by
  obtain ⟨h1, _, _, h4, h5⟩ := expand_ed25519_spec m
  rw [SecretKey.fromEd25519Bytes_ok]
  exact ⟨hlen, by rw [h1, hkey], h4, by rw [h5, hnonce]⟩

/-- Non-vacuity: such a byte string exists for every seed and every digest. -/
example [Oracles] (m : MiniSecretKey) : ∃ bs : Bytes, bs.length = 64 ∧
    leNat (bs.take 32) = Spec.clamp (leNat ((Oracles.sha512 m.bytes.1).1.take 32)) ∧
    bs.drop 32 = (Oracles.sha512 m.bytes.1).1.drop 32 := by
  refine ⟨leBytes 32 (Spec.clamp (leNat ((Oracles.sha512 m.bytes.1).1.take 32))) ++
    (Oracles.sha512 m.bytes.1).1.drop 32, ?_, ?_, ?_⟩
  · simp [(Oracles.sha512 m.bytes.1).2]
  · rw [List.take_append_of_le_length (by simp), List.take_of_length_le (by simp), leNat_leBytes]
    apply Nat.mod_eq_of_lt
    unfold Spec.clamp; rw [show (256:Nat) ^ 32 = 2 ^ 256 by norm_num]; omega
  · rw [List.drop_append_of_le_length (by simp), List.drop_eq_nil_of_le (by simp)]; simp

/-! ## C04: uniform expansion -/

/-- **C04** the scalar and the nonce are the hash of the seed under two fixed, distinct
domain-separated queries; nothing else enters. -/
theorem expand_uniform_spec [Oracles] (m : MiniSecretKey) :
    (m.expand .uniform).key.val =
      leNat (Oracles.merlin [.append (b! "dom-sep") (b! "ExpandSecretKeys"),
        .append (b! "mini") m.bytes.1, .challenge (b! "sk") 64] 64).1 % ell ∧
    (m.expand .uniform).nonce =
      Oracles.merlin [.append (b! "dom-sep") (b! "ExpandSecretKeys"),
        .append (b! "mini") m.bytes.1, .challenge (b! "sk") 64, .challenge (b! "no") 32] 32 ∧
    (m.expand .uniform).key.Canonical := by
  refine ⟨?_, rfl, Scalar.canonical_wide _⟩
  exact Scalar.val_ofNat_ell (Nat.mod_lt _ ell_pos)

/-- **C04** different seeds are hashed at different points: an oracle can be chosen freely (the
expansion of a seed is independent of the oracle's value on every other seed's queries). -/
theorem expand_uniform_local (o₁ o₂ : Oracles) (m : MiniSecretKey)
    (h : ∀ n log, (∃ rest, log = [MOp.append (b! "dom-sep") (b! "ExpandSecretKeys"),
        .append (b! "mini") m.bytes.1] ++ rest) → o₁.merlin log n = o₂.merlin log n) :
    @MiniSecretKey.expand o₁ m .uniform = @MiniSecretKey.expand o₂ m .uniform := by
  have e1 := h 64 [.append (b! "dom-sep") (b! "ExpandSecretKeys"),
        .append (b! "mini") m.bytes.1, .challenge (b! "sk") 64] ⟨[.challenge (b! "sk") 64], rfl⟩
  have e2 := h 32 [.append (b! "dom-sep") (b! "ExpandSecretKeys"),
        .append (b! "mini") m.bytes.1, .challenge (b! "sk") 64, .challenge (b! "no") 32]
        ⟨[.challenge (b! "sk") 64, .challenge (b! "no") 32], rfl⟩
  simp only [MiniSecretKey.expand, MiniSecretKey.expandUniform, Transcript.challengeBytes,
    Transcript.appendMessage, Transcript.new, List.nil_append, List.cons_append]
  congr 1
  exact congrArg Scalar.fromBytesModOrderWide e1

/-- **C04** two different seeds never share a query. -/
theorem expand_uniform_queries_disjoint (m₁ m₂ : MiniSecretKey) (hne : m₁ ≠ m₂) (r₁ r₂ : List MOp) :
    [MOp.append (b! "dom-sep") (b! "ExpandSecretKeys"), .append (b! "mini") m₁.bytes.1] ++ r₁ ≠
    [MOp.append (b! "dom-sep") (b! "ExpandSecretKeys"), .append (b! "mini") m₂.bytes.1] ++ r₂ := by
  intro h
  simp only [List.cons_append, List.nil_append, List.cons.injEq, MOp.append.injEq, true_and] at h
  apply hne
  cases m₁; cases m₂
  congr 1
  exact Arr.ext' h.1

/-- **C04** the three expansion entry points agree, in both modes. -/
theorem expand_entry_points_agree [Oracles] (m : MiniSecretKey) (mode : ExpansionMode) :
    (m.expandToKeypair mode : Keypair P).secret = m.expand mode ∧
    (m.expandToKeypair mode : Keypair P).pub = m.expandToPublic mode ∧
    (m.expandToPublic mode : PublicKey P).point = (m.expand mode).key.val • (basepoint : P) ∧
    (m.expand mode).key.Canonical := by
  refine ⟨rfl, rfl, rfl, ?_⟩
  cases mode
  · exact (expand_uniform_spec m).2.2
  · exact (expand_ed25519_spec m).2.2.2.1

/-! ## C05: secret key byte round trips -/

/-- **C05** `from_bytes ∘ to_bytes = Ok`, with scalar *and* nonce preserved. -/
theorem secretkey_bytes_roundtrip (sk : SecretKey) (h : sk.key.Canonical) :
    SecretKey.fromBytes sk.toBytes.1 = .ok sk := SecretKey.fromBytes_ok.mpr ⟨rfl, h⟩

/-- **C05** every accepted string is the encoding of what it decodes to. -/
theorem secretkey_bytes_canonical (bs : Bytes) (sk : SecretKey)
    (h : SecretKey.fromBytes bs = .ok sk) : sk.toBytes.1 = bs ∧ sk.key.Canonical :=
  ⟨(SecretKey.fromBytes_ok.mp h).1.symm, (SecretKey.fromBytes_ok.mp h).2⟩

/-- **C05** Ed25519-form round trip, with scalar *and* nonce preserved. -/
theorem secretkey_ed25519_roundtrip (sk : SecretKey) (h : sk.key.Canonical) :
    SecretKey.fromEd25519Bytes sk.toEd25519Bytes.1 = .ok sk := by
  rw [SecretKey.fromEd25519Bytes_ok]
  have hlt : sk.key.val < 2 ^ 253 := lt_trans h ell_lt
  have hm : leNat (multiplyScalarBytesByCofactor sk.key.bytes).1 = 8 * sk.key.val := by
    have := (multiplyLoop_spec sk.key.bytes.1 0 (by decide)).1
    show leNat (multiplyLoop sk.key.bytes.1 0) = _
    rw [this, sk.key.bytes.2, show (256 : Nat) ^ 32 = 2 ^ 256 by norm_num]
    show (8 * sk.key.val + 0) % _ = _
    omega
  refine ⟨sk.toEd25519Bytes.2, ?_, h, ?_⟩
  · simp only [SecretKey.toEd25519Bytes, Arr.append]
    rw [Arr.take_append, hm]
    omega
  · simp only [SecretKey.toEd25519Bytes, Arr.append]
    rw [Arr.drop_append]

/-- **C05** importing Ed25519 bytes drops exactly the low three bits. -/
theorem secretkey_ed25519_import_drops_low_bits (bs : Bytes) (sk : SecretKey)
    (h : SecretKey.fromEd25519Bytes bs = .ok sk) :
    sk.key.val = leNat (bs.take 32) / 8 ∧ sk.nonce.1 = bs.drop 32 ∧
      leNat (sk.toEd25519Bytes.1.take 32) = leNat (bs.take 32) - leNat (bs.take 32) % 8 := by
  obtain ⟨h1, h2, h3, h4⟩ := SecretKey.fromEd25519Bytes_ok.mp h
  obtain ⟨_, g2, _, _⟩ := SecretKey.fromEd25519Bytes_ok.mp (secretkey_ed25519_roundtrip sk h3)
  refine ⟨h2, h4, ?_⟩
  have hm : leNat (sk.toEd25519Bytes.1.take 32) % 8 = 0 := by
    simp only [SecretKey.toEd25519Bytes, Arr.append]
    rw [Arr.take_append]
    have := (multiplyLoop_spec sk.key.bytes.1 0 (by decide)).1
    show leNat (multiplyLoop sk.key.bytes.1 0) % 8 = 0
    rw [this, sk.key.bytes.2, show (256 : Nat) ^ 32 = 2 ^ 256 by norm_num]
    simp only [UInt8.toNat_zero]
    omega
  omega

/-- Non-vacuity of the canonicity hypothesis: the largest canonical scalar. -/
example : (SecretKey.mk (Scalar.ofNat (ell - 1)) (zeros 32)).key.Canonical := by decide +kernel

/-! ## C06: decision tables of key decoding -/

/-- **C06** `MiniSecretKey::from_bytes`. -/
theorem minisecretkey_from_bytes_table (bs : Bytes) :
    (∀ m, MiniSecretKey.fromBytes bs = .ok m ↔ m.toBytes.1 = bs) ∧
    (∀ e, MiniSecretKey.fromBytes bs = .error e ↔
      bs.length ≠ 32 ∧ e = .bytesLengthError "MiniSecretKey" MiniSecretKey.DESCRIPTION 32) := by
  unfold MiniSecretKey.fromBytes MiniSecretKey.toBytes
  split
  · rename_i h
    have h : bs.length ≠ 32 := h
    refine ⟨fun m => ⟨fun h2 => (nomatch h2), fun h2 => absurd (by rw [← h2, m.bytes.2]) h⟩,
      fun e => ⟨fun h2 => ?_, ?_⟩⟩
    · cases h2; exact ⟨h, rfl⟩
    · rintro ⟨_, rfl⟩; rfl
  · rename_i h
    have h : bs.length = 32 := not_not.mp h
    refine ⟨fun m => ⟨fun h2 => ?_, fun h2 => ?_⟩, fun e => ⟨fun h2 => (nomatch h2), fun h2 => ?_⟩⟩
    · cases h2; simp [List.take_of_length_le, h]
    · cases m; congr 2; apply Arr.ext'; simp only at h2; simp [h2, List.take_of_length_le, h]
    · exact absurd h h2.1

/-- **C06** `SecretKey::from_bytes`. -/
theorem secretkey_from_bytes_table (bs : Bytes) :
    (∀ sk, SecretKey.fromBytes bs = .ok sk ↔ bs = sk.key.bytes.1 ++ sk.nonce.1 ∧ sk.key.val < ell) ∧
    (∀ e, SecretKey.fromBytes bs = .error e ↔
      (bs.length ≠ 64 ∧ e = .bytesLengthError "SecretKey" SecretKey.DESCRIPTION 64) ∨
      (bs.length = 64 ∧ ell ≤ leNat (bs.take 32) ∧ e = .scalarFormatError)) :=
  ⟨fun _ => SecretKey.fromBytes_ok, fun _ => SecretKey.fromBytes_err⟩

/-- **C06** `SecretKey::from_ed25519_bytes`. -/
theorem secretkey_from_ed25519_bytes_table (bs : Bytes) :
    (∀ sk, SecretKey.fromEd25519Bytes bs = .ok sk ↔
      bs.length = 64 ∧ sk.key.val = leNat (bs.take 32) / 8 ∧ sk.key.val < ell ∧
        sk.nonce.1 = bs.drop 32) ∧
    (∀ e, SecretKey.fromEd25519Bytes bs = .error e ↔
      (bs.length ≠ 64 ∧ e = .bytesLengthError "SecretKey" SecretKey.DESCRIPTION 64) ∨
      (bs.length = 64 ∧ ell ≤ leNat (bs.take 32) / 8 ∧ e = .invalidKey)) :=
  ⟨fun _ => SecretKey.fromEd25519Bytes_ok, fun _ => SecretKey.fromEd25519Bytes_err⟩

/-- **C06** `PublicKey::from_bytes`: accepts exactly the canonical encodings of group elements. -/
theorem publickey_from_bytes_table (bs : Bytes) :
    (∀ pk : PublicKey P, PublicKey.fromBytes bs = .ok pk ↔
      pk.compressed.1 = bs ∧ Spec.Encodes bs pk.point) ∧
    (∀ e, (PublicKey.fromBytes bs : SignatureResult (PublicKey P)) = .error e ↔
      (bs.length ≠ 32 ∧ e = .bytesLengthError "PublicKey" PublicKey.DESCRIPTION 32) ∨
      (bs.length = 32 ∧ (∀ p : P, ¬ Spec.Encodes bs p) ∧ e = .pointDecompressionError)) := by
  refine ⟨fun pk => ?_, fun e => fromBytesSer_err⟩
  unfold PublicKey.fromBytes Spec.Encodes
  rw [fromBytesSer_ok]
  constructor
  · rintro ⟨rfl, h⟩; exact ⟨rfl, congrArg Subtype.val h⟩
  · rintro ⟨rfl, h⟩; exact ⟨rfl, Subtype.ext h⟩

/-- **C06** same table for `RistrettoBoth::from_bytes`, under its own name. -/
theorem ristretto_from_bytes_table (bs : Bytes) :
    (∀ pk : RistrettoBoth P, RistrettoBoth.fromBytes bs = .ok pk ↔
      pk.compressed.1 = bs ∧ Spec.Encodes bs pk.point) ∧
    (∀ e, (RistrettoBoth.fromBytes bs : SignatureResult (RistrettoBoth P)) = .error e ↔
      (bs.length ≠ 32 ∧ e = .bytesLengthError "RistrettoPoint" RistrettoBoth.DESCRIPTION 32) ∨
      (bs.length = 32 ∧ (∀ p : P, ¬ Spec.Encodes bs p) ∧ e = .pointDecompressionError)) := by
  refine ⟨fun pk => ?_, fun e => fromBytesSer_err⟩
  unfold RistrettoBoth.fromBytes Spec.Encodes
  rw [fromBytesSer_ok]
  constructor
  · rintro ⟨rfl, h⟩; exact ⟨rfl, congrArg Subtype.val h⟩
  · rintro ⟨rfl, h⟩; exact ⟨rfl, Subtype.ext h⟩

private theorem except_bind_ok {ε α β : Type} {x : Except ε α} {f : α → Except ε β} {b : β} :
    (x >>= f) = .ok b ↔ ∃ a, x = .ok a ∧ f a = .ok b := by
  cases x <;> simp [bind, Except.bind]

private theorem except_bind_err {ε α β : Type} {x : Except ε α} {f : α → Except ε β} {e : ε} :
    (x >>= f) = .error e ↔ x = .error e ∨ ∃ a, x = .ok a ∧ f a = .error e := by
  cases x <;> simp [bind, Except.bind]

/-- **C06**/**C16** `Keypair::from_bytes` succeeds iff the length is 96 and the two halves decode
*separately*; errors: length first, then the secret half, then the public half. -/
theorem keypair_from_bytes_table (bs : Bytes) :
    (∀ kp : Keypair P, Keypair.fromBytes bs = .ok kp ↔
      bs.length = 96 ∧ SecretKey.fromBytes (bs.take 64) = .ok kp.secret ∧
        PublicKey.fromBytes (bs.drop 64) = .ok kp.pub) ∧
    (∀ e, (Keypair.fromBytes bs : SignatureResult (Keypair P)) = .error e ↔
      (bs.length ≠ 96 ∧ e = .bytesLengthError "Keypair" Keypair.DESCRIPTION 96) ∨
      (bs.length = 96 ∧ ell ≤ leNat (bs.take 32) ∧ e = .scalarFormatError) ∨
      (bs.length = 96 ∧ leNat (bs.take 32) < ell ∧ (∀ p : P, ¬ Spec.Encodes (bs.drop 64) p) ∧
        e = .pointDecompressionError)) := by
  unfold Keypair.fromBytes
  by_cases h : bs.length = 96
  · have hl : ¬ (bs.length ≠ KEYPAIR_LENGTH) := not_not.mpr h
    simp only [if_neg hl]
    have h64 : (bs.take 64).length = 64 := by simp [h]
    have h32 : (bs.drop 64).length = 32 := by simp [h]
    have htt : (bs.take 64).take 32 = bs.take 32 := by simp [List.take_take]
    simp only [SECRET_KEY_LENGTH]
    refine ⟨fun kp => ?_, fun e => ?_⟩
    · simp only [except_bind_ok]
      constructor
      · rintro ⟨a, ha, b, hb, hk⟩; cases hk; exact ⟨h, ha, hb⟩
      · rintro ⟨_, ha, hb⟩; exact ⟨_, ha, _, hb, rfl⟩
    · simp only [except_bind_err]
      constructor
      · rintro (he | ⟨a, ha, he | ⟨b, hb, he⟩⟩)
        · rcases SecretKey.fromBytes_err.mp he with ⟨h1, _⟩ | ⟨_, h1, h2⟩
          · contradiction
          · exact .inr (.inl ⟨h, by rwa [htt] at h1, h2⟩)
        · rcases (publickey_from_bytes_table (P := P) (bs.drop 64)).2 e |>.mp he with
            ⟨h1, _⟩ | ⟨_, h1, h2⟩
          · contradiction
          · refine .inr (.inr ⟨h, ?_, h1, h2⟩)
            by_contra hcon
            have := SecretKey.fromBytes_err.mpr
              (.inr ⟨h64, by rw [htt]; omega, rfl⟩)
            rw [this] at ha; cases ha
        · cases he
      · rintro (⟨h1, _⟩ | ⟨_, h1, rfl⟩ | ⟨_, h1, h2, rfl⟩)
        · contradiction
        · exact .inl (SecretKey.fromBytes_err.mpr (.inr ⟨h64, by rwa [htt], rfl⟩))
        · cases hs : SecretKey.fromBytes (bs.take 64) with
          | error e =>
            rcases SecretKey.fromBytes_err.mp hs with ⟨h3, _⟩ | ⟨_, h3, _⟩
            · contradiction
            · rw [htt] at h3; omega
          | ok sk =>
            exact .inr ⟨sk, rfl, .inl ((publickey_from_bytes_table _).2 _ |>.mpr
              (.inr ⟨h32, h2, rfl⟩))⟩
  · have hl : bs.length ≠ KEYPAIR_LENGTH := h
    simp only [if_pos hl]
    refine ⟨fun kp => ⟨fun h2 => (nomatch h2), fun h2 => absurd h2.1 h⟩, fun e => ⟨fun h2 => ?_, ?_⟩⟩
    · cases h2; exact .inl ⟨h, rfl⟩
    · rintro (⟨_, rfl⟩ | ⟨h2, _⟩ | ⟨h2, _⟩)
      · rfl
      · contradiction
      · contradiction

/-- **C06** `Keypair::from_half_ed25519_bytes`. -/
theorem keypair_from_half_ed25519_bytes_table (bs : Bytes) :
    (∀ kp : Keypair P, Keypair.fromHalfEd25519Bytes bs = .ok kp ↔
      bs.length = 96 ∧ SecretKey.fromEd25519Bytes (bs.take 64) = .ok kp.secret ∧
        PublicKey.fromBytes (bs.drop 64) = .ok kp.pub) ∧
    (∀ e, (Keypair.fromHalfEd25519Bytes bs : SignatureResult (Keypair P)) = .error e ↔
      (bs.length ≠ 96 ∧ e = .bytesLengthError "Keypair" Keypair.DESCRIPTION 96) ∨
      (bs.length = 96 ∧ ell ≤ leNat (bs.take 32) / 8 ∧ e = .invalidKey) ∨
      (bs.length = 96 ∧ leNat (bs.take 32) / 8 < ell ∧ (∀ p : P, ¬ Spec.Encodes (bs.drop 64) p) ∧
        e = .pointDecompressionError)) := by
  unfold Keypair.fromHalfEd25519Bytes
  by_cases h : bs.length = 96
  · have hl : ¬ (bs.length ≠ KEYPAIR_LENGTH) := not_not.mpr h
    simp only [if_neg hl]
    have h64 : (bs.take 64).length = 64 := by simp [h]
    have h32 : (bs.drop 64).length = 32 := by simp [h]
    have htt : (bs.take 64).take 32 = bs.take 32 := by simp [List.take_take]
    simp only [SECRET_KEY_LENGTH]
    refine ⟨fun kp => ?_, fun e => ?_⟩
    · simp only [except_bind_ok]
      constructor
      · rintro ⟨a, ha, b, hb, hk⟩; cases hk; exact ⟨h, ha, hb⟩
      · rintro ⟨_, ha, hb⟩; exact ⟨_, ha, _, hb, rfl⟩
    · simp only [except_bind_err]
      constructor
      · rintro (he | ⟨a, ha, he | ⟨b, hb, he⟩⟩)
        · rcases SecretKey.fromEd25519Bytes_err.mp he with ⟨h1, _⟩ | ⟨_, h1, h2⟩
          · contradiction
          · exact .inr (.inl ⟨h, by rwa [htt] at h1, h2⟩)
        · rcases (publickey_from_bytes_table (P := P) (bs.drop 64)).2 e |>.mp he with
            ⟨h1, _⟩ | ⟨_, h1, h2⟩
          · contradiction
          · refine .inr (.inr ⟨h, ?_, h1, h2⟩)
            by_contra hcon
            have := SecretKey.fromEd25519Bytes_err.mpr
              (.inr ⟨h64, by rw [htt]; omega, rfl⟩)
            rw [this] at ha; cases ha
        · cases he
      · rintro (⟨h1, _⟩ | ⟨_, h1, rfl⟩ | ⟨_, h1, h2, rfl⟩)
        · contradiction
        · exact .inl (SecretKey.fromEd25519Bytes_err.mpr (.inr ⟨h64, by rwa [htt], rfl⟩))
        · cases hs : SecretKey.fromEd25519Bytes (bs.take 64) with
          | error e =>
            rcases SecretKey.fromEd25519Bytes_err.mp hs with ⟨h3, _⟩ | ⟨_, h3, _⟩
            · contradiction
            · rw [htt] at h3; omega
          | ok sk =>
            exact .inr ⟨sk, rfl, .inl ((publickey_from_bytes_table _).2 _ |>.mpr
              (.inr ⟨h32, h2, rfl⟩))⟩
  · have hl : bs.length ≠ KEYPAIR_LENGTH := h
    simp only [if_pos hl]
    refine ⟨fun kp => ⟨fun h2 => (nomatch h2), fun h2 => absurd h2.1 h⟩, fun e => ⟨fun h2 => ?_, ?_⟩⟩
    · cases h2; exact .inl ⟨h, rfl⟩
    · rintro (⟨_, rfl⟩ | ⟨h2, _⟩ | ⟨h2, _⟩)
      · rfl
      · contradiction
      · contradiction

/-- **C05** keypair round trips in both encodings. -/
theorem keypair_bytes_roundtrip (kp : Keypair P) (hs : kp.secret.key.Canonical) (hp : kp.pub.WF) :
    Keypair.fromBytes kp.toBytes.1 = .ok kp ∧
    Keypair.fromHalfEd25519Bytes kp.toHalfEd25519Bytes.1 = .ok kp := by
  have hpk : PublicKey.fromBytes kp.pub.compressed.1 = .ok kp.pub :=
    ((publickey_from_bytes_table _).1 _).mpr ⟨rfl, congrArg Subtype.val hp⟩
  constructor
  · rw [((keypair_from_bytes_table _).1 kp)]
    refine ⟨kp.toBytes.2, ?_, ?_⟩ <;> simp only [Keypair.toBytes, Arr.append, PublicKey.toBytes]
    · rw [Arr.take_append]
      exact secretkey_bytes_roundtrip _ hs
    · rw [Arr.drop_append]
      exact hpk
  · rw [((keypair_from_half_ed25519_bytes_table _).1 kp)]
    refine ⟨kp.toHalfEd25519Bytes.2, ?_, ?_⟩ <;>
      simp only [Keypair.toHalfEd25519Bytes, Arr.append, PublicKey.toBytes]
    · rw [Arr.take_append]
      exact secretkey_ed25519_roundtrip _ hs
    · rw [Arr.drop_append]
      exact hpk

/-! ## C16: keypair consistency is not checked on decoding -/

/-- **C16 (defect)** for every secret key and *every* valid public key encoding, consistent or not,
`Keypair::from_bytes` accepts the concatenation. -/
theorem keypair_from_bytes_accepts_any_pair (sk : SecretKey) (hs : sk.key.Canonical) (p : P) :
    Keypair.fromBytes (sk.toBytes.1 ++ (compress p).1) =
      .ok ⟨sk, ⟨compress p, p⟩⟩ :=
  (keypair_bytes_roundtrip (P := P) ⟨sk, ⟨compress p, p⟩⟩ hs rfl).1

/-- **C16 (defect)** `Keypair::from_half_ed25519_bytes` does not check either: it accepts the half-Ed25519 encoding
of every secret key with every valid public key encoding. -/
theorem keypair_from_half_ed25519_accepts_any_pair (sk : SecretKey) (hs : sk.key.Canonical) (p : P) :
    Keypair.fromHalfEd25519Bytes (sk.toEd25519Bytes.1 ++ (compress p).1) =
      .ok ⟨sk, ⟨compress p, p⟩⟩ :=
  (keypair_bytes_roundtrip (P := P) ⟨sk, ⟨compress p, p⟩⟩ hs rfl).2

/-- **C16 (defect, negation)** nor is every keypair decoded from the half-Ed25519 form consistent. -/
theorem keypair_from_half_ed25519_not_always_consistent :
    ¬ ∀ (bs : Bytes) (kp : Keypair P), Keypair.fromHalfEd25519Bytes bs = .ok kp →
      kp.pub.point = kp.secret.key.val • (basepoint : P) := by
  intro h
  have := h _ _ (keypair_from_half_ed25519_accepts_any_pair ⟨Scalar.zero, zeros 32⟩
    Scalar.canonical_zero (basepoint : P))
  simp only at this
  have h0 : Scalar.zero.val = 0 := Scalar.val_ofNat_ell ell_pos
  rw [h0, zero_nsmul] at this
  exact basepoint_ne_zero this

/-- **C16 (defect, negation)** it is false that every decoded keypair is consistent. -/
theorem keypair_from_bytes_not_always_consistent :
    ¬ ∀ (bs : Bytes) (kp : Keypair P), Keypair.fromBytes bs = .ok kp →
      kp.pub.point = kp.secret.key.val • (basepoint : P) := by
  intro h
  have := h _ _ (keypair_from_bytes_accepts_any_pair ⟨Scalar.zero, zeros 32⟩
    Scalar.canonical_zero (basepoint : P))
  simp only at this
  have h0 : Scalar.zero.val = 0 := Scalar.val_ofNat_ell ell_pos
  rw [h0, zero_nsmul] at this
  exact basepoint_ne_zero this

/-- **C16** keypairs made from a secret key, expanded from a mini secret key or generated are consistent, with the
two public forms agreeing. -/
theorem keypair_constructors_consistent [Oracles] (sk : SecretKey) (m : MiniSecretKey)
    (mode : ExpansionMode) (rng : Rng) :
    ∀ kp ∈ [(sk.toKeypair : Keypair P), Keypair.ofSecret sk, m.expandToKeypair mode,
      (Keypair.generateWith rng).1],
      kp.pub.point = kp.secret.key.val • (basepoint : P) ∧ kp.pub.WF := by
  intro kp hkp
  simp only [List.mem_cons, List.not_mem_nil, or_false] at hkp
  rcases hkp with rfl | rfl | rfl | rfl <;> exact ⟨rfl, rfl⟩

/-! ## C08: equality, ordering and hashing of public keys -/


/-- **C08** equality, ordering, hashing and the debug assertion on well-formed keys: `==` is equality
of group elements, the debug assertion never fires, `cmp` is the lexicographic total order of the
encodings and returns `Equal` exactly on equal group elements, equal keys hash alike. -/
theorem publickey_eq_ord_hash_consistent (a b : PublicKey P) (ha : a.WF) (hb : b.WF) :
    (RistrettoBoth.eq a b = true ↔ a.point = b.point) ∧
    RistrettoBoth.eqDebug a b = .ok (RistrettoBoth.eq a b) ∧
    (RistrettoBoth.cmp a b = .eq ↔ a.point = b.point) ∧
    (RistrettoBoth.cmp a b = .lt ↔ Spec.lexLt (compress a.point).1 (compress b.point).1) ∧
    (RistrettoBoth.cmp a b = .gt ↔ Spec.lexLt (compress b.point).1 (compress a.point).1) ∧
    (a.point = b.point ↔ a.hashInput = b.hashInput) := by
  have key : a.compressed = b.compressed ↔ a.point = b.point := by
    rw [← ha, ← hb, compress_inj]
  refine ⟨?_, ?_, ?_, ?_, ?_, ?_⟩
  · simp [RistrettoBoth.eq, key]
  · simp [RistrettoBoth.eqDebug, RistrettoBoth.eq, key]
  · unfold RistrettoBoth.cmp; rw [cmpBytes_eq, ← key]; exact ⟨Arr.ext', congrArg _⟩
  · unfold RistrettoBoth.cmp; rw [cmpBytes_lt, ha, hb]
  · unfold RistrettoBoth.cmp
    rw [← cmpBytes_lt, ← cmpBytes_swap, ha, hb]
    cases cmpBytes a.compressed.1 b.compressed.1 <;> simp
  · rw [← key]; exact ⟨congrArg _, Arr.ext'⟩

omit [Ristretto P] in
/-- **C08** `cmp` is transitive and antisymmetric on all keys (a total order up to `==`). -/
theorem publickey_cmp_total_order (a b c : PublicKey P) :
    (RistrettoBoth.cmp a b = .lt → RistrettoBoth.cmp b c = .lt → RistrettoBoth.cmp a c = .lt) ∧
    (RistrettoBoth.cmp a b).swap = RistrettoBoth.cmp b a ∧
    (RistrettoBoth.cmp a b = .eq ↔ RistrettoBoth.eq a b = true) := by
  unfold RistrettoBoth.cmp RistrettoBoth.eq
  refine ⟨?_, cmpBytes_swap _ _, ?_⟩
  · rw [cmpBytes_lt, cmpBytes_lt, cmpBytes_lt]
    exact fun h1 h2 => List.lex_trans (fun h1 h2 => UInt8.lt_trans h1 h2) h1 h2
  · rw [cmpBytes_eq]; simp; exact ⟨Arr.ext', congrArg _⟩

/-- **C08** the constructors of this module establish the invariant. -/
theorem publickey_constructors_wf (p : P) (sk : SecretKey) :
    (RistrettoBoth.default : PublicKey P).WF ∧ (PublicKey.fromPoint p).WF ∧
    (sk.toPublic : PublicKey P).WF ∧
    (∀ c (pk : PublicKey P), PublicKey.fromCompressed c = .ok pk → pk.WF) ∧
    (∀ bs (pk : PublicKey P), PublicKey.fromBytes bs = .ok pk → pk.WF) ∧
    (∀ bs (kp : Keypair P), Keypair.fromBytes bs = .ok kp → kp.pub.WF) ∧
    (∀ bs (kp : Keypair P), Keypair.fromHalfEd25519Bytes bs = .ok kp → kp.pub.WF) := by
  have h : ∀ bs (pk : PublicKey P), PublicKey.fromBytes bs = .ok pk → pk.WF :=
    fun bs pk h => (fromBytesSer_ok.mp h).2
  exact ⟨wf_default, rfl, rfl, fun c pk h => (fromCompressed_ok.mp h).2, h,
    fun bs kp hk => h _ _ (((keypair_from_bytes_table bs).1 kp).mp hk).2.2,
    fun bs kp hk => h _ _ (((keypair_from_half_ed25519_bytes_table bs).1 kp).mp hk).2.2⟩

/-- The invariant is needed: an ill-formed value would trip the debug assertion. -/
example : RistrettoBoth.eqDebug (⟨zeros 32, Toy.ofZ 1⟩ : RistrettoBoth Toy) RistrettoBoth.default
    ≠ .ok true := by
  have h1 : (Toy.ofZ 1) ≠ (0 : Toy) := Ristretto.basepoint_ne (P := Toy)
  simp [RistrettoBoth.eqDebug, RistrettoBoth.default, h1]

/-! ## C46: zeroize -/

omit [Ristretto P] in
/-- **C46** after `zeroize` every byte of the secret's encoding is zero; the public part is kept. -/
theorem zeroize_erases (m : MiniSecretKey) (sk : SecretKey) (kp : Keypair P) :
    (∀ b ∈ m.zeroize.toBytes.1, b = 0) ∧ (∀ b ∈ sk.zeroize.toBytes.1, b = 0) ∧
    (∀ b ∈ kp.zeroize.secret.toBytes.1, b = 0) ∧ kp.zeroize.pub = kp.pub := by
  refine ⟨?_, ?_, ?_, rfl⟩ <;> intro b hb <;>
    simp [MiniSecretKey.zeroize, MiniSecretKey.toBytes, SecretKey.zeroize, SecretKey.toBytes,
      Keypair.zeroize, zeros, Arr.append] at hb
  · exact hb
  · exact hb
  · exact hb

/-! ## C47: equality and generation -/

/-- **C47** secret-key equality compares exactly the scalar bytes, ignoring the nonce. -/
theorem secretkey_eq_ignores_nonce (a b : SecretKey) :
    SecretKey.eq a b = true ↔ a.toBytes.1.take 32 = b.toBytes.1.take 32 := by
  have e : ∀ s : SecretKey, s.toBytes.1.take 32 = s.key.bytes.1 := fun s => by
    simp only [SecretKey.toBytes, Arr.append]
    rw [Arr.take_append]
  rw [e, e]
  simp only [SecretKey.eq, decide_eq_true_eq]
  exact ⟨congrArg _, Arr.ext'⟩

/-- **C47** canonical secret keys are equal iff they have the same public key. -/
theorem secretkey_eq_iff_public_eq (a b : SecretKey) (ha : a.key.Canonical) (hb : b.key.Canonical) :
    SecretKey.eq a b = true ↔ (a.toPublic : PublicKey P) = b.toPublic := by
  simp only [SecretKey.eq, decide_eq_true_eq]
  constructor
  · intro h; unfold SecretKey.toPublic Scalar.mulPoint Scalar.val; rw [h]
  · intro h
    have : (a.toPublic : PublicKey P).point = (b.toPublic : PublicKey P).point := by rw [h]
    change a.key •. (basepoint : P) = b.key •. basepoint at this
    rw [mulPoint_eq, mulPoint_eq, smul_basepoint_inj] at this
    rw [Scalar.Canonical.eq_of_toZ ha hb this]

/-- **C47** mini secret keys are equal exactly if all their bytes are. -/
theorem mini_secret_eq_iff (a b : MiniSecretKey) : MiniSecretKey.eq a b = true ↔ a.toBytes.1 = b.toBytes.1 := by
  simp only [MiniSecretKey.eq, MiniSecretKey.toBytes, decide_eq_true_eq]
  exact ⟨congrArg _, Arr.ext'⟩

/-- Keys that differ in the last byte only are different. -/
example : MiniSecretKey.eq ⟨zeros 32⟩ ⟨⟨List.replicate 31 0 ++ [1], rfl⟩⟩ = false := by decide

/-- **C47** generation uses exactly a 64-byte then a 32-byte RNG request and yields a canonical
scalar, for every RNG; `MiniSecretKey` uses one 32-byte request; the RNG is left advanced by these
requests and otherwise unchanged. -/
theorem generate_spec (rng : Rng) :
    (SecretKey.generateWith rng).1.key.val = leNat (rng.src rng.hist 64).1 % ell ∧
    (SecretKey.generateWith rng).1.nonce = rng.src (rng.hist ++ [64]) 32 ∧
    (SecretKey.generateWith rng).1.key.Canonical ∧
    (SecretKey.generateWith rng).2 = ⟨rng.src, rng.hist ++ [64, 32]⟩ ∧
    (MiniSecretKey.generateWith rng).1.bytes = rng.src rng.hist 32 ∧
    (MiniSecretKey.generateWith rng).2 = ⟨rng.src, rng.hist ++ [32]⟩ ∧
    (Keypair.generateWith rng : Keypair P × Rng).1.secret = (SecretKey.generateWith rng).1 ∧
    (Keypair.generateWith rng : Keypair P × Rng).1.pub = (SecretKey.generateWith rng).1.toPublic ∧
    (Keypair.generateWith rng : Keypair P × Rng).2 = (SecretKey.generateWith rng).2 := by
  refine ⟨Scalar.val_ofNat_ell (Nat.mod_lt _ ell_pos), rfl, Scalar.canonical_wide _, ?_, rfl, rfl, rfl, rfl, rfl⟩
  simp [SecretKey.generateWith, Rng.fill]

end Schnorrkel.Props
