import Verif.Lemmas.Sign
import Verif.Instance

/-! # C09–C15, C17, C18, C45: signatures -/

namespace Schnorrkel.Props
open SigningTranscript
variable {P : Type} [Ristretto P] {T T' : Type} [SigningTranscript T] [SigningTranscript T']

/-! ## C09: codec -/

private theorem drop32_val {bs : Bytes} (h : bs.length = 64) :
    leNat (bs.drop 32) = leNat ((bs.drop 32).take 31) + 2 ^ 248 * (bs[63]'(by omega)).toNat := by
  have := Arr.leNat31 ⟨bs.drop 32, by simp [h]⟩
  rw [show (256:Nat) ^ 31 = 2 ^ 248 by norm_num] at this
  simpa [Arr.get] using this

private theorem lower31_lt {bs : Bytes} (h : bs.length = 64) :
    leNat ((bs.drop 32).take 31) < 2 ^ 248 := by
  have := Arr.take31_lt ⟨bs.drop 32, by simp [h]⟩
  rw [show (256:Nat) ^ 31 = 2 ^ 248 by norm_num] at this
  exact this

/-- **C09** exact layout written by `to_bytes`: `R`, then the scalar with bit 255 set. -/
theorem signature_to_bytes_layout (sig : Signature) (h : sig.s.Canonical) :
    sig.toBytes.1.length = 64 ∧ sig.toBytes.1.take 32 = sig.R.1 ∧
    leNat (sig.toBytes.1.drop 32) = sig.s.val + 2 ^ 255 := by
  refine ⟨sig.toBytes.2, ?_, ?_⟩
  · rw [Signature.toBytes_eq, Arr.take_append]
  · rw [Signature.toBytes_eq, Arr.drop_append, Arr.leNat_modify31, u8_or128]
    have h1 := Canonical.top_lt h
    have h2 := sig.s.bytes.leNat31
    unfold Scalar.val
    rw [show (256:Nat) ^ 31 = 2 ^ 248 by norm_num] at *
    omega

/-- **C09** exact acceptance condition of `from_bytes`. -/
theorem signature_from_bytes_ok_iff (bs : Bytes) (sig : Signature) :
    Signature.fromBytes bs = .ok sig ↔
      bs.length = 64 ∧ bs.take 32 = sig.R.1 ∧ leNat (bs.drop 32) = sig.s.val + 2 ^ 255 ∧
        sig.s.val < ell := by
  rw [Signature.fromBytes_eq_ok]
  constructor
  · rintro ⟨rfl, h⟩
    obtain ⟨h1, h2, h3⟩ := signature_to_bytes_layout sig h
    exact ⟨h1, h2, h3, h⟩
  · rintro ⟨h1, h2, h3, h4⟩
    refine ⟨?_, h4⟩
    obtain ⟨g1, g2, g3⟩ := signature_to_bytes_layout sig h4
    rw [← List.take_append_drop 32 bs, ← List.take_append_drop 32 sig.toBytes.1, h2, g2]
    congr 1
    apply leNat_inj
    · simp [h1, g1]
    · rw [h3, g3]

/-- **C09** exact error table of `from_bytes` (length, then marker bit, then scalar range). -/
theorem signature_from_bytes_err_iff (bs : Bytes) (e : SignatureError) :
    Signature.fromBytes bs = .error e ↔
      (bs.length ≠ 64 ∧ e = .bytesLengthError "Signature" Signature.DESCRIPTION 64) ∨
      (bs.length = 64 ∧ leNat (bs.drop 32) < 2 ^ 255 ∧ e = .notMarkedSchnorrkel) ∨
      (bs.length = 64 ∧ 2 ^ 255 + ell ≤ leNat (bs.drop 32) ∧ e = .scalarFormatError) := by
  unfold Signature.fromBytes
  by_cases h : bs.length = 64
  · have hl : ¬ (bs.length ≠ SIGNATURE_LENGTH) := not_not.mpr h
    simp only [dif_neg hl]
    have hv := drop32_val h
    have hlo := lower31_lt h
    have htop := (bs[63]'(by omega)).toNat_lt
    have hget : Arr.get (⟨bs.drop 32, by simp [h]⟩ : Arr 32) 31 (by omega) = bs[63]'(by omega) := by
      simp [Arr.get]
    have hmod : leNat ((Arr.modify (⟨bs.drop 32, by simp [h]⟩ : Arr 32) 31 (· &&& 127))).1 =
        leNat ((bs.drop 32).take 31) + 2 ^ 248 * ((bs[63]'(by omega)).toNat % 128) := by
      rw [Arr.leNat_modify31, hget, u8_and127, show (256:Nat) ^ 31 = 2 ^ 248 by norm_num]
    by_cases hm : (bs[63]'(by omega)).toNat < 128
    · rw [if_pos (by rw [hget, u8_and128]; exact hm)]
      constructor
      · intro he; cases he; exact .inr (.inl ⟨h, by omega, rfl⟩)
      · rintro (⟨h1, _⟩ | ⟨_, _, rfl⟩ | ⟨_, h2, _⟩)
        · contradiction
        · rfl
        · have := ell_pos; omega
    · rw [if_neg (by rw [hget, u8_and128]; exact hm), checkScalar_eq]
      simp only [hmod]
      split
      · rename_i hc
        constructor
        · intro he; cases he
        · rintro (⟨h1, _⟩ | ⟨_, h2, rfl⟩ | ⟨_, h2, _⟩)
          · contradiction
          · omega
          · omega
      · rename_i hc
        constructor
        · intro he; cases he; exact .inr (.inr ⟨h, by omega, rfl⟩)
        · rintro (⟨h1, _⟩ | ⟨_, h2, rfl⟩ | ⟨_, h2, rfl⟩)
          · contradiction
          · omega
          · rfl
  · have hl : bs.length ≠ SIGNATURE_LENGTH := h
    rw [dif_pos hl]
    constructor
    · intro he; cases he; exact .inl ⟨h, rfl⟩
    · rintro (⟨_, rfl⟩ | ⟨h2, _⟩ | ⟨h2, _⟩)
      · rfl
      · contradiction
      · contradiction

/-- **C09** round trip in both directions, and injectivity. -/
theorem signature_bytes_roundtrip :
    (∀ sig : Signature, sig.s.Canonical → Signature.fromBytes sig.toBytes.1 = .ok sig) ∧
    (∀ bs sig, Signature.fromBytes bs = .ok sig → sig.toBytes.1 = bs ∧ sig.s.Canonical) ∧
    (∀ a b : Signature, a.s.Canonical → b.s.Canonical → a.toBytes = b.toBytes → a = b) := by
  refine ⟨fun sig h => Signature.fromBytes_eq_ok.mpr ⟨rfl, h⟩, fun bs sig h => ?_, fun a b ha hb h => ?_⟩
  · exact ⟨(Signature.fromBytes_eq_ok.mp h).1.symm, (Signature.fromBytes_eq_ok.mp h).2⟩
  · have h1 := Signature.fromBytes_eq_ok.mpr ⟨rfl, ha⟩
    have h2 := Signature.fromBytes_eq_ok.mpr ⟨rfl, hb⟩
    rw [h] at h1; rw [h1] at h2; injection h2

/-- Non-vacuity for C09: accepted, unmarked and out-of-range strings all exist. -/
example : (∃ sig, Signature.fromBytes (leBytes 64 (2 ^ 511 + 2 ^ 256 * (ell - 1))) = .ok sig) ∧
    Signature.fromBytes (leBytes 64 5) = .error .notMarkedSchnorrkel ∧
    Signature.fromBytes (leBytes 64 (2 ^ 511 + 2 ^ 256 * ell)) = .error .scalarFormatError := by
  refine ⟨⟨⟨zeros 32, Scalar.ofNat (ell - 1)⟩, ?_⟩, ?_, ?_⟩ <;> decide +kernel

/-! ## C10: completeness -/

/-- **C10** (generic) for every pair of transcript types and every simulation between them, a
signature made on the signer's transcript verifies on the verifier's transcript, whatever the RNG;
and afterwards the two transcripts are related again (**C18**). -/
theorem sign_then_verify {R : T → T' → Prop} (hR : TSim R) (sk : SecretKey)
    (t : T) (t' : T') (ht : R t t') (sys : Rng) :
    let pk : PublicKey P := sk.toPublic
    let out := sk.sign t pk sys
    (PublicKey.verify pk t' out.1).1 = .ok () ∧ R out.2.1 (PublicKey.verify pk t' out.1).2 ∧
      out.1.s.Canonical :=
  ⟨sign_verify_sim hR sk t t' ht sys, (sign_sim hR sk t t' ht _ sys).2.2.2,
    (sign_sim hR sk t t' ht _ sys).2.1⟩

/-- **C10** merlin transcripts: any history, any system RNG. -/
theorem merlin_sign_then_verify [Oracles] (sk : SecretKey) (t : Transcript)
    (sys : Rng) :
    (PublicKey.verify (sk.toPublic : PublicKey P) t (sk.sign t (sk.toPublic : PublicKey P) sys).1).1
      = .ok () := sign_verify_sim merlin_sim sk t t rfl sys

/-- **C10** signing with an attached RNG, verifying on the plain transcript. -/
theorem attached_rng_sign_then_verify [Oracles] (sk : SecretKey)
    (t : Transcript) (rng sys : Rng) :
    (PublicKey.verify (sk.toPublic : PublicKey P) t
      (sk.sign (attachRng t rng) (sk.toPublic : PublicKey P) sys).1).1 = .ok () :=
  sign_verify_sim (withRng_sim merlin_sim) sk (attachRng t rng) t rfl sys

/-- **C10** XoF-hash transcripts. -/
theorem xof_sign_then_verify [Oracles] (sk : SecretKey) (t : XoFTranscript)
    (sys : Rng) :
    (PublicKey.verify (sk.toPublic : PublicKey P) t (sk.sign t (sk.toPublic : PublicKey P) sys).1).1
      = .ok () := sign_verify_sim xof_sim sk t t rfl sys

/-- **C10** `sign_simple` / `verify_simple` and all `doublecheck` variants, on a consistent keypair;
the double-checked signature is the very signature `sign` makes. -/
theorem keypair_sign_variants_succeed [Oracles] (sk : SecretKey)
    (ctx msg : Bytes) (t : Transcript) (sys : Rng) :
    let kp : Keypair P := Keypair.ofSecret sk
    kp.verifySimple ctx msg (kp.signSimple ctx msg sys) = .ok () ∧
    kp.signDoublecheck t sys = .ok (kp.sign t sys).1 ∧
    kp.signSimpleDoublecheck ctx msg sys = .ok (kp.signSimple ctx msg sys) ∧
    sk.signDoublecheck t kp.pub sys = .ok (kp.sign t sys).1 ∧
    sk.signSimpleDoublecheck ctx msg kp.pub sys = .ok (kp.signSimple ctx msg sys) := by
  intro kp
  have hv : ∀ t : Transcript, (PublicKey.verify kp.pub t (kp.sign t sys).1).1 = .ok () :=
    fun t => sign_verify_sim merlin_sim sk t t rfl sys
  have hcod : ∀ t : Transcript,
      Signature.fromBytes (kp.sign t sys).1.toBytes.1 = .ok (kp.sign t sys).1 := fun t =>
    Signature.fromBytes_eq_ok.mpr ⟨rfl, (sign_sim (P := P) merlin_sim sk t t rfl kp.pub sys).2.1⟩
  have hpk : PublicKey.fromBytes (PublicKey.toBytes kp.pub).1 = .ok kp.pub :=
    fromBytesSer_ok.mpr ⟨rfl, rfl⟩
  refine ⟨hv _, ?_, ?_, ?_, ?_⟩
  · simp only [Keypair.signDoublecheck, hcod, hpk, bind, Except.bind, hv]
  · simp only [Keypair.signSimpleDoublecheck, hcod, hpk, bind, Except.bind, PublicKey.verifySimple, hv]
    rfl
  · simp only [SecretKey.signDoublecheck]
    change ((do
      let sig ← Signature.fromBytes (kp.sign t sys).1.toBytes.1
      let pk : PublicKey P ← PublicKey.fromBytes (PublicKey.toBytes kp.pub).1
      let () ← (PublicKey.verify pk t sig).1
      .ok sig) : SignatureResult Signature) = _
    simp only [hcod, hpk, bind, Except.bind, hv]
  · simp only [SecretKey.signSimpleDoublecheck]
    change ((do
      let sig ← Signature.fromBytes (kp.sign ((SigningContext.new ctx).bytes msg) sys).1.toBytes.1
      let pk : PublicKey P ← PublicKey.fromBytes (PublicKey.toBytes kp.pub).1
      let () ← PublicKey.verifySimple pk ctx msg sig
      .ok sig) : SignatureResult Signature) = _
    simp only [hcod, hpk, bind, Except.bind, PublicKey.verifySimple, hv]
    rfl

/-- Non-vacuity: a concrete canonical key in a concrete group, with a constant RNG, meets the
hypotheses, and the signature it makes verifies. -/
example : ∃ sk : SecretKey, sk.key.Canonical ∧ sk.key.val = 12345 ∧
    letI := toyOracles
    ∀ t : Transcript, (PublicKey.verify (sk.toPublic : PublicKey Toy) t
      (sk.sign t (sk.toPublic : PublicKey Toy) zeroRng).1).1 = .ok () := by
  have h : (SecretKey.mk (Scalar.ofNat 12345) (zeros 32)).key.Canonical := by decide +kernel
  letI := toyOracles
  exact ⟨_, h, by decide +kernel, fun t => merlin_sign_then_verify _ t zeroRng⟩

/-! ## C11: verification is the Schnorr equation -/

/-- Challenge of a merlin transcript, in terms of its log. -/
theorem sigChallenge_merlin [Oracles] (t : Transcript) (pk R : Compressed) :
    sigChallenge t pk R = Spec.schnorrChallenge t.log pk.1 R.1 := by
  unfold sigChallenge challengeScalar Spec.schnorrChallenge Spec.hashToZ
  rw [Scalar.toZ_wide]
  simp [preChallenge, commitPoint, protoName, commitBytes, SigningTranscript.challengeBytes,
    Transcript.challengeBytes, Transcript.appendMessage, Spec.schnorrFrames]

private theorem val_smul (k : Z) (A : P) : k.val • A = k • A := by
  rw [← natCast_smul, ZMod.natCast_zmod_val]

private theorem valid_iff (pk : PublicKey P) (t : T) (sig : Signature) :
    (PublicKey.verify pk t sig).1 = .ok () ↔
      Spec.SchnorrValid pk.point (sigChallenge t pk.compressed sig.R) sig.R.1 sig.s.val := by
  rw [verify_ok_iff']
  unfold Spec.SchnorrValid
  rw [val_smul, show sig.s.val • (basepoint : P) = sig.s.toZ • basepoint from
    (natCast_smul _ _).symm]
  constructor
  · rintro ⟨R, h1, h2⟩; exact ⟨R, congrArg _ h1, h2⟩
  · rintro ⟨R, h1, h2⟩; exact ⟨R, Subtype.ext h1, h2⟩

/-- **C11** `verify` on a merlin transcript returns `Ok` iff the textbook Schnorr equation holds for
the challenge hashed from exactly the documented frames; otherwise it returns `EquationFalse`. -/
theorem verify_iff_schnorr [Oracles] (pk : PublicKey P) (t : Transcript) (sig : Signature) :
    ((PublicKey.verify pk t sig).1 = .ok () ↔
      Spec.SchnorrValid pk.point (Spec.schnorrChallenge t.log pk.compressed.1 sig.R.1)
        sig.R.1 sig.s.val) ∧
    ((PublicKey.verify pk t sig).1 = .ok () ∨
      (PublicKey.verify pk t sig).1 = .error .equationFalse) := by
  refine ⟨?_, ?_⟩
  · rw [valid_iff, sigChallenge_merlin]
  · rw [verify_eq]; simp only; split
    · exact .inl rfl
    · exact .inr rfl

/-- **C11** `verify_simple` in terms of context and message. -/
theorem verify_simple_iff_schnorr [Oracles] (pk : PublicKey P) (ctx msg : Bytes) (sig : Signature) :
    PublicKey.verifySimple pk ctx msg sig = .ok () ↔
      Spec.SchnorrValid pk.point
        (Spec.schnorrChallenge (Spec.ctxLog ctx msg) pk.compressed.1 sig.R.1) sig.R.1 sig.s.val :=
  (verify_iff_schnorr pk _ sig).1

/-- **C11** `Keypair::verify` and `Keypair::verify_simple` check against the *public half* stored in the
keypair, whatever the secret half is (the two public fields of a `Keypair` need not match). -/
theorem keypair_verify_iff_schnorr [Oracles] (kp : Keypair P) (t : Transcript) (ctx msg : Bytes)
    (sig : Signature) :
    ((kp.verify t sig).1 = .ok () ↔
      Spec.SchnorrValid kp.pub.point (Spec.schnorrChallenge t.log kp.pub.compressed.1 sig.R.1)
        sig.R.1 sig.s.val) ∧
    (kp.verifySimple ctx msg sig = .ok () ↔
      Spec.SchnorrValid kp.pub.point
        (Spec.schnorrChallenge (Spec.ctxLog ctx msg) kp.pub.compressed.1 sig.R.1) sig.R.1 sig.s.val) :=
  ⟨(verify_iff_schnorr kp.pub t sig).1, verify_simple_iff_schnorr kp.pub ctx msg sig⟩

/-- **C11** for every transcript type the only outcomes are `Ok` and `EquationFalse`. -/
theorem verify_outcomes (pk : PublicKey P) (t : T) (sig : Signature) :
    (PublicKey.verify pk t sig).1 = .ok () ∨ (PublicKey.verify pk t sig).1 = .error .equationFalse := by
  rw [verify_eq]; simp only; split
  · exact .inl rfl
  · exact .inr rfl

/-! ## C12: non-malleability -/

/-- **C12** one transcript, one key, one `R` ⇒ at most one scalar verifies. -/
theorem signature_s_unique (pk : PublicKey P) (t : T) (a b : Signature) (hR : a.R = b.R)
    (ha : a.s.Canonical) (hb : b.s.Canonical)
    (va : (PublicKey.verify pk t a).1 = .ok ()) (vb : (PublicKey.verify pk t b).1 = .ok ()) :
    a = b := by
  obtain ⟨R1, h1, e1⟩ := (verify_ok_iff' _ _ _).mp va
  obtain ⟨R2, h2, e2⟩ := (verify_ok_iff' _ _ _).mp vb
  have : R1 = R2 := compress_inj.mp (by rw [h1, h2, hR])
  rw [← hR, ← this, ← e1, smul_basepoint_inj] at e2
  cases a; cases b
  simp only at hR; subst hR
  congr
  exact Scalar.Canonical.eq_of_toZ ha hb e2.symm

/-- **C12** two accepted byte strings with the same first half are identical: nobody can turn an
accepted 64-byte signature into a different accepted one keeping `R`. -/
theorem accepted_encodings_unique (pk : PublicKey P) (t : T) (x y : Bytes) (a b : Signature)
    (hx : Signature.fromBytes x = .ok a) (hy : Signature.fromBytes y = .ok b)
    (hxy : x.take 32 = y.take 32)
    (va : (PublicKey.verify pk t a).1 = .ok ()) (vb : (PublicKey.verify pk t b).1 = .ok ()) :
    x = y := by
  obtain ⟨_, ha1, _, ha2⟩ := (signature_from_bytes_ok_iff x a).mp hx
  obtain ⟨_, hb1, _, hb2⟩ := (signature_from_bytes_ok_iff y b).mp hy
  have hR : a.R = b.R := Arr.ext' (by rw [← ha1, ← hb1, hxy])
  have hab := signature_s_unique pk t a b hR ha2 hb2 va vb
  rw [(Signature.fromBytes_eq_ok.mp hx).1, (Signature.fromBytes_eq_ok.mp hy).1, hab]

/-- **C12** a signature whose `R` is not the canonical encoding of a group element never verifies. -/
theorem invalid_R_never_verifies (pk : PublicKey P) (t : T) (sig : Signature)
    (h : ∀ p : P, ¬ Spec.Encodes sig.R.1 p) :
    (PublicKey.verify pk t sig).1 = .error .equationFalse := by
  rcases verify_outcomes pk t sig with h1 | h1
  · obtain ⟨R, hR, _⟩ := (verify_ok_iff' _ _ _).mp h1
    exact absurd (congrArg Subtype.val hR) (h R)
  · exact h1

/-- Non-vacuity: there are 32-byte strings that encode no point of the toy group. -/
example : ∀ p : Toy, ¬ Spec.Encodes (leBytes 32 (2 ^ 255)) p := by
  intro p h
  unfold Spec.Encodes at h
  have h2 : decompress (leArr 32 (2 ^ 255)) = some p :=
    (Ristretto.decompress_iff _ _).mpr (Subtype.ext h)
  have h3 : (decompress (leArr 32 (2 ^ 255)) : Option Toy) = none := by decide +kernel
  rw [h3] at h2; cases h2

/-! ## C13: transfer between messages or keys -/

/-- **C13** a signature accepted for two (transcript, key) pairs forces `k₁·A₁ = k₂·A₂`. -/
theorem double_acceptance_relation (pk₁ pk₂ : PublicKey P) (t₁ : T) (t₂ : T') (sig : Signature)
    (v₁ : (PublicKey.verify pk₁ t₁ sig).1 = .ok ()) (v₂ : (PublicKey.verify pk₂ t₂ sig).1 = .ok ()) :
    sigChallenge t₁ pk₁.compressed sig.R • pk₁.point = sigChallenge t₂ pk₂.compressed sig.R • pk₂.point := by
  obtain ⟨R1, h1, e1⟩ := (verify_ok_iff' _ _ _).mp v₁
  obtain ⟨R2, h2, e2⟩ := (verify_ok_iff' _ _ _).mp v₂
  have : R1 = R2 := compress_inj.mp (by rw [h1, h2])
  rw [this, e2] at e1
  exact (add_left_cancel e1).symm

private theorem schnorrLog_inj {l₁ l₂ : List MOp} {p₁ p₂ R₁ R₂ : Bytes}
    (h : l₁ ++ Spec.schnorrFrames p₁ R₁ ++ [MOp.challenge (b! "sign:c") 64] =
      l₂ ++ Spec.schnorrFrames p₂ R₂ ++ [MOp.challenge (b! "sign:c") 64]) :
    l₁ = l₂ ∧ p₁ = p₂ ∧ R₁ = R₂ := by
  have h := List.append_cancel_right h
  obtain ⟨h1, h2⟩ := List.append_inj' h rfl
  simp only [Spec.schnorrFrames, List.cons.injEq, MOp.append.injEq, true_and, and_true] at h2
  exact ⟨h1, h2.1, h2.2⟩

/-- **C13** with a non-identity key, a signature valid for two different (context, message) pairs
exhibits a collision: two *different* hash inputs with the same challenge scalar. -/
theorem message_transfer_needs_collision [Oracles] (pk : PublicKey P) (hpk : pk.point ≠ 0)
    (ctx₁ msg₁ ctx₂ msg₂ : Bytes) (hne : (ctx₁, msg₁) ≠ (ctx₂, msg₂)) (sig : Signature)
    (v₁ : PublicKey.verifySimple pk ctx₁ msg₁ sig = .ok ())
    (v₂ : PublicKey.verifySimple pk ctx₂ msg₂ sig = .ok ()) :
    ∃ q₁ q₂ : List MOp, q₁ ≠ q₂ ∧
      q₁ = Spec.ctxLog ctx₁ msg₁ ++ Spec.schnorrFrames pk.compressed.1 sig.R.1 ++ [.challenge (b! "sign:c") 64] ∧
      q₂ = Spec.ctxLog ctx₂ msg₂ ++ Spec.schnorrFrames pk.compressed.1 sig.R.1 ++ [.challenge (b! "sign:c") 64] ∧
      Spec.hashToZ q₁ = Spec.hashToZ q₂ := by
  refine ⟨_, _, ?_, rfl, rfl, ?_⟩
  · intro h
    obtain ⟨h1, _, _⟩ := schnorrLog_inj h
    simp only [Spec.ctxLog, List.cons.injEq, MOp.append.injEq, true_and, and_true] at h1
    exact hne (Prod.ext h1.1 h1.2)
  · have := double_acceptance_relation pk pk ((SigningContext.new ctx₁).bytes msg₁)
      ((SigningContext.new ctx₂).bytes msg₂) sig v₁ v₂
    rw [sigChallenge_merlin, sigChallenge_merlin] at this
    have h0 : (Spec.schnorrChallenge (Spec.ctxLog ctx₁ msg₁) pk.compressed.1 sig.R.1 -
      Spec.schnorrChallenge (Spec.ctxLog ctx₂ msg₂) pk.compressed.1 sig.R.1) • pk.point = 0 := by
      rw [sub_smul]; exact sub_eq_zero.mpr this
    rcases smul_eq_zero.mp h0 with h | h
    · exact sub_eq_zero.mp h
    · contradiction

/-- **C13** the same signature under two different public keys queries two different hash inputs. -/
theorem key_transfer_different_queries (l : List MOp) (p₁ p₂ R : Bytes) (hne : p₁ ≠ p₂) :
    l ++ Spec.schnorrFrames p₁ R ++ [MOp.challenge (b! "sign:c") 64] ≠
    l ++ Spec.schnorrFrames p₂ R ++ [MOp.challenge (b! "sign:c") 64] :=
  fun h => hne (schnorrLog_inj h).2.1

/-! ## C14: the identity public key -/

/-- **C14 (defect)** `PublicKey::from_bytes` accepts the all-zero string, and under that key the
publicly computable pair `(compress(s·B), s)` verifies for every transcript of every type and every
scalar `s`. -/
theorem identity_key_universal_forgery :
    (PublicKey.fromBytes (List.replicate 32 0) = .ok (RistrettoBoth.default : PublicKey P)) ∧
    ∀ (t : T) (s : Scalar),
      (PublicKey.verify (RistrettoBoth.default : PublicKey P) t
        ⟨compress (s.val • (basepoint : P)), s⟩).1 = .ok () := by
  refine ⟨fromBytesSer_ok.mpr ⟨rfl, wf_default⟩, fun t s => ?_⟩
  rw [verify_ok_iff]
  simp only [RistrettoBoth.default, smul_zero, sub_zero]
  rw [← natCast_smul]; rfl

/-- **C14 (negation)** so "an accepted public key with an accepted signature implies knowledge of a
message-specific signature" fails: one fixed signature verifies for all messages. -/
theorem identity_key_one_signature_all_messages :
    ∃ (pk : PublicKey P) (sig : Signature), PublicKey.fromBytes pk.compressed.1 = .ok pk ∧
      ∀ t : T, (PublicKey.verify pk t sig).1 = .ok () :=
  ⟨RistrettoBoth.default, ⟨compress (Scalar.one.val • (basepoint : P)), Scalar.one⟩,
    fromBytesSer_ok.mpr ⟨rfl, wf_default⟩, fun t => identity_key_universal_forgery.2 t Scalar.one⟩

/-- **C14** for every non-identity key a fixed signature determines the challenge it verifies with. -/
theorem nonidentity_key_pins_challenge (pk : PublicKey P) (hpk : pk.point ≠ 0) (t₁ : T) (t₂ : T')
    (sig : Signature) (v₁ : (PublicKey.verify pk t₁ sig).1 = .ok ())
    (v₂ : (PublicKey.verify pk t₂ sig).1 = .ok ()) :
    sigChallenge t₁ pk.compressed sig.R = sigChallenge t₂ pk.compressed sig.R := by
  have := double_acceptance_relation pk pk t₁ t₂ sig v₁ v₂
  have h0 : (sigChallenge t₁ pk.compressed sig.R - sigChallenge t₂ pk.compressed sig.R) • pk.point = 0 := by
    rw [sub_smul]; exact sub_eq_zero.mpr this
  rcases smul_eq_zero.mp h0 with h | h
  · exact sub_eq_zero.mp h
  · contradiction

/-! ## C15: nonces -/

/-- **C15** special soundness: two accepted signatures with the same `R` and different challenges
reveal the secret scalar. -/
theorem nonce_reuse_reveals_key (sk : SecretKey) (pk : PublicKey P)
    (hpk : pk.point = sk.key.val • (basepoint : P)) (t₁ : T) (t₂ : T') (a b : Signature)
    (hR : a.R = b.R)
    (va : (PublicKey.verify pk t₁ a).1 = .ok ()) (vb : (PublicKey.verify pk t₂ b).1 = .ok ())
    (hk : sigChallenge t₁ pk.compressed a.R ≠ sigChallenge t₂ pk.compressed b.R) :
    sk.key.toZ = (a.s.toZ - b.s.toZ) /
      (sigChallenge t₁ pk.compressed a.R - sigChallenge t₂ pk.compressed b.R) := by
  obtain ⟨R1, h1, e1⟩ := (verify_ok_iff' _ _ _).mp va
  obtain ⟨R2, h2, e2⟩ := (verify_ok_iff' _ _ _).mp vb
  have : R1 = R2 := compress_inj.mp (by rw [h1, h2, hR])
  subst this
  rw [hpk, ← natCast_smul] at e1 e2
  have e3 : (a.s.toZ - b.s.toZ) • (basepoint : P) =
    ((sigChallenge t₁ pk.compressed a.R - sigChallenge t₂ pk.compressed b.R) * sk.key.toZ) • basepoint := by
    rw [sub_smul, e1, e2]; unfold Scalar.toZ; module
  rw [smul_basepoint_inj] at e3
  rw [e3, mul_comm, mul_div_assoc, div_self (sub_ne_zero.mpr hk), mul_one]

/-- The hash query from which a merlin signer derives its nonce. -/
def nonceQuery (log : List MOp) (pk seed rng32 : Bytes) : List MOp :=
  log ++ [.append (b! "proto-name") (b! "Schnorr-sig"), .append (b! "sign:pk") pk,
    .rekey (b! "signing") seed, .rngKey rng32, .prf 64]

/-- **C15** the published `R` is `r·B` for `r` the hash of the whole transcript, the public key, the
secret nonce seed and 32 RNG bytes. -/
theorem sign_nonce_is_hash [Oracles] (sk : SecretKey) (pk : PublicKey P) (t : Transcript) (sys : Rng) :
    (sk.sign t pk sys).1.R =
      compress ((Spec.hashToZ (nonceQuery t.log pk.compressed.1 sk.nonce.1 (sys.fill 32).1.1)).val •
        (basepoint : P)) := by
  rw [val_smul]
  change compress (signNonce sk t pk.compressed sys •. (basepoint : P)) = _
  rw [mulPoint_eq]
  unfold signNonce witnessScalar Spec.hashToZ nonceQuery
  rw [Scalar.toZ_wide]
  simp [commitPoint, protoName, commitBytes, SigningTranscript.witnessBytes, witnessBytesRng,
    Transcript.appendMessage, Transcript.rekeyAll, Transcript.finalizeRng, Transcript.rngFill]

/-- **C15** any difference in transcript, public key, nonce seed or RNG bytes gives a different query
— with equal RNG bytes (a broken RNG) the others still separate. -/
theorem nonce_query_injective (l₁ l₂ : List MOp) (p₁ p₂ s₁ s₂ r₁ r₂ : Bytes) :
    nonceQuery l₁ p₁ s₁ r₁ = nonceQuery l₂ p₂ s₂ r₂ ↔ l₁ = l₂ ∧ p₁ = p₂ ∧ s₁ = s₂ ∧ r₁ = r₂ := by
  constructor
  · intro h
    unfold nonceQuery at h
    obtain ⟨h1, h2⟩ := List.append_inj' h rfl
    simp only [List.cons.injEq, MOp.append.injEq, MOp.rekey.injEq, MOp.rngKey.injEq, true_and,
      and_true] at h2
    exact ⟨h1, h2.1, h2.2.1, h2.2.2⟩
  · rintro ⟨rfl, rfl, rfl, rfl⟩; rfl

/-- **C15** a nonce query is never a challenge query (so challenges reveal nothing about nonces). -/
theorem nonce_query_ne_challenge_query (l₁ l₂ : List MOp) (p s r lab : Bytes) (n : Nat) :
    nonceQuery l₁ p s r ≠ l₂ ++ [.challenge lab n] := by
  intro h
  unfold nonceQuery at h
  have := congrArg List.getLast? h
  simp at this

/-! ## C17: double checking -/

/-- **C17** `sign_doublecheck` returns `Ok` only with a signature that verifies. -/
theorem doublecheck_sound (kp : Keypair P) (t : T) (sys : Rng) (sig : Signature)
    (h : kp.signDoublecheck t sys = .ok sig) :
    ∃ pk : PublicKey P, PublicKey.fromBytes (PublicKey.toBytes kp.pub).1 = .ok pk ∧
      (PublicKey.verify pk t sig).1 = .ok () ∧ sig.s.Canonical := by
  unfold Keypair.signDoublecheck at h
  cases h1 : Signature.fromBytes (kp.sign t sys).1.toBytes.1 with
  | error e => simp [h1, bind, Except.bind] at h
  | ok s1 =>
    cases h2 : (PublicKey.fromBytes (PublicKey.toBytes kp.pub).1 : SignatureResult (PublicKey P)) with
    | error e => simp [h1, h2, bind, Except.bind] at h
    | ok pk =>
      cases h3 : (PublicKey.verify pk t s1).1 with
      | error e => simp [h1, h2, h3, bind, Except.bind] at h
      | ok u =>
        simp only [h1, h2, h3, bind, Except.bind] at h
        injection h with h; subst h
        exact ⟨pk, rfl, h3, (Signature.fromBytes_eq_ok.mp h1).2⟩

/-- **C17** on a corrupted keypair (public ≠ secret·B) the double check fails with `EquationFalse`,
unless the hashed challenge happens to be zero. -/
theorem doublecheck_detects_mismatch [Oracles] (kp : Keypair P) (hwf : kp.pub.WF)
    (t : Transcript) (sys : Rng) :
    (∃ sig, kp.signDoublecheck t sys = .ok sig) ↔
      (kp.pub.point = kp.secret.key.val • (basepoint : P) ∨
       Spec.schnorrChallenge t.log kp.pub.compressed.1 (kp.sign t sys).1.R.1 = 0) := by
  obtain ⟨h1, h2, h3, _⟩ := sign_sim (P := P) merlin_sim kp.secret t t rfl kp.pub sys
  have hcod : Signature.fromBytes (kp.sign t sys).1.toBytes.1 = .ok (kp.sign t sys).1 :=
    Signature.fromBytes_eq_ok.mpr ⟨rfl, h2⟩
  have hpk : PublicKey.fromBytes (PublicKey.toBytes kp.pub).1 = .ok kp.pub :=
    fromBytesSer_ok.mpr ⟨rfl, hwf⟩
  have hv : (PublicKey.verify kp.pub t (kp.sign t sys).1).1 = .ok () ↔
      (kp.pub.point = kp.secret.key.val • (basepoint : P) ∨
       Spec.schnorrChallenge t.log kp.pub.compressed.1 (kp.sign t sys).1.R.1 = 0) := by
    rw [verify_ok_iff]
    change compress ((kp.secret.sign t kp.pub sys).1.s.toZ • (basepoint : P) -
      sigChallenge t kp.pub.compressed (kp.secret.sign t kp.pub sys).1.R • kp.pub.point) =
        (kp.secret.sign t kp.pub sys).1.R ↔ _
    rw [h3]
    conv_lhs => rhs; rw [h1]
    rw [compress_inj]
    rw [← sigChallenge_merlin]
    change _ ↔ _ ∨ sigChallenge t kp.pub.compressed (kp.secret.sign t kp.pub sys).1.R = 0
    generalize sigChallenge t kp.pub.compressed (kp.secret.sign t kp.pub sys).1.R = k
    generalize (signNonce kp.secret t kp.pub.compressed sys).toZ = r
    have : (k * kp.secret.key.toZ + r) • (basepoint : P) - k • kp.pub.point - r • basepoint =
      k • (kp.secret.key.toZ • (basepoint : P) - kp.pub.point) := by module
    rw [← sub_eq_zero, this, smul_eq_zero, sub_eq_zero, or_comm, ← natCast_smul]
    constructor
    · rintro (h | h)
      · exact .inl h.symm
      · exact .inr h
    · rintro (h | h)
      · exact .inl h.symm
      · exact .inr h
  rw [← hv]
  simp only [Keypair.signDoublecheck, hcod, hpk, bind, Except.bind]
  cases h : (PublicKey.verify kp.pub t (kp.sign t sys).1).1 <;> simp

/-! ## C18: transcripts after `&mut` use -/

/-- **C18** after signing and after verifying, a merlin transcript's history is the old history plus
exactly the four Schnorr frames — for the signer too, so RNG and nonce leave no trace. -/
theorem transcript_after_sign_and_verify [Oracles] (sk : SecretKey) (pk : PublicKey P)
    (t : Transcript) (sys : Rng) (sig : Signature) :
    (sk.sign t pk sys).2.1.log = t.log ++
      Spec.schnorrFrames pk.compressed.1 (sk.sign t pk sys).1.R.1 ++ [.challenge (b! "sign:c") 64] ∧
    (PublicKey.verify pk t sig).2.log = t.log ++
      Spec.schnorrFrames pk.compressed.1 sig.R.1 ++ [.challenge (b! "sign:c") 64] := by
  constructor
  · simp [SecretKey.sign, commitPoint, protoName, commitBytes, challengeScalar, witnessScalar,
      SigningTranscript.witnessBytes, witnessBytesRng, SigningTranscript.challengeBytes,
      Transcript.challengeBytes, Transcript.appendMessage, Spec.schnorrFrames]
  · rw [verify_eq]
    simp [preChallenge, commitPoint, protoName, commitBytes, challengeScalar,
      SigningTranscript.challengeBytes,
      Transcript.challengeBytes, Transcript.appendMessage, Spec.schnorrFrames]

/-- **C18** signing on a transcript with an attached RNG advances only that RNG; with a plain
transcript only the system RNG, each by exactly one 32-byte request. -/
theorem sign_rng_usage [Oracles] (sk : SecretKey) (pk : PublicKey P) (t : Transcript) (rng sys : Rng) :
    (sk.sign t pk sys).2.2 = (sys.fill 32).2 ∧
    (sk.sign (attachRng t rng) pk sys).2.2 = sys ∧
    (sk.sign (attachRng t rng) pk sys).2.1.rng = (rng.fill 32).2 ∧
    (sk.sign (attachRng t rng) pk sys).1 = (sk.sign t pk rng).1 :=
  ⟨rfl, rfl, rfl, rfl⟩

/-! ## C45: pre-audit format -/

/-- The challenge of the pre-audit scheme. -/
def legacyChallenge [Oracles] (ctx msg pk R : Bytes) : Z :=
  Spec.hashToZ [.append (b! "dom-sep") ctx, .append (b! "sign-bytes") msg,
    .append (b! "proto-name") (b! "Schnorr-sig"), .append (b! "pk") pk, .append (b! "no") R,
    .challenge (b! "") 64]

private theorem legacy_from_bytes (bs : Bytes) (h : bs.length = 64) (hm : leNat (bs.drop 32) < 2 ^ 255)
    (r : SignatureResult Signature) :
    Signature.fromBytesNotDistinguishedFromEd25519 bs = r ↔
      (∃ sig : Signature, r = .ok sig ∧ bs = sig.R.1 ++ sig.s.bytes.1 ∧ sig.s.val < ell) ∨
      (r = .error .scalarFormatError ∧ ell ≤ leNat (bs.drop 32)) := by
  have hl : ¬ (bs.length ≠ SIGNATURE_LENGTH) := not_not.mpr h
  unfold Signature.fromBytesNotDistinguishedFromEd25519
  rw [if_neg hl]
  have hv := drop32_val h
  have hlo := lower31_lt h
  have h63 : (bs[63]'(by omega)).toNat < 128 := by omega
  set lo : Arr 32 := ⟨bs.take 32, by simp [h]⟩ with hlo'
  set up : Arr 32 := ⟨bs.drop 32, by simp [h]⟩ with hup
  have hbs : bs = lo.1 ++ up.1 := by simp [hlo', hup]
  have hmod : bs.modify 63 (· ||| 128) = (Signature.mk lo ⟨up⟩).toBytes.1 := by
    rw [Signature.toBytes_eq]
    conv_lhs => rw [hbs]
    rw [modify_append_right _ _ _ _ (by rw [lo.2]; omega), lo.2]
    rfl
  have hget : up.get 31 (by omega) = bs[63]'(by omega) := by simp [Arr.get, hup]
  have hfrom : Signature.fromBytes (bs.modify 63 (· ||| 128)) =
      if leNat up.1 < ell then .ok ⟨lo, ⟨up⟩⟩ else .error .scalarFormatError := by
    rw [hmod]
    have hlen := (Signature.mk lo ⟨up⟩).toBytes.2
    split
    · exact Signature.fromBytes_eq_ok.mpr ⟨rfl, by assumption⟩
    · rename_i hc
      rw [signature_from_bytes_err_iff]
      refine .inr (.inr ⟨hlen, ?_, rfl⟩)
      rw [Signature.toBytes_eq, Arr.drop_append, Arr.leNat_modify31, u8_or128]
      have := up.leNat31
      have h2 : (Arr.get up 31 (by omega)).toNat < 128 := by rw [hget]; exact h63
      simp only
      rw [show (256:Nat) ^ 31 = 2 ^ 248 by norm_num] at *
      omega
  rw [hfrom]
  split
  · rename_i hc
    constructor
    · intro hr
      exact .inl ⟨⟨lo, ⟨up⟩⟩, hr.symm, hbs, hc⟩
    · rintro (⟨sig, rfl, h1, h2⟩ | ⟨_, h2⟩)
      · congr 1
        have e1 : lo = sig.R := Arr.ext' (by simp only [hlo']; rw [h1, Arr.take_append])
        have e2 : up = sig.s.bytes := Arr.ext' (by simp only [hup]; rw [h1, Arr.drop_append])
        rw [e1, e2]
      · exact absurd hc (by simp only [hup]; omega)
  · rename_i hc
    constructor
    · intro hr; exact .inr ⟨hr.symm, by simp only [hup] at hc; omega⟩
    · rintro (⟨sig, rfl, h1, h2⟩ | ⟨rfl, _⟩)
      · exfalso; apply hc
        have e2 : up = sig.s.bytes := Arr.ext' (by simp only [hup]; rw [h1, Arr.drop_append])
        rw [e2]; exact h2
      · rfl

/-- **C45** decision table of `from_bytes_not_distinguished_from_ed25519`: as `from_bytes`, with bit 255 of the scalar
ignored instead of required. -/
theorem unmarked_from_bytes_table (bs : Bytes) :
    (∀ sig : Signature, Signature.fromBytesNotDistinguishedFromEd25519 bs = .ok sig ↔
      bs.length = 64 ∧ bs.take 32 = sig.R.1 ∧ leNat (bs.drop 32) % 2 ^ 255 = sig.s.val ∧ sig.s.val < ell) ∧
    (∀ e, Signature.fromBytesNotDistinguishedFromEd25519 bs = .error e ↔
      (bs.length ≠ 64 ∧ e = .bytesLengthError "Signature" Signature.DESCRIPTION 64) ∨
      (bs.length = 64 ∧ ell ≤ leNat (bs.drop 32) % 2 ^ 255 ∧ e = .scalarFormatError)) := by
  unfold Signature.fromBytesNotDistinguishedFromEd25519
  by_cases h : bs.length = 64
  swap
  · have hl : bs.length ≠ SIGNATURE_LENGTH := h
    rw [if_pos hl]
    refine ⟨fun sig => ⟨nofun, fun h' => absurd h'.1 h⟩, fun e => ?_⟩
    constructor
    · intro he; cases he; exact .inl ⟨h, rfl⟩
    · rintro (⟨-, rfl⟩ | ⟨h', -⟩)
      · rfl
      · exact absurd h' h
  have hl : ¬ (bs.length ≠ SIGNATURE_LENGTH) := not_not.mpr h
  rw [if_neg hl]
  set bs' := bs.modify 63 (· ||| 128) with hbs'
  have hlen : bs'.length = 64 := by rw [hbs', List.length_modify]; exact h
  have htake : bs'.take 32 = bs.take 32 := by
    rw [hbs', ← List.take_append_drop 32 bs, modify_append_right _ _ _ _ (by simp [h]), List.take_left' (by simp [h]),
      List.take_left' (by simp [h])]
  have hdrop : leNat (bs'.drop 32) = leNat (bs.drop 32) % 2 ^ 255 + 2 ^ 255 := by
    let up : Arr 32 := ⟨bs.drop 32, by simp [h]⟩
    have e : bs'.drop 32 = (Arr.modify up 31 (· ||| 128)).1 := by
      rw [hbs']
      conv_lhs => rw [← List.take_append_drop 32 bs]
      rw [modify_append_right _ _ _ _ (by simp [h]), List.drop_left' (by simp [h])]
      simp [Arr.modify, h, up]
    have e2 : leNat (bs.drop 32) = leNat up.1 := rfl
    rw [e, e2, Arr.leNat_modify31, u8_or128]
    have h2 := Arr.leNat31 up
    have h3 := Arr.take31_lt up
    have h4 := (Arr.get up 31 (by omega)).toNat_lt
    generalize (Arr.get up 31 (by omega)).toNat = x at *
    rw [show (256:Nat) ^ 31 = 2 ^ 248 by norm_num] at *
    omega
  constructor
  · intro sig
    rw [signature_from_bytes_ok_iff, htake, hdrop]
    constructor
    · rintro ⟨-, h1, h2, h3⟩; exact ⟨h, h1, by omega, h3⟩
    · rintro ⟨-, h1, h2, h3⟩; exact ⟨hlen, h1, by omega, h3⟩
  · intro e
    rw [signature_from_bytes_err_iff, hdrop]
    constructor
    · rintro (⟨h1, -⟩ | ⟨-, h2, -⟩ | ⟨-, h2, h3⟩)
      · exact absurd hlen h1
      · omega
      · exact .inr ⟨h, by omega, h3⟩
    · rintro (⟨h1, -⟩ | ⟨-, h2, h3⟩)
      · exact absurd h h1
      · exact .inr (.inr ⟨hlen, by omega, h3⟩)

/-- **C45** byte strings carrying the marker bit are decided exactly as by decoding plus
`verify_simple`; the legacy transcript is never consulted for them. -/
theorem preaudit_marked_is_current [Oracles] (pk : PublicKey P) (ctx msg sig : Bytes)
    (hm : 2 ^ 255 ≤ leNat (sig.drop 32)) :
    PublicKey.verifySimplePreauditDeprecated pk ctx msg sig =
      (Signature.fromBytes sig >>= fun s => PublicKey.verifySimple pk ctx msg s) := by
  unfold PublicKey.verifySimplePreauditDeprecated
  cases h : Signature.fromBytes sig with
  | ok s => rfl
  | error e =>
    simp only [bind, Except.bind]
    rcases (signature_from_bytes_err_iff _ _).mp h with ⟨h1, rfl⟩ | ⟨_, h2, _⟩ | ⟨h1, h2, rfl⟩
    · have hl : sig.length ≠ SIGNATURE_LENGTH := h1
      unfold Signature.fromBytesNotDistinguishedFromEd25519
      rw [if_pos hl]; rfl
    · omega
    · have hl : ¬ (sig.length ≠ SIGNATURE_LENGTH) := not_not.mpr h1
      unfold Signature.fromBytesNotDistinguishedFromEd25519
      rw [if_neg hl]
      have hv := drop32_val h1
      have hlo := lower31_lt h1
      have htop := (sig[63]'(by omega)).toNat_lt
      have hsame : sig.modify 63 (· ||| 128) = sig := by
        have : (sig[63]'(by omega)) ||| (128 : UInt8) = sig[63]'(by omega) := by
          apply UInt8.toNat_inj.mp; rw [u8_or128]; omega
        apply List.ext_getElem (by simp)
        intro i hi1 hi2
        rw [List.getElem_modify]
        split
        · rename_i h; subst h; exact this
        · rfl
      rw [hsame, h]

/-- **C45** unmarked 64-byte strings are decided only by the legacy equation over the legacy
transcript (with an out-of-range scalar rejected). -/
theorem preaudit_unmarked_is_legacy [Oracles] (pk : PublicKey P) (ctx msg sig : Bytes)
    (hl : sig.length = 64) (hm : leNat (sig.drop 32) < 2 ^ 255) :
    PublicKey.verifySimplePreauditDeprecated pk ctx msg sig = .ok () ↔
      leNat (sig.drop 32) < ell ∧
      Spec.SchnorrValid pk.point (legacyChallenge ctx msg pk.compressed.1 (sig.take 32))
        (sig.take 32) (leNat (sig.drop 32)) := by
  unfold PublicKey.verifySimplePreauditDeprecated
  rw [(signature_from_bytes_err_iff sig .notMarkedSchnorrkel).mpr (.inr (.inl ⟨hl, hm, rfl⟩))]
  simp only
  rcases (legacy_from_bytes sig hl hm _).mp rfl with ⟨s, h1, h2, h3⟩ | ⟨h1, h2⟩
  · rw [h1]
    simp only [bind, Except.bind]
    have e1 : sig.take 32 = s.R.1 := by rw [h2, Arr.take_append]
    have e2 : sig.drop 32 = s.s.bytes.1 := by rw [h2, Arr.drop_append]
    rw [e1, e2]
    have hk : (challengeScalar (commitPoint (commitPoint (protoName
        ((Transcript.new ctx).appendMessage (b! "sign-bytes") msg) (b! "Schnorr-sig"))
        (b! "pk") pk.compressed) (b! "no") s.R) (b! "")).1.toZ =
        legacyChallenge ctx msg pk.compressed.1 s.R.1 := by
      unfold challengeScalar legacyChallenge Spec.hashToZ
      rw [Scalar.toZ_wide]; rfl
    have hval : ∀ k : Z, Spec.SchnorrValid pk.point k s.R.1 (leNat s.s.bytes.1) ↔
        compress (k • (-pk.point) + s.s.toZ • (basepoint : P)) = s.R := by
      intro k
      unfold Spec.SchnorrValid
      rw [show leNat s.s.bytes.1 • (basepoint : P) = s.s.toZ • basepoint from
        (natCast_smul _ _).symm]
      simp only [val_smul]
      constructor
      · rintro ⟨R, hR, he⟩; rw [he, ← Subtype.ext hR]; congr 1; module
      · intro h; exact ⟨_, congrArg _ h, by module⟩
    rw [hval, ← hk]
    simp only [doubleScalarMulBasepoint, mulPoint_eq]
    split
    · rename_i h; simp only [true_iff]; exact ⟨h3, h⟩
    · rename_i h; simp only [reduceCtorEq, false_iff]; rintro ⟨_, h4⟩; exact h h4
  · rw [h1]
    simp only [bind, Except.bind, reduceCtorEq, false_iff]
    rintro ⟨h3, _⟩; omega

end Schnorrkel.Props
