import Verif.Props.VrfBatch
import Verif.Props.Aead

/-! # C89: evaluating the VRF on a given point (key exchange proofs, OPRFs, sequential VRFs) -/

namespace Schnorrkel.Props
open SigningTranscript Spec
variable {P : Type} [Ristretto P] {T T' : Type} [SigningTranscript T] [SigningTranscript T']

private theorem val_smul (s : Scalar) (p : P) : s.val • p = s.toZ • p := by
  unfold Scalar.toZ; rw [natCast_smul]

/-- **C89** `vrf_create_from_point`: the input is kept, the output is the secret scalar times it, with its own encoding. -/
theorem create_from_point_spec (sk : SecretKey) (I : RistrettoBoth P) :
    (sk.vrfCreateFromPoint I).input = I ∧ (sk.vrfCreateFromPoint I).output.point = sk.key.val • I.point ∧
    (sk.vrfCreateFromPoint I).output.compressed = compress (sk.key.val • I.point) := by
  refine ⟨rfl, ?_, ?_⟩
  · rw [val_smul]; exact mulPoint_eq _ _
  · rw [val_smul, ← mulPoint_eq]; rfl

/-- **C89** decision table of `vrf_create_from_compressed_point`: it succeeds iff the bytes are the encoding of a point,
otherwise the error is `PointDecompressionError`. -/
theorem create_from_compressed_table (sk : SecretKey) (o : VRFPreOut) :
    (∀ p : VRFInOut P, sk.vrfCreateFromCompressedPoint o = .ok p ↔
      ∃ I : P, compress I = o.bytes ∧
        p = ⟨⟨o.bytes, I⟩, ⟨compress (sk.key.val • I), sk.key.val • I⟩⟩) ∧
    (∀ e, (sk.vrfCreateFromCompressedPoint o : SignatureResult (VRFInOut P)) = .error e ↔
      e = .pointDecompressionError ∧ ∀ I : P, compress I ≠ o.bytes) := by
  unfold SecretKey.vrfCreateFromCompressedPoint
  rcases h : (RistrettoBoth.fromCompressed o.bytes : SignatureResult (RistrettoBoth P)) with e | r
  · have h' := fromCompressed_err.mp h
    refine ⟨fun p => ⟨nofun, fun ⟨I, hI, _⟩ => absurd hI (h'.2 I)⟩, fun e' => ?_⟩
    show Except.error e = Except.error e' ↔ _
    constructor
    · intro he; cases he; exact h'
    · rintro ⟨rfl, -⟩; rw [h'.1]
  · obtain ⟨h1, h2⟩ := fromCompressed_ok.mp h
    have hr : r = ⟨o.bytes, r.point⟩ := by rw [← h1]
    have hc : sk.vrfCreateFromPoint r = ⟨⟨o.bytes, r.point⟩, ⟨compress (sk.key.val • r.point), sk.key.val • r.point⟩⟩ := by
      conv_lhs => rw [hr]
      simp only [SecretKey.vrfCreateFromPoint, RistrettoBoth.fromPoint, mulPoint_eq, val_smul]
    refine ⟨fun p => ?_, fun e => ⟨nofun, fun ⟨_, hI⟩ => absurd (h2.trans h1) (hI _)⟩⟩
    show Except.ok (sk.vrfCreateFromPoint r) = Except.ok p ↔ _
    rw [hc]
    constructor
    · intro he; cases he; exact ⟨r.point, h2.trans h1, rfl⟩
    · rintro ⟨I, hI, rfl⟩
      have : I = r.point := compress_inj.mp (hI.trans (h2.trans h1).symm)
      rw [this]

/-- **C89** the proof for an evaluation on bytes sent by somebody else convinces that somebody, who rebuilds the pair
from the bytes it sent and the output bytes it received: both framings, all transcripts in related states. -/
theorem evaluation_proof_verifies {Rel : T → T' → Prop} (hR : TSim Rel) (sk : SecretKey) {t : T} {t' : T'}
    (ht : Rel t t') (o : VRFPreOut) (p : VRFInOut P) (h : sk.vrfCreateFromCompressedPoint o = .ok p)
    (kusama : Bool) (sys : Rng) :
    let kp : Keypair P := sk.toKeypair
    let out := kp.dleqProove t p kusama sys
    ∃ I O : RistrettoBoth P, RistrettoBoth.fromCompressed o.bytes = .ok I ∧
      RistrettoBoth.fromCompressed p.toPreout.bytes = .ok O ∧
      (PublicKey.dleqVerify kp.pub t' ⟨I, O⟩ out.1.1 kusama).1 = .ok out.1.2 := by
  intro kp out
  obtain ⟨I, hI, rfl⟩ := ((create_from_compressed_table sk o).1 p).mp h
  exact ⟨⟨o.bytes, I⟩, ⟨compress (sk.key.val • I), sk.key.val • I⟩, fromCompressed_ok.mpr ⟨rfl, hI⟩,
    fromCompressed_ok.mpr ⟨rfl, rfl⟩, (dleq_prove_then_verify hR sk ht _ rfl kusama sys).1⟩

/-- **C89** OPRF: evaluating on the blinded point `r·I` and multiplying by `r⁻¹` gives the evaluation on `I`. -/
theorem oprf_unblind (sk : SecretKey) (I : P) (r : Z) (hr : r ≠ 0) :
    ∃ p : VRFInOut P, sk.vrfCreateFromCompressedPoint ⟨compress (r • I)⟩ = .ok p ∧
      r⁻¹ • p.output.point = (sk.vrfCreateFromPoint (RistrettoBoth.fromPoint I)).output.point := by
  refine ⟨_, ((create_from_compressed_table sk _).1 _).mpr ⟨r • I, rfl, rfl⟩, ?_⟩
  rw [(create_from_point_spec sk _).2.1]
  show r⁻¹ • sk.key.val • r • I = sk.key.val • I
  rw [val_smul, val_smul, smul_comm r⁻¹, smul_smul r⁻¹, inv_mul_cancel₀ hr, one_smul]

/-- **C89** OPRF: the blinded bytes hide the input perfectly: every point other than the identity is the blinding of
every input other than the identity, under exactly one factor. -/
theorem oprf_blinding_hides (I B : P) (hI : I ≠ 0) :
    ∃! r : Z, compress (r • I) = compress B := by
  obtain ⟨i, rfl⟩ := exists_smul_basepoint I
  obtain ⟨b, rfl⟩ := exists_smul_basepoint B
  have hi : i ≠ 0 := fun h => hI (by rw [h, zero_smul])
  refine ⟨b / i, ?_, ?_⟩
  · show compress ((b / i) • i • _) = _
    rw [smul_smul, div_mul_cancel₀ _ hi]
  · intro r hr
    have h := compress_inj.mp hr
    rw [smul_smul] at h
    have h2 : (r * i - b) • (basepoint : P) = 0 := by rw [sub_smul, h, sub_self]
    rcases smul_eq_zero'.mp h2 with h3 | h3
    · rw [eq_div_iff hi]; exact sub_eq_zero.mp h3
    · exact absurd h3 Ristretto.basepoint_ne

/-- **C89** sequential VRFs: evaluating with one key on the output of another never fails, the order of the keys does
not matter, and the result is the product of the two scalars times the first input. -/
theorem sequential_evaluation (a b : SecretKey) (I : RistrettoBoth P) :
    ∃ p q : VRFInOut P,
      b.vrfCreateFromCompressedPoint (a.vrfCreateFromPoint I).toPreout = .ok p ∧
      a.vrfCreateFromCompressedPoint (b.vrfCreateFromPoint I).toPreout = .ok q ∧
      p.toPreout = q.toPreout ∧ p.output.point = (a.key.val * b.key.val) • I.point := by
  have ha := create_from_point_spec a I
  have hb := create_from_point_spec b I
  refine ⟨_, _, ((create_from_compressed_table b _).1 _).mpr ⟨_, ha.2.2.symm, rfl⟩,
    ((create_from_compressed_table a _).1 _).mpr ⟨_, hb.2.2.symm, rfl⟩, ?_, ?_⟩
  · show (⟨compress (b.key.val • a.key.val • I.point)⟩ : VRFPreOut) = ⟨compress (a.key.val • b.key.val • I.point)⟩
    rw [smul_smul, smul_smul, mul_comm]
  · show b.key.val • a.key.val • I.point = _
    rw [smul_smul, mul_comm]

/-- **C89** key exchange: the output of the evaluation on a peer's public key is the raw shared secret, so a proof for
the pair proves the exchange; and the two sides' evaluations have the same output bytes. -/
theorem key_exchange_is_evaluation (a b : SecretKey) (pk : PublicKey P) :
    (a.vrfCreateFromPoint pk).asOutputBytes = a.rawKeyExchange pk ∧
    (a.vrfCreateFromPoint (b.toPublic : PublicKey P)).toPreout = (b.vrfCreateFromPoint (a.toPublic : PublicKey P)).toPreout := by
  refine ⟨rfl, ?_⟩
  show (⟨a.rawKeyExchange (b.toPublic : PublicKey P)⟩ : VRFPreOut) = ⟨b.rawKeyExchange (a.toPublic : PublicKey P)⟩
  rw [(raw_key_exchange_agree (P := P) a b).1]

/-- **C89** the caution in the documentation, made exact: whoever may ask for evaluations on points of his choice gets
the VRF output of that key on any transcript, malleable or not, and the key of any message encrypted to that key
with `init_aead32_unauthenticated`. -/
theorem evaluation_oracle_gives_outputs (sk : SecretKey) (t : VRFTranscript T) (sys : Rng) :
    let kp : Keypair P := sk.toKeypair
    let x := (PublicKey.initAead32Unauthenticated kp.pub sys).1
    (∃ p : VRFInOut P, sk.vrfCreateFromCompressedPoint ⟨(PublicKey.vrfHash kp.pub t).compressed⟩ = .ok p ∧
      p.toPreout = (kp.vrfCreateHash t).toPreout) ∧
    ∃ p : VRFInOut P, sk.vrfCreateFromCompressedPoint ⟨x.1⟩ = .ok p ∧ p.asOutputBytes = x.2 := by
  intro kp x
  constructor
  · have h := create_from_point_spec sk (PublicKey.vrfHash kp.pub t)
    refine ⟨_, ((create_from_compressed_table sk _).1 _).mpr ⟨(PublicKey.vrfHash kp.pub t).point, rfl, rfl⟩, ?_⟩
    show (⟨compress _⟩ : VRFPreOut) = ⟨(sk.vrfCreateFromPoint (PublicKey.vrfHash kp.pub t)).output.compressed⟩
    rw [h.2.2]
  · refine ⟨_, ((create_from_compressed_table sk _).1 _).mpr ⟨((SecretKey.generateWith sys).1.toPublic : PublicKey P).point, rfl, rfl⟩, ?_⟩
    show compress (sk.key.val • ((SecretKey.generateWith sys).1.toPublic : PublicKey P).point) =
      (SecretKey.generateWith sys).1.rawKeyExchange (sk.toPublic : PublicKey P)
    rw [(raw_key_exchange_agree (P := P) _ _).1, val_smul, ← mulPoint_eq]
    rfl

/-- **C89** the identity is not refused as an input here (`attach_input_hash` refuses it as an output): every key
evaluates it to the identity, so an evaluation of the identity says nothing about the key. -/
theorem evaluation_accepts_identity (sk : SecretKey) :
    ∃ p : VRFInOut P, sk.vrfCreateFromCompressedPoint ⟨zeros 32⟩ = .ok p ∧ p.asOutputBytes = zeros 32 := by
  refine ⟨_, ((create_from_compressed_table sk _).1 _).mpr ⟨0, Ristretto.compress_zero, rfl⟩, ?_⟩
  show compress (sk.key.val • (0 : P)) = _
  rw [smul_zero]; exact Ristretto.compress_zero

omit [Ristretto P] in
/-- **C89** `VRFInOut::commit` adds exactly the input and output encodings, in this order and under these labels; so it
leads to the same transcript only from the same transcript and for the same encodings. -/
theorem commit_binds [Oracles] (p q : VRFInOut P) (t u : Transcript) :
    (p.commit t).log = t.log ++ [.append (b! "vrf-in") p.input.toBytes.1, .append (b! "vrf-out") p.output.toBytes.1] ∧
    (p.commit t = q.commit u ↔ t = u ∧ p.input.toBytes = q.input.toBytes ∧ p.output.toBytes = q.output.toBytes) := by
  have hl : ∀ (p : VRFInOut P) (t : Transcript), (p.commit t).log =
      t.log ++ [.append (b! "vrf-in") p.input.toBytes.1, .append (b! "vrf-out") p.output.toBytes.1] := by
    intro p t
    simp [VRFInOut.commit, commitPoint, commitBytes, Transcript.appendMessage, RistrettoBoth.toBytes]
  refine ⟨hl p t, ⟨fun h => ?_, ?_⟩⟩
  · have h' := congrArg Transcript.log h
    rw [hl, hl] at h'
    have h2 := List.append_inj' h' rfl
    simp only [List.cons.injEq, MOp.append.injEq, true_and, and_true] at h2
    refine ⟨?_, Arr.ext' h2.2.1, Arr.ext' h2.2.2⟩
    cases t; cases u; exact congrArg _ h2.1
  · rintro ⟨rfl, h1, h2⟩
    unfold VRFInOut.commit
    unfold RistrettoBoth.toBytes at h1 h2
    rw [h1, h2]

/-! ### Non-vacuity -/

/-- a blinding factor other than one and an input other than the identity -/
example : (2 : Z) ≠ 0 ∧ (basepoint : Toy) ≠ 0 ∧ (2 : Z) • (basepoint : Toy) ≠ basepoint := by
  have h2 : (2 : Z) - 1 ≠ 0 := by
    rw [show (2 : Z) - 1 = 1 by ring]; exact one_ne_zero
  refine ⟨?_, Ristretto.basepoint_ne, fun h => ?_⟩
  · have : ((2 : ℕ) : Z) ≠ 0 := by
      rw [Ne, ZMod.natCast_eq_zero_iff]
      intro hd
      have := Nat.le_of_dvd (by norm_num) hd
      have h3 : 3 ≤ ell := by unfold ell; norm_num
      omega
    exact_mod_cast this
  · have h3 : ((2 : Z) - 1) • (basepoint : Toy) = 0 := by rw [sub_smul, h, one_smul, sub_self]
    rcases smul_eq_zero'.mp h3 with h4 | h4
    · exact h2 h4
    · exact Ristretto.basepoint_ne h4

/-- bytes of a point other than the identity, evaluated by a key other than zero -/
example : ∃ p : VRFInOut Toy, toySk.vrfCreateFromCompressedPoint ⟨compress (basepoint : Toy)⟩ = .ok p ∧ p.input.point ≠ 0 :=
  ⟨_, ((create_from_compressed_table toySk _).1 _).mpr ⟨basepoint, rfl, rfl⟩, Ristretto.basepoint_ne⟩

end Schnorrkel.Props
