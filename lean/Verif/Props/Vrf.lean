import Verif.Lemmas.Vrf
import Verif.Props.Batch

/-! # C25–C33: VRFs -/

namespace Schnorrkel.Props
open SigningTranscript
variable {P : Type} [Ristretto P] {T T' E E' : Type} [SigningTranscript T] [SigningTranscript T']
  [SigningTranscript E] [SigningTranscript E']

/-! ## C25: completeness -/

theorem create_output (kp : Keypair P) (t : VRFTranscript T) :
    (kp.vrfCreateHash t).output.point = kp.secret.key.toZ • (kp.vrfCreateHash t).input.point := by
  show kp.secret.key •. _ = _
  rw [mulPoint_eq]; rfl

theorem attach_own {Rel : T → T' → Prop} (hR : TSim Rel) (kp : Keypair P)
    {t : VRFTranscript T} {t' : VRFTranscript T'} (ht : VRel Rel t t') :
    (kp.vrfCreateHash t).toPreout.attachInputHash kp.pub t' =
      if (kp.vrfCreateHash t).output.point = 0 then .error .pointDecompressionError
      else .ok (kp.vrfCreateHash t) := by
  rw [attachInputHash_eq]
  have : (kp.vrfCreateHash t).toPreout.bytes = compress (kp.vrfCreateHash t).output.point := rfl
  rw [this, decompress_compress, ← vrfHash_vrel hR kp.pub ht]
  rfl

/-- **C25** for every pair of related VRF transcripts (any types, either malleability) and related extra
transcripts: what `vrf_sign_extra` returns is accepted by `vrf_verify_extra`, which returns the same
input/output pair and the same batchable proof — unless the output is the identity, and then
verification reports `PointDecompressionError`.  The output is always the secret key times the input. -/
theorem vrf_sign_then_verify {Rel : T → T' → Prop} (hR : TSim Rel) {RelE : E → E' → Prop}
    (hE : TSim RelE) (sk : SecretKey) {t : VRFTranscript T}
    {t' : VRFTranscript T'} (ht : VRel Rel t t') {e : E} {e' : E'} (he : RelE e e') (sys : Rng) :
    let kp : Keypair P := sk.toKeypair
    let out := kp.vrfSignExtra t e sys
    PublicKey.vrfVerifyExtra kp.pub t' out.1.toPreout out.2.1 e' =
      (if out.1.output.point = 0 then .error .pointDecompressionError else .ok (out.1, out.2.2)) ∧
    out.1.output.point = sk.key.val • out.1.input.point ∧ out.1.input = PublicKey.vrfHash kp.pub t' ∧
    out.2.1.c.Canonical ∧ out.2.1.s.Canonical := by
  intro kp out
  have hp : out.1 = kp.vrfCreateHash t := rfl
  have ho := create_output kp t
  have hk : kp.pub.point = kp.secret.key.toZ • (basepoint : P) := mulPoint_eq _ _
  obtain ⟨h1, _⟩ := dleq_complete_sim hE kp hk e e' he (kp.vrfCreateHash t) ho KUSAMA_VRF sys
  obtain ⟨_, _, _, _, _, h6, h7, _⟩ := dleqProove_sim hE kp e e' he (kp.vrfCreateHash t) KUSAMA_VRF sys
  refine ⟨?_, rfl, ?_, h7, h6⟩
  · unfold PublicKey.vrfVerifyExtra
    rw [hp, attach_own hR kp ht]
    split
    · rfl
    · show (do let b ← (PublicKey.dleqVerify kp.pub e' (kp.vrfCreateHash t) out.2.1 KUSAMA_VRF).1
               .ok (kp.vrfCreateHash t, b)) = _
      have : (PublicKey.dleqVerify kp.pub e' (kp.vrfCreateHash t) out.2.1 KUSAMA_VRF).1 = .ok out.2.2 := h1
      rw [this]; rfl
  · rw [← vrfHash_vrel hR kp.pub ht]; rfl

/-- **C25** `vrf_sign` / `vrf_verify` on merlin transcripts. -/
theorem vrf_sign_then_verify_merlin [Oracles] (sk : SecretKey)
    (t : VRFTranscript Transcript) (sys : Rng) :
    let kp : Keypair P := sk.toKeypair
    let out := kp.vrfSign t sys
    PublicKey.vrfVerify kp.pub t out.1.toPreout out.2.1 =
      (if out.1.output.point = 0 then .error .pointDecompressionError else .ok (out.1, out.2.2)) := by
  have ht : VRel (fun a b : Transcript => a = b) t t := by cases t <;> constructor <;> rfl
  exact (vrf_sign_then_verify merlin_sim merlin_sim sk ht rfl sys).1

/-- **C25** when the output is the identity: exactly for the zero key or an input hashing to the
identity. -/
theorem vrf_output_identity_iff (sk : SecretKey) (hc : sk.key.Canonical) (t : VRFTranscript T) :
    ((sk.toKeypair : Keypair P).vrfCreateHash t).output.point = 0 ↔
      sk.key.val = 0 ∨ (PublicKey.vrfHash (sk.toPublic : PublicKey P) t).point = 0 := by
  have := create_output (P := P) sk.toKeypair t
  rw [this, smul_eq_zero]
  have hz : sk.key.toZ = 0 ↔ sk.key.val = 0 := by
    unfold Scalar.toZ
    rw [ZMod.natCast_eq_zero_iff]
    constructor
    · intro h; exact Nat.eq_zero_of_dvd_of_lt h hc
    · intro h; rw [h]; exact dvd_zero _
  exact or_congr hz Iff.rfl

/-- DLEQ proofs themselves (`dleq_proove`/`dleq_verify`), in both framings, for any input/output pair
related by the secret key: completeness, and the transcripts stay in step. -/
theorem dleq_prove_then_verify {Rel : T → T' → Prop} (hR : TSim Rel) (sk : SecretKey)
    {t : T} {t' : T'} (ht : Rel t t') (p : VRFInOut P)
    (hp : p.output.point = sk.key.val • p.input.point) (kusama : Bool) (sys : Rng) :
    let kp : Keypair P := sk.toKeypair
    let out := kp.dleqProove t p kusama sys
    (PublicKey.dleqVerify kp.pub t' p out.1.1 kusama).1 = .ok out.1.2 ∧
    Rel out.2.1 (PublicKey.dleqVerify kp.pub t' p out.1.1 kusama).2 := by
  intro kp
  exact dleq_complete_sim hR kp (mulPoint_eq _ _) t t' ht p
    (by rw [hp]; exact (mulPoint_eq _ _)) kusama sys

/-! ## C26: the two proof forms -/

/-- **C26** the short proof is the shortening of the batchable one: for proofs made by signing, and for
everything verification accepts (in either framing, for any key, pair and transcripts). -/
theorem vrf_shorten_agrees :
    (∀ {Rel : T → T' → Prop}, TSim Rel → ∀ (kp : Keypair P) (t : T) (t' : T'), Rel t t' → ∀ (p : VRFInOut P) (kusama : Bool) (sys : Rng),
      (kp.dleqProove t p kusama sys).1.2.shortenDleq t' kp.pub p kusama =
        (kp.dleqProove t p kusama sys).1.1) ∧
    (∀ (pk : PublicKey P) (t : T) (p : VRFInOut P) (proof : VRFProof) (kusama : Bool)
      (b : VRFProofBatchable), (PublicKey.dleqVerify pk t p proof kusama).1 = .ok b →
      b.shortenDleq t pk p kusama = proof) := by
  constructor
  · intro Rel hR kp t t' ht p kusama sys
    obtain ⟨_, _, h3, h4, _⟩ := dleqProove_sim hR kp t t' ht p kusama sys
    rw [shortenDleq_eq, ← h3, ← h4]
  · intro pk t p proof kusama b h
    rw [dleqVerify_eq] at h
    simp only at h
    split at h
    · rename_i hcc
      injection h with h; subst h
      rw [shortenDleq_eq]
      simp only
      rw [← hcc]
    · cases h

/-- **C26** `shorten_vrf` on what `vrf_sign` returned gives back the short proof; it fails exactly when
attaching the output fails. -/
theorem shorten_vrf_agrees [Oracles] (sk : SecretKey)
    (t : VRFTranscript Transcript) (sys : Rng) :
    let kp : Keypair P := sk.toKeypair
    let out := kp.vrfSign t sys
    out.2.2.shortenVrf kp.pub t out.1.toPreout =
      (if out.1.output.point = 0 then .error .pointDecompressionError else .ok out.2.1) := by
  intro kp out
  have ht : VRel (fun a b : Transcript => a = b) t t := by cases t <;> constructor <;> rfl
  unfold VRFProofBatchable.shortenVrf
  have hp : out.1 = kp.vrfCreateHash t := rfl
  rw [hp, attach_own merlin_sim kp ht]
  split
  · rfl
  · exact congrArg Except.ok (vrf_shorten_agrees.1 merlin_sim kp (Transcript.new (b! "VRF")) _ rfl
      (kp.vrfCreateHash t) KUSAMA_VRF sys)

/-- **C26** `VRFPreOut` codec: any 32 bytes, otherwise a length error. -/
theorem vrf_preout_codec (bs : Bytes) :
    (∀ o : VRFPreOut, VRFPreOut.fromBytes bs = .ok o ↔ bs.length = 32 ∧ o.toBytes.1 = bs) ∧
    (∀ e, VRFPreOut.fromBytes bs = .error e ↔ bs.length ≠ 32 ∧
      e = .bytesLengthError "VRFPreOut" VRFPreOut.DESCRIPTION 32) := by
  unfold VRFPreOut.fromBytes
  by_cases h : bs.length = 32
  · have hl : ¬ (bs.length ≠ VRF_PREOUT_LENGTH) := not_not.mpr h
    simp only [dif_neg hl]
    refine ⟨?_, fun e => ⟨fun h2 => (nomatch h2), fun h2 => absurd h h2.1⟩⟩
    intro o
    constructor
    · intro h2; injection h2 with h2; subst h2
      refine ⟨h, ?_⟩
      exact List.take_of_length_le (by omega)
    · rintro ⟨_, h2⟩
      cases o with | mk b =>
      congr 2
      apply Subtype.ext
      exact (List.take_of_length_le (by omega)).trans h2.symm
  · have hl : bs.length ≠ VRF_PREOUT_LENGTH := h
    simp only [dif_pos hl]
    constructor
    · intro o; constructor
      · intro h2; cases h2
      · rintro ⟨h2, _⟩; exact absurd h2 h
    · intro e; constructor
      · intro h2; injection h2 with h2; exact ⟨h, h2.symm⟩
      · rintro ⟨_, rfl⟩; rfl

private theorem scalar_codec (b : Arr 32) :
    scalarFromCanonicalBytes b = if leNat b.1 < ell then some ⟨b⟩ else none := rfl

/-- **C26** `VRFProof` codec: 64 bytes, two reduced scalars; anything else is the stated error. -/
theorem vrf_proof_codec (bs : Bytes) :
    (∀ p : VRFProof, VRFProof.fromBytes bs = .ok p ↔
      bs = p.toBytes.1 ∧ p.c.Canonical ∧ p.s.Canonical) ∧
    (∀ e, VRFProof.fromBytes bs = .error e ↔
      (bs.length ≠ 64 ∧ e = .bytesLengthError "VRFProof" VRFProof.DESCRIPTION 64) ∨
      (bs.length = 64 ∧ (ell ≤ leNat (bs.take 32) ∨ ell ≤ leNat (bs.drop 32)) ∧
        e = .scalarFormatError)) := by
  unfold VRFProof.fromBytes
  by_cases h : bs.length = 64
  · have hl : ¬ (bs.length ≠ VRF_PROOF_LENGTH) := not_not.mpr h
    simp only [dif_neg hl, scalar_codec]
    have key : ∀ p : VRFProof, bs = p.toBytes.1 ↔ p.c.bytes.1 = bs.take 32 ∧ p.s.bytes.1 = bs.drop 32 := by
      intro p
      have e1 : p.toBytes.1 = p.c.bytes.1 ++ p.s.bytes.1 := rfl
      constructor
      · intro h2; rw [h2, e1, Arr.take_append, Arr.drop_append]; exact ⟨rfl, rfl⟩
      · rintro ⟨h1, h2⟩; rw [e1, h1, h2, List.take_append_drop]
    by_cases h1 : leNat (bs.take 32) < ell
    · by_cases h2 : leNat (bs.drop 32) < ell
      · simp only [h1, h2, if_true]
        constructor
        · intro p
          constructor
          · intro he; injection he with he; subst he
            exact ⟨(key _).mpr ⟨rfl, rfl⟩, h1, h2⟩
          · rintro ⟨he, _, _⟩
            obtain ⟨a, b⟩ := (key p).mp he
            cases p with | mk c s => cases c with | mk c => cases s with | mk s =>
            simp only at a b
            congr 3
            · exact Subtype.ext a.symm
            · exact Subtype.ext b.symm
        · intro e
          simp [h]; omega
      · simp only [h1, h2, if_true, if_false]
        constructor
        · intro p
          simp only [reduceCtorEq, false_iff]
          rintro ⟨he, _, hs⟩
          apply h2
          rw [← ((key p).mp he).2]; exact hs
        · intro e
          constructor
          · intro he; injection he with he; exact .inr ⟨h, .inr (not_lt.mp h2), he.symm⟩
          · rintro (⟨he, _⟩ | ⟨_, _, rfl⟩)
            · exact absurd h he
            · rfl
    · simp only [h1, if_false]
      constructor
      · intro p
        simp only [reduceCtorEq, false_iff]
        rintro ⟨he, hcn, _⟩
        apply h1
        rw [← ((key p).mp he).1]; exact hcn
      · intro e
        constructor
        · intro he; injection he with he; exact .inr ⟨h, .inl (not_lt.mp h1), he.symm⟩
        · rintro (⟨he, _⟩ | ⟨_, _, rfl⟩)
          · exact absurd h he
          · rfl
  · have hl : bs.length ≠ VRF_PROOF_LENGTH := h
    simp only [dif_pos hl]
    constructor
    · intro p
      simp only [reduceCtorEq, false_iff]
      rintro ⟨rfl, _⟩
      exact h p.toBytes.2
    · intro e
      constructor
      · intro he; injection he with he; exact .inl ⟨h, he.symm⟩
      · rintro (⟨_, rfl⟩ | ⟨h2, _⟩)
        · rfl
        · exact absurd h2 h

/-- **C26** `VRFProofBatchable` codec: 96 bytes, two arbitrary 32-byte commitments (not decoded) and a
reduced scalar; anything else is the stated error. -/
theorem vrf_proof_batchable_codec (bs : Bytes) :
    (∀ p : VRFProofBatchable, VRFProofBatchable.fromBytes bs = .ok p ↔
      bs = p.toBytes.1 ∧ p.s.Canonical) ∧
    (∀ e, VRFProofBatchable.fromBytes bs = .error e ↔
      (bs.length ≠ 96 ∧ e = .bytesLengthError "VRFProofBatchable" VRFProofBatchable.DESCRIPTION 96) ∨
      (bs.length = 96 ∧ ell ≤ leNat (bs.drop 64) ∧ e = .scalarFormatError)) := by
  unfold VRFProofBatchable.fromBytes
  by_cases h : bs.length = 96
  · have hl : ¬ (bs.length ≠ VRF_PROOF_BATCHABLE_LENGTH) := not_not.mpr h
    simp only [dif_neg hl, scalar_codec]
    have key : ∀ p : VRFProofBatchable, bs = p.toBytes.1 ↔ p.R.1 = bs.take 32 ∧
        p.Hr.1 = (bs.drop 32).take 32 ∧ p.s.bytes.1 = bs.drop 64 := by
      intro p
      have e1 : p.toBytes.1 = p.R.1 ++ (p.Hr.1 ++ p.s.bytes.1) := by
        show (p.R.1 ++ p.Hr.1) ++ p.s.bytes.1 = _
        rw [List.append_assoc]
      constructor
      · intro h2; rw [h2, e1, Arr.take_append, Arr.drop_append, Arr.take_append]
        refine ⟨rfl, rfl, ?_⟩
        rw [show (64:Nat) = 32 + 32 from rfl, ← List.drop_drop, Arr.drop_append, Arr.drop_append]
      · rintro ⟨h1, h2, h3⟩
        rw [e1, h1, h2, h3, show (64:Nat) = 32 + 32 from rfl, ← List.drop_drop,
          List.take_append_drop, List.take_append_drop]
    by_cases h2 : leNat (bs.drop 64) < ell
    · simp only [h2, if_true]
      constructor
      · intro p
        constructor
        · intro he; injection he with he; subst he
          exact ⟨(key _).mpr ⟨rfl, rfl, rfl⟩, h2⟩
        · rintro ⟨he, _⟩
          obtain ⟨a, b, c⟩ := (key p).mp he
          cases p with | mk R Hr s => cases s with | mk s =>
          simp only at a b c
          congr 2
          · exact Subtype.ext a.symm
          · exact Subtype.ext b.symm
          · congr 1; exact Subtype.ext c.symm
      · intro e
        simp [h]; omega
    · simp only [h2, if_false]
      constructor
      · intro p
        simp only [reduceCtorEq, false_iff]
        rintro ⟨he, hs⟩
        apply h2
        rw [← ((key p).mp he).2.2]; exact hs
      · intro e
        constructor
        · intro he; injection he with he; exact .inr ⟨h, not_lt.mp h2, he.symm⟩
        · rintro (⟨he, _⟩ | ⟨_, _, rfl⟩)
          · exact absurd h he
          · rfl
  · have hl : bs.length ≠ VRF_PROOF_BATCHABLE_LENGTH := h
    simp only [dif_pos hl]
    constructor
    · intro p
      simp only [reduceCtorEq, false_iff]
      rintro ⟨rfl, _⟩
      exact h p.toBytes.2
    · intro e
      constructor
      · intro he; injection he with he; exact .inl ⟨h, he.symm⟩
      · rintro (⟨_, rfl⟩ | ⟨h2, _⟩)
        · rfl
        · exact absurd h2 h

/-! ## C27: identity outputs -/

/-- **C27** exact behaviour of attaching an output: error iff the bytes do not encode a point or encode
the identity, otherwise the decoded point paired with the hashed input. -/
theorem attach_input_hash_table (o : VRFPreOut) (pk : PublicKey P) (t : VRFTranscript T) :
    (∀ io, o.attachInputHash pk t = .ok io ↔ io.input = PublicKey.vrfHash pk t ∧
      io.output.compressed = o.bytes ∧ compress io.output.point = o.bytes ∧ io.output.point ≠ 0) ∧
    (∀ e, o.attachInputHash pk t = .error e ↔ e = .pointDecompressionError ∧
      ¬ ∃ q : P, q ≠ 0 ∧ compress q = o.bytes) := by
  constructor
  · intro io
    rw [attachInputHash_ok]
    constructor
    · rintro ⟨a, b, c, d⟩; exact ⟨a, b, by rw [← b]; exact c, d⟩
    · rintro ⟨a, b, c, d⟩; exact ⟨a, b, by rw [RistrettoBoth.WF, b, c], d⟩
  · intro e
    rw [attachInputHash_eq]
    cases h : (decompress o.bytes : Option P) with
    | none =>
      simp only
      constructor
      · intro he; injection he with he
        refine ⟨he.symm, ?_⟩
        rintro ⟨q, _, hq⟩
        rw [(Ristretto.decompress_iff _ _).mpr hq] at h; cases h
      · rintro ⟨rfl, _⟩; rfl
    | some q =>
      have hq := compress_of_decompress h
      simp only
      split
      · rename_i h0
        constructor
        · intro he; injection he with he
          refine ⟨he.symm, ?_⟩
          rintro ⟨q', h1, h2⟩
          exact h1 (by rw [compress_inj.mp (h2.trans hq.symm), h0])
        · rintro ⟨rfl, _⟩; rfl
      · rename_i h0
        simp only [reduceCtorEq, false_iff, not_and, not_not]
        intro _; exact ⟨q, h0, hq⟩

/-- **C27** `PublicKey::vrf_attach_hash` is the same function: it uses this public key and this transcript. -/
theorem vrf_attach_hash_table (o : VRFPreOut) (pk : PublicKey P) (t : VRFTranscript T) :
    (∀ io, pk.vrfAttachHash o t = .ok io ↔ io.input = PublicKey.vrfHash pk t ∧
      io.output.compressed = o.bytes ∧ compress io.output.point = o.bytes ∧ io.output.point ≠ 0) ∧
    (∀ e, pk.vrfAttachHash o t = .error e ↔ e = .pointDecompressionError ∧
      ¬ ∃ q : P, q ≠ 0 ∧ compress q = o.bytes) := attach_input_hash_table o pk t

/-- **C27** whatever `vrf_verify_extra` accepts has a non-identity output which is the decoding of the
claimed bytes, and the input is the hash of the verifier's transcript. -/
theorem vrf_verify_rejects_identity (pk : PublicKey P) (t : VRFTranscript T) (o : VRFPreOut)
    (proof : VRFProof) (e : E) (io : VRFInOut P) (b : VRFProofBatchable)
    (h : PublicKey.vrfVerifyExtra pk t o proof e = .ok (io, b)) :
    io.output.point ≠ 0 ∧ compress io.output.point = o.bytes ∧ io.input = PublicKey.vrfHash pk t ∧
    (PublicKey.dleqVerify pk e io proof KUSAMA_VRF).1 = .ok b := by
  unfold PublicKey.vrfVerifyExtra at h
  cases ha : o.attachInputHash pk t with
  | error e => rw [ha] at h; cases h
  | ok io' =>
    rw [ha] at h
    have h : (do let b ← (PublicKey.dleqVerify pk e io' proof KUSAMA_VRF).1
                 Except.ok (io', b)) = Except.ok (io, b) := h
    cases hd : (PublicKey.dleqVerify pk e io' proof KUSAMA_VRF).1 with
    | error e => rw [hd] at h; cases h
    | ok b' =>
      rw [hd] at h
      injection h with h
      injection h with h1 h2
      subst h1 h2
      obtain ⟨a1, a2, a3, a4⟩ := (attach_input_hash_table o pk t).1 io' |>.mp ha
      exact ⟨a4, a3, a1, hd⟩

/-! ## C28: soundness of the DLEQ proof -/

/-- **C28** exact acceptance condition of `dleq_verify`: it returns the batchable proof `b` iff `b` and
the short proof satisfy the two equations and the challenge is the hash of everything; otherwise it
returns `EquationFalse`. -/
theorem dleq_verify_iff (pk : PublicKey P) (t : T) (p : VRFInOut P) (proof : VRFProof)
    (kusama : Bool) :
    (∀ b, (PublicKey.dleqVerify pk t p proof kusama).1 = .ok b ↔
      b.s = proof.s ∧ Spec.DleqValid pk.point p.input.point p.output.point b.R b.Hr proof.c.toZ
        proof.s.toZ ∧
      proof.c = dleqChallenge t kusama p.input.compressed pk.compressed b.R b.Hr p.output.compressed) ∧
    (∀ e, (PublicKey.dleqVerify pk t p proof kusama).1 = .error e → e = .equationFalse) := by
  rw [dleqVerify_eq]
  simp only
  constructor
  · intro b
    constructor
    · intro h
      split at h
      · rename_i hc
        injection h with h; subst h
        exact ⟨rfl, ⟨_, _, rfl, rfl, rfl, rfl⟩, hc⟩
      · cases h
    · rintro ⟨h1, ⟨R, Hr, hR, hHr, eR, eHr⟩, h3⟩
      cases b with | mk bR bH bs =>
      simp only at h1 hR hHr h3
      subst h1
      rw [← eR, ← eHr, hR, hHr, if_pos h3]
  · intro e h
    split at h
    · cases h
    · injection h with h; exact h.symm

/-- **C28** if the output is not `x · input` for the key `x·B`, then whatever commitments a prover sends,
at most one challenge can be answered. -/
theorem dleq_wrong_output_pins_challenge (x : Z) (I O R Hr : P) (hO : O ≠ x • I) :
    {c : Z | ∃ s, Spec.DleqEqns (x • (basepoint : P)) I O R Hr c s}.Subsingleton := by
  rintro c ⟨s, h1, h2⟩ c' ⟨s', h1', h2'⟩
  by_contra hne
  apply hO
  have e1 : (c * x + s) = (c' * x + s') := by
    rw [← smul_basepoint_inj (P := P)]
    have : c • x • (basepoint : P) + s • basepoint = c' • x • basepoint + s' • basepoint := by
      rw [← h1, ← h1']
    rw [add_smul, add_smul, mul_smul, mul_smul]; exact this
  have e2 : c • O + s • I = c' • O + s' • I := by rw [← h2, ← h2']
  have e3 : (c - c') • (O - x • I) = 0 := by
    have hs : s' = (c - c') * x + s := by linear_combination -e1
    rw [hs] at e2
    have : (c - c') • (O - x • I) = (c • O + s • I) - (c' • O + ((c - c') * x + s) • I) := by module
    rw [this, e2, sub_self]
  rcases smul_eq_zero.mp e3 with h | h
  · exact absurd (sub_eq_zero.mp h) hne
  · exact sub_eq_zero.mp h

/-- **C28** two accepted proofs with the same commitments and different challenges — on any transcripts,
in any framing — reveal the secret key and force the output: `A = x·B` and `O = x·I` for the `x` computed
from them. -/
theorem dleq_fork_extracts (pk : PublicKey P) (t : T) (t' : T') (p : VRFInOut P)
    (π π' : VRFProof) (k k' : Bool) (b b' : VRFProofBatchable)
    (h : (PublicKey.dleqVerify pk t p π k).1 = .ok b)
    (h' : (PublicKey.dleqVerify pk t' p π' k').1 = .ok b')
    (hR : b.R = b'.R) (hH : b.Hr = b'.Hr) (hne : π.c.toZ ≠ π'.c.toZ) :
    let x : Z := (π'.s.toZ - π.s.toZ) / (π.c.toZ - π'.c.toZ)
    pk.point = x • (basepoint : P) ∧ p.output.point = x • p.input.point := by
  intro x
  obtain ⟨_, ⟨R, Hr, a1, a2, a3, a4⟩, _⟩ := (dleq_verify_iff pk t p π k).1 b |>.mp h
  obtain ⟨_, ⟨R', Hr', b1, b2, b3, b4⟩, _⟩ := (dleq_verify_iff pk t' p π' k').1 b' |>.mp h'
  have eR : R = R' := compress_inj.mp (by rw [a1, b1, hR])
  have eH : Hr = Hr' := compress_inj.mp (by rw [a2, b2, hH])
  have hd : π.c.toZ - π'.c.toZ ≠ 0 := sub_ne_zero.mpr hne
  have key : ∀ A G : P, π.c.toZ • A + π.s.toZ • G = π'.c.toZ • A + π'.s.toZ • G → A = x • G := by
    intro A G e
    have : (π.c.toZ - π'.c.toZ) • A = (π'.s.toZ - π.s.toZ) • G := by
      have e0 := sub_eq_zero.mpr e
      rw [← sub_eq_zero, ← e0]; module
    have h2 : (π.c.toZ - π'.c.toZ)⁻¹ • (π.c.toZ - π'.c.toZ) • A =
        (π.c.toZ - π'.c.toZ)⁻¹ • (π'.s.toZ - π.s.toZ) • G := by rw [this]
    rw [smul_smul, inv_mul_cancel₀ hd, one_smul, smul_smul] at h2
    rw [h2]; congr 1; simp only [x]; rw [div_eq_mul_inv, mul_comm]
  exact ⟨key _ _ (by rw [← a3, ← b3, eR]), key _ _ (by rw [← a4, ← b4, eH])⟩

/-- **C28** the challenge of a DLEQ proof over a merlin transcript is the hash of an explicit query … -/
theorem dleq_challenge_is_query [Oracles] (log : List MOp) (kusama : Bool)
    (h pk R Hr o : Compressed) :
    (dleqChallenge (⟨log⟩ : Transcript) kusama h pk R Hr o).toZ =
      Spec.hashToZ (Spec.dleqQuery log kusama h.1 pk.1 R.1 Hr.1 o.1) := by
  unfold dleqChallenge challengeScalar
  simp only [Scalar.toZ_wide]
  unfold Spec.hashToZ Spec.dleqQuery dleqPre
  cases kusama <;>
    simp [protoName, commitPoint, commitBytes, challengeBytes, Transcript.appendMessage,
      Transcript.challengeBytes]

/-- **C28** … which determines the transcript history, the input, the key, both commitments and the
output. -/
theorem dleq_query_injective (l₁ l₂ : List MOp) (k : Bool) (h₁ h₂ p₁ p₂ R₁ R₂ H₁ H₂ o₁ o₂ : Bytes)
    (h : Spec.dleqQuery l₁ k h₁ p₁ R₁ H₁ o₁ = Spec.dleqQuery l₂ k h₂ p₂ R₂ H₂ o₂) :
    l₁ = l₂ ∧ h₁ = h₂ ∧ p₁ = p₂ ∧ R₁ = R₂ ∧ H₁ = H₂ ∧ o₁ = o₂ := by
  unfold Spec.dleqQuery at h
  cases k <;> simp only [if_true, Bool.false_eq_true, if_false, List.append_assoc] at h <;>
    (obtain ⟨e1, e2⟩ := List.append_inj' h (by simp); simp at e2; simp [e1, e2])

end Schnorrkel.Props
