import Verif.Props.Batch
import Verif.Props.VrfMulti
import Verif.Props.Cert
import Verif.Model.Aead

/-! # C87: exactly which calls can panic

`Outcome.panic` is a Rust panic.  The remaining panicking calls are settled by `verify_batch_panics_iff`,
`dleq_verify_batch_panics_iff`, `vrf_verify_batch_panics_iff`, `vrfs_verify_panics_iff` and
`prepared_batch_write_layout`. -/

namespace Schnorrkel.Props
open SigningTranscript Spec
variable {P : Type} [Ristretto P] {T E : Type} [SigningTranscript T] [SigningTranscript E]

/-- The lengths on which the batch interfaces panic, for `m` transcripts, `n` signatures and `k` keys. -/
private theorem prepare_cases [Oracles] (mode : ZipMode) (ts : List T) (Rs : List Compressed)
    (pks : List (PublicKey P)) (rng : Rng) (h : Rs.length = pks.length) :
    ((ts.length < Rs.length ∨ (match mode with
       | .generic => Rs.length + 1 < ts.length
       | .trustedLen => Rs.length < ts.length)) ∧
      prepareBatch mode ts Rs pks rng = .panic ASSERT_MESSAGE) ∨
    (¬ (ts.length < Rs.length ∨ (match mode with
       | .generic => Rs.length + 1 < ts.length
       | .trustedLen => Rs.length < ts.length)) ∧
      ∃ zs hrams, prepareBatch mode ts Rs pks rng = .ok (zs, hrams) ∧ zs.length = Rs.length ∧
        hrams.length = pks.length) := by
  rw [prepareBatch_eq _ _ _ _ _ h]
  have hr := rest_nil_iff mode ts Rs.length
  by_cases hc : mode.rest ts Rs.length ≠ [] ∨ ts.length < Rs.length
  · rw [if_pos hc]
    refine .inl ⟨?_, rfl⟩
    rcases hc with hc | hc
    · rw [ne_eq, hr] at hc; cases mode <;> simp at hc ⊢ <;> omega
    · exact .inl hc
  · rw [if_neg hc]
    push Not at hc
    rw [hr] at hc
    refine .inr ⟨?_, _, _, rfl, coeffs_length _ _ _ _ _, ?_⟩
    · cases mode <;> simp at hc ⊢ <;> omega
    · simp; omega

/-- **C87** `PreparedBatch::new` panics exactly on the length mismatches of batch verification, and never
returns an error. -/
theorem prepared_batch_new_panics_iff [Oracles] (mode : ZipMode) (ts : List T) (sigs : List Signature)
    (pks : List (PublicKey P)) :
    ((PreparedBatch.new mode ts sigs pks).isPanic = true ↔
      sigs.length ≠ pks.length ∨ ts.length < sigs.length ∨
      (match mode with
       | .generic => sigs.length + 1 < ts.length
       | .trustedLen => sigs.length < ts.length)) ∧
    ∀ e, PreparedBatch.new mode ts sigs pks ≠ .err e := by
  unfold PreparedBatch.new
  by_cases h : sigs.length = pks.length
  · rw [if_neg (by simpa using h)]
    rcases prepare_cases mode ts (sigs.map (·.R)) pks notAnRng (by simpa using h) with
      ⟨hc, e⟩ | ⟨hc, zs, hrams, e, -, -⟩
    · rw [e]
      simp only [List.length_map] at hc
      simp [Outcome.isPanic, hc]
    · rw [e]
      simp only [List.length_map] at hc
      simp only [Outcome.bind_ok, Outcome.isPanic]
      refine ⟨⟨fun h => (nomatch h), fun h3 => ?_⟩, fun e h => (nomatch h)⟩
      exact absurd (h3.resolve_left (not_not_intro h)) hc
  · rw [if_pos h]
    simp [Outcome.isPanic, h]

/-- **C87** `PreparedBatch::verify` panics exactly when its transcripts and keys do not match the number of
prepared signatures; otherwise it answers, whatever the prepared scalar and points are. -/
theorem prepared_batch_verify_panics_iff [Oracles] (mode : ZipMode) (pb : PreparedBatch) (ts : List T)
    (pks : List (PublicKey P)) (hw : ∀ p ∈ pks, p.WF) (dedup : Bool) :
    (PreparedBatch.verify mode pb ts pks dedup).isPanic = true ↔
      pb.Rs.length ≠ pks.length ∨ ts.length < pb.Rs.length ∨
      (match mode with
       | .generic => pb.Rs.length + 1 < ts.length
       | .trustedLen => pb.Rs.length < ts.length) := by
  unfold PreparedBatch.verify
  by_cases h : pb.Rs.length = pks.length
  · rw [if_neg (by simpa using h)]
    rcases prepare_cases mode ts pb.Rs pks notAnRng h with ⟨hc, e⟩ | ⟨hc, zs, hrams, e, h1, h2⟩
    · rw [e]
      simp [Outcome.isPanic, hc]
    · rw [e]
      simp only [Outcome.bind_ok]
      rw [verifyBatchEquation_eq _ _ _ _ _ _ hw h1 h2 h]
      constructor
      · intro h2
        exfalso
        split at h2
        · cases h2
        · split at h2 <;> cases h2
      · intro h3
        exact absurd (h3.resolve_left (not_not_intro h)) hc
  · rw [if_pos h]
    simp [Outcome.isPanic, h]

/-- **C87** the exact outcome of `PreparedBatch::read_bytes` on every string: a length error on the wrong
lengths; on every other string a panic in debug builds, and in release builds a panic when the leading 32
bytes without their top bit are a reduced scalar and a scalar error otherwise. -/
theorem prepared_batch_read_table (profile : Profile) (bytes : Bytes) :
    (bytes.length % 32 ≠ 0 ∨ bytes.length < 64 →
      PreparedBatch.readBytes profile bytes =
        .err (.bytesLengthError "PreparedBatch" "A Prepared batched signature" 0)) ∧
    (bytes.length % 32 = 0 → 64 ≤ bytes.length →
      ((PreparedBatch.readBytes profile bytes).isPanic = true ↔
        profile = .debug ∨ leNat (bytes.take 32) % 2 ^ 255 < ell) ∧
      ((PreparedBatch.readBytes profile bytes).isPanic = false →
        PreparedBatch.readBytes profile bytes = .err .scalarFormatError)) := by
  unfold PreparedBatch.readBytes
  refine ⟨fun h => by rw [if_pos h], fun h1 h2 => ?_⟩
  rw [if_neg (by omega), h1]
  cases profile with
  | debug => simp [Profile.subUsize, Outcome.isPanic]
  | release =>
    simp only [Profile.subUsize]
    rw [if_neg (by omega)]
    simp only [Outcome.bind_ok]
    unfold PreparedBatch.readBody PreparedBatch.read32
    rw [dif_pos (by omega)]
    simp only [Outcome.bind_ok, checkScalar_eq]
    have hv : ∀ hl, leNat (Arr.modify (⟨bytes.take 32, hl⟩ : Arr 32) 31 (· &&& 127)).1 =
        leNat (bytes.take 32) % 2 ^ 255 := by
      intro hl
      obtain ⟨b, hb'⟩ : ∃ b : Arr 32, bytes.take 32 = b.1 := ⟨⟨_, hl⟩, rfl⟩
      rw [show (⟨bytes.take 32, hl⟩ : Arr 32) = b from Subtype.ext hb']
      rw [hb', b.leNat_modify31, u8_and127]
      have h1 := b.take31_lt
      have h2 := b.leNat31
      have h3 := (b.get 31 (by omega)).toNat_lt
      rw [show (256:Nat) ^ 31 = 2 ^ 248 by norm_num] at *
      omega
    have hcap : withCapacity 18446744073709551615 32 = .panic "capacity overflow" := by
      unfold withCapacity; rw [if_neg (by norm_num)]
    rw [hv]
    by_cases h : leNat (bytes.take 32) % 2 ^ 255 < ell
    · rw [if_pos h]
      refine ⟨⟨fun _ => .inr h, fun _ => ?_⟩, fun h => ?_⟩
      · simp [hcap, Outcome.isPanic]
      · simp [hcap, Outcome.isPanic] at h
    · rw [if_neg h]
      refine ⟨⟨fun h => ?_, fun h' => ?_⟩, fun _ => rfl⟩
      · simp [Outcome.isPanic] at h
      · rcases h' with h' | h'
        · cases h'
        · exact absurd h' h

/-- **C87** `vrfs_sign` panics exactly on the empty list of inputs, and never returns an error. -/
theorem vrfs_sign_panics_iff [Oracles] (kp : Keypair P) (ts : List (VRFTranscript T)) (extra : E) (sys : Rng) :
    ((kp.vrfsSignExtra ts extra sys).isPanic = true ↔ ts = []) ∧
    ∀ e, kp.vrfsSignExtra ts extra sys ≠ .err e := by
  obtain ⟨h1, h2⟩ := vrfs_merge_spec kp.pub (ts.map fun t => kp.vrfCreateHash t)
  rw [List.map_eq_nil_iff] at h1
  unfold Keypair.vrfsSignExtra
  by_cases h : ts = []
  · have := h1.mpr h
    rcases hm : PublicKey.vrfsMerge kp.pub (ts.map fun t => kp.vrfCreateHash t) with m | e | m
    · rw [hm] at this; cases this
    · rw [hm] at this; cases this
    · simp only [hm, Outcome.bind_panic, Outcome.isPanic]
      exact ⟨by simp [h], fun e h => (nomatch h)⟩
  · obtain ⟨m, hm, -⟩ := h2 (by simpa using h)
    simp only [hm, Outcome.bind_ok, Outcome.isPanic, h]
    exact ⟨by simp, fun e h => (nomatch h)⟩

/-- **C87** self-issued certificates never reach their `expect`, for every key pair (consistent or not,
reduced or not), transcript and RNG. -/
theorem issue_self_never_panics (kp : Keypair P) (t : T) (sys : Rng) :
    ∃ r, (kp.issueSelfAdaptorCert t sys).1 = .ok r := by
  unfold Keypair.issueSelfAdaptorCert
  generalize witnessBytes t (b! "issue_self_adaptor_cert") 96
    [kp.secret.nonce.1, kp.secret.toBytes.1] sys = w
  obtain ⟨bytes, t, sys⟩ := w
  simp only
  generalize (SecretKey.toKeypair _ : Keypair P) = seed
  have hs : ∀ (pk : PublicKey P), ∃ (g : Arr 32) (s : Scalar), (kp.issueAdaptorCert t pk sys).1 = ⟨Arr.append g s.bytes⟩ ∧ s.Canonical :=
    fun pk => ⟨_, _, rfl, Scalar.canonical_add (canonical_witness _ _ _ _) (Scalar.canonical_mul _ _)⟩
  obtain ⟨g, s, h1, h2⟩ := hs seed.pub
  generalize kp.issueAdaptorCert t seed.pub sys = ic at h1
  obtain ⟨c, sys⟩ := ic
  simp only at h1
  subst h1
  have hv : scalarFromCanonicalBytes ((Arr.append g s.bytes : Arr 64).slice 32 32 (by omega)) = some s := by
    rw [cert_scalar_append]
    exact Scalar.fromCanonicalBytes_eq_some.mpr ⟨rfl, h2⟩
  simp only [PublicKey.acceptAdaptorCert, PublicKey.acceptAdaptorCertT, hv]
  exact ⟨_, rfl⟩

/-- **C87** so encryption under a self-issued certificate always produces a certificate and a key. -/
theorem sender_with_cert_never_panics [Oracles] (kp : Keypair P) (t : T) (pub : PublicKey P) (n : Nat) (sys : Rng) :
    ∃ r, (kp.senderAeadWithAdaptorCert t pub n sys).1 = .ok r := by
  obtain ⟨⟨a, b⟩, h⟩ := issue_self_never_panics kp t sys
  unfold Keypair.senderAeadWithAdaptorCert
  rcases hr : kp.issueSelfAdaptorCert t sys with ⟨r, s⟩
  rw [hr] at h
  simp only at h
  subst h
  exact ⟨_, rfl⟩

/-- Non-vacuity (C87): a release build of `read_bytes` panics on 64 zero bytes, and reports a scalar error
on 64 bytes `0xff`; `PreparedBatch::new` tolerates one surplus transcript of a generic iterator but not two;
`vrfs_sign` of nothing panics, of one input it does not. -/
example [Oracles] (t : Transcript) (kp : Keypair Toy) (sys : Rng) :
    (PreparedBatch.readBytes .release (List.replicate 64 0)).isPanic = true ∧
    PreparedBatch.readBytes .release (List.replicate 64 255) = .err .scalarFormatError ∧
    (PreparedBatch.new (P := Toy) .generic [t] [] []).isPanic = false ∧
    (PreparedBatch.new (P := Toy) .generic [t, t] [] []).isPanic = true ∧
    (kp.vrfsSignExtra ([] : List (VRFTranscript Transcript)) t sys).isPanic = true ∧
    (kp.vrfsSignExtra [.plain t] t sys).isPanic = false := by
  refine ⟨?_, ?_, ?_, ?_, ?_, ?_⟩
  · exact (((prepared_batch_read_table .release _).2 (by simp) (by simp)).1).mpr
      (.inr (by rw [show leNat ((List.replicate 64 (0 : UInt8)).take 32) = 0 by decide +kernel]; exact ell_pos))
  · obtain ⟨h1, h2⟩ := (prepared_batch_read_table .release (List.replicate 64 255)).2 (by simp) (by simp)
    apply h2
    rw [Bool.eq_false_iff, Ne, h1]
    rintro (h | h)
    · cases h
    · revert h; decide +kernel
  · rw [Bool.eq_false_iff, Ne, (prepared_batch_new_panics_iff .generic [t] [] []).1]; simp
  · rw [(prepared_batch_new_panics_iff .generic [t, t] [] []).1]; simp
  · exact (vrfs_sign_panics_iff kp _ t sys).1.mpr rfl
  · rw [Bool.eq_false_iff, Ne, (vrfs_sign_panics_iff kp _ t sys).1]; simp

end Schnorrkel.Props
