import Verif.Props.VrfBatch

/-! # C90: VRF and DLEQ proofs cannot be altered -/

namespace Schnorrkel.Props
open SigningTranscript Spec
variable {P : Type} [Ristretto P] {T E : Type} [SigningTranscript T] [SigningTranscript E]

/-- **C90** two accepted proofs of one statement that verification expands to the same `R` and `Hr` are the same proof
(scalars below ℓ, as every decoder and every prover makes them). -/
theorem dleq_proof_unique (pk : PublicKey P) (t : T) (p : VRFInOut P) (kusama : Bool) (x y : VRFProof)
    (a b : VRFProofBatchable) (hx : x.s.Canonical) (hy : y.s.Canonical)
    (ha : (PublicKey.dleqVerify pk t p x kusama).1 = .ok a) (hb : (PublicKey.dleqVerify pk t p y kusama).1 = .ok b)
    (hR : a.R = b.R) (hH : a.Hr = b.Hr) : x = y ∧ a = b := by
  obtain ⟨as, ⟨R, H, r1, r2, e1, -⟩, ca⟩ := ((dleq_verify_iff pk t p x kusama).1 a).mp ha
  obtain ⟨bs, ⟨R', H', r1', r2', e1', -⟩, cb⟩ := ((dleq_verify_iff pk t p y kusama).1 b).mp hb
  have hc : x.c = y.c := by rw [ca, cb, hR, hH]
  have hRR : R = R' := compress_inj.mp (by rw [r1, r1', hR])
  rw [e1, e1', hc] at hRR
  have hs := smul_basepoint_inj.mp (add_left_cancel hRR)
  have hs' := Scalar.Canonical.eq_of_toZ hx hy hs
  obtain ⟨xc, xs⟩ := x
  obtain ⟨yc, ys⟩ := y
  obtain ⟨aR, aH, as'⟩ := a
  obtain ⟨bR, bH, bs'⟩ := b
  simp only at *
  subst hc hs' hR hH as bs
  exact ⟨rfl, rfl⟩

/-- **C90** changing only the response of an accepted proof changes the commitment `R` that is hashed: both can be
accepted only if the hash takes the same value at two different inputs. -/
theorem dleq_same_challenge (pk : PublicKey P) (t : T) (p : VRFInOut P) (kusama : Bool) (x y : VRFProof)
    (a b : VRFProofBatchable) (hx : x.s.Canonical) (hy : y.s.Canonical) (hc : x.c = y.c) (hne : x ≠ y)
    (ha : (PublicKey.dleqVerify pk t p x kusama).1 = .ok a) (hb : (PublicKey.dleqVerify pk t p y kusama).1 = .ok b) :
    a.R ≠ b.R ∧
    dleqChallenge t kusama p.input.compressed pk.compressed a.R a.Hr p.output.compressed =
      dleqChallenge t kusama p.input.compressed pk.compressed b.R b.Hr p.output.compressed := by
  obtain ⟨-, ⟨R, H, r1, r2, e1, -⟩, ca⟩ := ((dleq_verify_iff pk t p x kusama).1 a).mp ha
  obtain ⟨-, ⟨R', H', r1', r2', e1', -⟩, cb⟩ := ((dleq_verify_iff pk t p y kusama).1 b).mp hb
  refine ⟨fun hR => hne ?_, by rw [← ca, ← cb, hc]⟩
  have hRR : R = R' := compress_inj.mp (by rw [r1, r1', hR])
  rw [e1, e1', hc] at hRR
  have hs := smul_basepoint_inj.mp (add_left_cancel hRR)
  have hs' := Scalar.Canonical.eq_of_toZ hx hy hs
  obtain ⟨xc, xs⟩ := x
  obtain ⟨yc, ys⟩ := y
  simp only at *
  subst hc hs'
  rfl

/-- **C90** on the wire: two 64-byte proofs accepted by `vrf_verify_extra` for the same key, input, output bytes and extra
transcript, with the same expanded `R` and `Hr`, are the same bytes; two 96-byte batchable encodings of what was
accepted with the same first 64 bytes are the same bytes. -/
theorem vrf_accepted_bytes_unique (pk : PublicKey P) (t : VRFTranscript T) (out : VRFPreOut) (e : E) (u v : Bytes)
    (x y : VRFProof) (io io' : VRFInOut P) (a b : VRFProofBatchable)
    (hu : VRFProof.fromBytes u = .ok x) (hv : VRFProof.fromBytes v = .ok y)
    (ha : PublicKey.vrfVerifyExtra pk t out x e = .ok (io, a)) (hb : PublicKey.vrfVerifyExtra pk t out y e = .ok (io', b))
    (hRH : a.toBytes.1.take 64 = b.toBytes.1.take 64) : u = v ∧ a.toBytes = b.toBytes ∧ io = io' := by
  obtain ⟨hux, -, hxs⟩ := ((vrf_proof_codec u).1 x).mp hu
  obtain ⟨hvy, -, hys⟩ := ((vrf_proof_codec v).1 y).mp hv
  have key : ∀ (w : VRFProof) (i : VRFInOut P) (c : VRFProofBatchable), PublicKey.vrfVerifyExtra pk t out w e = .ok (i, c) →
      out.attachInputHash pk t = .ok i ∧ (PublicKey.dleqVerify pk e i w KUSAMA_VRF).1 = .ok c := by
    intro w i c h
    unfold PublicKey.vrfVerifyExtra at h
    rcases h1 : (out.attachInputHash pk t : SignatureResult (VRFInOut P)) with er | j
    · rw [h1] at h; cases h
    · rw [h1] at h
      rcases h2 : (PublicKey.dleqVerify pk e j w KUSAMA_VRF).1 with er | d
      · simp only [bind, Except.bind, h2] at h; cases h
      · simp only [bind, Except.bind, h2] at h; cases h
        exact ⟨rfl, h2⟩
  obtain ⟨a1, a2⟩ := key x io a ha
  obtain ⟨b1, b2⟩ := key y io' b hb
  have hio : io = io' := by rw [a1] at b1; injection b1
  subst hio
  have ht : ∀ c : VRFProofBatchable, c.toBytes.1.take 64 = c.R.1 ++ c.Hr.1 := by
    intro c
    show ((c.R.1 ++ c.Hr.1) ++ c.s.bytes.1).take 64 = _
    exact List.take_left' (by simp [c.R.2, c.Hr.2])
  rw [ht, ht] at hRH
  obtain ⟨h1, h2⟩ := List.append_inj hRH (by rw [a.R.2, b.R.2])
  obtain ⟨h3, h4⟩ := dleq_proof_unique pk e io KUSAMA_VRF x y a b hxs hys a2 b2 (Arr.ext' h1) (Arr.ext' h2)
  exact ⟨by rw [hux, hvy, h3], by rw [h4], rfl⟩

/-- An honest proof with canonical scalars is accepted, and so meets the hypotheses of all three theorems
(the second with a different proof only if the hash collides). -/
theorem honest_proof_accepted [Oracles] (sk : SecretKey) (t : VRFTranscript Transcript) (sys : Rng)
    (h0 : ((sk.toKeypair : Keypair P).vrfSign t sys).1.output.point ≠ 0) :
    ∃ (x : VRFProof) (io : VRFInOut P) (a : VRFProofBatchable),
      VRFProof.fromBytes x.toBytes.1 = .ok x ∧ x.s.Canonical ∧
      PublicKey.vrfVerifyExtra (sk.toKeypair : Keypair P).pub t io.toPreout x (Transcript.new (b! "VRF")) = .ok (io, a) ∧
      io.output.point ≠ 0 := by
  have h := vrf_sign_then_verify_merlin (P := P) sk t sys
  obtain ⟨-, -, -, -, -, hs, hc, -⟩ := dleqProove_sim merlin_sim (sk.toKeypair : Keypair P) (Transcript.new (b! "VRF"))
    (Transcript.new (b! "VRF")) rfl ((sk.toKeypair : Keypair P).vrfCreateHash t) KUSAMA_VRF sys
  exact ⟨((sk.toKeypair : Keypair P).vrfSign t sys).2.1, _, _, ((vrf_proof_codec _).1 _).mpr ⟨rfl, hc, hs⟩, hs,
    h.trans (if_neg h0), h0⟩

/-- Non-vacuity: the toy key on a demo transcript. -/
example : letI := toyOracles
    ∃ (x : VRFProof) (io : VRFInOut Toy) (a : VRFProofBatchable),
      VRFProof.fromBytes x.toBytes.1 = .ok x ∧ x.s.Canonical ∧
      PublicKey.vrfVerifyExtra (toySk.toKeypair : Keypair Toy).pub (.plain (Transcript.new (b! "demo"))) io.toPreout x
        (Transcript.new (b! "VRF")) = .ok (io, a) ∧ io.output.point ≠ 0 :=
  letI := toyOracles
  honest_proof_accepted toySk _ zeroRng toy_output_ne

end Schnorrkel.Props
