import Verif.Spec.VrfWire
import Verif.Props.VrfMulti
import Verif.Props.Derive
import Verif.Lemmas.Reach

/-! # C61: the VRF on the wire -/

namespace Schnorrkel.Props
open SigningTranscript Spec
variable {P : Type} [Ristretto P] [Oracles]

/-- The DLEQ verification with the framing used by the VRF. -/
theorem dleq_wire (pk : PublicKey P) (extra : List MOp) (p : VRFInOut P) (hi : p.input.WF) (ho : p.output.WF)
    (proof : VRFProof) (b : VRFProofBatchable) :
    (PublicKey.dleqVerify pk (⟨extra⟩ : Transcript) p proof KUSAMA_VRF).1 = .ok b ↔
      proof.c = Scalar.ofZ (wireChallenge extra pk.point pk.compressed.1 p.input.point p.output.point proof.c.toZ
        proof.s.toZ) ∧
      b = ⟨compress (proof.c.toZ • pk.point + proof.s.toZ • (basepoint : P)),
        compress (proof.c.toZ • p.output.point + proof.s.toZ • p.input.point), proof.s⟩ := by
  rw [(dleq_verify_iff pk _ p proof KUSAMA_VRF).1 b]
  have hch : ∀ R Hr : Compressed, dleqChallenge (⟨extra⟩ : Transcript) KUSAMA_VRF p.input.compressed pk.compressed R Hr
      p.output.compressed = Scalar.ofZ (hashToZ (extra ++ [.append (b! "proto-name") (b! "DLEQProof"),
        .append (b! "vrf:h") (compress p.input.point).1, .append (b! "vrf:R=g^r") R.1,
        .append (b! "vrf:h^r") Hr.1, .append (b! "vrf:pk") pk.compressed.1,
        .append (b! "vrf:h^sk") (compress p.output.point).1, .challenge (b! "prove") 64])) := by
    intro R Hr
    have hcan : (dleqChallenge (⟨extra⟩ : Transcript) KUSAMA_VRF p.input.compressed pk.compressed R Hr
      p.output.compressed).Canonical := Scalar.canonical_wide _
    rw [← hcan.ofZ_toZ, dleq_challenge_is_query]
    congr 2
    have h1 : p.input.compressed = compress p.input.point := hi.symm
    have h2 : p.output.compressed = compress p.output.point := ho.symm
    rw [h1, h2]
    simp [dleqQuery, KUSAMA_VRF]
  constructor
  · rintro ⟨h1, ⟨R, Hr, e1, e2, e3, e4⟩, h3⟩
    rw [hch] at h3
    subst e3; subst e4
    refine ⟨?_, ?_⟩
    · rw [← e1, ← e2] at h3; exact h3
    · cases b; simp only at h1 e1 e2; subst h1; rw [e1, e2]
  · rintro ⟨h1, rfl⟩
    refine ⟨rfl, ⟨_, _, rfl, rfl, rfl, rfl⟩, ?_⟩
    rw [hch]
    exact h1

theorem vrfHash_wire (pk : PublicKey P) (malleable : Bool) (log : List MOp) :
    (PublicKey.vrfHash pk (wireInput malleable log)).point = wireInputPoint malleable log pk.compressed.1 ∧
    (PublicKey.vrfHash pk (wireInput malleable log)).WF := by
  cases malleable
  · exact ⟨(vrf_input_is_query pk log).1, rfl⟩
  · exact ⟨(vrf_input_is_query pk log).2, rfl⟩

/-- **C61** complete description of `vrf_verify_extra` on merlin transcripts: accepted iff the output bytes encode a
non-identity point `O` and `c` is the challenge hash of the input, the two recomputed commitments, the public key and
`O`, in that order.  What is returned is that input, `O`, and the two commitments. -/
theorem vrf_verify_wire (pk : PublicKey P) (malleable : Bool) (log extra : List MOp) (out : VRFPreOut)
    (proof : VRFProof) (io : VRFInOut P) (b : VRFProofBatchable) :
    PublicKey.vrfVerifyExtra pk (wireInput malleable log) out proof (⟨extra⟩ : Transcript) = .ok (io, b) ↔
      ∃ O : P, compress O = out.bytes ∧ O ≠ 0 ∧
        let I : P := wireInputPoint malleable log pk.compressed.1
        proof.c = Scalar.ofZ (wireChallenge extra pk.point pk.compressed.1 I O proof.c.toZ proof.s.toZ) ∧
        io = ⟨⟨compress I, I⟩, ⟨out.bytes, O⟩⟩ ∧
        b = ⟨compress (proof.c.toZ • pk.point + proof.s.toZ • (basepoint : P)),
          compress (proof.c.toZ • O + proof.s.toZ • I), proof.s⟩ := by
  obtain ⟨hI, hIw⟩ := vrfHash_wire pk malleable log
  have hin : PublicKey.vrfHash pk (wireInput malleable log) =
      ⟨compress (wireInputPoint malleable log pk.compressed.1 : P), wireInputPoint malleable log pk.compressed.1⟩ := by
    have h2 : compress (PublicKey.vrfHash pk (wireInput malleable log)).point =
      (PublicKey.vrfHash pk (wireInput malleable log)).compressed := hIw
    rw [← hI, h2]
  constructor
  · intro h
    obtain ⟨h1, h2, h3, h4⟩ := vrf_verify_rejects_identity pk _ out proof _ io b h
    have hat : out.attachInputHash pk (wireInput malleable log) = .ok io := by
      unfold PublicKey.vrfVerifyExtra at h
      obtain ⟨io', h5, h6⟩ := ok_of_bind h
      obtain ⟨b', h7, h8⟩ := ok_of_bind h6
      injection h8 with h8; injection h8 with h8 h9
      rw [← h8]; exact h5
    obtain ⟨-, a2, -, -⟩ := ((attach_input_hash_table out pk (wireInput malleable log)).1 io).mp hat
    have hiw : io.input.WF := by rw [h3]; exact hIw
    have how : io.output.WF := by show compress io.output.point = io.output.compressed; rw [h2, a2]
    rw [dleq_wire pk extra io hiw how] at h4
    rw [h3, hI] at h4
    refine ⟨io.output.point, h2, h1, h4.1, ?_, h4.2⟩
    rcases io with ⟨i, ⟨oc, op⟩⟩
    simp only at h3 a2 ⊢
    rw [h3, hin, a2]
  · rintro ⟨O, h1, h2, h3, rfl, rfl⟩
    have hat : out.attachInputHash pk (wireInput malleable log) =
        .ok ⟨⟨compress (wireInputPoint malleable log pk.compressed.1 : P), wireInputPoint malleable log pk.compressed.1⟩,
          ⟨out.bytes, O⟩⟩ :=
      ((attach_input_hash_table out pk (wireInput malleable log)).1 _).mpr ⟨hin.symm, rfl, h1, h2⟩
    have hd := (dleq_wire pk extra ⟨⟨compress (wireInputPoint malleable log pk.compressed.1 : P),
      wireInputPoint malleable log pk.compressed.1⟩, ⟨out.bytes, O⟩⟩ rfl h1 proof _).mpr ⟨h3, rfl⟩
    unfold PublicKey.vrfVerifyExtra
    rw [hat]
    simp only [Except.bind, bind]
    rw [hd]

/-- **C61** `vrf_verify` is the case of the extra transcript `Transcript::new(b"VRF")`. -/
theorem vrf_verify_wire_no_extra (pk : PublicKey P) (malleable : Bool) (log : List MOp) (out : VRFPreOut)
    (proof : VRFProof) :
    PublicKey.vrfVerify pk (wireInput malleable log) out proof =
      PublicKey.vrfVerifyExtra pk (wireInput malleable log) out proof (⟨wireNoExtra⟩ : Transcript) := rfl

/-- **C61** `vrfs_verify` and `vrfs_sign` are the case of the extra transcript `Transcript::new(b"VRF")`. -/
theorem vrfs_wire_no_extra (pk : PublicKey P) (kp : Keypair P) (ts : List (Bool × List MOp)) (outs : List VRFPreOut)
    (proof : VRFProof) (sys : Rng) :
    PublicKey.vrfsVerify pk (ts.map fun x => wireInput x.1 x.2) outs proof =
      PublicKey.vrfsVerifyExtra pk (ts.map fun x => wireInput x.1 x.2) outs proof (⟨wireNoExtra⟩ : Transcript) ∧
    kp.vrfsSign (ts.map fun x => wireInput x.1 x.2) sys =
      kp.vrfsSignExtra (ts.map fun x => wireInput x.1 x.2) (⟨wireNoExtra⟩ : Transcript) sys := ⟨rfl, rfl⟩

/-- **C61** what `vrf_sign_extra` puts on the wire, by any keypair: the output is the key times the input point, the
challenge is that same hash at `c·A + s·B` and `c·O + s·I`, so any implementation of the description above accepts. -/
theorem vrf_sign_wire (sk : SecretKey) (malleable : Bool) (log extra : List MOp) (sys : Rng) :
    let kp : Keypair P := sk.toKeypair
    let pk := kp.pub
    let out := kp.vrfSignExtra (wireInput malleable log) (⟨extra⟩ : Transcript) sys
    let I : P := wireInputPoint malleable log pk.compressed.1
    let O : P := sk.key.toZ • I
    out.1 = ⟨⟨compress I, I⟩, ⟨compress O, O⟩⟩ ∧
    out.2.1.c = Scalar.ofZ (wireChallenge extra pk.point pk.compressed.1 I O out.2.1.c.toZ out.2.1.s.toZ) ∧
    out.2.2 = ⟨compress (out.2.1.c.toZ • pk.point + out.2.1.s.toZ • (basepoint : P)),
      compress (out.2.1.c.toZ • O + out.2.1.s.toZ • I), out.2.1.s⟩ := by
  intro kp pk out I O
  obtain ⟨hI, hIw⟩ := vrfHash_wire pk malleable log
  have hin : PublicKey.vrfHash pk (wireInput malleable log) = ⟨compress I, I⟩ := by
    have h2 : compress (PublicKey.vrfHash pk (wireInput malleable log)).point =
      (PublicKey.vrfHash pk (wireInput malleable log)).compressed := hIw
    show _ = (⟨compress (wireInputPoint malleable log pk.compressed.1 : P),
      wireInputPoint malleable log pk.compressed.1⟩ : RistrettoBoth P)
    rw [← hI, h2]
  have hio : out.1 = ⟨⟨compress I, I⟩, ⟨compress O, O⟩⟩ := by
    show kp.vrfCreateHash (wireInput malleable log) = _
    unfold Keypair.vrfCreateHash SecretKey.vrfCreateFromPoint
    rw [show PublicKey.vrfHash kp.pub (wireInput malleable log) = ⟨compress I, I⟩ from hin]
    simp only [RistrettoBoth.fromPoint, mulPoint_eq]
    rfl
  have hk : kp.pub.point = kp.secret.key.toZ • (basepoint : P) := mulPoint_eq _ _
  have hd := (dleq_complete_sim merlin_sim kp hk (⟨extra⟩ : Transcript) ⟨extra⟩ rfl
    (kp.vrfCreateHash (wireInput malleable log)) (create_output kp _) KUSAMA_VRF sys).1
  have hio' : kp.vrfCreateHash (wireInput malleable log) = ⟨⟨compress I, I⟩, ⟨compress O, O⟩⟩ := hio
  refine ⟨hio, ?_⟩
  have hd' : (PublicKey.dleqVerify pk (⟨extra⟩ : Transcript) out.1 out.2.1 KUSAMA_VRF).1 = .ok out.2.2 := hd
  rw [hio] at hd'
  exact (dleq_wire pk extra ⟨⟨compress I, I⟩, ⟨compress O, O⟩⟩ rfl rfl out.2.1 out.2.2).mp hd'

/-- Non-vacuity: every honest proof whose output is not the identity is accepted, so meets the description. -/
example (sk : SecretKey) (hc : sk.key.Canonical) (malleable : Bool) (log extra : List MOp) (sys : Rng)
    (h0 : sk.key.toZ • (wireInputPoint malleable log (sk.toPublic : PublicKey P).compressed.1 : P) ≠ 0) :
    let out := (sk.toKeypair : Keypair P).vrfSignExtra (wireInput malleable log) (⟨extra⟩ : Transcript) sys
    PublicKey.vrfVerifyExtra (sk.toPublic : PublicKey P) (wireInput malleable log) out.1.toPreout out.2.1
      (⟨extra⟩ : Transcript) = .ok (out.1, out.2.2) := by
  intro out
  obtain ⟨h1, h2, h3⟩ := vrf_sign_wire (P := P) sk malleable log extra sys
  exact (vrf_verify_wire (sk.toPublic : PublicKey P) malleable log extra out.1.toPreout out.2.1 out.1 out.2.2).mpr
    ⟨_, by rw [show out.1 = _ from h1]; rfl, h0, h2, by
      rw [show out.1 = _ from h1]; rfl, h3⟩

/-- **C61** the output bytes a user reads off: the verifier sees exactly the bytes it was given, and the signer the
encoding of its key times the input point; `to_preout` wraps the same bytes. -/
theorem vrf_output_bytes (pk : PublicKey P) (malleable : Bool) (log extra : List MOp) (out : VRFPreOut)
    (proof : VRFProof) (io : VRFInOut P) (b : VRFProofBatchable)
    (h : PublicKey.vrfVerifyExtra pk (wireInput malleable log) out proof (⟨extra⟩ : Transcript) = .ok (io, b))
    (kp : Keypair P) :
    io.asOutputBytes = out.bytes ∧ io.toPreout = out ∧
    (kp.vrfCreateHash (wireInput malleable log)).asOutputBytes =
      compress (kp.secret.key.toZ • (wireInputPoint malleable log kp.pub.compressed.1 : P)) ∧
    (kp.vrfCreateHash (wireInput malleable log)).toPreout.bytes =
      (kp.vrfCreateHash (wireInput malleable log)).asOutputBytes := by
  obtain ⟨O, -, -, -, rfl, -⟩ := (vrf_verify_wire pk malleable log extra out proof io b).mp h
  refine ⟨rfl, rfl, ?_, rfl⟩
  have := (vrfHash_wire kp.pub malleable log).1
  unfold Keypair.vrfCreateHash SecretKey.vrfCreateFromPoint VRFInOut.asOutputBytes
  simp only [RistrettoBoth.fromPoint, mulPoint_eq, this]

/-- **C61** `vrfs_verify_extra`: the merged pair must satisfy the same description. -/
theorem vrfs_verify_wire (pk : PublicKey P) (ts : List (Bool × List MOp)) (outs : List VRFPreOut) (proof : VRFProof)
    (extra : List MOp) (ps : List (VRFInOut P)) (b : VRFProofBatchable) :
    PublicKey.vrfsVerifyExtra pk (ts.map fun x => wireInput x.1 x.2) outs proof (⟨extra⟩ : Transcript) = .ok (ps, b) ↔
      (ts.length = outs.length ∨ ts.length = outs.length + 1) ∧ outs ≠ [] ∧
      List.Forall₂ (fun (x : (Bool × List MOp) × VRFPreOut) (io : VRFInOut P) =>
        let I : P := wireInputPoint x.1.1 x.1.2 pk.compressed.1
        ∃ O : P, compress O = x.2.bytes ∧ O ≠ 0 ∧ io = ⟨⟨compress I, I⟩, ⟨x.2.bytes, O⟩⟩) (ts.zip outs) ps ∧
      let z := fun p : VRFInOut P => mergeCoeff pk.compressed.1 (ps.map encPair) (encPair p)
      let I := (ps.map fun p => z p • p.input.point).sum
      let O := (ps.map fun p => z p • p.output.point).sum
      proof.c = Scalar.ofZ (wireChallenge extra pk.point pk.compressed.1 I O proof.c.toZ proof.s.toZ) ∧
      b = ⟨compress (proof.c.toZ • pk.point + proof.s.toZ • (basepoint : P)),
        compress (proof.c.toZ • O + proof.s.toZ • I), proof.s⟩ := by
  rw [vrfs_verify_accepts]
  have hlen : (ts.map fun x => wireInput x.1 x.2).length = ts.length := by simp
  rw [hlen, show (ts.map fun x => wireInput x.1 x.2).zip outs =
    (ts.zip outs).map (fun x => (wireInput x.1.1 x.1.2, x.2)) by
      rw [List.zip_map_left]; rfl]
  rw [List.forall₂_map_left_iff]
  refine and_congr_right fun h1 => and_congr_right fun h2 => ?_
  have hin : ∀ x : Bool × List MOp, PublicKey.vrfHash pk (wireInput x.1 x.2) =
      ⟨compress (wireInputPoint x.1 x.2 pk.compressed.1 : P), wireInputPoint x.1 x.2 pk.compressed.1⟩ := by
    intro x
    obtain ⟨hI, hIw⟩ := vrfHash_wire pk x.1 x.2
    have h2 : compress (PublicKey.vrfHash pk (wireInput x.1 x.2)).point =
      (PublicKey.vrfHash pk (wireInput x.1 x.2)).compressed := hIw
    rw [← hI, h2]
  have hall : List.Forall₂ (fun (c : (Bool × List MOp) × VRFPreOut) (d : VRFInOut P) =>
        d.input = PublicKey.vrfHash pk (wireInput c.1.1 c.1.2) ∧ d.output.compressed = c.2.bytes ∧
          compress d.output.point = c.2.bytes ∧ d.output.point ≠ 0) (ts.zip outs) ps ↔
      List.Forall₂ (fun (x : (Bool × List MOp) × VRFPreOut) (io : VRFInOut P) =>
        let I : P := wireInputPoint x.1.1 x.1.2 pk.compressed.1
        ∃ O : P, compress O = x.2.bytes ∧ O ≠ 0 ∧ io = ⟨⟨compress I, I⟩, ⟨x.2.bytes, O⟩⟩) (ts.zip outs) ps := by
    have : ∀ (c : (Bool × List MOp) × VRFPreOut) (d : VRFInOut P),
        (d.input = PublicKey.vrfHash pk (wireInput c.1.1 c.1.2) ∧ d.output.compressed = c.2.bytes ∧
          compress d.output.point = c.2.bytes ∧ d.output.point ≠ 0) ↔
        (let I : P := wireInputPoint c.1.1 c.1.2 pk.compressed.1
         ∃ O : P, compress O = c.2.bytes ∧ O ≠ 0 ∧ d = ⟨⟨compress I, I⟩, ⟨c.2.bytes, O⟩⟩) := by
      intro c d
      rw [hin c.1]
      rcases d with ⟨di, ⟨dc, dp⟩⟩
      simp only
      constructor
      · rintro ⟨rfl, rfl, h3, h4⟩; exact ⟨dp, h3, h4, rfl⟩
      · rintro ⟨O, h3, h4, h5⟩
        injection h5 with h5 h6
        injection h6 with h6 h7
        subst h6; subst h7
        exact ⟨h5, rfl, h3, h4⟩
    simp only [this]
  rw [hall]
  refine and_congr_right fun h3 => ?_
  have hps : ps ≠ [] := by
    rintro rfl
    cases hz : ts.zip outs with
    | nil =>
      have := congrArg List.length hz
      rw [List.length_zip] at this
      have hpos := List.length_pos_of_ne_nil h2
      simp only [List.length_nil] at this
      omega
    | cons a l => rw [hz] at h3; cases h3
  obtain ⟨m, hm, hiw, how, hi, ho⟩ := (vrfs_merge_spec pk ps).2 hps
  simp only
  rw [← hi, ← ho]
  constructor
  · rintro ⟨m', h4, h5⟩
    rw [hm] at h4
    cases h4
    exact (dleq_wire pk extra m hiw how proof b).mp h5
  · intro h
    exact ⟨m, hm, (dleq_wire pk extra m hiw how proof b).mpr h⟩

end Schnorrkel.Props
