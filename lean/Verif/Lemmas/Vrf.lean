import Verif.Spec.Vrf
import Verif.Lemmas.Batch

namespace Schnorrkel
open SigningTranscript
variable {P : Type} [Ristretto P] {T : Type} [SigningTranscript T]

theorem shortenDleq_eq (b : VRFProofBatchable) (t : T) (pub : PublicKey P) (p : VRFInOut P)
    (kusama : Bool) : b.shortenDleq t pub p kusama =
      ⟨dleqChallenge t kusama p.input.compressed pub.compressed b.R b.Hr p.output.compressed, b.s⟩ := rfl

theorem dleqVerify_eq (pk : PublicKey P) (t : T) (p : VRFInOut P) (proof : VRFProof) (kusama : Bool) :
    let R := compress (proof.c.toZ • pk.point + proof.s.toZ • (basepoint : P))
    let Hr := compress (proof.c.toZ • p.output.point + proof.s.toZ • p.input.point)
    (PublicKey.dleqVerify pk t p proof kusama) =
      (if proof.c = dleqChallenge t kusama p.input.compressed pk.compressed R Hr p.output.compressed
        then .ok ⟨R, Hr, proof.s⟩ else .error .equationFalse,
       (challengeScalar (dleqPre t kusama p.input.compressed pk.compressed R Hr p.output.compressed)
          (b! "prove")).2) := by
  intro R Hr
  have e1 : compress (doubleScalarMulBasepoint proof.c pk.point proof.s) = R := by
    simp only [doubleScalarMulBasepoint, mulPoint_eq, R]
  have e2 : compress (multiscalar [(proof.c, p.output.point), (proof.s, p.input.point)]) = Hr := by
    simp only [multiscalar, List.map_cons, List.map_nil, List.sum_cons, List.sum_nil, add_zero,
      mulPoint_eq, Hr]
  unfold PublicKey.dleqVerify
  simp only [e1, e2]
  by_cases hc : proof.c = dleqChallenge t kusama p.input.compressed pk.compressed R Hr
      p.output.compressed
  · rw [if_pos hc]
    exact if_pos hc
  · rw [if_neg hc]
    exact if_neg hc

/-- The prover's nonce. -/
def dleqNonce (kp : Keypair P) (t : T) (p : VRFInOut P) (kusama : Bool) (sys : Rng) : Scalar :=
  let t := protoName t (b! "DLEQProof")
  let t := commitPoint t (b! "vrf:h") p.input.compressed
  let t := if !kusama then commitPoint t (b! "vrf:pk") kp.pub.compressed else t
  (witnessScalar t (b! "proving\x000") [kp.secret.nonce.1] sys).1

theorem dleqProove_sim {T' : Type} [SigningTranscript T'] {Rel : T → T' → Prop} (hR : TSim Rel)
    (kp : Keypair P) (t : T) (t' : T') (ht : Rel t t')
    (p : VRFInOut P) (kusama : Bool) (sys : Rng) :
    let out := kp.dleqProove t p kusama sys
    let r := (dleqNonce kp t p kusama sys).toZ
    out.1.2.R = compress (r • (basepoint : P)) ∧
    out.1.2.Hr = compress (r • p.input.point) ∧
    out.1.1.c = dleqChallenge t' kusama p.input.compressed kp.pub.compressed out.1.2.R out.1.2.Hr
      p.output.compressed ∧
    out.1.1.s = out.1.2.s ∧
    out.1.1.s.toZ = r - out.1.1.c.toZ * kp.secret.key.toZ ∧
    out.1.1.s.Canonical ∧ out.1.1.c.Canonical ∧
    Rel out.2.1 (challengeScalar (dleqPre t' kusama p.input.compressed kp.pub.compressed out.1.2.R
      out.1.2.Hr p.output.compressed) (b! "prove")).2 := by
  intro out r
  have hn : (dleqNonce kp t p kusama sys).Canonical := canonical_witness _ _ _ _
  have hRR : out.1.2.R = compress ((dleqNonce kp t p kusama sys) •. (basepoint : P)) := rfl
  have hHr : out.1.2.Hr = compress ((dleqNonce kp t p kusama sys) •. p.input.point) := rfl
  have hs : out.1.1.s = dleqNonce kp t p kusama sys - out.1.1.c * kp.secret.key := rfl
  have hpre : Rel (if kusama then
      commitPoint (commitPoint (commitPoint (commitPoint (witnessScalar
        (if !kusama then commitPoint (commitPoint (protoName t (b! "DLEQProof")) (b! "vrf:h")
            p.input.compressed) (b! "vrf:pk") kp.pub.compressed
          else commitPoint (protoName t (b! "DLEQProof")) (b! "vrf:h") p.input.compressed)
        (b! "proving\x000") [kp.secret.nonce.1] sys).2.1 (b! "vrf:R=g^r") out.1.2.R)
        (b! "vrf:h^r") out.1.2.Hr) (b! "vrf:pk") kp.pub.compressed)
        (b! "vrf:h^sk") p.output.compressed
      else commitPoint (commitPoint (commitPoint (witnessScalar
        (if !kusama then commitPoint (commitPoint (protoName t (b! "DLEQProof")) (b! "vrf:h")
            p.input.compressed) (b! "vrf:pk") kp.pub.compressed
          else commitPoint (protoName t (b! "DLEQProof")) (b! "vrf:h") p.input.compressed)
        (b! "proving\x000") [kp.secret.nonce.1] sys).2.1 (b! "vrf:R=g^r") out.1.2.R)
        (b! "vrf:h^r") out.1.2.Hr)
        (b! "vrf:h^sk") p.output.compressed)
      (dleqPre t' kusama p.input.compressed kp.pub.compressed out.1.2.R out.1.2.Hr
        p.output.compressed) := by
    cases kusama with
    | true =>
      simp only [if_true, Bool.not_true, Bool.false_eq_true, if_false, dleqPre]
      exact hR.point _ _ (hR.point _ _ (hR.point _ _ (hR.point _ _ (hR.witnessScalar_left _ _ _
        (hR.point _ _ (hR.proto _ ht))))))
    | false =>
      simp only [if_true, Bool.not_false, Bool.false_eq_true, if_false, dleqPre]
      exact hR.point _ _ (hR.point _ _ (hR.point _ _ (hR.witnessScalar_left _ _ _
        (hR.point _ _ (hR.point _ _ (hR.proto _ ht))))))
  have hcc : out.1.1.c = dleqChallenge t' kusama p.input.compressed kp.pub.compressed out.1.2.R
      out.1.2.Hr p.output.compressed := by
    unfold dleqChallenge
    rw [← hR.challengeScalar_eq (b! "prove") hpre]
    cases kusama <;> rfl
  have hccan : out.1.1.c.Canonical := by rw [hcc]; exact canonical_challenge _ _
  refine ⟨by rw [hRR, mulPoint_eq], by rw [hHr, mulPoint_eq], hcc, rfl, ?_, ?_, hccan, ?_⟩
  · rw [hs, Scalar.toZ_sub hn (Scalar.canonical_mul _ _), Scalar.toZ_mul]
  · rw [hs]; exact Scalar.canonical_sub hn (Scalar.canonical_mul _ _)
  · have := hR.challengeScalar_rel (b! "prove") hpre
    cases kusama <;> exact this

theorem dleq_eqn (x r c : Z) (b : P) : c • x • b + (r - c * x) • b = r • b := by module

/-- Honest DLEQ proofs verify, and verification recovers the batchable proof. -/
theorem dleq_complete_sim {T' : Type} [SigningTranscript T'] {Rel : T → T' → Prop} (hR : TSim Rel)
    (kp : Keypair P)
    (hk : kp.pub.point = kp.secret.key.toZ • (basepoint : P)) (t : T) (t' : T') (ht : Rel t t')
    (p : VRFInOut P) (hp : p.output.point = kp.secret.key.toZ • p.input.point) (kusama : Bool)
    (sys : Rng) :
    let out := kp.dleqProove t p kusama sys
    (PublicKey.dleqVerify kp.pub t' p out.1.1 kusama).1 = .ok out.1.2 ∧
    Rel out.2.1 (PublicKey.dleqVerify kp.pub t' p out.1.1 kusama).2 := by
  intro out
  obtain ⟨h1, h2, h3, h4, h5, h6, h7, h8⟩ := dleqProove_sim hR kp t t' ht p kusama sys
  have eR : compress (out.1.1.c.toZ • kp.pub.point + out.1.1.s.toZ • (basepoint : P)) = out.1.2.R := by
    rw [h1, h5, hk, dleq_eqn]
  have eH : compress (out.1.1.c.toZ • p.output.point + out.1.1.s.toZ • p.input.point) = out.1.2.Hr := by
    rw [h2, h5, hp, dleq_eqn]
  rw [dleqVerify_eq]
  simp only [eR, eH]
  rw [if_pos h3, h4]
  exact ⟨rfl, h8⟩

theorem vrfMalleableHash_wf (t : T) : (vrfMalleableHash t : RistrettoBoth P).WF := rfl

/-- Related transcripts hash to the same VRF input. -/
theorem vrfHash_sim {T' : Type} [SigningTranscript T'] {Rel : T → T' → Prop} (hR : TSim Rel)
    (pk : PublicKey P) {t : T} {t' : T'} (ht : Rel t t') :
    PublicKey.vrfHash pk (.plain t) = PublicKey.vrfHash pk (.plain t') ∧
    PublicKey.vrfHash pk (.malleable t) = PublicKey.vrfHash pk (.malleable t') := by
  constructor
  · simp only [PublicKey.vrfHash, VRFTranscript.addressed, vrfMalleableHash]
    rw [(hR.challenge _ _ _ _ (hR.point (b! "vrf-nm-pk") pk.compressed ht)).1]
  · simp only [PublicKey.vrfHash, VRFTranscript.addressed, vrfMalleableHash]
    rw [(hR.challenge _ _ _ _ ht).1]

theorem vrfHash_vrel {T' : Type} [SigningTranscript T'] {Rel : T → T' → Prop} (hR : TSim Rel)
    (pk : PublicKey P) {t : VRFTranscript T} {t' : VRFTranscript T'} (ht : VRel Rel t t') :
    PublicKey.vrfHash pk t = PublicKey.vrfHash pk t' := by
  cases ht with
  | plain h => exact (vrfHash_sim hR pk h).1
  | malleable h => exact (vrfHash_sim hR pk h).2

theorem attachInputHash_eq (o : VRFPreOut) (pk : PublicKey P) (t : VRFTranscript T) :
    o.attachInputHash pk t =
      match (decompress o.bytes : Option P) with
      | none => .error .pointDecompressionError
      | some q => if q = 0 then .error .pointDecompressionError
                  else .ok ⟨PublicKey.vrfHash pk t, ⟨o.bytes, q⟩⟩ := by
  have hl : ¬ (o.bytes.1.length ≠ RISTRETTO_POINT_LENGTH) := not_not.mpr o.bytes.2
  have hb : (⟨o.bytes.1.take 32, by simp [o.bytes.2]⟩ : Compressed) = o.bytes :=
    Subtype.ext (List.take_of_length_le (by rw [o.bytes.2]))
  unfold VRFPreOut.attachInputHash RistrettoBoth.fromBytesSer RistrettoBoth.fromCompressed
  simp only [dif_neg hl, hb]
  cases (decompress o.bytes : Option P) <;> rfl

theorem attachInputHash_ok {o : VRFPreOut} {pk : PublicKey P} {t : VRFTranscript T}
    {io : VRFInOut P} : o.attachInputHash pk t = .ok io ↔
      io.input = PublicKey.vrfHash pk t ∧ io.output.compressed = o.bytes ∧ io.output.WF ∧
        io.output.point ≠ 0 := by
  rw [attachInputHash_eq]
  cases h : (decompress o.bytes : Option P) with
  | none =>
    simp only [reduceCtorEq, false_iff]
    rintro ⟨_, h2, h3, _⟩
    have : decompress o.bytes = some io.output.point :=
      (Ristretto.decompress_iff _ _).mpr (by rw [← h2]; exact h3)
    rw [h] at this; cases this
  | some q =>
    have hq := compress_of_decompress h
    simp only
    constructor
    · intro h1
      split at h1
      · cases h1
      · injection h1 with h1; subst h1
        exact ⟨rfl, rfl, hq, by assumption⟩
    · rintro ⟨h1, h2, h3, h4⟩
      have : io.output.point = q := compress_inj.mp (by rw [hq, ← h2]; exact h3)
      rw [if_neg (by rw [← this]; exact h4)]
      cases io with | mk i o' => cases o' with | mk c q' =>
      simp only at *
      subst h1 h2 this
      rfl

end Schnorrkel
