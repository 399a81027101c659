import Verif.Spec.Zk
import Verif.Props.Witness
import Verif.Instance
import Mathlib.Data.Int.CardIntervalMod
import Mathlib.SetTheory.Cardinal.Finite

/-! # C57, C58: signatures and VRF proofs reveal nothing beyond the public key -/

namespace Schnorrkel.Props
open SigningTranscript Spec
variable {P : Type} [Ristretto P]

theorem program_hit (O : Oracles) (q : List MOp) {n : Nat} (w : Arr n) :
    (program O q w).merlin q n = w := by
  show (if h : q = q ∧ n = n then h.2 ▸ w else O.merlin q n) = w
  rw [dif_pos ⟨rfl, rfl⟩]

theorem program_miss (O : Oracles) (q : List MOp) {n : Nat} (w : Arr n) (l : List MOp) (m : Nat) (h : l ≠ q) :
    (program O q w).merlin l m = O.merlin l m := by
  show (if h : l = q ∧ n = m then h.2 ▸ w else O.merlin l m) = _
  rw [dif_neg (fun hh => h hh.1)]

theorem pow64 : (256 : Nat) ^ 64 = 2 ^ 512 := by
  rw [show (256 : Nat) = 2 ^ 8 from rfl, ← pow_mul]

/-- 64-byte strings are the numbers below `2^512`. -/
def arr64Equiv : Arr 64 ≃ Fin (2 ^ 512) where
  toFun b := ⟨leNat b.1, by
    have := leNat_lt b.1
    rwa [b.2, pow64] at this⟩
  invFun n := leArr 64 n.1
  left_inv b := by
    apply Arr.leNat_inj
    simp only [leArr, leNat_leBytes]
    apply Nat.mod_eq_of_lt
    have := leNat_lt b.1
    rwa [b.2] at this
  right_inv n := by
    apply Fin.ext
    simp only [leArr, leNat_leBytes]
    apply Nat.mod_eq_of_lt
    rw [pow64]; exact n.2

/-- **C58** reducing 64 bytes modulo the group order (as every challenge, nonce and key scalar is made) is as close
to uniform as possible: every residue class has `⌊2^512/ℓ⌋` or one more preimages. -/
theorem wide_reduction_uniform (z : Z) :
    Nat.card {w : Arr 64 // residue w = z} = 2 ^ 512 / ell ∨
    Nat.card {w : Arr 64 // residue w = z} = 2 ^ 512 / ell + 1 := by
  have e1 : Nat.card {w : Arr 64 // residue w = z} = Nat.card {n : Fin (2 ^ 512) // n.1 ≡ z.val [MOD ell]} := by
    apply Nat.card_congr
    refine arr64Equiv.subtypeEquiv fun w => ?_
    unfold residue
    rw [← ZMod.natCast_eq_natCast_iff]
    simp [arr64Equiv]
  have e2 : Nat.card {n : Fin (2 ^ 512) // n.1 ≡ z.val [MOD ell]} =
      Nat.count (fun n => n ≡ z.val [MOD ell]) (2 ^ 512) := by
    rw [Nat.count_eq_card_fintype, Fintype.card_eq_nat_card]
    exact Nat.card_congr
      { toFun := fun n => ⟨n.1.1, n.1.2, n.2⟩
        invFun := fun n => ⟨⟨n.1, n.2.1⟩, n.2.2⟩
        left_inv := fun _ => rfl
        right_inv := fun _ => rfl }
  rw [e1, e2, Nat.count_modEq_card _ ell_prime.pos]
  split <;> simp

private theorem val_smul' (z : Z) (p : P) : z.val • p = z • p := by
  rw [← Nat.cast_smul_eq_nsmul Z, ZMod.natCast_zmod_val]

theorem hashWith_hit (O : Oracles) (q : List MOp) (w : Arr 64) : hashWith (program O q w) q = residue w := by
  unfold hashWith hashToZ residue
  rw [show @Oracles.merlin (program O q w) q 64 = w from program_hit O q w]

theorem hashWith_miss (O : Oracles) (q l : List MOp) {n : Nat} (w : Arr n) (h : l ≠ q) :
    hashWith (program O q w) l = hashWith O l := by
  unfold hashWith hashToZ
  rw [show @Oracles.merlin (program O q w) l 64 = _ from program_miss O q w l 64 h]

/-- Verification with hash functions `O`, as an equation on the response. -/
theorem verifyWith_iff (O : Oracles) (pk : PublicKey P) (t : Transcript) (sig : Signature) :
    verifyWith O pk t sig = .ok () ↔
      compress (sig.s.toZ • (basepoint : P) -
        hashWith O (Use.signature t.log pk.compressed.1 sig.R.1).query • pk.point) = sig.R := by
  letI := O
  refine (verify_iff_schnorr pk t sig).1.trans ?_
  have hc : schnorrChallenge t.log pk.compressed.1 sig.R.1 =
    hashWith O (Use.signature t.log pk.compressed.1 sig.R.1).query := rfl
  rw [hc]
  have hv : sig.s.val • (basepoint : P) = sig.s.toZ • basepoint := (Nat.cast_smul_eq_nsmul Z _ _).symm
  constructor
  · rintro ⟨R, h1, h2⟩
    rw [hv, val_smul'] at h2
    rw [h2, add_sub_cancel_right]
    exact Subtype.ext h1
  · intro h
    refine ⟨_, congrArg Subtype.val h, ?_⟩
    rw [hv, val_smul', sub_add_cancel]

/-- **C57** simulation: for *every* public key (no secret involved), transcript, response `s` and 64 bytes `w`, the
signature with commitment `s·B − w·A` and response `s` is accepted once the one challenge it asks is answered by `w`. -/
theorem signature_simulation (O : Oracles) (pk : PublicKey P) (t : Transcript) (s : Z) (w : Arr 64) :
    let R := compress (s • (basepoint : P) - residue w • pk.point)
    verifyWith (program O (Use.signature t.log pk.compressed.1 R.1).query w) pk t ⟨R, Scalar.ofZ s⟩ = .ok () := by
  intro R
  rw [verifyWith_iff]
  simp only
  rw [hashWith_hit, Scalar.toZ_ofZ]

/-- Closed form of signing on a merlin transcript. -/
theorem sign_merlin_form (O : Oracles) (sk : SecretKey) (pk : PublicKey P) (t : Transcript) (sys : Rng) :
    let r := hashWith O (Use.signNonce t.log pk.compressed.1 sk.nonce.1 (sys.fill 32).1.1).query
    let R := compress (r • (basepoint : P))
    signWith O sk t pk sys =
      ⟨R, Scalar.ofZ (hashWith O (Use.signature t.log pk.compressed.1 R.1).query * sk.key.toZ + r)⟩ := by
  letI := O
  intro r R
  let t1 := commitPoint (protoName t (b! "Schnorr-sig")) (b! "sign:pk") pk.compressed
  obtain ⟨h1, h2⟩ := merlin_witness_scalar t1 (b! "signing") [sk.nonce.1] sys
  have hr : (witnessScalar t1 (b! "signing") [sk.nonce.1] sys).1.toZ = r := by
    rw [h1]
    simp [r, hashWith, Use.query, witnessQuery, t1, commitPoint, protoName, commitBytes, Transcript.appendMessage]
  have hR : compress ((witnessScalar t1 (b! "signing") [sk.nonce.1] sys).1 •. (basepoint : P)) = R := by
    rw [mulPoint_eq, hr]
  let c := (challengeScalar (commitPoint t1 (b! "sign:R") R) (b! "sign:c")).1
  have hc : c.toZ = hashWith O (Use.signature t.log pk.compressed.1 R.1).query := by
    simp only [c, challengeScalar, Scalar.toZ_wide]
    simp [hashWith, hashToZ, Use.query, t1, commitPoint, protoName, commitBytes, Transcript.appendMessage,
      SigningTranscript.challengeBytes, Transcript.challengeBytes, schnorrFrames]
  have e : signWith O sk t pk sys = ⟨R, c * sk.key + (witnessScalar t1 (b! "signing") [sk.nonce.1] sys).1⟩ := by
    unfold signWith SecretKey.sign
    have h3 : (witnessScalar t1 (b! "signing") [sk.nonce.1] sys) =
      ((witnessScalar t1 (b! "signing") [sk.nonce.1] sys).1, t1, (sys.fill 32).2) := by rw [← h2]
    show (⟨compress ((witnessScalar t1 (b! "signing") [sk.nonce.1] sys).1 •. (basepoint : P)), _⟩ : Signature) = _
    rw [hR]
    simp only [c]
    congr 2
  rw [e]
  congr 1
  have hcan : (c * sk.key + (witnessScalar t1 (b! "signing") [sk.nonce.1] sys).1).Canonical :=
    Scalar.canonical_add (Scalar.canonical_mul _ _) (canonical_witness _ _ _ _)
  rw [← hcan.ofZ_toZ, Scalar.toZ_add (Scalar.canonical_mul _ _) (canonical_witness _ _ _ _), Scalar.toZ_mul, hc, hr]

/-- **C57** exactness: take a keypair, a transcript and any signature with canonical `s`.  Of the `2^512` possible
answers to the nonce query, those that make `sign` output this signature are: none if the signature is not valid,
and exactly one residue class if it is. -/
theorem signature_nonces (O : Oracles) (sk : SecretKey) (pk : PublicKey P) (t : Transcript) (sys : Rng)
    (hpk : pk.point = sk.key.toZ • (basepoint : P)) (sig : Signature) (hs : sig.s.Canonical) (w : Arr 64) :
    signWith (program O (Use.signNonce t.log pk.compressed.1 sk.nonce.1 (sys.fill 32).1.1).query w) sk t pk sys = sig ↔
      verifyWith O pk t sig = .ok () ∧
      residue w = sig.s.toZ - hashWith O (Use.signature t.log pk.compressed.1 sig.R.1).query * sk.key.toZ := by
  have hne : ∀ R : Bytes, (Use.signature t.log pk.compressed.1 R).query ≠
      (Use.signNonce t.log pk.compressed.1 sk.nonce.1 (sys.fill 32).1.1).query := by
    intro R h
    have := congrArg List.getLast? h
    simp [Use.query] at this
  rw [sign_merlin_form, verifyWith_iff]
  simp only [hashWith_hit, hashWith_miss _ _ _ w (hne _)]
  rcases sig with ⟨R, s⟩
  simp only [Signature.mk.injEq]
  constructor
  · rintro ⟨rfl, rfl⟩
    rw [Scalar.toZ_ofZ, hpk, smul_smul, ← sub_smul, add_sub_cancel_left]
    exact ⟨rfl, rfl⟩
  · rintro ⟨h1, h2⟩
    have hR : compress (residue w • (basepoint : P)) = R := by
      rw [h2, sub_smul, ← smul_smul, ← hpk, h1]
    refine ⟨hR, ?_⟩
    rw [hR, h2, add_sub_cancel, hs.ofZ_toZ]

/-- **C57** so every valid signature is produced by `⌊2^512/ℓ⌋` or one more of the `2^512` nonce answers, whatever
the secret key: the distribution of signatures depends on the public key only (up to one part in `⌊2^512/ℓ⌋`), and
invalid ones are never produced. -/
theorem signature_distribution (O : Oracles) (sk : SecretKey) (pk : PublicKey P) (t : Transcript) (sys : Rng)
    (hpk : pk.point = sk.key.toZ • (basepoint : P)) (sig : Signature) (hs : sig.s.Canonical) :
    let N := Nat.card {w : Arr 64 // signWith
      (program O (Use.signNonce t.log pk.compressed.1 sk.nonce.1 (sys.fill 32).1.1).query w) sk t pk sys = sig}
    (verifyWith O pk t sig = .ok () → N = 2 ^ 512 / ell ∨ N = 2 ^ 512 / ell + 1) ∧
    (verifyWith O pk t sig ≠ .ok () → N = 0) := by
  intro N
  have hN : N = Nat.card {w : Arr 64 // verifyWith O pk t sig = .ok () ∧
      residue w = sig.s.toZ - hashWith O (Use.signature t.log pk.compressed.1 sig.R.1).query * sk.key.toZ} :=
    Nat.card_congr (Equiv.subtypeEquivRight fun w => signature_nonces O sk pk t sys hpk sig hs w)
  rw [hN]
  constructor
  · intro hv
    simp only [hv, true_and]
    exact wide_reduction_uniform _
  · intro hv
    simp only [hv, false_and]
    simp

/-! ## VRF / DLEQ proofs -/

/-- The residue of a 64-byte string as the scalar dalek reduces it to. -/
theorem ofZ_residue (w : Arr 64) : Scalar.ofZ (residue w) = Scalar.fromBytesModOrderWide w := by
  rw [← (Scalar.canonical_wide w).ofZ_toZ, Scalar.toZ_wide]; rfl

/-- **C57** simulation of DLEQ/VRF proofs: for every public key and *every* claimed output, the proof with challenge
`w` and response `s` is accepted once its one challenge query is answered by `w`. -/
theorem dleq_simulation (O : Oracles) (pk : PublicKey P) (t : Transcript) (p : VRFInOut P) (kusama : Bool)
    (s : Z) (w : Arr 64) :
    let R := compress (residue w • pk.point + s • (basepoint : P))
    let Hr := compress (residue w • p.output.point + s • p.input.point)
    dleqVerifyWith (program O (Use.dleq t.log kusama p.input.compressed.1 pk.compressed.1 R.1 Hr.1
      p.output.compressed.1).query w) pk t p ⟨Scalar.ofZ (residue w), Scalar.ofZ s⟩ kusama =
        .ok ⟨R, Hr, Scalar.ofZ s⟩ := by
  intro R Hr
  let O' := program O (Use.dleq t.log kusama p.input.compressed.1 pk.compressed.1 R.1 Hr.1 p.output.compressed.1).query w
  letI := O'
  have hd : DleqValid pk.point p.input.point p.output.point R Hr (residue w) s := by
    refine ⟨_, _, rfl, rfl, ?_⟩
    simp [DleqEqns]
  refine ((dleq_verify_iff pk t p ⟨Scalar.ofZ (residue w), Scalar.ofZ s⟩ kusama).1 ⟨R, Hr, Scalar.ofZ s⟩).mpr
    ⟨rfl, by simpa only [Scalar.toZ_ofZ] using hd, ?_⟩
  simp only
  have hq := dleq_challenge_is_query t.log kusama p.input.compressed pk.compressed R Hr p.output.compressed
  have hh : hashToZ (dleqQuery t.log kusama p.input.compressed.1 pk.compressed.1 R.1 Hr.1 p.output.compressed.1) =
      residue w := hashWith_hit O _ w
  rw [hh] at hq
  have hcan : (dleqChallenge t kusama p.input.compressed pk.compressed R Hr p.output.compressed).Canonical :=
    Scalar.canonical_wide _
  rw [← hcan.ofZ_toZ]
  exact congrArg Scalar.ofZ hq.symm

/-- Closed form of proving on a merlin transcript. -/
theorem dleq_merlin_form (O : Oracles) (kp : Keypair P) (t : Transcript)
    (p : VRFInOut P) (kusama : Bool) (sys : Rng) :
    let r := hashWith O (Use.dleqNonce t.log kusama p.input.compressed.1 kp.pub.compressed.1 kp.secret.nonce.1
      (sys.fill 32).1.1).query
    let R := compress (r • (basepoint : P))
    let Hr := compress (r • p.input.point)
    let c := hashWith O (Use.dleq t.log kusama p.input.compressed.1 kp.pub.compressed.1 R.1 Hr.1
      p.output.compressed.1).query
    dleqProoveWith O kp t p kusama sys =
      (⟨Scalar.ofZ c, Scalar.ofZ (r - c * kp.secret.key.toZ)⟩, ⟨R, Hr, Scalar.ofZ (r - c * kp.secret.key.toZ)⟩) := by
  letI := O
  intro r R Hr c
  obtain ⟨h1, h2, h3, h4⟩ := vrf_nonce_is_hash kp t p kusama sys
  obtain ⟨-, -, h5, -, -, h6, h7, -⟩ := dleqProove_sim merlin_sim kp t t rfl p kusama sys
  change (dleqProoveWith O kp t p kusama sys).2.R = R at h1
  change (dleqProoveWith O kp t p kusama sys).2.Hr = Hr at h2
  change (dleqProoveWith O kp t p kusama sys).1.s.toZ = r - (dleqProoveWith O kp t p kusama sys).1.c.toZ * _ at h3
  change (dleqProoveWith O kp t p kusama sys).2.s = (dleqProoveWith O kp t p kusama sys).1.s at h4
  change (dleqProoveWith O kp t p kusama sys).1.c = dleqChallenge t kusama p.input.compressed kp.pub.compressed
    (dleqProoveWith O kp t p kusama sys).2.R (dleqProoveWith O kp t p kusama sys).2.Hr p.output.compressed at h5
  change (dleqProoveWith O kp t p kusama sys).1.s.Canonical at h6
  change (dleqProoveWith O kp t p kusama sys).1.c.Canonical at h7
  rw [h1, h2] at h5
  have hc : (dleqProoveWith O kp t p kusama sys).1.c.toZ = c := by
    rw [h5]
    exact dleq_challenge_is_query t.log kusama p.input.compressed kp.pub.compressed R Hr p.output.compressed
  rw [hc] at h3
  have hc' := h7.ofZ_toZ
  have hs' := h6.ofZ_toZ
  rw [hc] at hc'
  rw [h3] at hs'
  rcases hd : dleqProoveWith O kp t p kusama sys with ⟨⟨a, b⟩, ⟨x, y, z⟩⟩
  rw [hd] at h1 h2 h4 hc' hs'
  simp only at h1 h2 h4 hc' hs'
  rw [h1, h2, h4, hc', hs']

/-- **C57** exactness for DLEQ/VRF proofs with the right output: of the `2^512` answers to the nonce query, those
giving a particular proof pair are one residue class if the pair is what verification returns, else none. -/
theorem dleq_nonces (O : Oracles) (kp : Keypair P) (t : Transcript) (p : VRFInOut P)
    (kusama : Bool) (sys : Rng) (hpk : kp.pub.point = kp.secret.key.toZ • (basepoint : P))
    (hout : p.output.point = kp.secret.key.toZ • p.input.point) (proof : VRFProof) (batch : VRFProofBatchable)
    (hs : proof.s.Canonical) (w : Arr 64) :
    dleqProoveWith (program O (Use.dleqNonce t.log kusama p.input.compressed.1 kp.pub.compressed.1
        kp.secret.nonce.1 (sys.fill 32).1.1).query w) kp t p kusama sys = (proof, batch) ↔
      dleqVerifyWith O kp.pub t p proof kusama = .ok batch ∧
      residue w = proof.s.toZ + proof.c.toZ * kp.secret.key.toZ := by
  have hne : ∀ R Hr : Bytes, (Use.dleq t.log kusama p.input.compressed.1 kp.pub.compressed.1 R Hr
      p.output.compressed.1).query ≠ (Use.dleqNonce t.log kusama p.input.compressed.1 kp.pub.compressed.1
        kp.secret.nonce.1 (sys.fill 32).1.1).query := by
    intro R Hr h
    have := congrArg List.getLast? h
    cases kusama <;> simp [Use.query, dleqQuery, dleqNonceQuery, witnessQuery] at this
  rw [dleq_merlin_form _ _]
  simp only [hashWith_hit, hashWith_miss _ _ _ w (hne _ _)]
  have hv : dleqVerifyWith O kp.pub t p proof kusama = .ok batch ↔
      batch.s = proof.s ∧ DleqValid kp.pub.point p.input.point p.output.point batch.R batch.Hr proof.c.toZ
        proof.s.toZ ∧ proof.c = Scalar.ofZ (hashWith O (Use.dleq t.log kusama p.input.compressed.1
          kp.pub.compressed.1 batch.R.1 batch.Hr.1 p.output.compressed.1).query) := by
    letI := O
    refine ((dleq_verify_iff kp.pub t p proof kusama).1 batch).trans ?_
    have hcan : (dleqChallenge t kusama p.input.compressed kp.pub.compressed batch.R batch.Hr
      p.output.compressed).Canonical := Scalar.canonical_wide _
    rw [← hcan.ofZ_toZ]
    have := dleq_challenge_is_query t.log kusama p.input.compressed kp.pub.compressed batch.R batch.Hr p.output.compressed
    rw [this]; rfl
  rw [hv]
  rcases proof with ⟨c, s⟩
  rcases batch with ⟨R, Hr, s'⟩
  simp only [Prod.mk.injEq, VRFProof.mk.injEq, VRFProofBatchable.mk.injEq]
  constructor
  · rintro ⟨⟨rfl, rfl⟩, rfl, rfl, rfl⟩
    refine ⟨⟨rfl, ⟨_, _, rfl, rfl, ?_⟩, rfl⟩, ?_⟩
    · rw [Scalar.toZ_ofZ, Scalar.toZ_ofZ, hpk, hout]
      constructor
      · rw [smul_smul, ← add_smul]; congr 1; ring
      · rw [smul_smul, ← add_smul]; congr 1; ring
    · rw [Scalar.toZ_ofZ, Scalar.toZ_ofZ]; ring
  · rintro ⟨⟨rfl, ⟨R', Hr', rfl, rfl, h1, h2⟩, rfl⟩, h⟩
    rw [hpk, smul_smul, ← add_smul] at h1
    rw [hout, smul_smul, ← add_smul] at h2
    have hR : residue w • (basepoint : P) = R' := by
      refine Eq.trans ?_ h1.symm; rw [h]; congr 1; ring
    have hHr : residue w • p.input.point = Hr' := by
      refine Eq.trans ?_ h2.symm; rw [h]; congr 1; ring
    rw [hR, hHr]
    have hsz : Scalar.ofZ (residue w - hashWith O (Use.dleq t.log kusama p.input.compressed.1
        kp.pub.compressed.1 (compress R').1 (compress Hr').1 p.output.compressed.1).query * kp.secret.key.toZ) = s' := by
      rw [h, Scalar.toZ_ofZ, add_sub_cancel_right, hs.ofZ_toZ]
    rw [hsz]
    simp

/-- **C57** the number of nonce answers giving a particular accepted proof. -/
theorem dleq_distribution (O : Oracles) (kp : Keypair P) (t : Transcript)
    (p : VRFInOut P) (kusama : Bool) (sys : Rng) (hpk : kp.pub.point = kp.secret.key.toZ • (basepoint : P))
    (hout : p.output.point = kp.secret.key.toZ • p.input.point) (proof : VRFProof) (batch : VRFProofBatchable)
    (hs : proof.s.Canonical) :
    let N := Nat.card {w : Arr 64 // dleqProoveWith (program O (Use.dleqNonce t.log kusama p.input.compressed.1
        kp.pub.compressed.1 kp.secret.nonce.1 (sys.fill 32).1.1).query w) kp t p kusama sys = (proof, batch)}
    (dleqVerifyWith O kp.pub t p proof kusama = .ok batch → N = 2 ^ 512 / ell ∨ N = 2 ^ 512 / ell + 1) ∧
    (dleqVerifyWith O kp.pub t p proof kusama ≠ .ok batch → N = 0) := by
  intro N
  have hN : N = Nat.card {w : Arr 64 // dleqVerifyWith O kp.pub t p proof kusama = .ok batch ∧
      residue w = proof.s.toZ + proof.c.toZ * kp.secret.key.toZ} :=
    Nat.card_congr (Equiv.subtypeEquivRight fun w => dleq_nonces O kp t p kusama sys hpk hout proof batch hs w)
  rw [hN]
  constructor
  · intro hv
    simp only [hv, true_and]
    exact wide_reduction_uniform _
  · intro hv
    simp only [hv, false_and]
    simp

/-! ## The hypotheses are met

Every secret key with its own public key satisfies `hpk`, and whatever answer the nonce query gets, the signature
that comes out is one of the valid ones counted above. -/

example (O : Oracles) (sk : SecretKey) (t : Transcript) (sys : Rng) (w : Arr 64) :
    verifyWith O (sk.toPublic : PublicKey P) t (signWith (P := P) (program O (Use.signNonce t.log
      (sk.toPublic : PublicKey P).compressed.1 sk.nonce.1 (sys.fill 32).1.1).query w) sk t sk.toPublic sys) = .ok () :=
  ((signature_nonces O sk (sk.toPublic : PublicKey P) t sys (mulPoint_eq _ _) _ (by
    rw [sign_merlin_form]; exact Scalar.canonical_ofZ _) w).mp rfl).1

/-- A secret key of the toy group of `Verif.Instance`. -/
def zkToyKey : SecretKey := ⟨⟨leArr 32 3⟩, zeros 32⟩

/-- A valid and an invalid signature for it, so both cases of the count occur. -/
example : verifyWith toyOracles (zkToyKey.toPublic : PublicKey Toy) (Transcript.new (b! "t"))
    (signWith toyOracles zkToyKey (Transcript.new (b! "t")) (zkToyKey.toPublic : PublicKey Toy) zeroRng) = .ok () ∧
    verifyWith toyOracles (zkToyKey.toPublic : PublicKey Toy) (Transcript.new (b! "t"))
      ⟨leArr 32 3, ⟨leArr 32 5⟩⟩ ≠ .ok () := by
  decide +kernel

end Schnorrkel.Props
