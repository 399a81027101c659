import Verif.Props.RomBatchKey
import Verif.Props.RomVrfBatch

/-! # C79: batches of VRF proofs in the presence of the owner of a key (random-oracle model) -/

namespace Schnorrkel.Props
open Spec Schnorrkel
variable {P : Type} [Ristretto P] {D : Finset (List MOp)} {K : Finset (KeyUse P)} {α β : Type}

theorem asking_logged_play {Req Ans : Type} (O : Oracles) (serve : Req → Ans) (log : List (Req × Ans)) (qs : List (List MOp)) :
    ∀ k : List (Arr 64) → Client Req Ans α, ((Client.asking qs k).logged log).play O serve =
      ((k (qs.map (O.merlin · 64))).logged log).play O serve := by
  induction qs with
  | nil => intro k; rfl
  | cons q qs ih => intro k; exact ih _

theorem thenAnswers_play (O : Oracles) (serve : KeyRequest P → KeyAnswer P) (A : Client (KeyRequest P) (KeyAnswer P) (VrfBatch P)) :
    ∀ log, ((thenAnswers A).logged log).play O serve =
      let r := (A.logged log).play O serve
      let as := r.1.inputQueries.map (O.merlin · 64)
      ((r.1, as, (r.1.challengeQueries as).map (O.merlin · 64)), r.2) := by
  induction A with
  | ret c =>
    intro log
    simp only [thenAnswers]
    rw [asking_logged_play, asking_logged_play]
    rfl
  | ask q k ih => intro log; exact ih _ log
  | request r k ih => intro log; exact ih _ _

theorem asking_limited {Req Ans κ : Type} (key : Req → κ) (K : Finset κ) (fin : α → Prop) (m q : Nat) (qs : List (List MOp)) :
    ∀ k : List (Arr 64) → Client Req Ans α, (∀ l ∈ qs, l ∈ D) → (∀ ws, (k ws).Limited D key K fin q m) →
      (Client.asking qs k).Limited D key K fin (qs.length + q) m := by
  induction qs with
  | nil => intro k _ h; rw [List.length_nil, Nat.zero_add]; exact h []
  | cons l qs ih =>
    intro k hq h
    exact ⟨hq l (by simp), qs.length + q, by simp only [List.length_cons]; omega,
      fun w => ih _ (fun l hl => hq l (by simp [hl])) fun ws => h _⟩

theorem thenAnswers_limited (N : Nat) (A : Client (KeyRequest P) (KeyAnswer P) (VrfBatch P)) : ∀ {q m},
    A.Limited D KeyRequest.use K (VrfBatch.Within D N) q m →
    (thenAnswers A).Limited D KeyRequest.use K (fun r => VrfBatch.Within D N r.1) (q + 2 * N) m := by
  induction A with
  | ret c =>
    intro q m h
    have hc : VrfBatch.Within D N c := h
    have := asking_limited (D := D) KeyRequest.use K (fun r : VrfBatch P × List (Arr 64) × List (Arr 64) => VrfBatch.Within D N r.1)
      m c.n c.inputQueries (fun as => Client.asking (c.challengeQueries as) fun bs => .ret (c, as, bs)) hc.2.1 (fun as => by
        have := asking_limited (D := D) KeyRequest.use K
          (fun r : VrfBatch P × List (Arr 64) × List (Arr 64) => VrfBatch.Within D N r.1)
          m 0 (c.challengeQueries as) (fun bs => Client.ret (Req := KeyRequest P) (Ans := KeyAnswer P) (c, as, bs)) (hc.2.2.1 as)
          (fun bs => hc)
        rw [show (c.challengeQueries as).length = c.n from List.length_ofFn, Nat.add_zero] at this
        exact this)
    rw [show c.inputQueries.length = c.n from List.length_ofFn] at this
    have hn := hc.1
    exact limited_mono _ _ (Finset.Subset.refl _) (Finset.Subset.refl _) (fun _ h => h) (by omega) le_rfl this
  | ask l k ih =>
    rintro q m ⟨hl, q', rfl, h⟩
    exact ⟨hl, q' + 2 * N, by omega, fun w => ih w (h w)⟩
  | request r k ih => rintro q m ⟨hl, m', rfl, h⟩; exact ⟨hl, m', rfl, fun w => ih w (h w)⟩

/-! ### Proofs determine their batchable form -/

/-- The batchable form of a proof. -/
def longForm (pk : PublicKey P) (I Q : P) (π : VRFProof) : VRFProofBatchable :=
  ⟨compress (π.c.toZ • pk.point + π.s.toZ • (basepoint : P)), compress (π.c.toZ • Q + π.s.toZ • I), π.s⟩

theorem verified_long (O : Oracles) (pk : PublicKey P) (t : Transcript) (I Q : P) (π : VRFProof) (kusama : Bool)
    (b : VRFProofBatchable) (h : dleqVerifyWith O pk t (ioOf I Q) π kusama = .ok b) : b = longForm pk I Q π := by
  letI := O
  obtain ⟨hs, ⟨R, Hr, h1, h2, h3, h4⟩, h5⟩ := ((dleq_verify_iff pk t (ioOf I Q) π kusama).1 b).mp h
  obtain ⟨bR, bHr, bs⟩ := b
  simp only at hs h1 h2 h3 h4
  unfold longForm
  rw [← h1, ← h2, h3, h4, hs]
  rfl

/-- The owner's answers have that form. -/
theorem served_long (O : Oracles) (key : Scalar) (pk : PublicKey P)
    (hpk : pk.point = key.toZ • (basepoint : P)) (n : Arr 32) (extra : Transcript) (I : P) (kusama : Bool) (sys : Rng)
    (Q : P) (π : VRFProof) (b : VRFProofBatchable)
    (h : KeyAnswer.proof (ioOf I Q) π b = serveKey O ⟨⟨key, n⟩, pk⟩ (.prove extra I kusama sys)) : b = longForm pk I Q π := by
  rw [serveKey_eq O key pk hpk] at h
  simp only [realAns, KeyRequest.use, KeyUse.answer, KeyAnswer.proof.injEq] at h
  obtain ⟨h1, h2, h3⟩ := h
  have hQ : Q = key.toZ • I := congrArg (fun io : VRFInOut P => io.output.point) h1
  rw [h3, h2]
  unfold longForm
  simp only [Scalar.toZ_ofZ, hQ]

/-- What it takes for an entry of a VRF batch to be valid. -/
theorem valid_entry (O : Oracles) (c : VrfBatch P) (i : Fin c.n) (h : c.valid O i) :
    letI := O
    let I : P := wireInputPoint (c.malleable i) (c.log i) (c.pk i).compressed.1
    ∃ Q : P, compress Q = (c.out i).bytes ∧ dleqVerifyWith O (c.pk i) ⟨wireNoExtra⟩ (ioOf I Q)
      ⟨Scalar.ofZ (hashWith O (dleqQuery wireNoExtra true (compress I).1 (c.pk i).compressed.1 (c.b i).R.1 (c.b i).Hr.1
        (c.out i).bytes.1)), (c.b i).s⟩ true = .ok (c.b i) := by
  letI := O
  intro I
  obtain ⟨π, io, h1, h2⟩ := h
  unfold VRFProofBatchable.shortenVrf at h1
  unfold PublicKey.vrfVerify PublicKey.vrfVerifyExtra at h2
  cases ha : (c.out i).attachInputHash (c.pk i) (wireInput (c.malleable i) (c.log i)) with
  | error e => rw [ha] at h1; cases h1
  | ok io' =>
    rw [ha] at h1 h2
    simp only [bind, Except.bind, Except.ok.injEq] at h1 h2
    obtain ⟨hi, ho, hc, hne⟩ := ((attach_input_hash_table _ _ _).1 _).mp ha
    rw [vrfHash_wire_eq] at hi
    obtain ⟨⟨ic, ip⟩, ⟨oc, op⟩⟩ := io'
    simp only at hi ho hc
    obtain ⟨rfl, rfl⟩ := RistrettoBoth.mk.inj hi
    have hio : (⟨⟨compress I, I⟩, ⟨oc, op⟩⟩ : VRFInOut P) = ioOf I op := by
      unfold ioOf RistrettoBoth.fromPoint
      rw [hc, ho]
    refine ⟨op, hc, ?_⟩
    have hπ : π = ⟨Scalar.ofZ (hashWith O (dleqQuery wireNoExtra true (compress I).1 (c.pk i).compressed.1 (c.b i).R.1
        (c.b i).Hr.1 (c.out i).bytes.1)), (c.b i).s⟩ := by
      rw [← h1]
      have hq := dleq_challenge_is_query wireNoExtra true (compress I) (c.pk i).compressed (c.b i).R (c.b i).Hr (c.out i).bytes
      have hcan : (dleqChallenge (⟨wireNoExtra⟩ : Transcript) true (compress I) (c.pk i).compressed (c.b i).R (c.b i).Hr
        (c.out i).bytes).Canonical := Scalar.canonical_wide _
      change (dleqChallenge (⟨wireNoExtra⟩ : Transcript) true (compress I) (c.pk i).compressed (c.b i).R (c.b i).Hr
        (c.out i).bytes).toZ = hashWith O (dleqQuery wireNoExtra true (compress I).1 (c.pk i).compressed.1 (c.b i).R.1
        (c.b i).Hr.1 (c.out i).bytes.1) at hq
      rw [← hq, hcan.ofZ_toZ, ← ho]
      rfl
    rw [← hπ]
    unfold dleqVerifyWith
    rw [← hio]
    have hw : (⟨wireNoExtra⟩ : Transcript) = Transcript.new (b! "VRF") := rfl
    rw [hw]
    cases hv : (PublicKey.dleqVerify (c.pk i) (Transcript.new (b! "VRF"))
        ⟨⟨compress (wireInputPoint (c.malleable i) (c.log i) (c.pk i).compressed.1 : P),
          wireInputPoint (c.malleable i) (c.log i) (c.pk i).compressed.1⟩, ⟨oc, op⟩⟩ π KUSAMA_VRF).1 with
    | error e => rw [hv] at h2; cases h2
    | ok b =>
      rw [hv] at h2
      simp only [Except.ok.injEq, Prod.mk.injEq] at h2
      rw [← h2.2]
      exact hv

/-! ### Pointing out a proof -/

theorem short_fromBytes (c : VrfBatch P) (bs : List (Arr 64)) (i : Fin c.n) (h : (c.b i).s.Canonical) :
    VRFProof.fromBytes (c.short bs i).toBytes.1 = .ok (c.short bs i) :=
  ((vrf_proof_codec _).1 _).mpr ⟨rfl, Scalar.canonical_ofZ _, h⟩

theorem short_canonical (c : VrfBatch P) (bs : List (Arr 64)) (i : Fin c.n) : (c.short bs i).c.Canonical := by
  unfold VrfBatch.short
  exact Scalar.canonical_ofZ _

theorem short_c (c : VrfBatch P) (bs : List (Arr 64)) (i : Fin c.n) :
    (c.short bs i).c.toZ = residue (bs.getD i (zeros 64)) := by
  unfold VrfBatch.short
  exact Scalar.toZ_ofZ _

theorem short_s (c : VrfBatch P) (bs : List (Arr 64)) (i : Fin c.n) : (c.short bs i).s = (c.b i).s := rfl

/-- The query of the claim about a stolen proof is one of the challenge queries of the batch. -/
theorem stolen_query (c : VrfBatch P) (as bs : List (Arr 64)) (pk : PublicKey P) (log : List (KeyRequest P × KeyAnswer P))
    (i : Fin c.n) (Q : P) (h : c.Stolen as bs pk log i Q) :
    (KeyForgery.proof ⟨wireNoExtra⟩ (fromUniform (as.getD i (zeros 64)) : P) Q true (c.short bs i).toBytes.1).query pk =
      dleqQuery wireNoExtra true (compress (fromUniform (as.getD i (zeros 64)) : P)).1
        (c.pk i).compressed.1 (c.b i).R.1 (c.b i).Hr.1 (c.out i).bytes.1 := by
  obtain ⟨h1, h2, h3, h4, h5, -⟩ := h
  simp only [KeyForgery.query, short_fromBytes c bs i h2]
  simp only [VrfBatch.short, Scalar.toZ_ofZ]
  rw [h4, h5, h3, h1]

theorem mem_challengeQueries (c : VrfBatch P) (as : List (Arr 64)) (i : Fin c.n) :
    dleqQuery wireNoExtra true (compress (fromUniform (as.getD i (zeros 64)) : P)).1
        (c.pk i).compressed.1 (c.b i).R.1 (c.b i).Hr.1 (c.out i).bytes.1 ∈ c.challengeQueries as := by
  unfold VrfBatch.challengeQueries
  rw [List.mem_ofFn]
  exact ⟨i, rfl⟩

theorem accuse_proof_query (pk : PublicKey P) (h0 : challengeOf pk ⟨[]⟩ [] ∈ D) (N : Nat)
    (r : (VrfBatch P × List (Arr 64) × List (Arr 64)) × List (KeyRequest P × KeyAnswer P)) (h : VrfBatch.Within D N r.1.1) :
    (VrfBatch.accuse pk r).query pk ∈ D := by
  unfold VrfBatch.accuse
  split_ifs with hi
  · rw [stolen_query _ _ _ _ _ _ _ hi.choose_spec.choose_spec]
    exact h.2.2.1 _ _ (mem_challengeQueries _ _ _)
  · exact h0

theorem answers_getD {c : VrfBatch P} (O : Oracles) (g : Fin c.n → List MOp) (i : Fin c.n) :
    ((List.ofFn g).map (O.merlin · 64)).getD i (zeros 64) = O.merlin (g i) 64 := by
  rw [List.getD_eq_getElem?_getD, List.getElem?_map, List.getElem?_ofFn]
  simp

/-- A claim about a stolen proof is right. -/
theorem stolen_valid (O : Oracles) (c : VrfBatch P) (as bs : List (Arr 64)) (pk : PublicKey P)
    (log : List (KeyRequest P × KeyAnswer P)) (i : Fin c.n) (Q : P) (h : c.Stolen as bs pk log i Q)
    (hbs : residue (bs.getD i (zeros 64)) = hashWith O (dleqQuery wireNoExtra true
      (compress (fromUniform (as.getD i (zeros 64)) : P)).1 (c.pk i).compressed.1 (c.b i).R.1 (c.b i).Hr.1 (c.out i).bytes.1)) :
    (KeyForgery.proof ⟨wireNoExtra⟩ (fromUniform (as.getD i (zeros 64)) : P) Q true (c.short bs i).toBytes.1).Valid O pk log := by
  obtain ⟨h1, h2, h3, h4, h5, h6⟩ := h
  have hver : ∃ r, dleqVerifyWith O pk ⟨wireNoExtra⟩ (ioOf (fromUniform (as.getD i (zeros 64)) : P) Q) (c.short bs i) true = .ok r := by
    rw [dleqVerifyWith_iff O pk _ _ _ _ (short_canonical c bs i), short_c, short_s, h4, h5, h3, ← h1]
    exact hbs
  unfold KeyForgery.Valid
  exact ⟨_, short_fromBytes c _ i h2, hver, h6⟩

theorem challenge_answer (O : Oracles) (c : VrfBatch P) (as : List (Arr 64)) (i : Fin c.n) :
    residue (((c.challengeQueries as).map (O.merlin · 64)).getD i (zeros 64)) = hashWith O (dleqQuery wireNoExtra true
      (compress (fromUniform (as.getD i (zeros 64)) : P)).1 (c.pk i).compressed.1 (c.b i).R.1 (c.b i).Hr.1 (c.out i).bytes.1) := by
  rw [hashWith_residue]
  unfold VrfBatch.challengeQueries
  rw [answers_getD]

/-- If all entries are valid and some proof was not given out, it will be pointed out. -/
theorem exists_stolen (O : Oracles) (c : VrfBatch P) (pk : PublicKey P) (log : List (KeyRequest P × KeyAnswer P))
    (hlog : ∀ extra I kusama sys Q π b, (KeyRequest.prove extra I kusama sys, KeyAnswer.proof (ioOf I Q) π b) ∈ log →
      b = longForm pk I Q π) (i : Fin c.n) (hv : c.valid O i) (hi : c.Unproved O pk log i) :
    ∃ Q, c.Stolen (c.inputQueries.map (O.merlin · 64))
      ((c.challengeQueries (c.inputQueries.map (O.merlin · 64))).map (O.merlin · 64)) pk log i Q := by
  obtain ⟨Q, hQ, hver⟩ := valid_entry O c i hv
  obtain ⟨h1, ⟨bytes, hb⟩, h2⟩ := hi
  have hI : (fromUniform ((c.inputQueries.map (O.merlin · 64)).getD i (zeros 64)) : P) =
      @wireInputPoint P _ O (c.malleable i) (c.log i) (c.pk i).compressed.1 := by
    unfold VrfBatch.inputQueries
    rw [answers_getD]
    rfl
  have hw : residue (((c.challengeQueries (c.inputQueries.map (O.merlin · 64))).map (O.merlin · 64)).getD i (zeros 64)) =
      hashWith O (dleqQuery wireNoExtra true (compress (@wireInputPoint P _ O (c.malleable i) (c.log i)
        (c.pk i).compressed.1)).1 (c.pk i).compressed.1 (c.b i).R.1 (c.b i).Hr.1 (c.out i).bytes.1) := by
    rw [challenge_answer, hI]
  have hlong := verified_long O _ _ _ _ _ _ _ hver
  refine ⟨Q, h1, ((vrf_proof_batchable_codec _).1 _).mp hb |>.2, hQ, ?_, ?_, ?_⟩
  · rw [hw]
    conv_rhs => rw [hlong]
    simp only [longForm, Scalar.toZ_ofZ, h1]
  · rw [hw, hI]
    conv_rhs => rw [hlong]
    simp only [longForm, Scalar.toZ_ofZ]
  · intro sys r hm
    have hr := hlog _ _ _ _ _ _ _ hm
    unfold VrfBatch.short at hm hr
    rw [hw, hI] at hm hr
    rw [h1] at hlong hm hr
    refine h2 Q sys ⟨Scalar.ofZ (hashWith O (dleqQuery wireNoExtra true (compress (@wireInputPoint P _ O (c.malleable i) (c.log i)
        pk.compressed.1)).1 pk.compressed.1 (c.b i).R.1 (c.b i).Hr.1 (c.out i).bytes.1)), (c.b i).s⟩ hQ ?_
    have e : c.b i = r := hlong.trans hr.symm
    rw [← e] at hm
    exact hm

/-! ### The theorem -/

/-- The log of a game with the owner contains proofs in their long form. -/
theorem log_long (O : Oracles) (key : Scalar) (pk : PublicKey P)
    (hpk : pk.point = key.toZ • (basepoint : P)) (n : Arr 32) (A : Client (KeyRequest P) (KeyAnswer P) α) :
    ∀ extra I kusama sys Q π b, (KeyRequest.prove extra I kusama sys, KeyAnswer.proof (ioOf I Q) π b) ∈
      ((A.logged []).play O (serveKey O ⟨⟨key, n⟩, pk⟩)).2 → b = longForm pk I Q π := by
  intro extra I kusama sys Q π b h
  exact served_long O key pk hpk n extra I kusama sys Q π b (logged_answers O _ A [] (by simp) _ h)

/-- A wrong batch is accepted. -/
private def Fooled (c : VrfBatch P) (O : Oracles) (rng : Rng) : Prop :=
  (∃ ios, c.verify O rng = .ok ios) ∧ ∃ i, ¬ c.valid O i

private theorem fooled_le (O : Oracles) (B : Algo (VrfBatch P × β)) (q : Nat) (hB : B.WideWithin O D q)
    (hD : ∀ (f : D → Arr 64) r i, (B.run (wideTable O D f)).1.coefficientQuery (wideTable O D f) r i ∈ D)
    (rng : Arr 32 → Rng) (hr : ∀ r, ((rng r).fill 32).1 = r) :
    chance (fun x : (D → Arr 64) × Arr 32 => Fooled (B.run (wideTable O D x.1)).1 (wideTable O D x.1) (rng x.2)) ≤
      1 / 2 ^ 128 + q / 2 ^ 256 := by
  have e1 : ∀ O', (B.bind fun r => .ret r.1).run O' = (B.run O').1 := fun O' => by rw [Algo.run_bind]; rfl
  have e2 : ∀ O', (B.bind fun r => .ret r.1).asked O' = B.asked O' := fun O' => by
    rw [Algo.asked_bind]; simp [Algo.asked]
  have : chance (fun x : (D → Arr 64) × Arr 32 => Fooled ((B.bind fun r => .ret r.1).run (wideTable O D x.1))
      (wideTable O D x.1) (rng x.2)) ≤ 1 / 2 ^ 128 + q / 2 ^ 256 :=
    vrf_verify_batch_sound_random_oracle O (B.bind fun r => .ret r.1) D q (fun f => by rw [e2]; exact hB f) (fun f r => by
      rw [e1]
      exact hD f r) rng hr
  simp only [e1] at this
  exact this

/-- **C79** `vrf_verify_batch` protects the owner of a key as `vrf_verify` does.  Take any attacker with at most `q` hash
queries and `m` answers of the owner of `pk` (signatures, VRF proofs, certificates), that then names a batch of at most `N` VRF
outputs with proofs, for any inputs and under any keys.  If with probability `ε` — over the owner's nonce seed, the hash
function and the 32 bytes the verifier's RNG supplies — `vrf_verify_batch` accepts the batch although some proof in it under
`pk` was not given out by the owner for its input and output, then the procedure `extractKeyFrom` finds the secret key with
probability at least `δ(δ/(q'+1) − guess)`, where `q' = q+2N` and
`δ = ε − 2⁻¹²⁸ − (q'+2m)/2²⁵⁶ − q'/2²⁵⁶ − m((q'+m)·guess + spare)`. -/
theorem vrf_verify_batch_unforgeable (O : Oracles) (pk : PublicKey P) (key : Scalar)
    (hpk : pk.point = key.toZ • (basepoint : P)) (A : Client (KeyRequest P) (KeyAnswer P) (VrfBatch P)) (q m N : Nat)
    (hA : A.Limited D KeyRequest.use K (VrfBatch.Within D N) q m) (hC : CoversKey pk (fun I => key.toZ • I) D K)
    (h0 : challengeOf pk ⟨[]⟩ [] ∈ D) (rng : Arr 32 → Rng) (hr : ∀ r, ((rng r).fill 32).1 = r) :
    let ε := chance fun ω : Arr 32 × ((D → Arr 64) × Arr 32) =>
      ForgesVrfBatch (wideTable O D ω.2.1) ⟨⟨key, ω.1⟩, pk⟩ (rng ω.2.2) A
    let q' := q + 2 * N
    let loss : ℚ := (1 / 2 ^ 128 + (q' + 2 * m : Nat) / 2 ^ 256) + q' / 2 ^ 256 + m * ((q' + m : Nat) * guess + spare)
    loss ≤ ε →
    (ε - loss) * ((ε - loss) / (q' + 1 : Nat) - guess) ≤
      chance fun x : (K → Arr 64 × Arr 64) × ((D → Arr 64) × (D → Arr 64)) =>
        pk.point = extractKeyFrom O pk (fun I => key.toZ • I) (pickProof pk A) x.1 x.2.1 x.2.2 • (basepoint : P) := by
  intro ε q' loss hle
  have hmain := checked_late O pk key hpk (thenAnswers A) q' m (fun r => VrfBatch.Within D N r.1)
    (thenAnswers_limited N A hA) hC (VrfBatch.accuse pk) (accuse_proof_query pk h0 N)
    (fun O' r ρ => (∃ ios, r.1.1.verify O' (rng ρ) = .ok ios) ∧ (∃ i, r.1.1.Unproved O' pk r.2 i) ∧
      r.1.2.1 = r.1.1.inputQueries.map (O'.merlin · 64) ∧ r.1.2.2 = (r.1.1.challengeQueries r.1.2.1).map (O'.merlin · 64) ∧
      ∀ extra I kusama sys Q π b, (KeyRequest.prove extra I kusama sys, KeyAnswer.proof (ioOf I Q) π b) ∈ r.2 →
        b = longForm pk I Q π)
    (fun O' r ρ => (∃ ios, r.1.verify O' (rng ρ) = .ok ios) ∧ ∃ i, ¬ r.1.valid O' i)
    (by
      rintro O' ⟨⟨c, as, bs⟩, log⟩ ρ ⟨hacc, ⟨i, hi⟩, has, hbs, hlog⟩
      simp only at hacc hi has hbs hlog ⊢
      by_cases hv : ∀ i, c.valid O' i
      · left
        obtain ⟨Q, hQ⟩ := exists_stolen O' c pk log hlog i (hv i) hi
        have hex : ∃ i Q, c.Stolen as bs pk log i Q := by rw [hbs, has]; exact ⟨i, Q, hQ⟩
        unfold VrfBatch.accuse
        rw [dif_pos hex]
        refine stolen_valid O' c as bs pk log _ _ hex.choose_spec.choose_spec ?_
        have := challenge_answer O' c as hex.choose
        rw [← hbs] at this
        exact this
      · right
        exact ⟨hacc, not_forall.mp hv⟩)
    (1 / 2 ^ 128 + (q' + 2 * m : Nat) / 2 ^ 256)
    (fun B hB hf => fooled_le O B (q' + 2 * m) hB (fun f r i => (hf f).2.2.2 _ r i) rng hr)
  simp only at hmain
  have hε : ε = chance fun ω : Arr 32 × ((D → Arr 64) × Arr 32) =>
      let O' := wideTable O D ω.2.1
      let r := ((thenAnswers A).logged []).play O' (serveKey O' ⟨⟨key, ω.1⟩, pk⟩)
      (∃ ios, r.1.1.verify O' (rng ω.2.2) = .ok ios) ∧ (∃ i, r.1.1.Unproved O' pk r.2 i) ∧
      r.1.2.1 = r.1.1.inputQueries.map (O'.merlin · 64) ∧ r.1.2.2 = (r.1.1.challengeQueries r.1.2.1).map (O'.merlin · 64) ∧
      ∀ extra I kusama sys Q π b, (KeyRequest.prove extra I kusama sys, KeyAnswer.proof (ioOf I Q) π b) ∈ r.2 →
        b = longForm pk I Q π := by
    refine congrArg chance (funext fun ω => propext ?_)
    simp only
    rw [thenAnswers_play]
    simp only
    constructor
    · rintro ⟨h1, h2⟩
      exact ⟨h1, h2, trivial, trivial, log_long _ key pk hpk ω.1 A⟩
    · rintro ⟨h1, h2, -⟩
      exact ⟨h1, h2⟩
  simp only at hε
  rw [← hε] at hmain
  exact hmain hle

theorem vrf_within_finite (c : VrfBatch P) : ({l | l ∈ c.inputQueries} ∪ {l | ∃ as, l ∈ c.challengeQueries as} ∪
    {l | ∃ O r i, c.coefficientQuery O r i = l}).Finite := by
  haveI : Finite P := Finite.of_surjective (fun z : Z => z • (basepoint : P)) fun p => by
    obtain ⟨z, hz⟩ := exists_smul_basepoint p
    exact ⟨z, hz.symm⟩
  refine ((List.finite_toSet _).union ?_).union ?_
  · refine Set.Finite.subset (Set.finite_range fun x : P × Fin c.n => dleqQuery wireNoExtra true (compress x.1).1
      (c.pk x.2).compressed.1 (c.b x.2).R.1 (c.b x.2).Hr.1 (c.out x.2).bytes.1) ?_
    rintro l ⟨as, hl⟩
    unfold VrfBatch.challengeQueries at hl
    rw [List.mem_ofFn] at hl
    obtain ⟨i, rfl⟩ := hl
    exact ⟨(_, i), rfl⟩
  · refine Set.Finite.subset (Set.finite_range fun x : (Fin c.n → P) × Arr 32 × Fin c.n =>
      dleqBatchQuery (List.ofFn fun i => ((c.pk i).compressed.1, (compress (x.1 i)).1, (c.out i).bytes.1)) x.2.1.1 x.2.2) ?_
    rintro l ⟨O, r, i, rfl⟩
    exact ⟨(fun i => @wireInputPoint P _ O (c.malleable i) (c.log i) (c.pk i).compressed.1, r, i), rfl⟩

theorem limited_size {Req Ans κ : Type} [Finite Ans] {key : Req → κ} {K : Finset κ} {fin : α → Prop} (size : α → Nat)
    (A : Client Req Ans α) : ∀ {q m}, A.Limited D key K fin q m →
    ∃ N, A.Limited D key K (fun a => fin a ∧ size a ≤ N) q m := by
  induction A with
  | ret a => intro q m h; exact ⟨size a, h, le_rfl⟩
  | ask l k ih =>
    rintro q m ⟨hl, q', rfl, h⟩
    choose N hN using fun w => ih w (h w)
    haveI := Fintype.ofFinite (Arr 64)
    exact ⟨Finset.univ.sup N, hl, q', rfl, fun w => limited_mono key _ (Finset.Subset.refl _) (Finset.Subset.refl _)
      (fun a ha => ⟨ha.1, ha.2.trans (Finset.le_sup (Finset.mem_univ w))⟩) le_rfl le_rfl (hN w)⟩
  | request r k ih =>
    rintro q m ⟨hl, m', rfl, h⟩
    choose N hN using fun w => ih w (h w)
    haveI := Fintype.ofFinite Ans
    exact ⟨Finset.univ.sup N, hl, m', rfl, fun w => limited_mono key _ (Finset.Subset.refl _) (Finset.Subset.refl _)
      (fun a ha => ⟨ha.1, ha.2.trans (Finset.le_sup (Finset.mem_univ w))⟩) le_rfl le_rfl (hN w)⟩

/-- **C79** every attacker on VRF batches satisfies the hypotheses of `vrf_verify_batch_unforgeable`, for suitable finite sets
and bounds. -/
theorem every_vrf_batch_attacker_is_limited (pk : PublicKey P) (dh : P → P)
    (A : Client (KeyRequest P) (KeyAnswer P) (VrfBatch P)) :
    ∃ D K q m N, A.Limited D KeyRequest.use K (VrfBatch.Within D N) q m ∧ CoversKey pk dh D K ∧ challengeOf pk ⟨[]⟩ [] ∈ D := by
  classical
  haveI := finiteAnswer (P := P)
  obtain ⟨D₀, K, q, m, h⟩ := exists_limited_set KeyRequest.use _ vrf_within_finite A
  obtain ⟨N, hN⟩ := limited_size (fun c : VrfBatch P => c.n) A h
  obtain ⟨D, hD, hC⟩ := exists_covering pk dh (insert (challengeOf pk ⟨[]⟩ []) D₀) K
  have hD₀ : D₀ ⊆ D := fun x hx => hD (Finset.mem_insert_of_mem hx)
  refine ⟨D, K, q, m, N, limited_mono _ A hD₀ (Finset.Subset.refl _) (fun c hc => ⟨hc.2,
    fun l hl => hD₀ (hc.1 _ (.inl (.inl hl))), fun as l hl => hD₀ (hc.1 _ (.inl (.inr ⟨as, hl⟩))),
    fun O r i => hD₀ (hc.1 _ (.inr ⟨O, r, i, rfl⟩))⟩) le_rfl le_rfl hN, hC, hD (Finset.mem_insert_self _ _)⟩

/-- An attacker who knows the secret key and makes a proof with nonce 1 by itself. -/
def vrfBatchInsider (pk : PublicKey P) (x : Z) (log : List MOp) : Client (KeyRequest P) (KeyAnswer P) (VrfBatch P) :=
  .ask (vrfInputQuery false log pk.compressed.1) fun a =>
  let I : P := fromUniform a
  .ask (dleqQuery wireNoExtra true (compress I).1 pk.compressed.1 (compress (basepoint : P)).1 (compress I).1
    (compress (x • I)).1) fun w =>
  .ret ⟨1, fun _ => false, fun _ => log, fun _ => ⟨compress (x • I)⟩,
    fun _ => ⟨compress (basepoint : P), compress I, Scalar.ofZ (1 - residue w * x)⟩, fun _ => pk⟩

/-- What it outputs. -/
def ownProofBatch (pk : PublicKey P) (x : Z) (log : List MOp) (I : P) (w : Z) : VrfBatch P :=
  ⟨1, fun _ => false, fun _ => log, fun _ => ⟨compress (x • I)⟩,
    fun _ => ⟨compress (basepoint : P), compress I, Scalar.ofZ (1 - w * x)⟩, fun _ => pk⟩

theorem ownProofBatch_accepted (O : Oracles) (pk : PublicKey P) (x : Z) (hpk : pk.point = x • (basepoint : P)) (log : List MOp)
    (rng : Rng) (I : P) (hI : I = @wireInputPoint P _ O false log pk.compressed.1) (hne : x • I ≠ 0) (w : Z)
    (hw : w = hashWith O (dleqQuery wireNoExtra true (compress I).1 pk.compressed.1 (compress (basepoint : P)).1 (compress I).1
      (compress (x • I)).1)) : ∃ ios, (ownProofBatch pk x log I w).verify O rng = .ok ios := by
  letI := O
  have hspec := (vrf_verify_batch_spec (fun _ : Fin 1 => wireInput false log) [] (by simp)
      (fun _ => ⟨compress (x • I)⟩) (fun _ => ⟨compress (basepoint : P), compress I, Scalar.ofZ (1 - w * x)⟩) (fun _ => pk) rng).1
      (fun _ => x • I) (fun _ => ⟨hne, rfl⟩)
  rw [List.append_nil] at hspec
  refine ⟨_, hspec.trans (if_pos ?_)⟩
  refine dleq_verify_batch_complete _ _ _ _ _ fun i => ?_
  refine (dleq_valid_iff_shortened_verifies _ _ pk _).mp ?_
  have hch : @dleqBatchChallenge P O ⟨PublicKey.vrfHash pk (wireInput false log), ⟨compress (x • I), x • I⟩⟩
      ⟨compress (basepoint : P), compress I, Scalar.ofZ (1 - w * x)⟩ pk KUSAMA_VRF = w := by
    rw [hw, vrfHash_wire_eq, ← hI]
    exact dleq_challenge_is_query wireNoExtra true _ _ _ _ _
  rw [hch, vrfHash_wire_eq, ← hI]
  refine ⟨basepoint, I, rfl, rfl, ?_, ?_⟩
  · simp only [Scalar.toZ_ofZ, hpk]
    module
  · simp only [Scalar.toZ_ofZ]
    module

/-- Non-vacuity: that attacker succeeds whenever the VRF output is not the identity. -/
example (O : Oracles) (pk : PublicKey P) (key : Scalar) (n : Arr 32) (hpk : pk.point = key.toZ • (basepoint : P))
    (log : List MOp) (rng : Rng)
    (hne : key.toZ • (@wireInputPoint P _ O false log pk.compressed.1) ≠ 0) :
    ForgesVrfBatch O ⟨⟨key, n⟩, pk⟩ rng (vrfBatchInsider pk key.toZ log) := by
  have hres : ((vrfBatchInsider pk key.toZ log).logged []).play O (serveKey O ⟨⟨key, n⟩, pk⟩) =
      (ownProofBatch pk key.toZ log (@wireInputPoint P _ O false log pk.compressed.1) (hashWith O (dleqQuery wireNoExtra true
        (compress (@wireInputPoint P _ O false log pk.compressed.1)).1 pk.compressed.1 (compress (basepoint : P)).1
        (compress (@wireInputPoint P _ O false log pk.compressed.1)).1
        (compress (key.toZ • @wireInputPoint P _ O false log pk.compressed.1)).1)), []) := by
    rw [hashWith_residue]
    rfl
  unfold ForgesVrfBatch
  simp only
  rw [hres]
  refine ⟨ownProofBatch_accepted O pk key.toZ hpk log rng _ rfl hne _ rfl, (0 : Fin 1), rfl,
    ⟨_, ((vrf_proof_batchable_codec _).1 _).mpr ⟨rfl, Scalar.canonical_ofZ _⟩⟩, fun Q sys π _ hm => ?_⟩
  exact List.not_mem_nil hm

end Schnorrkel.Props
