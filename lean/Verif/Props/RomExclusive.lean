import Verif.Spec.RomExclusive
import Verif.Lemmas.RomCollide
import Verif.Lemmas.RomSign
import Verif.Props.VrfWire
import Verif.Props.Domain

/-! # C69: signatures and proofs have one meaning (random-oracle model) -/

namespace Schnorrkel.Props
open SigningTranscript Spec
variable {P : Type} [Ristretto P]

theorem wf_ext {a b : RistrettoBoth P} (ha : a.WF) (hb : b.WF) (h : a.compressed.1 = b.compressed.1) : a = b :=
  RistrettoBoth.WF.ext ha hb (compress_inj.mp (by unfold RistrettoBoth.WF at ha hb; rw [ha, hb]; exact Subtype.ext h))

/-- The key in a signature's challenge query. -/
private noncomputable def keyIn (q : List MOp) : P :=
  Classical.epsilon fun A : P => ∃ log R, q = (Use.signature log (compress A).1 R).query

private theorem keyIn_query (log : List MOp) (R : Bytes) (pk : PublicKey P) (h : pk.WF) :
    (keyIn (Use.signature log pk.compressed.1 R).query : P) = pk.point := by
  have he : ∃ A : P, ∃ log' R', (Use.signature log pk.compressed.1 R).query = (Use.signature log' (compress A).1 R').query :=
    ⟨pk.point, log, R, by rw [h]⟩
  obtain ⟨l, R', h1⟩ := Classical.epsilon_spec he
  have h2 := (signature_query_inj h1).2.1
  exact (compress_inj.mp (Eq.trans h (Subtype.ext h2))).symm

/-- **C69** exclusive ownership: nobody — not even someone who knows all secret keys — who asks at most `n` hash values
finds a signature, transcripts and non-identity keys such that the signature verifies for two different pairs of
transcript and key, except with probability `(n+2)(n+1)/2 · guess`, about `n²/2^253`. -/
theorem signature_exclusive_random_oracle (O : Oracles) (A : Algo (TwoMeanings P)) (D : Finset (List MOp)) (n : Nat)
    (hA : A.Within O D n) (hD : ∀ f : D → Arr 64, ∀ q ∈ (A.run (table O D f)).queries, q ∈ D) :
    chance (fun f : D → Arr 64 => (A.run (table O D f)).Valid (table O D f)) ≤
      ((n + 2) * (n + 1) : ℚ) / 2 * guess := by
  refine le_trans (chance_mono ?_) (chance_pair_points (P := P) O A n hA keyIn (fun _ => 0)
    (fun c => challengeOf c.pk₁ c.t₁ (c.sig.take 32)) (fun c => challengeOf c.pk₂ c.t₂ (c.sig.take 32))
    (fun f => ⟨hD f _ (by simp [TwoMeanings.queries]), hD f _ (by simp [TwoMeanings.queries])⟩))
  intro f hv
  simp only at hv ⊢
  generalize A.run (table O D f) = c at hv ⊢
  generalize table O D f = O' at hv ⊢
  obtain ⟨hne, w1, w2, n1, n2, σ, hσ, v1, v2⟩ := hv
  have hR : c.sig.take 32 = σ.R.1 := ((signature_from_bytes_ok_iff _ _).mp hσ).2.1
  simp only [challengeOf, hR]
  rw [verifyWith_iff] at v1 v2
  rw [keyIn_query _ _ _ w1, keyIn_query _ _ _ w2]
  refine ⟨?_, n1, n2, ?_⟩
  · intro h
    obtain ⟨h1, h2, -⟩ := signature_query_inj h
    apply hne
    rw [wf_ext w1 w2 h2]
    cases h3 : c.t₁; cases h4 : c.t₂
    rw [h3, h4] at h1
    simp only at h1
    rw [h1]
  · have := compress_inj.mp (v1.trans v2.symm)
    rw [add_zero, add_zero]
    exact sub_right_inj.mp this

/-- Verification of a DLEQ proof as a hash equation. -/
private theorem dleqVerifyWith_query (O : Oracles) (s : DleqStatement P) (proof : VRFProof) (b : VRFProofBatchable)
    (h : dleqVerifyWith O s.pk s.t s.io proof s.kusama = .ok b) : proof.c.toZ = hashWith O (s.query proof) := by
  letI := O
  obtain ⟨-, ⟨R, Hr, e1, e2, e3, e4⟩, e5⟩ := ((dleq_verify_iff s.pk s.t s.io proof s.kusama).1 b).mp h
  have hq := dleq_challenge_is_query s.t.log s.kusama s.io.input.compressed s.pk.compressed b.R b.Hr s.io.output.compressed
  have h1 : proof.c.toZ = hashToZ (Use.dleq s.t.log s.kusama s.io.input.compressed.1 s.pk.compressed.1 b.R.1 b.Hr.1
      s.io.output.compressed.1).query := by
    rw [congrArg Scalar.toZ e5, hq]
    rfl
  rw [h1, ← e1, ← e2, e3, e4]
  rfl

private theorem dleq_use_inj {l l' : List MOp} {k k' : Bool} {h h' p p' R R' H H' o o' : Bytes}
    (e : (Use.dleq l k h p R H o).query = (Use.dleq l' k' h' p' R' H' o').query) :
    Use.dleq l k h p R H o = Use.dleq l' k' h' p' R' H' o' :=
  hash_uses_separated_exact _ _ trivial trivial e (by intros; exact (nomatch ·)) (by intros; exact (nomatch ·))

/-- **C69** the same for VRF/DLEQ proofs, whatever the keys: one proof `(c, s)` passes `dleq_verify` for two different
statements (transcript, key, input, output, Kusama flag) with probability at most `(n+2)(n+1)/2 · guess`. -/
theorem dleq_proof_exclusive_random_oracle (O : Oracles) (A : Algo (DleqStatement P × DleqStatement P × VRFProof))
    (D : Finset (List MOp)) (n : Nat) (hA : A.Within O D n)
    (hD : ∀ f : D → Arr 64, let r := A.run (table O D f); r.1.query r.2.2 ∈ D ∧ r.2.1.query r.2.2 ∈ D) :
    chance (fun f : D → Arr 64 =>
      let O' := table O D f
      let (a, b, proof) := A.run O'
      a ≠ b ∧ a.WF ∧ b.WF ∧ (∃ r, dleqVerifyWith O' a.pk a.t a.io proof a.kusama = .ok r) ∧
        (∃ r, dleqVerifyWith O' b.pk b.t b.io proof b.kusama = .ok r)) ≤
      ((n + 2) * (n + 1) : ℚ) / 2 * guess := by
  refine le_trans (chance_mono ?_) (chance_pair_points (P := P) O A n hA (fun _ => basepoint) (fun _ => 0)
    (fun r => r.1.query r.2.2) (fun r => r.2.1.query r.2.2) hD)
  intro f hv
  simp only at hv ⊢
  generalize A.run (table O D f) = c at hv ⊢
  generalize table O D f = O' at hv ⊢
  obtain ⟨a, b, proof⟩ := c
  obtain ⟨hne, wa, wb, ⟨r, va⟩, ⟨r', vb⟩⟩ := hv
  refine ⟨fun h => hne ?_, Ristretto.basepoint_ne, Ristretto.basepoint_ne, ?_⟩
  · simp only at h
    unfold DleqStatement.query at h
    have h1 := dleq_use_inj h
    simp only [Use.dleq.injEq] at h1
    obtain ⟨h1, h2, h3, h4, -, -, h5⟩ := h1
    obtain ⟨⟨la⟩, ka, ⟨ia, oa⟩, ua⟩ := a
    obtain ⟨⟨lb⟩, kb, ⟨ib, ob⟩, ub⟩ := b
    simp only at h1 h2 h3 h4 h5
    have e3 := wf_ext wa.2.1 wb.2.1 h3
    have e4 := wf_ext wa.1 wb.1 h4
    have e5 := wf_ext wa.2.2 wb.2.2 h5
    simp only at e3 e4 e5
    rw [h1, h2, e3, e4, e5]
  · show hashWith O' (a.query proof) • basepoint + 0 = hashWith O' (b.query proof) • basepoint + 0
    rw [← dleqVerifyWith_query O' a proof r va, ← dleqVerifyWith_query O' b proof r' vb]

/-- **C69** for contexts and messages: one signature passes `verify_simple` for two different triples of context, message
and non-identity key with at most that probability. -/
theorem signature_simple_exclusive_random_oracle (O : Oracles)
    (A : Algo ((Bytes × Bytes × PublicKey P) × (Bytes × Bytes × PublicKey P) × Bytes)) (D : Finset (List MOp)) (n : Nat)
    (hA : A.Within O D n)
    (hD : ∀ f : D → Arr 64, let r := A.run (table O D f)
      ∀ x ∈ [r.1, r.2.1], (Use.signature (ctxLog x.1 x.2.1) x.2.2.compressed.1 (r.2.2.take 32)).query ∈ D) :
    chance (fun f : D → Arr 64 =>
      letI := table O D f
      let (a, b, sig) := A.run (table O D f)
      a ≠ b ∧ (∀ x ∈ [a, b], x.2.2.WF ∧ x.2.2.point ≠ 0) ∧ ∃ σ, Signature.fromBytes sig = .ok σ ∧
        ∀ x ∈ [a, b], PublicKey.verifySimple x.2.2 x.1 x.2.1 σ = .ok ()) ≤
      ((n + 2) * (n + 1) : ℚ) / 2 * guess := by
  let g : (Bytes × Bytes × PublicKey P) × (Bytes × Bytes × PublicKey P) × Bytes → TwoMeanings P := fun r =>
    ⟨⟨ctxLog r.1.1 r.1.2.1⟩, r.1.2.2, ⟨ctxLog r.2.1.1 r.2.1.2.1⟩, r.2.1.2.2, r.2.2⟩
  have hrun : ∀ O' : Oracles, (A.bind fun r => .ret (g r)).run O' = g (A.run O') := by
    intro O'; rw [Algo.run_bind]; rfl
  have hB : (A.bind fun r => .ret (g r)).Within O D n := by
    intro f
    rw [Algo.asked_bind]
    simpa [Algo.asked] using hA f
  have h := signature_exclusive_random_oracle O (A.bind fun r => .ret (g r)) D n hB (by
    intro f q hq
    rw [hrun] at hq
    simp only [TwoMeanings.queries, List.mem_cons, List.not_mem_nil, or_false] at hq
    rcases hq with rfl | rfl
    · exact hD f (A.run (table O D f)).1 (by simp)
    · exact hD f (A.run (table O D f)).2.1 (by simp))
  refine le_trans (chance_mono ?_) h
  intro f hv
  rw [hrun]
  simp only at hv
  generalize A.run (table O D f) = c at hv ⊢
  generalize table O D f = O' at hv ⊢
  obtain ⟨⟨c1, m1, k1⟩, ⟨c2, m2, k2⟩, sig⟩ := c
  obtain ⟨hne, hw, σ, hσ, hv⟩ := hv
  have w1 := hw (c1, m1, k1) (by simp)
  have w2 := hw (c2, m2, k2) (by simp)
  refine ⟨fun he => hne ?_, w1.1, w2.1, w1.2, w2.2, σ, hσ, hv (c1, m1, k1) (by simp), hv (c2, m2, k2) (by simp)⟩
  simp only [g, Prod.mk.injEq, Transcript.mk.injEq, ctxLog, List.cons.injEq, MOp.append.injEq, true_and, and_true] at he
  obtain ⟨⟨e1, e2⟩, e3⟩ := he
  simp only [e1, e2, e3]

/-- Non-vacuity: every algorithm meets the hypotheses of `signature_exclusive_random_oracle` for some `D` and `n`. -/
example (O : Oracles) (A : Algo (TwoMeanings P)) : ∃ (D : Finset (List MOp)) (n : Nat), A.Within O D n ∧
    ∀ f : D → Arr 64, ∀ q ∈ (A.run (table O D f)).queries, q ∈ D := by
  obtain ⟨D, n, h⟩ := exists_within (thenTwo A (fun c => challengeOf c.pk₁ c.t₁ (c.sig.take 32))
    (fun c => challengeOf c.pk₂ c.t₂ (c.sig.take 32)))
  refine ⟨D, n, fun f => ?_, fun f q hq => ?_⟩
  · have := h (table O D f)
    rw [(thenTwo_run _ _ _ _).2, List.length_append] at this
    exact ⟨by omega, fun q hq => this.2 q (List.mem_append_left _ hq)⟩
  · refine (h (table O D f)).2 q ?_
    rw [(thenTwo_run _ _ _ _).2]
    exact List.mem_append_right _ hq

end Schnorrkel.Props
