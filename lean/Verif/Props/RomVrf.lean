import Verif.Spec.RomVrf
import Verif.Lemmas.RomAlgo
import Verif.Props.VrfWire

/-! # C62: uniqueness of VRF outputs in the random-oracle model -/

namespace Schnorrkel.Props
open SigningTranscript Spec
variable {P : Type} [Ristretto P]

/-- The algorithm followed by the verification of its output. -/
private def thenVerify (pk : PublicKey P) (A : Algo VrfClaim) : Algo VrfClaim :=
  A.bind fun c => .ask (vrfInputQuery c.malleable c.log pk.compressed.1) fun a =>
    match (decompress c.out.bytes : Option P) with
    | none => .ret c
    | some o => .ask (wireQuery c.extra pk.point pk.compressed.1 (fromUniform a) o c.proof.c.toZ c.proof.s.toZ)
        fun _ => .ret c

private theorem asked_thenVerify (O : Oracles) (pk : PublicKey P) (A : Algo VrfClaim) :
    (thenVerify pk A).asked O = A.asked O ++ (A.run O).queries O pk := by
  unfold thenVerify
  rw [Algo.asked_bind]
  congr 1
  unfold VrfClaim.queries
  simp only [Algo.asked, List.cons.injEq, true_and]
  cases h : (decompress (A.run O).out.bytes : Option P) <;> rfl

/-- Answers that make a false claim pass, for the query. -/
def dleqBad (x : Z) (pk : PublicKey P) (q : List MOp) : Set (Arr 64) :=
  {w | ∃ (extra : List MOp) (I o R Hr : P) (s : Z), q = dleqQuery extra true (compress I).1 pk.compressed.1
    (compress R).1 (compress Hr).1 (compress o).1 ∧ o ≠ x • I ∧ DleqEqns (x • (basepoint : P)) I o R Hr (residue w) s}

theorem dleqBad_one (x : Z) (pk : PublicKey P) (q : List MOp) : ∃ z, ∀ w ∈ dleqBad x pk q, residue w = z := by
  by_cases h : (dleqBad x pk q).Nonempty
  · obtain ⟨w, extra, I, o, R, Hr, s, hq, ho, he⟩ := h
    refine ⟨residue w, ?_⟩
    rintro w' ⟨extra', I', o', R', Hr', s', hq', ho', he'⟩
    obtain ⟨-, h1, -, h3, h4, h5⟩ := (dleq_query_injective extra' extra true _ _ _ _ _ _ _ _ _ _ (hq'.symm.trans hq))
    have e1 : I' = I := compress_inj.mp (Subtype.ext h1)
    have e3 : R' = R := compress_inj.mp (Subtype.ext h3)
    have e4 : Hr' = Hr := compress_inj.mp (Subtype.ext h4)
    have e5 : o' = o := compress_inj.mp (Subtype.ext h5)
    subst e1 e3 e4 e5
    exact dleq_wrong_output_pins_challenge x _ _ _ _ ho ⟨s', he'⟩ ⟨s, he⟩
  · refine ⟨0, fun w hw => (h ⟨w, hw⟩).elim⟩

/-- **C62** uniqueness: whoever makes at most `q` hash queries — even the owner of the secret key `x`, with unlimited
computing power — gets a wrong output (one that is not `x` times the hashed input) past `vrf_verify_extra` with
probability at most `(q+2)·guess`, about `(q+2)/2^252`. -/
theorem vrf_uniqueness_random_oracle (O : Oracles) (pk : PublicKey P) (x : Z) (hpk : pk.point = x • (basepoint : P))
    (A : Algo VrfClaim) (D : Finset (List MOp)) (q : Nat) (hA : A.Within O D q)
    (hD : ∀ f : D → Arr 64, ∀ l ∈ (A.run (table O D f)).queries (table O D f) pk, l ∈ D) :
    chance (fun f : D → Arr 64 =>
      let O' := table O D f
      ∃ io b, (A.run O').verify O' pk = .ok (io, b) ∧ io.output.point ≠ x • io.input.point) ≤ (q + 2 : ℕ) * guess := by
  have hB : (thenVerify pk A).Within O D (q + 2) := by
    intro f
    rw [asked_thenVerify]
    refine ⟨?_, ?_⟩
    · rw [List.length_append]
      have h1 := (hA f).1
      have h2 : ((A.run (table O D f)).queries (table O D f) pk).length ≤ 2 := by
        unfold VrfClaim.queries
        cases (decompress (A.run (table O D f)).out.bytes : Option P) <;> simp
      omega
    · intro l hl
      rcases List.mem_append.mp hl with h | h
      · exact (hA f).2 l h
      · exact hD f l h
  refine le_trans (chance_mono ?_) (chance_asked_bad O (thenVerify pk A) (q + 2) hB (dleqBad x pk) (dleqBad_one x pk))
  rintro f ⟨io, b, hv, hne⟩
  letI := table O D f
  obtain ⟨o, h1, h2, h3, rfl, rfl⟩ := (vrf_verify_wire pk _ _ _ _ _ io b).mp hv
  simp only at hne h3
  set c := A.run (table O D f) with hc
  set l := wireQuery c.extra pk.point pk.compressed.1 (c.input (table O D f) pk) o c.proof.c.toZ c.proof.s.toZ with hl
  have hdec : (decompress c.out.bytes : Option P) = some o := (Ristretto.decompress_iff _ _).mpr h1
  have hmem : l ∈ (thenVerify pk A).asked (table O D f) := by
    rw [asked_thenVerify, ← hc]
    apply List.mem_append_right
    unfold VrfClaim.queries
    rw [hdec]
    simp [hl]
  refine ⟨l, hmem, c.extra, c.input (table O D f) pk, o, _, _, c.proof.s.toZ, ?_, hne, rfl, rfl⟩
  have hcz : c.proof.c.toZ = residue ((table O D f).merlin l 64) := by
    have := congrArg Scalar.toZ h3
    rw [Scalar.toZ_ofZ] at this
    exact this
  rw [← hcz, ← hpk, hl]
  simp [wireQuery, dleqQuery]

/-- **C62** two outputs: nobody, not even the key owner, gets two *different* outputs for the same input past
`vrf_verify_extra`, except with probability `2(q+2)·guess`. -/
theorem vrf_two_outputs_random_oracle (O : Oracles) (pk : PublicKey P) (A : Algo (VrfClaim × VrfClaim))
    (D : Finset (List MOp)) (q : Nat) (hA : A.Within O D q)
    (hD : ∀ f : D → Arr 64, ∀ l ∈ (A.run (table O D f)).1.queries (table O D f) pk ++
      (A.run (table O D f)).2.queries (table O D f) pk, l ∈ D) :
    chance (fun f : D → Arr 64 =>
      let O' := table O D f
      let a := (A.run O').1
      let b := (A.run O').2
      a.malleable = b.malleable ∧ a.log = b.log ∧ (∃ r, a.verify O' pk = .ok r) ∧ (∃ r, b.verify O' pk = .ok r) ∧
        a.out ≠ b.out) ≤ 2 * ((q + 2 : ℕ) * guess) := by
  obtain ⟨n, hn⟩ := Ristretto.generates pk.point
  have hpk : pk.point = ((n : Nat) : Z) • (basepoint : P) := by rw [hn, Nat.cast_smul_eq_nsmul]
  have hw : ∀ g : VrfClaim × VrfClaim → VrfClaim, (A.bind fun c => .ret (g c)).Within O D q := by
    intro g f
    rw [Algo.asked_bind]
    simpa [Algo.asked] using hA f
  have hr : ∀ (g : VrfClaim × VrfClaim → VrfClaim) (O : Oracles), (A.bind fun c => .ret (g c)).run O = g (A.run O) := by
    intro g O
    rw [Algo.run_bind]
    rfl
  have h1 := vrf_uniqueness_random_oracle O pk n hpk (A.bind fun c => .ret c.1) D q (hw _) (fun f l hl => by
    rw [hr] at hl
    exact hD f l (List.mem_append_left _ hl))
  have h2 := vrf_uniqueness_random_oracle O pk n hpk (A.bind fun c => .ret c.2) D q (hw _) (fun f l hl => by
    rw [hr] at hl
    exact hD f l (List.mem_append_right _ hl))
  simp only [hr] at h1 h2
  rw [two_mul]
  refine le_trans (chance_mono ?_) (le_trans chance_or_le (add_le_add h1 h2))
  rintro f ⟨e1, e2, ⟨⟨io, b⟩, hv⟩, ⟨⟨io', b'⟩, hv'⟩, hne⟩
  by_contra hcon
  rw [not_or] at hcon
  have c1 : io.output.point = (n : Z) • io.input.point := by
    by_contra h; exact hcon.1 ⟨io, b, hv, h⟩
  have c2 : io'.output.point = (n : Z) • io'.input.point := by
    by_contra h; exact hcon.2 ⟨io', b', hv', h⟩
  letI := table O D f
  obtain ⟨o, g1, -, -, rfl, rfl⟩ := (vrf_verify_wire pk _ _ _ _ _ io b).mp hv
  obtain ⟨o', g1', -, -, rfl, rfl⟩ := (vrf_verify_wire pk _ _ _ _ _ io' b').mp hv'
  simp only at c1 c2
  apply hne
  have : o = o' := by
    rw [c1, c2, e1, e2]
  have hb : (A.run (table O D f)).1.out.bytes = (A.run (table O D f)).2.out.bytes := by
    rw [← g1, ← g1', this]
  cases h : (A.run (table O D f)).1.out
  cases h' : (A.run (table O D f)).2.out
  simp only [h, h'] at hb
  rw [hb]

/-- Non-vacuity: every algorithm meets the hypotheses of `vrf_uniqueness_random_oracle` for some `D` and `q`. -/
example (O : Oracles) (pk : PublicKey P) (A : Algo VrfClaim) : ∃ (D : Finset (List MOp)) (q : Nat), A.Within O D q ∧
    ∀ f : D → Arr 64, ∀ l ∈ (A.run (table O D f)).queries (table O D f) pk, l ∈ D := by
  obtain ⟨D, n, h⟩ := exists_within (thenVerify pk A)
  refine ⟨D, n, fun f => ?_, fun f l hl => ?_⟩
  · have := h (table O D f)
    rw [asked_thenVerify, List.length_append] at this
    exact ⟨by omega, fun q hq => this.2 q (List.mem_append_left _ hq)⟩
  · refine (h (table O D f)).2 l ?_
    rw [asked_thenVerify]
    exact List.mem_append_right _ hl

end Schnorrkel.Props
