import Verif.Spec.RomVrfs
import Verif.Lemmas.RomLate
import Verif.Props.RomVrf
import Verif.Props.RomBatch

/-! # C66: uniqueness of VRF outputs that share a proof, in the random-oracle model -/

namespace Schnorrkel.Props
open SigningTranscript Spec
variable {P : Type} [Ristretto P]

/-- The coefficient read off an answer. -/
private def coef (a : Option (Arr 64)) : Nat := match a with | some a => leNat (a.1.take 16) | none => 0

open Classical in
private theorem sum_split (ps : List (P × P)) (p : P × P) (g : P × P → P) :
    (ps.map g).sum = (ps.count p) • g p + ((ps.filter (· ≠ p)).map g).sum := by
  induction ps with
  | nil => simp
  | cons a ps ih =>
    rw [List.map_cons, List.sum_cons, ih]
    by_cases h : a = p
    · subst h
      rw [List.count_cons_self, List.filter_cons_of_neg (by simp), succ_nsmul']
      abel
    · rw [List.count_cons_of_ne h, List.filter_cons_of_pos (by simpa using h), List.map_cons, List.sum_cons]
      abel

open Classical in
/-- Answers for the last coefficient that make the defects cancel. -/
private def mergeBad (x : Z) (pk : Bytes) (kn : List MOp → Option (Arr 64)) (q : List MOp) : Set (Arr 64) :=
  {w | ∃ (ps : List (P × P)) (p : P × P), p ∈ ps ∧ ps.length < ell ∧ q = pairQuery pk ps p ∧ p.2 ≠ x • p.1 ∧
    (ps.count p) • (leNat (w.1.take 16) • (p.2 - x • p.1)) +
      ((ps.filter (· ≠ p)).map fun p' => coef (kn (pairQuery pk ps p')) • (p'.2 - x • p'.1)).sum = 0}

private theorem encPoints_inj {p p' : P × P} (h : encPoints p = encPoints p') : p = p' := by
  unfold encPoints at h
  injection h with h1 h2
  exact Prod.ext (compress_inj.mp (Subtype.ext h1)) (compress_inj.mp (Subtype.ext h2))

private theorem pairQuery_inj {pk : Bytes} {ps ps' : List (P × P)} {p p' : P × P}
    (h : pairQuery pk ps p = pairQuery pk ps' p') : ps = ps' ∧ p = p' := by
  obtain ⟨-, h1, h2⟩ := merge_query_injective h
  exact ⟨List.map_injective_iff.mpr (fun _ _ h => encPoints_inj h) h1, encPoints_inj h2⟩

private theorem mergeBad_one (x : Z) (pk : Bytes) (kn : List MOp → Option (Arr 64)) (q : List MOp) :
    ∃ c, ∀ w ∈ (mergeBad (P := P) x pk kn q), leNat (w.1.take 16) = c := by
  classical
  by_cases h : (mergeBad (P := P) x pk kn q).Nonempty
  · obtain ⟨w, ps, p, hp, hl, hq, hne, he⟩ := h
    refine ⟨leNat (w.1.take 16), ?_⟩
    rintro w' ⟨ps', p', hp', hl', hq', hne', he'⟩
    obtain ⟨rfl, rfl⟩ := pairQuery_inj (hq.symm.trans hq')
    have hd : p.2 - x • p.1 ≠ 0 := fun e => hne (sub_eq_zero.mp e)
    have e := he'.trans he.symm
    have e := add_right_cancel e
    simp only [← Nat.cast_smul_eq_nsmul Z, smul_smul] at e
    rw [← sub_eq_zero, ← sub_smul, smul_eq_zero] at e
    have e := e.resolve_right hd
    rw [← mul_sub, mul_eq_zero] at e
    have hcpos : 0 < ps.count p := List.count_pos_iff.mpr hp
    have hclt : ps.count p < ell := lt_of_le_of_lt List.count_le_length hl
    have hc : ((ps.count p : Nat) : Z) ≠ 0 := by
      rw [Ne, ZMod.natCast_eq_zero_iff]
      exact fun h => absurd (Nat.le_of_dvd hcpos h) (by omega)
    have e := sub_eq_zero.mp (e.resolve_left hc)
    exact u128_cast_inj w'.2 w.2 e
  · exact ⟨0, fun w hw => (h ⟨w, hw⟩).elim⟩

/-- The pairs computed from the answers for the inputs. -/
private def pairsOf (c : VrfsClaim) (as : List (Arr 64)) : List (P × P) :=
  List.zipWith (fun x a => (fromUniform a, (decompress x.2.bytes).getD 0)) (c.ts.zip c.outs) as

/-- The merged point computed from the answers for the coefficients. -/
private def mergedOf (ps : List (P × P)) (zs : List (Arr 64)) (side : P × P → P) : P :=
  (List.zipWith (fun p z => leNat (z.1.take 16) • side p) ps zs).sum

/-- The algorithm followed by the verification of its output. -/
private def thenVerifyAll (pk : PublicKey P) (A : Algo VrfsClaim) : Algo VrfsClaim :=
  A.bind fun c =>
    (askAll ((c.ts.zip c.outs).map fun x => vrfInputQuery x.1.1 x.1.2 pk.compressed.1)).bind fun as =>
    (askAll ((pairsOf c as).map (pairQuery (P := P) pk.compressed.1 (pairsOf c as)))).bind fun zs =>
    (askAll [wireQuery c.extra pk.point pk.compressed.1 (mergedOf (pairsOf c as) zs Prod.fst)
      (mergedOf (pairsOf c as) zs Prod.snd) c.proof.c.toZ c.proof.s.toZ]).bind fun _ => .ret c

private theorem pairsOf_eq (O : Oracles) (pk : PublicKey P) (c : VrfsClaim) :
    pairsOf c (((c.ts.zip c.outs).map fun x => vrfInputQuery x.1.1 x.1.2 pk.compressed.1).map (O.merlin · 64)) =
      c.pairs O pk := by
  unfold pairsOf VrfsClaim.pairs
  rw [List.map_map, List.zipWith_map_right, List.zipWith_self]
  rfl

private theorem mergedOf_eq (O : Oracles) (pk : Bytes) (ps : List (P × P)) (side : P × P → P)
    (h : ∀ p ∈ ps, (O.merlin (pairQuery pk ps p) 16).1 = (O.merlin (pairQuery pk ps p) 64).1.take 16) :
    mergedOf ps ((ps.map (pairQuery pk ps)).map (O.merlin · 64)) side = mergedPoint O pk ps side := by
  unfold mergedOf mergedPoint
  rw [List.map_map, List.zipWith_map_right, List.zipWith_self]
  congr 1
  apply List.map_congr_left
  intro p hp
  show leNat ((O.merlin (pairQuery pk ps p) 64).1.take 16) • side p = leNat (O.merlin (pairQuery pk ps p) 16).1 • side p
  rw [h p hp]

private theorem asked_thenVerifyAll (O : Oracles) (pk : PublicKey P) (A : Algo VrfsClaim)
    (h : ∀ p ∈ (A.run O).pairs O pk,
      (O.merlin (pairQuery pk.compressed.1 ((A.run O).pairs O pk) p) 16).1 =
      (O.merlin (pairQuery pk.compressed.1 ((A.run O).pairs O pk) p) 64).1.take 16) :
    (thenVerifyAll pk A).asked O = A.asked O ++ (A.run O).queries O pk := by
  unfold thenVerifyAll
  simp only [Algo.asked_bind, askAll_run, Algo.asked, List.append_nil]
  rw [pairsOf_eq, mergedOf_eq _ _ _ _ h, mergedOf_eq _ _ _ _ h]
  rfl

private theorem queries_length (O : Oracles) (pk : PublicKey P) (c : VrfsClaim) :
    (c.queries O pk).length ≤ 2 * c.outs.length + 1 := by
  unfold VrfsClaim.queries VrfsClaim.pairs
  simp only [List.length_append, List.length_map, List.length_zip, List.length_cons, List.length_nil]
  omega

/-- What acceptance means, in terms of the claimed pairs. -/
private theorem verify_pairs (O : Oracles) (pk : PublicKey P) (c : VrfsClaim) (ps : List (VRFInOut P))
    (b : VRFProofBatchable) (h : c.verify O pk = .ok (ps, b)) :
    (ps.map fun p => (p.input.point, p.output.point)) = c.pairs O pk ∧
    c.proof.c.toZ = residue (O.merlin (wireQuery c.extra pk.point pk.compressed.1
      (mergedPoint O pk.compressed.1 (c.pairs O pk) Prod.fst)
      (mergedPoint O pk.compressed.1 (c.pairs O pk) Prod.snd) c.proof.c.toZ c.proof.s.toZ) 64) := by
  letI := O
  obtain ⟨-, -, h3, h4, -⟩ := (vrfs_verify_wire pk c.ts c.outs c.proof c.extra ps b).mp h
  have hps : ∀ (l : List ((Bool × List MOp) × VRFPreOut)) (ps : List (VRFInOut P)),
      List.Forall₂ (fun (x : (Bool × List MOp) × VRFPreOut) (io : VRFInOut P) =>
        let I : P := wireInputPoint x.1.1 x.1.2 pk.compressed.1
        ∃ O : P, compress O = x.2.bytes ∧ O ≠ 0 ∧ io = ⟨⟨compress I, I⟩, ⟨x.2.bytes, O⟩⟩) l ps →
      (ps.map fun p => (p.input.point, p.output.point)) =
        (l.map fun x => (wireInputPoint x.1.1 x.1.2 pk.compressed.1, (decompress x.2.bytes).getD 0)) ∧
      ps.map encPair = (ps.map fun p => (p.input.point, p.output.point)).map encPoints := by
    intro l ps h
    induction h with
    | nil => exact ⟨rfl, rfl⟩
    | cons h _ ih =>
      obtain ⟨o, h1, -, rfl⟩ := h
      simp only [List.map_cons, ih.1, ih.2]
      have hd : (decompress _ : Option P) = some o := (Ristretto.decompress_iff _ _).mpr h1
      rw [hd]
      refine ⟨rfl, ?_⟩
      rw [← ih.1]
      simp only [encPair, encPoints, h1]
  obtain ⟨e1, e2⟩ := hps _ _ h3
  have e1 : (ps.map fun p => (p.input.point, p.output.point)) = c.pairs O pk := e1
  refine ⟨e1, ?_⟩
  have henc : ∀ p ∈ ps, encPair p = encPoints (p.input.point, p.output.point) := by
    intro p hp
    obtain ⟨i, hi, rfl⟩ := List.getElem_of_mem hp
    have := congrArg (·[i]?) e2
    simpa [hi] using this
  have hz : ∀ side : P × P → P, (ps.map fun p => mergeCoeff pk.compressed.1 (ps.map encPair) (encPair p) •
      side (p.input.point, p.output.point)).sum = mergedPoint O pk.compressed.1 (c.pairs O pk) side := by
    intro side
    unfold mergedPoint
    rw [← e1, ← e2, List.map_map]
    congr 1
    apply List.map_congr_left
    intro p hp
    simp only [Function.comp]
    rw [henc p hp]
  have h5 := congrArg Scalar.toZ h4
  rw [Scalar.toZ_ofZ] at h5
  have z1 := hz Prod.fst
  have z2 := hz Prod.snd
  simp only at z1 z2
  rw [z1, z2] at h5
  exact h5

/-- If the defects cancel although some pair is wrong, the coefficient asked for last was bad. -/
private theorem cancel_bad (O : Oracles) {D : Finset (List MOp)} {α : Type} (B : Algo α) (n : Nat)
    (hB : B.Within O D n) (f : D → Arr 64) (x : Z) (pk : Bytes) (ps : List (P × P)) (hl : ps.length < ell)
    (hask : ∀ p ∈ ps, pairQuery pk ps p ∈ B.asked (table O D f)) (hw : ∃ p ∈ ps, p.2 ≠ x • p.1)
    (he : (ps.map fun p => leNat (((table O D f).merlin (pairQuery pk ps p) 64).1.take 16) • (p.2 - x • p.1)).sum = 0) :
    ∃ q, q ∈ B.asked (table O D f) ∧ (table O D f).merlin q 64 ∈
      mergeBad (P := P) x pk (known O B ((B.asked (table O D f)).idxOf q) f) q := by
  classical
  set idx : P × P → Nat := fun p => (B.asked (table O D f)).idxOf (pairQuery pk ps p) with hidx
  obtain ⟨p, hp, hmax⟩ := (ps.toFinset.filter fun p => p.2 ≠ x • p.1).exists_max_image idx (by
    obtain ⟨p, h1, h2⟩ := hw
    exact ⟨p, by simp [h1, h2]⟩)
  simp only [Finset.mem_filter, List.mem_toFinset] at hp hmax
  refine ⟨pairQuery pk ps p, hask p hp.1, ps, p, hp.1, hl, rfl, hp.2, ?_⟩
  rw [sum_split ps p] at he
  rw [← he]
  congr 2
  apply List.map_congr_left
  intro p' hp'
  simp only [List.mem_filter, decide_eq_true_eq] at hp'
  by_cases hd : p'.2 = x • p'.1
  · rw [sub_eq_zero.mpr hd, smul_zero, smul_zero]
  · have hle := hmax p' ⟨hp'.1, hd⟩
    have hne : idx p' ≠ idx p := by
      intro e
      have := (List.idxOf_inj (hask p' hp'.1)).mp e
      exact hp'.2 (pairQuery_inj this).2
    have := known_of_idx O B n hB f (pairQuery pk ps p') (idx p) (hask p' hp'.1) (lt_of_le_of_ne hle hne)
    rw [hidx] at this
    simp only at this
    rw [this]
    rfl

private theorem merged_defect (O : Oracles) (x : Z) (pk : Bytes) (ps : List (P × P)) :
    mergedPoint O pk ps Prod.snd - x • mergedPoint O pk ps Prod.fst =
      (ps.map fun p => leNat (O.merlin (pairQuery pk ps p) 16).1 • (p.2 - x • p.1)).sum := by
  have key : ∀ (l : List (P × P)) (z : P × P → Nat),
      (l.map fun p => z p • p.2).sum - x • (l.map fun p => z p • p.1).sum = (l.map fun p => z p • (p.2 - x • p.1)).sum := by
    intro l z
    induction l with
    | nil => simp
    | cons p l ih =>
      simp only [List.map_cons, List.sum_cons]
      rw [← ih, smul_add, smul_sub, smul_comm x (z p) p.1]
      abel
  exact key ps fun p => leNat (O.merlin (pairQuery pk ps p) 16).1

/-- **C66** uniqueness when several outputs share one proof: whoever makes at most `q` hash queries — even the owner of
the secret key `x`, with unlimited computing power — gets a wrong output among at most `m` outputs past
`vrfs_verify_extra` with probability at most `(q+2m+1)·(guess + 2^-128)`. -/
theorem vrfs_uniqueness_random_oracle (O : Oracles) (pk : PublicKey P) (x : Z) (hpk : pk.point = x • (basepoint : P))
    (A : Algo VrfsClaim) (D : Finset (List MOp)) (q m : Nat) (hA : A.WideWithin O D q) (hm : m < ell)
    (hlen : ∀ f : D → Arr 64, (A.run (wideTable O D f)).outs.length ≤ m)
    (hD : ∀ f : D → Arr 64, ∀ l ∈ (A.run (wideTable O D f)).queries (wideTable O D f) pk, l ∈ D) :
    chance (fun f : D → Arr 64 =>
      let O' := wideTable O D f
      ∃ ps b, (A.run O').verify O' pk = .ok (ps, b) ∧ ∃ p ∈ ps, p.output.point ≠ x • p.input.point) ≤
        (q + 2 * m + 1 : ℕ) * (guess + 1 / 2 ^ 128) := by
  have hshort : ∀ f : D → Arr 64, ∀ p ∈ (A.run (wideTable O D f)).pairs (wideTable O D f) pk,
      ((wideTable O D f).merlin (pairQuery pk.compressed.1 ((A.run (wideTable O D f)).pairs (wideTable O D f) pk) p) 16).1 =
      ((wideTable O D f).merlin (pairQuery pk.compressed.1
        ((A.run (wideTable O D f)).pairs (wideTable O D f) pk) p) 64).1.take 16 := by
    intro f p hp
    refine wideTable_short O f _ (hD f _ ?_) 16 (by norm_num)
    unfold VrfsClaim.queries
    exact List.mem_append_right _ (List.mem_append_left _ (List.mem_map_of_mem hp))
  have hasked := fun f => asked_thenVerifyAll (wideTable O D f) pk A (hshort f)
  have hW : (thenVerifyAll pk A).WideWithin O D (q + 2 * m + 1) := by
    intro f
    rw [hasked]
    refine ⟨?_, ?_⟩
    · rw [List.length_append]
      have h1 := (hA f).1
      have h2 := queries_length (wideTable O D f) pk (A.run (wideTable O D f))
      have h3 := hlen f
      omega
    · intro l hl
      rcases List.mem_append.mp hl with h | h
      · exact (hA f).2 l h
      · exact hD f l h
  have hB := wideWithin_within O _ _ hW
  have hsame := fun f => (run_wideTable O _ _ hW f).2
  have htab : ∀ f l, l ∈ (A.run (wideTable O D f)).queries (wideTable O D f) pk →
      l ∈ (thenVerifyAll pk A).asked (table O D f) ∧ (table O D f).merlin l 64 = (wideTable O D f).merlin l 64 := by
    intro f l hl
    refine ⟨?_, ?_⟩
    · rw [hsame, hasked]
      exact List.mem_append_right _ hl
    · rw [table_hit O D f l (hD f l hl), wideTable_hit O f l (hD f l hl)]
  rw [mul_add]
  refine le_trans (chance_mono ?_) (le_trans chance_or_le (add_le_add
    (chance_asked_bad O (thenVerifyAll pk A) _ hB (dleqBad x pk) (dleqBad_one x pk))
    (chance_late O (thenVerifyAll pk A) _ hB (mergeBad (P := P) x pk.compressed.1) (mergeBad_one x pk.compressed.1))))
  rintro f ⟨ps, b, hv, p, hp, hne⟩
  obtain ⟨e1, e2⟩ := verify_pairs _ pk _ ps b hv
  set O' := wideTable O D f with hO'
  set c := A.run O' with hc
  set L := c.pairs O' pk with hL
  have hbadpair : ∃ p ∈ L, p.2 ≠ x • p.1 := by
    refine ⟨(p.input.point, p.output.point), ?_, hne⟩
    rw [← e1]
    exact List.mem_map_of_mem hp
  by_cases hd : mergedPoint O' pk.compressed.1 L Prod.snd = x • mergedPoint O' pk.compressed.1 L Prod.fst
  · right
    refine cancel_bad O (thenVerifyAll pk A) _ hB f x pk.compressed.1 L ?_ ?_ hbadpair ?_
    · refine lt_of_le_of_lt ?_ hm
      have : L.length ≤ c.outs.length := by
        rw [hL]; unfold VrfsClaim.pairs
        rw [List.length_map, List.length_zip]
        exact min_le_right _ _
      exact this.trans (hlen f)
    · intro p hp
      refine (htab f _ ?_).1
      unfold VrfsClaim.queries
      exact List.mem_append_right _ (List.mem_append_left _ (List.mem_map_of_mem hp))
    · have := merged_defect O' x pk.compressed.1 L
      rw [sub_eq_zero.mpr hd] at this
      rw [this]
      congr 1
      apply List.map_congr_left
      intro p hp
      rw [hshort f p hp, (htab f _ ?_).2]
      unfold VrfsClaim.queries
      exact List.mem_append_right _ (List.mem_append_left _ (List.mem_map_of_mem hp))
  · left
    set l := wireQuery c.extra pk.point pk.compressed.1 (mergedPoint O' pk.compressed.1 L Prod.fst)
      (mergedPoint O' pk.compressed.1 L Prod.snd) c.proof.c.toZ c.proof.s.toZ with hl
    have hmem : l ∈ c.queries O' pk := by
      unfold VrfsClaim.queries
      refine List.mem_append_right _ (List.mem_append_right _ ?_)
      rw [List.mem_singleton]
    obtain ⟨h1, h2⟩ := htab f l hmem
    refine ⟨l, h1, c.extra, mergedPoint O' pk.compressed.1 L Prod.fst, mergedPoint O' pk.compressed.1 L Prod.snd, _, _,
      c.proof.s.toZ, ?_, hd, rfl, rfl⟩
    rw [h2, ← e2, ← hpk, hl]
    simp [wireQuery, dleqQuery]

/-- **C66** two outputs: nobody, not even the key owner, gets two different outputs for the same input past
`vrfs_verify_extra` — in one call or in two — except with twice that probability. -/
theorem vrfs_two_outputs_random_oracle (O : Oracles) (pk : PublicKey P) (A : Algo (VrfsClaim × VrfsClaim))
    (D : Finset (List MOp)) (q m : Nat) (hA : A.WideWithin O D q) (hm : m < ell)
    (hlen : ∀ f : D → Arr 64, (A.run (wideTable O D f)).1.outs.length ≤ m ∧ (A.run (wideTable O D f)).2.outs.length ≤ m)
    (hD : ∀ f : D → Arr 64, ∀ l ∈ (A.run (wideTable O D f)).1.queries (wideTable O D f) pk ++
      (A.run (wideTable O D f)).2.queries (wideTable O D f) pk, l ∈ D) :
    chance (fun f : D → Arr 64 =>
      let O' := wideTable O D f
      let a := (A.run O').1
      let b := (A.run O').2
      ∃ ps ba ps' bb, a.verify O' pk = .ok (ps, ba) ∧ b.verify O' pk = .ok (ps', bb) ∧
        ∃ p ∈ ps ++ ps', ∃ p' ∈ ps ++ ps', p.input.point = p'.input.point ∧ p.output.point ≠ p'.output.point) ≤
        2 * ((q + 2 * m + 1 : ℕ) * (guess + 1 / 2 ^ 128)) := by
  obtain ⟨n, hn⟩ := Ristretto.generates pk.point
  have hpk : pk.point = ((n : Nat) : Z) • (basepoint : P) := by rw [hn, Nat.cast_smul_eq_nsmul]
  have hw : ∀ g : VrfsClaim × VrfsClaim → VrfsClaim, (A.bind fun c => .ret (g c)).WideWithin O D q := by
    intro g f
    rw [Algo.asked_bind]
    simpa [Algo.asked] using hA f
  have hr : ∀ (g : VrfsClaim × VrfsClaim → VrfsClaim) (O : Oracles),
      (A.bind fun c => .ret (g c)).run O = g (A.run O) := by
    intro g O
    rw [Algo.run_bind]
    rfl
  have h1 := vrfs_uniqueness_random_oracle O pk n hpk (A.bind fun c => .ret c.1) D q m (hw _) hm
    (fun f => by rw [hr]; exact (hlen f).1) (fun f l hl => by
      rw [hr] at hl
      exact hD f l (List.mem_append_left _ hl))
  have h2 := vrfs_uniqueness_random_oracle O pk n hpk (A.bind fun c => .ret c.2) D q m (hw _) hm
    (fun f => by rw [hr]; exact (hlen f).2) (fun f l hl => by
      rw [hr] at hl
      exact hD f l (List.mem_append_right _ hl))
  simp only [hr] at h1 h2
  rw [two_mul]
  refine le_trans (chance_mono ?_) (le_trans chance_or_le (add_le_add h1 h2))
  rintro f ⟨ps, ba, ps', bb, hv, hv', p, hp, p', hp', hin, hne⟩
  by_contra hcon
  rw [not_or] at hcon
  have key : ∀ p ∈ ps ++ ps', p.output.point = (n : Z) • p.input.point := by
    intro p hp
    by_contra h
    rcases List.mem_append.mp hp with hp | hp
    · exact hcon.1 ⟨ps, ba, hv, p, hp, h⟩
    · exact hcon.2 ⟨ps', bb, hv', p, hp, h⟩
  exact hne (by rw [key p hp, key p' hp', hin])

/-- Non-vacuity: every algorithm meets the hypotheses of `vrfs_uniqueness_random_oracle` for some `D`, `q` and `m`
(`m` only has to be below the group order). -/
example (O : Oracles) (pk : PublicKey P) (A : Algo VrfsClaim) : ∃ (D : Finset (List MOp)) (q m : Nat),
    A.WideWithin O D q ∧ (∀ f : D → Arr 64, (A.run (wideTable O D f)).outs.length ≤ m) ∧
    ∀ f : D → Arr 64, ∀ l ∈ (A.run (wideTable O D f)).queries (wideTable O D f) pk, l ∈ D := by
  obtain ⟨D, n, h⟩ := exists_within (thenVerifyAll pk A)
  obtain ⟨m, hm⟩ := ((finite_results A).image fun c => c.outs.length).bddAbove
  have hs : ∀ f : D → Arr 64, ∀ p ∈ (A.run (wideTable O D f)).pairs (wideTable O D f) pk,
      pairQuery pk.compressed.1 ((A.run (wideTable O D f)).pairs (wideTable O D f) pk) p ∈ D := by
    intro f p hp
    refine (h (wideTable O D f)).2 _ ?_
    unfold thenVerifyAll
    simp only [Algo.asked_bind, askAll_run, Algo.asked, List.append_nil]
    rw [pairsOf_eq]
    exact List.mem_append_right _ (List.mem_append_right _ (List.mem_append_left _ (List.mem_map_of_mem hp)))
  have ha := fun f : D → Arr 64 => asked_thenVerifyAll (wideTable O D f) pk A
    (fun p hp => wideTable_short O f _ (hs f p hp) 16 (by norm_num))
  refine ⟨D, n, m, fun f => ?_, fun f => hm ⟨_, ⟨wideTable O D f, rfl⟩, rfl⟩, fun f l hl => ?_⟩
  · have := h (wideTable O D f)
    rw [ha, List.length_append] at this
    exact ⟨by omega, fun q hq => this.2 q (List.mem_append_left _ hq)⟩
  · refine (h (wideTable O D f)).2 l ?_
    rw [ha]
    exact List.mem_append_right _ hl

end Schnorrkel.Props
