import Verif.Props.RomBatch
import Verif.Props.VrfBatch
import Verif.Props.VrfWire

/-! # C65: soundness of VRF batch verification in the random-oracle model -/

namespace Schnorrkel.Props
open SigningTranscript Spec
variable {P : Type} [Ristretto P] {α : Type}

theorem dleqBatchQuery_ne (es : List (Bytes × Bytes × Bytes)) (r : Bytes) (j : Nat) (l : List MOp) (lb : Bytes)
    (m : Nat) : l ++ [.challenge lb m] ≠ dleqBatchQuery es r j := by
  intro h
  have h2 := congrArg List.reverse h
  unfold dleqBatchQuery at h2
  rw [List.reverse_append, List.reverse_append, List.reverse_replicate, List.replicate_succ] at h2
  simp at h2

theorem dleqBatchQuery_inj {es : List (Bytes × Bytes × Bytes)} {r r' : Bytes} {j j' : Nat}
    (h : dleqBatchQuery es r j = dleqBatchQuery es r' j') : r = r' ∧ j = j' := by
  unfold dleqBatchQuery at h
  simp only [List.append_assoc] at h
  have h := List.append_cancel_left (List.append_cancel_left h)
  simp only [List.singleton_append, List.cons.injEq, MOp.rngKey.injEq] at h
  have h2 := congrArg List.length h.2
  simp only [List.length_replicate] at h2
  exact ⟨h.1, by omega⟩

theorem dleqQuery_ends (log : List MOp) (kusama : Bool) (h pk R Hr o : Bytes) :
    ∃ l, dleqQuery log kusama h pk R Hr o = l ++ [.challenge (b! "prove") 64] := by
  unfold dleqQuery
  exact ⟨_ ++ [_], (List.append_assoc _ [_] [_]).symm⟩

/-- The challenge of entry `i`. -/
private def chal (c : DleqBatch P) (O : Oracles) (kusama : Bool) (i : Fin c.n) : Z :=
  hashWith O (dleqQuery wireNoExtra kusama (c.p i).input.compressed.1 (c.pk i).compressed.1 (c.b i).R.1 (c.b i).Hr.1
    (c.p i).output.compressed.1)

private def coef (c : DleqBatch P) (O : Oracles) (r : Arr 32) (i : Fin c.n) : Z :=
  ((leNat (O.merlin (c.coefficientQuery r i) 16).1 : Nat) : Z)

private def defects (c : DleqBatch P) (O : Oracles) (kusama : Bool) (R Hr : Fin c.n → P) (i : Fin c.n) : P × P :=
  (chal c O kusama i • (c.pk i).point + (c.b i).s.toZ • (basepoint : P) - R i,
    chal c O kusama i • (c.p i).output.point + (c.b i).s.toZ • (c.p i).input.point - Hr i)

private theorem chal_eq (c : DleqBatch P) (O : Oracles) (kusama : Bool) (i : Fin c.n) :
    @dleqBatchChallenge P O (c.p i) (c.b i) (c.pk i) kusama = chal c O kusama i := by
  letI := O
  exact dleq_challenge_is_query _ kusama _ _ _ _ _

private theorem accepted_iff (c : DleqBatch P) (O : Oracles) (kusama : Bool) (sys : Rng) (r : Arr 32)
    (hr : (sys.fill 32).1 = r) :
    c.accepted O kusama sys ↔ ∃ R Hr : Fin c.n → P, (∀ i, compress (R i) = (c.b i).R) ∧
      (∀ i, compress (Hr i) = (c.b i).Hr) ∧ ∑ i, coef c O r i • (defects c O kusama R Hr i).1 = 0 ∧
      ∑ i, coef c O r i • (defects c O kusama R Hr i).2 = 0 := by
  letI := O
  unfold DleqBatch.accepted
  obtain ⟨z, hz, e⟩ := dleq_verify_batch_is_check_of_drawn_coefficients c.p c.b c.pk kusama sys
  rw [e, (dleq_batch_equation_iff c.p c.b c.pk kusama z).1]
  have hz' : ∀ i, ((z i : Nat) : Z) = coef c O r i := by
    intro i
    rw [hz i, hr]
    rfl
  simp only [hz', dleqDefects, chal_eq]
  rfl

private theorem valid_iff' (c : DleqBatch P) (O : Oracles) (kusama : Bool) (i : Fin c.n) :
    c.valid O kusama i ↔ DleqValid (c.pk i).point (c.p i).input.point (c.p i).output.point (c.b i).R (c.b i).Hr
      (chal c O kusama i) (c.b i).s.toZ := by
  letI := O
  unfold DleqBatch.valid
  refine (dleq_valid_iff_shortened_verifies (c.p i) (c.b i) (c.pk i) kusama).symm.trans ?_
  rw [chal_eq]

private theorem valid_iff (c : DleqBatch P) (O : Oracles) (kusama : Bool) (i : Fin c.n) (R Hr : Fin c.n → P)
    (hR : ∀ i, compress (R i) = (c.b i).R) (hHr : ∀ i, compress (Hr i) = (c.b i).Hr) :
    c.valid O kusama i ↔ (defects c O kusama R Hr i).1 = 0 ∧ (defects c O kusama R Hr i).2 = 0 := by
  rw [valid_iff']
  unfold defects
  simp only [sub_eq_zero]
  constructor
  · rintro ⟨R', Hr', h1, h2, h3, h4⟩
    have e1 : R' = R i := compress_inj.mp (by rw [h1, hR])
    have e2 : Hr' = Hr i := compress_inj.mp (by rw [h2, hHr])
    rw [← e1, ← e2]
    exact ⟨h3.symm, h4.symm⟩
  · rintro ⟨h3, h4⟩
    exact ⟨R i, Hr i, hR i, hHr i, h3.symm, h4.symm⟩

/-- An invalid entry of the batch. -/
private noncomputable def culprit (c : DleqBatch P) (O : Oracles) (kusama : Bool) : Option (Fin c.n) :=
  pick fun j => ¬ c.valid O kusama j

private theorem culprit_none {c : DleqBatch P} {O : Oracles} {kusama : Bool} (h : culprit c O kusama = none)
    (j : Fin c.n) : c.valid O kusama j := by
  unfold culprit at h
  exact not_not.mp (pick_none h j)

private theorem culprit_some {c : DleqBatch P} {O : Oracles} {kusama : Bool} {j : Fin c.n}
    (h : culprit c O kusama = some j) : ¬ c.valid O kusama j := by
  unfold culprit at h
  exact pick_some h

private noncomputable def target (kusama : Bool) (c : Option (DleqBatch P)) (O : Oracles) (r : Arr 32) :
    Option (List MOp) := c.bind fun c => (culprit c O kusama).map (c.coefficientQuery r)

private noncomputable def bad (kusama : Bool) (c : Option (DleqBatch P)) (O : Oracles) (r : Arr 32) : Set (Arr 64) :=
  match c with
  | none => ∅
  | some c =>
  match culprit c O kusama with
  | none => ∅
  | some j => {w | ∃ R Hr : Fin c.n → P, (∀ i, compress (R i) = (c.b i).R) ∧ (∀ i, compress (Hr i) = (c.b i).Hr) ∧
      ((leNat (w.1.take 16) : Nat) : Z) • (defects c O kusama R Hr j).1 + ∑ i ∈ Finset.univ.erase j,
        coef c O r i • (defects c O kusama R Hr i).1 = 0 ∧
      ((leNat (w.1.take 16) : Nat) : Z) • (defects c O kusama R Hr j).2 + ∑ i ∈ Finset.univ.erase j,
        coef c O r i • (defects c O kusama R Hr i).2 = 0}

private theorem target_some {kusama : Bool} {c : Option (DleqBatch P)} {O : Oracles} {r : Arr 32} {Q : List MOp}
    (h : target kusama c O r = some Q) :
    ∃ c' j, c = some c' ∧ culprit c' O kusama = some j ∧ c'.coefficientQuery r j = Q := by
  cases c with
  | none => cases h
  | some c =>
    unfold target at h
    rw [Option.bind_some] at h
    cases hj : culprit c O kusama with
    | none => rw [hj] at h; cases h
    | some j => rw [hj] at h; exact ⟨c, j, rfl, hj, Option.some.inj h⟩

private theorem hits (c : DleqBatch P) (O : Oracles) (kusama : Bool) (r : Arr 32) (sys : Rng)
    (hr : (sys.fill 32).1 = r) (hacc : c.accepted O kusama sys) (i : Fin c.n) (hi : ¬ c.valid O kusama i)
    (hs : ∀ j, (O.merlin (c.coefficientQuery r j) 16).1 = (O.merlin (c.coefficientQuery r j) 64).1.take 16) :
    ∃ Q, target kusama (some c) O r = some Q ∧ O.merlin Q 64 ∈ bad kusama (some c) O r := by
  cases hj : culprit c O kusama with
  | none => exact (hi (culprit_none hj i)).elim
  | some j =>
    refine ⟨c.coefficientQuery r j, by unfold target; rw [Option.bind_some, hj]; rfl, ?_⟩
    unfold bad
    simp only
    rw [hj]
    obtain ⟨R, Hr, h1, h2, h3, h4⟩ := (accepted_iff c O kusama sys r hr).mp hacc
    refine ⟨R, Hr, h1, h2, ?_⟩
    rw [← Finset.add_sum_erase _ _ (Finset.mem_univ j)] at h3 h4
    rw [← hs j]
    exact ⟨h3, h4⟩

private theorem target_upd (kusama : Bool) (c : Option (DleqBatch P)) (O O' : Oracles) (r : Arr 32) (Q : List MOp)
    (hQ : target kusama c O r = some Q) (hO : ∀ q n, q ≠ Q → O'.merlin q n = O.merlin q n) :
    target kusama c O' r = some Q ∧ bad kusama c O' r = bad kusama c O r := by
  obtain ⟨c, j, rfl, hj, hQ'⟩ := target_some hQ
  have hch : ∀ i, chal c O' kusama i = chal c O kusama i := by
    intro i
    unfold chal
    have := hO (dleqQuery wireNoExtra kusama (c.p i).input.compressed.1 (c.pk i).compressed.1 (c.b i).R.1 (c.b i).Hr.1
      (c.p i).output.compressed.1) 64 (by
      rw [← hQ']
      obtain ⟨l, hl⟩ := dleqQuery_ends wireNoExtra kusama (c.p i).input.compressed.1 (c.pk i).compressed.1 (c.b i).R.1
        (c.b i).Hr.1 (c.p i).output.compressed.1
      rw [hl]
      exact dleqBatchQuery_ne _ _ _ _ _ _)
    unfold hashWith hashToZ
    exact congrArg (fun a : Arr 64 => ((leNat a.1 : Nat) : Z)) this
  have hdef : ∀ R Hr i, defects c O' kusama R Hr i = defects c O kusama R Hr i := by
    intro R Hr i; unfold defects; rw [hch]
  have hval : ∀ i, c.valid O' kusama i ↔ c.valid O kusama i := by
    intro i
    rw [valid_iff', valid_iff', hch]
  have hcul : culprit c O' kusama = culprit c O kusama := by
    unfold culprit
    refine congrArg pick (funext fun i => ?_)
    rw [hval]
  have hco : ∀ i, i ≠ j → coef c O' r i = coef c O r i := by
    intro i hi
    unfold coef
    rw [hO]
    rw [← hQ']
    intro h2
    exact hi (Fin.ext (dleqBatchQuery_inj h2).2)
  refine ⟨by unfold target; rw [Option.bind_some, hcul, hj]; simp only [Option.map_some, hQ'], ?_⟩
  unfold bad
  simp only
  rw [hcul, hj]
  simp only [hdef]
  apply Set.ext
  intro w
  apply exists_congr; intro R
  apply exists_congr; intro Hr
  have hs : ∀ F : Fin c.n → P, ∑ i ∈ Finset.univ.erase j, coef c O' r i • F i =
      ∑ i ∈ Finset.univ.erase j, coef c O r i • F i := fun F =>
    Finset.sum_congr rfl fun i hi => by rw [hco i (Finset.ne_of_mem_erase hi)]
  rw [hs, hs]

private theorem target_inj (kusama : Bool) (c : Option (DleqBatch P)) (O : Oracles) (r r' : Arr 32) (Q : List MOp)
    (h : target kusama c O r = some Q) (h' : target kusama c O r' = some Q) : r = r' := by
  obtain ⟨c, j, rfl, hj, e⟩ := target_some h
  obtain ⟨c', j', hc, hj', e'⟩ := target_some h'
  cases hc
  exact Subtype.ext (dleqBatchQuery_inj (e.trans e'.symm)).1

private theorem bad_one (kusama : Bool) (c : Option (DleqBatch P)) (O : Oracles) (r : Arr 32) :
    ∃ v, ∀ w ∈ bad kusama c O r, leNat (w.1.take 16) = v := by
  by_cases hne : (bad kusama c O r).Nonempty
  · obtain ⟨w, hw⟩ := hne
    refine ⟨leNat (w.1.take 16), fun w' hw' => ?_⟩
    unfold bad at hw hw'
    cases c with
    | none => exact hw.elim
    | some c =>
    simp only at hw hw'
    cases hj : culprit c O kusama with
    | none => rw [hj] at hw; exact hw.elim
    | some j =>
      rw [hj] at hw hw'
      obtain ⟨R, Hr, hR, hHr, e1, e2⟩ := hw
      obtain ⟨R', Hr', hR', hHr', e1', e2'⟩ := hw'
      have : R' = R := by funext i; exact compress_inj.mp (by rw [hR, hR'])
      subst this
      have : Hr' = Hr := by funext i; exact compress_inj.mp (by rw [hHr, hHr'])
      subst this
      have hd : ¬ ((defects c O kusama R' Hr' j).1 = 0 ∧ (defects c O kusama R' Hr' j).2 = 0) := by
        intro h0
        exact culprit_some hj ((valid_iff c O kusama j R' Hr' hR hHr).mpr h0)
      have f1 := congrArg₂ (· - ·) e1' e1
      have f2 := congrArg₂ (· - ·) e2' e2
      simp only [add_sub_add_right_eq_sub, sub_zero] at f1 f2
      rw [← sub_smul, smul_eq_zero] at f1 f2
      apply u128_cast_inj w'.2 w.2
      rcases f1 with f1 | f1
      · exact sub_eq_zero.mp f1
      · rcases f2 with f2 | f2
        · exact sub_eq_zero.mp f2
        · exact (hd ⟨f1, f2⟩).elim
  · exact ⟨0, fun w hw => (hne ⟨w, hw⟩).elim⟩

/-- Common to both theorems: the batch is computed from the attacker's output by a function that asks only queries
ending in a 64-byte challenge. -/
private theorem sound (O : Oracles) (A : Algo α) (g : α → Oracles → Option (DleqBatch P)) (D : Finset (List MOp))
    (q : Nat) (hA : A.WideWithin O D q) (kusama : Bool)
    (hg : ∀ a (O O' : Oracles), (∀ l lb, O'.merlin (l ++ [.challenge lb 64]) 64 = O.merlin (l ++ [.challenge lb 64]) 64) →
      g a O' = g a O)
    (hD : ∀ (f : D → Arr 64) c, g (A.run (wideTable O D f)) (wideTable O D f) = some c → ∀ r i,
      c.coefficientQuery r i ∈ D)
    (rng : Arr 32 → Rng) (hr : ∀ r, ((rng r).fill 32).1 = r) :
    chance (fun x : (D → Arr 64) × Arr 32 =>
      let O' := wideTable O D x.1
      ∃ c, g (A.run O') O' = some c ∧ c.accepted O' kusama (rng x.2) ∧ ∃ i, ¬ c.valid O' kusama i) ≤
        1 / 2 ^ 128 + q / 2 ^ 256 := by
  refine le_trans (chance_mono ?_) (chance_late_check O A q hA (fun a O r => target kusama (g a O) O r)
    (fun a O r => bad kusama (g a O) O r) ?_ ?_ (fun c O r _ _ => bad_one kusama _ O r) ?_)
  · rintro ⟨f, r⟩ ⟨c, hc, hacc, i, hi⟩
    simp only at hc ⊢
    rw [hc]
    exact hits c _ kusama r (rng r) (hr r) hacc i hi fun j => wideTable_short O f _ (hD f c hc r j) 16 (by norm_num)
  · intro a O O' r Q hQ hO
    have : g a O' = g a O := by
      apply hg
      intro l lb
      apply hO
      obtain ⟨c, j, -, -, rfl⟩ := target_some hQ
      exact dleqBatchQuery_ne _ _ _ _ _ _
    simp only [this]
    exact target_upd kusama (g a O) O O' r Q hQ hO
  · intro a O r r' Q h h'
    exact target_inj kusama (g a O) O r r' Q h h'
  · intro f r Q h
    obtain ⟨c, j, hc, -, rfl⟩ := target_some h
    exact hD f c hc r j

/-- **C65** `dleq_verify_batch` is sound: whoever makes at most `q` hash queries — with unlimited computing power,
choosing all keys, inputs, outputs and proofs — gets a batch with an invalid proof past it with probability at most
`2^-128 + q/2^256`. -/
theorem dleq_verify_batch_sound_random_oracle (O : Oracles) (A : Algo (DleqBatch P)) (D : Finset (List MOp)) (q : Nat)
    (hA : A.WideWithin O D q) (hD : ∀ (f : D → Arr 64) r i, (A.run (wideTable O D f)).coefficientQuery r i ∈ D)
    (rng : Arr 32 → Rng) (hr : ∀ r, ((rng r).fill 32).1 = r) (kusama : Bool) :
    chance (fun x : (D → Arr 64) × Arr 32 =>
      let O' := wideTable O D x.1
      let c := A.run O'
      c.accepted O' kusama (rng x.2) ∧ ∃ i, ¬ c.valid O' kusama i) ≤ 1 / 2 ^ 128 + q / 2 ^ 256 := by
  refine le_trans (chance_mono ?_) (sound O A (fun c _ => some c) D q hA kusama (fun _ _ _ _ => rfl) ?_ rng hr)
  · rintro ⟨f, r⟩ ⟨h1, h2⟩
    exact ⟨_, rfl, h1, h2⟩
  · rintro f c hc r i
    cases hc
    exact hD f r i

open Classical in
/-- The pairs `vrf_verify_batch` attaches. -/
private noncomputable def attached (c : VrfBatch P) (O : Oracles) : Option (DleqBatch P) :=
  letI := O
  if h : ∃ q : Fin c.n → P, ∀ i, q i ≠ 0 ∧ compress (q i) = (c.out i).bytes then
    some ⟨c.n, fun i => ⟨⟨compress (wireInputPoint (c.malleable i) (c.log i) (c.pk i).compressed.1 : P),
      wireInputPoint (c.malleable i) (c.log i) (c.pk i).compressed.1⟩, ⟨(c.out i).bytes, h.choose i⟩⟩, c.b, c.pk⟩
  else none

theorem vrfHash_wire_eq [Oracles] (pk : PublicKey P) (malleable : Bool) (log : List MOp) :
    PublicKey.vrfHash pk (wireInput malleable log) = ⟨compress (wireInputPoint malleable log pk.compressed.1 : P),
      wireInputPoint malleable log pk.compressed.1⟩ := by
  obtain ⟨hI, hIw⟩ := vrfHash_wire pk malleable log
  have h2 : compress (PublicKey.vrfHash pk (wireInput malleable log)).point =
    (PublicKey.vrfHash pk (wireInput malleable log)).compressed := hIw
  rw [← hI, h2]

theorem wireInputPoint_congr (O O' : Oracles) (malleable : Bool) (log : List MOp) (pk : Bytes)
    (h : ∀ l lb, O'.merlin (l ++ [.challenge lb 64]) 64 = O.merlin (l ++ [.challenge lb 64]) 64) :
    @wireInputPoint P _ O' malleable log pk = @wireInputPoint P _ O malleable log pk :=
  congrArg fromUniform (h _ _)

/-- **C65** `vrf_verify_batch` is sound: whoever makes at most `q` hash queries gets a batch with an entry that
`vrf_verify` would reject past it with probability at most `2^-128 + q/2^256`. -/
theorem vrf_verify_batch_sound_random_oracle (O : Oracles) (A : Algo (VrfBatch P)) (D : Finset (List MOp)) (q : Nat)
    (hA : A.WideWithin O D q)
    (hD : ∀ (f : D → Arr 64) r i, (A.run (wideTable O D f)).coefficientQuery (wideTable O D f) r i ∈ D)
    (rng : Arr 32 → Rng) (hr : ∀ r, ((rng r).fill 32).1 = r) :
    chance (fun x : (D → Arr 64) × Arr 32 =>
      let O' := wideTable O D x.1
      let c := A.run O'
      (∃ ios, c.verify O' (rng x.2) = .ok ios) ∧ ∃ i, ¬ c.valid O' i) ≤ 1 / 2 ^ 128 + q / 2 ^ 256 := by
  refine le_trans (chance_mono ?_) (sound O A attached D q hA KUSAMA_VRF ?_ ?_ rng hr)
  · rintro ⟨f, r⟩ ⟨⟨ios, h1⟩, i, hi⟩
    simp only at h1 hi ⊢
    generalize hO : wideTable O D f = O' at *
    generalize A.run O' = c at *
    letI := O'
    have hspec := vrf_verify_batch_spec (fun i => wireInput (c.malleable i) (c.log i)) [] (by simp) c.out c.b c.pk (rng r)
    rw [List.append_nil] at hspec
    simp only [vrfHash_wire_eq] at hspec
    by_cases h : ∃ q : Fin c.n → P, ∀ i, q i ≠ 0 ∧ compress (q i) = (c.out i).bytes
    · refine ⟨_, dif_pos h, ?_, i, fun hv => hi ?_⟩
      · have h2 := hspec.1 h.choose h.choose_spec
        by_contra hcon
        unfold DleqBatch.accepted at hcon
        unfold VrfBatch.verify at h1
        rw [h2, if_neg hcon] at h1
        cases h1
      · have ha : (c.out i).attachInputHash (c.pk i) (wireInput (c.malleable i) (c.log i)) =
            .ok ⟨⟨compress (wireInputPoint (c.malleable i) (c.log i) (c.pk i).compressed.1 : P),
              wireInputPoint (c.malleable i) (c.log i) (c.pk i).compressed.1⟩, ⟨(c.out i).bytes, h.choose i⟩⟩ :=
          ((attach_input_hash_table _ _ _).1 _).mpr ⟨(vrfHash_wire_eq _ _ _).symm, rfl, (h.choose_spec i).2, (h.choose_spec i).1⟩
        refine ⟨_, ⟨⟨compress (wireInputPoint (c.malleable i) (c.log i) (c.pk i).compressed.1 : P),
              wireInputPoint (c.malleable i) (c.log i) (c.pk i).compressed.1⟩, ⟨(c.out i).bytes, h.choose i⟩⟩,
              by unfold VRFProofBatchable.shortenVrf; rw [ha]; rfl, ?_⟩
        unfold PublicKey.vrfVerify PublicKey.vrfVerifyExtra
        rw [ha]
        unfold DleqBatch.valid at hv
        simp only at hv
        simp only [bind, Except.bind]
        rw [hv]
    · exfalso
      unfold VrfBatch.verify at h1
      rw [hspec.2 h] at h1
      cases h1
  · intro c O O' h
    unfold attached
    simp only [wireInputPoint_congr O O' _ _ _ h]
  · intro f c hc r i
    unfold attached at hc
    split at hc
    · cases hc
      have := hD f r i
      unfold VrfBatch.coefficientQuery at this
      unfold DleqBatch.coefficientQuery
      exact this
    · cases hc

/-! ## Outputs accepted in a batch are the right ones -/

/-- The attacker followed by the hash queries of all entries. -/
private noncomputable def thenEntries (A : Algo (VrfBatch P)) : Algo (VrfBatch P) :=
  A.bind fun c => (askAll (List.ofFn fun i => vrfInputQuery (c.malleable i) (c.log i) (c.pk i).compressed.1)).bind fun as =>
    (askAll (List.ofFn fun i : Fin c.n => dleqQuery wireNoExtra true (compress (fromUniform (as.getD i (zeros 64)) : P)).1
      (c.pk i).compressed.1 (c.b i).R.1 (c.b i).Hr.1 (c.out i).bytes.1)).bind fun _ => .ret c

private theorem asked_thenEntries (O : Oracles) (A : Algo (VrfBatch P)) :
    (thenEntries A).asked O = A.asked O ++
      ((List.ofFn fun i => vrfInputQuery ((A.run O).malleable i) ((A.run O).log i) ((A.run O).pk i).compressed.1) ++
      List.ofFn fun i : Fin (A.run O).n => dleqQuery wireNoExtra true
        (compress (@wireInputPoint P _ O ((A.run O).malleable i) ((A.run O).log i) ((A.run O).pk i).compressed.1 : P)).1
        ((A.run O).pk i).compressed.1 ((A.run O).b i).R.1 ((A.run O).b i).Hr.1 ((A.run O).out i).bytes.1) := by
  unfold thenEntries
  rw [Algo.asked_bind]
  congr 1
  rw [Algo.asked_bind, (askAll_run _ _).2, (askAll_run _ _).1]
  congr 1
  rw [Algo.asked_bind, (askAll_run _ _).2]
  simp only [Algo.asked, List.append_nil]
  congr 1
  funext i
  have : ((List.ofFn fun i => vrfInputQuery ((A.run O).malleable i) ((A.run O).log i) ((A.run O).pk i).compressed.1).map
      (O.merlin · 64)).getD i (zeros 64) =
      O.merlin (vrfInputQuery ((A.run O).malleable i) ((A.run O).log i) ((A.run O).pk i).compressed.1) 64 := by
    simp [List.getD]
  rw [this]
  rfl

/-- Answers that make a proof for a wrong output valid. -/
private def badAny (P : Type) [Ristretto P] (q : List MOp) : Set (Arr 64) :=
  {w | ∃ (extra : List MOp) (A I o R Hr : P) (x s : Z), q = dleqQuery extra true (compress I).1 (compress A).1
    (compress R).1 (compress Hr).1 (compress o).1 ∧ A = x • (basepoint : P) ∧ o ≠ x • I ∧
    DleqEqns A I o R Hr (residue w) s}

private theorem badAny_one (q : List MOp) : ∃ z, ∀ w ∈ badAny P q, residue w = z := by
  by_cases h : (badAny P q).Nonempty
  · obtain ⟨w, extra, A, I, o, R, Hr, x, s, hq, hx, ho, he⟩ := h
    refine ⟨residue w, ?_⟩
    rintro w' ⟨extra', A', I', o', R', Hr', x', s', hq', hx', ho', he'⟩
    obtain ⟨-, h1, h2, h3, h4, h5⟩ := (dleq_query_injective extra' extra true _ _ _ _ _ _ _ _ _ _ (hq'.symm.trans hq))
    have e1 : I' = I := compress_inj.mp (Subtype.ext h1)
    have e2 : A' = A := compress_inj.mp (Subtype.ext h2)
    have e3 : R' = R := compress_inj.mp (Subtype.ext h3)
    have e4 : Hr' = Hr := compress_inj.mp (Subtype.ext h4)
    have e5 : o' = o := compress_inj.mp (Subtype.ext h5)
    subst e1 e2 e3 e4 e5
    rw [hx] at he he'
    exact dleq_wrong_output_pins_challenge x _ _ _ _ ho ⟨s', he'⟩ ⟨s, he⟩
  · refine ⟨0, fun w hw => (h ⟨w, hw⟩).elim⟩

/-- **C65** end to end: whoever makes at most `q` hash queries and outputs at most `N` entries — also the owner of the
keys — gets `vrf_verify_batch` to return a wrong pair, one whose output is not the secret key times the hashed input,
with probability at most `2^-128 + q/2^256 + (q+2N)·guess`. -/
theorem vrf_verify_batch_unique_random_oracle (O : Oracles) (A : Algo (VrfBatch P)) (D : Finset (List MOp)) (q N : Nat)
    (hA : A.WideWithin O D q) (hN : ∀ f : D → Arr 64, (A.run (wideTable O D f)).n ≤ N)
    (hD : ∀ (f : D → Arr 64) r i, (A.run (wideTable O D f)).coefficientQuery (wideTable O D f) r i ∈ D)
    (hE : ∀ (f : D → Arr 64) i, ∀ l ∈ (A.run (wideTable O D f)).entryQueries (wideTable O D f) i, l ∈ D)
    (rng : Arr 32 → Rng) (hr : ∀ r, ((rng r).fill 32).1 = r) :
    chance (fun x : (D → Arr 64) × Arr 32 =>
      let O' := wideTable O D x.1
      let c := A.run O'
      ∃ ios, c.verify O' (rng x.2) = .ok ios ∧ ∃ (i : Fin c.n) (k : Z) (io : VRFInOut P), ios[i.1]? = some io ∧
        (c.pk i).WF ∧ (c.pk i).point = k • (basepoint : P) ∧ io.output.point ≠ k • io.input.point) ≤
      1 / 2 ^ 128 + q / 2 ^ 256 + (q + 2 * N : ℕ) * guess := by
  have hB : (thenEntries A).WideWithin O D (q + 2 * N) := by
    intro f
    rw [asked_thenEntries]
    constructor
    · simp only [List.length_append, List.length_ofFn]
      have h1 := (hA f).1
      have h2 := hN f
      omega
    · intro l hl
      simp only [List.mem_append, List.mem_ofFn] at hl
      rcases hl with h | ⟨i, rfl⟩ | ⟨i, rfl⟩
      · exact (hA f).2 l h
      · exact hE f i _ (List.mem_cons_self ..)
      · exact hE f i _ (List.mem_cons_of_mem _ (List.mem_cons_self ..))
  have h2 := chance_asked_bad O (thenEntries A) (q + 2 * N) (wideWithin_within O _ _ hB) (badAny P) badAny_one
  refine le_trans (chance_mono (p' := fun x : (D → Arr 64) × Arr 32 =>
    ((∃ ios, (A.run (wideTable O D x.1)).verify (wideTable O D x.1) (rng x.2) = .ok ios) ∧
      ∃ i, ¬ (A.run (wideTable O D x.1)).valid (wideTable O D x.1) i) ∨
    (∃ l, l ∈ (thenEntries A).asked (table O D x.1) ∧ (table O D x.1).merlin l 64 ∈ badAny P l)) ?_)
    (le_trans chance_or (add_le_add (vrf_verify_batch_sound_random_oracle O A D q hA hD rng hr) ?_))
  · rintro ⟨f, r⟩ ⟨ios, h1, i, k, io, hio, hw, hk, hne⟩
    simp only at h1 i hio hw hk ⊢
    by_cases hv : ∃ i, ¬ (A.run (wideTable O D f)).valid (wideTable O D f) i
    · exact .inl ⟨⟨ios, h1⟩, hv⟩
    · right
      push Not at hv
      obtain ⟨proof, io', hsh, hver⟩ := hv i
      rw [(run_wideTable O _ _ hB f).2]
      have hmem : ∀ l ∈ (A.run (wideTable O D f)).entryQueries (wideTable O D f) i,
          l ∈ (thenEntries A).asked (wideTable O D f) := by
        intro l hl
        rw [asked_thenEntries]
        simp only [VrfBatch.entryQueries, List.mem_cons, List.not_mem_nil, or_false] at hl
        simp only [List.mem_append, List.mem_ofFn]
        rcases hl with rfl | rfl
        · exact .inr (.inl ⟨i, rfl⟩)
        · exact .inr (.inr ⟨i, rfl⟩)
      have hQ := hmem _ (List.mem_cons_of_mem _ (List.mem_cons_self ..))
      refine ⟨_, hQ, ?_⟩
      have hQD := (hB f).2 _ hQ
      rw [table_hit O D f _ hQD, ← wideTable_hit O f _ hQD]
      clear hQ hQD hmem h2 hB hD hE hA hN
      generalize wideTable O D f = O' at *
      generalize A.run O' = c at *
      letI := O'
      obtain ⟨o, g1, g2, g3, g4, g5⟩ := (vrf_verify_wire (c.pk i) _ _ _ _ _ io' (c.b i)).mp hver
      have hio' : io = io' := by
        have hspec := vrf_verify_batch_spec (fun i => wireInput (c.malleable i) (c.log i)) [] (by simp) c.out c.b c.pk (rng r)
        rw [List.append_nil] at hspec
        simp only [vrfHash_wire_eq] at hspec
        by_cases h : ∃ q : Fin c.n → P, ∀ i, q i ≠ 0 ∧ compress (q i) = (c.out i).bytes
        · obtain ⟨q, hq⟩ := h
          have h2 := hspec.1 q hq
          unfold VrfBatch.verify at h1
          rw [h2] at h1
          split_ifs at h1
          cases h1
          simp only [List.getElem?_ofFn, Fin.is_lt, dite_true, Option.some.injEq] at hio
          rw [← hio, g4]
          have : q i = o := compress_inj.mp (by rw [(hq i).2, g1])
          rw [this]
        · unfold VrfBatch.verify at h1
          rw [hspec.2 h] at h1
          cases h1
      subst hio'
      rw [g4] at hne
      simp only at hne
      have hR := congrArg VRFProofBatchable.R g5
      have hHr := congrArg VRFProofBatchable.Hr g5
      simp only at hR hHr
      have hcw : compress (c.pk i).point = (c.pk i).compressed := hw
      have hwq : wireQuery wireNoExtra (c.pk i).point (c.pk i).compressed.1
          (wireInputPoint (c.malleable i) (c.log i) (c.pk i).compressed.1) o proof.c.toZ proof.s.toZ =
          dleqQuery wireNoExtra true (compress (wireInputPoint (c.malleable i) (c.log i) (c.pk i).compressed.1 : P)).1
            (c.pk i).compressed.1 (c.b i).R.1 (c.b i).Hr.1 (c.out i).bytes.1 := by
        rw [hR, hHr, ← g1]
        simp [wireQuery, dleqQuery]
      have hcz := congrArg Scalar.toZ g3
      rw [Scalar.toZ_ofZ] at hcz
      unfold wireChallenge at hcz
      change proof.c.toZ = hashToZ (wireQuery wireNoExtra _ _ _ _ _ _) at hcz
      rw [hwq] at hcz
      refine ⟨wireNoExtra, (c.pk i).point, wireInputPoint (c.malleable i) (c.log i) (c.pk i).compressed.1, o,
        proof.c.toZ • (c.pk i).point + proof.s.toZ • (basepoint : P),
        proof.c.toZ • o + proof.s.toZ • wireInputPoint (c.malleable i) (c.log i) (c.pk i).compressed.1, k,
        proof.s.toZ, ?_, hk, hne, ?_⟩
      · rw [hcw, g1, ← hR, ← hHr]
      · have : residue (Oracles.merlin (dleqQuery wireNoExtra true
            (compress (wireInputPoint (c.malleable i) (c.log i) (c.pk i).compressed.1 : P)).1
            (c.pk i).compressed.1 (c.b i).R.1 (c.b i).Hr.1 (c.out i).bytes.1) 64) = proof.c.toZ := hcz.symm
        rw [this]
        exact ⟨rfl, rfl⟩
  · rw [chance_prod']
    exact avg_le_const fun r => h2

/-- Non-vacuity: every attacker meets the hypotheses of the three theorems for some `D`, `q` and `N`. -/
example (O : Oracles) (A : Algo (VrfBatch P)) : ∃ (D : Finset (List MOp)) (q N : Nat), A.WideWithin O D q ∧
    (∀ f : D → Arr 64, (A.run (wideTable O D f)).n ≤ N) ∧
    (∀ (f : D → Arr 64) r i, (A.run (wideTable O D f)).coefficientQuery (wideTable O D f) r i ∈ D) ∧
    (∀ (f : D → Arr 64) i, ∀ l ∈ (A.run (wideTable O D f)).entryQueries (wideTable O D f) i, l ∈ D) := by
  classical
  obtain ⟨D₀, n, h⟩ := exists_within (thenEntries A)
  have hfin : (⋃ c ∈ Set.range fun O : Oracles => A.run O, ⋃ (r : Arr 32) (i : Fin c.n) (d : Fin c.n → Arr 64),
      {dleqBatchQuery (List.ofFn fun i => ((c.pk i).compressed.1, (compress (fromUniform (d i) : P)).1,
        (c.out i).bytes.1)) r.1 i}).Finite :=
    (finite_results A).biUnion fun c _ => Set.finite_iUnion fun r => Set.finite_iUnion fun i =>
      Set.finite_iUnion fun d => Set.finite_singleton _
  obtain ⟨N, hN⟩ := ((finite_results A).image VrfBatch.n).bddAbove
  refine ⟨D₀ ∪ hfin.toFinset, n, N, fun f => ?_, fun f => hN ⟨_, ⟨_, rfl⟩, rfl⟩, ?_, ?_⟩
  · have h1 := h (wideTable O (D₀ ∪ hfin.toFinset) f)
    rw [asked_thenEntries, List.length_append] at h1
    exact ⟨by omega, fun q hq => Finset.mem_union_left _ (h1.2 q (List.mem_append_left _ hq))⟩
  · intro f r i
    refine Finset.mem_union_right _ (hfin.mem_toFinset.mpr ?_)
    refine Set.mem_biUnion ⟨_, rfl⟩ (Set.mem_iUnion.mpr ⟨r, Set.mem_iUnion.mpr ⟨i, Set.mem_iUnion.mpr ⟨_, rfl⟩⟩⟩)
  · intro f i l hl
    refine Finset.mem_union_left _ ((h (wideTable O (D₀ ∪ hfin.toFinset) f)).2 l ?_)
    rw [asked_thenEntries]
    simp only [VrfBatch.entryQueries, List.mem_cons, List.not_mem_nil, or_false] at hl
    simp only [List.mem_append, List.mem_ofFn]
    rcases hl with rfl | rfl
    · exact .inr (.inl ⟨i, rfl⟩)
    · exact .inr (.inr ⟨i, rfl⟩)

end Schnorrkel.Props
