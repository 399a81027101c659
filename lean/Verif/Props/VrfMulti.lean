import Verif.Props.Vrf

/-! # C29–C33: conditional signing, several VRFs at once, batches, derived bytes -/

namespace Schnorrkel.Props
open SigningTranscript
variable {P : Type} [Ristretto P] {T T' E E' : Type} [SigningTranscript T] [SigningTranscript T']
  [SigningTranscript E] [SigningTranscript E']

/-! ## C29: sign after check -/

/-- **C29** `vrf_sign_extra_after_check` shows the check the output `vrf_create_hash` computes; it signs
iff the check returns an extra transcript, and then returns exactly what `vrf_sign_extra` with that
transcript returns, whose pair is the one the check saw. -/
theorem vrf_sign_extra_after_check_iff (kp : Keypair P) (t : VRFTranscript T)
    (check : VRFInOut P → Option E) (sys : Rng) :
    (∀ e, check (kp.vrfCreateHash t) = some e →
      kp.vrfSignExtraAfterCheck t check sys = some (kp.vrfSignExtra t e sys) ∧
      (kp.vrfSignExtra t e sys).1 = kp.vrfCreateHash t) ∧
    (check (kp.vrfCreateHash t) = none ↔ kp.vrfSignExtraAfterCheck t check sys = none) := by
  unfold Keypair.vrfSignExtraAfterCheck
  constructor
  · intro e h
    simp only [h]
    exact ⟨rfl, rfl⟩
  · cases h : check (kp.vrfCreateHash t) <;> simp [h]

/-- **C29** `vrf_sign_after_check` signs iff the check accepts the output, and what it returns verifies
(for outputs other than the identity). -/
theorem vrf_sign_after_check_verifies [Oracles] (sk : SecretKey)
    (t : VRFTranscript Transcript) (check : VRFInOut P → Bool) (sys : Rng) :
    let kp : Keypair P := sk.toKeypair
    (kp.vrfSignAfterCheck t check sys = none ↔ check (kp.vrfCreateHash t) = false) ∧
    ∀ out, kp.vrfSignAfterCheck t check sys = some out →
      check out.1 = true ∧ out = kp.vrfSign t sys ∧
      (out.1.output.point ≠ 0 →
        PublicKey.vrfVerify kp.pub t out.1.toPreout out.2.1 = .ok (out.1, out.2.2)) := by
  intro kp
  unfold Keypair.vrfSignAfterCheck Keypair.vrfSignExtraAfterCheck
  cases h : check (kp.vrfCreateHash t) with
  | false => simp [h]
  | true =>
    simp only [h, if_true]
    refine ⟨by simp, ?_⟩
    intro out ho
    injection ho with ho
    have e : out = kp.vrfSign t sys := ho.symm
    refine ⟨by rw [e]; exact h, e, fun hne => ?_⟩
    have := vrf_sign_then_verify_merlin (P := P) sk t sys
    simp only at this
    rw [← e, if_neg hne] at this
    exact this

/-! ## C30: several outputs, one proof -/

/-- encoding of a pair -/
def encPair (p : VRFInOut P) : Bytes × Bytes := (p.input.compressed.1, p.output.compressed.1)

private theorem commit_log [Oracles] (p : VRFInOut P) (t : Transcript) :
    (p.commit t).log = t.log ++ Spec.pairFrames (encPair p) := by
  simp [VRFInOut.commit, commitPoint, commitBytes, Transcript.appendMessage, Spec.pairFrames, encPair]

private theorem foldl_commit_log [Oracles] (ps : List (VRFInOut P)) : ∀ t : Transcript,
    (ps.foldl (fun t p => p.commit t) t).log =
      t.log ++ ((ps.map encPair).map Spec.pairFrames).flatten := by
  induction ps with
  | nil => intro t; simp
  | cons p ps ih => intro t; rw [List.foldl_cons, ih, commit_log]; simp

private theorem mergeCoefficients_eq [Oracles] (pk : PublicKey P) (ps : List (VRFInOut P)) :
    mergeCoefficients pk ps = ps.map fun p =>
      Scalar.ofNat (Spec.mergeCoeff pk.compressed.1 (ps.map encPair) (encPair p)) := by
  unfold mergeCoefficients
  apply List.map_congr_left
  intro p _
  simp only [challengeScalar128, Scalar.fromU128, challengeBytes, Transcript.challengeBytes,
    Spec.mergeCoeff, Spec.mergeQuery]
  rw [commit_log, foldl_commit_log]
  rfl

/-- The merging coefficient as a residue. -/
private theorem mergeCoeff_toZ [Oracles] (pk : Bytes) (ps : List (Bytes × Bytes)) (p : Bytes × Bytes) :
    (Scalar.ofNat (Spec.mergeCoeff pk ps p)).toZ = ((Spec.mergeCoeff pk ps p : Nat) : Z) :=
  Scalar.toZ_ofNat (Scalar.u128_lt _)

private theorem merge_sum (zs : List Scalar) (pts : List P) :
    multiscalar (zs.zip pts) = (List.zipWith (fun z p => z.toZ • p) zs pts).sum := by
  rw [multiscalar_zip]; unfold zsum; rw [List.zipWith_map_left]

/-- **C30** `vrfs_merge`: panics exactly on the empty list; otherwise both merged points are the sums of
the individual points weighted by one 128-bit coefficient per pair, hashed from the key, all pairs, and
the pair itself. -/
theorem vrfs_merge_spec [Oracles] (pk : PublicKey P) (ps : List (VRFInOut P)) :
    ((PublicKey.vrfsMerge pk ps).isPanic = true ↔ ps = []) ∧
    (ps ≠ [] → ∃ m, PublicKey.vrfsMerge pk ps = .ok m ∧ m.input.WF ∧ m.output.WF ∧
      m.input.point = (ps.map fun p =>
        Spec.mergeCoeff pk.compressed.1 (ps.map encPair) (encPair p) • p.input.point).sum ∧
      m.output.point = (ps.map fun p =>
        Spec.mergeCoeff pk.compressed.1 (ps.map encPair) (encPair p) • p.output.point).sum) := by
  unfold PublicKey.vrfsMerge
  by_cases h : ps = []
  · rw [if_pos h]; exact ⟨by simp [Outcome.isPanic, h], fun h2 => absurd h h2⟩
  · rw [if_neg h]
    refine ⟨by simp [Outcome.isPanic, h], fun _ => ⟨_, rfl, rfl, rfl, ?_, ?_⟩⟩ <;>
    · simp only [RistrettoBoth.fromPoint]
      rw [mergeCoefficients_eq, merge_sum]
      congr 1
      apply List.ext_getElem (by simp)
      intro i h1 h2
      simp only [List.getElem_zipWith, List.getElem_map, mergeCoeff_toZ, natCast_smul]

private theorem pairFrames_flatten_inj {l₁ l₂ : List (Bytes × Bytes)}
    (h2 : (l₁.map Spec.pairFrames).flatten = (l₂.map Spec.pairFrames).flatten) : l₁ = l₂ := by
  induction l₁ generalizing l₂ with
  | nil => cases l₂ with
    | nil => rfl
    | cons a l => simp [Spec.pairFrames] at h2
  | cons a l₁ ih => cases l₂ with
    | nil => simp [Spec.pairFrames] at h2
    | cons b l₂ =>
      simp only [List.map_cons, List.flatten_cons, Spec.pairFrames, List.cons_append,
        List.nil_append, List.cons.injEq, MOp.append.injEq, true_and] at h2
      obtain ⟨a1, a2, a3⟩ := h2
      rw [ih a3, Prod.ext a1 a2]

/-- **C30** coefficient queries coincide only for the same key, list of pairs and pair, so distinct
pairs get independent hash outputs, and repeated pairs share one. -/
theorem merge_query_injective {k₁ k₂ : Bytes} {l₁ l₂ : List (Bytes × Bytes)} {p₁ p₂ : Bytes × Bytes}
    (h : Spec.mergeQuery k₁ l₁ p₁ = Spec.mergeQuery k₂ l₂ p₂) : k₁ = k₂ ∧ l₁ = l₂ ∧ p₁ = p₂ := by
  unfold Spec.mergeQuery at h
  have h := List.append_cancel_right h
  obtain ⟨h, h3⟩ := List.append_inj' h (by simp [Spec.pairFrames])
  obtain ⟨h1, h2⟩ := List.append_inj h (by simp)
  have e1 : k₁ = k₂ := by simpa using h1
  have e3 : p₁ = p₂ := by
    simp [Spec.pairFrames] at h3; exact Prod.ext h3.1 h3.2
  refine ⟨e1, ?_, e3⟩
  exact pairFrames_flatten_inj h2

private theorem sum_smul_list (x : Z) (ps : List (VRFInOut P)) (f : VRFInOut P → Nat)
    (h : ∀ p ∈ ps, p.output.point = x • p.input.point) :
    (ps.map fun p => f p • p.output.point).sum = x • (ps.map fun p => f p • p.input.point).sum := by
  induction ps with
  | nil => simp
  | cons p ps ih =>
    simp only [List.map_cons, List.sum_cons, smul_add]
    rw [ih fun q hq => h q (by simp [hq]), h p (by simp), ← natCast_smul, ← natCast_smul,
      smul_comm]

private theorem mapM_attach_own {Rel : T → T' → Prop} (hR : TSim Rel) (kp : Keypair P)
    {ts : List (VRFTranscript T)} {ts' : List (VRFTranscript T')} (ht : List.Forall₂ (VRel Rel) ts ts') :
    ((ts'.zip ((ts.map fun t => kp.vrfCreateHash t).map (·.toPreout))).mapM
      fun x => x.2.attachInputHash kp.pub x.1) =
      if (ts.map fun t => kp.vrfCreateHash t).all fun p => decide (p.output.point ≠ 0) then
        (Except.ok (ts.map fun t => kp.vrfCreateHash t) : SignatureResult (List (VRFInOut P)))
      else .error .pointDecompressionError := by
  induction ht with
  | nil => rfl
  | cons h _ ih =>
    rename_i t t' ts ts' _
    simp only [List.map_cons, List.zip_cons_cons, List.mapM_cons, List.all_cons]
    rw [attach_own hR kp h, ih]
    by_cases h0 : (kp.vrfCreateHash t).output.point = 0
    · rw [if_pos h0]; simp only [h0, ne_eq, not_true, decide_false, Bool.false_and]; rfl
    · rw [if_neg h0]
      simp only [ne_eq, h0, not_false_iff, decide_true, Bool.true_and]
      split <;> rfl

/-- **C30** completeness: for any non-empty list of transcripts (any malleability, any number, repeated
or not), `vrfs_sign_extra` succeeds, and `vrfs_verify_extra` on the outputs, in order, with related
transcripts returns the same pairs and the same batchable proof; if some output is the identity it
returns `PointDecompressionError` instead. -/
theorem vrfs_sign_then_verify [Oracles] {Rel : T → T' → Prop} (hR : TSim Rel) {RelE : E → E' → Prop}
    (hE : TSim RelE) (sk : SecretKey) {ts : List (VRFTranscript T)}
    {ts' : List (VRFTranscript T')} (hts : ts ≠ []) (ht : List.Forall₂ (VRel Rel) ts ts') {e : E}
    {e' : E'} (he : RelE e e') (sys : Rng) :
    let kp : Keypair P := sk.toKeypair
    ∃ ps proof batchable, kp.vrfsSignExtra ts e sys = .ok (ps, proof, batchable) ∧
      ps = ts.map (fun t => kp.vrfCreateHash t) ∧
      PublicKey.vrfsVerifyExtra kp.pub ts' (ps.map (·.toPreout)) proof e' =
        if ps.all fun p => decide (p.output.point ≠ 0) then .ok (ps, batchable)
        else .err .pointDecompressionError := by
  intro kp
  have hps : (ts.map fun t => kp.vrfCreateHash t) ≠ [] := by simpa using hts
  obtain ⟨m, hm, _, _, hi, ho⟩ := (vrfs_merge_spec kp.pub (ts.map fun t => kp.vrfCreateHash t)).2 hps
  have hmo : m.output.point = kp.secret.key.toZ • m.input.point := by
    rw [hi, ho]
    apply sum_smul_list
    intro p hp
    obtain ⟨t, _, rfl⟩ := List.mem_map.mp hp
    exact create_output kp t
  have hk : kp.pub.point = kp.secret.key.toZ • (basepoint : P) := mulPoint_eq _ _
  obtain ⟨h1, _⟩ := dleq_complete_sim hE kp hk e e' he m hmo KUSAMA_VRF sys
  refine ⟨_, (kp.dleqProove e m KUSAMA_VRF sys).1.1, (kp.dleqProove e m KUSAMA_VRF sys).1.2, ?_, rfl, ?_⟩
  · unfold Keypair.vrfsSignExtra
    simp only [hm, Outcome.bind_ok]
  · have hl : ts.length = ts'.length := ht.length_eq
    unfold PublicKey.vrfsVerifyExtra
    rw [mapM_attach_own hR kp ht]
    split
    · simp only [Outcome.ofExcept, Outcome.bind_ok]
      rw [if_neg (by simp; omega), if_neg (by simp)]
      simp only [hm, Outcome.bind_ok, h1, Outcome.ofExcept]
    · rfl

/-- **C30** soundness by counting.  `p` are the `d` distinct pairs, pair `idx i` is presented at
position `i` (so coefficients are shared exactly between equal pairs).  If some presented pair is not
`(I, x·I)`, then of the `2^(128 d)` coefficient vectors at most `2^(128 (d-1))` make the merged pair a
true pair. -/
theorem vrfs_merge_sound_count {n d : Nat} (hn : n < ell) (I O : Fin d → P) (idx : Fin n → Fin d)
    (x : Z) (i₀ : Fin n) (hbad : O (idx i₀) ≠ x • I (idx i₀)) :
    (Finset.univ.filter fun z : Fin d → Fin (2 ^ 128) =>
      ∑ i, ((z (idx i) : Nat) : Z) • O (idx i) = x • ∑ i, ((z (idx i) : Nat) : Z) • I (idx i)).card ≤
      (2 ^ 128) ^ (d - 1) := by
  let m : Fin d → Nat := fun j => (Finset.univ.filter fun i => idx i = j).card
  have hm : ((m (idx i₀) : Nat) : Z) ≠ 0 := by
    rw [Ne, ZMod.natCast_eq_zero_iff]
    intro h
    have hpos : 0 < m (idx i₀) := Finset.card_pos.mpr ⟨i₀, by simp⟩
    have hle : m (idx i₀) ≤ n := (Finset.card_le_univ _).trans (by simp)
    have := Nat.le_of_dvd hpos h
    omega
  refine le_trans (Finset.card_le_card ?_) (vanishing_count
    (fun j => ((m j : Nat) : Z) • (O j - x • I j)) (idx i₀)
    (by rw [Ne, smul_eq_zero, not_or]; exact ⟨hm, sub_ne_zero.mpr hbad⟩))
  intro z hz
  simp only [Finset.mem_filter, Finset.mem_univ, true_and] at hz ⊢
  have h1 : ∑ i, ((z (idx i) : Nat) : Z) • (O (idx i) - x • I (idx i)) = 0 := by
    rw [← sub_eq_zero, Finset.smul_sum, ← Finset.sum_sub_distrib] at hz
    rw [← hz]
    exact Finset.sum_congr rfl fun i _ => by module
  rw [← h1, ← Finset.sum_fiberwise Finset.univ idx]
  refine Finset.sum_congr rfl fun j _ => ?_
  rw [Finset.sum_congr rfl (g := fun _ => ((z j : Nat) : Z) • (O j - x • I j))
    (by intro i hi; rw [(Finset.mem_filter.mp hi).2]), Finset.sum_const, ← natCast_smul, smul_comm]

/-! ## C31: lengths -/

theorem mapM_except_length {α β ε : Type} (f : α → Except ε β) : ∀ {l : List α} {r : List β},
    l.mapM f = .ok r → r.length = l.length
  | [], r, h => by cases h; rfl
  | a :: l, r, h => by
    rw [List.mapM_cons] at h
    cases ha : f a with
    | error e => rw [ha] at h; cases h
    | ok b =>
      rw [ha] at h
      cases hl : l.mapM f with
      | error e => rw [hl] at h; cases h
      | ok r' =>
        rw [hl] at h
        cases h
        simp [mapM_except_length f hl]

theorem mapM_except_forall₂ {α β ε : Type} (f : α → Except ε β) : ∀ {l : List α} {r : List β},
    l.mapM f = .ok r ↔ List.Forall₂ (fun a b => f a = .ok b) l r
  | [], r => by
    rw [List.mapM_nil]
    constructor
    · intro h; cases h; exact .nil
    · intro h; cases h; rfl
  | a :: l, r => by
    rw [List.mapM_cons]
    constructor
    · intro h
      cases ha : f a with
      | error e => rw [ha] at h; cases h
      | ok b =>
        rw [ha] at h
        cases hl : l.mapM f with
        | error e => rw [hl] at h; cases h
        | ok r' =>
          rw [hl] at h
          cases h
          exact .cons ha ((mapM_except_forall₂ f).mp hl)
    · intro h
      cases h with
      | cons h1 h2 => rw [h1, (mapM_except_forall₂ f).mpr h2]; rfl

/-- **C31** exactly when multi-VRF verification panics: every output it gets to look at decodes to a
non-identity point, and there are fewer transcripts than outputs, or at least two more, or no output at
all.  (An empty list panics inside a *verification* function.) -/
theorem vrfs_verify_panics_iff [Oracles] (pk : PublicKey P) (ts : List (VRFTranscript T))
    (outs : List VRFPreOut) (proof : VRFProof) (e : E) :
    (PublicKey.vrfsVerifyExtra pk ts outs proof e).isPanic = true ↔
      (∀ o ∈ outs.take ts.length, ∃ q : P, q ≠ 0 ∧ compress q = o.bytes) ∧
      (ts.length < outs.length ∨ outs.length + 1 < ts.length ∨ outs = []) := by
  have hmap : (∃ ps, ((ts.zip outs).mapM fun x => x.2.attachInputHash pk x.1) = Except.ok ps) ↔
      ∀ o ∈ outs.take ts.length, ∃ q : P, q ≠ 0 ∧ compress q = o.bytes := by
    clear proof e
    induction ts generalizing outs with
    | nil => simp; exact ⟨[], rfl⟩
    | cons t ts ih =>
      cases outs with
      | nil => simp; exact ⟨[], rfl⟩
      | cons o outs =>
        have ih := ih outs
        simp only [List.zip_cons_cons, List.length_cons, List.take_succ_cons, List.mem_cons,
          forall_eq_or_imp]
        rw [← ih]
        constructor
        · rintro ⟨ps, h⟩
          obtain _ | ⟨h1, h2⟩ := (mapM_except_forall₂ _).mp h
          obtain ⟨_, _, a, b⟩ := (attach_input_hash_table o pk t).1 _ |>.mp h1
          exact ⟨⟨_, b, a⟩, _, (mapM_except_forall₂ _).mpr h2⟩
        · rintro ⟨⟨q, h1, h2⟩, ps, h3⟩
          refine ⟨⟨PublicKey.vrfHash pk t, ⟨o.bytes, q⟩⟩ :: ps, (mapM_except_forall₂ _).mpr (.cons ?_
            ((mapM_except_forall₂ _).mp h3))⟩
          exact (attach_input_hash_table o pk t).1 _ |>.mpr ⟨rfl, rfl, h2, h1⟩
  rw [← hmap]
  unfold PublicKey.vrfsVerifyExtra
  cases hm : ((ts.zip outs).mapM fun x => x.2.attachInputHash pk x.1) with
  | error er =>
    simp [Outcome.ofExcept, Outcome.isPanic]
  | ok ps =>
    have hl := mapM_except_length _ hm
    rw [List.length_zip] at hl
    simp only [Outcome.ofExcept, Outcome.bind_ok]
    have hex : ∃ a, (Except.ok ps : SignatureResult (List (VRFInOut P))) = Except.ok a := ⟨ps, rfl⟩
    simp only [hex, true_and]
    by_cases h1 : ts.drop (outs.length + 1) ≠ []
    · rw [if_pos h1]
      have : outs.length + 1 < ts.length := by simpa using h1
      simp [Outcome.isPanic, this]
    · rw [if_neg h1]
      have h1' : ts.length ≤ outs.length + 1 := by simpa using h1
      by_cases h2 : ps.length ≠ outs.length
      · rw [if_pos h2]
        have : ts.length < outs.length := by omega
        simp [Outcome.isPanic, this]
      · rw [if_neg h2]
        push Not at h2
        have e1 : ¬ ts.length < outs.length := by omega
        have e2 : ¬ outs.length + 1 < ts.length := by omega
        simp only [e1, e2, false_or]
        by_cases h3 : ps = []
        · have : outs = [] := by rw [h3] at h2; simpa using h2.symm
          obtain ⟨hp, _⟩ := vrfs_merge_spec pk ps
          have hp := hp.mpr h3
          cases hq : PublicKey.vrfsMerge pk ps with
          | panic m => simp [Outcome.isPanic, this]
          | ok v => rw [hq] at hp; cases hp
          | err v => rw [hq] at hp; cases hp
        · have : outs ≠ [] := by
            intro h; rw [h] at h2; exact h3 (List.length_eq_zero_iff.mp (by simpa using h2))
          obtain ⟨m, hq, _⟩ := (vrfs_merge_spec pk ps).2 h3
          simp only [hq, Outcome.bind_ok, this, iff_false]
          cases (PublicKey.dleqVerify pk e m proof KUSAMA_VRF).1 <;> simp [Outcome.isPanic]

/-- **C31 (defect)** one surplus transcript is silently ignored by `vrfs_verify_extra`, always. -/
theorem vrfs_verify_ignores_one_surplus [Oracles] (pk : PublicKey P) (ts : List (VRFTranscript T))
    (extra : VRFTranscript T) (outs : List VRFPreOut) (hl : ts.length = outs.length)
    (proof : VRFProof) (e : E) :
    PublicKey.vrfsVerifyExtra pk (ts ++ [extra]) outs proof e =
      PublicKey.vrfsVerifyExtra pk ts outs proof e := by
  have hz : (ts ++ [extra]).zip outs = ts.zip outs := by
    rw [← List.append_nil outs, List.zip_append hl]; simp
  unfold PublicKey.vrfsVerifyExtra
  rw [hz]
  have h1 : (ts ++ [extra]).drop (outs.length + 1) = [] := by simp [hl]
  have h2 : ts.drop (outs.length + 1) = [] := by simp; omega
  rw [h1, h2]

/-- **C27/C30** what `vrfs_verify_extra` accepts: right number of outputs, each the non-identity decoding
of the claimed bytes with the hash of the transcript at the same position as input, and a valid DLEQ
proof for the merged pair. -/
theorem vrfs_verify_accepts [Oracles] (pk : PublicKey P) (ts : List (VRFTranscript T))
    (outs : List VRFPreOut) (proof : VRFProof) (e : E) (ps : List (VRFInOut P)) (b : VRFProofBatchable) :
    PublicKey.vrfsVerifyExtra pk ts outs proof e = .ok (ps, b) ↔
      (ts.length = outs.length ∨ ts.length = outs.length + 1) ∧ outs ≠ [] ∧
      List.Forall₂ (fun x (io : VRFInOut P) => io.input = PublicKey.vrfHash pk x.1 ∧
        io.output.compressed = x.2.bytes ∧ compress io.output.point = x.2.bytes ∧
        io.output.point ≠ 0) (ts.zip outs) ps ∧
      ∃ m, PublicKey.vrfsMerge pk ps = .ok m ∧
        (PublicKey.dleqVerify pk e m proof KUSAMA_VRF).1 = .ok b := by
  have hiff : ∀ ps', List.Forall₂ (fun x (io : VRFInOut P) => io.input = PublicKey.vrfHash pk x.1 ∧
        io.output.compressed = x.2.bytes ∧ compress io.output.point = x.2.bytes ∧
        io.output.point ≠ 0) (ts.zip outs) ps' ↔
        ((ts.zip outs).mapM fun x => x.2.attachInputHash pk x.1) = .ok ps' := by
    intro ps'
    rw [mapM_except_forall₂]
    constructor
    · intro h; exact h.imp fun x io hx => (attach_input_hash_table x.2 pk x.1).1 io |>.mpr hx
    · intro h; exact h.imp fun x io hx => (attach_input_hash_table x.2 pk x.1).1 io |>.mp hx
  rw [hiff]
  unfold PublicKey.vrfsVerifyExtra
  cases hm : ((ts.zip outs).mapM fun x => x.2.attachInputHash pk x.1) with
  | error er => simp [Outcome.ofExcept]
  | ok ps' =>
    have hl := mapM_except_length _ hm
    rw [List.length_zip] at hl
    simp only [Outcome.ofExcept, Outcome.bind_ok, Except.ok.injEq]
    by_cases h1 : ts.drop (outs.length + 1) ≠ []
    · rw [if_pos h1]
      have : outs.length + 1 < ts.length := by simpa using h1
      simp; omega
    · rw [if_neg h1]
      have h1' : ts.length ≤ outs.length + 1 := by simpa using h1
      by_cases h2 : ps'.length ≠ outs.length
      · rw [if_pos h2]; simp; omega
      · rw [if_neg h2]
        push Not at h2
        have hlen : ts.length = outs.length ∨ ts.length = outs.length + 1 := by omega
        simp only [hlen, true_and]
        by_cases h3 : ps' = []
        · have : outs = [] := by rw [h3] at h2; simpa using h2.symm
          have hp := (vrfs_merge_spec pk ps').1.mpr h3
          cases hq : PublicKey.vrfsMerge pk ps' with
          | panic m => simp [this]
          | ok v => rw [hq] at hp; cases hp
          | err v => rw [hq] at hp; cases hp
        · have : outs ≠ [] := by
            intro h; rw [h] at h2; exact h3 (List.length_eq_zero_iff.mp (by simpa using h2))
          obtain ⟨m, hq, _⟩ := (vrfs_merge_spec pk ps').2 h3
          simp only [hq, Outcome.bind_ok, this, ne_eq, not_false_iff, true_and]
          cases hd : (PublicKey.dleqVerify pk e m proof KUSAMA_VRF).1 with
          | error er =>
            simp only [Outcome.bind_err, reduceCtorEq, false_iff, not_and]
            rintro rfl ⟨m', hm', hd'⟩
            rw [hq] at hm'; cases hm'; rw [hd] at hd'; cases hd'
          | ok b' =>
            simp only [Outcome.bind_ok, Outcome.ok.injEq, Prod.mk.injEq]
            constructor
            · rintro ⟨rfl, rfl⟩; exact ⟨rfl, m, hq, hd⟩
            · rintro ⟨rfl, m', hm', hd'⟩
              rw [hq] at hm'; cases hm'; rw [hd] at hd'; cases hd'; exact ⟨rfl, rfl⟩

/-! ## Concrete case for C28 -/

/-- Non-vacuity of `dleq_fork_extracts`: whoever knows `x` completes the same two commitments on any two transcripts;
both proofs are accepted, and the extracted number is `x` whenever the two challenges differ. -/
example (x r : Z) (I : P) (t : T) (t' : T') (k k' : Bool) :
    let pk : PublicKey P := PublicKey.fromPoint (x • (basepoint : P))
    let p : VRFInOut P := ⟨RistrettoBoth.fromPoint I, RistrettoBoth.fromPoint (x • I)⟩
    let R := compress (r • (basepoint : P))
    let Hr := compress (r • I)
    let c := dleqChallenge t k p.input.compressed pk.compressed R Hr p.output.compressed
    let c' := dleqChallenge t' k' p.input.compressed pk.compressed R Hr p.output.compressed
    let s := Scalar.ofZ (r - c.toZ * x)
    let s' := Scalar.ofZ (r - c'.toZ * x)
    (PublicKey.dleqVerify pk t p ⟨c, s⟩ k).1 = .ok ⟨R, Hr, s⟩ ∧
    (PublicKey.dleqVerify pk t' p ⟨c', s'⟩ k').1 = .ok ⟨R, Hr, s'⟩ ∧
    (c.toZ ≠ c'.toZ → (s'.toZ - s.toZ) / (c.toZ - c'.toZ) = x) := by
  intro pk p R Hr c c' s s'
  have hv : ∀ d : Z, Spec.DleqValid pk.point p.input.point p.output.point R Hr d (Scalar.ofZ (r - d * x)).toZ := by
    intro d
    refine ⟨_, _, rfl, rfl, ?_, ?_⟩
    · rw [Scalar.toZ_ofZ]
      show r • (basepoint : P) = d • x • (basepoint : P) + (r - d * x) • (basepoint : P)
      rw [smul_smul, ← add_smul]; congr 1; ring
    · rw [Scalar.toZ_ofZ]
      show r • I = d • x • I + (r - d * x) • I
      rw [smul_smul, ← add_smul]; congr 1; ring
  refine ⟨((dleq_verify_iff pk t p ⟨c, s⟩ k).1 _).mpr ⟨rfl, hv _, rfl⟩,
    ((dleq_verify_iff pk t' p ⟨c', s'⟩ k').1 _).mpr ⟨rfl, hv _, rfl⟩, fun hne => ?_⟩
  simp only [s, s', Scalar.toZ_ofZ]
  have hd := sub_ne_zero.mpr hne
  rw [div_eq_iff hd]
  ring

/-- **C30** completeness without extra transcripts: `vrfs_sign` then `vrfs_verify`, transcripts of any one kind (or of
two kinds with related behaviour). -/
theorem vrfs_sign_then_verify_no_extra [Oracles] {Rel : T → T' → Prop} (hR : TSim Rel) (sk : SecretKey)
    {ts : List (VRFTranscript T)} {ts' : List (VRFTranscript T')} (hts : ts ≠ [])
    (ht : List.Forall₂ (VRel Rel) ts ts') (sys : Rng) :
    let kp : Keypair P := sk.toKeypair
    ∃ ps proof batchable, kp.vrfsSign ts sys = .ok (ps, proof, batchable) ∧
      ps = ts.map (fun t => kp.vrfCreateHash t) ∧
      PublicKey.vrfsVerify kp.pub ts' (ps.map (·.toPreout)) proof =
        if ps.all fun p => decide (p.output.point ≠ 0) then .ok (ps, batchable)
        else .err .pointDecompressionError :=
  vrfs_sign_then_verify hR merlin_sim sk hts ht (e := Transcript.new (b! "VRF")) rfl sys


end Schnorrkel.Props
