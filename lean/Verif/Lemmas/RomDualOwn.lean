import Verif.Lemmas.RomDualGame

/-! # No group key equals the key of a member -/

namespace Schnorrkel
open Spec Schnorrkel.Props Classical
variable {P : Type} [Ristretto P] {D : Finset (List MOp)} {m : Nat} {α : Type} [Goal P α] {fin : α → Prop}

/-- A group of well-formed keys with `me` among them. -/
structure GoodKeys (me : PublicKey P) (ks : List (PublicKey P)) : Prop where
  wf : ∀ k ∈ ks, k.WF
  mem : me ∈ ks
  nodup : (ks.map (·.compressed)).Nodup

theorem groupKeys_good {me : PublicKey P} (hme : me.WF) {b : Nat} {coms : BMap P Commitment} (h : ComsOk me b coms) :
    GoodKeys me (groupKeys me coms) ∧ (groupKeys me coms).length ≤ b + 1 := by
  have hs : BMap.Sorted (BMap.set (coms.map fun e => (e.1, ())) me ()) := BMap.sorted_set (BMap.sorted_map h.sorted) _ _
  have hw : BMap.KeysWF (BMap.set (coms.map fun e => (e.1, ())) me ()) := by
    refine BMap.keysWF_set ?_ hme _
    intro e he
    obtain ⟨e', he', rfl⟩ := List.mem_map.mp he
    exact h.wf e' he'
  have hw' : ∀ k ∈ groupKeys me coms, k.WF := by
    intro k hk
    obtain ⟨e, he, rfl⟩ := List.mem_map.mp hk
    exact hw e he
  refine ⟨⟨hw', ?_, ?_⟩, ?_⟩
  · obtain ⟨k, hk, hc⟩ := mem_set_key me () (coms.map fun e => (e.1, ()))
    have : k = me := BMap.key_ext (hw' k hk) hme hc
    have hk' : k ∈ groupKeys me coms := hk
    rwa [this] at hk'
  · unfold groupKeys BMap.keys
    rw [List.map_map]
    unfold List.Nodup
    rw [List.pairwise_map]
    refine List.Pairwise.imp ?_ hs
    intro a b hab hcon
    have := (cmp_eq_iff a.1 b.1).mpr hcon
    rw [this] at hab
    cases hab
  · have : ∀ (m : BMap P Unit) (x : PublicKey P), (m.set x ()).length ≤ m.length + 1 := by
      intro m x
      induction m with
      | nil => simp [BMap.set]
      | cons a m ih =>
        obtain ⟨k, w⟩ := a
        simp only [BMap.set]
        split
        · simp
        · simp
        · simpa using ih
    unfold groupKeys BMap.keys
    rw [List.length_map]
    refine (this _ _).trans ?_
    rw [List.length_map]
    have := h.len
    omega

theorem cosigners_good {me : PublicKey P} {l : List (PublicKey P)} (h : ∀ k ∈ l, k.WF) (hm : me ∈ l) : GoodKeys me (cosigners l) :=
  ⟨fun k hk => h k (((cosigners_spec l h).2 k).mp hk), ((cosigners_spec l h).2 me).mpr hm, cosigners_nodup h⟩

/-- The query for the weight of `me`. -/
def ownQuery (me : PublicKey P) (ks : List (PublicKey P)) : List MOp := weightQuery (ks.map (·.compressed.1)) me.compressed.1

/-- The answers to the weight query `l` of `me` for which the key of the group is the key of `me`. -/
def ownBad (O : Oracles) (me : PublicKey P) (l : List MOp) : Set (Arr 64) :=
  {w | ∃ ks, GoodKeys me ks ∧ l = ownQuery me ks ∧ aggO (program O l w) ks = me.point}

theorem map_key_ext : ∀ {ks ks' : List (PublicKey P)}, (∀ k ∈ ks, k.WF) → (∀ k ∈ ks', k.WF) →
    ks.map (·.compressed.1) = ks'.map (·.compressed.1) → ks = ks' := by
  intro ks
  induction ks with
  | nil =>
    intro ks' _ _ h
    cases ks' with
    | nil => rfl
    | cons a l => cases h
  | cons k ks ih =>
    intro ks' h1 h2 h
    cases ks' with
    | nil => cases h
    | cons a l =>
      simp only [List.map_cons, List.cons.injEq] at h
      rw [BMap.key_ext (h1 k (by simp)) (h2 a (by simp)) (Subtype.ext h.1), ih (fun k hk => h1 k (by simp [hk])) (fun k hk => h2 k (by simp [hk])) h.2]

theorem ownBad_unique (O : Oracles) (me : PublicKey P) (h0 : me.point ≠ 0) (l : List MOp) : ∃ z, ∀ w ∈ ownBad O me l, residue w = z := by
  by_cases hex : ∃ w, w ∈ ownBad O me l
  · obtain ⟨w₀, ks, hk, hl, h⟩ := hex
    refine ⟨residue w₀, ?_⟩
    rintro w ⟨ks', hk', hl', h'⟩
    have he : ks' = ks := map_key_ext hk'.wf hk.wf ((weightQuery_injective (hl'.symm.trans hl)).1)
    subst he
    have hq : ∀ k ∈ ks', k ≠ me → weightQuery (ks'.map (·.compressed.1)) k.compressed.1 ≠ l := by
      intro k hkm hne e
      rw [hl] at e
      have := (weightQuery_injective e).2
      exact hne (BMap.key_ext (hk.wf k hkm) (hk.wf me hk.mem) (Subtype.ext this))
    have key := sum_map_sub_single
      (fun k : PublicKey P => hashWith (program O l w) (weightQuery (ks'.map (·.compressed.1)) k.compressed.1) • k.point)
      (fun k : PublicKey P => hashWith (program O l w₀) (weightQuery (ks'.map (·.compressed.1)) k.compressed.1) • k.point) me ks'
      (List.Nodup.of_map _ hk.nodup) hk.mem (by
        intro k hkm hne
        show hashWith _ _ • _ = hashWith _ _ • _
        rw [hashWith_eq_residue, hashWith_eq_residue, program_miss _ _ _ _ _ (fun h => hq k hkm hne h), program_miss _ _ _ _ _ (fun h => hq k hkm hne h)])
    have e1 : ∀ O' : Oracles, (ks'.map fun k : PublicKey P => hashWith O' (weightQuery (ks'.map (·.compressed.1)) k.compressed.1) • k.point).sum = aggO O' ks' :=
      fun O' => rfl
    rw [e1, e1, h, h', sub_self] at key
    have e2 : ∀ w : Arr 64, hashWith (program O l w) (weightQuery (ks'.map (·.compressed.1)) me.compressed.1) = residue w := by
      intro w
      rw [hashWith_eq_residue]
      have := program_hit O l w
      rw [show weightQuery (ks'.map (·.compressed.1)) me.compressed.1 = l from hl.symm, this]
    simp only [e2] at key
    rw [← sub_smul] at key
    obtain ⟨x, hx⟩ := exists_smul_basepoint me.point
    by_contra hne
    haveI : Fact ell.Prime := ⟨ell_prime⟩
    have hz : residue w - residue w₀ ≠ 0 := sub_ne_zero.mpr hne
    apply h0
    have := congrArg (fun p : P => (residue w - residue w₀)⁻¹ • p) key.symm
    simp only [smul_smul, inv_mul_cancel₀ hz, one_smul, smul_zero] at this
    exact this
  · exact ⟨0, fun w hw => absurd ⟨w, hw⟩ hex⟩

/-! ## The weights of `me` that matter -/

/-- The weight of `me` that is settled, or used, by a request. -/
noncomputable def stepQuery (me : PublicKey P) (ss : List (IndexPhase P m)) : CosignRequest P → Option (List MOp)
  | .start _ => none
  | .reveal i cs => match ss[i]? with
    | some (.committing _ _) => some (ownQuery me (groupKeys me (registered me cs)))
    | _ => none
  | .cosign i _ => match ss[i]? with
    | some (.revealing _ _ coms) => some (ownQuery me (groupKeys me coms))
    | _ => none

/-- The attack, as an algorithm that asks for weights of `me` only. -/
noncomputable def ownAlgo (O : Oracles) (Dw : Finset (List MOp)) (N : Fin m → Fin 3 → Arr 64) (me : PublicKey P) (x : Z) :
    List (IndexPhase P m) → Client (CosignRequest P) CosignAnswer α → Algo Unit
  | _, .ret c => if weightOf (Goal.keys c) me ∈ Dw then .ask (weightOf (Goal.keys c) me) fun _ => .ret () else .ret ()
  | ss, .ask q k => if q ∈ Dw then .ask q fun w => ownAlgo O Dw N me x ss (k w) else ownAlgo O Dw N me x ss (k (O.merlin q 64))
  | ss, .request rq k => match stepQuery me ss rq with
    | none => ownAlgo O Dw N me x (stepN O N me x ss rq).2 (k (stepN O N me x ss rq).1)
    | some Q => if Q ∈ Dw then
        .ask Q fun w => ownAlgo O Dw N me x (stepN (program O Q w) N me x ss rq).2 (k (stepN (program O Q w) N me x ss rq).1)
      else ownAlgo O Dw N me x (stepN O N me x ss rq).2 (k (stepN O N me x ss rq).1)

theorem ownAlgo_asked (O₀ O' : Oracles) (Dw T : Finset (List MOp)) (b : Nat) (N : Fin m → Fin 3 → Arr 64) (me : PublicKey P) (x : Z)
    (A : Client (CosignRequest P) CosignAnswer α) : ∀ (q m' r : Nat) (ss : List (IndexPhase P m)), SessionBounded D T b fin q m' r A →
      ((ownAlgo O₀ Dw N me x ss A).asked O').length ≤ q + r + 1 ∧ ∀ l ∈ (ownAlgo O₀ Dw N me x ss A).asked O', l ∈ Dw := by
  have mono : ∀ {l : List (List MOp)} {a b : Nat}, (l.length ≤ a ∧ ∀ q ∈ l, q ∈ Dw) → a ≤ b → l.length ≤ b ∧ ∀ q ∈ l, q ∈ Dw :=
    fun h hab => ⟨h.1.trans hab, h.2⟩
  have cons : ∀ {l : List (List MOp)} {a b : Nat} {q : List MOp}, q ∈ Dw → (l.length ≤ a ∧ ∀ q ∈ l, q ∈ Dw) → a + 1 ≤ b →
      (q :: l).length ≤ b ∧ ∀ q' ∈ q :: l, q' ∈ Dw := by
    intro l a b q hq h hab
    refine ⟨by rw [List.length_cons]; omega, fun q' hq' => ?_⟩
    rcases List.mem_cons.mp hq' with rfl | h'
    · exact hq
    · exact h.2 q' h'
  induction A with
  | ret c =>
    intro q m' r ss _
    simp only [ownAlgo]
    split
    · rename_i h
      exact cons (a := 0) h ⟨by simp [Algo.asked], by simp [Algo.asked]⟩ (by omega)
    · exact ⟨by simp [Algo.asked], by simp [Algo.asked]⟩
  | ask l k ih =>
    intro q m' r ss hb
    obtain ⟨-, q', rfl, hk⟩ := hb
    simp only [ownAlgo]
    split
    · rename_i h
      exact cons h (ih _ q' m' r ss (hk _)) (by omega)
    · exact mono (ih _ q' m' r ss (hk _)) (by omega)
  | request rq k ih =>
    intro q m' r ss hb
    cases rq with
    | start t =>
      obtain ⟨-, m'', rfl, hk⟩ := hb
      simp only [ownAlgo, stepQuery]
      exact ih _ q m'' r _ (hk _)
    | reveal i cs =>
      obtain ⟨-, r', rfl, hk⟩ := hb
      simp only [ownAlgo]
      cases stepQuery me ss (.reveal i cs) with
      | none => exact mono (ih _ q m' r' _ (hk _)) (by omega)
      | some Q =>
        simp only
        split
        · rename_i h
          exact cons h (ih _ q m' r' _ (hk _)) (by omega)
        · exact mono (ih _ q m' r' _ (hk _)) (by omega)
    | cosign i rs =>
      obtain ⟨-, r', rfl, hk⟩ := hb
      simp only [ownAlgo]
      cases stepQuery me ss (.cosign i rs) with
      | none => exact mono (ih _ q m' r' _ (hk _)) (by omega)
      | some Q =>
        simp only
        split
        · rename_i h
          exact cons h (ih _ q m' r' _ (hk _)) (by omega)
        · exact mono (ih _ q m' r' _ (hk _)) (by omega)

/-- The queries for weights of `me`. -/
noncomputable def ownSet (D : Finset (List MOp)) (me : PublicKey P) : Finset (List MOp) :=
  D.filter fun l => ∃ ks : List Bytes, l = weightQuery ks me.compressed.1

/-- All sessions in which the owner has revealed have commitments of at most `b` others on record. -/
def ComsIn (me : PublicKey P) (b : Nat) (ss : List (IndexPhase P m)) : Prop := ∀ s ∈ revealedIn ss, ComsOk me b s.2

theorem ComsIn.step {me : PublicKey P} {b : Nat} {ss : List (IndexPhase P m)} (h : ComsIn me b ss) (O : Oracles) (N : Fin m → Fin 3 → Arr 64) (x : Z)
    (rq : CosignRequest P) (hb : ∀ i cs, rq = .reveal i cs → cs.length ≤ b) : ComsIn me b (stepN O N me x ss rq).2 := by
  intro s hs
  rcases (revealed_step O N me x ss rq s).mp hs with hs | ⟨i, cs, j, rfl, -, e⟩
  · exact h s hs
  · rw [e]
    have := registered_ok me cs
    exact ⟨this.sorted, this.wf, this.me, this.len.trans (hb i cs rfl)⟩

/-- Every group the owner meets has its weight asked for. -/
theorem ownAlgo_spec (Om O₀ O' : Oracles) (T : Finset (List MOp)) (b : Nat) (N : Fin m → Fin 3 → Arr 64) (me : PublicKey P) (hme : me.WF) (x : Z)
    (hwD : ∀ ks : List (PublicKey P), ks.length ≤ b + 1 → ∀ q ∈ weightQueries ks, q ∈ D)
    (h64 : ∀ l, O'.merlin l 64 = Om.merlin l 64) (hoff : ∀ l n, l ∉ ownSet D me → Om.merlin l n = O₀.merlin l n)
    (A : Client (CosignRequest P) CosignAnswer α) : ∀ (q m' r : Nat) (ss : List (IndexPhase P m)), SessionBounded D T b fin q m' r A → ComsIn me b ss →
      (∀ s ∈ revealedIn (endN Om N me x ss A).1, s ∈ revealedIn ss ∨ ComsOk me b s.2 ∧
        ownQuery me (groupKeys me s.2) ∈ (ownAlgo O₀ (ownSet D me) N me x ss A).asked O') ∧
      (weightOf (Goal.keys (endN Om N me x ss A).2) me ∈ ownSet D me →
        weightOf (Goal.keys (endN Om N me x ss A).2) me ∈ (ownAlgo O₀ (ownSet D me) N me x ss A).asked O') := by
  have hc : ∀ r, Om.merlin (commitmentQuery r) 16 = O₀.merlin (commitmentQuery r) 16 := by
    intro r
    refine hoff _ _ fun h => ?_
    obtain ⟨-, ks, h⟩ := Finset.mem_filter.mp h
    exact not_isCommit_weight ks me.compressed.1 (h ▸ isCommit_commitmentQuery r)
  have hoff' : ∀ l, l ∉ ownSet D me → hashWith Om l = hashWith O₀ l := fun l h => hashWith_congr (hoff l 64 h)
  have hco : ∀ (t : Transcript) (agg : P) (V : View P) (k : PublicKey P) (i : Nat), hashWith Om (coeffOf t agg V k i) = hashWith O₀ (coeffOf t agg V k i) := by
    intro t agg V k i
    refine hoff' _ fun h => ?_
    obtain ⟨-, ks, h⟩ := Finset.mem_filter.mp h
    exact weight_ne_coeff ks _ t agg V k i h.symm
  have hch : ∀ (pk : PublicKey P) (t : Transcript) (R : Bytes), challengeOf pk t R ∉ ownSet D me := by
    intro pk t R h
    obtain ⟨-, ks, h⟩ := Finset.mem_filter.mp h
    exact not_isSig_weight ks me.compressed.1 (h ▸ isSig_challengeOf pk t R)
  induction A with
  | ret c =>
    intro q m' r ss _ _
    refine ⟨fun s hs => Or.inl hs, fun h => ?_⟩
    have h' : weightOf (Goal.keys c) me ∈ ownSet D me := h
    simp only [ownAlgo, if_pos h', Algo.asked, endN]
    exact List.mem_cons_self
  | ask l k ih =>
    intro q m' r ss hb hss
    obtain ⟨-, q', rfl, hk⟩ := hb
    simp only [endN, ownAlgo]
    by_cases hl : l ∈ ownSet D me
    · rw [if_pos hl]
      simp only [Algo.asked, h64]
      obtain ⟨h1, h2⟩ := ih (Om.merlin l 64) q' m' r ss (hk _) hss
      refine ⟨fun s hs => ?_, fun h => List.mem_cons_of_mem _ (h2 h)⟩
      rcases h1 s hs with h | ⟨h, h'⟩
      · exact Or.inl h
      · exact Or.inr ⟨h, List.mem_cons_of_mem _ h'⟩
    · rw [if_neg hl, hoff l 64 hl]
      exact ih _ q' m' r ss (hk _) hss
  | request rq k ih =>
    intro q m' r ss hb hss
    have hb' : (∀ i cs, rq = .reveal i cs → cs.length ≤ b) ∧ ∃ m'' r', ∀ a, SessionBounded D T b fin q m'' r' (k a) := by
      cases rq with
      | start t => obtain ⟨-, m'', rfl, hk⟩ := hb; exact ⟨(fun _ _ h => nomatch h), m'', r, hk⟩
      | reveal i cs =>
        obtain ⟨h, r', rfl, hk⟩ := hb
        exact ⟨fun i' cs' e => by cases e; exact h, m', r', hk⟩
      | cosign i rs => obtain ⟨-, r', rfl, hk⟩ := hb; exact ⟨(fun _ _ h => nomatch h), m', r', hk⟩
    obtain ⟨hlen, m'', r', hk⟩ := hb'
    have hss' := hss.step Om N x rq hlen
    obtain ⟨h1, h2⟩ := ih (stepN Om N me x ss rq).1 q m'' r' (stepN Om N me x ss rq).2 (hk _) hss'
    have hown : ∀ coms : BMap P Commitment, ComsOk me b coms → ownQuery me (groupKeys me coms) ∈ ownSet D me := by
      intro coms hcm
      obtain ⟨hg, hgl⟩ := groupKeys_good hme hcm
      exact Finset.mem_filter.mpr ⟨hwD _ hgl _ (List.mem_map.mpr ⟨me, hg.mem, rfl⟩), _, rfl⟩
    simp only [endN, ownAlgo]
    cases hQ : stepQuery me ss rq with
    | none =>
      simp only
      have hst : stepN Om N me x ss rq = stepN O₀ N me x ss rq := by
        refine stepN_congr hc hco N me x ss rq ?_
        intro i rs t v coms e hi
        subst e
        simp only [stepQuery, hi] at hQ
        cases hQ
      rw [← hst]
      refine ⟨fun s hs => ?_, h2⟩
      rcases h1 s hs with h | h
      · rcases (revealed_step Om N me x ss rq s).mp h with h | ⟨i, cs, j, rfl, hi, -⟩
        · exact Or.inl h
        · simp only [stepQuery, hi] at hQ
          cases hQ
      · exact Or.inr h
    | some Q =>
      simp only
      have hQin : Q ∈ ownSet D me := by
        cases rq with
        | start t => cases hQ
        | reveal i cs =>
          simp only [stepQuery] at hQ
          split at hQ
          · cases hQ
            have := registered_ok me cs
            exact hown _ ⟨this.sorted, this.wf, this.me, this.len.trans (hlen i cs rfl)⟩
          · cases hQ
        | cosign i rs =>
          simp only [stepQuery] at hQ
          split at hQ
          · rename_i t v coms hi
            cases hQ
            exact hown _ (hss (t, coms) (mem_revealedIn.mpr (Or.inl ⟨v, List.mem_of_getElem? hi⟩)))
          · cases hQ
      rw [if_pos hQin]
      simp only [Algo.asked, h64]
      have hp : ∀ l n, l ≠ Q → (program O₀ Q (Om.merlin Q 64)).merlin l n = O₀.merlin l n := by
        intro l n hne
        show (if h : l = Q ∧ 64 = n then _ else _) = _
        rw [dif_neg fun h => hne h.1]
      have hst : stepN Om N me x ss rq = stepN (program O₀ Q (Om.merlin Q 64)) N me x ss rq := by
        refine stepN_congr ?_ ?_ N me x ss rq ?_
        · intro r
          rw [hc, hp]
          rintro rfl
          obtain ⟨-, ks, h⟩ := Finset.mem_filter.mp hQin
          exact not_isCommit_weight ks me.compressed.1 (h ▸ isCommit_commitmentQuery r)
        · intro t agg V k i
          rw [hco]
          refine (hashWith_congr (hp _ 64 ?_)).symm
          rintro rfl
          obtain ⟨-, ks, h⟩ := Finset.mem_filter.mp hQin
          exact weight_ne_coeff ks _ t agg V k i h.symm
        · intro i rs t v coms e hi
          subst e
          simp only [stepQuery, hi, Option.some.injEq] at hQ
          have hcm := hss (t, coms) (mem_revealedIn.mpr (Or.inl ⟨v, List.mem_of_getElem? hi⟩))
          obtain ⟨hg, -⟩ := groupKeys_good hme hcm
          refine ⟨?_, fun t R => ?_⟩
          · intro l hl
            obtain ⟨k', hk', rfl⟩ := List.mem_map.mp hl
            by_cases hkm : k' = me
            · subst hkm
              have : weightQuery ((groupKeys k' coms).map (·.compressed.1)) k'.compressed.1 = Q := hQ
              rw [this]
              refine hashWith_congr ?_
              rw [program_hit]
            · have hne : weightQuery ((groupKeys me coms).map (·.compressed.1)) k'.compressed.1 ∉ ownSet D me := by
                intro h
                obtain ⟨-, ks, h⟩ := Finset.mem_filter.mp h
                have := (weightQuery_injective h).2
                exact hkm (BMap.key_ext (hg.wf k' hk') hme (Subtype.ext this))
              rw [hoff' _ hne]
              exact (hashWith_congr (hp _ 64 (fun h => hne (by rw [h]; exact hQin)))).symm
          · rw [hoff' _ (hch _ _ _)]
            exact (hashWith_congr (hp _ 64 (fun h => hch _ _ _ (by rw [h]; exact hQin)))).symm
      rw [← hst]
      refine ⟨fun s hs => ?_, fun h => List.mem_cons_of_mem _ (h2 h)⟩
      rcases h1 s hs with h | ⟨h, h'⟩
      · rcases (revealed_step Om N me x ss rq s).mp h with h | ⟨i, cs, j, rfl, hi, e⟩
        · exact Or.inl h
        · simp only [stepQuery, hi, Option.some.injEq] at hQ
          rw [e]
          have := registered_ok me cs
          refine Or.inr ⟨⟨this.sorted, this.wf, this.me, this.len.trans (hlen i cs rfl)⟩, ?_⟩
          rw [hQ]
          exact List.mem_cons_self
      · exact Or.inr ⟨h, List.mem_cons_of_mem _ h'⟩

/-- The key of `me` is not the key of any group the owner has taken part in, nor of the group of the claim. -/
def NoOwnGroup (O : Oracles) (me : PublicKey P) (e : List (IndexPhase P m) × α) : Prop :=
  (∀ s ∈ revealedIn e.1, aggO O (groupKeys me s.2) ≠ me.point) ∧
    ((∀ k ∈ (Goal.keys e.2 : List (PublicKey P)), k.WF) → me ∈ Goal.keys e.2 → aggO O (cosigners (Goal.keys e.2)) ≠ me.point)

theorem end_fin (O : Oracles) (T : Finset (List MOp)) (b : Nat) (N : Fin m → Fin 3 → Arr 64) (me : PublicKey P) (x : Z)
    (A : Client (CosignRequest P) CosignAnswer α) : ∀ (q m' r : Nat) (ss : List (IndexPhase P m)), SessionBounded D T b fin q m' r A →
      fin (endN O N me x ss A).2 := by
  induction A with
  | ret c => intro q m' r ss h; exact h
  | ask l k ih => rintro q m' r ss ⟨-, q', rfl, hk⟩; exact ih _ q' m' r ss (hk _)
  | request rq k ih =>
    intro q m' r ss h
    cases rq with
    | start t => obtain ⟨-, m'', rfl, hk⟩ := h; exact ih _ q m'' r _ (hk _)
    | reveal i cs => obtain ⟨-, r', rfl, hk⟩ := h; exact ih _ q m' r' _ (hk _)
    | cosign i rs => obtain ⟨-, r', rfl, hk⟩ := h; exact ih _ q m' r' _ (hk _)

theorem own_le (O : Oracles) (T : Finset (List MOp)) (b q r : Nat) (N : Fin m → Fin 3 → Arr 64) (me : PublicKey P) (hme : me.WF) (x : Z)
    (h0 : me.point ≠ 0) (hwD : ∀ ks : List (PublicKey P), ks.length ≤ b + 1 → ∀ q ∈ weightQueries ks, q ∈ D) (A : Client (CosignRequest P) CosignAnswer α)
    (hb : SessionBounded D T b fin q m r A) (hfin : ∀ c : α, fin c → (∀ k ∈ (Goal.keys c : List (PublicKey P)), k.WF) → me ∈ Goal.keys c → weightOf (Goal.keys c) me ∈ D) :
    (avg fun f : D → Arr 64 => ind (¬ NoOwnGroup (wideTable O D f) me (endN (wideTable O D f) N me x [] A))) ≤ (q + r + 1 : Nat) * guess := by
  have hin : ∀ y : ownSet D me, (Subtype.val y) ∈ D := fun y => (Finset.mem_filter.mp y.2).1
  rw [avg_withKeyed (X := ownSet D me) Subtype.val Subtype.val_injective hin]
  refine avg_le_const fun f₀ => ?_
  set O₀ := wideTable O D f₀ with hO₀
  have hW : (ownAlgo O₀ (ownSet D me) N me x [] A).Within O₀ (ownSet D me) (q + r + 1) := fun f => ownAlgo_asked O₀ _ _ T b N me x A q m r [] hb
  have hbad := chance_asked_bad O₀ (ownAlgo O₀ (ownSet D me) N me x [] A) _ hW (ownBad O₀ me) (ownBad_unique O₀ me h0)
  rw [chance_eq_avg] at hbad
  refine le_trans (avg_mono fun f₁ => ind_mono fun hn => ?_) hbad
  set Om := wideTable O D (withKeyed Subtype.val f₀ f₁) with hOm
  have hoff : ∀ l n, l ∉ ownSet D me → Om.merlin l n = O₀.merlin l n := fun l n hl =>
    wideTable_withKeyed O _ f₀ f₁ l n fun y hy => hl (hy ▸ y.2)
  have h64 : ∀ l, (table O₀ (ownSet D me) f₁).merlin l 64 = Om.merlin l 64 := by
    intro l
    by_cases hl : l ∈ ownSet D me
    · rw [table_hit _ _ _ _ hl]
      exact (wideTable_keyed64 O Subtype.val Subtype.val_injective f₀ f₁ ⟨l, hl⟩ (hin ⟨l, hl⟩)).symm
    · rw [table_miss _ _ _ _ _ (fun e => hl e.1), hoff l 64 hl]
  obtain ⟨h1, h2⟩ := ownAlgo_spec Om O₀ (table O₀ (ownSet D me) f₁) T b N me hme x hwD h64 hoff A q m r [] hb (fun s hs => by simp [revealedIn] at hs)
  have key : ∀ ks, GoodKeys me ks → aggO Om ks = me.point → ownQuery me ks ∈ (ownAlgo O₀ (ownSet D me) N me x [] A).asked (table O₀ (ownSet D me) f₁) →
      ∃ q, q ∈ (ownAlgo O₀ (ownSet D me) N me x [] A).asked (table O₀ (ownSet D me) f₁) ∧ (table O₀ (ownSet D me) f₁).merlin q 64 ∈ ownBad O₀ me q := by
    intro ks hg ha hq
    refine ⟨_, hq, ks, hg, rfl, ?_⟩
    rw [h64, ← ha]
    refine aggO_congr _ fun l hl => hashWith_congr ?_
    obtain ⟨k, hk, rfl⟩ := List.mem_map.mp hl
    by_cases hkm : k = me
    · subst hkm
      exact program_hit _ _ _
    · have hne : weightQuery (ks.map (·.compressed.1)) k.compressed.1 ∉ ownSet D me := by
        intro h
        obtain ⟨-, ks', h⟩ := Finset.mem_filter.mp h
        exact hkm (BMap.key_ext (hg.wf k hk) hme (Subtype.ext (weightQuery_injective h).2))
      rw [hoff _ 64 hne]
      exact program_miss _ _ _ _ _ fun h => hne (h ▸ (hW f₁).2 _ hq)
  unfold NoOwnGroup at hn
  rw [not_and_or] at hn
  rcases hn with hn | hn
  · push Not at hn
    obtain ⟨s, hs, ha⟩ := hn
    rcases h1 s hs with h | ⟨hcm, hq⟩
    · simp [revealedIn] at h
    · exact key _ (groupKeys_good hme hcm).1 ha hq
  · push Not at hn
    obtain ⟨hwf, hm, ha⟩ := hn
    have hg := cosigners_good hwf hm
    refine key _ hg ha (h2 (Finset.mem_filter.mpr ⟨hfin _ (end_fin Om T b N me x A q m r [] hb) hwf hm, _, rfl⟩))

end Schnorrkel
