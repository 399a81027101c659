import Verif.Spec.RomDual
import Verif.Props.RomCosign
import Verif.Props.RomKey

/-! # The owner of a key as a state machine, and the hash queries its answers depend on -/

namespace Schnorrkel
open Spec Schnorrkel.Props Classical
variable {P : Type} [Ristretto P] {D : Finset (List MOp)} {m : Nat} {α : Type} {fin : α → Prop}

/-- The answer of the owner and its next state, when `N k` are the nonces of session number `k`. -/
noncomputable def stepN (O : Oracles) (N : Fin m → Fin 3 → Arr 64) (me : PublicKey P) (x : Z) (ss : List (IndexPhase P m)) :
    CosignRequest P → CosignAnswer × List (IndexPhase P m)
  | .start t => if h : ss.length < m then (.commitment (commitO P O (N ⟨ss.length, h⟩)), ss ++ [.committing t ⟨ss.length, h⟩])
    else (.refused, ss)
  | .reveal i cs => match ss[i]? with
    | some (.committing t j) => (.reveal (nonceReveal P (N j)), ss.set i (.revealing t (N j) (registered me cs)))
    | _ => (.refused, ss)
  | .cosign i rs => match ss[i]? with
    | some (.revealing t v coms) => (cosignAnswer O x me t v coms rs, ss.set i (.finished t coms))
    | _ => (.refused, ss)

/-- The state at the end, and the output. -/
noncomputable def endN (O : Oracles) (N : Fin m → Fin 3 → Arr 64) (me : PublicKey P) (x : Z) :
    List (IndexPhase P m) → Client (CosignRequest P) CosignAnswer α → List (IndexPhase P m) × α
  | ss, .ret c => (ss, c)
  | ss, .ask q k => endN O N me x ss (k (O.merlin q 64))
  | ss, .request rq k => endN O N me x (stepN O N me x ss rq).2 (k (stepN O N me x ss rq).1)

theorem winN_end [Goal P α] (O' : Oracles) (T : Finset (List MOp)) (b : Nat) (N : Fin m → Fin 3 → Arr 64) (me : PublicKey P) (x : Z) (A : Client (CosignRequest P) CosignAnswer α) :
    ∀ (q m' r : Nat) (ss : List (IndexPhase P m)), SessionBounded D T b fin q m' r A → ss.length + m' ≤ m →
      (WinN O' N me x ss A ↔ WinJoint O' me (endN O' N me x ss A).1 (endN O' N me x ss A).2) := by
  induction A with
  | ret c => intro q m' r ss _ _; simp only [WinN, endN]
  | ask l k ih =>
    intro q m' r ss hb hm
    obtain ⟨-, q', rfl, hk⟩ := hb
    simp only [WinN, endN]
    exact ih _ q' m' r ss (hk _) hm
  | request rq k ih =>
    intro q m' r ss hb hm
    cases rq with
    | start t =>
      obtain ⟨-, m'', rfl, hk⟩ := hb
      have hlt : ss.length < m := by omega
      simp only [WinN, endN, stepN, dif_pos hlt]
      exact ih _ q m'' r _ (hk _) (by rw [List.length_append, List.length_singleton]; omega)
    | reveal i cs =>
      obtain ⟨-, r', rfl, hk⟩ := hb
      simp only [WinN, endN, stepN]
      cases ss[i]? with
      | none => exact ih _ q m' r' _ (hk _) hm
      | some ph => cases ph with
        | committing t j => exact ih _ q m' r' _ (hk _) (by rw [List.length_set]; exact hm)
        | revealing t v coms => exact ih _ q m' r' _ (hk _) hm
        | finished t coms => exact ih _ q m' r' _ (hk _) hm
    | cosign i rs =>
      obtain ⟨-, r', rfl, hk⟩ := hb
      simp only [WinN, endN, stepN]
      cases ss[i]? with
      | none => exact ih _ q m' r' _ (hk _) hm
      | some ph => cases ph with
        | committing t j => exact ih _ q m' r' _ (hk _) hm
        | revealing t v coms => exact ih _ q m' r' _ (hk _) (by rw [List.length_set]; exact hm)
        | finished t coms => exact ih _ q m' r' _ (hk _) hm

/-! ## What the answers depend on -/

theorem openBy_congr {O₁ O₂ : Oracles} (hc : ∀ r, O₁.merlin (commitmentQuery r) 16 = O₂.merlin (commitmentQuery r) 16)
    (coms : BMap P Commitment) (rs : List (P × Reveal)) : openBy O₁ coms rs = openBy O₂ coms rs := by
  have : ∀ k c, (firstOpen O₁ rs k c : Option (RevealedPoints P)) = firstOpen O₂ rs k c := by
    intro k c
    unfold firstOpen
    have : (fun a : P × Reveal => if compress a.1 = k ∧ (letI := O₁; commitmentTo a.2) = c then (points a.2 : Option (RevealedPoints P)) else none) =
        fun a => if compress a.1 = k ∧ (letI := O₂; commitmentTo a.2) = c then points a.2 else none := by
      funext a
      have he : (letI := O₁; commitmentTo a.2) = (letI := O₂; commitmentTo a.2) := congrArg Commitment.mk (hc a.2)
      rw [he]
    rw [this]
  unfold openBy
  simp only [this]

theorem openBy_keys {O : Oracles} {rs : List (P × Reveal)} : ∀ {coms : BMap P Commitment} {es : View P}, openBy O coms rs = some es →
    es.map (·.1) = coms.map (·.1) := by
  intro coms
  induction coms with
  | nil =>
    intro es h
    unfold openBy at h
    simp only [List.mapM_nil, Option.pure_def, Option.some.injEq] at h
    subst h; rfl
  | cons e coms ih =>
    intro es h
    unfold openBy at h
    simp only [List.mapM_cons, Option.bind_eq_bind, Option.bind_eq_some_iff, Option.pure_def, Option.some.injEq,
      Option.map_eq_some_iff] at h
    obtain ⟨b, ⟨p, -, rfl⟩, bs, h2, rfl⟩ := h
    simp only [List.map_cons, List.cons.injEq, true_and]
    exact ih h2

/-- The set contains the key itself. -/
theorem mem_set_key {V : Type} (me : PublicKey P) (v : V) : ∀ m : BMap P V, ∃ k ∈ (m.set me v).map (·.1), k.compressed = me.compressed := by
  intro m
  induction m with
  | nil => exact ⟨me, by simp [BMap.set], rfl⟩
  | cons a m ih =>
    obtain ⟨k, w⟩ := a
    simp only [BMap.set]
    split
    · rename_i h
      exact ⟨k, by simp, ((cmp_eq_iff _ _).mp h).symm⟩
    · exact ⟨me, by simp, rfl⟩
    · obtain ⟨k', h1, h2⟩ := ih
      exact ⟨k', by simp only [List.map_cons, List.mem_cons]; exact Or.inr h1, h2⟩

theorem cosignAnswer_congr {O₁ O₂ : Oracles} (hc : ∀ r, O₁.merlin (commitmentQuery r) 16 = O₂.merlin (commitmentQuery r) 16)
    (hco : ∀ (t : Transcript) (agg : P) (V : View P) (k : PublicKey P) (i : Nat), hashWith O₁ (coeffOf t agg V k i) = hashWith O₂ (coeffOf t agg V k i))
    (me : PublicKey P) (x : Z) (t : Transcript) (v : Fin 3 → Arr 64) (coms : BMap P Commitment) (rs : List (P × Reveal))
    (hw : ∀ q ∈ weightQueries (groupKeys me coms), hashWith O₁ q = hashWith O₂ q)
    (hch : ∀ (t : Transcript) (R : Bytes), hashWith O₁ (challengeOf (PublicKey.fromPoint (aggO O₂ (groupKeys me coms))) t R) =
      hashWith O₂ (challengeOf (PublicKey.fromPoint (aggO O₂ (groupKeys me coms))) t R)) :
    cosignAnswer O₁ x me t v coms rs = cosignAnswer O₂ x me t v coms rs := by
  unfold cosignAnswer
  rw [openBy_congr hc]
  cases ho : openBy O₂ coms rs with
  | none => rfl
  | some es =>
    simp only
    have hk : View.keys (BMap.set es me (noncePoints P v)) = groupKeys me coms := view_keys me _ (openBy_keys ho)
    unfold realShare
    obtain ⟨V, hV⟩ : ∃ V : View P, V = BMap.set es me (noncePoints P v) := ⟨_, rfl⟩
    rw [← hV] at hk ⊢
    have ha : aggO O₁ V.keys = aggO O₂ V.keys := by rw [hk]; exact aggO_congr _ hw
    have hcf : ∀ k : PublicKey P, coeffO O₁ t V k.compressed = coeffO O₂ t V k.compressed := fun k => coeffO_congr t V k ha fun i _ => hco _ _ _ _ _
    have hq : chalQ O₁ t V = chalQ O₂ t V := chalQ_congr t V ha fun e _ => hcf e.1
    have h1 : hashWith O₁ (chalQ O₂ t V) = hashWith O₂ (chalQ O₂ t V) := by
      unfold chalQ
      rw [hk]
      exact hch _ _
    have h2 : hashWith O₁ (ownWeight me V) = hashWith O₂ (ownWeight me V) := by
      unfold ownWeight
      rw [hk]
      obtain ⟨k, hm, hkk⟩ := mem_set_key me () (coms.map fun e => (e.1, ()))
      refine hw _ (List.mem_map.mpr ⟨k, hm, ?_⟩)
      rw [hkk]
    unfold shareIn
    rw [hcf me, hq, h1, h2]

theorem stepN_congr {O₁ O₂ : Oracles} (hc : ∀ r, O₁.merlin (commitmentQuery r) 16 = O₂.merlin (commitmentQuery r) 16)
    (hco : ∀ (t : Transcript) (agg : P) (V : View P) (k : PublicKey P) (i : Nat), hashWith O₁ (coeffOf t agg V k i) = hashWith O₂ (coeffOf t agg V k i))
    (N : Fin m → Fin 3 → Arr 64) (me : PublicKey P) (x : Z) (ss : List (IndexPhase P m)) (rq : CosignRequest P)
    (h : ∀ i rs t v coms, rq = .cosign i rs → ss[i]? = some (.revealing t v coms) →
      (∀ q ∈ weightQueries (groupKeys me coms), hashWith O₁ q = hashWith O₂ q) ∧
      ∀ (t : Transcript) (R : Bytes), hashWith O₁ (challengeOf (PublicKey.fromPoint (aggO O₂ (groupKeys me coms))) t R) =
        hashWith O₂ (challengeOf (PublicKey.fromPoint (aggO O₂ (groupKeys me coms))) t R)) :
    stepN O₁ N me x ss rq = stepN O₂ N me x ss rq := by
  cases rq with
  | start t =>
    simp only [stepN]
    have : ∀ v, commitO P O₁ v = commitO P O₂ v := fun v => congrArg Commitment.mk (hc _)
    simp only [this]
  | reveal i cs => rfl
  | cosign i rs =>
    simp only [stepN]
    cases hi : ss[i]? with
    | none => rfl
    | some ph =>
      cases ph with
      | committing t j => rfl
      | finished t coms => rfl
      | revealing t v coms =>
        simp only
        obtain ⟨h1, h2⟩ := h i rs t v coms rfl hi
        rw [cosignAnswer_congr hc hco me x t v coms rs h1 h2]

/-! ## The sessions in which the owner has revealed -/

theorem mem_revealedIn {K V : Type} {ss : List (Phase P K V)} {s : Transcript × BMap P Commitment} :
    s ∈ revealedIn ss ↔ (∃ v, Phase.revealing s.1 v s.2 ∈ ss) ∨ Phase.finished s.1 s.2 ∈ ss := by
  unfold revealedIn
  rw [List.mem_filterMap]
  constructor
  · rintro ⟨ph, h1, h2⟩
    cases ph with
    | committing t κ => cases h2
    | revealing t v coms => simp only [Option.some.injEq] at h2; subst h2; exact Or.inl ⟨v, h1⟩
    | finished t coms => simp only [Option.some.injEq] at h2; subst h2; exact Or.inr h1
  · rintro (⟨v, h⟩ | h)
    · exact ⟨_, h, rfl⟩
    · exact ⟨_, h, rfl⟩

/-- After a step, the revealed sessions are the same, except for a session that reveals now. -/
theorem revealed_step (O : Oracles) (N : Fin m → Fin 3 → Arr 64) (me : PublicKey P) (x : Z) (ss : List (IndexPhase P m)) (rq : CosignRequest P)
    (s : Transcript × BMap P Commitment) :
    s ∈ revealedIn (stepN O N me x ss rq).2 ↔ s ∈ revealedIn ss ∨
      ∃ i cs j, rq = .reveal i cs ∧ ss[i]? = some (.committing s.1 j) ∧ s.2 = registered me cs := by
  cases rq with
  | start t =>
    simp only [stepN, reduceCtorEq, false_and, exists_false, or_false]
    split
    · rw [mem_revealedIn, mem_revealedIn]; simp
    · rfl
  | reveal i cs =>
    simp only [stepN, CosignRequest.reveal.injEq]
    cases hi : ss[i]? with
    | none =>
      simp only
      refine ⟨Or.inl, ?_⟩
      rintro (h | ⟨i', cs', j, ⟨rfl, rfl⟩, h2, -⟩)
      · exact h
      · rw [hi] at h2; cases h2
    | some ph =>
      have hm := List.mem_of_getElem? hi
      cases ph with
      | committing t j =>
        simp only
        have hlt : i < ss.length := by
          by_contra hcon
          rw [List.getElem?_eq_none (by omega)] at hi
          cases hi
        have hget : ss[i] = Phase.committing t j := by
          have := List.getElem?_eq_getElem hlt
          rw [hi] at this
          exact (Option.some.inj this).symm
        constructor
        · intro h
          rw [mem_revealedIn] at h
          rcases h with ⟨v, h⟩ | h
          · rcases List.mem_or_eq_of_mem_set h with h | h
            · exact Or.inl (mem_revealedIn.mpr (Or.inl ⟨v, h⟩))
            · simp only [Phase.revealing.injEq] at h
              exact Or.inr ⟨i, cs, j, ⟨rfl, rfl⟩, by rw [hi, h.1], h.2.2⟩
          · rcases List.mem_or_eq_of_mem_set h with h | h
            · exact Or.inl (mem_revealedIn.mpr (Or.inr h))
            · cases h
        · have keep : ∀ ph : IndexPhase P m, ph ∈ ss → ph ≠ Phase.committing t j → ph ∈ ss.set i (.revealing t (N j) (registered me cs)) := by
            intro ph hp hne
            obtain ⟨n, hn, rfl⟩ := List.getElem_of_mem hp
            have hni : i ≠ n := by rintro rfl; exact hne hget
            refine List.mem_iff_getElem.mpr ⟨n, by rw [List.length_set]; exact hn, ?_⟩
            rw [List.getElem_set, if_neg hni]
          rintro (h | ⟨i', cs', j', ⟨rfl, rfl⟩, h2, h3⟩)
          · rw [mem_revealedIn] at h ⊢
            rcases h with ⟨v, h⟩ | h
            · exact Or.inl ⟨v, keep _ h (by simp)⟩
            · exact Or.inr (keep _ h (by simp))
          · rw [hi] at h2
            cases h2
            refine mem_revealedIn.mpr (Or.inl ⟨N j, ?_⟩)
            rw [h3]
            exact List.mem_set hlt _
      | revealing t v coms =>
        simp only
        refine ⟨Or.inl, ?_⟩
        rintro (h | ⟨i', cs', j, ⟨rfl, rfl⟩, h2, -⟩)
        · exact h
        · rw [hi] at h2; cases h2
      | finished t coms =>
        simp only
        refine ⟨Or.inl, ?_⟩
        rintro (h | ⟨i', cs', j, ⟨rfl, rfl⟩, h2, -⟩)
        · exact h
        · rw [hi] at h2; cases h2
  | cosign i rs =>
    simp only [stepN, reduceCtorEq, false_and, exists_false, or_false]
    cases hi : ss[i]? with
    | none => rfl
    | some ph =>
      cases ph with
      | committing t j => rfl
      | finished t coms => rfl
      | revealing t v coms =>
        simp only
        have hlt : i < ss.length := by
          by_contra hcon
          rw [List.getElem?_eq_none (by omega)] at hi
          cases hi
        have hget : ss[i] = Phase.revealing t v coms := by
          have := List.getElem?_eq_getElem hlt
          rw [hi] at this
          exact (Option.some.inj this).symm
        have keep : ∀ ph : IndexPhase P m, ph ∈ ss → ph ≠ Phase.revealing t v coms → ph ∈ ss.set i (.finished t coms) := by
          intro ph hp hne
          obtain ⟨n, hn, rfl⟩ := List.getElem_of_mem hp
          have hni : i ≠ n := by rintro rfl; exact hne hget
          refine List.mem_iff_getElem.mpr ⟨n, by rw [List.length_set]; exact hn, ?_⟩
          rw [List.getElem_set, if_neg hni]
        rw [mem_revealedIn, mem_revealedIn]
        constructor
        · rintro (⟨v', h⟩ | h)
          · rcases List.mem_or_eq_of_mem_set h with h | h
            · exact Or.inl ⟨v', h⟩
            · cases h
          · rcases List.mem_or_eq_of_mem_set h with h | h
            · exact Or.inr h
            · cases h
              exact Or.inl ⟨v, List.mem_of_getElem? hi⟩
        · rintro (⟨v', h⟩ | h)
          · by_cases he : (Phase.revealing s.1 v' s.2 : IndexPhase P m) = Phase.revealing t v coms
            · cases he
              exact Or.inr (List.mem_set hlt _)
            · exact Or.inl ⟨v', keep _ h he⟩
          · exact Or.inr (keep _ h (by simp))

theorem revealed_end (O : Oracles) (N : Fin m → Fin 3 → Arr 64) (me : PublicKey P) (x : Z) (A : Client (CosignRequest P) CosignAnswer α) :
    ∀ (ss : List (IndexPhase P m)), ∀ s ∈ revealedIn ss, s ∈ revealedIn (endN O N me x ss A).1 := by
  induction A with
  | ret c => intro ss s hs; exact hs
  | ask l k ih => intro ss s hs; exact ih _ ss s hs
  | request rq k ih => intro ss s hs; exact ih _ _ s ((revealed_step O N me x ss rq s).mpr (Or.inl hs))

end Schnorrkel
