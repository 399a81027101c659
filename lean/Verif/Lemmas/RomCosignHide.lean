import Verif.Lemmas.RomCosignDraw

/-! # Commitments hide the nonces -/

namespace Schnorrkel
open Spec Schnorrkel.Props
variable {P : Type} [Ristretto P] {D : Finset (List MOp)} {α : Type} [Goal P α] {fin : α → Prop}

/-- The queries for the commitments to the nonces. -/
def commitQs (P : Type) [Ristretto P] {m : Nat} (N : Fin m → Fin 3 → Arr 64) (k : Fin m) : List MOp := commitmentQuery (nonceReveal P (N k))

theorem wideTable_congr (O : Oracles) {f f' : D → Arr 64} {l : List MOp} (h : ∀ hl : l ∈ D, f ⟨l, hl⟩ = f' ⟨l, hl⟩) (n : Nat) :
    (wideTable O D f).merlin l n = (wideTable O D f').merlin l n := by
  show (if h : l ∈ D ∧ n ≤ 64 then _ else _) = (if h : l ∈ D ∧ n ≤ 64 then _ else _ : Arr n)
  split_ifs with h1
  · apply Subtype.ext
    simp only
    rw [h h1.1]
  · rfl

theorem val1_nonneg (O : Oracles) (hD : ∀ r, commitmentQuery r ∈ D) (me : PublicKey P) (x : Z) (A : Client (CosignRequest P) CosignAnswer α) :
    ∀ (F : D → Arr 64) (ss : List (RealPhase P)), 0 ≤ val1 O hD me x F ss A := by
  induction A with
  | ret c => intro F ss; exact ind_nonneg _
  | ask q k ih => intro F ss; exact ih _ _ _
  | request r k ih =>
    intro F ss
    cases r with
    | start t => exact avg_nonneg fun κ => ih _ _ _
    | reveal i cs =>
      simp only [val1]
      split
      · exact avg_nonneg fun v => ih _ _ _
      · exact ih _ _ _
    | cosign i rs =>
      simp only [val1]
      split
      · exact ih _ _ _
      · exact ih _ _ _

theorem ind_congr {p q : Prop} (h : p ↔ q) : ind p = ind q := by rw [propext h]

/-- Few nonces are named. -/
theorem chance_named_nonces {m : Nat} (LN : Fin m → Option (Fin 3 → Arr 64)) (ls : List (List MOp)) :
    (avg fun N : Fin m → Fin 3 → Arr 64 => ind (∃ k, LN k = none ∧ ∃ l ∈ ls, commitQs P (ov LN N) k = l)) ≤ ls.length * m * guess := by
  rw [← chance_eq_avg]
  have h : ∀ k : Fin m, chance (fun N : Fin m → Fin 3 → Arr 64 => LN k = none ∧ ∃ l ∈ ls, commitQs P (ov LN N) k = l) ≤ ls.length * guess := by
    intro k
    have h1 := chance_nonceReveal (P := P) ls
    rw [← chance_coord k (fun v : Fin 3 → Arr 64 => ∃ l ∈ ls, commitmentQuery (nonceReveal P v) = l)] at h1
    refine le_trans (chance_mono ?_) h1
    rintro N ⟨hk, l, hl, e⟩
    refine ⟨l, hl, ?_⟩
    rw [← e]
    unfold commitQs ov
    rw [hk]
    rfl
  have := chance_exists_le (fun (k : Fin m) (N : Fin m → Fin 3 → Arr 64) => LN k = none ∧ ∃ l ∈ ls, commitQs P (ov LN N) k = l) _ h
  rw [Fintype.card_fin] at this
  refine le_trans this (le_of_eq (by ring))

/-- All nonces are different. -/
theorem chance_nonces_equal (m : Nat) :
    (avg fun N : Fin m → Fin 3 → Arr 64 => ind (¬ Function.Injective (commitQs P N))) ≤ m * m * guess := by
  rw [← chance_eq_avg]
  have h : ∀ k : Fin m × Fin m, chance (fun N : Fin m → Fin 3 → Arr 64 => k.1 ≠ k.2 ∧ commitQs P N k.1 = commitQs P N k.2) ≤ guess := by
    rintro ⟨i, j⟩
    simp only
    by_cases hij : i = j
    · have : (fun N : Fin m → Fin 3 → Arr 64 => i ≠ j ∧ commitQs P N i = commitQs P N j) = fun _ => False := by
        funext N; simp [hij]
      rw [this, chance_eq_avg]
      have : (fun _ : Fin m → Fin 3 → Arr 64 => ind False) = fun _ => 0 := funext fun _ => if_neg (fun h => h)
      rw [this, avg_const]
      exact guess_nonneg
    · rw [chance_eq_avg, avg_update j, avg_comm]
      refine avg_le_const fun N => ?_
      rw [← chance_eq_avg]
      refine le_trans (chance_mono ?_) (chance_nonceReveal_one (P := P) (commitQs P N i))
      rintro v ⟨-, e⟩
      unfold commitQs at e ⊢
      rw [Function.update_of_ne hij, Function.update_self] at e
      exact e.symm
  have := chance_exists_le (fun (k : Fin m × Fin m) (N : Fin m → Fin 3 → Arr 64) => k.1 ≠ k.2 ∧ commitQs P N k.1 = commitQs P N k.2) _ h
  rw [Fintype.card_prod, Fintype.card_fin, Nat.cast_mul] at this
  refine le_trans (chance_mono ?_) this
  intro N hN
  unfold Function.Injective at hN
  push Not at hN
  obtain ⟨i, j, e, hne⟩ := hN
  exact ⟨(i, j), hne, e⟩

/-! ## Sessions whose nonces are not drawn yet -/

/-- The same session; before the reveal, only the commitment is known. -/
inductive HiddenSession {m : Nat} (LN : Fin m → Option (Fin 3 → Arr 64)) (Lκ : Fin m → Option (Arr 64)) : IndexPhase P m → RealPhase P → Prop
  | committing (t : Transcript) (k : Fin m) (κ : Arr 64) (h : LN k = none) (h' : Lκ k = some κ) :
      HiddenSession LN Lκ (.committing t k) (.committing t κ)
  | revealing (t : Transcript) (v : Fin 3 → Arr 64) (coms : BMap P Commitment) : HiddenSession LN Lκ (.revealing t v coms) (.revealing t v coms)
  | finished (t : Transcript) (coms : BMap P Commitment) : HiddenSession LN Lκ (.finished t coms) (.finished t coms)

/-- What holds between the two games. -/
structure Hidden {m : Nat} (hD : ∀ r, commitmentQuery r ∈ D) (LN : Fin m → Option (Fin 3 → Arr 64)) (Lκ : Fin m → Option (Arr 64)) (F : D → Arr 64)
    (ss : List (IndexPhase P m)) (ss' : List (RealPhase P)) : Prop where
  rel : List.Forall₂ (HiddenSession LN Lκ) ss ss'
  idx : ∀ (i : Nat) (t : Transcript) (k : Fin m), ss[i]? = some (Phase.committing t k) → k.1 = i
  freshN : ∀ k : Fin m, ss.length ≤ k.1 → LN k = none
  freshκ : ∀ k : Fin m, ss.length ≤ k.1 → Lκ k = none
  prog : ∀ k v, LN k = some v → Lκ k = some (F ⟨_, hD (nonceReveal P v)⟩)

section
variable {m : Nat} {hD : ∀ r, commitmentQuery r ∈ D} {LN : Fin m → Option (Fin 3 → Arr 64)} {Lκ : Fin m → Option (Arr 64)} {F : D → Arr 64}
  {ss : List (IndexPhase P m)} {ss' : List (RealPhase P)}

theorem Hidden.revealed (h : Hidden hD LN Lκ F ss ss') : revealedIn ss = revealedIn ss' := by
  have := h.rel
  clear h
  induction this with
  | nil => rfl
  | cons h _ ih =>
    unfold revealedIn at ih ⊢
    simp only [List.filterMap_cons]
    cases h <;> simp only [ih]

/-- The hash function that gives the commitments. -/
noncomputable def hiddenO (P : Type) [Ristretto P] (O : Oracles) (F : D → Arr 64) (N : Fin m → Fin 3 → Arr 64) (κ : Fin m → Arr 64) : Oracles :=
  wideTable O D (withKeyed (commitQs P N) F κ)

theorem hidden_commit (O : Oracles) (hD : ∀ r, commitmentQuery r ∈ D) (F : D → Arr 64) (N : Fin m → Fin 3 → Arr 64) (κ : Fin m → Arr 64)
    (hi : Function.Injective (commitQs P N)) (k : Fin m) : commitO P (hiddenO P O F N κ) (N k) = pref (κ k) :=
  congrArg Commitment.mk (wideTable_keyed O (commitQs P N) hi F κ k (hD _) 16 (by omega))

theorem hidden_sameBut (O : Oracles) (F : D → Arr 64) (N : Fin m → Fin 3 → Arr 64) (κ : Fin m → Arr 64) :
    SameBut (hiddenO P O F N κ) (wideTable O D F) := fun l hl _ =>
  wideTable_withKeyed O _ F κ l 64 fun k hk => hl (hk ▸ isCommit_commitmentQuery _)

theorem Hidden.agree (h : Hidden hD LN Lκ F ss ss') (O : Oracles) (N : Fin m → Fin 3 → Arr 64) (κ : Fin m → Arr 64)
    (hi : Function.Injective (commitQs P (ov LN N))) (l : List MOp) (hl : ∀ k, LN k = none → commitQs P (ov LN N) k ≠ l) (n : Nat) :
    (hiddenO P O F (ov LN N) (ov Lκ κ)).merlin l n = (wideTable O D F).merlin l n := by
  refine wideTable_congr O (fun hlD => ?_) n
  by_cases hk : ∃ k, commitQs P (ov LN N) k = l
  · obtain ⟨k, rfl⟩ := hk
    rw [withKeyed_hit _ hi]
    cases hLk : LN k with
    | none => exact absurd rfl (hl k hLk)
    | some v =>
      rw [ov_of_some _ _ _ _ (h.prog k v hLk)]
      congr 1
      apply Subtype.ext
      show commitmentQuery (nonceReveal P v) = commitmentQuery (nonceReveal P (ov LN N k))
      rw [ov_of_some _ _ _ _ hLk]
  · exact withKeyed_miss _ _ _ _ fun k e => hk ⟨k, e⟩

end

/-- The chance of success when some nonces and commitments are drawn. -/
noncomputable def hideVal {m : Nat} (O : Oracles) (me : PublicKey P) (x : Z) (LN : Fin m → Option (Fin 3 → Arr 64)) (Lκ : Fin m → Option (Arr 64))
    (F : D → Arr 64) (ss : List (IndexPhase P m)) (A : Client (CosignRequest P) CosignAnswer α) : ℚ :=
  avg fun N : Fin m → Fin 3 → Arr 64 => avg fun κ : Fin m → Arr 64 =>
    ind (Function.Injective (commitQs P (ov LN N)) ∧ WinN (hiddenO P O F (ov LN N) (ov Lκ κ)) (ov LN N) me x ss A)

theorem hide_step (O : Oracles) (hD : ∀ r, commitmentQuery r ∈ D) (T : Finset (List MOp)) (b g m : Nat) (me : PublicKey P) (x : Z) (A : Client (CosignRequest P) CosignAnswer α) :
    ∀ (q m' r : Nat) (LN : Fin m → Option (Fin 3 → Arr 64)) (Lκ : Fin m → Option (Arr 64)) (F : D → Arr 64) (ss : List (IndexPhase P m))
      (ss' : List (RealPhase P)), SessionBounded D T b fin q m' r A → ss.length + m' ≤ m → Hidden hD LN Lκ F ss ss' →
      hideVal O me x LN Lκ F ss A ≤ val1 O hD me x F ss' A + (q + r * b : Nat) * m * guess := by
  have hg := guess_nonneg
  induction A with
  | ret c =>
    intro q m' r LN Lκ F ss ss' _ _ h
    unfold hideVal
    simp only [WinN, val1]
    have : (0 : ℚ) ≤ (q + r * b : Nat) * m * guess := by positivity
    refine le_trans (avg_le_const fun N => avg_le_const (c := ind (WinJoint (wideTable O D F) me ss' c)) fun κ => ?_) (le_add_of_nonneg_right this)
    refine ind_mono fun hw => ?_
    exact ((hidden_sameBut O F _ _).win me h.revealed c).mp hw.2
  | ask l k ih =>
    intro q m' r LN Lκ F ss ss' hb hm h
    obtain ⟨-, q', rfl, hk⟩ := hb
    have h1 := ih ((wideTable O D F).merlin l 64) q' m' r LN Lκ F ss ss' (hk _) hm h
    have h2 := chance_named_nonces (P := P) LN [l]
    have h3 : hideVal O me x LN Lκ F ss (.ask l k) ≤ hideVal O me x LN Lκ F ss (k ((wideTable O D F).merlin l 64)) +
        avg fun N : Fin m → Fin 3 → Arr 64 => ind (∃ k, LN k = none ∧ ∃ l' ∈ [l], commitQs P (ov LN N) k = l') := by
      unfold hideVal
      rw [← avg_add]
      refine avg_mono fun N => ?_
      rw [← avg_const (Ω := Fin m → Arr 64) (ind (∃ k, LN k = none ∧ ∃ l' ∈ [l], commitQs P (ov LN N) k = l')), ← avg_add]
      refine avg_mono fun κ => (ind_diff _ _ _ fun hn => and_congr_right fun hi => ?_).1
      simp only [WinN]
      rw [h.agree O N κ hi l (fun k hk e => hn ⟨k, hk, l, by simp, e⟩) 64]
    simp only [val1]
    refine le_trans h3 (le_trans (add_le_add h1 h2) (le_of_eq ?_))
    rw [List.length_singleton]
    push_cast
    ring
  | request rq k ih =>
    intro q m' r LN Lκ F ss ss' hb hm h
    cases rq with
    | start t =>
      obtain ⟨ht, m'', rfl, hk⟩ := hb
      have hlt : ss.length < m := by omega
      have e0 : hideVal O me x LN Lκ F ss (.request (.start t) k) = avg fun N : Fin m → Fin 3 → Arr 64 => avg fun κ : Fin m → Arr 64 =>
          ind (Function.Injective (commitQs P (ov LN N)) ∧ WinN (hiddenO P O F (ov LN N) (ov Lκ κ)) (ov LN N) me x
            (ss ++ [.committing t ⟨ss.length, hlt⟩]) (k (.commitment (pref (ov Lκ κ ⟨ss.length, hlt⟩))))) := by
        unfold hideVal
        refine avg_congr fun N => avg_congr fun κ => ind_congr (and_congr_right fun hi => ?_)
        simp only [WinN, dif_pos hlt]
        rw [hidden_commit O hD F _ _ hi]
      rw [e0]
      simp only [val1]
      have e1 : ∀ N : Fin m → Fin 3 → Arr 64, (avg fun κ : Fin m → Arr 64 =>
          ind (Function.Injective (commitQs P (ov LN N)) ∧ WinN (hiddenO P O F (ov LN N) (ov Lκ κ)) (ov LN N) me x
            (ss ++ [.committing t ⟨ss.length, hlt⟩]) (k (.commitment (pref (ov Lκ κ ⟨ss.length, hlt⟩)))))) =
          avg fun w : Arr 64 => avg fun κ : Fin m → Arr 64 =>
          ind (Function.Injective (commitQs P (ov LN N)) ∧ WinN (hiddenO P O F (ov LN N) (ov (Function.update Lκ ⟨ss.length, hlt⟩ (some w)) κ)) (ov LN N) me x
            (ss ++ [.committing t ⟨ss.length, hlt⟩]) (k (.commitment (pref w)))) := by
        intro N
        have := avg_ov Lκ ⟨ss.length, hlt⟩ (h.freshκ _ (le_refl _)) fun κ =>
          ind (Function.Injective (commitQs P (ov LN N)) ∧ WinN (hiddenO P O F (ov LN N) κ) (ov LN N) me x
            (ss ++ [.committing t ⟨ss.length, hlt⟩]) (k (.commitment (pref (κ ⟨ss.length, hlt⟩)))))
        refine Eq.trans this (avg_congr fun w => avg_congr fun κ => ?_)
        rw [ov_of_some _ κ ⟨ss.length, hlt⟩ w (Function.update_self _ _ _)]
      simp only [e1]
      rw [avg_comm]
      have hnn : (0 : ℚ) ≤ (q + r * b : Nat) * m * guess := by positivity
      rw [← avg_const (Ω := Arr 64) ((q + r * b : Nat) * m * guess), ← avg_add]
      refine avg_mono fun w => ?_
      refine ih _ q m'' r LN (Function.update Lκ ⟨ss.length, hlt⟩ (some w)) F _ _ (hk _)
        (by simp only [List.length_append, List.length_singleton]; omega) ⟨?_, ?_, ?_, ?_, ?_⟩
      · refine List.rel_append (h.rel.imp fun p p' hp => ?_) (List.Forall₂.cons (.committing t _ w (h.freshN _ (le_refl _)) (Function.update_self _ _ _)) List.Forall₂.nil)
        cases hp with
        | committing t' k' κ' h1 h2 =>
          refine .committing t' k' κ' h1 ?_
          rw [Function.update_of_ne]
          · exact h2
          · rintro rfl
            rw [h.freshκ _ (le_refl _)] at h2; cases h2
        | revealing t v coms => exact .revealing t v coms
        | finished t coms => exact .finished t coms
      · intro i t' k' hi
        rcases lt_or_ge i ss.length with hlt' | hge
        · rw [List.getElem?_append_left hlt'] at hi
          exact h.idx i t' k' hi
        · rw [List.getElem?_append_right hge] at hi
          have : i - ss.length = 0 := by
            by_contra hne
            rw [List.getElem?_eq_none (by simp; omega)] at hi
            cases hi
          rw [this] at hi
          simp only [List.getElem?_cons_zero, Option.some.injEq, Phase.committing.injEq] at hi
          rw [← hi.2]
          simp only
          omega
      · intro k' hk'
        rw [List.length_append, List.length_singleton] at hk'
        exact h.freshN k' (by omega)
      · intro k' hk'
        rw [List.length_append, List.length_singleton] at hk'
        rw [Function.update_of_ne]
        · exact h.freshκ k' (by omega)
        · rintro rfl
          simp at hk'
      · intro k' v hv
        have := h.prog k' v hv
        rw [Function.update_of_ne]
        · exact this
        · rintro rfl
          rw [h.freshκ _ (le_refl _)] at this; cases this
    | reveal i cs =>
      obtain ⟨-, r', rfl, hk⟩ := hb
      have hnn : (0 : ℚ) ≤ (q + r' * b : Nat) * m * guess := by positivity
      have hle : ((q + r' * b : Nat) : ℚ) * m * guess ≤ (q + (r' + 1) * b : Nat) * m * guess := by
        have : (0 : ℚ) ≤ b * m * guess := by positivity
        push_cast
        linarith
      have e0 : ∀ A' : Client (CosignRequest P) CosignAnswer α, (∀ N κ, Function.Injective (commitQs P (ov LN N)) → (WinN (hiddenO P O F (ov LN N) (ov Lκ κ)) (ov LN N) me x ss (.request (.reveal i cs) k) ↔
          WinN (hiddenO P O F (ov LN N) (ov Lκ κ)) (ov LN N) me x ss A')) →
          hideVal O me x LN Lκ F ss (.request (.reveal i cs) k) = hideVal O me x LN Lκ F ss A' := by
        intro A' hA'
        unfold hideVal
        exact avg_congr fun N => avg_congr fun κ => ind_congr (and_congr_right fun hi => hA' N κ hi)
      simp only [val1]
      rcases forall₂_get h.rel i with ⟨h1, h2⟩ | ⟨p, p', h1, h2, hpp⟩
      · simp only [h2]
        rw [e0 (k .refused) fun N κ _ => by simp only [WinN, h1]]
        exact le_trans (ih _ q m' r' LN Lκ F ss ss' (hk _) hm h) (by linarith)
      simp only [h2]
      cases hpp with
      | revealing t v coms =>
        rw [e0 (k .refused) fun N κ _ => by simp only [WinN, h1]]
        exact le_trans (ih _ q m' r' LN Lκ F ss ss' (hk _) hm h) (by simp only; linarith)
      | finished t coms =>
        rw [e0 (k .refused) fun N κ _ => by simp only [WinN, h1]]
        exact le_trans (ih _ q m' r' LN Lκ F ss ss' (hk _) hm h) (by simp only; linarith)
      | committing t j κ₀ hj hκ =>
        simp only
        have hji : j.1 = i := h.idx i t j h1
        have e1 : hideVal O me x LN Lκ F ss (.request (.reveal i cs) k) = avg fun v : Fin 3 → Arr 64 =>
            hideVal O me x (Function.update LN j (some v)) Lκ (Function.update F ⟨_, hD (nonceReveal P v)⟩ κ₀)
              (ss.set i (.revealing t v (registered me cs))) (k (.reveal (nonceReveal P v))) := by
          have a1 : hideVal O me x LN Lκ F ss (.request (.reveal i cs) k) = avg fun N : Fin m → Fin 3 → Arr 64 => avg fun κ : Fin m → Arr 64 =>
              ind (Function.Injective (commitQs P (ov LN N)) ∧ WinN (hiddenO P O F (ov LN N) (ov Lκ κ)) (ov LN N) me x
                (ss.set i (.revealing t (ov LN N j) (registered me cs))) (k (.reveal (nonceReveal P (ov LN N j))))) := by
            unfold hideVal
            refine avg_congr fun N => avg_congr fun κ => ind_congr (and_congr_right fun hi => ?_)
            simp only [WinN, h1]
          rw [a1]
          have a2 := avg_ov LN j hj fun N => avg fun κ : Fin m → Arr 64 =>
              ind (Function.Injective (commitQs P N) ∧ WinN (hiddenO P O F N (ov Lκ κ)) N me x
                (ss.set i (.revealing t (N j) (registered me cs))) (k (.reveal (nonceReveal P (N j)))))
          refine Eq.trans a2 (avg_congr fun v => avg_congr fun N => avg_congr fun κ => ?_)
          have a3 : ov (Function.update LN j (some v)) N j = v := ov_of_some _ _ _ _ (Function.update_self _ _ _)
          simp only [a3]
          refine ind_congr (and_congr_right fun hi => ?_)
          have a4 : withKeyed (commitQs P (ov (Function.update LN j (some v)) N)) F (ov Lκ κ) =
              withKeyed (commitQs P (ov (Function.update LN j (some v)) N)) (Function.update F ⟨_, hD (nonceReveal P v)⟩ κ₀) (ov Lκ κ) := by
            funext d
            unfold withKeyed
            split_ifs with hd
            · rfl
            · rw [Function.update_of_ne]
              rintro rfl
              refine hd ⟨j, ?_⟩
              unfold commitQs
              rw [a3]
          unfold hiddenO
          rw [a4]
        rw [e1]
        refine le_trans ?_ (add_le_add_right hle _)
        rw [← avg_const (Ω := Fin 3 → Arr 64) ((q + r' * b : Nat) * m * guess), ← avg_add]
        refine avg_mono fun v => ?_
        by_cases hc : ∃ k' v', LN k' = some v' ∧ commitmentQuery (nonceReveal P v') = commitmentQuery (nonceReveal P v)
        · obtain ⟨k', v', hk', hv'⟩ := hc
          have hne : k' ≠ j := by
            rintro rfl; rw [hj] at hk'; cases hk'
          have z : hideVal O me x (Function.update LN j (some v)) Lκ (Function.update F ⟨_, hD (nonceReveal P v)⟩ κ₀)
              (ss.set i (.revealing t v (registered me cs))) (k (.reveal (nonceReveal P v))) ≤ 0 := by
            unfold hideVal
            refine avg_le_const fun N => avg_le_const fun κ => le_of_eq (if_neg ?_)
            rintro ⟨hi, -⟩
            refine hne (@hi k' j ?_)
            unfold commitQs
            rw [ov_of_some _ _ _ _ (show Function.update LN j (some v) k' = some v' by rw [Function.update_of_ne hne]; exact hk'),
              ov_of_some _ _ _ _ (Function.update_self _ _ _)]
            exact hv'
          have := val1_nonneg O hD me x (k (.reveal (nonceReveal P v))) (Function.update F ⟨_, hD (nonceReveal P v)⟩ κ₀)
            (ss'.set i (.revealing t v (registered me cs)))
          linarith
        · refine ih _ q m' r' _ Lκ _ _ _ (hk _) (by rw [List.length_set]; exact hm) ⟨?_, ?_, ?_, ?_, ?_⟩
          · have hlt := (List.getElem?_eq_some_iff.mp h1).1
            have hall : ∀ n, ∀ p p', ss[n]? = some p → ss'[n]? = some p' → n ≠ i → HiddenSession (P := P) (Function.update LN j (some v)) Lκ p p' := by
              intro n p p' hn hn' hni
              rcases forall₂_get h.rel n with ⟨h3, -⟩ | ⟨a, a', h3, h4, haa⟩
              · rw [h3] at hn; cases hn
              · rw [h3] at hn; rw [h4] at hn'
                cases hn; cases hn'
                cases haa with
                | committing t' k' κ' h5 h6 =>
                  refine .committing t' k' κ' ?_ h6
                  rw [Function.update_of_ne]
                  · exact h5
                  · rintro rfl
                    exact hni ((h.idx n t' _ h3).symm.trans hji)
                | revealing t v coms => exact .revealing t v coms
                | finished t coms => exact .finished t coms
            rw [List.forall₂_iff_get]
            refine ⟨by rw [List.length_set, List.length_set]; exact h.rel.length_eq, fun n hn hn' => ?_⟩
            simp only [List.get_eq_getElem, List.getElem_set]
            split_ifs with hin
            · exact .revealing t v _
            · rw [List.length_set] at hn hn'
              exact hall n _ _ (List.getElem?_eq_getElem hn) (List.getElem?_eq_getElem hn') fun e => hin e.symm
          · intro n t' k' hn
            by_cases hni : i = n
            · subst hni
              rw [List.getElem?_set_self (List.getElem?_eq_some_iff.mp h1).1] at hn
              cases hn
            · rw [List.getElem?_set_ne hni] at hn
              exact h.idx n t' k' hn
          · intro k' hk'
            rw [List.length_set] at hk'
            rw [Function.update_of_ne]
            · exact h.freshN k' hk'
            · rintro rfl
              have := (List.getElem?_eq_some_iff.mp h1).1
              omega
          · intro k' hk'
            rw [List.length_set] at hk'
            exact h.freshκ k' hk'
          · intro k' v' hk'
            by_cases hkj : k' = j
            · subst hkj
              rw [Function.update_self] at hk'
              cases hk'
              rw [Function.update_self]
              exact hκ
            · rw [Function.update_of_ne hkj] at hk'
              rw [Function.update_of_ne]
              · exact h.prog k' v' hk'
              · intro e
                exact hc ⟨k', v', hk', congrArg Subtype.val e⟩
    | cosign i rs =>
      obtain ⟨hrs, r', rfl, hk⟩ := hb
      have hnn : (0 : ℚ) ≤ (q + r' * b : Nat) * m * guess := by positivity
      have hle : ((q + r' * b : Nat) : ℚ) * m * guess + b * m * guess ≤ (q + (r' + 1) * b : Nat) * m * guess := by
        push_cast
        linarith
      have hbn : (0 : ℚ) ≤ b * m * guess := by positivity
      simp only [val1]
      rcases forall₂_get h.rel i with ⟨h1, h2⟩ | ⟨p, p', h1, h2, hpp⟩
      · simp only [h2]
        have e0 : hideVal O me x LN Lκ F ss (.request (.cosign i rs) k) = hideVal O me x LN Lκ F ss (k .refused) := by
          unfold hideVal
          simp only [WinN, h1]
        rw [e0]
        exact le_trans (ih _ q m' r' LN Lκ F ss ss' (hk _) hm h) (by linarith)
      simp only [h2]
      cases hpp with
      | committing t j κ₀ hj hκ =>
        have e0 : hideVal O me x LN Lκ F ss (.request (.cosign i rs) k) = hideVal O me x LN Lκ F ss (k .refused) := by
          unfold hideVal
          simp only [WinN, h1]
        rw [e0]
        exact le_trans (ih _ q m' r' LN Lκ F ss ss' (hk _) hm h) (by simp only; linarith)
      | finished t coms =>
        have e0 : hideVal O me x LN Lκ F ss (.request (.cosign i rs) k) = hideVal O me x LN Lκ F ss (k .refused) := by
          unfold hideVal
          simp only [WinN, h1]
        rw [e0]
        exact le_trans (ih _ q m' r' LN Lκ F ss ss' (hk _) hm h) (by simp only; linarith)
      | revealing t v coms =>
        simp only
        have h3 := chance_named_nonces (P := P) LN (rs.map fun e => commitmentQuery e.2)
        have h4 : hideVal O me x LN Lκ F ss (.request (.cosign i rs) k) ≤
            hideVal O me x LN Lκ F (ss.set i (.finished t coms)) (k (cosignAnswer (wideTable O D F) x me t v coms rs)) +
            avg fun N : Fin m → Fin 3 → Arr 64 => ind (∃ k, LN k = none ∧ ∃ l' ∈ rs.map fun e => commitmentQuery e.2, commitQs P (ov LN N) k = l') := by
          unfold hideVal
          rw [← avg_add]
          refine avg_mono fun N => ?_
          rw [← avg_const (Ω := Fin m → Arr 64) (ind (∃ k, LN k = none ∧ ∃ l' ∈ rs.map fun e => commitmentQuery e.2, commitQs P (ov LN N) k = l')), ← avg_add]
          refine avg_mono fun κ => (ind_diff _ _ _ fun hn => and_congr_right fun hi => ?_).1
          simp only [WinN, h1]
          rw [(hidden_sameBut O F (ov LN N) (ov Lκ κ)).cosign x me t v coms rs fun e he =>
            h.agree O N κ hi _ (fun k hk e' => hn ⟨k, hk, _, List.mem_map.mpr ⟨e, he, rfl⟩, e'⟩) 16]
        have h5 := ih (cosignAnswer (wideTable O D F) x me t v coms rs) q m' r' LN Lκ F (ss.set i (.finished t coms)) (ss'.set i (.finished t coms)) (hk _)
          (by rw [List.length_set]; exact hm) ⟨forall₂_set h.rel i (.finished t coms), ?_, by rw [List.length_set]; exact h.freshN,
            by rw [List.length_set]; exact h.freshκ, h.prog⟩
        · have h6 : ((rs.map fun e => commitmentQuery e.2).length : ℚ) * m * guess ≤ b * m * guess := by
            rw [List.length_map]
            have : (rs.length : ℚ) ≤ b := by exact_mod_cast hrs
            gcongr
          linarith
        · intro n t' k' hn
          by_cases hni : i = n
          · subst hni
            rw [List.getElem?_set_self (List.getElem?_eq_some_iff.mp h1).1] at hn
            cases hn
          · rw [List.getElem?_set_ne hni] at hn
            exact h.idx n t' k' hn

end Schnorrkel
