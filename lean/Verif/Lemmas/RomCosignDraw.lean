import Verif.Lemmas.RomCosignReal
import Verif.Lemmas.RomCosignInv

/-! # Nonces drawn session by session -/

namespace Schnorrkel
open Spec Schnorrkel.Props
variable {P : Type} [Ristretto P] {D : Finset (List MOp)} {α : Type} [Goal P α] {fin : α → Prop}

/-- Nonces for each transcript and session number. -/
def nvOf {T : Finset (List MOp)} {m : Nat} (g : T × Fin m → Fin 3 → Arr 64) (t : Transcript) (k : Nat) : Fin 3 → Arr 64 :=
  if h : t.log ∈ T ∧ k < m then g (⟨t.log, h.1⟩, ⟨k, h.2⟩) else fun _ => zeros 64

/-- The same session, with its nonces kept or looked up. -/
inductive SameSession {m : Nat} (M : Fin m → Option (Fin 3 → Arr 64)) : KeptPhase P → IndexPhase P m → Prop
  | committing (t : Transcript) (v : Fin 3 → Arr 64) (k : Fin m) (h : M k = some v) : SameSession M (.committing t v) (.committing t k)
  | revealing (t : Transcript) (v : Fin 3 → Arr 64) (coms : BMap P Commitment) : SameSession M (.revealing t v coms) (.revealing t v coms)
  | finished (t : Transcript) (coms : BMap P Commitment) : SameSession M (.finished t coms) (.finished t coms)

theorem SameSession.update {m : Nat} {M : Fin m → Option (Fin 3 → Arr 64)} {p : KeptPhase P} {p' : IndexPhase P m} (h : SameSession M p p')
    (k : Fin m) (hk : M k = none) (v : Fin 3 → Arr 64) : SameSession (Function.update M k (some v)) p p' := by
  cases h with
  | committing t v' k' h' =>
    refine .committing t v' k' ?_
    rw [Function.update_of_ne]
    · exact h'
    · rintro rfl; rw [hk] at h'; cases h'
  | revealing t v coms => exact .revealing t v coms
  | finished t coms => exact .finished t coms

theorem sameSession_revealed {m : Nat} {M : Fin m → Option (Fin 3 → Arr 64)} {ss : List (KeptPhase P)} {ss' : List (IndexPhase P m)}
    (h : List.Forall₂ (SameSession M) ss ss') : revealedIn ss = revealedIn ss' := by
  induction h with
  | nil => rfl
  | cons h _ ih =>
    unfold revealedIn at ih ⊢
    simp only [List.filterMap_cons]
    cases h <;> simp only [ih]

theorem draw_step (O O' : Oracles) (T : Finset (List MOp)) (b g m : Nat) (me : PublicKey P) (x : Z) (A : Client (CosignRequest P) CosignAnswer α) :
    ∀ (q m' r : Nat) (L : T × Fin m → Option (Fin 3 → Arr 64)) (M : Fin m → Option (Fin 3 → Arr 64)) (ss : List (KeptPhase P))
      (ss' : List (IndexPhase P m)), SessionBounded D T b fin q m' r A → ss.length + m' ≤ m → List.Forall₂ (SameSession M) ss ss' →
      (∀ y, ss.length ≤ y.2.1 → L y = none) → (∀ k : Fin m, ss.length ≤ k.1 → M k = none) →
      (avg fun w : T × Fin m → Fin 3 → Arr 64 => ind (WinS O' (nvOf (ov L w)) me x ss A)) =
        avg fun N : Fin m → Fin 3 → Arr 64 => ind (WinN O' (ov M N) me x ss' A) := by
  induction A with
  | ret c =>
    intro q m' r L M ss ss' _ _ hs _ _
    have e : WinJoint O' me ss c ↔ WinJoint O' me ss' c :=
      SameBut.win (fun _ _ _ => rfl) me (sameSession_revealed hs) c
    simp only [WinS, WinN, e]
    rw [avg_const, avg_const]
  | ask l k ih =>
    intro q m' r L M ss ss' hb hm hs hL hM
    obtain ⟨-, q', rfl, hk⟩ := hb
    simp only [WinS, WinN]
    exact ih _ q' m' r L M ss ss' (hk _) hm hs hL hM
  | request rq k ih =>
    intro q m' r L M ss ss' hb hm hs hL hM
    cases rq with
    | start t =>
      obtain ⟨ht, m'', rfl, hk⟩ := hb
      have hlen := hs.length_eq
      have hlt : ss.length < m := by omega
      have hlt' : ss'.length < m := by omega
      have hlk : (⟨ss'.length, hlt'⟩ : Fin m) = ⟨ss.length, hlt⟩ := Fin.ext hlen.symm
      simp only [WinS, WinN, dif_pos hlt']
      rw [hlk]
      have hnv : ∀ w : T × Fin m → Fin 3 → Arr 64, nvOf w t ss.length = w (⟨t.log, ht⟩, ⟨ss.length, hlt⟩) := fun w => dif_pos ⟨ht, hlt⟩
      simp only [hnv]
      have e1 := avg_ov L (⟨t.log, ht⟩, ⟨ss.length, hlt⟩) (hL _ (le_refl _)) fun w => ind (WinS O' (nvOf w) me x
        (ss ++ [.committing t (w (⟨t.log, ht⟩, ⟨ss.length, hlt⟩))]) (k (.commitment (commitO P O' (w (⟨t.log, ht⟩, ⟨ss.length, hlt⟩))))))
      have e2 := avg_ov M ⟨ss.length, hlt⟩ (hM _ (le_refl _)) fun N => ind (WinN O' N me x
        (ss' ++ [.committing t ⟨ss.length, hlt⟩]) (k (.commitment (commitO P O' (N ⟨ss.length, hlt⟩)))))
      refine Eq.trans e1 (Eq.trans (avg_congr fun v => ?_) e2.symm)
      have a1 : ∀ w : T × Fin m → Fin 3 → Arr 64, ov (Function.update L (⟨t.log, ht⟩, ⟨ss.length, hlt⟩) (some v)) w
          (⟨t.log, ht⟩, ⟨ss.length, hlt⟩) = v := fun w => ov_of_some _ _ _ _ (Function.update_self _ _ _)
      have a2 : ∀ N : Fin m → Fin 3 → Arr 64, ov (Function.update M ⟨ss.length, hlt⟩ (some v)) N ⟨ss.length, hlt⟩ = v :=
        fun N => ov_of_some _ _ _ _ (Function.update_self _ _ _)
      simp only [a1, a2]
      refine ih _ q m'' r _ _ _ _ (hk _) (by simp only [List.length_append, List.length_singleton]; omega) ?_ ?_ ?_
      · refine List.rel_append (hs.imp fun p p' h => h.update _ (hM _ (le_refl _)) v) ?_
        exact List.Forall₂.cons (.committing t v _ (Function.update_self _ _ _)) List.Forall₂.nil
      · intro y hy
        rw [List.length_append, List.length_singleton] at hy
        rw [Function.update_of_ne]
        · exact hL y (by omega)
        · rintro rfl
          simp at hy
      · intro k' hk'
        rw [List.length_append, List.length_singleton] at hk'
        rw [Function.update_of_ne]
        · exact hM k' (by omega)
        · rintro rfl
          simp at hk'
    | reveal i cs =>
      obtain ⟨-, r', rfl, hk⟩ := hb
      simp only [WinS, WinN]
      rcases forall₂_get hs i with ⟨h1, h2⟩ | ⟨p, p', h1, h2, hpp⟩
      · simp only [h1, h2]
        exact ih _ q m' r' L M ss ss' (hk _) hm hs hL hM
      · simp only [h1, h2]
        cases hpp with
        | revealing t v coms => exact ih _ q m' r' L M ss ss' (hk _) hm hs hL hM
        | finished t coms => exact ih _ q m' r' L M ss ss' (hk _) hm hs hL hM
        | committing t v j hj =>
          simp only [ov_of_some _ _ _ _ hj]
          refine ih _ q m' r' L M _ _ (hk _) (by rw [List.length_set]; exact hm) (forall₂_set hs i (.revealing t v _)) ?_ ?_
          · rw [List.length_set]; exact hL
          · rw [List.length_set]; exact hM
    | cosign i rs =>
      obtain ⟨-, r', rfl, hk⟩ := hb
      simp only [WinS, WinN]
      rcases forall₂_get hs i with ⟨h1, h2⟩ | ⟨p, p', h1, h2, hpp⟩
      · simp only [h1, h2]
        exact ih _ q m' r' L M ss ss' (hk _) hm hs hL hM
      · simp only [h1, h2]
        cases hpp with
        | committing t v j hj => exact ih _ q m' r' L M ss ss' (hk _) hm hs hL hM
        | finished t coms => exact ih _ q m' r' L M ss ss' (hk _) hm hs hL hM
        | revealing t v coms =>
          refine ih _ q m' r' L M _ _ (hk _) (by rw [List.length_set]; exact hm) (forall₂_set hs i (.finished t coms)) ?_ ?_
          · rw [List.length_set]; exact hL
          · rw [List.length_set]; exact hM

end Schnorrkel
