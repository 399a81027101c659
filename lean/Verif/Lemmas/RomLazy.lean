import Verif.Spec.RomCosign
import Verif.Lemmas.RomPrf

/-! # Drawing the answers of a random table one by one -/

namespace Schnorrkel
open Spec Schnorrkel.Props
variable {D : Finset (List MOp)}

/-- The known answers, as a partial table. -/
def Lk (tab : Known) : D → Option (Arr 64) := fun d => tab.lookup d.1

theorem lookup_cons_self (q : List MOp) (w : Arr 64) (tab : Known) : List.lookup q ((q, w) :: tab) = some w := by
  simp [List.lookup]

theorem lookup_cons_ne {q q' : List MOp} (h : q' ≠ q) (w : Arr 64) (tab : Known) :
    List.lookup q' ((q, w) :: tab) = List.lookup q' tab := by
  have : (q' == q) = false := by simpa using h
  simp [List.lookup, this]

theorem lookup_mem {q : List MOp} {w : Arr 64} {tab : Known} (h : tab.lookup q = some w) : (q, w) ∈ tab := by
  induction tab with
  | nil => cases h
  | cons e tab ih =>
    obtain ⟨q', w'⟩ := e
    by_cases hq : q = q'
    · subst hq
      rw [lookup_cons_self] at h
      cases h
      simp
    · rw [lookup_cons_ne hq] at h
      exact List.mem_cons_of_mem _ (ih h)

theorem mem_lookup {q : List MOp} {w : Arr 64} {tab : Known} (hn : (tab.map (·.1)).Nodup) (h : (q, w) ∈ tab) :
    tab.lookup q = some w := by
  induction tab with
  | nil => cases h
  | cons e tab ih =>
    obtain ⟨q', w'⟩ := e
    simp only [List.map_cons, List.nodup_cons] at hn
    rcases List.mem_cons.mp h with h' | h'
    · cases h'; exact lookup_cons_self _ _ _
    · rw [lookup_cons_ne]
      · exact ih hn.2 h'
      · rintro rfl
        exact hn.1 (List.mem_map.mpr ⟨(q, w), h', rfl⟩)

theorem lookup_none_iff {q : List MOp} {tab : Known} : tab.lookup q = none ↔ q ∉ tab.map (·.1) := by
  induction tab with
  | nil => simp [List.lookup]
  | cons e tab ih =>
    obtain ⟨q', w'⟩ := e
    by_cases hq : q = q'
    · subst hq; simp [lookup_cons_self]
    · rw [lookup_cons_ne hq, ih]; simp [hq]

theorem Lk_cons (q : List MOp) (h : q ∈ D) (w : Arr 64) (tab : Known) :
    (Lk ((q, w) :: tab) : D → Option (Arr 64)) = Function.update (Lk tab) ⟨q, h⟩ (some w) := by
  funext d
  by_cases hd : d = ⟨q, h⟩
  · subst hd
    simp [Lk, lookup_cons_self]
  · rw [Function.update_of_ne hd]
    exact lookup_cons_ne (fun e => hd (Subtype.ext e)) _ _

theorem update_Lk (q : List MOp) (h : q ∈ D) (w : Arr 64) (tab : Known) (f : D → Arr 64) :
    Function.update (ov (Lk tab) f) ⟨q, h⟩ w = ov (Lk ((q, w) :: tab)) f := by
  funext d
  by_cases hd : d = ⟨q, h⟩
  · subst hd
    rw [Function.update_self]
    exact (ov_of_some (Lk ((q, w) :: tab)) f ⟨q, h⟩ w (lookup_cons_self q w tab)).symm
  · rw [Function.update_of_ne hd, Lk_cons q h]
    simp [ov, Function.update_of_ne hd]

/-- All answers known to whoever runs the game, and those that come from the hash function itself. -/
abbrev TB := Known × Known

/-- Both tables with one more answer. -/
def TB.add (S : TB) (q : List MOp) (w : Arr 64) : TB := ((q, w) :: S.1, (q, w) :: S.2)

/-- Draw the answer to `q`, unless it is known. -/
noncomputable def sample (q : List MOp) (S : TB) (φ : TB → ℚ) : ℚ :=
  match S.1.lookup q with
  | some _ => φ S
  | none => avg fun w : Arr 64 => φ (S.add q w)

/-- Draw the answers to some queries. -/
noncomputable def sampleAll : List (List MOp) → TB → (TB → ℚ) → ℚ
  | [], S, φ => φ S
  | q :: qs, S, φ => sample q S fun S => sampleAll qs S φ

theorem sample_known {q : List MOp} {S : TB} {w : Arr 64} (h : S.1.lookup q = some w) (φ : TB → ℚ) : sample q S φ = φ S := by
  unfold sample; rw [h]

theorem sample_new {q : List MOp} {S : TB} (h : S.1.lookup q = none) (φ : TB → ℚ) :
    sample q S φ = avg fun w : Arr 64 => φ (S.add q w) := by
  unfold sample; rw [h]

theorem sampleAll_append (qs qs' : List (List MOp)) (S : TB) (φ : TB → ℚ) :
    sampleAll (qs ++ qs') S φ = sampleAll qs S fun S => sampleAll qs' S φ := by
  induction qs generalizing S with
  | nil => rfl
  | cons q qs ih =>
    simp only [List.cons_append, sampleAll]
    congr 1
    funext S
    exact ih S

/-- Drawing answers of a random table. -/
theorem avg_sample (q : List MOp) (hq : q ∈ D) (S : TB) (G : (D → Arr 64) → ℚ) :
    (avg fun f => G (ov (Lk S.1) f)) = sample q S fun S => avg fun f => G (ov (Lk S.1) f) := by
  cases h : S.1.lookup q with
  | some w => rw [sample_known h]
  | none =>
    rw [sample_new h, avg_ov (Lk S.1) ⟨q, hq⟩ h]
    refine avg_congr fun w => avg_congr fun f => ?_
    rw [← Lk_cons]
    rfl

theorem avg_sampleAll (qs : List (List MOp)) (hq : ∀ q ∈ qs, q ∈ D) (S : TB) (G : (D → Arr 64) → ℚ) :
    (avg fun f => G (ov (Lk S.1) f)) = sampleAll qs S fun S => avg fun f => G (ov (Lk S.1) f) := by
  induction qs generalizing S with
  | nil => rfl
  | cons q qs ih =>
    rw [avg_sample q (hq q (by simp)) S G]
    simp only [sampleAll]
    congr 1
    funext S
    exact ih (fun q h => hq q (by simp [h])) S

theorem sample_avg {Ω : Type} [Finite Ω] (q : List MOp) (S : TB) (φ : Ω → TB → ℚ) :
    (avg fun a => sample q S (φ a)) = sample q S fun S => avg fun a => φ a S := by
  cases h : S.1.lookup q with
  | some w => simp only [sample_known h]
  | none =>
    simp only [sample_new h]
    exact avg_comm _

theorem sampleAll_avg {Ω : Type} [Finite Ω] (qs : List (List MOp)) (S : TB) (φ : Ω → TB → ℚ) :
    (avg fun a => sampleAll qs S (φ a)) = sampleAll qs S fun S => avg fun a => φ a S := by
  induction qs generalizing S with
  | nil => rfl
  | cons q qs ih =>
    simp only [sampleAll]
    rw [sample_avg]
    congr 1
    funext S
    exact ih S

theorem sample_le_one {q : List MOp} {S : TB} {φ : TB → ℚ} (h : ∀ S, φ S ≤ 1) : sample q S φ ≤ 1 := by
  unfold sample
  split
  · exact h _
  · exact avg_le_const fun w => h _

theorem sampleAll_le_one {φ : TB → ℚ} (h : ∀ S, φ S ≤ 1) (qs : List (List MOp)) : ∀ S, sampleAll qs S φ ≤ 1 := by
  induction qs with
  | nil => exact h
  | cons q qs ih => intro S; exact sample_le_one ih

theorem sample_nonneg {q : List MOp} {S : TB} {φ : TB → ℚ} (h : ∀ S, 0 ≤ φ S) : 0 ≤ sample q S φ := by
  unfold sample
  split
  · exact h _
  · exact avg_nonneg fun w => h _

theorem sampleAll_nonneg {φ : TB → ℚ} (h : ∀ S, 0 ≤ φ S) (qs : List (List MOp)) : ∀ S, 0 ≤ sampleAll qs S φ := by
  induction qs with
  | nil => exact h
  | cons q qs ih => intro S; exact sample_nonneg ih

/-- Nothing is forgotten. -/
def Ext (S S' : TB) : Prop := ∀ q w, S.1.lookup q = some w → S'.1.lookup q = some w

theorem Ext.refl (S : TB) : Ext S S := fun _ _ h => h
theorem Ext.trans {S S' S'' : TB} (h : Ext S S') (h' : Ext S' S'') : Ext S S'' := fun q w hq => h' q w (h q w hq)
theorem Ext.add (S : TB) (q : List MOp) (w : Arr 64) (h : S.1.lookup q = none) : Ext S (S.add q w) := by
  intro q' w' h'
  show List.lookup q' ((q, w) :: S.1) = _
  rw [lookup_cons_ne]
  · exact h'
  · rintro rfl; rw [h] at h'; cases h'

theorem Ext.ov {S S' : TB} (h : Ext S S') (f : D → Arr 64) : ov (Lk S'.1) f = ov (Lk S.1) (ov (Lk S'.1) f) := by
  funext d
  cases hd : S.1.lookup d.1 with
  | none =>
    have : Lk S.1 d = none := hd
    show _ = (Lk S.1 d).getD _
    rw [this]; rfl
  | some w =>
    rw [ov_of_some (Lk S.1) _ d w hd, ov_of_some (Lk S'.1) _ d w (h _ _ hd)]

/-- Drawing one answer that is good most of the time. -/
theorem sample_le (q : List MOp) (S : TB) (φ ψ : TB → ℚ) (hφ : ∀ S, φ S ≤ 1) (hψ : ∀ S, 0 ≤ ψ S) (good : Arr 64 → Prop)
    (e c : ℚ) (hc : 0 ≤ c) (hn : S.1.lookup q = none) (he : chance (fun w => ¬ good w) ≤ e)
    (h : ∀ w, good w → φ (S.add q w) ≤ ψ (S.add q w) + c) : sample q S φ ≤ sample q S ψ + e + c := by
  rw [sample_new hn, sample_new hn]
  have h1 : (avg fun w => φ (S.add q w)) ≤ avg fun w => (ψ (S.add q w) + ind (¬ good w)) + c := by
    refine avg_mono fun w => ?_
    by_cases hw : good w
    · have := h w hw
      have := ind_nonneg (¬ good w)
      linarith
    · have : ind (¬ good w) = 1 := if_pos hw
      have := hφ (S.add q w)
      have := hψ (S.add q w)
      linarith
  rw [avg_add, avg_add, avg_const, ← chance_eq_avg] at h1
  linarith

/-- Drawing many answers, each of which keeps an invariant most of the time. -/
theorem sampleAll_le (N : Nat) (e : ℚ) (he : 0 ≤ e) (I : Nat → TB → Prop) (hmono : ∀ n S, I n S → I (n + 1) S)
    (φ ψ : TB → ℚ) (hφ : ∀ S, φ S ≤ 1) (hψ : ∀ S, 0 ≤ ψ S) (c : ℚ) (hc : 0 ≤ c) (qs : List (List MOp))
    (hI : ∀ n S q, n < N → I n S → q ∈ qs → S.1.lookup q = none → chance (fun w => ¬ I (n + 1) (S.add q w)) ≤ e) :
    ∀ n S, n + qs.length ≤ N → I n S →
      (∀ S', I (n + qs.length) S' → Ext S S' → (∀ q ∈ qs, ∃ w, S'.1.lookup q = some w) → φ S' ≤ ψ S' + c) →
      sampleAll qs S φ ≤ sampleAll qs S ψ + qs.length * e + c := by
  induction qs with
  | nil =>
    intro n S _ hS h
    have := h S hS (Ext.refl S) (fun q hq => nomatch hq)
    simpa [sampleAll] using this
  | cons q qs ih =>
    intro n S hN hS h
    simp only [List.length_cons] at hN ⊢
    have ih' := ih (fun n S q h1 h2 h3 => hI n S q h1 h2 (List.mem_cons_of_mem _ h3))
    simp only [sampleAll]
    cases hq : S.1.lookup q with
    | some w =>
      rw [sample_known hq, sample_known hq]
      refine le_trans (ih' (n + 1) S (by omega) (hmono _ _ hS) ?_) ?_
      · intro S' h1 h2 h3
        refine h S' ?_ h2 ?_
        · simp only [List.length_cons]; rw [show n + (qs.length + 1) = n + 1 + qs.length by omega]; exact h1
        · intro q' hq'
          rcases List.mem_cons.mp hq' with rfl | hq'
          · exact ⟨w, h2 _ _ hq⟩
          · exact h3 q' hq'
      · push_cast; nlinarith
    | none =>
      have := sample_le q S (fun S => sampleAll qs S φ) (fun S => sampleAll qs S ψ) (sampleAll_le_one hφ qs)
        (sampleAll_nonneg hψ qs) (fun w => I (n + 1) (S.add q w)) e (qs.length * e + c) (by positivity) hq
        (hI n S q (by omega) hS (by simp) hq) (fun w hw => by
          have := ih' (n + 1) (S.add q w) (by omega) hw (fun S' h1 h2 h3 => by
            refine h S' ?_ ((Ext.add S q w hq).trans h2) ?_
            · simp only [List.length_cons]; rw [show n + (qs.length + 1) = n + 1 + qs.length by omega]; exact h1
            · intro q' hq'
              rcases List.mem_cons.mp hq' with rfl | hq'
              · exact ⟨w, h2 _ _ (lookup_cons_self _ _ _)⟩
              · exact h3 q' hq')
          linarith)
      push_cast
      linarith

end Schnorrkel
