import Verif.Lemmas.RomCosignGame

/-! # What relates the two games -/

namespace Schnorrkel
open Spec Schnorrkel.Props
variable {P : Type} [Ristretto P] {D : Finset (List MOp)}

/-! ## Lists of sessions -/

theorem set_split {α : Type} {l : List α} {i : Nat} {a : α} (h : l[i]? = some a) :
    ∃ l₁ l₂, l = l₁ ++ a :: l₂ ∧ ∀ b, l.set i b = l₁ ++ b :: l₂ := by
  induction l generalizing i with
  | nil => simp at h
  | cons c l ih =>
    cases i with
    | zero =>
      simp only [List.getElem?_cons_zero, Option.some.injEq] at h
      subst h
      exact ⟨[], l, rfl, fun b => rfl⟩
    | succ i =>
      simp only [List.getElem?_cons_succ] at h
      obtain ⟨l₁, l₂, h1, h2⟩ := ih h
      exact ⟨c :: l₁, l₂, by rw [h1]; rfl, fun b => by rw [List.set_cons_succ, h2]; rfl⟩

theorem forall₂_set {α β : Type} {R : α → β → Prop} {l₁ : List α} {l₂ : List β} (h : List.Forall₂ R l₁ l₂) (i : Nat) {a : α} {b : β}
    (hab : R a b) : List.Forall₂ R (l₁.set i a) (l₂.set i b) := by
  induction h generalizing i with
  | nil => simp
  | cons h1 h2 ih =>
    cases i with
    | zero => exact List.Forall₂.cons hab h2
    | succ i => exact List.Forall₂.cons h1 (ih i)

theorem forall₂_get {α β : Type} {R : α → β → Prop} {l₁ : List α} {l₂ : List β} (h : List.Forall₂ R l₁ l₂) (i : Nat) :
    (l₁[i]? = none ∧ l₂[i]? = none) ∨ ∃ a b, l₁[i]? = some a ∧ l₂[i]? = some b ∧ R a b := by
  induction h generalizing i with
  | nil => simp
  | cons h1 h2 ih =>
    cases i with
    | zero => exact Or.inr ⟨_, _, rfl, rfl, h1⟩
    | succ i => simpa using ih i

theorem forall₂_imp_mem {α β : Type} {R R' : α → β → Prop} {l₁ : List α} {l₂ : List β} (h : List.Forall₂ R l₁ l₂)
    (hi : ∀ a b, b ∈ l₂ → R a b → R' a b) : List.Forall₂ R' l₁ l₂ := by
  induction h with
  | nil => exact List.Forall₂.nil
  | cons h1 h2 ih =>
    exact List.Forall₂.cons (hi _ _ (by simp) h1) (ih fun a b hb => hi a b (by simp [hb]))

/-- Commitments that no new answer should hit: those not yet opened and those on record. -/
def exOf {V : Type} (ss : List (Phase P (Arr 64) V)) : List Commitment :=
  ss.flatMap fun
    | .committing _ κ => [pref κ]
    | .revealing _ _ coms => coms.map (·.2)
    | .finished _ _ => []

theorem pendingOf_append {V : Type} (a b : List (Phase P (Arr 64) V)) : pendingOf (a ++ b) = pendingOf a ++ pendingOf b :=
  List.filterMap_append
theorem pendingOf_committing {V : Type} (t : Transcript) (κ : Arr 64) (b : List (Phase P (Arr 64) V)) :
    pendingOf (.committing t κ :: b) = pref κ :: pendingOf b := rfl
theorem pendingOf_revealing {V : Type} (t : Transcript) (v : V) (c : BMap P Commitment) (b : List (Phase P (Arr 64) V)) :
    pendingOf (.revealing t v c :: b) = pendingOf b := rfl
theorem pendingOf_finished {V : Type} (t : Transcript) (c : BMap P Commitment) (b : List (Phase P (Arr 64) V)) :
    pendingOf (.finished t c :: b) = pendingOf b := rfl
theorem exOf_append {V : Type} (a b : List (Phase P (Arr 64) V)) : exOf (a ++ b) = exOf a ++ exOf b :=
  List.flatMap_append
theorem exOf_committing {V : Type} (t : Transcript) (κ : Arr 64) (b : List (Phase P (Arr 64) V)) :
    exOf (.committing t κ :: b) = pref κ :: exOf b := rfl
theorem exOf_revealing {V : Type} (t : Transcript) (v : V) (c : BMap P Commitment) (b : List (Phase P (Arr 64) V)) :
    exOf (.revealing t v c :: b) = c.map (·.2) ++ exOf b := rfl
theorem exOf_finished {V : Type} (t : Transcript) (c : BMap P Commitment) (b : List (Phase P (Arr 64) V)) :
    exOf (.finished t c :: b) = exOf b := rfl
theorem revealedIn_append {K V : Type} (a b : List (Phase P K V)) : revealedIn (a ++ b) = revealedIn a ++ revealedIn b :=
  List.filterMap_append
theorem revealedIn_committing {K V : Type} (t : Transcript) (κ : K) (b : List (Phase P K V)) :
    revealedIn (.committing t κ :: b) = revealedIn b := rfl
theorem revealedIn_revealing {K V : Type} (t : Transcript) (v : V) (c : BMap P Commitment) (b : List (Phase P K V)) :
    revealedIn (.revealing t v c :: b) = (t, c) :: revealedIn b := rfl
theorem revealedIn_finished {K V : Type} (t : Transcript) (c : BMap P Commitment) (b : List (Phase P K V)) :
    revealedIn (.finished t c :: b) = (t, c) :: revealedIn b := rfl

theorem pending_ex {V : Type} (ss : List (Phase P (Arr 64) V)) : ∀ c ∈ pendingOf ss, c ∈ exOf ss := by
  induction ss with
  | nil => intro c h; cases h
  | cons ph ss ih =>
    cases ph with
    | committing t κ =>
      rw [pendingOf_committing, exOf_committing]
      intro c hc
      rcases List.mem_cons.mp hc with rfl | hc
      · simp
      · exact List.mem_cons_of_mem _ (ih c hc)
    | revealing t v coms =>
      rw [pendingOf_revealing, exOf_revealing]
      exact fun c hc => List.mem_append_right _ (ih c hc)
    | finished t coms => exact ih

theorem mem_exOf {V : Type} {ss : List (Phase P (Arr 64) V)} {t : Transcript} {v : V} {coms : BMap P Commitment}
    (h : .revealing t v coms ∈ ss) : ∀ e ∈ coms, e.2 ∈ exOf ss := by
  intro e he
  exact List.mem_flatMap.mpr ⟨_, h, List.mem_map.mpr ⟨e, he, rfl⟩⟩

theorem get_set {α : Type} {l : List α} {i j : Nat} {a b : α} (h : (l.set i a)[j]? = some b) : (j = i ∧ a = b) ∨ (j ≠ i ∧ l[j]? = some b) := by
  by_cases hj : j = i
  · subst hj
    have hlt : j < l.length := by
      have := (List.getElem?_eq_some_iff.mp h).1
      rwa [List.length_set] at this
    rw [List.getElem?_set_self hlt] at h
    exact Or.inl ⟨rfl, Option.some.inj h⟩
  · rw [List.getElem?_set_ne (fun h' => hj h'.symm)] at h
    exact Or.inr ⟨hj, h⟩

theorem ripe_eq_some {tab : Known} {ss : List (FakePhase P)} {j : Nat} {t : Transcript} {coms : BMap P Commitment} {es : View P} :
    ripe tab ss j = some (t, coms, es) ↔ ss[j]? = some (.revealing t none coms) ∧ tab.openings coms = some es := by
  unfold ripe
  split
  · rename_i t' coms' h
    rw [h]
    simp only [Option.map_eq_some_iff, Prod.mk.injEq, Option.some.injEq, Phase.revealing.injEq, true_and]
    constructor
    · rintro ⟨es', h1, rfl, rfl, rfl⟩
      exact ⟨⟨rfl, rfl⟩, h1⟩
    · rintro ⟨⟨rfl, rfl⟩, h2⟩
      exact ⟨es, h2, rfl, rfl, rfl⟩
  · rename_i h
    constructor
    · intro h'; cases h'
    · rintro ⟨h1, -⟩
      exact (h t coms h1).elim

theorem ripe_none {tab : Known} {ss : List (FakePhase P)} {j : Nat} (h : ripe tab ss j = none) {t : Transcript} {coms : BMap P Commitment}
    (hj : ss[j]? = some (.revealing t none coms)) : (tab.openings coms : Option (View P)) = none := by
  cases ho : (tab.openings coms : Option (View P)) with
  | none => rfl
  | some es => rw [ripe_eq_some.mpr ⟨hj, ho⟩] at h; cases h

/-! ## Sessions -/

/-- A real and a simulated session in corresponding states. -/
inductive Rel (O : Oracles) (D T : Finset (List MOp)) (me : PublicKey P) (x : Z) (b : Nat) (S : TB) : RealPhase P → FakePhase P → Prop
  | committing (t : Transcript) (κ : Arr 64) (ht : t.log ∈ T) : Rel O D T me x b S (.committing t κ) (.committing t κ)
  | revealing (t : Transcript) (v : Fin 3 → Arr 64) (o : Option (View P × Scalar)) (coms : BMap P Commitment)
      (ht : t.log ∈ T) (hok : ComsOk me b coms) (hv : ¬ Beyond (v 0)) (hv0 : residue (v 0) ≠ 0)
      (ho : ∀ es s, o = some (es, s) → S.1.openings coms = some es)
      (hs : ∀ es s, o = some (es, s) → ∀ f : D → Arr 64, realShare (wideTable O D (ov (Lk S.1) f)) x me t v es = s) :
      Rel O D T me x b S (.revealing t v coms) (.revealing t o coms)
  | finished (t : Transcript) (coms : BMap P Commitment) : Rel O D T me x b S (.finished t coms) (.finished t coms)

theorem Rel.ext {O : Oracles} {T : Finset (List MOp)} {me : PublicKey P} {x : Z} {b : Nat} {S S' : TB} {p : RealPhase P} {p' : FakePhase P}
    (h : Rel O D T me x b S p p') (he : Ext S S')
    (ho : ∀ t o coms es, p' = .revealing t (some o) coms → (S.1.openings coms : Option (View P)) = some es →
      (S'.1.openings coms : Option (View P)) = some es) :
    Rel O D T me x b S' p p' := by
  cases h with
  | committing t κ ht => exact .committing t κ ht
  | revealing t v o coms ht hok hv hv0 h1 h2 =>
    refine .revealing t v o coms ht hok hv hv0 (fun es s hes => ?_) fun es s hes f => ?_
    · subst hes
      exact ho _ _ _ _ rfl (h1 es s rfl)
    · rw [he.ov f]
      exact h2 es s hes _
  | finished t coms => exact .finished t coms

/-- What relates the two games; of the sessions that wait to be settled, only those in `js` may be ripe. -/
structure Paired (O : Oracles) (D T : Finset (List MOp)) (me : PublicKey P) (x : Z) (b : Nat) (n : Nat) (js : List Nat)
    (ns : Nat → Fin 3 → Arr 64) (S : TB) (ss : List (RealPhase P)) (ss' : List (FakePhase P)) : Prop where
  tidy : Tidy D n (pendingOf ss') (exOf ss') S
  rel : List.Forall₂ (Rel O D T me x b S) ss ss'
  nodup : (pendingOf ss').Nodup
  prog : ∀ q w, S.1.lookup q = some w → S.2.lookup q = none → IsCommit q ∨ ∃ s ∈ revealedIn ss,
    ∀ f : D → Arr 64, ∃ R : Bytes, q = challengeOf (PublicKey.fromPoint (aggO (wideTable O D (ov (Lk S.1) f)) (groupKeys me s.2))) s.1 R
  strict : ∀ j t coms, ss'[j]? = some (.revealing t none coms) → j ∉ js → (S.1.openings coms : Option (View P)) = none
  names : ∀ (j : Nat) t v coms, ss[j]? = some (.revealing t v coms) → ns j = v
  told : ∀ (j : Nat) t v coms, ss[j]? = some (.revealing t v coms) → S.1.lookup (commitmentQuery (nonceReveal P v)) ≠ none
  apart : ∀ (j j' : Nat) t t' v v' coms coms', ss[j]? = some (.revealing t v coms) → ss[j']? = some (.revealing t' v' coms') →
    nonceReveal P v = nonceReveal P v' → j = j'

/-- Nothing changed about opening the commitments on record. -/
def Kept (ss' : List (FakePhase P)) (S S' : TB) : Prop :=
  ∀ t o coms, .revealing t o coms ∈ ss' → (S'.1.openings coms : Option (View P)) = S.1.openings coms

theorem Kept.refl (ss' : List (FakePhase P)) (S : TB) : Kept ss' S S := fun _ _ _ _ => rfl
theorem Kept.trans {ss' : List (FakePhase P)} {S S' S'' : TB} (h : Kept ss' S S') (h' : Kept ss' S' S'') : Kept ss' S S'' :=
  fun t o coms hm => (h' t o coms hm).trans (h t o coms hm)

theorem Kept.ripe {ss' : List (FakePhase P)} {S S' : TB} (h : Kept ss' S S') (j : Nat) : ripe S'.1 ss' j = ripe S.1 ss' j := by
  unfold Spec.ripe
  split
  · rename_i t coms hj
    rw [h t none coms (List.mem_of_getElem? hj)]
  · rfl

section
variable {O : Oracles} {T : Finset (List MOp)} {me : PublicKey P} {x : Z} {b n : Nat} {js : List Nat} {ns : Nat → Fin 3 → Arr 64} {S : TB}
  {ss : List (RealPhase P)} {ss' : List (FakePhase P)}

theorem Paired.mono (h : Paired O D T me x b n js ns S ss ss') {n' : Nat} (hn : n ≤ n') : Paired O D T me x b n' js ns S ss ss' :=
  ⟨h.tidy.mono hn, h.rel, h.nodup, h.prog, h.strict, h.names, h.told, h.apart⟩

/-- Everything already programmed stays described. -/
theorem Paired.prog_ext (h : Paired O D T me x b n js ns S ss ss') {S' : TB} (he : Ext S S') {q : List MOp} {w : Arr 64}
    (h1 : S.1.lookup q = some w) (h2 : S.2.lookup q = none) : IsCommit q ∨ ∃ s ∈ revealedIn ss,
    ∀ f : D → Arr 64, ∃ R : Bytes, q = challengeOf (PublicKey.fromPoint (aggO (wideTable O D (ov (Lk S'.1) f)) (groupKeys me s.2))) s.1 R := by
  rcases h.prog q w h1 h2 with h3 | ⟨s, hs, h4⟩
  · exact Or.inl h3
  · refine Or.inr ⟨s, hs, fun f => ?_⟩
    rw [he.ov f]
    exact h4 _

/-- Answers stay known. -/
theorem Ext.told {S S' : TB} (he : Ext S S') {q : List MOp} (h : S.1.lookup q ≠ none) : S'.1.lookup q ≠ none := by
  cases hl : S.1.lookup q with
  | none => exact absurd hl h
  | some w => rw [he q w hl]; exact fun h => by cases h

theorem Paired.kept_add (h : Paired O D T me x b n js ns S ss ss') (q : List MOp) (w : Arr 64)
    (hp : pref w ∉ exOf ss' ++ S.1.map fun e => pref e.2) : Kept ss' S (S.add q w) := by
  intro t o coms hm
  refine openings_cons _ _ _ _ fun _ e hec heq => hp (List.mem_append_left _ ?_)
  rw [heq]
  exact mem_exOf hm e hec

/-- A new answer of the hash function. -/
theorem Paired.add (h : Paired O D T me x b n js ns S ss ss') (q : List MOp) (hq : q ∈ D) (w : Arr 64) (hn : S.1.lookup q = none)
    (hp : pref w ∉ exOf ss' ++ S.1.map fun e => pref e.2) (hz : residue w ≠ 0) :
    Paired O D T me x b (n + 1) js ns (S.add q w) ss ss' := by
  have he := Ext.add S q w hn
  have hkept := h.kept_add q w hp
  refine ⟨h.tidy.add (pending_ex ss') q hq w hn hp hz, ?_, h.nodup, ?_, ?_, h.names, ?_, h.apart⟩
  · refine forall₂_imp_mem h.rel fun p p' hm hr => hr.ext he ?_
    rintro t o coms es rfl hes
    rw [hkept _ _ _ hm, hes]
  · intro q' w' h1 h2
    by_cases hqq : q' = q
    · subst hqq
      rw [show (S.add q' w).2 = (q', w) :: S.2 from rfl, lookup_cons_self] at h2
      cases h2
    · rw [show (S.add q w).1 = (q, w) :: S.1 from rfl, lookup_cons_ne hqq] at h1
      rw [show (S.add q w).2 = (q, w) :: S.2 from rfl, lookup_cons_ne hqq] at h2
      exact h.prog_ext he h1 h2
  · intro j t coms hj hjs
    rw [hkept _ _ _ (List.mem_of_getElem? hj)]
    exact h.strict j t coms hj hjs
  · exact fun j t v coms hj => he.told (h.told j t v coms hj)

/-- A new session. -/
theorem Paired.start (h : Paired O D T me x b n js ns S ss ss') (t : Transcript) (ht : t.log ∈ T) (κ : Arr 64)
    (hp : pref κ ∉ exOf ss' ++ S.1.map fun e => pref e.2) :
    Paired O D T me x b (n + 1) js ns S (ss ++ [.committing t κ]) (ss' ++ [.committing t κ]) := by
  have e1 : pendingOf (ss' ++ [.committing t κ]) = pendingOf ss' ++ [pref κ] := pendingOf_append _ _
  have e2 : exOf (ss' ++ [.committing t κ]) = exOf ss' ++ [pref κ] := exOf_append _ _
  have get : ∀ {V : Type} {l : List (Phase P (Arr 64) V)} {j : Nat} {t' : Transcript} {v : V} {coms : BMap P Commitment},
      (l ++ [.committing t κ])[j]? = some (.revealing t' v coms) → l[j]? = some (.revealing t' v coms) := by
    intro V l j t' v coms hj
    rcases Nat.lt_or_ge j l.length with hlt | hge
    · rwa [List.getElem?_append_left hlt] at hj
    · rw [List.getElem?_append_right hge] at hj
      have := List.mem_of_getElem? hj
      simp at this
  refine ⟨?_, ?_, ?_, ?_, ?_, ?_, ?_, ?_⟩
  · rw [e1, e2]
    have hT := h.tidy
    refine ⟨hT.len.trans (by omega), ?_, hT.mem, hT.nodup, hT.pair, ?_, hT.nz, hT.base⟩
    · have := hT.exlen; simp only [List.length_append, List.length_singleton]; omega
    · intro e he hc hm
      rcases List.mem_append.mp hm with hm | hm
      · exact hT.pend e he hc hm
      · rw [List.mem_singleton] at hm
        exact hp (List.mem_append_right _ (List.mem_map.mpr ⟨e, he, hm⟩))
  · exact List.rel_append (R := Rel O D T me x b S) h.rel (List.Forall₂.cons (.committing t κ ht) List.Forall₂.nil)
  · rw [e1]
    refine List.nodup_append.mpr ⟨h.nodup, by simp, ?_⟩
    intro a ha c hc
    rw [List.mem_singleton] at hc
    rintro rfl
    exact hp (List.mem_append_left _ (hc ▸ pending_ex ss' _ ha))
  · intro q w h1 h2
    rw [revealedIn_append]
    rcases h.prog q w h1 h2 with h3 | ⟨s, hs, h4⟩
    · exact Or.inl h3
    · exact Or.inr ⟨s, List.mem_append_left _ hs, h4⟩
  · exact fun j t' coms hj => h.strict j t' coms (get hj)
  · exact fun j t' v coms hj => h.names j t' v coms (get hj)
  · exact fun j t' v coms hj => h.told j t' v coms (get hj)
  · exact fun j j' t₁ t₂ v v' coms coms' h1 h2 => h.apart j j' t₁ t₂ v v' coms coms' (get h1) (get h2)

/-- A session reveals. -/
theorem Paired.reveal (h : Paired O D T me x b n [] ns S ss ss') (i : Nat) (t : Transcript) (κ : Arr 64) (h1 : ss[i]? = some (.committing t κ))
    (h2 : ss'[i]? = some (.committing t κ)) (coms : BMap P Commitment) (hok : ComsOk me b coms) (v : Fin 3 → Arr 64)
    (hv : ¬ Beyond (v 0)) (hv0 : residue (v 0) ≠ 0) (hD : commitmentQuery (nonceReveal P v) ∈ D)
    (hn : S.1.lookup (commitmentQuery (nonceReveal P v)) = none) :
    Paired O D T me x b (n + 1 + b) (List.range ss'.length) (Function.update ns i v) ((commitmentQuery (nonceReveal P v), κ) :: S.1, S.2)
      (ss.set i (.revealing t v coms)) (ss'.set i (.revealing t none coms)) := by
  set r := nonceReveal P v with hr
  obtain ⟨a, c, e1, e2⟩ := set_split h1
  obtain ⟨a', c', e1', e2'⟩ := set_split h2
  have ht : t.log ∈ T := by
    rcases forall₂_get h.rel i with ⟨h', -⟩ | ⟨p, p', g1, g2, hr'⟩
    · rw [h1] at h'; cases h'
    · rw [h1] at g1
      cases g1
      cases hr' with
      | committing _ _ ht => exact ht
  have hnd := h.nodup
  rw [e1', pendingOf_append, pendingOf_committing, List.nodup_middle, List.nodup_cons] at hnd
  have hp : pendingOf (ss'.set i (.revealing t none coms)) = pendingOf a' ++ pendingOf c' := by
    rw [e2', pendingOf_append, pendingOf_revealing]
  have hx : exOf (ss'.set i (.revealing t none coms)) = exOf a' ++ (coms.map (·.2) ++ exOf c') := by
    rw [e2', exOf_append, exOf_revealing]
  have hp' : pendingOf ss' = pendingOf a' ++ pref κ :: pendingOf c' := by
    rw [e1', pendingOf_append, pendingOf_committing]
  have hx' : exOf ss' = exOf a' ++ pref κ :: exOf c' := by
    rw [e1', exOf_append, exOf_committing]
  have hsub : ∀ d ∈ pendingOf (ss'.set i (.revealing t none coms)), d ∈ pendingOf ss' := by
    rw [hp, hp']
    intro d hd
    rcases List.mem_append.mp hd with hd | hd <;> simp [hd]
  have he : Ext S ((commitmentQuery r, κ) :: S.1, S.2) := by
    intro q w hq
    show List.lookup q (_ :: S.1) = _
    rw [lookup_cons_ne]
    · exact hq
    · rintro rfl; rw [hn] at hq; cases hq
  have hmem : pref κ ∈ pendingOf ss' := by rw [hp']; simp
  have hnew : ∀ e ∈ S.1, IsCommit e.1 → pref e.2 ≠ pref κ := fun e he hc heq => h.tidy.pend e he hc (heq ▸ hmem)
  have hself : (((commitmentQuery r, κ) :: S.1, S.2) : TB).1.lookup (commitmentQuery r) ≠ none := by
    rw [show (((commitmentQuery r, κ) :: S.1, S.2) : TB).1 = (commitmentQuery r, κ) :: S.1 from rfl, lookup_cons_self]
    exact fun h => by cases h
  refine ⟨?_, ?_, ?_, ?_, ?_, ?_, ?_, ?_⟩
  · have hT : Tidy D (n + b) (pendingOf (ss'.set i (.revealing t none coms))) (exOf (ss'.set i (.revealing t none coms))) S := by
      refine (h.tidy.mono (by omega)).change ?_ hsub
      have := h.tidy.exlen
      rw [hx'] at this
      rw [hx]
      have hl := hok.len
      simp only [List.length_append, List.length_cons, List.length_map] at this ⊢
      omega
    have e : n + 1 + b = n + b + 1 := by omega
    rw [e]
    refine hT.cons _ hD κ hn (fun _ => ⟨by rw [hp]; exact hnd.1, ?_⟩) (fun _ => Or.inl (isCommit_commitmentQuery r)) _
      (fun q' w' h' => Or.inr h')
    exact fun e he hc heq => hnew e he hc heq.symm
  · have hr : List.Forall₂ (Rel O D T me x b ((commitmentQuery r, κ) :: S.1, S.2)) ss ss' := by
      refine forall₂_imp_mem h.rel fun p p' hm hr => hr.ext he ?_
      rintro t' o coms' es rfl hes
      exact openings_stable hes _ κ hnew
    exact forall₂_set hr i (.revealing t v none coms ht hok hv hv0 (fun _ _ h => by cases h) (fun _ _ h => by cases h))
  · rw [hp]; exact hnd.2
  · intro q w hq1 hq2
    by_cases hqq : q = commitmentQuery r
    · exact Or.inl (hqq ▸ isCommit_commitmentQuery r)
    · rw [show (((commitmentQuery r, κ) :: S.1, S.2) : TB).1 = (commitmentQuery r, κ) :: S.1 from rfl, lookup_cons_ne hqq] at hq1
      rcases h.prog_ext he hq1 hq2 with h3 | ⟨s, hs, h4⟩
      · exact Or.inl h3
      · refine Or.inr ⟨s, ?_, h4⟩
        rw [e1, revealedIn_append, revealedIn_committing] at hs
        rw [e2, revealedIn_append, revealedIn_revealing]
        simp only [List.mem_append, List.mem_cons] at hs ⊢
        tauto
  · intro j t' coms' hj hjs
    refine absurd (List.mem_range.mpr ?_) hjs
    have := (List.getElem?_eq_some_iff.mp hj).1
    rwa [List.length_set] at this
  · intro j t' v' coms' hj
    rcases get_set hj with ⟨rfl, hq⟩ | ⟨hne, hj'⟩
    · cases hq; exact Function.update_self _ _ _
    · rw [Function.update_of_ne hne]; exact h.names j t' v' coms' hj'
  · intro j t' v' coms' hj
    rcases get_set hj with ⟨rfl, hq⟩ | ⟨hne, hj'⟩
    · cases hq; exact hself
    · exact he.told (h.told j t' v' coms' hj')
  · intro j j' t₁ t₂ v₁ v₂ coms₁ coms₂ hj hj' heq
    rcases get_set hj with ⟨rfl, hq⟩ | ⟨hne, hg⟩ <;> rcases get_set hj' with ⟨rfl, hq'⟩ | ⟨hne', hg'⟩
    · rfl
    · cases hq
      have := h.told j' _ _ _ hg'
      rw [← heq] at this
      exact absurd hn this
    · cases hq'
      have := h.told j _ _ _ hg
      rw [heq] at this
      exact absurd hn this
    · exact h.apart j j' t₁ t₂ v₁ v₂ coms₁ coms₂ hg hg' heq

/-- The challenge of a revealed session is chosen. -/
theorem Paired.program (h : Paired O D T me x b n js ns S ss ss') (q : List MOp) (hq : q ∈ D) (u : Arr 64) (hn : S.1.lookup q = none) (hs : IsSig q)
    (hc : ¬ IsCommit q)
    (s : Transcript × BMap P Commitment) (hm : s ∈ revealedIn ss)
    (hR : ∀ f : D → Arr 64, ∃ R : Bytes, q = challengeOf (PublicKey.fromPoint (aggO (wideTable O D (ov (Lk S.1) f)) (groupKeys me s.2))) s.1 R) :
    Paired O D T me x b (n + 1) js ns ((q, u) :: S.1, S.2) ss ss' := by
  have he : Ext S ((q, u) :: S.1, S.2) := by
    intro q' w hq'
    show List.lookup q' (_ :: S.1) = _
    rw [lookup_cons_ne]
    · exact hq'
    · rintro rfl; rw [hn] at hq'; cases hq'
  refine ⟨h.tidy.cons q hq u hn (fun h' => absurd h' hc) (fun _ => Or.inr hs) _ (fun _ _ h' => Or.inr h'), ?_, h.nodup, ?_, ?_, h.names, ?_, h.apart⟩
  · refine forall₂_imp_mem h.rel fun p p' _ hr => hr.ext he ?_
    rintro t o coms es rfl hes
    rw [← hes]
    exact openings_cons _ _ _ _ fun h' => absurd h' hc
  · intro q' w h1 h2
    by_cases hqq : q' = q
    · subst hqq
      refine Or.inr ⟨s, hm, fun f => ?_⟩
      rw [he.ov f]
      exact hR _
    · rw [show (((q, u) :: S.1, S.2) : TB).1 = (q, u) :: S.1 from rfl, lookup_cons_ne hqq] at h1
      exact h.prog_ext he h1 h2
  · intro j t coms hj hjs
    rw [← h.strict j t coms hj hjs]
    exact openings_cons _ _ _ _ fun h' => absurd h' hc
  · exact fun j t v coms hj => he.told (h.told j t v coms hj)

/-- A session is not ripe. -/
theorem Paired.skip {j : Nat} (h : Paired O D T me x b n (j :: js) ns S ss ss') (hj : ripe S.1 ss' j = none) :
    Paired O D T me x b n js ns S ss ss' := by
  refine ⟨h.tidy, h.rel, h.nodup, h.prog, ?_, h.names, h.told, h.apart⟩
  intro j' t coms hj' hjs
  by_cases hjj : j' = j
  · subst hjj
    exact ripe_none hj hj'
  · exact h.strict j' t coms hj' (by simp [hjj, hjs])

/-- A session has been settled. -/
theorem Paired.settled {j : Nat} (h : Paired O D T me x b n (j :: js) ns S ss ss') (t : Transcript) (v : Fin 3 → Arr 64) (coms : BMap P Commitment)
    (h1 : ss[j]? = some (.revealing t v coms)) (h2 : ss'[j]? = some (.revealing t none coms)) (es : View P) (s : Scalar)
    (ho : S.1.openings coms = some es)
    (hs : ∀ f : D → Arr 64, realShare (wideTable O D (ov (Lk S.1) f)) x me t v es = s) :
    Paired O D T me x b n js ns S ss (ss'.set j (.revealing t (some (es, s)) coms)) := by
  obtain ⟨a', c', e1', e2'⟩ := set_split h2
  have hp : pendingOf (ss'.set j (.revealing t (some (es, s)) coms)) = pendingOf ss' := by
    rw [e2', e1', pendingOf_append, pendingOf_revealing, pendingOf_append, pendingOf_revealing]
  have hx : exOf (ss'.set j (.revealing t (some (es, s)) coms)) = exOf ss' := by
    rw [e2', e1', exOf_append, exOf_revealing, exOf_append, exOf_revealing]
  have hself : ss.set j (.revealing t v coms) = ss := by
    obtain ⟨a, c, e1, e2⟩ := set_split h1
    rw [e2, ← e1]
  have hrel : Rel O D T me x b S (.revealing t v coms) (.revealing t (some (es, s)) coms) := by
    rcases forall₂_get h.rel j with ⟨h', -⟩ | ⟨p, p', g1, g2, hr⟩
    · rw [h1] at h'; cases h'
    · rw [h1] at g1; rw [h2] at g2
      cases g1; cases g2
      cases hr with
      | revealing _ _ _ _ ht hok hv hv0 _ _ =>
        refine .revealing t v _ coms ht hok hv hv0 ?_ ?_
        · rintro es' s' heq
          cases heq; exact ho
        · rintro es' s' heq
          cases heq; exact hs
  refine ⟨by rw [hp, hx]; exact h.tidy, ?_, by rw [hp]; exact h.nodup, h.prog, ?_, h.names, h.told, h.apart⟩
  · rw [← hself]
    exact forall₂_set h.rel j hrel
  · intro j' t' coms' hj' hjs
    rcases get_set hj' with ⟨rfl, hq⟩ | ⟨hne, hg⟩
    · cases hq
    · exact h.strict j' t' coms' hg (by simp [hne, hjs])

/-- A session is over. -/
theorem Paired.finish (h : Paired O D T me x b n js ns S ss ss') (i : Nat) (t : Transcript) (v : Fin 3 → Arr 64) (o : Option (View P × Scalar))
    (coms : BMap P Commitment) (h1 : ss[i]? = some (.revealing t v coms)) (h2 : ss'[i]? = some (.revealing t o coms)) :
    Paired O D T me x b n js ns S (ss.set i (.finished t coms)) (ss'.set i (.finished t coms)) := by
  obtain ⟨a, c, e1, e2⟩ := set_split h1
  obtain ⟨a', c', e1', e2'⟩ := set_split h2
  have hp : pendingOf (ss'.set i (.finished t coms)) = pendingOf ss' := by
    rw [e2', e1', pendingOf_append, pendingOf_finished, pendingOf_append, pendingOf_revealing]
  have hr : revealedIn (ss.set i (.finished t coms)) = revealedIn ss := by
    rw [e2, e1, revealedIn_append, revealedIn_finished, revealedIn_append, revealedIn_revealing]
  have get : ∀ {V : Type} {l : List (Phase P (Arr 64) V)} {j : Nat} {t' : Transcript} {v : V} {coms' : BMap P Commitment},
      (l.set i (.finished t coms))[j]? = some (.revealing t' v coms') → l[j]? = some (.revealing t' v coms') := by
    intro V l j t' v coms' hj
    rcases get_set hj with ⟨-, hp⟩ | ⟨-, hg⟩
    · cases hp
    · exact hg
  refine ⟨?_, forall₂_set h.rel i (.finished t coms), by rw [hp]; exact h.nodup, by rw [hr]; exact h.prog, ?_, ?_, ?_, ?_⟩
  · rw [hp]
    refine h.tidy.change ?_ (fun c hc => hc)
    have := h.tidy.exlen
    rw [e1', exOf_append, exOf_revealing] at this
    rw [e2', exOf_append, exOf_finished]
    simp only [List.length_append, List.length_map] at this ⊢
    omega
  · exact fun j t' coms hj => h.strict j t' coms (get hj)
  · exact fun j t' v coms hj => h.names j t' v coms (get hj)
  · exact fun j t' v coms hj => h.told j t' v coms (get hj)
  · exact fun j j' t₁ t₂ v v' coms coms' h1 h2 => h.apart j j' t₁ t₂ v v' coms coms' (get h1) (get h2)

end

/-! ## Sessions that wait to be settled -/

/-- The session waits to be settled. -/
def Phase.waits : FakePhase P → Bool
  | .revealing _ none _ => true
  | _ => false

/-- How many sessions wait to be settled. -/
def waiting (ss : List (FakePhase P)) : Nat := ss.countP Phase.waits

theorem waiting_set {ss : List (FakePhase P)} {i : Nat} {a : FakePhase P} (h : ss[i]? = some a) (c : FakePhase P) :
    waiting (ss.set i c) + (if Phase.waits a then 1 else 0) = waiting ss + (if Phase.waits c then 1 else 0) := by
  obtain ⟨l₁, l₂, e1, e2⟩ := set_split h
  unfold waiting
  rw [e2, e1]
  simp only [List.countP_append, List.countP_cons]
  omega

theorem waiting_append (ss : List (FakePhase P)) (t : Transcript) (κ : Arr 64) : waiting (ss ++ [.committing t κ]) = waiting ss := by
  unfold waiting
  rw [List.countP_append]
  rfl

/-- How many of the sessions `js` are ripe. -/
def ripeOf (tab : Known) (ss : List (FakePhase P)) (js : List Nat) : Nat := js.countP fun j => (ripe tab ss j).isSome

theorem countP_range {α : Type} (q : α → Bool) (l : List α) : (List.range l.length).countP (fun j => (l[j]?).any q) = l.countP q := by
  induction l using List.reverseRecOn with
  | nil => rfl
  | append_singleton l a ih =>
    rw [List.length_append, List.length_singleton, List.range_succ, List.countP_append, List.countP_append, ← ih]
    congr 1
    · refine List.countP_congr fun j hj => ?_
      rw [List.getElem?_append_left (List.mem_range.mp hj)]
    · simp

theorem ripeOf_le (tab : Known) (ss : List (FakePhase P)) : ripeOf tab ss (List.range ss.length) ≤ waiting ss := by
  unfold ripeOf waiting
  rw [← countP_range Phase.waits ss]
  refine List.countP_mono_left fun j _ hj => ?_
  obtain ⟨⟨t, coms, es⟩, h⟩ := Option.isSome_iff_exists.mp hj
  rw [(ripe_eq_some.mp h).1]
  rfl

end Schnorrkel
