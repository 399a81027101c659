import Verif.Lemmas.RomCosignBase

/-! # Openings of commitments -/

namespace Schnorrkel
open Spec Schnorrkel.Props
variable {P : Type} [Ristretto P] {D : Finset (List MOp)}

/-- The first reveal among `rs` in the name of `k` that opens the commitment `c`. -/
def firstOpen (O : Oracles) (rs : List (P × Reveal)) (k : Compressed) (c : Commitment) : Option (RevealedPoints P) :=
  rs.findSome? fun a => if compress a.1 = k ∧ (letI := O; commitmentTo a.2) = c then points a.2 else none

/-- The openings of all commitments on record by reveals among `rs`. -/
def openBy (O : Oracles) (coms : BMap P Commitment) (rs : List (P × Reveal)) : Option (View P) :=
  coms.mapM fun e => (firstOpen O rs e.1.compressed e.2).map fun p => (e.1, p)

/-- What is known about the answers. -/
structure Tidy (D : Finset (List MOp)) (n : Nat) (pend ex : List Commitment) (S : TB) : Prop where
  len : S.1.length ≤ n
  exlen : ex.length ≤ n
  mem : ∀ e ∈ S.1, e.1 ∈ D
  nodup : (S.1.map (·.1)).Nodup
  pair : ∀ e ∈ S.1, ∀ e' ∈ S.1, IsCommit e.1 → IsCommit e'.1 → pref e.2 = pref e'.2 → e = e'
  pend : ∀ e ∈ S.1, IsCommit e.1 → pref e.2 ∉ pend
  nz : ∀ e ∈ S.1, residue e.2 = 0 → IsCommit e.1 ∨ IsSig e.1
  base : ∀ q w, S.2.lookup q = some w → S.1.lookup q = some w

theorem Tidy.mono {n n' : Nat} {pend ex : List Commitment} {S : TB} (h : Tidy D n pend ex S) (hn : n ≤ n') :
    Tidy D n' pend ex S := ⟨h.len.trans hn, h.exlen.trans hn, h.mem, h.nodup, h.pair, h.pend, h.nz, h.base⟩

theorem Tidy.change {n : Nat} {pend pend' ex ex' : List Commitment} {S : TB} (h : Tidy D n pend ex S) (hn : ex'.length ≤ n)
    (hp : ∀ c ∈ pend', c ∈ pend) : Tidy D n pend' ex' S :=
  ⟨h.len, hn, h.mem, h.nodup, h.pair, fun e he hc hm => h.pend e he hc (hp _ hm), h.nz, h.base⟩

/-- A new answer. -/
theorem Tidy.cons {n : Nat} {pend ex : List Commitment} {S : TB} (h : Tidy D n pend ex S) (q : List MOp) (hq : q ∈ D)
    (w : Arr 64) (hn : S.1.lookup q = none) (hp : IsCommit q → pref w ∉ pend ∧ ∀ e ∈ S.1, IsCommit e.1 → pref w ≠ pref e.2)
    (hz : residue w = 0 → IsCommit q ∨ IsSig q) (T : Known) (hT : ∀ q' w', T.lookup q' = some w' → q' = q ∧ w' = w ∨ S.2.lookup q' = some w') :
    Tidy D (n + 1) pend ex ((q, w) :: S.1, T) := by
  refine ⟨?_, h.exlen.trans (Nat.le_succ n), ?_, ?_, ?_, ?_, ?_, ?_⟩
  · have := h.len; simp only [List.length_cons]; omega
  · intro e he
    rcases List.mem_cons.mp he with rfl | he
    · exact hq
    · exact h.mem e he
  · simp only [List.map_cons, List.nodup_cons]
    exact ⟨lookup_none_iff.mp hn, h.nodup⟩
  · intro e he e' he' hc hc' hpr
    rcases List.mem_cons.mp he with rfl | he <;> rcases List.mem_cons.mp he' with rfl | he'
    · rfl
    · exact absurd hpr ((hp hc).2 e' he' hc')
    · exact absurd hpr.symm ((hp hc').2 e he hc)
    · exact h.pair e he e' he' hc hc' hpr
  · intro e he hc
    rcases List.mem_cons.mp he with rfl | he
    · exact (hp hc).1
    · exact h.pend e he hc
  · intro e he hr
    rcases List.mem_cons.mp he with rfl | he
    · exact hz hr
    · exact h.nz e he hr
  · intro q' w' h'
    by_cases hqq : q' = q
    · subst hqq
      show List.lookup q' ((q', w) :: S.1) = _
      rw [lookup_cons_self]
      rcases hT q' w' h' with ⟨-, rfl⟩ | h''
      · rfl
      · rw [h.base _ _ h''] at hn; cases hn
    · show List.lookup q' ((q, w) :: S.1) = _
      rw [lookup_cons_ne hqq]
      rcases hT q' w' h' with ⟨h'', -⟩ | h''
      · exact absurd h'' hqq
      · exact h.base _ _ h''

theorem Tidy.add {n : Nat} {pend ex : List Commitment} {S : TB} (h : Tidy D n pend ex S) (hpe : ∀ c ∈ pend, c ∈ ex) (q : List MOp) (hq : q ∈ D)
    (w : Arr 64) (hn : S.1.lookup q = none) (hp : pref w ∉ ex ++ S.1.map fun e => pref e.2) (hz : residue w ≠ 0) :
    Tidy D (n + 1) pend ex (S.add q w) := by
  refine h.cons q hq w hn (fun _ => ⟨fun hm => hp (List.mem_append_left _ (hpe _ hm)), fun e he _ heq =>
    hp (List.mem_append_right _ (List.mem_map.mpr ⟨e, he, heq.symm⟩))⟩) (fun hr => absurd hr hz) _ ?_
  intro q' w' h'
  by_cases hqq : q' = q
  · subst hqq
    rw [lookup_cons_self] at h'
    cases h'
    exact Or.inl ⟨rfl, rfl⟩
  · rw [lookup_cons_ne hqq] at h'
    exact Or.inr h'

theorem Tidy.lookup {n : Nat} {pend ex : List Commitment} {S : TB} (h : Tidy D n pend ex S) {q : List MOp} {w : Arr 64} :
    S.1.lookup q = some w ↔ (q, w) ∈ S.1 := ⟨lookup_mem, mem_lookup h.nodup⟩

theorem opening_iff {n : Nat} {pend ex : List Commitment} {S : TB} (h : Tidy D n pend ex S) (c : Commitment) (p : RevealedPoints P) :
    S.1.opening c = some p ↔ ∃ r w, (commitmentQuery r, w) ∈ S.1 ∧ pref w = c ∧ points r = some p := by
  unfold Known.opening
  constructor
  · intro h1
    obtain ⟨e, he, h2⟩ := List.exists_of_findSome?_eq_some h1
    split at h2
    · rename_i h3
      obtain ⟨r, h4, h5⟩ := committedIn_some h2
      refine ⟨r, e.2, ?_, ?_, h5⟩
      · rw [← h4]; exact he
      · exact congrArg Commitment.mk h3
    · cases h2
  · rintro ⟨r, w, h1, h2, h3⟩
    cases hf : S.1.findSome? fun e => if firstBytes e.2 16 (by omega) = c.bytes then (committedIn e.1 : Option (RevealedPoints P)) else none with
    | none =>
      rw [List.findSome?_eq_none_iff] at hf
      have := hf _ h1
      rw [if_pos (by rw [← h2]; rfl), committedIn_commitmentQuery, h3] at this
      cases this
    | some p' =>
      obtain ⟨e, he, h4⟩ := List.exists_of_findSome?_eq_some hf
      split at h4
      · rename_i h5
        obtain ⟨r', h6, h7⟩ := committedIn_some h4
        have : e = (commitmentQuery r, w) := h.pair e he _ h1 (by rw [h6]; exact isCommit_commitmentQuery r')
          (isCommit_commitmentQuery r) (by rw [h2]; exact congrArg Commitment.mk h5)
        rw [this] at h6
        have := commitmentQuery_inj h6
        subst this
        rw [← h7, h3]
      · cases h4

theorem mapM_iff {α β : Type} (f g : α → Option β) (R : β → Prop) (h : ∀ a b, f a = some b ↔ g a = some b ∧ R b) :
    ∀ (l : List α) (l' : List β), l.mapM f = some l' ↔ l.mapM g = some l' ∧ ∀ b ∈ l', R b := by
  intro l
  induction l with
  | nil =>
    intro l'
    simp only [List.mapM_nil, Option.pure_def, Option.some.injEq]
    constructor
    · rintro rfl; simp
    · rintro ⟨rfl, -⟩; rfl
  | cons a l ih =>
    intro l'
    simp only [List.mapM_cons, Option.bind_eq_bind, Option.bind_eq_some_iff, Option.pure_def, Option.some.injEq]
    constructor
    · rintro ⟨b, h1, bs, h2, rfl⟩
      obtain ⟨h3, h4⟩ := (h a b).mp h1
      obtain ⟨h5, h6⟩ := (ih bs).mp h2
      exact ⟨⟨b, h3, bs, h5, rfl⟩, by simpa using ⟨h4, h6⟩⟩
    · rintro ⟨⟨b, h1, bs, h2, rfl⟩, h3⟩
      simp only [List.mem_cons, forall_eq_or_imp] at h3
      exact ⟨b, (h a b).mpr ⟨h1, h3.1⟩, bs, (ih bs).mpr ⟨h2, h3.2⟩, rfl⟩

/-- When the answers for all reveals are known, they open the commitments exactly if the openings were known and the
reveals are these. -/
theorem openBy_iff (O : Oracles) {n : Nat} {pend ex : List Commitment} {S : TB} (h : Tidy D n pend ex S) (coms : BMap P Commitment)
    (rs : List (P × Reveal)) (hk : ∀ a ∈ rs, ∃ w, S.1.lookup (commitmentQuery a.2) = some w) (f : D → Arr 64) (es : View P) :
    openBy (wideTable O D (ov (Lk S.1) f)) coms rs = some es ↔ S.1.openings coms = some es ∧ allRevealed es rs := by
  unfold openBy Known.openings allRevealed
  refine mapM_iff _ _ _ ?_ coms es
  intro e b
  have hc : ∀ a ∈ rs, ∀ w, S.1.lookup (commitmentQuery a.2) = some w →
      (letI := wideTable O D (ov (Lk S.1) f); commitmentTo a.2) = pref w := by
    intro a _ w hw
    have := wideTable_known16 O (h.mem _ (lookup_mem hw)) hw f
    exact congrArg Commitment.mk this
  simp only [Option.map_eq_some_iff]
  constructor
  · rintro ⟨p, hp, rfl⟩
    unfold firstOpen at hp
    obtain ⟨a, ha, h2⟩ := List.exists_of_findSome?_eq_some hp
    split at h2
    · rename_i h3
      obtain ⟨w, hw⟩ := hk a ha
      rw [hc a ha w hw] at h3
      exact ⟨⟨p, (opening_iff h e.2 p).mpr ⟨a.2, w, lookup_mem hw, h3.2, h2⟩, rfl⟩, a, ha, h3.1, (points_eq_some.mp h2).symm⟩
    · cases h2
  · rintro ⟨⟨p, hp, rfl⟩, a, ha, h1, h2⟩
    refine ⟨p, ?_, rfl⟩
    obtain ⟨r, w, h3, h4, h5⟩ := (opening_iff h e.2 p).mp hp
    have hr : r = a.2 := by rw [h2]; exact (points_eq_some.mp h5).symm
    subst hr
    have hw : S.1.lookup (commitmentQuery a.2) = some w := h.lookup.mpr h3
    cases hf : firstOpen (wideTable O D (ov (Lk S.1) f)) rs e.1.compressed e.2 with
    | none =>
      unfold firstOpen at hf
      rw [List.findSome?_eq_none_iff] at hf
      have := hf _ ha
      rw [if_pos ⟨h1, by rw [hc a ha w hw, h4]⟩, h5] at this
      cases this
    | some p' =>
      unfold firstOpen at hf
      obtain ⟨a', ha', h6⟩ := List.exists_of_findSome?_eq_some hf
      split at h6
      · rename_i h7
        obtain ⟨w', hw'⟩ := hk a' ha'
        rw [hc a' ha' w' hw'] at h7
        have := (opening_iff h e.2 p').mpr ⟨a'.2, w', lookup_mem hw', h7.2, h6⟩
        rw [hp] at this
        exact this.symm
      · cases h6

theorem opening_cons (tab : Known) (q : List MOp) (w : Arr 64) (c : Commitment) (h : IsCommit q → pref w ≠ c) :
    (Known.opening ((q, w) :: tab) c : Option (RevealedPoints P)) = tab.opening c := by
  unfold Known.opening
  rw [List.findSome?_cons]
  by_cases hq : IsCommit q
  · rw [if_neg]
    intro e
    exact h hq (congrArg Commitment.mk e)
  · rw [committedIn_not hq, ite_self]

theorem openings_cons (tab : Known) (q : List MOp) (w : Arr 64) (coms : BMap P Commitment)
    (h : IsCommit q → ∀ e ∈ coms, pref w ≠ e.2) :
    (Known.openings ((q, w) :: tab) coms : Option (View P)) = tab.openings coms := by
  unfold Known.openings
  induction coms with
  | nil => rfl
  | cons e coms ih =>
    simp only [List.mapM_cons]
    rw [opening_cons tab q w e.2 (fun hq => h hq e (by simp)), ih (fun hq e he => h hq e (by simp [he]))]

theorem openings_keys {tab : Known} : ∀ {coms : BMap P Commitment} {es : View P}, tab.openings coms = some es →
    es.map (·.1) = coms.map (·.1) := by
  intro coms
  induction coms with
  | nil =>
    intro es h
    unfold Known.openings at h
    simp only [List.mapM_nil, Option.pure_def, Option.some.injEq] at h
    subst h; rfl
  | cons e coms ih =>
    intro es h
    unfold Known.openings at h
    simp only [List.mapM_cons, Option.bind_eq_bind, Option.bind_eq_some_iff, Option.pure_def, Option.some.injEq,
      Option.map_eq_some_iff] at h
    obtain ⟨b, ⟨p, -, rfl⟩, bs, h2, rfl⟩ := h
    simp only [List.map_cons, List.cons.injEq, true_and]
    exact ih h2

theorem openings_mem {tab : Known} : ∀ {coms : BMap P Commitment} {es : View P}, tab.openings coms = some es →
    ∀ e ∈ coms, ∃ p, tab.opening e.2 = some p ∧ (e.1, p) ∈ es := by
  intro coms
  induction coms with
  | nil => intro es _ e he; cases he
  | cons a coms ih =>
    intro es h e he
    unfold Known.openings at h
    simp only [List.mapM_cons, Option.bind_eq_bind, Option.bind_eq_some_iff, Option.pure_def, Option.some.injEq,
      Option.map_eq_some_iff] at h
    obtain ⟨b, ⟨p, hp, rfl⟩, bs, h2, rfl⟩ := h
    rcases List.mem_cons.mp he with rfl | he
    · exact ⟨p, hp, List.mem_cons_self⟩
    · obtain ⟨p', h3, h4⟩ := ih h2 e he
      exact ⟨p', h3, List.mem_cons_of_mem _ h4⟩

theorem openings_some_iff {tab : Known} : ∀ {coms : BMap P Commitment}, (tab.openings coms : Option (View P)) ≠ none ↔
    ∀ e ∈ coms, (tab.opening e.2 : Option (RevealedPoints P)) ≠ none := by
  intro coms
  induction coms with
  | nil => exact ⟨fun _ e he => (by cases he), fun _ h => (by cases h)⟩
  | cons a coms ih =>
    have e : (tab.openings (a :: coms) : Option (View P)) = ((tab.opening a.2).map fun p => (a.1, p)).bind fun b =>
        (tab.openings coms).bind fun bs => some (b :: bs) := by
      unfold Known.openings
      simp only [List.mapM_cons, Option.bind_eq_bind, Option.pure_def]
    rw [e]
    cases h1 : (tab.opening a.2 : Option (RevealedPoints P)) with
    | none =>
      simp only [Option.map_none, Option.bind_none, ne_eq, not_true_eq_false, false_iff]
      exact fun h => h a (by simp) h1
    | some p =>
      simp only [Option.map_some, Option.bind_some]
      cases h2 : (tab.openings coms : Option (View P)) with
      | none =>
        simp only [Option.bind_none, ne_eq, not_true_eq_false, false_iff]
        intro h
        exact (ih.mpr fun e he => h e (by simp [he])) h2
      | some bs =>
        simp only [Option.bind_some, ne_eq, reduceCtorEq, not_false_eq_true, true_iff]
        intro e he
        rcases List.mem_cons.mp he with rfl | he
        · rw [h1]; exact fun h => by cases h
        · exact ih.mp (by rw [h2]; exact fun h => by cases h) e he

theorem opening_commit {tab : Known} {c : Commitment} {p : RevealedPoints P} (h : tab.opening c = some p) :
    ∃ e ∈ tab, IsCommit e.1 ∧ pref e.2 = c := by
  unfold Known.opening at h
  obtain ⟨e, he, h2⟩ := List.exists_of_findSome?_eq_some h
  split at h2
  · rename_i h3
    refine ⟨e, he, ?_, congrArg Commitment.mk h3⟩
    by_contra hc
    rw [committedIn_not hc] at h2
    cases h2
  · cases h2

theorem opening_cons_self (tab : Known) (r : Reveal) (κ : Arr 64) {p : RevealedPoints P} (hp : points r = some p) :
    (Known.opening ((commitmentQuery r, κ) :: tab) (pref κ) : Option (RevealedPoints P)) = some p := by
  unfold Known.opening
  rw [List.findSome?_cons, if_pos (show firstBytes (commitmentQuery r, κ).2 16 _ = (pref κ).bytes from rfl), committedIn_commitmentQuery, hp]

/-- What could be opened is not affected by opening a new commitment. -/
theorem openings_stable {tab : Known} {coms : BMap P Commitment} {es : View P} (h : tab.openings coms = some es) (q : List MOp) (κ : Arr 64)
    (hκ : ∀ e ∈ tab, IsCommit e.1 → pref e.2 ≠ pref κ) : (Known.openings ((q, κ) :: tab) coms : Option (View P)) = some es := by
  rw [openings_cons, h]
  intro _ e he heq
  obtain ⟨p, hp, -⟩ := openings_mem h e he
  obtain ⟨e', he', hc, hpr⟩ := opening_commit hp
  exact hκ e' he' hc (hpr.trans heq.symm)

/-- Opening a commitment makes the others on record complete. -/
theorem openings_ripen {tab : Known} {coms : BMap P Commitment} {es : View P} (r : Reveal) (κ : Arr 64) {p : RevealedPoints P}
    (hp : points r = some p) (h : (tab.openings coms : Option (View P)) = none)
    (h' : Known.openings ((commitmentQuery r, κ) :: tab) coms = some es) : ∃ e ∈ coms, e.2 = pref κ ∧ (e.1, p) ∈ es := by
  by_cases hc : ∃ e ∈ coms, pref κ = e.2
  · obtain ⟨e, he, heq⟩ := hc
    obtain ⟨p', h1, h2⟩ := openings_mem h' e he
    rw [← heq, opening_cons_self tab r κ hp] at h1
    cases h1
    exact ⟨e, he, heq.symm, h2⟩
  · rw [openings_cons _ _ _ _ fun _ e he heq => hc ⟨e, he, heq⟩, h] at h'
    cases h'

theorem openings_ripen_iff {tab : Known} {coms : BMap P Commitment} (r : Reveal) (κ : Arr 64) {p : RevealedPoints P}
    (hp : points r = some p) : (Known.openings ((commitmentQuery r, κ) :: tab) coms : Option (View P)) ≠ none ↔
    ∀ e ∈ coms, pref κ = e.2 ∨ (tab.opening e.2 : Option (RevealedPoints P)) ≠ none := by
  rw [openings_some_iff]
  refine forall_congr' fun e => forall_congr' fun _ => ?_
  by_cases hc : pref κ = e.2
  · rw [← hc, opening_cons_self tab r κ hp]
    simp
  · rw [opening_cons _ _ _ _ fun _ => hc]
    simp [hc]

/-- The keys of an extended map only depend on the keys of the map. -/
theorem keys_set {V W : Type} (me : PublicKey P) (v : V) (w : W) : ∀ (m : BMap P V) (m' : BMap P W), m.map (·.1) = m'.map (·.1) →
    (m.set me v).map (·.1) = (m'.set me w).map (·.1) := by
  intro m
  induction m with
  | nil =>
    intro m' h
    cases m' with
    | nil => rfl
    | cons => cases h
  | cons e m ih =>
    intro m' h
    cases m' with
    | nil => cases h
    | cons e' m' =>
      obtain ⟨k, x⟩ := e
      obtain ⟨k', x'⟩ := e'
      simp only [List.map_cons, List.cons.injEq] at h
      obtain ⟨rfl, h⟩ := h
      simp only [BMap.set]
      cases RistrettoBoth.cmp me k with
      | eq => simp [h]
      | lt => simp [h]
      | gt => simp [ih m' h]

theorem view_keys (me : PublicKey P) (own : RevealedPoints P) {coms : BMap P Commitment} {es : View P}
    (h : es.map (·.1) = coms.map (·.1)) : View.keys (BMap.set es me own) = groupKeys me coms := by
  unfold View.keys groupKeys BMap.keys
  refine keys_set me own () es _ ?_
  rw [h, List.map_map]
  rfl

/-- What the commitments on record look like. -/
structure ComsOk (me : PublicKey P) (b : Nat) (coms : BMap P Commitment) : Prop where
  sorted : coms.Sorted
  wf : coms.KeysWF
  me : ∀ e ∈ coms, e.1.compressed ≠ me.compressed
  len : coms.length ≤ b

theorem registered_ok (me : PublicKey P) (cs : List (P × Commitment)) : ComsOk me cs.length (registered me cs) := by
  have key : ∀ (cs : List (P × Commitment)) (m : BMap P Commitment) (n : Nat), ComsOk me n m →
      ComsOk me (n + cs.length) (cs.foldl (fun m e => if compress e.1 = me.compressed ∨ (m.get? (PublicKey.fromPoint e.1)).isSome then m
        else m.set (PublicKey.fromPoint e.1) e.2) m) := by
    intro cs
    induction cs with
    | nil => intro m n h; exact h
    | cons e cs ih =>
      intro m n h
      simp only [List.foldl_cons, List.length_cons]
      rw [show n + (cs.length + 1) = (n + 1) + cs.length by omega]
      apply ih
      split
      · exact ⟨h.sorted, h.wf, h.me, h.len.trans (by omega)⟩
      · rename_i hne
        rw [not_or] at hne
        refine ⟨BMap.sorted_set h.sorted _ _, BMap.keysWF_set h.wf (wf_fromPoint e.1) _, ?_, ?_⟩
        · intro e' he'
          rcases BMap.mem_set he' with h1 | ⟨w, h1⟩
          · rw [h1]; exact hne.1
          · exact h.me (e'.1, w) h1
        · have : (m.set (PublicKey.fromPoint e.1) e.2).length ≤ m.length + 1 := by
            clear hne h ih
            induction m with
            | nil => simp [BMap.set]
            | cons a m ih =>
              obtain ⟨k, x⟩ := a
              simp only [BMap.set]
              split
              · simp
              · simp
              · simpa using ih
          have := h.len
          omega
  have := key cs [] 0 ⟨by simp [BMap.Sorted], (fun e he => nomatch he), (fun e he => nomatch he), by simp⟩
  simpa [registered] using this

end Schnorrkel
