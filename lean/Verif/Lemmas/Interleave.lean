import Verif.Spec.MuSigOrder
import Verif.Lemmas.BMap

/-! # State machines whose steps concern one participant each -/

namespace Schnorrkel
open Spec

section
variable {S C K X R : Type} [DecidableEq K]

/-- Each step reads and writes only what `view` shows of the state at one key. -/
structure Locality (step : S → C → R × S) (who : C → K) (view : S → K → X) (loc : C → X → R × X) (Inv : S → Prop)
    (ok : C → Prop) : Prop where
  res : ∀ s c, Inv s → ok c → (step s c).1 = (loc c (view s (who c))).1
  here : ∀ s c, Inv s → ok c → view (step s c).2 (who c) = (loc c (view s (who c))).2
  there : ∀ s c k, Inv s → ok c → k ≠ who c → view (step s c).2 k = view s k
  inv : ∀ s c, Inv s → ok c → Inv (step s c).2
  ext : ∀ s s', Inv s → Inv s' → (∀ k, view s k = view s' k) → s = s'

/-- The steps at one key. -/
def runLoc (loc : C → X → R × X) : X → List C → List R × X
  | x, [] => ([], x)
  | x, c :: cs => ((loc c x).1 :: (runLoc loc (loc c x).2 cs).1, (runLoc loc (loc c x).2 cs).2)

variable {step : S → C → R × S} {who : C → K} {view : S → K → X} {loc : C → X → R × X} {Inv : S → Prop} {ok : C → Prop}

theorem Locality.run (h : Locality step who view loc Inv ok) (run : S → List C → List R × S)
    (hnil : ∀ s, run s [] = ([], s))
    (hcons : ∀ s c cs, run s (c :: cs) = ((step s c).1 :: (run (step s c).2 cs).1, (run (step s c).2 cs).2))
    (cs : List C) : ∀ s, Inv s → (∀ c ∈ cs, ok c) → Inv (run s cs).2 ∧ ∀ k,
      view (run s cs).2 k = (runLoc loc (view s k) (cs.filter fun c => who c = k)).2 ∧
      answersTo who cs (run s cs).1 k = (runLoc loc (view s k) (cs.filter fun c => who c = k)).1 := by
  induction cs with
  | nil =>
    intro s hs _
    rw [hnil]
    exact ⟨hs, fun k => ⟨rfl, rfl⟩⟩
  | cons c cs ih =>
    intro s hs hok
    have hc := hok c List.mem_cons_self
    obtain ⟨h1, h2⟩ := ih _ (h.inv s c hs hc) fun c' h' => hok c' (List.mem_cons_of_mem _ h')
    rw [hcons]
    refine ⟨h1, fun k => ?_⟩
    obtain ⟨h3, h4⟩ := h2 k
    by_cases hk : who c = k
    · subst hk
      rw [h.here s c hs hc] at h3 h4
      rw [List.filter_cons_of_pos (by simp)]
      refine ⟨h3, ?_⟩
      simp only [answersTo] at h4
      simp only [answersTo, List.zip_cons_cons, runLoc]
      rw [List.filter_cons_of_pos (by simp), List.map_cons, h4, h.res s c hs hc]
    · rw [h.there s c k hs hc (Ne.symm hk)] at h3 h4
      rw [List.filter_cons_of_neg (by simpa using hk)]
      refine ⟨h3, ?_⟩
      simp only [answersTo] at h4
      simp only [answersTo, List.zip_cons_cons]
      rw [List.filter_cons_of_neg (by simpa using hk), h4]

theorem Locality.interleave (h : Locality step who view loc Inv ok) (run : S → List C → List R × S)
    (hnil : ∀ s, run s [] = ([], s))
    (hcons : ∀ s c cs, run s (c :: cs) = ((step s c).1 :: (run (step s c).2 cs).1, (run (step s c).2 cs).2))
    (cs cs' : List C) (s : S) (hs : Inv s) (hok : ∀ c ∈ cs, ok c) (hsame : SameStreams who cs cs') :
    (run s cs).2 = (run s cs').2 ∧ (∀ k, answersTo who cs (run s cs).1 k = answersTo who cs' (run s cs').1 k) ∧
      Inv (run s cs).2 := by
  have hok' : ∀ c ∈ cs', ok c := by
    intro c hc
    have : c ∈ cs'.filter (fun c' => who c' = who c) := List.mem_filter.mpr ⟨hc, by simp⟩
    rw [← hsame] at this
    exact hok c (List.mem_filter.mp this).1
  obtain ⟨h1, h2⟩ := h.run run hnil hcons cs s hs hok
  obtain ⟨h3, h4⟩ := h.run run hnil hcons cs' s hs hok'
  refine ⟨h.ext _ _ h1 h3 fun k => ?_, fun k => ?_, h1⟩
  · rw [(h2 k).1, (h4 k).1, hsame]
  · rw [(h2 k).2, (h4 k).2, hsame]

theorem Locality.stays (h : Locality step who view loc Inv ok) (run : S → List C → List R × S)
    (hnil : ∀ s, run s [] = ([], s))
    (hcons : ∀ s c cs, run s (c :: cs) = ((step s c).1 :: (run (step s c).2 cs).1, (run (step s c).2 cs).2))
    (k : K) (Q : X → Prop) (hQ : ∀ c x, who c = k → Q x → Q (loc c x).2) (cs : List C) :
    ∀ s, Inv s → (∀ c ∈ cs, ok c) → Inv (run s cs).2 ∧ (Q (view s k) → Q (view (run s cs).2 k)) := by
  induction cs with
  | nil =>
    intro s hs _
    rw [hnil]
    exact ⟨hs, id⟩
  | cons c cs ih =>
    intro s hs hok
    have hc := hok c List.mem_cons_self
    rw [hcons]
    obtain ⟨h1, h2⟩ := ih _ (h.inv s c hs hc) fun c' h' => hok c' (List.mem_cons_of_mem _ h')
    refine ⟨h1, fun hq => h2 ?_⟩
    by_cases hk : who c = k
    · subst hk
      rw [h.here s c hs hc]
      exact hQ c _ rfl hq
    · rw [h.there s c k hs hc (Ne.symm hk)]
      exact hq

theorem run_append (run : S → List C → List R × S) (hnil : ∀ s, run s [] = ([], s))
    (hcons : ∀ s c cs, run s (c :: cs) = ((step s c).1 :: (run (step s c).2 cs).1, (run (step s c).2 cs).2))
    (a b : List C) : ∀ s, (run s a).1.length = a.length ∧
      run s (a ++ b) = ((run s a).1 ++ (run (run s a).2 b).1, (run (run s a).2 b).2) := by
  induction a with
  | nil =>
    intro s
    simp [hnil]
  | cons c a ih =>
    intro s
    obtain ⟨h1, h2⟩ := ih (step s c).2
    rw [List.cons_append, hcons, hcons, h2]
    simp [h1]

theorem Locality.again (h : Locality step who view loc Inv ok) (run : S → List C → List R × S)
    (hnil : ∀ s, run s [] = ([], s))
    (hcons : ∀ s c cs, run s (c :: cs) = ((step s c).1 :: (run (step s c).2 cs).1, (run (step s c).2 cs).2))
    (good : R) (c : C)
    (idem : ∀ x, (loc c (loc c x).2).2 = (loc c x).2)
    (stable : ∀ c' x, who c' = who c → (loc c x).2 = x → (loc c (loc c' x).2).2 = (loc c' x).2)
    (idem' : ∀ x, (loc c x).1 = good → (loc c (loc c x).2).1 = good)
    (stable' : ∀ c' x, who c' = who c → (loc c x).2 = x → (loc c x).1 = good → (loc c (loc c' x).2).1 = good)
    (s : S) (before after : List C) (hs : Inv s) (hok : ∀ c ∈ before, ok c) (hm : c ∈ before) :
    Harmless run good s before c after := by
  have hc := hok c hm
  have key : ∀ (Q : X → Prop) (_ : ∀ c' x, who c' = who c → Q x → Q (loc c' x).2) (G : R → Prop)
      (_ : ∀ x, G (loc c x).1 → Q (loc c x).2) (cs : List C) (s : S), Inv s → (∀ c ∈ cs, ok c) →
      (∃ r, (c, r) ∈ cs.zip (run s cs).1 ∧ G r) → Q (view (run s cs).2 (who c)) := by
    intro Q hQ G hG cs
    induction cs with
    | nil =>
      rintro s _ _ ⟨r, hr, _⟩
      simp at hr
    | cons c0 cs ih =>
      rintro s hs hok ⟨r, hr, hg⟩
      have hc0 := hok c0 List.mem_cons_self
      have hok' : ∀ c ∈ cs, ok c := fun c' h' => hok c' (List.mem_cons_of_mem _ h')
      rw [hcons] at hr ⊢
      simp only [List.zip_cons_cons, List.mem_cons, Prod.mk.injEq] at hr
      rcases hr with ⟨rfl, rfl⟩ | hr
      · refine (h.stays run hnil hcons (who c) Q hQ cs _ (h.inv s c hs hc0) hok').2 ?_
        rw [h.here s c hs hc0]
        rw [h.res s c hs hc0] at hg
        exact hG _ hg
      · exact ih _ (h.inv s c0 hs hc0) hok' ⟨r, hr, hg⟩
  obtain ⟨hlen, happ⟩ := run_append run hnil hcons before after s
  have happ' := (run_append run hnil hcons before (c :: after) s).2
  have hinv : Inv (run s before).2 := (h.run run hnil hcons before s hs hok).1
  have hsome : ∃ r, (c, r) ∈ before.zip (run s before).1 ∧ True := by
    obtain ⟨i, hi, rfl⟩ := List.getElem_of_mem hm
    exact ⟨(run s before).1[i]'(hlen ▸ hi), List.mem_iff_getElem.mpr ⟨i, by simp [hlen, hi], by simp⟩, trivial⟩
  have hset := key (fun x => (loc c x).2 = x) stable (fun _ => True) (fun x _ => idem x) before s hs hok hsome
  have hstep : (step (run s before).2 c).2 = (run s before).2 := by
    refine h.ext _ _ (h.inv _ c hinv hc) hinv fun k => ?_
    by_cases hk : k = who c
    · subst hk
      rw [h.here _ c hinv hc, hset]
    · exact h.there _ c k hinv hc hk
  rw [hcons, hstep] at happ'
  refine ⟨by rw [happ, happ'], _, _, _, hlen, congrArg Prod.fst happ, congrArg Prod.fst happ', fun hg => ?_⟩
  rw [h.res _ c hinv hc]
  exact (key (fun x => (loc c x).2 = x ∧ (loc c x).1 = good)
    (fun c' x hw hx => ⟨stable c' x hw hx.1, stable' c' x hw hx.1 hx.2⟩) (fun r => r = good)
    (fun x hx => ⟨idem x, idem' x hx⟩) before s hs hok ⟨good, hg, rfl⟩).2
end

variable {P : Type} [Ristretto P] {T S : Type}

/-- A key with the given bytes, to look up with. -/
def keyOf (P : Type) [Ristretto P] (k : Compressed) : PublicKey P := ⟨k, 0⟩

/-- The stage is `s`, and the map is a map. -/
def Proper (s : S) (m : MuSig P T S) : Prop := m.stage = s ∧ m.Rs.Sorted ∧ m.Rs.KeysWF

/-- What is known about `k`. -/
def entry (m : MuSig P T S) (k : Compressed) : Option (CoR P) := m.Rs.get? (keyOf P k)

/-- `m'` is `m` with at most the entry of `k` changed, which is now `o`. -/
def Touches (m m' : MuSig P T S) (k : PublicKey P) (o : Option (CoR P)) : Prop :=
  (m' = m ∧ o = m.Rs.get? k) ∨ ∃ v, o = some v ∧ m' = { m with Rs := m.Rs.set k v }

theorem entry_eq (m : MuSig P T S) (k : PublicKey P) : entry m k.compressed = m.Rs.get? k := BMap.get?_congr _ rfl

theorem touches {s : S} {m m' : MuSig P T S} {k : PublicKey P} {o : Option (CoR P)} (hm : Proper s m) (hk : k.WF)
    (h : Touches m m' k o) : Proper s m' ∧ m'.t = m.t ∧ entry m' k.compressed = o ∧
      ∀ y, y ≠ k.compressed → entry m' y = entry m y := by
  obtain ⟨h1, h2, h3⟩ := hm
  rcases h with ⟨rfl, rfl⟩ | ⟨v, rfl, rfl⟩
  · exact ⟨⟨h1, h2, h3⟩, rfl, entry_eq _ _, fun _ _ => rfl⟩
  · refine ⟨⟨h1, BMap.sorted_set h2 _ _, BMap.keysWF_set h3 hk v⟩, rfl, ?_, fun y hy => ?_⟩
    · exact (BMap.get?_set h2 _ _ _).trans (if_pos rfl)
    · exact (BMap.get?_set h2 _ _ _).trans (if_neg hy)

theorem proper_ext {s : S} {m m' : MuSig P T S} (hm : Proper s m) (hm' : Proper s m') (ht : m.t = m'.t)
    (h : ∀ k, entry m k = entry m' k) : m = m' := by
  obtain ⟨h1, h2, h3⟩ := hm
  obtain ⟨h1', h2', h3'⟩ := hm'
  have e : m.Rs = m'.Rs := BMap.ext_get? h2 h2' h3 h3' fun x _ => by rw [← entry_eq, ← entry_eq, h]
  obtain ⟨t, Rs, st⟩ := m
  obtain ⟨t', Rs', st'⟩ := m'
  simp only at h1 h1' ht e
  subst h1 h1' ht e
  rfl

end Schnorrkel
