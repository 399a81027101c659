import Verif.Model.MuSig
import Verif.Lemmas.Order
import Verif.Lemmas.Keys

/-! # The sorted-list model of `BTreeMap<PublicKey, V>` behaves like a finite map -/

namespace Schnorrkel
variable {P : Type} [Ristretto P] {V : Type}

/-- Strictly increasing keys. -/
def BMap.Sorted (m : BMap P V) : Prop := m.Pairwise fun a b => RistrettoBoth.cmp a.1 b.1 = .lt

theorem cmp_eq_iff (a b : PublicKey P) : RistrettoBoth.cmp a b = .eq ↔ a.compressed = b.compressed :=
  (cmpBytes_eq _ _).trans ⟨Arr.ext', congrArg _⟩

theorem cmp_gt_iff (a b : PublicKey P) : RistrettoBoth.cmp a b = .gt ↔ RistrettoBoth.cmp b a = .lt :=
  cmpBytes_gt

theorem cmp_lt_trans {a b c : PublicKey P} (h1 : RistrettoBoth.cmp a b = .lt)
    (h2 : RistrettoBoth.cmp b c = .lt) : RistrettoBoth.cmp a c = .lt := cmpBytes_trans h1 h2

theorem cmp_self (a : PublicKey P) : RistrettoBoth.cmp a a = .eq := cmpBytes_self _

theorem cmp_congr_left {a a' : PublicKey P} (h : a.compressed = a'.compressed) (b : PublicKey P) :
    RistrettoBoth.cmp a b = RistrettoBoth.cmp a' b := by unfold RistrettoBoth.cmp; rw [h]

theorem cmp_congr_right {b b' : PublicKey P} (h : b.compressed = b'.compressed) (a : PublicKey P) :
    RistrettoBoth.cmp a b = RistrettoBoth.cmp a b' := by unfold RistrettoBoth.cmp; rw [h]

namespace BMap

theorem get?_congr (m : BMap P V) {a b : PublicKey P} (h : a.compressed = b.compressed) :
    m.get? a = m.get? b := by
  induction m with
  | nil => rfl
  | cons e m ih => simp only [get?, cmp_congr_left h, ih]

/-- Below the first key there is nothing. -/
theorem get?_of_lt {m : BMap P V} {k x : PublicKey P} (hm : ∀ e ∈ m, RistrettoBoth.cmp k e.1 = .lt)
    (hx : RistrettoBoth.cmp x k ≠ .gt) : m.get? x = none := by
  cases m with
  | nil => rfl
  | cons e m =>
    have h1 := hm e (by simp)
    have : RistrettoBoth.cmp x e.1 = .lt := by
      rcases h : RistrettoBoth.cmp x k with _ | _ | _
      · exact cmp_lt_trans h h1
      · rw [cmp_congr_left ((cmp_eq_iff _ _).mp h)]; exact h1
      · exact absurd h hx
    simp [get?, this]

theorem mem_set {m : BMap P V} {x : PublicKey P} {v : V} {e : PublicKey P × V} (h : e ∈ m.set x v) :
    e.1 = x ∨ ∃ w, (e.1, w) ∈ m := by
  induction m with
  | nil => simp [set] at h; left; rw [h]
  | cons kw m ih =>
    obtain ⟨k, w⟩ := kw
    unfold set at h
    split at h
    · simp at h
      rcases h with rfl | h
      · right; exact ⟨w, by simp⟩
      · right; exact ⟨e.2, by simp [h]⟩
    · simp at h
      rcases h with rfl | rfl | h
      · left; rfl
      · right; exact ⟨w, by simp⟩
      · right; exact ⟨e.2, by simp [h]⟩
    · simp at h
      rcases h with rfl | h
      · right; exact ⟨w, by simp⟩
      · rcases ih h with h | ⟨w', h⟩
        · left; exact h
        · right; exact ⟨w', by simp [h]⟩

theorem sorted_set {m : BMap P V} (hm : m.Sorted) (x : PublicKey P) (v : V) : (m.set x v).Sorted := by
  induction m with
  | nil => simp [set, Sorted]
  | cons kw m ih =>
    obtain ⟨k, w⟩ := kw
    unfold Sorted at hm
    rw [List.pairwise_cons] at hm
    unfold set
    split
    · unfold Sorted; rw [List.pairwise_cons]; exact hm
    · rename_i hlt
      unfold Sorted; rw [List.pairwise_cons, List.pairwise_cons]
      refine ⟨?_, hm⟩
      intro e he
      simp at he
      rcases he with rfl | he
      · exact hlt
      · exact cmp_lt_trans hlt (hm.1 e he)
    · rename_i hgt
      unfold Sorted; rw [List.pairwise_cons]
      refine ⟨fun e he => ?_, ih hm.2⟩
      rcases mem_set he with h | ⟨w', h⟩
      · rw [h]; exact (cmp_gt_iff _ _).mp hgt
      · exact hm.1 (e.1, w') h

/-- A map after an update. -/
theorem get?_set {m : BMap P V} (hm : m.Sorted) (x y : PublicKey P) (v : V) :
    (m.set x v).get? y = if y.compressed = x.compressed then some v else m.get? y := by
  induction m with
  | nil =>
    simp only [set, get?]
    rcases h : RistrettoBoth.cmp y x with _ | _ | _
    · rw [if_neg (by rw [← cmp_eq_iff, h]; simp)]
    · rw [if_pos ((cmp_eq_iff _ _).mp h)]
    · rw [if_neg (by rw [← cmp_eq_iff, h]; simp)]
  | cons kw m ih =>
    obtain ⟨k, w⟩ := kw
    have hm' := hm
    unfold Sorted at hm'
    rw [List.pairwise_cons] at hm'
    have ih := ih hm'.2
    by_cases hxy : y.compressed = x.compressed
    · rw [if_pos hxy] at ih ⊢
      unfold set
      rcases h : RistrettoBoth.cmp x k with _ | _ | _ <;> simp only [get?, cmp_congr_left hxy, h, cmp_self]
      exact ih
    · rw [if_neg hxy] at ih ⊢
      unfold set
      rcases h : RistrettoBoth.cmp x k with _ | _ | _
      · simp only [get?]
        rcases h2 : RistrettoBoth.cmp y x with _ | _ | _
        · simp only [cmp_lt_trans h2 h]
        · exact absurd ((cmp_eq_iff _ _).mp h2) hxy
        · rfl
      · simp only [get?]
        have : RistrettoBoth.cmp y k ≠ .eq := by
          rw [Ne, cmp_eq_iff, ← (cmp_eq_iff _ _).mp h]; exact hxy
        rcases h2 : RistrettoBoth.cmp y k with _ | _ | _
        · rfl
        · exact absurd h2 this
        · rfl
      · simp only [get?]
        rcases h2 : RistrettoBoth.cmp y k with _ | _ | _
        · rfl
        · rfl
        · exact ih

theorem get?_of_mem {m : BMap P V} (hm : m.Sorted) {k : PublicKey P} {v : V} (h : (k, v) ∈ m) :
    m.get? k = some v := by
  induction m with
  | nil => simp at h
  | cons e m ih =>
    obtain ⟨k', w⟩ := e
    unfold Sorted at hm
    rw [List.pairwise_cons] at hm
    simp at h
    rcases h with ⟨rfl, rfl⟩ | h
    · simp [get?, cmp_self]
    · have := hm.1 (k, v) h
      have : RistrettoBoth.cmp k k' = .gt := (cmp_gt_iff _ _).mpr this
      simp only [get?, this]
      exact ih hm.2 h

theorem mem_of_get? {m : BMap P V} {x : PublicKey P} {v : V} (h : m.get? x = some v) :
    ∃ k, (k, v) ∈ m ∧ k.compressed = x.compressed := by
  induction m with
  | nil => simp [get?] at h
  | cons e m ih =>
    obtain ⟨k, w⟩ := e
    unfold get? at h
    split at h
    · rename_i h2; cases h; exact ⟨k, by simp, ((cmp_eq_iff _ _).mp h2).symm⟩
    · cases h
    · obtain ⟨k', h1, h2⟩ := ih h; exact ⟨k', by simp [h1], h2⟩

/-- All keys have matching representations. -/
def KeysWF (m : BMap P V) : Prop := ∀ e ∈ m, e.1.WF

theorem keysWF_set {m : BMap P V} (hm : m.KeysWF) {x : PublicKey P} (hx : x.WF) (v : V) :
    (m.set x v).KeysWF := by
  intro e he
  rcases mem_set he with h | ⟨w, h⟩
  · rw [h]; exact hx
  · exact hm (e.1, w) h

theorem key_ext {a b : PublicKey P} (ha : a.WF) (hb : b.WF) (h : a.compressed = b.compressed) : a = b := by
  apply RistrettoBoth.WF.ext ha hb
  unfold RistrettoBoth.WF at ha hb
  rw [← compress_inj, ha, hb, h]

/-- Extensionality: two maps with the same lookups are the same list of entries. -/
theorem ext_get? {m m' : BMap P V} (hm : m.Sorted) (hm' : m'.Sorted) (hw : m.KeysWF) (hw' : m'.KeysWF)
    (h : ∀ x : PublicKey P, x.WF → m.get? x = m'.get? x) : m = m' := by
  induction m generalizing m' with
  | nil =>
    cases m' with
    | nil => rfl
    | cons e m' =>
      have := h e.1 (hw' e (by simp))
      simp [get?, cmp_self] at this
  | cons e m ih =>
    cases m' with
    | nil =>
      have := h e.1 (hw e (by simp))
      simp [get?, cmp_self] at this
    | cons e' m' =>
      obtain ⟨k, v⟩ := e
      obtain ⟨k', v'⟩ := e'
      have hkw := hw (k, v) (by simp)
      have hkw' := hw' (k', v') (by simp)
      unfold Sorted at hm hm'
      rw [List.pairwise_cons] at hm hm'
      have h1 := h k hkw
      have h2 := h k' hkw'
      simp only [get?, cmp_self] at h1 h2
      have hk : RistrettoBoth.cmp k k' = .eq := by
        rcases hc : RistrettoBoth.cmp k k' with _ | _ | _
        · rw [hc] at h1; cases h1
        · rfl
        · have := (cmp_gt_iff _ _).mp hc
          rw [this] at h2; cases h2
      rw [hk] at h1
      cases h1
      have := key_ext hkw hkw' ((cmp_eq_iff _ _).mp hk)
      subst this
      congr 1
      apply ih hm.2 hm'.2 (fun e he => hw e (by simp [he])) (fun e he => hw' e (by simp [he]))
      intro x hx
      have := h x hx
      simp only [get?] at this
      rcases hc : RistrettoBoth.cmp x k with _ | _ | _
      · rw [get?_of_lt hm.1 (by rw [hc]; simp), get?_of_lt hm'.1 (by rw [hc]; simp)]
      · rw [get?_of_lt hm.1 (by rw [hc]; simp), get?_of_lt hm'.1 (by rw [hc]; simp)]
      · rw [hc] at this; exact this

end BMap
end Schnorrkel

namespace Schnorrkel
variable {P : Type} [Ristretto P] {V W : Type}
namespace BMap

/-- Keep the entries whose value maps to something. -/
def mapVal (f : V → Option W) (m : BMap P V) : BMap P W :=
  m.filterMap fun e => (f e.2).map fun w => (e.1, w)

omit [Ristretto P] in
theorem mem_mapVal {f : V → Option W} {m : BMap P V} {k : PublicKey P} {w : W} :
    (k, w) ∈ mapVal f m ↔ ∃ v, (k, v) ∈ m ∧ f v = some w := by
  unfold mapVal
  rw [List.mem_filterMap]
  constructor
  · rintro ⟨⟨k', v⟩, h1, h2⟩
    simp only [Option.map_eq_some_iff] at h2
    obtain ⟨w', h2, h3⟩ := h2
    cases h3
    exact ⟨v, h1, h2⟩
  · rintro ⟨v, h1, h2⟩
    exact ⟨(k, v), h1, by simp [h2]⟩

theorem sorted_mapVal (f : V → Option W) {m : BMap P V} (hm : m.Sorted) : (mapVal f m).Sorted := by
  unfold mapVal Sorted
  rw [List.pairwise_filterMap]
  refine List.Pairwise.imp ?_ hm
  intro a b hab x hx y hy
  simp only [Option.map_eq_some_iff] at hx hy
  obtain ⟨_, _, rfl⟩ := hx
  obtain ⟨_, _, rfl⟩ := hy
  exact hab

theorem keysWF_mapVal (f : V → Option W) {m : BMap P V} (hm : m.KeysWF) : (mapVal f m).KeysWF := by
  rintro ⟨k, w⟩ h
  obtain ⟨v, h, _⟩ := mem_mapVal.mp h
  exact hm (k, v) h

theorem get?_eq_some_iff {m : BMap P V} (hm : m.Sorted) {x : PublicKey P} {v : V} :
    m.get? x = some v ↔ ∃ k, (k, v) ∈ m ∧ k.compressed = x.compressed := by
  constructor
  · exact mem_of_get?
  · rintro ⟨k, h1, h2⟩
    rw [← get?_congr m h2]; exact get?_of_mem hm h1

theorem get?_mapVal (f : V → Option W) {m : BMap P V} (hm : m.Sorted) (x : PublicKey P) :
    (mapVal f m).get? x = (m.get? x).bind f := by
  apply Option.ext
  intro w
  rw [get?_eq_some_iff (sorted_mapVal f hm), Option.bind_eq_some_iff]
  constructor
  · rintro ⟨k, h1, h2⟩
    obtain ⟨v, h3, h4⟩ := mem_mapVal.mp h1
    exact ⟨v, (get?_eq_some_iff hm).mpr ⟨k, h3, h2⟩, h4⟩
  · rintro ⟨v, h1, h2⟩
    obtain ⟨k, h3, h4⟩ := (get?_eq_some_iff hm).mp h1
    exact ⟨k, mem_mapVal.mpr ⟨v, h3, h2⟩, h4⟩

/-- Updating a present key changes exactly its value. -/
theorem set_eq_map {m : BMap P V} (hm : m.Sorted) {x : PublicKey P} (hx : m.get? x ≠ none) (v : V) :
    m.set x v = m.map fun e => (e.1, if e.1.compressed = x.compressed then v else e.2) := by
  induction m with
  | nil => exact absurd rfl hx
  | cons e m ih =>
    obtain ⟨k, w⟩ := e
    unfold Sorted at hm
    rw [List.pairwise_cons] at hm
    unfold get? at hx
    unfold set
    rcases h : RistrettoBoth.cmp x k with _ | _ | _
    · rw [h] at hx; exact absurd rfl hx
    · have hk := (cmp_eq_iff _ _).mp h
      simp only [List.map_cons, hk, if_true]
      congr 1
      conv_lhs => rw [← List.map_id m]
      apply List.map_congr_left
      intro e he
      have := hm.1 e he
      have hne : ¬ e.1.compressed = k.compressed := by
        rw [← cmp_eq_iff]
        intro hc
        rw [(cmp_gt_iff e.1 k).mpr this] at hc; cases hc
      simp [hne]
    · rw [h] at hx
      have hne : ¬ k.compressed = x.compressed := by
        intro hc
        rw [(cmp_eq_iff x k).mpr hc.symm] at h; cases h
      simp only [List.map_cons, hne, if_false]
      rw [ih hm.2 hx]

theorem get?_map {f : PublicKey P × V → W} (m : BMap P V) (x : PublicKey P) (hm : m.Sorted)  :
    (BMap.get? (m.map fun e => (e.1, f e)) x).isSome = (m.get? x).isSome := by
  induction m with
  | nil => rfl
  | cons e m ih =>
    obtain ⟨k, w⟩ := e
    simp only [List.map_cons, get?]
    cases RistrettoBoth.cmp x k with
    | lt => rfl
    | eq => rfl
    | gt => exact ih (List.Pairwise.of_cons hm)

theorem sorted_map {f : PublicKey P × V → W} {m : BMap P V} (hm : m.Sorted) :
    BMap.Sorted (m.map fun e => (e.1, f e)) := by
  unfold Sorted at *
  rw [List.pairwise_map]
  exact hm

theorem keys_inj {m : BMap P V} (hm : m.Sorted) {e e' : PublicKey P × V} (he : e ∈ m) (he' : e' ∈ m)
    (h : e.1.compressed = e'.1.compressed) : e.2 = e'.2 := by
  have h1 := get?_of_mem hm (k := e.1) (v := e.2) he
  have h2 := get?_of_mem hm (k := e'.1) (v := e'.2) he'
  rw [get?_congr m h, h2] at h1
  exact (Option.some.inj h1).symm

/-- An update keeps every key. -/
theorem mem_set_of_mem {m : BMap P V} {k : PublicKey P} {v : V} (h : (k, v) ∈ m) (x : PublicKey P) (w : V) :
    ∃ v', (k, v') ∈ m.set x w := by
  induction m with
  | nil => simp at h
  | cons e m ih =>
    obtain ⟨k', v0⟩ := e
    unfold set
    simp only [List.mem_cons, Prod.mk.injEq] at h
    split
    · rcases h with ⟨rfl, rfl⟩ | h
      · exact ⟨w, by simp⟩
      · exact ⟨v, by simp [h]⟩
    · rcases h with ⟨rfl, rfl⟩ | h
      · exact ⟨v, by simp⟩
      · exact ⟨v, by simp [h]⟩
    · rcases h with ⟨rfl, rfl⟩ | h
      · exact ⟨v, by simp⟩
      · obtain ⟨v', h'⟩ := ih h
        exact ⟨v', by simp [h']⟩

end BMap
end Schnorrkel
