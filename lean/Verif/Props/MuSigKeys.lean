import Verif.Props.MuSigSign
import Verif.Instance

/-! # C42, C43: aggregate public keys and weightings -/

namespace Schnorrkel.Props
open SigningTranscript Spec
variable {P : Type} [Ristretto P] {T T' : Type}

/-- Keys in strictly increasing lexicographic order of their encodings. -/
def Increasing (ks : List (PublicKey P)) : Prop := ks.Pairwise fun a b => lexLt a.compressed.1 b.compressed.1

/-- A map filled by inserting entries one after the other, in the given order. -/
def insertAll {V : Type} (entries : List (PublicKey P × V)) : BMap P V :=
  entries.foldl (fun m e => m.set e.1 e.2) []

/-! ## Sorting -/

private theorem mem_insertKey (x y : PublicKey P) (l : List (PublicKey P)) : (insertKey x l).Perm (x :: l) := by
  induction l with
  | nil => exact .refl _
  | cons z l ih =>
    unfold insertKey
    split
    · exact (ih.cons z).trans (.swap x z l)
    · exact .refl _

theorem sortKeys_perm (l : List (PublicKey P)) : (sortKeys l).Perm l := by
  induction l with
  | nil => exact .refl _
  | cons x l ih => exact (mem_insertKey x x _).trans (ih.cons x)

private theorem cmp_ge_trans {a b c : PublicKey P} (h1 : RistrettoBoth.cmp b a ≠ .lt)
    (h2 : RistrettoBoth.cmp c b ≠ .lt) : RistrettoBoth.cmp c a ≠ .lt := by
  intro h
  -- a > c, b ≥ a, c ≥ b
  rcases hba : RistrettoBoth.cmp b a with _ | _ | _
  · exact h1 hba
  · rw [cmp_eq_iff] at hba
    exact h2 (by rw [cmp_congr_right hba]; exact h)
  · rw [cmp_gt_iff] at hba
    exact h2 (cmp_lt_trans h hba)

private theorem insertKey_sorted (x : PublicKey P) (l : List (PublicKey P))
    (h : l.Pairwise fun a b => RistrettoBoth.cmp b a ≠ .lt) :
    (insertKey x l).Pairwise fun a b => RistrettoBoth.cmp b a ≠ .lt := by
  induction l with
  | nil => simp [insertKey]
  | cons y l ih =>
    rw [List.pairwise_cons] at h
    unfold insertKey
    split
    · rename_i hlt
      rw [List.pairwise_cons]
      refine ⟨?_, ih h.2⟩
      intro z hz
      have hz' := (mem_insertKey x x l).subset hz
      rw [List.mem_cons] at hz'
      rcases hz' with rfl | hz'
      · intro hc
        have := cmp_lt_trans hlt hc
        rw [cmp_self] at this; cases this
      · exact h.1 z hz'
    · rename_i hge
      rw [List.pairwise_cons]
      refine ⟨?_, List.pairwise_cons.mpr h⟩
      intro z hz
      rw [List.mem_cons] at hz
      rcases hz with rfl | hz
      · exact hge
      · exact cmp_ge_trans hge (h.1 z hz)

theorem sortKeys_sorted (l : List (PublicKey P)) :
    (sortKeys l).Pairwise fun a b => RistrettoBoth.cmp b a ≠ .lt := by
  induction l with
  | nil => exact .nil
  | cons x l ih => exact insertKey_sorted x _ ih

private theorem eq_true_iff (a b : PublicKey P) : RistrettoBoth.eq a b = true ↔ a.compressed = b.compressed := by
  unfold RistrettoBoth.eq; simp

/-- On a weakly sorted list, no two neighbours equal means strictly increasing. -/
private theorem anyWindow_eq (l : List (PublicKey P)) (h : l.Pairwise fun a b => RistrettoBoth.cmp b a ≠ .lt) :
    anyWindow (fun x y => RistrettoBoth.eq x y) l = false ↔ Increasing l := by
  unfold Increasing
  induction l with
  | nil => simp [anyWindow]
  | cons x l ih =>
    cases l with
    | nil => simp [anyWindow]
    | cons y l =>
      have ih := ih (List.pairwise_cons.mp h).2
      have hx := (List.pairwise_cons.mp h).1
      simp only [anyWindow, Bool.or_eq_false_iff, ih]
      constructor
      · rintro ⟨h1, h2⟩
        rw [List.pairwise_cons]
        refine ⟨?_, h2⟩
        have hxy : RistrettoBoth.cmp x y = .lt := by
          rcases hc : RistrettoBoth.cmp x y with _ | _ | _
          · rfl
          · rw [cmp_eq_iff, ← eq_true_iff] at hc
            rw [hc] at h1; cases h1
          · rw [cmp_gt_iff] at hc
            exact absurd hc (hx y (by simp))
        intro z hz
        rw [List.mem_cons] at hz
        rcases hz with rfl | hz
        · exact (cmpBytes_lt _ _).mp hxy
        · exact (cmpBytes_lt _ _).mp (cmp_lt_trans hxy
            ((cmpBytes_lt _ _).mpr ((List.pairwise_cons.mp h2).1 z hz)))
      · intro h2
        rw [List.pairwise_cons] at h2
        refine ⟨?_, h2.2⟩
        rw [Bool.eq_false_iff, ne_eq, eq_true_iff]
        intro hc
        have := (cmpBytes_lt _ _).mpr (h2.1 y (by simp))
        rw [hc, cmpBytes_self] at this; cases this

private theorem anyWindow_cmp (l : List (PublicKey P)) :
    anyWindow (fun x y => RistrettoBoth.cmp x y ≠ .lt) l = false ↔ Increasing l := by
  unfold Increasing
  induction l with
  | nil => simp [anyWindow]
  | cons x l ih =>
    cases l with
    | nil => simp [anyWindow]
    | cons y l =>
      simp only [anyWindow, Bool.or_eq_false_iff, ih, List.pairwise_cons (a := x)]
      simp only [ne_eq, decide_not, Bool.not_eq_eq_eq_not, Bool.not_false, decide_eq_true_eq]
      constructor
      · rintro ⟨h1, h2⟩
        refine ⟨?_, h2⟩
        intro z hz
        rw [List.mem_cons] at hz
        rcases hz with rfl | hz
        · exact (cmpBytes_lt _ _).mp h1
        · exact (cmpBytes_lt _ _).mp (cmp_lt_trans h1
            ((cmpBytes_lt _ _).mpr ((List.pairwise_cons.mp h2).1 z hz)))
      · rintro ⟨h1, h2⟩
        exact ⟨(cmpBytes_lt _ _).mpr (h1 y (by simp)), h2⟩

theorem increasing_nodup {l : List (PublicKey P)} (h : Increasing l) : l.Nodup :=
  h.imp fun {a b} hab hc => by
    subst hc
    have := (cmpBytes_lt _ _).mpr hab
    rw [cmpBytes_self] at this; cases this

/-- **C42** `aggregate_public_key_from_slice` succeeds exactly on slices that do not have length one and
contain no key twice; the aggregation is then over the same keys in increasing order. -/
theorem aggregate_from_slice_iff (l : List (PublicKey P)) (hl : ∀ k ∈ l, k.WF) (s : AggregatePublicKeySlice P) :
    aggregatePublicKeyFromSlice l = some s ↔
      l.length ≠ 1 ∧ l.Nodup ∧ s.keys.Perm l ∧ Increasing s.keys := by
  unfold aggregatePublicKeyFromSlice
  have hp := sortKeys_perm l
  by_cases h1 : l.length = 1
  · simp [h1]
  · rw [if_neg h1]
    simp only []
    cases ha : anyWindow (fun x y => RistrettoBoth.eq x y) (sortKeys l) with
    | true =>
      simp only [if_true, reduceCtorEq, false_iff, not_and]
      intro _ hn
      have hinc : ¬ Increasing (sortKeys l) := by
        rw [← anyWindow_eq _ (sortKeys_sorted l), ha]; simp
      exfalso
      apply hinc
      have hn' : (sortKeys l).Nodup := hp.nodup_iff.mpr hn
      have hw : ∀ k ∈ sortKeys l, k.WF := fun k hk => hl k (hp.subset hk)
      unfold Increasing
      refine List.Pairwise.imp_of_mem ?_ ((sortKeys_sorted l).and hn')
      rintro a b ha hb ⟨h2, h3⟩
      rw [← cmpBytes_lt]
      rcases hc : RistrettoBoth.cmp a b with _ | _ | _
      · exact hc
      · rw [cmp_eq_iff] at hc
        exact absurd (BMap.key_ext (hw a ha) (hw b hb) hc) h3
      · rw [cmp_gt_iff] at hc
        exact absurd hc h2
    | false =>
      have hinc := (anyWindow_eq _ (sortKeys_sorted l)).mp ha
      simp only [Bool.false_eq_true, if_false, Option.some.injEq]
      constructor
      · rintro rfl
        exact ⟨h1, hp.nodup_iff.mp (increasing_nodup hinc), hp, hinc⟩
      · rintro ⟨_, _, hsp, hsi⟩
        cases s with
        | mk ks =>
          simp only at hsp hsi
          rw [AggregatePublicKeySlice.mk.injEq]
          exact sorted_keys_ext (fun k hk => hl k (hp.subset hk)) (fun k hk => hl k (hsp.subset hk)) hinc hsi
            (fun k => by rw [hp.mem_iff, hsp.mem_iff])

/-- **C42** the model's insertion sort stands for any `sort_unstable`: whatever sorted rearrangement of the keys the
library produces, the byte strings are the same, and for well-formed keys it is the same list. -/
theorem sort_unstable_any (l l' : List (PublicKey P)) (hp : l'.Perm l)
    (hs : l'.Pairwise fun a b => RistrettoBoth.cmp b a ≠ .lt) :
    l'.map (·.compressed) = (sortKeys l).map (·.compressed) ∧ ((∀ k ∈ l, k.WF) → l' = sortKeys l) := by
  have hm : l'.map (·.compressed) = (sortKeys l).map (·.compressed) := by
    refine List.Perm.eq_of_pairwise (le := fun a b : Compressed => cmpBytes b.1 a.1 ≠ .lt) ?_ ?_ ?_
      ((hp.trans (sortKeys_perm l).symm).map _)
    · intro a b _ _ h1 h2
      rcases hc : cmpBytes a.1 b.1 with _ | _ | _
      · exact absurd hc h2
      · exact Subtype.ext ((cmpBytes_eq _ _).mp hc)
      · exact absurd (cmpBytes_gt.mp hc) h1
    · exact List.pairwise_map.mpr hs
    · exact List.pairwise_map.mpr (sortKeys_sorted l)
  refine ⟨hm, fun hw => ?_⟩
  have hp' := sortKeys_perm l
  refine List.ext_getElem (by rw [hp.length_eq, hp'.length_eq]) fun i h1 h2 => ?_
  have : (l'.map (·.compressed))[i]? = ((sortKeys l).map (·.compressed))[i]? := by rw [hm]
  rw [List.getElem?_map, List.getElem?_map, List.getElem?_eq_getElem h1, List.getElem?_eq_getElem h2] at this
  exact BMap.key_ext (hw _ (hp.subset (List.getElem_mem h1))) (hw _ (hp'.subset (List.getElem_mem h2))) (Option.some.inj this)

/-- **C42** `aggregate_public_key_from_sorted_slice` succeeds exactly on strictly increasing slices that
do not have length one, and leaves them as they are. -/
theorem aggregate_from_sorted_slice_iff (l : List (PublicKey P)) (s : AggregatePublicKeySlice P) :
    aggregatePublicKeyFromSortedSlice l = some s ↔ l.length ≠ 1 ∧ Increasing l ∧ s.keys = l := by
  unfold aggregatePublicKeyFromSortedSlice
  by_cases h1 : l.length = 1
  · simp [h1]
  · rw [if_neg h1]
    cases ha : anyWindow (fun x y => RistrettoBoth.cmp x y ≠ .lt) l with
    | true =>
      have : ¬ Increasing l := by rw [← anyWindow_cmp, ha]; simp
      simp [this]
    | false =>
      have := (anyWindow_cmp l).mp ha
      simp only [Bool.false_eq_true, if_false, Option.some.injEq]
      constructor
      · rintro rfl; exact ⟨h1, this, rfl⟩
      · rintro ⟨_, _, h⟩; cases s; simp only at h; rw [h]

/-! ## Maps -/

private theorem insertAll_sorted_aux {V : Type} (es : List (PublicKey P × V)) :
    ∀ m : BMap P V, m.Sorted → (es.foldl (fun m e => m.set e.1 e.2) m).Sorted := by
  induction es with
  | nil => intro m h; exact h
  | cons e es ih => intro m h; exact ih _ (BMap.sorted_set h _ _)

private theorem insertAll_mem_aux {V : Type} (es : List (PublicKey P × V)) (hw : ∀ e ∈ es, e.1.WF) :
    ∀ m : BMap P V, m.Sorted → m.KeysWF → ∀ k : PublicKey P, k.WF →
      ((es.foldl (fun m e => m.set e.1 e.2) m).get? k ≠ none ↔ m.get? k ≠ none ∨ ∃ e ∈ es, e.1 = k) := by
  induction es with
  | nil => intro m _ _ k _; simp
  | cons e es ih =>
    intro m hm hmw k hk
    have hwe : e.1.WF := hw e (by simp)
    rw [List.foldl_cons, ih (fun e he => hw e (by simp [he])) _ (BMap.sorted_set hm _ _) (BMap.keysWF_set hmw hwe _) k hk,
      BMap.get?_set hm]
    by_cases h : k.compressed = e.1.compressed
    · have : e.1 = k := BMap.key_ext hwe hk h.symm
      simp [this]
    · have : e.1 ≠ k := fun hc => h (by rw [hc])
      simp [h, this]

private theorem insertAll_wf_aux {V : Type} (es : List (PublicKey P × V)) (hw : ∀ e ∈ es, e.1.WF) :
    ∀ m : BMap P V, m.KeysWF → (es.foldl (fun m e => m.set e.1 e.2) m).KeysWF := by
  induction es with
  | nil => intro m h; exact h
  | cons e es ih =>
    intro m h
    exact ih (fun e he => hw e (by simp [he])) _ (BMap.keysWF_set h (hw e (by simp)) _)

private theorem sorted_keys {V : Type} {m : BMap P V} (h : m.Sorted) : Increasing m.keys := by
  unfold Increasing BMap.keys
  rw [List.pairwise_map]
  exact h.imp fun h => (cmpBytes_lt _ _).mp h

private theorem mem_keys {V : Type} {m : BMap P V} (h : m.Sorted) (hw : m.KeysWF) (k : PublicKey P) (hk : k.WF) :
    k ∈ m.keys ↔ m.get? k ≠ none := by
  unfold BMap.keys
  rw [List.mem_map]
  constructor
  · rintro ⟨e, he, rfl⟩
    rw [BMap.get?_of_mem h (show (e.1, e.2) ∈ m from he)]; simp
  · intro hn
    cases hg : m.get? k with
    | none => exact absurd hg hn
    | some v =>
      obtain ⟨k', h1, h2⟩ := BMap.mem_of_get? hg
      exact ⟨_, h1, BMap.key_ext (hw _ h1) hk h2⟩

/-- Keys of a map filled by insertions. -/
theorem insertAll_keys {V : Type} (es : List (PublicKey P × V)) (hw : ∀ e ∈ es, e.1.WF)
    (ks : List (PublicKey P)) (hks : Increasing ks) (hkm : ∀ k, k ∈ ks ↔ ∃ e ∈ es, e.1 = k) :
    (insertAll es).keys = ks := by
  have hs : (insertAll es).Sorted := insertAll_sorted_aux es [] List.Pairwise.nil
  have hkw : (insertAll es).KeysWF := insertAll_wf_aux es hw [] (fun e he => by simp at he)
  apply sorted_keys_ext
  · intro k hk
    unfold BMap.keys at hk
    rw [List.mem_map] at hk
    obtain ⟨e, he, rfl⟩ := hk
    exact hkw e he
  · intro k hk
    obtain ⟨e, he, rfl⟩ := (hkm k).mp hk
    exact hw e he
  · exact sorted_keys hs
  · exact hks
  · intro k
    rw [hkm]
    constructor
    · intro hk
      have hkwf : k.WF := by
        unfold BMap.keys at hk
        rw [List.mem_map] at hk
        obtain ⟨e, he, rfl⟩ := hk
        exact hkw e he
      rw [mem_keys hs hkw k hkwf] at hk
      rcases (insertAll_mem_aux es hw [] List.Pairwise.nil (fun e he => by simp at he) k hkwf).mp hk with h | h
      · exact absurd rfl h
      · exact h
    · rintro ⟨e, he, rfl⟩
      rw [mem_keys hs hkw _ (hw e he)]
      exact (insertAll_mem_aux es hw [] List.Pairwise.nil (fun e he => by simp at he) _ (hw e he)).mpr (Or.inr ⟨e, he, rfl⟩)

/-- **C42** The aggregate key of a set of keys, given as the increasing list `ks` of its members, is
`Σ weight·key`: the same from a map filled in any order with any values and repetitions, from a slice in
any order, and from a sorted slice. -/
theorem aggregate_key_of_set [Oracles] (ks : List (PublicKey P)) (hks : Increasing ks) (hw : ∀ k ∈ ks, k.WF) :
    (∀ (V : Type) (es : List (PublicKey P × V)), (∀ k, k ∈ ks ↔ ∃ e ∈ es, e.1 = k) →
      (insertAll es).publicKey = PublicKey.fromPoint (aggregate ks)) ∧
    (∀ l : List (PublicKey P), l.Perm ks → l.length ≠ 1 →
      ∃ s, aggregatePublicKeyFromSlice l = some s ∧ s.publicKey = PublicKey.fromPoint (aggregate ks)) ∧
    (ks.length ≠ 1 →
      ∃ s, aggregatePublicKeyFromSortedSlice ks = some s ∧ s.publicKey = PublicKey.fromPoint (aggregate ks)) := by
  refine ⟨?_, ?_, ?_⟩
  · intro V es hkm
    unfold BMap.publicKey
    rw [insertAll_keys es (fun e he => hw _ ((hkm e.1).mpr ⟨e, he, rfl⟩)) ks hks hkm, aggregatePoint_eq]
  · intro l hp h1
    refine ⟨⟨ks⟩, ?_, aggregatePoint_eq ks⟩
    rw [aggregate_from_slice_iff l (fun k hk => hw k (hp.subset hk))]
    exact ⟨h1, hp.nodup_iff.mpr (increasing_nodup hks), hp.symm, hks⟩
  · intro h1
    exact ⟨⟨ks⟩, (aggregate_from_sorted_slice_iff ks _).mpr ⟨h1, hks, rfl⟩, aggregatePoint_eq ks⟩

/-- Every finite set of keys has such a list. -/
theorem increasing_list_exists (l : List (PublicKey P)) (hl : ∀ k ∈ l, k.WF) :
    ∃ ks, Increasing ks ∧ ∀ k : PublicKey P, k ∈ ks ↔ k ∈ l := by
  let es := l.map fun k => (k, ())
  have hw : ∀ e ∈ es, e.1.WF := by
    intro e he
    obtain ⟨k, hk, rfl⟩ := List.mem_map.mp he
    exact hl k hk
  have hs : (insertAll es).Sorted := insertAll_sorted_aux es [] List.Pairwise.nil
  have hkw : (insertAll es).KeysWF := insertAll_wf_aux es hw [] (fun e he => by simp at he)
  refine ⟨(insertAll es).keys, sorted_keys hs, ?_⟩
  intro k
  have hkeys : ∀ k ∈ (insertAll es).keys, k.WF := by
    intro k hk
    unfold BMap.keys at hk
    rw [List.mem_map] at hk
    obtain ⟨e, he, rfl⟩ := hk
    exact hkw e he
  have hiff : ∀ k : PublicKey P, k.WF → (k ∈ (insertAll es).keys ↔ k ∈ l) := by
    intro k hk
    rw [mem_keys hs hkw k hk]
    refine (insertAll_mem_aux es hw [] List.Pairwise.nil (fun e he => by simp at he) k hk).trans ?_
    simp [es, BMap.get?]
  exact ⟨fun h => (hiff k (hkeys k h)).mp h, fun h => (hiff k (hl k h)).mpr h⟩

/-- **C42** Order and multiplicity of insertion, and the values stored, do not matter. -/
theorem aggregate_key_order_independent [Oracles] {V V' : Type} (es : List (PublicKey P × V))
    (es' : List (PublicKey P × V')) (hw : ∀ e ∈ es, e.1.WF)
    (h : ∀ k, (∃ e ∈ es, e.1 = k) ↔ ∃ e ∈ es', e.1 = k) :
    (insertAll es).publicKey = (insertAll es').publicKey := by
  have hl : ∀ k ∈ es.map (·.1), k.WF := by
    intro k hk
    obtain ⟨e, he, rfl⟩ := List.mem_map.mp hk
    exact hw e he
  obtain ⟨ks, h1, h2⟩ := increasing_list_exists (es.map (·.1)) hl
  have h3 : ∀ k, k ∈ ks ↔ ∃ e ∈ es, e.1 = k := fun k => by rw [h2, List.mem_map]
  have := (aggregate_key_of_set ks h1 (fun k hk => hl k ((h2 k).mp hk))).1
  rw [this V es h3, this V' es' (fun k => (h3 k).trans (h k))]

/-- **C42** The weights are bound to the whole set: equal hash queries come from equal key lists and
equal choices. -/
theorem weightQuery_injective {ks ks' : List Bytes} {pk pk' : Bytes}
    (h : weightQuery ks pk = weightQuery ks' pk') : ks = ks' ∧ pk = pk' := by
  unfold weightQuery at h
  rw [List.append_assoc, List.append_assoc] at h
  have h := List.append_cancel_left h
  have h := List.append_inj' h rfl
  refine ⟨?_, by simpa using h.2⟩
  exact List.map_injective_iff.mpr (fun a b hab => by simpa using hab) h.1

/-- **C42/C43** Map-based weighting: `Some` of the weight exactly for the keys in the map; the aggregate
key is the sum of the keys times these weightings. -/
theorem map_weighting [Oracles] {V : Type} (es : List (PublicKey P × V)) (hw : ∀ e ∈ es, e.1.WF)
    (ks : List (PublicKey P)) (hks : Increasing ks) (hkm : ∀ k, k ∈ ks ↔ ∃ e ∈ es, e.1 = k)
    (choice : PublicKey P) (hc : choice.WF) :
    (choice ∉ ks → (insertAll es).weighting choice = none) ∧
    (choice ∈ ks → ∃ w, (insertAll es).weighting choice = some w ∧ w.Canonical ∧
      w.toZ = weight (ks.map (·.compressed.1)) choice.compressed.1) ∧
    (insertAll es).publicKey = PublicKey.fromPoint
      (ks.map fun k => (((insertAll es).weighting k).getD Scalar.zero).toZ • k.point).sum := by
  have hs : (insertAll es).Sorted := insertAll_sorted_aux es [] List.Pairwise.nil
  have hkw : (insertAll es).KeysWF := insertAll_wf_aux es hw [] (fun e he => by simp at he)
  have hkeys := insertAll_keys es hw ks hks hkm
  have hmem : ∀ k : PublicKey P, k.WF → (k ∈ ks ↔ (insertAll es).get? k ≠ none) := fun k hk => by
    rw [← hkeys]; exact mem_keys hs hkw k hk
  have hin : ∀ k ∈ ks, (insertAll es).weighting k = some (computeWeighting (commitPublicKeys ks) k) := by
    intro k hk
    have hkwf : k.WF := by obtain ⟨e, he, rfl⟩ := (hkm k).mp hk; exact hw e he
    unfold BMap.weighting
    rw [if_neg (by simpa [Option.isNone_iff_eq_none] using (hmem k hkwf).mp hk), hkeys]
  refine ⟨?_, ?_, ?_⟩
  · intro h
    unfold BMap.weighting
    rw [if_pos]
    rw [Option.isNone_iff_eq_none]
    by_contra hn
    exact h ((hmem choice hc).mpr hn)
  · intro h
    exact ⟨_, hin choice h, canonical_computeWeighting _ _, computeWeighting_toZ _ _⟩
  · rw [BMap.publicKey, hkeys, aggregatePoint_eq]
    congr 1
    unfold aggregate
    congr 1
    apply List.map_congr_left
    intro k hk
    rw [hin k hk, Option.getD_some, computeWeighting_toZ]

/-- **C43** Slice-based weighting is inverted: `None` for every key of the slice, `Some` for every other
key, where the map-based one does the opposite. -/
theorem slice_weighting_inverted [Oracles] (l : List (PublicKey P)) (hl : ∀ k ∈ l, k.WF)
    (s : AggregatePublicKeySlice P) (hs : aggregatePublicKeyFromSlice l = some s) (choice : PublicKey P)
    (hc : choice.WF) :
    (s.weighting choice = none ↔ choice ∈ l) ∧
    ((insertAll (l.map fun k => (k, ()))).weighting choice = none ↔ choice ∉ l) := by
  obtain ⟨h1, h2, h3, h4⟩ := (aggregate_from_slice_iff l hl s).mp hs
  constructor
  · unfold AggregatePublicKeySlice.weighting
    have : (s.keys.any fun pk => RistrettoBoth.eq pk choice) = true ↔ choice ∈ l := by
      rw [List.any_eq_true]
      constructor
      · rintro ⟨k, hk, he⟩
        rw [eq_true_iff] at he
        have hkl := h3.subset hk
        rw [← BMap.key_ext (hl k hkl) hc he]; exact hkl
      · intro h; exact ⟨choice, h3.symm.subset h, (eq_true_iff _ _).mpr rfl⟩
    rw [← this]
    split <;> simp [*]
  · have hkm : ∀ k, k ∈ s.keys ↔ ∃ e ∈ l.map fun k => (k, ()), e.1 = k := by
      intro k; rw [h3.mem_iff]; simp
    have hw : ∀ e ∈ l.map fun k => (k, ()), e.1.WF := by
      intro e he; obtain ⟨k, hk, rfl⟩ := List.mem_map.mp he; exact hl k hk
    obtain ⟨a, b, _⟩ := map_weighting _ hw s.keys h4 hkm choice hc
    rw [← h3.mem_iff]
    constructor
    · intro hn hm
      obtain ⟨w, hw, _⟩ := b hm
      rw [hn] at hw; cases hw
    · exact a

/-- **C43** The same defect on sorted slices. -/
theorem sorted_slice_weighting_inverted [Oracles] (l : List (PublicKey P)) (hl : ∀ k ∈ l, k.WF)
    (s : AggregatePublicKeySlice P) (hs : aggregatePublicKeyFromSortedSlice l = some s) (choice : PublicKey P)
    (hc : choice.WF) : s.weighting choice = none ↔ choice ∈ l := by
  obtain ⟨h1, h2, h3⟩ := (aggregate_from_sorted_slice_iff l s).mp hs
  have : aggregatePublicKeyFromSlice l = some s := by
    rw [aggregate_from_slice_iff l hl]
    exact ⟨h1, increasing_nodup h2, by rw [h3], by rw [h3]; exact h2⟩
  exact (slice_weighting_inverted l hl s this choice hc).1

/-- **C42** Edge cases: the empty slice aggregates to the identity key. -/
theorem aggregate_empty_slice [Oracles] :
    ∃ s : AggregatePublicKeySlice P, aggregatePublicKeyFromSlice [] = some s ∧
      aggregatePublicKeyFromSortedSlice ([] : List (PublicKey P)) = some s ∧ s.publicKey.point = 0 := by
  refine ⟨⟨[]⟩, rfl, rfl, ?_⟩
  show (aggregatePoint ([] : List (PublicKey P))).point = 0
  rw [aggregatePoint_eq]; rfl

/-- **C42** A session's `public_key()` aggregates the keys revealed so far and `expected_public_key()`
those committed or revealed. -/
theorem session_public_keys [Oracles] [SigningTranscript T] (sk : SecretKey) (t : T) (sys : Rng)
    (cs : List (CommitCall P T)) (rs : List (RevealCall P T))
    (hcs : ∀ c ∈ cs, c.Genuine) (hrs : ∀ c ∈ rs, c.Genuine)
    (ks : List (PublicKey P)) (hks : Increasing ks) :
    ((∀ k : PublicKey P, k ∈ ks ↔ k.WF ∧ ∃ p, status (sk.toKeypair : Keypair P) t sys cs rs k.compressed = .revealed p) →
      (session (sk.toKeypair : Keypair P) t sys cs rs).publicKey = PublicKey.fromPoint (aggregate ks)) ∧
    ((∀ k : PublicKey P, k ∈ ks ↔ k.WF ∧ status (sk.toKeypair : Keypair P) t sys cs rs k.compressed ≠ .absent) →
      (session (sk.toKeypair : Keypair P) t sys cs rs).expectedPublicKey = PublicKey.fromPoint (aggregate ks)) := by
  set m := session (sk.toKeypair : Keypair P) t sys cs rs with hm
  have hsort : m.Rs.Sorted := session_sorted _ _ _ _ _
  have hwf : m.Rs.KeysWF := session_wf _ (wf_toPublic _) _ _ _ _ (fun c hc => genuine_commit (hcs c hc))
    (fun c hc => genuine_reveal (hrs c hc))
  have hget : ∀ k, m.Rs.get? k = CoR.ofStatus (status (sk.toKeypair : Keypair P) t sys cs rs k.compressed) :=
    fun k => session_get _ _ _ _ _ _
  have hearly : ∀ e ∈ m.Rs, e.2.isEarly := (session_good (sk.toKeypair : Keypair P) t sys cs rs).early
  have hfm : ∀ b, m.publicKeys b = (BMap.mapVal (fun v : CoR P => match v with
      | .commit _ => if b then none else some ()
      | _ => some ()) m.Rs).map (·.1) := by
    intro b
    unfold MuSig.publicKeys BMap.mapVal
    rw [List.map_filterMap]
    congr 1
    funext e
    cases e.2 <;> simp
    cases b <;> rfl
  have hsrt : ∀ b, Increasing (m.publicKeys b) := by
    intro b
    rw [hfm]
    exact sorted_keys (BMap.sorted_mapVal _ hsort)
  have hmem : ∀ b k, k ∈ m.publicKeys b ↔ ∃ v, (k, v) ∈ m.Rs ∧ (match v with
      | .commit _ => b = false
      | _ => True) := by
    intro b k
    unfold MuSig.publicKeys
    rw [List.mem_filterMap]
    constructor
    · rintro ⟨⟨k', v⟩, he, h⟩
      cases v <;> simp only at h
      · cases b
        · simp only [Bool.false_eq_true, if_false, Option.some.injEq] at h; subst h; exact ⟨_, he, rfl⟩
        · simp at h
      all_goals (simp only [Option.some.injEq] at h; subst h; exact ⟨_, he, trivial⟩)
    · rintro ⟨v, he, h⟩
      refine ⟨_, he, ?_⟩
      cases v <;> simp only at h ⊢
      subst h; rfl
  have hpwf : ∀ b, ∀ k ∈ m.publicKeys b, k.WF := by
    intro b k hk
    obtain ⟨v, hv, _⟩ := (hmem b k).mp hk
    exact hwf _ hv
  have hin : ∀ k : PublicKey P, k.WF → ∀ v, m.Rs.get? k = some v → (k, v) ∈ m.Rs := by
    intro k hk v hg
    obtain ⟨k', h1, h2⟩ := BMap.mem_of_get? hg
    rw [← BMap.key_ext (hwf _ h1) hk h2]; exact h1
  constructor
  · intro hk
    unfold MuSig.publicKey MuSig.computePublicKey
    rw [aggregatePoint_eq]
    congr 2
    apply sorted_keys_ext (hpwf true) (fun k h => ((hk k).mp h).1) (hsrt true) hks
    intro k
    rw [hk]
    constructor
    · intro h
      refine ⟨hpwf _ k h, ?_⟩
      obtain ⟨v, hv, hb⟩ := (hmem true k).mp h
      have h2 := BMap.get?_of_mem hsort hv
      rw [hget] at h2
      have he := hearly _ hv
      cases hst : status (sk.toKeypair : Keypair P) t sys cs rs k.compressed with
      | absent => rw [hst] at h2; cases h2
      | committed c => rw [hst] at h2; cases h2; cases hb
      | revealed p => exact ⟨p, rfl⟩
    · rintro ⟨hkw, p, hp⟩
      rw [hmem]
      refine ⟨_, hin k hkw (.reveal p) ?_, trivial⟩
      rw [hget, hp]; rfl
  · intro hk
    unfold MuSig.expectedPublicKey MuSig.computePublicKey
    rw [aggregatePoint_eq]
    congr 2
    apply sorted_keys_ext (hpwf false) (fun k h => ((hk k).mp h).1) (hsrt false) hks
    intro k
    rw [hk]
    constructor
    · intro h
      refine ⟨hpwf _ k h, ?_⟩
      obtain ⟨v, hv, hb⟩ := (hmem false k).mp h
      have h2 := BMap.get?_of_mem hsort hv
      rw [hget] at h2
      intro hst
      rw [hst] at h2; cases h2
    · rintro ⟨hkw, hp⟩
      rw [hmem]
      cases hst : status (sk.toKeypair : Keypair P) t sys cs rs k.compressed with
      | absent => exact absurd hst hp
      | committed c => exact ⟨.commit c, hin k hkw _ (by rw [hget, hst]; rfl), rfl⟩
      | revealed p => exact ⟨.reveal p, hin k hkw _ (by rw [hget, hst]; rfl), trivial⟩

/-! ## Concrete case -/

private def toyPk (n : Nat) : PublicKey Toy := PublicKey.fromPoint (Toy.ofZ (n : Z))
private theorem toyPk_inj {a b : Nat} (ha : a < 100) (hb : b < 100) (h : toyPk a = toyPk b) : a = b := by
  have := congrArg (fun k : PublicKey Toy => ZMod.val (n := ell) (Toy.toZ k.point)) h
  simp only [toyPk] at this
  change ZMod.val (n := ell) ((a : Nat) : Z) = ZMod.val (n := ell) ((b : Nat) : Z) at this
  have h100 : 100 < ell := by decide +kernel
  rwa [ZMod.val_natCast, ZMod.val_natCast, Nat.mod_eq_of_lt (ha.trans h100), Nat.mod_eq_of_lt (hb.trans h100)] at this
private theorem lexLt_self (l : Bytes) : ¬ lexLt l l := by
  intro h
  rw [← cmpBytes_lt] at h
  have := cmpBytes_swap l l
  rw [h] at this
  cases this

/-- Non-vacuity for C42 and C43: keys 9, 4, 7, in this order, are accepted, and the slice weighs key 5, which is not a
member, and refuses to weigh its member 4, while the map does the opposite. -/
example : letI := toyOracles
    ∃ s, aggregatePublicKeyFromSlice [toyPk 9, toyPk 4, toyPk 7] = some s ∧
      s.weighting (toyPk 4) = none ∧ s.weighting (toyPk 5) ≠ none ∧
      (insertAll [(toyPk 9, ()), (toyPk 4, ()), (toyPk 7, ())]).weighting (toyPk 5) = none ∧
      (insertAll [(toyPk 9, ()), (toyPk 4, ()), (toyPk 7, ())]).weighting (toyPk 4) ≠ none := by
  letI := toyOracles
  have hw : ∀ k ∈ [toyPk 9, toyPk 4, toyPk 7], k.WF := by
    intro k hk
    simp only [List.mem_cons, List.not_mem_nil, or_false] at hk
    rcases hk with rfl | rfl | rfl <;> rfl
  have h1 : toyPk 9 ≠ toyPk 4 := fun h => absurd (toyPk_inj (by omega) (by omega) h) (by omega)
  have h2 : toyPk 9 ≠ toyPk 7 := fun h => absurd (toyPk_inj (by omega) (by omega) h) (by omega)
  have h3 : toyPk 4 ≠ toyPk 7 := fun h => absurd (toyPk_inj (by omega) (by omega) h) (by omega)
  have h4 : toyPk 5 ≠ toyPk 9 := fun h => absurd (toyPk_inj (by omega) (by omega) h) (by omega)
  have h5 : toyPk 5 ≠ toyPk 4 := fun h => absurd (toyPk_inj (by omega) (by omega) h) (by omega)
  have h6 : toyPk 5 ≠ toyPk 7 := fun h => absurd (toyPk_inj (by omega) (by omega) h) (by omega)
  obtain ⟨ks, hk1, hk2⟩ := increasing_list_exists _ hw
  have hp : [toyPk 9, toyPk 4, toyPk 7].Perm ks := by
    have hn : [toyPk 9, toyPk 4, toyPk 7].Nodup := by simp [h1, h2, h3]
    refine (List.perm_ext_iff_of_nodup hn ?_).mpr fun k => (hk2 k).symm
    exact hk1.imp fun h he => by subst he; exact lexLt_self _ h
  obtain ⟨s, hs, -⟩ := (aggregate_key_of_set ks hk1 (fun k hk => hw k ((hk2 k).mp hk))).2.1 _ hp (by simp)
  have a := slice_weighting_inverted _ hw s hs (toyPk 4) rfl
  have b := slice_weighting_inverted _ hw s hs (toyPk 5) rfl
  refine ⟨s, hs, a.1.mpr (by simp), fun h => ?_, b.2.mpr (by simp [h4, h5, h6]), fun h => ?_⟩
  · have := b.1.mp h; simp [h4, h5, h6] at this
  · exact absurd (a.2.mp h) (by simp)

end Schnorrkel.Props
