import Verif.Lemmas.RomKey
import Mathlib.Logic.Equiv.Fintype

/-! # Seeds derived from seeds

A tree of secrets, each of which is the hash of a query that contains its parent's secret.  In the random-oracle model all
of them are as good as independent random strings. -/

namespace Schnorrkel
open Spec Schnorrkel.Props Classical
variable {D : Finset (List MOp)} {Y : Type} [Finite Y]

/-- The first half of 64 bytes. -/
def seed32 (w : Arr 64) : Arr 32 := firstBytes w 32 (by omega)

/-- 64 bytes are two times 32. -/
def halves : Arr 64 ≃ Arr 32 × Arr 32 where
  toFun w := (seed32 w, ⟨w.1.drop 32, by rw [List.length_drop, w.2]⟩)
  invFun x := ⟨x.1.1 ++ x.2.1, by rw [List.length_append, x.1.2, x.2.2]⟩
  left_inv w := Subtype.ext (List.take_append_drop 32 w.1)
  right_inv x := by
    refine Prod.ext (Subtype.ext ?_) (Subtype.ext ?_)
    · exact List.take_left' x.1.2
    · exact List.drop_left' x.1.2

theorem avg_seed32 (F : Arr 32 → ℚ) : (avg fun w : Arr 64 => F (seed32 w)) = avg F := by
  rw [← avg_equiv halves.symm]
  have : ∀ x : Arr 32 × Arr 32, seed32 (halves.symm x) = x.1 := fun x => congrArg Prod.fst (halves.apply_symm_apply x)
  simp only [this]
  rw [avg_prod]
  exact avg_congr fun a => avg_const (Ω := Arr 32) (F a)

theorem chance_seed32 (p : Arr 32 → Prop) : (chance fun w : Arr 64 => p (seed32 w)) = chance p := by
  rw [chance_eq_avg, chance_eq_avg]
  exact avg_seed32 fun n => ind (p n)

/-- The items that have an owner. -/
abbrev Owned (owner : Y → Option Y) : Type := {y : Y // ∃ i, owner y = some i}

/-- The query behind an item, when the owners' secrets are given by `G`. -/
noncomputable def kqOf (owner : Y → Option Y) (kq : Arr 32 → Y → List MOp) (G : Y → Arr 64) (x : Owned owner) : List MOp :=
  kq (seed32 (G x.2.choose)) x.1

omit [Finite Y] in
theorem kqOf_eq (owner : Y → Option Y) (kq : Arr 32 → Y → List MOp) (G : Y → Arr 64) (y i : Y) (h : owner y = some i) :
    kqOf owner kq G ⟨y, i, h⟩ = kq (seed32 (G i)) y := by
  unfold kqOf
  have hc := (⟨i, h⟩ : ∃ i, owner y = some i).choose_spec
  have hc := Option.some.inj (h.symm.trans hc)
  rw [← hc]

section
variable (owner : Y → Option Y) (rank : Y → Nat) (hr : ∀ y i, owner y = some i → rank i < rank y)
  (kq : Arr 32 → Y → List MOp) (hD : ∀ n y i, owner y = some i → kq n y ∈ D)
  (val : (D → Arr 64) → (Y → Arr 64) → Y → Arr 64)
  (hv0 : ∀ f g y, owner y = none → val f g y = g y)
  (hv1 : ∀ f g y i (h : owner y = some i), val f g y = f ⟨kq (seed32 (val f g i)) y, hD _ _ _ h⟩)

include hr hv0 hv1 in
omit [Finite Y] in
/-- The values are the only ones that satisfy their equations. -/
theorem val_unique (f : D → Arr 64) (g G : Y → Arr 64) (h0 : ∀ y, owner y = none → G y = g y)
    (h1 : ∀ y i (h : owner y = some i), G y = f ⟨kq (seed32 (G i)) y, hD _ _ _ h⟩) : val f g = G := by
  have : ∀ n y, rank y < n → val f g y = G y := by
    intro n
    induction n with
    | zero => intro y hy; omega
    | succ n ih =>
      intro y hy
      cases ho : owner y with
      | none => rw [hv0 f g y ho, h0 y ho]
      | some i =>
        have hi := ih i (by have := hr y i ho; omega)
        rw [hv1 f g y i ho, h1 y i ho]
        simp only [hi]
  exact funext fun y => this _ y (Nat.lt_succ_self _)

/-- From the table to independent secrets. -/
noncomputable def spread (x : (D → Arr 64) × (Y → Arr 64)) : (D → Arr 64) × (Y → Arr 64) :=
  (withKeyed (kqOf owner kq (val x.1 x.2)) x.1 fun y => x.2 y.1, val x.1 x.2)

include hD in
omit [Finite Y] in
theorem kqOf_mem (G : Y → Arr 64) (x : Owned owner) : kqOf owner kq G x ∈ D := by
  obtain ⟨y, i, h⟩ := x
  rw [kqOf_eq _ _ _ _ _ h]
  exact hD _ _ _ h

/-- And back. -/
noncomputable def gather (x : (D → Arr 64) × (Y → Arr 64)) : (D → Arr 64) × (Y → Arr 64) :=
  (withKeyed (kqOf owner kq x.2) x.1 fun y => x.2 y.1, fun y =>
    if h : ∃ i, owner y = some i then x.1 ⟨kqOf owner kq x.2 ⟨y, h⟩, kqOf_mem owner kq hD x.2 _⟩ else x.2 y)

include hr hv0 hv1 in
theorem val_gather (x : (D → Arr 64) × (Y → Arr 64)) (hi : Function.Injective (kqOf owner kq x.2)) :
    val (gather owner kq hD x).1 (gather owner kq hD x).2 = x.2 := by
  refine val_unique owner rank hr kq hD val hv0 hv1 _ _ _ (fun y ho => ?_) fun y i h => ?_
  · simp only [gather]
    rw [dif_neg]
    rintro ⟨i, hi⟩
    rw [ho] at hi
    cases hi
  · simp only [gather]
    have hm := hD (seed32 (x.2 i)) y i h
    have := withKeyed_hit (D := D) (kqOf owner kq x.2) hi x.1 (fun y => x.2 y.1) ⟨y, i, h⟩ (kqOf_mem owner kq hD _ _)
    rw [← this]
    exact congrArg _ (Subtype.ext (kqOf_eq _ _ _ _ _ h))

include hr hv0 hv1 in
theorem spread_gather (x : (D → Arr 64) × (Y → Arr 64)) (hi : Function.Injective (kqOf owner kq x.2)) :
    spread owner kq val (gather owner kq hD x) = x := by
  have hv := val_gather owner rank hr kq hD val hv0 hv1 x hi
  unfold spread
  rw [hv]
  refine Prod.ext ?_ rfl
  simp only
  funext d
  by_cases h : ∃ y, kqOf owner kq x.2 y = d.1
  · obtain ⟨y, hy⟩ := h
    have hd : d = ⟨_, kqOf_mem owner kq hD x.2 y⟩ := Subtype.ext hy.symm
    rw [hd, withKeyed_hit _ hi]
    simp only [gather]
    rw [dif_pos y.2]
  · have h' : ∀ y, kqOf owner kq x.2 y ≠ d.1 := fun r hr => h ⟨r, hr⟩
    rw [withKeyed_miss _ _ _ _ h']
    simp only [gather]
    rw [withKeyed_miss _ _ _ _ h']

include hv0 hv1 in
theorem gather_spread (x : (D → Arr 64) × (Y → Arr 64)) (hi : Function.Injective (kqOf owner kq (val x.1 x.2))) :
    gather owner kq hD (spread owner kq val x) = x := by
  refine Prod.ext ?_ ?_
  · simp only [gather, spread]
    funext d
    by_cases h : ∃ y, kqOf owner kq (val x.1 x.2) y = d.1
    · obtain ⟨y, hy⟩ := h
      have hd : d = ⟨_, kqOf_mem owner kq hD (val x.1 x.2) y⟩ := Subtype.ext hy.symm
      rw [hd, withKeyed_hit _ hi]
      obtain ⟨y, i, hyi⟩ := y
      simp only
      rw [hv1 _ _ _ _ hyi]
      exact congrArg x.1 (Subtype.ext (kqOf_eq _ _ _ _ _ hyi).symm)
    · have h' : ∀ y, kqOf owner kq (val x.1 x.2) y ≠ d.1 := fun r hr => h ⟨r, hr⟩
      rw [withKeyed_miss _ _ _ _ h', withKeyed_miss _ _ _ _ h']
  · funext y
    simp only [gather, spread]
    by_cases h : ∃ i, owner y = some i
    · rw [dif_pos h, withKeyed_hit _ hi]
    · rw [dif_neg h]
      refine hv0 _ _ _ ?_
      cases ho : owner y with
      | none => rfl
      | some i => exact (h ⟨i, ho⟩).elim

include hr hv0 hv1 in
/-- All the secrets of the tree are as good as independent ones, unless two queries coincide. -/
theorem seed_tree (F : (D → Arr 64) → (Y → Arr 64) → ℚ) (hF : ∀ f G, 0 ≤ F f G ∧ F f G ≤ 1) :
    (avg fun f => avg fun g => F f (val f g)) ≤
      (avg fun f => avg fun G => F (withKeyed (kqOf owner kq G) f fun y => G y.1) G) +
        chance fun G : Y → Arr 64 => ¬ Function.Injective (kqOf owner kq G) := by
  letI : Fintype ((D → Arr 64) × (Y → Arr 64)) := Fintype.ofFinite _
  let p : (D → Arr 64) × (Y → Arr 64) → Prop := fun x => Function.Injective (kqOf owner kq x.2)
  let q : (D → Arr 64) × (Y → Arr 64) → Prop := fun x => Function.Injective (kqOf owner kq (val x.1 x.2))
  let e : {x // p x} ≃ {x // q x} :=
    { toFun := fun x => ⟨gather owner kq hD x.1, by
        show Function.Injective (kqOf owner kq _)
        rw [val_gather owner rank hr kq hD val hv0 hv1 x.1 x.2]
        exact x.2⟩
      invFun := fun x => ⟨spread owner kq val x.1, x.2⟩
      left_inv := fun x => Subtype.ext (spread_gather owner rank hr kq hD val hv0 hv1 x.1 x.2)
      right_inv := fun x => Subtype.ext (gather_spread owner kq hD val hv0 hv1 x.1 x.2) }
  have h1 : (avg fun f => avg fun g => F f (val f g)) =
      avg fun x : (D → Arr 64) × (Y → Arr 64) => F (e.extendSubtype x).1 (val (e.extendSubtype x).1 (e.extendSubtype x).2) := by
    rw [avg_equiv e.extendSubtype fun x => F x.1 (val x.1 x.2), avg_prod]
  have h2 : (chance fun G : Y → Arr 64 => ¬ Function.Injective (kqOf owner kq G)) =
      avg fun x : (D → Arr 64) × (Y → Arr 64) => ind (¬ p x) := by
    rw [chance_eq_avg, avg_prod]
    exact (avg_const (Ω := D → Arr 64) _).symm
  rw [h1, h2, ← avg_prod (fun x : (D → Arr 64) × (Y → Arr 64) => F (withKeyed (kqOf owner kq x.2) x.1 fun y => x.2 y.1) x.2),
    ← avg_add]
  refine avg_mono fun x => ?_
  by_cases hp : p x
  · rw [e.extendSubtype_apply_of_mem x hp]
    have e1 : (e ⟨x, hp⟩ : (D → Arr 64) × (Y → Arr 64)) = gather owner kq hD x := rfl
    rw [e1, val_gather owner rank hr kq hD val hv0 hv1 x hp]
    exact le_add_of_nonneg_right (ind_nonneg _)
  · have e1 : ind (¬ p x) = 1 := if_pos hp
    rw [e1]
    have := (hF (e.extendSubtype x).1 (val (e.extendSubtype x).1 (e.extendSubtype x).2)).2
    have := (hF (withKeyed (kqOf owner kq x.2) x.1 fun y => x.2 y.1) x.2).1
    linarith
end

/-! ## A service whose nonces come from the leaves of the tree -/

section
variable {Req Ans κ α ι : Type} {K : Finset κ} [Fintype ι]

/-- Nodes are owned by their parents, uses by the nodes they belong to. -/
def treeOwner (parent : ι → Option ι) (node : K → ι) : ι ⊕ K → Option (ι ⊕ K)
  | .inl i => (parent i).map .inl
  | .inr k => some (.inl (node k))

omit [Fintype ι] in
theorem treeOwner_inl (parent : ι → Option ι) (node : K → ι) (y i : ι ⊕ K) (h : treeOwner parent node y = some i) :
    ∃ j, i = .inl j := by
  cases y with
  | inl a =>
    simp only [treeOwner, Option.map_eq_some_iff] at h
    obtain ⟨j, -, h⟩ := h
    exact ⟨j, h.symm⟩
  | inr k => exact ⟨_, (Option.some.inj h).symm⟩

/-- Two of the nodes' secrets coincide. -/
theorem chance_same_seed : (chance fun G : ι ⊕ K → Arr 64 => ∃ x : ι × ι, x.1 ≠ x.2 ∧
    seed32 (G (.inl x.1)) = seed32 (G (.inl x.2))) ≤ (Fintype.card ι * Fintype.card ι : Nat) * (1 / 2 ^ 256) := by
  rw [← Fintype.card_prod]
  refine chance_exists_le _ _ fun x => ?_
  by_cases hx : x.1 = x.2
  · rw [chance_eq_avg]
    refine avg_le_const fun G => ?_
    have : ind (x.1 ≠ x.2 ∧ seed32 (G (.inl x.1)) = seed32 (G (.inl x.2))) = 0 := if_neg fun h => h.1 hx
    rw [this]
    positivity
  · rw [chance_eq_avg, avg_update (Sum.inl x.1), avg_comm]
    refine avg_le_const fun G => ?_
    have hne : (Sum.inl x.2 : ι ⊕ K) ≠ .inl x.1 := fun h => hx (Sum.inl.inj h).symm
    simp only [Function.update_self, Function.update_of_ne hne]
    rw [← chance_eq_avg, chance_seed32 fun n => x.1 ≠ x.2 ∧ n = seed32 (G (.inl x.2))]
    unfold chance
    rw [card_arr32, Nat.cast_pow, Nat.cast_ofNat]
    refine div_le_div_of_nonneg_right ?_ (by positivity)
    have : Subsingleton {n : Arr 32 // x.1 ≠ x.2 ∧ n = seed32 (G (.inl x.2))} :=
      ⟨fun a b => Subtype.ext (a.2.2.trans b.2.2.symm)⟩
    exact_mod_cast Finite.card_le_one_iff_subsingleton.mpr this

theorem tree_service_le (O : Oracles) (query : κ → Z → Z → List MOp) (answer : κ → Z → Z → Ans) (key : Req → κ) (sec : κ → Z)
    (parent : ι → Option ι) (node : K → ι) (rank : ι → Nat) (hr : ∀ i j, parent i = some j → rank j < rank i)
    (kq : Arr 32 → ι ⊕ K → List MOp)
    (hinj : ∀ n (y : Owned (treeOwner parent node)) n' (y' : Owned (treeOwner parent node)), kq n y.1 = kq n' y'.1 →
      n = n' ∧ (treeOwner parent node y.1 = treeOwner parent node y'.1 → y.1 = y'.1))
    (hsep : ∀ n (y : Owned (treeOwner parent node)) k v, kq n y.1 ≠ query k v 0) (hD : ∀ n y i, treeOwner parent node y = some i → kq n y ∈ D)
    (val : (D → Arr 64) → (ι ⊕ K → Arr 64) → ι ⊕ K → Arr 64)
    (hv0 : ∀ f g y, treeOwner parent node y = none → val f g y = g y)
    (hv1 : ∀ f g y i (h : treeOwner parent node y = some i), val f g y = f ⟨kq (seed32 (val f g i)) y, hD _ _ _ h⟩)
    (fin : α → Prop) (win : Oracles → α → Prop)
    (hw : ∀ O O' a, (∀ l, (∀ n (y : Owned (treeOwner parent node)), kq n y.1 ≠ l) → O.merlin l 64 = O'.merlin l 64) → win O a → win O' a)
    (A : Client Req Ans α) (q m : Nat) (hA : A.Limited D key K fin q m) :
    (avg fun f : D → Arr 64 => avg fun g => ind (win (table O D f) (A.play (table O D f)
        fun r => realAns (table O D f) query answer sec (key r) (residue (noncesOf (fun k => val f g (.inr k)) (key r)))))) ≤
      (avg fun f : D → Arr 64 => avg fun N : K → Arr 64 => ind (win (table O D f) (A.play (table O D f)
        fun r => realAns (table O D f) query answer sec (key r) (residue (noncesOf N (key r)))))) +
      Fintype.card ι * (Fintype.card ι + q : Nat) / 2 ^ 256 := by
  let own := treeOwner parent node
  let serve : (D → Arr 64) → (K → Arr 64) → Req → Ans := fun f N r =>
    realAns (table O D f) query answer sec (key r) (residue (noncesOf N (key r)))
  let F : (D → Arr 64) → (ι ⊕ K → Arr 64) → ℚ := fun f G =>
    ind (win (table O D f) (A.play (table O D f) (serve f fun k => G (.inr k))))
  have hrank : ∀ y i, own y = some i → Sum.elim rank (fun _ => Finset.univ.sup rank + 1) i <
      Sum.elim rank (fun _ : K => Finset.univ.sup rank + 1) y := by
    intro y i h
    cases y with
    | inl a =>
      simp only [own, treeOwner, Option.map_eq_some_iff] at h
      obtain ⟨j, h1, rfl⟩ := h
      exact hr _ _ h1
    | inr k =>
      obtain rfl := (Option.some.inj h)
      exact Nat.lt_succ_of_le (Finset.le_sup (f := rank) (Finset.mem_univ _))
  have s1 := seed_tree own _ hrank kq hD val hv0 hv1 F fun f G => ⟨ind_nonneg _, ind_le_one _⟩
  have s2 : ∀ f G, F (withKeyed (kqOf own kq G) f fun y => G y.1) G ≤ F f G +
      ind (∃ l ∈ A.asked (table O D f) (serve f fun k => G (.inr k)), ∃ x, kqOf own kq G x = l) := by
    intro f G
    set N : K → Arr 64 := fun k => G (.inr k) with hN
    by_cases h : ∃ l ∈ A.asked (table O D f) (serve f N), ∃ x, kqOf own kq G x = l
    · have e : ind (∃ l ∈ A.asked (table O D f) (serve f N), ∃ x, kqOf own kq G x = l) = 1 := if_pos h
      rw [e]
      exact le_trans (ind_le_one _) (le_add_of_nonneg_left (ind_nonneg _))
    · refine le_trans (ind_mono ?_) (le_add_of_nonneg_right (ind_nonneg _))
      have htab : ∀ l, (∀ x, kqOf own kq G x ≠ l) → (table O D (withKeyed (kqOf own kq G) f fun y => G y.1)).merlin l 64 =
        (table O D f).merlin l 64 := fun l hl => table_withKeyed O _ f _ l hl
      have hplay := client_play_eq (table O D (withKeyed (kqOf own kq G) f fun y => G y.1)) (table O D f)
        (serve (withKeyed (kqOf own kq G) f fun y => G y.1) N) (serve f N) {r | key r ∈ K} (kqOf own kq G) htab
        (fun r _ => by
          have h2 : ∀ v, hashWith (table O D (withKeyed (kqOf own kq G) f fun y => G y.1)) (query (key r) v 0) =
              hashWith (table O D f) (query (key r) v 0) := fun v =>
            hashWith_congr (htab _ fun x => hsep _ _ _ _)
          simp only [serve, realAns, h2]) A (limited_requests key fin A q m hA)
        (fun l hl x hx => h ⟨l, hl, x, hx⟩)
      rw [hplay]
      exact hw _ _ _ fun l hl => htab l fun x => hl _ x
  have s3 : (chance fun G : ι ⊕ K → Arr 64 => ¬ Function.Injective (kqOf own kq G)) ≤
      (Fintype.card ι * Fintype.card ι : Nat) * (1 / 2 ^ 256) := by
    refine le_trans (chance_mono fun G hG => ?_) (chance_same_seed (ι := ι) (K := K))
    simp only [Function.Injective, not_forall] at hG
    obtain ⟨⟨y, i, hi⟩, ⟨y', i', hi'⟩, he, hne⟩ := hG
    rw [kqOf_eq _ _ _ _ _ hi, kqOf_eq _ _ _ _ _ hi'] at he
    obtain ⟨j, rfl⟩ := treeOwner_inl _ _ _ _ hi
    obtain ⟨j', rfl⟩ := treeOwner_inl _ _ _ _ hi'
    obtain ⟨h1, h2⟩ := hinj _ ⟨y, _, hi⟩ _ ⟨y', _, hi'⟩ he
    refine ⟨(j, j'), fun hj => hne ?_, h1⟩
    simp only at hj
    subst hj
    exact Subtype.ext (h2 (hi.trans hi'.symm))
  -- averages over the secrets of nodes and of uses
  have hsum : ∀ H : (ι → Arr 64) → (K → Arr 64) → ℚ, (avg fun G : ι ⊕ K → Arr 64 => H (fun i => G (.inl i)) fun k => G (.inr k)) =
      avg fun N : K → Arr 64 => avg fun S : ι → Arr 64 => H S N := by
    intro H
    have := avg_equiv (Equiv.sumArrowEquivProdArrow ι K (Arr 64)) fun x => H x.1 x.2
    rw [avg_prod, avg_comm] at this
    exact this
  have s4 : ∀ f, (avg fun G : ι ⊕ K → Arr 64 =>
      ind (∃ l ∈ A.asked (table O D f) (serve f fun k => G (.inr k)), ∃ x, kqOf own kq G x = l)) ≤
      Fintype.card ι * (q / 2 ^ 256) := by
    intro f
    refine le_trans (avg_mono fun G => ind_mono (q := ∃ i : ι, ∃ l ∈ A.asked (table O D f) (serve f fun k => G (.inr k)),
      ∃ y : Owned own, kq (seed32 (G (.inl i))) y.1 = l) ?_) ?_
    · rintro ⟨l, hl, ⟨y, i, hi⟩, he⟩
      rw [kqOf_eq _ _ _ _ _ hi] at he
      obtain ⟨j, rfl⟩ := treeOwner_inl _ _ _ _ hi
      exact ⟨j, l, hl, ⟨y, _, hi⟩, he⟩
    · rw [hsum fun S N => ind (∃ i : ι, ∃ l ∈ A.asked (table O D f) (serve f N), ∃ y : Owned own, kq (seed32 (S i)) y.1 = l)]
      refine avg_le_const fun N => ?_
      rw [← chance_eq_avg]
      refine chance_exists_le _ _ fun i => ?_
      rw [chance_coord i fun w : Arr 64 => ∃ l ∈ A.asked (table O D f) (serve f N), ∃ y : Owned own, kq (seed32 w) y.1 = l,
        chance_seed32 fun n => ∃ l ∈ A.asked (table O D f) (serve f N), ∃ y : Owned own, kq n y.1 = l]
      refine le_trans (chance_keys (fun n (y : Owned own) => kq n y.1) (fun k x k' x' h => (hinj _ _ _ _ h).1) _) ?_
      rw [card_arr32, Nat.cast_pow, Nat.cast_ofNat]
      gcongr
      exact limited_asked _ _ key fin A q m hA
  have s5 : (avg fun f : D → Arr 64 => avg fun G => F f G) =
      avg fun f : D → Arr 64 => avg fun N : K → Arr 64 => ind (win (table O D f) (A.play (table O D f) (serve f N))) := by
    refine avg_congr fun f => ?_
    have := hsum fun S N => ind (win (table O D f) (A.play (table O D f) (serve f N)))
    refine this.trans (avg_congr fun N => avg_const _)
  change (avg fun f : D → Arr 64 => avg fun g => F f (val f g)) ≤ _
  refine le_trans s1 ?_
  have s6 : (avg fun f : D → Arr 64 => avg fun G => F (withKeyed (kqOf own kq G) f fun y => G y.1) G) ≤
      (avg fun f : D → Arr 64 => avg fun N : K → Arr 64 => ind (win (table O D f) (A.play (table O D f) (serve f N)))) +
      Fintype.card ι * (q / 2 ^ 256) := by
    rw [← s5]
    refine le_trans (avg_mono fun f => avg_mono fun G => s2 f G) ?_
    simp only [avg_add]
    exact add_le_add_right (avg_le_const s4) _
  have e : (Fintype.card ι * (Fintype.card ι + q : Nat) / 2 ^ 256 : ℚ) = Fintype.card ι * (q / 2 ^ 256) +
      (Fintype.card ι * Fintype.card ι : Nat) * (1 / 2 ^ 256) := by
    push_cast
    ring
  rw [e]
  linarith
end

end Schnorrkel
