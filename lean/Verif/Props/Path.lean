import Verif.Spec.Path
import Verif.Props.Derive
import Verif.Props.Keys
import Verif.Props.RomCollide

/-! # C91: different derivation paths lead to different keys -/

namespace Schnorrkel.Props
open SigningTranscript Spec
variable {P : Type} [Ristretto P]

variable [O : Oracles] {mode : ExpansionMode}

theorem junction_chaincode (x : ExtendedKey SecretKey × Rng) (j : Junction) :
    (takeJunction P mode x j).1.chaincode = ⟨O.merlin (junctionInput P x.1 j) 32⟩ := by
  cases j <;> rfl

theorem junction_canonical (x : ExtendedKey SecretKey × Rng) (h : x.1.key.key.Canonical) (j : Junction) :
    (takeJunction P mode x j).1.key.key.Canonical := by
  cases j with
  | soft i =>
    show (x.1.key.key + (PublicKey.deriveScalarAndChaincode (x.1.key.toPublic : PublicKey P) (⟨simpleLog i⟩ : Transcript)
      x.1.chaincode).1).Canonical
    exact Scalar.canonical_add h (canonical_tweak _ _ _)
  | hard i =>
    show ((x.1.key.hardDeriveMiniSecretKey (some x.1.chaincode) i).1.expand mode).key.Canonical
    exact (expand_entry_points_agree (P := P) _ _).2.2.2

theorem junction_respects (x y : ExtendedKey SecretKey × Rng) (h : SameNode x.1 y.1) (j : Junction) :
    SameNode (takeJunction P mode x j).1 (takeJunction P mode y j).1 ∧ junctionInput P x.1 j = junctionInput P y.1 j := by
  obtain ⟨⟨⟨k, n⟩, c⟩, s⟩ := x
  obtain ⟨⟨⟨k', n'⟩, c'⟩, s'⟩ := y
  obtain ⟨h1, h2⟩ := h
  simp only at h1 h2
  subst h1 h2
  cases j <;> exact ⟨⟨rfl, rfl⟩, rfl⟩

omit O in
theorem scalar_ext {k k' : Scalar} (h : k.bytes.1 = k'.bytes.1) : k = k' := by
  cases k; cases k'; exact congrArg Scalar.mk (Subtype.ext h)

omit O in
theorem junctionInput_inj (x y : ExtendedKey SecretKey) (hx : x.key.key.Canonical) (hy : y.key.key.Canonical)
    (j j' : Junction) (h : junctionInput P x j = junctionInput P y j') : SameNode x y ∧ j = j' := by
  obtain ⟨⟨k, n⟩, ⟨c⟩⟩ := x
  obtain ⟨⟨k', n'⟩, ⟨c'⟩⟩ := y
  cases j with
  | soft i =>
    cases j' with
    | soft i' =>
      obtain ⟨h1, h2, h3⟩ := (soft_query_injective _ _ _ _ _ _).1.mp (List.append_cancel_right h)
      have h4 : k •. (basepoint : P) = k' •. basepoint := compress_inj.mp (Subtype.ext h3)
      rw [mulPoint_eq, mulPoint_eq, smul_basepoint_inj] at h4
      have h5 : i = i' := by simpa [simpleLog] using h1
      exact ⟨⟨hx.eq_of_toZ hy h4, congrArg ChainCode.mk (Subtype.ext h2)⟩, by rw [h5]⟩
    | hard i' => exact absurd h.symm ((hard_query_injective _ i' _ [] _ none).2 _ _ _).2.2.2
  | hard i =>
    cases j' with
    | soft i' => exact absurd h ((hard_query_injective _ i _ [] _ none).2 _ _ _).2.2.2
    | hard i' =>
      obtain ⟨h1, h2, h3⟩ := (hard_query_injective _ _ _ _ _ _).1.mp (List.append_cancel_right h)
      refine ⟨⟨?_, ?_⟩, by rw [h1]⟩
      · exact scalar_ext h3
      · exact congrArg ChainCode.mk (Subtype.ext (Option.some.inj h2))

theorem walk_concat (x : ExtendedKey SecretKey × Rng) (p : List Junction) (j : Junction) :
    walk P mode x (p ++ [j]) = takeJunction P mode (walk P mode x p) j := by
  simp [walk]

theorem walk_canonical (x : ExtendedKey SecretKey × Rng) (h : x.1.key.key.Canonical) (p : List Junction) :
    (walk P mode x p).1.key.key.Canonical := by
  induction p generalizing x with
  | nil => exact h
  | cons j p ih => exact ih _ (junction_canonical x h j)

theorem walkInputs_concat (x : ExtendedKey SecretKey × Rng) (p : List Junction) (j : Junction) :
    walkInputs P mode x (p ++ [j]) = walkInputs P mode x p ++ [junctionInput P (walk P mode x p).1 j] := by
  induction p generalizing x with
  | nil => rfl
  | cons i p ih => simp only [List.cons_append, walkInputs, ih]; rfl

theorem collision_mono {a b a' b' : List (List MOp)} (h : CollisionBetween a b) (ha : a ⊆ a') (hb : b ⊆ b') :
    CollisionBetween a' b' := by
  obtain ⟨u, hu, v, hv, h⟩ := h
  exact ⟨u, ha hu, v, hb hv, h⟩

/-- Reading two walks backwards from a common chain code. -/
theorem walk_backwards (x y : ExtendedKey SecretKey × Rng) (hx : x.1.key.key.Canonical) (hy : y.1.key.key.Canonical)
    (p q : List Junction) (j j' : Junction)
    (h : (walk P mode x (p ++ [j])).1.chaincode = (walk P mode y (q ++ [j'])).1.chaincode) :
    (SameNode (walk P mode x p).1 (walk P mode y q).1 ∧ j = j') ∨
      CollisionBetween (walkInputs P mode x (p ++ [j])) (walkInputs P mode y (q ++ [j'])) := by
  rw [walk_concat, walk_concat, junction_chaincode, junction_chaincode] at h
  by_cases he : junctionInput P (walk P mode x p).1 j = junctionInput P (walk P mode y q).1 j'
  · exact .inl (junctionInput_inj _ _ (walk_canonical x hx p) (walk_canonical y hy q) _ _ he)
  · refine .inr ⟨_, ?_, _, ?_, he, congrArg (fun c : ChainCode => c.bytes.1) h⟩ <;> rw [walkInputs_concat] <;> simp

/-- **C91** two walks of the same length, from any two extended secret keys, along any mix of soft and hard junctions, that
end in the same chain code took the same path from the same scalar and chain code — or the hash function collides on two
inputs hashed on the way. -/
theorem same_length_paths_distinct (x y : ExtendedKey SecretKey × Rng) (hx : x.1.key.key.Canonical)
    (hy : y.1.key.key.Canonical) (p q : List Junction) (hl : p.length = q.length) (hp : p ≠ [])
    (h : (walk P mode x p).1.chaincode = (walk P mode y q).1.chaincode) :
    (p = q ∧ SameNode x.1 y.1 ∧ SameNode (walk P mode x p).1 (walk P mode y q).1) ∨
      CollisionBetween (walkInputs P mode x p) (walkInputs P mode y q) := by
  induction p using List.reverseRecOn generalizing q with
  | nil => exact absurd rfl hp
  | append_singleton p j ih =>
    rcases List.eq_nil_or_concat q with rfl | ⟨q, j', rfl⟩
    · simp at hl
    simp only [List.concat_eq_append] at hl h ⊢
    have hl' : p.length = q.length := by simpa using hl
    rcases walk_backwards x y hx hy p q j j' h with ⟨h1, rfl⟩ | h1
    · have h2 := (junction_respects (mode := mode) (P := P) _ _ h1 j).1
      rw [← walk_concat, ← walk_concat] at h2
      by_cases hp' : p = []
      · subst hp'
        obtain rfl : q = [] := List.length_eq_zero_iff.mp hl'.symm
        exact .inl ⟨rfl, h1, h2⟩
      · rcases ih q hl' hp' h1.2 with ⟨rfl, h3, -⟩ | h3
        · exact .inl ⟨rfl, h3, h2⟩
        · rw [walkInputs_concat, walkInputs_concat]
          exact .inr (collision_mono h3 (List.subset_append_left _ _) (List.subset_append_left _ _))
    · exact .inr h1

/-- **C91** walks of any two lengths that end in the same chain code: either one of them ends with the whole path of the
other, and where that begins it stands at the chain code the other one started from (and, if any junction follows, at the
same scalar); or the hash function collides.  For two different paths from one key the first case is a walk that comes back
to where it started. -/
theorem paths_distinct (x y : ExtendedKey SecretKey × Rng) (hx : x.1.key.key.Canonical)
    (hy : y.1.key.key.Canonical) (p q : List Junction)
    (h : (walk P mode x p).1.chaincode = (walk P mode y q).1.chaincode) :
    (∃ pre, p = pre ++ q ∧ (walk P mode x pre).1.chaincode = y.1.chaincode ∧
      (q ≠ [] → SameNode (walk P mode x pre).1 y.1)) ∨
    (∃ pre, q = pre ++ p ∧ (walk P mode y pre).1.chaincode = x.1.chaincode ∧
      (p ≠ [] → SameNode (walk P mode y pre).1 x.1)) ∨
      CollisionBetween (walkInputs P mode x p) (walkInputs P mode y q) := by
  induction p using List.reverseRecOn generalizing q with
  | nil => exact .inr (.inl ⟨q, by simp, h.symm, fun h => absurd rfl h⟩)
  | append_singleton p j ih =>
    rcases List.eq_nil_or_concat q with rfl | ⟨q, j', rfl⟩
    · exact .inl ⟨p ++ [j], by simp, h, fun h => absurd rfl h⟩
    simp only [List.concat_eq_append] at h ⊢
    rcases walk_backwards x y hx hy p q j j' h with ⟨h1, rfl⟩ | h1
    · rcases ih q h1.2 with ⟨pre, rfl, h2, h3⟩ | ⟨pre, rfl, h2, h3⟩ | h3
      · refine .inl ⟨pre, by simp, h2, fun _ => ?_⟩
        by_cases hq : q = []
        · subst hq; simpa [walk] using h1
        · exact h3 hq
      · refine .inr (.inl ⟨pre, by simp, h2, fun _ => ?_⟩)
        by_cases hq : p = []
        · subst hq
          have : SameNode x.1 (walk P mode y pre).1 := by simpa [walk] using h1
          exact ⟨this.1.symm, this.2.symm⟩
        · exact h3 hq
      · rw [walkInputs_concat, walkInputs_concat]
        exact .inr (.inr (collision_mono h3 (List.subset_append_left _ _) (List.subset_append_left _ _)))
    · exact .inr (.inr h1)

/-- **C91** equal keys: two walks of the same length that end in the same secret scalar either took the same path from
the same node, or met a collision in chain codes, or their last steps map two different inputs to the same scalar (what C70
bounds for one step). -/
theorem same_length_paths_keys (x y : ExtendedKey SecretKey × Rng) (hx : x.1.key.key.Canonical)
    (hy : y.1.key.key.Canonical) (p q : List Junction) (hl : p.length = q.length) (hp : p ≠ [])
    (h : (walk P mode x p).1.key.key = (walk P mode y q).1.key.key) :
    (p = q ∧ SameNode x.1 y.1 ∧ SameNode (walk P mode x p).1 (walk P mode y q).1) ∨
      CollisionBetween (walkInputs P mode x p) (walkInputs P mode y q) ∨
    ∃ p' j q' j', p = p' ++ [j] ∧ q = q' ++ [j'] ∧
      ¬ (j = j' ∧ SameNode (walk P mode x p').1 (walk P mode y q').1) ∧
      (takeJunction P mode (walk P mode x p') j).1.key.key = (takeJunction P mode (walk P mode y q') j').1.key.key := by
  rcases List.eq_nil_or_concat p with rfl | ⟨p', j, rfl⟩
  · exact absurd rfl hp
  rcases List.eq_nil_or_concat q with rfl | ⟨q', j', rfl⟩
  · simp at hl
  simp only [List.concat_eq_append] at *
  by_cases hs : j = j' ∧ SameNode (walk P mode x p').1 (walk P mode y q').1
  · have h2 := (junction_respects (mode := mode) (P := P) _ _ hs.2 j).1
    rw [← walk_concat, ← walk_concat] at h2
    have h3 : walk P mode y (q' ++ [j]) = walk P mode y (q' ++ [j']) := by rw [hs.1]
    rw [h3] at h2
    rcases same_length_paths_distinct x y hx hy _ _ hl hp h2.2 with h | h
    · exact .inl h
    · exact .inr (.inl h)
  · refine .inr (.inr ⟨p', j, q', j', rfl, rfl, hs, ?_⟩)
    rw [← walk_concat, ← walk_concat]
    exact h

/-- **C91** equal keys, any lengths and expansion modes: two non-empty walks that end in the same secret scalar: one of them
ends with the whole path of the other, having passed through the node where that one started; or the hash function collides
in a chain code; or their last steps map two different inputs to the same scalar. -/
theorem paths_keys (x y : ExtendedKey SecretKey × Rng) (hx : x.1.key.key.Canonical) (hy : y.1.key.key.Canonical)
    (p q : List Junction) (hp : p ≠ []) (hq : q ≠ [])
    (h : (walk P mode x p).1.key.key = (walk P mode y q).1.key.key) :
    (∃ pre, p = pre ++ q ∧ SameNode (walk P mode x pre).1 y.1) ∨
    (∃ pre, q = pre ++ p ∧ SameNode (walk P mode y pre).1 x.1) ∨
      CollisionBetween (walkInputs P mode x p) (walkInputs P mode y q) ∨
    ∃ p' j q' j', p = p' ++ [j] ∧ q = q' ++ [j'] ∧
      ¬ (j = j' ∧ SameNode (walk P mode x p').1 (walk P mode y q').1) ∧
      (takeJunction P mode (walk P mode x p') j).1.key.key = (takeJunction P mode (walk P mode y q') j').1.key.key := by
  rcases List.eq_nil_or_concat p with rfl | ⟨p', j, rfl⟩
  · exact absurd rfl hp
  rcases List.eq_nil_or_concat q with rfl | ⟨q', j', rfl⟩
  · exact absurd rfl hq
  simp only [List.concat_eq_append] at *
  by_cases hs : j = j' ∧ SameNode (walk P mode x p').1 (walk P mode y q').1
  · obtain ⟨rfl, hs⟩ := hs
    have h2 := (junction_respects (mode := mode) (P := P) _ _ hs j).1
    rw [← walk_concat, ← walk_concat] at h2
    rcases paths_distinct x y hx hy _ _ h2.2 with ⟨pre, e, -, h3⟩ | ⟨pre, e, -, h3⟩ | h3
    · exact .inl ⟨pre, e, h3 (by simp)⟩
    · exact .inr (.inl ⟨pre, e, h3 (by simp)⟩)
    · exact .inr (.inr (.inl h3))
  · refine .inr (.inr (.inr ⟨p', j, q', j', rfl, rfl, hs, ?_⟩))
    rw [← walk_concat, ← walk_concat]
    exact h

omit O in
/-- **C91** in the random-oracle model: whoever makes at most `n` hash queries, among them those of two walks of the same
length that differ in the path, in the scalar or in the chain code they start from, sees them end in the same chain code
with probability at most `n(n-1)/2 / 2^256`. -/
theorem paths_collision_random_oracle (O : Oracles)
    (A : Algo ((ExtendedKey SecretKey × Rng) × List Junction × (ExtendedKey SecretKey × Rng) × List Junction))
    (D : Finset (List MOp)) (n : Nat) (hA : A.WideWithin O D n) :
    chance (fun f : D → Arr 64 => letI := wideTable O D f
      let (x, p, y, q) := A.run (wideTable O D f)
      x.1.key.key.Canonical ∧ y.1.key.key.Canonical ∧ p.length = q.length ∧ ¬ (p = q ∧ SameNode x.1 y.1) ∧
      (∀ h ∈ walkInputs P mode x p ++ walkInputs P mode y q, h ∈ A.asked (wideTable O D f)) ∧ p ≠ [] ∧
      (walk P mode x p).1.chaincode = (walk P mode y q).1.chaincode) ≤ (n * (n - 1) : ℚ) / 2 / 2 ^ 256 := by
  have h := chance_collide O A n 32 (by omega) hA
  rw [show (256 : ℚ) ^ 32 = 2 ^ 256 by norm_num] at h
  refine le_trans (chance_mono ?_) h
  intro f hv
  let _ := wideTable O D f
  simp only at hv ⊢
  obtain ⟨hx, hy, hl, hne, hask, hp, he⟩ := hv
  rcases same_length_paths_distinct _ _ hx hy _ _ hl hp he with h | ⟨u, hu, v, hv, h⟩
  · exact absurd ⟨h.1, h.2.1⟩ hne
  · exact ⟨u, hask u (List.mem_append_left _ hu), v, hask v (List.mem_append_right _ hv), h⟩

/-! ## Watch-only walks -/

theorem public_step (sys : Rng) (x : ExtendedKey (PublicKey P)) (i : Bytes) :
    (x.derivedKeySimple i sys).1.chaincode = ⟨O.merlin (publicInput x i) 32⟩ ∧ (x.derivedKeySimple i sys).1.key.WF := ⟨rfl, rfl⟩

omit O in
theorem publicInput_inj (x y : ExtendedKey (PublicKey P)) (hx : x.key.WF) (hy : y.key.WF) (i j : Bytes)
    (h : publicInput x i = publicInput y j) : x = y ∧ i = j := by
  obtain ⟨k, ⟨c⟩⟩ := x
  obtain ⟨k', ⟨c'⟩⟩ := y
  obtain ⟨h1, h2, h3⟩ := (soft_query_injective _ _ _ _ _ _).1.mp (List.append_cancel_right h)
  have h5 : i = j := by simpa [simpleLog] using h1
  obtain rfl : k = k' := wf_ext hx hy h3
  obtain rfl : c = c' := Subtype.ext h2
  exact ⟨rfl, h5⟩

theorem publicWalk_concat (sys : Rng) (x : ExtendedKey (PublicKey P)) (p : List Bytes) (i : Bytes) :
    publicWalk sys x (p ++ [i]) = ((publicWalk sys x p).derivedKeySimple i sys).1 := by
  simp [publicWalk]

theorem publicWalk_wf (sys : Rng) (x : ExtendedKey (PublicKey P)) (h : x.key.WF) (p : List Bytes) :
    (publicWalk sys x p).key.WF := by
  induction p generalizing x with
  | nil => exact h
  | cons j p ih => exact ih _ (public_step sys x j).2

theorem publicWalkInputs_concat (sys : Rng) (x : ExtendedKey (PublicKey P)) (p : List Bytes) (i : Bytes) :
    publicWalkInputs sys x (p ++ [i]) = publicWalkInputs sys x p ++ [publicInput (publicWalk sys x p) i] := by
  induction p generalizing x with
  | nil => rfl
  | cons j p ih => simp only [List.cons_append, publicWalkInputs, ih]; rfl

/-- **C91** two watch-only walks of the same length, from any two extended public keys, that end in the same chain code took
the same path from the same extended key — or the hash function collides on two inputs hashed on the way. -/
theorem public_paths_distinct (sys : Rng) (x y : ExtendedKey (PublicKey P)) (hx : x.key.WF) (hy : y.key.WF)
    (p q : List Bytes) (hl : p.length = q.length) (hp : p ≠ [])
    (h : (publicWalk sys x p).chaincode = (publicWalk sys y q).chaincode) :
    (p = q ∧ x = y) ∨ CollisionBetween (publicWalkInputs sys x p) (publicWalkInputs sys y q) := by
  induction p using List.reverseRecOn generalizing q with
  | nil => exact absurd rfl hp
  | append_singleton p j ih =>
    rcases List.eq_nil_or_concat q with rfl | ⟨q, j', rfl⟩
    · simp at hl
    simp only [List.concat_eq_append] at hl h ⊢
    have hl' : p.length = q.length := by simpa using hl
    rw [publicWalk_concat, publicWalk_concat, (public_step _ _ _).1, (public_step _ _ _).1] at h
    by_cases he : publicInput (publicWalk sys x p) j = publicInput (publicWalk sys y q) j'
    · obtain ⟨h1, rfl⟩ := publicInput_inj _ _ (publicWalk_wf sys x hx p) (publicWalk_wf sys y hy q) _ _ he
      by_cases hp' : p = []
      · subst hp'
        obtain rfl : q = [] := List.length_eq_zero_iff.mp hl'.symm
        exact .inl ⟨rfl, h1⟩
      · rcases ih q hl' hp' (congrArg _ h1) with ⟨rfl, h3⟩ | h3
        · exact .inl ⟨rfl, h3⟩
        · rw [publicWalkInputs_concat, publicWalkInputs_concat]
          exact .inr (collision_mono h3 (List.subset_append_left _ _) (List.subset_append_left _ _))
    · refine .inr ⟨_, ?_, _, ?_, he, congrArg (fun c : ChainCode => c.bytes.1) h⟩ <;> rw [publicWalkInputs_concat] <;> simp

omit O in
/-- Non-vacuity for C91: from the toy key 3, `//x/y` and `/x//y` end in different chain codes and different keys; and with
a hash function that is constant they end in the same chain code, by a collision. -/
example : (letI := toyOracles
    let x : ExtendedKey SecretKey × Rng := (⟨⟨Scalar.ofNat 3, zeros 32⟩, ⟨zeros 32⟩⟩, zeroRng)
    x.1.key.key.Canonical ∧
    let a := walk Toy .uniform x [.hard (b! "x"), .soft (b! "y")]
    let b := walk Toy .uniform x [.soft (b! "x"), .hard (b! "y")]
    a.1.key.key ≠ b.1.key.key ∧ a.1.chaincode ≠ b.1.chaincode) ∧
    (letI : Oracles := { toyOracles with merlin := fun _ n => zeros n }
    let x : ExtendedKey SecretKey × Rng := (⟨⟨Scalar.ofNat 3, zeros 32⟩, ⟨zeros 32⟩⟩, zeroRng)
    (walk Toy .uniform x [.hard (b! "x")]).1.chaincode = (walk Toy .uniform x [.soft (b! "x")]).1.chaincode) := by
  decide +kernel

end Schnorrkel.Props
