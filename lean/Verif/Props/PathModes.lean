import Verif.Spec.PathModes
import Verif.Props.Path

/-! # C91: derivation paths with mixed expansion modes -/

namespace Schnorrkel.Props
open SigningTranscript Spec
variable {P : Type} [Ristretto P] [O : Oracles]

theorem modedWalk_concat (x : ExtendedKey SecretKey × Rng) (p : List ModedJunction) (j : ModedJunction) :
    modedWalk P x (p ++ [j]) = takeJunction P j.2 (modedWalk P x p) j.1 := by
  simp [modedWalk]

theorem modedWalk_canonical (x : ExtendedKey SecretKey × Rng) (h : x.1.key.key.Canonical) (p : List ModedJunction) :
    (modedWalk P x p).1.key.key.Canonical := by
  induction p generalizing x with
  | nil => exact h
  | cons j p ih => exact ih _ (junction_canonical x h j.1)

theorem modedWalkInputs_concat (x : ExtendedKey SecretKey × Rng) (p : List ModedJunction) (j : ModedJunction) :
    modedWalkInputs P x (p ++ [j]) = modedWalkInputs P x p ++ [junctionInput P (modedWalk P x p).1 j.1] := by
  induction p generalizing x with
  | nil => rfl
  | cons i p ih => simp only [List.cons_append, modedWalkInputs, ih]; rfl

/-- **C91** mixed expansion modes: two walks of the same length that end in the same chain code took the same junctions, and
passed through the same scalar and chain code before each of them — or the hash function collides on two inputs hashed on the
way.  (Only the mode of the last junction, which is not hashed into its chain code, and modes that make the same scalar, can
differ.) -/
theorem moded_paths_distinct (x y : ExtendedKey SecretKey × Rng) (hx : x.1.key.key.Canonical) (hy : y.1.key.key.Canonical)
    (p q : List ModedJunction) (hl : p.length = q.length)
    (h : (modedWalk P x p).1.chaincode = (modedWalk P y q).1.chaincode) :
    (p.map Prod.fst = q.map Prod.fst ∧
      ∀ k < p.length, SameNode (modedWalk P x (p.take k)).1 (modedWalk P y (q.take k)).1) ∨
      CollisionBetween (modedWalkInputs P x p) (modedWalkInputs P y q) := by
  induction p using List.reverseRecOn generalizing q with
  | nil =>
    obtain rfl : q = [] := List.length_eq_zero_iff.mp hl.symm
    exact .inl ⟨rfl, fun k hk => absurd hk (Nat.not_lt_zero k)⟩
  | append_singleton p j ih =>
    rcases List.eq_nil_or_concat q with rfl | ⟨q, j', rfl⟩
    · simp at hl
    simp only [List.concat_eq_append] at hl h ⊢
    have hl' : p.length = q.length := by simpa using hl
    rw [modedWalk_concat, modedWalk_concat, junction_chaincode, junction_chaincode] at h
    by_cases he : junctionInput P (modedWalk P x p).1 j.1 = junctionInput P (modedWalk P y q).1 j'.1
    · obtain ⟨h1, h2⟩ := junctionInput_inj _ _ (modedWalk_canonical x hx p) (modedWalk_canonical y hy q) _ _ he
      rcases ih q hl' h1.2 with ⟨h3, h4⟩ | h3
      · refine .inl ⟨by simp [h2, h3], fun k hk => ?_⟩
        rcases Nat.lt_or_ge k p.length with hk' | hk'
        · rw [List.take_append_of_le_length hk'.le, List.take_append_of_le_length (hl' ▸ hk'.le)]
          exact h4 k hk'
        · obtain rfl : k = p.length := by simp at hk; omega
          rw [List.take_left' rfl, hl', List.take_left' rfl]
          exact h1
      · rw [modedWalkInputs_concat, modedWalkInputs_concat]
        exact .inr (collision_mono h3 (List.subset_append_left _ _) (List.subset_append_left _ _))
    · refine .inr ⟨_, ?_, _, ?_, he, congrArg (fun c : ChainCode => c.bytes.1) h⟩ <;> rw [modedWalkInputs_concat] <;> simp

/-- **C91** the mode is not hashed into the chain code: the two children that one hard junction has, one in each mode, always
have the same chain code; and a soft junction has only one child. -/
theorem mode_not_in_chain_code (x : ExtendedKey SecretKey × Rng) (j : Junction) (mode mode' : ExpansionMode) :
    (takeJunction P mode x j).1.chaincode = (takeJunction P mode' x j).1.chaincode ∧
    ∀ i, j = .soft i → takeJunction P mode x j = takeJunction P mode' x j := by
  refine ⟨by rw [junction_chaincode, junction_chaincode], ?_⟩
  rintro i rfl
  rfl

omit O in
/-- Non-vacuity for C91: from the toy key 3, `//x` in the two modes leads to two different keys with the same chain code;
another junction after that leads to different chain codes. -/
example : letI := toyOracles
    let x : ExtendedKey SecretKey × Rng := (⟨⟨Scalar.ofNat 3, zeros 32⟩, ⟨zeros 32⟩⟩, zeroRng)
    let a := modedWalk Toy x [(.hard (b! "x"), .uniform)]
    let b := modedWalk Toy x [(.hard (b! "x"), .ed25519)]
    x.1.key.key.Canonical ∧ a.1.key.key ≠ b.1.key.key ∧ a.1.chaincode = b.1.chaincode ∧
    (modedWalk Toy x [(.hard (b! "x"), .uniform), (.soft (b! "y"), .uniform)]).1.chaincode ≠
      (modedWalk Toy x [(.hard (b! "x"), .ed25519), (.soft (b! "y"), .uniform)]).1.chaincode := by
  decide +kernel

end Schnorrkel.Props
