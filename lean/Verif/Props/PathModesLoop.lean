import Verif.Props.PathModes
import Verif.Props.PathLoop

/-! # C91: paths of any lengths with mixed expansion modes, in the random-oracle model -/

namespace Schnorrkel.Props
open SigningTranscript Spec Classical
variable {P : Type} [Ristretto P]

private theorem moded_loop_back [O : Oracles] (ask : List (List MOp)) (c : Bytes) (x : ExtendedKey SecretKey × Rng)
    (hx : x.1.key.key.Canonical) (first : List MOp) (p : List ModedJunction) (j : ModedJunction)
    (hfirst : ask.idxOf first ≤ ask.idxOf (junctionInput P x.1 j.1)) (hf : junctionCode P first c)
    (hend : (modedWalk P x (j :: p)).1.chaincode.bytes.1 = c) :
    ∃ q ∈ modedWalkInputs P x (j :: p), ∃ q' ∈ first :: modedWalkInputs P x (j :: p), ask.idxOf q' ≤ ask.idxOf q ∧
      junctionCode P q' (O.merlin q 32).1 := by
  induction p generalizing x j with
  | nil =>
    refine ⟨_, by simp [modedWalkInputs], first, by simp, hfirst, ?_⟩
    have h := junction_chaincode (P := P) (mode := j.2) x j.1
    have e : modedWalk P x [j] = takeJunction P j.2 x j.1 := rfl
    rw [e, h] at hend
    exact hend ▸ hf
  | cons i p ih =>
    by_cases hlt : ask.idxOf (junctionInput P (takeJunction P j.2 x j.1).1 i.1) ≤ ask.idxOf (junctionInput P x.1 j.1)
    · refine ⟨junctionInput P x.1 j.1, by simp [modedWalkInputs], junctionInput P (takeJunction P j.2 x j.1).1 i.1,
        by simp [modedWalkInputs], hlt, _, i.1, junction_canonical x hx j.1, rfl, ?_⟩
      rw [junction_chaincode (P := P) (mode := j.2)]
    · obtain ⟨q, hq, q', hq', h⟩ := ih (takeJunction P j.2 x j.1) (junction_canonical x hx j.1) i (by omega) hend
      refine ⟨q, List.mem_cons_of_mem _ hq, q', ?_, h⟩
      rcases List.mem_cons.mp hq' with rfl | hq'
      · exact List.mem_cons_self
      · exact List.mem_cons_of_mem _ (List.mem_cons_of_mem _ hq')

private theorem modedWalk_append [O : Oracles] (x : ExtendedKey SecretKey × Rng) (p q : List ModedJunction) :
    modedWalk P x (p ++ q) = modedWalk P (modedWalk P x p) q := by simp [modedWalk]

theorem modedInputs_append [O : Oracles] (x : ExtendedKey SecretKey × Rng) (p q : List ModedJunction) :
    modedWalkInputs P x (p ++ q) = modedWalkInputs P x p ++ modedWalkInputs P (modedWalk P x p) q := by
  induction p generalizing x with
  | nil => rfl
  | cons j p ih => simp only [List.cons_append, modedWalkInputs, ih]; rfl

/-- **C91** mixed expansion modes, any lengths: two walks that end in the same chain code took the same junctions, or the
longer one passes through the chain code the shorter one started from and takes the junctions of the shorter one from there —
or the hash function collides on two inputs hashed on the way. -/
theorem moded_paths_any_length [O : Oracles] (x y : ExtendedKey SecretKey × Rng) (hx : x.1.key.key.Canonical)
    (hy : y.1.key.key.Canonical) (p q : List ModedJunction)
    (h : (modedWalk P x p).1.chaincode = (modedWalk P y q).1.chaincode) :
    (∃ pre rest, p = pre ++ rest ∧ rest.map Prod.fst = q.map Prod.fst ∧ (modedWalk P x pre).1.chaincode = y.1.chaincode) ∨
    (∃ pre rest, q = pre ++ rest ∧ rest.map Prod.fst = p.map Prod.fst ∧ (modedWalk P y pre).1.chaincode = x.1.chaincode) ∨
    CollisionBetween (modedWalkInputs P x p) (modedWalkInputs P y q) := by
  have main : ∀ (x y : ExtendedKey SecretKey × Rng), x.1.key.key.Canonical → y.1.key.key.Canonical →
      ∀ p q : List ModedJunction, q.length ≤ p.length →
      (modedWalk P x p).1.chaincode = (modedWalk P y q).1.chaincode →
      (∃ pre rest, p = pre ++ rest ∧ rest.map Prod.fst = q.map Prod.fst ∧ (modedWalk P x pre).1.chaincode = y.1.chaincode) ∨
      CollisionBetween (modedWalkInputs P x p) (modedWalkInputs P y q) := by
    intro x y hx hy p q hl h
    obtain ⟨pre, rest, rfl, hr⟩ : ∃ pre rest, p = pre ++ rest ∧ rest.length = q.length :=
      ⟨p.take (p.length - q.length), p.drop (p.length - q.length), (List.take_append_drop _ _).symm, by
        rw [List.length_drop]; omega⟩
    rw [modedWalk_append] at h
    rcases moded_paths_distinct (modedWalk P x pre) y (modedWalk_canonical x hx pre) hy rest q hr h with ⟨h1, h2⟩ | h1
    · refine .inl ⟨pre, rest, rfl, h1, ?_⟩
      rcases Nat.eq_zero_or_pos rest.length with h0 | h0
      · obtain rfl := List.length_eq_zero_iff.mp h0
        obtain rfl := List.length_eq_zero_iff.mp (hr.symm.trans h0)
        exact h
      · exact (h2 0 h0).2
    · rw [modedInputs_append]
      exact .inr (collision_mono h1 (List.subset_append_right _ _) (List.Subset.refl _))
  rcases Nat.le_total q.length p.length with hl | hl
  · rcases main x y hx hy p q hl h with h1 | h1
    · exact .inl h1
    · exact .inr (.inr h1)
  · rcases main y x hy hx q p hl h.symm with h1 | ⟨u, hu, v, hv, h1, h2⟩
    · exact .inr (.inl h1)
    · exact .inr (.inr ⟨v, hv, u, hu, Ne.symm h1, h2.symm⟩)

/-- What must have happened among the queries asked when two paths with different junctions end in the same chain code. -/
theorem moded_codes_meet [O : Oracles] (ask : List (List MOp)) (x : ExtendedKey SecretKey) (hx : x.key.key.Canonical)
    (sys sys' : Rng) (p q : List ModedJunction) (hne : p.map Prod.fst ≠ q.map Prod.fst)
    (hp : ∀ h ∈ modedWalkInputs P (x, sys) p, h ∈ ask) (hq : ∀ h ∈ modedWalkInputs P (x, sys') q, h ∈ ask)
    (he : (modedWalk P (x, sys) p).1.chaincode = (modedWalk P (x, sys') q).1.chaincode) :
    (∃ h ∈ ask, ∃ h' ∈ ask, h ≠ h' ∧ (O.merlin h 32).1 = (O.merlin h' 32).1) ∨
    (∃ h ∈ ask, ∃ h' ∈ ask, ask.idxOf h' ≤ ask.idxOf h ∧ junctionCode P h' (O.merlin h 32).1) := by
  have loop : ∀ (s : Rng) (pre rest : List ModedJunction), pre ≠ [] →
      (∀ h ∈ modedWalkInputs P (x, s) (pre ++ rest), h ∈ ask) →
      (modedWalk P (x, s) pre).1.chaincode = x.chaincode →
      ∃ q ∈ ask, ∃ q' ∈ ask, ask.idxOf q' ≤ ask.idxOf q ∧ junctionCode P q' (O.merlin q 32).1 := by
    intro s pre rest hpre hin hc
    obtain _ | ⟨j, pre⟩ := pre
    · exact absurd rfl hpre
    have hin' : ∀ h ∈ modedWalkInputs P (x, s) (j :: pre), h ∈ ask := fun h hh =>
      hin h (by rw [modedInputs_append]; exact List.mem_append_left _ hh)
    obtain ⟨q, hq, q', hq', h1, h2⟩ := moded_loop_back ask x.chaincode.bytes.1 (x, s) hx
      (junctionInput P x j.1) pre j le_rfl ⟨x, j.1, hx, rfl, rfl⟩ (congrArg (fun c : ChainCode => c.bytes.1) hc)
    refine ⟨q, hin' q hq, q', hin' q' ?_, h1, h2⟩
    rcases List.mem_cons.mp hq' with rfl | hq'
    · exact List.mem_cons_self
    · exact hq'
  rcases moded_paths_any_length (x, sys) (x, sys') hx hx p q he with ⟨pre, r, rfl, h1, h2⟩ | ⟨pre, r, rfl, h1, h2⟩ |
      ⟨u, hu, v, hv, h⟩
  · exact .inr (loop sys pre r (fun h => hne (by rw [h, List.nil_append, h1])) hp h2)
  · exact .inr (loop sys' pre r (fun h => hne (by rw [h, List.nil_append, h1])) hq h2)
  · exact .inl ⟨u, hp u hu, v, hq v hv, h⟩

/-- **C91** a whole wallet whose hard junctions choose the expansion mode one by one, in the random-oracle model: whoever makes
at most `n` hash queries, and derives any number of paths of any lengths from one extended secret key with them, sees two paths
with different junctions end in the same chain code with probability at most `n² / 2^256`. -/
theorem moded_wallet_paths_random_oracle (O : Oracles) (A : Algo (ExtendedKey SecretKey × List (Rng × List ModedJunction)))
    (D : Finset (List MOp)) (n : Nat) (hA : A.WideWithin O D n) :
    chance (fun f : D → Arr 64 => letI := wideTable O D f
      let (x, wallet) := A.run (wideTable O D f)
      x.key.key.Canonical ∧
      (∀ w ∈ wallet, ∀ h ∈ modedWalkInputs P (x, w.1) w.2, h ∈ A.asked (wideTable O D f)) ∧
      ∃ w ∈ wallet, ∃ w' ∈ wallet, w.2.map Prod.fst ≠ w'.2.map Prod.fst ∧
        (modedWalk P (x, w.1) w.2).1.chaincode = (modedWalk P (x, w'.1) w'.2).1.chaincode) ≤ (n ^ 2 : ℚ) / 2 ^ 256 := by
  have h := chance_collide O A n 32 (by omega) hA
  have h' := chance_back_prefix O A n 32 (by omega) hA (junctionCode P) junctionCode_unique
  rw [show (256 : ℚ) ^ 32 = 2 ^ 256 by norm_num] at h h'
  have hsum : (n * (n - 1) : ℚ) / 2 / 2 ^ 256 + (n * (n + 1) : ℚ) / 2 / 2 ^ 256 = (n ^ 2 : ℚ) / 2 ^ 256 := by ring
  rw [← hsum]
  refine le_trans (chance_mono ?_) (le_trans chance_or_le (add_le_add h h'))
  intro f hv
  let _ := wideTable O D f
  simp only at hv ⊢
  generalize A.run (wideTable O D f) = r at hv
  obtain ⟨x, wallet⟩ := r
  obtain ⟨hx, hask, w, hw, w', hw', hne, he⟩ := hv
  exact moded_codes_meet _ x hx w.1 w'.1 w.2 w'.2 hne (hask w hw) (hask w' hw') he

/-- Non-vacuity for C91: whoever hashes the inputs of `//x` (mode Ed25519) and of `/x` from the toy key 3 and names these two
paths is within the bound of two queries, and meets every condition but the last, whatever the table. -/
example (O : Oracles) : let x : ExtendedKey SecretKey := ⟨⟨Scalar.ofNat 3, zeros 32⟩, ⟨zeros 32⟩⟩
    let A : Algo (ExtendedKey SecretKey × List (Rng × List ModedJunction)) :=
      .ask (junctionInput Toy x (.hard (b! "x"))) fun _ => .ask (junctionInput Toy x (.soft (b! "x"))) fun _ =>
      .ret (x, [(zeroRng, [(.hard (b! "x"), .ed25519)]), (zeroRng, [(.soft (b! "x"), .uniform)])])
    ∃ D, A.WideWithin O D 2 ∧ ∀ f, letI := wideTable O D f
      let (x, wallet) := A.run (wideTable O D f)
      x.key.key.Canonical ∧ (∃ w ∈ wallet, ∃ w' ∈ wallet, w.2.map Prod.fst ≠ w'.2.map Prod.fst) ∧
      (∀ w ∈ wallet, ∀ h ∈ modedWalkInputs Toy (x, w.1) w.2, h ∈ A.asked (wideTable O D f)) := by
  intro x A
  obtain ⟨D, n, h⟩ := exists_within A
  refine ⟨D, fun f => ⟨le_of_eq rfl, (h _).2⟩, fun f => ⟨?_, ?_, ?_⟩⟩
  · show (Scalar.ofNat 3).Canonical
    decide +kernel
  · exact ⟨_, List.mem_cons_self, _, List.mem_cons_of_mem _ List.mem_cons_self, fun h => by cases h⟩
  · intro w hw
    rcases List.mem_cons.mp hw with rfl | hw
    · intro q hq
      obtain rfl := List.mem_singleton.mp hq
      exact List.mem_cons_self
    · obtain rfl := List.mem_singleton.mp hw
      intro q hq
      obtain rfl := List.mem_singleton.mp hq
      exact List.mem_cons_of_mem _ List.mem_cons_self

end Schnorrkel.Props
