import Verif.Spec.PathModesKeys
import Verif.Props.PathModesLoop
import Verif.Props.PathEd

/-! # C91: the keys of wallets with mixed expansion modes, in the random-oracle model -/

namespace Schnorrkel.Props
open SigningTranscript Spec Classical
variable {P : Type} [Ristretto P]

/-- The last query behind a child's scalar. -/
private def lastQuery [O : Oracles] (P : Type) [Ristretto P] (x : ExtendedKey SecretKey) : ModedJunction → List MOp
  | (.soft i, _) => softQuery (simpleLog i) x.chaincode.bytes.1 (x.key.toPublic : PublicKey P).compressed.1
  | (.hard i, .uniform) => expandQuery (O.merlin (hardQuery i (some x.chaincode.bytes.1) x.key.key.bytes.1) 32).1
  | (.hard i, .ed25519) => shaQuery (O.merlin (hardQuery i (some x.chaincode.bytes.1) x.key.key.bytes.1) 32).1

private theorem lastQuery_mem [O : Oracles] (x : ExtendedKey SecretKey) (j : ModedJunction) :
    lastQuery P x j ∈ modedKeyInputs P x j := by
  obtain ⟨i | i, _ | _⟩ := j <;> simp [lastQuery, modedKeyInputs, junctionKeyInputs, junctionKeyInputsEd]

private theorem hardQuery_mem [O : Oracles] (x : ExtendedKey SecretKey) (i : Bytes) (m : ExpansionMode) :
    hardQuery i (some x.chaincode.bytes.1) x.key.key.bytes.1 ∈ modedKeyInputs P x (.hard i, m) := by
  cases m <;> simp [modedKeyInputs, junctionKeyInputs, junctionKeyInputsEd]

private theorem expand_not_sha (m b : Bytes) : expandQuery m ≠ shaQuery b := by
  intro h
  have := congrArg List.head? h
  simp [expandQuery, shaQuery] at this

private theorem moded_child_scalar (O : Oracles) (D : Finset (List MOp)) (f : D → Arr 64) (x : ExtendedKey SecretKey × Rng)
    (hx : x.1.key.key.Canonical) (j : ModedJunction) : letI := bothTable O D f
    (takeJunction P j.2 x j.1).1.key.key.toZ =
      scalarFrom P (lastQuery P x.1 j) ((wideTable O D f).merlin (lastQuery P x.1 j) 64) := by
  letI := bothTable O D f
  obtain ⟨i | i, m⟩ := j
  · simp only [lastQuery]
    rw [scalarFrom, if_neg fun ⟨b, hb⟩ => soft_not_sha _ _ _ _ b rfl hb, parentScalar_soft x.1 hx i, add_comm]
    exact (soft_derivation_spec (x.1.key.toKeypair : Keypair P) hx (⟨simpleLog i⟩ : Transcript) x.1.chaincode x.2 x.2).1.1
  · cases m with
    | uniform =>
      simp only [lastQuery]
      rw [scalarFrom, if_neg fun ⟨b, hb⟩ => expand_not_sha _ b hb, parentScalar_expand, add_zero]
      exact Scalar.toZ_wide _
    | ed25519 =>
      simp only [lastQuery]
      rw [scalarFrom, if_pos ⟨_, rfl⟩]
      obtain ⟨h1, -⟩ := expand_ed25519_spec (x.1.key.hardDeriveMiniSecretKey (some x.1.chaincode) i).1
      show Scalar.toZ ((x.1.key.hardDeriveMiniSecretKey (some x.1.chaincode) i).1.expand .ed25519).key = _
      unfold clampedScalar Scalar.toZ
      rw [h1]
      rfl

private theorem lastQuery_inj [O : Oracles] (ask : List (List MOp)) (x y : ExtendedKey SecretKey) (hx : x.key.key.Canonical)
    (hy : y.key.key.Canonical) (j j' : ModedJunction) (ha : ∀ h ∈ modedKeyInputs P x j, h ∈ ask)
    (hb : ∀ h ∈ modedKeyInputs P y j', h ∈ ask) (h : lastQuery P x j = lastQuery P y j') :
    (SameNode x y ∧ effective j = effective j') ∨
      ∃ h ∈ ask, ∃ h' ∈ ask, h ≠ h' ∧ (O.merlin h 32).1 = (O.merlin h' 32).1 := by
  have hards : ∀ (i i' : Bytes) (m : ExpansionMode), j = (.hard i, m) → j' = (.hard i', m) →
      (O.merlin (hardQuery i (some x.chaincode.bytes.1) x.key.key.bytes.1) 32).1 =
        (O.merlin (hardQuery i' (some y.chaincode.bytes.1) y.key.key.bytes.1) 32).1 →
      (SameNode x y ∧ effective j = effective j') ∨
        ∃ h ∈ ask, ∃ h' ∈ ask, h ≠ h' ∧ (O.merlin h 32).1 = (O.merlin h' 32).1 := by
    rintro i i' m rfl rfl e
    by_cases hq : hardQuery i (some x.chaincode.bytes.1) x.key.key.bytes.1 =
        hardQuery i' (some y.chaincode.bytes.1) y.key.key.bytes.1
    · obtain ⟨h1, h2⟩ := junctionInput_inj (P := P) x y hx hy (.hard i) (.hard i') (congrArg (· ++ _) hq)
      refine .inl ⟨h1, ?_⟩
      cases h2
      rfl
    · exact .inr ⟨_, ha _ (hardQuery_mem x i m), _, hb _ (hardQuery_mem y i' m), hq, e⟩
  have soft_expand : ∀ (l : List MOp) (i cc pk b : Bytes), l = softQuery (simpleLog i) cc pk → l ≠ expandQuery b := by
    rintro l i cc pk b rfl h
    have := congrArg List.length h
    simp [expandQuery, softQuery, simpleLog] at this
  have sha : ∀ b b' : Bytes, shaQuery b = shaQuery b' → b = b' := fun b b' h => by
    simpa [shaQuery] using h
  obtain ⟨i | i, m⟩ := j <;> obtain ⟨i' | i', m'⟩ := j'
  · obtain ⟨h1, h2⟩ := junctionInput_inj (P := P) x y hx hy (.soft i) (.soft i') (congrArg (· ++ _) h)
    refine .inl ⟨h1, ?_⟩
    cases h2
    rfl
  · cases m'
    · exact absurd h (soft_expand _ _ _ _ _ rfl)
    · exact absurd h (soft_not_sha _ _ _ _ _ rfl)
  · cases m
    · exact absurd h.symm (soft_expand _ _ _ _ _ rfl)
    · exact absurd h.symm (soft_not_sha _ _ _ _ _ rfl)
  · cases m <;> cases m'
    · exact hards i i' .uniform rfl rfl (by simpa [lastQuery, expandQuery] using h)
    · exact absurd h (expand_not_sha _ _)
    · exact absurd h.symm (expand_not_sha _ _)
    · exact hards i i' .ed25519 rfl rfl (sha _ _ h)

private theorem modedKeyInputs_concat [O : Oracles] (x : ExtendedKey SecretKey × Rng) (p : List ModedJunction)
    (j : ModedJunction) : modedWalkKeyInputs P x (p ++ [j]) = modedWalkKeyInputs P x p ++ modedKeyInputs P (modedWalk P x p).1 j := by
  induction p generalizing x with
  | nil => simp [modedWalkKeyInputs, modedWalk]
  | cons i p ih =>
    simp only [List.cons_append, modedWalkKeyInputs, ih, List.append_assoc]
    rfl

private theorem moded_keys_meet (O : Oracles) (D : Finset (List MOp)) (f : D → Arr 64) (ask : List (List MOp))
    (x : ExtendedKey SecretKey) (hx : x.key.key.Canonical) (s s' : Rng) (p q : List ModedJunction) :
    letI := bothTable O D f
    p.map effective ≠ q.map effective →
    (∀ h ∈ modedWalkInputs P (x, s) p ++ modedWalkKeyInputs P (x, s) p, h ∈ ask) →
    (∀ h ∈ modedWalkInputs P (x, s') q ++ modedWalkKeyInputs P (x, s') q, h ∈ ask) →
    (modedWalk P (x, s) p).1.key.key = (modedWalk P (x, s') q).1.key.key →
    (p ≠ [] ∧ q ≠ [] ∨ (modedWalk P (x, s) p).1.chaincode = (modedWalk P (x, s') q).1.chaincode) →
    ((∃ h ∈ ask, ∃ h' ∈ ask, h ≠ h' ∧ ((wideTable O D f).merlin h 32).1 = ((wideTable O D f).merlin h' 32).1) ∨
    (∃ h ∈ ask, ∃ h' ∈ ask, ask.idxOf h' ≤ ask.idxOf h ∧ junctionCode P h' ((wideTable O D f).merlin h 32).1)) ∨
    (∃ h ∈ ask, ∃ h' ∈ ask, h ≠ h' ∧
      scalarFrom P h ((wideTable O D f).merlin h 64) = scalarFrom P h' ((wideTable O D f).merlin h' 64)) := by
  letI := bothTable O D f
  induction p using List.reverseRecOn generalizing q with
  | nil =>
    intro hne hp hq _ hc
    have hc := hc.resolve_left fun h => h.1 rfl
    exact .inl (moded_codes_meet ask x hx s s' [] q (fun h => hne (by
        obtain rfl : q = [] := List.map_eq_nil_iff.mp h.symm
        rfl))
      (fun h hh => hp h (List.mem_append_left _ hh)) (fun h hh => hq h (List.mem_append_left _ hh)) hc)
  | append_singleton p j ih =>
    intro hne hp hq he hc
    rcases List.eq_nil_or_concat q with rfl | ⟨q, j', rfl⟩
    · have hc := hc.resolve_left fun h => h.2 rfl
      exact .inl (moded_codes_meet ask x hx s s' _ [] (by simp)
        (fun h hh => hp h (List.mem_append_left _ hh)) (fun h hh => hq h (List.mem_append_left _ hh)) hc)
    simp only [List.concat_eq_append] at *
    have hkp : ∀ h ∈ modedKeyInputs P (modedWalk P (x, s) p).1 j, h ∈ ask := fun h hh =>
      hp h (List.mem_append_right _ (by rw [modedKeyInputs_concat]; exact List.mem_append_right _ hh))
    have hkq : ∀ h ∈ modedKeyInputs P (modedWalk P (x, s') q).1 j', h ∈ ask := fun h hh =>
      hq h (List.mem_append_right _ (by rw [modedKeyInputs_concat]; exact List.mem_append_right _ hh))
    rw [modedWalk_concat, modedWalk_concat] at he
    have hxp := modedWalk_canonical (P := P) (x, s) hx p
    have hxq := modedWalk_canonical (P := P) (x, s') hx q
    have hz := (moded_child_scalar (P := P) O D f _ hxp j).symm.trans
      ((congrArg Scalar.toZ he).trans (moded_child_scalar (P := P) O D f _ hxq j'))
    by_cases hl : lastQuery P (modedWalk P (x, s) p).1 j = lastQuery P (modedWalk P (x, s') q).1 j'
    · rcases lastQuery_inj ask _ _ hxp hxq j j' hkp hkq hl with ⟨h1, h2⟩ | h1
      · refine ih q (fun h => hne (by simp [h, h2])) (fun h hh => ?_) (fun h hh => ?_) h1.1 (.inr h1.2)
        · rcases List.mem_append.mp hh with hh | hh
          · exact hp h (List.mem_append_left _ (by rw [modedWalkInputs_concat]; exact List.mem_append_left _ hh))
          · exact hp h (List.mem_append_right _ (by rw [modedKeyInputs_concat]; exact List.mem_append_left _ hh))
        · rcases List.mem_append.mp hh with hh | hh
          · exact hq h (List.mem_append_left _ (by rw [modedWalkInputs_concat]; exact List.mem_append_left _ hh))
          · exact hq h (List.mem_append_right _ (by rw [modedKeyInputs_concat]; exact List.mem_append_left _ hh))
      · exact .inl (.inl h1)
    · exact .inr ⟨_, hkp _ (lastQuery_mem _ _), _, hkq _ (lastQuery_mem _ _), hl, hz⟩

/-- **C91** the keys of a whole wallet whose hard junctions choose the expansion mode one by one, merlin and SHA-512 being
random functions: whoever makes at most `n` queries, and derives any number of non-empty paths from one extended secret key with
them, sees two different paths (differing in a junction, or in the mode of a hard one) lead to the same secret scalar with
probability at most `n² / 2^256 + n(n-1)/2 / 2^251`. -/
theorem moded_wallet_keys_random_oracle (O : Oracles) (A : Algo (ExtendedKey SecretKey × List (Rng × List ModedJunction)))
    (D : Finset (List MOp)) (n : Nat) (hA : A.WideWithin O D n) :
    chance (fun f : D → Arr 64 => letI := bothTable O D f
      let (x, wallet) := A.run (wideTable O D f)
      x.key.key.Canonical ∧
      (∀ w ∈ wallet, w.2 ≠ [] ∧ ∀ h ∈ modedWalkInputs P (x, w.1) w.2 ++ modedWalkKeyInputs P (x, w.1) w.2,
        h ∈ A.asked (wideTable O D f)) ∧
      ∃ w ∈ wallet, ∃ w' ∈ wallet, w.2.map effective ≠ w'.2.map effective ∧
        (modedWalk P (x, w.1) w.2).1.key.key = (modedWalk P (x, w'.1) w'.2).1.key.key) ≤
      (n ^ 2 : ℚ) / 2 ^ 256 + (n * (n - 1) : ℚ) / 2 / 2 ^ 251 := by
  have h := chance_collide O A n 32 (by omega) hA
  have h' := chance_back_prefix O A n 32 (by omega) hA (junctionCode P) junctionCode_unique
  have h'' := chance_scalarFrom (P := P) O A n hA
  rw [show (256 : ℚ) ^ 32 = 2 ^ 256 by norm_num] at h h'
  have hsum : (n * (n - 1) : ℚ) / 2 / 2 ^ 256 + (n * (n + 1) : ℚ) / 2 / 2 ^ 256 = (n ^ 2 : ℚ) / 2 ^ 256 := by ring
  rw [← hsum]
  refine le_trans (chance_mono ?_) (le_trans chance_or_le (add_le_add (le_trans chance_or_le (add_le_add h h')) h''))
  intro f hv
  letI := bothTable O D f
  simp only at hv ⊢
  generalize A.run (wideTable O D f) = r at hv
  generalize A.asked (wideTable O D f) = ask at hv
  obtain ⟨x, wallet⟩ := r
  obtain ⟨hx, hask, ⟨s, p⟩, hw, ⟨s', q⟩, hw', hne, he⟩ := hv
  obtain ⟨hp, ha⟩ := hask _ hw
  obtain ⟨hq, hb⟩ := hask _ hw'
  exact moded_keys_meet O D f ask x hx s s' p q hne ha hb he (.inl ⟨hp, hq⟩)

/-- Non-vacuity for C91: whoever hashes all inputs of `//x` from the toy key 3, in both modes, and names these two paths is within
the bound of four queries, and meets every condition but the last, whatever the table. -/
example (O : Oracles) : let x : ExtendedKey SecretKey := ⟨⟨Scalar.ofNat 3, zeros 32⟩, ⟨zeros 32⟩⟩
    let A : Algo (ExtendedKey SecretKey × List (Rng × List ModedJunction)) :=
      .ask (junctionInput Toy x (.hard (b! "x"))) fun _ =>
      .ask (hardQuery (b! "x") (some (zeros 32).1) x.key.key.bytes.1) fun m => .ask (expandQuery (m.1.take 32)) fun _ =>
      .ask (shaQuery (m.1.take 32)) fun _ =>
      .ret (x, [(zeroRng, [(.hard (b! "x"), .uniform)]), (zeroRng, [(.hard (b! "x"), .ed25519)])])
    ∃ D, A.WideWithin O D 4 ∧ ∀ f, letI := bothTable O D f
      let (x, wallet) := A.run (wideTable O D f)
      x.key.key.Canonical ∧ (∃ w ∈ wallet, ∃ w' ∈ wallet, w.2.map effective ≠ w'.2.map effective) ∧
      (∀ w ∈ wallet, w.2 ≠ [] ∧ ∀ h ∈ modedWalkInputs Toy (x, w.1) w.2 ++ modedWalkKeyInputs Toy (x, w.1) w.2,
        h ∈ A.asked (wideTable O D f)) := by
  intro x A
  obtain ⟨D, n, h⟩ := exists_within A
  refine ⟨D, fun f => ⟨le_of_eq rfl, (h _).2⟩, fun f => ⟨?_, ?_, ?_⟩⟩
  · show (Scalar.ofNat 3).Canonical
    decide +kernel
  · exact ⟨_, List.mem_cons_self, _, List.mem_cons_of_mem _ List.mem_cons_self, fun h => by cases h⟩
  · have hq : hardQuery (b! "x") (some (zeros 32).1) x.key.key.bytes.1 ∈ D :=
      (h (wideTable O D f)).2 _ (by simp [A, Algo.asked])
    have he := wideTable_short O f _ hq 32 (by omega)
    intro w hw
    rcases List.mem_cons.mp hw with rfl | hw
    · refine ⟨fun h => (by cases h), fun q hq' => ?_⟩
      simp only [modedWalkInputs, modedWalkKeyInputs, modedKeyInputs, junctionKeyInputs, List.mem_append, List.mem_cons,
        List.not_mem_nil, or_false] at hq'
      rcases hq' with rfl | rfl | rfl
      · exact List.mem_cons_self
      · simp [A, Algo.asked, x]
      · show expandQuery ((wideTable O D f).merlin (hardQuery (b! "x") (some (zeros 32).1) x.key.key.bytes.1) 32).1 ∈ _
        rw [he]
        simp [A, Algo.asked]
    · obtain rfl := List.mem_singleton.mp hw
      refine ⟨fun h => (by cases h), fun q hq' => ?_⟩
      simp only [modedWalkInputs, modedWalkKeyInputs, modedKeyInputs, junctionKeyInputsEd, List.mem_append, List.mem_cons,
        List.not_mem_nil, or_false] at hq'
      rcases hq' with rfl | rfl | rfl
      · exact List.mem_cons_self
      · simp [A, Algo.asked, x]
      · show shaQuery ((wideTable O D f).merlin (hardQuery (b! "x") (some (zeros 32).1) x.key.key.bytes.1) 32).1 ∈ _
        rw [he]
        simp [A, Algo.asked]

end Schnorrkel.Props
