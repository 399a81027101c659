import Verif.Spec.PathEd
import Verif.Props.PathLoop
import Verif.Props.RomMiniEd

/-! # C91: the keys of a wallet with expansion mode Ed25519, in the random-oracle model -/

namespace Schnorrkel.Props
open SigningTranscript Spec Classical
variable {P : Type} [Ristretto P]

/-- At most `2^261` strings of 64 bytes are clamped to one scalar. -/
theorem card_clamped_le (bad : Set (Arr 64)) (z : Z) (h : ∀ w ∈ bad, clampedScalar (seed32 w) = z) : Nat.card bad ≤ 2 ^ 261 := by
  have hlt : ∀ a : Arr 32, leNat a.1 < 2 ^ 256 := fun a => by
    have := leNat_lt a.1
    rwa [a.2, show (256 : Nat) ^ 32 = 2 ^ 256 by norm_num] at this
  let g : bad → Fin 8 × Fin 4 × Fin (2 ^ 256) := fun w =>
    (⟨leNat (seed32 w.1).1 % 8, Nat.mod_lt _ (by omega)⟩,
     ⟨leNat (seed32 w.1).1 / 2 ^ 254, by have := hlt (seed32 w.1); omega⟩,
     ⟨leNat (halves w.1).2.1, hlt _⟩)
  have hg : Function.Injective g := by
    rintro ⟨w, hw⟩ ⟨w', hw'⟩ e
    simp only [g, Prod.mk.injEq, Fin.mk.injEq] at e
    obtain ⟨e1, e2, e3⟩ := e
    have hc : clampedScalar (seed32 w) = clampedScalar (seed32 w') := (h w hw).trans (h w' hw').symm
    have b : ∀ s, clamp s / 8 < ell := by
      intro s
      have : clamp s / 8 < 2 ^ 252 := by unfold clamp; omega
      exact lt_trans this (by unfold ell; norm_num)
    have hn : clamp (leNat (seed32 w).1) / 8 = clamp (leNat (seed32 w').1) / 8 := by
      have := congrArg ZMod.val hc
      unfold clampedScalar at this
      rwa [ZMod.val_natCast_of_lt (b _), ZMod.val_natCast_of_lt (b _)] at this
    have hl : leNat (seed32 w).1 = leNat (seed32 w').1 := by
      have h1 := hlt (seed32 w)
      have h2 := hlt (seed32 w')
      unfold clamp at hn
      omega
    refine Subtype.ext (halves.injective (Prod.ext ?_ ?_))
    · exact Arr.leNat_inj hl
    · exact Arr.leNat_inj e3
  have := Nat.card_le_card_of_injective g hg
  refine le_trans this (le_of_eq ?_)
  rw [Nat.card_eq_fintype_card, Fintype.card_prod, Fintype.card_prod, Fintype.card_fin, Fintype.card_fin, Fintype.card_fin,
    show (261 : Nat) = 5 + 256 from rfl, pow_add (2 : Nat) 5 256]
  generalize (2 : Nat) ^ 256 = x
  omega

/-- What becomes of an answer: a clamped scalar, or a residue plus the parent's scalar. -/
noncomputable def scalarFrom (P : Type) [Ristretto P] (q : List MOp) (w : Arr 64) : Z :=
  if ∃ b, q = shaQuery b then clampedScalar (seed32 w) else residue w + parentScalar P q

private theorem card_scalarFrom (q : List MOp) (z : Z) : Nat.card {w : Arr 64 | scalarFrom P q w = z} ≤ 2 ^ 261 := by
  by_cases h : ∃ b, q = shaQuery b
  · refine card_clamped_le _ z fun w hw => ?_
    have hw : scalarFrom P q w = z := hw
    rwa [scalarFrom, if_pos h] at hw
  · refine le_trans (card_bad_le _ (z - parentScalar P q) fun w hw => ?_) ?_
    · have hw : scalarFrom P q w = z := hw
      rw [scalarFrom, if_neg h] at hw
      rw [← hw, add_sub_cancel_right]
    · have : 2 ^ 512 / ell ≤ 2 ^ 512 / 2 ^ 252 := Nat.div_le_div_left (by unfold ell; norm_num) (by positivity)
      have e0 : (2 : Nat) ^ 512 / 2 ^ 252 = 2 ^ 260 := by
        rw [show (512 : Nat) = 260 + 252 from rfl, pow_add (2 : Nat) 260 252]
        exact Nat.mul_div_cancel _ (by positivity)
      rw [e0] at this
      have e : (2 : Nat) ^ 261 = 2 * 2 ^ 260 := by rw [show (261 : Nat) = 260 + 1 from rfl, pow_succ, mul_comm]
      have := Nat.one_le_two_pow (n := 260)
      rw [e]
      generalize (2 : Nat) ^ 260 = x at *
      omega

theorem chance_scalarFrom {α : Type} (O : Oracles) {D : Finset (List MOp)} (A : Algo α) (n : Nat) (hA : A.WideWithin O D n) :
    chance (fun f : D → Arr 64 =>
      ∃ h ∈ A.asked (wideTable O D f), ∃ h' ∈ A.asked (wideTable O D f), h ≠ h' ∧
        scalarFrom P h ((wideTable O D f).merlin h 64) = scalarFrom P h' ((wideTable O D f).merlin h' 64)) ≤
      (n * (n - 1) : ℚ) / 2 / 2 ^ 251 := by
  have hW := wideWithin_within O A n hA
  have h := chance_pair O A n (2 ^ 261) hW (fun q w q' w' => scalarFrom P q w = scalarFrom P q' w')
    (fun _ _ _ _ h => h.symm) (fun q q' w' _ => card_scalarFrom q _)
  refine le_trans (chance_mono ?_) (le_trans h (le_of_eq ?_))
  · rintro f ⟨q, hq, q', hq', hne, he⟩
    rw [← (run_wideTable O A n hA f).2] at hq hq'
    have hqD := (hW f).2 q hq
    have hqD' := (hW f).2 q' hq'
    refine ⟨q, hq, q', hq', hne, ?_⟩
    rw [table_hit O D f q hqD, table_hit O D f q' hqD']
    rw [wideTable_hit O f q hqD, wideTable_hit O f q' hqD'] at he
    exact he
  · rw [show (512 : Nat) = 261 + 251 from rfl, pow_add (2 : ℚ) 261 251, Nat.cast_pow, Nat.cast_ofNat]
    have : (2 : ℚ) ^ 261 ≠ 0 := by positivity
    rw [← div_div, div_self this, mul_one_div]

theorem soft_not_sha (l : List MOp) (i cc pk b : Bytes) (h : l = softQuery (simpleLog i) cc pk) : l ≠ shaQuery b := by
  subst h
  intro h
  have := congrArg List.head? h
  simp [softQuery, simpleLog, shaQuery] at this

/-- The scalar of a child, when SHA-512 and merlin are answered from one table. -/
private theorem child_scalar (O : Oracles) (D : Finset (List MOp)) (f : D → Arr 64) (x : ExtendedKey SecretKey × Rng)
    (hx : x.1.key.key.Canonical) (j : Junction) : letI := bothTable O D f
    ∃ q ∈ junctionKeyInputsEd P x.1 j,
      (takeJunction P .ed25519 x j).1.key.key.toZ = scalarFrom P q ((wideTable O D f).merlin q 64) ∧
      (∀ i, j = .soft i → q = softQuery (simpleLog i) x.1.chaincode.bytes.1 (x.1.key.toPublic : PublicKey P).compressed.1) ∧
      (∀ i, j = .hard i → q = shaQuery ((bothTable O D f).merlin (hardQuery i (some x.1.chaincode.bytes.1) x.1.key.key.bytes.1) 32).1) := by
  letI := bothTable O D f
  cases j with
  | soft i =>
    refine ⟨_, List.mem_singleton_self _, ?_, fun i' h => (by cases h; rfl), fun i' h => (by cases h)⟩
    rw [scalarFrom, if_neg fun ⟨b, hb⟩ => soft_not_sha _ _ _ _ b rfl hb, parentScalar_soft x.1 hx i, add_comm]
    exact (soft_derivation_spec (x.1.key.toKeypair : Keypair P) hx (⟨simpleLog i⟩ : Transcript) x.1.chaincode x.2 x.2).1.1
  | hard i =>
    refine ⟨_, List.mem_cons_of_mem _ (List.mem_singleton_self _), ?_, fun i' h => (by cases h), fun i' h => (by cases h; rfl)⟩
    rw [scalarFrom, if_pos ⟨_, rfl⟩]
    obtain ⟨h1, -⟩ := expand_ed25519_spec (x.1.key.hardDeriveMiniSecretKey (some x.1.chaincode) i).1
    show Scalar.toZ ((x.1.key.hardDeriveMiniSecretKey (some x.1.chaincode) i).1.expand .ed25519).key = _
    unfold clampedScalar Scalar.toZ
    rw [h1]
    rfl

private theorem key_inputs_differ (O : Oracles) (D : Finset (List MOp)) (f : D → Arr 64) (ask : List (List MOp))
    (x y : ExtendedKey SecretKey × Rng) (hx : x.1.key.key.Canonical) (hy : y.1.key.key.Canonical) (j j' : Junction) :
    letI := bothTable O D f
    (∀ h ∈ junctionKeyInputsEd P x.1 j, h ∈ ask) → (∀ h ∈ junctionKeyInputsEd P y.1 j', h ∈ ask) →
    ¬ (SameNode x.1 y.1 ∧ j = j') →
    (takeJunction P .ed25519 x j).1.key.key = (takeJunction P .ed25519 y j').1.key.key →
    (∃ h ∈ ask, ∃ h' ∈ ask, h ≠ h' ∧ ((wideTable O D f).merlin h 32).1 = ((wideTable O D f).merlin h' 32).1) ∨
    (∃ h ∈ ask, ∃ h' ∈ ask, h ≠ h' ∧
      scalarFrom P h ((wideTable O D f).merlin h 64) = scalarFrom P h' ((wideTable O D f).merlin h' 64)) := by
  letI := bothTable O D f
  intro ha hb hne he
  have hin : junctionInput P x.1 j ≠ junctionInput P y.1 j' := fun h => hne (junctionInput_inj _ _ hx hy _ _ h)
  obtain ⟨q, hq, hz, hs, hh⟩ := child_scalar (P := P) O D f x hx j
  obtain ⟨q', hq', hz', hs', hh'⟩ := child_scalar (P := P) O D f y hy j'
  have hz := hz.symm.trans ((congrArg Scalar.toZ he).trans hz')
  by_cases hqq : q = q'
  · left
    cases j with
    | soft i =>
      cases j' with
      | soft i' => 
        have e := (hs i rfl).symm.trans (hqq.trans (hs' i' rfl))
        exact absurd (congrArg (fun l : List MOp => l ++ [MOp.challenge (b! "HDKD-chaincode") 32]) e) hin
      | hard i' => exact absurd (hqq.trans (hh' i' rfl)) (soft_not_sha _ _ _ _ _ (hs i rfl))
    | hard i =>
      cases j' with
      | soft i' => exact absurd (hqq.symm.trans (hh i rfl)) (soft_not_sha _ _ _ _ _ (hs' i' rfl))
      | hard i' =>
        have e := (hh i rfl).symm.trans (hqq.trans (hh' i' rfl))
        refine ⟨_, ha _ List.mem_cons_self, _, hb _ List.mem_cons_self, fun h => hin (congrArg (· ++ _) h), ?_⟩
        simp only [shaQuery, List.cons.injEq, MOp.append.injEq, true_and, and_true] at e
        exact e
  · exact .inr ⟨q, ha q hq, q', hb q' hq', hqq, hz⟩

private theorem walkKeyInputsEd_concat [O : Oracles] (x : ExtendedKey SecretKey × Rng) (p : List Junction) (j : Junction) :
    walkKeyInputsEd P x (p ++ [j]) = walkKeyInputsEd P x p ++ junctionKeyInputsEd P (walk P .ed25519 x p).1 j := by
  induction p generalizing x with
  | nil => simp [walkKeyInputsEd, walk]
  | cons i p ih =>
    simp only [List.cons_append, walkKeyInputsEd, ih, List.append_assoc]
    rfl

/-- **C91** the keys of a whole wallet with expansion mode `Ed25519`, merlin and SHA-512 being random functions: whoever makes
at most `n` queries, and derives any number of non-empty paths of any lengths and mixes of junctions from one extended secret
key with them, sees two different paths lead to the same secret scalar with probability at most
`n² / 2^256 + n(n-1)/2 / 2^251`. -/
theorem wallet_keys_ed_random_oracle (O : Oracles) (A : Algo (ExtendedKey SecretKey × List (Rng × List Junction)))
    (D : Finset (List MOp)) (n : Nat) (hA : A.WideWithin O D n) :
    chance (fun f : D → Arr 64 => letI := bothTable O D f
      let (x, wallet) := A.run (wideTable O D f)
      x.key.key.Canonical ∧
      (∀ w ∈ wallet, w.2 ≠ [] ∧ ∀ h ∈ walkInputs P .ed25519 (x, w.1) w.2 ++ walkKeyInputsEd P (x, w.1) w.2,
        h ∈ A.asked (wideTable O D f)) ∧
      ∃ w ∈ wallet, ∃ w' ∈ wallet, w.2 ≠ w'.2 ∧
        (walk P .ed25519 (x, w.1) w.2).1.key.key = (walk P .ed25519 (x, w'.1) w'.2).1.key.key) ≤
      (n ^ 2 : ℚ) / 2 ^ 256 + (n * (n - 1) : ℚ) / 2 / 2 ^ 251 := by
  have h := chance_collide O A n 32 (by omega) hA
  have h' := chance_back_prefix O A n 32 (by omega) hA (junctionCode P) junctionCode_unique
  have h'' := chance_scalarFrom (P := P) O A n hA
  rw [show (256 : ℚ) ^ 32 = 2 ^ 256 by norm_num] at h h'
  have hsum : (n * (n - 1) : ℚ) / 2 / 2 ^ 256 + (n * (n + 1) : ℚ) / 2 / 2 ^ 256 = (n ^ 2 : ℚ) / 2 ^ 256 := by ring
  rw [← hsum]
  refine le_trans (chance_mono ?_) (le_trans chance_or_le (add_le_add (le_trans chance_or_le (add_le_add h h')) h''))
  intro f hv
  letI := bothTable O D f
  simp only at hv ⊢
  generalize A.run (wideTable O D f) = r at hv
  generalize A.asked (wideTable O D f) = ask at hv
  obtain ⟨x, wallet⟩ := r
  obtain ⟨hx, hask, ⟨s, p⟩, hw, ⟨s', q⟩, hw', hne, he⟩ := hv
  obtain ⟨hp, ha⟩ := hask _ hw
  obtain ⟨hq, hb⟩ := hask _ hw'
  simp only at hp ha hq hb hne he
  obtain ⟨p, j, rfl⟩ := (List.eq_nil_or_concat p).resolve_left hp
  obtain ⟨q, j', rfl⟩ := (List.eq_nil_or_concat q).resolve_left hq
  simp only [List.concat_eq_append] at *
  by_cases hs : SameNode (walk P .ed25519 (x, s) p).1 (walk P .ed25519 (x, s') q).1 ∧ j = j'
  · refine .inl (wallet_codes_meet ask x hx s s' _ _ hne (fun h hh => ha h (List.mem_append_left _ hh))
      (fun h hh => hb h (List.mem_append_left _ hh)) ?_)
    rw [walk_concat, walk_concat, ← hs.2]
    exact (junction_respects (mode := .ed25519) (P := P) _ _ hs.1 j).1.2
  · rw [walk_concat, walk_concat] at he
    rcases key_inputs_differ O D f ask _ _ (walk_canonical (x, s) hx p) (walk_canonical (x, s') hx q) j j'
      (fun h hh => ha h (List.mem_append_right _ (by rw [walkKeyInputsEd_concat]; exact List.mem_append_right _ hh)))
      (fun h hh => hb h (List.mem_append_right _ (by rw [walkKeyInputsEd_concat]; exact List.mem_append_right _ hh)))
      hs he with h | h
    · exact .inl (.inl h)
    · exact .inr h

/-- Non-vacuity for C91: whoever hashes all inputs of `//x` and of `/x` from the toy key 3, the last of them with SHA-512, and
names these two paths is within the bound of five queries, and meets every condition but the last, whatever the table. -/
example (O : Oracles) : let x : ExtendedKey SecretKey := ⟨⟨Scalar.ofNat 3, zeros 32⟩, ⟨zeros 32⟩⟩
    let A : Algo (ExtendedKey SecretKey × List (Rng × List Junction)) :=
      .ask (junctionInput Toy x (.hard (b! "x"))) fun _ => .ask (junctionInput Toy x (.soft (b! "x"))) fun _ =>
      .ask (softQuery (simpleLog (b! "x")) (zeros 32).1 (x.key.toPublic : PublicKey Toy).compressed.1) fun _ =>
      .ask (hardQuery (b! "x") (some (zeros 32).1) x.key.key.bytes.1) fun m => .ask (shaQuery (m.1.take 32)) fun _ =>
      .ret (x, [(zeroRng, [.hard (b! "x")]), (zeroRng, [.soft (b! "x")])])
    ∃ D, A.WideWithin O D 5 ∧ ∀ f, letI := bothTable O D f
      let (x, wallet) := A.run (wideTable O D f)
      x.key.key.Canonical ∧ (∃ w ∈ wallet, ∃ w' ∈ wallet, w.2 ≠ w'.2) ∧
      (∀ w ∈ wallet, w.2 ≠ [] ∧ ∀ h ∈ walkInputs Toy .ed25519 (x, w.1) w.2 ++ walkKeyInputsEd Toy (x, w.1) w.2,
        h ∈ A.asked (wideTable O D f)) := by
  intro x A
  obtain ⟨D, n, h⟩ := exists_within A
  refine ⟨D, fun f => ⟨le_of_eq rfl, (h _).2⟩, fun f => ⟨?_, ?_, ?_⟩⟩
  · show (Scalar.ofNat 3).Canonical
    decide +kernel
  · exact ⟨_, List.mem_cons_self, _, List.mem_cons_of_mem _ List.mem_cons_self, fun h => by cases h⟩
  · have hq : hardQuery (b! "x") (some (zeros 32).1) x.key.key.bytes.1 ∈ D :=
      (h (wideTable O D f)).2 _ (by simp [A, Algo.asked])
    have he := wideTable_short O f _ hq 32 (by omega)
    intro w hw
    rcases List.mem_cons.mp hw with rfl | hw
    · refine ⟨fun h => (by cases h), fun q hq' => ?_⟩
      simp only [walkInputs, walkKeyInputsEd, junctionKeyInputsEd, List.mem_append, List.mem_cons, List.not_mem_nil, or_false] at hq'
      rcases hq' with rfl | rfl | rfl
      · exact List.mem_cons_self
      · simp [A, Algo.asked, x]
      · show shaQuery ((wideTable O D f).merlin (hardQuery (b! "x") (some (zeros 32).1) x.key.key.bytes.1) 32).1 ∈ _
        rw [he]
        simp [A, Algo.asked]
    · obtain rfl := List.mem_singleton.mp hw
      refine ⟨fun h => (by cases h), fun q hq' => ?_⟩
      simp only [walkInputs, walkKeyInputsEd, junctionKeyInputsEd, List.mem_append, List.mem_cons, List.not_mem_nil, or_false] at hq'
      rcases hq' with rfl | rfl
      · simp [A, Algo.asked, x]
      · simp [A, Algo.asked, x]

end Schnorrkel.Props
