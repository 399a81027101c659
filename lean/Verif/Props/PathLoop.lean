import Verif.Props.Path
import Verif.Lemmas.RomBack

/-! # C91: two different paths from one key, of any lengths, in the random-oracle model -/

namespace Schnorrkel.Props
open SigningTranscript Spec Classical
variable {P : Type} [Ristretto P] {mode : ExpansionMode}

/-- The chain code in a derivation query. -/
def junctionCode (P : Type) [Ristretto P] (q : List MOp) (c : Bytes) : Prop :=
  ∃ (x : ExtendedKey SecretKey) (j : Junction), x.key.key.Canonical ∧ q = junctionInput P x j ∧ c = x.chaincode.bytes.1

theorem junctionCode_unique (q : List MOp) (c c' : Bytes) (h : junctionCode P q c) (h' : junctionCode P q c') : c = c' := by
  obtain ⟨x, j, hx, rfl, rfl⟩ := h
  obtain ⟨y, j', hy, he, rfl⟩ := h'
  rw [(junctionInput_inj x y hx hy j j' he).1.2]

/-- Some input of a walk, or the first one after the last, was hashed no later than the one whose output it contains. -/
private theorem loop_back [O : Oracles] (ask : List (List MOp)) (c : Bytes) (x : ExtendedKey SecretKey × Rng)
    (hx : x.1.key.key.Canonical) (first : List MOp) (p : List Junction) (j : Junction)
    (hfirst : ask.idxOf first ≤ ask.idxOf (junctionInput P x.1 j)) (hf : junctionCode P first c)
    (hend : (walk P mode x (j :: p)).1.chaincode.bytes.1 = c) :
    ∃ q ∈ walkInputs P mode x (j :: p), ∃ q' ∈ first :: walkInputs P mode x (j :: p), ask.idxOf q' ≤ ask.idxOf q ∧
      junctionCode P q' (O.merlin q 32).1 := by
  induction p generalizing x j with
  | nil =>
    refine ⟨_, by simp [walkInputs], first, by simp, hfirst, ?_⟩
    have h := junction_chaincode (P := P) (mode := mode) x j
    have e : walk P mode x [j] = takeJunction P mode x j := rfl
    rw [e, h] at hend
    exact hend ▸ hf
  | cons i p ih =>
    by_cases hlt : ask.idxOf (junctionInput P (takeJunction P mode x j).1 i) ≤ ask.idxOf (junctionInput P x.1 j)
    · refine ⟨junctionInput P x.1 j, by simp [walkInputs], junctionInput P (takeJunction P mode x j).1 i,
        by simp [walkInputs], hlt, _, i, junction_canonical x hx j, rfl, ?_⟩
      rw [junction_chaincode]
    · obtain ⟨q, hq, q', hq', h⟩ := ih (takeJunction P mode x j) (junction_canonical x hx j) i (by omega) hend
      refine ⟨q, List.mem_cons_of_mem _ hq, q', ?_, h⟩
      rcases List.mem_cons.mp hq' with rfl | hq'
      · exact List.mem_cons_self
      · exact List.mem_cons_of_mem _ (List.mem_cons_of_mem _ hq')

theorem walkInputs_append [O : Oracles] (x : ExtendedKey SecretKey × Rng) (p q : List Junction) :
    walkInputs P mode x p ⊆ walkInputs P mode x (p ++ q) := by
  induction p generalizing x with
  | nil => simp [walkInputs]
  | cons j p ih =>
    intro h hh
    rcases List.mem_cons.mp hh with rfl | hh
    · exact List.mem_cons_self
    · exact List.mem_cons_of_mem _ (ih _ hh)

/-- What must have happened among the queries asked when two different paths from one key end in the same chain code. -/
theorem wallet_codes_meet [O : Oracles] (ask : List (List MOp)) (x : ExtendedKey SecretKey) (hx : x.key.key.Canonical)
    (sys sys' : Rng) (p q : List Junction) (hne : p ≠ q)
    (hp : ∀ h ∈ walkInputs P mode (x, sys) p, h ∈ ask) (hq : ∀ h ∈ walkInputs P mode (x, sys') q, h ∈ ask)
    (he : (walk P mode (x, sys) p).1.chaincode = (walk P mode (x, sys') q).1.chaincode) :
    (∃ h ∈ ask, ∃ h' ∈ ask, h ≠ h' ∧ (O.merlin h 32).1 = (O.merlin h' 32).1) ∨
    (∃ h ∈ ask, ∃ h' ∈ ask, ask.idxOf h' ≤ ask.idxOf h ∧ junctionCode P h' (O.merlin h 32).1) := by
  have loop : ∀ (s : Rng) (pre rest : List Junction), pre ≠ [] →
      (∀ h ∈ walkInputs P mode (x, s) (pre ++ rest), h ∈ ask) →
      (walk P mode (x, s) pre).1.chaincode = x.chaincode →
      ∃ q ∈ ask, ∃ q' ∈ ask, ask.idxOf q' ≤ ask.idxOf q ∧ junctionCode P q' (O.merlin q 32).1 := by
    intro s pre rest hpre hin hc
    obtain _ | ⟨j, pre⟩ := pre
    · exact absurd rfl hpre
    have hin' := fun h hh => hin h (walkInputs_append (x, s) (j :: pre) rest hh)
    obtain ⟨q, hq, q', hq', h1, h2⟩ := loop_back ask x.chaincode.bytes.1 (x, s) hx
      (junctionInput P x j) pre j le_rfl ⟨x, j, hx, rfl, rfl⟩ (congrArg (fun c : ChainCode => c.bytes.1) hc)
    refine ⟨q, hin' q hq, q', hin' q' ?_, h1, h2⟩
    rcases List.mem_cons.mp hq' with rfl | hq'
    · exact List.mem_cons_self
    · exact hq'
  rcases paths_distinct (x, sys) (x, sys') hx hx p q he with ⟨pre, rfl, h1, -⟩ | ⟨pre, rfl, h1, -⟩ | ⟨u, hu, v, hv, h⟩
  · exact .inr (loop sys pre q (fun h => hne (by rw [h]; rfl)) hp h1)
  · exact .inr (loop sys' pre p (fun h => hne (by rw [h]; rfl)) hq h1)
  · exact .inl ⟨u, hp u hu, v, hq v hv, h⟩

/-- **C91** a whole wallet in the random-oracle model: whoever makes at most `n` hash queries, and derives any number of
paths of any lengths from one extended secret key with them, sees two different paths (one may be empty, that is the key
itself) end in the same chain code with probability at most `n² / 2^256`. -/
theorem wallet_paths_random_oracle (O : Oracles) (A : Algo (ExtendedKey SecretKey × List (Rng × List Junction)))
    (D : Finset (List MOp)) (n : Nat) (hA : A.WideWithin O D n) :
    chance (fun f : D → Arr 64 => letI := wideTable O D f
      let (x, wallet) := A.run (wideTable O D f)
      x.key.key.Canonical ∧
      (∀ w ∈ wallet, ∀ h ∈ walkInputs P mode (x, w.1) w.2, h ∈ A.asked (wideTable O D f)) ∧
      ∃ w ∈ wallet, ∃ w' ∈ wallet, w.2 ≠ w'.2 ∧
        (walk P mode (x, w.1) w.2).1.chaincode = (walk P mode (x, w'.1) w'.2).1.chaincode) ≤ (n ^ 2 : ℚ) / 2 ^ 256 := by
  have h := chance_collide O A n 32 (by omega) hA
  have h' := chance_back_prefix O A n 32 (by omega) hA (junctionCode P) junctionCode_unique
  rw [show (256 : ℚ) ^ 32 = 2 ^ 256 by norm_num] at h h'
  have hsum : (n * (n - 1) : ℚ) / 2 / 2 ^ 256 + (n * (n + 1) : ℚ) / 2 / 2 ^ 256 = (n ^ 2 : ℚ) / 2 ^ 256 := by ring
  rw [← hsum]
  refine le_trans (chance_mono ?_) (le_trans chance_or_le (add_le_add h h'))
  intro f hv
  let _ := wideTable O D f
  simp only at hv ⊢
  generalize A.run (wideTable O D f) = r at hv
  obtain ⟨x, wallet⟩ := r
  obtain ⟨hx, hask, w, hw, w', hw', hne, he⟩ := hv
  exact wallet_codes_meet _ x hx w.1 w'.1 w.2 w'.2 hne (hask w hw) (hask w' hw') he

/-- What the child's scalar is besides the hash: the parent's scalar for a soft junction, nothing for a hard one. -/
noncomputable def parentScalar (P : Type) [Ristretto P] (q : List MOp) : Z :=
  if h : ∃ (x : ExtendedKey SecretKey) (i : Bytes), x.key.key.Canonical ∧
      q = softQuery (simpleLog i) x.chaincode.bytes.1 (x.key.toPublic : PublicKey P).compressed.1 then h.choose.key.key.toZ
  else 0

theorem parentScalar_soft (x : ExtendedKey SecretKey) (hx : x.key.key.Canonical) (i : Bytes) :
    parentScalar P (softQuery (simpleLog i) x.chaincode.bytes.1 (x.key.toPublic : PublicKey P).compressed.1) = x.key.key.toZ := by
  have h : ∃ (y : ExtendedKey SecretKey) (i' : Bytes), y.key.key.Canonical ∧
      softQuery (simpleLog i) x.chaincode.bytes.1 (x.key.toPublic : PublicKey P).compressed.1 =
        softQuery (simpleLog i') y.chaincode.bytes.1 (y.key.toPublic : PublicKey P).compressed.1 := ⟨x, i, hx, rfl⟩
  unfold parentScalar
  rw [dif_pos h]
  obtain ⟨i', hy, he⟩ := h.choose_spec
  have := (junctionInput_inj (P := P) x h.choose hx hy (.soft i) (.soft i') (congrArg (· ++ _) he)).1.1
  rw [← this]

theorem parentScalar_expand (m : Bytes) : parentScalar P (expandQuery m) = 0 := by
  unfold parentScalar
  rw [dif_neg]
  rintro ⟨x, i, -, h⟩
  have := congrArg List.length h
  simp [expandQuery, softQuery, simpleLog] at this

private theorem child_scalar [O : Oracles] (x : ExtendedKey SecretKey × Rng) (hx : x.1.key.key.Canonical) (j : Junction) :
    ∃ q ∈ junctionKeyInputs P x.1 j, (takeJunction P .uniform x j).1.key.key.toZ = hashToZ q + parentScalar P q := by
  cases j with
  | soft i =>
    refine ⟨_, List.mem_singleton_self _, ?_⟩
    rw [parentScalar_soft x.1 hx i, add_comm]
    exact (soft_derivation_spec (x.1.key.toKeypair : Keypair P) hx (⟨simpleLog i⟩ : Transcript) x.1.chaincode x.2 x.2).1.1
  | hard i =>
    refine ⟨_, List.mem_cons_of_mem _ (List.mem_singleton_self _), ?_⟩
    rw [parentScalar_expand, add_zero]
    exact Scalar.toZ_wide _

/-- Different nodes or different junctions hash different inputs to the child's scalar, unless two mini secret keys
collide. -/
private theorem key_inputs_differ [O : Oracles] (ask : List (List MOp)) (x y : ExtendedKey SecretKey × Rng)
    (hx : x.1.key.key.Canonical) (hy : y.1.key.key.Canonical) (j j' : Junction)
    (ha : ∀ h ∈ junctionKeyInputs P x.1 j, h ∈ ask) (hb : ∀ h ∈ junctionKeyInputs P y.1 j', h ∈ ask)
    (hne : ¬ (SameNode x.1 y.1 ∧ j = j'))
    (he : (takeJunction P .uniform x j).1.key.key = (takeJunction P .uniform y j').1.key.key) :
    (∃ h ∈ ask, ∃ h' ∈ ask, h ≠ h' ∧ (O.merlin h 32).1 = (O.merlin h' 32).1) ∨
    (∃ h ∈ ask, ∃ h' ∈ ask, h ≠ h' ∧ hashToZ h + parentScalar P h = hashToZ h' + parentScalar P h') := by
  have hin : junctionInput P x.1 j ≠ junctionInput P y.1 j' := fun h => hne (junctionInput_inj _ _ hx hy _ _ h)
  have soft : ∀ (z : ExtendedKey SecretKey × Rng) (hz : z.1.key.key.Canonical) i,
      (takeJunction P .uniform z (.soft i)).1.key.key.toZ =
        hashToZ (softQuery (simpleLog i) z.1.chaincode.bytes.1 (z.1.key.toPublic : PublicKey P).compressed.1) +
        parentScalar P (softQuery (simpleLog i) z.1.chaincode.bytes.1 (z.1.key.toPublic : PublicKey P).compressed.1) := by
    intro z hz i
    obtain ⟨q, hq, h⟩ := child_scalar (P := P) z hz (.soft i)
    obtain rfl := List.mem_singleton.mp hq
    exact h
  have hard : ∀ (z : ExtendedKey SecretKey × Rng) i,
      let q := expandQuery (O.merlin (hardQuery i (some z.1.chaincode.bytes.1) z.1.key.key.bytes.1) 32).1
      (takeJunction P .uniform z (.hard i)).1.key.key.toZ = hashToZ q + parentScalar P q := by
    intro z i q
    rw [parentScalar_expand, add_zero]
    exact Scalar.toZ_wide _
  have hz := congrArg Scalar.toZ he
  cases j with
  | soft i =>
    cases j' with
    | soft i' =>
      rw [soft x hx, soft y hy] at hz
      exact .inr ⟨_, ha _ (by simp [junctionKeyInputs]), _, hb _ (by simp [junctionKeyInputs]),
        fun h => hin (congrArg (· ++ _) h), hz⟩
    | hard i' =>
      rw [soft x hx, hard y] at hz
      refine .inr ⟨_, ha _ (by simp [junctionKeyInputs]), _, hb _ (by simp [junctionKeyInputs]), fun h => ?_, hz⟩
      have := congrArg List.length h
      simp [expandQuery, softQuery, simpleLog] at this
  | hard i =>
    cases j' with
    | soft i' =>
      rw [hard x, soft y hy] at hz
      refine .inr ⟨_, ha _ (by simp [junctionKeyInputs]), _, hb _ (by simp [junctionKeyInputs]), fun h => ?_, hz⟩
      have := congrArg List.length h
      simp [expandQuery, softQuery, simpleLog] at this
    | hard i' =>
      rw [hard x, hard y] at hz
      by_cases hm : (O.merlin (hardQuery i (some x.1.chaincode.bytes.1) x.1.key.key.bytes.1) 32).1 =
          (O.merlin (hardQuery i' (some y.1.chaincode.bytes.1) y.1.key.key.bytes.1) 32).1
      · exact .inl ⟨_, ha _ (by simp [junctionKeyInputs]), _, hb _ (by simp [junctionKeyInputs]),
          fun h => hin (congrArg (· ++ _) h), hm⟩
      · refine .inr ⟨_, ha _ (by simp [junctionKeyInputs]), _, hb _ (by simp [junctionKeyInputs]), fun h => hm ?_, hz⟩
        simpa [expandQuery] using h

private theorem walkKeyInputs_concat [O : Oracles] (x : ExtendedKey SecretKey × Rng) (p : List Junction) (j : Junction) :
    walkKeyInputs P mode x (p ++ [j]) = walkKeyInputs P mode x p ++ junctionKeyInputs P (walk P mode x p).1 j := by
  induction p generalizing x with
  | nil => simp [walkKeyInputs, walk]
  | cons i p ih =>
    simp only [List.cons_append, walkKeyInputs, ih, List.append_assoc]
    rfl

private theorem chance_scalars {α : Type} (O : Oracles) {D : Finset (List MOp)} (A : Algo α) (n : Nat)
    (hA : A.WideWithin O D n) (off : List MOp → Z) :
    chance (fun f : D → Arr 64 => letI := wideTable O D f
      ∃ h ∈ A.asked (wideTable O D f), ∃ h' ∈ A.asked (wideTable O D f), h ≠ h' ∧ hashToZ h + off h = hashToZ h' + off h') ≤
      (n * (n - 1) : ℚ) / 2 * guess := by
  have hW := wideWithin_within O A n hA
  have h := chance_pair O A n (2 ^ 512 / ell + 1) hW (fun q w q' w' => residue w + off q = residue w' + off q')
    (fun _ _ _ _ h => h.symm) (fun q q' w' _ => card_bad_le _ (residue w' + off q' - off q) fun w hw => by
      rw [← show residue w + off q = residue w' + off q' from hw, add_sub_cancel_right])
  refine le_trans (chance_mono ?_) h
  rintro f ⟨q, hq, q', hq', hne, he⟩
  rw [← (run_wideTable O A n hA f).2] at hq hq'
  have hqD := (hW f).2 q hq
  have hqD' := (hW f).2 q' hq'
  refine ⟨q, hq, q', hq', hne, ?_⟩
  rw [table_hit O D f q hqD, table_hit O D f q' hqD']
  rw [← wideTable_hit O f q hqD, ← wideTable_hit O f q' hqD']
  exact he

/-- **C91** the keys of a whole wallet, in the random-oracle model (expansion mode `Uniform`): whoever makes at most `n` hash
queries, and derives any number of non-empty paths of any lengths and mixes of junctions from one extended secret key with
them, sees two different paths lead to the same secret scalar with probability at most
`n² / 2^256 + n(n-1)/2 · guess`. -/
theorem wallet_keys_random_oracle (O : Oracles) (A : Algo (ExtendedKey SecretKey × List (Rng × List Junction)))
    (D : Finset (List MOp)) (n : Nat) (hA : A.WideWithin O D n) :
    chance (fun f : D → Arr 64 => letI := wideTable O D f
      let (x, wallet) := A.run (wideTable O D f)
      x.key.key.Canonical ∧
      (∀ w ∈ wallet, w.2 ≠ [] ∧ ∀ h ∈ walkInputs P .uniform (x, w.1) w.2 ++ walkKeyInputs P .uniform (x, w.1) w.2,
        h ∈ A.asked (wideTable O D f)) ∧
      ∃ w ∈ wallet, ∃ w' ∈ wallet, w.2 ≠ w'.2 ∧
        (walk P .uniform (x, w.1) w.2).1.key.key = (walk P .uniform (x, w'.1) w'.2).1.key.key) ≤
      (n ^ 2 : ℚ) / 2 ^ 256 + (n * (n - 1) : ℚ) / 2 * guess := by
  have h := chance_collide O A n 32 (by omega) hA
  have h' := chance_back_prefix O A n 32 (by omega) hA (junctionCode P) junctionCode_unique
  have h'' := chance_scalars O A n hA (parentScalar P)
  rw [show (256 : ℚ) ^ 32 = 2 ^ 256 by norm_num] at h h'
  have hsum : (n * (n - 1) : ℚ) / 2 / 2 ^ 256 + (n * (n + 1) : ℚ) / 2 / 2 ^ 256 = (n ^ 2 : ℚ) / 2 ^ 256 := by ring
  rw [← hsum]
  refine le_trans (chance_mono ?_) (le_trans chance_or_le (add_le_add (le_trans chance_or_le (add_le_add h h')) h''))
  intro f hv
  let _ := wideTable O D f
  simp only at hv ⊢
  generalize A.run (wideTable O D f) = r at hv
  generalize A.asked (wideTable O D f) = ask at hv
  obtain ⟨x, wallet⟩ := r
  obtain ⟨hx, hask, ⟨s, p⟩, hw, ⟨s', q⟩, hw', hne, he⟩ := hv
  obtain ⟨hp, ha⟩ := hask _ hw
  obtain ⟨hq, hb⟩ := hask _ hw'
  simp only at hp ha hq hb hne he
  obtain ⟨p, j, rfl⟩ := (List.eq_nil_or_concat p).resolve_left hp
  obtain ⟨q, j', rfl⟩ := (List.eq_nil_or_concat q).resolve_left hq
  simp only [List.concat_eq_append] at *
  by_cases hs : SameNode (walk P .uniform (x, s) p).1 (walk P .uniform (x, s') q).1 ∧ j = j'
  · refine .inl (wallet_codes_meet ask x hx s s' _ _ hne (fun h hh => ha h (List.mem_append_left _ hh))
      (fun h hh => hb h (List.mem_append_left _ hh)) ?_)
    rw [walk_concat, walk_concat, ← hs.2]
    exact (junction_respects (mode := .uniform) (P := P) _ _ hs.1 j).1.2
  · rw [walk_concat, walk_concat] at he
    rcases key_inputs_differ ask _ _ (walk_canonical (x, s) hx p) (walk_canonical (x, s') hx q) j j'
      (fun h hh => ha h (List.mem_append_right _ (by rw [walkKeyInputs_concat]; exact List.mem_append_right _ hh)))
      (fun h hh => hb h (List.mem_append_right _ (by rw [walkKeyInputs_concat]; exact List.mem_append_right _ hh)))
      hs he with h | h
    · exact .inl (.inl h)
    · exact .inr h

/-- Non-vacuity for C91: whoever hashes all inputs of `//x` and of `/x` from the toy key 3 and names these two paths is
within the bound of five queries, and meets every condition but the last, whatever the table. -/
example (O : Oracles) : let x : ExtendedKey SecretKey := ⟨⟨Scalar.ofNat 3, zeros 32⟩, ⟨zeros 32⟩⟩
    let A : Algo (ExtendedKey SecretKey × List (Rng × List Junction)) :=
      .ask (junctionInput Toy x (.hard (b! "x"))) fun _ => .ask (junctionInput Toy x (.soft (b! "x"))) fun _ =>
      .ask (softQuery (simpleLog (b! "x")) (zeros 32).1 (x.key.toPublic : PublicKey Toy).compressed.1) fun _ =>
      .ask (hardQuery (b! "x") (some (zeros 32).1) x.key.key.bytes.1) fun m => .ask (expandQuery (m.1.take 32)) fun _ =>
      .ret (x, [(zeroRng, [.hard (b! "x")]), (zeroRng, [.soft (b! "x")])])
    ∃ D, A.WideWithin O D 5 ∧ ∀ f, letI := wideTable O D f
      let (x, wallet) := A.run (wideTable O D f)
      x.key.key.Canonical ∧ (∃ w ∈ wallet, ∃ w' ∈ wallet, w.2 ≠ w'.2) ∧
      (∀ w ∈ wallet, w.2 ≠ [] ∧ ∀ h ∈ walkInputs Toy .uniform (x, w.1) w.2 ++ walkKeyInputs Toy .uniform (x, w.1) w.2,
        h ∈ A.asked (wideTable O D f)) := by
  intro x A
  obtain ⟨D, n, h⟩ := exists_within A
  refine ⟨D, fun f => ⟨le_of_eq rfl, (h _).2⟩, fun f => ⟨?_, ?_, ?_⟩⟩
  · show (Scalar.ofNat 3).Canonical
    decide +kernel
  · exact ⟨_, List.mem_cons_self, _, List.mem_cons_of_mem _ List.mem_cons_self, fun h => by cases h⟩
  · have hq : hardQuery (b! "x") (some (zeros 32).1) x.key.key.bytes.1 ∈ D :=
      (h (wideTable O D f)).2 _ (by simp [A, Algo.asked])
    have he := wideTable_short O f _ hq 32 (by omega)
    intro w hw
    rcases List.mem_cons.mp hw with rfl | hw
    · refine ⟨fun h => (by cases h), fun q hq' => ?_⟩
      simp only [walkInputs, walkKeyInputs, junctionKeyInputs, List.mem_append, List.mem_cons, List.not_mem_nil, or_false] at hq'
      rcases hq' with rfl | rfl | rfl
      · exact List.mem_cons_self
      · simp [A, Algo.asked, x]
      · show expandQuery ((wideTable O D f).merlin (hardQuery (b! "x") (some (zeros 32).1) x.key.key.bytes.1) 32).1 ∈ _
        rw [he]
        simp [A, Algo.asked]
    · obtain rfl := List.mem_singleton.mp hw
      refine ⟨fun h => (by cases h), fun q hq' => ?_⟩
      simp only [walkInputs, walkKeyInputs, junctionKeyInputs, List.mem_append, List.mem_cons, List.not_mem_nil, or_false] at hq'
      rcases hq' with rfl | rfl
      · simp [A, Algo.asked, x]
      · simp [A, Algo.asked, x]


end Schnorrkel.Props
