import Verif.Spec.PathPublic
import Verif.Props.PathLoop

/-! # C91: watch-only wallets, paths of any lengths, in the random-oracle model -/

namespace Schnorrkel.Props
open SigningTranscript Spec Classical
variable {P : Type} [Ristretto P]

/-- **C91** watch-only walks of any two lengths that end in the same chain code: either one of them ends with the whole path
of the other, and where that begins it stands at the chain code the other one started from (and, if any index follows, at the
same public key); or the hash function collides. -/
theorem public_paths_any_length [O : Oracles] (sys : Rng) (x y : ExtendedKey (PublicKey P)) (hx : x.key.WF) (hy : y.key.WF)
    (p q : List Bytes) (h : (publicWalk sys x p).chaincode = (publicWalk sys y q).chaincode) :
    (∃ pre, p = pre ++ q ∧ (publicWalk sys x pre).chaincode = y.chaincode ∧ (q ≠ [] → publicWalk sys x pre = y)) ∨
    (∃ pre, q = pre ++ p ∧ (publicWalk sys y pre).chaincode = x.chaincode ∧ (p ≠ [] → publicWalk sys y pre = x)) ∨
      CollisionBetween (publicWalkInputs sys x p) (publicWalkInputs sys y q) := by
  induction p using List.reverseRecOn generalizing q with
  | nil => exact .inr (.inl ⟨q, by simp, h.symm, fun h => absurd rfl h⟩)
  | append_singleton p j ih =>
    rcases List.eq_nil_or_concat q with rfl | ⟨q, j', rfl⟩
    · exact .inl ⟨p ++ [j], by simp, h, fun h => absurd rfl h⟩
    simp only [List.concat_eq_append] at h ⊢
    rw [publicWalk_concat, publicWalk_concat, (public_step _ _ _).1, (public_step _ _ _).1] at h
    by_cases he : publicInput (publicWalk sys x p) j = publicInput (publicWalk sys y q) j'
    · obtain ⟨h1, rfl⟩ := publicInput_inj _ _ (publicWalk_wf sys x hx p) (publicWalk_wf sys y hy q) _ _ he
      rcases ih q (congrArg _ h1) with ⟨pre, rfl, h2, h3⟩ | ⟨pre, rfl, h2, h3⟩ | h3
      · refine .inl ⟨pre, by simp, h2, fun _ => ?_⟩
        by_cases hq : q = []
        · subst hq; simpa [publicWalk] using h1
        · exact h3 hq
      · refine .inr (.inl ⟨pre, by simp, h2, fun _ => ?_⟩)
        by_cases hq : p = []
        · subst hq
          have : x = publicWalk sys y pre := by simpa [publicWalk] using h1
          exact this.symm
        · exact h3 hq
      · rw [publicWalkInputs_concat, publicWalkInputs_concat]
        exact .inr (.inr (collision_mono h3 (List.subset_append_left _ _) (List.subset_append_left _ _)))
    · refine .inr (.inr ⟨_, ?_, _, ?_, he, congrArg (fun c : ChainCode => c.bytes.1) h⟩) <;> rw [publicWalkInputs_concat] <;> simp

/-- The chain code in a derivation query. -/
private def codeIn (P : Type) [Ristretto P] (q : List MOp) (c : Bytes) : Prop :=
  ∃ (x : ExtendedKey (PublicKey P)) (i : Bytes), x.key.WF ∧ q = publicInput x i ∧ c = x.chaincode.bytes.1

private theorem codeIn_unique (q : List MOp) (c c' : Bytes) (h : codeIn P q c) (h' : codeIn P q c') : c = c' := by
  obtain ⟨x, j, hx, rfl, rfl⟩ := h
  obtain ⟨y, j', hy, he, rfl⟩ := h'
  rw [(publicInput_inj x y hx hy j j' he).1]

private theorem loop_back [O : Oracles] (sys : Rng) (ask : List (List MOp)) (c : Bytes) (x : ExtendedKey (PublicKey P))
    (hx : x.key.WF) (first : List MOp) (p : List Bytes) (j : Bytes)
    (hfirst : ask.idxOf first ≤ ask.idxOf (publicInput x j)) (hf : codeIn P first c)
    (hend : (publicWalk sys x (j :: p)).chaincode.bytes.1 = c) :
    ∃ q ∈ publicWalkInputs sys x (j :: p), ∃ q' ∈ first :: publicWalkInputs sys x (j :: p), ask.idxOf q' ≤ ask.idxOf q ∧
      codeIn P q' (O.merlin q 32).1 := by
  induction p generalizing x j with
  | nil =>
    refine ⟨_, by simp [publicWalkInputs], first, by simp, hfirst, ?_⟩
    have e : publicWalk sys x [j] = (x.derivedKeySimple j sys).1 := rfl
    rw [e, (public_step _ _ _).1] at hend
    exact hend ▸ hf
  | cons i p ih =>
    by_cases hlt : ask.idxOf (publicInput (x.derivedKeySimple j sys).1 i) ≤ ask.idxOf (publicInput x j)
    · refine ⟨publicInput x j, by simp [publicWalkInputs], publicInput (x.derivedKeySimple j sys).1 i,
        by simp [publicWalkInputs], hlt, _, i, (public_step sys x j).2, rfl, ?_⟩
      rw [(public_step _ _ _).1]
    · obtain ⟨q, hq, q', hq', h⟩ := ih (x.derivedKeySimple j sys).1 (public_step sys x j).2 i (by omega) hend
      refine ⟨q, List.mem_cons_of_mem _ hq, q', ?_, h⟩
      rcases List.mem_cons.mp hq' with rfl | hq'
      · exact List.mem_cons_self
      · exact List.mem_cons_of_mem _ (List.mem_cons_of_mem _ hq')

private theorem inputs_append [O : Oracles] (sys : Rng) (x : ExtendedKey (PublicKey P)) (p q : List Bytes) :
    publicWalkInputs sys x p ⊆ publicWalkInputs sys x (p ++ q) := by
  induction p generalizing x with
  | nil => simp [publicWalkInputs]
  | cons j p ih =>
    intro h hh
    rcases List.mem_cons.mp hh with rfl | hh
    · exact List.mem_cons_self
    · exact List.mem_cons_of_mem _ (ih _ hh)

private theorem wallet_codes [O : Oracles] (sys : Rng) (ask : List (List MOp)) (x : ExtendedKey (PublicKey P)) (hx : x.key.WF)
    (p q : List Bytes) (hne : p ≠ q)
    (hp : ∀ h ∈ publicWalkInputs sys x p, h ∈ ask) (hq : ∀ h ∈ publicWalkInputs sys x q, h ∈ ask)
    (he : (publicWalk sys x p).chaincode = (publicWalk sys x q).chaincode) :
    (∃ h ∈ ask, ∃ h' ∈ ask, h ≠ h' ∧ (O.merlin h 32).1 = (O.merlin h' 32).1) ∨
    (∃ h ∈ ask, ∃ h' ∈ ask, ask.idxOf h' ≤ ask.idxOf h ∧ codeIn P h' (O.merlin h 32).1) := by
  have loop : ∀ (pre rest : List Bytes), pre ≠ [] →
      (∀ h ∈ publicWalkInputs sys x (pre ++ rest), h ∈ ask) →
      (publicWalk sys x pre).chaincode = x.chaincode →
      ∃ q ∈ ask, ∃ q' ∈ ask, ask.idxOf q' ≤ ask.idxOf q ∧ codeIn P q' (O.merlin q 32).1 := by
    intro pre rest hpre hin hc
    obtain _ | ⟨j, pre⟩ := pre
    · exact absurd rfl hpre
    have hin' := fun h hh => hin h (inputs_append sys x (j :: pre) rest hh)
    obtain ⟨q, hq, q', hq', h1, h2⟩ := loop_back sys ask x.chaincode.bytes.1 x hx
      (publicInput x j) pre j le_rfl ⟨x, j, hx, rfl, rfl⟩ (congrArg (fun c : ChainCode => c.bytes.1) hc)
    refine ⟨q, hin' q hq, q', hin' q' ?_, h1, h2⟩
    rcases List.mem_cons.mp hq' with rfl | hq'
    · exact List.mem_cons_self
    · exact hq'
  rcases public_paths_any_length sys x x hx hx p q he with ⟨pre, rfl, h1, -⟩ | ⟨pre, rfl, h1, -⟩ | ⟨u, hu, v, hv, h⟩
  · exact .inr (loop pre q (fun h => hne (by rw [h]; rfl)) hp h1)
  · exact .inr (loop pre p (fun h => hne (by rw [h]; rfl)) hq h1)
  · exact .inl ⟨u, hp u hu, v, hq v hv, h⟩

/-- **C91** a whole watch-only wallet in the random-oracle model: whoever makes at most `n` hash queries, and derives any
number of paths of any lengths from one extended public key with them, sees two different paths end in the same chain code
with probability at most `n² / 2^256`. -/
theorem watch_paths_random_oracle (O : Oracles) (sys : Rng) (A : Algo (ExtendedKey (PublicKey P) × List (List Bytes)))
    (D : Finset (List MOp)) (n : Nat) (hA : A.WideWithin O D n) :
    chance (fun f : D → Arr 64 => letI := wideTable O D f
      let (x, wallet) := A.run (wideTable O D f)
      x.key.WF ∧
      (∀ w ∈ wallet, ∀ h ∈ publicWalkInputs sys x w, h ∈ A.asked (wideTable O D f)) ∧
      ∃ w ∈ wallet, ∃ w' ∈ wallet, w ≠ w' ∧
        (publicWalk sys x w).chaincode = (publicWalk sys x w').chaincode) ≤ (n ^ 2 : ℚ) / 2 ^ 256 := by
  have h := chance_collide O A n 32 (by omega) hA
  have h' := chance_back_prefix O A n 32 (by omega) hA (codeIn P) codeIn_unique
  rw [show (256 : ℚ) ^ 32 = 2 ^ 256 by norm_num] at h h'
  have hsum : (n * (n - 1) : ℚ) / 2 / 2 ^ 256 + (n * (n + 1) : ℚ) / 2 / 2 ^ 256 = (n ^ 2 : ℚ) / 2 ^ 256 := by ring
  rw [← hsum]
  refine le_trans (chance_mono ?_) (le_trans chance_or_le (add_le_add h h'))
  intro f hv
  let _ := wideTable O D f
  simp only at hv ⊢
  generalize A.run (wideTable O D f) = r at hv
  obtain ⟨x, wallet⟩ := r
  obtain ⟨hx, hask, w, hw, w', hw', hne, he⟩ := hv
  exact wallet_codes sys _ x hx w w' hne (hask w hw) (hask w' hw') he

/-- The parent's point, which the child's point has besides the hash. -/
private noncomputable def startOf (P : Type) [Ristretto P] (q : List MOp) : P :=
  if h : ∃ (x : ExtendedKey (PublicKey P)) (i : Bytes), x.key.WF ∧ q = publicKeyInput x i then h.choose.key.point else 0

private theorem startOf_eq (x : ExtendedKey (PublicKey P)) (hx : x.key.WF) (i : Bytes) :
    startOf P (publicKeyInput x i) = x.key.point := by
  have h : ∃ (y : ExtendedKey (PublicKey P)) (i' : Bytes), y.key.WF ∧ publicKeyInput x i = publicKeyInput y i' := ⟨x, i, hx, rfl⟩
  unfold startOf
  rw [dif_pos h]
  obtain ⟨i', hy, he⟩ := h.choose_spec
  rw [← (publicInput_inj x h.choose hx hy i i' (congrArg (· ++ _) he)).1]

private theorem child_point [O : Oracles] (sys : Rng) (x : ExtendedKey (PublicKey P)) (hx : x.key.WF) (i : Bytes) :
    (x.derivedKeySimple i sys).1.key.point =
      hashToZ (publicKeyInput x i) • (basepoint : P) + startOf P (publicKeyInput x i) := by
  rw [startOf_eq x hx i, add_comm]
  have h := (soft_derivation_spec (⟨⟨Scalar.ofZ 0, zeros 32⟩, x.key⟩ : Keypair P) (Scalar.canonical_ofZ _)
    (⟨simpleLog i⟩ : Transcript) x.chaincode sys sys).2.2.1.1
  exact congrArg (fun k : PublicKey P => k.point) h

private theorem publicWalkKeyInputs_concat [O : Oracles] (sys : Rng) (x : ExtendedKey (PublicKey P)) (p : List Bytes) (i : Bytes) :
    publicWalkKeyInputs sys x (p ++ [i]) = publicWalkKeyInputs sys x p ++ [publicKeyInput (publicWalk sys x p) i] := by
  induction p generalizing x with
  | nil => rfl
  | cons j p ih => simp only [List.cons_append, publicWalkKeyInputs, ih]; rfl

private theorem chance_points {α : Type} (O : Oracles) {D : Finset (List MOp)} (A : Algo α) (n : Nat)
    (hA : A.WideWithin O D n) (off : List MOp → P) :
    chance (fun f : D → Arr 64 => letI := wideTable O D f
      ∃ h ∈ A.asked (wideTable O D f), ∃ h' ∈ A.asked (wideTable O D f), h ≠ h' ∧
        hashToZ h • (basepoint : P) + off h = hashToZ h' • (basepoint : P) + off h') ≤
      (n * (n - 1) : ℚ) / 2 * guess := by
  have hW := wideWithin_within O A n hA
  have h := chance_pair O A n (2 ^ 512 / ell + 1) hW
    (fun q w q' w' => residue w • (basepoint : P) + off q = residue w' • (basepoint : P) + off q')
    (fun _ _ _ _ h => h.symm) (fun q q' w' _ => by
      by_cases hex : ∃ w0 : Arr 64, residue w0 • (basepoint : P) + off q = residue w' • (basepoint : P) + off q'
      · obtain ⟨w0, h0⟩ := hex
        refine card_bad_le _ (residue w0) fun w hw => ?_
        have hw : residue w • (basepoint : P) + off q = residue w' • (basepoint : P) + off q' := hw
        exact smul_basepoint_inj.mp (add_right_cancel (hw.trans h0.symm))
      · exact card_bad_le _ 0 fun w hw => absurd ⟨w, hw⟩ hex)
  refine le_trans (chance_mono ?_) h
  rintro f ⟨q, hq, q', hq', hne, he⟩
  rw [← (run_wideTable O A n hA f).2] at hq hq'
  have hqD := (hW f).2 q hq
  have hqD' := (hW f).2 q' hq'
  refine ⟨q, hq, q', hq', hne, ?_⟩
  rw [table_hit O D f q hqD, table_hit O D f q' hqD']
  rw [← wideTable_hit O f q hqD, ← wideTable_hit O f q' hqD']
  exact he

/-- **C91** the public keys of a whole watch-only wallet, in the random-oracle model: whoever makes at most `n` hash queries,
and derives any number of non-empty paths of any lengths from one extended public key with them, sees two different paths
lead to the same public key with probability at most `n² / 2^256 + n(n-1)/2 · guess`. -/
theorem watch_keys_random_oracle (O : Oracles) (sys : Rng) (A : Algo (ExtendedKey (PublicKey P) × List (List Bytes)))
    (D : Finset (List MOp)) (n : Nat) (hA : A.WideWithin O D n) :
    chance (fun f : D → Arr 64 => letI := wideTable O D f
      let (x, wallet) := A.run (wideTable O D f)
      x.key.WF ∧
      (∀ w ∈ wallet, w ≠ [] ∧ ∀ h ∈ publicWalkInputs sys x w ++ publicWalkKeyInputs sys x w, h ∈ A.asked (wideTable O D f)) ∧
      ∃ w ∈ wallet, ∃ w' ∈ wallet, w ≠ w' ∧ (publicWalk sys x w).key = (publicWalk sys x w').key) ≤
      (n ^ 2 : ℚ) / 2 ^ 256 + (n * (n - 1) : ℚ) / 2 * guess := by
  have h := chance_collide O A n 32 (by omega) hA
  have h' := chance_back_prefix O A n 32 (by omega) hA (codeIn P) codeIn_unique
  have h'' := chance_points O A n hA (startOf P)
  rw [show (256 : ℚ) ^ 32 = 2 ^ 256 by norm_num] at h h'
  have hsum : (n * (n - 1) : ℚ) / 2 / 2 ^ 256 + (n * (n + 1) : ℚ) / 2 / 2 ^ 256 = (n ^ 2 : ℚ) / 2 ^ 256 := by ring
  rw [← hsum]
  refine le_trans (chance_mono ?_) (le_trans chance_or_le (add_le_add (le_trans chance_or_le (add_le_add h h')) h''))
  intro f hv
  let _ := wideTable O D f
  simp only at hv ⊢
  generalize A.run (wideTable O D f) = r at hv
  generalize A.asked (wideTable O D f) = ask at hv
  obtain ⟨x, wallet⟩ := r
  obtain ⟨hx, hask, p, hw, q, hw', hne, he⟩ := hv
  obtain ⟨hp, ha⟩ := hask _ hw
  obtain ⟨hq, hb⟩ := hask _ hw'
  obtain ⟨p, j, rfl⟩ := (List.eq_nil_or_concat p).resolve_left hp
  obtain ⟨q, j', rfl⟩ := (List.eq_nil_or_concat q).resolve_left hq
  simp only [List.concat_eq_append] at *
  by_cases hs : publicKeyInput (publicWalk sys x p) j = publicKeyInput (publicWalk sys x q) j'
  · obtain ⟨h1, h2⟩ := publicInput_inj _ _ (publicWalk_wf sys x hx p) (publicWalk_wf sys x hx q) j j' (congrArg (· ++ _) hs)
    refine .inl (wallet_codes sys ask x hx _ _ hne (fun h hh => ha h (List.mem_append_left _ hh))
      (fun h hh => hb h (List.mem_append_left _ hh)) ?_)
    rw [publicWalk_concat, publicWalk_concat, h1, h2]
  · refine .inr ⟨_, ha _ (List.mem_append_right _ ?_), _, hb _ (List.mem_append_right _ ?_), hs, ?_⟩
    · rw [publicWalkKeyInputs_concat]; simp
    · rw [publicWalkKeyInputs_concat]; simp
    · rw [← child_point sys _ (publicWalk_wf sys x hx p), ← child_point sys _ (publicWalk_wf sys x hx q),
        ← publicWalk_concat, ← publicWalk_concat, he]

/-- Non-vacuity for C91: whoever hashes the inputs of `/x` and of `/y` from the toy public key of 3 and names these two paths
is within the bound of four queries, and meets every condition but the last, whatever the table. -/
example (O : Oracles) : let x : ExtendedKey (PublicKey Toy) := ⟨SecretKey.toPublic ⟨Scalar.ofNat 3, zeros 32⟩, ⟨zeros 32⟩⟩
    let A : Algo (ExtendedKey (PublicKey Toy) × List (List Bytes)) :=
      .ask (publicInput x (b! "x")) fun _ => .ask (publicInput x (b! "y")) fun _ =>
      .ask (publicKeyInput x (b! "x")) fun _ => .ask (publicKeyInput x (b! "y")) fun _ =>
      .ret (x, [[b! "x"], [b! "y"]])
    ∃ D, A.WideWithin O D 4 ∧ ∀ f, letI := wideTable O D f
      let (x, wallet) := A.run (wideTable O D f)
      x.key.WF ∧ (∃ w ∈ wallet, ∃ w' ∈ wallet, w ≠ w') ∧
      (∀ w ∈ wallet, w ≠ [] ∧ ∀ h ∈ publicWalkInputs zeroRng x w ++ publicWalkKeyInputs zeroRng x w,
        h ∈ A.asked (wideTable O D f)) := by
  intro x A
  obtain ⟨D, n, h⟩ := exists_within A
  refine ⟨D, fun f => ⟨le_of_eq rfl, (h _).2⟩, fun f => ⟨rfl, ⟨_, List.mem_cons_self, _,
    List.mem_cons_of_mem _ List.mem_cons_self, by decide⟩, ?_⟩⟩
  intro w hw
  rcases List.mem_cons.mp hw with rfl | hw
  · refine ⟨fun h => (by cases h), fun q hq' => ?_⟩
    simp only [publicWalkInputs, publicWalkKeyInputs, List.mem_append, List.mem_cons, List.not_mem_nil, or_false] at hq'
    rcases hq' with rfl | rfl <;> simp [A, Algo.asked, Algo.run]
  · obtain rfl := List.mem_singleton.mp hw
    refine ⟨fun h => (by cases h), fun q hq' => ?_⟩
    simp only [publicWalkInputs, publicWalkKeyInputs, List.mem_append, List.mem_cons, List.not_mem_nil, or_false] at hq'
    rcases hq' with rfl | rfl <;> simp [A, Algo.asked, Algo.run]

end Schnorrkel.Props
