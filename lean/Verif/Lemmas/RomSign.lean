import Verif.Spec.RomSign
import Verif.Lemmas.RomShift

/-! # From the real signer to the simulated one -/

namespace Schnorrkel
open Spec Schnorrkel.Props
variable {P : Type} [Ristretto P]

instance : Finite (Arr 32) := by
  refine Finite.of_injective (fun b : Arr 32 => (⟨leNat b.1, leNat_lt b.1⟩ : Σ' n : Nat, n < 256 ^ b.1.length).1 |> fun n => (Fin.ofNat (256 ^ 32) n)) ?_
  intro a b h
  apply Arr.leNat_inj
  have h1 := leNat_lt a.1
  have h2 := leNat_lt b.1
  rw [a.2] at h1
  rw [b.2] at h2
  have := congrArg Fin.val h
  simp only [Fin.ofNat] at this
  rwa [Nat.mod_eq_of_lt h1, Nat.mod_eq_of_lt h2] at this

variable {D : Finset (List MOp)} {K : Finset (List MOp × Arr 32)}

/-- The nonce bytes for a request. -/
def nonceAt (N : K → Arr 64) (t : Transcript) (sys : Rng) : Arr 64 :=
  if h : (t.log, (sys.fill 32).1) ∈ K then N ⟨_, h⟩ else zeros 64

/-- The signature made with nonce bytes `v`. -/
def realSignature (O : Oracles) (x : Z) (pk : PublicKey P) (t : Transcript) (v : Arr 64) : Signature :=
  ⟨compress (residue v • (basepoint : P)),
    Scalar.ofZ (hashWith O (challengeOf pk t (compress (residue v • (basepoint : P))).1) * x + residue v)⟩

/-- Winning condition. -/
def Win (O : Oracles) (pk : PublicKey P) (log : List (Transcript × Signature)) (r : Transcript × Bytes) : Prop :=
  ∃ σ, Signature.fromBytes r.2 = .ok σ ∧ verifyWith O pk r.1 σ = .ok () ∧ (r.1, σ) ∉ log

/-- The attack wins against the signer with nonces `N`. -/
def win1 (O : Oracles) (x : Z) (pk : PublicKey P) (N : K → Arr 64) :
    List (Transcript × Signature) → Attacker (Transcript × Bytes) → Prop
  | log, .ret a => Win O pk log a
  | log, .ask q k => win1 O x pk N log (k (O.merlin q 64))
  | log, .sign t sys k =>
    let σ := realSignature O x pk t (nonceAt N t sys)
    win1 O x pk N ((t, σ) :: log) (k σ)

/-- The attack wins against the simulated signer with coins `C`, which reprograms the hash function. -/
def win2 (pk : PublicKey P) (C : Coins K) :
    Oracles → List (Transcript × Signature) → Attacker (Transcript × Bytes) → Prop
  | O, log, .ret a => Win O pk log a
  | O, log, .ask q k => win2 pk C O log (k (O.merlin q 64))
  | O, log, .sign t sys k =>
    let c := coinsAt C t sys
    let σ := fakeSignature pk c
    win2 pk C (program O (challengeOf pk t σ.R.1) c.2) ((t, σ) :: log) (k σ)

theorem program_table (O : Oracles) (F : D → Arr 64) (q : List MOp) (h : q ∈ D) (w : Arr 64) :
    program (table O D F) q w = table O D (Function.update F ⟨q, h⟩ w) := by
  have : ∀ (l : List MOp) (n : Nat), (program (table O D F) q w).merlin l n =
      (table O D (Function.update F ⟨q, h⟩ w)).merlin l n := by
    intro l n
    by_cases hl : l = q ∧ 64 = n
    · obtain ⟨rfl, rfl⟩ := hl
      rw [table_hit _ _ _ _ h]
      simp [program_hit]
    · by_cases hq : l = q
      · subst hq
        have hn : ¬ 64 = n := fun e => hl ⟨rfl, e⟩
        rw [table_miss _ _ _ _ _ (fun e => hn e.2)]
        show (if h : l = l ∧ 64 = n then h.2 ▸ w else (table O D F).merlin l n) = _
        rw [dif_neg hl, table_miss _ _ _ _ _ (fun e => hn e.2)]
      · rw [program_miss _ _ _ _ _ hq]
        by_cases hn : l ∈ D ∧ 64 = n
        · obtain ⟨hd, rfl⟩ := hn
          rw [table_hit _ _ _ _ hd, table_hit _ _ _ _ hd, Function.update_of_ne]
          intro e
          exact hq (congrArg Subtype.val e)
        · rw [table_miss _ _ _ _ _ hn, table_miss _ _ _ _ _ hn]
  unfold program table at this ⊢
  congr 1
  funext l n
  exact this l n

theorem update_ov {ι S : Type} [DecidableEq ι] (L : ι → Option S) (f : ι → S) (k : ι) (w : S) :
    Function.update (ov L f) k w = ov (Function.update L k (some w)) f := by
  funext j
  by_cases hj : j = k
  · subst hj; simp [ov]
  · simp [ov, Function.update_of_ne hj]

/-- What relates the two games after some steps: the same requests have been answered, with the same signatures. -/
def Inv (pk : PublicKey P) (x : Z) (L : D → Option (Arr 64)) (M1 : K → Option (Arr 64))
    (M2 : K → Option (Arr 64 × Arr 64)) : Prop :=
  ∀ key : K, (M1 key = none ∧ M2 key = none) ∨ ∃ v v' w, M1 key = some v ∧ M2 key = some (v', w) ∧
    residue v' = residue w * x + residue v ∧
    ∃ h, L ⟨challengeOf pk ⟨key.1.1⟩ (compress (residue v • (basepoint : P))).1, h⟩ = some w

theorem fake_eq_real (O : Oracles) (pk : PublicKey P) (x : Z) (hpk : pk.point = x • (basepoint : P)) (t : Transcript)
    (v v' w : Arr 64) (h : residue v' = residue w * x + residue v)
    (hw : hashWith O (challengeOf pk t (compress (residue v • (basepoint : P))).1) = residue w) :
    fakeSignature pk (v', w) = realSignature O x pk t v := by
  unfold fakeSignature realSignature
  rw [hw, ← h]
  simp only
  congr 2
  rw [h, hpk, add_smul, smul_smul, add_sub_cancel_left]

theorem signature_query_inj {l l' : List MOp} {p p' R R' : Bytes}
    (h : (Use.signature l p R).query = (Use.signature l' p' R').query) : l = l' ∧ p = p' ∧ R = R' := by
  simp only [Use.query, schnorrFrames] at h
  have h1 := List.append_inj_left' h rfl
  obtain ⟨h2, h3⟩ := List.append_inj' h1 (by simp)
  simp only [List.cons.injEq, MOp.append.injEq, true_and, and_true] at h3
  exact ⟨h2, h3.1, h3.2⟩

theorem chance_mem_list (pk : PublicKey P) (t : Transcript) (l : List (List MOp)) :
    chance (fun v : Arr 64 => challengeOf pk t (compress (residue v • (basepoint : P))).1 ∈ l) ≤ l.length * guess := by
  have hone : ∀ d : List MOp, chance (fun v : Arr 64 => challengeOf pk t (compress (residue v • (basepoint : P))).1 = d)
      ≤ guess := by
    intro d
    have : ∃ z : Z, ∀ v ∈ {v : Arr 64 | challengeOf pk t (compress (residue v • (basepoint : P))).1 = d}, residue v = z := by
      by_cases h : ∃ v : Arr 64, challengeOf pk t (compress (residue v • (basepoint : P))).1 = d
      · obtain ⟨v₀, h₀⟩ := h
        refine ⟨residue v₀, fun v hv => ?_⟩
        have := (signature_query_inj (hv.trans h₀.symm)).2.2
        exact smul_basepoint_inj.mp (compress_inj.mp (Subtype.ext this))
      · exact ⟨0, fun v hv => (h ⟨v, hv⟩).elim⟩
    obtain ⟨z, hz⟩ := this
    have := card_bad_le _ z hz
    unfold chance guess
    rw [card_arr64]
    push_cast
    gcongr
    exact_mod_cast this
  induction l with
  | nil => simp [chance]
  | cons d l ih =>
    have h2 : chance (fun v : Arr 64 => challengeOf pk t (compress (residue v • (basepoint : P))).1 ∈ d :: l) ≤
        guess + l.length * guess := by
      refine le_trans ?_ (add_le_add (hone d) ih)
      rw [chance_eq_avg, chance_eq_avg, chance_eq_avg, ← avg_add]
      apply avg_mono
      intro v
      have hor : ∀ p r : Prop, ind (p ∨ r) ≤ ind p + ind r := by
        intro p r
        unfold ind
        by_cases hp : p <;> by_cases hr : r <;> simp [hp, hr]
      simp only [List.mem_cons]
      exact hor _ _
    simp only [List.length_cons]
    push_cast
    linarith

attribute [local irreducible] guess spare in
/-- The simulated signer is almost as good for the attacker as the real one. -/
theorem real_le_simulated (O : Oracles) (pk : PublicKey P) (x : Z) (hpk : pk.point = x • (basepoint : P))
    (hC : Covers pk D K) (A : Attacker (Transcript × Bytes)) : ∀ (q m n : Nat) (L : D → Option (Arr 64)) (M1 : K → Option (Arr 64))
    (M2 : K → Option (Arr 64 × Arr 64)) (log : List (Transcript × Signature)), A.Bounded pk D K q m →
    (∃ l : List (List MOp), l.length ≤ n ∧ ∀ d, L d ≠ none → d.1 ∈ l) → Inv pk x L M1 M2 →
    (avg fun f => avg fun N => ind (win1 (table O D (ov L f)) x pk (ov M1 N) log A)) ≤
      (avg fun f => avg fun C => ind (win2 pk (ov M2 C) (table O D (ov L f)) log A)) +
        m * ((n + q + m : Nat) * guess + spare) := by
  have he := spare_nonneg
  have hg := guess_nonneg
  induction A with
  | ret a =>
    intro q m n L M1 M2 log _ _ _
    simp only [win1, win2]
    have h0 : (0 : ℚ) ≤ m * ((n + q + m : Nat) * guess + spare) := by positivity
    have : (avg fun f => avg fun _ : K → Arr 64 => ind (Win (table O D (ov L f)) pk log a)) =
        (avg fun f => avg fun _ : Coins K => ind (Win (table O D (ov L f)) pk log a)) := by
      simp only [avg_const]
    linarith [this.le]
  | ask l k ih =>
    intro q m n L M1 M2 log hB hL hI
    obtain ⟨hl, q', rfl, hk⟩ := hB
    simp only [win1, win2, table_hit _ _ _ _ hl]
    cases hLl : L ⟨l, hl⟩ with
    | some w =>
      simp only [fun f => ov_of_some L f _ _ hLl]
      refine le_trans (ih w q' m n L M1 M2 log (hk w) hL hI) ?_
      gcongr
      omega
    | none =>
      rw [avg_ov L _ hLl (fun F => avg fun N => ind (win1 (table O D F) x pk (ov M1 N) log (k (F ⟨l, hl⟩)))),
        avg_ov L _ hLl (fun F => avg fun C => ind (win2 pk (ov M2 C) (table O D F) log (k (F ⟨l, hl⟩))))]
      rw [← avg_const (Ω := Arr 64) (m * ((n + (q' + 1) + m : Nat) * guess + spare)), ← avg_add]
      apply avg_mono
      intro w
      have hs : Function.update L ⟨l, hl⟩ (some w) ⟨l, hl⟩ = some w := by simp
      simp only [fun f => ov_of_some _ f _ _ hs]
      refine le_trans (ih w q' m (n + 1) _ M1 M2 log (hk w) ?_ ?_) ?_
      · obtain ⟨ls, h1, h2⟩ := hL
        refine ⟨l :: ls, by simpa using h1, fun d hd => ?_⟩
        by_cases hdl : d = ⟨l, hl⟩
        · subst hdl; simp
        · rw [Function.update_of_ne hdl] at hd
          exact List.mem_cons_of_mem _ (h2 d hd)
      · intro key
        rcases hI key with h | ⟨v, v', w', h1, h2, h3, h4, h5⟩
        · exact Or.inl h
        · refine Or.inr ⟨v, v', w', h1, h2, h3, h4, ?_⟩
          rw [Function.update_of_ne]
          · exact h5
          · intro e
            rw [e, hLl] at h5
            cases h5
      · rw [show n + 1 + q' + m = n + (q' + 1) + m by omega]
  | sign t sys k ih =>
    intro q m n L M1 M2 log hB hL hI
    obtain ⟨hK, m', rfl, hk⟩ := hB
    have hD := (hC _ hK).1
    have hnonce : ∀ N : K → Arr 64, nonceAt N t sys = N ⟨_, hK⟩ := fun N => by simp [nonceAt, hK]
    have hcoins : ∀ C : Coins K, coinsAt C t sys = C ⟨_, hK⟩ := fun C => by simp [coinsAt, hK]
    simp only [win1, win2, hnonce, hcoins]
    -- the loss of the remaining steps
    have hloss : (m' * ((n + 1 + q + m' : Nat) * guess + spare) : ℚ) + (n * guess + spare) ≤
        (m' + 1 : Nat) * ((n + q + (m' + 1) : Nat) * guess + spare) := by
      push_cast
      have h1 : (0 : ℚ) ≤ (q + m' + 1) * guess := by positivity
      nlinarith
    rcases hI ⟨_, hK⟩ with ⟨h1, h2⟩ | ⟨v, v', w, h1, h2, h3, h4, h5⟩
    · -- a new request
      rw [avg_comm (fun f N => ind (win1 (table O D (ov L f)) x pk (ov M1 N) _ _)),
        avg_ov M1 _ h1 (fun N => avg fun f => ind (win1 (table O D (ov L f)) x pk N
          ((t, realSignature (table O D (ov L f)) x pk t (N ⟨_, hK⟩)) :: log)
          (k (realSignature (table O D (ov L f)) x pk t (N ⟨_, hK⟩))))),
        avg_comm (fun f C => ind (win2 pk (ov M2 C) _ _ _)),
        avg_ov M2 _ h2 (fun C => avg fun f => ind (win2 pk C
          (program (table O D (ov L f)) (challengeOf pk t (fakeSignature pk (C ⟨_, hK⟩)).R.1) (C ⟨_, hK⟩).2)
          ((t, fakeSignature pk (C ⟨_, hK⟩)) :: log) (k (fakeSignature pk (C ⟨_, hK⟩)))))]
      have hs1 : ∀ v N, ov (Function.update M1 ⟨_, hK⟩ (some v)) N ⟨_, hK⟩ = v := fun v N => ov_of_some _ _ _ _ (by simp)
      have hs2 : ∀ c C, ov (Function.update M2 ⟨_, hK⟩ (some c)) C ⟨_, hK⟩ = c := fun v N => ov_of_some _ _ _ _ (by simp)
      simp only [hs1, hs2]
      let G : Arr 64 → Arr 64 → ℚ := fun v' w => avg fun C => avg fun f => ind (win2 pk
        (ov (Function.update M2 ⟨_, hK⟩ (some (v', w))) C)
        (program (table O D (ov L f)) (challengeOf pk t (fakeSignature pk (v', w)).R.1) w)
          ((t, fakeSignature pk (v', w)) :: log) (k (fakeSignature pk (v', w))))
      have hG : (avg fun c : Arr 64 × Arr 64 => avg fun C => avg fun f => ind (win2 pk
          (ov (Function.update M2 ⟨_, hK⟩ (some c)) C)
          (program (table O D (ov L f)) (challengeOf pk t (fakeSignature pk c).R.1) c.2)
          ((t, fakeSignature pk c) :: log) (k (fakeSignature pk c)))) = avg fun v' => avg fun w => G v' w :=
        avg_prod _
      rw [hG]
      obtain ⟨ls, hls1, hls2⟩ := hL
      -- one value of the nonce
      have hv : ∀ v : Arr 64, (avg fun N => avg fun f => ind (win1 (table O D (ov L f)) x pk
            (ov (Function.update M1 ⟨_, hK⟩ (some v)) N) ((t, realSignature (table O D (ov L f)) x pk t v) :: log)
            (k (realSignature (table O D (ov L f)) x pk t v)))) ≤
          (ind (Beyond v) + ind (challengeOf pk t (compress (residue v • (basepoint : P))).1 ∈ ls)) +
          ((avg fun w => G (shift (residue w * x) v) w) + m' * ((n + 1 + q + m' : Nat) * guess + spare)) := by
        intro v
        have hGn : 0 ≤ avg fun w => G (shift (residue w * x) v) w :=
          avg_nonneg fun w => avg_nonneg fun C => avg_nonneg fun f => ind_nonneg _
        have hln : (0 : ℚ) ≤ m' * ((n + 1 + q + m' : Nat) * guess + spare) := by positivity
        have hle1 : (avg fun N => avg fun f => ind (win1 (table O D (ov L f)) x pk
            (ov (Function.update M1 ⟨_, hK⟩ (some v)) N) ((t, realSignature (table O D (ov L f)) x pk t v) :: log)
            (k (realSignature (table O D (ov L f)) x pk t v)))) ≤ 1 :=
          avg_le_const fun N => avg_le_const fun f => ind_le_one _
        by_cases hb : Beyond v
        · have : ind (Beyond v) = 1 := by simp [ind, hb]
          have := ind_nonneg (challengeOf pk t (compress (residue v • (basepoint : P))).1 ∈ ls)
          linarith
        by_cases hm : challengeOf pk t (compress (residue v • (basepoint : P))).1 ∈ ls
        · have : ind (challengeOf pk t (compress (residue v • (basepoint : P))).1 ∈ ls) = 1 := by simp [ind, hm]
          have := ind_nonneg (Beyond v)
          linarith
        have hz1 : ind (Beyond v) = 0 := by simp [ind, hb]
        have hz2 : ind (challengeOf pk t (compress (residue v • (basepoint : P))).1 ∈ ls) = 0 := by simp [ind, hm]
        rw [hz1, hz2, zero_add, zero_add]
        clear hz1 hz2 hle1 hGn hln
        let d : D := ⟨_, hD (compress (residue v • (basepoint : P)))⟩
        have hd : L d = none := by
          by_contra h
          exact hm (hls2 d h)
        rw [avg_comm (fun N f => ind (win1 (table O D (ov L f)) x pk _ _ _)),
          avg_ov L d hd (fun F => avg fun N => ind (win1 (table O D F) x pk
            (ov (Function.update M1 ⟨_, hK⟩ (some v)) N) ((t, realSignature (table O D F) x pk t v) :: log)
            (k (realSignature (table O D F) x pk t v)))),
          ← avg_const (Ω := Arr 64) (m' * ((n + 1 + q + m' : Nat) * guess + spare)), ← avg_add]
        apply avg_mono
        intro w
        have hres : residue (shift (residue w * x) v) = residue w * x + residue v := by
          rw [residue_shift _ _ hb, add_comm]
        have hhash : ∀ f : D → Arr 64, hashWith (table O D (ov (Function.update L d (some w)) f))
            (challengeOf pk t (compress (residue v • (basepoint : P))).1) = residue w := by
          intro f
          rw [hashWith_table _ _ _ _ d.2, ov_of_some (k := d) (w := w)]
          simp
        have hsig : ∀ f : D → Arr 64, realSignature (table O D (ov (Function.update L d (some w)) f)) x pk t v =
            fakeSignature pk (shift (residue w * x) v, w) := by
          intro f
          exact (fake_eq_real _ pk x hpk t v _ w hres (hhash f)).symm
        simp only [hsig]
        have hprog : ∀ f : D → Arr 64, program (table O D (ov L f))
            (challengeOf pk t (fakeSignature pk (shift (residue w * x) v, w)).R.1) w =
            table O D (ov (Function.update L d (some w)) f) := by
          intro f
          rw [← hsig f]
          show program (table O D (ov L f)) (challengeOf pk t (compress (residue v • (basepoint : P))).1) w = _
          rw [program_table _ _ _ d.2, update_ov]
        simp only [G, hprog]
        rw [avg_comm (fun C f => ind (win2 pk _ _ _ _))]
        refine ih _ q m' (n + 1) _ _ _ _ (hk _) ?_ ?_
        · refine ⟨d.1 :: ls, by simpa using hls1, fun d' hd' => ?_⟩
          by_cases hdl : d' = d
          · subst hdl; simp
          · rw [Function.update_of_ne hdl] at hd'
            exact List.mem_cons_of_mem _ (hls2 d' hd')
        · intro key
          by_cases hkey : key = ⟨_, hK⟩
          · subst hkey
            refine Or.inr ⟨v, shift (residue w * x) v, w, by simp, by simp, hres, d.2, ?_⟩
            exact Function.update_self ..
          · rw [Function.update_of_ne hkey, Function.update_of_ne hkey]
            rcases hI key with h | ⟨v₁, v', w', h1, h2, h3, h4, h5⟩
            · exact Or.inl h
            · refine Or.inr ⟨v₁, v', w', h1, h2, h3, h4, ?_⟩
              rw [Function.update_of_ne]
              · exact h5
              · intro e
                rw [e, hd] at h5
                cases h5
      refine le_trans (avg_mono hv) ?_
      rw [avg_add, avg_add, avg_add, avg_const, avg_comm (fun v w => G (shift (residue w * x) v) w)]
      have hshift : (avg fun w => avg fun v => G (shift (residue w * x) v) w) = avg fun v' => avg fun w => G v' w := by
        rw [avg_comm (fun v' w => G v' w)]
        exact avg_congr fun w => avg_equiv (shift (residue w * x)) (fun v' => G v' w)
      rw [hshift, ← chance_eq_avg, ← chance_eq_avg]
      have hc1 := chance_beyond
      have hc2 := chance_mem_list pk t ls
      have hc3 : (ls.length : ℚ) * guess ≤ n * guess := by gcongr
      linarith
    · -- a repeated request
      have hs1 : ∀ N, ov M1 N ⟨_, hK⟩ = v := fun N => ov_of_some _ _ _ _ h1
      have hs2 : ∀ C, ov M2 C ⟨_, hK⟩ = (v', w) := fun N => ov_of_some _ _ _ _ h2
      simp only [hs1, hs2]
      have hhash : ∀ f : D → Arr 64, hashWith (table O D (ov L f))
          (challengeOf pk t (compress (residue v • (basepoint : P))).1) = residue w := by
        intro f
        rw [hashWith_table _ _ _ _ h4, ov_of_some _ _ _ _ h5]
      have hsig : ∀ f : D → Arr 64, realSignature (table O D (ov L f)) x pk t v = fakeSignature pk (v', w) :=
        fun f => (fake_eq_real _ pk x hpk t v _ w h3 (hhash f)).symm
      have hR : (fakeSignature pk (v', w)).R = compress (residue v • (basepoint : P)) := by
        unfold fakeSignature
        simp only
        rw [h3, hpk, add_smul, smul_smul, add_sub_cancel_left]
      have hprog : ∀ f : D → Arr 64, program (table O D (ov L f))
          (challengeOf pk t (fakeSignature pk (v', w)).R.1) w = table O D (ov L f) := by
        intro f
        rw [hR]
        have := program_table O (ov L f) _ h4 w
        refine this.trans ?_
        congr 1
        rw [Function.update_eq_self_iff]
        exact (ov_of_some _ _ _ _ h5).symm
      simp only [hsig, hprog]
      refine le_trans (ih _ q m' n L M1 M2 _ (hk _) hL hI) ?_
      gcongr
      · omega
      · omega

end Schnorrkel
