import Verif.Lemmas.RomSign

/-! # Nonces derived from a secret seed are as good as random ones -/

namespace Schnorrkel
open Spec Schnorrkel.Props Classical
variable {P : Type} [Ristretto P] {D : Finset (List MOp)} {K : Finset (List MOp × Arr 32)}

/-- The nonce query for a request, with secret seed `n`. -/
def nonceQuery (pk : PublicKey P) (n : Arr 32) (r : List MOp × Arr 32) : List MOp :=
  (Use.signNonce r.1 pk.compressed.1 n.1 r.2.1).query

theorem nonceQuery_inj {pk : PublicKey P} {n n' : Arr 32} {r r' : List MOp × Arr 32}
    (h : nonceQuery pk n r = nonceQuery pk n' r') : n = n' ∧ r = r' := by
  simp only [nonceQuery, Use.query] at h
  obtain ⟨h2, h3⟩ := List.append_inj' h rfl
  simp only [List.cons.injEq, MOp.append.injEq, MOp.rekey.injEq, MOp.rngKey.injEq, true_and, and_true] at h3
  exact ⟨Subtype.ext h3.1, Prod.ext h2 (Subtype.ext h3.2)⟩

theorem challenge_ne_nonce (pk : PublicKey P) (t : Transcript) (R : Bytes) (n : Arr 32) (r : List MOp × Arr 32) :
    challengeOf pk t R ≠ nonceQuery pk n r := by
  intro h
  have := congrArg List.getLast? h
  simp [challengeOf, nonceQuery, Use.query] at this

/-- The table `f`, with the answers to the nonce queries replaced by `N`. -/
noncomputable def withNonces (pk : PublicKey P) (n : Arr 32) (f : D → Arr 64) (N : K → Arr 64) : D → Arr 64 :=
  fun d => if h : ∃ r : K, nonceQuery pk n r.1 = d.1 then N h.choose else f d

theorem withNonces_hit (pk : PublicKey P) (n : Arr 32) (f : D → Arr 64) (N : K → Arr 64) (r : K)
    (h : nonceQuery pk n r.1 ∈ D) : withNonces pk n f N ⟨_, h⟩ = N r := by
  have hex : ∃ r' : K, nonceQuery pk n r'.1 = nonceQuery pk n r.1 := ⟨r, rfl⟩
  unfold withNonces
  rw [dif_pos hex]
  congr 1
  exact Subtype.ext (nonceQuery_inj hex.choose_spec).2

theorem withNonces_miss (pk : PublicKey P) (n : Arr 32) (f : D → Arr 64) (N : K → Arr 64) (d : D)
    (h : ∀ r : K, nonceQuery pk n r.1 ≠ d.1) : withNonces pk n f N d = f d := by
  unfold withNonces
  rw [dif_neg (fun ⟨r, hr⟩ => h r hr)]

theorem avg_withNonces (pk : PublicKey P) (hC : Covers pk D K) (n : Arr 32) (G : (D → Arr 64) → ℚ) :
    avg G = avg fun f => avg fun N : K → Arr 64 => G (withNonces pk n f N) := by
  have hq : ∀ r : K, nonceQuery pk n r.1 ∈ D := fun r => (hC r.1 r.2).2 n
  let φ : (D → Arr 64) × (K → Arr 64) → (D → Arr 64) × (K → Arr 64) :=
    fun x => (withNonces pk n x.1 x.2, fun r => x.1 ⟨_, hq r⟩)
  have hφ : Function.Involutive φ := by
    rintro ⟨f, N⟩
    refine Prod.ext ?_ ?_
    · funext d
      simp only [φ]
      by_cases h : ∃ r : K, nonceQuery pk n r.1 = d.1
      · obtain ⟨r, hr⟩ := h
        have hd : d = ⟨_, hq r⟩ := Subtype.ext hr.symm
        rw [hd, withNonces_hit]
      · have h' : ∀ r : K, nonceQuery pk n r.1 ≠ d.1 := fun r hr => h ⟨r, hr⟩
        rw [withNonces_miss _ _ _ _ _ h', withNonces_miss _ _ _ _ _ h']
    · funext r
      simp only [φ]
      exact withNonces_hit pk n f N r (hq r)
  have h1 : avg G = avg fun x : (D → Arr 64) × (K → Arr 64) => G x.1 := by
    rw [avg_prod]
    exact avg_congr fun f => (avg_const _).symm
  rw [h1, ← avg_equiv hφ.toPerm, avg_prod]
  rfl

theorem table_withNonces (O : Oracles) (pk : PublicKey P) (n : Arr 32) (f : D → Arr 64) (N : K → Arr 64) (l : List MOp)
    (h : ∀ r : K, nonceQuery pk n r.1 ≠ l) :
    (table O D (withNonces pk n f N)).merlin l 64 = (table O D f).merlin l 64 := by
  by_cases hl : l ∈ D
  · rw [table_hit _ _ _ _ hl, table_hit _ _ _ _ hl, withNonces_miss _ _ _ _ _ h]
  · rw [table_miss _ _ _ _ _ (fun e => hl e.1), table_miss _ _ _ _ _ (fun e => hl e.1)]

theorem hashWith_congr {O O' : Oracles} {l : List MOp} (h : O.merlin l 64 = O'.merlin l 64) :
    hashWith O l = hashWith O' l := by
  unfold hashWith hashToZ
  rw [show @Oracles.merlin O l 64 = _ from h]

theorem verifyWith_congr {O O' : Oracles} (pk : PublicKey P) (t : Transcript) (σ : Signature)
    (h : hashWith O (challengeOf pk t σ.R.1) = hashWith O' (challengeOf pk t σ.R.1)) :
    verifyWith O pk t σ = .ok () ↔ verifyWith O' pk t σ = .ok () := by
  rw [verifyWith_iff, verifyWith_iff]
  unfold challengeOf at h
  rw [h]

/-- The hash queries of the attacker against the signer with nonces `N`. -/
def asked1 (O : Oracles) (x : Z) (pk : PublicKey P) (N : K → Arr 64) :
    Attacker (Transcript × Bytes) → List (List MOp)
  | .ret _ => []
  | .ask q k => q :: asked1 O x pk N (k (O.merlin q 64))
  | .sign t sys k => asked1 O x pk N (k (realSignature O x pk t (nonceAt N t sys)))

theorem asked1_length (O : Oracles) (x : Z) (pk : PublicKey P) (N : K → Arr 64) (A : Attacker (Transcript × Bytes)) :
    ∀ q m, A.Bounded pk D K q m → (asked1 O x pk N A).length ≤ q := by
  induction A with
  | ret a => intro q m _; simp [asked1]
  | ask l k ih =>
    rintro q m ⟨-, q', rfl, h⟩
    simp only [asked1, List.length_cons]
    have := ih (O.merlin l 64) q' m (h _)
    omega
  | sign t sys k ih =>
    rintro q m ⟨-, m', rfl, h⟩
    exact ih _ q m' (h _)

/-- Unless the attacker asks for a nonce, the real signer is the signer with nonces `N`. -/
theorem play_eq_win1 (O : Oracles) (pk : PublicKey P) (sk : SecretKey) (hC : Covers pk D K) (f : D → Arr 64)
    (N : K → Arr 64) (A : Attacker (Transcript × Bytes)) : ∀ (q m : Nat) (log : List (Transcript × Signature)),
    A.Bounded pk D K q m →
    (∀ l ∈ asked1 (table O D f) sk.key.toZ pk N A, ∀ r : K, nonceQuery pk sk.nonce r.1 ≠ l) →
    let O' := table O D (withNonces pk sk.nonce f N)
    let r := A.play O' sk pk
    (∃ σ, Signature.fromBytes r.1.2 = .ok σ ∧ verifyWith O' pk r.1.1 σ = .ok () ∧ (r.1.1, σ) ∉ r.2 ++ log) →
    win1 (table O D f) sk.key.toZ pk N log A := by
  induction A with
  | ret a =>
    rintro q m log hB h O' r ⟨σ, h1, h2, h3⟩
    refine ⟨σ, h1, ?_, by simpa [r, Attacker.play] using h3⟩
    refine (verifyWith_congr pk _ _ (hashWith_congr ?_)).mp h2
    exact table_withNonces O pk _ f N _ fun r => (challenge_ne_nonce pk _ _ _ _).symm
  | ask l k ih =>
    rintro q m log ⟨hl, q', rfl, hk⟩ h O' r hw
    simp only [asked1, List.mem_cons, forall_eq_or_imp] at h
    have he : O'.merlin l 64 = (table O D f).merlin l 64 := table_withNonces O pk _ f N _ h.1
    simp only [win1]
    refine ih _ q' m log (hk _) h.2 ?_
    simp only [r, Attacker.play, he] at hw
    exact hw
  | sign t sys k ih =>
    rintro q m log ⟨hK, m', rfl, hk⟩ h O' r hw
    have hsig : signWith O' sk t pk sys = realSignature (table O D f) sk.key.toZ pk t (nonceAt N t sys) := by
      rw [sign_merlin_form]
      have h1 : hashWith O' (Use.signNonce t.log pk.compressed.1 sk.nonce.1 (sys.fill 32).1.1).query =
          residue (nonceAt N t sys) := by
        have hq := (hC _ hK).2 sk.nonce
        rw [hashWith_table O D _ _ hq]
        congr 1
        rw [show nonceAt N t sys = N ⟨_, hK⟩ by simp [nonceAt, hK]]
        exact withNonces_hit pk sk.nonce f N ⟨_, hK⟩ hq
      simp only [h1]
      unfold realSignature
      congr 4
      exact hashWith_congr (table_withNonces O pk _ f N _ fun r => (challenge_ne_nonce pk t _ _ _).symm)
    simp only [win1]
    refine ih _ q m' _ (hk _) h ?_
    simp only [r, Attacker.play, hsig] at hw
    obtain ⟨σ, h1, h2, h3⟩ := hw
    refine ⟨σ, h1, h2, fun hm => h3 ?_⟩
    rcases List.mem_append.mp hm with h | h
    · exact List.mem_append_left _ (List.mem_cons_of_mem _ h)
    · rcases List.mem_cons.mp h with h | h
      · rw [h]; exact List.mem_append_left _ List.mem_cons_self
      · exact List.mem_append_right _ h

private theorem pow32 : (256 : Nat) ^ 32 = 2 ^ 256 := by
  have h : (2 ^ 8) ^ 32 = 2 ^ (8 * 32) := (pow_mul 2 8 32).symm
  exact h

instance : Nonempty (Arr 32) := ⟨zeros 32⟩

theorem card_arr32 : Nat.card (Arr 32) = 2 ^ 256 := by
  have hp : (256 : Nat) ^ 32 = 2 ^ 256 := pow32
  let e : Arr 32 ≃ Fin (2 ^ 256) :=
    { toFun := fun b => ⟨leNat b.1, by
        have := leNat_lt b.1
        rwa [b.2, hp] at this⟩
      invFun := fun n => leArr 32 n.1
      left_inv := fun b => by
        apply Arr.leNat_inj
        simp only [leArr, leNat_leBytes]
        apply Nat.mod_eq_of_lt
        have := leNat_lt b.1
        rwa [b.2] at this
      right_inv := fun n => by
        apply Fin.ext
        simp only [leArr, leNat_leBytes]
        apply Nat.mod_eq_of_lt
        rw [hp]; exact n.2 }
  rw [Nat.card_congr e, Nat.card_eq_fintype_card, Fintype.card_fin]

theorem chance_seed (pk : PublicKey P) (ls : List (List MOp)) :
    chance (fun n : Arr 32 => ∃ l ∈ ls, ∃ r : K, nonceQuery pk n r.1 = l) ≤ ls.length / 2 ^ 256 := by
  unfold chance
  rw [card_arr32, Nat.cast_pow, Nat.cast_ofNat]
  refine div_le_div_of_nonneg_right (Nat.cast_le.mpr ?_) (by positivity)
  have hex : ∀ l : List MOp, ∃ n₀ : Arr 32, ∀ n : Arr 32, (∃ r : K, nonceQuery pk n r.1 = l) → n = n₀ := by
    intro l
    by_cases h : ∃ n : Arr 32, ∃ r : K, nonceQuery pk n r.1 = l
    · obtain ⟨n₀, r₀, h₀⟩ := h
      exact ⟨n₀, fun n ⟨r, hr⟩ => (nonceQuery_inj (hr.trans h₀.symm)).1⟩
    · exact ⟨zeros 32, fun n hn => (h ⟨n, hn⟩).elim⟩
  choose c hc using hex
  have : Nat.card {n : Arr 32 // ∃ l ∈ ls, ∃ r : K, nonceQuery pk n r.1 = l} ≤ Nat.card (Fin ls.length) := by
    have hsub : {n : Arr 32 | ∃ l ∈ ls, ∃ r : K, nonceQuery pk n r.1 = l} ⊆ Set.range fun i : Fin ls.length => c ls[i] := by
      rintro n ⟨l, hl, hr⟩
      obtain ⟨i, hi, rfl⟩ := List.getElem_of_mem hl
      exact ⟨⟨i, hi⟩, (hc _ n hr).symm⟩
    refine le_trans (Nat.card_mono (Set.toFinite _) hsub) ?_
    exact Finite.card_range_le _
  simpa using this

/-- Derived nonces against independent random nonces. -/
theorem seed_le (O : Oracles) (pk : PublicKey P) (key : Scalar) (hC : Covers pk D K)
    (A : Attacker (Transcript × Bytes)) (q m : Nat) (hA : A.Bounded pk D K q m) :
    chance (fun ω : Arr 32 × (D → Arr 64) => Forges (table O D ω.2) ⟨key, ω.1⟩ pk A) ≤
      (avg fun f => avg fun N : K → Arr 64 => ind (win1 (table O D f) key.toZ pk N [] A)) + q / 2 ^ 256 := by
  rw [chance_eq_avg, avg_prod]
  have h1 : (avg fun n : Arr 32 => avg fun f : D → Arr 64 => ind (Forges (table O D f) ⟨key, n⟩ pk A)) =
      avg fun n : Arr 32 => avg fun f : D → Arr 64 => avg fun N : K → Arr 64 =>
        ind (Forges (table O D (withNonces pk n f N)) ⟨key, n⟩ pk A) :=
    avg_congr fun n => avg_withNonces pk hC n fun f => ind (Forges (table O D f) ⟨key, n⟩ pk A)
  have h2 : ∀ n f, ∀ N : K → Arr 64, ind (Forges (table O D (withNonces pk n f N)) ⟨key, n⟩ pk A) ≤
      ind (win1 (table O D f) key.toZ pk N [] A) +
      ind (∃ l ∈ asked1 (table O D f) key.toZ pk N A, ∃ r : K, nonceQuery pk n r.1 = l) := by
    intro n f N
    by_cases h : ∃ l ∈ asked1 (table O D f) key.toZ pk N A, ∃ r : K, nonceQuery pk n r.1 = l
    · have e : ind (∃ l ∈ asked1 (table O D f) key.toZ pk N A, ∃ r : K, nonceQuery pk n r.1 = l) = 1 := if_pos h
      rw [e]
      have := ind_le_one (Forges (table O D (withNonces pk n f N)) ⟨key, n⟩ pk A)
      have := ind_nonneg (win1 (table O D f) key.toZ pk N [] A)
      linarith
    · have := ind_nonneg (∃ l ∈ asked1 (table O D f) key.toZ pk N A, ∃ r : K, nonceQuery pk n r.1 = l)
      refine le_trans (ind_mono ?_) (le_add_of_nonneg_right this)
      intro hF
      refine play_eq_win1 O pk ⟨key, n⟩ hC f N A q m [] hA (fun l hl r hr => h ⟨l, hl, r, hr⟩) ?_
      obtain ⟨σ, h1, h2, h3⟩ := hF
      exact ⟨σ, h1, h2, by simpa using h3⟩
  have h3 : (avg fun n : Arr 32 => avg fun f : D → Arr 64 => avg fun N : K → Arr 64 =>
      ind (∃ l ∈ asked1 (table O D f) key.toZ pk N A, ∃ r : K, nonceQuery pk n r.1 = l)) ≤ q / 2 ^ 256 := by
    rw [avg_comm]
    refine avg_le_const fun f => ?_
    rw [avg_comm]
    refine avg_le_const fun N => ?_
    rw [← chance_eq_avg]
    refine le_trans (chance_seed pk _) ?_
    gcongr
    exact asked1_length _ _ _ _ _ q m hA
  rw [h1]
  refine le_trans (avg_mono fun n => avg_mono fun f => avg_mono fun N => h2 n f N) ?_
  simp only [avg_add]
  rw [avg_const]
  linarith

end Schnorrkel
