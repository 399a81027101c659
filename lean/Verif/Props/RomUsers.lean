import Verif.Spec.RomUsers
import Verif.Props.RomKey

/-! # C83: many users, some of whose keys leak -/

namespace Schnorrkel.Props
open Spec Schnorrkel
variable {P : Type} [Ristretto P] {ι : Type} [DecidableEq ι] {D : Finset (List MOp)} {K : Finset (KeyUse P)}

/-! ### Playing all users but one -/

theorem toPublic_point (sk : SecretKey) : (sk.toPublic : PublicKey P).point = sk.key.toZ • (basepoint : P) := by
  unfold SecretKey.toPublic
  rw [mulPoint_eq]
  rfl

theorem userKeys_eq (s : ι → Z × Arr 32) (i : ι) : (userKeys s i : PublicKey P) = publicOf (s i).1 := by
  unfold userKeys SecretKey.toPublic userSecret publicOf
  rw [mulPoint_eq, Scalar.toZ_ofZ]
  rfl

/-- Answering stepwise is answering. -/
theorem serveStepwise_logged (O : Oracles) (sk : SecretKey) (r : KeyRequest P)
    (k : KeyAnswer P → Client (KeyRequest P) (KeyAnswer P) (KeyForgery P)) (serve : KeyRequest P → KeyAnswer P)
    (log : List (KeyRequest P × KeyAnswer P)) :
    ((serveStepwise sk.toKeypair r k).logged log).play O serve =
      ((k (serveKey O sk.toKeypair r)).logged log).play O serve := by
  have e := serveKey_eq O sk.key (sk.toPublic : PublicKey P) (toPublic_point sk) sk.nonce r
  change serveKey O (sk.toKeypair : Keypair P) r = _ at e
  rw [e]
  cases r <;> rfl

theorem serveStepwise_limited (sk : SecretKey) (r : KeyRequest P) (hr : r.use ∈ K)
    (k : KeyAnswer P → Client (KeyRequest P) (KeyAnswer P) (KeyForgery P))
    (hC : CoversKey (sk.toPublic : PublicKey P) (fun I => sk.key.toZ • I) D K) (fin : KeyForgery P → Prop) (q m : Nat)
    (h : ∀ a, (k a).Limited D KeyRequest.use K fin q m) :
    (serveStepwise sk.toKeypair r k).Limited D KeyRequest.use K fin (q + 2) m :=
  ⟨(hC _ hr).2 _, q + 1, rfl, fun _ => ⟨(hC _ hr).1 _, q, rfl, fun _ => h _⟩⟩

theorem logged_subset {Req Ans α : Type} (O : Oracles) (serve : Req → Ans) (A : Client Req Ans α) :
    ∀ (log : List (Req × Ans)) x, x ∈ log → x ∈ ((A.logged log).play O serve).2 := by
  induction A with
  | ret a => intro log x h; exact h
  | ask q k ih => intro log x h; exact ih _ log x h
  | request r k ih => intro log x h; exact ih _ _ x (List.mem_cons_of_mem _ h)

/-- As long as the secret key of `j` does not leak, user `j` cannot tell an attacker on all users from one that plays the
other users. -/
theorem play_alone (O : Oracles) (j : ι) (sks : ι → SecretKey)
    (A : Client (UserRequest ι P) (UserAnswer P) (UserForgery ι P)) : ∀ log,
    let r := (A.logged log).play O (serveUsers O sks)
    (∀ a, (.leak j, a) ∉ r.2) →
    ((alone j (fun i => sks i.1) A).logged (servedBy j log)).play O (serveKey O (sks j).toKeypair) =
      (r.1.claim, servedBy j r.2) := by
  induction A with
  | ret c => intro log r _; rfl
  | ask q k ih => intro log r h; exact ih _ log h
  | request u k ih =>
    intro log r h
    cases u with
    | serve i u =>
      have h1 := ih (.served (serveKey O (sks i).toKeypair u)) ((.serve i u, .served (serveKey O (sks i).toKeypair u)) :: log) h
      simp only [alone]
      by_cases hi : i = j
      · subst hi
        rw [dif_pos rfl]
        have e : servedBy i ((.serve i u, .served (serveKey O (sks i).toKeypair u)) :: log) =
            (u, serveKey O (sks i).toKeypair u) :: servedBy i log := by
          simp [servedBy]
        rw [e] at h1
        exact h1
      · rw [dif_neg hi, serveStepwise_logged O _]
        have e : servedBy j ((.serve i u, .served (serveKey O (sks i).toKeypair u)) :: log) = servedBy j log := by
          simp [servedBy, hi]
        rw [e] at h1
        exact h1
    | leak i =>
      have h1 := ih (.secret (sks i)) ((.leak i, .secret (sks i)) :: log) h
      simp only [alone]
      by_cases hi : i = j
      · subst hi
        exact absurd (logged_subset O _ (k (.secret (sks i))) ((.leak i, .secret (sks i)) :: log) (.leak i, .secret (sks i))
          List.mem_cons_self) (h _)
      · rw [dif_neg hi]
        exact h1

theorem alone_limited (j : ι) (sks : {i // i ≠ j} → SecretKey)
    (hC : ∀ i, CoversKey ((sks i).toPublic : PublicKey P) (fun I => (sks i).key.toZ • I) D K)
    (A : Client (UserRequest ι P) (UserAnswer P) (UserForgery ι P)) (fin : KeyForgery P → Prop) : ∀ q m q₁ m₁,
    q + 2 * m ≤ q₁ → m ≤ m₁ →
    A.Limited D UserRequest.use (Finset.insertNone K) (fun c => fin c.claim) q m →
    (alone j sks A).Limited D KeyRequest.use K fin q₁ m₁ := by
  induction A with
  | ret c => intro q m q₁ m₁ _ _ h; exact h
  | ask l k ih =>
    rintro q m q₁ m₁ hq hm ⟨hl, q', rfl, h⟩
    exact ⟨hl, q₁ - 1, by omega, fun w => ih w q' m _ _ (by omega) hm (h w)⟩
  | request u k ih =>
    rintro q m q₁ m₁ hq hm ⟨hu, m', rfl, h⟩
    cases u with
    | serve i u =>
      have hu : u.use ∈ K := Finset.some_mem_insertNone.mp hu
      simp only [alone]
      by_cases hi : i = j
      · rw [dif_pos hi]
        exact ⟨hu, m₁ - 1, by omega, fun a => ih _ q m' _ _ (by omega) (by omega) (h _)⟩
      · rw [dif_neg hi]
        have e : q₁ = q₁ - 2 + 2 := by omega
        rw [e]
        exact serveStepwise_limited _ u hu _ (hC _) _ _ _ fun a => ih _ q m' _ _ (by omega) (by omega) (h _)
    | leak i =>
      simp only [alone]
      by_cases hi : i = j
      · rw [dif_pos hi]
        exact ih _ q m' _ _ (by omega) (by omega) (h _)
      · rw [dif_neg hi]
        exact ih _ q m' _ _ (by omega) (by omega) (h _)

/-! ### Averaging over the users -/

theorem avg_reseed {X Y : Type} [Finite ι] [Finite X] [Finite Y] [Nonempty Y] (j : ι) (G : (ι → X × Y) → ℚ) :
    (avg fun s => avg fun n : Y => G (Function.update s j ((s j).1, n))) = avg G := by
  rw [avg_update j, avg_update j G, avg_prod, avg_prod]
  refine avg_congr fun x => ?_
  simp only [Function.update_self, Function.update_idem]
  rw [avg_const, avg_comm]

theorem avg_pick {ι' : Type} [Finite ι'] [DecidableEq ι'] (i : ι') (p : Prop) :
    (avg fun j : ι' => ind (i = j ∧ p)) = ind p / Nat.card ι' := by
  classical
  letI := Fintype.ofFinite ι'
  rw [avg_eq, Nat.card_eq_fintype_card]
  refine congrArg (· / _) ?_
  rw [Finset.sum_eq_single i]
  · simp
  · intro b _ hb
    exact if_neg fun h => hb h.1.symm
  · intro h
    exact absurd (Finset.mem_univ i) h

theorem avg_le_chance_prod {Ω Ω' : Type} [Finite Ω] [Finite Ω'] {F : Ω → ℚ} {p : Ω × Ω' → Prop}
    (h : ∀ a, F a ≤ chance fun b => p (a, b)) : avg F ≤ chance p := by
  rw [chance_eq_avg, avg_prod]
  refine avg_mono fun a => ?_
  rw [← chance_eq_avg]
  exact h a

/-! ### The theorem -/

/-- The user the claim is about. -/
def chosenUser (O : Oracles) (A : (ι → PublicKey P) → Client (UserRequest ι P) (UserAnswer P) (UserForgery ι P))
    (s : ι → Z × Arr 32) : ι :=
  (((A (userKeys s)).logged []).play O (serveUsers O fun i => userSecret (s i))).1.user

/-- The attacker that plays the users other than `j` makes a valid claim about `j`. -/
def ForgesAlone (O : Oracles) (A : (ι → PublicKey P) → Client (UserRequest ι P) (UserAnswer P) (UserForgery ι P))
    (j : ι) (s : ι → Z × Arr 32) : Prop :=
  let r := ((alone j (fun i => userSecret (s i.1)) (A (userKeys s))).logged []).play O
    (serveKey O (userSecret (s j)).toKeypair)
  r.1.Valid O (userKeys s j) r.2

theorem forgesAlone_of_forges (O : Oracles) (A : (ι → PublicKey P) → Client (UserRequest ι P) (UserAnswer P) (UserForgery ι P))
    (j : ι) (s : ι → Z × Arr 32) (hj : chosenUser O A s = j) (h : ForgesUser O A s) : ForgesAlone O A j s := by
  subst hj
  obtain ⟨h1, h2⟩ := h
  have e := play_alone O (chosenUser O A s) (fun i => userSecret (s i)) (A (userKeys s)) [] h2
  change ((alone (chosenUser O A s) (fun i => userSecret (s i.1)) (A (userKeys s))).logged []).play O
    (serveKey O (userSecret (s (chosenUser O A s))).toKeypair) = _ at e
  unfold ForgesAlone
  rw [e]
  exact h1

theorem userKeys_update (s : ι → Z × Arr 32) (j : ι) (n : Arr 32) :
    (userKeys (Function.update s j ((s j).1, n)) : ι → PublicKey P) = userKeys s := by
  funext i
  rw [userKeys_eq, userKeys_eq]
  by_cases h : i = j
  · subst h; rw [Function.update_self]
  · rw [Function.update_of_ne h]

theorem extractUser_eq (O : Oracles) (j : ι) (dh : P → P) (s : ι → Z × Arr 32)
    (A : (ι → PublicKey P) → Client (UserRequest ι P) (UserAnswer P) (UserForgery ι P))
    (C : K → Arr 64 × Arr 64) (f g : D → Arr 64) :
    extractUser O j (userKeys s j) dh (fun i => s i.1) A C f g =
      extractKeyFrom O (userKeys s j) dh (alone j (fun i => userSecret (s i.1)) (A (userKeys s))) C f g := by
  have e : (fun i => if h : i = j then userKeys s j else ((userSecret (s i)).toPublic : PublicKey P)) = userKeys s := by
    funext i
    by_cases h : i = j
    · subst h; rw [dif_pos rfl]
    · rw [dif_neg h]; rfl
  unfold extractUser
  simp only [e]

/-- For fixed keys of all users and fixed seeds of the others. -/
theorem one_user_core (O : Oracles) (A : (ι → PublicKey P) → Client (UserRequest ι P) (UserAnswer P) (UserForgery ι P))
    (q m : Nat) (j : ι) (s : ι → Z × Arr 32)
    (hA : (A (userKeys s)).Limited D UserRequest.use (Finset.insertNone K) (fun c => ∀ i, c.claim.query (userKeys s i) ∈ D) q m)
    (hC : CoversUsers P D K) :
    ∃ p : (K → Arr 64 × Arr 64) → ℚ,
      (avg fun n : Arr 32 => chance fun f : D → Arr 64 => ForgesAlone (table O D f) A j (Function.update s j ((s j).1, n))) -
        (((q + 2 * m : Nat) : ℚ) / 2 ^ 256 + m * ((q + 2 * m + m : Nat) * guess + spare)) ≤ avg p ∧
      ∀ C, p C ^ 2 / (q + 2 * m + 1 : Nat) - guess * p C ≤ chance fun x : (D → Arr 64) × (D → Arr 64) =>
        (userKeys s j : PublicKey P).point =
          extractUser O j (userKeys s j) (fun I => (s j).1 • I) (fun i => s i.1) A C x.1 x.2 • (basepoint : P) := by
  have hcov : ∀ i, CoversKey ((userSecret (s i)).toPublic : PublicKey P) (fun I => (userSecret (s i)).key.toZ • I) D K := by
    intro i
    have h := hC (s i).1
    rw [← userKeys_eq s i] at h
    have e : (userSecret (s i)).key.toZ = (s i).1 := Scalar.toZ_ofZ _
    rw [e]
    exact h
  have hpt : (userKeys s j : PublicKey P).point = (Scalar.ofZ (s j).1).toZ • (basepoint : P) := toPublic_point (userSecret (s j))
  have hl := alone_limited (D := D) (K := K) j (fun i => userSecret (s i.1)) (fun i => hcov i.1) (A (userKeys s))
    (fun c => ∀ i, c.query (userKeys s i) ∈ D) q m (q + 2 * m) m le_rfl le_rfl hA
  have hl' := limited_mono KeyRequest.use _ (Finset.Subset.refl D) (Finset.Subset.refl K)
    (fun (c : KeyForgery P) h => h j) le_rfl le_rfl hl
  obtain ⟨p, h1, h2⟩ := one_key_core O (userKeys s j) (Scalar.ofZ (s j).1) hpt _ (q + 2 * m) m hl'
    (hcov j)
  refine ⟨p, le_trans (le_of_eq ?_) h1, fun C => le_trans (h2 C) (le_of_eq ?_)⟩
  · refine congrArg (· - _) ?_
    rw [chance_eq_avg, avg_prod]
    refine avg_congr fun n => ?_
    rw [chance_eq_avg]
    refine avg_congr fun f => congrArg ind ?_
    unfold ForgesAlone
    simp only [userKeys_update, Function.update_self]
    have e : (fun i : {i // i ≠ j} => userSecret (Function.update s j ((s j).1, n) i.1)) = fun i => userSecret (s i.1) := by
      funext i
      rw [Function.update_of_ne i.2]
    rw [e]
    rfl
  · simp only [extractUser_eq, Scalar.toZ_ofZ]

/-- **C83** any number of users, each with its own random secret scalar and nonce seed.  Take any attacker who knows all
public keys, makes at most `q` hash queries, and sends at most `m` requests to users of its choice: for signatures, VRF
proofs and certificates, on transcripts and with system RNGs of its choice, or for a user's whole secret key.  If with
probability `ε` it makes a new signature, VRF proof or certificate under the public key of some user whose secret key it did
not ask for, then the following finds the discrete logarithm of a given random public key with probability at least
`δ(δ/(q+2m+1) − guess)`, where `δ = ε/N − (q+2m)/2²⁵⁶ − m((q+3m)·guess + spare)` and `N` is the number of users: make it
the public key of a random user, draw the secrets of the others, and run `extractUser` — which gets the public key (with its
VRF outputs) and the secrets of the *other* users. -/
theorem many_users_unforgeable [Finite ι] [Nonempty ι] (O : Oracles)
    (A : (ι → PublicKey P) → Client (UserRequest ι P) (UserAnswer P) (UserForgery ι P)) (q m : Nat)
    (hA : ∀ s, (A (userKeys s)).Limited D UserRequest.use (Finset.insertNone K)
      (fun c => ∀ i, c.claim.query (userKeys s i) ∈ D) q m)
    (hC : CoversUsers P D K) :
    let ε := chance fun ω : (ι → Z × Arr 32) × (D → Arr 64) => ForgesUser (table O D ω.2) A ω.1
    let loss : ℚ := ((q + 2 * m : Nat) : ℚ) / 2 ^ 256 + m * ((q + 2 * m + m : Nat) * guess + spare)
    loss ≤ ε / Nat.card ι →
    (ε / Nat.card ι - loss) * ((ε / Nat.card ι - loss) / (q + 2 * m + 1 : Nat) - guess) ≤
      chance fun y : ((ι × (ι → Z × Arr 32)) × (K → Arr 64 × Arr 64)) × ((D → Arr 64) × (D → Arr 64)) =>
        let j := y.1.1.1
        let s := y.1.1.2
        (userKeys s j : PublicKey P).point =
          extractUser O j (userKeys s j) (fun I => (s j).1 • I) (fun i => s i.1) A y.1.2 y.2.1 y.2.2 • (basepoint : P) := by
  intro ε loss hle
  choose p h1 h2 using fun ω : ι × (ι → Z × Arr 32) => one_user_core (D := D) (K := K) O A q m ω.1 ω.2 (hA ω.2) hC
  have hN : (0 : ℚ) < Nat.card ι := Nat.cast_pos.mpr Nat.card_pos
  refine fork_coins (fun ω : (ι × (ι → Z × Arr 32)) × (K → Arr 64 × Arr 64) => p ω.1 ω.2) (ε / Nat.card ι) loss
    (q + 2 * m + 1 : Nat) _ (by positivity) (by unfold chance; positivity) hle ?_ ?_
  · rw [avg_prod]
    have h3 := avg_mono h1
    refine le_trans ?_ h3
    have e : (avg fun ω : ι × (ι → Z × Arr 32) =>
        (avg fun n : Arr 32 => chance fun f : D → Arr 64 => ForgesAlone (table O D f) A ω.1 (Function.update ω.2 ω.1 ((ω.2 ω.1).1, n))) -
        loss) = (avg fun ω : ι × (ι → Z × Arr 32) =>
        (avg fun n : Arr 32 => chance fun f : D → Arr 64 => ForgesAlone (table O D f) A ω.1 (Function.update ω.2 ω.1 ((ω.2 ω.1).1, n)))) - loss := by
      rw [sub_eq_add_neg, ← avg_const (Ω := ι × (ι → Z × Arr 32)) (-loss), ← avg_add]
      exact avg_congr fun ω => sub_eq_add_neg _ _
    refine le_trans ?_ (le_of_eq e.symm)
    refine sub_le_sub_right ?_ _
    rw [avg_prod]
    have e2 : ∀ j, (avg fun s : ι → Z × Arr 32 => avg fun n : Arr 32 =>
        chance fun f : D → Arr 64 => ForgesAlone (table O D f) A j (Function.update s j ((s j).1, n))) =
        avg fun s : ι → Z × Arr 32 => chance fun f : D → Arr 64 => ForgesAlone (table O D f) A j s :=
      fun j => avg_reseed j fun s => chance fun f : D → Arr 64 => ForgesAlone (table O D f) A j s
    refine le_trans ?_ (le_of_eq (avg_congr e2).symm)
    rw [avg_comm]
    have e3 : ε / Nat.card ι = avg fun s : ι → Z × Arr 32 => avg fun f : D → Arr 64 =>
        ind (ForgesUser (table O D f) A s) / Nat.card ι := by
      change (chance fun ω : (ι → Z × Arr 32) × (D → Arr 64) => ForgesUser (table O D ω.2) A ω.1) / _ = _
      rw [chance_eq_avg, avg_prod, div_eq_mul_inv, ← avg_mul_const]
      refine avg_congr fun s => ?_
      rw [← avg_mul_const]
      exact avg_congr fun f => (div_eq_mul_inv _ _).symm
    rw [e3]
    refine avg_mono fun s => ?_
    have e4 : (avg fun j => chance fun f : D → Arr 64 => ForgesAlone (table O D f) A j s) =
        avg fun f : D → Arr 64 => avg fun j => ind (ForgesAlone (table O D f) A j s) := by
      rw [avg_comm]
      exact avg_congr fun j => chance_eq_avg _
    rw [e4]
    refine avg_mono fun f => ?_
    rw [← avg_pick (chosenUser (table O D f) A s)]
    exact avg_mono fun j => ind_mono fun h => forgesAlone_of_forges _ A j s h.1 h.2
  · exact avg_le_chance_prod fun ω => h2 ω.1 ω.2

/-! ### The hypotheses hold for every attacker -/

theorem finiteUserAnswer : Finite (UserAnswer P) := by
  haveI := finiteAnswer (P := P)
  let f : UserAnswer P → KeyAnswer P ⊕ (Arr 32 × Arr 32)
    | .served a => .inl a
    | .secret sk => .inr (sk.key.bytes, sk.nonce)
  refine Finite.of_injective f ?_
  intro a b h
  cases a <;> cases b <;> simp only [f, Sum.inl.injEq, Sum.inr.injEq, Prod.mk.injEq, reduceCtorEq] at h
  · rw [h]
  · rename_i sk sk'
    obtain ⟨⟨k⟩, n⟩ := sk
    obtain ⟨⟨k'⟩, n'⟩ := sk'
    simp only at h
    rw [h.1, h.2]

theorem limited_forall {Req Ans κ α X : Type} [Nonempty X] (key : Req → κ) (A : Client Req Ans α) (D : Finset (List MOp))
    (K : Finset κ) (fin : X → α → Prop) : ∀ q m, (∀ x, A.Limited D key K (fin x) q m) →
    A.Limited D key K (fun a => ∀ x, fin x a) q m := by
  induction A with
  | ret a => intro q m h; exact h
  | ask l k ih =>
    intro q m h
    obtain ⟨h1, q', rfl, -⟩ := h (Classical.arbitrary X)
    refine ⟨h1, q', rfl, fun w => ih w q' m fun x => ?_⟩
    obtain ⟨-, q₁, e, h2⟩ := h x
    obtain rfl : q' = q₁ := by omega
    exact h2 w
  | request r k ih =>
    intro q m h
    obtain ⟨h1, m', rfl, -⟩ := h (Classical.arbitrary X)
    refine ⟨h1, m', rfl, fun w => ih w q m' fun x => ?_⟩
    obtain ⟨-, q₁, e, h2⟩ := h x
    obtain rfl : m' = q₁ := by omega
    exact h2 w

/-- **C83** every attacker satisfies the hypotheses of `many_users_unforgeable`, for suitable finite sets and bounds. -/
theorem every_users_attacker_is_limited [Finite ι] [Nonempty ι]
    (A : (ι → PublicKey P) → Client (UserRequest ι P) (UserAnswer P) (UserForgery ι P)) :
    ∃ D K q m, (∀ s, (A (userKeys s)).Limited D UserRequest.use (Finset.insertNone K)
      (fun c => ∀ i, c.claim.query (userKeys s i) ∈ D) q m) ∧ CoversUsers P D K := by
  classical
  haveI := finiteUserAnswer (P := P)
  choose D₀ K₀ q₀ m₀ h₀ using fun x : (ι → Z × Arr 32) × ι =>
    exists_limited UserRequest.use (fun c : UserForgery ι P => c.claim.query (userKeys x.1 x.2)) (A (userKeys x.1))
  haveI := Fintype.ofFinite ((ι → Z × Arr 32) × ι)
  haveI := Fintype.ofFinite (Arr 32)
  haveI := Fintype.ofFinite Z
  let D₁ := Finset.univ.biUnion D₀
  let K₁ := Finset.univ.biUnion K₀
  let K : Finset (KeyUse P) := K₁.eraseNone
  let D := D₁ ∪ Finset.univ.biUnion fun x : Z => K.biUnion fun k =>
    Finset.univ.image (fun v : Z => k.query (publicOf x) (fun I => x • I) v 0) ∪
    Finset.univ.image (fun n : Arr 32 => k.nonceQuery (publicOf x) n)
  have hD : ∀ x, D₀ x ⊆ D := fun x => (Finset.subset_biUnion_of_mem D₀ (Finset.mem_univ x)).trans Finset.subset_union_left
  have hK : ∀ x, K₀ x ⊆ Finset.insertNone K := by
    intro x
    refine (Finset.subset_biUnion_of_mem K₀ (Finset.mem_univ x)).trans ?_
    rw [Finset.insertNone_eraseNone]
    exact Finset.subset_insert _ _
  refine ⟨D, K, Finset.univ.sup q₀, Finset.univ.sup m₀, fun s => ?_, fun x k hk => ⟨fun v => ?_, fun n => ?_⟩⟩
  · refine limited_forall UserRequest.use _ D _ (fun i (c : UserForgery ι P) => c.claim.query (userKeys s i) ∈ D) _ _ fun i => ?_
    exact limited_mono _ _ (hD (s, i)) (hK (s, i)) (fun a ha => hD (s, i) ha)
      (Finset.le_sup (f := q₀) (Finset.mem_univ (s, i))) (Finset.le_sup (f := m₀) (Finset.mem_univ (s, i))) (h₀ (s, i))
  · refine Finset.mem_union_right _ (Finset.mem_biUnion.mpr ⟨x, Finset.mem_univ x, Finset.mem_biUnion.mpr ⟨k, hk,
      Finset.mem_union_left _ ?_⟩⟩)
    exact Finset.mem_image_of_mem (fun v : Z => k.query (publicOf x) (fun I => x • I) v 0) (Finset.mem_univ v)
  · refine Finset.mem_union_right _ (Finset.mem_biUnion.mpr ⟨x, Finset.mem_univ x, Finset.mem_biUnion.mpr ⟨k, hk,
      Finset.mem_union_right _ ?_⟩⟩)
    exact Finset.mem_image_of_mem (fun n : Arr 32 => k.nonceQuery (publicOf x) n) (Finset.mem_univ n)

/-- An attacker that can take discrete logarithms: gets the secret key of user `i`, has user `j` sign and issue a
certificate on `t`, then makes a certificate of user `j` on `t'`. -/
noncomputable def usersInsider (i j : ι) (t t' : Transcript) (sys : Rng) (pks : ι → PublicKey P) :
    Client (UserRequest ι P) (UserAnswer P) (UserForgery ι P) :=
  .request (.leak i) fun _ =>
  .request (.serve j (.sign t sys)) fun _ =>
  .request (.serve j (.issue t basepoint sys)) fun _ =>
  .ask (certQuery t'.log (pks j).compressed.1 (compress (basepoint : P)).1) fun w =>
  .ret ⟨j, .cert t' ⟨compress (basepoint : P)⟩
    ⟨Scalar.ofZ (residue w * (exists_smul_basepoint (pks j).point).choose + 1), zeros 32⟩⟩

/-- Non-vacuity: that attacker succeeds with probability one, so `ε` can be as large as possible. -/
example [Finite ι] (O : Oracles) (i j : ι) (hij : i ≠ j) (t t' : Transcript) (ht : t ≠ t') (sys : Rng) (D : Finset (List MOp)) :
    (chance fun ω : (ι → Z × Arr 32) × (D → Arr 64) =>
      ForgesUser (P := P) (table O D ω.2) (usersInsider i j t t' sys) ω.1) = 1 := by
  have h : ∀ ω : (ι → Z × Arr 32) × (D → Arr 64), ForgesUser (P := P) (table O D ω.2) (usersInsider i j t t' sys) ω.1 := by
    intro ω
    simp only [ForgesUser, usersInsider, Client.logged, Client.play, UserForgery.Valid]
    have hx := (exists_smul_basepoint (userKeys ω.1 j : PublicKey P).point).choose_spec
    generalize (exists_smul_basepoint (userKeys ω.1 j : PublicKey P).point).choose = x at hx ⊢
    refine ⟨⟨?_, ?_⟩, ?_⟩
    · rw [openWith_iff]
      refine ⟨basepoint, rfl, ?_⟩
      simp only [Scalar.toZ_ofZ]
      rw [add_smul, one_smul, mul_smul, hx]
      rfl
    · intro seed sys' cs hm
      simp [servedBy, serveUsers, serveKey] at hm
      exact absurd hm.1.1.symm ht
    · intro a hm
      simp at hm
      exact hij hm.1.symm
  rw [chance_eq_avg]
  simp only [ind, h, if_true]
  exact avg_const 1

end Schnorrkel.Props
