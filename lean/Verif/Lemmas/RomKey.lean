import Verif.Spec.RomKey
import Verif.Lemmas.RomSeed
import Verif.Lemmas.RomPrf

/-! # From a service with a secret key to a simulated one, for every sigma protocol -/

namespace Schnorrkel
open Spec Schnorrkel.Props Classical
variable {Req Ans κ α : Type} {D : Finset (List MOp)} {K : Finset κ}

/-- Nonces for the requests in `K`. -/
noncomputable def noncesOf (N : K → Arr 64) (k : κ) : Arr 64 := if h : k ∈ K then N ⟨_, h⟩ else zeros 64

/-- The answer of the owner, with nonce `v`. -/
def realAns (O : Oracles) (query : κ → Z → Z → List MOp) (answer : κ → Z → Z → Ans) (sec : κ → Z) (k : κ) (v : Z) : Ans :=
  answer k (hashWith O (query k v 0) * sec k + v) (hashWith O (query k v 0))

/-- The simulated service, which programs the hash function; also gives the final hash function. -/
noncomputable def progPlay (query : κ → Z → Z → List MOp) (answer : κ → Z → Z → Ans) (key : Req → κ)
    (coins : κ → Arr 64 × Arr 64) : Oracles → Client Req Ans α → Oracles × α
  | O, .ret a => (O, a)
  | O, .ask q k => progPlay query answer key coins O (k (O.merlin q 64))
  | O, .request r k =>
    let c := coins (key r)
    progPlay query answer key coins (program O (query (key r) (residue c.1) (residue c.2)) c.2)
      (k (answer (key r) (residue c.1) (residue c.2)))

theorem chance_query_mem (qf : Z → List MOp) (hi : Function.Injective qf) (l : List (List MOp)) :
    chance (fun v : Arr 64 => qf (residue v) ∈ l) ≤ l.length * guess := by
  have hone : ∀ d : List MOp, chance (fun v : Arr 64 => qf (residue v) = d) ≤ guess := by
    intro d
    have : ∃ z : Z, ∀ v ∈ {v : Arr 64 | qf (residue v) = d}, residue v = z := by
      by_cases h : ∃ v : Arr 64, qf (residue v) = d
      · obtain ⟨v₀, h₀⟩ := h
        exact ⟨residue v₀, fun v hv => hi (Eq.trans hv h₀.symm)⟩
      · exact ⟨0, fun v hv => (h ⟨v, hv⟩).elim⟩
    obtain ⟨z, hz⟩ := this
    have := card_bad_le _ z hz
    unfold chance guess
    rw [card_arr64]
    push_cast
    gcongr
    exact_mod_cast this
  induction l with
  | nil => simp [chance]
  | cons d l ih =>
    have h2 : chance (fun v : Arr 64 => qf (residue v) ∈ d :: l) ≤ guess + l.length * guess := by
      refine le_trans ?_ (add_le_add (hone d) ih)
      rw [chance_eq_avg, chance_eq_avg, chance_eq_avg, ← avg_add]
      apply avg_mono
      intro v
      have hor : ∀ p r : Prop, ind (p ∨ r) ≤ ind p + ind r := by
        intro p r
        unfold ind
        by_cases hp : p <;> by_cases hr : r <;> simp [hp, hr]
      simp only [List.mem_cons]
      exact hor _ _
    simp only [List.length_cons]
    push_cast
    linarith

/-- What relates the two games after some steps. -/
def SigInv (query : κ → Z → Z → List MOp) (sec : κ → Z) (L : D → Option (Arr 64)) (M1 : K → Option (Arr 64))
    (M2 : K → Option (Arr 64 × Arr 64)) : Prop :=
  ∀ k : K, (M1 k = none ∧ M2 k = none) ∨ ∃ v v' w, M1 k = some v ∧ M2 k = some (v', w) ∧
    residue v' = residue w * sec k.1 + residue v ∧ ∃ h, L ⟨query k.1 (residue v) 0, h⟩ = some w

attribute [local irreducible] guess spare in
/-- The simulated service is almost as good for the client as the real one. -/
theorem service_le_simulated (O : Oracles) (query : κ → Z → Z → List MOp) (answer : κ → Z → Z → Ans) (key : Req → κ)
    (sec : κ → Z) (hq : ∀ k v w, query k (w * sec k + v) w = query k v 0)
    (hi : ∀ k, Function.Injective fun v => query k v 0) (hD : ∀ k ∈ K, ∀ v, query k v 0 ∈ D)
    (fin : α → Prop) (win : Oracles → α → Prop) (A : Client Req Ans α) : ∀ (q m n : Nat) (L : D → Option (Arr 64))
    (M1 : K → Option (Arr 64)) (M2 : K → Option (Arr 64 × Arr 64)), A.Limited D key K fin q m →
    (∃ l : List (List MOp), l.length ≤ n ∧ ∀ d, L d ≠ none → d.1 ∈ l) → SigInv query sec L M1 M2 →
    (avg fun f => avg fun N => ind (win (table O D (ov L f)) (A.play (table O D (ov L f))
      fun r => realAns (table O D (ov L f)) query answer sec (key r) (residue (noncesOf (ov M1 N) (key r)))))) ≤
      (avg fun f => avg fun C => ind (let r := progPlay query answer key (coinsOf (ov M2 C)) (table O D (ov L f)) A;
        win r.1 r.2)) + m * ((n + q + m : Nat) * guess + spare) := by
  have he := spare_nonneg
  have hg := guess_nonneg
  induction A with
  | ret a =>
    intro q m n L M1 M2 _ _ _
    simp only [Client.play, progPlay]
    have h0 : (0 : ℚ) ≤ m * ((n + q + m : Nat) * guess + spare) := by positivity
    have : (avg fun f => avg fun _ : K → Arr 64 => ind (win (table O D (ov L f)) a)) =
        (avg fun f => avg fun _ : K → Arr 64 × Arr 64 => ind (win (table O D (ov L f)) a)) := by
      simp only [avg_const]
    linarith [this.le]
  | ask l k ih =>
    intro q m n L M1 M2 hB hL hI
    obtain ⟨hl, q', rfl, hk⟩ := hB
    simp only [Client.play, progPlay, table_hit _ _ _ _ hl]
    cases hLl : L ⟨l, hl⟩ with
    | some w =>
      simp only [fun f => ov_of_some L f _ _ hLl]
      refine le_trans (ih w q' m n L M1 M2 (hk w) hL hI) ?_
      gcongr
      omega
    | none =>
      rw [avg_ov L _ hLl (fun F => avg fun N => ind (win (table O D F) (Client.play (table O D F)
          (fun r => realAns (table O D F) query answer sec (key r) (residue (noncesOf (ov M1 N) (key r)))) (k (F ⟨l, hl⟩))))),
        avg_ov L _ hLl (fun F => avg fun C => ind (win (progPlay query answer key (coinsOf (ov M2 C)) (table O D F)
          (k (F ⟨l, hl⟩))).1 (progPlay query answer key (coinsOf (ov M2 C)) (table O D F) (k (F ⟨l, hl⟩))).2))]
      rw [← avg_const (Ω := Arr 64) (m * ((n + (q' + 1) + m : Nat) * guess + spare)), ← avg_add]
      apply avg_mono
      intro w
      have hs : Function.update L ⟨l, hl⟩ (some w) ⟨l, hl⟩ = some w := by simp
      simp only [fun f => ov_of_some _ f _ _ hs]
      refine le_trans (ih w q' m (n + 1) _ M1 M2 (hk w) ?_ ?_) ?_
      · obtain ⟨ls, h1, h2⟩ := hL
        refine ⟨l :: ls, by simpa using h1, fun d hd => ?_⟩
        by_cases hdl : d = ⟨l, hl⟩
        · subst hdl; simp
        · rw [Function.update_of_ne hdl] at hd
          exact List.mem_cons_of_mem _ (h2 d hd)
      · intro key
        rcases hI key with h | ⟨v, v', w', h1, h2, h3, h4, h5⟩
        · exact Or.inl h
        · refine Or.inr ⟨v, v', w', h1, h2, h3, h4, ?_⟩
          rw [Function.update_of_ne]
          · exact h5
          · intro e
            rw [e, hLl] at h5
            cases h5
      · rw [show n + 1 + q' + m = n + (q' + 1) + m by omega]
  | request r k ih =>
    intro q m n L M1 M2 hB hL hI
    obtain ⟨hK, m', rfl, hk⟩ := hB
    have hDr := hD _ hK
    have hnonce : ∀ N : K → Arr 64, noncesOf N (key r) = N ⟨_, hK⟩ := fun N => by simp [noncesOf, hK]
    have hcoins : ∀ C : K → Arr 64 × Arr 64, coinsOf C (key r) = C ⟨_, hK⟩ := fun C => by simp [coinsOf, hK]
    simp only [Client.play, progPlay, hnonce, hcoins]
    -- the loss of the remaining steps
    have hloss : (m' * ((n + 1 + q + m' : Nat) * guess + spare) : ℚ) + (n * guess + spare) ≤
        (m' + 1 : Nat) * ((n + q + (m' + 1) : Nat) * guess + spare) := by
      push_cast
      have h1 : (0 : ℚ) ≤ (q + m' + 1) * guess := by positivity
      nlinarith
    let play1 : Oracles → (K → Arr 64) → Ans → ℚ := fun O' N a => ind (win O' (Client.play O'
      (fun r => realAns O' query answer sec (key r) (residue (noncesOf N (key r)))) (k a)))
    let play2 : (K → Arr 64 × Arr 64) → Oracles → Ans → ℚ := fun C O' a => ind (win
      (progPlay query answer key (coinsOf C) O' (k a)).1 (progPlay query answer key (coinsOf C) O' (k a)).2)
    change (avg fun f => avg fun N => play1 (table O D (ov L f)) (ov M1 N)
      (realAns (table O D (ov L f)) query answer sec (key r) (residue (ov M1 N ⟨_, hK⟩)))) ≤
      (avg fun f => avg fun C => play2 (ov M2 C) (program (table O D (ov L f))
        (query (key r) (residue (ov M2 C ⟨_, hK⟩).1) (residue (ov M2 C ⟨_, hK⟩).2)) (ov M2 C ⟨_, hK⟩).2)
        (answer (key r) (residue (ov M2 C ⟨_, hK⟩).1) (residue (ov M2 C ⟨_, hK⟩).2))) + _
    have hp1 : ∀ O' N a, 0 ≤ play1 O' N a ∧ play1 O' N a ≤ 1 := fun O' N a => ⟨ind_nonneg _, ind_le_one _⟩
    have hp2 : ∀ C O' a, 0 ≤ play2 C O' a := fun C O' a => ind_nonneg _
    rcases hI ⟨_, hK⟩ with ⟨h1, h2⟩ | ⟨v, v', w, h1, h2, h3, h4, h5⟩
    · -- a new request
      rw [avg_comm (fun f N => play1 (table O D (ov L f)) (ov M1 N) _),
        avg_ov M1 _ h1 (fun N => avg fun f => play1 (table O D (ov L f)) N
          (realAns (table O D (ov L f)) query answer sec (key r) (residue (N ⟨_, hK⟩)))),
        avg_comm (fun f C => play2 (ov M2 C) _ _),
        avg_ov M2 _ h2 (fun C => avg fun f => play2 C (program (table O D (ov L f))
          (query (key r) (residue (C ⟨_, hK⟩).1) (residue (C ⟨_, hK⟩).2)) (C ⟨_, hK⟩).2)
          (answer (key r) (residue (C ⟨_, hK⟩).1) (residue (C ⟨_, hK⟩).2)))]
      have hs1 : ∀ v N, ov (Function.update M1 ⟨_, hK⟩ (some v)) N ⟨_, hK⟩ = v := fun v N => ov_of_some _ _ _ _ (by simp)
      have hs2 : ∀ c C, ov (Function.update M2 ⟨_, hK⟩ (some c)) C ⟨_, hK⟩ = c := fun v N => ov_of_some _ _ _ _ (by simp)
      simp only [hs1, hs2]
      let G : Arr 64 → Arr 64 → ℚ := fun v' w => avg fun C => avg fun f => play2
        (ov (Function.update M2 ⟨_, hK⟩ (some (v', w))) C)
        (program (table O D (ov L f)) (query (key r) (residue v') (residue w)) w)
          (answer (key r) (residue v') (residue w))
      have hG : (avg fun c : Arr 64 × Arr 64 => avg fun C => avg fun f => play2
          (ov (Function.update M2 ⟨_, hK⟩ (some c)) C)
          (program (table O D (ov L f)) (query (key r) (residue c.1) (residue c.2)) c.2)
          (answer (key r) (residue c.1) (residue c.2))) = avg fun v' => avg fun w => G v' w :=
        avg_prod _
      rw [hG]
      obtain ⟨ls, hls1, hls2⟩ := hL
      -- one value of the nonce
      have hv : ∀ v : Arr 64, (avg fun N => avg fun f => play1 (table O D (ov L f))
            (ov (Function.update M1 ⟨_, hK⟩ (some v)) N)
            (realAns (table O D (ov L f)) query answer sec (key r) (residue v))) ≤
          (ind (Beyond v) + ind (query (key r) (residue v) 0 ∈ ls)) +
          ((avg fun w => G (shift (residue w * sec (key r)) v) w) + m' * ((n + 1 + q + m' : Nat) * guess + spare)) := by
        intro v
        have hGn : 0 ≤ avg fun w => G (shift (residue w * sec (key r)) v) w :=
          avg_nonneg fun w => avg_nonneg fun C => avg_nonneg fun f => hp2 _ _ _
        have hln : (0 : ℚ) ≤ m' * ((n + 1 + q + m' : Nat) * guess + spare) := by positivity
        have hle1 : (avg fun N => avg fun f => play1 (table O D (ov L f))
            (ov (Function.update M1 ⟨_, hK⟩ (some v)) N)
            (realAns (table O D (ov L f)) query answer sec (key r) (residue v))) ≤ 1 :=
          avg_le_const fun N => avg_le_const fun f => (hp1 _ _ _).2
        by_cases hb : Beyond v
        · have : ind (Beyond v) = 1 := by simp [ind, hb]
          have := ind_nonneg (query (key r) (residue v) 0 ∈ ls)
          linarith
        by_cases hm : query (key r) (residue v) 0 ∈ ls
        · have : ind (query (key r) (residue v) 0 ∈ ls) = 1 := by simp [ind, hm]
          have := ind_nonneg (Beyond v)
          linarith
        have hz1 : ind (Beyond v) = 0 := by simp [ind, hb]
        have hz2 : ind (query (key r) (residue v) 0 ∈ ls) = 0 := by simp [ind, hm]
        rw [hz1, hz2, zero_add, zero_add]
        clear hz1 hz2 hle1 hGn hln
        let d : D := ⟨_, hDr (residue v)⟩
        have hd : L d = none := by
          by_contra h
          exact hm (hls2 d h)
        rw [avg_comm (fun N f => play1 (table O D (ov L f)) _ _),
          avg_ov L d hd (fun F => avg fun N => play1 (table O D F)
            (ov (Function.update M1 ⟨_, hK⟩ (some v)) N) (realAns (table O D F) query answer sec (key r) (residue v))),
          ← avg_const (Ω := Arr 64) (m' * ((n + 1 + q + m' : Nat) * guess + spare)), ← avg_add]
        apply avg_mono
        intro w
        have hres : residue (shift (residue w * sec (key r)) v) = residue w * sec (key r) + residue v := by
          rw [residue_shift _ _ hb, add_comm]
        have hhash : ∀ f : D → Arr 64, hashWith (table O D (ov (Function.update L d (some w)) f))
            (query (key r) (residue v) 0) = residue w := by
          intro f
          rw [hashWith_table _ _ _ _ d.2, ov_of_some (k := d) (w := w)]
          simp
        have hsig : ∀ f : D → Arr 64, realAns (table O D (ov (Function.update L d (some w)) f)) query answer sec (key r)
            (residue v) = answer (key r) (residue (shift (residue w * sec (key r)) v)) (residue w) := by
          intro f
          unfold realAns
          rw [hhash f, hres]
        simp only [hsig]
        have hprog : ∀ f : D → Arr 64, program (table O D (ov L f))
            (query (key r) (residue (shift (residue w * sec (key r)) v)) (residue w)) w =
            table O D (ov (Function.update L d (some w)) f) := by
          intro f
          rw [hres, hq, program_table _ _ _ d.2, update_ov]
        simp only [G, hprog]
        rw [avg_comm (fun C f => play2 _ _ _)]
        refine ih _ q m' (n + 1) _ _ _ (hk _) ?_ ?_
        · refine ⟨d.1 :: ls, by simpa using hls1, fun d' hd' => ?_⟩
          by_cases hdl : d' = d
          · subst hdl; simp
          · rw [Function.update_of_ne hdl] at hd'
            exact List.mem_cons_of_mem _ (hls2 d' hd')
        · intro k'
          by_cases hkey : k' = ⟨_, hK⟩
          · subst hkey
            refine Or.inr ⟨v, shift (residue w * sec (key r)) v, w, by simp, by simp, hres, d.2, ?_⟩
            exact Function.update_self ..
          · rw [Function.update_of_ne hkey, Function.update_of_ne hkey]
            rcases hI k' with h | ⟨v₁, v', w', h1, h2, h3, h4, h5⟩
            · exact Or.inl h
            · refine Or.inr ⟨v₁, v', w', h1, h2, h3, h4, ?_⟩
              rw [Function.update_of_ne]
              · exact h5
              · intro e
                rw [e, hd] at h5
                cases h5
      refine le_trans (avg_mono hv) ?_
      rw [avg_add, avg_add, avg_add, avg_const, avg_comm (fun v w => G (shift (residue w * sec (key r)) v) w)]
      have hshift : (avg fun w => avg fun v => G (shift (residue w * sec (key r)) v) w) = avg fun v' => avg fun w => G v' w := by
        rw [avg_comm (fun v' w => G v' w)]
        exact avg_congr fun w => avg_equiv (shift (residue w * sec (key r))) (fun v' => G v' w)
      rw [hshift, ← chance_eq_avg, ← chance_eq_avg]
      have hc1 := chance_beyond
      have hc2 := chance_query_mem (fun v => query (key r) v 0) (hi (key r)) ls
      have hc3 : (ls.length : ℚ) * guess ≤ n * guess := by gcongr
      linarith
    · -- a repeated request
      have hs1 : ∀ N, ov M1 N ⟨_, hK⟩ = v := fun N => ov_of_some _ _ _ _ h1
      have hs2 : ∀ C, ov M2 C ⟨_, hK⟩ = (v', w) := fun N => ov_of_some _ _ _ _ h2
      simp only [hs1, hs2]
      have hhash : ∀ f : D → Arr 64, hashWith (table O D (ov L f)) (query (key r) (residue v) 0) = residue w := by
        intro f
        rw [hashWith_table _ _ _ _ h4, ov_of_some _ _ _ _ h5]
      have hsig : ∀ f : D → Arr 64, realAns (table O D (ov L f)) query answer sec (key r) (residue v) =
          answer (key r) (residue v') (residue w) := by
        intro f
        unfold realAns
        rw [hhash f, h3]
      have hprog : ∀ f : D → Arr 64, program (table O D (ov L f))
          (query (key r) (residue v') (residue w)) w = table O D (ov L f) := by
        intro f
        rw [h3, hq, program_table O (ov L f) _ h4 w, Function.update_eq_self_iff.mpr (ov_of_some _ _ _ _ h5).symm]
      simp only [hsig, hprog]
      refine le_trans (ih _ q m' n L M1 M2 (hk _) hL hI) ?_
      gcongr
      · omega
      · omega

/-! ## Nonces derived from a secret seed -/

theorem table_withKeyed {X : Type} [Finite X] (O : Oracles) (kq : X → List MOp) (f : D → Arr 64) (g : X → Arr 64) (l : List MOp)
    (h : ∀ x, kq x ≠ l) : (table O D (withKeyed kq f g)).merlin l 64 = (table O D f).merlin l 64 := by
  by_cases hl : l ∈ D
  · rw [table_hit _ _ _ _ hl, table_hit _ _ _ _ hl, withKeyed_miss _ _ _ _ h]
  · rw [table_miss _ _ _ _ _ (fun e => hl e.1), table_miss _ _ _ _ _ (fun e => hl e.1)]

theorem limited_requests (key : Req → κ) (fin : α → Prop) (A : Client Req Ans α) :
    ∀ q m, A.Limited D key K fin q m → A.Requests {r | key r ∈ K} := by
  induction A with
  | ret a => intro q m _; exact trivial
  | ask l k ih => rintro q m ⟨-, q', rfl, h⟩ w; exact ih w q' m (h w)
  | request r k ih => rintro q m ⟨h1, m', rfl, h2⟩; exact ⟨h1, fun a => ih a q m' (h2 a)⟩

theorem limited_asked (O : Oracles) (serve : Req → Ans) (key : Req → κ) (fin : α → Prop) (A : Client Req Ans α) :
    ∀ q m, A.Limited D key K fin q m → (A.asked O serve).length ≤ q := by
  induction A with
  | ret a => intro q m _; simp [Client.asked]
  | ask l k ih =>
    rintro q m ⟨-, q', rfl, h⟩
    simp only [Client.asked, List.length_cons]
    have := ih (O.merlin l 64) q' m (h _)
    omega
  | request r k ih => rintro q m ⟨-, m', rfl, h⟩; exact ih _ q m' (h _)

/-- Derived nonces against independent random nonces. -/
theorem seeded_le (O : Oracles) (query : κ → Z → Z → List MOp) (answer : κ → Z → Z → Ans) (key : Req → κ) (sec : κ → Z)
    (nq : Arr 32 → κ → List MOp) (hn : ∀ n k n' k', nq n k = nq n' k' → n = n' ∧ k = k')
    (hsep : ∀ n k k' v, nq n k ≠ query k' v 0) (hD : ∀ k ∈ K, ∀ n, nq n k ∈ D) (serve : Arr 32 → Oracles → Req → Ans)
    (hs : ∀ n (O : Oracles) r, serve n O r = realAns O query answer sec (key r) (hashWith O (nq n (key r))))
    (fin : α → Prop) (win : Oracles → α → Prop)
    (hw : ∀ O O' a, (∀ l, (∀ n k, nq n k ≠ l) → O.merlin l 64 = O'.merlin l 64) → win O a → win O' a)
    (A : Client Req Ans α) (q m : Nat) (hA : A.Limited D key K fin q m) :
    chance (fun ω : Arr 32 × (D → Arr 64) => win (table O D ω.2) (A.play (table O D ω.2) (serve ω.1 (table O D ω.2)))) ≤
      (avg fun f => avg fun N : K → Arr 64 => ind (win (table O D f) (A.play (table O D f)
        fun r => realAns (table O D f) query answer sec (key r) (residue (noncesOf N (key r)))))) + q / 2 ^ 256 := by
  let kq : Arr 32 → K → List MOp := fun n k => nq n k.1
  have hkq : ∀ n, Function.Injective (kq n) := fun n a b h => Subtype.ext (hn _ _ _ _ h).2
  have hkD : ∀ n k, kq n k ∈ D := fun n k => hD k.1 k.2 n
  let ideal : (D → Arr 64) → (K → Arr 64) → Req → Ans := fun f N r =>
    realAns (table O D f) query answer sec (key r) (residue (noncesOf N (key r)))
  have hserve : ∀ n f N, ∀ r ∈ {r | key r ∈ K}, serve n (table O D (withKeyed (kq n) f N)) r = ideal f N r := by
    intro n f N r hr
    have hr' : key r ∈ K := hr
    rw [hs]
    have h1 : hashWith (table O D (withKeyed (kq n) f N)) (nq n (key r)) = residue (noncesOf N (key r)) := by
      rw [hashWith_table O D _ _ (hD _ hr' n)]
      congr 1
      rw [show noncesOf N (key r) = N ⟨_, hr'⟩ by simp [noncesOf, hr']]
      exact withKeyed_hit (kq n) (hkq n) f N ⟨_, hr'⟩ (hkD n _)
    rw [h1]
    have h2 : ∀ v, hashWith (table O D (withKeyed (kq n) f N)) (query (key r) v 0) =
        hashWith (table O D f) (query (key r) v 0) := fun v =>
      hashWith_congr (table_withKeyed O (kq n) f N _ fun x => hsep n x.1 _ _)
    simp only [ideal, realAns, h2]
  rw [chance_eq_avg, avg_prod]
  have h1 : (avg fun n : Arr 32 => avg fun f : D → Arr 64 =>
        ind (win (table O D f) (A.play (table O D f) (serve n (table O D f))))) =
      avg fun n : Arr 32 => avg fun f : D → Arr 64 => avg fun N : K → Arr 64 =>
        ind (win (table O D (withKeyed (kq n) f N)) (A.play (table O D (withKeyed (kq n) f N))
          (serve n (table O D (withKeyed (kq n) f N))))) :=
    avg_congr fun n => avg_withKeyed (kq n) (hkq n) (hkD n) fun f =>
      ind (win (table O D f) (A.play (table O D f) (serve n (table O D f))))
  have h2 : ∀ n f, ∀ N : K → Arr 64, ind (win (table O D (withKeyed (kq n) f N)) (A.play (table O D (withKeyed (kq n) f N))
          (serve n (table O D (withKeyed (kq n) f N))))) ≤
      ind (win (table O D f) (A.play (table O D f) (ideal f N))) +
      ind (∃ l ∈ A.asked (table O D f) (ideal f N), ∃ x, kq n x = l) := by
    intro n f N
    by_cases h : ∃ l ∈ A.asked (table O D f) (ideal f N), ∃ x, kq n x = l
    · have e : ind (∃ l ∈ A.asked (table O D f) (ideal f N), ∃ x, kq n x = l) = 1 := if_pos h
      rw [e]
      refine le_trans (ind_le_one _) ?_
      have := ind_nonneg (win (table O D f) (A.play (table O D f) (ideal f N)))
      linarith
    · have := ind_nonneg (∃ l ∈ A.asked (table O D f) (ideal f N), ∃ x, kq n x = l)
      refine le_trans (ind_mono ?_) (le_add_of_nonneg_right this)
      have hplay := client_play_eq (table O D (withKeyed (kq n) f N)) (table O D f)
        (serve n (table O D (withKeyed (kq n) f N))) (ideal f N) {r | key r ∈ K} (kq n)
        (fun l hl => table_withKeyed O (kq n) f N l hl) (hserve n f N) A (limited_requests key fin A q m hA)
        (fun l hl x hx => h ⟨l, hl, x, hx⟩)
      rw [hplay]
      exact hw _ _ _ fun l hl => table_withKeyed O (kq n) f N l fun x => hl n x.1
  have h3 : (avg fun n : Arr 32 => avg fun f : D → Arr 64 => avg fun N : K → Arr 64 =>
      ind (∃ l ∈ A.asked (table O D f) (ideal f N), ∃ x, kq n x = l)) ≤ q / 2 ^ 256 := by
    rw [avg_comm]
    refine avg_le_const fun f => ?_
    rw [avg_comm]
    refine avg_le_const fun N => ?_
    rw [← chance_eq_avg]
    refine le_trans (chance_keys kq (fun k x k' x' h => (hn _ _ _ _ h).1) _) ?_
    rw [card_arr32, Nat.cast_pow, Nat.cast_ofNat]
    gcongr
    exact limited_asked _ _ key fin A q m hA
  rw [h1]
  refine le_trans (avg_mono fun n => avg_mono fun f => avg_mono fun N => h2 n f N) ?_
  simp only [avg_add]
  rw [avg_const]
  linarith

/-! ## The simulated service as an algorithm -/

/-- Hash functions after programming a list of answers, the latest first. -/
def progAll (O : Oracles) : List (List MOp × Arr 64) → Oracles
  | [] => O
  | (q, w) :: pg => program (progAll O pg) q w

theorem progAll_merlin (O : Oracles) (pg : List (List MOp × Arr 64)) (q : List MOp) :
    (progAll O pg).merlin q 64 = (pg.lookup q).getD (O.merlin q 64) := by
  induction pg with
  | nil => rfl
  | cons x pg ih =>
    obtain ⟨q', w⟩ := x
    show (program (progAll O pg) q' w).merlin q 64 = _
    rw [List.lookup_cons]
    by_cases h : q = q'
    · subst h
      refine (program_hit _ _ _).trans ?_
      simp
    · have hb : (q == q') = false := by simpa using h
      refine (program_miss _ _ _ _ _ h).trans ?_
      rw [hb]
      exact ih

/-- Programmed answers belong to requests that were answered. -/
def Programmed (query : κ → Z → Z → List MOp) (answer : κ → Z → Z → Ans) (key : Req → κ)
    (pg : List (List MOp × Arr 64)) (log : List (Req × Ans)) : Prop :=
  ∀ q w, pg.lookup q = some w → ∃ r z, (r, answer (key r) z (residue w)) ∈ log ∧ q = query (key r) z (residue w)

theorem progPlay_simulate (O : Oracles) (query : κ → Z → Z → List MOp) (answer : κ → Z → Z → Ans) (key : Req → κ)
    (coins : κ → Arr 64 × Arr 64) (A : Client Req Ans α) : ∀ pg log, Programmed query answer key pg log →
    let r := progPlay query answer key coins (progAll O pg) (A.logged log)
    r.2.1 = (A.simulate query answer key coins pg).run O ∧
      ∃ pg', r.1 = progAll O pg' ∧ Programmed query answer key pg' r.2.2 := by
  induction A with
  | ret a => intro pg log h; exact ⟨rfl, pg, rfl, h⟩
  | ask q k ih =>
    intro pg log h
    simp only [Client.logged, progPlay, Client.simulate, progAll_merlin]
    cases hl : pg.lookup q with
    | some w => exact ih w pg log h
    | none => exact ih _ pg log h
  | request r k ih =>
    intro pg log h
    refine ih (answer (key r) (residue (coins (key r)).1) (residue (coins (key r)).2))
      ((query (key r) (residue (coins (key r)).1) (residue (coins (key r)).2), (coins (key r)).2) :: pg)
      ((r, answer (key r) (residue (coins (key r)).1) (residue (coins (key r)).2)) :: log) ?_
    intro q w hq
    simp only [List.lookup_cons] at hq
    by_cases he : q = query (key r) (residue (coins (key r)).1) (residue (coins (key r)).2)
    · have hb : (q == query (key r) (residue (coins (key r)).1) (residue (coins (key r)).2)) = true := by simpa using he
      rw [hb] at hq
      cases hq
      exact ⟨r, _, List.mem_cons_self, he⟩
    · have hb : (q == query (key r) (residue (coins (key r)).1) (residue (coins (key r)).2)) = false := by simpa using he
      rw [hb] at hq
      obtain ⟨t', z, h1, h2⟩ := h q w hq
      exact ⟨t', z, List.mem_cons_of_mem _ h1, h2⟩

theorem simulate_limited (O : Oracles) (query : κ → Z → Z → List MOp) (answer : κ → Z → Z → Ans) (key : Req → κ)
    (coins : κ → Arr 64 × Arr 64) (fin : α → Prop) (A : Client Req Ans α) :
    ∀ (q m : Nat) (pg : List (List MOp × Arr 64)), A.Limited D key K fin q m →
    ((A.simulate query answer key coins pg).asked O).length ≤ q ∧
    (∀ l ∈ (A.simulate query answer key coins pg).asked O, l ∈ D) ∧ fin ((A.simulate query answer key coins pg).run O) := by
  induction A with
  | ret a => intro q m pg h; exact ⟨by simp [Client.simulate, Algo.asked], by simp [Client.simulate, Algo.asked], h⟩
  | ask l k ih =>
    rintro q m pg ⟨hl, q', rfl, hk⟩
    simp only [Client.simulate]
    cases hlo : pg.lookup l with
    | some w =>
      obtain ⟨h1, h2, h3⟩ := ih w q' m pg (hk w)
      exact ⟨le_trans h1 (Nat.le_succ _), h2, h3⟩
    | none =>
      obtain ⟨h1, h2, h3⟩ := ih (O.merlin l 64) q' m pg (hk _)
      refine ⟨by simp only [Algo.asked, List.length_cons]; omega, ?_, h3⟩
      simp only [Algo.asked, List.mem_cons, forall_eq_or_imp]
      exact ⟨hl, h2⟩
  | request r k ih =>
    rintro q m pg ⟨hK, m', rfl, hk⟩
    exact ih _ q m' _ (hk _)

theorem logged_limited (key : Req → κ) (fin : α → Prop) (A : Client Req Ans α) : ∀ (q m : Nat) (log : List (Req × Ans)),
    A.Limited D key K fin q m → (A.logged log).Limited D key K (fun r => fin r.1) q m := by
  induction A with
  | ret a => intro q m log h; exact h
  | ask l k ih => rintro q m log ⟨hl, q', rfl, hk⟩; exact ⟨hl, q', rfl, fun w => ih w q' m log (hk w)⟩
  | request r k ih => rintro q m log ⟨hl, m', rfl, hk⟩; exact ⟨hl, m', rfl, fun w => ih w q m' _ (hk w)⟩

/-- The arithmetic of averaging forks over coins. -/
theorem fork_coins {Ω : Type} [Finite Ω] [Nonempty Ω] (p : Ω → ℚ) (ε loss n c : ℚ) (hn : 0 < n) (hc : 0 ≤ c) (hle : loss ≤ ε)
    (h1 : ε - loss ≤ avg p) (h2 : (avg fun ω => p ω ^ 2 / n - guess * p ω) ≤ c) :
    (ε - loss) * ((ε - loss) / n - guess) ≤ c := by
  have h3 : avg p ^ 2 / n - guess * avg p ≤ c := by
    refine le_trans ?_ h2
    have e : (avg fun C => p C ^ 2 / n - guess * p C) = (avg fun C => p C ^ 2) * (1 / n) + avg p * (-guess) := by
      rw [← avg_mul_const, ← avg_mul_const, ← avg_add]
      exact avg_congr fun C => by ring
    rw [e]
    have := sq_avg_le p
    have hn' : 0 ≤ 1 / n := by positivity
    have h3 := mul_le_mul_of_nonneg_right this hn'
    have h4 : avg p ^ 2 / n = avg p ^ 2 * (1 / n) := by ring
    linarith
  have hg := guess_nonneg
  set δ := ε - loss
  have hδ : 0 ≤ δ := by simp only [δ]; linarith
  by_cases h : δ / n ≤ guess
  · exact le_trans (mul_nonpos_of_nonneg_of_nonpos hδ (by linarith)) hc
  · have h3' : 0 ≤ δ / n - guess := by linarith
    have h4 : δ / n ≤ avg p / n := by gcongr
    calc δ * (δ / n - guess) ≤ avg p * (avg p / n - guess) := by
          apply mul_le_mul h1 (by linarith) h3' (by linarith)
      _ = avg p ^ 2 / n - guess * avg p := by ring
      _ ≤ c := h3

end Schnorrkel
