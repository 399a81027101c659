import Verif.Lemmas.RomWide
import Verif.Spec.RomPrf

/-! # Answers to queries that contain a secret are as good as fresh random strings -/

namespace Schnorrkel
open Spec Schnorrkel.Props Classical
variable {D : Finset (List MOp)} {κ X Req Ans α : Type} [Finite κ] [Finite X]

/-- The table `f`, with the answers to the queries `kq x` replaced by `g`. -/
noncomputable def withKeyed (kq : X → List MOp) (f : D → Arr 64) (g : X → Arr 64) : D → Arr 64 :=
  fun d => if h : ∃ x, kq x = d.1 then g h.choose else f d

theorem withKeyed_hit (kq : X → List MOp) (hi : Function.Injective kq) (f : D → Arr 64) (g : X → Arr 64) (x : X)
    (h : kq x ∈ D) : withKeyed kq f g ⟨_, h⟩ = g x := by
  have hex : ∃ x', kq x' = kq x := ⟨x, rfl⟩
  unfold withKeyed
  rw [dif_pos hex]
  exact congrArg g (hi hex.choose_spec)

theorem withKeyed_miss (kq : X → List MOp) (f : D → Arr 64) (g : X → Arr 64) (d : D)
    (h : ∀ x, kq x ≠ d.1) : withKeyed kq f g d = f d := by
  unfold withKeyed
  rw [dif_neg (fun ⟨r, hr⟩ => h r hr)]

omit [Finite κ] in
theorem avg_withKeyed (kq : X → List MOp) (hi : Function.Injective kq) (hD : ∀ x, kq x ∈ D) (G : (D → Arr 64) → ℚ) :
    avg G = avg fun f => avg fun g : X → Arr 64 => G (withKeyed kq f g) := by
  let φ : (D → Arr 64) × (X → Arr 64) → (D → Arr 64) × (X → Arr 64) :=
    fun x => (withKeyed kq x.1 x.2, fun r => x.1 ⟨_, hD r⟩)
  have hφ : Function.Involutive φ := by
    rintro ⟨f, g⟩
    refine Prod.ext ?_ ?_
    · funext d
      simp only [φ]
      by_cases h : ∃ x, kq x = d.1
      · obtain ⟨r, hr⟩ := h
        have hd : d = ⟨_, hD r⟩ := Subtype.ext hr.symm
        rw [hd, withKeyed_hit _ hi]
      · have h' : ∀ x, kq x ≠ d.1 := fun r hr => h ⟨r, hr⟩
        rw [withKeyed_miss _ _ _ _ h', withKeyed_miss _ _ _ _ h']
    · funext r
      simp only [φ]
      exact withKeyed_hit kq hi f g r (hD r)
  have h1 : avg G = avg fun x : (D → Arr 64) × (X → Arr 64) => G x.1 := by
    rw [avg_prod]
    exact avg_congr fun f => (avg_const _).symm
  rw [h1, ← avg_equiv hφ.toPerm, avg_prod]
  rfl

theorem wideTable_withKeyed (O : Oracles) (kq : X → List MOp) (f : D → Arr 64) (g : X → Arr 64) (l : List MOp) (n : Nat)
    (h : ∀ x, kq x ≠ l) :
    (wideTable O D (withKeyed kq f g)).merlin l n = (wideTable O D f).merlin l n := by
  show (if h : l ∈ D ∧ n ≤ 64 then _ else _) = (if h : l ∈ D ∧ n ≤ 64 then _ else _ : Arr n)
  split_ifs with h1
  · apply Subtype.ext
    simp only
    rw [withKeyed_miss _ _ _ _ h]
  · rfl

theorem wideTable_keyed (O : Oracles) (kq : X → List MOp) (hi : Function.Injective kq) (f : D → Arr 64) (g : X → Arr 64)
    (x : X) (hD : kq x ∈ D) (n : Nat) (hn : n ≤ 64) :
    (wideTable O D (withKeyed kq f g)).merlin (kq x) n = firstBytes (g x) n hn := by
  apply Subtype.ext
  rw [wideTable_short O _ _ hD n hn, wideTable_hit O _ _ hD, withKeyed_hit kq hi]
  rfl

theorem wideTable_keyed64 (O : Oracles) (kq : X → List MOp) (hi : Function.Injective kq) (f : D → Arr 64) (g : X → Arr 64)
    (x : X) (hD : kq x ∈ D) :
    (wideTable O D (withKeyed kq f g)).merlin (kq x) 64 = g x := by
  rw [wideTable_hit O _ _ hD, withKeyed_hit kq hi]

/-- A client that names no keyed query cannot tell the keyed service from the fresh one. -/
theorem client_play_eq (O O' : Oracles) (real ideal : Req → Ans) (S : Set Req) (kq : X → List MOp)
    (hO : ∀ l, (∀ x, kq x ≠ l) → O.merlin l 64 = O'.merlin l 64) (hs : ∀ r ∈ S, real r = ideal r)
    (A : Client Req Ans α) (hA : A.Requests S) (h : ∀ l ∈ A.asked O' ideal, ∀ x, kq x ≠ l) :
    A.play O real = A.play O' ideal := by
  induction A with
  | ret a => rfl
  | ask q k ih =>
    simp only [Client.asked, List.mem_cons, forall_eq_or_imp] at h
    simp only [Client.play]
    rw [hO q h.1]
    exact ih _ (hA _) h.2
  | request r k ih =>
    simp only [Client.play]
    rw [hs r hA.1]
    exact ih _ (hA.2 _) h

theorem client_bounded_requests (S : Set Req) (A : Client Req Ans α) : ∀ q, A.Bounded S q → A.Requests S := by
  induction A with
  | ret a => intro q _; exact trivial
  | ask l k ih => rintro q ⟨q', rfl, h⟩ w; exact ih w q' (h w)
  | request r k ih => rintro q ⟨h1, h2⟩; exact ⟨h1, fun a => ih a q (h2 a)⟩

theorem client_asked_length (O : Oracles) (serve : Req → Ans) (S : Set Req) (A : Client Req Ans α) :
    ∀ q, A.Bounded S q → (A.asked O serve).length ≤ q := by
  induction A with
  | ret a => intro q _; simp [Client.asked]
  | ask l k ih =>
    rintro q ⟨q', rfl, h⟩
    simp only [Client.asked, List.length_cons]
    have := ih (O.merlin l 64) q' (h _)
    omega
  | request r k ih => rintro q ⟨-, h⟩; exact ih _ q (h _)

theorem ind_diff (p q b : Prop) (h : ¬ b → (p ↔ q)) : ind p ≤ ind q + ind b ∧ ind q ≤ ind p + ind b := by
  by_cases hb : b
  · have e : ind b = 1 := if_pos hb
    have := ind_le_one p
    have := ind_le_one q
    have := ind_nonneg p
    have := ind_nonneg q
    rw [e]
    constructor <;> linarith
  · have := ind_nonneg b
    have e : p = q := propext (h hb)
    rw [e]
    constructor <;> linarith

/-- The keyed service against the fresh one, for keys drawn at random; the client may depend on the key. -/
theorem keyed_diff [Nonempty κ] (O : Oracles) (kq : κ → X → List MOp) (hi : ∀ k, Function.Injective (kq k))
    (hD : ∀ k x, kq k x ∈ D) (real : κ → (D → Arr 64) → Req → Ans) (ideal : κ → (D → Arr 64) → (X → Arr 64) → Req → Ans)
    (S : Set Req) (hs : ∀ k f g, ∀ r ∈ S, real k (withKeyed (kq k) f g) r = ideal k f g r)
    (A : κ → Client Req Ans α) (hA : ∀ k, (A k).Requests S) (win : κ → α → Prop) :
    |chance (fun ω : κ × (D → Arr 64) => win ω.1 ((A ω.1).play (wideTable O D ω.2) (real ω.1 ω.2))) -
      chance (fun ω : κ × (D → Arr 64) × (X → Arr 64) =>
        win ω.1 ((A ω.1).play (wideTable O D ω.2.1) (ideal ω.1 ω.2.1 ω.2.2)))| ≤
    chance (fun ω : κ × (D → Arr 64) × (X → Arr 64) =>
      ∃ l ∈ (A ω.1).asked (wideTable O D ω.2.1) (ideal ω.1 ω.2.1 ω.2.2), ∃ x, kq ω.1 x = l) := by
  rw [chance_eq_avg, chance_eq_avg, chance_eq_avg, avg_prod, avg_prod, avg_prod]
  simp only [avg_prod]
  have h1 : (avg fun k => avg fun f : D → Arr 64 => ind (win k ((A k).play (wideTable O D f) (real k f)))) =
      avg fun k => avg fun f : D → Arr 64 => avg fun g : X → Arr 64 =>
        ind (win k ((A k).play (wideTable O D (withKeyed (kq k) f g)) (real k (withKeyed (kq k) f g)))) :=
    avg_congr fun k => avg_withKeyed (kq k) (hi k) (hD k) fun f => ind (win k ((A k).play (wideTable O D f) (real k f)))
  have h2 : ∀ k f, ∀ g : X → Arr 64, _ ∧ _ := fun k f g =>
    ind_diff (win k ((A k).play (wideTable O D (withKeyed (kq k) f g)) (real k (withKeyed (kq k) f g))))
      (win k ((A k).play (wideTable O D f) (ideal k f g)))
      (∃ l ∈ (A k).asked (wideTable O D f) (ideal k f g), ∃ x, kq k x = l) (fun hb => by
        rw [client_play_eq (wideTable O D (withKeyed (kq k) f g)) (wideTable O D f) _ (ideal k f g) S (kq k)
          (fun l hl => wideTable_withKeyed O (kq k) f g l 64 hl) (hs k f g) (A k) (hA k)
          (fun l hl x hx => hb ⟨l, hl, x, hx⟩)])
  rw [h1, abs_le]
  constructor
  · rw [neg_le_sub_iff_le_add, ← avg_add]
    simp only [← avg_add]
    exact avg_mono fun k => avg_mono fun f => avg_mono fun g => (h2 k f g).2
  · rw [sub_le_iff_le_add', ← avg_add]
    simp only [← avg_add]
    exact avg_mono fun k => avg_mono fun f => avg_mono fun g => (h2 k f g).1

/-- Few keys are named by a short list of queries. -/
theorem chance_keys [Nonempty κ] (kq : κ → X → List MOp) (hi : ∀ k x k' x', kq k x = kq k' x' → k = k') (ls : List (List MOp)) :
    chance (fun k : κ => ∃ l ∈ ls, ∃ x, kq k x = l) ≤ ls.length / Nat.card κ := by
  unfold chance
  refine div_le_div_of_nonneg_right (Nat.cast_le.mpr ?_) (by positivity)
  have hex : ∀ l : List MOp, ∃ k₀ : κ, ∀ k, (∃ x, kq k x = l) → k = k₀ := by
    intro l
    by_cases h : ∃ k, ∃ x, kq k x = l
    · obtain ⟨n₀, r₀, h₀⟩ := h
      exact ⟨n₀, fun n ⟨r, hr⟩ => hi _ _ _ _ (hr.trans h₀.symm)⟩
    · exact ⟨Classical.arbitrary κ, fun n hn => (h ⟨n, hn⟩).elim⟩
  choose c hc using hex
  have : Nat.card {k : κ // ∃ l ∈ ls, ∃ x, kq k x = l} ≤ Nat.card (Fin ls.length) := by
    have hsub : {k : κ | ∃ l ∈ ls, ∃ x, kq k x = l} ⊆ Set.range fun i : Fin ls.length => c ls[i] := by
      rintro n ⟨l, hl, hr⟩
      obtain ⟨i, hi, rfl⟩ := List.getElem_of_mem hl
      exact ⟨⟨i, hi⟩, (hc _ n hr).symm⟩
    refine le_trans (Nat.card_mono (Set.toFinite _) hsub) ?_
    exact Finite.card_range_le _
  simpa using this

/-- A component that does not matter. -/
theorem chance_snd {Ω Ω' : Type} [Finite Ω] [Finite Ω'] [Nonempty Ω] (p : Ω' → Prop) :
    chance (fun ω : Ω × Ω' => p ω.2) = chance p := by
  rw [chance_eq_avg, chance_eq_avg, avg_prod]
  exact avg_const (Ω := Ω) (avg fun ω => ind (p ω))

theorem chance_prod_le {Ω Ω' : Type} [Finite Ω] [Finite Ω'] [Nonempty Ω'] (p : Ω × Ω' → Prop) (c : ℚ)
    (h : ∀ b, chance (fun a => p (a, b)) ≤ c) : chance p ≤ c := by
  rw [chance_eq_avg, avg_prod, avg_comm]
  refine avg_le_const fun b => ?_
  have := h b
  rwa [chance_eq_avg] at this

/-- The same for a client that does not know the key: the difference is at most the chance of guessing it. -/
theorem keyed_diff_guess [Nonempty κ] (O : Oracles) (kq : κ → X → List MOp)
    (hi : ∀ k x k' x', kq k x = kq k' x' → k = k' ∧ x = x')
    (hD : ∀ k x, kq k x ∈ D) (real : κ → (D → Arr 64) → Req → Ans) (ideal : (D → Arr 64) → (X → Arr 64) → Req → Ans)
    (S : Set Req) (hs : ∀ k f g, ∀ r ∈ S, real k (withKeyed (kq k) f g) r = ideal f g r)
    (A : Client Req Ans α) (q : Nat) (hA : A.Bounded S q) (win : α → Prop) :
    |chance (fun ω : κ × (D → Arr 64) => win (A.play (wideTable O D ω.2) (real ω.1 ω.2))) -
      chance (fun ω : (D → Arr 64) × (X → Arr 64) => win (A.play (wideTable O D ω.1) (ideal ω.1 ω.2)))| ≤
    q / Nat.card κ := by
  have h := keyed_diff (κ := κ) O kq (fun k x x' h => (hi k x k x' h).2) hD real (fun _ => ideal) S hs (fun _ => A)
    (fun _ => client_bounded_requests S A q hA) (fun _ => win)
  rw [chance_snd (fun ω : (D → Arr 64) × (X → Arr 64) => win (A.play (wideTable O D ω.1) (ideal ω.1 ω.2)))] at h
  refine le_trans h ?_
  have hne : Nonempty ((D → Arr 64) × (X → Arr 64)) := ⟨fun _ => zeros 64, fun _ => zeros 64⟩
  refine chance_prod_le _ _ fun ω => ?_
  refine le_trans (chance_keys kq (fun k x k' x' h => (hi k x k' x' h).1) (A.asked (wideTable O D ω.1) (ideal ω.1 ω.2))) ?_
  exact div_le_div_of_nonneg_right (Nat.cast_le.mpr (client_asked_length _ _ S A q hA)) (Nat.cast_nonneg _)

/-- Union bound. -/
theorem chance_exists_le {Ω ι : Type} [Finite Ω] [Fintype ι] (p : ι → Ω → Prop) (c : ℚ) (h : ∀ i, chance (p i) ≤ c) :
    chance (fun ω => ∃ i, p i ω) ≤ Fintype.card ι * c := by
  have key : ∀ s : Finset ι, chance (fun ω => ∃ i ∈ s, p i ω) ≤ s.card * c := by
    intro s
    induction s using Finset.induction_on with
    | empty =>
      rw [chance_eq_avg]
      have : (fun ω : Ω => ind (∃ i ∈ (∅ : Finset ι), p i ω)) = fun _ => 0 := by
        funext ω; exact if_neg (by simp)
      rw [this]
      letI := Fintype.ofFinite Ω
      rw [avg_eq]
      simp
    | insert a s ha ih =>
      rw [Finset.card_insert_of_notMem ha]
      have h1 : chance (fun ω => ∃ i ∈ insert a s, p i ω) ≤ chance (p a) + chance (fun ω => ∃ i ∈ s, p i ω) := by
        rw [chance_eq_avg, chance_eq_avg, chance_eq_avg, ← avg_add]
        refine avg_mono fun ω => ?_
        by_cases hp : p a ω
        · have e : ind (p a ω) = 1 := if_pos hp
          rw [e]
          have := ind_le_one (∃ i ∈ insert a s, p i ω)
          have := ind_nonneg (∃ i ∈ s, p i ω)
          linarith
        · refine le_trans (ind_mono ?_) (le_add_of_nonneg_left (ind_nonneg _))
          rintro ⟨i, hi, hpi⟩
          rcases Finset.mem_insert.mp hi with rfl | hi
          · exact absurd hpi hp
          · exact ⟨i, hi, hpi⟩
      have h2 := h a
      push_cast
      linarith
  have := key Finset.univ
  simpa using this

/-- One coordinate of a random function. -/
theorem chance_coord {X Y : Type} [Finite X] [Finite Y] [Nonempty Y] (x : X) (p : Y → Prop) :
    chance (fun g : X → Y => p (g x)) = chance p := by
  rw [chance_eq_avg, chance_eq_avg, avg_update x]
  simp only [Function.update_self]
  exact avg_congr fun w => avg_const _

/-- The same for one fixed secret. -/
theorem keyed_diff_fixed (O : Oracles) (kq : X → List MOp) (hi : Function.Injective kq)
    (hD : ∀ x, kq x ∈ D) (real : (D → Arr 64) → Req → Ans) (ideal : (D → Arr 64) → (X → Arr 64) → Req → Ans)
    (S : Set Req) (hs : ∀ f g, ∀ r ∈ S, real (withKeyed kq f g) r = ideal f g r)
    (A : Client Req Ans α) (hA : A.Requests S) (win : α → Prop) :
    |chance (fun f : D → Arr 64 => win (A.play (wideTable O D f) (real f))) -
      chance (fun ω : (D → Arr 64) × (X → Arr 64) => win (A.play (wideTable O D ω.1) (ideal ω.1 ω.2)))| ≤
    chance (fun ω : (D → Arr 64) × (X → Arr 64) =>
      ∃ l ∈ A.asked (wideTable O D ω.1) (ideal ω.1 ω.2), ∃ x, kq x = l) := by
  have h := keyed_diff (κ := Unit) O (fun _ => kq) (fun _ => hi) (fun _ => hD) (fun _ => real) (fun _ => ideal) S
    (fun _ => hs) (fun _ => A) (fun _ => hA) (fun _ => win)
  rw [chance_snd (fun f : D → Arr 64 => win (A.play (wideTable O D f) (real f))),
    chance_snd (fun ω : (D → Arr 64) × (X → Arr 64) => win (A.play (wideTable O D ω.1) (ideal ω.1 ω.2))),
    chance_snd (fun ω : (D → Arr 64) × (X → Arr 64) => ∃ l ∈ A.asked (wideTable O D ω.1) (ideal ω.1 ω.2), ∃ x, kq x = l)] at h
  exact h

end Schnorrkel
