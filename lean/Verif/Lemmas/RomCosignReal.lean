import Verif.Lemmas.RomCosignSim
import Verif.Props.MuSigNonce

/-! # The attack on the real owner, step by step -/

namespace Schnorrkel
open Spec Schnorrkel.Props
variable {P : Type} [Ristretto P] {D : Finset (List MOp)} {α : Type} [Goal P α] {fin : α → Prop}

/-! ## What depends on which hash queries -/

/-- Queries that end like those for witnesses. -/
def IsPrf (q : List MOp) : Prop := q.getLast? = some (.prf 64)

theorem not_isPrf_weight (ks : List Bytes) (k : Bytes) : ¬ IsPrf (weightQuery ks k) := by
  unfold IsPrf; rw [weightQuery_last]; decide
theorem not_isPrf_coeff (t : Transcript) (agg : P) (V : View P) (k : PublicKey P) (i : Nat) : ¬ IsPrf (coeffOf t agg V k i) := by
  unfold IsPrf coeffOf; rw [coeffQuery_last]; decide
theorem not_isPrf_challengeOf (pk : PublicKey P) (t : Transcript) (R : Bytes) : ¬ IsPrf (challengeOf pk t R) := by
  unfold IsPrf challengeOf; rw [signature_last]; decide
theorem not_isPrf_commitmentQuery (r : Reveal) : ¬ IsPrf (commitmentQuery r) := by
  unfold IsPrf; rw [commitmentQuery_last]; decide
theorem isPrf_musigNonceQuery (log : List MOp) (seed : Bytes) (i : Nat) (rng : Bytes) : IsPrf (musigNonceQuery log seed i rng) := by
  unfold IsPrf musigNonceQuery
  rw [List.getLast?_append_of_ne_nil _ (by simp)]
  rfl

/-- The same answers to everything but commitments and witnesses. -/
def SameBut (O₁ O₂ : Oracles) : Prop := ∀ l, ¬ IsCommit l → ¬ IsPrf l → O₁.merlin l 64 = O₂.merlin l 64

theorem SameBut.agg {O₁ O₂ : Oracles} (h : SameBut O₁ O₂) (ks : List (PublicKey P)) : aggO O₁ ks = aggO O₂ ks := by
  refine aggO_congr _ fun q hq => ?_
  obtain ⟨k, -, rfl⟩ := List.mem_map.mp hq
  exact hashWith_congr (h _ (not_isCommit_weight _ _) (not_isPrf_weight _ _))

theorem SameBut.coeff {O₁ O₂ : Oracles} (h : SameBut O₁ O₂) (t : Transcript) (V : View P) (k : PublicKey P) :
    coeffO O₁ t V k.compressed = coeffO O₂ t V k.compressed :=
  coeffO_congr t V k (h.agg _) fun i _ => hashWith_congr (h _ (not_isCommit_coeff _ _ _ _ _) (not_isPrf_coeff _ _ _ _ _))

theorem SameBut.share {O₁ O₂ : Oracles} (h : SameBut O₁ O₂) (x : Z) (me : PublicKey P) (t : Transcript) (v : Fin 3 → Arr 64) (V : View P) :
    shareIn O₁ x me t v V = shareIn O₂ x me t v V := by
  have hq : chalQ O₁ t V = chalQ O₂ t V := chalQ_congr t V (h.agg _) fun e _ => h.coeff t V e.1
  unfold shareIn
  rw [h.coeff t V me, hq]
  have h1 : hashWith O₁ (chalQ O₂ t V) = hashWith O₂ (chalQ O₂ t V) :=
    hashWith_congr (h _ (not_isCommit_challengeOf _ _ _) (not_isPrf_challengeOf _ _ _))
  have h2 : hashWith O₁ (ownWeight me V) = hashWith O₂ (ownWeight me V) :=
    hashWith_congr (h _ (not_isCommit_weight _ _) (not_isPrf_weight _ _))
  rw [h1, h2]

theorem SameBut.cosign {O₁ O₂ : Oracles} (h : SameBut O₁ O₂) (x : Z) (me : PublicKey P) (t : Transcript) (v : Fin 3 → Arr 64)
    (coms : BMap P Commitment) (rs : List (P × Reveal))
    (hc : ∀ e ∈ rs, O₁.merlin (commitmentQuery e.2) 16 = O₂.merlin (commitmentQuery e.2) 16) :
    cosignAnswer O₁ x me t v coms rs = cosignAnswer O₂ x me t v coms rs := by
  have h1 : openBy O₁ coms rs = openBy O₂ coms rs := by
    unfold openBy
    have : ∀ k c, firstOpen O₁ rs k c = firstOpen O₂ rs k c := by
      intro k c
      unfold firstOpen
      have key : ∀ l : List (P × Reveal), (∀ e ∈ l, O₁.merlin (commitmentQuery e.2) 16 = O₂.merlin (commitmentQuery e.2) 16) →
          (l.findSome? fun a => if compress a.1 = k ∧ (letI := O₁; commitmentTo a.2) = c then (points a.2 : Option (RevealedPoints P)) else none) =
          l.findSome? fun a => if compress a.1 = k ∧ (letI := O₂; commitmentTo a.2) = c then points a.2 else none := by
        intro l
        induction l with
        | nil => intro _; rfl
        | cons e l ih =>
          intro hl
          have he : (letI := O₁; commitmentTo e.2) = (letI := O₂; commitmentTo e.2) :=
            congrArg Commitment.mk (hl e (by simp))
          simp only [List.findSome?_cons]
          rw [ih fun e he => hl e (by simp [he])]
          rw [he]
      exact key rs hc
    simp only [this]
  unfold cosignAnswer
  rw [h1]
  cases openBy O₂ coms rs with
  | none => rfl
  | some es =>
    simp only
    unfold realShare
    rw [h.share]

theorem SameBut.win {K V K' V' : Type} {O₁ O₂ : Oracles} (h : SameBut O₁ O₂) (me : PublicKey P) {ss : List (Phase P K V)}
    {ss' : List (Phase P K' V')} (hr : revealedIn ss = revealedIn ss') (c : α) :
    WinJoint O₁ me ss c ↔ WinJoint O₂ me ss' c := by
  have hq : ∀ l ∈ Goal.queries O₁ me c, O₁.merlin l 64 = O₂.merlin l 64 := fun l hl =>
    h l (Goal.ends O₁ me c l hl).1 (Goal.ends O₁ me c l hl).2
  unfold WinJoint
  rw [hr, Goal.wins_congr O₁ O₂ me c hq]
  simp only [h.agg, Goal.about_congr O₁ O₂ me c _ _ hq]

/-! ## The attack with given nonces -/

/-- The commitment to nonces. -/
def commitO (P : Type) [Ristretto P] (O : Oracles) (v : Fin 3 → Arr 64) : Commitment := letI := O; commitmentTo (nonceReveal P v)

/-- Sessions; nonces are drawn when they start. -/
abbrev KeptPhase (P : Type) := Phase P (Fin 3 → Arr 64) (Fin 3 → Arr 64)

open Classical in
/-- The attack succeeds, when `nv t k` are the nonces of session number `k`, for the transcript `t`. -/
def WinS (O : Oracles) (nv : Transcript → Nat → Fin 3 → Arr 64) (me : PublicKey P) (x : Z) :
    List (KeptPhase P) → Client (CosignRequest P) CosignAnswer α → Prop
  | ss, .ret c => WinJoint O me ss c
  | ss, .ask q k => WinS O nv me x ss (k (O.merlin q 64))
  | ss, .request (.start t) k =>
    WinS O nv me x (ss ++ [.committing t (nv t ss.length)]) (k (.commitment (commitO P O (nv t ss.length))))
  | ss, .request (.reveal i cs) k =>
    match ss[i]? with
    | some (.committing t v) =>
      WinS O nv me x (ss.set i (.revealing t v (registered me cs))) (k (.reveal (nonceReveal P v)))
    | _ => WinS O nv me x ss (k .refused)
  | ss, .request (.cosign i rs) k =>
    match ss[i]? with
    | some (.revealing t v coms) =>
      WinS O nv me x (ss.set i (.finished t coms)) (k (cosignAnswer O x me t v coms rs))
    | _ => WinS O nv me x ss (k .refused)

/-- Sessions; nonces are looked up. -/
abbrev IndexPhase (P : Type) (m : Nat) := Phase P (Fin m) (Fin 3 → Arr 64)

open Classical in
/-- The attack succeeds, when `N k` are the nonces of session number `k`. -/
def WinN {m : Nat} (O : Oracles) (N : Fin m → Fin 3 → Arr 64) (me : PublicKey P) (x : Z) :
    List (IndexPhase P m) → Client (CosignRequest P) CosignAnswer α → Prop
  | ss, .ret c => WinJoint O me ss c
  | ss, .ask q k => WinN O N me x ss (k (O.merlin q 64))
  | ss, .request (.start t) k =>
    if h : ss.length < m then
      WinN O N me x (ss ++ [.committing t ⟨ss.length, h⟩]) (k (.commitment (commitO P O (N ⟨ss.length, h⟩))))
    else True
  | ss, .request (.reveal i cs) k =>
    match ss[i]? with
    | some (.committing t j) =>
      WinN O N me x (ss.set i (.revealing t (N j) (registered me cs))) (k (.reveal (nonceReveal P (N j))))
    | _ => WinN O N me x ss (k .refused)
  | ss, .request (.cosign i rs) k =>
    match ss[i]? with
    | some (.revealing t v coms) =>
      WinN O N me x (ss.set i (.finished t coms)) (k (cosignAnswer O x me t v coms rs))
    | _ => WinN O N me x ss (k .refused)

/-! ## The secret nonce seed -/

section
variable {X : Type} [Finite X]

/-- Whoever does not know the seed cannot ask for the nonces. -/
theorem seed_step (O : Oracles) (T : Finset (List MOp)) (b g : Nat) (kq : Arr 32 → X → List MOp) (hi : ∀ s y s' y', kq s y = kq s' y' → s = s')
    (hp : ∀ s y, IsPrf (kq s y)) (nv : Transcript → Nat → Fin 3 → Arr 64) (me : PublicKey P) (x : Z) (f : D → Arr 64) (w : X → Arr 64)
    (A : Client (CosignRequest P) CosignAnswer α) : ∀ (q m r : Nat) (ss : List (KeptPhase P)), SessionBounded D T b fin q m r A →
      (avg fun s : Arr 32 => ind (WinS (wideTable O D (withKeyed (kq s) f w)) nv me x ss A)) ≤
        ind (WinS (wideTable O D f) nv me x ss A) + q / 2 ^ 256 := by
  have hsame : ∀ s, SameBut (wideTable O D (withKeyed (kq s) f w)) (wideTable O D f) := by
    intro s l _ hl
    exact wideTable_withKeyed O (kq s) f w l 64 fun y hy => hl (hy ▸ hp s y)
  have hcom : ∀ s (r : Reveal), (wideTable O D (withKeyed (kq s) f w)).merlin (commitmentQuery r) 16 =
      (wideTable O D f).merlin (commitmentQuery r) 16 := fun s r =>
    wideTable_withKeyed O (kq s) f w _ 16 fun y hy => not_isPrf_commitmentQuery r (hy ▸ hp s y)
  have hco : ∀ s v, commitO P (wideTable O D (withKeyed (kq s) f w)) v = commitO P (wideTable O D f) v :=
    fun s v => congrArg Commitment.mk (hcom s _)
  induction A with
  | ret c =>
    intro q m r ss _
    have : ∀ s, ind (WinS (wideTable O D (withKeyed (kq s) f w)) nv me x ss (.ret c)) = ind (WinS (wideTable O D f) nv me x ss (.ret c)) := by
      intro s
      simp only [WinS]
      rw [(hsame s).win me rfl c]
    simp only [this]
    rw [avg_const]
    have : (0 : ℚ) ≤ q / 2 ^ 256 := by positivity
    linarith
  | ask l k ih =>
    intro q m r ss hb
    obtain ⟨hl, q', rfl, hk⟩ := hb
    have h1 : chance (fun s : Arr 32 => ∃ l' ∈ [l], ∃ y, kq s y = l') ≤ 1 / 2 ^ 256 := by
      have := chance_keys kq hi [l]
      rw [card_arr32] at this
      refine le_trans this (le_of_eq ?_)
      rw [List.length_singleton, Nat.cast_one, Nat.cast_pow, Nat.cast_ofNat]
    have h2 := ih ((wideTable O D f).merlin l 64) q' m r ss (hk _)
    rw [chance_eq_avg] at h1
    have h3 : (avg fun s : Arr 32 => ind (WinS (wideTable O D (withKeyed (kq s) f w)) nv me x ss (.ask l k))) ≤
        avg fun s : Arr 32 => ind (WinS (wideTable O D (withKeyed (kq s) f w)) nv me x ss (k ((wideTable O D f).merlin l 64))) +
          ind (∃ l' ∈ [l], ∃ y, kq s y = l') := by
      refine avg_mono fun s => ?_
      refine (ind_diff _ _ _ fun hn => ?_).1
      have e := wideTable_withKeyed O (kq s) f w l 64 fun y hy => hn ⟨l, by simp, y, hy⟩
      simp only [WinS]
      rw [e]
    rw [avg_add] at h3
    simp only [WinS]
    push_cast
    rw [add_div]
    simp only [WinS] at h3
    linarith
  | request rq k ih =>
    intro q m r ss hb
    cases rq with
    | start t =>
      obtain ⟨-, m', rfl, hk⟩ := hb
      simp only [WinS, hco]
      exact ih _ q m' r _ (hk _)
    | reveal i cs =>
      obtain ⟨-, r', rfl, hk⟩ := hb
      simp only [WinS]
      split
      · exact ih _ q m r' _ (hk _)
      · exact ih _ q m r' _ (hk _)
    | cosign i rs =>
      obtain ⟨-, r', rfl, hk⟩ := hb
      simp only [WinS]
      split
      · simp only [(hsame _).cosign x me _ _ _ rs fun e _ => hcom _ e.2]
        exact ih _ q m r' _ (hk _)
      · exact ih _ q m r' _ (hk _)

end

end Schnorrkel
