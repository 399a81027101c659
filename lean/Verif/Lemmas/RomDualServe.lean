import Verif.Lemmas.RomDualOwn

/-! # Signatures, VRF proofs and certificates next to multi-signature sessions -/

namespace Schnorrkel
open Spec Schnorrkel.Props Classical
variable {P : Type} [Ristretto P] {D : Finset (List MOp)} {K : Finset (KeyUse P)} {m : Nat} {α : Type} {fin : α → Prop}

/-! ## The hash queries of signatures, proofs and certificates -/

/-- The queries for challenges under `me`. -/
noncomputable def keySet (D : Finset (List MOp)) (K : Finset (KeyUse P)) (me : PublicKey P) (dh : P → P) : Finset (List MOp) :=
  D.filter fun l => ∃ k ∈ K, ∃ v : Z, l = KeyUse.query me dh k v 0

theorem keySet_last {me : PublicKey P} {dh : P → P} {l : List MOp} (h : l ∈ keySet D K me dh) :
    l.getLast? = some (.challenge (b! "sign:c") 64) ∨ l.getLast? = some (.challenge (b! "prove") 64) ∨
      l.getLast? = some (.challenge (b! "adaptor-e") 64) := by
  obtain ⟨-, k, -, v, rfl⟩ := Finset.mem_filter.mp h
  cases k with
  | sign log rng => exact Or.inl (signature_last _ _ _)
  | prove log I ku rng => right; left; cases ku <;> simp [KeyUse.query, dleqQuery]
  | issue log S rng => right; right; simp [KeyUse.query, certQuery]

theorem weight_not_key (me : PublicKey P) (dh : P → P) (ks : List Bytes) (k : Bytes) : weightQuery ks k ∉ keySet D K me dh := by
  intro h
  have := keySet_last h
  rw [weightQuery_last] at this
  revert this; decide

theorem coeff_not_key (me : PublicKey P) (dh : P → P) (t : Transcript) (agg : P) (V : View P) (k : PublicKey P) (i : Nat) :
    coeffOf t agg V k i ∉ keySet D K me dh := by
  intro h
  have := keySet_last h
  unfold coeffOf at this
  rw [coeffQuery_last] at this
  revert this; decide

theorem commit_not_key (me : PublicKey P) (dh : P → P) (r : Reveal) : commitmentQuery r ∉ keySet D K me dh := by
  intro h
  have := keySet_last h
  rw [commitmentQuery_last] at this
  revert this; decide

theorem challenge_not_key (me : PublicKey P) (dh : P → P) (pk : PublicKey P) (h : pk.compressed ≠ me.compressed) (t : Transcript) (R : Bytes) :
    challengeOf pk t R ∉ keySet D K me dh := by
  intro hm
  obtain ⟨-, k, -, v, e⟩ := Finset.mem_filter.mp hm
  rw [← asUse_query] at e
  have e := hash_uses_separated (Use.signature t.log pk.compressed.1 R) _ trivial (asUse_wf ..) e
  rw [asUse_norm] at e
  cases k with
  | sign log rng =>
    simp only [KeyUse.asUse, Use.norm, Use.signature.injEq] at e
    exact h (Subtype.ext e.2.1)
  | prove log I ku rng => simp [KeyUse.asUse, Use.norm] at e
  | issue log S rng => simp [KeyUse.asUse, Use.norm] at e

/-- `O₁` and `O₂` differ only on the queries for challenges under `me`. -/
def SameOff (Dk : Finset (List MOp)) (O₁ O₂ : Oracles) : Prop := ∀ l n, l ∉ Dk → O₁.merlin l n = O₂.merlin l n

section
variable {me : PublicKey P} {dh : P → P} {O₁ O₂ : Oracles}

theorem agg_off (h : ∀ l, l ∉ keySet D K me dh → O₁.merlin l 64 = O₂.merlin l 64) (ks : List (PublicKey P)) : aggO O₁ ks = aggO O₂ ks := by
  refine aggO_congr _ fun q hq => ?_
  obtain ⟨k, -, rfl⟩ := List.mem_map.mp hq
  exact hashWith_congr (h _ (weight_not_key _ _ _ _))

theorem stepN_off (h : SameOff (keySet D K me dh) O₁ O₂) (hme : me.WF) (N : Fin m → Fin 3 → Arr 64) (x : Z) (ss : List (IndexPhase P m))
    (rq : CosignRequest P) (hs : ∀ s ∈ revealedIn ss, aggO O₂ (groupKeys me s.2) ≠ me.point) :
    stepN O₁ N me x ss rq = stepN O₂ N me x ss rq := by
  refine stepN_congr (fun r => h _ _ (commit_not_key _ _ _)) (fun t agg V k i => hashWith_congr (h _ _ (coeff_not_key _ _ _ _ _ _ _))) N me x ss rq ?_
  intro i rs t v coms _ hi
  refine ⟨fun q hq => ?_, fun t' R => hashWith_congr (h _ _ (challenge_not_key _ _ _ ?_ _ _))⟩
  · obtain ⟨k, -, rfl⟩ := List.mem_map.mp hq
    exact hashWith_congr (h _ _ (weight_not_key _ _ _ _))
  · intro e
    refine hs (t, coms) (mem_revealedIn.mpr (Or.inl ⟨v, List.mem_of_getElem? hi⟩)) ?_
    have hc : compress me.point = me.compressed := hme
    exact compress_inj.mp (e.trans hc.symm)

theorem noOwn_off [Goal P α] (h : ∀ l, l ∉ keySet D K me dh → O₁.merlin l 64 = O₂.merlin l 64) (e : List (IndexPhase P m) × α) :
    NoOwnGroup O₁ me e ↔ NoOwnGroup O₂ me e := by
  unfold NoOwnGroup
  simp only [agg_off h]

theorem winJoint_congr [Goal P α] (h : ∀ l, O₁.merlin l 64 = O₂.merlin l 64) {ss : List (IndexPhase P m)} {c : α} (hw : WinJoint O₁ me ss c) :
    WinJoint O₂ me ss c := by
  have ha : ∀ ks : List (PublicKey P), aggO O₁ ks = aggO O₂ ks := fun ks => aggO_congr _ fun q _ => hashWith_congr (h q)
  refine ⟨(Goal.wins_congr O₁ O₂ me c fun l _ => h l).mp hw.1, fun s hs hc => hw.2 s hs ?_⟩
  rw [ha]
  exact (Goal.about_congr O₁ O₂ me c _ _ fun l _ => h l).mpr hc

theorem winJoint_off (h : ∀ l, l ∉ keySet D K me dh → O₁.merlin l 64 = O₂.merlin l 64) (hme : me.WF) (e : List (IndexPhase P m) × JointClaim P)
    (hn : NoOwnGroup O₂ me e) (hw : WinJoint O₁ me e.1 e.2) : WinJoint O₂ me e.1 e.2 := by
  have hj : jointKey O₁ e.2.keys = jointKey O₂ e.2.keys := by rw [jointKey_aggO, jointKey_aggO, agg_off h]
  obtain ⟨⟨h1, h2, σ, h3, h4⟩, h5⟩ := hw
  refine ⟨⟨h1, h2, σ, h3, ?_⟩, ?_⟩
  · rw [← hj]
    refine (verifyWith_congr _ _ _ (hashWith_congr (h _ (challenge_not_key _ _ _ ?_ _ _)))).mp h4
    rw [hj, jointKey_aggO]
    intro e'
    refine hn.2 h1 h2 ?_
    have hc : compress me.point = me.compressed := hme
    exact compress_inj.mp (e'.trans hc.symm)
  · intro s hs hc
    refine h5 s hs ⟨hc.1, ?_⟩
    rw [hj, agg_off h]
    exact hc.2

end

/-! ## Four games -/

/-- The attack on the sessions, by someone who knows the secret key and the nonces for the other services. -/
noncomputable def serveReal (x : Z) (me : PublicKey P) (dh : P → P) (ν : KeyUse P → Arr 64) : DualClient P α → Client (CosignRequest P) CosignAnswer α
  | .ret c => .ret c
  | .ask q k => .ask q fun w => serveReal x me dh ν (k w)
  | .request (.inl r) k => .request r fun a => serveReal x me dh ν (k (.inl a))
  | .request (.inr r) k => .ask (KeyUse.query me dh r.use (residue (ν r.use)) 0) fun w =>
      serveReal x me dh ν (k (.inr (KeyUse.answer me dh r.use (residue w * KeyUse.secret x r.use + residue (ν r.use)) (residue w))))

/-- The owner's sessions inside a client of the other services. -/
noncomputable def sideN (O : Oracles) (Dk : Finset (List MOp)) (N : Fin m → Fin 3 → Arr 64) (me : PublicKey P) (x : Z) :
    List (IndexPhase P m) → DualClient P α → Client (KeyRequest P) (KeyAnswer P) (List (IndexPhase P m) × α)
  | ss, .ret c => .ret (ss, c)
  | ss, .ask q k => if q ∈ Dk then .ask q fun w => sideN O Dk N me x ss (k w) else sideN O Dk N me x ss (k (O.merlin q 64))
  | ss, .request (.inl r) k => sideN O Dk N me x (stepN O N me x ss r).2 (k (.inl (stepN O N me x ss r).1))
  | ss, .request (.inr r) k => .request r fun a => sideN O Dk N me x ss (k (.inr a))

/-- What the limits say about a request. -/
theorem dual_inl {T : Finset (List MOp)} {b q m' r p : Nat} {rq : CosignRequest P} {k : CosignAnswer ⊕ KeyAnswer P → DualClient P α}
    (h : MixedBounded D T K b fin q m' r p (.request (.inl rq) k)) : ∃ m'' r', m'' ≤ m' ∧ r' ≤ r ∧ ∀ a, MixedBounded D T K b fin q m'' r' p (k a) := by
  cases rq with
  | start t => obtain ⟨-, m'', rfl, hk⟩ := h; exact ⟨m'', r, by omega, by omega, hk⟩
  | reveal i cs => obtain ⟨-, r', rfl, hk⟩ := h; exact ⟨m', r', by omega, by omega, hk⟩
  | cosign i rs => obtain ⟨-, r', rfl, hk⟩ := h; exact ⟨m', r', by omega, by omega, hk⟩

theorem serveReal_bounded {T : Finset (List MOp)} {b : Nat} (x : Z) (me : PublicKey P) (dh : P → P) (ν : KeyUse P → Arr 64)
    (hD : ∀ k ∈ K, ∀ v : Z, KeyUse.query me dh k v 0 ∈ D) (A : DualClient P α) : ∀ (q m' r p : Nat), MixedBounded D T K b fin q m' r p A →
      SessionBounded D T b fin (q + p) m' r (serveReal x me dh ν A) := by
  induction A with
  | ret c => intro q m' r p h; exact h
  | ask l k ih =>
    rintro q m' r p ⟨hl, q', rfl, hk⟩
    exact ⟨hl, q' + p, by omega, fun w => ih w q' m' r p (hk w)⟩
  | request rq k ih =>
    intro q m' r p h
    cases rq with
    | inl rq =>
      cases rq with
      | start t => obtain ⟨h1, m'', rfl, h2⟩ := h; exact ⟨h1, m'', rfl, fun a => ih _ q m'' r p (h2 _)⟩
      | reveal i cs => obtain ⟨h1, r', rfl, h2⟩ := h; exact ⟨h1, r', rfl, fun a => ih _ q m' r' p (h2 _)⟩
      | cosign i rs => obtain ⟨h1, r', rfl, h2⟩ := h; exact ⟨h1, r', rfl, fun a => ih _ q m' r' p (h2 _)⟩
    | inr rq =>
      obtain ⟨h1, p', rfl, h2⟩ := h
      exact ⟨hD _ h1 _, q + p', by omega, fun w => ih _ q m' r p' (h2 _)⟩

theorem serveInside_bounded {T : Finset (List MOp)} {b : Nat} (me : PublicKey P) (dh : P → P) (coins : KeyUse P → Arr 64 × Arr 64)
    (A : DualClient P α) : ∀ (q m' r p : Nat) (pg : Known), MixedBounded D T K b fin q m' r p A →
      SessionBounded D T b fin q m' r (serveInside me dh coins pg A) := by
  have relax : ∀ (A : Client (CosignRequest P) CosignAnswer α) (q q' m' r : Nat), q ≤ q' → SessionBounded D T b fin q m' r A → SessionBounded D T b fin q' m' r A := by
    intro A
    induction A with
    | ret c => intro q q' m' r _ h; exact h
    | ask l k ih =>
      rintro q q' m' r hq ⟨h1, q₁, rfl, h2⟩
      exact ⟨h1, q' - 1, by omega, fun w => ih w q₁ (q' - 1) m' r (by omega) (h2 w)⟩
    | request rq k ih =>
      intro q q' m' r hq h
      cases rq with
      | start t => obtain ⟨h1, m'', rfl, h2⟩ := h; exact ⟨h1, m'', rfl, fun a => ih a q q' m'' r hq (h2 a)⟩
      | reveal i cs => obtain ⟨h1, r', rfl, h2⟩ := h; exact ⟨h1, r', rfl, fun a => ih a q q' m' r' hq (h2 a)⟩
      | cosign i rs => obtain ⟨h1, r', rfl, h2⟩ := h; exact ⟨h1, r', rfl, fun a => ih a q q' m' r' hq (h2 a)⟩
  induction A with
  | ret c => intro q m' r p pg h; exact h
  | ask l k ih =>
    rintro q m' r p pg ⟨hl, q', rfl, hk⟩
    simp only [serveInside]
    cases pg.lookup l with
    | some w => exact relax _ q' (q' + 1) m' r (by omega) (ih w q' m' r p pg (hk w))
    | none => exact ⟨hl, q', rfl, fun w => ih w q' m' r p pg (hk w)⟩
  | request rq k ih =>
    intro q m' r p pg h
    cases rq with
    | inl rq =>
      cases rq with
      | start t => obtain ⟨h1, m'', rfl, h2⟩ := h; exact ⟨h1, m'', rfl, fun a => ih _ q m'' r p pg (h2 _)⟩
      | reveal i cs => obtain ⟨h1, r', rfl, h2⟩ := h; exact ⟨h1, r', rfl, fun a => ih _ q m' r' p pg (h2 _)⟩
      | cosign i rs => obtain ⟨h1, r', rfl, h2⟩ := h; exact ⟨h1, r', rfl, fun a => ih _ q m' r' p pg (h2 _)⟩
    | inr rq =>
      obtain ⟨h1, p', rfl, h2⟩ := h
      exact ih _ q m' r p' _ (h2 _)

theorem limited_relax {Req Ans κ α : Type} {K : Finset κ} {key : Req → κ} {fin : α → Prop} (A : Client Req Ans α) : ∀ (q q' p : Nat), q ≤ q' →
    A.Limited D key K fin q p → A.Limited D key K fin q' p := by
  induction A with
  | ret c => intro q q' p _ h; exact h
  | ask l k ih =>
    rintro q q' p hq ⟨h1, q₁, rfl, h2⟩
    exact ⟨h1, q' - 1, by omega, fun w => ih w q₁ (q' - 1) p (by omega) (h2 w)⟩
  | request rq k ih =>
    rintro q q' p hq ⟨h1, p', rfl, h2⟩
    exact ⟨h1, p', rfl, fun a => ih a q q' p' hq (h2 a)⟩

theorem sideN_limited {O₀ : Oracles} {T : Finset (List MOp)} {b : Nat} (Dk : Finset (List MOp)) (N : Fin m → Fin 3 → Arr 64) (me : PublicKey P)
    (x : Z) (A : DualClient P α) : ∀ (q m' r p : Nat) (ss : List (IndexPhase P m)), MixedBounded D T K b fin q m' r p A →
      (sideN O₀ Dk N me x ss A).Limited Dk KeyRequest.use K (fun _ => True) q p := by
  induction A with
  | ret c => intro q m' r p ss _; exact trivial
  | ask l k ih =>
    rintro q m' r p ss ⟨hl, q', rfl, hk⟩
    simp only [sideN]
    split
    · rename_i h
      exact ⟨h, q', rfl, fun w => ih w q' m' r p ss (hk w)⟩
    · exact limited_relax _ q' (q' + 1) p (by omega) (ih _ q' m' r p ss (hk _))
  | request rq k ih =>
    intro q m' r p ss h
    cases rq with
    | inl rq =>
      obtain ⟨m'', r', -, -, hk⟩ := dual_inl h
      exact ih _ q m'' r' p _ (hk _)
    | inr rq =>
      obtain ⟨h1, p', rfl, h2⟩ := h
      exact ⟨h1, p', rfl, fun a => ih _ q m' r p' ss (h2 _)⟩

/-- The real services, seen from the side. -/
theorem side_real [Goal P α] (Om O₀ T' : Oracles) (N : Fin m → Fin 3 → Arr 64) (me : PublicKey P) (hme : me.WF) (dh : P → P) (x : Z) (ν : KeyUse P → Arr 64)
    (hoff : SameOff (keySet D K me dh) Om O₀) (h64 : ∀ l, T'.merlin l 64 = Om.merlin l 64) (A : DualClient P α) : ∀ (ss : List (IndexPhase P m)),
      NoOwnGroup Om me (endN Om N me x ss (serveReal x me dh ν A)) →
      (sideN O₀ (keySet D K me dh) N me x ss A).play T'
        (fun r => realAns T' (KeyUse.query me dh) (KeyUse.answer me dh) (KeyUse.secret x) r.use (residue (ν r.use))) =
      endN Om N me x ss (serveReal x me dh ν A) := by
  induction A with
  | ret c => intro ss _; rfl
  | ask l k ih =>
    intro ss h
    simp only [sideN, serveReal, endN] at h ⊢
    by_cases hl : l ∈ keySet D K me dh
    · rw [if_pos hl]
      simp only [Client.play, h64]
      exact ih _ ss h
    · rw [if_neg hl, ← hoff l 64 hl]
      exact ih _ ss h
  | request rq k ih =>
    intro ss h
    cases rq with
    | inl rq =>
      simp only [sideN, serveReal, endN] at h ⊢
      have hst : stepN Om N me x ss rq = stepN O₀ N me x ss rq := by
        refine stepN_off hoff hme N x ss rq fun s hs => ?_
        rw [← agg_off (fun l hl => hoff l 64 hl)]
        exact h.1 s (revealed_end _ _ _ _ _ _ s ((revealed_step Om N me x ss rq s).mpr (Or.inl hs)))
      rw [← hst]
      exact ih _ _ h
    | inr rq =>
      simp only [sideN, serveReal, endN, Client.play] at h ⊢
      have : realAns T' (KeyUse.query me dh) (KeyUse.answer me dh) (KeyUse.secret x) rq.use (residue (ν rq.use)) =
          KeyUse.answer me dh rq.use (residue (Om.merlin (KeyUse.query me dh rq.use (residue (ν rq.use)) 0) 64) * KeyUse.secret x rq.use +
            residue (ν rq.use)) (residue (Om.merlin (KeyUse.query me dh rq.use (residue (ν rq.use)) 0) 64)) := by
        unfold realAns
        rw [hashWith_eq_residue, h64]
      rw [this]
      exact ih _ ss h

theorem side_revealed (O₀ : Oracles) (Dk : Finset (List MOp)) (N : Fin m → Fin 3 → Arr 64) (me : PublicKey P) (x : Z)
    (query : KeyUse P → Z → Z → List MOp) (answer : KeyUse P → Z → Z → KeyAnswer P) (coins : KeyUse P → Arr 64 × Arr 64) (A : DualClient P α) :
    ∀ (ss : List (IndexPhase P m)) (Op : Oracles), ∀ s ∈ revealedIn ss,
      s ∈ revealedIn (progPlay query answer KeyRequest.use coins Op (sideN O₀ Dk N me x ss A)).2.1 := by
  induction A with
  | ret c => intro ss Op s hs; exact hs
  | ask l k ih =>
    intro ss Op s hs
    simp only [sideN]
    split
    · exact ih _ ss Op s hs
    · exact ih _ ss Op s hs
  | request rq k ih =>
    intro ss Op s hs
    cases rq with
    | inl rq => exact ih _ _ Op s ((revealed_step O₀ N me x ss rq s).mpr (Or.inl hs))
    | inr rq => exact ih _ ss _ s hs

/-- The simulated services, seen from the side. -/
theorem side_sim [Goal P α] (Om O₀ : Oracles) (T : Finset (List MOp)) (b : Nat) (N : Fin m → Fin 3 → Arr 64) (me : PublicKey P) (hme : me.WF) (dh : P → P) (x : Z)
    (coins : KeyUse P → Arr 64 × Arr 64) (hoff : SameOff (keySet D K me dh) Om O₀)
    (hprog : ∀ k ∈ K, ∀ v w : Z, KeyUse.query me dh k v w ∈ keySet D K me dh) (A : DualClient P α) :
    ∀ (q m' r p : Nat) (ss : List (IndexPhase P m)) (Op : Oracles) (pg : Known), MixedBounded D T K b fin q m' r p A →
      (∀ l w, pg.lookup l = some w → l ∈ keySet D K me dh) →
      (∀ l, Op.merlin l 64 = match pg.lookup l with | some w => w | none => Om.merlin l 64) →
      let e := progPlay (KeyUse.query me dh) (KeyUse.answer me dh) KeyRequest.use coins Op (sideN O₀ (keySet D K me dh) N me x ss A)
      NoOwnGroup O₀ me e.2 → endN Om N me x ss (serveInside me dh coins pg A) = e.2 ∧
        ∀ l, l ∉ keySet D K me dh → e.1.merlin l 64 = Om.merlin l 64 := by
  induction A with
  | ret c =>
    intro q m' r p ss Op pg _ hpg hOp e _
    refine ⟨rfl, fun l hl => ?_⟩
    show Op.merlin l 64 = _
    rw [hOp l]
    cases h : pg.lookup l with
    | none => rfl
    | some w => exact absurd (hpg l w h) hl
  | ask l k ih =>
    intro q m' r p ss Op pg hb hpg hOp
    obtain ⟨-, q', rfl, hk⟩ := hb
    by_cases hl : l ∈ keySet D K me dh
    · have hside : sideN O₀ (keySet D K me dh) N me x ss (.ask l k) = .ask l fun w => sideN O₀ (keySet D K me dh) N me x ss (k w) := by
        simp only [sideN]; rw [if_pos hl]
      intro e hn
      have he : e = progPlay (KeyUse.query me dh) (KeyUse.answer me dh) KeyRequest.use coins Op
          (sideN O₀ (keySet D K me dh) N me x ss (k (Op.merlin l 64))) := by
        show progPlay _ _ _ _ _ _ = _
        rw [hside]; rfl
      rw [he] at hn ⊢
      have := ih _ q' m' r p ss Op pg (hk (Op.merlin l 64)) hpg hOp hn
      refine ⟨?_, this.2⟩
      rw [← this.1]
      have h2 := hOp l
      simp only [serveInside]
      cases h : pg.lookup l with
      | some w => simp only [h] at h2; simp only [h2]
      | none => simp only [h] at h2; simp only [endN, h2]
    · have hside : sideN O₀ (keySet D K me dh) N me x ss (.ask l k) = sideN O₀ (keySet D K me dh) N me x ss (k (O₀.merlin l 64)) := by
        simp only [sideN]; rw [if_neg hl]
      intro e hn
      have he : e = progPlay (KeyUse.query me dh) (KeyUse.answer me dh) KeyRequest.use coins Op
          (sideN O₀ (keySet D K me dh) N me x ss (k (O₀.merlin l 64))) := by
        show progPlay _ _ _ _ _ _ = _
        rw [hside]
      rw [he] at hn ⊢
      have := ih _ q' m' r p ss Op pg (hk (O₀.merlin l 64)) hpg hOp hn
      refine ⟨?_, this.2⟩
      rw [← this.1]
      simp only [serveInside]
      cases h : pg.lookup l with
      | some w => exact absurd (hpg l w h) hl
      | none => simp only [endN, hoff l 64 hl]
  | request rq k ih =>
    intro q m' r p ss Op pg hb hpg hOp
    cases rq with
    | inl rq =>
      obtain ⟨m'', r', -, -, hk⟩ := dual_inl hb
      intro e hn
      simp only [serveInside, endN]
      have hst : stepN Om N me x ss rq = stepN O₀ N me x ss rq := by
        refine stepN_off hoff hme N x ss rq fun s hs => ?_
        exact hn.1 s (side_revealed _ _ _ _ _ _ _ _ _ _ _ s hs)
      rw [hst]
      exact ih _ q m'' r' p _ Op pg (hk _) hpg hOp hn
    | inr rq =>
      obtain ⟨hK, p', rfl, hk⟩ := hb
      simp only [serveInside, sideN, progPlay]
      refine ih _ q m' r p' ss _ _ (hk _) ?_ ?_
      · intro l w h
        rw [List.lookup_cons] at h
        by_cases hl : l = KeyUse.query me dh rq.use (residue (coins rq.use).1) (residue (coins rq.use).2)
        · rw [hl]; exact hprog _ hK _ _
        · have : (l == KeyUse.query me dh rq.use (residue (coins rq.use).1) (residue (coins rq.use).2)) = false := by simpa using hl
          rw [this] at h
          exact hpg l w h
      · intro l
        rw [List.lookup_cons]
        by_cases hl : l = KeyUse.query me dh rq.use (residue (coins rq.use).1) (residue (coins rq.use).2)
        · rw [← hl]
          have : (l == l) = true := by simp
          rw [this]
          exact program_hit _ _ _
        · have : (l == KeyUse.query me dh rq.use (residue (coins rq.use).1) (residue (coins rq.use).2)) = false := by simpa using hl
          rw [this]
          simp only
          rw [← hOp l]
          exact program_miss _ _ _ _ _ hl

/-- Serving from coins instead of with the secret key: what it costs.  `W` is what is known after the change. -/
theorem serve_le [Goal P α] (O : Oracles) (T : Finset (List MOp)) (b q r p : Nat) (N : Fin m → Fin 3 → Arr 64) (me : PublicKey P) (hme : me.WF) (x : Z)
    (hpk : me.point = x • (basepoint : P)) (hD : ∀ k ∈ K, ∀ v : Z, KeyUse.query me (fun I => x • I) k v 0 ∈ D) (A : DualClient P α)
    (hb : MixedBounded D T K b fin q m r p A) (W : Oracles → List (IndexPhase P m) × α → Prop)
    (hW : ∀ (Om O₀ Op : Oracles) (C : K → Arr 64 × Arr 64), (∀ l, Op.merlin l 64 = Om.merlin l 64) →
      let e := progPlay (KeyUse.query me fun I => x • I) (KeyUse.answer me fun I => x • I) KeyRequest.use (Spec.coinsOf C) Op
        (sideN O₀ (keySet D K me fun I => x • I) N me x [] A)
      (∀ l, l ∉ keySet D K me (fun I => x • I) → e.1.merlin l 64 = Om.merlin l 64) → NoOwnGroup Om me e.2 →
        WinJoint e.1 me e.2.1 e.2.2 → W Om e.2) :
    (avg fun f : D → Arr 64 => avg fun w : K → Arr 64 => ind (WinN (wideTable O D f) N me x [] (serveReal x me (fun I => x • I) (noncesOf w) A) ∧
        NoOwnGroup (wideTable O D f) me (endN (wideTable O D f) N me x [] (serveReal x me (fun I => x • I) (noncesOf w) A)))) ≤
      (avg fun f : D → Arr 64 => avg fun C : K → Arr 64 × Arr 64 =>
        ind (W (wideTable O D f) (endN (wideTable O D f) N me x [] (serveInside me (fun I => x • I) (Spec.coinsOf C) [] A)))) +
        p * ((q + p : Nat) * guess + spare) := by
  set dh : P → P := fun I => x • I with hdh
  have hDk : ∀ k ∈ K, ∀ v : Z, KeyUse.query me dh k v 0 ∈ keySet D K me dh := fun k hk v =>
    Finset.mem_filter.mpr ⟨hD k hk v, k, hk, v, rfl⟩
  have hprog : ∀ k ∈ K, ∀ v w : Z, KeyUse.query me dh k v w ∈ keySet D K me dh := by
    intro k hk v w
    have := use_query_shift me x hpk k (v - w * KeyUse.secret x k) w
    rw [add_sub_cancel] at this
    rw [this]
    exact hDk k hk _
  have hin : ∀ y : keySet D K me dh, (Subtype.val y) ∈ D := fun y => (Finset.mem_filter.mp y.2).1
  rw [avg_withKeyed (X := keySet D K me dh) Subtype.val Subtype.val_injective hin,
    avg_withKeyed (X := keySet D K me dh) Subtype.val Subtype.val_injective hin (fun f => avg fun C : K → Arr 64 × Arr 64 =>
        ind (W (wideTable O D f) (endN (wideTable O D f) N me x [] (serveInside me dh (Spec.coinsOf C) [] A))))]
  rw [← avg_const (Ω := D → Arr 64) (p * ((q + p : Nat) * guess + spare)), ← avg_add]
  refine avg_mono fun f₀ => ?_
  set O₀ := wideTable O D f₀ with hO₀
  have hoff : ∀ f : keySet D K me dh → Arr 64, SameOff (keySet D K me dh) (wideTable O D (withKeyed Subtype.val f₀ f)) O₀ := by
    intro f l n hl
    exact wideTable_withKeyed O _ f₀ f l n fun y hy => hl (hy ▸ y.2)
  have h64 : ∀ (f : keySet D K me dh → Arr 64) l, (table O₀ (keySet D K me dh) f).merlin l 64 =
      (wideTable O D (withKeyed Subtype.val f₀ f)).merlin l 64 := by
    intro f l
    by_cases hl : l ∈ keySet D K me dh
    · rw [table_hit _ _ _ _ hl, wideTable_hit _ _ _ (Finset.mem_filter.mp hl).1]
      exact (withKeyed_hit Subtype.val Subtype.val_injective f₀ f ⟨l, hl⟩ (Finset.mem_filter.mp hl).1).symm
    · rw [table_miss _ _ _ _ _ (fun h => hl h.1), hoff f l 64 hl]
  have s := service_le_simulated O₀ (KeyUse.query me dh) (KeyUse.answer me dh) KeyRequest.use (KeyUse.secret x)
      (use_query_shift me x hpk) (use_query_inj me dh) hDk (fun _ => True)
      (fun O' (e : List (IndexPhase P m) × α) => NoOwnGroup O₀ me e ∧ WinJoint O' me e.1 e.2) (sideN O₀ (keySet D K me dh) N me x [] A) q p 0
      (fun _ => none) (fun _ => none) (fun _ => none) (sideN_limited _ N me x A q m r p [] hb) ⟨[], by simp, fun d h => (h rfl).elim⟩
      (fun _ => Or.inl ⟨rfl, rfl⟩)
  have hov : ∀ {ι S : Type} (f : ι → S), ov (fun _ => none) f = f := fun f => rfl
  simp only [hov, Nat.zero_add] at s
  refine le_trans (avg_mono fun f => avg_mono fun w => ind_mono ?_) (le_trans s (add_le_add (avg_mono fun f => avg_mono fun C => ind_mono ?_) le_rfl))
  · rintro ⟨h1, h2⟩
    have hbR := serveReal_bounded x me dh (noncesOf w) hD A q m r p hb
    rw [winN_end _ T b N me x _ _ m r [] hbR (by simp)] at h1
    rw [side_real _ O₀ (table O₀ (keySet D K me dh) f) N me hme dh x (noncesOf w) (hoff f) (h64 f) A [] h2]
    refine ⟨(noOwn_off (fun l hl => hoff f l 64 hl) _).mp h2, ?_⟩
    exact winJoint_congr (fun l => (h64 f l).symm) h1
  · rintro ⟨h1, h2⟩
    obtain ⟨h3, h4⟩ := side_sim (wideTable O D (withKeyed Subtype.val f₀ f)) O₀ T b N me hme dh x (Spec.coinsOf C) (hoff f) hprog A q m r p []
      (table O₀ (keySet D K me dh) f) [] hb (fun l w h => by simp at h) (fun l => h64 f l) h1
    rw [h3]
    exact hW _ O₀ _ C (h64 f) h4 ((noOwn_off (fun l hl => hoff f l 64 hl) _).mpr h1) h2

end Schnorrkel
