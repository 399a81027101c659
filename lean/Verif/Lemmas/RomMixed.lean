import Verif.Spec.RomMixed
import Verif.Props.RomDual

/-! # Attacks that are after a plain signature, VRF proof or certificate -/

namespace Schnorrkel
open Spec Schnorrkel.Props
variable {P : Type} [Ristretto P] {D : Finset (List MOp)} {K : Finset (KeyUse P)} {m : Nat}

theorem forgery_query_last (pk : PublicKey P) (c : KeyForgery P) : c.query pk = [] ∨
    (c.query pk).getLast? = some (.challenge (b! "sign:c") 64) ∨ (c.query pk).getLast? = some (.challenge (b! "prove") 64) ∨
      (c.query pk).getLast? = some (.challenge (b! "adaptor-e") 64) := by
  cases c with
  | signature t b => exact Or.inr (Or.inl (signature_last _ _ _))
  | proof extra I Q ku b =>
    cases h : VRFProof.fromBytes b with
    | ok π => right; right; left; cases ku <;> simp [KeyForgery.query, h, dleqQuery]
    | error e => left; simp [KeyForgery.query, h]
  | cert t c sk => right; right; right; simp [KeyForgery.query, certQuery]

theorem forgery_ends (pk : PublicKey P) (c : KeyForgery P) : (c.query pk).getLast? ≠ some (.challenge (b! "commitment") 16) ∧
    (c.query pk).getLast? ≠ some (.prf 64) := by
  rcases forgery_query_last pk c with h | h | h | h <;> rw [h] <;> exact ⟨by decide, by decide⟩

/-- The claim of an attacker with the record of what was given out: it is right and new. -/
noncomputable instance : Goal P (KeyForgery P × List (KeyRequest P × KeyAnswer P)) where
  keys _ := []
  queries _ me c := [c.1.query me]
  Wins O me c := c.1.Valid O me c.2
  About _ _ _ _ _ := False
  wins_congr O₁ O₂ me c h := by
    have := hashWith_congr (h _ (List.mem_singleton.mpr rfl))
    exact ⟨valid_congr this, valid_congr this.symm⟩
  about_congr _ _ _ _ _ _ _ := Iff.rfl
  ends O me c l hl := by
    rw [List.mem_singleton.mp hl]
    exact forgery_ends me c.1

/-- The claim is right. -/
noncomputable instance : Goal P (KeyForgery P) where
  keys _ := []
  queries _ me c := [c.query me]
  Wins O me c := Checks O me c
  About _ me _ _ a := a.compressed = me.compressed
  wins_congr O₁ O₂ me c h := by
    have := hashWith_congr (h _ (List.mem_singleton.mpr rfl))
    exact ⟨checks_congr _ _ me c this, checks_congr _ _ me c this.symm⟩
  about_congr _ _ _ _ _ _ _ := Iff.rfl
  ends O me c l hl := by
    rw [List.mem_singleton.mp hl]
    exact forgery_ends me c

instance : Goal.Separated P (KeyForgery P) where
  about O me c t a R hw hl := by
    have hl' : challengeOf (PublicKey.fromPoint a) t R = c.query me := List.mem_singleton.mp hl
    obtain ⟨u, h1, h2, h3, h4⟩ := checks_use (show Checks O me c from hw)
    rw [← h3] at hl'
    have e := hash_uses_separated (Use.signature t.log (PublicKey.fromPoint a).compressed.1 R) u trivial h1 hl'
    rw [h2] at e
    cases c with
    | signature t' b =>
      simp only at h4
      rw [h4] at e
      simp only [Use.norm, Use.signature.injEq] at e
      exact Subtype.ext e.2.1
    | proof extra I Q ku b =>
      simp only at h4
      obtain ⟨π, -, h4⟩ := h4
      rw [h4] at e
      simp [Use.norm] at e
    | cert t' c sk =>
      simp only at h4
      rw [h4] at e
      simp [Use.norm] at e

/-! ## Keeping a record of what was given out -/

/-- The same client, which also outputs a record of the signatures, proofs and certificates it got. -/
def keyLogged {α : Type} : List (KeyRequest P × KeyAnswer P) → DualClient P α → DualClient P (α × List (KeyRequest P × KeyAnswer P))
  | log, .ret a => .ret (a, log)
  | log, .ask q k => .ask q fun w => keyLogged log (k w)
  | log, .request (.inl r) k => .request (.inl r) fun a => keyLogged log (k a)
  | log, .request (.inr r) k => .request (.inr r) fun a => keyLogged (match a with | .inr a' => (r, a') :: log | .inl _ => log) (k a)

theorem keyLogged_play (O : Oracles) (kp : Keypair P) (A : DualClient P (KeyForgery P)) : ∀ (o : Owner P) (log : List (KeyRequest P × KeyAnswer P)),
    (o.playDual O kp (keyLogged log A)).1 = o.playMixed O kp log A := by
  induction A with
  | ret c => intro o log; rfl
  | ask q k ih => intro o log; exact ih _ o log
  | request r k ih =>
    intro o log
    cases r with
    | inl r => exact ih _ _ log
    | inr r => exact ih _ o _

theorem keyLogged_bounded {α : Type} {fin : α → Prop} {T : Finset (List MOp)} {b : Nat} (A : DualClient P α) : ∀ (q m' r p : Nat) (log : List (KeyRequest P × KeyAnswer P)),
    MixedBounded D T K b fin q m' r p A → MixedBounded D T K b (fun c => fin c.1) q m' r p (keyLogged log A) := by
  induction A with
  | ret c => intro q m' r p log h; exact h
  | ask l k ih =>
    rintro q m' r p log ⟨h1, q', rfl, h2⟩
    exact ⟨h1, q', rfl, fun w => ih _ q' m' r p log (h2 w)⟩
  | request rq k ih =>
    intro q m' r p log h
    cases rq with
    | inl rq =>
      cases rq with
      | start t => obtain ⟨h1, m'', rfl, h2⟩ := h; exact ⟨h1, m'', rfl, fun a => ih _ q m'' r p log (h2 _)⟩
      | reveal i cs => obtain ⟨h1, r', rfl, h2⟩ := h; exact ⟨h1, r', rfl, fun a => ih _ q m' r' p log (h2 _)⟩
      | cosign i rs => obtain ⟨h1, r', rfl, h2⟩ := h; exact ⟨h1, r', rfl, fun a => ih _ q m' r' p log (h2 _)⟩
    | inr rq =>
      obtain ⟨h1, p', rfl, h2⟩ := h
      exact ⟨h1, p', rfl, fun a => ih _ q m' r p' _ (h2 _)⟩

/-- The record changes nothing else. -/
theorem keyLogged_end {α : Type} (O : Oracles) (N : Fin m → Fin 3 → Arr 64) (me : PublicKey P) (x : Z) (dh : P → P) (coins : KeyUse P → Arr 64 × Arr 64)
    (A : DualClient P α) : ∀ (ss : List (IndexPhase P m)) (pg : Known) (log : List (KeyRequest P × KeyAnswer P)),
      (endN O N me x ss (serveInside me dh coins pg (keyLogged log A))).1 = (endN O N me x ss (serveInside me dh coins pg A)).1 ∧
      (endN O N me x ss (serveInside me dh coins pg (keyLogged log A))).2.1 = (endN O N me x ss (serveInside me dh coins pg A)).2 := by
  induction A with
  | ret c => intro ss pg log; exact ⟨rfl, rfl⟩
  | ask l k ih =>
    intro ss pg log
    simp only [keyLogged, serveInside]
    cases pg.lookup l with
    | some w => exact ih w ss pg log
    | none => exact ih _ ss pg log
  | request rq k ih =>
    intro ss pg log
    cases rq with
    | inl rq => exact ih _ _ pg log
    | inr rq => exact ih _ ss _ _

/-- The hash queries that were given answers belong to the answers on record. -/
theorem programmed_on_record {α : Type} (Om O₀ : Oracles) (Dk : Finset (List MOp)) (N : Fin m → Fin 3 → Arr 64) (me : PublicKey P) (x : Z) (dh : P → P)
    (coins : KeyUse P → Arr 64 × Arr 64) (A : DualClient P α) : ∀ (ss : List (IndexPhase P m)) (Op : Oracles) (log : List (KeyRequest P × KeyAnswer P)),
      (∀ l, Op.merlin l 64 = Om.merlin l 64 ∨ ∃ (r : KeyRequest P) (z : Z) (w : Arr 64), (r, KeyUse.answer me dh r.use z (residue w)) ∈ log ∧
        l = KeyUse.query me dh r.use z (residue w) ∧ Op.merlin l 64 = w) →
      let e := progPlay (KeyUse.query me dh) (KeyUse.answer me dh) KeyRequest.use coins Op (sideN O₀ Dk N me x ss (keyLogged log A))
      ∀ l, e.1.merlin l 64 = Om.merlin l 64 ∨ ∃ (r : KeyRequest P) (z : Z) (w : Arr 64), (r, KeyUse.answer me dh r.use z (residue w)) ∈ e.2.2.2 ∧
        l = KeyUse.query me dh r.use z (residue w) ∧ e.1.merlin l 64 = w := by
  induction A with
  | ret c => intro ss Op log h; exact h
  | ask l k ih =>
    intro ss Op log h
    by_cases hl : l ∈ Dk
    · have hs : sideN O₀ Dk N me x ss (keyLogged log (.ask l k)) = .ask l fun w => sideN O₀ Dk N me x ss (keyLogged log (k w)) := by
        simp only [keyLogged, sideN]; rw [if_pos hl]
      rw [hs]
      exact ih (Op.merlin l 64) ss Op log h
    · have hs : sideN O₀ Dk N me x ss (keyLogged log (.ask l k)) = sideN O₀ Dk N me x ss (keyLogged log (k (O₀.merlin l 64))) := by
        simp only [keyLogged, sideN]; rw [if_neg hl]
      rw [hs]
      exact ih (O₀.merlin l 64) ss Op log h
  | request rq k ih =>
    intro ss Op log h
    cases rq with
    | inl rq => exact ih _ _ Op log h
    | inr rq =>
      refine ih _ ss _ _ ?_
      intro l
      by_cases hl : l = KeyUse.query me dh rq.use (residue (coins rq.use).1) (residue (coins rq.use).2)
      · refine Or.inr ⟨rq, residue (coins rq.use).1, (coins rq.use).2, by simp, hl, ?_⟩
        rw [hl]
        exact program_hit _ _ _
      · have hm := program_miss Op (KeyUse.query me dh rq.use (residue (coins rq.use).1) (residue (coins rq.use).2)) (coins rq.use).2 l 64 hl
        rw [hm]
        rcases h l with h | ⟨r, z, w, h1, h2, h3⟩
        · exact Or.inl h
        · exact Or.inr ⟨r, z, w, List.mem_cons_of_mem _ h1, h2, h3⟩

/-- A right and new claim is right without the programmed answers. -/
theorem new_claim_checks {Om Op : Oracles} {me : PublicKey P} {dh : P → P} {c : KeyForgery P} {log : List (KeyRequest P × KeyAnswer P)}
    (h : ∀ l, Op.merlin l 64 = Om.merlin l 64 ∨ ∃ (r : KeyRequest P) (z : Z) (w : Arr 64), (r, KeyUse.answer me dh r.use z (residue w)) ∈ log ∧
        l = KeyUse.query me dh r.use z (residue w) ∧ Op.merlin l 64 = w)
    (hv : c.Valid Op me log) : Checks Om me c := by
  rcases h (c.query me) with h | ⟨r, z, w, h1, h2, h3⟩
  · exact checks_congr _ _ me c (hashWith_congr h) (valid_checks hv)
  · refine (programmed_not_new Op me dh log c hv r z (residue w) ?_ h1 h2).elim
    rw [hashWith_eq_residue, h3]

end Schnorrkel
