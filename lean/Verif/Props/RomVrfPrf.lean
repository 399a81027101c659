import Verif.Spec.RomVrfPrf
import Verif.Props.RomDh
import Verif.Props.RomVrfBatch

/-! # VRF outputs are pseudorandom (C80) -/

namespace Schnorrkel.Props
open Spec

variable {P : Type} [Ristretto P] {D : Finset (List MOp)} {K : Finset (KeyUse P)} {S : Finset (SecretValue P)} {α : Type}

/-! ### From transcripts to points -/

theorem serveWire_prove (O : Oracles) (kp : Keypair P) (malleable : Bool) (log : List MOp) (extra : Transcript) (sys : Rng) :
    serveWire O kp (.prove malleable log extra sys) =
      .inl (serveKey O kp (.prove extra (@wireInputPoint P _ O malleable log kp.pub.compressed.1) true sys)) := by
  letI := O
  have h := vrf_sign_extra_is_request O kp (wireInput malleable log) extra sys
  rw [vrfHash_wire_eq] at h
  simp only [serveWire]
  exact congrArg Sum.inl h.symm

theorem serveWire_bytes (O : Oracles) (kp : Keypair P) (malleable : Bool) (log : List MOp) (ctx : Bytes) (n : Fin 65) :
    serveWire O kp (.bytes malleable log ctx n) =
      .inr (serveValue O kp (.vrfBytes ctx (@wireInputPoint P _ O malleable log kp.pub.compressed.1) n)) := by
  letI := O
  simp only [serveWire, serveValue, Keypair.vrfCreateHash, vrfHash_wire_eq, RistrettoBoth.fromPoint]

theorem onPoints_play (O : Oracles) (kp : Keypair P) (A : Client (WireRequest P) (KeyAnswer P ⊕ Bytes) α) :
    (A.onPoints kp.pub.compressed.1).play O (serveOwner O kp) = A.play O (serveWire O kp) := by
  induction A with
  | ret a => rfl
  | ask q k ih => exact ih _
  | request r k ih =>
    cases r with
    | sign t sys => exact ih _
    | issue t seed sys => exact ih _
    | prove malleable log extra sys =>
      simp only [Client.onPoints, Client.play, serveWire_prove]
      exact ih _
    | bytes malleable log ctx n =>
      simp only [Client.onPoints, Client.play, serveWire_bytes]
      exact ih _

theorem onPoints_ideal (O : Oracles) (kp : Keypair P) (g : S → Arr 64) (A : Client (WireRequest P) (KeyAnswer P ⊕ Bytes) α) :
    ((A.onPoints kp.pub.compressed.1).given (randomValue g)).play O (serveKey O kp) = A.play O (serveIdeal O kp g) := by
  induction A with
  | ret a => rfl
  | ask q k ih => exact ih _
  | request r k ih =>
    cases r with
    | sign t sys => exact ih _
    | issue t seed sys => exact ih _
    | prove malleable log extra sys =>
      simp only [Client.onPoints, Client.given, Client.play, serveIdeal, serveWire_prove]
      exact ih _
    | bytes malleable log ctx n => exact ih _

/-! ### The world without secrets, with other means of computing outputs -/

/-- The client in a world without secrets. -/
noncomputable def wireSim (pk : PublicKey P) (dh : P → P) (coins : KeyUse P → Arr 64 × Arr 64) (val : SecretValue P → Bytes)
    (pg : List (List MOp × Arr 64)) (as : List (List MOp)) (rs : List (KeyRequest P ⊕ SecretValue P))
    (A : Client (WireRequest P) (KeyAnswer P ⊕ Bytes) α) : Algo (α × List (List MOp) × List (KeyRequest P ⊕ SecretValue P)) :=
  (((A.onPoints pk.compressed.1).noted as rs).given val).simulate (KeyUse.query pk dh) (KeyUse.answer pk dh) KeyRequest.use coins pg

/-- No VRF input is programmed. -/
def NoInputs (pg : List (List MOp × Arr 64)) : Prop := ∀ malleable log pk, pg.lookup (vrfInputQuery malleable log pk) = none

theorem vrfInputQuery_last (malleable : Bool) (log : List MOp) (pk : Bytes) :
    (vrfInputQuery malleable log pk).getLast? = some (.challenge (b! "VRFHash") 64) := by
  simp [vrfInputQuery]

theorem use_query_last (pk : PublicKey P) (dh : P → P) (u : KeyUse P) (z w : Z) :
    (KeyUse.query pk dh u z w).getLast? ≠ some (.challenge (b! "VRFHash") 64) := by
  cases u with
  | sign log rng => simp [KeyUse.query, challengeOf, Use.query]
  | prove log I kusama rng => cases kusama <;> simp [KeyUse.query, dleqQuery]
  | issue log seed rng => simp [KeyUse.query, certQuery]

theorem noInputs_cons {pg : List (List MOp × Arr 64)} (h : NoInputs pg) (pk : PublicKey P) (dh : P → P) (u : KeyUse P) (z w : Z)
    (a : Arr 64) : NoInputs ((KeyUse.query pk dh u z w, a) :: pg) := by
  intro malleable log b
  have hne : vrfInputQuery malleable log b ≠ KeyUse.query pk dh u z w := fun e =>
    use_query_last pk dh u z w (e ▸ vrfInputQuery_last malleable log b)
  rw [List.lookup_cons, (by simpa using hne : (vrfInputQuery malleable log b == KeyUse.query pk dh u z w) = false)]
  exact h malleable log b

theorem prove_dh_congr (pk : PublicKey P) {dh dh' : P → P} {I : P} (h : dh' I = dh I) (log : List MOp) (kusama : Bool) (rng : Arr 32) :
    KeyUse.query pk dh' (.prove log I kusama rng) = KeyUse.query pk dh (.prove log I kusama rng) ∧
    KeyUse.answer pk dh' (.prove log I kusama rng) = KeyUse.answer pk dh (.prove log I kusama rng) := by
  constructor <;> funext z w <;> simp only [KeyUse.query, KeyUse.answer, h]

theorem wireSim_ask (pk : PublicKey P) (dh : P → P) (coins : KeyUse P → Arr 64 × Arr 64) (val : SecretValue P → Bytes)
    (pg as rs) (l : List MOp) (k : Arr 64 → Client (WireRequest P) (KeyAnswer P ⊕ Bytes) α) :
    wireSim pk dh coins val pg as rs (.ask l k) = match pg.lookup l with
      | some w => wireSim pk dh coins val pg (l :: as) rs (k w)
      | none => .ask l fun w => wireSim pk dh coins val pg (l :: as) rs (k w) := by
  simp only [wireSim, Client.onPoints, Client.noted, Client.given, Client.simulate]
  cases pg.lookup l <;> rfl

theorem wireSim_sign (pk : PublicKey P) (dh : P → P) (coins : KeyUse P → Arr 64 × Arr 64) (val : SecretValue P → Bytes)
    (pg as rs) (t : Transcript) (sys : Rng) (k : KeyAnswer P ⊕ Bytes → Client (WireRequest P) (KeyAnswer P ⊕ Bytes) α) :
    ∃ a pg', (NoInputs pg → NoInputs pg') ∧ ∀ dh, wireSim pk dh coins val pg as rs (.request (.sign t sys) k) =
      wireSim pk dh coins val pg' as (.inl (.sign t sys) :: rs) (k (.inl a)) :=
  ⟨_, _, fun h => noInputs_cons h pk dh (KeyRequest.use (.sign t sys)) _ _ _, fun _ => rfl⟩

theorem wireSim_issue (pk : PublicKey P) (dh : P → P) (coins : KeyUse P → Arr 64 × Arr 64) (val : SecretValue P → Bytes)
    (pg as rs) (t : Transcript) (seed : P) (sys : Rng) (k : KeyAnswer P ⊕ Bytes → Client (WireRequest P) (KeyAnswer P ⊕ Bytes) α) :
    ∃ a pg', (NoInputs pg → NoInputs pg') ∧ ∀ dh, wireSim pk dh coins val pg as rs (.request (.issue t seed sys) k) =
      wireSim pk dh coins val pg' as (.inl (.issue t seed sys) :: rs) (k (.inl a)) :=
  ⟨_, _, fun h => noInputs_cons h pk dh (KeyRequest.use (.issue t seed sys)) _ _ _, fun _ => rfl⟩

/-- What a proof request at the point `I` leads to. -/
theorem wireSim_prove (pk : PublicKey P) (dh : P → P) (coins : KeyUse P → Arr 64 × Arr 64) (val : SecretValue P → Bytes)
    (pg as rs) (hpg : NoInputs pg) (malleable : Bool) (log : List MOp) (extra : Transcript) (sys : Rng)
    (k : KeyAnswer P ⊕ Bytes → Client (WireRequest P) (KeyAnswer P ⊕ Bytes) α) :
    ∃ (a : Arr 64 → KeyAnswer P) (pg' : Arr 64 → List (List MOp × Arr 64)), (∀ w, NoInputs (pg' w)) ∧
      wireSim pk dh coins val pg as rs (.request (.prove malleable log extra sys) k) =
        .ask (vrfInputQuery malleable log pk.compressed.1) (fun w => wireSim pk dh coins val (pg' w)
          (vrfInputQuery malleable log pk.compressed.1 :: as) (.inl (.prove extra (fromUniform w) true sys) :: rs) (k (.inl (a w)))) ∧
      ∀ dh', ∃ (a' : Arr 64 → KeyAnswer P) (pg'' : Arr 64 → List (List MOp × Arr 64)),
        (∀ w, dh' (fromUniform w) = dh (fromUniform w) → a' w = a w ∧ pg'' w = pg' w) ∧
        wireSim pk dh' coins val pg as rs (.request (.prove malleable log extra sys) k) =
          .ask (vrfInputQuery malleable log pk.compressed.1) (fun w => wireSim pk dh' coins val (pg'' w)
            (vrfInputQuery malleable log pk.compressed.1 :: as) (.inl (.prove extra (fromUniform w) true sys) :: rs) (k (.inl (a' w)))) := by
  have step : ∀ dh, wireSim pk dh coins val pg as rs (.request (.prove malleable log extra sys) k) = _ := fun dh => by
    simp only [wireSim, Client.onPoints, Client.noted, Client.given, Client.simulate]
    rw [hpg]
  refine ⟨_, _, fun w => ?_, step dh, fun dh' => ⟨_, _, fun w h => ?_, step dh'⟩⟩
  · exact noInputs_cons hpg pk dh (KeyRequest.use (.prove extra (fromUniform w) true sys)) _ _ _
  · have := prove_dh_congr pk h extra.log true (sys.fill 32).1
    simp only [KeyRequest.use]
    exact ⟨by rw [this.2], by rw [this.1]⟩

theorem wireSim_bytes (pk : PublicKey P) (dh : P → P) (coins : KeyUse P → Arr 64 × Arr 64) (val : SecretValue P → Bytes)
    (pg as rs) (hpg : NoInputs pg) (malleable : Bool) (log : List MOp) (ctx : Bytes) (n : Fin 65)
    (k : KeyAnswer P ⊕ Bytes → Client (WireRequest P) (KeyAnswer P ⊕ Bytes) α) :
    wireSim pk dh coins val pg as rs (.request (.bytes malleable log ctx n) k) =
      .ask (vrfInputQuery malleable log pk.compressed.1) (fun w => wireSim pk dh coins val pg
        (vrfInputQuery malleable log pk.compressed.1 :: as) (.inr (.vrfBytes ctx (fromUniform w) n) :: rs)
        (k (.inr (val (.vrfBytes ctx (fromUniform w) n))))) := by
  simp only [wireSim, Client.onPoints, Client.noted, Client.given, Client.simulate]
  rw [hpg]

/-- Outputs at inputs already shown are of no consequence. -/
theorem sim_agree (O : Oracles) (f : D → Arr 64) (pk : PublicKey P) (dh dh' : P → P) (coins : KeyUse P → Arr 64 × Arr 64)
    (val : SecretValue P → Bytes) (fin : α → Prop) (A : Client (WireRequest P) (KeyAnswer P ⊕ Bytes) α) :
    ∀ q m pg as rs proved shown,
    ((A.onPoints pk.compressed.1).given val).Limited D KeyRequest.use K fin q m → A.Separate pk.compressed.1 proved shown → NoInputs pg →
    (∀ d : D, d.1 ∉ shown → dh' (fromUniform (f d)) = dh (fromUniform (f d))) →
    (wireSim pk dh' coins val pg as rs A).run (table O D f) = (wireSim pk dh coins val pg as rs A).run (table O D f) ∧
    (wireSim pk dh' coins val pg as rs A).asked (table O D f) = (wireSim pk dh coins val pg as rs A).asked (table O D f) := by
  induction A with
  | ret a => intros; exact ⟨rfl, rfl⟩
  | ask l k ih =>
    rintro q m pg as rs proved shown ⟨hl, q', rfl, hL⟩ hsep hpg hdh
    rw [wireSim_ask, wireSim_ask]
    cases pg.lookup l with
    | some w => exact ih w q' m pg _ rs proved shown (hL w) (hsep w) hpg hdh
    | none =>
      have := ih ((table O D f).merlin l 64) q' m pg (l :: as) rs proved shown (hL _) (hsep _) hpg hdh
      exact ⟨this.1, congrArg (l :: ·) this.2⟩
  | request r k ih =>
    cases r with
    | sign t sys =>
      rintro q m pg as rs proved shown ⟨-, m', rfl, hL⟩ hsep hpg hdh
      obtain ⟨a, pg', h1, h2⟩ := wireSim_sign pk dh coins val pg as rs t sys k
      rw [h2, h2]
      exact ih _ q m' pg' as _ proved shown (hL a) (hsep _) (h1 hpg) hdh
    | issue t seed sys =>
      rintro q m pg as rs proved shown ⟨-, m', rfl, hL⟩ hsep hpg hdh
      obtain ⟨a, pg', h1, h2⟩ := wireSim_issue pk dh coins val pg as rs t seed sys k
      rw [h2, h2]
      exact ih _ q m' pg' as _ proved shown (hL a) (hsep _) (h1 hpg) hdh
    | prove malleable log extra sys =>
      rintro q m pg as rs proved shown ⟨hl, q', rfl, hL⟩ hsep hpg hdh
      obtain ⟨-, m', rfl, hL'⟩ := hL (f ⟨_, hl⟩)
      obtain ⟨a, pg', h1, h2, h3⟩ := wireSim_prove pk dh coins val pg as rs hpg malleable log extra sys k
      obtain ⟨a', pg'', h4, h5⟩ := h3 dh'
      have e := h4 (f ⟨_, hl⟩) (hdh ⟨_, hl⟩ hsep.1)
      rw [h2, h5]
      simp only [Algo.run, Algo.asked, table_hit O D f _ hl, e.1, e.2]
      have := ih (.inl (a (f ⟨_, hl⟩))) q' m' (pg' (f ⟨_, hl⟩)) (vrfInputQuery malleable log pk.compressed.1 :: as)
        (.inl (.prove extra (fromUniform (f ⟨_, hl⟩)) true sys) :: rs) _ shown (hL' _) (hsep.2 _) (h1 _) hdh
      exact ⟨this.1, congrArg (_ :: ·) this.2⟩
    | bytes malleable log ctx n =>
      rintro q m pg as rs proved shown ⟨hl, q', rfl, hL⟩ hsep hpg hdh
      rw [wireSim_bytes _ _ _ _ _ _ _ hpg, wireSim_bytes _ _ _ _ _ _ _ hpg]
      simp only [Algo.run, Algo.asked, table_hit O D f _ hl]
      have := ih (.inr (val (.vrfBytes ctx (fromUniform (f ⟨_, hl⟩)) n))) q' m pg (vrfInputQuery malleable log pk.compressed.1 :: as)
        (.inr (.vrfBytes ctx (fromUniform (f ⟨_, hl⟩)) n) :: rs) proved _ (hL _) (hsep.2 _) hpg
        (fun d hd => hdh d fun h => hd (List.mem_cons_of_mem _ h))
      exact ⟨this.1, congrArg (_ :: ·) this.2⟩

/-- Bytes are shown at points that hash answers are mapped to; and the output at such a point is not used for anything else. -/
theorem sim_shown (O : Oracles) (f : D → Arr 64) (pk : PublicKey P) (dh : P → P) (coins : KeyUse P → Arr 64 × Arr 64)
    (val : SecretValue P → Bytes) (fin : α → Prop) (A : Client (WireRequest P) (KeyAnswer P ⊕ Bytes) α) :
    ∀ q m pg as rs proved shown,
    ((A.onPoints pk.compressed.1).given val).Limited D KeyRequest.use K fin q m → A.Separate pk.compressed.1 proved shown → NoInputs pg →
    ∀ v, .inr v ∈ ((wireSim pk dh coins val pg as rs A).run (table O D f)).2.2 → .inr v ∈ rs ∨
      ∃ (d : D) (ctx : Bytes) (n : Fin 65), d.1 ∈ (wireSim pk dh coins val pg as rs A).asked (table O D f) ∧ d.1 ∉ proved ∧
        v = .vrfBytes ctx (fromUniform (f d)) n ∧
        ∀ dh' : P → P, (∀ d' : D, d' ≠ d → dh' (fromUniform (f d')) = dh (fromUniform (f d'))) →
          (wireSim pk dh' coins val pg as rs A).run (table O D f) = (wireSim pk dh coins val pg as rs A).run (table O D f) ∧
          (wireSim pk dh' coins val pg as rs A).asked (table O D f) = (wireSim pk dh coins val pg as rs A).asked (table O D f) := by
  induction A with
  | ret a => intro q m pg as rs proved shown _ _ _ v hv; exact .inl hv
  | ask l k ih =>
    rintro q m pg as rs proved shown ⟨hl, q', rfl, hL⟩ hsep hpg v hv
    simp only [wireSim_ask] at hv ⊢
    cases hlk : pg.lookup l with
    | some w =>
      simp only [hlk] at hv ⊢
      exact ih w q' m pg _ rs proved shown (hL w) (hsep w) hpg v hv
    | none =>
      simp only [hlk, Algo.run, Algo.asked] at hv ⊢
      rcases ih _ q' m pg _ rs proved shown (hL _) (hsep _) hpg v hv with h | ⟨d, ctx, n, h1, h2, h3, h4⟩
      · exact .inl h
      · exact .inr ⟨d, ctx, n, List.mem_cons_of_mem _ h1, h2, h3, fun dh' h => ⟨(h4 dh' h).1, congrArg (l :: ·) (h4 dh' h).2⟩⟩
  | request r k ih =>
    cases r with
    | sign t sys =>
      rintro q m pg as rs proved shown ⟨-, m', rfl, hL⟩ hsep hpg v hv
      obtain ⟨a, pg', h1, h2⟩ := wireSim_sign pk dh coins val pg as rs t sys k
      simp only [h2] at hv ⊢
      rcases ih _ q m' pg' as _ proved shown (hL a) (hsep _) (h1 hpg) v hv with h | h
      · exact .inl (by simpa using h)
      · exact .inr h
    | issue t seed sys =>
      rintro q m pg as rs proved shown ⟨-, m', rfl, hL⟩ hsep hpg v hv
      obtain ⟨a, pg', h1, h2⟩ := wireSim_issue pk dh coins val pg as rs t seed sys k
      simp only [h2] at hv ⊢
      rcases ih _ q m' pg' as _ proved shown (hL a) (hsep _) (h1 hpg) v hv with h | h
      · exact .inl (by simpa using h)
      · exact .inr h
    | prove malleable log extra sys =>
      rintro q m pg as rs proved shown ⟨hl, q', rfl, hL⟩ hsep hpg v hv
      obtain ⟨-, m', rfl, hL'⟩ := hL (f ⟨_, hl⟩)
      obtain ⟨a, pg', h1, h2, h3⟩ := wireSim_prove pk dh coins val pg as rs hpg malleable log extra sys k
      rw [h2] at hv ⊢
      simp only [Algo.run, Algo.asked, table_hit O D f _ hl] at hv ⊢
      rcases ih _ q' m' (pg' (f ⟨_, hl⟩)) _ _ _ shown (hL' _) (hsep.2 _) (h1 _) v hv with h | ⟨d, ctx, n, g1, g2, g3, g4⟩
      · exact .inl (by simpa using h)
      · have hd : (⟨_, hl⟩ : D) ≠ d := fun e => g2 (by rw [← e]; exact List.mem_cons_self)
        refine .inr ⟨d, ctx, n, List.mem_cons_of_mem _ g1, fun h => g2 (List.mem_cons_of_mem _ h), g3, fun dh' h => ?_⟩
        obtain ⟨a', pg'', h4, h5⟩ := h3 dh'
        have e := h4 (f ⟨_, hl⟩) (h ⟨_, hl⟩ hd)
        rw [h5]
        simp only [Algo.run, Algo.asked, table_hit O D f _ hl, e.1, e.2]
        exact ⟨(g4 dh' h).1, congrArg (_ :: ·) (g4 dh' h).2⟩
    | bytes malleable log ctx n =>
      rintro q m pg as rs proved shown ⟨hl, q', rfl, hL⟩ hsep hpg v hv
      simp only [wireSim_bytes _ _ _ _ _ _ _ hpg, Algo.run, Algo.asked, table_hit O D f _ hl] at hv ⊢
      rcases ih _ q' m pg _ _ proved _ (hL _) (hsep.2 _) hpg v hv with h | ⟨d, ctx', n', g1, g2, g3, g4⟩
      · rcases List.mem_cons.mp h with h | h
        · refine .inr ⟨⟨_, hl⟩, ctx, n, List.mem_cons_self, hsep.1, by cases h; rfl, fun dh' h' => ?_⟩
          have := sim_agree O f pk dh dh' coins val fin _ q' m pg (vrfInputQuery malleable log pk.compressed.1 :: as)
            (.inr (.vrfBytes ctx (fromUniform (f ⟨_, hl⟩)) n) :: rs) proved _ (hL _)
            (hsep.2 (.inr (val (.vrfBytes ctx (fromUniform (f ⟨_, hl⟩)) n)))) hpg
            (fun d hd => h' d fun e => hd (by rw [e]; exact List.mem_cons_self))
          exact ⟨this.1, congrArg (_ :: ·) this.2⟩
        · exact .inl h
      · exact .inr ⟨d, ctx', n', List.mem_cons_of_mem _ g1, g2, g3, fun dh' h => ⟨(g4 dh' h).1, congrArg (_ :: ·) (g4 dh' h).2⟩⟩

/-! ### Planting an answer -/

/-- Exchange the answer to the query asked at step `j`, if it is new, for another one. -/
noncomputable def replant {β : Type} (O : Oracles) (B : Algo β) (j : Nat) (x : (D → Arr 64) × Arr 64) : (D → Arr 64) × Arr 64 :=
  match newAt O B j x.1 with
  | some k => (Function.update x.1 k x.2, x.1 k)
  | none => x

theorem newAt_update {β : Type} (O : Oracles) (B : Algo β) (n j : Nat) (hB : B.Within O D n) (f : D → Arr 64) (k : D)
    (h : newAt O B j f = some k) (w : Arr 64) : newAt O B j (Function.update f k w) = some k := by
  rw [newAt_adapted O B n j hB f _ fun k' hk' => Function.update_of_ne (fun e : k' = k => (newAt_new O B j f k h).1 (e ▸ hk')) _ _]
  exact h

theorem replant_invol {β : Type} (O : Oracles) (B : Algo β) (n j : Nat) (hB : B.Within O D n) :
    Function.Involutive (replant O B j : (D → Arr 64) × Arr 64 → _) := by
  rintro ⟨f, w⟩
  cases h : newAt O B j f with
  | none => simp only [replant, h]
  | some k =>
    have h' := newAt_update O B n j hB f k h w
    simp only [replant, h]
    simp only [h', Function.update_self, Function.update_idem, Function.update_eq_self]

/-- The answer to the query asked at step `j` may be drawn separately. -/
theorem chance_replant {β : Type} (O : Oracles) (B : Algo β) (n j : Nat) (hB : B.Within O D n) (Q : (D → Arr 64) → D → Prop) :
    chance (fun f : D → Arr 64 => ∃ k, newAt O B j f = some k ∧ Q f k) =
    chance (fun x : (D → Arr 64) × Arr 64 => ∃ k, newAt O B j x.1 = some k ∧
      Q (Function.update x.1 k x.2) k) := by
  have e1 : chance (fun f : D → Arr 64 => ∃ k, newAt O B j f = some k ∧ Q f k) =
      avg (fun x : (D → Arr 64) × Arr 64 => ind (∃ k, newAt O B j x.1 = some k ∧ Q x.1 k)) := by
    rw [avg_prod, chance_eq_avg]
    refine avg_congr fun f => ?_
    simp only
    rw [avg_const (Ω := Arr 64)]
  rw [e1, chance_eq_avg, ← avg_equiv (replant_invol O B n j hB).toPerm]
  refine avg_congr fun x => ?_
  refine congrArg ind (propext ?_)
  simp only [Function.Involutive.coe_toPerm]
  cases h : newAt O B j x.1 with
  | none => simp only [replant, h, reduceCtorEq, false_and, exists_false]
  | some k =>
    have h' := newAt_update O B n j hB x.1 k h x.2
    simp only [replant, h, h', Option.some.injEq, exists_eq_left']

theorem chance_exists_le {ι Ω : Type} [Fintype ι] [Finite Ω] (E : ι → Ω → Prop) :
    chance (fun ω => ∃ i, E i ω) ≤ Fintype.card ι * chance (fun x : ι × Ω => E x.1 x.2) := by
  classical
  rcases isEmpty_or_nonempty ι with hι | hι
  · simp [chance]
  have e : chance (fun x : ι × Ω => E x.1 x.2) = (∑ i, chance (E i)) / Fintype.card ι := by
    rw [chance_eq_avg, avg_prod, avg_eq]
    simp only [chance_eq_avg]
  rw [e, mul_div_cancel₀ _ (by exact_mod_cast Fintype.card_ne_zero)]
  have key : ∀ s : Finset ι, chance (fun ω => ∃ i ∈ s, E i ω) ≤ ∑ i ∈ s, chance (E i) := by
    intro s
    induction s using Finset.induction_on with
    | empty => simp [chance]
    | insert a s ha ih =>
      rw [Finset.sum_insert ha]
      refine le_trans (le_trans (chance_mono ?_) chance_or) (add_le_add_right ih _)
      rintro ω ⟨i, hi, h⟩
      rcases Finset.mem_insert.mp hi with rfl | hi
      · exact Or.inl h
      · exact Or.inr ⟨i, hi, h⟩
  refine le_trans (chance_mono ?_) (key Finset.univ)
  rintro ω ⟨i, h⟩
  exact ⟨i, Finset.mem_univ _, h⟩

/-! ### The solver -/

theorem outputsExcept_eq (log : Arr 64 → Z) (hlog : ∀ w, (fromUniform w : P) = log w • basepoint) (x : Z) (f : D → Arr 64)
    (target : Option (List MOp)) (d : D) (hd : some d.1 ≠ target) :
    outputsExcept (x • basepoint : P) (fun d => (f d, log (f d))) target (fromUniform (f d)) = x • (fromUniform (f d) : P) := by
  classical
  have h : ∃ d' : D, some d'.1 ≠ target ∧ (fromUniform (f d') : P) = fromUniform (f d) := ⟨d, hd, rfl⟩
  unfold outputsExcept
  rw [dif_pos h]
  conv_rhs => rw [← h.choose_spec.2, hlog]
  rw [smul_comm]

theorem lastMessage_result (ctx a b : Bytes) (n : Nat) : lastMessage (vrfResultQuery ctx (a, b) n) = b := by
  have := absorbed_end [.append (b! "dom-sep") (b! "VRFResult"), .append (b! "") ctx] [(b! "vrf-in", a), (b! "vrf-out", b)] (b! "") n
  simp only [List.map_cons, List.map_nil] at this
  simp only [lastMessage, vrfResultQuery, pairFrames]
  rw [this]
  rfl

theorem values_univ (A : Client (KeyRequest P ⊕ SecretValue P) (KeyAnswer P ⊕ Bytes) α) : A.Values SecretValue.Fits Set.univ := by
  induction A with
  | ret a => trivial
  | ask q k ih => exact fun w => ih w
  | request r k ih =>
    cases r with
    | inl r => exact fun a => ih _
    | inr v => exact ⟨trivial, fun y _ => ih _⟩

theorem chance_avg_prod {Ω Ω' : Type} [Finite Ω] [Finite Ω'] (p : Ω × Ω' → Prop) :
    chance p = avg fun a => chance fun b => p (a, b) := by
  rw [chance_eq_avg, avg_prod]
  simp only [chance_eq_avg]

/-- Clashes happen no more often than the solver succeeds, up to the square of the number of hash queries. -/
theorem vrf_clash_le_solver (O : Oracles) (log : Arr 64 → Z) (hlog : ∀ w, (fromUniform w : P) = log w • basepoint) (x : Z)
    (A : Client (WireRequest P) (KeyAnswer P ⊕ Bytes) α) (q m : Nat) (fin : α → Prop)
    (hA : ∀ val : SecretValue P → Bytes, (∀ v, SecretValue.Fits v (val v)) →
      ((A.onPoints (compress (x • basepoint : P)).1).given val).Limited D KeyRequest.use K fin q m)
    (hsep : A.Separate (compress (x • basepoint : P)).1 [] []) :
    chance (fun ω : (K → Arr 64 × Arr 64) × (D → Arr 64) × (S → Arr 64) =>
        let r := (withoutSecrets (PublicKey.fromPoint (x • basepoint)) (fun I => x • I)
          (A.onPoints (compress (x • basepoint : P)).1) ω.1 ω.2.2).run (table O D ω.2.1)
        ∃ v, .inr v ∈ r.2.2 ∧ v.query ⟨⟨Scalar.ofZ x, zeros 32⟩, PublicKey.fromPoint (x • basepoint)⟩ ∈ r.2.1) ≤
      q ^ 2 * chance (fun ω : (Fin q × Fin q) × (K → Arr 64 × Arr 64) × (S → Arr 64) × ((D → Arr 64) × Arr 64) =>
        vrfSolver O (x • basepoint) A ω.2.1 (fun d => (ω.2.2.2.1 d, log (ω.2.2.2.1 d))) ω.2.2.1 ω.2.2.2.2 ω.1.1 ω.1.2 =
          (compress (x • (fromUniform ω.2.2.2.2 : P))).1) := by
  let pk : PublicKey P := PublicKey.fromPoint (x • basepoint)
  let W := fun (dh : P → P) (C : K → Arr 64 × Arr 64) (g : S → Arr 64) => wireSim pk dh (coinsOf C) (randomValue g) [] [] [] A
  let B := fun (C : K → Arr 64 × Arr 64) (g : S → Arr 64) => W (fun I => x • I) C g
  have hB : ∀ C g, (B C g).Within O D q := fun C g f => by
    obtain ⟨h1, h2, -⟩ := simulate_limited (D := D) (K := K) (table O D f) (KeyUse.query pk fun I => x • I) (KeyUse.answer pk fun I => x • I)
      KeyRequest.use (coinsOf C) _ _ q m [] (noted_limited KeyRequest.use _ _ _ q m [] [] (hA _ (random_fits g)))
    exact ⟨h1, h2⟩
  let Q := fun (i : Nat) (C : K → Arr 64 × Arr 64) (g : S → Arr 64) (f : D → Arr 64) (k : D) =>
    (∀ dh' : P → P, (∀ d' : D, d' ≠ k → dh' (fromUniform (f d')) = x • fromUniform (f d')) →
      (W dh' C g).run (table O D f) = (B C g).run (table O D f)) ∧
    ∃ l, ((B C g).run (table O D f)).2.1[i]? = some l ∧ lastMessage l = (compress (x • (fromUniform (f k) : P))).1
  have hcount : ∀ C g f, ((B C g).run (table O D f)).2.1.length ≤ q := fun C g f => by
    have := (noted_run (K := K) (table O D f) (KeyUse.query pk fun I => x • I) (KeyUse.answer pk fun I => x • I) (coinsOf C) (randomValue g)
      (random_fits g) Set.univ fin (A.onPoints (compress (x • basepoint : P)).1) q m [] [] [] (hA _ (random_fits g)) (values_univ _)
      (fun _ _ => trivial)).1
    rw [List.length_nil, Nat.zero_add] at this
    exact this
  have hcover : chance (fun ω : (K → Arr 64 × Arr 64) × (D → Arr 64) × (S → Arr 64) =>
        let r := (withoutSecrets (PublicKey.fromPoint (x • basepoint)) (fun I => x • I)
          (A.onPoints (compress (x • basepoint : P)).1) ω.1 ω.2.2).run (table O D ω.2.1)
        ∃ v, .inr v ∈ r.2.2 ∧ v.query ⟨⟨Scalar.ofZ x, zeros 32⟩, PublicKey.fromPoint (x • basepoint)⟩ ∈ r.2.1) ≤
      chance (fun ω : (K → Arr 64 × Arr 64) × (D → Arr 64) × (S → Arr 64) => ∃ ji : Fin q × Fin q, ∃ k,
        newAt O (B ω.1 ω.2.2) ji.1 ω.2.1 = some k ∧ Q ji.2 ω.1 ω.2.2 ω.2.1 k) := by
    refine chance_mono ?_
    rintro ⟨C, f, g⟩ ⟨v, hv, hq⟩
    rcases sim_shown O f pk (fun I => x • I) (coinsOf C) (randomValue g) fin A q m [] [] [] [] [] (hA _ (random_fits g)) hsep
      (fun _ _ _ => rfl) v hv with h | ⟨d, ctx, n, h1, -, h3, h4⟩
    · exact absurd h List.not_mem_nil
    · obtain ⟨hj, hnew⟩ := exists_newAt O (B C g) q (hB C g) f d.1 h1
      obtain ⟨i, hi, hil⟩ := List.getElem_of_mem hq
      refine ⟨(⟨_, hj⟩, ⟨i, lt_of_lt_of_le hi (hcount C g f)⟩), d, hnew, fun dh' h => (h4 dh' h).1, _,
        List.getElem?_eq_getElem hi, ?_⟩
      refine (congrArg lastMessage hil).trans ?_
      rw [h3]
      simp only [SecretValue.query, Scalar.toZ_ofZ]
      exact lastMessage_result _ _ _ _
  refine le_trans hcover (le_trans (chance_exists_le fun (ji : Fin q × Fin q) (ω : (K → Arr 64 × Arr 64) × (D → Arr 64) × (S → Arr 64)) =>
    ∃ k, newAt O (B ω.1 ω.2.2) ji.1 ω.2.1 = some k ∧ Q ji.2 ω.1 ω.2.2 ω.2.1 k) ?_)
  have hcard : ((Fintype.card (Fin q × Fin q) : Nat) : ℚ) = (q : ℚ) ^ 2 := by
    rw [Fintype.card_prod, Fintype.card_fin, Nat.cast_mul, sq]
  rw [hcard]
  refine mul_le_mul_of_nonneg_left ?_ (by positivity)
  rw [chance_avg_prod, chance_avg_prod]
  refine avg_mono fun ji => ?_
  rw [chance_avg_prod, chance_avg_prod]
  refine avg_mono fun C => ?_
  rw [chance_avg_prod, chance_avg_prod]
  simp only [chance_eq_avg]
  rw [avg_comm]
  refine avg_mono fun g => ?_
  rw [← chance_eq_avg, ← chance_eq_avg, chance_replant O (B C g) q ji.1 (hB C g) (Q ji.2 C g)]
  refine chance_mono ?_
  rintro ⟨f, w⟩ ⟨k, hk, hQ, l, hl, hlast⟩
  have hfirst := (sim_agree O f pk (fun I => x • I) (outputsExcept (x • basepoint) (fun d => (f d, log (f d))) none) (coinsOf C) (randomValue g)
    fin A q m [] [] [] [] [] (hA _ (random_fits g)) hsep (fun _ _ _ => rfl)
    (fun d _ => outputsExcept_eq log hlog x f none d (by simp))).2
  have hsecond := hQ (outputsExcept (x • basepoint) (fun d => (f d, log (f d))) (some k.1)) fun d hd => by
    simp only at hd ⊢
    rw [Function.update_of_ne hd]
    exact outputsExcept_eq log hlog x f _ d fun e => hd (Subtype.ext (Option.some.inj e))
  have hj := (newAt_new O (B C g) ji.1 f k hk).2
  simp only at hl hlast hsecond
  unfold vrfSolver
  have e1 : ((withoutSecrets (PublicKey.fromPoint (x • basepoint)) (outputsExcept (x • basepoint) (fun d => (f d, log (f d))) none)
      (A.onPoints (PublicKey.fromPoint (x • basepoint : P)).compressed.1) C g).asked (table O D fun d => f d))[ji.1.1]? = some k.1 :=
    (congrArg (·[ji.1.1]?) hfirst).trans hj
  have e2 : ((withoutSecrets (PublicKey.fromPoint (x • basepoint)) (outputsExcept (x • basepoint) (fun d => (f d, log (f d))) (some k.1))
      (A.onPoints (PublicKey.fromPoint (x • basepoint : P)).compressed.1) C g).run (program (table O D fun d => f d) k.1 w)).2.1[ji.2.1]? = some l := by
    rw [redraw_table O k.2 w]
    exact (congrArg (fun r : α × List (List MOp) × List (KeyRequest P ⊕ SecretValue P) => r.2.1[ji.2.1]?) hsecond).trans hl
  simp only [e1, e2]
  rw [hlast, Function.update_self]

/-! ### The main theorem -/

theorem wide_serve (O : Oracles) (f : D → Arr 64) (key : Scalar) (pk : PublicKey P)
    (hpk : pk.point = key.toZ • (basepoint : P)) (n : Arr 32) (A : Client (KeyRequest P) (KeyAnswer P) α) :
    A.play (wideTable O D f) (serveKey (wideTable O D f) ⟨⟨key, n⟩, pk⟩) =
      A.play (table O D f) (serveKey (table O D f) ⟨⟨key, n⟩, pk⟩) := by
  rw [play_congr (wideTable O D f) (table O D f) (wide_table_64 O f)]
  have : serveKey (wideTable O D f) ⟨⟨key, n⟩, pk⟩ = serveKey (table O D f) ⟨⟨key, n⟩, pk⟩ := by
    funext r
    exact serveKey_congr _ _ key pk hpk n r (wide_table_64 O f _) fun z => wide_table_64 O f _
  rw [this]

theorem chance_rotate {Ω₁ Ω₂ Ω₃ : Type} [Finite Ω₁] [Finite Ω₂] [Finite Ω₃] (p : Ω₁ → Ω₂ → Ω₃ → Prop) :
    chance (fun ω : Ω₁ × Ω₂ × Ω₃ => p ω.1 ω.2.1 ω.2.2) = avg fun g => chance fun ω : Ω₁ × Ω₂ => p ω.1 ω.2 g := by
  have e : chance (fun ω : Ω₁ × Ω₂ × Ω₃ => p ω.1 ω.2.1 ω.2.2) = chance (fun ω : (Ω₁ × Ω₂) × Ω₃ => p ω.1.1 ω.1.2 ω.2) := by
    rw [chance_eq_avg, chance_eq_avg, ← avg_equiv (Equiv.prodAssoc Ω₁ Ω₂ Ω₃)]
    rfl
  rw [e, chance_eq_avg, avg_prod, avg_comm]
  refine avg_congr fun g => ?_
  rw [chance_eq_avg]

attribute [local irreducible] guess spare in
theorem ideal_le (O : Oracles) (pk : PublicKey P) (key : Scalar) (hpk : pk.point = key.toZ • (basepoint : P))
    (A : Client (KeyRequest P ⊕ SecretValue P) (KeyAnswer P ⊕ Bytes) α) (q m : Nat)
    (hA : ∀ val : SecretValue P → Bytes, (∀ v, SecretValue.Fits v (val v)) → (A.given val).Limited D KeyRequest.use K (fun _ => True) q m)
    (hC : CoversKey pk (fun I => key.toZ • I) D K) (win : α → Prop) :
    chance (fun ω : Arr 32 × (D → Arr 64) × (S → Arr 64) =>
        win ((A.given (randomValue ω.2.2)).play (wideTable O D ω.2.1) (serveKey (wideTable O D ω.2.1) ⟨⟨key, ω.1⟩, pk⟩))) ≤
      chance (fun ω : (K → Arr 64 × Arr 64) × (D → Arr 64) × (S → Arr 64) =>
        win ((withoutSecrets pk (fun I => key.toZ • I) A ω.1 ω.2.2).run (table O D ω.2.1)).1) +
      (q / 2 ^ 256 + m * ((q + m : Nat) * guess + spare)) := by
  have e1 : chance (fun ω : Arr 32 × (D → Arr 64) × (S → Arr 64) =>
        win ((A.given (randomValue ω.2.2)).play (wideTable O D ω.2.1) (serveKey (wideTable O D ω.2.1) ⟨⟨key, ω.1⟩, pk⟩))) =
      avg fun g : S → Arr 64 => chance fun ω : Arr 32 × (D → Arr 64) =>
        win (((A.noted [] []).given (randomValue g)).play (table O D ω.2) (serveKey (table O D ω.2) ⟨⟨key, ω.1⟩, pk⟩)).1 := by
    simp only [noted_given_play, ← wide_serve O _ key pk hpk]
    exact chance_rotate fun (n : Arr 32) (f : D → Arr 64) (g : S → Arr 64) =>
      win ((A.given (randomValue g)).play (wideTable O D f) (serveKey (wideTable O D f) ⟨⟨key, n⟩, pk⟩))
  have e2 : chance (fun ω : (K → Arr 64 × Arr 64) × (D → Arr 64) × (S → Arr 64) =>
        win ((withoutSecrets pk (fun I => key.toZ • I) A ω.1 ω.2.2).run (table O D ω.2.1)).1) =
      avg fun g : S → Arr 64 => chance fun ω : (K → Arr 64 × Arr 64) × (D → Arr 64) =>
        win ((withoutSecrets pk (fun I => key.toZ • I) A ω.1 g).run (table O D ω.2)).1 :=
    chance_rotate fun (C : K → Arr 64 × Arr 64) (f : D → Arr 64) (g : S → Arr 64) =>
      win ((withoutSecrets pk (fun I => key.toZ • I) A C g).run (table O D f)).1
  rw [e1, e2]
  have := avg_mono (Ω := S → Arr 64) fun g => key_services_le O pk key hpk ((A.noted [] []).given (randomValue g)) q m
    (noted_limited KeyRequest.use _ _ A q m [] [] (hA _ (random_fits g))) hC fun r => win r.1
  refine le_trans this (le_of_eq ?_)
  rw [avg_add, avg_const (Ω := S → Arr 64)]
  rfl

attribute [local irreducible] guess spare in
theorem vrf_pseudorandom_for (O : Oracles) (log : Arr 64 → Z) (hlog : ∀ w, (fromUniform w : P) = log w • basepoint) (x : Z)
    (A : Client (WireRequest P) (KeyAnswer P ⊕ Bytes) α) (q m : Nat)
    (hA : ∀ val : SecretValue P → Bytes, (∀ v, SecretValue.Fits v (val v)) →
      ((A.onPoints (compress (x • basepoint : P)).1).given val).Limited D KeyRequest.use K (fun _ => True) q m)
    (hS : (A.onPoints (compress (x • basepoint : P)).1).Values SecretValue.Fits {v | v ∈ S})
    (hsep : A.Separate (compress (x • basepoint : P)).1 [] [])
    (hC : CoversKey (publicOf x) (fun I => x • I) D K) (hV : CoversValues ⟨⟨Scalar.ofZ x, zeros 32⟩, publicOf x⟩ D S) (win : α → Prop) :
    |chance (fun ω : Arr 32 × (D → Arr 64) =>
        win (A.play (wideTable O D ω.2) (serveWire (wideTable O D ω.2) ⟨⟨Scalar.ofZ x, ω.1⟩, PublicKey.fromPoint (x • basepoint)⟩))) -
      chance (fun ω : Arr 32 × (D → Arr 64) × (S → Arr 64) =>
        win (A.play (wideTable O D ω.2.1) (serveIdeal (wideTable O D ω.2.1)
          ⟨⟨Scalar.ofZ x, ω.1⟩, PublicKey.fromPoint (x • basepoint)⟩ ω.2.2)))| ≤
      q ^ 2 * chance (fun ω : (Fin q × Fin q) × (K → Arr 64 × Arr 64) × (S → Arr 64) × ((D → Arr 64) × Arr 64) =>
        vrfSolver O (x • basepoint) A ω.2.1 (fun d => (ω.2.2.2.1 d, log (ω.2.2.2.1 d))) ω.2.2.1 ω.2.2.2.2 ω.1.1 ω.1.2 =
          (compress (x • (fromUniform ω.2.2.2.2 : P))).1) +
      2 * (q / 2 ^ 256 + m * ((q + m : Nat) * guess + spare)) := by
  have hk := Scalar.canonical_ofZ x
  have hpk : (publicOf x : PublicKey P).point = (Scalar.ofZ x).toZ • (basepoint : P) := by
    rw [Scalar.toZ_ofZ]; rfl
  have hC' : CoversKey (publicOf x) (fun I => (Scalar.ofZ x).toZ • I) D K := by rw [Scalar.toZ_ofZ]; exact hC
  have h1 := secret_values_pseudorandom O (publicOf x) (Scalar.ofZ x) hpk _ q m hA hS hC' hV win
  have h2 := ideal_le (S := S) O (publicOf x) (Scalar.ofZ x) hpk _ q m hA hC' win
  have h3 := ideal_le (S := S) O (publicOf x) (Scalar.ofZ x) hpk _ q m hA hC' fun r => ¬ win r
  have h4 := vrf_clash_le_solver (S := S) O log hlog x A q m (fun _ => True) hA hsep
  simp only [Scalar.toZ_ofZ] at h1 h2 h3
  rw [chance_not (fun ω : Arr 32 × (D → Arr 64) × (S → Arr 64) => win (((A.onPoints (compress (x • basepoint : P)).1).given
      (randomValue ω.2.2)).play (wideTable O D ω.2.1) (serveKey (wideTable O D ω.2.1) ⟨⟨Scalar.ofZ x, ω.1⟩, publicOf x⟩))),
    chance_not (fun ω : (K → Arr 64 × Arr 64) × (D → Arr 64) × (S → Arr 64) =>
        win ((withoutSecrets (publicOf x) (fun I => x • I) (A.onPoints (compress (x • basepoint : P)).1) ω.1 ω.2.2).run (table O D ω.2.1)).1)] at h3
  have r1 : ∀ ω : Arr 32 × (D → Arr 64), (A.onPoints (compress (x • basepoint : P)).1).play (wideTable O D ω.2)
      (serveOwner (wideTable O D ω.2) ⟨⟨Scalar.ofZ x, ω.1⟩, publicOf x⟩) =
      A.play (wideTable O D ω.2) (serveWire (wideTable O D ω.2) ⟨⟨Scalar.ofZ x, ω.1⟩, PublicKey.fromPoint (x • basepoint)⟩) := fun ω =>
    onPoints_play _ ⟨⟨Scalar.ofZ x, ω.1⟩, PublicKey.fromPoint (x • basepoint)⟩ A
  have r2 : ∀ ω : Arr 32 × (D → Arr 64) × (S → Arr 64), ((A.onPoints (compress (x • basepoint : P)).1).given
      (randomValue ω.2.2)).play (wideTable O D ω.2.1) (serveKey (wideTable O D ω.2.1) ⟨⟨Scalar.ofZ x, ω.1⟩, publicOf x⟩) =
      A.play (wideTable O D ω.2.1) (serveIdeal (wideTable O D ω.2.1) ⟨⟨Scalar.ofZ x, ω.1⟩, PublicKey.fromPoint (x • basepoint)⟩ ω.2.2) := fun ω =>
    onPoints_ideal _ ⟨⟨Scalar.ofZ x, ω.1⟩, PublicKey.fromPoint (x • basepoint)⟩ ω.2.2 A
  simp only [r1] at h1
  simp only [r2] at h2 h3
  have h5 := le_trans h1 (add_le_add_left h4 _)
  rw [abs_le] at h5 ⊢
  constructor <;> linarith [h5.1, h5.2]

theorem avg_mul_left {Ω : Type} [Finite Ω] (F : Ω → ℚ) (c : ℚ) : (avg fun ω => c * F ω) = c * avg F := by
  simp only [mul_comm c]
  exact avg_mul_const F c

/-- **C80** VRF outputs are pseudorandom.  A secret scalar `x` is drawn in any way (`keys`).  A client is given `X = x • B`,
makes at most `q` hash queries (one for each VRF input included), and gets from the owner at most `m` signatures,
certificates and VRF outputs with proofs, and any number of strings made by `make_bytes` from the VRF outputs on transcripts
for which it gets no proof, all adaptively and with the system RNG under its control.  Whatever it is trying to find out
(`win`), replacing these strings by independent random ones makes a difference of at most `q²` times the probability that
`vrfSolver`, given `X` and 64 random bytes, finds `x • Y` for the point `Y` made of these bytes, plus
`2 (q/2²⁵⁶ + m((q+m)·guess + spare))`. -/
theorem vrf_outputs_pseudorandom (O : Oracles) (log : Arr 64 → Z) (hlog : ∀ w, (fromUniform w : P) = log w • basepoint)
    {Ω : Type} [Finite Ω] [Nonempty Ω] (keys : Ω → Z) (A : P → Client (WireRequest P) (KeyAnswer P ⊕ Bytes) α) (q m : Nat)
    (hA : ∀ ω, ∀ val : SecretValue P → Bytes, (∀ v, SecretValue.Fits v (val v)) →
      (((A (keys ω • basepoint)).onPoints (compress (keys ω • basepoint : P)).1).given val).Limited D KeyRequest.use K (fun _ => True) q m)
    (hS : ∀ ω, ((A (keys ω • basepoint)).onPoints (compress (keys ω • basepoint : P)).1).Values SecretValue.Fits {v | v ∈ S})
    (hsep : ∀ ω, (A (keys ω • basepoint)).Separate (compress (keys ω • basepoint : P)).1 [] [])
    (hC : ∀ ω, CoversKey (publicOf (keys ω)) (fun I => keys ω • I) D K)
    (hV : ∀ ω, CoversValues ⟨⟨Scalar.ofZ (keys ω), zeros 32⟩, publicOf (keys ω)⟩ D S) (win : P → α → Prop) :
    |chance (fun ω : Ω × Arr 32 × (D → Arr 64) =>
        let X := keys ω.1 • (basepoint : P)
        win X ((A X).play (wideTable O D ω.2.2) (serveWire (wideTable O D ω.2.2) ⟨⟨Scalar.ofZ (keys ω.1), ω.2.1⟩, PublicKey.fromPoint X⟩))) -
      chance (fun ω : Ω × Arr 32 × (D → Arr 64) × (S → Arr 64) =>
        let X := keys ω.1 • (basepoint : P)
        win X ((A X).play (wideTable O D ω.2.2.1) (serveIdeal (wideTable O D ω.2.2.1)
          ⟨⟨Scalar.ofZ (keys ω.1), ω.2.1⟩, PublicKey.fromPoint X⟩ ω.2.2.2)))| ≤
      q ^ 2 * chance (fun ω : Ω × (Fin q × Fin q) × (K → Arr 64 × Arr 64) × (S → Arr 64) × ((D → Arr 64) × Arr 64) =>
        let X := keys ω.1 • (basepoint : P)
        let w := ω.2.2.2.2.2
        let F := fun d => (ω.2.2.2.2.1 d, log (ω.2.2.2.2.1 d))
        vrfSolver O X (A X) ω.2.2.1 F ω.2.2.2.1 w ω.2.1.1 ω.2.1.2 = (compress (keys ω.1 • (fromUniform w : P))).1) +
      2 * (q / 2 ^ 256 + m * ((q + m : Nat) * guess + spare)) := by
  have key := abs_avg_sub_le _ _ _ _ fun ω =>
    vrf_pseudorandom_for O log hlog (keys ω) _ q m (hA ω) (hS ω) (hsep ω) (hC ω) (hV ω) (win (keys ω • basepoint))
  rw [avg_mul_left] at key
  rw [chance_avg_prod, chance_avg_prod, chance_avg_prod]
  exact key

/-- Logarithms exist. -/
theorem exists_log : ∃ log : Arr 64 → Z, ∀ w, (fromUniform w : P) = log w • basepoint :=
  ⟨_, fun w => (exists_smul_basepoint (fromUniform w : P)).choose_spec⟩

/-- **C80** every client is within some bounds, with all finite sets that `vrf_outputs_pseudorandom` asks for. -/
theorem every_vrf_client_is_limited {Ω : Type} [Finite Ω] (keys : Ω → Z) (A : P → Client (WireRequest P) (KeyAnswer P ⊕ Bytes) α) :
    ∃ (D : Finset (List MOp)) (K : Finset (KeyUse P)) (S : Finset (SecretValue P)) (q m : Nat),
      (∀ ω, ∀ val : SecretValue P → Bytes, (∀ v, SecretValue.Fits v (val v)) →
        (((A (keys ω • basepoint)).onPoints (compress (keys ω • basepoint : P)).1).given val).Limited D KeyRequest.use K (fun _ => True) q m) ∧
      (∀ ω, ((A (keys ω • basepoint)).onPoints (compress (keys ω • basepoint : P)).1).Values SecretValue.Fits {v | v ∈ S}) ∧
      (∀ ω, CoversKey (publicOf (keys ω)) (fun I => keys ω • I) D K) ∧
      (∀ ω, CoversValues ⟨⟨Scalar.ofZ (keys ω), zeros 32⟩, publicOf (keys ω)⟩ D S) := by
  classical
  choose D K S q m h hv using fun ω => exists_owner_limited (fun _ => []) ((A (keys ω • basepoint)).onPoints (compress (keys ω • basepoint : P)).1)
  haveI := Fintype.ofFinite Ω
  haveI := Fintype.ofFinite (Arr 32)
  haveI := Fintype.ofFinite Z
  let K' : Finset (KeyUse P) := Finset.univ.biUnion K
  let S' : Finset (SecretValue P) := Finset.univ.biUnion S
  let D' : Finset (List MOp) := (Finset.univ.biUnion D ∪
    Finset.univ.biUnion fun ω : Ω => K'.biUnion fun k =>
      Finset.univ.image (fun v : Z => k.query (publicOf (keys ω)) (fun I => keys ω • I) v 0) ∪
      Finset.univ.image (fun n : Arr 32 => k.nonceQuery (publicOf (keys ω)) n)) ∪
    Finset.univ.biUnion fun ω : Ω => S'.image (SecretValue.query ⟨⟨Scalar.ofZ (keys ω), zeros 32⟩, publicOf (keys ω)⟩)
  have hD : ∀ ω, D ω ⊆ D' := fun ω x hx =>
    Finset.mem_union_left _ (Finset.mem_union_left _ (Finset.mem_biUnion.mpr ⟨ω, Finset.mem_univ _, hx⟩))
  refine ⟨D', K', S', Finset.univ.sup q, Finset.univ.sup m, fun ω val hval => ?_, fun ω => ?_, fun ω k hk => ⟨fun v => ?_, fun n => ?_⟩,
    fun ω v hv' => ?_⟩
  · exact limited_true (limited_mono KeyRequest.use _ (hD ω) (Finset.subset_biUnion_of_mem K (Finset.mem_univ ω))
      (fun a ha => hD ω ha) (Finset.le_sup (f := q) (Finset.mem_univ ω)) (Finset.le_sup (f := m) (Finset.mem_univ ω)) (h ω val hval))
  · exact values_mono _ (Finset.subset_biUnion_of_mem S (Finset.mem_univ ω)) (hv ω)
  · refine Finset.mem_union_left _ (Finset.mem_union_right _ (Finset.mem_biUnion.mpr ⟨ω, Finset.mem_univ _,
      Finset.mem_biUnion.mpr ⟨k, hk, Finset.mem_union_left _ ?_⟩⟩))
    exact Finset.mem_image_of_mem (fun v : Z => k.query (publicOf (keys ω)) (fun I => keys ω • I) v 0) (Finset.mem_univ v)
  · refine Finset.mem_union_left _ (Finset.mem_union_right _ (Finset.mem_biUnion.mpr ⟨ω, Finset.mem_univ _,
      Finset.mem_biUnion.mpr ⟨k, hk, Finset.mem_union_right _ ?_⟩⟩))
    exact Finset.mem_image_of_mem (fun n : Arr 32 => k.nonceQuery (publicOf (keys ω)) n) (Finset.mem_univ n)
  · exact Finset.mem_union_right _ (Finset.mem_biUnion.mpr ⟨ω, Finset.mem_univ _, Finset.mem_image_of_mem _ hv'⟩)

end Schnorrkel.Props
