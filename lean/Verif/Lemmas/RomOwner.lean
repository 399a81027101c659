import Verif.Lemmas.RomKey
import Verif.Spec.RomOwner

/-! # Values derived by hashing a secret against random values, for adaptive requests -/

namespace Schnorrkel
open Spec
variable {Req Ans V Val α : Type} {S : Finset V} {ok : V → Val → Prop}

theorem noted_mono (O : Oracles) (sl : Req → Ans) (val : V → Val) (A : Client (Req ⊕ V) (Ans ⊕ Val) α) :
    ∀ as rs, (∀ l ∈ as, l ∈ (((A.noted as rs).given val).play O sl).2.1) ∧
      ∀ r ∈ rs, r ∈ (((A.noted as rs).given val).play O sl).2.2 := by
  induction A with
  | ret a => intro as rs; exact ⟨fun l h => h, fun r h => h⟩
  | ask q k ih =>
    intro as rs
    obtain ⟨h1, h2⟩ := ih (O.merlin q 64) (q :: as) rs
    exact ⟨fun l h => h1 l (List.mem_cons_of_mem _ h), h2⟩
  | request r k ih =>
    intro as rs
    cases r with
    | inl r =>
      obtain ⟨h1, h2⟩ := ih (.inl (sl r)) as (.inl r :: rs)
      exact ⟨h1, fun l h => h2 l (List.mem_cons_of_mem _ h)⟩
    | inr v =>
      obtain ⟨h1, h2⟩ := ih (.inr (val v)) as (.inr v :: rs)
      exact ⟨h1, fun l h => h2 l (List.mem_cons_of_mem _ h)⟩

open Classical in
/-- Values read off a table. -/
noncomputable def valuesOf (out : V → Arr 64 → Val) (dflt : V → Val) (g : S → Arr 64) (v : V) : Val :=
  if h : v ∈ S then out v (g ⟨v, h⟩) else dflt v

/-- A value was requested, and its hash query was asked. -/
def Clash (kq : V → List MOp) (r : α × List (List MOp) × List (Req ⊕ V)) : Prop := ∃ v, .inr v ∈ r.2.2 ∧ kq v ∈ r.2.1

/-- Both partial tables together. -/
def join {ι T : Type} (L M : ι → Option T) : ι → Option T := fun x => (L x) <|> (M x)

theorem join_update_left {ι T : Type} [DecidableEq ι] (L M : ι → Option T) (x : ι) (w : T) :
    join (Function.update L x (some w)) M = Function.update (join L M) x (some w) := by
  funext y
  by_cases h : y = x
  · subst h; simp [join]
  · simp [join, Function.update_of_ne h]

theorem join_update_right {ι T : Type} [DecidableEq ι] (L M : ι → Option T) (x : ι) (w : T) (hL : L x = none) :
    join L (Function.update M x (some w)) = Function.update (join L M) x (some w) := by
  funext y
  by_cases h : y = x
  · subst h; simp [join, hL]
  · simp [join, Function.update_of_ne h]

open Classical in
theorem values_le (orc : (S → Arr 64) → Oracles) (kq : V → List MOp)
    (h1 : ∀ h x, ∀ hx : x ∈ S, (orc h).merlin (kq x) 64 = h ⟨x, hx⟩)
    (h2 : ∀ h h' l, (∀ x ∈ S, kq x ≠ l) → (orc h).merlin l 64 = (orc h').merlin l 64)
    (sl : Req → Ans) (out : V → Arr 64 → Val) (hok : ∀ v w, ok v (out v w)) (dflt : V → Val) (win : α × List (List MOp) × List (Req ⊕ V) → Prop)
    (A : Client (Req ⊕ V) (Ans ⊕ Val) α) : ∀ (as : List (List MOp)) (rs : List (Req ⊕ V)) (L M : S → Option (Arr 64)),
    A.Values ok {v | v ∈ S} → (∀ x, L x = none ∨ M x = none) → (∀ x, L x ≠ none → kq x.1 ∈ as) →
    (∀ x, M x ≠ none → .inr x.1 ∈ rs) →
    (avg fun h => ind (win (((A.noted as rs).given (valuesOf out dflt (ov (join L M) h))).play (orc (ov (join L M) h)) sl))) ≤
      avg fun h => avg fun g =>
        ind (win (((A.noted as rs).given (valuesOf out dflt (ov M g))).play (orc (ov L h)) sl) ∨
          Clash kq (((A.noted as rs).given (valuesOf out dflt (ov M g))).play (orc (ov L h)) sl)) := by
  induction A with
  | ret a =>
    intro as rs L M _ _ _ _
    simp only [Client.noted, Client.given, Client.play]
    rw [avg_const, avg_const, avg_const]
    exact ind_mono fun h => Or.inl h
  | ask q k ih =>
    intro as rs L M hv hd hL hM
    simp only [Client.noted, Client.given, Client.play]
    by_cases hq : ∃ x ∈ S, kq x = q
    · obtain ⟨x, hx, rfl⟩ := hq
      simp only [h1 _ x hx]
      cases hMx : M ⟨x, hx⟩ with
      | some w =>
        have hr : Sum.inr x ∈ rs := hM ⟨x, hx⟩ (by rw [hMx]; simp)
        have : ∀ h g, Clash kq (((((k (ov L h ⟨x, hx⟩)).noted (kq x :: as) rs).given (valuesOf out dflt (ov M g))).play
            (orc (ov L h)) sl)) := fun h g => by
          obtain ⟨m1, m2⟩ := noted_mono (orc (ov L h)) sl (valuesOf out dflt (ov M g)) (k (ov L h ⟨x, hx⟩)) (kq x :: as) rs
          exact ⟨x, m2 _ hr, m1 _ List.mem_cons_self⟩
        simp only [this, or_true]
        have h1' : ind True = (1 : ℚ) := by simp [ind]
        rw [avg_const, avg_const, h1']
        exact avg_le_const fun _ => ind_le_one _
      | none =>
        cases hLx : L ⟨x, hx⟩ with
        | some w =>
          have e1 : ∀ h, ov (join L M) h ⟨x, hx⟩ = w := fun h => ov_of_some _ _ _ _ (by simp [join, hLx])
          have e2 : ∀ h, ov L h ⟨x, hx⟩ = w := fun h => ov_of_some _ _ _ _ hLx
          simp only [e1, e2]
          exact ih w (kq x :: as) rs L M (hv w) hd (fun y hy => List.mem_cons_of_mem _ (hL y hy)) hM
        | none =>
          have hj : join L M ⟨x, hx⟩ = none := by simp [join, hLx, hMx]
          rw [avg_ov (join L M) ⟨x, hx⟩ hj fun h => ind (win ((((k (h ⟨x, hx⟩)).noted (kq x :: as) rs).given
            (valuesOf out dflt h)).play (orc h) sl)),
            avg_ov L ⟨x, hx⟩ hLx fun h => avg fun g => ind (win ((((k (h ⟨x, hx⟩)).noted (kq x :: as) rs).given
            (valuesOf out dflt (ov M g))).play (orc h) sl) ∨ Clash kq ((((k (h ⟨x, hx⟩)).noted (kq x :: as) rs).given
            (valuesOf out dflt (ov M g))).play (orc h) sl))]
          refine avg_mono fun w => ?_
          have e1 : ∀ h, ov (Function.update (join L M) ⟨x, hx⟩ (some w)) h ⟨x, hx⟩ = w :=
            fun h => ov_of_some _ _ _ _ (Function.update_self ..)
          have e2 : ∀ h, ov (Function.update L ⟨x, hx⟩ (some w)) h ⟨x, hx⟩ = w :=
            fun h => ov_of_some _ _ _ _ (Function.update_self ..)
          simp only [e1, e2]
          simp only [← join_update_left]
          refine ih w (kq x :: as) rs (Function.update L ⟨x, hx⟩ (some w)) M (hv w) (fun y => ?_) (fun y hy => ?_) hM
          · by_cases hyx : y = ⟨x, hx⟩
            · subst hyx; exact Or.inr hMx
            · rw [Function.update_of_ne hyx]; exact hd y
          · by_cases hyx : y = ⟨x, hx⟩
            · subst hyx; exact List.mem_cons_self
            · rw [Function.update_of_ne hyx] at hy; exact List.mem_cons_of_mem _ (hL y hy)
    · have hq' : ∀ x ∈ S, kq x ≠ q := fun x hx he => hq ⟨x, hx, he⟩
      have e : ∀ h, (orc h).merlin q 64 = (orc fun _ => zeros 64).merlin q 64 := fun h => h2 _ _ q hq'
      simp only [e]
      exact ih _ (q :: as) rs L M (hv _) hd (fun y hy => List.mem_cons_of_mem _ (hL y hy)) hM
  | request r k ih =>
    intro as rs L M hv hd hL hM
    cases r with
    | inl r =>
      simp only [Client.noted, Client.given, Client.play]
      exact ih (.inl (sl r)) as (.inl r :: rs) L M (hv (sl r)) hd hL fun y hy => List.mem_cons_of_mem _ (hM y hy)
    | inr x =>
      obtain ⟨hx, hv⟩ := hv
      have hx : x ∈ S := hx
      simp only [Client.noted, Client.given, Client.play]
      have ev : ∀ g : S → Arr 64, valuesOf out dflt g x = out x (g ⟨x, hx⟩) := fun g => by unfold valuesOf; rw [dif_pos hx]
      simp only [ev]
      cases hLx : L ⟨x, hx⟩ with
      | some w =>
        have hr : kq x ∈ as := hL ⟨x, hx⟩ (by rw [hLx]; simp)
        have : ∀ h g, Clash kq (((((k (.inr (out x (ov M g ⟨x, hx⟩)))).noted as (.inr x :: rs)).given (valuesOf out dflt (ov M g))).play
            (orc (ov L h)) sl)) := fun h g => by
          obtain ⟨m1, m2⟩ := noted_mono (orc (ov L h)) sl (valuesOf out dflt (ov M g)) (k (.inr (out x (ov M g ⟨x, hx⟩)))) as (.inr x :: rs)
          exact ⟨x, m2 _ List.mem_cons_self, m1 _ hr⟩
        simp only [this, or_true]
        have h1' : ind True = (1 : ℚ) := by simp [ind]
        rw [avg_const, avg_const, h1']
        exact avg_le_const fun _ => ind_le_one _
      | none =>
        cases hMx : M ⟨x, hx⟩ with
        | some w =>
          have e1 : ∀ h, ov (join L M) h ⟨x, hx⟩ = w := fun h => ov_of_some _ _ _ _ (by simp [join, hLx, hMx])
          have e2 : ∀ h, ov M h ⟨x, hx⟩ = w := fun h => ov_of_some _ _ _ _ hMx
          simp only [e1, e2]
          exact ih (.inr (out x w)) as (.inr x :: rs) L M (hv _ (hok _ _)) hd hL fun y hy => List.mem_cons_of_mem _ (hM y hy)
        | none =>
          have hj : join L M ⟨x, hx⟩ = none := by simp [join, hLx, hMx]
          rw [avg_ov (join L M) ⟨x, hx⟩ hj fun h => ind (win ((((k (.inr (out x (h ⟨x, hx⟩)))).noted as (.inr x :: rs)).given
            (valuesOf out dflt h)).play (orc h) sl))]
          refine le_trans ?_ (le_of_eq (avg_comm _))
          rw [avg_ov M ⟨x, hx⟩ hMx fun g => avg fun h => ind (win ((((k (.inr (out x (g ⟨x, hx⟩)))).noted as (.inr x :: rs)).given
            (valuesOf out dflt g)).play (orc (ov L h)) sl) ∨ Clash kq ((((k (.inr (out x (g ⟨x, hx⟩)))).noted as (.inr x :: rs)).given
            (valuesOf out dflt g)).play (orc (ov L h)) sl))]
          refine avg_mono fun w => ?_
          have e1 : ∀ h, ov (Function.update (join L M) ⟨x, hx⟩ (some w)) h ⟨x, hx⟩ = w :=
            fun h => ov_of_some _ _ _ _ (Function.update_self ..)
          have e2 : ∀ h, ov (Function.update M ⟨x, hx⟩ (some w)) h ⟨x, hx⟩ = w :=
            fun h => ov_of_some _ _ _ _ (Function.update_self ..)
          simp only [e1, e2]
          simp only [← join_update_right L M ⟨x, hx⟩ w hLx]
          refine le_trans ?_ (le_of_eq (avg_comm _))
          refine ih (.inr (out x w)) as (.inr x :: rs) L (Function.update M ⟨x, hx⟩ (some w)) (hv _ (hok _ _)) (fun y => ?_) hL (fun y hy => ?_)
          · by_cases hyx : y = ⟨x, hx⟩
            · subst hyx; exact Or.inl hLx
            · rw [Function.update_of_ne hyx]; exact hd y
          · by_cases hyx : y = ⟨x, hx⟩
            · subst hyx; exact List.mem_cons_self
            · rw [Function.update_of_ne hyx] at hy; exact List.mem_cons_of_mem _ (hM y hy)

theorem given_congr (g g' : V → Val) (A : Client (Req ⊕ V) (Ans ⊕ Val) α) (hA : A.Values ok {v | v ∈ S})
    (h : ∀ v ∈ S, g v = g' v ∧ ok v (g' v)) : A.given g = A.given g' := by
  induction A with
  | ret a => rfl
  | ask q k ih => simp only [Client.given, ih _ (hA _)]
  | request r k ih =>
    cases r with
    | inl r => simp only [Client.given, ih _ (hA _)]
    | inr v =>
      obtain ⟨h1, h2⟩ := h v hA.1
      simp only [Client.given, h1]
      exact ih _ (hA.2 _ h2)

theorem noted_values (A : Client (Req ⊕ V) (Ans ⊕ Val) α) : ∀ as rs, A.Values ok {v | v ∈ S} →
    (A.noted as rs).Values ok {v | v ∈ S} := by
  induction A with
  | ret a => intro as rs h; exact h
  | ask q k ih => intro as rs h w; exact ih w _ _ (h w)
  | request r k ih =>
    intro as rs h
    cases r with
    | inl r => exact fun a => ih _ _ _ (h a)
    | inr v => exact ⟨h.1, fun a ha => ih _ _ _ (h.2 a ha)⟩

/-- The notes do not change what the client does. -/
theorem noted_play (O : Oracles) (serve : Req ⊕ V → Ans ⊕ Val) (A : Client (Req ⊕ V) (Ans ⊕ Val) α) : ∀ as rs,
    ((A.noted as rs).play O serve).1 = A.play O serve := by
  induction A with
  | ret a => intro as rs; rfl
  | ask q k ih => intro as rs; exact ih _ _ _
  | request r k ih => intro as rs; exact ih _ _ _

/-- Answering the values beforehand or on the way. -/
theorem given_play (O : Oracles) (sl : Req → Ans) (val : V → Val) (A : Client (Req ⊕ V) (Ans ⊕ Val) α) :
    (A.given val).play O sl = A.play O (Sum.map sl val) := by
  induction A with
  | ret a => rfl
  | ask q k ih => exact ih _
  | request r k ih =>
    cases r with
    | inl r => exact ih _
    | inr v => exact ih _

/-- The notes do not cost queries or requests. -/
theorem noted_limited {D : Finset (List MOp)} {κ : Type} {K : Finset κ} (key : Req → κ) (val : V → Val) (fin : α → Prop)
    (A : Client (Req ⊕ V) (Ans ⊕ Val) α) :
    ∀ q m as rs, (A.given val).Limited D key K fin q m →
      ((A.noted as rs).given val).Limited D key K (fun r => fin r.1) q m := by
  induction A with
  | ret a => intro q m as rs h; exact h
  | ask l k ih => rintro q m as rs ⟨hl, q', rfl, h⟩; exact ⟨hl, q', rfl, fun w => ih w q' m _ _ (h w)⟩
  | request r k ih =>
    intro q m as rs h
    cases r with
    | inl r =>
      obtain ⟨h1, m', rfl, h2⟩ := h
      exact ⟨h1, m', rfl, fun a => ih _ q m' _ _ (h2 a)⟩
    | inr v => exact ih _ q m _ _ h

/-- Values hashed from a secret against random values, with any other service that does not use those hash queries. -/
theorem values_table_le {D : Finset (List MOp)} (O : Oracles) (kq : V → List MOp)
    (hi : ∀ v ∈ S, ∀ v' ∈ S, kq v = kq v' → v = v') (hD : ∀ v ∈ S, kq v ∈ D)
    (sl : (D → Arr 64) → Req → Ans) (hsl : ∀ f f' : D → Arr 64, (∀ d : D, (∀ v ∈ S, kq v ≠ d.1) → f d = f' d) → sl f = sl f')
    (out : V → Arr 64 → Val) (hok : ∀ v w, ok v (out v w)) (dflt : V → Val) (vr : (D → Arr 64) → V → Val)
    (hvr : ∀ f v, ∀ hv : v ∈ S, vr f v = out v (f ⟨kq v, hD v hv⟩))
    (win : (D → Arr 64) → α × List (List MOp) × List (Req ⊕ V) → Prop)
    (hw : ∀ f f' : D → Arr 64, (∀ d : D, (∀ v ∈ S, kq v ≠ d.1) → f d = f' d) → win f = win f') (A : Client (Req ⊕ V) (Ans ⊕ Val) α) (hA : A.Values ok {v | v ∈ S}) :
    (avg fun f : D → Arr 64 => ind (win f (((A.noted [] []).given (vr f)).play (table O D f) (sl f)))) ≤
      avg fun f : D → Arr 64 => avg fun g : S → Arr 64 =>
        ind (win f (((A.noted [] []).given (valuesOf out dflt g)).play (table O D f) (sl f)) ∨
          Clash kq (((A.noted [] []).given (valuesOf out dflt g)).play (table O D f) (sl f))) := by
  classical
  let kq' : S → List MOp := fun v => kq v.1
  have hi' : Function.Injective kq' := fun a b h => Subtype.ext (hi _ a.2 _ b.2 h)
  have hD' : ∀ v, kq' v ∈ D := fun v => hD _ v.2
  have e1 : ∀ (f : D → Arr 64) (h : S → Arr 64), sl (withKeyed kq' f h) = sl f := fun f h =>
    hsl _ _ fun d hd => withKeyed_miss kq' f h d fun x => hd x.1 x.2
  have e3 : ∀ (f : D → Arr 64) (h : S → Arr 64), win (withKeyed kq' f h) = win f := fun f h =>
    hw _ _ fun d hd => withKeyed_miss kq' f h d fun x => hd x.1 x.2
  have e2 : ∀ (f : D → Arr 64) (h : S → Arr 64), (A.noted [] []).given (vr (withKeyed kq' f h)) =
      (A.noted [] []).given (valuesOf out dflt h) := fun f h =>
    given_congr _ _ _ (noted_values A [] [] hA) fun v hv => by
      rw [hvr _ v hv]
      unfold valuesOf
      rw [dif_pos hv]
      exact ⟨congrArg (out v) (withKeyed_hit kq' hi' f h ⟨v, hv⟩ (hD v hv)), hok _ _⟩
  rw [avg_withKeyed kq' hi' hD' fun f => ind (win f (((A.noted [] []).given (vr f)).play (table O D f) (sl f))),
    avg_withKeyed kq' hi' hD' fun f => avg fun g : S → Arr 64 =>
        ind (win f (((A.noted [] []).given (valuesOf out dflt g)).play (table O D f) (sl f)) ∨
          Clash kq (((A.noted [] []).given (valuesOf out dflt g)).play (table O D f) (sl f)))]
  refine avg_mono fun f => ?_
  simp only [e1, e2, e3]
  have h := values_le (S := S) (fun h : S → Arr 64 => table O D (withKeyed kq' f h)) kq
    (fun h x hx => by
      rw [table_hit _ _ _ _ (hD x hx)]
      exact withKeyed_hit kq' hi' f h ⟨x, hx⟩ (hD x hx))
    (fun h h' l hl => by
      rw [table_withKeyed O kq' f h l fun x => hl x.1 x.2, table_withKeyed O kq' f h' l fun x => hl x.1 x.2])
    (sl f) out hok dflt (win f) A [] [] (fun _ => none) (fun _ => none) hA (fun _ => Or.inl rfl) (fun x h => (h rfl).elim)
    (fun x h => (h rfl).elim)
  have hov : ∀ {ι S : Type} (f : ι → S), ov (fun _ => none) f = f := fun f => rfl
  have hj : join (fun _ : S => (none : Option (Arr 64))) (fun _ => none) = fun _ => none := rfl
  simp only [hj, hov] at h
  exact h

/-- The same client, which also reports the requests of the first sort and the answers to them (latest first). -/
def loggedL : List (Req × Ans) → Client (Req ⊕ V) (Ans ⊕ Val) α → Client (Req ⊕ V) (Ans ⊕ Val) (α × List (Req × Ans))
  | log, .ret a => .ret (a, log)
  | log, .ask q k => .ask q fun w => loggedL log (k w)
  | log, .request (.inl r) k => .request (.inl r) fun a => match a with
    | .inl a => loggedL ((r, a) :: log) (k (.inl a))
    | .inr y => loggedL log (k (.inr y))
  | log, .request (.inr v) k => .request (.inr v) fun a => loggedL log (k a)

theorem loggedL_given (val : V → Val) (A : Client (Req ⊕ V) (Ans ⊕ Val) α) : ∀ log,
    (loggedL log A).given val = (A.given val).logged log := by
  induction A with
  | ret a => intro log; rfl
  | ask q k ih => intro log; simp only [loggedL, Client.given, Client.logged, ih]
  | request r k ih =>
    intro log
    cases r with
    | inl r => simp only [loggedL, Client.given, Client.logged, ih]
    | inr v => simp only [loggedL, Client.given, ih]

theorem loggedL_values (A : Client (Req ⊕ V) (Ans ⊕ Val) α) : ∀ log, A.Values ok {v | v ∈ S} → (loggedL log A).Values ok {v | v ∈ S} := by
  induction A with
  | ret a => intro log h; exact h
  | ask q k ih => intro log h w; exact ih w _ (h w)
  | request r k ih =>
    intro log h
    cases r with
    | inl r =>
      simp only [loggedL]
      intro a
      exact ih _ _ (h _)
    | inr v => exact ⟨h.1, fun a ha => ih _ _ (h.2 a ha)⟩

/-- The notes of a client do not depend on its result. -/
theorem noted_loggedL (O : Oracles) (sl : Req → Ans) (val : V → Val) (A : Client (Req ⊕ V) (Ans ⊕ Val) α) : ∀ as rs log,
    ((((loggedL log A).noted as rs).given val).play O sl).2 = (((A.noted as rs).given val).play O sl).2 := by
  induction A with
  | ret a => intro as rs log; rfl
  | ask q k ih => intro as rs log; exact ih _ _ _ _
  | request r k ih =>
    intro as rs log
    cases r with
    | inl r => simp only [loggedL, Client.noted, Client.given, Client.play]; exact ih _ _ _ _
    | inr v => exact ih _ _ _ _

theorem noted_given_play (O : Oracles) (sl : Req → Ans) (val : V → Val) (A : Client (Req ⊕ V) (Ans ⊕ Val) α) (as rs) :
    (((A.noted as rs).given val).play O sl).1 = (A.given val).play O sl := by
  rw [given_play, given_play, noted_play]

/-- The programmed game as an algorithm. -/
theorem progPlay_run {κ : Type} (O : Oracles) (query : κ → Z → Z → List MOp) (answer : κ → Z → Z → Ans) (key : Req → κ)
    (coins : κ → Arr 64 × Arr 64) (A : Client Req Ans α) : ∀ pg,
    (progPlay query answer key coins (progAll O pg) A).2 = (A.simulate query answer key coins pg).run O := by
  induction A with
  | ret a => intro pg; rfl
  | ask q k ih =>
    intro pg
    simp only [progPlay, Client.simulate, progAll_merlin]
    cases hl : pg.lookup q with
    | some w => exact ih w pg
    | none => exact ih _ pg
  | request r k ih =>
    intro pg
    exact ih (answer (key r) (residue (coins (key r)).1) (residue (coins (key r)).2))
      ((query (key r) (residue (coins (key r)).1) (residue (coins (key r)).2), (coins (key r)).2) :: pg)

end Schnorrkel
