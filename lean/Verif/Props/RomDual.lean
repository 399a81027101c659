import Verif.Lemmas.RomDualServe

/-! # C84: one key for multi-signature sessions and for signatures, VRF proofs and certificates, in the random-oracle model -/

namespace Schnorrkel.Props
open Spec Schnorrkel
variable {P : Type} [Ristretto P] {D : Finset (List MOp)} {K : Finset (KeyUse P)}

/-! ## From the crate to nonces that are random -/

theorem isPrf_nonceQuery (pk : PublicKey P) (n : Arr 32) (k : KeyUse P) : IsPrf (k.nonceQuery pk n) := by
  cases k with
  | sign log rng => simp [KeyUse.nonceQuery, Use.query, witnessQuery, IsPrf]
  | prove log I ku rng => cases ku <;> simp [KeyUse.nonceQuery, Use.query, dleqNonceQuery, witnessQuery, IsPrf]
  | issue log S rng => simp [KeyUse.nonceQuery, Use.query, witnessQuery, IsPrf]

/-- The owner's answers to the other requests, computed with the nonces. -/
theorem playDual_eq {α : Type} {fin : α → Prop} (O' : Oracles) (T : Finset (List MOp)) (b : Nat) (x : Scalar) (me : PublicKey P)
    (hpk : me.point = x.toZ • (basepoint : P)) (s : Arr 32) (ν : KeyUse P → Arr 64) (hν : ∀ k ∈ K, ν k = O'.merlin (k.nonceQuery me s) 64)
    (A : DualClient P α) : ∀ (q m r p : Nat) (o : Owner P), MixedBounded D T K b fin q m r p A →
      o.playDual O' ⟨⟨x, s⟩, me⟩ A = o.play O' ⟨⟨x, s⟩, me⟩ (serveReal x.toZ me (fun I => x.toZ • I) ν A) := by
  induction A with
  | ret c => intro q m r p o _; rfl
  | ask l k ih =>
    rintro q m r p o ⟨-, q', rfl, hk⟩
    exact ih _ q' m r p o (hk _)
  | request rq k ih =>
    intro q m r p o h
    cases rq with
    | inl rq =>
      obtain ⟨m'', r', -, -, hk⟩ := dual_inl h
      exact ih _ q m'' r' p _ (hk _)
    | inr rq =>
      obtain ⟨h1, p', rfl, h2⟩ := h
      simp only [Owner.playDual, serveReal, Owner.play]
      rw [serveKey_eq O' x me hpk s rq]
      have e : realAns O' (KeyUse.query me fun I => x.toZ • I) (KeyUse.answer me fun I => x.toZ • I) (KeyUse.secret x.toZ) rq.use
          (hashWith O' (rq.use.nonceQuery me s)) = KeyUse.answer me (fun I => x.toZ • I) rq.use
            (residue (O'.merlin (KeyUse.query me (fun I => x.toZ • I) rq.use (residue (ν rq.use)) 0) 64) * KeyUse.secret x.toZ rq.use +
              residue (ν rq.use)) (residue (O'.merlin (KeyUse.query me (fun I => x.toZ • I) rq.use (residue (ν rq.use)) 0) 64)) := by
        unfold realAns
        simp only [hashWith_eq_residue, hν _ h1]
      rw [e]
      exact ih _ q m r p' o (h2 _)

section
variable (O : Oracles) (T : Finset (List MOp)) (b g q m r p : Nat) (A : DualAttacker P) (x : Scalar) (sys : Rng)

/-- The queries for all nonces. -/
def allNonceQ (K : Finset (KeyUse P)) (T : Finset (List MOp)) (m : Nat) (sys : Rng) (me : PublicKey P) (s : Arr 32) :
    ((T × Fin m) × Fin 3) ⊕ K → List MOp :=
  Sum.elim (nonceQ T m sys s) fun k => k.1.nonceQuery me s

theorem allNonceQ_inj (hs : NoRepeat sys m) (me : PublicKey P) (s s' : Arr 32) (y y' : ((T × Fin m) × Fin 3) ⊕ K)
    (h : allNonceQ K T m sys me s y = allNonceQ K T m sys me s' y') : s = s' ∧ y = y' := by
  have hne : ∀ (s s' : Arr 32) (y : (T × Fin m) × Fin 3) (k : KeyUse P), nonceQ T m sys s y ≠ k.nonceQuery me s' := by
    rintro s s' ⟨⟨t, j⟩, i⟩ k e
    have e1 : (Use.musigNonce t.1 s.1 i (drawOf sys j i).1).query = nonceQ T m sys s ((t, j), i) := by
      simp [Use.query, witnessQuery, nonceQ, musigNonceQuery]
    rw [← e1, ← nonceUse_query] at e
    have e := hash_uses_separated _ _ (by have := i.2; simp [Use.WF]; omega) (nonceUse_wf ..) e
    cases k with
    | prove _ _ ku _ => cases ku <;> simp [KeyUse.nonceUse, Use.norm] at e
    | _ => simp [KeyUse.nonceUse, Use.norm] at e
  rcases y with y | k <;> rcases y' with y' | k'
  · obtain ⟨h1, h2⟩ := nonceQ_inj T m sys hs s s' y y' h
    exact ⟨h1, congrArg _ h2⟩
  · exact absurd h (hne _ _ _ _)
  · exact absurd h.symm (hne _ _ _ _)
  · obtain ⟨h1, h2⟩ := use_nonce_inj me s k.1 s' k'.1 h
    exact ⟨h1, congrArg _ (Subtype.ext h2)⟩

/-- The attack succeeds, and no session of the owner spoils it. -/
def PlaysWell {α : Type} [Goal P α] (O : Oracles) (kp : Keypair P) (sys : Rng) (A : DualClient P α) : Prop :=
  Goal.Wins O kp.pub ((Owner.new sys).playDual O kp A).1 ∧
    ∀ s ∈ ((Owner.new sys).playDual O kp A).2.revealed, ¬ Goal.About O kp.pub ((Owner.new sys).playDual O kp A).1 s.1 s.2

theorem dual_forges_le {α : Type} [Goal P α] {fin : α → Prop} {A : DualClient P α} (hA : MixedBounded D T K b fin q m r p A) (hC : CosignCovers D T b m sys) (hs : NoRepeat sys m)
    (me : PublicKey P) (hme : ∀ s, ((SecretKey.mk x s).toPublic : PublicKey P) = me) (hK : CoversKey me (fun I => x.toZ • I) D K) :
    (chance fun y : Arr 32 × (D → Arr 64) => PlaysWell (wideTable O D y.2) ((SecretKey.mk x y.1).toKeypair : Keypair P) sys A) ≤
      (avg fun f : D → Arr 64 => avg fun w : K → Arr 64 => avg fun N : Fin m → Fin 3 → Arr 64 =>
        ind (WinN (wideTable O D f) N me x.toZ [] (serveReal x.toZ me (fun I => x.toZ • I) (noncesOf w) A))) + (q + p : Nat) / 2 ^ 256 := by
  have hz : me.point = x.toZ • (basepoint : P) := by rw [← hme (zeros 32)]; exact mulPoint_eq _ _
  set dh : P → P := fun I => x.toZ • I with hdh
  have hin : ∀ s y, allNonceQ K T m sys me s y ∈ D := by
    rintro s (⟨⟨t, k⟩, j⟩ | k)
    · have := hC.nonce t.1 t.2 s j j.2 k k.2
      have e : (Use.musigNonce t.1 s.1 j (drawOf sys k j).1).query = nonceQ T m sys s ((t, k), j) := by
        simp [Use.query, witnessQuery, nonceQ, musigNonceQuery]
      show nonceQ T m sys s ((t, k), j) ∈ D
      rw [← e]
      exact this
    · exact (hK k.1 k.2).2 s
  have hinj : ∀ s, Function.Injective (allNonceQ K T m sys me s) := fun s y y' h => (allNonceQ_inj T m sys hs me s s y y' h).2
  let cur : ((T × Fin m) × Fin 3 → Arr 64) ≃ (T × Fin m → Fin 3 → Arr 64) := Equiv.curry (T × Fin m) (Fin 3) (Arr 64)
  let B : (((T × Fin m) × Fin 3) ⊕ K → Arr 64) → Client (CosignRequest P) CosignAnswer α := fun w => serveReal x.toZ me dh (noncesOf fun k => w (.inr k)) A
  have hB : ∀ w, SessionBounded D T b fin (q + p) m r (B w) := fun w => serveReal_bounded x.toZ me dh _ (fun k hk => (hK k hk).1) A q m r p hA
  let nv : (((T × Fin m) × Fin 3) ⊕ K → Arr 64) → Transcript → Nat → Fin 3 → Arr 64 := fun w => nvOf (cur fun y => w (.inl y))
  rw [chance_eq_avg, avg_prod]
  have h1 : ∀ s : Arr 32, (avg fun f : D → Arr 64 => ind (PlaysWell (wideTable O D f) ((SecretKey.mk x s).toKeypair : Keypair P) sys A)) ≤
      avg fun f : D → Arr 64 => avg fun w : ((T × Fin m) × Fin 3) ⊕ K → Arr 64 =>
        ind (WinS (wideTable O D (withKeyed (allNonceQ K T m sys me s) f w)) (nv w) me x.toZ [] (B w)) := by
    intro s
    rw [avg_withKeyed (allNonceQ K T m sys me s) (hinj s) (hin s)]
    refine avg_mono fun f => avg_mono fun w => ind_mono ?_
    have hkp : ((SecretKey.mk x s).toKeypair : Keypair P) = ⟨⟨x, s⟩, me⟩ := by
      show (⟨⟨x, s⟩, (SecretKey.mk x s).toPublic⟩ : Keypair P) = _
      rw [hme]
    rw [hkp]
    have heq := playDual_eq (D := D) (K := K) (wideTable O D (withKeyed (allNonceQ K T m sys me s) f w)) T b x me hz s
      (noncesOf fun k => w (.inr k)) (by
        intro k hk
        unfold noncesOf
        rw [dif_pos hk]
        exact (wideTable_keyed64 O (allNonceQ K T m sys me s) (hinj s) f w (.inr ⟨k, hk⟩) (hin s _)).symm) A q m r p (Owner.new sys) hA
    unfold PlaysWell
    rw [heq]
    rintro ⟨w1, w2⟩
    exact play_win (D := D) O (wideTable O D (withKeyed (allNonceQ K T m sys me s) f w)) T b 0 m ⟨⟨x, s⟩, me⟩ (by
        show me.WF
        rw [← hme s]; rfl) sys (nv w) (by
      intro t k ht hk j
      have hq := wideTable_keyed64 O (allNonceQ K T m sys me s) (hinj s) f w (.inl ((⟨t.log, ht⟩, ⟨k, hk⟩), j)) (hin s _)
      simp only [nv]
      unfold nvOf
      rw [dif_pos ⟨ht, hk⟩]
      exact hq.symm) (B w) (q + p) m r (Owner.new sys) [] (hB w) (by simp) rfl (by simp [Owner.new]) List.Forall₂.nil (by
        intro s hs; simp [revealedIn] at hs) w1 w2
  have h2 : ∀ (f : D → Arr 64) (w : ((T × Fin m) × Fin 3) ⊕ K → Arr 64), (avg fun s : Arr 32 =>
      ind (WinS (wideTable O D (withKeyed (allNonceQ K T m sys me s) f w)) (nv w) me x.toZ [] (B w))) ≤
      ind (WinS (wideTable O D f) (nv w) me x.toZ [] (B w)) + (q + p : Nat) / 2 ^ 256 := by
    intro f w
    refine seed_step O T b 0 (allNonceQ K T m sys me) (fun s y s' y' h => (allNonceQ_inj T m sys hs me s s' y y' h).1) ?_ _ me x.toZ f w _ _ m r [] (hB w)
    rintro s (y | k)
    · exact isPrf_musigNonceQuery _ _ _ _
    · exact isPrf_nonceQuery _ _ _
  have h3 : ∀ f : D → Arr 64, (avg fun w : ((T × Fin m) × Fin 3) ⊕ K → Arr 64 => ind (WinS (wideTable O D f) (nv w) me x.toZ [] (B w))) =
      avg fun w : K → Arr 64 => avg fun N : Fin m → Fin 3 → Arr 64 =>
        ind (WinN (wideTable O D f) N me x.toZ [] (serveReal x.toZ me dh (noncesOf w) A)) := by
    intro f
    refine (avg_equiv (Equiv.sumArrowEquivProdArrow ((T × Fin m) × Fin 3) K (Arr 64))
      (fun w => ind (WinS (wideTable O D f) (nvOf (cur w.1)) me x.toZ [] (serveReal x.toZ me dh (noncesOf w.2) A)))).trans ?_
    rw [avg_prod, avg_comm]
    refine avg_congr fun w => ?_
    rw [avg_equiv cur (fun w' => ind (WinS (wideTable O D f) (nvOf w') me x.toZ [] (serveReal x.toZ me dh (noncesOf w) A)))]
    exact draw_step (D := D) O (wideTable O D f) T b 0 m me x.toZ _ (q + p) m r (fun _ => none) (fun _ => none) [] []
      (serveReal_bounded x.toZ me dh _ (fun k hk => (hK k hk).1) A q m r p hA) (by simp) List.Forall₂.nil (fun _ _ => rfl) (fun _ _ => rfl)
  refine le_trans (avg_mono h1) ?_
  rw [avg_comm]
  have h4 : (avg fun f : D → Arr 64 => avg fun s : Arr 32 => avg fun w : ((T × Fin m) × Fin 3) ⊕ K → Arr 64 =>
        ind (WinS (wideTable O D (withKeyed (allNonceQ K T m sys me s) f w)) (nv w) me x.toZ [] (B w))) ≤
      avg fun f : D → Arr 64 => (avg fun w : K → Arr 64 => avg fun N : Fin m → Fin 3 → Arr 64 =>
        ind (WinN (wideTable O D f) N me x.toZ [] (serveReal x.toZ me dh (noncesOf w) A))) + (q + p : Nat) / 2 ^ 256 := by
    refine avg_mono fun f => ?_
    rw [avg_comm, ← h3 f]
    refine le_trans (avg_mono (h2 f)) (le_of_eq ?_)
    rw [avg_add, avg_const]
  refine le_trans h4 (le_of_eq ?_)
  rw [avg_add, avg_const]

/-- Without the secret key. -/
theorem dual_simulated (hx0 : x.toZ ≠ 0) (hA : DualBounded O D T K b g q m r p A) (hC : CosignCovers D T b m sys)
    (hs : NoRepeat sys m) (me : PublicKey P) (hme : ∀ s, ((SecretKey.mk x s).toPublic : PublicKey P) = me)
    (hK : CoversKey me (fun I => x.toZ • I) D K) :
    (chance fun y : Arr 32 × (D → Arr 64) => ForgesDual (wideTable O D y.2) ((SecretKey.mk x y.1).toKeypair : Keypair P) sys A) ≤
      (avg fun C : (K → Arr 64 × Arr 64) × CosignCoins m => chance fun f : D → Arr 64 =>
        ((simulateCosign O me C.2 [] [] (serveInside me (fun I => x.toZ • I) (Spec.coinsOf C.1) [] A)).run (table O D f)).Forges (table O D f) me) +
        dualLoss b q m r p := by
  have hz : me.point = x.toZ • (basepoint : P) := by rw [← hme (zeros 32)]; exact mulPoint_eq _ _
  have hwf : me.WF := by rw [← hme (zeros 32)]; rfl
  have h0 : me.point ≠ 0 := by
    rw [hz]
    intro h
    exact hx0 (smul_basepoint_inj.mp (h.trans (zero_smul _ _).symm))
  have e1 : (chance fun y : Arr 32 × (D → Arr 64) => ForgesDual (wideTable O D y.2) ((SecretKey.mk x y.1).toKeypair : Keypair P) sys A) ≤
      (avg fun f : D → Arr 64 => avg fun w : K → Arr 64 => avg fun N : Fin m → Fin 3 → Arr 64 =>
        ind (WinN (wideTable O D f) N me x.toZ [] (serveReal x.toZ me (fun I => x.toZ • I) (noncesOf w) A))) + (q + p : Nat) / 2 ^ 256 :=
    le_trans (chance_mono fun y h => ⟨h.1, by rintro ⟨t', a'⟩ hs' ⟨h1, h2⟩; exact h.2 (by rw [h1, h2]; exact hs')⟩)
      (dual_forges_le (D := D) (K := K) O T b q m r p x sys hA hC hs me hme hK)
  set dh : P → P := fun I => x.toZ • I with hdh
  have hB : ∀ w : K → Arr 64, CosignBounded O D T b g (q + p) m r (serveReal x.toZ me dh (noncesOf w) A) := fun w =>
    serveReal_bounded x.toZ me dh _ (fun k hk => (hK k hk).1) A q m r p hA
  have hI : ∀ C : K → Arr 64 × Arr 64, CosignBounded O D T b g q m r (serveInside me dh (Spec.coinsOf C) [] A) := fun C =>
    serveInside_bounded me dh _ A q m r p [] hA
  have e2 : ∀ N : Fin m → Fin 3 → Arr 64, (avg fun f : D → Arr 64 => avg fun w : K → Arr 64 =>
        ind (WinN (wideTable O D f) N me x.toZ [] (serveReal x.toZ me dh (noncesOf w) A))) ≤
      (avg fun f : D → Arr 64 => avg fun C : K → Arr 64 × Arr 64 =>
        ind (WinN (wideTable O D f) N me x.toZ [] (serveInside me dh (Spec.coinsOf C) [] A))) +
      (p * ((q + p : Nat) * guess + spare) + (q + p + r + 1 : Nat) * guess) := by
    intro N
    have a1 := serve_le (D := D) (K := K) O T b q r p N me hwf x.toZ hz (fun k hk => (hK k hk).1) A hA
      (fun Om e => WinJoint Om me e.1 e.2) (fun Om O₀ Op C _ => fun h1 h2 h3 => winJoint_off h1 hwf _ h2 h3)
    have a1' : (avg fun f : D → Arr 64 => avg fun C : K → Arr 64 × Arr 64 =>
        ind (WinN (wideTable O D f) N me x.toZ [] (serveInside me dh (Spec.coinsOf C) [] A))) = _ :=
      avg_congr fun f => avg_congr fun C => congrArg ind (propext (winN_end (wideTable O D f) T b N me x.toZ _ _ m r [] (hI C) (by simp)))
    rw [a1']
    have a2 : (avg fun f : D → Arr 64 => avg fun w : K → Arr 64 =>
        ind (¬ NoOwnGroup (wideTable O D f) me (endN (wideTable O D f) N me x.toZ [] (serveReal x.toZ me dh (noncesOf w) A)))) ≤
        (q + p + r + 1 : Nat) * guess := by
      rw [avg_comm]
      refine avg_le_const fun w => ?_
      exact own_le (D := D) O T b (q + p) r N me hwf x.toZ h0 (fun ks hk => covers_weight hC ks hk) _ (hB w)
        (fun c hc hw' hm' => hc.2 (fun _ => zeros 64) _ (List.mem_append_left _ (List.mem_map.mpr ⟨me, (cosigners_good hw' hm').mem, rfl⟩)))
    have a3 : (avg fun f : D → Arr 64 => avg fun w : K → Arr 64 =>
        ind (WinN (wideTable O D f) N me x.toZ [] (serveReal x.toZ me dh (noncesOf w) A))) ≤
        (avg fun f : D → Arr 64 => avg fun w : K → Arr 64 => ind (WinN (wideTable O D f) N me x.toZ [] (serveReal x.toZ me dh (noncesOf w) A) ∧
          NoOwnGroup (wideTable O D f) me (endN (wideTable O D f) N me x.toZ [] (serveReal x.toZ me dh (noncesOf w) A)))) +
        (avg fun f : D → Arr 64 => avg fun w : K → Arr 64 =>
          ind (¬ NoOwnGroup (wideTable O D f) me (endN (wideTable O D f) N me x.toZ [] (serveReal x.toZ me dh (noncesOf w) A)))) := by
      rw [← avg_add]
      refine avg_mono fun f => ?_
      rw [← avg_add]
      refine avg_mono fun w => ?_
      by_cases hn : NoOwnGroup (wideTable O D f) me (endN (wideTable O D f) N me x.toZ [] (serveReal x.toZ me dh (noncesOf w) A))
      · refine le_trans (ind_mono fun h => ⟨h, hn⟩) (le_add_of_nonneg_right (ind_nonneg _))
      · rw [show ind (¬ NoOwnGroup (wideTable O D f) me (endN (wideTable O D f) N me x.toZ [] (serveReal x.toZ me dh (noncesOf w) A))) = 1 from if_pos hn]
        exact le_trans (ind_le_one _) (le_add_of_nonneg_left (ind_nonneg _))
    refine le_trans a3 (le_trans (add_le_add a1 a2) (le_of_eq ?_))
    rw [add_assoc]
  have e3 : (avg fun f : D → Arr 64 => avg fun w : K → Arr 64 => avg fun N : Fin m → Fin 3 → Arr 64 =>
        ind (WinN (wideTable O D f) N me x.toZ [] (serveReal x.toZ me dh (noncesOf w) A))) ≤
      (avg fun C : K → Arr 64 × Arr 64 => avg fun f : D → Arr 64 => avg fun N : Fin m → Fin 3 → Arr 64 =>
        ind (WinN (wideTable O D f) N me x.toZ [] (serveInside me dh (Spec.coinsOf C) [] A))) +
      (p * ((q + p : Nat) * guess + spare) + (q + p + r + 1 : Nat) * guess) := by
    have s1 : (avg fun f : D → Arr 64 => avg fun w : K → Arr 64 => avg fun N : Fin m → Fin 3 → Arr 64 =>
        ind (WinN (wideTable O D f) N me x.toZ [] (serveReal x.toZ me dh (noncesOf w) A))) =
        avg fun N : Fin m → Fin 3 → Arr 64 => avg fun f : D → Arr 64 => avg fun w : K → Arr 64 =>
        ind (WinN (wideTable O D f) N me x.toZ [] (serveReal x.toZ me dh (noncesOf w) A)) := by
      rw [avg_comm (fun (N : Fin m → Fin 3 → Arr 64) (f : D → Arr 64) => avg fun w : K → Arr 64 =>
        ind (WinN (wideTable O D f) N me x.toZ [] (serveReal x.toZ me dh (noncesOf w) A)))]
      exact avg_congr fun f => avg_comm _
    have s2 : (avg fun C : K → Arr 64 × Arr 64 => avg fun f : D → Arr 64 => avg fun N : Fin m → Fin 3 → Arr 64 =>
        ind (WinN (wideTable O D f) N me x.toZ [] (serveInside me dh (Spec.coinsOf C) [] A))) =
        avg fun N : Fin m → Fin 3 → Arr 64 => avg fun f : D → Arr 64 => avg fun C : K → Arr 64 × Arr 64 =>
        ind (WinN (wideTable O D f) N me x.toZ [] (serveInside me dh (Spec.coinsOf C) [] A)) := by
      rw [avg_comm (fun (N : Fin m → Fin 3 → Arr 64) (f : D → Arr 64) => avg fun C : K → Arr 64 × Arr 64 =>
        ind (WinN (wideTable O D f) N me x.toZ [] (serveInside me dh (Spec.coinsOf C) [] A))),
        avg_comm (fun (C : K → Arr 64 × Arr 64) (f : D → Arr 64) => avg fun N : Fin m → Fin 3 → Arr 64 =>
        ind (WinN (wideTable O D f) N me x.toZ [] (serveInside me dh (Spec.coinsOf C) [] A)))]
      exact avg_congr fun f => avg_comm _
    rw [s1, s2]
    refine le_trans (avg_mono e2) (le_of_eq ?_)
    rw [avg_add, avg_const]
  have e4 : ∀ C : K → Arr 64 × Arr 64, (avg fun f : D → Arr 64 => avg fun N : Fin m → Fin 3 → Arr 64 =>
        ind (WinN (wideTable O D f) N me x.toZ [] (serveInside me dh (Spec.coinsOf C) [] A))) ≤
      (avg fun C' : CosignCoins m => chance fun f : D → Arr 64 =>
        ((simulateCosign O me C' [] [] (serveInside me dh (Spec.coinsOf C) [] A)).run (table O D f)).Forges (table O D f) me) +
        (simCost (q + m + r * (5 * b + 7)) b q m r + (q + r * b : Nat) * m * guess + m * m * guess) := by
    intro C
    have b1 := winN_le (D := D) O T b q m r (hI C) hC.commitment me x.toZ
    have b2 : _ ≤ (avg fun C' : CosignCoins m => chance fun f : D → Arr 64 =>
        ((simulateCosign O me C' [] [] (serveInside me dh (Spec.coinsOf C) [] A)).run (table O D f)).Forges (table O D f) me) + _ :=
      val1_le (D := D) O T b q m r sys (hI C) hC me hwf x.toZ hz (fun c hc => hc.2)
    generalize simCost (q + m + r * (5 * b + 7)) b q m r = c at *
    linarith
  have e5 := avg_mono e4
  rw [avg_add, avg_const, ← avg_prod (fun C : (K → Arr 64 × Arr 64) × CosignCoins m => chance fun f : D → Arr 64 =>
        ((simulateCosign O me C.2 [] [] (serveInside me dh (Spec.coinsOf C.1) [] A)).run (table O D f)).Forges (table O D f) me)] at e5
  have hl : dualLoss b q m r p = simCost (q + m + r * (5 * b + 7)) b q m r + (q + r * b : Nat) * m * guess + m * m * guess + q / 2 ^ 256 +
    p / 2 ^ 256 + p * ((q + p : Nat) * guess + spare) + (q + p + r + 1 : Nat) * guess := rfl
  rw [hl]
  generalize simCost (q + m + r * (5 * b + 7)) b q m r = c at *
  have hc : ((q + p : Nat) : ℚ) / 2 ^ 256 = q / 2 ^ 256 + p / 2 ^ 256 := by push_cast; ring
  rw [hc] at e1
  linarith

end

/-- **C84** a key can be used for multi-signature sessions and for plain signatures, VRF proofs and certificates at the same
time: multi-signatures cannot be forged by someone who runs any number of concurrent sessions with the owner of the key *and*
has the same key pair sign, prove and issue certificates in between, in the random-oracle model, if discrete logarithms are
hard, given the VRF outputs.  The explicit procedure `extractDual` runs the attack four times without the secret key, and
finds the secret key with probability at least `δ(δ/2n − guess)`, where `δ = ε(ε/n − guess)`, `n = q + r(4b + 5) + g + 1`,
and `ε` is the probability that the attack on the owner succeeds, minus `dualLoss`. -/
theorem dual_forgery_random_oracle (O : Oracles) (x : Scalar) (hx0 : x.toZ ≠ 0) (sys : Rng) (T : Finset (List MOp))
    (b g q m r p : Nat) (A : DualAttacker P) (hA : DualBounded O D T K b g q m r p A) (hC : CosignCovers D T b m sys) (hs : NoRepeat sys m)
    (hK : CoversKey ((SecretKey.mk x (zeros 32)).toPublic : PublicKey P) (fun I => x.toZ • I) D K) :
    let pk : PublicKey P := (SecretKey.mk x (zeros 32)).toPublic
    let n : ℚ := (q + r * (4 * b + 5) + g + 1 : Nat)
    let ε := (chance fun y : Arr 32 × (D → Arr 64) =>
      ForgesDual (wideTable O D y.2) ((SecretKey.mk x y.1).toKeypair : Keypair P) sys A) - dualLoss b q m r p
    let δ := ε * (ε / n - guess)
    0 ≤ ε → 0 ≤ δ →
    δ * (δ / (2 * n) - guess) ≤ chance fun y : ((K → Arr 64 × Arr 64) × CosignCoins m) × (Arr 64 × ((D → Arr 64) × Arr 64)) =>
      pk.point = extractDual O pk (fun I => x.toZ • I) A y.1 (table O D y.2.2.1) y.2.1 y.2.2.2 • (basepoint : P) := by
  intro pk n ε δ hε hδ
  set dh : P → P := fun I => x.toZ • I with hdh
  have hp : ε ≤ avg fun C : (K → Arr 64 × Arr 64) × CosignCoins m => chance fun f : D → Arr 64 =>
        ((simulateCosign O pk C.2 [] [] (serveInside pk dh (Spec.coinsOf C.1) [] A)).run (table O D f)).Forges (table O D f) pk := by
    have := dual_simulated (D := D) (K := K) O T b g q m r p A x sys hx0 hA hC hs pk (fun s => rfl) hK
    simp only [ε]
    generalize dualLoss b q m r p = c at *
    linarith
  have hI : ∀ C : K → Arr 64 × Arr 64, CosignBounded O D T b g q m r (serveInside pk dh (Spec.coinsOf C) [] A) := fun C =>
    serveInside_bounded pk dh _ A q m r p [] hA
  have hW : ∀ (C : (K → Arr 64 × Arr 64) × CosignCoins m) (O' : Oracles), _ := fun C O' =>
    sim_within (D := D) O T b pk (fun ks hk => covers_weight hC ks hk) (fun t ht V hV agg k => covers_coeff hC t ht V hV agg k) hC.commitment
      C.2 O' (serveInside pk dh (Spec.coinsOf C.1) [] A) q m r [] [] (hI C.1) ⟨by simp, by simp⟩
  have h := joint_forgery_coins (D := D) O pk (fun C : (K → Arr 64 × Arr 64) × CosignCoins m =>
      simulateCosign O pk C.2 [] [] (serveInside pk dh (Spec.coinsOf C.1) [] A)) (q + r * (4 * b + 5)) g
    (fun C f => ⟨by simpa [waiting] using (hW C _).1, (hW C _).2.1⟩)
    (fun C f => ⟨(hW C _).2.2.1, by rw [← queries_table]; exact (hW C _).2.2.2 f⟩) ε hε hp hδ
  rw [chance_eq_avg, avg_prod]
  refine le_trans h (le_of_eq (avg_congr fun C => ?_))
  rw [chance_eq_avg]
  rfl

/-! ### Without VRF requests nothing but the public key is needed -/

theorem serveInside_noVrf {α : Type} (pk : PublicKey P) (dh dh' : P → P) (coins : KeyUse P → Arr 64 × Arr 64) (A : DualClient P α)
    (hA : A.Requests {r | ∀ k, r = .inr k → KeyRequest.NoVrf k}) : ∀ pg, serveInside pk dh coins pg A = serveInside pk dh' coins pg A := by
  induction A with
  | ret a => intro pg; rfl
  | ask q k ih =>
    intro pg
    simp only [serveInside]
    cases pg.lookup q with
    | some w => exact ih w (hA w) pg
    | none => exact congrArg (Client.ask q) (funext fun w => ih w (hA w) pg)
  | request r k ih =>
    intro pg
    have hr := hA.1
    cases r with
    | inl r => exact congrArg (Client.request r) (funext fun a => ih (.inl a) (hA.2 _) pg)
    | inr r =>
      have hr : KeyRequest.NoVrf r := hr r rfl
      cases r with
      | sign t sys => exact ih _ (hA.2 _) _
      | prove extra I ku sys => exact hr.elim
      | issue t S sys => exact ih _ (hA.2 _) _

/-- **C84** if the attacker asks for signatures and certificates only, the procedure does not use VRF outputs, so it finds the
secret key from the public key alone. -/
theorem dual_no_vrf_no_outputs (O : Oracles) (pk : PublicKey P) (dh dh' : P → P) (A : DualAttacker P)
    (hA : A.Requests {r | ∀ k, r = .inr k → KeyRequest.NoVrf k}) {m : Nat} (C : (K → Arr 64 × Arr 64) × CosignCoins m) (O' : Oracles) (w v : Arr 64) :
    extractDual O pk dh A C O' w v = extractDual O pk dh' A C O' w v := by
  unfold extractDual
  rw [serveInside_noVrf pk dh dh' _ A hA []]

/-! ### Attackers who take part in sessions only -/

/-- An attack on the sessions is an attack here, with no other requests. -/
def sessionsOnly : CosignAttacker P → DualAttacker P
  | .ret c => .ret c
  | .ask q k => .ask q fun w => sessionsOnly (k w)
  | .request r k => .request (.inl r) fun a => match a with
    | .inl a => sessionsOnly (k a)
    | .inr _ => sessionsOnly (k .refused)

theorem sessionsOnly_play (O : Oracles) (kp : Keypair P) (A : CosignAttacker P) : ∀ o : Owner P,
    o.playDual O kp (sessionsOnly A) = o.play O kp A := by
  induction A with
  | ret c => intro o; rfl
  | ask q k ih => intro o; exact ih _ o
  | request r k ih => intro o; simp only [sessionsOnly, Owner.playDual, Owner.play]; exact ih _ _

/-- **C84** the attacks of C82 are the attacks here that make no other requests. -/
theorem sessionsOnly_forges (O : Oracles) (kp : Keypair P) (sys : Rng) (A : CosignAttacker P) :
    ForgesDual O kp sys (sessionsOnly A) ↔ ForgesJoint O kp sys A := by
  unfold ForgesDual ForgesJoint
  rw [sessionsOnly_play]

/-! ### The hypotheses can be met -/

/-- Whoever takes part is bounded by some numbers and some finite sets. -/
theorem mixed_bounded_exists {α : Type} (fin : Finset (List MOp) → Nat → α → Prop)
    (hfin : ∀ c, ∃ (D₀ : Finset (List MOp)) (N : Nat), ∀ D, D₀ ⊆ D → ∀ g, N ≤ g → fin D g c) (A : DualClient P α) : ∃ (D₀ T₀ : Finset (List MOp)) (K₀ : Finset (KeyUse P)) (N : Nat),
    ∀ (D T : Finset (List MOp)) (K : Finset (KeyUse P)), D₀ ⊆ D → T₀ ⊆ T → K₀ ⊆ K → ∀ b g q m r p : Nat, N ≤ b → N ≤ g → N ≤ q → N ≤ m → N ≤ r → N ≤ p →
      MixedBounded D T K b (fin D g) q m r p A := by
  classical
  have := finite_answer
  have := finiteAnswer (P := P)
  have hsup : ∀ {ι α : Type} [Finite ι] (s : ι → Finset α), ∃ t : Finset α, ∀ i, s i ⊆ t := by
    intro ι α _ s
    let _ := Fintype.ofFinite ι
    exact ⟨Finset.univ.biUnion s, fun i => Finset.subset_biUnion_of_mem s (Finset.mem_univ i)⟩
  have hmax : ∀ {ι : Type} [Finite ι] (s : ι → Nat), ∃ t : Nat, ∀ i, s i ≤ t := by
    intro ι _ s
    let _ := Fintype.ofFinite ι
    exact ⟨Finset.univ.sup s, fun i => Finset.le_sup (f := s) (Finset.mem_univ i)⟩
  induction A with
  | ret c =>
    obtain ⟨D₀, N, h⟩ := hfin c
    exact ⟨D₀, ∅, ∅, N, fun D T K hD _ _ b g q m r p _ hg _ _ _ _ => h D hD g hg⟩
  | ask l k ih =>
    choose D₁ T₁ K₁ N₁ h using ih
    obtain ⟨D₂, hD₂⟩ := hsup D₁
    obtain ⟨T₂, hT₂⟩ := hsup T₁
    obtain ⟨K₂, hK₂⟩ := hsup K₁
    obtain ⟨N₂, hN₂⟩ := hmax N₁
    refine ⟨{l} ∪ D₂, T₂, K₂, N₂ + 1, fun D T K hD hT hK b g q m r p hb hg hq hm hr hp => ⟨hD (by simp), q - 1, by omega, fun w => ?_⟩⟩
    have := hN₂ w
    exact h w D T K ((hD₂ w).trans (Finset.subset_union_right.trans hD)) ((hT₂ w).trans hT) ((hK₂ w).trans hK) _ _ _ _ _ _
      (by omega) (by omega) (by omega) (by omega) (by omega) (by omega)
  | request rq k ih =>
    choose D₁ T₁ K₁ N₁ h using ih
    obtain ⟨D₂, hD₂⟩ := hsup D₁
    obtain ⟨T₂, hT₂⟩ := hsup T₁
    obtain ⟨K₂, hK₂⟩ := hsup K₁
    obtain ⟨N₂, hN₂⟩ := hmax N₁
    rcases rq with (t | ⟨i, cs⟩ | ⟨i, rs⟩) | rq
    · refine ⟨D₂, {t.log} ∪ T₂, K₂, N₂ + 1, fun D T K hD hT hK b g q m r p hb hg hq hm hr hp => ⟨hT (by simp), m - 1, by omega, fun w => ?_⟩⟩
      have := hN₂ w
      exact h w D T K ((hD₂ w).trans hD) ((hT₂ w).trans (Finset.subset_union_right.trans hT)) ((hK₂ w).trans hK) _ _ _ _ _ _
        (by omega) (by omega) (by omega) (by omega) (by omega) (by omega)
    · refine ⟨D₂, T₂, K₂, N₂ + cs.length + 1, fun D T K hD hT hK b g q m r p hb hg hq hm hr hp => ⟨by omega, r - 1, by omega, fun w => ?_⟩⟩
      have := hN₂ w
      exact h w D T K ((hD₂ w).trans hD) ((hT₂ w).trans hT) ((hK₂ w).trans hK) _ _ _ _ _ _
        (by omega) (by omega) (by omega) (by omega) (by omega) (by omega)
    · refine ⟨D₂, T₂, K₂, N₂ + rs.length + 1, fun D T K hD hT hK b g q m r p hb hg hq hm hr hp => ⟨by omega, r - 1, by omega, fun w => ?_⟩⟩
      have := hN₂ w
      exact h w D T K ((hD₂ w).trans hD) ((hT₂ w).trans hT) ((hK₂ w).trans hK) _ _ _ _ _ _
        (by omega) (by omega) (by omega) (by omega) (by omega) (by omega)
    · refine ⟨D₂, T₂, {rq.use} ∪ K₂, N₂ + 1, fun D T K hD hT hK b g q m r p hb hg hq hm hr hp => ⟨hK (by simp), p - 1, by omega, fun w => ?_⟩⟩
      have := hN₂ w
      exact h w D T K ((hD₂ w).trans hD) ((hT₂ w).trans hT) ((hK₂ w).trans (Finset.subset_union_right.trans hK)) _ _ _ _ _ _
        (by omega) (by omega) (by omega) (by omega) (by omega) (by omega)

/-- Every attacker is bounded in the required way by some numbers and some finite sets. -/
theorem dual_bounded_exists (O : Oracles) (A : DualAttacker P) : ∃ (D₀ T₀ : Finset (List MOp)) (K₀ : Finset (KeyUse P)) (N : Nat),
    ∀ (D T : Finset (List MOp)) (K : Finset (KeyUse P)), D₀ ⊆ D → T₀ ⊆ T → K₀ ⊆ K → ∀ b g q m r p : Nat, N ≤ b → N ≤ g → N ≤ q → N ≤ m → N ≤ r → N ≤ p →
      DualBounded O D T K b g q m r p A := by
  classical
  refine mixed_bounded_exists (fun D g c => (cosigners c.keys).length ≤ g ∧ ∀ f : D → Arr 64, ∀ l ∈ c.queries (wideTable O D f), l ∈ D) (fun c => ?_) A
  let _ := Fintype.ofFinite (Arr 32)
  let S : Finset (List MOp) := Finset.univ.biUnion fun pk : Arr 32 => {(Use.signature c.t.log pk.1 (c.sig.take 32)).query}
  refine ⟨((cosigners c.keys).map (weightOf c.keys)).toFinset ∪ S, (cosigners c.keys).length, fun D hD g hg => ⟨hg, fun f l hl => hD ?_⟩⟩
  rcases List.mem_append.mp hl with h | h
  · exact Finset.mem_union_left _ (List.mem_toFinset.mpr h)
  · rw [List.mem_singleton.mp h]
    exact Finset.mem_union_right _ (Finset.mem_biUnion.mpr ⟨(jointKey (wideTable O D f) c.keys).compressed, Finset.mem_univ _, Finset.mem_singleton_self _⟩)

theorem covers_key_exists (pk : PublicKey P) (dh : P → P) (K : Finset (KeyUse P)) : ∃ D₀ : Finset (List MOp), ∀ D, D₀ ⊆ D → CoversKey pk dh D K := by
  classical
  haveI := Fintype.ofFinite (Arr 32)
  haveI := Fintype.ofFinite Z
  refine ⟨K.biUnion (fun k => Finset.univ.image (fun v : Z => k.query pk dh v 0) ∪ Finset.univ.image (fun n : Arr 32 => k.nonceQuery pk n)),
    fun D hD k hk => ⟨fun v => hD ?_, fun n => hD ?_⟩⟩
  · exact Finset.mem_biUnion.mpr ⟨k, hk, Finset.mem_union_left _ (Finset.mem_image_of_mem (fun v : Z => k.query pk dh v 0) (Finset.mem_univ v))⟩
  · exact Finset.mem_biUnion.mpr ⟨k, hk, Finset.mem_union_right _ (Finset.mem_image_of_mem (fun n : Arr 32 => k.nonceQuery pk n) (Finset.mem_univ n))⟩

/-- Non-vacuity: for every attacker there are numbers and sets that meet the hypotheses of `dual_forgery_random_oracle`; for
`NoRepeat` see `countingRng_noRepeat`. -/
example (O : Oracles) (pk : PublicKey P) (dh : P → P) (A : DualAttacker P) : ∃ (D T : Finset (List MOp)) (K : Finset (KeyUse P)) (b g q m r p : Nat),
    DualBounded O D T K b g q m r p A ∧ CosignCovers D T b m countingRng ∧ CoversKey pk dh D K := by
  classical
  obtain ⟨D₀, T₀, K₀, N, h⟩ := dual_bounded_exists O A
  obtain ⟨D₁, h'⟩ := cosign_covers_exists T₀ N N countingRng
  obtain ⟨D₂, h''⟩ := covers_key_exists pk dh K₀
  exact ⟨D₀ ∪ D₁ ∪ D₂, T₀, K₀, N, N, N, N, N, N,
    h _ _ _ (Finset.subset_union_left.trans Finset.subset_union_left) (Finset.Subset.refl _) (Finset.Subset.refl _) N N N N N N
      le_rfl le_rfl le_rfl le_rfl le_rfl le_rfl,
    h' _ (Finset.subset_union_right.trans Finset.subset_union_left), h'' _ Finset.subset_union_right⟩

/-- Someone who has the owner sign, prove and issue a certificate on `t₀`, starts a session and then signs for the owner alone. -/
noncomputable def busyThief (P : Type) [Ristretto P] (x : Scalar) (t₀ t : Transcript) (rng : Rng) : DualAttacker P :=
  .request (.inr (.sign t₀ rng)) fun _ => .request (.inr (.prove t₀ basepoint KUSAMA_VRF rng)) fun _ =>
    .request (.inr (.issue t₀ basepoint rng)) fun _ => .request (.inl (.start t₀)) fun _ => sessionsOnly (thief P x t)

theorem play_noRequest (O : Oracles) (kp : Keypair P) (x : Scalar) (t : Transcript) (o o' : Owner P) :
    (o.play O kp (thief P x t)).1 = (o'.play O kp (thief P x t)).1 ∧ (o.play O kp (thief P x t)).2 = o := ⟨rfl, rfl⟩

/-- Non-vacuity: this attack always succeeds, so the success probability in `dual_forgery_random_oracle` can be 1. -/
theorem busyThief_wins (O : Oracles) (x : Scalar) (s : Arr 32) (sys rng : Rng) (t₀ t : Transcript) :
    ForgesDual O ((SecretKey.mk x s).toKeypair : Keypair P) sys (busyThief P x t₀ t rng) := by
  have h := thief_wins (P := P) O x s sys t
  unfold ForgesDual busyThief
  simp only [Owner.playDual, sessionsOnly_play]
  refine ⟨h.1, ?_⟩
  rw [(play_noRequest O _ x t _ (Owner.new sys)).2]
  have : (Owner.step O ((SecretKey.mk x s).toKeypair : Keypair P) (Owner.new sys) (CosignRequest.start t₀)).2.revealed = [] := by
    simp only [Owner.step]
    split <;> rfl
  rw [this]
  simp

end Schnorrkel.Props
