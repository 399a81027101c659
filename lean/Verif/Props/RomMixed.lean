import Verif.Lemmas.RomMixed

/-! # C85: plain signatures, VRF proofs and certificates of a key that is also used for multi-signatures -/

namespace Schnorrkel.Props
open Spec Schnorrkel
variable {P : Type} [Ristretto P] {D : Finset (List MOp)} {K : Finset (KeyUse P)}

section
variable (O : Oracles) (T : Finset (List MOp)) (b q m r p : Nat) (A : DualClient P (KeyForgery P)) (x : Scalar) (sys : Rng)

/-- For fixed session nonces: what it costs to serve the other requests without the secret key. -/
theorem mixed_serve_le (hA : MixedBounded D T K b (fun c => c.query (SecretKey.mk x (zeros 32)).toPublic ∈ D) q m r p A)
    (hC : CosignCovers D T b m sys) (me : PublicKey P) (hme : me = (SecretKey.mk x (zeros 32)).toPublic)
    (h0 : me.point ≠ 0) (hK : CoversKey me (fun I => x.toZ • I) D K) (N : Fin m → Fin 3 → Arr 64) :
    (avg fun f : D → Arr 64 => avg fun w : K → Arr 64 =>
        ind (WinN (wideTable O D f) N me x.toZ [] (serveReal x.toZ me (fun I => x.toZ • I) (noncesOf w) (keyLogged [] A)))) ≤
      (avg fun f : D → Arr 64 => avg fun C : K → Arr 64 × Arr 64 =>
        ind (WinN (wideTable O D f) N me x.toZ [] (serveInside me (fun I => x.toZ • I) (Spec.coinsOf C) [] A))) +
      (p * ((q + p : Nat) * guess + spare) + (q + p + r + 1 : Nat) * guess) := by
  have hz : me.point = x.toZ • (basepoint : P) := by rw [hme]; exact mulPoint_eq _ _
  have hwf : me.WF := by rw [hme]; rfl
  rw [← hme] at hA
  set dh : P → P := fun I => x.toZ • I with hdh
  have hA1 := keyLogged_bounded A q m r p [] hA
  have hB : ∀ w : K → Arr 64, SessionBounded D T b _ (q + p) m r (serveReal x.toZ me dh (noncesOf w) (keyLogged [] A)) := fun w =>
    serveReal_bounded x.toZ me dh _ (fun k hk => (hK k hk).1) _ q m r p hA1
  have hI : ∀ C : K → Arr 64 × Arr 64, SessionBounded D T b _ q m r (serveInside me dh (Spec.coinsOf C) [] A) := fun C =>
    serveInside_bounded me dh _ A q m r p [] hA
  have a1 := serve_le (D := D) (K := K) O T b q r p N me hwf x.toZ hz (fun k hk => (hK k hk).1) (keyLogged [] A) hA1
      (fun Om e => NoOwnGroup Om me e ∧ Checks Om me e.2.1) (fun Om O₀ Op C h64 => fun h1 h2 h3 => ⟨h2, new_claim_checks
        (programmed_on_record Om O₀ _ N me x.toZ dh (Spec.coinsOf C) A [] Op [] (fun l => Or.inl (h64 l))) h3.1⟩)
  have a1' : (avg fun f : D → Arr 64 => avg fun C : K → Arr 64 × Arr 64 =>
        ind (NoOwnGroup (wideTable O D f) me (endN (wideTable O D f) N me x.toZ [] (serveInside me dh (Spec.coinsOf C) [] (keyLogged [] A))) ∧
          Checks (wideTable O D f) me (endN (wideTable O D f) N me x.toZ [] (serveInside me dh (Spec.coinsOf C) [] (keyLogged [] A))).2.1)) ≤
      avg fun f : D → Arr 64 => avg fun C : K → Arr 64 × Arr 64 =>
        ind (WinN (wideTable O D f) N me x.toZ [] (serveInside me dh (Spec.coinsOf C) [] A)) := by
    refine avg_mono fun f => avg_mono fun C => ind_mono ?_
    rintro ⟨h1, h2⟩
    obtain ⟨e1, e2⟩ := keyLogged_end (wideTable O D f) N me x.toZ dh (Spec.coinsOf C) A [] [] []
    rw [winN_end (wideTable O D f) T b N me x.toZ _ _ m r [] (hI C) (by simp)]
    rw [e2] at h2
    refine ⟨h2, fun s hs hc => ?_⟩
    rw [← e1] at hs
    refine h1.1 s hs ?_
    have hc' : compress (aggO (wideTable O D f) (groupKeys me s.2)) = me.compressed := hc
    have hc2 : compress me.point = me.compressed := hwf
    exact compress_inj.mp (hc'.trans hc2.symm)
  have a2 : (avg fun f : D → Arr 64 => avg fun w : K → Arr 64 =>
      ind (¬ NoOwnGroup (wideTable O D f) me (endN (wideTable O D f) N me x.toZ [] (serveReal x.toZ me dh (noncesOf w) (keyLogged [] A))))) ≤
      (q + p + r + 1 : Nat) * guess := by
    rw [avg_comm]
    refine avg_le_const fun w => ?_
    exact own_le (D := D) O T b (q + p) r N me hwf x.toZ h0 (fun ks hk => covers_weight hC ks hk) _ (hB w)
      (fun c _ _ hm' => absurd hm' (by simp [Goal.keys]))
  have a3 : (avg fun f : D → Arr 64 => avg fun w : K → Arr 64 =>
      ind (WinN (wideTable O D f) N me x.toZ [] (serveReal x.toZ me dh (noncesOf w) (keyLogged [] A)))) ≤
      (avg fun f : D → Arr 64 => avg fun w : K → Arr 64 => ind (WinN (wideTable O D f) N me x.toZ [] (serveReal x.toZ me dh (noncesOf w) (keyLogged [] A)) ∧
        NoOwnGroup (wideTable O D f) me (endN (wideTable O D f) N me x.toZ [] (serveReal x.toZ me dh (noncesOf w) (keyLogged [] A))))) +
      (avg fun f : D → Arr 64 => avg fun w : K → Arr 64 =>
        ind (¬ NoOwnGroup (wideTable O D f) me (endN (wideTable O D f) N me x.toZ [] (serveReal x.toZ me dh (noncesOf w) (keyLogged [] A))))) := by
    rw [← avg_add]
    refine avg_mono fun f => ?_
    rw [← avg_add]
    refine avg_mono fun w => ?_
    by_cases hn : NoOwnGroup (wideTable O D f) me (endN (wideTable O D f) N me x.toZ [] (serveReal x.toZ me dh (noncesOf w) (keyLogged [] A)))
    · refine le_trans (ind_mono fun h => ⟨h, hn⟩) (le_add_of_nonneg_right (ind_nonneg _))
    · rw [show ind (¬ NoOwnGroup (wideTable O D f) me (endN (wideTable O D f) N me x.toZ [] (serveReal x.toZ me dh (noncesOf w) (keyLogged [] A)))) = 1 from if_pos hn]
      exact le_trans (ind_le_one _) (le_add_of_nonneg_left (ind_nonneg _))
  refine le_trans a3 (le_trans (add_le_add (le_trans a1 (add_le_add a1' le_rfl)) a2) (le_of_eq ?_))
  rw [add_assoc]

/-- Without the secret key. -/
theorem mixed_simulated (hx0 : x.toZ ≠ 0)
    (hA : MixedBounded D T K b (fun c => c.query (SecretKey.mk x (zeros 32)).toPublic ∈ D) q m r p A)
    (hC : CosignCovers D T b m sys) (hs : NoRepeat sys m) (me : PublicKey P) (hme : me = (SecretKey.mk x (zeros 32)).toPublic)
    (hK : CoversKey me (fun I => x.toZ • I) D K) :
    (chance fun y : Arr 32 × (D → Arr 64) => ForgesMixed (wideTable O D y.2) ((SecretKey.mk x y.1).toKeypair : Keypair P) sys A) ≤
      (avg fun C : (K → Arr 64 × Arr 64) × CosignCoins m => chance fun f : D → Arr 64 =>
        Checks (table O D f) me ((simulateCosign O me C.2 [] [] (serveInside me (fun I => x.toZ • I) (Spec.coinsOf C.1) [] A)).run (table O D f))) +
        dualLoss b q m r p := by
  have hz : me.point = x.toZ • (basepoint : P) := by rw [hme]; exact mulPoint_eq _ _
  have hwf : me.WF := by rw [hme]; rfl
  have h0 : me.point ≠ 0 := by
    rw [hz]
    intro h
    exact hx0 (smul_basepoint_inj.mp (h.trans (zero_smul _ _).symm))
  have e2 := mixed_serve_le (D := D) (K := K) O T b q m r p A x sys hA hC me hme h0 hK
  rw [← hme] at hA
  have hA1 := keyLogged_bounded A q m r p [] hA
  have e1 : (chance fun y : Arr 32 × (D → Arr 64) => ForgesMixed (wideTable O D y.2) ((SecretKey.mk x y.1).toKeypair : Keypair P) sys A) ≤
      (avg fun f : D → Arr 64 => avg fun w : K → Arr 64 => avg fun N : Fin m → Fin 3 → Arr 64 =>
        ind (WinN (wideTable O D f) N me x.toZ [] (serveReal x.toZ me (fun I => x.toZ • I) (noncesOf w) (keyLogged [] A)))) + (q + p : Nat) / 2 ^ 256 := by
    refine le_trans (chance_mono fun y h => ?_) (dual_forges_le (D := D) (K := K) O T b q m r p x sys hA1 hC hs me (fun s => by rw [hme]; rfl) hK)
    refine ⟨?_, fun s _ hc => hc⟩
    rw [keyLogged_play]
    exact h
  set dh : P → P := fun I => x.toZ • I with hdh
  have hI : ∀ C : K → Arr 64 × Arr 64, SessionBounded D T b _ q m r (serveInside me dh (Spec.coinsOf C) [] A) := fun C =>
    serveInside_bounded me dh _ A q m r p [] hA
  have e3 : (avg fun f : D → Arr 64 => avg fun w : K → Arr 64 => avg fun N : Fin m → Fin 3 → Arr 64 =>
        ind (WinN (wideTable O D f) N me x.toZ [] (serveReal x.toZ me dh (noncesOf w) (keyLogged [] A)))) ≤
      (avg fun C : K → Arr 64 × Arr 64 => avg fun f : D → Arr 64 => avg fun N : Fin m → Fin 3 → Arr 64 =>
        ind (WinN (wideTable O D f) N me x.toZ [] (serveInside me dh (Spec.coinsOf C) [] A))) +
      (p * ((q + p : Nat) * guess + spare) + (q + p + r + 1 : Nat) * guess) := by
    have s1 : (avg fun f : D → Arr 64 => avg fun w : K → Arr 64 => avg fun N : Fin m → Fin 3 → Arr 64 =>
        ind (WinN (wideTable O D f) N me x.toZ [] (serveReal x.toZ me dh (noncesOf w) (keyLogged [] A)))) =
        avg fun N : Fin m → Fin 3 → Arr 64 => avg fun f : D → Arr 64 => avg fun w : K → Arr 64 =>
        ind (WinN (wideTable O D f) N me x.toZ [] (serveReal x.toZ me dh (noncesOf w) (keyLogged [] A))) := by
      rw [avg_comm (fun (N : Fin m → Fin 3 → Arr 64) (f : D → Arr 64) => avg fun w : K → Arr 64 =>
        ind (WinN (wideTable O D f) N me x.toZ [] (serveReal x.toZ me dh (noncesOf w) (keyLogged [] A))))]
      exact avg_congr fun f => avg_comm _
    have s2 : (avg fun C : K → Arr 64 × Arr 64 => avg fun f : D → Arr 64 => avg fun N : Fin m → Fin 3 → Arr 64 =>
        ind (WinN (wideTable O D f) N me x.toZ [] (serveInside me dh (Spec.coinsOf C) [] A))) =
        avg fun N : Fin m → Fin 3 → Arr 64 => avg fun f : D → Arr 64 => avg fun C : K → Arr 64 × Arr 64 =>
        ind (WinN (wideTable O D f) N me x.toZ [] (serveInside me dh (Spec.coinsOf C) [] A)) := by
      rw [avg_comm (fun (N : Fin m → Fin 3 → Arr 64) (f : D → Arr 64) => avg fun C : K → Arr 64 × Arr 64 =>
        ind (WinN (wideTable O D f) N me x.toZ [] (serveInside me dh (Spec.coinsOf C) [] A))),
        avg_comm (fun (C : K → Arr 64 × Arr 64) (f : D → Arr 64) => avg fun N : Fin m → Fin 3 → Arr 64 =>
        ind (WinN (wideTable O D f) N me x.toZ [] (serveInside me dh (Spec.coinsOf C) [] A)))]
      exact avg_congr fun f => avg_comm _
    rw [s1, s2]
    refine le_trans (avg_mono e2) (le_of_eq ?_)
    rw [avg_add, avg_const]
  have e4 : ∀ C : K → Arr 64 × Arr 64, (avg fun f : D → Arr 64 => avg fun N : Fin m → Fin 3 → Arr 64 =>
        ind (WinN (wideTable O D f) N me x.toZ [] (serveInside me dh (Spec.coinsOf C) [] A))) ≤
      (avg fun C' : CosignCoins m => chance fun f : D → Arr 64 =>
        Checks (table O D f) me ((simulateCosign O me C' [] [] (serveInside me dh (Spec.coinsOf C) [] A)).run (table O D f))) +
        (simCost (q + m + r * (5 * b + 7)) b q m r + (q + r * b : Nat) * m * guess + m * m * guess) := by
    intro C
    have b1 := winN_le (D := D) O T b q m r (hI C) hC.commitment me x.toZ
    have b2 : _ ≤ (avg fun C' : CosignCoins m => chance fun f : D → Arr 64 =>
        Checks (table O D f) me ((simulateCosign O me C' [] [] (serveInside me dh (Spec.coinsOf C) [] A)).run (table O D f))) + _ :=
      val1_le (D := D) O T b q m r sys (hI C) hC me hwf x.toZ hz (fun c hc f l hl => by rw [List.mem_singleton.mp hl]; exact hc)
    generalize simCost (q + m + r * (5 * b + 7)) b q m r = c at *
    linarith
  have e5 := avg_mono e4
  rw [avg_add, avg_const, ← avg_prod (fun C : (K → Arr 64 × Arr 64) × CosignCoins m => chance fun f : D → Arr 64 =>
        Checks (table O D f) me ((simulateCosign O me C.2 [] [] (serveInside me dh (Spec.coinsOf C.1) [] A)).run (table O D f)))] at e5
  have hl : dualLoss b q m r p = simCost (q + m + r * (5 * b + 7)) b q m r + (q + r * b : Nat) * m * guess + m * m * guess + q / 2 ^ 256 +
    p / 2 ^ 256 + p * ((q + p : Nat) * guess + spare) + (q + p + r + 1 : Nat) * guess := rfl
  rw [hl]
  generalize simCost (q + m + r * (5 * b + 7)) b q m r = c at *
  have hc : ((q + p : Nat) : ℚ) / 2 ^ 256 = q / 2 ^ 256 + p / 2 ^ 256 := by push_cast; ring
  rw [hc] at e1
  linarith

end

/-- For fixed coins: the extractor succeeds about as often as the square of the simulated attack. -/
private theorem extract_coins (O : Oracles) (pk : PublicKey P) (dh : P → P) {m : Nat} (A : DualClient P (KeyForgery P))
    (C : (K → Arr 64 × Arr 64) × CosignCoins m) (n : Nat)
    (hS : ∀ O', ((simulateCosign O pk C.2 [] [] (serveInside pk dh (Spec.coinsOf C.1) [] A)).asked O').length ≤ n ∧
      (∀ l ∈ (simulateCosign O pk C.2 [] [] (serveInside pk dh (Spec.coinsOf C.1) [] A)).asked O', l ∈ D) ∧
      ((simulateCosign O pk C.2 [] [] (serveInside pk dh (Spec.coinsOf C.1) [] A)).run O').query pk ∈ D) :
    let p := chance fun f : D → Arr 64 =>
      Checks (table O D f) pk ((simulateCosign O pk C.2 [] [] (serveInside pk dh (Spec.coinsOf C.1) [] A)).run (table O D f))
    p ^ 2 / (n + 1 : Nat) - guess * p ≤
      chance fun x : (D → Arr 64) × (D → Arr 64) => pk.point = extractMixed O pk dh A C x.1 x.2 • (basepoint : P) := by
  intro p
  let S := simulateCosign O pk C.2 [] [] (serveInside pk dh (Spec.coinsOf C.1) [] A)
  let B := simulateMixed O pk dh A C
  have hrun : ∀ O, B.run O = S.run O := fun O => by
    simp only [B, S, simulateMixed, Algo.run_bind, Algo.run]
  have hasked : ∀ O, B.asked O = S.asked O ++ [(B.run O).query pk] :=
    fun O => by
      rw [hrun]
      simp only [B, S, simulateMixed, Algo.asked_bind, Algo.asked]
  have hB : B.Within O D (n + 1) := by
    intro f
    obtain ⟨h1, h2, h3⟩ := hS (table O D f)
    rw [hasked, hrun]
    refine ⟨by simpa using h1, fun l hl => ?_⟩
    rcases List.mem_append.mp hl with h | h
    · exact h2 l h
    · rw [List.mem_singleton.mp h]; exact h3
  let win : (D → Arr 64) → Prop := fun f => Checks (table O D f) pk (B.run (table O D f))
  let tq : (D → Arr 64) → List MOp := fun f => (B.run (table O D f)).query pk
  have hf := forking O B (n + 1) hB win tq (fun f _ => by rw [hasked]; simp [tq])
  have hp : p = chance win := by
    simp only [p, win, hrun]
    rfl
  rw [hp]
  refine le_trans (le_of_eq (by ring)) (le_trans hf (chance_mono ?_))
  rintro ⟨f, g⟩ ⟨h1, h2, htq, hne⟩
  simp only at h1 h2 htq hne
  exact claims_extract _ _ pk _ _ h1 h2 htq hne

/-- **C85** plain signatures, VRF proofs and certificates of a key cannot be forged by someone who also runs any number of
concurrent multi-signature sessions with the owner of that key, next to having it sign, prove and issue certificates, in the
random-oracle model, if discrete logarithms are hard, given the VRF outputs: no session with any group of keys, made up by
the attacker as it goes, ever yields a plain signature by the owner.  The explicit procedure `extractMixed` runs the attack
twice without the secret key, and finds the secret key with probability at least `ε(ε/n − guess)`, where
`n = q + r(4b + 5) + 1`, and `ε` is the probability that the attack on the owner succeeds, minus `dualLoss`. -/
theorem mixed_forgery_random_oracle (O : Oracles) (x : Scalar) (hx0 : x.toZ ≠ 0) (sys : Rng) (T : Finset (List MOp))
    (b q m r p : Nat) (A : DualClient P (KeyForgery P))
    (hA : MixedBounded D T K b (fun c => c.query (SecretKey.mk x (zeros 32)).toPublic ∈ D) q m r p A)
    (hC : CosignCovers D T b m sys) (hs : NoRepeat sys m)
    (hK : CoversKey ((SecretKey.mk x (zeros 32)).toPublic : PublicKey P) (fun I => x.toZ • I) D K) :
    let pk : PublicKey P := (SecretKey.mk x (zeros 32)).toPublic
    let n : ℚ := (q + r * (4 * b + 5) + 1 : Nat)
    let ε := (chance fun y : Arr 32 × (D → Arr 64) =>
      ForgesMixed (wideTable O D y.2) ((SecretKey.mk x y.1).toKeypair : Keypair P) sys A) - dualLoss b q m r p
    0 ≤ ε →
    ε * (ε / n - guess) ≤ chance fun y : ((K → Arr 64 × Arr 64) × CosignCoins m) × ((D → Arr 64) × (D → Arr 64)) =>
      pk.point = extractMixed O pk (fun I => x.toZ • I) A y.1 y.2.1 y.2.2 • (basepoint : P) := by
  intro pk n ε hε
  set dh : P → P := fun I => x.toZ • I with hdh
  have hI : ∀ C : K → Arr 64 × Arr 64, SessionBounded D T b _ q m r (serveInside pk dh (Spec.coinsOf C) [] A) := fun C =>
    serveInside_bounded pk dh _ A q m r p [] hA
  have hW : ∀ (C : (K → Arr 64 × Arr 64) × CosignCoins m) (O' : Oracles), _ := fun C O' =>
    sim_within (D := D) O T b pk (fun ks hk => covers_weight hC ks hk) (fun t ht V hV agg k => covers_coeff hC t ht V hV agg k) hC.commitment
      C.2 O' (serveInside pk dh (Spec.coinsOf C.1) [] A) q m r [] [] (hI C.1) ⟨by simp, by simp⟩
  have h1 := mixed_simulated (D := D) (K := K) O T b q m r p A x sys hx0 hA hC hs pk rfl hK
  refine fork_coins (fun C : (K → Arr 64 × Arr 64) × CosignCoins m => chance fun f : D → Arr 64 =>
        Checks (table O D f) pk ((simulateCosign O pk C.2 [] [] (serveInside pk dh (Spec.coinsOf C.1) [] A)).run (table O D f)))
    (chance fun y : Arr 32 × (D → Arr 64) => ForgesMixed (wideTable O D y.2) ((SecretKey.mk x y.1).toKeypair : Keypair P) sys A)
    (dualLoss b q m r p) n _ (by simp only [n]; positivity) (by unfold chance; positivity) (sub_nonneg.mp hε) ?_ ?_
  · generalize dualLoss b q m r p = c at *
    linarith
  refine le_trans (avg_mono fun C : (K → Arr 64 × Arr 64) × CosignCoins m => ?_) (le_of_eq ((chance_eq_avg _).trans (avg_prod _)).symm)
  rw [← chance_eq_avg]
  exact extract_coins O pk dh A C (q + r * (4 * b + 5)) fun O' =>
    ⟨by simpa [waiting] using (hW C O').1, (hW C O').2.1, (hW C O').2.2⟩

/-! ### Without VRF requests nothing but the public key is needed -/

/-- **C85** if the attacker asks for signatures and certificates only, the procedure does not use VRF outputs, so it finds the
secret key from the public key alone. -/
theorem mixed_no_vrf_no_outputs (O : Oracles) (pk : PublicKey P) (dh dh' : P → P) (A : DualClient P (KeyForgery P))
    (hA : A.Requests {r | ∀ k, r = .inr k → KeyRequest.NoVrf k}) {m : Nat} (C : (K → Arr 64 × Arr 64) × CosignCoins m) (f g : D → Arr 64) :
    extractMixed O pk dh A C f g = extractMixed O pk dh' A C f g := by
  have : simulateMixed O pk dh A C = simulateMixed O pk dh' A C := by
    unfold simulateMixed
    rw [serveInside_noVrf pk dh dh' _ A hA []]
  unfold extractMixed
  rw [this]

/-! ### Attackers who take part in no sessions -/

/-- An attack on signatures, proofs and certificates alone is an attack here, with no sessions. -/
def servicesOnly {α : Type} : Client (KeyRequest P) (KeyAnswer P) α → DualClient P α
  | .ret c => .ret c
  | .ask q k => .ask q fun w => servicesOnly (k w)
  | .request r k => .request (.inr r) fun a => match a with
    | .inr a => servicesOnly (k a)
    | .inl _ => servicesOnly (k (.signature ⟨zeros 32, Scalar.ofZ 0⟩))

theorem servicesOnly_play (O : Oracles) (kp : Keypair P) (A : Client (KeyRequest P) (KeyAnswer P) (KeyForgery P)) :
    ∀ (o : Owner P) (log : List (KeyRequest P × KeyAnswer P)), o.playMixed O kp log (servicesOnly A) = (A.logged log).play O (serveKey O kp) := by
  induction A with
  | ret c => intro o log; rfl
  | ask q k ih => intro o log; exact ih _ o log
  | request r k ih => intro o log; simp only [servicesOnly, Owner.playMixed, Client.logged, Client.play]; exact ih _ o _

/-- **C85** the attacks of C73 are the attacks here that take part in no sessions. -/
theorem servicesOnly_forges (O : Oracles) (kp : Keypair P) (sys : Rng) (A : Client (KeyRequest P) (KeyAnswer P) (KeyForgery P)) :
    ForgesMixed O kp sys (servicesOnly A) ↔
      let r := (A.logged []).play O (serveKey O kp)
      r.1.Valid O kp.pub r.2 := by
  unfold ForgesMixed
  rw [servicesOnly_play]

/-! ### The hypotheses can be met -/

/-- Non-vacuity: for every attacker there are numbers and sets that meet the hypotheses of `mixed_forgery_random_oracle`; for
`NoRepeat` see `countingRng_noRepeat`. -/
theorem mixed_hypotheses_met (pk : PublicKey P) (dh : P → P) (A : DualClient P (KeyForgery P)) : ∃ (D T : Finset (List MOp)) (K : Finset (KeyUse P)) (b q m r p : Nat),
    MixedBounded D T K b (fun c => c.query pk ∈ D) q m r p A ∧ CosignCovers D T b m countingRng ∧ CoversKey pk dh D K := by
  classical
  obtain ⟨D₀, T₀, K₀, N, h⟩ := mixed_bounded_exists (fun D _ c => c.query pk ∈ D) (fun c => ⟨{c.query pk}, 0, fun D hD _ _ => hD (by simp)⟩) A
  obtain ⟨D₁, h'⟩ := cosign_covers_exists T₀ N N countingRng
  obtain ⟨D₂, h''⟩ := covers_key_exists pk dh K₀
  exact ⟨D₀ ∪ D₁ ∪ D₂, T₀, K₀, N, N, N, N, N,
    h _ _ _ (Finset.subset_union_left.trans Finset.subset_union_left) (Finset.Subset.refl _) (Finset.Subset.refl _) N N N N N N
      le_rfl le_rfl le_rfl le_rfl le_rfl le_rfl,
    h' _ (Finset.subset_union_right.trans Finset.subset_union_left), h'' _ Finset.subset_union_right⟩

/-- Someone who runs a session for `t` with the owner, up to a cosignature, and has it sign, prove and issue a certificate on
`t`, and then, knowing the secret key, makes a certificate on `t'`. -/
noncomputable def mixedInsider (pk : PublicKey P) (x : Z) (t t' : Transcript) (rng : Rng) : DualClient P (KeyForgery P) :=
  .request (.inl (.start t)) fun _ => .request (.inl (.reveal 0 [])) fun _ => .request (.inl (.cosign 0 [])) fun _ =>
    servicesOnly (keyInsider pk x t t' rng)

/-- Non-vacuity: this attack always succeeds, so the success probability in `mixed_forgery_random_oracle` can be 1. -/
theorem mixedInsider_wins (O : Oracles) (x : Scalar) (s : Arr 32) (sys rng : Rng) (t t' : Transcript) (ht : t ≠ t') :
    ForgesMixed O ((SecretKey.mk x s).toKeypair : Keypair P) sys (mixedInsider (SecretKey.mk x s).toPublic x.toZ t t' rng) := by
  unfold ForgesMixed mixedInsider
  simp only [Owner.playMixed, servicesOnly_play]
  simp only [keyInsider, Client.logged, Client.play]
  have hpk : ((SecretKey.mk x s).toPublic : PublicKey P).point = x.toZ • (basepoint : P) := mulPoint_eq _ _
  refine ⟨?_, ?_⟩
  · show openWith O ((SecretKey.mk x s).toPublic : PublicKey P) _ _ = _
    rw [openWith_iff]
    refine ⟨basepoint, rfl, ?_⟩
    simp only [Scalar.toZ_ofZ]
    rw [add_smul, one_smul, mul_smul, hpk]
    rfl
  · intro seed sys' cs hm
    simp only [serveKey, List.mem_cons, Prod.mk.injEq, KeyRequest.issue.injEq, reduceCtorEq, false_and, List.not_mem_nil,
      or_false] at hm
    exact (ht hm.1.1.symm).elim

end Schnorrkel.Props
