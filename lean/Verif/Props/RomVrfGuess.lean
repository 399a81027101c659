import Verif.Props.RomVrfPrf
import Verif.Lemmas.RomCollide

/-! # VRF outputs cannot be predicted (C80) -/

namespace Schnorrkel.Props
open Spec

variable {P : Type} [Ristretto P] {D : Finset (List MOp)} {K : Finset (KeyUse P)} {S : Finset (SecretValue P)} {α : Type}

/-- The guess turned out right, for new bytes, at least `N` of them. -/
def TriedRight (N : Nat) (r : VrfGuess × P × (KeyAnswer P ⊕ Bytes) × List (P × Bytes × Fin 65)) : Prop :=
  N ≤ r.1.n.1 ∧ r.2.2.1 = .inr r.1.bytes ∧ (r.2.1, r.1.ctx, r.1.n) ∉ r.2.2.2

theorem randomValue_mem (g : S → Arr 64) (v : SecretValue P) (hv : v ∈ S) : randomValue g v = (g ⟨v, hv⟩).1.take v.size := by
  unfold randomValue
  rw [dif_pos hv]

theorem chance_prefix (n N : Nat) (hn : n ≤ 64) (hN : N ≤ n) (c : Bytes) : chance (fun w : Arr 64 => w.1.take n = c) ≤ 1 / 256 ^ N := by
  have h := card_prefix n hn c {w | w.1.take n = c} fun w hw => hw
  have hc : (chance fun w : Arr 64 => w.1.take n = c) = (Nat.card ↑{w : Arr 64 | w.1.take n = c} : ℚ) / 2 ^ 512 := by
    unfold chance
    rw [card_arr64]
    push_cast
    rfl
  rw [hc]
  have hq : (Nat.card ↑{w : Arr 64 | w.1.take n = c} : ℚ) * 256 ^ n ≤ 2 ^ 512 := by exact_mod_cast h
  have h1 : (Nat.card ↑{w : Arr 64 | w.1.take n = c} : ℚ) / 2 ^ 512 ≤ 1 / 256 ^ n := by
    rw [div_le_div_iff₀ (by positivity) (by positivity), one_mul]
    exact hq
  refine le_trans h1 (one_div_le_one_div_of_le (by positivity) ?_)
  exact pow_le_pow_right₀ (by norm_num) hN

/-- Random bytes are not predicted. -/
theorem tried_ideal_le (O : Oracles) (kp : Keypair P) (N : Nat) (A : Client (WireRequest P) (KeyAnswer P ⊕ Bytes) VrfGuess) :
    ∀ (ps : List (P × Bytes × Fin 65)) (L : S → Option (Arr 64)),
    ((A.tried kp.pub.compressed.1 ps).onPoints kp.pub.compressed.1).Values SecretValue.Fits {v | v ∈ S} →
    (∀ v : S, L v ≠ none → ∃ I ctx n, v.1 = .vrfBytes ctx I n ∧ (I, ctx, n) ∈ ps) →
    (avg fun g : S → Arr 64 => ind (TriedRight N ((A.tried kp.pub.compressed.1 ps).play O (serveIdeal O kp (ov L g))))) ≤ 1 / 256 ^ N := by
  classical
  induction A with
  | ret c =>
    intro ps L hS hL
    have hv : SecretValue.vrfBytes c.ctx (@wireInputPoint P _ O c.malleable c.log kp.pub.compressed.1) c.n ∈ S :=
      (hS (O.merlin (vrfInputQuery c.malleable c.log kp.pub.compressed.1) 64)
        (O.merlin (vrfInputQuery c.malleable c.log kp.pub.compressed.1) 64)).1
    set v := SecretValue.vrfBytes c.ctx (@wireInputPoint P _ O c.malleable c.log kp.pub.compressed.1) c.n with hvdef
    have hplay : ∀ g : S → Arr 64, ((Client.ret c).tried kp.pub.compressed.1 ps).play O (serveIdeal O kp g) =
        (c, @wireInputPoint P _ O c.malleable c.log kp.pub.compressed.1, .inr (randomValue g v), ps) := fun g => rfl
    simp only [hplay, TriedRight, randomValue_mem _ v hv]
    by_cases hps : ((@wireInputPoint P _ O c.malleable c.log kp.pub.compressed.1), c.ctx, c.n) ∈ ps
    · refine avg_le_const fun g => ?_
      rw [ind, if_neg (fun h => h.2.2 hps)]
      positivity
    · have hLv : L ⟨v, hv⟩ = none := by
        by_contra hne
        obtain ⟨I, ctx, n, h1, h2⟩ := hL ⟨v, hv⟩ hne
        obtain ⟨rfl, rfl, rfl⟩ := SecretValue.vrfBytes.inj (show v = _ from h1)
        exact hps h2
      by_cases hN : N ≤ c.n.1
      · rw [avg_ov L ⟨v, hv⟩ hLv fun h => ind (N ≤ c.n.1 ∧ (.inr ((h ⟨v, hv⟩).1.take v.size) : KeyAnswer P ⊕ Bytes) = .inr c.bytes ∧
          ((@wireInputPoint P _ O c.malleable c.log kp.pub.compressed.1), c.ctx, c.n) ∉ ps)]
        refine le_trans ?_ (chance_prefix c.n.1 N (Nat.lt_succ_iff.mp c.n.2) hN c.bytes)
        rw [chance_eq_avg]
        refine avg_mono fun w => avg_le_const fun g => ind_mono fun h => ?_
        rw [ov_of_some _ _ _ _ (Function.update_self ..)] at h
        exact Sum.inr.inj h.2.1
      · refine avg_le_const fun g => ?_
        rw [ind, if_neg (fun h => hN h.1)]
        positivity
  | ask q k ih => exact fun ps L hS hL => ih _ ps L (hS _) hL
  | request r k ih =>
    cases r with
    | sign t sys => exact fun ps L hS hL => ih _ ps L (hS _) hL
    | issue t seed sys => exact fun ps L hS hL => ih _ ps L (hS _) hL
    | prove malleable log extra sys => exact fun ps L hS hL => ih _ ps L (hS (zeros 64) _) hL
    | bytes malleable log ctx n =>
      intro ps L hS hL
      obtain ⟨hv, hS'⟩ := hS (O.merlin (vrfInputQuery malleable log kp.pub.compressed.1) 64)
        (O.merlin (vrfInputQuery malleable log kp.pub.compressed.1) 64)
      set I : P := @wireInputPoint P _ O malleable log kp.pub.compressed.1 with hI
      set v := SecretValue.vrfBytes ctx I n with hvdef
      have hv' : v ∈ S := hv
      have hplay : ∀ g : S → Arr 64, ((Client.request (.bytes malleable log ctx n) k).tried kp.pub.compressed.1 ps).play O (serveIdeal O kp g) =
          ((k (.inr (randomValue g v))).tried kp.pub.compressed.1 ((I, ctx, n) :: ps)).play O (serveIdeal O kp g) := fun g => rfl
      simp only [hplay, randomValue_mem _ v hv']
      have hL' : ∀ v : S, L v ≠ none → ∃ I' ctx' n', v.1 = .vrfBytes ctx' I' n' ∧ (I', ctx', n') ∈ (I, ctx, n) :: ps := fun u hu => by
        obtain ⟨a, b, c, h1, h2⟩ := hL u hu
        exact ⟨a, b, c, h1, List.mem_cons_of_mem _ h2⟩
      cases hLv : L ⟨v, hv'⟩ with
      | some w =>
        simp only [ov_of_some L _ _ w hLv]
        exact ih _ _ L (hS' _ (value_fits v w)) hL'
      | none =>
        rw [avg_ov L ⟨v, hv'⟩ hLv fun h => ind (TriedRight N (((k (.inr ((h ⟨v, hv'⟩).1.take v.size))).tried kp.pub.compressed.1
          ((I, ctx, n) :: ps)).play O (serveIdeal O kp h)))]
        refine avg_le_const fun w => ?_
        have e : ∀ h, ov (Function.update L ⟨v, hv'⟩ (some w)) h ⟨v, hv'⟩ = w := fun h => ov_of_some _ _ _ _ (Function.update_self ..)
        simp only [e]
        refine ih _ _ _ (hS' _ (value_fits v w)) fun u hu => ?_
        by_cases he : u = ⟨v, hv'⟩
        · exact ⟨I, ctx, n, by rw [he], List.mem_cons_self⟩
        · rw [Function.update_of_ne he] at hu
          exact hL' u hu

/-- A right guess of new bytes is confirmed by asking for them. -/
theorem tried_right (O : Oracles) (kp : Keypair P) (N : Nat) (A : Client (WireRequest P) (KeyAnswer P ⊕ Bytes) VrfGuess) :
    ∀ (ps : List (P × Bytes × Fin 65)) (as : List (List MOp)) (rs : List (WireRequest P)),
    (∀ I ctx n, (I, ctx, n) ∈ ps → ∃ malleable log, .bytes malleable log ctx n ∈ rs ∧
      @wireInputPoint P _ O malleable log kp.pub.compressed.1 = I) →
    ((A.noted as rs).play O (serveWire O kp)).1.Right O kp ((A.noted as rs).play O (serveWire O kp)).2.2 →
    N ≤ ((A.noted as rs).play O (serveWire O kp)).1.n.1 →
    TriedRight N ((A.tried kp.pub.compressed.1 ps).play O (serveWire O kp)) := by
  induction A with
  | ret c =>
    intro ps as rs hps hR hN
    refine ⟨hN, congrArg Sum.inr hR.1.symm, fun hm => ?_⟩
    obtain ⟨malleable, log, h1, h2⟩ := hps _ _ _ hm
    refine hR.2 malleable log h1 ?_
    letI := O
    simp only [Keypair.vrfCreateHash, vrfHash_wire_eq]
    rw [h2]
    rfl
  | ask q k ih => exact fun ps as rs hps => ih _ ps _ rs hps
  | request r k ih =>
    have hcons : ∀ (r : WireRequest P) (ps : List (P × Bytes × Fin 65)) (rs : List (WireRequest P)),
        (∀ I ctx n, (I, ctx, n) ∈ ps → ∃ malleable log, .bytes malleable log ctx n ∈ rs ∧
          @wireInputPoint P _ O malleable log kp.pub.compressed.1 = I) →
        ∀ I ctx n, (I, ctx, n) ∈ ps → ∃ malleable log, .bytes malleable log ctx n ∈ r :: rs ∧
          @wireInputPoint P _ O malleable log kp.pub.compressed.1 = I := fun r ps rs h I ctx n hm => by
      obtain ⟨a, b, h1, h2⟩ := h I ctx n hm
      exact ⟨a, b, List.mem_cons_of_mem _ h1, h2⟩
    cases r with
    | sign t sys => exact fun ps as rs hps => ih _ ps as _ (hcons _ _ _ hps)
    | issue t seed sys => exact fun ps as rs hps => ih _ ps as _ (hcons _ _ _ hps)
    | prove malleable log extra sys => exact fun ps as rs hps => ih _ ps as _ (hcons _ _ _ hps)
    | bytes malleable log ctx n =>
      intro ps as rs hps
      refine ih _ _ as _ fun I ctx' n' hm => ?_
      rcases List.mem_cons.mp hm with he | hm
      · obtain ⟨rfl, h⟩ := Prod.mk.inj he
        obtain ⟨rfl, rfl⟩ := Prod.mk.inj h
        exact ⟨malleable, log, List.mem_cons_self, rfl⟩
      · exact hcons _ _ _ hps I ctx' n' hm

theorem ov_none (g : S → Arr 64) : ov (fun _ => none) g = g := rfl

/-- **C80** VRF outputs cannot be predicted.  A client as in `vrf_outputs_pseudorandom` ends with a guess of the bytes that
`make_bytes` gives in some context on some input transcript, for which it got no proof.  The probability that it guesses at
least `N` bytes, rightly, without having asked for these bytes, is at most `256⁻ᴺ`, plus the bound of
`vrf_outputs_pseudorandom` for the client that then asks for the bytes (`q` counts the hash queries of that client). -/
theorem vrf_outputs_unpredictable (O : Oracles) (log : Arr 64 → Z) (hlog : ∀ w, (fromUniform w : P) = log w • basepoint)
    {Ω : Type} [Finite Ω] [Nonempty Ω] (keys : Ω → Z) (A : P → Client (WireRequest P) (KeyAnswer P ⊕ Bytes) VrfGuess) (q m N : Nat)
    (hA : ∀ ω, ∀ val : SecretValue P → Bytes, (∀ v, SecretValue.Fits v (val v)) →
      ((((A (keys ω • basepoint)).tried (compress (keys ω • basepoint : P)).1 []).onPoints
        (compress (keys ω • basepoint : P)).1).given val).Limited D KeyRequest.use K (fun _ => True) q m)
    (hS : ∀ ω, (((A (keys ω • basepoint)).tried (compress (keys ω • basepoint : P)).1 []).onPoints
      (compress (keys ω • basepoint : P)).1).Values SecretValue.Fits {v | v ∈ S})
    (hsep : ∀ ω, ((A (keys ω • basepoint)).tried (compress (keys ω • basepoint : P)).1 []).Separate
      (compress (keys ω • basepoint : P)).1 [] [])
    (hC : ∀ ω, CoversKey (publicOf (keys ω)) (fun I => keys ω • I) D K)
    (hV : ∀ ω, CoversValues ⟨⟨Scalar.ofZ (keys ω), zeros 32⟩, publicOf (keys ω)⟩ D S) :
    chance (fun ω : Ω × Arr 32 × (D → Arr 64) =>
        let X := keys ω.1 • (basepoint : P)
        let O' := wideTable O D ω.2.2
        let kp : Keypair P := ⟨⟨Scalar.ofZ (keys ω.1), ω.2.1⟩, PublicKey.fromPoint X⟩
        let r := ((A X).noted [] []).play O' (serveWire O' kp)
        r.1.Right O' kp r.2.2 ∧ N ≤ r.1.n.1) ≤
      1 / 256 ^ N +
      (q ^ 2 * chance (fun ω : Ω × (Fin q × Fin q) × (K → Arr 64 × Arr 64) × (S → Arr 64) × ((D → Arr 64) × Arr 64) =>
        let X := keys ω.1 • (basepoint : P)
        let w := ω.2.2.2.2.2
        let F := fun d => (ω.2.2.2.2.1 d, log (ω.2.2.2.2.1 d))
        vrfSolver O X ((A X).tried (compress X).1 []) ω.2.2.1 F ω.2.2.2.1 w ω.2.1.1 ω.2.1.2 =
          (compress (keys ω.1 • (fromUniform w : P))).1) +
      2 * (q / 2 ^ 256 + m * ((q + m : Nat) * guess + spare))) := by
  have key := vrf_outputs_pseudorandom O log hlog keys (fun X => (A X).tried (compress X).1 []) q m hA hS hsep hC hV
    (fun _ => TriedRight N)
  have h1 := (abs_le.mp key).2
  have h2 : chance (fun ω : Ω × Arr 32 × (D → Arr 64) × (S → Arr 64) =>
      let X := keys ω.1 • (basepoint : P)
      TriedRight N (((A X).tried (compress X).1 []).play (wideTable O D ω.2.2.1) (serveIdeal (wideTable O D ω.2.2.1)
        ⟨⟨Scalar.ofZ (keys ω.1), ω.2.1⟩, PublicKey.fromPoint X⟩ ω.2.2.2))) ≤ 1 / 256 ^ N := by
    rw [chance_avg_prod]
    refine avg_le_const fun ω => ?_
    rw [chance_avg_prod]
    refine avg_le_const fun seed => ?_
    rw [chance_avg_prod]
    refine avg_le_const fun f => ?_
    rw [chance_eq_avg]
    exact tried_ideal_le (wideTable O D f) ⟨⟨Scalar.ofZ (keys ω), seed⟩, PublicKey.fromPoint (keys ω • (basepoint : P))⟩ N
      (A (keys ω • basepoint)) [] (fun _ => none) (hS ω) (fun v h => absurd rfl h)
  have h3 : chance (fun ω : Ω × Arr 32 × (D → Arr 64) =>
        let X := keys ω.1 • (basepoint : P)
        let O' := wideTable O D ω.2.2
        let kp : Keypair P := ⟨⟨Scalar.ofZ (keys ω.1), ω.2.1⟩, PublicKey.fromPoint X⟩
        let r := ((A X).noted [] []).play O' (serveWire O' kp)
        r.1.Right O' kp r.2.2 ∧ N ≤ r.1.n.1) ≤ chance (fun ω : Ω × Arr 32 × (D → Arr 64) =>
        let X := keys ω.1 • (basepoint : P)
        TriedRight N (((A X).tried (compress X).1 []).play (wideTable O D ω.2.2) (serveWire (wideTable O D ω.2.2)
          ⟨⟨Scalar.ofZ (keys ω.1), ω.2.1⟩, PublicKey.fromPoint X⟩))) := by
    refine chance_mono fun ω h => ?_
    exact tried_right (wideTable O D ω.2.2) ⟨⟨Scalar.ofZ (keys ω.1), ω.2.1⟩, PublicKey.fromPoint (keys ω.1 • (basepoint : P))⟩ N
      (A (keys ω.1 • basepoint)) [] [] [] (fun _ _ _ h => (nomatch h)) h.1 h.2
  linarith

/-! ### Non-vacuity -/

/-- A client that gets an output with a proof on one transcript, gets 32 bytes without a proof on another one, tests the
guess that the output there is `Q X Y` (`Y` the input point), and ends with a guess of 32 bytes on a third one. -/
def vrfProbe (sys : Rng) (Q : P → P → P) (X : P) : Client (WireRequest P) (KeyAnswer P ⊕ Bytes) VrfGuess :=
  .request (.prove false [.append (b! "seed") (b! "a")] ⟨[]⟩ sys) fun _ =>
  .request (.bytes false [.append (b! "seed") (b! "b")] (b! "lottery") 32) fun a =>
  .ask (vrfInputQuery false [.append (b! "seed") (b! "b")] (compress X).1) fun w =>
  .ask (vrfResultQuery (b! "lottery") ((compress (fromUniform w : P)).1, (compress (Q X (fromUniform w))).1) 32) fun w' =>
  .ret ⟨false, [.append (b! "seed") (b! "c")], b! "lottery", 32, match a with | .inr b => if b == w'.1.take 32 then b else [] | _ => []⟩

/-- That client is within some bounds, and proofs and bytes are apart: it meets the hypotheses of both theorems. -/
example {Ω : Type} [Finite Ω] (keys : Ω → Z) (sys : Rng) (Q : P → P → P) :
    ∃ (D : Finset (List MOp)) (K : Finset (KeyUse P)) (S : Finset (SecretValue P)) (q m : Nat),
      (∀ ω, ∀ val : SecretValue P → Bytes, (∀ v, SecretValue.Fits v (val v)) →
        ((((vrfProbe sys Q (keys ω • basepoint)).tried (compress (keys ω • basepoint : P)).1 []).onPoints
          (compress (keys ω • basepoint : P)).1).given val).Limited D KeyRequest.use K (fun _ => True) q m) ∧
      (∀ ω, (((vrfProbe sys Q (keys ω • basepoint)).tried (compress (keys ω • basepoint : P)).1 []).onPoints
        (compress (keys ω • basepoint : P)).1).Values SecretValue.Fits {v | v ∈ S}) ∧
      (∀ ω, ((vrfProbe sys Q (keys ω • basepoint)).tried (compress (keys ω • basepoint : P)).1 []).Separate
        (compress (keys ω • basepoint : P)).1 [] []) ∧
      (∀ ω, CoversKey (publicOf (keys ω)) (fun I => keys ω • I) D K) ∧
      (∀ ω, CoversValues ⟨⟨Scalar.ofZ (keys ω), zeros 32⟩, publicOf (keys ω)⟩ D S) := by
  obtain ⟨D, K, S, q, m, h1, h2, h3, h4⟩ := every_vrf_client_is_limited keys fun X => (vrfProbe sys Q X).tried (compress X).1 []
  refine ⟨D, K, S, q, m, h1, h2, fun ω => ?_, h3, h4⟩
  simp [vrfProbe, Client.tried, Client.Separate, vrfInputQuery]

/-- On a client that tests a guess, the solver's answer is that guess: it solves the problem exactly when the guess is right. -/
example (O : Oracles) (Q : P → P → P) (X : P) (C : K → Arr 64 × Arr 64) (F : D → Arr 64 × Z) (g : S → Arr 64) (w : Arr 64) :
    vrfSolver O X (.request (.bytes false [.append (b! "seed") (b! "b")] (b! "lottery") 32) fun a : KeyAnswer P ⊕ Bytes =>
      .ask (vrfInputQuery false [.append (b! "seed") (b! "b")] (compress X).1) fun w =>
      .ask (vrfResultQuery (b! "lottery") ((compress (fromUniform w : P)).1, (compress (Q X (fromUniform w))).1) 32) fun w' =>
      .ret (match a with | .inr b => b == w'.1.take 32 | _ => false)) C F g w 0 0 = (compress (Q X (fromUniform w))).1 := by
  have := absorbed_end [.append (b! "dom-sep") (b! "VRFResult"), .append (b! "") (b! "lottery")]
    [(b! "vrf-in", (compress (fromUniform w : P)).1), (b! "vrf-out", (compress (Q X (fromUniform w))).1)] (b! "") 32
  simp only [List.map_cons, List.map_nil] at this
  have e : ∀ v : Arr 64, v = w → lastMessage (vrfResultQuery (b! "lottery")
      ((compress (fromUniform v : P)).1, (compress (Q X (fromUniform v))).1) 32) = (compress (Q X (fromUniform w))).1 := fun v hv => by
    rw [hv, lastMessage, vrfResultQuery, pairFrames, this]
    simp
  exact e _ (program_hit (table O D fun d => (F d).1) (vrfInputQuery false [.append (b! "seed") (b! "b")] (compress X).1) w)

end Schnorrkel.Props
