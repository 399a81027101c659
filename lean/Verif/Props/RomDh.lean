import Verif.Spec.RomDh
import Verif.Props.RomOwner
import Verif.Props.RomMini

/-! # Session keys, VRF bytes and derived secrets are as secret as the Diffie–Hellman problem is hard (C78) -/

namespace Schnorrkel.Props
open Spec

variable {P : Type} [Ristretto P] {D : Finset (List MOp)} {K : Finset (KeyUse P)} {S : Finset (SecretValue P)} {α : Type}

/-! ### Reading the shared point -/

theorem absorbed_end (l : List MOp) (fr : List (Bytes × Bytes)) (lab : Bytes) (n : Nat) :
    absorbed (l ++ fr.map (fun p => MOp.append p.1 p.2) ++ [.challenge lab n]) = fr.reverse ++ absorbed l := by
  unfold absorbed
  rw [List.reverse_append, List.reverse_append, List.filterMap_append, List.filterMap_append, ← List.map_reverse]
  have : ∀ fr : List (Bytes × Bytes), List.filterMap (fun op : MOp => match op with
      | .append label b => some (label, b)
      | _ => none) (fr.map (fun p => MOp.append p.1 p.2)) = fr := by
    intro fr
    induction fr with
    | nil => rfl
    | cons a l ih => simp [ih]
  simp [this]

theorem absorbed_challenge (l : List MOp) (lab : Bytes) (n : Nat) : absorbed (l ++ [.challenge lab n]) = absorbed l := by
  simp [absorbed]

theorem absorbed_hard (i : Bytes) (cc : Option Bytes) (key : Bytes) :
    absorbed (hardQuery i cc key) = (b! "secret-key", key) ::
      absorbed (simpleLog i ++ (match cc with | some c => [.append (b! "chain-code") c] | none => [])) := by
  have := absorbed_end (simpleLog i ++ (match cc with | some c => [.append (b! "chain-code") c] | none => []))
    [(b! "secret-key", key)] (b! "HDKD-hard") 32
  rw [List.append_assoc] at this
  exact this

theorem sorted_pair_iff {a b lo hi : Bytes} (h : SortedPair a b lo hi) (y : Bytes) :
    ((lo = a ∧ hi = y) ∨ (lo = y ∧ hi = a)) ↔ b = y := by
  rcases h with ⟨rfl, rfl, -⟩ | ⟨rfl, rfl, -⟩
  · constructor
    · rintro (⟨-, h⟩ | ⟨h, h'⟩)
      · exact h
      · rw [h', h]
    · intro h; exact Or.inl ⟨rfl, h⟩
  · constructor
    · rintro (⟨h, h'⟩ | ⟨h, -⟩)
      · rw [h, h']
      · exact h
    · intro h; exact Or.inr ⟨h, rfl⟩

theorem sorted_ite (a b : Bytes) (i : Decidable (lexLt b a)) :
    SortedPair a b (if lexLt b a then b else a) (if lexLt b a then a else b) := by
  unfold SortedPair
  by_cases h : lexLt b a
  · rw [if_pos h, if_pos h]; exact Or.inr ⟨rfl, rfl, h⟩
  · rw [if_neg h, if_neg h]; exact Or.inl ⟨rfl, rfl, h⟩

theorem twoDhOf_sorted (log : List MOp) (kp : Keypair P) (epk spk : PublicKey P) (n : Nat) : ∃ lo hi lo' hi',
    SortedPair kp.pub.compressed.1 spk.compressed.1 lo' hi' ∧
    twoDhOf log kp epk spk n = twoDhQuery log lo hi (compress (kp.secret.key.val • epk.point)).1 lo' hi'
      (compress (kp.secret.key.val • spk.point)).1 n :=
  ⟨_, _, _, _, sorted_ite _ _ _, rfl⟩

theorem sharedIn_twoDh (X Y : P) (log : List MOp) (lo hi b lo' hi' b' : Bytes) (n : Nat) (c : Prop) [Decidable c]
    (hc : ((lo' = (compress X).1 ∧ hi' = (compress Y).1) ∨ (lo' = (compress Y).1 ∧ hi' = (compress X).1)) ↔ c) :
    sharedIn X Y (twoDhQuery log lo hi b lo' hi' b' n) = if c then b' else b := by
  have := absorbed_end log
      [(b! "pk", lo), (b! "pk", hi), (b! "epk", b), (b! "pk", lo'), (b! "pk", hi'), (b! "epk", b')] (b! "") n
  simp only [List.map_cons, List.map_nil] at this
  simp only [sharedIn, twoDhQuery, kexFrames]
  rw [List.append_assoc log, List.cons_append, List.cons_append, List.cons_append, List.nil_append, this]
  simp only [List.reverse_cons, List.reverse_nil, List.nil_append, List.cons_append]
  rw [if_neg (by decide), if_pos trivial]
  by_cases h : c
  · rw [if_pos h, if_pos (hc.mpr h)]
  · rw [if_neg h, if_neg (fun h' => h (hc.mp h'))]

/-- The hash query of a value that has to do with `Y` gives away the point shared with `Y`. -/
theorem sharedIn_value (x : Z) (nn : Arr 32) (Y : P) (v : SecretValue P) (hv : v.Targets Y) :
    sharedIn (x • basepoint) Y (v.query ⟨⟨Scalar.ofZ x, nn⟩, PublicKey.fromPoint (x • basepoint)⟩) = (compress (x • Y)).1 := by
  have e : ∀ p : P, (Scalar.ofZ x).val • p = x • p := fun p => by
    have := mulPoint_eq (Scalar.ofZ x) p
    rwa [Scalar.toZ_ofZ] at this
  have hz : (leNat (Scalar.ofZ x).bytes.1 : Z) = x := Scalar.toZ_ofZ x
  cases v with
  | vrfBytes ctx I n =>
    obtain rfl : I = Y := hv
    have := absorbed_end [.append (b! "dom-sep") (b! "VRFResult"), .append (b! "") ctx]
      [(b! "vrf-in", (compress I).1), (b! "vrf-out", (compress (x • I)).1)] (b! "") n.1
    simp only [SecretValue.query, vrfResultQuery, pairFrames, Scalar.toZ_ofZ, sharedIn]
    simp only [List.map_cons, List.map_nil] at this
    rw [this]
    simp
  | sessionKey ctx p n =>
    obtain rfl : p = Y := hv
    simp only [SecretValue.query, kexOf, kexQuery, kexFrames, sharedIn]
    have := fun lo hi => absorbed_end [.append (b! "dom-sep") (b! "KEX"), .append (b! "ctx") ctx]
      [(b! "pk", lo), (b! "pk", hi), (b! "kex", (compress (x • p)).1)] (b! "") n.1
    simp only [List.map_cons, List.map_nil] at this
    simp only [e, PublicKey.fromPoint, RistrettoBoth.fromPoint]
    rw [this]
    simp
  | twoDhKey t e' s n =>
    classical
    obtain ⟨lo, hi, lo', hi', hs, hq⟩ := twoDhOf_sorted t.log
      (⟨⟨Scalar.ofZ x, nn⟩, PublicKey.fromPoint (x • basepoint)⟩ : Keypair P) (PublicKey.fromPoint e') (PublicKey.fromPoint s) n.1
    simp only [SecretValue.query]
    rw [hq]
    have hc := sorted_pair_iff hs (compress Y).1
    have h2 := sharedIn_twoDh (x • basepoint) Y t.log lo hi (compress (x • e')).1 lo' hi' (compress (x • s)).1 n.1 _ hc
    have h3 : sharedIn (x • basepoint) Y (twoDhQuery t.log lo hi (compress ((Scalar.ofZ x).val • e')).1 lo' hi'
        (compress ((Scalar.ofZ x).val • s)).1 n.1) = (compress (x • Y)).1 := by
      rw [e, e, h2]
      by_cases hsY : s = Y
      · rw [if_pos (by rw [hsY]; rfl), hsY]
      · rw [if_neg (show ¬ (PublicKey.fromPoint s).compressed.1 = (compress Y).1 from fun h => hsY (compress_inj.mp (Subtype.ext h)))]
        rcases hv with h | h
        · rw [h]
        · exact absurd h hsY
    exact h3
  | childSecret cc i =>
    simp only [SecretValue.query, sharedIn, absorbed_hard]
    rw [if_pos trivial, hz]
  | childChain cc i =>
    simp only [SecretValue.query, sharedIn, absorbed_challenge, absorbed_hard]
    rw [if_pos trivial, hz]

/-! ### The world without secrets -/

theorem simulate_dh_congr (pk : PublicKey P) (dh dh' : P → P) (coins : KeyUse P → Arr 64 × Arr 64)
    (hK : ∀ u ∈ K, KeyUse.query pk dh u = KeyUse.query pk dh' u ∧ KeyUse.answer pk dh u = KeyUse.answer pk dh' u) (fin : α → Prop)
    (A : Client (KeyRequest P) (KeyAnswer P) α) : ∀ q m pg, A.Limited D KeyRequest.use K fin q m →
    A.simulate (KeyUse.query pk dh) (KeyUse.answer pk dh) KeyRequest.use coins pg =
      A.simulate (KeyUse.query pk dh') (KeyUse.answer pk dh') KeyRequest.use coins pg := by
  induction A with
  | ret a => intro q m pg _; rfl
  | ask l k ih =>
    rintro q m pg ⟨-, q', rfl, h⟩
    simp only [Client.simulate]
    cases pg.lookup l with
    | some w => exact ih w q' m pg (h w)
    | none => exact congrArg (Algo.ask l) (funext fun w => ih w q' m pg (h w))
  | request r k ih =>
    rintro q m pg ⟨hr, m', rfl, h⟩
    simp only [Client.simulate]
    rw [(hK _ hr).1, (hK _ hr).2]
    exact ih _ q m' _ (h _)

theorem known_uses {known : P → Z} (hK : KnownInputs known K) (x : Z) (pk : PublicKey P) : ∀ u ∈ K,
    KeyUse.query pk (fun I => x • I) u = KeyUse.query pk (fun I => known I • x • (basepoint : P)) u ∧
    KeyUse.answer pk (fun I => x • I) u = KeyUse.answer pk (fun I => known I • x • (basepoint : P)) u := by
  intro u hu
  have h := hK u hu
  cases u with
  | sign log rng => exact ⟨rfl, rfl⟩
  | issue log seed rng => exact ⟨rfl, rfl⟩
  | prove log I kusama rng =>
    have h' : x • I = known I • x • (basepoint : P) := by
      rw [smul_comm, ← h]
    constructor <;> funext z w <;> simp only [KeyUse.query, KeyUse.answer, h']

theorem noted_run (O : Oracles) (query : KeyUse P → Z → Z → List MOp) (answer : KeyUse P → Z → Z → KeyAnswer P)
    (coins : KeyUse P → Arr 64 × Arr 64) (val : SecretValue P → Bytes) (hval : ∀ v, SecretValue.Fits v (val v)) (T : Set (SecretValue P)) (fin : α → Prop)
    (A : Client (KeyRequest P ⊕ SecretValue P) (KeyAnswer P ⊕ Bytes) α) : ∀ q m pg as rs,
    (A.given val).Limited D KeyRequest.use K fin q m → A.Values SecretValue.Fits T → (∀ v, .inr v ∈ rs → v ∈ T) →
    let r := (((A.noted as rs).given val).simulate query answer KeyRequest.use coins pg).run O
    r.2.1.length ≤ as.length + q ∧ ∀ v, .inr v ∈ r.2.2 → v ∈ T := by
  induction A with
  | ret a => intro q m pg as rs _ _ hr; exact ⟨Nat.le_add_right _ _, hr⟩
  | ask l k ih =>
    rintro q m pg as rs ⟨-, q', rfl, h⟩ hS hr
    simp only [Client.noted, Client.given, Client.simulate]
    have key : ∀ w, _ := fun w => ih w q' m pg (l :: as) rs (h w) (hS w) hr
    split
    · rename_i w _
      have := key w
      exact ⟨by have := this.1; simp only [List.length_cons] at this; omega, this.2⟩
    · have := key (O.merlin l 64)
      exact ⟨by have := this.1; simp only [List.length_cons] at this; simp only [Algo.run]; omega, this.2⟩
  | request r k ih =>
    intro q m pg as rs
    cases r with
    | inl r =>
      rintro ⟨-, m', rfl, h⟩ hS hr
      simp only [Client.noted, Client.given, Client.simulate]
      exact ih _ q m' _ as _ (h _) (hS _) fun v hv => hr v (by simpa using hv)
    | inr u =>
      rintro h hS hr
      simp only [Client.noted, Client.given]
      refine ih _ q m pg as _ h (hS.2 _ (hval u)) fun v hv => ?_
      rcases List.mem_cons.mp hv with hv | hv
      · cases hv; exact hS.1
      · exact hr v hv

theorem chance_mem_le {Ω : Type} [Finite Ω] (asked : Ω → List (List MOp)) (q : Nat) (hq : ∀ ω, (asked ω).length ≤ q)
    (good : Ω → List MOp → Prop) :
    chance (fun ω => ∃ l ∈ asked ω, good ω l) ≤ q * chance (fun ω : Fin q × Ω => ∃ l, (asked ω.2)[ω.1.1]? = some l ∧ good ω.2 l) := by
  by_cases h0 : q = 0
  · subst h0
    have : chance (fun ω => ∃ l ∈ asked ω, good ω l) ≤ chance (fun _ : Ω => False) := chance_mono fun ω ⟨l, hl, _⟩ => by
      have := hq ω
      rw [List.length_eq_zero_iff.mp (Nat.le_zero.mp this)] at hl
      exact absurd hl (List.not_mem_nil)
    refine le_trans this ?_
    simp [chance]
  · haveI : Nonempty (Fin q) := ⟨⟨0, Nat.pos_of_ne_zero h0⟩⟩
    have e : chance (fun ω : Fin q × Ω => ∃ l, (asked ω.2)[ω.1.1]? = some l ∧ good ω.2 l) =
        (∑ i : Fin q, chance fun ω => ∃ l, (asked ω)[i.1]? = some l ∧ good ω l) / q := by
      rw [chance_eq_avg, avg_prod, avg_eq, Fintype.card_fin]
      simp only [chance_eq_avg]
    rw [e, mul_div_cancel₀ _ (by exact_mod_cast h0)]
    have key : ∀ s : Finset (Fin q), chance (fun ω => ∃ i ∈ s, ∃ l, (asked ω)[i.1]? = some l ∧ good ω l) ≤
        ∑ i ∈ s, chance fun ω => ∃ l, (asked ω)[i.1]? = some l ∧ good ω l := by
      intro s
      induction s using Finset.induction_on with
      | empty => simp [chance]
      | insert a s ha ih =>
        rw [Finset.sum_insert ha]
        refine le_trans (le_trans (chance_mono ?_) chance_or) (add_le_add_right ih _)
        rintro ω ⟨i, hi, h⟩
        rcases Finset.mem_insert.mp hi with rfl | hi
        · exact Or.inl h
        · exact Or.inr ⟨i, hi, h⟩
    refine le_trans (chance_mono ?_) (key Finset.univ)
    rintro ω ⟨l, hl, h⟩
    obtain ⟨i, hi, rfl⟩ := List.getElem_of_mem hl
    exact ⟨⟨i, lt_of_lt_of_le hi (hq ω)⟩, Finset.mem_univ _, _, List.getElem?_eq_getElem hi, h⟩

theorem values_imp {T T' : Set (SecretValue P)} (A : Client (KeyRequest P ⊕ SecretValue P) (KeyAnswer P ⊕ Bytes) α)
    (h : ∀ v ∈ T, v ∈ T') : A.Values SecretValue.Fits T → A.Values SecretValue.Fits T' := by
  induction A with
  | ret a => exact id
  | ask q k ih => exact fun hA w => ih w (hA w)
  | request r k ih =>
    cases r with
    | inl r => exact fun hA a => ih _ (hA a)
    | inr v => exact fun hA => ⟨h v hA.1, fun y hy => ih _ (hA.2 y hy)⟩

/-- Clashes happen no more often than the solver succeeds, up to the number of hash queries. -/
theorem clash_le_solver (O : Oracles) (known : P → Z) (x : Z) (Y : P)
    (A : Client (KeyRequest P ⊕ SecretValue P) (KeyAnswer P ⊕ Bytes) α) (q m : Nat) (fin : α → Prop)
    (hA : ∀ val : SecretValue P → Bytes, (∀ v, SecretValue.Fits v (val v)) → (A.given val).Limited D KeyRequest.use K fin q m)
    (hS : A.Values SecretValue.Fits {v | v.Targets Y}) (hK : KnownInputs known K) :
    chance (fun ω : (K → Arr 64 × Arr 64) × (D → Arr 64) × (S → Arr 64) =>
        let r := (withoutSecrets (PublicKey.fromPoint (x • basepoint)) (fun I => x • I) A ω.1 ω.2.2).run (table O D ω.2.1)
        ∃ v, .inr v ∈ r.2.2 ∧ v.query ⟨⟨Scalar.ofZ x, zeros 32⟩, PublicKey.fromPoint (x • basepoint)⟩ ∈ r.2.1) ≤
      q * chance (fun ω : Fin q × (K → Arr 64 × Arr 64) × (D → Arr 64) × (S → Arr 64) =>
        dhSolver O known (x • basepoint) Y A ω.2.1 ω.2.2.1 ω.2.2.2 ω.1.1 = (compress (x • Y)).1) := by
  have hw : ∀ ω : (K → Arr 64 × Arr 64) × (D → Arr 64) × (S → Arr 64),
      withoutSecrets (PublicKey.fromPoint (x • basepoint)) (fun I => x • I) A ω.1 ω.2.2 =
      withoutSecrets (PublicKey.fromPoint (x • basepoint)) (fun I => known I • x • (basepoint : P)) A ω.1 ω.2.2 := fun ω =>
    simulate_dh_congr _ _ _ _ (known_uses hK x _) _ _ q m [] (noted_limited KeyRequest.use _ _ A q m [] [] (hA _ (random_fits ω.2.2)))
  have hr := fun ω : (K → Arr 64 × Arr 64) × (D → Arr 64) × (S → Arr 64) =>
    noted_run (table O D ω.2.1) (KeyUse.query (PublicKey.fromPoint (x • basepoint)) (fun I => known I • x • (basepoint : P)))
      (KeyUse.answer (PublicKey.fromPoint (x • basepoint)) (fun I => known I • x • (basepoint : P))) (coinsOf ω.1) (randomValue ω.2.2)
      (random_fits ω.2.2) {v | v.Targets Y} fin A q m [] [] [] (hA _ (random_fits ω.2.2)) hS (fun _ h => (nomatch h))
  simp only [hw]
  refine le_trans (chance_mono ?_) (le_trans (chance_mem_le
    (fun ω => ((withoutSecrets (PublicKey.fromPoint (x • basepoint)) (fun I => known I • x • (basepoint : P)) A ω.1 ω.2.2).run (table O D ω.2.1)).2.1)
    q (fun ω => by have := (hr ω).1; rw [List.length_nil, Nat.zero_add] at this; exact this) fun _ l => sharedIn (x • basepoint) Y l = (compress (x • Y)).1) ?_)
  · rintro ω ⟨v, hv, hl⟩
    exact ⟨_, hl, sharedIn_value x _ Y v ((hr ω).2 v hv)⟩
  · refine mul_le_mul_of_nonneg_left (chance_mono ?_) (Nat.cast_nonneg q)
    rintro ω ⟨l, hl, hg⟩
    simp only [dhSolver]
    rw [hl]
    exact hg

theorem abs_avg_sub_le {Ω : Type} [Finite Ω] [Nonempty Ω] (F G H : Ω → ℚ) (c : ℚ) (h : ∀ ω, |F ω - G ω| ≤ H ω + c) :
    |avg F - avg G| ≤ avg H + c := by
  have h1 : avg F ≤ avg fun ω => G ω + (H ω + c) := avg_mono fun ω => by linarith [(abs_le.mp (h ω)).2]
  have h2 : avg G ≤ avg fun ω => F ω + (H ω + c) := avg_mono fun ω => by linarith [(abs_le.mp (h ω)).1]
  rw [avg_add, avg_add H, avg_const] at h1 h2
  rw [abs_le]
  constructor <;> linarith

/-- **C78** session keys, VRF bytes and hard-derived secrets are as secret as the Diffie–Hellman problem is hard.  Two secret
scalars `x` and `y` are drawn in any way (`keys`).  A client is given `X = x • B` and `Y = y • B`, makes at most `q` hash
queries, gets at most `m` signatures, VRF proofs (at points of known logarithm) and certificates of the owner of `X`, and
any number of values that the owner of `X` derives with `Y`, all adaptively.  Whatever it is trying to find out (`win`),
replacing the values by random strings and the rest by simulations makes a difference of at most `q` times the probability
that `dhSolver`, which knows `X` and `Y` only, finds the encoding of `xy • B`, plus `q/2²⁵⁶ + m((q+m)·guess + spare)`. -/
theorem secret_values_need_diffie_hellman (O : Oracles) {Ω : Type} [Finite Ω] [Nonempty Ω] (keys : Ω → Z × Z) (known : P → Z)
    (A : P → P → Client (KeyRequest P ⊕ SecretValue P) (KeyAnswer P ⊕ Bytes) α) (q m : Nat)
    (hA : ∀ ω, ∀ val : SecretValue P → Bytes, (∀ v, SecretValue.Fits v (val v)) →
      ((A ((keys ω).1 • basepoint) ((keys ω).2 • basepoint)).given val).Limited D KeyRequest.use K (fun _ => True) q m)
    (hS : ∀ ω, (A ((keys ω).1 • basepoint) ((keys ω).2 • basepoint)).Values SecretValue.Fits
      {v | v ∈ S ∧ v.Targets ((keys ω).2 • basepoint)})
    (hK : KnownInputs known K)
    (hC : ∀ ω, CoversKey (publicOf (keys ω).1) (fun I => (keys ω).1 • I) D K)
    (hV : ∀ ω, CoversValues ⟨⟨Scalar.ofZ (keys ω).1, zeros 32⟩, publicOf (keys ω).1⟩ D S) (win : P → P → α → Prop) :
    |chance (fun ω : Ω × Arr 32 × (D → Arr 64) =>
        let X := (keys ω.1).1 • (basepoint : P)
        let Y := (keys ω.1).2 • (basepoint : P)
        win X Y ((A X Y).play (wideTable O D ω.2.2) (serveOwner (wideTable O D ω.2.2)
          ⟨⟨Scalar.ofZ (keys ω.1).1, ω.2.1⟩, PublicKey.fromPoint X⟩))) -
      chance (fun ω : Ω × (K → Arr 64 × Arr 64) × (D → Arr 64) × (S → Arr 64) =>
        let X := (keys ω.1).1 • (basepoint : P)
        let Y := (keys ω.1).2 • (basepoint : P)
        win X Y ((withoutSecrets (PublicKey.fromPoint X) (fun I => known I • X) (A X Y) ω.2.1 ω.2.2.2).run (table O D ω.2.2.1)).1)| ≤
      q * chance (fun ω : Ω × Fin q × (K → Arr 64 × Arr 64) × (D → Arr 64) × (S → Arr 64) =>
        let X := (keys ω.1).1 • (basepoint : P)
        let Y := (keys ω.1).2 • (basepoint : P)
        dhSolver O known X Y (A X Y) ω.2.2.1 ω.2.2.2.1 ω.2.2.2.2 ω.2.1 =
          (compress (((keys ω.1).1 * (keys ω.1).2) • (basepoint : P))).1) +
      (q / 2 ^ 256 + m * ((q + m : Nat) * guess + spare)) := by
  rw [chance_eq_avg, avg_prod, chance_eq_avg, avg_prod, chance_eq_avg, avg_prod, mul_comm (q : ℚ), ← avg_mul_const]
  refine abs_avg_sub_le _ _ _ _ fun ω => ?_
  rw [← chance_eq_avg, ← chance_eq_avg, ← chance_eq_avg]
  have hS1 : (A ((keys ω).1 • basepoint) ((keys ω).2 • basepoint)).Values SecretValue.Fits {v | v ∈ S} :=
    values_imp _ (fun v h => h.1) (hS ω)
  have hS2 : (A ((keys ω).1 • basepoint) ((keys ω).2 • basepoint)).Values SecretValue.Fits
      {v | v.Targets ((keys ω).2 • basepoint)} := values_imp _ (fun v h => h.2) (hS ω)
  have hpk : (publicOf (keys ω).1 : PublicKey P).point = (Scalar.ofZ (keys ω).1).toZ • (basepoint : P) := by
    rw [Scalar.toZ_ofZ]; rfl
  have hC' := hC ω
  have main := secret_values_pseudorandom O (publicOf (keys ω).1) (Scalar.ofZ (keys ω).1) hpk
    (A ((keys ω).1 • basepoint) ((keys ω).2 • basepoint)) q m (hA ω) hS1
    (by rw [Scalar.toZ_ofZ]; exact hC ω) (hV ω) (win ((keys ω).1 • basepoint) ((keys ω).2 • basepoint))
  simp only [Scalar.toZ_ofZ] at main
  have hcl := clash_le_solver (S := S) O known (keys ω).1 ((keys ω).2 • (basepoint : P)) _ q m _ (hA ω) hS2 hK
  have hw : ∀ ν : (K → Arr 64 × Arr 64) × (D → Arr 64) × (S → Arr 64),
      withoutSecrets (publicOf (keys ω).1) (fun I => (keys ω).1 • I) (A ((keys ω).1 • basepoint) ((keys ω).2 • basepoint)) ν.1 ν.2.2 =
      withoutSecrets (publicOf (keys ω).1) (fun I => known I • (keys ω).1 • (basepoint : P))
        (A ((keys ω).1 • basepoint) ((keys ω).2 • basepoint)) ν.1 ν.2.2 := fun ν =>
    simulate_dh_congr _ _ _ _ (known_uses hK (keys ω).1 _) _ _ q m []
      (noted_limited KeyRequest.use _ _ _ q m [] [] (hA ω _ (random_fits ν.2.2)))
  refine le_trans (le_trans ?_ main) ?_
  · simp only [hw]
    exact le_rfl
  · refine add_le_add_left (le_trans hcl ?_) _
    rw [mul_comm]
    refine mul_le_mul_of_nonneg_right (chance_mono fun ν h => ?_) (Nat.cast_nonneg q)
    simp only at h ⊢
    rw [mul_smul]
    exact h

/-! ### Forgeries -/

attribute [local irreducible] guess spare in
theorem owner_core (O : Oracles) (pk : PublicKey P) (key : Scalar)
    (hpk : pk.point = key.toZ • (basepoint : P))
    (A : Client (KeyRequest P ⊕ SecretValue P) (KeyAnswer P ⊕ Bytes) (KeyForgery P)) (q m : Nat)
    (hA : ∀ val : SecretValue P → Bytes, (∀ v, SecretValue.Fits v (val v)) → (A.given val).Limited D KeyRequest.use K (fun c => c.query pk ∈ D) q m) (hS : A.Values SecretValue.Fits {v | v ∈ S})
    (hC : CoversKey pk (fun I => key.toZ • I) D K) (hV : CoversValues ⟨⟨key, zeros 32⟩, pk⟩ D S) :
    ∃ p : (S → Arr 64) × (K → Arr 64 × Arr 64) → ℚ,
    (chance fun ω : Arr 32 × (D → Arr 64) => ForgesWithValues (wideTable O D ω.2) ⟨⟨key, ω.1⟩, pk⟩ A) -
      ((chance fun ω : (K → Arr 64 × Arr 64) × (D → Arr 64) × (S → Arr 64) =>
        let r := (withoutSecrets pk (fun I => key.toZ • I) A ω.1 ω.2.2).run (table O D ω.2.1)
        ∃ v, .inr v ∈ r.2.2 ∧ v.query ⟨⟨key, zeros 32⟩, pk⟩ ∈ r.2.1) +
        2 * (q / 2 ^ 256 + m * ((q + m : Nat) * guess + spare))) ≤ avg p ∧
    ∀ x, p x ^ 2 / (q + 1 : Nat) - guess * p x ≤ chance fun y : (D → Arr 64) × (D → Arr 64) =>
        pk.point = extractKeyFrom O pk (fun I => key.toZ • I) (A.given (randomValue x.1)) x.2 y.1 y.2 • (basepoint : P) := by
  choose p hp1 hp2 using fun g : S → Arr 64 => one_key_core O pk key hpk (A.given (randomValue g)) q m (hA _ (random_fits g)) hC
  have h0 := owner_forgery_le O pk key hpk A q m hA hS hC hV
  refine ⟨fun x => p x.1 x.2, ?_, fun x => hp2 x.1 x.2⟩
  rw [avg_prod]
  have h1 : (avg fun g : S → Arr 64 => (chance fun ω : Arr 32 × (D → Arr 64) =>
      ForgesWith (table O D ω.2) ⟨⟨key, ω.1⟩, pk⟩ (A.given (randomValue g))) -
        (q / 2 ^ 256 + m * ((q + m : Nat) * guess + spare))) ≤ avg fun g => avg (p g) := avg_mono fun g => hp1 g
  rw [avg_sub_const (Ω := S → Arr 64)] at h1
  linarith

theorem extract_dh_congr (O : Oracles) (pk : PublicKey P) (dh dh' : P → P)
    (hK : ∀ u ∈ K, KeyUse.query pk dh u = KeyUse.query pk dh' u ∧ KeyUse.answer pk dh u = KeyUse.answer pk dh' u)
    (fin : KeyForgery P → Prop) (q m : Nat)
    (A : Client (KeyRequest P) (KeyAnswer P) (KeyForgery P)) (hA : A.Limited D KeyRequest.use K fin q m)
    (C : K → Arr 64 × Arr 64) (f g : D → Arr 64) :
    extractKeyFrom O pk dh A C f g = extractKeyFrom O pk dh' A C f g := by
  have e : simulateKey pk dh C A = simulateKey pk dh' C A := by
    unfold simulateKey
    rw [simulate_dh_congr pk dh dh' (coinsOf C) hK fin A q m [] hA]
  unfold extractKeyFrom
  rw [e]

attribute [local irreducible] guess spare in
/-- **C78** forging with the help of secret values.  In the same setting, an attacker on the owner of `X` who makes a new
signature, VRF proof or certificate with probability `ε` lets one find the secret key `x` with probability at least
`δ(δ/(q+1) − guess)`, where `δ` is `ε` minus `q` times the probability that `dhSolver` finds `xy • B`, minus
`2(q/2²⁵⁶ + m((q+m)·guess + spare))`.  The secret key is found from `X` and `Y` alone. -/
theorem forging_needs_diffie_hellman (O : Oracles) {Ω : Type} [Finite Ω] [Nonempty Ω] (keys : Ω → Z × Z) (known : P → Z)
    (A : P → P → Client (KeyRequest P ⊕ SecretValue P) (KeyAnswer P ⊕ Bytes) (KeyForgery P)) (q m : Nat)
    (hA : ∀ ω, ∀ val : SecretValue P → Bytes, (∀ v, SecretValue.Fits v (val v)) →
      ((A ((keys ω).1 • basepoint) ((keys ω).2 • basepoint)).given val).Limited D KeyRequest.use K
        (fun c => c.query (publicOf (keys ω).1) ∈ D) q m)
    (hS : ∀ ω, (A ((keys ω).1 • basepoint) ((keys ω).2 • basepoint)).Values SecretValue.Fits
      {v | v ∈ S ∧ v.Targets ((keys ω).2 • basepoint)})
    (hK : KnownInputs known K)
    (hC : ∀ ω, CoversKey (publicOf (keys ω).1) (fun I => (keys ω).1 • I) D K)
    (hV : ∀ ω, CoversValues ⟨⟨Scalar.ofZ (keys ω).1, zeros 32⟩, publicOf (keys ω).1⟩ D S) :
    let ε := chance (fun ω : Ω × Arr 32 × (D → Arr 64) =>
        let X := (keys ω.1).1 • (basepoint : P)
        let Y := (keys ω.1).2 • (basepoint : P)
        ForgesWithValues (wideTable O D ω.2.2) ⟨⟨Scalar.ofZ (keys ω.1).1, ω.2.1⟩, PublicKey.fromPoint X⟩ (A X Y))
    let solved := chance (fun ω : Ω × Fin q × (K → Arr 64 × Arr 64) × (D → Arr 64) × (S → Arr 64) =>
        let X := (keys ω.1).1 • (basepoint : P)
        let Y := (keys ω.1).2 • (basepoint : P)
        dhSolver O known X Y (A X Y) ω.2.2.1 ω.2.2.2.1 ω.2.2.2.2 ω.2.1 =
          (compress (((keys ω.1).1 * (keys ω.1).2) • (basepoint : P))).1)
    let loss : ℚ := q * solved + 2 * (q / 2 ^ 256 + m * ((q + m : Nat) * guess + spare))
    loss ≤ ε →
    (ε - loss) * ((ε - loss) / (q + 1 : Nat) - guess) ≤
      chance fun x : (Ω × ((S → Arr 64) × (K → Arr 64 × Arr 64))) × ((D → Arr 64) × (D → Arr 64)) =>
        let X := (keys x.1.1).1 • (basepoint : P)
        let Y := (keys x.1.1).2 • (basepoint : P)
        X = extractKeyFrom O (PublicKey.fromPoint X) (fun I => known I • X) ((A X Y).given (randomValue x.1.2.1)) x.1.2.2 x.2.1 x.2.2 •
          (basepoint : P) := by
  intro ε solved loss hle
  have hpk : ∀ ω, (publicOf (keys ω).1 : PublicKey P).point = (Scalar.ofZ (keys ω).1).toZ • (basepoint : P) := fun ω => by
    rw [Scalar.toZ_ofZ]; rfl
  have hS1 : ∀ ω, (A ((keys ω).1 • basepoint) ((keys ω).2 • basepoint)).Values SecretValue.Fits {v | v ∈ S} := fun ω =>
    values_imp _ (fun v h => h.1) (hS ω)
  choose p hp1 hp2 using fun ω => owner_core O (publicOf (keys ω).1) (Scalar.ofZ (keys ω).1) (hpk ω)
    (A ((keys ω).1 • basepoint) ((keys ω).2 • basepoint)) q m (hA ω) (hS1 ω) (by rw [Scalar.toZ_ofZ]; exact hC ω) (hV ω)
  simp only [Scalar.toZ_ofZ] at hp1 hp2
  have hcl : ∀ ω, _ := fun ω => clash_le_solver (S := S) O known (keys ω).1 ((keys ω).2 • (basepoint : P)) _ q m _ (hA ω)
    (values_imp _ (fun v h => h.2) (hS ω)) hK
  refine fork_coins (fun x : Ω × ((S → Arr 64) × (K → Arr 64 × Arr 64)) => p x.1 x.2) ε loss (q + 1 : Nat) _ (by positivity)
    (by unfold chance; positivity) hle ?_ ?_
  · rw [avg_prod]
    have h1 : (avg fun ω : Ω => ((chance fun ν : Arr 32 × (D → Arr 64) =>
          ForgesWithValues (wideTable O D ν.2) ⟨⟨Scalar.ofZ (keys ω).1, ν.1⟩, publicOf (keys ω).1⟩
            (A ((keys ω).1 • basepoint) ((keys ω).2 • basepoint))) +
        (chance (fun ν : Fin q × (K → Arr 64 × Arr 64) × (D → Arr 64) × (S → Arr 64) =>
          dhSolver O known ((keys ω).1 • basepoint) ((keys ω).2 • basepoint) (A ((keys ω).1 • basepoint) ((keys ω).2 • basepoint))
            ν.2.1 ν.2.2.1 ν.2.2.2 ν.1.1 = (compress (((keys ω).1 * (keys ω).2) • (basepoint : P))).1)) * (- q)) -
        2 * (q / 2 ^ 256 + m * ((q + m : Nat) * guess + spare))) ≤ avg fun ω => avg (p ω) := avg_mono fun ω => by
      have h := hp1 ω
      have hc := hcl ω
      simp only [mul_smul] at hc ⊢
      refine le_trans ?_ h
      have hc' := sub_le_sub_left (add_le_add_left hc (2 * (q / 2 ^ 256 + m * ((q + m : Nat) * guess + spare))))
        (chance fun ν : Arr 32 × (D → Arr 64) =>
          ForgesWithValues (wideTable O D ν.2) ⟨⟨Scalar.ofZ (keys ω).1, ν.1⟩, publicOf (keys ω).1⟩
            (A ((keys ω).1 • basepoint) ((keys ω).2 • basepoint)))
      refine le_trans (le_of_eq ?_) hc'
      ring
    rw [avg_sub_const, avg_add, avg_mul_const] at h1
    have e1 : ε = avg fun ω : Ω => chance fun ν : Arr 32 × (D → Arr 64) =>
          ForgesWithValues (wideTable O D ν.2) ⟨⟨Scalar.ofZ (keys ω).1, ν.1⟩, publicOf (keys ω).1⟩
            (A ((keys ω).1 • basepoint) ((keys ω).2 • basepoint)) := by
      simp only [ε]
      rw [chance_eq_avg, avg_prod]
      exact avg_congr fun ω => by rw [chance_eq_avg]; rfl
    have e2 : solved = avg fun ω : Ω => chance (fun ν : Fin q × (K → Arr 64 × Arr 64) × (D → Arr 64) × (S → Arr 64) =>
          dhSolver O known ((keys ω).1 • basepoint) ((keys ω).2 • basepoint) (A ((keys ω).1 • basepoint) ((keys ω).2 • basepoint))
            ν.2.1 ν.2.2.1 ν.2.2.2 ν.1.1 = (compress (((keys ω).1 * (keys ω).2) • (basepoint : P))).1) := by
      simp only [solved]
      rw [chance_eq_avg, avg_prod]
      exact avg_congr fun ω => by rw [chance_eq_avg]
    rw [← e1, ← e2] at h1
    refine le_trans (le_of_eq ?_) h1
    simp only [loss]
    ring
  · rw [chance_eq_avg]
    refine le_trans ?_ (le_of_eq (avg_prod _).symm)
    refine avg_mono fun x : Ω × ((S → Arr 64) × (K → Arr 64 × Arr 64)) => ?_
    rw [← chance_eq_avg]
    refine le_trans (hp2 x.1 x.2) (chance_mono fun y hy => ?_)
    simp only at hy ⊢
    rw [extract_dh_congr O _ _ _ (known_uses hK (keys x.1).1 _) _ q m _ (hA x.1 _ (random_fits x.2.1))] at hy
    exact hy

/-! ### The hypotheses can be met -/

/-- Proofs are requested only at points whose discrete logarithm is known. -/
def AsksKnown (known : P → Z) : KeyRequest P → Prop
  | .prove _ input _ _ => input = known input • (basepoint : P)
  | _ => True

theorem limited_filter {Req Ans κ : Type} (key : Req → κ) (fin : α → Prop) (R : Set Req) {K : Finset κ} [DecidablePred fun k => ∃ r ∈ R, key r = k]
    (A : Client Req Ans α) : ∀ q m, A.Limited D key K fin q m → A.Requests R →
    A.Limited D key (K.filter fun k => ∃ r ∈ R, key r = k) fin q m := by
  induction A with
  | ret a => exact fun q m h _ => h
  | ask l k ih =>
    rintro q m ⟨hl, q', rfl, h⟩ hR
    exact ⟨hl, q', rfl, fun w => ih w q' m (h w) (hR w)⟩
  | request r k ih =>
    rintro q m ⟨hr, m', rfl, h⟩ hR
    exact ⟨Finset.mem_filter.mpr ⟨hr, r, hR.1, rfl⟩, m', rfl, fun a => ih a q m' (h a) (hR.2 a)⟩

theorem values_inter {T T' : Set (SecretValue P)} (A : Client (KeyRequest P ⊕ SecretValue P) (KeyAnswer P ⊕ Bytes) α) :
    A.Values SecretValue.Fits T → A.Values SecretValue.Fits T' → A.Values SecretValue.Fits {v | v ∈ T ∧ v ∈ T'} := by
  induction A with
  | ret a => exact fun _ _ => trivial
  | ask q k ih => exact fun h h' w => ih w (h w) (h' w)
  | request r k ih =>
    cases r with
    | inl r => exact fun h h' a => ih _ (h a) (h' a)
    | inr v => exact fun h h' => ⟨⟨h.1, h'.1⟩, fun y hy => ih _ (h.2 y hy) (h'.2 y hy)⟩

theorem known_filter (known : P → Z) (K : Finset (KeyUse P))
    [DecidablePred fun k : KeyUse P => ∃ r ∈ {r | AsksKnown known r}, KeyRequest.use r = k] :
    KnownInputs known (K.filter fun k => ∃ r ∈ {r | AsksKnown known r}, KeyRequest.use r = k) := by
  intro u hu
  obtain ⟨-, r, hr, rfl⟩ := Finset.mem_filter.mp hu
  cases r with
  | sign t sys => trivial
  | issue t seed sys => trivial
  | prove extra I kusama sys => exact hr

/-- Every family of attackers that ask for values to do with `Y` only, and for VRF proofs only at points of known logarithm,
is within some bounds, with all finite sets that the theorems ask for. -/
theorem every_dh_attacker_is_limited {Ω : Type} [Finite Ω] (keys : Ω → Z × Z) (known : P → Z) (qf : P → α → List MOp)
    (A : P → P → Client (KeyRequest P ⊕ SecretValue P) (KeyAnswer P ⊕ Bytes) α)
    (hT : ∀ ω, (A ((keys ω).1 • basepoint) ((keys ω).2 • basepoint)).Values SecretValue.Fits {v | v.Targets ((keys ω).2 • basepoint)})
    (hR : ∀ ω, ∀ val : SecretValue P → Bytes,
      ((A ((keys ω).1 • basepoint) ((keys ω).2 • basepoint)).given val).Requests {r | AsksKnown known r}) :
    ∃ (D : Finset (List MOp)) (K : Finset (KeyUse P)) (S : Finset (SecretValue P)) (q m : Nat),
      (∀ ω, ∀ val : SecretValue P → Bytes, (∀ v, SecretValue.Fits v (val v)) →
        ((A ((keys ω).1 • basepoint) ((keys ω).2 • basepoint)).given val).Limited D KeyRequest.use K
          (fun a => qf ((keys ω).1 • basepoint) a ∈ D) q m) ∧
      (∀ ω, (A ((keys ω).1 • basepoint) ((keys ω).2 • basepoint)).Values SecretValue.Fits
        {v | v ∈ S ∧ v.Targets ((keys ω).2 • basepoint)}) ∧
      KnownInputs known K ∧
      (∀ ω, CoversKey (publicOf (keys ω).1) (fun I => (keys ω).1 • I) D K) ∧
      (∀ ω, CoversValues ⟨⟨Scalar.ofZ (keys ω).1, zeros 32⟩, publicOf (keys ω).1⟩ D S) := by
  classical
  choose D K S q m h hv using fun ω => exists_owner_limited (qf ((keys ω).1 • basepoint)) (A ((keys ω).1 • basepoint) ((keys ω).2 • basepoint))
  haveI := Fintype.ofFinite Ω
  haveI := Fintype.ofFinite (Arr 32)
  haveI := Fintype.ofFinite Z
  let K₁ : Finset (KeyUse P) := Finset.univ.biUnion K
  let K' : Finset (KeyUse P) := K₁.filter fun k => ∃ r ∈ {r | AsksKnown known r}, KeyRequest.use r = k
  let S' : Finset (SecretValue P) := Finset.univ.biUnion S
  let D' : Finset (List MOp) := (Finset.univ.biUnion D ∪
    Finset.univ.biUnion fun ω : Ω => K'.biUnion fun k =>
      Finset.univ.image (fun v : Z => k.query (publicOf (keys ω).1) (fun I => (keys ω).1 • I) v 0) ∪
      Finset.univ.image (fun n : Arr 32 => k.nonceQuery (publicOf (keys ω).1) n)) ∪
    Finset.univ.biUnion fun ω : Ω => S'.image (SecretValue.query ⟨⟨Scalar.ofZ (keys ω).1, zeros 32⟩, publicOf (keys ω).1⟩)
  have hD : ∀ ω, D ω ⊆ D' := fun ω x hx =>
    Finset.mem_union_left _ (Finset.mem_union_left _ (Finset.mem_biUnion.mpr ⟨ω, Finset.mem_univ _, hx⟩))
  refine ⟨D', K', S', Finset.univ.sup q, Finset.univ.sup m, fun ω val hval => ?_, fun ω => ?_, known_filter known K₁,
    fun ω k hk => ⟨fun v => ?_, fun n => ?_⟩, fun ω v hv' => ?_⟩
  · exact limited_filter _ _ _ _ _ _ (limited_mono KeyRequest.use _ (hD ω) (Finset.subset_biUnion_of_mem K (Finset.mem_univ ω))
      (fun a ha => hD ω ha) (Finset.le_sup (f := q) (Finset.mem_univ ω)) (Finset.le_sup (f := m) (Finset.mem_univ ω)) (h ω val hval)) (hR ω val)
  · exact values_inter _ (values_mono _ (Finset.subset_biUnion_of_mem S (Finset.mem_univ ω)) (hv ω)) (hT ω)
  · refine Finset.mem_union_left _ (Finset.mem_union_right _ (Finset.mem_biUnion.mpr ⟨ω, Finset.mem_univ _,
      Finset.mem_biUnion.mpr ⟨k, hk, Finset.mem_union_left _ ?_⟩⟩))
    exact Finset.mem_image_of_mem (fun v : Z => k.query (publicOf (keys ω).1) (fun I => (keys ω).1 • I) v 0) (Finset.mem_univ v)
  · refine Finset.mem_union_left _ (Finset.mem_union_right _ (Finset.mem_biUnion.mpr ⟨ω, Finset.mem_univ _,
      Finset.mem_biUnion.mpr ⟨k, hk, Finset.mem_union_right _ ?_⟩⟩))
    exact Finset.mem_image_of_mem (fun n : Arr 32 => k.nonceQuery (publicOf (keys ω).1) n) (Finset.mem_univ n)
  · exact Finset.mem_union_right _ (Finset.mem_biUnion.mpr ⟨ω, Finset.mem_univ _, Finset.mem_image_of_mem _ hv'⟩)

/-- A client that gets the 32-byte key that the owner of `X` shares with the holder of `Y`, tests the guess that the shared
point is `Q X Y`, and says whether the key is right for that guess. -/
noncomputable def peerProbe (Q : P → P → P) (X Y : P) : Client (KeyRequest P ⊕ SecretValue P) (KeyAnswer P ⊕ Bytes) Bool :=
  .request (.inr (.sessionKey [] Y 32)) fun a =>
  .ask (kexQuery [] (compress X).1 (compress Y).1 (compress (Q X Y)).1 32) fun w =>
  .ret (match a with | .inr b => b == w.1.take 32 | _ => false)

/-- Non-vacuity: that client meets the two hypotheses of `every_dh_attacker_is_limited`, hence of the theorems. -/
example (known : P → Z) (Q : P → P → P) (X Y : P) :
    (peerProbe Q X Y).Values SecretValue.Fits {v | v.Targets Y} ∧
    ∀ val : SecretValue P → Bytes, ((peerProbe Q X Y).given val).Requests {r | AsksKnown known r} :=
  ⟨⟨rfl, fun _ _ _ => trivial⟩, fun _ _ => trivial⟩

/-- On that client, the solver's answer is the client's guess: it solves the problem exactly when the client guesses right. -/
example (O : Oracles) (known : P → Z) (Q : P → P → P) (X Y : P) (C : K → Arr 64 × Arr 64) (f : D → Arr 64) (g : S → Arr 64) :
    dhSolver O known X Y (peerProbe Q X Y) C f g 0 = (compress (Q X Y)).1 := by
  have := absorbed_end [.append (b! "dom-sep") (b! "KEX"), .append (b! "ctx") []]
    [(b! "pk", (compress X).1), (b! "pk", (compress Y).1), (b! "kex", (compress (Q X Y)).1)] (b! "") 32
  simp only [List.map_cons, List.map_nil] at this
  simp only [dhSolver, withoutSecrets, peerProbe, Client.noted, Client.given, Client.simulate, List.lookup, Algo.run,
    List.getElem?_cons_zero, sharedIn, kexQuery, kexFrames]
  rw [this]
  simp

end Schnorrkel.Props
