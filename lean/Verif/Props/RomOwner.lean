import Verif.Lemmas.RomOwner
import Verif.Props.RomKey
import Verif.Props.RomPrf

/-! # C74: values derived from a key pair look random, whatever else the key pair is used for -/

namespace Schnorrkel.Props
open Spec Schnorrkel
variable {P : Type} [Ristretto P] {D : Finset (List MOp)} {K : Finset (KeyUse P)} {S : Finset (SecretValue P)} {α : Type}

/-! ### The values are hashes -/

theorem value_query_nonce (key : Scalar) (n n' : Arr 32) (pk : PublicKey P) (v : SecretValue P) :
    v.query ⟨⟨key, n⟩, pk⟩ = v.query ⟨⟨key, n'⟩, pk⟩ := by
  cases v <;> rfl

/-- **C74** what the owner derives is the hash of `SecretValue.query`. -/
theorem serve_value_is_query (O : Oracles) (kp : Keypair P) (v : SecretValue P) :
    serveValue O kp v = (O.merlin (v.query kp) v.size).1 := by
  letI := O
  cases v with
  | vrfBytes ctx I n =>
    simp only [serveValue, vrfCreateFromPoint_eq]
    rw [make_bytes_is_query]
    rfl
  | sessionKey ctx p n => exact congrArg Subtype.val (aead_unauthenticated_kexOf ctx kp (PublicKey.fromPoint p) n.1)
  | twoDhKey t e s n => exact congrArg Subtype.val (reciever_aead_twoDhOf t.log kp _ _ n.1)
  | childSecret cc i =>
    show (kp.secret.hardDeriveMiniSecretKey cc i).1.1.1 = _
    rw [(hard_derivation_spec (P := P) kp.secret cc i).1]
    rfl
  | childChain cc i =>
    show (kp.secret.hardDeriveMiniSecretKey cc i).2.bytes.1 = _
    rw [(hard_derivation_spec (P := P) kp.secret cc i).1]
    rfl

/-- The queries as uses of the hash. -/
noncomputable def valueUse (kp : Keypair P) : SecretValue P → Use
  | .vrfBytes ctx I n => .vrfResult ctx ((compress I).1, (compress (kp.secret.key.toZ • I)).1) n.1
  | .sessionKey ctx p n => open Classical in
    let a := kp.pub.compressed.1
    let b := (compress p).1
    .kex ctx (if lexLt b a then b else a) (if lexLt b a then a else b) (compress (kp.secret.key.val • p)).1 n.1
  | .twoDhKey t e s n => open Classical in
    let a := kp.pub.compressed.1
    let b := (compress e).1
    let c := (compress s).1
    .twoDh t.log (if lexLt b a then b else a) (if lexLt b a then a else b) (compress (kp.secret.key.val • e)).1
      (if lexLt c a then c else a) (if lexLt c a then a else c) (compress (kp.secret.key.val • s)).1 n.1
  | .childSecret cc i => .hardKey i (cc.map (·.bytes.1)) kp.secret.key.bytes.1
  | .childChain cc i => .hardChain i (cc.map (·.bytes.1)) kp.secret.key.bytes.1

theorem valueUse_query (kp : Keypair P) (v : SecretValue P) : (valueUse kp v).query = v.query kp := by
  cases v <;> rfl

theorem valueUse_wf (kp : Keypair P) (v : SecretValue P) : (valueUse kp v).WF := by
  cases v <;> exact trivial

theorem valueUse_norm (kp : Keypair P) (v : SecretValue P) : (valueUse kp v).norm = valueUse kp v := by
  cases v <;> rfl

theorem sorted_other {a b b' : Bytes} (h1 : open Classical in (if lexLt b a then b else a) = if lexLt b' a then b' else a)
    (h2 : open Classical in (if lexLt b a then a else b) = if lexLt b' a then a else b') : b = b' := by
  by_cases h : lexLt b a <;> by_cases h' : lexLt b' a <;> simp only [h, h', if_true, if_false] at h1 h2
  · exact h1
  · rw [h1, h2]
  · rw [h2, ← h1]
  · exact h2

theorem chain_code_map {c d : Option ChainCode} (h : c.map (·.bytes.1) = d.map (·.bytes.1)) : c = d := by
  rcases c with _ | ⟨c⟩ <;> rcases d with _ | ⟨d⟩
  · rfl
  · simp at h
  · simp at h
  · simp only [Option.map_some, Option.some.injEq] at h
    exact congrArg (fun x => some (ChainCode.mk x)) (Subtype.ext h)

/-- Different values have different queries. -/
theorem value_query_inj (kp : Keypair P) (v v' : SecretValue P) (h : v.query kp = v'.query kp) : v = v' := by
  rw [← valueUse_query, ← valueUse_query] at h
  have h := hash_uses_separated _ _ (valueUse_wf ..) (valueUse_wf ..) h
  rw [valueUse_norm, valueUse_norm] at h
  cases v with
  | vrfBytes ctx I n =>
    cases v' with
    | vrfBytes ctx' I' n' =>
      simp only [valueUse, Use.vrfResult.injEq, Prod.mk.injEq] at h
      obtain ⟨rfl, ⟨h1, -⟩, h2⟩ := h
      rw [compress_inj.mp (Subtype.ext h1), Fin.ext h2]
    | _ => simp [valueUse] at h
  | sessionKey ctx p n =>
    cases v' with
    | sessionKey ctx' p' n' =>
      simp only [valueUse, Use.kex.injEq] at h
      obtain ⟨rfl, h1, h2, -, h3⟩ := h
      rw [compress_inj.mp (Subtype.ext (sorted_other h1 h2)), Fin.ext h3]
    | _ => simp [valueUse] at h
  | twoDhKey t e s n =>
    cases v' with
    | twoDhKey t' e' s' n' =>
      simp only [valueUse, Use.twoDh.injEq] at h
      obtain ⟨ht, h1, h2, -, h3, h4, -, h5⟩ := h
      obtain ⟨t⟩ := t
      obtain ⟨t'⟩ := t'
      simp only at ht
      subst ht
      rw [compress_inj.mp (Subtype.ext (sorted_other h1 h2)), compress_inj.mp (Subtype.ext (sorted_other h3 h4)), Fin.ext h5]
    | _ => simp [valueUse] at h
  | childSecret cc i =>
    cases v' with
    | childSecret cc' i' =>
      simp only [valueUse, Use.hardKey.injEq] at h
      obtain ⟨rfl, h1, -⟩ := h
      rw [chain_code_map h1]
    | _ => simp [valueUse] at h
  | childChain cc i =>
    cases v' with
    | childChain cc' i' =>
      simp only [valueUse, Use.hardChain.injEq] at h
      obtain ⟨rfl, h1, -⟩ := h
      rw [chain_code_map h1]
    | _ => simp [valueUse] at h

theorem value_ne_challenge (kp : Keypair P) (pk : PublicKey P) (dh : P → P) (v : SecretValue P) (k : KeyUse P) (z w : Z) :
    v.query kp ≠ k.query pk dh z w := by
  intro h
  rw [← valueUse_query, ← asUse_query] at h
  have h := hash_uses_separated _ _ (valueUse_wf ..) (asUse_wf ..) h
  rw [valueUse_norm, asUse_norm] at h
  cases v <;> cases k <;> simp [valueUse, KeyUse.asUse] at h

theorem value_ne_nonce (kp : Keypair P) (pk : PublicKey P) (n : Arr 32) (v : SecretValue P) (k : KeyUse P) :
    v.query kp ≠ k.nonceQuery pk n := by
  intro h
  rw [← valueUse_query, ← nonceUse_query] at h
  have h := hash_uses_separated _ _ (valueUse_wf ..) (nonceUse_wf ..) h
  rw [valueUse_norm] at h
  cases k with
  | prove log I ku rng => cases ku <;> cases v <;> simp [valueUse, KeyUse.nonceUse, Use.norm] at h
  | _ => cases v <;> simp [valueUse, KeyUse.nonceUse, Use.norm] at h

/-! ### Simulation of signatures, proofs and certificates, for any test of the outcome -/

attribute [local irreducible] guess spare in
theorem key_services_le (O : Oracles) (pk : PublicKey P) (key : Scalar)
    (hpk : pk.point = key.toZ • (basepoint : P)) (A : Client (KeyRequest P) (KeyAnswer P) α) (q m : Nat)
    (hA : A.Limited D KeyRequest.use K (fun _ => True) q m) (hC : CoversKey pk (fun I => key.toZ • I) D K) (win : α → Prop) :
    chance (fun ω : Arr 32 × (D → Arr 64) => win (A.play (table O D ω.2) (serveKey (table O D ω.2) ⟨⟨key, ω.1⟩, pk⟩))) ≤
      chance (fun ω : (K → Arr 64 × Arr 64) × (D → Arr 64) =>
        win ((A.simulate (KeyUse.query pk fun I => key.toZ • I) (KeyUse.answer pk fun I => key.toZ • I) KeyRequest.use
          (coinsOf ω.1) []).run (table O D ω.2))) + (q / 2 ^ 256 + m * ((q + m : Nat) * guess + spare)) := by
  let dh : P → P := fun I => key.toZ • I
  have s1 := seeded_le O (KeyUse.query pk dh) (KeyUse.answer pk dh)
      KeyRequest.use (KeyUse.secret key.toZ) (fun n k => k.nonceQuery pk n) (use_nonce_inj pk)
      (fun n k k' v => nonce_ne_query pk dh n k k' v 0) (fun k hk n => (hC k hk).2 n)
      (fun n O r => serveKey O ⟨⟨key, n⟩, pk⟩ r) (fun n O r => serveKey_eq O key pk hpk n r) _ (fun _ => win)
      (fun _ _ _ _ h => h) A q m hA
  have s2 := service_le_simulated O (KeyUse.query pk dh) (KeyUse.answer pk dh) KeyRequest.use (KeyUse.secret key.toZ)
      (use_query_shift pk key.toZ hpk) (use_query_inj pk dh) (fun k hk v => (hC k hk).1 v) _ (fun _ => win) A q m 0
      (fun _ => none) (fun _ => none) (fun _ => none) hA ⟨[], by simp, fun d h => (h rfl).elim⟩ (fun _ => Or.inl ⟨rfl, rfl⟩)
  have hov : ∀ {ι S : Type} (f : ι → S), ov (fun _ => none) f = f := fun f => rfl
  simp only [hov, Nat.zero_add] at s2
  have s3 : (avg fun f : D → Arr 64 => avg fun C : K → Arr 64 × Arr 64 =>
      ind (win (progPlay (KeyUse.query pk dh) (KeyUse.answer pk dh) KeyRequest.use (coinsOf C) (table O D f) A).2)) =
      chance (fun ω : (K → Arr 64 × Arr 64) × (D → Arr 64) =>
        win ((A.simulate (KeyUse.query pk dh) (KeyUse.answer pk dh) KeyRequest.use (coinsOf ω.1) []).run (table O D ω.2))) := by
    rw [chance_eq_avg, avg_prod, avg_comm]
    refine avg_congr fun C => avg_congr fun f => ?_
    exact congrArg (fun r => ind (win r)) (progPlay_run (table O D f) (KeyUse.query pk dh) (KeyUse.answer pk dh) KeyRequest.use (coinsOf C) A [])
  rw [s3] at s2
  linarith

/-! ### The main theorem -/

theorem avg_sub_const {Ω : Type} [Finite Ω] [Nonempty Ω] (F : Ω → ℚ) (c : ℚ) : (avg fun ω => F ω - c) = avg F - c := by
  have h := avg_add F (fun _ => -c)
  rw [avg_const] at h
  rw [show (fun ω => F ω - c) = fun ω => F ω + -c from funext fun ω => sub_eq_add_neg _ _, h, sub_eq_add_neg]

theorem value_size (v : SecretValue P) : v.size ≤ 64 := by
  cases v with
  | vrfBytes _ _ n => have := n.2; simp only [SecretValue.size]; omega
  | sessionKey _ _ n => have := n.2; simp only [SecretValue.size]; omega
  | twoDhKey _ _ _ n => have := n.2; simp only [SecretValue.size]; omega
  | childSecret _ _ => simp only [SecretValue.size]; omega
  | childChain _ _ => simp only [SecretValue.size]; omega

theorem value_fits (v : SecretValue P) (w : Arr 64) : v.Fits (w.1.take v.size) := by
  unfold SecretValue.Fits
  rw [List.length_take, w.2]
  exact Nat.min_eq_left (value_size v)

theorem random_fits (g : S → Arr 64) (v : SecretValue P) : v.Fits (randomValue g v) := by
  unfold randomValue
  split
  · exact value_fits v _
  · exact List.length_replicate

theorem limited_true {Req Ans κ : Type} {K : Finset κ} {key : Req → κ} {fin : α → Prop} {A : Client Req Ans α} :
    ∀ {q m}, A.Limited D key K fin q m → A.Limited D key K (fun _ => True) q m := by
  induction A with
  | ret a => intro q m _; exact trivial
  | ask l k ih => rintro q m ⟨hl, q', rfl, h⟩; exact ⟨hl, q', rfl, fun w => ih w (h w)⟩
  | request r k ih => rintro q m ⟨hl, m', rfl, h⟩; exact ⟨hl, m', rfl, fun w => ih w (h w)⟩


theorem play_congr {Req Ans : Type} (O O' : Oracles) (h : ∀ q, O.merlin q 64 = O'.merlin q 64) (serve : Req → Ans)
    (A : Client Req Ans α) : A.play O serve = A.play O' serve := by
  induction A with
  | ret a => rfl
  | ask q k ih => simp only [Client.play, h]; exact ih _
  | request r k ih => exact ih _

theorem wide_table_64 (O : Oracles) (f : D → Arr 64) (q : List MOp) : (wideTable O D f).merlin q 64 = (table O D f).merlin q 64 := by
  by_cases h : q ∈ D
  · rw [wideTable_hit O _ _ h, table_hit _ _ _ _ h]
  · rw [table_miss _ _ _ _ _ (fun e => h e.1)]
    show (if h : q ∈ D ∧ 64 ≤ 64 then _ else _ : Arr 64) = _
    rw [dif_neg (fun e => h e.1)]

theorem serveKey_congr (O O' : Oracles) (key : Scalar) (pk : PublicKey P)
    (hpk : pk.point = key.toZ • (basepoint : P)) (n : Arr 32) (r : KeyRequest P)
    (h1 : O.merlin (r.use.nonceQuery pk n) 64 = O'.merlin (r.use.nonceQuery pk n) 64)
    (h2 : ∀ v, O.merlin (r.use.query pk (fun I => key.toZ • I) v 0) 64 = O'.merlin (r.use.query pk (fun I => key.toZ • I) v 0) 64) :
    serveKey O ⟨⟨key, n⟩, pk⟩ r = serveKey O' ⟨⟨key, n⟩, pk⟩ r := by
  rw [serveKey_eq O key pk hpk, serveKey_eq O' key pk hpk, hashWith_congr h1]
  unfold realAns
  rw [hashWith_congr (h2 _)]

theorem chance_not {Ω : Type} [Finite Ω] [Nonempty Ω] (p : Ω → Prop) : chance (fun ω => ¬ p ω) = 1 - chance p := by
  rw [chance_eq_avg, chance_eq_avg]
  have h : (avg fun ω => ind (¬ p ω)) + avg (fun ω => ind (p ω)) = 1 := by
    rw [← avg_add, ← avg_const (Ω := Ω) (1 : ℚ)]
    refine avg_congr fun ω => ?_
    by_cases h : p ω <;> simp [ind, h]
  linarith

attribute [local irreducible] guess spare in
theorem owner_le (O : Oracles) (pk : PublicKey P) (key : Scalar)
    (hpk : pk.point = key.toZ • (basepoint : P)) (A : Client (KeyRequest P ⊕ SecretValue P) (KeyAnswer P ⊕ Bytes) α) (q m : Nat)
    (hA : ∀ val : SecretValue P → Bytes, (∀ v, SecretValue.Fits v (val v)) → (A.given val).Limited D KeyRequest.use K (fun _ => True) q m) (hS : A.Values SecretValue.Fits {v | v ∈ S})
    (hC : CoversKey pk (fun I => key.toZ • I) D K) (hV : CoversValues ⟨⟨key, zeros 32⟩, pk⟩ D S)
    (win : α × List (List MOp) × List (KeyRequest P ⊕ SecretValue P) → Prop) :
    chance (fun ω : Arr 32 × (D → Arr 64) => win ((A.noted [] []).play (wideTable O D ω.2)
        (serveOwner (wideTable O D ω.2) ⟨⟨key, ω.1⟩, pk⟩))) ≤
      chance (fun ω : (K → Arr 64 × Arr 64) × (D → Arr 64) × (S → Arr 64) =>
        win ((withoutSecrets pk (fun I => key.toZ • I) A ω.1 ω.2.2).run (table O D ω.2.1)) ∨
        Clash (SecretValue.query ⟨⟨key, zeros 32⟩, pk⟩)
          ((withoutSecrets pk (fun I => key.toZ • I) A ω.1 ω.2.2).run (table O D ω.2.1))) +
        (q / 2 ^ 256 + m * ((q + m : Nat) * guess + spare)) := by
  let kq : SecretValue P → List MOp := SecretValue.query ⟨⟨key, zeros 32⟩, pk⟩
  let sl : Arr 32 → (D → Arr 64) → KeyRequest P → KeyAnswer P := fun n f => serveKey (table O D f) ⟨⟨key, n⟩, pk⟩
  let vr : (D → Arr 64) → SecretValue P → Bytes := fun f => serveValue (wideTable O D f) ⟨⟨key, zeros 32⟩, pk⟩
  let out : SecretValue P → Arr 64 → Bytes := fun v w => w.1.take v.size
  have hvr : ∀ f v, ∀ hv : v ∈ S, vr f v = out v (f ⟨kq v, hV v hv⟩) := by
    intro f v hv
    simp only [vr, out, serve_value_is_query]
    rw [wideTable_short O _ _ (hV v hv) _ (value_size v), wideTable_hit O _ _ (hV v hv)]
  have hsl : ∀ n, ∀ f f' : D → Arr 64, (∀ d : D, (∀ v ∈ S, kq v ≠ d.1) → f d = f' d) → sl n f = sl n f' := by
    intro n f f' h
    funext r
    have key' : ∀ l, (∀ v : SecretValue P, kq v ≠ l) → (table O D f).merlin l 64 = (table O D f').merlin l 64 := by
      intro l hl
      by_cases hlD : l ∈ D
      · rw [table_hit _ _ _ _ hlD, table_hit _ _ _ _ hlD, h ⟨l, hlD⟩ fun v _ => hl v]
      · rw [table_miss _ _ _ _ _ (fun e => hlD e.1), table_miss _ _ _ _ _ (fun e => hlD e.1)]
    exact serveKey_congr _ _ key pk hpk n r (key' _ fun v => value_ne_nonce _ pk n v _)
      fun z => key' _ fun v => value_ne_challenge _ pk _ v _ z 0
  have hreal : ∀ (n : Arr 32) (f : D → Arr 64), (A.noted [] []).play (wideTable O D f) (serveOwner (wideTable O D f) ⟨⟨key, n⟩, pk⟩) =
      ((A.noted [] []).given (vr f)).play (table O D f) (sl n f) := by
    intro n f
    rw [given_play, play_congr (wideTable O D f) (table O D f) (wide_table_64 O f)]
    have : serveOwner (wideTable O D f) ⟨⟨key, n⟩, pk⟩ = Sum.map (sl n f) (vr f) := by
      funext r
      cases r with
      | inl r => exact congrArg Sum.inl (serveKey_congr _ _ key pk hpk n r (wide_table_64 O f _) fun z => wide_table_64 O f _)
      | inr v =>
        refine congrArg Sum.inr ?_
        simp only [vr, serve_value_is_query, value_query_nonce key n (zeros 32)]
    rw [this]
  have hval : ∀ g : S → Arr 64, valuesOf out (fun v => List.replicate v.size 0) g = randomValue g := fun g => rfl
  simp only [hreal]
  rw [chance_eq_avg, avg_prod]
  have s1 : (avg fun n : Arr 32 => avg fun f : D → Arr 64 => ind (win (((A.noted [] []).given (vr f)).play (table O D f) (sl n f)))) ≤
      avg fun g : S → Arr 64 => chance fun ω : Arr 32 × (D → Arr 64) =>
        win (((A.noted [] []).given (randomValue g)).play (table O D ω.2) (serveKey (table O D ω.2) ⟨⟨key, ω.1⟩, pk⟩)) ∨
        Clash kq (((A.noted [] []).given (randomValue g)).play (table O D ω.2) (serveKey (table O D ω.2) ⟨⟨key, ω.1⟩, pk⟩)) := by
    refine le_trans (avg_mono fun n => values_table_le O kq (fun v _ v' _ h => value_query_inj _ v v' h) hV (sl n) (hsl n) out value_fits
      (fun v => List.replicate v.size 0) vr hvr
      (fun _ => win) (fun _ _ _ => rfl) A hS) (le_of_eq ?_)
    simp only [hval, sl]
    have e : ∀ F : Arr 32 → (D → Arr 64) → (S → Arr 64) → ℚ, (avg fun n => avg fun f => avg fun g => F n f g) =
        avg fun g => avg fun ω : Arr 32 × (D → Arr 64) => F ω.1 ω.2 g := by
      intro F
      rw [show (avg fun n => avg fun f => avg fun g => F n f g) = avg fun ω : Arr 32 × (D → Arr 64) => avg fun g => F ω.1 ω.2 g from
        (avg_prod (fun ω : Arr 32 × (D → Arr 64) => avg fun g => F ω.1 ω.2 g)).symm, avg_comm]
    rw [e fun n f g => _]
    refine avg_congr fun g => ?_
    rw [chance_eq_avg]
  refine le_trans s1 ?_
  have s2 := fun g : S → Arr 64 => key_services_le O pk key hpk ((A.noted [] []).given (randomValue g)) q m
    (noted_limited KeyRequest.use _ _ A q m [] [] (hA _ (random_fits g))) hC (fun r => win r ∨ Clash kq r)
  refine le_trans (avg_mono s2) ?_
  rw [avg_add, avg_const]
  refine add_le_add_left (le_of_eq ?_) _
  simp only [chance_eq_avg]
  rw [avg_prod]
  simp only [avg_prod]
  rw [avg_comm]
  refine avg_congr fun C => ?_
  rw [avg_comm]
  rfl

/-- **C74** all uses of a key pair together.  Take any client that makes at most `q` hash queries, gets at most `m` signatures,
VRF proofs and certificates, and any number of secret values (VRF bytes, session keys, hard-derived children), all on inputs
of its choice, adaptively, and with the system RNG under its control.  Whatever it is trying to find out (`win`): it does so
almost equally often in a world without the secret key, where the values are independent random strings and everything else
is made from coins, the public key and the VRF outputs at the points it asked proofs for.  The difference is at most the
probability that, in that world, it hashes the query of a value that it requested, plus
`q/2²⁵⁶ + m((q+m)·guess + spare)`. -/
theorem secret_values_pseudorandom (O : Oracles) (pk : PublicKey P) (key : Scalar)
    (hpk : pk.point = key.toZ • (basepoint : P)) (A : Client (KeyRequest P ⊕ SecretValue P) (KeyAnswer P ⊕ Bytes) α) (q m : Nat)
    (hA : ∀ val : SecretValue P → Bytes, (∀ v, SecretValue.Fits v (val v)) → (A.given val).Limited D KeyRequest.use K (fun _ => True) q m) (hS : A.Values SecretValue.Fits {v | v ∈ S})
    (hC : CoversKey pk (fun I => key.toZ • I) D K) (hV : CoversValues ⟨⟨key, zeros 32⟩, pk⟩ D S) (win : α → Prop) :
    |chance (fun ω : Arr 32 × (D → Arr 64) =>
        win (A.play (wideTable O D ω.2) (serveOwner (wideTable O D ω.2) ⟨⟨key, ω.1⟩, pk⟩))) -
      chance (fun ω : (K → Arr 64 × Arr 64) × (D → Arr 64) × (S → Arr 64) =>
        win ((withoutSecrets pk (fun I => key.toZ • I) A ω.1 ω.2.2).run (table O D ω.2.1)).1)| ≤
      chance (fun ω : (K → Arr 64 × Arr 64) × (D → Arr 64) × (S → Arr 64) =>
        let r := (withoutSecrets pk (fun I => key.toZ • I) A ω.1 ω.2.2).run (table O D ω.2.1)
        ∃ v, .inr v ∈ r.2.2 ∧ v.query ⟨⟨key, zeros 32⟩, pk⟩ ∈ r.2.1) +
      (q / 2 ^ 256 + m * ((q + m : Nat) * guess + spare)) := by
  have h1 := owner_le O pk key hpk A q m hA hS hC hV fun r => win r.1
  have h2 := owner_le O pk key hpk A q m hA hS hC hV fun r => ¬ win r.1
  have o1 := le_trans h1 (add_le_add_left chance_or _)
  have o2 := le_trans h2 (add_le_add_left chance_or _)
  simp only [noted_play] at o1 o2
  rw [chance_not (fun ω : Arr 32 × (D → Arr 64) =>
        win (A.play (wideTable O D ω.2) (serveOwner (wideTable O D ω.2) ⟨⟨key, ω.1⟩, pk⟩))),
    chance_not (fun ω : (K → Arr 64 × Arr 64) × (D → Arr 64) × (S → Arr 64) =>
        win ((withoutSecrets pk (fun I => key.toZ • I) A ω.1 ω.2.2).run (table O D ω.2.1)).1)] at o2
  unfold Clash at o1 o2
  rw [abs_le]
  constructor <;> linarith

/-! ### Forging with the help of secret values -/

theorem valid_ne_value {O : Oracles} {pk : PublicKey P} {log : List (KeyRequest P × KeyAnswer P)} {c : KeyForgery P}
    (h : c.Valid O pk log) (kp : Keypair P) (v : SecretValue P) : v.query kp ≠ c.query pk := by
  intro he
  obtain ⟨u, hu1, hu2, hu3, hu4⟩ := checks_use (valid_checks h)
  rw [← hu3, ← valueUse_query] at he
  have he := hash_uses_separated _ _ (valueUse_wf ..) hu1 he
  rw [hu2, valueUse_norm] at he
  cases c with
  | signature t b =>
    simp only at hu4
    rw [hu4] at he
    cases v <;> simp [valueUse] at he
  | proof extra I Q kusama b =>
    simp only at hu4
    obtain ⟨π, -, hu4⟩ := hu4
    rw [hu4] at he
    cases v <;> simp [valueUse] at he
  | cert t c sk =>
    simp only at hu4
    rw [hu4] at he
    cases v <;> simp [valueUse] at he

attribute [local irreducible] guess spare in
/-- The attack with hashed values against the attack with random values. -/
theorem owner_forgery_le (O : Oracles) (pk : PublicKey P) (key : Scalar)
    (hpk : pk.point = key.toZ • (basepoint : P))
    (A : Client (KeyRequest P ⊕ SecretValue P) (KeyAnswer P ⊕ Bytes) (KeyForgery P)) (q m : Nat)
    (hA : ∀ val : SecretValue P → Bytes, (∀ v, SecretValue.Fits v (val v)) → (A.given val).Limited D KeyRequest.use K (fun c => c.query pk ∈ D) q m) (hS : A.Values SecretValue.Fits {v | v ∈ S})
    (hC : CoversKey pk (fun I => key.toZ • I) D K) (hV : CoversValues ⟨⟨key, zeros 32⟩, pk⟩ D S) :
    chance (fun ω : Arr 32 × (D → Arr 64) =>
        ForgesWithValues (wideTable O D ω.2) ⟨⟨key, ω.1⟩, pk⟩ A) ≤
      (avg fun g : S → Arr 64 => chance fun ω : Arr 32 × (D → Arr 64) =>
        ForgesWith (table O D ω.2) ⟨⟨key, ω.1⟩, pk⟩ (A.given (randomValue g))) +
      (chance (fun ω : (K → Arr 64 × Arr 64) × (D → Arr 64) × (S → Arr 64) =>
        let r := (withoutSecrets pk (fun I => key.toZ • I) A ω.1 ω.2.2).run (table O D ω.2.1)
        ∃ v, .inr v ∈ r.2.2 ∧ v.query ⟨⟨key, zeros 32⟩, pk⟩ ∈ r.2.1) +
      (q / 2 ^ 256 + m * ((q + m : Nat) * guess + spare))) := by
  let kq : SecretValue P → List MOp := SecretValue.query ⟨⟨key, zeros 32⟩, pk⟩
  let sl : Arr 32 → (D → Arr 64) → KeyRequest P → KeyAnswer P := fun n f => serveKey (table O D f) ⟨⟨key, n⟩, pk⟩
  let vr : (D → Arr 64) → SecretValue P → Bytes := fun f => serveValue (wideTable O D f) ⟨⟨key, zeros 32⟩, pk⟩
  let out : SecretValue P → Arr 64 → Bytes := fun v w => w.1.take v.size
  let wins : (D → Arr 64) → (KeyForgery P × List (KeyRequest P × KeyAnswer P)) → Prop := fun f r => r.1.Valid (table O D f) pk r.2
  have hvr : ∀ f v, ∀ hv : v ∈ S, vr f v = out v (f ⟨kq v, hV v hv⟩) := by
    intro f v hv
    simp only [vr, out, serve_value_is_query]
    rw [wideTable_short O _ _ (hV v hv) _ (value_size v), wideTable_hit O _ _ (hV v hv)]
  have agree : ∀ f f' : D → Arr 64, (∀ d : D, (∀ v ∈ S, kq v ≠ d.1) → f d = f' d) →
      ∀ l, (∀ v : SecretValue P, kq v ≠ l) → (table O D f).merlin l 64 = (table O D f').merlin l 64 := by
    intro f f' h l hl
    by_cases hlD : l ∈ D
    · rw [table_hit _ _ _ _ hlD, table_hit _ _ _ _ hlD, h ⟨l, hlD⟩ fun v _ => hl v]
    · rw [table_miss _ _ _ _ _ (fun e => hlD e.1), table_miss _ _ _ _ _ (fun e => hlD e.1)]
  have hsl : ∀ n, ∀ f f' : D → Arr 64, (∀ d : D, (∀ v ∈ S, kq v ≠ d.1) → f d = f' d) → sl n f = sl n f' := by
    intro n f f' h
    funext r
    exact serveKey_congr _ _ key pk hpk n r (agree f f' h _ fun v => value_ne_nonce _ pk n v _)
      fun z => agree f f' h _ fun v => value_ne_challenge _ pk _ v _ z 0
  have hw : ∀ f f' : D → Arr 64, (∀ d : D, (∀ v ∈ S, kq v ≠ d.1) → f d = f' d) → wins f = wins f' := by
    intro f f' h
    funext r
    refine propext ⟨fun hv => valid_congr (hashWith_congr ?_) hv, fun hv => valid_congr (hashWith_congr ?_) hv⟩
    · exact agree f f' h _ fun v => valid_ne_value hv _ v
    · exact (agree f f' h _ fun v => valid_ne_value hv _ v).symm
  have hreal : ∀ (n : Arr 32) (f : D → Arr 64),
      ForgesWithValues (wideTable O D f) ⟨⟨key, n⟩, pk⟩ A ↔
      wins f ((((loggedL [] A).noted [] []).given (vr f)).play (table O D f) (sl n f)).1 := by
    intro n f
    rw [noted_given_play, loggedL_given]
    have e1 : serveValue (wideTable O D f) ⟨⟨key, n⟩, pk⟩ = vr f := by
      funext v
      simp only [vr, serve_value_is_query, value_query_nonce key n (zeros 32)]
    have e2 : serveKey (wideTable O D f) ⟨⟨key, n⟩, pk⟩ = sl n f := by
      funext r
      exact serveKey_congr _ _ key pk hpk n r (wide_table_64 O f _) fun z => wide_table_64 O f _
    simp only [wins, ForgesWithValues, ForgesWith]
    rw [e1, e2, play_congr (wideTable O D f) (table O D f) (wide_table_64 O f)]
    exact ⟨fun h => valid_congr (hashWith_congr (wide_table_64 O f _)) h,
      fun h => valid_congr (hashWith_congr (wide_table_64 O f _).symm) h⟩
  have hval : ∀ g : S → Arr 64, valuesOf out (fun v => List.replicate v.size 0) g = randomValue g := fun g => rfl
  rw [show chance (fun ω : Arr 32 × (D → Arr 64) => ForgesWithValues (wideTable O D ω.2) ⟨⟨key, ω.1⟩, pk⟩ A) = chance (fun ω : Arr 32 × (D → Arr 64) =>
        wins ω.2 ((((loggedL [] A).noted [] []).given (vr ω.2)).play (table O D ω.2) (sl ω.1 ω.2)).1) from
      congrArg chance (funext fun ω => propext (hreal ω.1 ω.2))]
  rw [chance_eq_avg, avg_prod]
  have s1 : (avg fun n : Arr 32 => avg fun f : D → Arr 64 =>
        ind (wins f ((((loggedL [] A).noted [] []).given (vr f)).play (table O D f) (sl n f)).1)) ≤
      avg fun g : S → Arr 64 => chance fun ω : Arr 32 × (D → Arr 64) =>
        wins ω.2 (((A.given (randomValue g)).logged []).play (table O D ω.2) (serveKey (table O D ω.2) ⟨⟨key, ω.1⟩, pk⟩)) ∨
        Clash kq (((A.noted [] []).given (randomValue g)).play (table O D ω.2) (serveKey (table O D ω.2) ⟨⟨key, ω.1⟩, pk⟩)) := by
    refine le_trans (avg_mono fun n => values_table_le O kq (fun v _ v' _ h => value_query_inj _ v v' h) hV (sl n) (hsl n) out value_fits
      (fun v => List.replicate v.size 0) vr hvr
      (fun f r => wins f r.1) (fun f f' h => by rw [hw f f' h]) (loggedL [] A) (loggedL_values A [] hS)) (le_of_eq ?_)
    simp only [hval, sl, noted_given_play, loggedL_given]
    have e : ∀ F : Arr 32 → (D → Arr 64) → (S → Arr 64) → ℚ, (avg fun n => avg fun f => avg fun g => F n f g) =
        avg fun g => avg fun ω : Arr 32 × (D → Arr 64) => F ω.1 ω.2 g := by
      intro F
      rw [show (avg fun n => avg fun f => avg fun g => F n f g) = avg fun ω : Arr 32 × (D → Arr 64) => avg fun g => F ω.1 ω.2 g from
        (avg_prod (fun ω : Arr 32 × (D → Arr 64) => avg fun g => F ω.1 ω.2 g)).symm, avg_comm]
    rw [e fun n f g => _]
    refine avg_congr fun g => ?_
    rw [chance_eq_avg]
    refine avg_congr fun ω => ?_
    have hcl : Clash kq ((((loggedL [] A).noted [] []).given (randomValue g)).play (table O D ω.2)
          (serveKey (table O D ω.2) ⟨⟨key, ω.1⟩, pk⟩)) ↔
        Clash kq (((A.noted [] []).given (randomValue g)).play (table O D ω.2) (serveKey (table O D ω.2) ⟨⟨key, ω.1⟩, pk⟩)) := by
      unfold Clash
      rw [noted_loggedL]
    rw [hcl]
  refine le_trans s1 ?_
  refine le_trans (avg_mono fun g => chance_or) ?_
  rw [avg_add]
  refine add_le_add_right ?_ _
  have s2 := fun g : S → Arr 64 => key_services_le O pk key hpk ((A.noted [] []).given (randomValue g)) q m
    (limited_true (noted_limited KeyRequest.use _ _ A q m [] [] (hA _ (random_fits g)))) hC (fun r => Clash kq r)
  refine le_trans (avg_mono s2) ?_
  rw [avg_add, avg_const]
  refine add_le_add_left (le_of_eq ?_) _
  simp only [chance_eq_avg]
  rw [avg_prod]
  simp only [avg_prod]
  rw [avg_comm]
  refine avg_congr fun C => ?_
  rw [avg_comm]
  rfl

attribute [local irreducible] guess spare in
/-- **C74** unforgeability with all uses of a key pair together.  As `one_key_unforgeable` (C73), but the attacker also gets
any number of secret values derived from the key pair.  With `named` the probability that it hashes the query of a value that
it requested, in the world without secrets, and `δ = ε − named − 2(q/2²⁵⁶ + m((q+m)·guess + spare))`, the secret key is found
with probability at least `δ(δ/(q+1) − guess)`, from the public key, the VRF outputs at the points that proofs were requested
for, and random strings `g` given to the attacker as values. -/
theorem owner_unforgeable (O : Oracles) (pk : PublicKey P) (key : Scalar)
    (hpk : pk.point = key.toZ • (basepoint : P))
    (A : Client (KeyRequest P ⊕ SecretValue P) (KeyAnswer P ⊕ Bytes) (KeyForgery P)) (q m : Nat)
    (hA : ∀ val : SecretValue P → Bytes, (∀ v, SecretValue.Fits v (val v)) → (A.given val).Limited D KeyRequest.use K (fun c => c.query pk ∈ D) q m) (hS : A.Values SecretValue.Fits {v | v ∈ S})
    (hC : CoversKey pk (fun I => key.toZ • I) D K) (hV : CoversValues ⟨⟨key, zeros 32⟩, pk⟩ D S) :
    let ε := chance fun ω : Arr 32 × (D → Arr 64) => ForgesWithValues (wideTable O D ω.2) ⟨⟨key, ω.1⟩, pk⟩ A
    let named := chance fun ω : (K → Arr 64 × Arr 64) × (D → Arr 64) × (S → Arr 64) =>
        let r := (withoutSecrets pk (fun I => key.toZ • I) A ω.1 ω.2.2).run (table O D ω.2.1)
        ∃ v, .inr v ∈ r.2.2 ∧ v.query ⟨⟨key, zeros 32⟩, pk⟩ ∈ r.2.1
    let loss : ℚ := named + 2 * (q / 2 ^ 256 + m * ((q + m : Nat) * guess + spare))
    loss ≤ ε →
    (ε - loss) * ((ε - loss) / (q + 1 : Nat) - guess) ≤
      chance fun x : ((S → Arr 64) × (K → Arr 64 × Arr 64)) × ((D → Arr 64) × (D → Arr 64)) =>
        pk.point = extractKeyFrom O pk (fun I => key.toZ • I) (A.given (randomValue x.1.1)) x.1.2 x.2.1 x.2.2 •
          (basepoint : P) := by
  intro ε named loss hle
  choose p hp1 hp2 using fun g : S → Arr 64 => one_key_core O pk key hpk (A.given (randomValue g)) q m (hA _ (random_fits g)) hC
  have h0 := owner_forgery_le O pk key hpk A q m hA hS hC hV
  refine fork_coins (fun x : (S → Arr 64) × (K → Arr 64 × Arr 64) => p x.1 x.2) ε loss (q + 1 : Nat) _ (by positivity)
    (by unfold chance; positivity) hle ?_ ?_
  · rw [avg_prod]
    have h1 : (avg fun g : S → Arr 64 => (chance fun ω : Arr 32 × (D → Arr 64) =>
        ForgesWith (table O D ω.2) ⟨⟨key, ω.1⟩, pk⟩ (A.given (randomValue g))) -
          (q / 2 ^ 256 + m * ((q + m : Nat) * guess + spare))) ≤ avg fun g => avg (p g) := avg_mono fun g => hp1 g
    rw [avg_sub_const (Ω := S → Arr 64)] at h1
    simp only [loss, named, ε]
    linarith
  · rw [chance_eq_avg]
    refine le_trans ?_ (le_of_eq (avg_prod _).symm)
    refine avg_mono fun x : (S → Arr 64) × (K → Arr 64 × Arr 64) => ?_
    rw [← chance_eq_avg]
    exact hp2 x.1 x.2

/-! ### What is hashed, and that the hypotheses can be met -/

/-- **C74** the query of a value contains the secret it comes from: the VRF output point, the point(s) shared with the
peer(s), or the secret scalar. -/
theorem value_query_names (kp : Keypair P) (v : SecretValue P) :
    match v with
    | .vrfBytes _ I _ => Names (compress (kp.secret.key.toZ • I)).1 (v.query kp)
    | .sessionKey _ p _ => Names (compress (kp.secret.key.toZ • p)).1 (v.query kp)
    | .twoDhKey _ e s _ => Names (compress (kp.secret.key.toZ • e)).1 (v.query kp) ∧
        Names (compress (kp.secret.key.toZ • s)).1 (v.query kp)
    | .childSecret _ _ => Names kp.secret.key.bytes.1 (v.query kp)
    | .childChain _ _ => Names kp.secret.key.bytes.1 (v.query kp) := by
  have e : ∀ p : P, kp.secret.key.val • p = kp.secret.key.toZ • p := fun p => mulPoint_eq kp.secret.key p
  cases v with
  | vrfBytes ctx I n => exact ⟨b! "vrf-out", by simp [SecretValue.query, vrfResultQuery, pairFrames]⟩
  | sessionKey ctx p n => exact ⟨b! "kex", by simp [SecretValue.query, kexOf, kexQuery, kexFrames, PublicKey.fromPoint, RistrettoBoth.fromPoint, e]⟩
  | twoDhKey t e' s n =>
    exact ⟨⟨b! "epk", by simp [SecretValue.query, twoDhOf, twoDhQuery, kexFrames, PublicKey.fromPoint, RistrettoBoth.fromPoint, e]⟩,
      ⟨b! "epk", by simp [SecretValue.query, twoDhOf, twoDhQuery, kexFrames, PublicKey.fromPoint, RistrettoBoth.fromPoint, e]⟩⟩
  | childSecret cc i => exact ⟨b! "secret-key", by simp [SecretValue.query, hardQuery]⟩
  | childChain cc i => exact ⟨b! "secret-key", by simp [SecretValue.query, hardQuery]⟩

/-- The owner's values have the right length. -/
theorem serve_value_fits (O : Oracles) (kp : Keypair P) (v : SecretValue P) : v.Fits (serveValue O kp v) := by
  rw [serve_value_is_query]
  exact (O.merlin (v.query kp) v.size).2

theorem values_mono (A : Client (KeyRequest P ⊕ SecretValue P) (KeyAnswer P ⊕ Bytes) α) : ∀ {S S' : Finset (SecretValue P)}, S ⊆ S' →
    A.Values SecretValue.Fits {v | v ∈ S} → A.Values SecretValue.Fits {v | v ∈ S'} := by
  induction A with
  | ret a => intro S S' _ h; exact h
  | ask q k ih => intro S S' hs h w; exact ih w hs (h w)
  | request r k ih =>
    intro S S' hs h
    cases r with
    | inl r => exact fun a => ih _ hs (h a)
    | inr v => exact ⟨hs h.1, fun y hy => ih _ hs (h.2 y hy)⟩

theorem exists_owner_limited (qf : α → List MOp) (A : Client (KeyRequest P ⊕ SecretValue P) (KeyAnswer P ⊕ Bytes) α) :
    ∃ (D : Finset (List MOp)) (K : Finset (KeyUse P)) (S : Finset (SecretValue P)) (q m : Nat),
      (∀ val : SecretValue P → Bytes, (∀ v, SecretValue.Fits v (val v)) →
        (A.given val).Limited D KeyRequest.use K (fun a => qf a ∈ D) q m) ∧ A.Values SecretValue.Fits {v | v ∈ S} := by
  classical
  induction A with
  | ret a => exact ⟨{qf a}, ∅, ∅, 0, 0, fun _ _ => by simp [Client.given, Client.Limited], trivial⟩
  | ask l k ih =>
    choose D K S q m h hv using ih
    haveI := Fintype.ofFinite (Arr 64)
    have hsub : ∀ w, D w ⊆ insert l (Finset.univ.biUnion D) := fun w x hx =>
      Finset.mem_insert_of_mem (Finset.mem_biUnion.mpr ⟨w, Finset.mem_univ _, hx⟩)
    refine ⟨insert l (Finset.univ.biUnion D), Finset.univ.biUnion K, Finset.univ.biUnion S, Finset.univ.sup q + 1,
      Finset.univ.sup m, fun val hval => ⟨Finset.mem_insert_self _ _, _, rfl, fun w => ?_⟩, fun w => ?_⟩
    · exact limited_mono KeyRequest.use _ (hsub w) (Finset.subset_biUnion_of_mem K (Finset.mem_univ w)) (fun a ha => hsub w ha)
        (Finset.le_sup (Finset.mem_univ w)) (Finset.le_sup (Finset.mem_univ w)) (h w val hval)
    · exact values_mono _ (Finset.subset_biUnion_of_mem S (Finset.mem_univ w)) (hv w)
  | request r k ih =>
    cases r with
    | inl r =>
      choose D K S q m h hv using fun a => ih (.inl a)
      haveI := finiteAnswer (P := P)
      haveI := Fintype.ofFinite (KeyAnswer P)
      have hsub : ∀ w, D w ⊆ Finset.univ.biUnion D := fun w => Finset.subset_biUnion_of_mem D (Finset.mem_univ w)
      refine ⟨Finset.univ.biUnion D, insert r.use (Finset.univ.biUnion K), Finset.univ.biUnion S, Finset.univ.sup q,
        Finset.univ.sup m + 1, fun val hval => ⟨Finset.mem_insert_self _ _, _, rfl, fun w => ?_⟩, fun w => ?_⟩
      · exact limited_mono KeyRequest.use _ (hsub w)
          (fun x hx => Finset.mem_insert_of_mem (Finset.mem_biUnion.mpr ⟨w, Finset.mem_univ _, hx⟩))
          (fun a ha => hsub w ha) (Finset.le_sup (Finset.mem_univ w)) (Finset.le_sup (Finset.mem_univ w)) (h w val hval)
      · exact values_mono _ (Finset.subset_biUnion_of_mem S (Finset.mem_univ w)) (hv w)
    | inr v =>
      choose D K S q m h hv using fun y : Arr v.size => ih (.inr y.1)
      haveI := finite_arr v.size
      haveI := Fintype.ofFinite (Arr v.size)
      have hsub : ∀ w, D w ⊆ Finset.univ.biUnion D := fun w => Finset.subset_biUnion_of_mem D (Finset.mem_univ w)
      refine ⟨Finset.univ.biUnion D, Finset.univ.biUnion K, insert v (Finset.univ.biUnion S), Finset.univ.sup q,
        Finset.univ.sup m, fun val hval => ?_, Finset.mem_insert_self _ _, fun y hy => ?_⟩
      · exact limited_mono KeyRequest.use _ (hsub ⟨val v, hval v⟩) (Finset.subset_biUnion_of_mem K (Finset.mem_univ _))
          (fun a ha => hsub ⟨val v, hval v⟩ ha) (Finset.le_sup (Finset.mem_univ _)) (Finset.le_sup (Finset.mem_univ _))
          (h ⟨val v, hval v⟩ val hval)
      · exact values_mono _ (fun x hx => Finset.mem_insert_of_mem (Finset.mem_biUnion.mpr ⟨⟨y, hy⟩, Finset.mem_univ _, hx⟩))
          (hv ⟨y, hy⟩)

/-- **C74** every attacker satisfies the hypotheses of `owner_unforgeable` (and those of `secret_values_pseudorandom`), for
suitable finite sets and bounds. -/
theorem every_owner_attacker_is_limited (kp : Keypair P) (pk : PublicKey P) (dh : P → P)
    (A : Client (KeyRequest P ⊕ SecretValue P) (KeyAnswer P ⊕ Bytes) (KeyForgery P)) :
    ∃ (D : Finset (List MOp)) (K : Finset (KeyUse P)) (S : Finset (SecretValue P)) (q m : Nat),
      (∀ val : SecretValue P → Bytes, (∀ v, SecretValue.Fits v (val v)) →
        (A.given val).Limited D KeyRequest.use K (fun c => c.query pk ∈ D) q m) ∧ A.Values SecretValue.Fits {v | v ∈ S} ∧
      CoversKey pk dh D K ∧ CoversValues kp D S := by
  classical
  obtain ⟨D, K, S, q, m, h, hv⟩ := exists_owner_limited (KeyForgery.query pk) A
  haveI := Fintype.ofFinite (Arr 32)
  haveI := Fintype.ofFinite Z
  have hsub : D ⊆ (D ∪ K.biUnion (fun k => Finset.univ.image (fun v : Z => k.query pk dh v 0) ∪
    Finset.univ.image (fun n : Arr 32 => k.nonceQuery pk n))) ∪ S.image (SecretValue.query kp) :=
    Finset.Subset.trans Finset.subset_union_left Finset.subset_union_left
  refine ⟨_, K, S, q, m, fun val hval => limited_mono _ _ hsub (Finset.Subset.refl _) (fun a ha => hsub ha) le_rfl le_rfl (h val hval),
    hv, fun r hr => ⟨fun R => ?_, fun n => ?_⟩, fun v hv' => Finset.mem_union_right _ (Finset.mem_image_of_mem _ hv')⟩
  · refine Finset.mem_union_left _ (Finset.mem_union_right _ (Finset.mem_biUnion.mpr ⟨r, hr, Finset.mem_union_left _ ?_⟩))
    exact Finset.mem_image_of_mem (fun v : Z => r.query pk dh v 0) (Finset.mem_univ R)
  · refine Finset.mem_union_left _ (Finset.mem_union_right _ (Finset.mem_biUnion.mpr ⟨r, hr, Finset.mem_union_right _ ?_⟩))
    exact Finset.mem_image_of_mem (fun n : Arr 32 => r.nonceQuery pk n) (Finset.mem_univ n)

/-- A client that asks for a VRF proof, VRF bytes elsewhere and a child secret, and says whether the latter two agree. -/
def valueProbe (t : Transcript) (sys : Rng) (I J : P) : Client (KeyRequest P ⊕ SecretValue P) (KeyAnswer P ⊕ Bytes) Bool :=
  .request (.inl (.prove t I true sys)) fun _ =>
  .request (.inr (.vrfBytes [] J 32)) fun a =>
  .request (.inr (.childSecret none [])) fun b =>
  .ret (match a, b with | .inr a, .inr b => a == b | _, _ => false)

/-- Non-vacuity: that client is within the bounds with no hash query and one request. -/
example (t : Transcript) (sys : Rng) (I J : P) :
    (∀ val : SecretValue P → Bytes, ((valueProbe t sys I J).given val).Limited ∅ KeyRequest.use
      {KeyRequest.use (.prove t I true sys)} (fun _ => True) 0 1) ∧
    ∃ S : Finset (SecretValue P), S.card ≤ 2 ∧ (valueProbe t sys I J).Values SecretValue.Fits {v | v ∈ S} := by
  classical
  refine ⟨fun val => ⟨Finset.mem_singleton_self _, 0, rfl, fun a => trivial⟩,
    {.vrfBytes [] J 32, .childSecret none []}, Finset.card_le_two, fun a => ⟨by simp, fun y hy => ⟨by simp, fun y hy => trivial⟩⟩⟩

end Schnorrkel.Props
