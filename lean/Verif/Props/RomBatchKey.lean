import Verif.Spec.RomBatchKey
import Verif.Props.RomBatch
import Verif.Props.RomSimple

/-! # C79: batch verification in the presence of the owner of a key (random-oracle model) -/

namespace Schnorrkel.Props
open Spec Schnorrkel
variable {P : Type} [Ristretto P] {D : Finset (List MOp)} {K : Finset (KeyUse P)} {α β : Type}

/-! ### The attacker and the owner together as one algorithm -/

/-- The client with the owner's answers computed from hash values. -/
noncomputable def together (pk : PublicKey P) (x : Z) (n : Arr 32) : Client (KeyRequest P) (KeyAnswer P) α → Algo α
  | .ret a => .ret a
  | .ask q k => .ask q fun w => together pk x n (k w)
  | .request r k => .ask (r.use.nonceQuery pk n) fun v => .ask (r.use.query pk (fun I => x • I) (residue v) 0) fun w =>
      together pk x n (k (r.use.answer pk (fun I => x • I) (residue w * KeyUse.secret x r.use + residue v) (residue w)))

theorem hashWith_residue (O : Oracles) (l : List MOp) : hashWith O l = residue (O.merlin l 64) := by
  unfold hashWith hashToZ residue
  rfl

theorem together_run (O : Oracles) (key : Scalar) (pk : PublicKey P)
    (hpk : pk.point = key.toZ • (basepoint : P)) (n : Arr 32) (A : Client (KeyRequest P) (KeyAnswer P) α) :
    (together pk key.toZ n A).run O = A.play O (serveKey O ⟨⟨key, n⟩, pk⟩) := by
  induction A with
  | ret a => rfl
  | ask q k ih => exact ih _
  | request r k ih =>
    simp only [together, Algo.run, Client.play]
    rw [ih, serveKey_eq O key pk hpk n r]
    unfold realAns
    simp only [hashWith_residue]

theorem together_within (O : Oracles) (x : Z) (pk : PublicKey P) (n : Arr 32) (fin : α → Prop)
    (hC : CoversKey pk (fun I => x • I) D K) (A : Client (KeyRequest P) (KeyAnswer P) α) :
    ∀ {q m}, A.Limited D KeyRequest.use K fin q m → ((together pk x n A).asked O).length ≤ q + 2 * m ∧
      (∀ l ∈ (together pk x n A).asked O, l ∈ D) ∧ fin ((together pk x n A).run O) := by
  induction A with
  | ret a => intro q m h; exact ⟨Nat.zero_le _, by simp [together, Algo.asked], h⟩
  | ask l k ih =>
    rintro q m ⟨hl, q', rfl, h⟩
    obtain ⟨h1, h2, h3⟩ := ih _ (h (O.merlin l 64))
    simp only [together, Algo.asked, Algo.run, List.length_cons, List.forall_mem_cons]
    exact ⟨by omega, ⟨hl, h2⟩, h3⟩
  | request r k ih =>
    rintro q m ⟨hr, m', rfl, h⟩
    simp only [together, Algo.asked, Algo.run, List.length_cons, List.forall_mem_cons]
    obtain ⟨h1, h2, h3⟩ := ih _ (h (r.use.answer pk (fun I => x • I) (residue (O.merlin (r.use.query pk (fun I => x • I)
      (residue (O.merlin (r.use.nonceQuery pk n) 64)) 0) 64) * KeyUse.secret x r.use +
      residue (O.merlin (r.use.nonceQuery pk n) 64)) (residue (O.merlin (r.use.query pk (fun I => x • I)
      (residue (O.merlin (r.use.nonceQuery pk n) 64)) 0) 64))))
    exact ⟨by omega, ⟨(hC _ hr).2 n, (hC _ hr).1 _, h2⟩, h3⟩

/-! ### Passing on the result -/

theorem after_logged_play {Req Ans : Type} (O : Oracles) (serve : Req → Ans) (g : α → β) (A : Client Req Ans α) : ∀ log,
    ((A.after g).logged log).play O serve = (g ((A.logged log).play O serve).1, ((A.logged log).play O serve).2) := by
  induction A with
  | ret a => intro log; rfl
  | ask q k ih => intro log; exact ih _ log
  | request r k ih => intro log; exact ih _ _

theorem logged_twice {Req Ans : Type} (O : Oracles) (serve : Req → Ans) (A : Client Req Ans α) : ∀ log log',
    (((A.logged log).logged log').play O serve).1 = (A.logged log).play O serve ∧
    (log = log' → (((A.logged log).logged log').play O serve).2 = ((A.logged log).play O serve).2) := by
  induction A with
  | ret a => intro log log'; exact ⟨rfl, fun h => h.symm⟩
  | ask q k ih => intro log log'; exact ih _ log log'
  | request r k ih =>
    intro log log'
    obtain ⟨h1, h2⟩ := ih (serve r) ((r, serve r) :: log) ((r, serve r) :: log')
    exact ⟨h1, fun h => h2 (by rw [h])⟩

theorem after_limited {Req Ans κ : Type} (key : Req → κ) (K : Finset κ) (fin : α → Prop) (fin' : β → Prop) (g : α → β)
    (hg : ∀ a, fin a → fin' (g a)) (A : Client Req Ans α) : ∀ {q m}, A.Limited D key K fin q m →
    (A.after g).Limited D key K fin' q m := by
  induction A with
  | ret a => intro q m h; exact hg a h
  | ask l k ih => rintro q m ⟨hl, q', rfl, h⟩; exact ⟨hl, q', rfl, fun w => ih w (h w)⟩
  | request r k ih => rintro q m ⟨hl, m', rfl, h⟩; exact ⟨hl, m', rfl, fun w => ih w (h w)⟩

theorem wideTable_eq_table (O : Oracles) (f : D → Arr 64) (l : List MOp) :
    (wideTable O D f).merlin l 64 = (table O D f).merlin l 64 := by
  by_cases h : l ∈ D
  · rw [wideTable_hit O f l h, table_hit O D f l h]
  · rw [table_miss O D f l 64 fun h' => h h'.1]
    show (if h : l ∈ D ∧ 64 ≤ 64 then _ else _) = _
    rw [dif_neg fun h' => h h'.1]

/-! ### The general argument -/

theorem game_mono {a b n g c : ℚ} (ha : 0 ≤ a) (hab : a ≤ b) (hn : 0 < n) (hc : 0 ≤ c) (h : b * (b / n - g) ≤ c) :
    a * (a / n - g) ≤ c := by
  by_cases h1 : a / n ≤ g
  · exact le_trans (mul_nonpos_of_nonneg_of_nonpos ha (by linarith)) hc
  · refine le_trans ?_ h
    have h2 : a / n ≤ b / n := by gcongr
    exact mul_le_mul hab (by linarith) (by linarith) (by linarith)

theorem logged_fst {Req Ans : Type} (O : Oracles) (serve : Req → Ans) (A : Client Req Ans α) : ∀ log,
    ((A.logged log).play O serve).1 = A.play O serve := by
  induction A with
  | ret a => intro log; rfl
  | ask q k ih => intro log; exact ih _ log
  | request r k ih => intro log; exact ih _ _

/-- If winning means that the pointed-out claim is valid or something bad happened whose probability is at most `c`
whoever plays, winners can be turned into discrete logarithms. -/
theorem checked_late (O : Oracles) (pk : PublicKey P) (key : Scalar)
    (hpk : pk.point = key.toZ • (basepoint : P)) (A : Client (KeyRequest P) (KeyAnswer P) α) (q m : Nat) (fin : α → Prop)
    (hA : A.Limited D KeyRequest.use K fin q m) (hC : CoversKey pk (fun I => key.toZ • I) D K)
    (accuse : α × List (KeyRequest P × KeyAnswer P) → KeyForgery P) (hq : ∀ r, fin r.1 → (accuse r).query pk ∈ D)
    (Win : Oracles → α × List (KeyRequest P × KeyAnswer P) → Arr 32 → Prop) (Bad : Oracles → α → Arr 32 → Prop)
    (hW : ∀ O' r ρ, Win O' r ρ → (accuse r).Valid O' pk r.2 ∨ Bad O' r.1 ρ) (c : ℚ)
    (hB : ∀ B : Algo α, B.WideWithin O D (q + 2 * m) → (∀ f : D → Arr 64, fin (B.run (wideTable O D f))) →
      chance (fun x : (D → Arr 64) × Arr 32 => Bad (wideTable O D x.1) (B.run (wideTable O D x.1)) x.2) ≤ c) :
    let ε := chance fun ω : Arr 32 × ((D → Arr 64) × Arr 32) =>
      Win (wideTable O D ω.2.1) ((A.logged []).play (wideTable O D ω.2.1) (serveKey (wideTable O D ω.2.1) ⟨⟨key, ω.1⟩, pk⟩)) ω.2.2
    let loss : ℚ := c + q / 2 ^ 256 + m * ((q + m : Nat) * guess + spare)
    loss ≤ ε →
    (ε - loss) * ((ε - loss) / (q + 1 : Nat) - guess) ≤
      chance fun x : (K → Arr 64 × Arr 64) × ((D → Arr 64) × (D → Arr 64)) =>
        pk.point = extractKeyFrom O pk (fun I => key.toZ • I) ((A.logged []).after accuse) x.1 x.2.1 x.2.2 • (basepoint : P) := by
  intro ε loss hle
  have hA' : ((A.logged []).after accuse).Limited D KeyRequest.use K (fun c => c.query pk ∈ D) q m :=
    after_limited _ _ _ _ accuse hq _ (logged_limited _ _ A q m [] hA)
  set ε' := chance fun ω : Arr 32 × (D → Arr 64) =>
      let r := (((A.logged []).after accuse).logged []).play (table O D ω.2) (serveKey (table O D ω.2) ⟨⟨key, ω.1⟩, pk⟩)
      r.1.Valid (table O D ω.2) pk r.2 with hε'
  have hmain := one_key_unforgeable O pk key hpk _ q m hA' hC
  simp only at hmain
  rw [← hε'] at hmain
  have hee : ε ≤ ε' + c := by
    refine le_trans (chance_mono (p' := fun ω => KeyForgery.Valid (table O D ω.2.1) pk
        ((((A.logged []).after accuse).logged []).play (table O D ω.2.1) (serveKey (table O D ω.2.1) ⟨⟨key, ω.1⟩, pk⟩)).2
        ((((A.logged []).after accuse).logged []).play (table O D ω.2.1) (serveKey (table O D ω.2.1) ⟨⟨key, ω.1⟩, pk⟩)).1 ∨ Bad (wideTable O D ω.2.1)
        ((together pk key.toZ ω.1 A).run (wideTable O D ω.2.1)) ω.2.2) ?_) (le_trans chance_or (add_le_add ?_ ?_))
    · rintro ⟨n, f, ρ⟩ hw
      have hs : serveKey (wideTable O D f) (⟨⟨key, n⟩, pk⟩ : Keypair P) = serveKey (table O D f) ⟨⟨key, n⟩, pk⟩ :=
        funext fun r => serveKey_congr _ _ key pk hpk n r (wideTable_eq_table O f _) fun v => wideTable_eq_table O f _
      simp only at hw ⊢
      rcases hW _ _ _ hw with h | h
      · left
        rw [after_logged_play]
        simp only
        rw [(logged_twice _ _ A [] []).1, (logged_twice _ _ A [] []).2 rfl]
        rw [hs, play_congr _ _ (wideTable_eq_table O f)] at h
        exact valid_congr (hashWith_congr (wideTable_eq_table O f _)) h
      · right
        rw [together_run _ key pk hpk]
        have e : ((A.logged []).play (wideTable O D f) (serveKey (wideTable O D f) ⟨⟨key, n⟩, pk⟩)).1 =
            A.play (wideTable O D f) (serveKey (wideTable O D f) ⟨⟨key, n⟩, pk⟩) := logged_fst ..
        rw [← e]
        exact h
    · rw [hε', chance_eq_avg, chance_eq_avg, avg_prod, avg_prod]
      refine avg_mono fun n => ?_
      rw [avg_prod]
      refine avg_mono fun f => ?_
      simp only
      exact le_of_eq (avg_const (Ω := Arr 32) (ind _))
    · rw [chance_eq_avg, avg_prod]
      refine avg_le_const fun n => ?_
      rw [← chance_eq_avg]
      exact hB (together pk key.toZ n A) (fun f => ⟨(together_within _ _ _ _ fin hC A hA).1,
        (together_within _ _ _ _ fin hC A hA).2.1⟩) fun f => (together_within _ _ _ _ fin hC A hA).2.2
  set loss' : ℚ := q / 2 ^ 256 + m * ((q + m : Nat) * guess + spare) with hl'
  have hd : ε - loss ≤ ε' - loss' := by simp only [loss, hl']; linarith
  have hd0 : 0 ≤ ε - loss := by linarith
  exact game_mono hd0 hd (by positivity) (by unfold chance; positivity) (hmain (by linarith))
 
/-! ### Batches of signatures -/

theorem accuse_query (pk : PublicKey P) (h0 : challengeOf pk ⟨[]⟩ [] ∈ D)
    (r : SigBatch P × List (KeyRequest P × KeyAnswer P)) (h : r.1.Within D) : (SigBatch.accuse pk r).query pk ∈ D := by
  unfold SigBatch.accuse
  split_ifs with hi
  · obtain ⟨h1, ⟨b, hb⟩, -⟩ := hi.choose_spec
    have := h.1 hi.choose
    rw [h1] at this
    have e := signature_bytes_roundtrip.2.1 _ _ hb
    simp only [KeyForgery.query]
    rw [e.1, (signature_from_bytes_ok_iff b _).mp hb |>.2.1]
    exact this
  · exact h0

theorem accuse_valid (O : Oracles) (pk : PublicKey P) (r : SigBatch P × List (KeyRequest P × KeyAnswer P))
    (hv : ∀ i, verifyWith O (r.1.pk i) (r.1.t i) (r.1.sig i) = .ok ()) (hi : ∃ i, r.1.Unsigned pk r.2 i) :
    (SigBatch.accuse pk r).Valid O pk r.2 := by
  unfold SigBatch.accuse
  rw [dif_pos hi]
  obtain ⟨h1, ⟨b, hb⟩, h2⟩ := hi.choose_spec
  have := hv hi.choose
  rw [h1] at this
  exact ⟨_, signature_bytes_roundtrip.1 _ (signature_bytes_roundtrip.2.1 _ _ hb).2, this, h2⟩

/-- **C79** `verify_batch` protects the owner of a key as verification of single signatures does.  Take any attacker with at
most `q` hash queries and `m` answers of the owner of `pk` (signatures, VRF proofs, certificates), all of its choice and
adaptively, with the owner's system RNG under its control, that then names a batch of signatures under any keys.  If with
probability `ε` — over the owner's nonce seed, the hash function and the 32 bytes the verifier's RNG supplies —
`verify_batch` accepts the batch although some signature in it under `pk` was not given out by the owner for its transcript,
then the procedure `extractKeyFrom` finds the secret key with probability at least `δ(δ/(q+1) − guess)`, where
`δ = ε − 2⁻¹²⁸ − (q+2m)/2²⁵⁶ − q/2²⁵⁶ − m((q+m)·guess + spare)`. -/
theorem verify_batch_unforgeable (O : Oracles) (pk : PublicKey P) (key : Scalar)
    (hpk : pk.point = key.toZ • (basepoint : P)) (A : Client (KeyRequest P) (KeyAnswer P) (SigBatch P)) (q m : Nat)
    (hA : A.Limited D KeyRequest.use K (SigBatch.Within D) q m) (hC : CoversKey pk (fun I => key.toZ • I) D K)
    (h0 : challengeOf pk ⟨[]⟩ [] ∈ D) (rng : Arr 32 → Rng) (hr : ∀ r, ((rng r).fill 32).1 = r) (mode : ZipMode) (dedup : Bool) :
    let ε := chance fun ω : Arr 32 × ((D → Arr 64) × Arr 32) =>
      ForgesBatch (wideTable O D ω.2.1) ⟨⟨key, ω.1⟩, pk⟩ mode dedup (rng ω.2.2) A
    let loss : ℚ := (1 / 2 ^ 128 + (q + 2 * m : Nat) / 2 ^ 256) + q / 2 ^ 256 + m * ((q + m : Nat) * guess + spare)
    loss ≤ ε →
    (ε - loss) * ((ε - loss) / (q + 1 : Nat) - guess) ≤
      chance fun x : (K → Arr 64 × Arr 64) × ((D → Arr 64) × (D → Arr 64)) =>
        pk.point = extractKeyFrom O pk (fun I => key.toZ • I) (pickForgery pk A) x.1 x.2.1 x.2.2 • (basepoint : P) :=
  checked_late O pk key hpk A q m (SigBatch.Within D) hA hC (SigBatch.accuse pk) (accuse_query pk h0)
    (fun O' r ρ => (∀ i, (r.1.pk i).WF) ∧ r.1.accepted O' mode dedup (rng ρ) ∧ ∃ i, r.1.Unsigned pk r.2 i)
    (fun O' c ρ => (∀ i, (c.pk i).WF) ∧ c.accepted O' mode dedup (rng ρ) ∧ ∃ i, verifyWith O' (c.pk i) (c.t i) (c.sig i) ≠ .ok ())
    (fun O' r ρ h => by
      by_cases hv : ∀ i, verifyWith O' (r.1.pk i) (r.1.t i) (r.1.sig i) = .ok ()
      · exact .inl (accuse_valid O' pk r hv h.2.2)
      · exact .inr ⟨h.1, h.2.1, not_forall.mp hv⟩)
    (1 / 2 ^ 128 + (q + 2 * m : Nat) / 2 ^ 256)
    (fun B hB hf => verify_batch_sound_random_oracle O B D (q + 2 * m) hB (fun f r i => (hf f).2 _ r i) rng hr mode dedup)

/-! ### Every attacker is covered -/

theorem exists_limited_set {Req Ans κ : Type} [Finite Ans] (key : Req → κ) (qf : α → Set (List MOp)) (hf : ∀ a, (qf a).Finite)
    (A : Client Req Ans α) : ∃ D K q m, A.Limited D key K (fun a => ∀ l ∈ qf a, l ∈ D) q m := by
  classical
  induction A with
  | ret a => exact ⟨(hf a).toFinset, ∅, 0, 0, by simp [Client.Limited]⟩
  | ask l k ih =>
    choose D K q m h using ih
    haveI := Fintype.ofFinite (Arr 64)
    have hsub : ∀ w, D w ⊆ insert l (Finset.univ.biUnion D) := fun w x hx =>
      Finset.mem_insert_of_mem (Finset.mem_biUnion.mpr ⟨w, Finset.mem_univ _, hx⟩)
    refine ⟨insert l (Finset.univ.biUnion D), Finset.univ.biUnion K, Finset.univ.sup q + 1, Finset.univ.sup m,
      Finset.mem_insert_self _ _, _, rfl, fun w => ?_⟩
    exact limited_mono key _ (hsub w) (Finset.subset_biUnion_of_mem K (Finset.mem_univ w)) (fun a ha l hl => hsub w (ha l hl))
      (Finset.le_sup (Finset.mem_univ w)) (Finset.le_sup (Finset.mem_univ w)) (h w)
  | request r k ih =>
    choose D K q m h using ih
    haveI := Fintype.ofFinite Ans
    have hsub : ∀ w, D w ⊆ Finset.univ.biUnion D := fun w => Finset.subset_biUnion_of_mem D (Finset.mem_univ w)
    refine ⟨Finset.univ.biUnion D, insert (key r) (Finset.univ.biUnion K), Finset.univ.sup q,
      Finset.univ.sup m + 1, Finset.mem_insert_self _ _, _, rfl, fun w => ?_⟩
    exact limited_mono key _ (hsub w)
      (fun x hx => Finset.mem_insert_of_mem (Finset.mem_biUnion.mpr ⟨w, Finset.mem_univ _, hx⟩))
      (fun a ha l hl => hsub w (ha l hl)) (Finset.le_sup (Finset.mem_univ w)) (Finset.le_sup (Finset.mem_univ w)) (h w)

/-- Any finite set of queries can be completed by those the owner makes. -/
theorem exists_covering (pk : PublicKey P) (dh : P → P) (D₀ : Finset (List MOp)) (K : Finset (KeyUse P)) :
    ∃ D, D₀ ⊆ D ∧ CoversKey pk dh D K := by
  classical
  haveI := Fintype.ofFinite (Arr 32)
  haveI := Fintype.ofFinite Z
  refine ⟨D₀ ∪ K.biUnion (fun k => Finset.univ.image (fun v : Z => k.query pk dh v 0) ∪
    Finset.univ.image (fun n : Arr 32 => k.nonceQuery pk n)), Finset.subset_union_left, fun r hr => ⟨fun R => ?_, fun n => ?_⟩⟩
  · refine Finset.mem_union_right _ (Finset.mem_biUnion.mpr ⟨r, hr, Finset.mem_union_left _ ?_⟩)
    exact Finset.mem_image_of_mem (fun v : Z => r.query pk dh v 0) (Finset.mem_univ R)
  · refine Finset.mem_union_right _ (Finset.mem_biUnion.mpr ⟨r, hr, Finset.mem_union_right _ ?_⟩)
    exact Finset.mem_image_of_mem (fun n : Arr 32 => r.nonceQuery pk n) (Finset.mem_univ n)

theorem within_finite (c : SigBatch P) : (Set.range (fun i => challengeOf (c.pk i) (c.t i) (c.sig i).R.1) ∪
    {l | ∃ O r i, c.coefficientQuery O r i = l}).Finite := by
  refine (Set.finite_range _).union ?_
  haveI := finite_arr 16
  refine Set.Finite.subset (Set.finite_range fun x : (Fin c.n → Arr 16) × Arr 32 × Fin c.n =>
    batchQuery (List.ofFn fun i => (c.pk i).compressed.1) (List.ofFn fun i => (c.sig i).R.1)
        (List.ofFn fun i => (x.1 i).1) x.2.1.1 x.2.2) ?_
  rintro l ⟨O, r, i, rfl⟩
  exact ⟨(fun i => O.merlin (digestQuery (c.t i).log) 16, r, i), rfl⟩

/-- **C79** every attacker on batches satisfies the hypotheses of `verify_batch_unforgeable`, for suitable finite sets and
bounds. -/
theorem every_batch_attacker_is_limited (pk : PublicKey P) (dh : P → P)
    (A : Client (KeyRequest P) (KeyAnswer P) (SigBatch P)) :
    ∃ D K q m, A.Limited D KeyRequest.use K (SigBatch.Within D) q m ∧ CoversKey pk dh D K ∧ challengeOf pk ⟨[]⟩ [] ∈ D := by
  classical
  haveI := finiteAnswer (P := P)
  obtain ⟨D₀, K, q, m, h⟩ := exists_limited_set KeyRequest.use _ within_finite A
  obtain ⟨D, hD, hC⟩ := exists_covering pk dh (insert (challengeOf pk ⟨[]⟩ []) D₀) K
  have hD₀ : D₀ ⊆ D := fun x hx => hD (Finset.mem_insert_of_mem hx)
  refine ⟨D, K, q, m, limited_mono _ A hD₀ (Finset.Subset.refl _) (fun c hc => ⟨fun i => hD₀ (hc _ (.inl ⟨i, rfl⟩)),
    fun O r i => hD₀ (hc _ (.inr ⟨O, r, i, rfl⟩))⟩) le_rfl le_rfl h, hC, hD (Finset.mem_insert_self _ _)⟩

/-- A batch of two. -/
def pairBatch (pk : PublicKey P) (t t' : Transcript) (σ σ' : Signature) : SigBatch P :=
  ⟨2, ![t, t'], ![σ, σ'], fun _ => pk⟩

/-- A signature with nonce 1 made with the secret key. -/
def ownSignature (P : Type) [Ristretto P] (x w : Z) : Signature := ⟨compress (basepoint : P), Scalar.ofZ (w * x + 1)⟩

/-- An attacker who knows the secret key: asks for a signature on `t`, then makes one with nonce 1 on `t'`, and names the
batch of both. -/
def batchInsider (pk : PublicKey P) (x : Z) (t t' : Transcript) (sys : Rng) : Client (KeyRequest P) (KeyAnswer P) (SigBatch P) :=
  .request (.sign t sys) fun a =>
  .ask (challengeOf pk t' (compress (basepoint : P)).1) fun w =>
  .ret (pairBatch pk t t' (match a with | .signature σ => σ | _ => ownSignature P x (residue w)) (ownSignature P x (residue w)))

theorem pairBatch_accepted (O : Oracles) (pk : PublicKey P) (hw : pk.WF) (t t' : Transcript) (σ σ' : Signature)
    (h : verifyWith O pk t σ = .ok ()) (h' : verifyWith O pk t' σ' = .ok ()) (mode : ZipMode) (dedup : Bool) (rng : Rng) :
    (pairBatch pk t t' σ σ').accepted O mode dedup rng := by
  letI := O
  unfold SigBatch.accepted verifyBatchWith
  refine (verify_batch_complete mode (pairBatch pk t t' σ σ').t _ _ (fun i => hw) ?_ dedup _).1
  have key : ∀ i : Fin 2, (PublicKey.verify pk (![t, t'] i) (![σ, σ'] i)).1 = .ok () := fun i => match i with
    | 0 => h
    | 1 => h'
  exact key

theorem pairBatch_unsigned (pk : PublicKey P) (t t' : Transcript) (σ σ' : Signature) (log : List (KeyRequest P × KeyAnswer P))
    (h : σ'.s.Canonical) (hl : ∀ sys a, (KeyRequest.sign t' sys, a) ∉ log) :
    ∃ i, (pairBatch pk t t' σ σ').Unsigned pk log i :=
  ⟨(1 : Fin 2), rfl, ⟨_, signature_bytes_roundtrip.1 σ' h⟩, fun sys => hl sys _⟩

theorem batchInsider_forges (O : Oracles) (pk : PublicKey P) (hw : pk.WF) (key : Scalar)
    (hpk : pk.point = key.toZ • (basepoint : P)) (t t' : Transcript) (ht : t ≠ t') (sys : Rng) (n : Arr 32)
    (rng : Rng) (mode : ZipMode) (dedup : Bool) :
    ForgesBatch O ⟨⟨key, n⟩, pk⟩ mode dedup rng (batchInsider pk key.toZ t t' sys) := by
  letI := O
  have e : pk = (⟨key, n⟩ : SecretKey).toPublic := by
    obtain ⟨c, p⟩ := pk
    have h1 : compress p = c := hw
    simp only at hpk
    subst h1
    subst hpk
    show _ = RistrettoBoth.fromPoint (key •. (basepoint : P))
    rw [mulPoint_eq]
    rfl
  have hs : verifyWith O pk t (signWith O ⟨key, n⟩ t pk sys) = .ok () := by
    have := merlin_sign_then_verify (P := P) ⟨key, n⟩ t sys
    rw [← e] at this
    exact this
  have ho : verifyWith O pk t' (ownSignature P key.toZ (residue (O.merlin (challengeOf pk t' (compress (basepoint : P)).1) 64))) =
      .ok () := by
    rw [verifyWith_iff, ← hashWith_residue]
    simp only [Scalar.toZ_ofZ, ownSignature]
    unfold challengeOf
    rw [hpk]
    refine congrArg compress ?_
    module
  have hres : ((batchInsider pk key.toZ t t' sys).logged []).play O (serveKey O ⟨⟨key, n⟩, pk⟩) =
      (pairBatch pk t t' (signWith O ⟨key, n⟩ t pk sys)
        (ownSignature P key.toZ (residue (O.merlin (challengeOf pk t' (compress (basepoint : P)).1) 64))),
        [(.sign t sys, .signature (signWith O ⟨key, n⟩ t pk sys))]) := by
    simp only [batchInsider, Client.logged, Client.play, serveKey]
  unfold ForgesBatch
  simp only
  rw [hres]
  refine ⟨fun i => hw, pairBatch_accepted O pk hw _ _ _ _ hs ho _ _ _, pairBatch_unsigned pk _ _ _ _ _ (Scalar.canonical_ofZ _) ?_⟩
  intro sys' a hm
  simp only [List.mem_singleton, Prod.mk.injEq, KeyRequest.sign.injEq] at hm
  exact ht hm.1.1.symm

/-- Non-vacuity: that attacker succeeds with probability one, so `ε` can be as large as possible. -/
example (O : Oracles) (pk : PublicKey P) (hw : pk.WF) (key : Scalar) (hk : key.Canonical)
    (hpk : pk.point = key.toZ • (basepoint : P)) (t t' : Transcript) (ht : t ≠ t') (sys : Rng) (D : Finset (List MOp))
    (rng : Arr 32 → Rng) (mode : ZipMode) (dedup : Bool) :
    (chance fun ω : Arr 32 × ((D → Arr 64) × Arr 32) =>
      ForgesBatch (wideTable O D ω.2.1) ⟨⟨key, ω.1⟩, pk⟩ mode dedup (rng ω.2.2) (batchInsider pk key.toZ t t' sys)) = 1 := by
  have h : ∀ ω : Arr 32 × ((D → Arr 64) × Arr 32),
      ForgesBatch (wideTable O D ω.2.1) ⟨⟨key, ω.1⟩, pk⟩ mode dedup (rng ω.2.2) (batchInsider pk key.toZ t t' sys) :=
    fun ω => batchInsider_forges _ pk hw key hpk t t' ht sys _ _ _ _
  rw [chance_eq_avg]
  simp only [ind, h, if_true]
  exact avg_const 1

end Schnorrkel.Props
