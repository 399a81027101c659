import Verif.Spec.RomSimple
import Verif.Props.RomMiniEd

/-! # C77: signatures on messages cannot be forged (random-oracle model) -/

namespace Schnorrkel.Props
open Spec Schnorrkel
variable {P : Type} [Ristretto P] {D : Finset (List MOp)} {K : Finset (KeyUse P)}

/-! ### From bytes to transcripts -/

/-- All the answers in the log are the service's. -/
theorem logged_answers {Req Ans α : Type} (O : Oracles) (serve : Req → Ans) (A : Client Req Ans α) : ∀ log,
    (∀ x ∈ log, x.2 = serve x.1) → ∀ x ∈ ((A.logged log).play O serve).2, x.2 = serve x.1 := by
  induction A with
  | ret a => intro log h; exact h
  | ask q k ih => intro log h; exact ih _ log h
  | request r k ih =>
    intro log h
    refine ih _ _ fun x hx => ?_
    rcases List.mem_cons.mp hx with rfl | hx
    · rfl
    · exact h x hx

/-- The claim in terms of transcripts. -/
def keyClaim (c : SimpleForgery) : KeyForgery P := .signature ((SigningContext.new c.context).bytes c.message) c.signature

/-- The log in terms of transcripts. -/
def keyLog (O : Oracles) (kp : Keypair P) (x : SignRequest × Arr 64) : KeyRequest P × KeyAnswer P :=
  (.sign ((SigningContext.new x.1.context).bytes x.1.message) x.1.rng,
    .signature (signWith O kp.secret ((SigningContext.new x.1.context).bytes x.1.message) kp.pub x.1.rng))

/-- `sign_simple` and `to_bytes`, when the hash functions are `O`. -/
def signBytes (O : Oracles) (kp : Keypair P) (r : SignRequest) : Arr 64 :=
  letI := O
  (kp.signSimple r.context r.message r.rng).toBytes

theorem asKey_play (O : Oracles) (kp : Keypair P) (A : Client SignRequest (Arr 64) SimpleForgery) : ∀ log,
    ((asKeyAttacker A).logged (log.map (keyLog O kp))).play O (serveKey O kp) =
      (keyClaim ((A.logged log).play O (signBytes O kp)).1, ((A.logged log).play O (signBytes O kp)).2.map (keyLog O kp)) := by
  induction A with
  | ret a => intro log; rfl
  | ask q k ih => intro log; exact ih _ log
  | request r k ih =>
    intro log
    have e := ih (signBytes O kp r) ((r, signBytes O kp r) :: log)
    simp only [asKeyAttacker, Client.logged, Client.play]
    exact e

/-- A forgery of bytes is a forgery for the transcript-level API. -/
theorem simple_to_key (O : Oracles) (kp : Keypair P) (hwf : kp.pub = RistrettoBoth.fromPoint kp.pub.point)
    (A : Client SignRequest (Arr 64) SimpleForgery) :
    letI := O
    let result := (A.logged []).play O (signBytes O kp)
    let c := result.1
    ((∃ (pk : PublicKey P) (σ : Signature), PublicKey.fromBytes (PublicKey.toBytes kp.pub).1 = .ok pk ∧
      Signature.fromBytes c.signature = .ok σ ∧ PublicKey.verifySimple pk c.context c.message σ = .ok ()) ∧
    ∀ rng b, (⟨c.context, c.message, rng⟩, b) ∈ result.2 → b.1 ≠ c.signature) →
    ForgesWith O kp (asKeyAttacker A) := by
  letI := O
  intro result c
  rintro ⟨⟨pk, σ, h1, h2, h3⟩, h4⟩
  have hp : pk = kp.pub := by
    have h5 : PublicKey.fromBytes (PublicKey.toBytes kp.pub).1 = .ok kp.pub :=
      ((publickey_from_bytes_table _).1 _).mpr ⟨rfl, congrArg (fun p : RistrettoBoth P => p.compressed.1) hwf.symm⟩
    rw [h1] at h5
    cases h5
    rfl
  unfold ForgesWith
  simp only
  have e := asKey_play O kp A []
  rw [List.map_nil] at e
  rw [e]
  refine ⟨σ, h2, ?_, fun sys hm => ?_⟩
  · rw [← hp]; exact h3
  · obtain ⟨x, hx, hx'⟩ := List.mem_map.mp hm
    have ha := logged_answers O (signBytes O kp) A [] (by simp) x hx
    obtain ⟨⟨ctx, msg, rng⟩, b⟩ := x
    simp only [keyLog, Prod.mk.injEq, KeyRequest.sign.injEq, KeyAnswer.signature.injEq] at hx'
    obtain ⟨⟨ht, -⟩, hσ⟩ := hx'
    simp only [SigningContext.bytes, SigningContext.new, Transcript.appendMessage, Transcript.new, Transcript.mk.injEq] at ht
    have hc : ctx = c.context ∧ msg = c.message := by
      simpa using ht
    obtain ⟨rfl, rfl⟩ := hc
    refine h4 rng b hx ?_
    have hb := (signature_bytes_roundtrip.2.1 _ _ h2).1
    rw [← hb, ← hσ, show b = signBytes O kp ⟨c.context, c.message, rng⟩ from ha]
    rfl

/-! ### Whether a forgery succeeds depends on few hash values -/

/-- The attacker, given the public key, wins against the owner of the secret key `sk`. -/
def ForgesKey (H : Oracles) (B : PublicKey P → Client (KeyRequest P) (KeyAnswer P) (KeyForgery P)) (sk : SecretKey) : Prop :=
  ForgesWith H sk.toKeypair (B sk.toPublic)

theorem forgesKey_congr {H H' : Oracles} (h : ∀ l, H.merlin l 64 = H'.merlin l 64)
    (B : PublicKey P → Client (KeyRequest P) (KeyAnswer P) (KeyForgery P)) (sk : SecretKey) (hk : sk.key.Canonical) :
    ForgesKey H B sk ↔ ForgesKey H' B sk := by
  obtain ⟨key, n⟩ := sk
  have hpk : (SecretKey.toPublic ⟨key, n⟩ : PublicKey P).point = key.toZ • basepoint := mulPoint_eq ..
  have e1 : serveKey H (SecretKey.toKeypair ⟨key, n⟩ : Keypair P) = serveKey H' (SecretKey.toKeypair ⟨key, n⟩ : Keypair P) :=
    funext fun r => serveKey_congr H H' key _ hpk n r (h _) fun v => h _
  unfold ForgesKey ForgesWith
  simp only
  rw [e1, play_congr H H' h]
  exact ⟨fun hv => valid_congr (hashWith_congr (h _)) hv, fun hv => valid_congr (hashWith_congr (h _).symm) hv⟩

theorem forgesKey_except {m : Arr 32} {H H' : Oracles} (h : ExceptExpand m H H')
    (B : PublicKey P → Client (KeyRequest P) (KeyAnswer P) (KeyForgery P)) (sk : SecretKey) (hk : sk.key.Canonical)
    (hA : ∀ l ∈ (B sk.toPublic).asked H' (serveKey H' sk.toKeypair), ∀ b, expandKq m b ≠ l) :
    ForgesKey H B sk ↔ ForgesKey H' B sk := by
  obtain ⟨key, n⟩ := sk
  have hpk : (SecretKey.toPublic ⟨key, n⟩ : PublicKey P).point = key.toZ • basepoint := mulPoint_eq ..
  have e1 : serveKey H (SecretKey.toKeypair ⟨key, n⟩ : Keypair P) = serveKey H' (SecretKey.toKeypair ⟨key, n⟩ : Keypair P) :=
    funext fun r => serveKey_congr H H' key _ hpk n r (h _ _ fun b => nonce_not_expand _ n r.use m b)
      fun v => h _ _ fun b => use_not_expand _ _ r.use v 0 m b
  unfold ForgesKey ForgesWith
  simp only
  rw [e1, play_except h _ _ (by rw [asked_logged]; exact hA)]
  exact ⟨fun hv => valid_congr (hashWith_congr (h _ _ fun b => claim_not_expand _ _ m b)) hv,
    fun hv => valid_congr (hashWith_congr (h _ _ fun b => claim_not_expand _ _ m b).symm) hv⟩

/-! ### From expanded keys to random keys -/

/-- The attackers considered here. -/
abbrev KeyFamily (P : Type) : Type :=
  (Arr 32 → Arr 64) → PublicKey P → Client (KeyRequest P) (KeyAnswer P) (KeyForgery P)

theorem publicOf_residue (g : Bool → Arr 64) : ((randomSecretKey g).toPublic : PublicKey P) = publicOf (residue (g false)) := by
  show RistrettoBoth.fromPoint (Scalar.ofZ (residue (g false)) •. (basepoint : P)) = _
  rw [mulPoint_eq, Scalar.toZ_ofZ]
  rfl

theorem uniform_like_random (O : Oracles) (hD : CoversExpand D) (B : PublicKey P → Client (KeyRequest P) (KeyAnswer P) (KeyForgery P))
    (q m : Nat) (fin : Z → KeyForgery P → Prop) (hB : ∀ x : Z, (B (publicOf x)).Limited D KeyRequest.use K (fin x) q m) :
    chance (fun ω : Arr 32 × (D → Arr 64) => ForgesKey (wideTable O D ω.2) B (expandedKey (wideTable O D ω.2) ω.1)) ≤
      (avg fun w : Arr 64 => chance fun y : Arr 32 × (D → Arr 64) =>
        ForgesKey (wideTable O D y.2) B ⟨Scalar.ofZ (residue w), y.1⟩) + q / 2 ^ 256 := by
  have s1 := expansion_diff hD (fun k f => ForgesKey (wideTable O D f) B (expandedKey (wideTable O D f) k))
    (fun f g => ForgesKey (wideTable O D f) B (randomSecretKey g))
    (fun f g => (B (randomSecretKey g).toPublic).asked (wideTable O D f) (serveKey (wideTable O D f) (randomSecretKey g).toKeypair))
    q (fun f g => by rw [publicOf_residue]; exact limited_asked_length _ _ _ _ _ _ (hB _)) (fun k f g hl => by
      rw [expandedKey_keyed O hD]
      exact forgesKey_except (m := k) (fun l n hn => wideTable_withKeyed O (expandKq k) f g l n hn) B _ (Scalar.canonical_ofZ _) hl)
  rw [random_wallet_avg (fun f sk => ForgesKey (wideTable O D f) B sk)] at s1
  have s1 := (abs_le.mp s1).2
  linarith

/-- The same on average over SHA-512. -/
theorem uniform_bound (O : Oracles) (hD : CoversExpand D) (B : KeyFamily P)
    (q m : Nat) (fin : Z → KeyForgery P → Prop) (hB : ∀ h (x : Z), (B h (publicOf x)).Limited D KeyRequest.use K (fin x) q m) :
    chance (fun ω : Arr 32 × (Arr 32 → Arr 64) × (D → Arr 64) =>
        ForgesKey (wideTable O D ω.2.2) (B ω.2.1) (expandedKey (wideTable O D ω.2.2) ω.1)) ≤
      (avg fun ω : Arr 64 × (Arr 32 → Arr 64) => chance fun y : Arr 32 × (D → Arr 64) =>
        ForgesKey (wideTable O D y.2) (B ω.2) ⟨Scalar.ofZ (residue ω.1), y.1⟩) + q / 2 ^ 256 := by
  have e1 : chance (fun ω : Arr 32 × (Arr 32 → Arr 64) × (D → Arr 64) =>
        ForgesKey (wideTable O D ω.2.2) (B ω.2.1) (expandedKey (wideTable O D ω.2.2) ω.1)) =
      avg fun h : Arr 32 → Arr 64 => chance fun ω : Arr 32 × (D → Arr 64) =>
        ForgesKey (wideTable O D ω.2) (B h) (expandedKey (wideTable O D ω.2) ω.1) := by
    rw [chance_eq_avg, avg_prod]
    simp only [avg_prod]
    rw [avg_comm]
    refine avg_congr fun h => ?_
    rw [chance_eq_avg, avg_prod]
  have e2 : (avg fun ω : Arr 64 × (Arr 32 → Arr 64) => chance fun y : Arr 32 × (D → Arr 64) =>
        ForgesKey (wideTable O D y.2) (B ω.2) ⟨Scalar.ofZ (residue ω.1), y.1⟩) =
      avg fun h : Arr 32 → Arr 64 => avg fun w : Arr 64 => chance fun y : Arr 32 × (D → Arr 64) =>
        ForgesKey (wideTable O D y.2) (B h) ⟨Scalar.ofZ (residue w), y.1⟩ := by
    rw [avg_prod, avg_comm]
  rw [e1, e2, ← avg_const (Ω := Arr 32 → Arr 64) ((q : ℚ) / 2 ^ 256), ← avg_add]
  exact avg_mono fun h => uniform_like_random O hD (B h) q m fin (hB h)

/-- The attacker's runs of SHA-512. -/
def keyShaAsked (H : Oracles) (A : Bytes → SimpleAttacker) (h : Arr 32 → Arr 64) (kp : Keypair P) : List (Arr 32) :=
  secondAsked H (signBytes H kp) h (A (PublicKey.toBytes kp.pub).1)

/-- The attacker on the transcript-level API. -/
def keyFamily (A : Bytes → SimpleAttacker) : KeyFamily P := fun h pk => asKeyAttacker ((A (PublicKey.toBytes pk).1).given h)

theorem keyFamily_given (H : Oracles) (A : Bytes → SimpleAttacker) (h : Arr 32 → Arr 64) (m : Arr 32) (w : Arr 64) (sk : SecretKey)
    (hm : m ∉ keyShaAsked (P := P) H A h sk.toKeypair) :
    ForgesKey (P := P) H (keyFamily A fun y => if y = m then w else h y) sk ↔ ForgesKey (P := P) H (keyFamily A h) sk := by
  have e := given_logged_congr H (signBytes (P := P) H sk.toKeypair) h m w (A (PublicKey.toBytes (sk.toKeypair : Keypair P).pub).1) [] hm
  rw [show Function.update h m w = fun y => if y = m then w else h y from funext fun y => Function.update_apply h m w y] at e
  have e1 := asKey_play H (sk.toKeypair : Keypair P) ((A (PublicKey.toBytes (sk.toPublic : PublicKey P)).1).given h) []
  have e2 := asKey_play H (sk.toKeypair : Keypair P) ((A (PublicKey.toBytes (sk.toPublic : PublicKey P)).1).given
    fun y => if y = m then w else h y) []
  rw [List.map_nil] at e1 e2
  unfold ForgesKey ForgesWith keyFamily
  simp only
  rw [e1, e2]
  have e' : (sk.toKeypair : Keypair P).pub = sk.toPublic := rfl
  rw [e'] at e
  rw [e]

theorem counts_second (A : SimpleAttacker) : ∀ {q m s}, A.Counts q m s → A.Second s := by
  induction A with
  | ret a => intros; trivial
  | ask l k ih => rintro q m s ⟨q', rfl, h⟩ w; exact ih w (h w)
  | request r k ih =>
    cases r with
    | inl r => rintro q m s ⟨m', rfl, h⟩ w; exact ih w (h w)
    | inr v => rintro q m s ⟨s', rfl, h⟩; exact ⟨s', rfl, fun w => ih w (h w)⟩

theorem ed_bound (O : Oracles) (A : Bytes → SimpleAttacker) (s : Nat) (hA : ∀ b, (A b).Second s) :
    chance (fun ω : Arr 32 × (Arr 32 → Arr 64) × (D → Arr 64) =>
        ForgesKey (P := P) (wideTable O D ω.2.2) (keyFamily A ω.2.1) (expandedEdKey (withSha (wideTable O D ω.2.2) ω.2.1) ω.1)) ≤
      (avg fun ω : Arr 64 × (Arr 32 → Arr 64) => chance fun y : Arr 32 × (D → Arr 64) =>
        ForgesKey (P := P) (wideTable O D y.2) (keyFamily A ω.2) ⟨Scalar.ofZ (secretOf .ed25519 ω.1), y.1⟩) + s / 2 ^ 256 := by
  haveI : Nonempty (D → Arr 64) := ⟨fun _ => zeros 64⟩
  have s1 := sha_diff (Ω := D → Arr 64)
    (fun m h f => ForgesKey (P := P) (wideTable O D f) (keyFamily A h) (expandedEdKey (withSha (wideTable O D f) h) m))
    (fun w h f => ForgesKey (P := P) (wideTable O D f) (keyFamily A h) (clampedKey w))
    (fun w h f => keyShaAsked (P := P) (wideTable O D f) A h (clampedKey w).toKeypair) s
    (fun w h f => secondAsked_length _ _ _ _ (hA _)) (fun m w h f hm => by
      rw [expandedEdKey_eq, if_pos rfl]
      exact keyFamily_given _ A h m w (clampedKey w) hm)
  have s1 := (abs_le.mp s1).2
  have e : chance (fun ω : Arr 64 × (Arr 32 → Arr 64) × (D → Arr 64) =>
        ForgesKey (P := P) (wideTable O D ω.2.2) (keyFamily A ω.2.1) (clampedKey ω.1)) =
      avg fun ω : Arr 64 × (Arr 32 → Arr 64) => chance fun y : Arr 32 × (D → Arr 64) =>
        ForgesKey (P := P) (wideTable O D y.2) (keyFamily A ω.2) ⟨Scalar.ofZ (secretOf .ed25519 ω.1), y.1⟩ := by
    rw [chance_eq_avg, avg_prod, ← avg_equiv halves.symm, avg_prod]
    simp only [avg_prod, clampedKey, Equiv.apply_symm_apply]
    have e1 : ∀ w : Arr 64, secretOf .ed25519 w = clampedScalar (seed32 w) := fun w => rfl
    simp only [e1, chance_eq_avg, avg_prod]
    rw [avg_seed32 fun a => avg fun h : Arr 32 → Arr 64 => avg fun n : Arr 32 => avg fun f : D → Arr 64 =>
      ind (ForgesKey (P := P) (wideTable O D f) (keyFamily A h) ⟨Scalar.ofZ (clampedScalar a), n⟩)]
    refine avg_congr fun a => ?_
    rw [avg_comm]
  rw [e] at s1
  linarith

/-! ### Random keys -/

theorem forgesKey_at (O : Oracles) (f : D → Arr 64) (x : Z) (n : Arr 32)
    (B : PublicKey P → Client (KeyRequest P) (KeyAnswer P) (KeyForgery P)) :
    ForgesKey (wideTable O D f) B ⟨Scalar.ofZ x, n⟩ ↔
      ForgesWith (table O D f) ⟨⟨Scalar.ofZ x, n⟩, publicOf x⟩ (B (publicOf x)) := by
  have hpk : (SecretKey.toPublic ⟨Scalar.ofZ x, n⟩ : PublicKey P) = publicOf x := by
    show RistrettoBoth.fromPoint (Scalar.ofZ x •. (basepoint : P)) = _
    rw [mulPoint_eq, Scalar.toZ_ofZ]
    rfl
  have e : ((⟨Scalar.ofZ x, n⟩ : SecretKey).toKeypair : Keypair P) = ⟨⟨Scalar.ofZ x, n⟩, publicOf x⟩ :=
    congrArg (Keypair.mk _) hpk
  rw [forgesKey_congr (H := wideTable O D f) (H' := table O D f) (fun l => wide_table_64 O f l) B
    ⟨Scalar.ofZ x, n⟩ (Scalar.canonical_ofZ x)]
  unfold ForgesKey
  rw [e, hpk]

theorem one_key_random (O : Oracles) (x : Z) (B : PublicKey P → Client (KeyRequest P) (KeyAnswer P) (KeyForgery P)) (q m : Nat)
    (hB : (B (publicOf x)).Limited D KeyRequest.use K (fun c => c.query (publicOf x) ∈ D) q m)
    (hC : CoversKey (publicOf x : PublicKey P) (fun I => x • I) D K) :
    ∃ p : (K → Arr 64 × Arr 64) → ℚ,
      (chance fun ω : Arr 32 × (D → Arr 64) => ForgesKey (wideTable O D ω.2) B ⟨Scalar.ofZ x, ω.1⟩) -
        (q / 2 ^ 256 + m * ((q + m : Nat) * guess + spare)) ≤ avg p ∧
      ∀ C, p C ^ 2 / (q + 1 : Nat) - guess * p C ≤ chance fun y : (D → Arr 64) × (D → Arr 64) =>
        extractKeyFrom O (publicOf x : PublicKey P) (fun I => x • I) (B (publicOf x)) C y.1 y.2 = x := by
  have hc := one_key_core O (publicOf x : PublicKey P) (Scalar.ofZ x)
      (by rw [Scalar.toZ_ofZ]; rfl) (B (publicOf x)) q m hB
  rw [Scalar.toZ_ofZ] at hc
  obtain ⟨p, h1, h2⟩ := hc hC
  refine ⟨p, ?_, fun C => ?_⟩
  · simp only [forgesKey_at]
    exact h1
  · refine le_trans (h2 C) (chance_mono fun y hy => ?_)
    exact (smul_basepoint_inj.mp hy).symm

/-- An owner with a random key (`x ω`, any distribution) and an attacker that depends on `ω`. -/
theorem key_average {Ω : Type} [Finite Ω] [Nonempty Ω] (O : Oracles) (x : Ω → Z)
    (B : Ω → PublicKey P → Client (KeyRequest P) (KeyAnswer P) (KeyForgery P)) (q m : Nat)
    (hB : ∀ ω, (B ω (publicOf (x ω))).Limited D KeyRequest.use K (fun c => c.query (publicOf (x ω)) ∈ D) q m)
    (hC : ∀ ω, CoversKey (publicOf (x ω) : PublicKey P) (fun I => x ω • I) D K) (ε loss : ℚ)
    (hε : ε - (loss - (q / 2 ^ 256 + m * ((q + m : Nat) * guess + spare))) ≤ avg fun ω =>
      chance fun y : Arr 32 × (D → Arr 64) => ForgesKey (wideTable O D y.2) (B ω) ⟨Scalar.ofZ (x ω), y.1⟩)
    (hle : loss ≤ ε) :
    (ε - loss) * ((ε - loss) / (q + 1 : Nat) - guess) ≤
      chance fun y : Ω × (K → Arr 64 × Arr 64) × (D → Arr 64) × (D → Arr 64) =>
        extractKeyFrom O (publicOf (x y.1) : PublicKey P) (fun I => x y.1 • I) (B y.1 (publicOf (x y.1))) y.2.1 y.2.2.1 y.2.2.2 =
          x y.1 := by
  have hcore : ∀ w : Ω, ∃ p : (K → Arr 64 × Arr 64) → ℚ,
      (chance fun ω : Arr 32 × (D → Arr 64) => ForgesKey (wideTable O D ω.2) (B w) ⟨Scalar.ofZ (x w), ω.1⟩) -
        (q / 2 ^ 256 + m * ((q + m : Nat) * guess + spare)) ≤ avg p ∧
      ∀ C, p C ^ 2 / (q + 1 : Nat) - guess * p C ≤ chance fun y : (D → Arr 64) × (D → Arr 64) =>
        extractKeyFrom O (publicOf (x w) : PublicKey P) (fun I => x w • I) (B w (publicOf (x w))) C y.1 y.2 = x w := by
    exact fun w => one_key_random O (x w) (B w) q m (hB w) (hC w)
  choose p hp1 hp2 using hcore
  refine fork_coins (Ω := Ω × (K → Arr 64 × Arr 64)) (fun ω => p ω.1 ω.2) ε loss (q + 1 : Nat) _ (by positivity)
    (by unfold chance; positivity) hle ?_ ?_
  · rw [avg_prod]
    have h3 := avg_mono hp1
    have h4 : (avg fun w : Ω => (chance fun ω : Arr 32 × (D → Arr 64) =>
        ForgesKey (wideTable O D ω.2) (B w) ⟨Scalar.ofZ (x w), ω.1⟩) -
        (q / 2 ^ 256 + m * ((q + m : Nat) * guess + spare))) =
      (avg fun w : Ω => chance fun ω : Arr 32 × (D → Arr 64) =>
        ForgesKey (wideTable O D ω.2) (B w) ⟨Scalar.ofZ (x w), ω.1⟩) -
        (q / 2 ^ 256 + m * ((q + m : Nat) * guess + spare)) := by
      simp only [sub_eq_add_neg]
      rw [avg_add, avg_const]
    rw [h4] at h3
    linarith
  · rw [avg_prod]
    refine le_trans (avg_mono fun w => avg_mono fun C => hp2 w C) (le_of_eq ?_)
    rw [chance_eq_avg, avg_prod]
    refine avg_congr fun w => ?_
    rw [avg_prod]
    exact avg_congr fun C => chance_eq_avg _

/-! ### Counting -/

theorem asKey_noVrf (A : Client SignRequest (Arr 64) SimpleForgery) :
    (asKeyAttacker A : Client (KeyRequest P) (KeyAnswer P) (KeyForgery P)).Requests {r | KeyRequest.NoVrf r} := by
  induction A with
  | ret a => exact trivial
  | ask l k ih => exact fun w => ih w
  | request r k ih =>
    simp only [asKeyAttacker, Client.Requests]
    refine ⟨trivial, fun a => ?_⟩
    cases a with
    | signature σ => exact ih _
    | proof _ _ _ => exact trivial
    | cert _ => exact trivial

theorem asKey_counts (h : Arr 32 → Arr 64) (fin : KeyForgery P → Prop) (A : SimpleAttacker) : ∀ {q m s q₀ m₀},
    A.Counts q m s → (asKeyAttacker (A.given h)).Limited D KeyRequest.use K fin q₀ m₀ →
    (asKeyAttacker (A.given h)).Limited D KeyRequest.use K fin q m := by
  induction A with
  | ret a => intro q m s q₀ m₀ _ hl; exact hl
  | ask l k ih =>
    rintro q m s q₀ m₀ ⟨q', rfl, hc⟩ ⟨h1, q₁, rfl, h2⟩
    exact ⟨h1, q', rfl, fun w => ih w (hc w) (h2 w)⟩
  | request r k ih =>
    cases r with
    | inl r =>
      intro q m s q₀ m₀
      simp only [asKeyAttacker, Client.given, Client.Limited]
      rintro ⟨m', rfl, hc⟩ ⟨h1, m₁, rfl, h2⟩
      refine ⟨h1, m', rfl, fun a => ?_⟩
      have h2 := h2 a
      cases a with
      | signature σ => exact ih _ (hc _) h2
      | proof _ _ _ => exact h2
      | cert _ => exact h2
    | inr v =>
      rintro q m s q₀ m₀ ⟨s', rfl, hc⟩ hl
      exact ih _ (hc _) hl

private instance : Finite Z := inferInstanceAs (Finite (ZMod ell))

theorem covers_key_mono {pk : PublicKey P} {dh : P → P} {D' : Finset (List MOp)} (h : CoversKey pk dh D K) (hs : D ⊆ D') :
    CoversKey pk dh D' K := fun k hk => ⟨fun v => hs ((h k hk).1 v), fun n => hs ((h k hk).2 n)⟩

/-- The sets of queries that matter. -/
theorem simple_domain (A : Bytes → SimpleAttacker) (q m s : Nat) (hA : ∀ b, (A b).Counts q m s) :
    ∃ (D₀ : Finset (List MOp)) (K : Finset (KeyUse P)), ∀ D, D₀ ⊆ D → CoversExpand D ∧
      (∀ h (x : Z), (keyFamily A h (publicOf x : PublicKey P)).Limited D KeyRequest.use K (fun c => c.query (publicOf x) ∈ D) q m) ∧
      ∀ x : Z, CoversKey (publicOf x : PublicKey P) (fun I => x • I) D K := by
  classical
  haveI := finiteAnswer (P := P)
  haveI := Fintype.ofFinite (Arr 32)
  haveI := Fintype.ofFinite Z
  haveI := Fintype.ofFinite (Arr 32 → Arr 64)
  choose D1 K1 q1 m1 h1 using fun i : (Arr 32 → Arr 64) × Z => exists_limited KeyRequest.use
    (fun c : KeyForgery P => c.query (publicOf i.2)) (keyFamily A i.1 (publicOf i.2 : PublicKey P))
  let K : Finset (KeyUse P) := Finset.univ.biUnion K1
  let D2 : Z → Finset (List MOp) := fun x => K.biUnion fun k =>
    Finset.univ.image (fun v : Z => k.query (publicOf x) (fun I => x • I) v 0) ∪
      Finset.univ.image (fun n : Arr 32 => k.nonceQuery (publicOf x) n)
  let E : Finset (List MOp) := Finset.univ.image fun y : Arr 32 × Bool => expandKq y.1 y.2
  refine ⟨Finset.univ.biUnion D1 ∪ Finset.univ.biUnion D2 ∪ E, K, fun D hD => ⟨fun m => ?_, fun h x => ?_, fun x k hk => ⟨fun v => ?_, fun n => ?_⟩⟩⟩
  · have : ∀ b, expandKq m b ∈ D := fun b => hD (Finset.mem_union_right _ (Finset.mem_image.mpr ⟨(m, b), Finset.mem_univ _, rfl⟩))
    exact ⟨this false, this true⟩
  · have hs : D1 (h, x) ⊆ D := fun l hl => hD (Finset.mem_union_left _ (Finset.mem_union_left _
      (Finset.mem_biUnion.mpr ⟨(h, x), Finset.mem_univ _, hl⟩)))
    refine asKey_counts h _ _ (hA _) (limited_mono _ _ hs (fun k hk => Finset.mem_biUnion.mpr ⟨(h, x), Finset.mem_univ _, hk⟩)
      (fun a ha => hs ha) le_rfl le_rfl (h1 (h, x)))
  · refine hD (Finset.mem_union_left _ (Finset.mem_union_right _ (Finset.mem_biUnion.mpr ⟨x, Finset.mem_univ _,
      Finset.mem_biUnion.mpr ⟨k, hk, Finset.mem_union_left _ ?_⟩⟩)))
    exact Finset.mem_image_of_mem (fun v : Z => k.query (publicOf x) (fun I => x • I) v 0) (Finset.mem_univ v)
  · refine hD (Finset.mem_union_left _ (Finset.mem_union_right _ (Finset.mem_biUnion.mpr ⟨x, Finset.mem_univ _,
      Finset.mem_biUnion.mpr ⟨k, hk, Finset.mem_union_right _ ?_⟩⟩)))
    exact Finset.mem_image_of_mem (fun n : Arr 32 => k.nonceQuery (publicOf x) n) (Finset.mem_univ n)

/-- The expanded secret key. -/
def expandedIn (H : Oracles) (mode : ExpansionMode) (mini : Arr 32) : SecretKey :=
  letI := H
  MiniSecretKey.expand ⟨mini⟩ mode

theorem expandedIn_canonical (O : Oracles) (h : Arr 32 → Arr 64) (mode : ExpansionMode) (mini : Arr 32) :
    (expandedIn (withSha O h) mode mini).key.Canonical := by
  cases mode with
  | uniform =>
    show (expandedKey (withSha O h) mini).key.Canonical
    rw [expandedKey_eq]
    exact Scalar.canonical_ofZ _
  | ed25519 =>
    show (expandedEdKey (withSha O h) mini).key.Canonical
    rw [expandedEdKey_eq]
    exact clampedKey_canonical _

theorem forgesSimple_key (O : Oracles) (h : Arr 32 → Arr 64) (mode : ExpansionMode) (mini : Arr 32) (A : Bytes → SimpleAttacker)
    (hf : ForgesSimple P O h mode mini A) :
    ForgesKey (P := P) (withSha O h) (keyFamily A h) (expandedIn (withSha O h) mode mini) :=
  simple_to_key (withSha O h) (SecretKey.toKeypair (expandedIn (withSha O h) mode mini)) rfl _ hf

/-- The expanded key against a random key, in both modes. -/
theorem mode_bound (O : Oracles) (mode : ExpansionMode) (hD : CoversExpand D) (A : Bytes → SimpleAttacker) (q m s : Nat)
    (hA : ∀ b, (A b).Counts q m s) (fin : Z → KeyForgery P → Prop)
    (hB : ∀ h (x : Z), (keyFamily A h (publicOf x : PublicKey P)).Limited D KeyRequest.use K (fin x) q m) :
    chance (fun ω : Arr 32 × (Arr 32 → Arr 64) × (D → Arr 64) => ForgesSimple P (wideTable O D ω.2.2) ω.2.1 mode ω.1 A) ≤
      (avg fun ω : Arr 64 × (Arr 32 → Arr 64) => chance fun y : Arr 32 × (D → Arr 64) =>
        ForgesKey (P := P) (wideTable O D y.2) (keyFamily A ω.2) ⟨Scalar.ofZ (secretOf mode ω.1), y.1⟩) +
      (q + s : Nat) / 2 ^ 256 := by
  have hq : ∀ a : Nat, a ≤ q + s → (a : ℚ) / 2 ^ 256 ≤ (q + s : Nat) / 2 ^ 256 := fun a ha =>
    div_le_div_of_nonneg_right (Nat.cast_le.mpr ha) (by positivity)
  have h0 : chance (fun ω : Arr 32 × (Arr 32 → Arr 64) × (D → Arr 64) => ForgesSimple P (wideTable O D ω.2.2) ω.2.1 mode ω.1 A) ≤
      chance (fun ω : Arr 32 × (Arr 32 → Arr 64) × (D → Arr 64) => ForgesKey (P := P) (wideTable O D ω.2.2) (keyFamily A ω.2.1)
        (expandedIn (withSha (wideTable O D ω.2.2) ω.2.1) mode ω.1)) :=
    chance_mono fun ω hω => (forgesKey_congr (H := withSha (wideTable O D ω.2.2) ω.2.1) (H' := wideTable O D ω.2.2) (fun _ => rfl)
      (keyFamily A ω.2.1) _ (expandedIn_canonical _ _ mode _)).mp (forgesSimple_key _ _ mode _ A hω)
  cases mode with
  | uniform =>
    refine le_trans h0 (le_trans (uniform_bound O hD (keyFamily A) q m fin hB) ?_)
    exact add_le_add le_rfl (hq q (by omega))
  | ed25519 =>
    refine le_trans h0 (le_trans (ed_bound O A s fun b => counts_second _ (hA b)) ?_)
    exact add_le_add le_rfl (hq s (by omega))

/-- **C77** messages signed with `sign_simple` cannot be forged, at the level of bytes.  A key pair is expanded from 32 random
bytes, in either mode.  Take any attacker that is given the 32 bytes of the public key, and may ask for at most `q` hash
values of merlin transcripts and `s` SHA-512 hashes, and for the signatures (64 bytes) on at most `m` messages in contexts,
all of its choice and adaptively, with the signer's system RNG under its control.  If with probability `ε` — over the 32
bytes and the hash functions — it finds a context, a message and a string of bytes that the signer did not give out for them
and that decodes to a signature `verify_simple` accepts, then `extractSimple` finds the discrete logarithm of a random public
key, from the public key, with probability at least `δ(δ/(q+1) − guess)`, where
`δ = ε − (q+s)/2²⁵⁶ − q/2²⁵⁶ − m((q+m)·guess + spare)`.  The hash functions are random on any finite domain `D` large enough. -/
theorem sign_simple_unforgeable (O : Oracles) (mode : ExpansionMode) (A : Bytes → SimpleAttacker) (q m s : Nat)
    (hA : ∀ b, (A b).Counts q m s) :
    ∃ (D₀ : Finset (List MOp)) (K : Finset (KeyUse P)), ∀ D, D₀ ⊆ D →
      let ε := chance fun ω : Arr 32 × (Arr 32 → Arr 64) × (D → Arr 64) =>
        ForgesSimple P (wideTable O D ω.2.2) ω.2.1 mode ω.1 A
      let loss : ℚ := (q + s : Nat) / 2 ^ 256 + (q / 2 ^ 256 + m * ((q + m : Nat) * guess + spare))
      loss ≤ ε →
      (ε - loss) * ((ε - loss) / (q + 1 : Nat) - guess) ≤
        chance fun ω : (Arr 64 × (Arr 32 → Arr 64)) × (K → Arr 64 × Arr 64) × (D → Arr 64) × (D → Arr 64) =>
          let x := secretOf mode ω.1.1
          let pk : PublicKey P := publicOf x
          extractSimple O pk (A (PublicKey.toBytes pk).1) ω.1.2 ω.2.1 ω.2.2.1 ω.2.2.2 = x := by
  obtain ⟨D₀, K, h⟩ := simple_domain (P := P) A q m s hA
  refine ⟨D₀, K, fun D hD => ?_⟩
  obtain ⟨h1, h2, h3⟩ := h D hD
  intro ε loss hle
  haveI : Nonempty (Arr 64 × (Arr 32 → Arr 64)) := ⟨zeros 64, fun _ => zeros 64⟩
  have s1 := mode_bound O mode h1 A q m s hA (fun x c => c.query (publicOf x) ∈ D) h2
  have s2 := key_average (P := P) (Ω := Arr 64 × (Arr 32 → Arr 64)) O (fun ω => secretOf mode ω.1) (fun ω => keyFamily A ω.2) q m
    (fun ω => h2 _ _) (fun ω => h3 _) ε loss (by simp only [loss]; simp only [ε]; linarith) hle
  refine le_trans s2 (chance_mono fun ω hω => ?_)
  refine Eq.trans ?_ hω
  exact no_vrf_no_outputs O _ _ _ _ (asKey_noVrf (P := P) _) _ _ _

/-- An attacker of unlimited power: it computes the discrete logarithm of the public key, has the message `msg` signed, and
signs `msg'` by itself, with nonce one. -/
noncomputable def simpleBreaker (P : Type) [Ristretto P] (ctx msg msg' : Bytes) (sys : Rng) (b : Bytes) : SimpleAttacker :=
  .request (.inl ⟨ctx, msg, sys⟩) fun _ =>
  .request (.inr (zeros 32)) fun _ =>
  match (PublicKey.fromBytes b : SignatureResult (PublicKey P)) with
  | .ok pk => .ask (challengeOf pk ((SigningContext.new ctx).bytes msg') (compress (basepoint : P)).1) fun w =>
    .ret ⟨ctx, msg', (Signature.toBytes ⟨compress (basepoint : P),
      Scalar.ofZ (1 + residue w * (exists_smul_basepoint pk.point).choose)⟩).1⟩
  | .error _ => .ret ⟨[], [], []⟩

/-- Non-vacuity: that attacker makes one query of each sort and always succeeds, so `ε` can be one. -/
example (O : Oracles) (ctx msg msg' : Bytes) (hm : msg ≠ msg') (sys : Rng) :
    (∀ b, (simpleBreaker P ctx msg msg' sys b).Counts 1 1 1) ∧
    ∀ h mode mini, ForgesSimple P O h mode mini (simpleBreaker P ctx msg msg' sys) := by
  refine ⟨fun b => ?_, fun h mode mini => ?_⟩
  · refine ⟨0, rfl, fun _ => ⟨0, rfl, fun _ => ?_⟩⟩
    cases (PublicKey.fromBytes b : SignatureResult (PublicKey P)) with
    | ok pk => exact ⟨0, rfl, fun _ => trivial⟩
    | error e => exact trivial
  · letI := withSha O h
    have hpk : ∀ pk : PublicKey P, pk = RistrettoBoth.fromPoint pk.point → PublicKey.fromBytes (PublicKey.toBytes pk).1 = .ok pk :=
      fun pk hw => ((publickey_from_bytes_table _).1 _).mpr ⟨rfl, congrArg (fun p : RistrettoBoth P => p.compressed.1) hw.symm⟩
    unfold ForgesSimple
    simp only
    have hk := hpk (MiniSecretKey.expandToKeypair ⟨mini⟩ mode : Keypair P).pub rfl
    generalize (MiniSecretKey.expandToKeypair ⟨mini⟩ mode : Keypair P) = kp at hk ⊢
    simp only [simpleBreaker, Client.given, hk, Client.logged, Client.play]
    set x := (exists_smul_basepoint kp.pub.point).choose with hx
    have hxp : kp.pub.point = x • (basepoint : P) := (exists_smul_basepoint kp.pub.point).choose_spec
    refine ⟨⟨kp.pub, _, rfl, (signature_bytes_roundtrip.1 _ (Scalar.canonical_ofZ _)), ?_⟩, ?_⟩
    · show verifyWith (withSha O h) kp.pub _ _ = _
      rw [verifyWith_iff]
      simp only [Scalar.toZ_ofZ]
      rw [hxp, add_smul, one_smul, mul_smul]
      exact congrArg compress (add_sub_cancel_right _ _)
    · intro rng b hb
      simp only [List.mem_singleton, Prod.mk.injEq, SignRequest.mk.injEq] at hb
      exact (hm hb.1.2.1.symm).elim

end Schnorrkel.Props
