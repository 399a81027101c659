import Verif.Spec.RomMini
import Verif.Props.RomWallet
import Verif.Props.RomPrf

/-! # C76: a wallet made from a random mini secret key -/

namespace Schnorrkel.Props
open Spec Schnorrkel
variable {P : Type} [Ristretto P] {D : Finset (List MOp)} {K : Finset (WalletUse P)} {J : Finset (List (List MOp × Arr 32))}

/-! ### Expansion queries are asked for nothing else -/

theorem expand_use (m : Arr 32) (b : Bool) :
    expandKq m b = (if b then Use.expandNonce m.1 else Use.expandKey m.1).query := by
  cases b <;> rfl

/-- The uses of the hash for expansions. -/
def IsExpand : Use → Prop
  | .expandKey _ => True
  | .expandNonce _ => True
  | _ => False

theorem not_expand (u : Use) (hwf : u.WF) (hn : ¬ IsExpand u.norm) (m : Arr 32) (b : Bool) : expandKq m b ≠ u.query := by
  intro h
  rw [expand_use] at h
  have h := hash_uses_separated _ u (by cases b <;> exact trivial) hwf h
  rw [← h] at hn
  cases b <;> exact hn trivial

theorem shown_not_expand (u : Use) (hu : Shown u) (hwf : u.WF) (hn : u.norm = u) (m : Arr 32) (b : Bool) :
    expandKq m b ≠ u.query := by
  refine not_expand u hwf ?_ m b
  rw [hn]
  cases u <;> first | exact hu.elim | exact id

theorem claim_not_expand (pk : PublicKey P) (c : KeyForgery P) (m : Arr 32) (b : Bool) : expandKq m b ≠ c.query pk := by
  cases c with
  | signature t bs => exact shown_not_expand (.signature t.log pk.compressed.1 (bs.take 32)) trivial trivial rfl m b
  | proof extra I Q kusama bs =>
    simp only [KeyForgery.query]
    cases h : VRFProof.fromBytes bs with
    | ok π => exact shown_not_expand (.dleq extra.log kusama _ _ _ _ _) trivial trivial rfl m b
    | error e => cases b <;> exact fun h => nomatch h
  | cert t c sk => exact shown_not_expand (.cert t.log pk.compressed.1 c.bytes.1) trivial trivial rfl m b

theorem use_not_expand (pk : PublicKey P) (dh : P → P) (k : KeyUse P) (z w : Z) (m : Arr 32) (b : Bool) :
    expandKq m b ≠ k.query pk dh z w := by
  rw [← asUse_query]
  exact shown_not_expand _ (asUse_shown ..) (asUse_wf ..) (asUse_norm ..) m b

theorem nonce_not_expand (pk : PublicKey P) (n : Arr 32) (k : KeyUse P) (m : Arr 32) (b : Bool) : expandKq m b ≠ k.nonceQuery pk n := by
  rw [← nonceUse_query]
  refine not_expand _ (nonceUse_wf ..) ?_ m b
  cases k with
  | prove log I ku rng => cases ku <;> exact id
  | _ => exact id

theorem seed_not_expand (O : Oracles) (pk : PublicKey P) (cc : ChainCode) (key : Scalar) (s : List MOp × Arr 32)
    (p : List (List MOp × Arr 32)) (n : Arr 32) (m : Arr 32) (b : Bool) : expandKq m b ≠ seedQuery O pk cc key s p n := by
  rw [← seedUse_query]
  exact not_expand _ (seedUse_wf ..) id m b

/-! ### The wallet does not depend on expansions -/

/-- Two hash functions that differ at most on the expansion of `m`. -/
def ExceptExpand (m : Arr 32) (H H' : Oracles) : Prop :=
  ∀ l n, (∀ b, expandKq m b ≠ l) → H.merlin l n = H'.merlin l n

theorem seedAt_except {m : Arr 32} {H H' : Oracles} (h : ExceptExpand m H H') (O : Oracles) (pk : PublicKey P) (cc : ChainCode)
    (key : Scalar) (n : Arr 32) (p : List (List MOp × Arr 32)) : seedAt H O pk cc key n p = seedAt H' O pk cc key n p := by
  induction p with
  | nil => rfl
  | cons s p ih =>
    simp only [seedAt, ih]
    exact h _ _ fun b => seed_not_expand O pk cc key s p _ m b

theorem serveWallet_except {m : Arr 32} {H H' : Oracles} (h : ExceptExpand m H H') (O : Oracles) (h1 : SoftEq H O) (h2 : SoftEq H' O)
    (pk : PublicKey P) (cc : ChainCode) (key : Scalar) (hk : key.Canonical)
    (hpk : pk = RistrettoBoth.fromPoint (key.toZ • basepoint)) (n : Arr 32) :
    serveWallet H ⟨⟨key, n⟩, pk⟩ cc = serveWallet H' ⟨⟨key, n⟩, pk⟩ cc := by
  funext r
  rw [serveWallet_eq H O h1 pk cc key hk hpk n r, serveWallet_eq H' O h2 pk cc key hk hpk n r, seedAt_except h]
  have e1 : ∀ v, hashWith H (r.use.nonceQuery O pk cc v) = hashWith H' (r.use.nonceQuery O pk cc v) := fun v =>
    hashWith_congr (h _ _ fun b => nonce_not_expand _ v r.use.use m b)
  have e2 : ∀ v, hashWith H (r.use.query O pk cc (fun I => key.toZ • I) v 0) =
      hashWith H' (r.use.query O pk cc (fun I => key.toZ • I) v 0) := fun v =>
    hashWith_congr (h _ _ fun b => use_not_expand _ _ r.use.use v 0 m b)
  unfold realAns
  rw [e1, e2]

theorem asked_logged {Req Ans α : Type} (O : Oracles) (serve : Req → Ans) (A : Client Req Ans α) : ∀ log,
    (A.logged log).asked O serve = A.asked O serve := by
  induction A with
  | ret a => intro log; rfl
  | ask q k ih => intro log; simp only [Client.logged, Client.asked, ih]
  | request r k ih => intro log; simp only [Client.logged, Client.asked, ih]

theorem play_except {Req Ans α : Type} {m : Arr 32} {H H' : Oracles} (h : ExceptExpand m H H') (serve : Req → Ans)
    (A : Client Req Ans α) (hA : ∀ l ∈ A.asked H' serve, ∀ b, expandKq m b ≠ l) : A.play H serve = A.play H' serve := by
  induction A with
  | ret a => rfl
  | ask q k ih =>
    simp only [Client.asked, List.mem_cons, forall_eq_or_imp] at hA
    simp only [Client.play, h q 64 hA.1]
    exact ih _ hA.2
  | request r k ih => exact ih _ hA

/-- Whether the attacker wins depends on the expansion of `m` only if it asks for it. -/
theorem forges_except {m : Arr 32} {H H' : Oracles} (h : ExceptExpand m H H') (O : Oracles) (h1 : SoftEq H O) (h2 : SoftEq H' O)
    (cc : ChainCode) (A : PublicKey P → Client (WalletRequest P) (KeyAnswer P) (WalletForgery P)) (sk : SecretKey)
    (hk : sk.key.Canonical)
    (hA : ∀ l ∈ (A sk.toPublic).asked H' (serveWallet H' sk.toKeypair cc), ∀ b, expandKq m b ≠ l) :
    ForgesWallet H cc A sk ↔ ForgesWallet H' cc A sk := by
  obtain ⟨key, n⟩ := sk
  have hpk : (SecretKey.toPublic ⟨key, n⟩ : PublicKey P) = RistrettoBoth.fromPoint (key.toZ • basepoint) := by
    show RistrettoBoth.fromPoint (key •. (basepoint : P)) = _
    rw [mulPoint_eq]
  have e1 : serveWallet H (SecretKey.toKeypair ⟨key, n⟩ : Keypair P) cc = serveWallet H' (SecretKey.toKeypair ⟨key, n⟩ : Keypair P) cc :=
    serveWallet_except h O h1 h2 _ cc key hk hpk n
  have e2 : ∀ pk : PublicKey P, walletKey H pk cc = walletKey H' pk cc := fun pk => funext fun p => by
    unfold walletKey
    rw [publicChildOf_congr h1, publicChildOf_congr h2]
  unfold ForgesWallet
  simp only
  rw [e1, e2, play_except h _ _ (by rw [asked_logged]; exact hA)]
  exact ⟨fun hv => valid_congr (hashWith_congr (h _ _ fun b => claim_not_expand _ _ m b)) hv,
    fun hv => valid_congr (hashWith_congr (h _ _ fun b => claim_not_expand _ _ m b).symm) hv⟩

/-! ### From the expanded key to a random key -/

/-- A game in which the secret is an expanded mini secret key, against the same game with a random secret key. -/
theorem expansion_diff (hD : CoversExpand D) (real : Arr 32 → (D → Arr 64) → Prop) (ideal : (D → Arr 64) → (Bool → Arr 64) → Prop)
    (asked : (D → Arr 64) → (Bool → Arr 64) → List (List MOp)) (q : Nat) (hq : ∀ f g, (asked f g).length ≤ q)
    (h : ∀ m f g, (∀ l ∈ asked f g, ∀ b, expandKq m b ≠ l) → (real m (withKeyed (expandKq m) f g) ↔ ideal f g)) :
    |chance (fun ω : Arr 32 × (D → Arr 64) => real ω.1 ω.2) - chance (fun ω : (D → Arr 64) × (Bool → Arr 64) => ideal ω.1 ω.2)| ≤
      q / 2 ^ 256 := by
  have hm : ∀ (m : Arr 32) (b : Bool), expandKq m b ∈ D := by
    intro m b
    cases b
    · exact (hD m).1
    · exact (hD m).2
  have hb : chance (fun ω : Arr 32 × (D → Arr 64) × (Bool → Arr 64) => ∃ l ∈ asked ω.2.1 ω.2.2, ∃ b, expandKq ω.1 b = l) ≤ q / 2 ^ 256 := by
    have hne : Nonempty ((D → Arr 64) × (Bool → Arr 64)) := ⟨fun _ => zeros 64, fun _ => zeros 64⟩
    refine chance_prod_le _ _ fun ω => ?_
    refine le_trans (chance_keys expandKq (fun k x k' x' h => (expandKq_inj k x k' x' h).1) (asked ω.1 ω.2)) ?_
    rw [card_arr32, Nat.cast_pow, Nat.cast_ofNat]
    exact div_le_div_of_nonneg_right (Nat.cast_le.mpr (hq _ _)) (by positivity)
  refine le_trans ?_ hb
  rw [← chance_snd (Ω := Arr 32) (fun ω : (D → Arr 64) × (Bool → Arr 64) => ideal ω.1 ω.2)]
  rw [chance_eq_avg, chance_eq_avg, chance_eq_avg, avg_prod, avg_prod, avg_prod]
  simp only [avg_prod]
  have h1 : (avg fun m => avg fun f : D → Arr 64 => ind (real m f)) =
      avg fun m => avg fun f : D → Arr 64 => avg fun g : Bool → Arr 64 => ind (real m (withKeyed (expandKq m) f g)) :=
    avg_congr fun m => avg_withKeyed (expandKq m) (fun x x' h => (expandKq_inj m x m x' h).2) (hm m) fun f => ind (real m f)
  have h2 : ∀ m f, ∀ g : Bool → Arr 64, _ ∧ _ := fun m f g =>
    ind_diff (real m (withKeyed (expandKq m) f g)) (ideal f g) (∃ l ∈ asked f g, ∃ b, expandKq m b = l)
      (fun hb => h m f g fun l hl b hx => hb ⟨l, hl, b, hx⟩)
  rw [h1, abs_le]
  constructor
  · rw [neg_le_sub_iff_le_add, ← avg_add]
    simp only [← avg_add]
    exact avg_mono fun k => avg_mono fun f => avg_mono fun g => (h2 k f g).2
  · rw [sub_le_iff_le_add', ← avg_add]
    simp only [← avg_add]
    exact avg_mono fun k => avg_mono fun f => avg_mono fun g => (h2 k f g).1

theorem limited_asked_length {Req Ans κ α : Type} (O : Oracles) (serve : Req → Ans) (key : Req → κ) (K : Finset κ) (fin : α → Prop)
    (A : Client Req Ans α) : ∀ {q m}, A.Limited D key K fin q m → (A.asked O serve).length ≤ q := by
  induction A with
  | ret a => intro q m _; exact Nat.zero_le _
  | ask l k ih =>
    rintro q m ⟨-, q', rfl, h⟩
    simp only [Client.asked, List.length_cons]
    exact Nat.succ_le_succ (ih _ (h _))
  | request r k ih =>
    rintro q m ⟨-, m', rfl, h⟩
    exact ih _ (h _)

theorem expandedKey_keyed (O : Oracles) (hD : CoversExpand D) (m : Arr 32) (f : D → Arr 64) (g : Bool → Arr 64) :
    expandedKey (wideTable O D (withKeyed (expandKq m) f g)) m = randomSecretKey g := by
  have hi : Function.Injective (expandKq m) := fun x x' h => (expandKq_inj m x m x' h).2
  have h1 := wideTable_keyed64 O (expandKq m) hi f g false (hD m).1
  have h2 := wideTable_keyed O (expandKq m) hi f g true (hD m).2 32 (by omega)
  rw [expandedKey_eq, h1, h2]
  rfl

/-- **C76** (first half) for every attacker with at most `q` hash queries and any number of requests, the chances of a
forgery against a wallet made from a random mini secret key and against a wallet with a random secret key and a random nonce
seed differ by at most `q / 2^256`. -/
theorem mini_wallet_like_random (O : Oracles) (cc : ChainCode) (hD : CoversExpand D) (hS : NoSoftQuery D)
    (A : PublicKey P → Client (WalletRequest P) (KeyAnswer P) (WalletForgery P)) (q m : Nat)
    (fin : PublicKey P → WalletForgery P → Prop)
    (hA : ∀ x : Z, (A (publicOf x)).Limited D WalletRequest.use K (fin (publicOf x)) q m) :
    |chance (fun ω : Arr 32 × (D → Arr 64) =>
        ForgesWallet (wideTable O D ω.2) cc A (expandedKey (wideTable O D ω.2) ω.1)) -
      chance (fun ω : (D → Arr 64) × (Bool → Arr 64) => ForgesWallet (wideTable O D ω.1) cc A (randomSecretKey ω.2))| ≤
    q / 2 ^ 256 := by
  refine expansion_diff hD (fun k f => ForgesWallet (wideTable O D f) cc A (expandedKey (wideTable O D f) k))
    (fun f g => ForgesWallet (wideTable O D f) cc A (randomSecretKey g))
    (fun f g => (A (randomSecretKey g).toPublic).asked (wideTable O D f) (serveWallet (wideTable O D f) (randomSecretKey g).toKeypair cc))
    q (fun f g => ?_) (fun k f g hl => ?_)
  · have hpk : ((randomSecretKey g).toPublic : PublicKey P) = publicOf (residue (g false)) := by
      show RistrettoBoth.fromPoint (Scalar.ofZ (residue (g false)) •. (basepoint : P)) = _
      rw [mulPoint_eq, Scalar.toZ_ofZ]
      rfl
    rw [hpk]
    exact limited_asked_length _ _ _ _ _ _ (hA _)
  · rw [expandedKey_keyed O hD]
    exact forges_except (m := k) (fun l n hn => wideTable_withKeyed O (expandKq k) f g l n hn) O (softEq_wide O hS _) (softEq_wide O hS _)
      cc A (randomSecretKey g) (Scalar.canonical_ofZ _) hl

/-! ### Random keys -/

theorem avg_bool (F : Arr 64 → Arr 64 → ℚ) : (avg fun g : Bool → Arr 64 => F (g false) (g true)) = avg fun w => avg fun v => F w v := by
  rw [← avg_equiv (Equiv.boolArrowEquivProd (Arr 64)).symm]
  have : ∀ x : Arr 64 × Arr 64, ((Equiv.boolArrowEquivProd (Arr 64)).symm x false, (Equiv.boolArrowEquivProd (Arr 64)).symm x true) = x :=
    fun x => (Equiv.boolArrowEquivProd (Arr 64)).apply_symm_apply x
  rw [avg_congr fun x => show F _ _ = F x.1 x.2 from by
    have := this x
    rw [congrArg Prod.fst this.symm, congrArg Prod.snd this.symm]]
  exact avg_prod fun x : Arr 64 × Arr 64 => F x.1 x.2

theorem random_wallet_avg (H : (D → Arr 64) → SecretKey → Prop) :
    chance (fun ω : (D → Arr 64) × (Bool → Arr 64) => H ω.1 (randomSecretKey ω.2)) =
      avg fun w : Arr 64 => chance fun ω : Arr 32 × (D → Arr 64) => H ω.2 ⟨Scalar.ofZ (residue w), ω.1⟩ := by
  rw [chance_eq_avg, avg_prod, avg_comm]
  refine (avg_bool fun w v => avg fun f : D → Arr 64 => ind (H f ⟨Scalar.ofZ (residue w), seed32 v⟩)).trans (avg_congr fun w => ?_)
  rw [chance_eq_avg, avg_prod]
  exact avg_seed32 fun n => avg fun f : D → Arr 64 => ind (H f ⟨Scalar.ofZ (residue w), n⟩)

/-- A wallet with a random root key (`x ω`, any distribution) and an attacker that depends on `ω`. -/
theorem wallet_average {Ω : Type} [Finite Ω] [Nonempty Ω] (O : Oracles) (cc : ChainCode) (x : Ω → Z)
    (A : Ω → PublicKey P → Client (WalletRequest P) (KeyAnswer P) (WalletForgery P)) (q m : Nat)
    (hA : ∀ ω, (A ω (publicOf (x ω))).Limited D WalletRequest.use K
      (fun c => c.claim.query (walletKey O (publicOf (x ω)) cc c.path) ∈ D) q m)
    (hC : ∀ ω, CoversWallet O (publicOf (x ω)) cc (Scalar.ofZ (x ω)) D J K) (ε loss : ℚ)
    (hε : ε - (loss - (J.card * (J.card + q : Nat) / 2 ^ 256 + m * ((q + m : Nat) * guess + spare))) ≤ avg fun ω =>
      chance fun y : Arr 32 × (D → Arr 64) => ForgesWallet (wideTable O D y.2) cc (A ω) ⟨Scalar.ofZ (x ω), y.1⟩)
    (hle : loss ≤ ε) :
    (ε - loss) * ((ε - loss) / (q + 1 : Nat) - guess) ≤
      chance fun y : Ω × (K → Arr 64 × Arr 64) × (D → Arr 64) × (D → Arr 64) =>
        extractWalletFrom O (publicOf (x y.1) : PublicKey P) cc (fun I => x y.1 • I) (A y.1 (publicOf (x y.1))) y.2.1 y.2.2.1 y.2.2.2 =
          x y.1 := by
  have hcore : ∀ w : Ω, ∃ p : (K → Arr 64 × Arr 64) → ℚ,
      (chance fun ω : Arr 32 × (D → Arr 64) => ForgesWallet (wideTable O D ω.2) cc (A w) ⟨Scalar.ofZ (x w), ω.1⟩) -
        (J.card * (J.card + q : Nat) / 2 ^ 256 + m * ((q + m : Nat) * guess + spare)) ≤ avg p ∧
      ∀ C, p C ^ 2 / (q + 1 : Nat) - guess * p C ≤ chance fun y : (D → Arr 64) × (D → Arr 64) =>
        extractWalletFrom O (publicOf (x w) : PublicKey P) cc (fun I => x w • I) (A w (publicOf (x w))) C y.1 y.2 = x w := by
    intro w
    have hpk : (SecretKey.toPublic ⟨Scalar.ofZ (x w), zeros 32⟩ : PublicKey P) = publicOf (x w) := by
      show RistrettoBoth.fromPoint (Scalar.ofZ (x w) •. (basepoint : P)) = _
      rw [mulPoint_eq, Scalar.toZ_ofZ]
      rfl
    obtain ⟨p, h1, h2⟩ := wallet_core O (publicOf (x w) : PublicKey P) cc (Scalar.ofZ (x w)) (Scalar.canonical_ofZ _)
      (by rw [Scalar.toZ_ofZ]; rfl) (A w (publicOf (x w))) q m (hA _) (hC _)
    refine ⟨p, ?_, fun C => ?_⟩
    · refine le_trans (le_of_eq ?_) h1
      refine congrArg₂ HSub.hSub (congrArg chance (funext fun ω => ?_)) rfl
      show _ = _
      unfold ForgesWallet
      have e : ((⟨Scalar.ofZ (x w), ω.1⟩ : SecretKey).toKeypair : Keypair P) =
        ⟨⟨Scalar.ofZ (x w), ω.1⟩, publicOf (x w)⟩ := congrArg (Keypair.mk _) hpk
      rw [e]
    · refine le_trans (h2 C) (chance_mono fun y hy => ?_)
      rw [Scalar.toZ_ofZ] at hy
      exact (smul_basepoint_inj.mp hy).symm
  choose p hp1 hp2 using hcore
  refine fork_coins (Ω := Ω × (K → Arr 64 × Arr 64)) (fun ω => p ω.1 ω.2) ε loss (q + 1 : Nat) _ (by positivity)
    (by unfold chance; positivity) hle ?_ ?_
  · rw [avg_prod]
    have h3 := avg_mono hp1
    have h4 : (avg fun w : Ω => (chance fun ω : Arr 32 × (D → Arr 64) =>
        ForgesWallet (wideTable O D ω.2) cc (A w) ⟨Scalar.ofZ (x w), ω.1⟩) -
        (J.card * (J.card + q : Nat) / 2 ^ 256 + m * ((q + m : Nat) * guess + spare))) =
      (avg fun w : Ω => chance fun ω : Arr 32 × (D → Arr 64) =>
        ForgesWallet (wideTable O D ω.2) cc (A w) ⟨Scalar.ofZ (x w), ω.1⟩) -
        (J.card * (J.card + q : Nat) / 2 ^ 256 + m * ((q + m : Nat) * guess + spare)) := by
      simp only [sub_eq_add_neg]
      rw [avg_add, avg_const]
    rw [h4] at h3
    linarith
  · rw [avg_prod]
    refine le_trans (avg_mono fun w => avg_mono fun C => hp2 w C) (le_of_eq ?_)
    rw [chance_eq_avg, avg_prod]
    refine avg_congr fun w => ?_
    rw [avg_prod]
    exact avg_congr fun C => chance_eq_avg _

/-- **C76** a wallet made from a random mini secret key by `MiniSecretKey::expand` (uniform mode), together with everything
soft-derived from it, as in `wallet_unforgeable`.  Take any attacker that is given the root public key, with at most `q` hash
queries and `m` requests for signatures, VRF proofs and certificates by any key pairs of the wallet, whose paths have
`J.card` nodes altogether.  If with probability `ε` — over the 32 bytes of the mini secret key and the hash function — it
makes a new signature, proof or certificate under any public key of the wallet, then `extractWalletFrom` finds the discrete
logarithm of a random public key (of 64 random bytes modulo the group order), given the VRF outputs of that key, with
probability at least `δ(δ/(q+1) − guess)`, where `δ = ε − q/2²⁵⁶ − c(c+q)/2²⁵⁶ − m((q+m)·guess + spare)` and `c = J.card`. -/
theorem mini_wallet_unforgeable (O : Oracles) (cc : ChainCode) (hD : CoversExpand D)
    (A : PublicKey P → Client (WalletRequest P) (KeyAnswer P) (WalletForgery P)) (q m : Nat)
    (hA : ∀ x : Z, (A (publicOf x)).Limited D WalletRequest.use K
      (fun c => c.claim.query (walletKey O (publicOf x) cc c.path) ∈ D) q m)
    (hC : ∀ x : Z, CoversWallet O (publicOf x) cc (Scalar.ofZ x) D J K) :
    let ε := chance fun ω : Arr 32 × (D → Arr 64) =>
      ForgesWallet (wideTable O D ω.2) cc A (expandedKey (wideTable O D ω.2) ω.1)
    let loss : ℚ := q / 2 ^ 256 + (J.card * (J.card + q : Nat) / 2 ^ 256 + m * ((q + m : Nat) * guess + spare))
    loss ≤ ε →
    (ε - loss) * ((ε - loss) / (q + 1 : Nat) - guess) ≤
      chance fun ω : Arr 64 × (K → Arr 64 × Arr 64) × (D → Arr 64) × (D → Arr 64) =>
        let x := residue ω.1
        extractWalletFrom O (publicOf x : PublicKey P) cc (fun I => x • I) (A (publicOf x)) ω.2.1 ω.2.2.1 ω.2.2.2 = x := by
  intro ε loss hle
  have hS : NoSoftQuery D := (hC 0).noSoft
  have s1 := mini_wallet_like_random O cc hD hS A q m (fun pk c => c.claim.query (walletKey O pk cc c.path) ∈ D) hA
  rw [random_wallet_avg (fun f sk => ForgesWallet (wideTable O D f) cc A sk)] at s1
  have s1 := (abs_le.mp s1).2
  refine wallet_average O cc residue (fun _ => A) q m (fun w => hA _) (fun w => hC _) ε loss ?_ hle
  simp only [loss]
  linarith

/-! ### The hypotheses are met by every attacker -/

private instance : Finite Z := inferInstanceAs (Finite (ZMod ell))

theorem covers_wallet_mono {O : Oracles} {pk : PublicKey P} {cc : ChainCode} {key : Scalar} {D' : Finset (List MOp)}
    (h : CoversWallet O pk cc key D J K) (hs : D ⊆ D') (hn : NoSoftQuery D') : CoversWallet O pk cc key D' J K :=
  ⟨h.root, h.parents, h.uses, fun k hk v => hs (h.challenges k hk v), fun k hk n => hs (h.nonces k hk n),
    fun s p hp n => hs (h.seeds s p hp n), hn⟩

/-- The nodes on the paths of requests. -/
noncomputable def nodesOf (K : Finset (WalletUse P)) : Finset (List (List MOp × Arr 32)) :=
  open Classical in insert [] (K.biUnion fun k => k.path.tails.toFinset)

theorem nodesOf_parents (K : Finset (WalletUse P)) (s : List MOp × Arr 32) (p : List (List MOp × Arr 32)) (hp : s :: p ∈ nodesOf K) :
    p ∈ nodesOf K := by
  classical
  unfold nodesOf at hp ⊢
  rcases Finset.mem_insert.mp hp with hp | hp
  · cases hp
  · obtain ⟨k, hk, hp⟩ := Finset.mem_biUnion.mp hp
    refine Finset.mem_insert_of_mem (Finset.mem_biUnion.mpr ⟨k, hk, ?_⟩)
    rw [List.mem_toFinset, List.mem_tails] at hp ⊢
    exact (List.suffix_cons s p).trans hp

theorem exists_covers_wallet (O : Oracles) (pk : PublicKey P) (cc : ChainCode) (key : Scalar) (K : Finset (WalletUse P)) :
    ∃ D, CoversWallet O pk cc key D (nodesOf K) K := by
  classical
  haveI := Fintype.ofFinite (Arr 32)
  haveI := Fintype.ofFinite Z
  let seedsOf : List (List MOp × Arr 32) → Finset (List MOp) := fun l => match l with
    | [] => ∅
    | s :: p => Finset.univ.image fun n : Arr 32 => seedQuery O pk cc key s p n
  let D2 := K.biUnion fun k => Finset.univ.image (fun v : Z => k.query O pk cc (fun I => key.toZ • I) v 0) ∪
    Finset.univ.image (fun n : Arr 32 => k.nonceQuery O pk cc n)
  let D3 := (nodesOf K).biUnion seedsOf
  refine ⟨D2 ∪ D3, ⟨Finset.mem_insert_self _ _, nodesOf_parents K, fun k hk => ?_, fun k hk v => ?_, fun k hk n => ?_,
    fun s p hp n => ?_, ?_⟩⟩
  · refine Finset.mem_insert_of_mem (Finset.mem_biUnion.mpr ⟨k, hk, ?_⟩)
    rw [List.mem_toFinset, List.mem_tails]
  · refine Finset.mem_union_left _ (Finset.mem_biUnion.mpr ⟨k, hk, Finset.mem_union_left _ ?_⟩)
    exact Finset.mem_image_of_mem (fun v : Z => k.query O pk cc (fun I => key.toZ • I) v 0) (Finset.mem_univ v)
  · refine Finset.mem_union_left _ (Finset.mem_biUnion.mpr ⟨k, hk, Finset.mem_union_right _ ?_⟩)
    exact Finset.mem_image_of_mem (fun n : Arr 32 => k.nonceQuery O pk cc n) (Finset.mem_univ n)
  · refine Finset.mem_union_right _ (Finset.mem_biUnion.mpr ⟨s :: p, hp, ?_⟩)
    exact Finset.mem_image_of_mem (fun n : Arr 32 => seedQuery O pk cc key s p n) (Finset.mem_univ n)
  · rw [noSoft_iff]
    intro l hl
    rcases Finset.mem_union.mp hl with hl | hl
    · obtain ⟨k, hk, hl⟩ := Finset.mem_biUnion.mp hl
      rcases Finset.mem_union.mp hl with hl | hl
      · obtain ⟨v, -, rfl⟩ := Finset.mem_image.mp hl
        exact use_not_soft _ _ k.use v 0
      · obtain ⟨n, -, rfl⟩ := Finset.mem_image.mp hl
        exact nonce_not_soft _ n k.use
    · obtain ⟨j, hj, hl⟩ := Finset.mem_biUnion.mp hl
      cases j with
      | nil => exact absurd hl (Finset.notMem_empty _)
      | cons s p =>
        obtain ⟨n, -, rfl⟩ := Finset.mem_image.mp hl
        exact seed_not_soft O pk cc key s p n

theorem expand_not_soft (m : Arr 32) (b : Bool) : expandKq m b ∉ softQueries := by
  rw [expand_use]
  rintro ⟨log, cc, pk, h | h⟩
  · have := hash_uses_separated _ (.softKey log cc pk) (by cases b <;> exact trivial) trivial h
    cases b <;> simp [Use.norm] at this
  · have := hash_uses_separated _ (.softChain log cc pk) (by cases b <;> exact trivial) trivial h
    cases b <;> simp [Use.norm] at this

/-- Finitely many attackers on wallets satisfy the hypotheses together. -/
theorem wallet_family_limited {ι : Type} [Finite ι] (O : Oracles) (cc : ChainCode) (x : ι → Z)
    (A : ι → Client (WalletRequest P) (KeyAnswer P) (WalletForgery P)) :
    ∃ D J K q m, CoversExpand D ∧
      (∀ i, ((A i).knowing O softQueries).Limited D WalletRequest.use K
        (fun c => c.claim.query (walletKey O (publicOf (x i)) cc c.path) ∈ D) q m) ∧
      ∀ i, CoversWallet O (publicOf (x i) : PublicKey P) cc (Scalar.ofZ (x i)) D J K := by
  classical
  haveI := finiteAnswer (P := P)
  haveI := Fintype.ofFinite (Arr 32)
  haveI := Fintype.ofFinite ι
  choose D0 K0 q0 m0 h0 using fun i : ι => exists_limited WalletRequest.use
    (fun c : WalletForgery P => c.claim.query (walletKey O (publicOf (x i)) cc c.path)) (A i)
  let K : Finset (WalletUse P) := Finset.univ.biUnion K0
  choose D2 h2 using fun i : ι => exists_covers_wallet O (publicOf (x i) : PublicKey P) cc (Scalar.ofZ (x i)) K
  let D1 : ι → Finset (List MOp) := fun i => (D0 i).filter (· ∉ softQueries)
  let E : Finset (List MOp) := Finset.univ.image fun y : Arr 32 × Bool => expandKq y.1 y.2
  let D : Finset (List MOp) := Finset.univ.biUnion D1 ∪ Finset.univ.biUnion D2 ∪ E
  have hE : ∀ m b, expandKq m b ∈ D := fun m b =>
    Finset.mem_union_right _ (Finset.mem_image.mpr ⟨(m, b), Finset.mem_univ _, rfl⟩)
  have hs1 : ∀ i, D1 i ⊆ D := fun i l hl =>
    Finset.mem_union_left _ (Finset.mem_union_left _ (Finset.mem_biUnion.mpr ⟨i, Finset.mem_univ _, hl⟩))
  have hs2 : ∀ i, D2 i ⊆ D := fun i l hl =>
    Finset.mem_union_left _ (Finset.mem_union_right _ (Finset.mem_biUnion.mpr ⟨i, Finset.mem_univ _, hl⟩))
  have hn : NoSoftQuery D := by
    rw [noSoft_iff]
    intro l hl
    rcases Finset.mem_union.mp hl with hl | hl
    · rcases Finset.mem_union.mp hl with hl | hl
      · obtain ⟨i, -, hl⟩ := Finset.mem_biUnion.mp hl
        exact (Finset.mem_filter.mp hl).2
      · obtain ⟨i, -, hl⟩ := Finset.mem_biUnion.mp hl
        exact (noSoft_iff _).mp (h2 i).noSoft l hl
    · obtain ⟨y, -, rfl⟩ := Finset.mem_image.mp hl
      exact expand_not_soft _ _
  refine ⟨D, nodesOf K, K, Finset.univ.sup q0, Finset.univ.sup m0, fun m => ⟨hE m false, hE m true⟩, fun i => ?_,
    fun i => covers_wallet_mono (h2 i) (hs2 i) hn⟩
  have hl := knowing_limited (fin' := fun c => c.claim.query (walletKey O (publicOf (x i)) cc c.path) ∈ D1 i) O softQueries
    WalletRequest.use (A i) (fun c hc => Finset.mem_filter.mpr ⟨hc, claim_not_soft _ _⟩) (h0 i)
  exact limited_mono _ _ (hs1 i) (fun k hk => Finset.mem_biUnion.mpr ⟨i, Finset.mem_univ _, hk⟩) (fun a ha => hs1 i ha)
    (Finset.le_sup (f := q0) (Finset.mem_univ i)) (Finset.le_sup (f := m0) (Finset.mem_univ i)) hl

/-- **C76** every attacker satisfies the hypotheses of `mini_wallet_unforgeable`, for suitable finite sets and bounds, once
it looks up tweaks and chain codes by itself (which makes no difference: `knowing_play`). -/
theorem every_mini_wallet_attacker_is_limited (O : Oracles) (cc : ChainCode)
    (A : PublicKey P → Client (WalletRequest P) (KeyAnswer P) (WalletForgery P)) :
    ∃ D J K q m, CoversExpand D ∧
      (∀ x : Z, ((A (publicOf x)).knowing O softQueries).Limited D WalletRequest.use K
        (fun c => c.claim.query (walletKey O (publicOf x) cc c.path) ∈ D) q m) ∧
      ∀ x : Z, CoversWallet O (publicOf x : PublicKey P) cc (Scalar.ofZ x) D J K :=
  wallet_family_limited O cc id fun x => A (publicOf x)

/-- An attacker of unlimited power: it computes the discrete logarithm of the public key it is given and behaves like
`walletInsider`. -/
noncomputable def walletBreaker (O : Oracles) (cc : ChainCode) (t t' : Transcript) (sys : Rng) (pk : PublicKey P) :
    Client (WalletRequest P) (KeyAnswer P) (WalletForgery P) :=
  walletInsider O pk cc (exists_smul_basepoint pk.point).choose t t' sys

/-- Non-vacuity: that attacker succeeds with probability one against wallets made from random mini secret keys. -/
example (O : Oracles) (cc : ChainCode) (t t' : Transcript) (ht : t ≠ t') (sys : Rng) (D : Finset (List MOp)) (hD : NoSoftQuery D) :
    (chance fun ω : Arr 32 × (D → Arr 64) =>
      ForgesWallet (P := P) (wideTable O D ω.2) cc (walletBreaker O cc t t' sys) (expandedKey (wideTable O D ω.2) ω.1)) = 1 := by
  have h : ∀ ω : Arr 32 × (D → Arr 64),
      ForgesWallet (P := P) (wideTable O D ω.2) cc (walletBreaker O cc t t' sys) (expandedKey (wideTable O D ω.2) ω.1) := by
    intro ω
    exact walletInsider_wins O _ (softEq_wide O hD ω.2) _ cc _ (exists_smul_basepoint _).choose_spec t t' ht sys _
  rw [chance_eq_avg]
  simp only [ind, h, if_true]
  exact avg_const 1

end Schnorrkel.Props
