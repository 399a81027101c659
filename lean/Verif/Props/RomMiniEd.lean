import Verif.Props.RomMini
import Verif.Props.Keys

/-! # C76: the same for expansion in Ed25519 mode -/

namespace Schnorrkel.Props
open Spec Schnorrkel
variable {P : Type} [Ristretto P] {D : Finset (List MOp)} {K : Finset (WalletUse P)} {J : Finset (List (List MOp × Arr 32))}

/-- The requests of the second sort. -/
def secondAsked {Req Ans V Val α : Type} (O : Oracles) (serve : Req → Ans) (h : V → Val) : Client (Req ⊕ V) (Ans ⊕ Val) α → List V
  | .ret _ => []
  | .ask q k => secondAsked O serve h (k (O.merlin q 64))
  | .request (.inl r) k => secondAsked O serve h (k (.inl (serve r)))
  | .request (.inr v) k => v :: secondAsked O serve h (k (.inr (h v)))

section
variable {Req Ans V Val α : Type}

theorem secondAsked_length (O : Oracles) (serve : Req → Ans) (h : V → Val) (A : Client (Req ⊕ V) (Ans ⊕ Val) α) :
    ∀ {s}, A.Second s → (secondAsked O serve h A).length ≤ s := by
  induction A with
  | ret a => intro s _; exact Nat.zero_le _
  | ask q k ih => intro s hs; exact ih _ (hs _)
  | request r k ih =>
    cases r with
    | inl r => intro s hs; exact ih _ (hs _)
    | inr v =>
      rintro s ⟨s', rfl, hs⟩
      simp only [secondAsked, List.length_cons]
      exact Nat.succ_le_succ (ih _ (hs _))

theorem given_logged_congr [DecidableEq V] (O : Oracles) (serve : Req → Ans) (h : V → Val) (v : V) (y : Val)
    (A : Client (Req ⊕ V) (Ans ⊕ Val) α) : ∀ log, v ∉ secondAsked O serve h A →
    ((A.given (Function.update h v y)).logged log).play O serve = ((A.given h).logged log).play O serve := by
  induction A with
  | ret a => intro log _; rfl
  | ask q k ih => intro log hv; exact ih _ log hv
  | request r k ih =>
    cases r with
    | inl r => intro log hv; exact ih _ _ hv
    | inr w =>
      intro log hv
      simp only [secondAsked, List.mem_cons, not_or] at hv
      simp only [Client.given]
      rw [Function.update_of_ne (Ne.symm hv.1)]
      exact ih _ log hv.2

theorem second_mono (A : Client (Req ⊕ V) (Ans ⊕ Val) α) : ∀ {s s' : Nat}, s ≤ s' → A.Second s → A.Second s' := by
  induction A with
  | ret a => intros; trivial
  | ask q k ih => intro s s' hs h w; exact ih w hs (h w)
  | request r k ih =>
    cases r with
    | inl r => intro s s' hs h w; exact ih w hs (h w)
    | inr v =>
      rintro s s' hs ⟨s₁, rfl, h⟩
      exact ⟨s' - 1, by omega, fun w => ih w (by omega) (h w)⟩

theorem exists_second [Finite Ans] [Finite Val] (A : Client (Req ⊕ V) (Ans ⊕ Val) α) : ∃ s, A.Second s := by
  induction A with
  | ret a => exact ⟨0, trivial⟩
  | ask q k ih =>
    choose s hs using ih
    haveI := Fintype.ofFinite (Arr 64)
    exact ⟨Finset.univ.sup s, fun w => second_mono _ (Finset.le_sup (f := s) (Finset.mem_univ w)) (hs w)⟩
  | request r k ih =>
    choose s hs using ih
    haveI := Fintype.ofFinite (Ans ⊕ Val)
    cases r with
    | inl r => exact ⟨Finset.univ.sup s, fun w => second_mono _ (Finset.le_sup (f := s) (Finset.mem_univ w)) (hs w)⟩
    | inr v => exact ⟨Finset.univ.sup s + 1, _, rfl, fun w => second_mono _ (Finset.le_sup (f := s) (Finset.mem_univ w)) (hs w)⟩

end

/-! ### From the expanded key to a random key -/

/-- The secret key that Ed25519 makes of 64 bytes. -/
def clampedKey (w : Arr 64) : SecretKey := ⟨Scalar.ofZ (clampedScalar (halves w).1), (halves w).2⟩

theorem expandedEdKey_eq (O : Oracles) (h : Arr 32 → Arr 64) (m : Arr 32) : expandedEdKey (withSha O h) m = clampedKey (h m) := by
  letI := withSha O h
  obtain ⟨h1, -, -, h4, h5⟩ := expand_ed25519_spec (⟨m⟩ : MiniSecretKey)
  have hs : Oracles.sha512 (⟨m⟩ : MiniSecretKey).bytes.1 = h m := by
    show (if e : m.1.length = 32 then h ⟨m.1, e⟩ else O.sha512 m.1) = _
    rw [dif_pos m.2]
  rw [hs] at h1 h5
  show MiniSecretKey.expand ⟨m⟩ .ed25519 = _
  have e1 : (MiniSecretKey.expand ⟨m⟩ .ed25519).key = Scalar.ofZ (clampedScalar (halves (h m)).1) := by
    rw [← h4.ofZ_toZ]
    refine congrArg Scalar.ofZ ?_
    unfold clampedScalar Scalar.toZ
    rw [h1]
    rfl
  have e2 : (MiniSecretKey.expand ⟨m⟩ .ed25519).nonce = (halves (h m)).2 := Subtype.ext h5
  rw [clampedKey, ← e1, ← e2]

theorem softEq_sha (O H : Oracles) (h : Arr 32 → Arr 64) (e : SoftEq H O) : SoftEq (withSha H h) O := e

/-- The wallet and the attacker's success do not depend on SHA-512. -/
theorem forges_merlin (O H H' : Oracles) (e : SoftEq H O) (hm : ∀ l n, H.merlin l n = H'.merlin l n) (cc : ChainCode)
    (A : PublicKey P → Client (WalletRequest P) (KeyAnswer P) (WalletForgery P)) (sk : SecretKey) (hk : sk.key.Canonical) :
    ForgesWallet H cc A sk ↔ ForgesWallet H' cc A sk := by
  have e' : SoftEq H' O := fun log cc pk => by
    rw [← hm, ← hm]
    exact e log cc pk
  obtain ⟨key, n⟩ := sk
  have hpk : (SecretKey.toPublic ⟨key, n⟩ : PublicKey P) = RistrettoBoth.fromPoint (key.toZ • basepoint) := by
    show RistrettoBoth.fromPoint (key •. (basepoint : P)) = _
    rw [mulPoint_eq]
  have e1 : serveWallet H (SecretKey.toKeypair ⟨key, n⟩ : Keypair P) cc = serveWallet H' (SecretKey.toKeypair ⟨key, n⟩ : Keypair P) cc :=
    serveWallet_except (m := zeros 32) (fun l n _ => hm l n) O e e' _ cc key hk hpk n
  have e2 : ∀ pk : PublicKey P, walletKey H pk cc = walletKey H' pk cc := fun pk => funext fun p => by
    unfold walletKey
    rw [publicChildOf_congr e, publicChildOf_congr e']
  have e3 : ∀ (s : WalletRequest P → KeyAnswer P) (B : Client (WalletRequest P) (KeyAnswer P) (WalletForgery P × List (WalletRequest P × KeyAnswer P))),
      B.play H s = B.play H' s := fun s B => play_congr H H' (fun l => hm l 64) s B
  unfold ForgesWallet
  simp only
  rw [e1, e2, e3]
  exact ⟨fun hv => valid_congr (hashWith_congr (hm _ _)) hv, fun hv => valid_congr (hashWith_congr (hm _ _).symm) hv⟩

theorem clampedKey_public (w : Arr 64) : ((clampedKey w).toPublic : PublicKey P) = publicOf (clampedScalar (halves w).1) := by
  show RistrettoBoth.fromPoint (Scalar.ofZ (clampedScalar (halves w).1) •. (basepoint : P)) = _
  rw [mulPoint_eq, Scalar.toZ_ofZ]
  rfl

theorem chance_mem_list32 (l : List (Arr 32)) : chance (fun m : Arr 32 => m ∈ l) ≤ l.length / 2 ^ 256 := by
  have h1 : ∀ y : Arr 32, chance (fun m : Arr 32 => id m = y) ≤ 1 / 2 ^ 256 := by
    intro y
    unfold chance
    rw [card_arr32]
    have : Nat.card {m : Arr 32 // id m = y} = 1 := by
      haveI : Unique {m : Arr 32 // id m = y} := ⟨⟨⟨y, rfl⟩⟩, fun a => Subtype.ext a.2⟩
      exact Nat.card_unique
    rw [this]
    norm_num
  have := chance_mem_of_one (id : Arr 32 → Arr 32) _ h1 l
  rw [mul_one_div] at this
  refine le_trans (chance_mono fun m hm => ?_) this
  exact ⟨m, hm, rfl⟩

theorem chance_mem_short (l : List (Arr 32)) (s : Nat) (h : l.length ≤ s) : chance (fun m : Arr 32 => m ∈ l) ≤ s / 2 ^ 256 :=
  le_trans (chance_mem_list32 l) (div_le_div_of_nonneg_right (Nat.cast_le.mpr h) (by positivity))

/-- A game in which the secret is made of the SHA-512 hash of a random string, against the same game with random bytes. -/
theorem sha_diff {Ω : Type} [Finite Ω] [Nonempty Ω] (real : Arr 32 → (Arr 32 → Arr 64) → Ω → Prop)
    (ideal : Arr 64 → (Arr 32 → Arr 64) → Ω → Prop) (seen : Arr 64 → (Arr 32 → Arr 64) → Ω → List (Arr 32)) (s : Nat)
    (hs : ∀ w h f, (seen w h f).length ≤ s)
    (hdiff : ∀ m w h f, m ∉ seen w h f → (real m (fun y => if y = m then w else h y) f ↔ ideal w h f)) :
    |chance (fun ω : Arr 32 × (Arr 32 → Arr 64) × Ω => real ω.1 ω.2.1 ω.2.2) -
      chance (fun ω : Arr 64 × (Arr 32 → Arr 64) × Ω => ideal ω.1 ω.2.1 ω.2.2)| ≤ s / 2 ^ 256 := by
  have hb : chance (fun ω : Arr 32 × Arr 64 × (Arr 32 → Arr 64) × Ω => ω.1 ∈ seen ω.2.1 ω.2.2.1 ω.2.2.2) ≤ s / 2 ^ 256 := by
    have hne : Nonempty (Arr 64 × (Arr 32 → Arr 64) × Ω) := ⟨zeros 64, fun _ => zeros 64, Classical.arbitrary Ω⟩
    refine chance_prod_le _ _ fun ω => ?_
    have e := chance_mem_short (seen ω.1 ω.2.1 ω.2.2) s (hs ω.1 ω.2.1 ω.2.2)
    refine le_trans (le_of_eq ?_) e
    exact congrArg chance (funext fun a => rfl)
  refine le_trans ?_ hb
  rw [← chance_snd (Ω := Arr 32) (fun ω : Arr 64 × (Arr 32 → Arr 64) × Ω => ideal ω.1 ω.2.1 ω.2.2)]
  rw [chance_eq_avg, chance_eq_avg, chance_eq_avg, avg_prod, avg_prod, avg_prod]
  simp only [avg_prod]
  have h1 : (avg fun m => avg fun h : Arr 32 → Arr 64 => avg fun f : Ω => ind (real m h f)) =
      avg fun m => avg fun w => avg fun h : Arr 32 → Arr 64 => avg fun f : Ω => ind (real m (fun y => if y = m then w else h y) f) :=
    avg_congr fun m => (avg_update m fun h => avg fun f : Ω => ind (real m h f)).trans
      (avg_congr fun w => avg_congr fun h => by
        rw [show Function.update h m w = fun y => if y = m then w else h y from funext fun y => Function.update_apply h m w y])
  have h2 : ∀ m w h, ∀ f : Ω, _ ∧ _ := fun m w h f =>
    ind_diff (real m (fun y => if y = m then w else h y) f) (ideal w h f) (m ∈ seen w h f) (hdiff m w h f)
  rw [h1, abs_le]
  constructor
  · rw [neg_le_sub_iff_le_add, ← avg_add]
    simp only [← avg_add]
    exact avg_mono fun m => avg_mono fun w => avg_mono fun h => avg_mono fun f => (h2 m w h f).2
  · rw [sub_le_iff_le_add', ← avg_add]
    simp only [← avg_add]
    exact avg_mono fun m => avg_mono fun w => avg_mono fun h => avg_mono fun f => (h2 m w h f).1

/-- The attacker's runs of SHA-512. -/
def shaAsked (H : Oracles) (cc : ChainCode) (A : PublicKey P → Client (WalletRequest P ⊕ Arr 32) (KeyAnswer P ⊕ Arr 64) (WalletForgery P))
    (h : Arr 32 → Arr 64) (sk : SecretKey) : List (Arr 32) :=
  secondAsked (withSha H h) (serveWallet (withSha H h) sk.toKeypair cc) h (A sk.toPublic)

theorem forges_given (O H : Oracles) (hS : SoftEq H O) (cc : ChainCode)
    (A : PublicKey P → Client (WalletRequest P ⊕ Arr 32) (KeyAnswer P ⊕ Arr 64) (WalletForgery P)) (h : Arr 32 → Arr 64) (m : Arr 32)
    (w : Arr 64) (sk : SecretKey) (hk : sk.key.Canonical) (hm : m ∉ shaAsked H cc A h sk) :
    ForgesWallet (withSha H fun y => if y = m then w else h y) cc (fun pk => (A pk).given fun y => if y = m then w else h y) sk ↔
      ForgesWallet (withSha H h) cc (fun pk => (A pk).given h) sk := by
  refine (forges_merlin O (withSha H fun y => if y = m then w else h y) (withSha H h) (softEq_sha O H _ hS) (fun _ _ => rfl) cc
    (fun pk => (A pk).given fun y => if y = m then w else h y) sk hk).trans ?_
  have e := given_logged_congr (withSha H h) (serveWallet (withSha H h) sk.toKeypair cc) h m w (A sk.toPublic) [] hm
  rw [show Function.update h m w = fun y => if y = m then w else h y from funext fun y => Function.update_apply h m w y] at e
  unfold ForgesWallet
  have e' : (sk.toKeypair : Keypair P).pub = sk.toPublic := rfl
  simp only
  rw [e', e]

theorem clampedKey_canonical (w : Arr 64) : (clampedKey w).key.Canonical := by
  unfold clampedKey
  exact Scalar.canonical_ofZ _

/-- **C76** (Ed25519 mode, first half) for every attacker with at most `s` evaluations of SHA-512 and any number of other
hash queries and requests, the chances of a forgery against a wallet expanded in Ed25519 mode from a random mini secret key
and against a wallet with a key made of 64 random bytes differ by at most `s / 2^256`. -/
theorem mini_wallet_ed_like_random (O : Oracles) (cc : ChainCode) (hS : NoSoftQuery D)
    (A : PublicKey P → Client (WalletRequest P ⊕ Arr 32) (KeyAnswer P ⊕ Arr 64) (WalletForgery P)) (s : Nat)
    (hA : ∀ x : Z, (A (publicOf x)).Second s) :
    |chance (fun ω : Arr 32 × (Arr 32 → Arr 64) × (D → Arr 64) =>
        let H := withSha (wideTable O D ω.2.2) ω.2.1
        ForgesWallet H cc (fun pk => (A pk).given ω.2.1) (expandedEdKey H ω.1)) -
      chance (fun ω : Arr 64 × (Arr 32 → Arr 64) × (D → Arr 64) =>
        ForgesWallet (withSha (wideTable O D ω.2.2) ω.2.1) cc (fun pk => (A pk).given ω.2.1) (clampedKey ω.1))| ≤
    s / 2 ^ 256 := by
  haveI : Nonempty (D → Arr 64) := ⟨fun _ => zeros 64⟩
  refine sha_diff (Ω := D → Arr 64)
    (fun m h f => ForgesWallet (withSha (wideTable O D f) h) cc (fun pk => (A pk).given h) (expandedEdKey (withSha (wideTable O D f) h) m))
    (fun w h f => ForgesWallet (withSha (wideTable O D f) h) cc (fun pk => (A pk).given h) (clampedKey w))
    (fun w h f => shaAsked (wideTable O D f) cc A h (clampedKey w)) s (fun w h f => ?_) (fun m w h f hm => ?_)
  · refine secondAsked_length (withSha (wideTable O D f) h) (serveWallet (withSha (wideTable O D f) h) (clampedKey w).toKeypair cc) h
      (A (clampedKey w).toPublic) ?_
    rw [clampedKey_public]
    exact hA _
  · have hk : expandedEdKey (withSha (wideTable O D f) (fun y => if y = m then w else h y)) m = clampedKey w := by
      rw [expandedEdKey_eq, if_pos rfl]
    rw [hk]
    exact forges_given O _ (softEq_wide O hS f) cc A h m w (clampedKey w) (clampedKey_canonical w) hm

theorem ed_avg (O : Oracles) (hS : NoSoftQuery D) (cc : ChainCode)
    (A : PublicKey P → Client (WalletRequest P ⊕ Arr 32) (KeyAnswer P ⊕ Arr 64) (WalletForgery P)) :
    chance (fun ω : Arr 64 × (Arr 32 → Arr 64) × (D → Arr 64) =>
        ForgesWallet (withSha (wideTable O D ω.2.2) ω.2.1) cc (fun pk => (A pk).given ω.2.1) (clampedKey ω.1)) =
      avg fun ω : Arr 32 × (Arr 32 → Arr 64) => chance fun y : Arr 32 × (D → Arr 64) =>
        ForgesWallet (wideTable O D y.2) cc (fun pk => (A pk).given ω.2) ⟨Scalar.ofZ (clampedScalar ω.1), y.1⟩ := by
  have e : ∀ ω : Arr 64 × (Arr 32 → Arr 64) × (D → Arr 64),
      ForgesWallet (withSha (wideTable O D ω.2.2) ω.2.1) cc (fun pk => (A pk).given ω.2.1) (clampedKey ω.1) =
      ForgesWallet (wideTable O D ω.2.2) cc (fun pk => (A pk).given ω.2.1) (clampedKey ω.1) := fun ω => propext
    (forges_merlin O (withSha (wideTable O D ω.2.2) ω.2.1) (wideTable O D ω.2.2) (softEq_sha O _ _ (softEq_wide O hS _))
      (fun _ _ => rfl) cc (fun pk => (A pk).given ω.2.1) _ (clampedKey_canonical _))
  simp only [e]
  rw [chance_eq_avg, avg_prod, ← avg_equiv halves.symm, avg_prod]
  simp only [avg_prod, clampedKey, Equiv.apply_symm_apply]
  refine avg_congr fun a => ?_
  rw [avg_comm]
  refine avg_congr fun h => ?_
  rw [chance_eq_avg, avg_prod]

/-- **C76** (Ed25519 mode) the same as `mini_wallet_unforgeable` for a wallet made from a random mini secret key by
`MiniSecretKey::expand` in Ed25519 mode, the one used by most wallets.  The attacker may also evaluate SHA-512 (as a request
of the second sort), at most `s` times, and SHA-512 is random as well.  Then `extractWalletFrom` finds the discrete logarithm
of a random public key — of the scalar that Ed25519 makes of 32 random bytes — with probability at least
`δ(δ/(q+1) − guess)`, where `δ = ε − s/2²⁵⁶ − c(c+q)/2²⁵⁶ − m((q+m)·guess + spare)`. -/
theorem mini_wallet_ed_unforgeable (O : Oracles) (cc : ChainCode)
    (A : PublicKey P → Client (WalletRequest P ⊕ Arr 32) (KeyAnswer P ⊕ Arr 64) (WalletForgery P)) (q m s : Nat)
    (hs : ∀ x : Z, (A (publicOf x)).Second s)
    (hA : ∀ (x : Z) h, ((A (publicOf x)).given h).Limited D WalletRequest.use K
      (fun c => c.claim.query (walletKey O (publicOf x) cc c.path) ∈ D) q m)
    (hC : ∀ x : Z, CoversWallet O (publicOf x) cc (Scalar.ofZ x) D J K) :
    let ε := chance fun ω : Arr 32 × (Arr 32 → Arr 64) × (D → Arr 64) =>
      let H := withSha (wideTable O D ω.2.2) ω.2.1
      ForgesWallet H cc (fun pk => (A pk).given ω.2.1) (expandedEdKey H ω.1)
    let loss : ℚ := s / 2 ^ 256 + (J.card * (J.card + q : Nat) / 2 ^ 256 + m * ((q + m : Nat) * guess + spare))
    loss ≤ ε →
    (ε - loss) * ((ε - loss) / (q + 1 : Nat) - guess) ≤
      chance fun ω : (Arr 32 × (Arr 32 → Arr 64)) × (K → Arr 64 × Arr 64) × (D → Arr 64) × (D → Arr 64) =>
        let x := clampedScalar ω.1.1
        extractWalletFrom O (publicOf x : PublicKey P) cc (fun I => x • I) ((A (publicOf x)).given ω.1.2) ω.2.1 ω.2.2.1 ω.2.2.2 = x := by
  intro ε loss hle
  have hS : NoSoftQuery D := (hC 0).noSoft
  have s1 := (abs_le.mp (mini_wallet_ed_like_random O cc hS A s hs)).2
  haveI : Nonempty (Arr 32 × (Arr 32 → Arr 64)) := ⟨zeros 32, fun _ => zeros 64⟩
  refine wallet_average (Ω := Arr 32 × (Arr 32 → Arr 64)) O cc (fun ω => clampedScalar ω.1) (fun ω pk => (A pk).given ω.2) q m
    (fun ω => hA _ _) (fun ω => hC _) ε loss ?_ hle
  rw [ed_avg O hS cc A] at s1
  simp only [loss]
  linarith

/-! ### The hypotheses are met by every attacker -/

theorem knowing_given {Req Ans V Val α : Type} (O : Oracles) (S : Set (List MOp)) (h : V → Val) (A : Client (Req ⊕ V) (Ans ⊕ Val) α) :
    (A.knowing O S).given h = (A.given h).knowing O S := by
  induction A with
  | ret a => rfl
  | ask q k ih =>
    simp only [Client.knowing, Client.given]
    split_ifs
    · exact ih _
    · simp only [Client.given, ih]
  | request r k ih =>
    cases r with
    | inl r => simp only [Client.knowing, Client.given, ih]
    | inr v => simp only [Client.knowing, Client.given, ih]

private instance : Finite Z := inferInstanceAs (Finite (ZMod ell))

/-- **C76** every attacker satisfies the hypotheses of `mini_wallet_ed_unforgeable`, for suitable finite sets and bounds,
once it looks up tweaks and chain codes by itself (which makes no difference: `knowing_play`). -/
theorem every_mini_wallet_ed_attacker_is_limited (O : Oracles) (cc : ChainCode)
    (A : PublicKey P → Client (WalletRequest P ⊕ Arr 32) (KeyAnswer P ⊕ Arr 64) (WalletForgery P)) :
    ∃ D J K q m s, (∀ x : Z, ((A (publicOf x)).knowing O softQueries).Second s) ∧
      (∀ (x : Z) h, (((A (publicOf x)).knowing O softQueries).given h).Limited D WalletRequest.use K
        (fun c => c.claim.query (walletKey O (publicOf x) cc c.path) ∈ D) q m) ∧
      ∀ x : Z, CoversWallet O (publicOf x : PublicKey P) cc (Scalar.ofZ x) D J K := by
  haveI := finiteAnswer (P := P)
  haveI := Fintype.ofFinite Z
  obtain ⟨D, J, K, q, m, -, h1, h2⟩ := wallet_family_limited (ι := Z × (Arr 32 → Arr 64)) O cc Prod.fst
    fun i => (A (publicOf i.1)).given i.2
  choose s hs using fun x : Z => exists_second ((A (publicOf x)).knowing O softQueries)
  refine ⟨D, J, K, q, m, Finset.univ.sup s, fun x => ?_, fun x h => ?_, fun x => h2 (x, fun _ => zeros 64)⟩
  · exact second_mono _ (Finset.le_sup (f := s) (Finset.mem_univ x)) (hs x)
  · rw [knowing_given]
    exact h1 (x, h)

/-- Non-vacuity: the attacker of unlimited power succeeds with probability one against these wallets, too. -/
example (O : Oracles) (cc : ChainCode) (t t' : Transcript) (ht : t ≠ t') (sys : Rng) (D : Finset (List MOp)) (hD : NoSoftQuery D) :
    ∃ A : PublicKey P → Client (WalletRequest P ⊕ Arr 32) (KeyAnswer P ⊕ Arr 64) (WalletForgery P),
    (chance fun ω : Arr 32 × (Arr 32 → Arr 64) × (D → Arr 64) =>
      let H := withSha (wideTable O D ω.2.2) ω.2.1
      ForgesWallet H cc (fun pk => (A pk).given ω.2.1) (expandedEdKey H ω.1)) = 1 := by
  have lift : ∀ B : Client (WalletRequest P) (KeyAnswer P) (WalletForgery P),
      ∃ C : Client (WalletRequest P ⊕ Arr 32) (KeyAnswer P ⊕ Arr 64) (WalletForgery P), ∀ h, C.given h = B := by
    intro B
    induction B with
    | ret a => exact ⟨.ret a, fun h => rfl⟩
    | ask q k ih => choose C hC using ih; exact ⟨.ask q C, fun h => congrArg (Client.ask q) (funext fun w => hC w h)⟩
    | request r k ih =>
      choose C hC using ih
      refine ⟨.request (.inl r) fun a => match a with | .inl a => C a | .inr _ => .ret (⟨[], .signature t []⟩), fun h => ?_⟩
      exact congrArg (Client.request r) (funext fun a => hC a h)
  choose A hA using fun pk : PublicKey P => lift (walletBreaker O cc t t' sys pk)
  refine ⟨A, ?_⟩
  have h : ∀ ω : Arr 32 × (Arr 32 → Arr 64) × (D → Arr 64),
      let H := withSha (wideTable O D ω.2.2) ω.2.1
      ForgesWallet H cc (fun pk => (A pk).given ω.2.1) (expandedEdKey H ω.1) := by
    intro ω
    simp only [hA]
    exact walletInsider_wins O _ (softEq_sha O _ _ (softEq_wide O hD ω.2.2)) _ cc _ (exists_smul_basepoint _).choose_spec t t' ht sys _
  rw [chance_eq_avg]
  simp only at h
  simp only [ind, h, if_true]
  haveI : Nonempty (Arr 32 × (Arr 32 → Arr 64) × (D → Arr 64)) := ⟨zeros 32, fun _ => zeros 64, fun _ => zeros 64⟩
  exact avg_const 1

end Schnorrkel.Props
