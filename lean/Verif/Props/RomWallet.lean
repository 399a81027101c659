import Verif.Lemmas.RomTree
import Verif.Spec.RomWallet
import Verif.Props.RomKey
import Verif.Props.RomOwner
import Verif.Props.Derive
import Verif.Props.Witness

/-! # C75: a key pair and all the key pairs soft-derived from it -/

namespace Schnorrkel.Props
open Spec Schnorrkel
variable {P : Type} [Ristretto P] {D : Finset (List MOp)} {K : Finset (WalletUse P)} {J : Finset (List (List MOp × Arr 32))}

/-! ### The keys of a wallet -/

/-- Two hash functions that agree on soft derivations. -/
def SoftEq (O O' : Oracles) : Prop := ∀ log cc pk, O.merlin (softQuery log cc pk) 64 = O'.merlin (softQuery log cc pk) 64 ∧
  O.merlin (softQuery log cc pk ++ [.challenge (b! "HDKD-chaincode") 32]) 32 =
    O'.merlin (softQuery log cc pk ++ [.challenge (b! "HDKD-chaincode") 32]) 32

theorem softEq_wide (O : Oracles) (hD : NoSoftQuery D) (f : D → Arr 64) : SoftEq (wideTable O D f) O := by
  intro log cc pk
  obtain ⟨h1, h2⟩ := hD log cc pk
  constructor
  · show (if h : _ ∈ D ∧ 64 ≤ 64 then _ else _ : Arr 64) = _
    rw [dif_neg fun e => h1 e.1]
  · show (if h : _ ∈ D ∧ 32 ≤ 64 then _ else _ : Arr 32) = _
    rw [dif_neg fun e => h2 e.1]

/-- Zero as a scalar. -/
private theorem zero_canonical : (Scalar.ofZ 0).Canonical := Scalar.canonical_ofZ 0

theorem publicChildOf_cons (O : Oracles) (pk : PublicKey P) (cc : ChainCode) (t : Transcript) (p : List Transcript) :
    letI := O
    publicChildOf O pk cc (t :: p) =
      (RistrettoBoth.fromPoint ((publicChildOf O pk cc p).1.point +
        softTweak t.log (publicChildOf O pk cc p).2.bytes.1 (publicChildOf O pk cc p).1.compressed.1 • basepoint),
       ⟨softChaincode t.log (publicChildOf O pk cc p).2.bytes.1 (publicChildOf O pk cc p).1.compressed.1⟩) := by
  letI := O
  have h := (soft_derivation_spec (⟨⟨Scalar.ofZ 0, zeros 32⟩, (publicChildOf O pk cc p).1⟩ : Keypair P) zero_canonical t
    (publicChildOf O pk cc p).2 notAnRng notAnRng).2.2.1
  simp only at h
  exact Prod.ext h.1 h.2

theorem softTweak_congr {O O' : Oracles} (h : SoftEq O O') (log : List MOp) (cc pk : Bytes) :
    @softTweak O log cc pk = @softTweak O' log cc pk := by
  unfold softTweak hashToZ
  rw [show @Oracles.merlin O _ 64 = _ from (h log cc pk).1]

theorem softChaincode_congr {O O' : Oracles} (h : SoftEq O O') (log : List MOp) (cc pk : Bytes) :
    @softChaincode O log cc pk = @softChaincode O' log cc pk := (h log cc pk).2

theorem publicChildOf_congr {O O' : Oracles} (h : SoftEq O O') (pk : PublicKey P) (cc : ChainCode) (p : List Transcript) :
    publicChildOf O pk cc p = publicChildOf O' pk cc p := by
  induction p with
  | nil => rfl
  | cons t p ih => rw [publicChildOf_cons, publicChildOf_cons, ih, softTweak_congr h, softChaincode_congr h]

/-- Public keys of the wallet are the root key plus the tweaks. -/
theorem walletKey_point (O : Oracles) (pk : PublicKey P) (cc : ChainCode) (p : List Transcript) :
    (walletKey O pk cc p).point = pk.point + tweakOf O pk cc p • basepoint := by
  induction p with
  | nil => show pk.point = pk.point + (0 : Z) • basepoint; rw [zero_smul, add_zero]
  | cons t p ih =>
    unfold walletKey at ih ⊢
    rw [publicChildOf_cons]
    simp only [RistrettoBoth.fromPoint, tweakOf]
    rw [ih, add_smul, add_assoc]

theorem walletKey_wf (O : Oracles) (pk : PublicKey P) (hpk : pk = RistrettoBoth.fromPoint pk.point) (cc : ChainCode)
    (p : List Transcript) : walletKey O pk cc p = RistrettoBoth.fromPoint (walletKey O pk cc p).point := by
  cases p with
  | nil => exact hpk
  | cons t p => unfold walletKey; rw [publicChildOf_cons]; rfl

theorem walletKey_inj (O : Oracles) (pk : PublicKey P) (hpk : pk = RistrettoBoth.fromPoint pk.point) (cc : ChainCode)
    (p p' : List Transcript) (h : (walletKey O pk cc p).compressed.1 = (walletKey O pk cc p').compressed.1) :
    walletKey O pk cc p = walletKey O pk cc p' ∧ tweakOf O pk cc p = tweakOf O pk cc p' := by
  have h1 : (walletKey O pk cc p).point = (walletKey O pk cc p').point := by
    rw [walletKey_wf O pk hpk cc p, walletKey_wf O pk hpk cc p'] at h
    exact compress_inj.mp (Subtype.ext h)
  refine ⟨by rw [walletKey_wf O pk hpk cc p, walletKey_wf O pk hpk cc p', h1], ?_⟩
  rw [walletKey_point, walletKey_point] at h1
  exact smul_basepoint_inj.mp (add_left_cancel h1)

/-- The secret scalars of the wallet. -/
noncomputable def keyAt (O : Oracles) (pk : PublicKey P) (cc : ChainCode) (key : Scalar) (p : List Transcript) : Scalar :=
  Scalar.ofZ (key.toZ + tweakOf O pk cc p)

/-- The nonce seeds of the wallet. -/
noncomputable def seedAt (H O : Oracles) (pk : PublicKey P) (cc : ChainCode) (key : Scalar) (n : Arr 32) :
    List (List MOp × Arr 32) → Arr 32
  | [] => n
  | s :: p => H.merlin (seedQuery O pk cc key s p (seedAt H O pk cc key n p)) 32

theorem transcripts_steps (p : List (Transcript × Rng)) : transcriptsOf (p.map stepUse) = p.map Prod.fst := by
  unfold transcriptsOf
  rw [List.map_map]
  rfl

/-- Every key pair of the wallet: the secret scalar is that of the root plus the tweaks, the nonce seed is a hash of the
parent's. -/
theorem childOf_eq (H O : Oracles) (h : SoftEq H O) (pk : PublicKey P) (cc : ChainCode) (key : Scalar) (hk : key.Canonical)
    (hpk : pk = RistrettoBoth.fromPoint (key.toZ • basepoint)) (n : Arr 32) (p : List (Transcript × Rng)) :
    childOf H ⟨⟨key, n⟩, pk⟩ cc p =
      (⟨⟨keyAt O pk cc key (p.map Prod.fst), seedAt H O pk cc key n (p.map stepUse)⟩, walletKey O pk cc (p.map Prod.fst)⟩,
        (publicChildOf O pk cc (p.map Prod.fst)).2) := by
  induction p with
  | nil =>
    have : keyAt O pk cc key [] = key := by
      unfold keyAt tweakOf
      rw [add_zero, hk.ofZ_toZ]
    simp only [childOf, List.map_nil, seedAt, walletKey, publicChildOf, this]
  | cons s p ih =>
    letI := H
    have hc : childOf H (⟨⟨key, n⟩, pk⟩ : Keypair P) cc (s :: p) =
      ((Derivation.derivedKey (childOf H (⟨⟨key, n⟩, pk⟩ : Keypair P) cc p).1 s.1 (childOf H (⟨⟨key, n⟩, pk⟩ : Keypair P) cc p).2 s.2).1,
      (Derivation.derivedKey (childOf H (⟨⟨key, n⟩, pk⟩ : Keypair P) cc p).1 s.1 (childOf H (⟨⟨key, n⟩, pk⟩ : Keypair P) cc p).2 s.2).2.1) := rfl
    rw [hc, ih]
    set q := p.map Prod.fst with hq
    set kp : Keypair P := ⟨⟨keyAt O pk cc key q, seedAt H O pk cc key n (p.map stepUse)⟩, walletKey O pk cc q⟩ with hkp
    have hcan : kp.secret.key.Canonical := Scalar.canonical_ofZ _
    obtain ⟨⟨h1, h2, h3, h4⟩, -, -, -⟩ := soft_derivation_spec kp hcan s.1 (publicChildOf O pk cc q).2 notAnRng s.2
    have h5 := derived_nonce_is_hash kp s.1 (publicChildOf O pk cc q).2 s.2
    set child := Derivation.derivedKey kp s.1 (publicChildOf O pk cc q).2 s.2 with hchild
    have hz : child.1.secret.key.toZ = key.toZ + tweakOf O pk cc (s.1 :: q) := by
      rw [h1]
      simp only [hkp, keyAt, Scalar.toZ_ofZ, tweakOf]
      rw [softTweak_congr h, add_assoc]
      rfl
    refine Prod.ext ?_ ?_
    · have e1 : child.1.secret.key = keyAt O pk cc key (s.1 :: q) := by
        rw [← h3.ofZ_toZ, hz]; rfl
      have e2 : child.1.secret.nonce = seedAt H O pk cc key n (stepUse s :: p.map stepUse) := by
        rw [h5]
        simp only [seedAt, seedQuery, transcripts_steps, Use.query, ← hq]
        rfl
      have e3 : child.1.pub = walletKey O pk cc (s.1 :: q) := by
        have hpt : pk.point = key.toZ • (basepoint : P) := by rw [hpk]; rfl
        rw [h4, walletKey_wf O pk (by rw [hpk]; rfl), walletKey_point, hpt]
        show RistrettoBoth.fromPoint (child.1.secret.key •. (basepoint : P)) = _
        rw [mulPoint_eq, hz, add_smul]
      simp only [List.map_cons, ← hq]
      rw [← e1, ← e2, ← e3]
    · simp only [List.map_cons, ← hq]
      rw [h2, publicChildOf_cons, softChaincode_congr h]
      rfl

/-! ### Separation of the queries -/

theorem nonce_seed_inj (pk pk' : PublicKey P) (n n' : Arr 32) (k k' : KeyUse P)
    (h : k.nonceQuery pk n = k'.nonceQuery pk' n') : n = n' := by
  rw [← nonceUse_query, ← nonceUse_query] at h
  have h := hash_uses_separated _ _ (nonceUse_wf ..) (nonceUse_wf ..) h
  cases k with
  | sign log rng =>
    cases k' with
    | sign log' rng' =>
      simp only [KeyUse.nonceUse, Use.norm, Use.signNonce.injEq] at h
      exact Subtype.ext h.2.2.1
    | prove log' I' ku' rng' => cases ku' <;> simp [KeyUse.nonceUse, Use.norm] at h
    | issue log' S' rng' => simp [KeyUse.nonceUse, Use.norm] at h
  | prove log I ku rng =>
    cases k' with
    | sign log' rng' => cases ku <;> simp [KeyUse.nonceUse, Use.norm] at h
    | prove log' I' ku' rng' =>
      cases ku <;> cases ku' <;> simp [KeyUse.nonceUse, Use.norm] at h
      · exact Subtype.ext h.2.2.2.1
      · exact Subtype.ext h.2.2.1
    | issue log' S' rng' => cases ku <;> simp [KeyUse.nonceUse, Use.norm] at h
  | issue log S rng =>
    cases k' with
    | sign log' rng' => simp [KeyUse.nonceUse, Use.norm] at h
    | prove log' I' ku' rng' => cases ku' <;> simp [KeyUse.nonceUse, Use.norm] at h
    | issue log' S' rng' =>
      simp only [KeyUse.nonceUse, Use.norm, Use.issuing.injEq] at h
      exact Subtype.ext h.2.2.1

/-- The uses of the hash that answers to requests reveal. -/
def Shown : Use → Prop
  | .signature _ _ _ => True
  | .dleq _ _ _ _ _ _ _ => True
  | .cert _ _ _ => True
  | _ => False

theorem asUse_shown (pk : PublicKey P) (dh : P → P) (k : KeyUse P) (z w : Z) : Shown (KeyUse.asUse pk dh k z w) := by
  cases k <;> exact trivial

theorem nonce_not_shown (pk : PublicKey P) (n : Arr 32) (k : KeyUse P) (u : Use) (hu : Shown u) (hwf : u.WF) (hn : u.norm = u) :
    k.nonceQuery pk n ≠ u.query := by
  intro h
  rw [← nonceUse_query] at h
  have h := hash_uses_separated _ _ (nonceUse_wf ..) hwf h
  rw [hn] at h
  rw [← h] at hu
  cases k with
  | prove log I ku rng => cases ku <;> simp [KeyUse.nonceUse, Use.norm, Shown] at hu
  | _ => simp [KeyUse.nonceUse, Use.norm, Shown] at hu

/-- The query for a derived nonce seed as a use of the hash. -/
noncomputable def seedUse (O : Oracles) (pk : PublicKey P) (cc : ChainCode) (key : Scalar) (s : List MOp × Arr 32)
    (p : List (List MOp × Arr 32)) (n : Arr 32) : Use :=
  Use.derivedNonce s.1 (publicChildOf O pk cc (transcriptsOf p)).2.bytes.1 (walletKey O pk cc (transcriptsOf p)).compressed.1
    n.1 ((Scalar.ofZ (key.toZ + tweakOf O pk cc (transcriptsOf p))).bytes.1 ++ n.1) s.2.1

theorem seedUse_query (O : Oracles) (pk : PublicKey P) (cc : ChainCode) (key : Scalar) (s : List MOp × Arr 32)
    (p : List (List MOp × Arr 32)) (n : Arr 32) : (seedUse O pk cc key s p n).query = seedQuery O pk cc key s p n := rfl

theorem seedUse_wf (O : Oracles) (pk : PublicKey P) (cc : ChainCode) (key : Scalar) (s : List MOp × Arr 32)
    (p : List (List MOp × Arr 32)) (n : Arr 32) : (seedUse O pk cc key s p n).WF := trivial

theorem seed_not_shown (O : Oracles) (pk : PublicKey P) (cc : ChainCode) (key : Scalar) (s : List MOp × Arr 32)
    (p : List (List MOp × Arr 32)) (n : Arr 32) (u : Use) (hu : Shown u) (hwf : u.WF) (hn : u.norm = u) :
    seedQuery O pk cc key s p n ≠ u.query := by
  intro h
  rw [← seedUse_query] at h
  have h := hash_uses_separated _ _ (seedUse_wf ..) hwf h
  rw [hn] at h
  rw [← h] at hu
  simp [seedUse, Use.norm, Shown] at hu

theorem seed_ne_nonce (O : Oracles) (pk pk' : PublicKey P) (cc : ChainCode) (key : Scalar) (s : List MOp × Arr 32)
    (p : List (List MOp × Arr 32)) (n n' : Arr 32) (k : KeyUse P) : seedQuery O pk cc key s p n ≠ k.nonceQuery pk' n' := by
  intro h
  rw [← seedUse_query, ← nonceUse_query] at h
  have h := hash_uses_separated _ _ (seedUse_wf ..) (nonceUse_wf ..) h
  cases k with
  | prove log I ku rng => cases ku <;> simp [seedUse, KeyUse.nonceUse, Use.norm] at h
  | _ => simp [seedUse, KeyUse.nonceUse, Use.norm] at h

theorem seed_query_inj (O : Oracles) (pk : PublicKey P) (cc : ChainCode) (key : Scalar) (s s' : List MOp × Arr 32)
    (p p' : List (List MOp × Arr 32)) (n n' : Arr 32) (h : seedQuery O pk cc key s p n = seedQuery O pk cc key s' p' n') :
    n = n' ∧ s = s' := by
  rw [← seedUse_query, ← seedUse_query] at h
  have h := hash_uses_separated _ _ (seedUse_wf ..) (seedUse_wf ..) h
  simp only [seedUse, Use.norm, Use.derivedNonce.injEq] at h
  exact ⟨Subtype.ext h.2.2.2.1, Prod.ext h.1 (Subtype.ext h.2.2.2.2.2)⟩

theorem checks_shown {O : Oracles} {pk : PublicKey P} {c : KeyForgery P} (h : Checks O pk c) :
    ∃ u : Use, Shown u ∧ u.WF ∧ u.norm = u ∧ u.query = c.query pk := by
  obtain ⟨u, h1, h2, h3, h4⟩ := checks_use h
  refine ⟨u, ?_, h1, h2, h3⟩
  cases c with
  | signature t b => simp only at h4; rw [h4]; exact trivial
  | proof extra I Q kusama b => simp only at h4; obtain ⟨π, -, h4⟩ := h4; rw [h4]; exact trivial
  | cert t c sk => simp only at h4; rw [h4]; exact trivial

/-- The public key in a shown use. -/
def shownKey : Use → Bytes
  | .signature _ pk _ => pk
  | .dleq _ _ _ pk _ _ _ => pk
  | .cert _ pk _ => pk
  | _ => []

theorem shownKey_asUse (pk : PublicKey P) (dh : P → P) (k : KeyUse P) (z w : Z) :
    shownKey (KeyUse.asUse pk dh k z w) = pk.compressed.1 := by
  cases k <;> rfl

/-- The query of a claim that passes contains the public key. -/
theorem checks_key {O : Oracles} {pk : PublicKey P} {c : KeyForgery P} (h : Checks O pk c) :
    ∃ u : Use, u.WF ∧ u.norm = u ∧ u.query = c.query pk ∧ shownKey u = pk.compressed.1 := by
  obtain ⟨u, h1, h2, h3, h4⟩ := checks_use h
  refine ⟨u, h1, h2, h3, ?_⟩
  cases c with
  | signature t b => simp only at h4; rw [h4]; rfl
  | proof extra I Q kusama b => simp only at h4; obtain ⟨π, -, h4⟩ := h4; rw [h4]; rfl
  | cert t c sk => simp only at h4; rw [h4]; rfl

/-! ### Removing the nonce seeds -/

/-- The key pairs that own key pairs. -/
def walletParent (hp : ∀ s p, s :: p ∈ J → p ∈ J) : J → Option J
  | ⟨[], _⟩ => none
  | ⟨s :: p, h⟩ => some ⟨p, hp s p h⟩

/-- The query behind a nonce seed or a nonce, when the seed of the owner is `n`. -/
noncomputable def walletQuery (O : Oracles) (pk : PublicKey P) (cc : ChainCode) (key : Scalar) (n : Arr 32) : J ⊕ K → List MOp
  | .inl ⟨[], _⟩ => []
  | .inl ⟨s :: p, _⟩ => seedQuery O pk cc key s p n
  | .inr k => k.1.nonceQuery O pk cc n

open Classical in
/-- The table entries that nonce seeds are taken from. -/
noncomputable def nodeVal (O : Oracles) (pk : PublicKey P) (cc : ChainCode) (key : Scalar) (f : D → Arr 64) (w : Arr 64) :
    List (List MOp × Arr 32) → Arr 64
  | [] => w
  | s :: p => if h : seedQuery O pk cc key s p (seed32 (nodeVal O pk cc key f w p)) ∈ D then f ⟨_, h⟩ else zeros 64

theorem seedAt_eq (O : Oracles) (pk : PublicKey P) (cc : ChainCode) (key : Scalar) (hC : CoversWallet O pk cc key D J K)
    (f : D → Arr 64) (w : Arr 64) (p : List (List MOp × Arr 32)) (hp : p ∈ J) :
    seedAt (wideTable O D f) O pk cc key (seed32 w) p = seed32 (nodeVal O pk cc key f w p) := by
  induction p with
  | nil => rfl
  | cons s p ih =>
    simp only [seedAt, nodeVal]
    rw [ih (hC.parents s p hp), dif_pos (hC.seeds s p hp _)]
    apply Subtype.ext
    rw [wideTable_short O f _ (hC.seeds s p hp _) 32 (by omega), wideTable_hit O f _ (hC.seeds s p hp _)]
    rfl

/-- The secret in the response. -/
noncomputable def walletSecret (O : Oracles) (pk : PublicKey P) (cc : ChainCode) (x : Z) (k : WalletUse P) : Z :=
  KeyUse.secret (x + tweakOf O pk cc (transcriptsOf k.path)) k.use

theorem walletDh_eq (O : Oracles) (pk : PublicKey P) (cc : ChainCode) (x : Z) (p : List Transcript) :
    walletDh O pk cc (fun I : P => x • I) p = fun I => (x + tweakOf O pk cc p) • I := by
  funext I
  unfold walletDh
  rw [add_smul]

theorem wallet_query_shift (O : Oracles) (pk : PublicKey P) (cc : ChainCode) (x : Z) (hpk : pk.point = x • (basepoint : P))
    (k : WalletUse P) (v w : Z) : k.query O pk cc (fun I => x • I) (w * walletSecret O pk cc x k + v) w =
      k.query O pk cc (fun I => x • I) v 0 := by
  unfold WalletUse.query walletSecret
  rw [walletDh_eq]
  refine use_query_shift _ _ ?_ _ _ _
  rw [walletKey_point, hpk, add_smul]

/-- Every answer of the owner of a wallet has the shape of a sigma protocol. -/
theorem serveWallet_eq (H O : Oracles) (h : SoftEq H O) (pk : PublicKey P) (cc : ChainCode) (key : Scalar) (hk : key.Canonical)
    (hpk : pk = RistrettoBoth.fromPoint (key.toZ • basepoint)) (n : Arr 32) (r : WalletRequest P) :
    serveWallet H ⟨⟨key, n⟩, pk⟩ cc r = realAns H (WalletUse.query O pk cc fun I => key.toZ • I)
      (WalletUse.answer O pk cc fun I => key.toZ • I) (walletSecret O pk cc key.toZ) r.use
      (hashWith H (r.use.nonceQuery O pk cc (seedAt H O pk cc key n r.use.path))) := by
  have hpt : pk.point = key.toZ • (basepoint : P) := by rw [hpk]; rfl
  unfold serveWallet
  rw [childOf_eq H O h pk cc key hk hpk n r.path]
  simp only
  have hz : (keyAt O pk cc key (r.path.map Prod.fst)).toZ = key.toZ + tweakOf O pk cc (r.path.map Prod.fst) := Scalar.toZ_ofZ _
  have hcan : (keyAt O pk cc key (r.path.map Prod.fst)).Canonical := Scalar.canonical_ofZ _
  rw [serveKey_eq H _ _ (by rw [walletKey_point, hpt, hz, add_smul])]
  unfold realAns
  simp only [WalletUse.query, WalletUse.answer, walletSecret, WalletRequest.use, transcripts_steps, walletDh_eq,
    WalletUse.nonceQuery, hz]

theorem wallet_seeded_le (O : Oracles) (pk : PublicKey P) (cc : ChainCode) (key : Scalar) (hk : key.Canonical)
    (hpk : pk = RistrettoBoth.fromPoint (key.toZ • basepoint)) (hC : CoversWallet O pk cc key D J K)
    (A : Client (WalletRequest P) (KeyAnswer P) (WalletForgery P × List (WalletRequest P × KeyAnswer P))) (q m : Nat)
    (fin : WalletForgery P × List (WalletRequest P × KeyAnswer P) → Prop) (hA : A.Limited D WalletRequest.use K fin q m) :
    (chance fun ω : Arr 32 × (D → Arr 64) =>
      let H := wideTable O D ω.2
      let r := A.play H (serveWallet H ⟨⟨key, ω.1⟩, pk⟩ cc)
      r.1.Valid H (walletKey H pk cc) r.2) ≤
    (avg fun f : D → Arr 64 => avg fun N : K → Arr 64 => ind (
      let r := A.play (table O D f) fun r => realAns (table O D f) (WalletUse.query O pk cc fun I => key.toZ • I)
        (WalletUse.answer O pk cc fun I => key.toZ • I) (walletSecret O pk cc key.toZ) r.use (residue (noncesOf N r.use))
      r.1.Valid (table O D f) (walletKey O pk cc) r.2)) + J.card * (J.card + q : Nat) / 2 ^ 256 := by
  classical
  let node : K → J := fun k => ⟨k.1.path, hC.uses k.1 k.2⟩
  let parent : J → Option J := walletParent hC.parents
  let rank : J → Nat := fun j => j.1.length
  let kq : Arr 32 → J ⊕ K → List MOp := walletQuery O pk cc key
  let win : Oracles → WalletForgery P × List (WalletRequest P × KeyAnswer P) → Prop := fun O' r => r.1.Valid O' (walletKey O pk cc) r.2
  have hr : ∀ i j, parent i = some j → rank j < rank i := by
    rintro ⟨l, hl⟩ j h
    cases l with
    | nil => cases h
    | cons s p => cases h; exact Nat.lt_succ_self _
  have hD : ∀ n y i, treeOwner parent node y = some i → kq n y ∈ D := by
    rintro n (⟨l, hl⟩ | k) i h
    · cases l with
      | nil => cases h
      | cons s p => exact hC.seeds s p hl n
    · exact hC.nonces k.1 k.2 n
  have hinj : ∀ n (y : Owned (treeOwner parent node)) n' (y' : Owned (treeOwner parent node)), kq n y.1 = kq n' y'.1 →
      n = n' ∧ (treeOwner parent node y.1 = treeOwner parent node y'.1 → y.1 = y'.1) := by
    rintro n ⟨⟨l, hl⟩ | k, i, hi⟩ n' ⟨⟨l', hl'⟩ | k', i', hi'⟩ h
    · cases l with
      | nil => cases hi
      | cons s p =>
        cases l' with
        | nil => cases hi'
        | cons s' p' =>
          obtain ⟨h1, h2⟩ := seed_query_inj O pk cc key s s' p p' n n' h
          refine ⟨h1, fun ho => ?_⟩
          have ho : (⟨p, hC.parents s p hl⟩ : J) = ⟨p', hC.parents s' p' hl'⟩ := Sum.inl.inj (Option.some.inj ho)
          have hp : p = p' := congrArg Subtype.val ho
          clear ho
          subst h2 hp
          rfl
    · cases l with
      | nil => cases hi
      | cons s p => exact (seed_ne_nonce O pk _ cc key s p n n' _ h).elim
    · cases l' with
      | nil => cases hi'
      | cons s' p' => exact (seed_ne_nonce O pk _ cc key s' p' n' n _ h.symm).elim
    · have h : k.1.use.nonceQuery (walletKey O pk cc (transcriptsOf k.1.path)) n =
        k'.1.use.nonceQuery (walletKey O pk cc (transcriptsOf k'.1.path)) n' := h
      refine ⟨nonce_seed_inj _ _ _ _ _ _ h, fun ho => ?_⟩
      have ho : node k = node k' := Sum.inl.inj (Option.some.inj ho)
      have ho : k.1.path = k'.1.path := congrArg Subtype.val ho
      rw [ho] at h
      have hu := (use_nonce_inj _ _ _ _ _ h).2
      refine congrArg Sum.inr (Subtype.ext ?_)
      obtain ⟨⟨p, u⟩, hk⟩ := k
      obtain ⟨⟨p', u'⟩, hk'⟩ := k'
      simp only at ho hu
      subst ho hu
      rfl
  have hshown : ∀ n (y : Owned (treeOwner parent node)) (u : Use), Shown u → u.WF → u.norm = u → kq n y.1 ≠ u.query := by
    rintro n ⟨⟨l, hl⟩ | k, i, hi⟩ u h1 h2 h3
    · cases l with
      | nil => cases hi
      | cons s p => exact seed_not_shown O pk cc key s p n u h1 h2 h3
    · exact nonce_not_shown _ n _ u h1 h2 h3
  let val : (D → Arr 64) → (J ⊕ K → Arr 64) → J ⊕ K → Arr 64 := fun f g y => match y with
    | .inl j => nodeVal O pk cc key f (g (.inl ⟨[], hC.root⟩)) j.1
    | .inr k => f ⟨k.1.nonceQuery O pk cc (seed32 (nodeVal O pk cc key f (g (.inl ⟨[], hC.root⟩)) k.1.path)), hC.nonces k.1 k.2 _⟩
  have s1 := tree_service_le (ι := J) O (WalletUse.query O pk cc fun I => key.toZ • I)
    (WalletUse.answer O pk cc fun I => key.toZ • I) WalletRequest.use (walletSecret O pk cc key.toZ) parent node rank hr kq hinj
    (fun n y k v => by
      unfold WalletUse.query
      rw [← asUse_query]
      exact hshown n y _ (asUse_shown ..) (asUse_wf ..) (asUse_norm ..)) hD val
    (by
      rintro f g (⟨l, hl⟩ | k) h
      · cases l with
        | nil => rfl
        | cons s p => cases h
      · cases h)
    (by
      rintro f g (⟨l, hl⟩ | k) i h
      · cases l with
        | nil => cases h
        | cons s p =>
          cases h
          show nodeVal O pk cc key f _ (s :: p) = _
          rw [nodeVal, dif_pos (hC.seeds s p hl _)]
          rfl
      · cases h
        rfl) fin win
    (fun O₁ O₂ a h hv => by
      obtain ⟨u, hu1, hu2, hu3, hu4⟩ := checks_shown (valid_checks (show a.1.claim.Valid O₁ _ _ from hv))
      refine valid_congr (hashWith_congr (h _ fun n y he => ?_)) hv
      rw [← hu4] at he
      exact hshown n y u hu1 hu2 hu3 he) A q m hA
  rw [Fintype.card_coe] at s1
  refine le_trans (le_of_eq ?_) s1
  -- the real game
  have hreal : ∀ (f : D → Arr 64) (g : J ⊕ K → Arr 64),
      (let H := wideTable O D f
       let r := A.play H (serveWallet H ⟨⟨key, seed32 (g (.inl ⟨[], hC.root⟩))⟩, pk⟩ cc)
       r.1.Valid H (walletKey H pk cc) r.2) ↔
      win (table O D f) (A.play (table O D f) fun r => realAns (table O D f) (WalletUse.query O pk cc fun I => key.toZ • I)
        (WalletUse.answer O pk cc fun I => key.toZ • I) (walletSecret O pk cc key.toZ) r.use
        (residue (noncesOf (fun k => val f g (.inr k)) r.use))) := by
    intro f g
    have hsoft := softEq_wide O hC.noSoft f
    have hplay : A.play (wideTable O D f) (serveWallet (wideTable O D f) ⟨⟨key, seed32 (g (.inl ⟨[], hC.root⟩))⟩, pk⟩ cc) =
        A.play (table O D f) fun r => realAns (table O D f) (WalletUse.query O pk cc fun I => key.toZ • I)
        (WalletUse.answer O pk cc fun I => key.toZ • I) (walletSecret O pk cc key.toZ) r.use
        (residue (noncesOf (fun k => val f g (.inr k)) r.use)) := by
      refine client_play_eq (X := Empty) _ _ _ _ {r | r.use ∈ K} (fun x => x.elim) (fun l _ => wide_table_64 O f l)
        (fun r hrK => ?_) A (limited_requests WalletRequest.use fin A q m hA) (fun l _ x => x.elim)
      have hrK' : r.use ∈ K := hrK
      rw [serveWallet_eq _ O hsoft pk cc key hk hpk, seedAt_eq O pk cc key hC f _ _ (hC.uses _ hrK')]
      have hn : hashWith (wideTable O D f) (r.use.nonceQuery O pk cc
          (seed32 (nodeVal O pk cc key f (g (.inl ⟨[], hC.root⟩)) r.use.path))) =
          residue (noncesOf (fun k => val f g (.inr k)) r.use) := by
        rw [hashWith_congr (wide_table_64 O f _), hashWith_table O D f _ (hC.nonces _ hrK' _)]
        simp only [noncesOf, hrK', dif_pos, val]
      rw [hn]
      unfold realAns
      rw [hashWith_congr (wide_table_64 O f _)]
    simp only [win]
    rw [hplay]
    have hkeys : walletKey (wideTable O D f) pk cc = walletKey O pk cc := funext fun p => by
      unfold walletKey; rw [publicChildOf_congr hsoft]
    rw [hkeys]
    constructor
    · exact valid_congr (hashWith_congr (wide_table_64 O f _))
    · exact valid_congr (hashWith_congr (wide_table_64 O f _).symm)
  rw [chance_eq_avg, avg_prod, avg_comm]
  refine avg_congr fun f => ?_
  have e1 : ∀ g : J ⊕ K → Arr 64, ind (win (table O D f) (A.play (table O D f) fun r => realAns (table O D f)
        (WalletUse.query O pk cc fun I => key.toZ • I)
        (WalletUse.answer O pk cc fun I => key.toZ • I) (walletSecret O pk cc key.toZ) r.use
        (residue (noncesOf (fun k => val f g (.inr k)) r.use)))) =
      ind (let H := wideTable O D f
       let r := A.play H (serveWallet H ⟨⟨key, seed32 (g (.inl ⟨[], hC.root⟩))⟩, pk⟩ cc)
       r.1.Valid H (walletKey H pk cc) r.2) := fun g => congrArg ind (propext (hreal f g)).symm
  simp only [e1]
  rw [avg_update (Sum.inl ⟨[], hC.root⟩ : J ⊕ K)]
  simp only [Function.update_self]
  rw [← avg_seed32]
  exact avg_congr fun w => (avg_const _).symm

/-! ### Extraction -/

/-- The simulated attack makes a valid claim. -/
def WalletRun (O : Oracles) (pk : PublicKey P) (cc : ChainCode) (dh : P → P) (C : K → Arr 64 × Arr 64)
    (A : Client (WalletRequest P) (KeyAnswer P) (WalletForgery P)) (f : D → Arr 64) : Prop :=
  let r := progPlay (WalletUse.query O pk cc dh) (WalletUse.answer O pk cc dh) WalletRequest.use (coinsOf C) (table O D f) (A.logged [])
  r.2.1.Valid r.1 (walletKey O pk cc) r.2.2

/-- A programmed query cannot make a new claim valid. -/
theorem wallet_programmed_not_new (O' O : Oracles) (pk : PublicKey P) (hpk : pk = RistrettoBoth.fromPoint pk.point) (cc : ChainCode)
    (dh : P → P) (log : List (WalletRequest P × KeyAnswer P)) (c : WalletForgery P) (hv : c.Valid O' (walletKey O pk cc) log)
    (r : WalletRequest P) (z w : Z) (hw : hashWith O' (c.claim.query (walletKey O pk cc c.path)) = w)
    (hmem : (r, WalletUse.answer O pk cc dh r.use z w) ∈ log)
    (hq : c.claim.query (walletKey O pk cc c.path) = r.use.query O pk cc dh z w) : False := by
  have hv' : c.claim.Valid O' (walletKey O pk cc c.path) (requestsUnder (walletKey O pk cc) (walletKey O pk cc c.path) log) := hv
  obtain ⟨u, h1, h2, h3, h4⟩ := checks_key (valid_checks hv')
  simp only [WalletUse.query, WalletUse.answer, WalletRequest.use, transcripts_steps] at hq hmem
  have hkey : (walletKey O pk cc (r.path.map Prod.fst)).compressed.1 = (walletKey O pk cc c.path).compressed.1 := by
    rw [← h3, ← asUse_query] at hq
    have := hash_uses_separated _ _ h1 (asUse_wf ..) hq
    rw [h2, asUse_norm] at this
    rw [← h4, this, shownKey_asUse]
  obtain ⟨e1, e2⟩ := walletKey_inj O pk hpk cc _ _ hkey
  have e3 : walletDh O pk cc dh (r.path.map Prod.fst) = walletDh O pk cc dh c.path := by
    funext I; unfold walletDh; rw [e2]
  rw [e1, e3] at hq hmem
  refine programmed_not_new O' _ (walletDh O pk cc dh c.path) _ c.claim hv' r.req z w hw ?_ hq
  refine List.mem_filterMap.mpr ⟨_, hmem, ?_⟩
  simp only
  rw [if_pos (Subtype.ext hkey)]

/-- For fixed coins: the extractor succeeds about as often as the square of the simulated attack. -/
private theorem extract_wallet_coins (O : Oracles) (pk : PublicKey P) (hpk : pk = RistrettoBoth.fromPoint pk.point)
    (cc : ChainCode) (dh : P → P) (C : K → Arr 64 × Arr 64) (A : Client (WalletRequest P) (KeyAnswer P) (WalletForgery P))
    (q m : Nat) (hA : A.Limited D WalletRequest.use K (fun c => c.claim.query (walletKey O pk cc c.path) ∈ D) q m) :
    ∃ p, (chance fun f : D → Arr 64 => WalletRun O pk cc dh C A f) ≤ p ∧
      p ^ 2 / (q + 1 : Nat) - guess * p ≤
      chance fun x : (D → Arr 64) × (D → Arr 64) =>
        pk.point = extractWalletFrom O pk cc dh A C x.1 x.2 • (basepoint : P) := by
  let qf : WalletForgery P → List MOp := fun c => c.claim.query (walletKey O pk cc c.path)
  let S := A.simulate (WalletUse.query O pk cc dh) (WalletUse.answer O pk cc dh) WalletRequest.use (coinsOf C) []
  let B := simulateWallet O pk cc dh C A
  have hrun : ∀ O, B.run O = S.run O := fun O => by
    simp only [B, S, simulateWallet, Algo.run_bind, Algo.run]
  have hasked : ∀ O, B.asked O = S.asked O ++ [qf (B.run O)] :=
    fun O => by
      rw [hrun]
      simp only [B, S, qf, simulateWallet, Algo.asked_bind, Algo.asked]
  have hB : B.Within O D (q + 1) := by
    intro f
    obtain ⟨h1, h2, h3⟩ := simulate_limited (D := D) (table O D f) (WalletUse.query O pk cc dh) (WalletUse.answer O pk cc dh)
      WalletRequest.use (coinsOf C) _ A q m [] hA
    rw [hasked, hrun]
    refine ⟨by simpa using h1, fun l hl => ?_⟩
    rcases List.mem_append.mp hl with h | h
    · exact h2 l h
    · rw [List.mem_singleton.mp h]; exact h3
  let win : (D → Arr 64) → Prop := fun f => Checks (table O D f) (walletKey O pk cc (B.run (table O D f)).path) (B.run (table O D f)).claim
  let tq : (D → Arr 64) → List MOp := fun f => qf (B.run (table O D f))
  have hf := forking O B (q + 1) hB win tq (fun f _ => by rw [hasked]; simp [tq])
  refine ⟨chance win, chance_mono fun f h => ?_, ?_⟩
  · unfold WalletRun at h
    simp only at h
    obtain ⟨h1, pg, h2, h3⟩ := progPlay_simulate (table O D f) (WalletUse.query O pk cc dh) (WalletUse.answer O pk cc dh)
      WalletRequest.use (coinsOf C) A [] [] (fun q w h => by simp at h)
    change Checks (table O D f) (walletKey O pk cc (B.run (table O D f)).path) (B.run (table O D f)).claim
    rw [hrun]
    simp only [progAll] at h1 h2 h3
    rw [h2, h1] at h
    set c := S.run (table O D f) with hc
    have hm := progAll_merlin (table O D f) pg (qf c)
    cases hl : pg.lookup (qf c) with
    | none =>
      rw [hl] at hm
      exact checks_congr _ _ _ c.claim (hashWith_congr hm)
        (valid_checks (show c.claim.Valid _ (walletKey O pk cc c.path) _ from h))
    | some w =>
      exfalso
      rw [hl] at hm
      obtain ⟨r, z, hmem, hq⟩ := h3 _ _ hl
      refine wallet_programmed_not_new _ O pk hpk cc dh _ c h r z (residue w) ?_ hmem hq
      unfold hashWith hashToZ residue
      rw [show @Oracles.merlin (progAll (table O D f) pg) (c.claim.query (walletKey O pk cc c.path)) 64 = w from hm]
  · refine le_trans (le_of_eq (by ring)) (le_trans hf (chance_mono ?_))
    rintro ⟨f, g⟩ ⟨h1, h2, htq, hne⟩
    simp only at h1 h2 htq hne
    have hx : extractWalletFrom O pk cc dh A C f g =
        ((B.run (table O D f)).claim.response - (B.run (table O D (rewind ((B.asked (table O D f)).takeWhile (· ≠ tq f)) f g))).claim.response) /
          (hashWith (table O D f) (tq f) - hashWith (table O D (rewind ((B.asked (table O D f)).takeWhile (· ≠ tq f)) f g)) (tq f)) -
          tweakOf O pk cc (B.run (table O D f)).path := rfl
    rw [hx]
    clear hx
    set f' := rewind ((B.asked (table O D f)).takeWhile (· ≠ tq f)) f g with hf'
    have h1 : Checks (table O D f) (walletKey O pk cc (B.run (table O D f)).path) (B.run (table O D f)).claim := h1
    have h2 : Checks (table O D f') (walletKey O pk cc (B.run (table O D f')).path) (B.run (table O D f')).claim := h2
    set r := B.run (table O D f)
    set r' := B.run (table O D f')
    have htq : r'.claim.query (walletKey O pk cc r'.path) = r.claim.query (walletKey O pk cc r.path) := htq
    obtain ⟨u, a1, a2, a3, a4⟩ := checks_key h1
    obtain ⟨u', b1, b2, b3, b4⟩ := checks_key h2
    have huu : u' = u := by
      have := hash_uses_separated u' u b1 a1 (by rw [a3, b3, htq])
      rwa [a2, b2] at this
    subst huu
    obtain ⟨e1, -⟩ := walletKey_inj O pk hpk cc r'.path r.path (by rw [← a4, ← b4])
    rw [e1] at h2 htq
    have hx := claims_extract _ _ _ _ _ h1 h2 htq hne
    rw [walletKey_point] at hx
    rw [sub_smul, ← eq_sub_of_add_eq hx]

theorem wallet_core (O : Oracles) (pk : PublicKey P) (cc : ChainCode) (key : Scalar) (hk : key.Canonical)
    (hpk : pk = RistrettoBoth.fromPoint (key.toZ • basepoint)) (A : Client (WalletRequest P) (KeyAnswer P) (WalletForgery P))
    (q m : Nat) (hA : A.Limited D WalletRequest.use K (fun c => c.claim.query (walletKey O pk cc c.path) ∈ D) q m)
    (hC : CoversWallet O pk cc key D J K) :
    let ε := chance fun ω : Arr 32 × (D → Arr 64) =>
      let H := wideTable O D ω.2
      let r := (A.logged []).play H (serveWallet H ⟨⟨key, ω.1⟩, pk⟩ cc)
      r.1.Valid H (walletKey H pk cc) r.2
    let loss : ℚ := J.card * (J.card + q : Nat) / 2 ^ 256 + m * ((q + m : Nat) * guess + spare)
    ∃ p : (K → Arr 64 × Arr 64) → ℚ, ε - loss ≤ avg p ∧ ∀ C, p C ^ 2 / (q + 1 : Nat) - guess * p C ≤
      chance fun x : (D → Arr 64) × (D → Arr 64) =>
        pk.point = extractWalletFrom O pk cc (fun I => key.toZ • I) A C x.1 x.2 • (basepoint : P) := by
  intro ε loss
  let dh : P → P := fun I => key.toZ • I
  have hpt : pk.point = key.toZ • (basepoint : P) := by rw [hpk]; rfl
  have hwf : pk = RistrettoBoth.fromPoint pk.point := by rw [hpk]; rfl
  let win : Oracles → WalletForgery P × List (WalletRequest P × KeyAnswer P) → Prop := fun O' r => r.1.Valid O' (walletKey O pk cc) r.2
  choose p hp1 hp2 using fun C : K → Arr 64 × Arr 64 => extract_wallet_coins O pk hwf cc dh C A q m hA
  have hA' := logged_limited WalletRequest.use _ A q m [] hA
  refine ⟨p, ?_, hp2⟩
  have s1 := wallet_seeded_le O pk cc key hk hpk hC (A.logged []) q m _ hA'
  have s2 := service_le_simulated O (WalletUse.query O pk cc dh) (WalletUse.answer O pk cc dh) WalletRequest.use
    (walletSecret O pk cc key.toZ) (wallet_query_shift O pk cc key.toZ hpt) (fun k => use_query_inj _ _ k.use)
    (fun k hk v => hC.challenges k hk v) _ win (A.logged []) q m 0
    (fun _ => none) (fun _ => none) (fun _ => none) hA' ⟨[], by simp, fun d h => (h rfl).elim⟩ (fun _ => Or.inl ⟨rfl, rfl⟩)
  have hov : ∀ {ι S : Type} (f : ι → S), ov (fun _ => none) f = f := fun f => rfl
  simp only [hov, Nat.zero_add] at s2
  change _ ≤ (avg fun f : D → Arr 64 => avg fun C : K → Arr 64 × Arr 64 => ind (WalletRun O pk cc dh C A f)) + _ at s2
  have s3 : (avg fun f : D → Arr 64 => avg fun C : K → Arr 64 × Arr 64 => ind (WalletRun O pk cc dh C A f)) ≤ avg p := by
    rw [avg_comm]
    refine avg_mono fun C => ?_
    rw [← chance_eq_avg]
    exact hp1 C
  change ε ≤ (avg fun f : D → Arr 64 => avg fun N : K → Arr 64 => ind (win (table O D f) ((A.logged []).play (table O D f)
    fun r => realAns (table O D f) (WalletUse.query O pk cc dh) (WalletUse.answer O pk cc dh) (walletSecret O pk cc key.toZ)
      r.use (residue (noncesOf N r.use))))) + _ at s1
  simp only [loss]
  linarith

/-- **C75** a key pair and everything soft-derived from it.  The owner uses the key pair and the key pairs derived from it
along any paths; the root public key and the chain code are public, and the hash values behind tweaks and chain codes are
fixed in any way whatever.  Take any attacker with at most `q` hash queries and `m` requests; each request names a path and
asks the key pair at its end for a signature, a VRF output with proof or a certificate, all of its choice and adaptively,
with the system RNG (for the derivations and the answer) under its control; the paths have `J.card` nodes altogether.  If
with probability `ε` (over the root's nonce seed and the hash function) the attacker makes a new signature, proof or
certificate under the public key at the end of any path, then the procedure `extractWalletFrom` — given the root public key,
the chain code and the VRF outputs of the root — finds the root's secret key with probability at least
`δ(δ/(q+1) − guess)`, where `δ = ε − c(c+q)/2²⁵⁶ − m((q+m)·guess + spare)` and `c = J.card`. -/
theorem wallet_unforgeable (O : Oracles) (pk : PublicKey P) (cc : ChainCode) (key : Scalar) (hk : key.Canonical)
    (hpk : pk = RistrettoBoth.fromPoint (key.toZ • basepoint)) (A : Client (WalletRequest P) (KeyAnswer P) (WalletForgery P))
    (q m : Nat) (hA : A.Limited D WalletRequest.use K (fun c => c.claim.query (walletKey O pk cc c.path) ∈ D) q m)
    (hC : CoversWallet O pk cc key D J K) :
    let ε := chance fun ω : Arr 32 × (D → Arr 64) =>
      let H := wideTable O D ω.2
      let r := (A.logged []).play H (serveWallet H ⟨⟨key, ω.1⟩, pk⟩ cc)
      r.1.Valid H (walletKey H pk cc) r.2
    let loss : ℚ := J.card * (J.card + q : Nat) / 2 ^ 256 + m * ((q + m : Nat) * guess + spare)
    loss ≤ ε →
    (ε - loss) * ((ε - loss) / (q + 1 : Nat) - guess) ≤
      chance fun x : (K → Arr 64 × Arr 64) × ((D → Arr 64) × (D → Arr 64)) =>
        pk.point = extractWalletFrom O pk cc (fun I => key.toZ • I) A x.1 x.2.1 x.2.2 • (basepoint : P) := by
  intro ε loss hle
  obtain ⟨p, h1, hp2⟩ := wallet_core O pk cc key hk hpk A q m hA hC
  refine fork_coins p ε loss (q + 1 : Nat) _ (by positivity) (by unfold chance; positivity) hle h1 ?_
  rw [chance_eq_avg, avg_prod]
  refine avg_mono fun C => ?_
  rw [← chance_eq_avg]
  exact hp2 C

/-- **C75** the public keys that anybody derives from the root public key and the chain code are those of the owner's key
pairs, whatever the system RNG does, and their secret scalars differ from the root's by the public tweaks. -/
theorem wallet_public_keys (O : Oracles) (sk : SecretKey) (hk : sk.key.Canonical) (cc : ChainCode) (p : List (Transcript × Rng)) :
    let kp : Keypair P := sk.toKeypair
    let child := childOf O kp cc p
    child.1.pub = walletKey O kp.pub cc (p.map Prod.fst) ∧ child.2 = (publicChildOf O kp.pub cc (p.map Prod.fst)).2 ∧
      child.1.secret.key.toZ = sk.key.toZ + tweakOf O kp.pub cc (p.map Prod.fst) ∧
      child.1.secret.key.Canonical ∧ child.1.pub = child.1.secret.toPublic := by
  intro kp child
  obtain ⟨key, n⟩ := sk
  have hpk : kp.pub = RistrettoBoth.fromPoint (key.toZ • basepoint) := by
    show RistrettoBoth.fromPoint (key •. (basepoint : P)) = _
    rw [mulPoint_eq]
  have h : child = _ := childOf_eq O O (fun _ _ _ => ⟨rfl, rfl⟩) kp.pub cc key hk hpk n p
  have hpt : kp.pub.point = key.toZ • (basepoint : P) := by rw [hpk]; rfl
  have hz : (keyAt O kp.pub cc key (p.map Prod.fst)).toZ = key.toZ + tweakOf O kp.pub cc (p.map Prod.fst) := Scalar.toZ_ofZ _
  rw [h]
  refine ⟨rfl, rfl, hz, Scalar.canonical_ofZ _, ?_⟩
  simp only
  rw [walletKey_wf O kp.pub (by rw [hpk]; rfl), walletKey_point, hpt, ← add_smul, ← hz]
  show _ = RistrettoBoth.fromPoint (keyAt O kp.pub cc key (p.map Prod.fst) •. (basepoint : P))
  rw [mulPoint_eq]

/-! ### The hypotheses are met by every attacker -/

/-- The hash queries for tweaks and chain codes. -/
def softQueries : Set (List MOp) := {l | ∃ log cc pk, l = softQuery log cc pk ∨
  l = softQuery log cc pk ++ [.challenge (b! "HDKD-chaincode") 32]}

theorem noSoft_iff (D : Finset (List MOp)) : NoSoftQuery D ↔ ∀ l ∈ D, l ∉ softQueries := by
  constructor
  · rintro h l hl ⟨log, cc, pk, rfl | rfl⟩
    · exact (h log cc pk).1 hl
    · exact (h log cc pk).2 hl
  · intro h log cc pk
    exact ⟨fun hl => h _ hl ⟨log, cc, pk, Or.inl rfl⟩, fun hl => h _ hl ⟨log, cc, pk, Or.inr rfl⟩⟩

/-- **C75** nothing is lost by leaving out the queries for tweaks and chain codes: a client that looks them up by itself
gets the same results. -/
theorem knowing_play (O : Oracles) (hD : NoSoftQuery D) (f : D → Arr 64) {α : Type}
    (serve : WalletRequest P → KeyAnswer P) (A : Client (WalletRequest P) (KeyAnswer P) α) : ∀ log,
    ((A.knowing O softQueries).logged log).play (wideTable O D f) serve = (A.logged log).play (wideTable O D f) serve := by
  have hc : ∀ l ∈ softQueries, (wideTable O D f).merlin l 64 = O.merlin l 64 := by
    intro l hl
    show (if h : _ ∈ D ∧ 64 ≤ 64 then _ else _ : Arr 64) = _
    rw [dif_neg fun e => (noSoft_iff D).mp hD l e.1 hl]
  induction A with
  | ret a => intro log; rfl
  | ask l k ih =>
    intro log
    simp only [Client.knowing]
    split_ifs with hl
    · simp only [Client.logged, Client.play, hc l hl]
      exact ih _ log
    · exact ih _ log
  | request r k ih => intro log; exact ih _ _

theorem knowing_limited {Req Ans κ α : Type} (O : Oracles) (S : Set (List MOp)) (key : Req → κ) (A : Client Req Ans α) [DecidablePred (· ∈ S)] :
    ∀ {D : Finset (List MOp)} {K : Finset κ} {fin fin' : α → Prop} {q m : Nat}, (∀ a, fin a → fin' a) →
    A.Limited D key K fin q m → (A.knowing O S).Limited (D.filter (· ∉ S)) key K fin' q m := by
  induction A with
  | ret a => intro D K fin fin' q m hf h; exact hf a h
  | ask l k ih =>
    rintro D K fin fin' q m hf ⟨h1, q₁, rfl, h2⟩
    simp only [Client.knowing]
    split_ifs with hl
    · exact limited_mono key _ (Finset.Subset.refl _) (Finset.Subset.refl _) (fun a ha => ha) (Nat.le_succ _) le_rfl (ih _ hf (h2 _))
    · exact ⟨Finset.mem_filter.mpr ⟨h1, hl⟩, q₁, rfl, fun w => ih w hf (h2 w)⟩
  | request r k ih =>
    rintro D K fin fin' q m hf ⟨h1, m₁, rfl, h2⟩
    exact ⟨h1, m₁, rfl, fun w => ih w hf (h2 w)⟩

theorem shown_not_soft (u : Use) (hu : Shown u) (hwf : u.WF) (hn : u.norm = u) : u.query ∉ softQueries := by
  rintro ⟨log, cc, pk, h | h⟩
  · have := hash_uses_separated u (.softKey log cc pk) hwf trivial h
    rw [hn] at this
    rw [this] at hu
    exact hu
  · have := hash_uses_separated u (.softChain log cc pk) hwf trivial h
    rw [hn] at this
    rw [this] at hu
    exact hu

theorem claim_not_soft (pk : PublicKey P) (c : KeyForgery P) : c.query pk ∉ softQueries := by
  cases c with
  | signature t b => exact shown_not_soft (.signature t.log pk.compressed.1 (b.take 32)) trivial trivial rfl
  | proof extra I Q kusama b =>
    simp only [KeyForgery.query]
    cases h : VRFProof.fromBytes b with
    | ok π => exact shown_not_soft (.dleq extra.log kusama _ _ _ _ _) trivial trivial rfl
    | error e =>
      rintro ⟨log, cc, pk, h | h⟩ <;>
      · have := congrArg List.length h
        simp [softQuery] at this
  | cert t c sk => exact shown_not_soft (.cert t.log pk.compressed.1 c.bytes.1) trivial trivial rfl

theorem use_not_soft (pk : PublicKey P) (dh : P → P) (k : KeyUse P) (z w : Z) : k.query pk dh z w ∉ softQueries := by
  rw [← asUse_query]
  exact shown_not_soft _ (asUse_shown ..) (asUse_wf ..) (asUse_norm ..)

theorem nonce_not_soft (pk : PublicKey P) (n : Arr 32) (k : KeyUse P) : k.nonceQuery pk n ∉ softQueries := by
  rw [← nonceUse_query]
  rintro ⟨log, cc, pk', h | h⟩
  · have := hash_uses_separated _ (.softKey log cc pk') (nonceUse_wf ..) trivial h
    cases k with
    | prove log I ku rng => cases ku <;> simp [KeyUse.nonceUse, Use.norm] at this
    | _ => simp [KeyUse.nonceUse, Use.norm] at this
  · have := hash_uses_separated _ (.softChain log cc pk') (nonceUse_wf ..) trivial h
    cases k with
    | prove log I ku rng => cases ku <;> simp [KeyUse.nonceUse, Use.norm] at this
    | _ => simp [KeyUse.nonceUse, Use.norm] at this

theorem seed_not_soft (O : Oracles) (pk : PublicKey P) (cc : ChainCode) (key : Scalar) (s : List MOp × Arr 32)
    (p : List (List MOp × Arr 32)) (n : Arr 32) : seedQuery O pk cc key s p n ∉ softQueries := by
  rw [← seedUse_query]
  rintro ⟨log, cc', pk', h | h⟩
  · have := hash_uses_separated _ (.softKey log cc' pk') (seedUse_wf ..) trivial h
    simp [seedUse, Use.norm] at this
  · have := hash_uses_separated _ (.softChain log cc' pk') (seedUse_wf ..) trivial h
    simp [seedUse, Use.norm] at this

private instance : Finite Z := inferInstanceAs (Finite (ZMod ell))

/-- **C75** every attacker satisfies the hypotheses of `wallet_unforgeable`, for suitable finite sets and bounds, once it
looks up tweaks and chain codes by itself (which makes no difference: `knowing_play`). -/
theorem every_wallet_attacker_is_limited (O : Oracles) (pk : PublicKey P) (cc : ChainCode) (key : Scalar)
    (A : Client (WalletRequest P) (KeyAnswer P) (WalletForgery P)) :
    ∃ D J K q m, (A.knowing O softQueries).Limited D WalletRequest.use K (fun c => c.claim.query (walletKey O pk cc c.path) ∈ D) q m ∧
      CoversWallet O pk cc key D J K := by
  classical
  haveI := finiteAnswer (P := P)
  obtain ⟨D, K, q, m, h⟩ := exists_limited WalletRequest.use (fun c : WalletForgery P => c.claim.query (walletKey O pk cc c.path)) A
  haveI := Fintype.ofFinite (Arr 32)
  haveI := Fintype.ofFinite Z
  let J : Finset (List (List MOp × Arr 32)) := insert [] (K.biUnion fun k => k.path.tails.toFinset)
  let seedsOf : List (List MOp × Arr 32) → Finset (List MOp) := fun l => match l with
    | [] => ∅
    | s :: p => Finset.univ.image fun n : Arr 32 => seedQuery O pk cc key s p n
  let D1 := D.filter (· ∉ softQueries)
  let D2 := K.biUnion fun k => Finset.univ.image (fun v : Z => k.query O pk cc (fun I => key.toZ • I) v 0) ∪
    Finset.univ.image (fun n : Arr 32 => k.nonceQuery O pk cc n)
  let D3 := J.biUnion seedsOf
  have hJ : ∀ s p, s :: p ∈ J → p ∈ J := by
    intro s p hp
    rcases Finset.mem_insert.mp hp with hp | hp
    · cases hp
    · obtain ⟨k, hk, hp⟩ := Finset.mem_biUnion.mp hp
      refine Finset.mem_insert_of_mem (Finset.mem_biUnion.mpr ⟨k, hk, ?_⟩)
      rw [List.mem_toFinset, List.mem_tails] at hp ⊢
      exact (List.suffix_cons s p).trans hp
  have hl := knowing_limited (fin' := fun c => c.claim.query (walletKey O pk cc c.path) ∈ D1) O softQueries WalletRequest.use A
    (fun c hc => Finset.mem_filter.mpr ⟨hc, claim_not_soft _ _⟩) h
  have hsub : D1 ⊆ D1 ∪ D2 ∪ D3 := fun x hx => Finset.mem_union_left _ (Finset.mem_union_left _ hx)
  refine ⟨D1 ∪ D2 ∪ D3, J, K, q, m, limited_mono _ _ hsub (Finset.Subset.refl _) (fun a ha => hsub ha) le_rfl le_rfl hl, ?_⟩
  refine ⟨Finset.mem_insert_self _ _, hJ, fun k hk => ?_, fun k hk v => ?_, fun k hk n => ?_, fun s p hp n => ?_, ?_⟩
  · refine Finset.mem_insert_of_mem (Finset.mem_biUnion.mpr ⟨k, hk, ?_⟩)
    rw [List.mem_toFinset, List.mem_tails]
  · refine Finset.mem_union_left _ (Finset.mem_union_right _ (Finset.mem_biUnion.mpr ⟨k, hk, Finset.mem_union_left _ ?_⟩))
    exact Finset.mem_image_of_mem (fun v : Z => k.query O pk cc (fun I => key.toZ • I) v 0) (Finset.mem_univ v)
  · refine Finset.mem_union_left _ (Finset.mem_union_right _ (Finset.mem_biUnion.mpr ⟨k, hk, Finset.mem_union_right _ ?_⟩))
    exact Finset.mem_image_of_mem (fun n : Arr 32 => k.nonceQuery O pk cc n) (Finset.mem_univ n)
  · refine Finset.mem_union_right _ (Finset.mem_biUnion.mpr ⟨s :: p, hp, ?_⟩)
    exact Finset.mem_image_of_mem (fun n : Arr 32 => seedQuery O pk cc key s p n) (Finset.mem_univ n)
  · rw [noSoft_iff]
    intro l hl
    rcases Finset.mem_union.mp hl with hl | hl
    · rcases Finset.mem_union.mp hl with hl | hl
      · exact (Finset.mem_filter.mp hl).2
      · obtain ⟨k, hk, hl⟩ := Finset.mem_biUnion.mp hl
        rcases Finset.mem_union.mp hl with hl | hl
        · obtain ⟨v, -, rfl⟩ := Finset.mem_image.mp hl
          exact use_not_soft _ _ k.use v 0
        · obtain ⟨n, -, rfl⟩ := Finset.mem_image.mp hl
          exact nonce_not_soft _ n k.use
    · obtain ⟨j, hj, hl⟩ := Finset.mem_biUnion.mp hl
      cases j with
      | nil => exact absurd hl (Finset.notMem_empty _)
      | cons s p =>
        obtain ⟨n, -, rfl⟩ := Finset.mem_image.mp hl
        exact seed_not_soft O pk cc key s p n

/-- An attacker who knows the secret key: asks two derived key pairs for a signature and a certificate on `t`, then makes a
certificate under a third derived key with reconstruction point `B` on `t'`. -/
noncomputable def walletInsider (O : Oracles) (pk : PublicKey P) (cc : ChainCode) (x : Z) (t t' : Transcript) (sys : Rng) :
    Client (WalletRequest P) (KeyAnswer P) (WalletForgery P) :=
  .request ⟨[(t, sys)], .sign t sys⟩ fun _ =>
  .request ⟨[(t, sys), (t', sys)], .issue t basepoint sys⟩ fun _ =>
  .ask (certQuery t'.log (walletKey O pk cc [t', t]).compressed.1 (compress (basepoint : P)).1) fun w =>
  .ret ⟨[t', t], .cert t' ⟨compress (basepoint : P)⟩ ⟨Scalar.ofZ (residue w * (x + tweakOf O pk cc [t', t]) + 1), zeros 32⟩⟩

/-- That attacker always succeeds. -/
theorem walletInsider_wins (O H : Oracles) (h : SoftEq H O) (pk : PublicKey P) (cc : ChainCode) (x : Z)
    (hpt : pk.point = x • (basepoint : P)) (t t' : Transcript) (ht : t ≠ t') (sys : Rng) (serve : WalletRequest P → KeyAnswer P) :
    let r := ((walletInsider O pk cc x t t' sys).logged []).play H serve
    r.1.Valid H (walletKey H pk cc) r.2 := by
  have hkeys : walletKey H pk cc = walletKey O pk cc := funext fun p => by
    unfold walletKey; rw [publicChildOf_congr h]
  simp only [walletInsider, Client.logged, Client.play]
  rw [hkeys]
  refine ⟨?_, ?_⟩
  · rw [openWith_iff]
    refine ⟨basepoint, rfl, ?_⟩
    simp only [Scalar.toZ_ofZ]
    rw [add_smul, one_smul, mul_smul, walletKey_point, hpt, add_smul]
    rfl
  · intro seed sys' cs hm
    obtain ⟨x, hx, he⟩ := List.mem_filterMap.mp hm
    split_ifs at he
    have he := congrArg Prod.fst (Option.some.inj he)
    simp only at he
    simp only [List.mem_cons, List.not_mem_nil, or_false] at hx
    rcases hx with rfl | rfl
    · simp only [KeyRequest.issue.injEq] at he
      exact (ht he.1).elim
    · cases he

/-- Non-vacuity: that attacker succeeds with probability one, so `ε` can be as large as possible. -/
example (O : Oracles) (pk : PublicKey P) (cc : ChainCode) (key : Scalar) (hpk : pk = RistrettoBoth.fromPoint (key.toZ • basepoint))
    (t t' : Transcript) (ht : t ≠ t') (sys : Rng) (D : Finset (List MOp)) (hD : NoSoftQuery D) :
    (chance fun ω : Arr 32 × (D → Arr 64) =>
      let H := wideTable O D ω.2
      let r := ((walletInsider O pk cc key.toZ t t' sys).logged []).play H (serveWallet H ⟨⟨key, ω.1⟩, pk⟩ cc)
      r.1.Valid H (walletKey H pk cc) r.2) = 1 := by
  have hpt : pk.point = key.toZ • (basepoint : P) := by rw [hpk]; rfl
  have h : ∀ ω : Arr 32 × (D → Arr 64),
      let H := wideTable O D ω.2
      let r := ((walletInsider O pk cc key.toZ t t' sys).logged []).play H (serveWallet H ⟨⟨key, ω.1⟩, pk⟩ cc)
      r.1.Valid H (walletKey H pk cc) r.2 := fun ω =>
    walletInsider_wins O _ (softEq_wide O hD ω.2) pk cc key.toZ hpt t t' ht sys _
  rw [chance_eq_avg]
  simp only [ind, h, if_true]
  exact avg_const 1

end Schnorrkel.Props
