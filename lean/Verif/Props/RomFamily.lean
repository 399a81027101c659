import Verif.Spec.RomFamily
import Verif.Props.RomWallet
import Verif.Props.Cert

/-! # C81: all the key pairs that come from one key pair by derivation and by certificates -/

namespace Schnorrkel.Props
open Spec Schnorrkel
variable {P : Type} [Ristretto P] {D : Finset (List MOp)} {K : Finset (FamilyUse P)} {J : Finset (List (Origin × Arr 32))}

/-! ### The keys of a family -/

theorem memberKey_soft (O : Oracles) (pk : PublicKey P) (log : List MOp) (cc : ChainCode) (p : List Origin) :
    letI := O
    memberKey O pk (.soft log cc :: p) = RistrettoBoth.fromPoint ((memberKey O pk p).point +
        softTweak log cc.bytes.1 (memberKey O pk p).compressed.1 • basepoint) := by
  letI := O
  exact (soft_derivation_spec (⟨⟨Scalar.ofZ 0, zeros 32⟩, memberKey O pk p⟩ : Keypair P) (Scalar.canonical_ofZ 0) ⟨log⟩
    cc notAnRng notAnRng).2.2.1.1

theorem memberKey_congr {O O' : Oracles} (h : SoftEq O O') (pk : PublicKey P) (p : List Origin) :
    memberKey O pk p = memberKey O' pk p := by
  induction p with
  | nil => rfl
  | cons s p ih =>
    cases s with
    | soft log cc => rw [memberKey_soft, memberKey_soft, ih, softTweak_congr h]
    | accept log issuer gamma s => simp only [memberKey, ih]

/-- Public keys of the family are the root key plus the shifts. -/
theorem memberKey_point (O : Oracles) (pk : PublicKey P) (p : List Origin) :
    (memberKey O pk p).point = pk.point + shiftOf O pk p • basepoint := by
  induction p with
  | nil => show pk.point = pk.point + (0 : Z) • basepoint; rw [zero_smul, add_zero]
  | cons s p ih =>
    cases s with
    | soft log cc =>
      rw [memberKey_soft]
      simp only [RistrettoBoth.fromPoint, shiftOf]
      rw [ih, add_smul, add_assoc]
    | accept log issuer gamma s =>
      simp only [memberKey, PublicKey.fromPoint, RistrettoBoth.fromPoint, shiftOf]
      rw [ih, add_smul, add_assoc]

theorem memberKey_wf (O : Oracles) (pk : PublicKey P) (hpk : pk = RistrettoBoth.fromPoint pk.point)
    (p : List Origin) : memberKey O pk p = RistrettoBoth.fromPoint (memberKey O pk p).point := by
  cases p with
  | nil => exact hpk
  | cons s p =>
    cases s with
    | soft log cc => rw [memberKey_soft]; rfl
    | accept log issuer gamma s => rfl

theorem memberKey_inj (O : Oracles) (pk : PublicKey P) (hpk : pk = RistrettoBoth.fromPoint pk.point)
    (p p' : List Origin) (h : (memberKey O pk p).compressed.1 = (memberKey O pk p').compressed.1) :
    memberKey O pk p = memberKey O pk p' ∧ shiftOf O pk p = shiftOf O pk p' := by
  have h1 : (memberKey O pk p).point = (memberKey O pk p').point := by
    rw [memberKey_wf O pk hpk p, memberKey_wf O pk hpk p'] at h
    exact compress_inj.mp (Subtype.ext h)
  refine ⟨by rw [memberKey_wf O pk hpk p, memberKey_wf O pk hpk p', h1], ?_⟩
  rw [memberKey_point, memberKey_point] at h1
  exact smul_basepoint_inj.mp (add_left_cancel h1)

/-- The secret scalars of the family. -/
noncomputable def memberScalar (O : Oracles) (pk : PublicKey P) (key : Scalar) (p : List Origin) : Scalar :=
  Scalar.ofZ (key.toZ + shiftOf O pk p)

/-- The nonce seeds of the family. -/
noncomputable def memberSeed (H O : Oracles) (pk : PublicKey P) (key : Scalar) (n : Arr 32) : List (Origin × Arr 32) → Arr 32
  | [] => n
  | s :: p => H.merlin (memberSeedUse O pk key s p (memberSeed H O pk key n p)).query 32

theorem steps_map (p : List (Step P)) : (p.map fun s => (s.origin, s.drawn)).map Prod.fst = p.map Step.origin := by
  rw [List.map_map]
  rfl

theorem cert_drop (gamma : Arr 32) (s : Z) : (certOf gamma s).bytes.1.drop 32 = (Scalar.ofZ s).bytes.1 := by
  simp [certOf, Arr.append, gamma.2]

/-- Accepting a certificate. -/
theorem accept_cert_of (O : Oracles) (issuer : PublicKey P) (t : Transcript) (sk : SecretKey) (hk : sk.key.Canonical) (gamma : Arr 32) (s : Z)
    (sys : Rng) : letI := O
    (issuer.acceptAdaptorCert t sk (certOf gamma s) sys).1 = .ok (⟨gamma⟩, ⟨Scalar.ofZ (sk.key.toZ + s),
      Oracles.merlin (witnessQuery (t.log ++ certFrames issuer.compressed.1) (b! "accepting")
      [(certOf gamma s).bytes.1, sk.nonce.1] (sys.fill 32).1.1 32) 32⟩) := by
  letI := O
  have hs : Scalar.Canonical ⟨(certOf gamma s).bytes.slice 32 32 (by omega)⟩ := by
    unfold certOf
    rw [cert_scalar_append]
    exact Scalar.canonical_ofZ s
  rcases accept_adaptor_cert_table issuer t sk hk (certOf gamma s) sys with ⟨h, -⟩ | ⟨h, pub, sk', h1, h2, h3, h4⟩
  · exfalso
    unfold Scalar.Canonical Scalar.val at hs
    rw [cert_drop] at h
    have := Scalar.canonical_ofZ s
    unfold Scalar.Canonical Scalar.val at this
    omega
  · have h5 := accepting_nonce_is_hash issuer t sk (certOf gamma s) sys _ h1
    rw [h1]
    have e1 : pub = ⟨gamma⟩ := by
      obtain ⟨b⟩ := pub
      have : b = gamma := Subtype.ext (by rw [h2]; simp [certOf, Arr.append, gamma.2])
      rw [this]
    have e2 : sk' = ⟨Scalar.ofZ (sk.key.toZ + s), Oracles.merlin (witnessQuery (t.log ++ certFrames issuer.compressed.1) (b! "accepting")
      [(certOf gamma s).bytes.1, sk.nonce.1] (sys.fill 32).1.1 32) 32⟩ := by
      obtain ⟨k, n⟩ := sk'
      have hk' : k = Scalar.ofZ (sk.key.toZ + s) := by
        have h4' : k.Canonical := h4
        have h3' : k.toZ = _ := h3
        have h6 : ((leNat (Scalar.ofZ s).bytes.1 : Nat) : Z) = s := Scalar.toZ_ofZ s
        rw [← h4'.ofZ_toZ, h3', cert_drop, h6, add_comm]
      have hn : n = _ := h5
      rw [hk', hn]
    rw [e1, e2]

/-- Every key pair of the family: the secret scalar is that of the root plus the shifts, the nonce seed is a hash of the
parent's. -/
theorem memberOf_eq (H O : Oracles) (h : SoftEq H O) (pk : PublicKey P) (key : Scalar) (hk : key.Canonical)
    (hpk : pk = RistrettoBoth.fromPoint (key.toZ • basepoint)) (n : Arr 32) (p : List (Step P)) :
    memberOf H ⟨⟨key, n⟩, pk⟩ p =
      some ⟨⟨memberScalar O pk key (p.map Step.origin), memberSeed H O pk key n (p.map fun s => (s.origin, s.drawn))⟩,
        memberKey O pk (p.map Step.origin)⟩ := by
  induction p with
  | nil =>
    have : memberScalar O pk key [] = key := by
      unfold memberScalar shiftOf
      rw [add_zero, hk.ofZ_toZ]
    simp only [memberOf, List.map_nil, memberSeed, memberKey, this]
  | cons s p ih =>
    letI := H
    have hpt : pk.point = key.toZ • (basepoint : P) := by rw [hpk]; rfl
    simp only [memberOf, ih, Option.bind_some]
    set q := p.map Step.origin with hq
    set kp : Keypair P := ⟨⟨memberScalar O pk key q, memberSeed H O pk key n (p.map fun s => (s.origin, s.drawn))⟩, memberKey O pk q⟩ with hkp
    have hcan : kp.secret.key.Canonical := Scalar.canonical_ofZ _
    cases s with
    | soft t cc sys =>
      obtain ⟨⟨h1, h2, h3, h4⟩, -, -, -⟩ := soft_derivation_spec kp hcan t cc notAnRng sys
      have h5 := derived_nonce_is_hash kp t cc sys
      simp only [stepTo]
      set child := Derivation.derivedKey kp t cc sys with hchild
      have hz : child.1.secret.key.toZ = key.toZ + shiftOf O pk (.soft t.log cc :: q) := by
        rw [h1]
        simp only [hkp, memberScalar, Scalar.toZ_ofZ, shiftOf]
        rw [softTweak_congr h, add_assoc]
      have e1 : child.1.secret.key = memberScalar O pk key (.soft t.log cc :: q) := by
        rw [← h3.ofZ_toZ, hz]; rfl
      have e2 : child.1.secret.nonce = memberSeed H O pk key n ((.soft t.log cc, (sys.fill 32).1) :: p.map fun s => (s.origin, s.drawn)) := by
        rw [h5]
        simp only [memberSeed, memberSeedUse, steps_map, Use.query, ← hq]
        rfl
      have e3 : child.1.pub = memberKey O pk (.soft t.log cc :: q) := by
        rw [h4, memberKey_wf O pk (by rw [hpk]; rfl), memberKey_point, hpt]
        show RistrettoBoth.fromPoint (child.1.secret.key •. (basepoint : P)) = _
        rw [mulPoint_eq, hz, add_smul]
      show some child.1 = some ⟨⟨memberScalar O pk key (.soft t.log cc :: q),
        memberSeed H O pk key n ((.soft t.log cc, (sys.fill 32).1) :: p.map fun s => (s.origin, s.drawn))⟩, memberKey O pk (.soft t.log cc :: q)⟩
      rw [← e1, ← e2, ← e3]
    | accept issuer t gamma s sys =>
      simp only [stepTo, accept_cert_of H issuer t kp.secret hcan gamma s sys]
      have hz : kp.secret.key.toZ + s = key.toZ + shiftOf O pk (.accept t.log issuer.compressed gamma s :: q) := by
        simp only [hkp, memberScalar, Scalar.toZ_ofZ, shiftOf]
        rw [add_assoc]
      have e2 : Oracles.merlin (witnessQuery (t.log ++ certFrames issuer.compressed.1) (b! "accepting")
          [(certOf gamma s).bytes.1, kp.secret.nonce.1] (sys.fill 32).1.1 32) 32 =
          memberSeed H O pk key n ((.accept t.log issuer.compressed gamma s, (sys.fill 32).1) :: p.map fun s => (s.origin, s.drawn)) := by
        simp only [memberSeed, memberSeedUse, Use.query]
        rfl
      have e3 : (RistrettoBoth.fromPoint (Scalar.ofZ (kp.secret.key.toZ + s) •. (basepoint : P)) : PublicKey P) =
          memberKey O pk (.accept t.log issuer.compressed gamma s :: q) := by
        rw [memberKey_wf O pk (by rw [hpk]; rfl), memberKey_point, hpt, mulPoint_eq, Scalar.toZ_ofZ, hz, add_smul]
      show _ = some (⟨⟨Scalar.ofZ (key.toZ + shiftOf O pk (.accept t.log issuer.compressed gamma s :: q)),
        memberSeed H O pk key n ((.accept t.log issuer.compressed gamma s, (sys.fill 32).1) :: p.map fun s => (s.origin, s.drawn))⟩,
        memberKey O pk (.accept t.log issuer.compressed gamma s :: q)⟩ : Keypair P)
      rw [← e2, ← e3, ← hz]
      rfl

/-! ### Separation of the queries -/

theorem memberSeedUse_wf (O : Oracles) (pk : PublicKey P) (key : Scalar) (s : Origin × Arr 32)
    (p : List (Origin × Arr 32)) (n : Arr 32) : (memberSeedUse O pk key s p n).WF := by
  obtain ⟨s | s, r⟩ := s <;> exact trivial

theorem member_seed_not_shown (O : Oracles) (pk : PublicKey P) (key : Scalar) (s : Origin × Arr 32)
    (p : List (Origin × Arr 32)) (n : Arr 32) (u : Use) (hu : Shown u) (hwf : u.WF) (hn : u.norm = u) :
    (memberSeedUse O pk key s p n).query ≠ u.query := by
  intro h
  have h := hash_uses_separated _ _ (memberSeedUse_wf ..) hwf h
  rw [hn] at h
  rw [← h] at hu
  obtain ⟨s | s, r⟩ := s <;> simp [memberSeedUse, Use.norm, Shown] at hu

theorem member_seed_ne_nonce (O : Oracles) (pk pk' : PublicKey P) (key : Scalar) (s : Origin × Arr 32)
    (p : List (Origin × Arr 32)) (n n' : Arr 32) (k : KeyUse P) : (memberSeedUse O pk key s p n).query ≠ k.nonceQuery pk' n' := by
  intro h
  rw [← nonceUse_query] at h
  have h := hash_uses_separated _ _ (memberSeedUse_wf ..) (nonceUse_wf ..) h
  obtain ⟨s | s, r⟩ := s
  all_goals
    cases k with
    | prove log I ku rng => cases ku <;> simp [memberSeedUse, KeyUse.nonceUse, Use.norm] at h
    | _ => simp [memberSeedUse, KeyUse.nonceUse, Use.norm] at h

theorem certOf_inj (gamma gamma' : Arr 32) (s s' : Z) (h : (certOf gamma s).bytes.1 = (certOf gamma' s').bytes.1) :
    gamma = gamma' ∧ s = s' := by
  have h1 : (Scalar.ofZ s).bytes.1 = (Scalar.ofZ s').bytes.1 := by rw [← cert_drop gamma, ← cert_drop gamma', h]
  have h2 : (certOf gamma s).bytes.1.take 32 = (certOf gamma' s').bytes.1.take 32 := by rw [h]
  refine ⟨Subtype.ext (by simpa [certOf, Arr.append, gamma.2, gamma'.2] using h2), ?_⟩
  rw [← Scalar.toZ_ofZ s, ← Scalar.toZ_ofZ s']
  unfold Scalar.toZ Scalar.val
  rw [h1]

theorem member_seed_query_inj (O : Oracles) (pk : PublicKey P) (key : Scalar) (s s' : Origin × Arr 32)
    (p p' : List (Origin × Arr 32)) (n n' : Arr 32) (h : (memberSeedUse O pk key s p n).query = (memberSeedUse O pk key s' p' n').query) :
    n = n' ∧ s = s' := by
  have h := hash_uses_separated _ _ (memberSeedUse_wf ..) (memberSeedUse_wf ..) h
  obtain ⟨⟨log, cc⟩ | ⟨log, issuer, gamma, z⟩, r⟩ := s <;> obtain ⟨⟨log', cc'⟩ | ⟨log', issuer', gamma', z'⟩, r'⟩ := s'
  · simp only [memberSeedUse, Use.norm, Use.derivedNonce.injEq] at h
    obtain ⟨h1, h2, -, h4, -, h6⟩ := h
    obtain ⟨cc⟩ := cc
    obtain ⟨cc'⟩ := cc'
    obtain rfl := Subtype.ext h2
    subst h1
    exact ⟨Subtype.ext h4, by rw [Subtype.ext h6]⟩
  · simp [memberSeedUse, Use.norm] at h
  · simp [memberSeedUse, Use.norm] at h
  · simp only [memberSeedUse, Use.norm, Use.accepting.injEq] at h
    obtain ⟨h1, h2, h3, h4, h5⟩ := h
    obtain ⟨h6, h7⟩ := certOf_inj _ _ _ _ h3
    subst h1 h6 h7
    exact ⟨Subtype.ext h4, by rw [Subtype.ext h5, Subtype.ext h2]⟩

theorem member_seed_not_soft (O : Oracles) (pk : PublicKey P) (key : Scalar) (s : Origin × Arr 32)
    (p : List (Origin × Arr 32)) (n : Arr 32) : (memberSeedUse O pk key s p n).query ∉ softQueries := by
  rintro ⟨log, cc', pk', h | h⟩
  · have := hash_uses_separated _ (.softKey log cc' pk') (memberSeedUse_wf ..) trivial h
    obtain ⟨s | s, r⟩ := s <;> simp [memberSeedUse, Use.norm] at this
  · have := hash_uses_separated _ (.softChain log cc' pk') (memberSeedUse_wf ..) trivial h
    obtain ⟨s | s, r⟩ := s <;> simp [memberSeedUse, Use.norm] at this

/-! ### Removing the nonce seeds -/

/-- The key pairs that own key pairs. -/
def familyParent (hp : ∀ s p, s :: p ∈ J → p ∈ J) : J → Option J
  | ⟨[], _⟩ => none
  | ⟨s :: p, h⟩ => some ⟨p, hp s p h⟩

/-- The query behind a nonce seed or a nonce, when the seed of the owner is `n`. -/
noncomputable def familyQuery (O : Oracles) (pk : PublicKey P) (key : Scalar) (n : Arr 32) : J ⊕ K → List MOp
  | .inl ⟨[], _⟩ => []
  | .inl ⟨s :: p, _⟩ => (memberSeedUse O pk key s p n).query
  | .inr k => k.1.nonceQuery O pk n

open Classical in
/-- The table entries that nonce seeds are taken from. -/
noncomputable def memberVal (O : Oracles) (pk : PublicKey P) (key : Scalar) (f : D → Arr 64) (w : Arr 64) :
    List (Origin × Arr 32) → Arr 64
  | [] => w
  | s :: p => if h : (memberSeedUse O pk key s p (seed32 (memberVal O pk key f w p))).query ∈ D then f ⟨_, h⟩ else zeros 64

theorem memberSeed_eq (O : Oracles) (pk : PublicKey P) (key : Scalar) (hC : CoversFamily O pk key D J K)
    (f : D → Arr 64) (w : Arr 64) (p : List (Origin × Arr 32)) (hp : p ∈ J) :
    memberSeed (wideTable O D f) O pk key (seed32 w) p = seed32 (memberVal O pk key f w p) := by
  induction p with
  | nil => rfl
  | cons s p ih =>
    simp only [memberSeed, memberVal]
    rw [ih (hC.parents s p hp), dif_pos (hC.seeds s p hp _)]
    apply Subtype.ext
    rw [wideTable_short O f _ (hC.seeds s p hp _) 32 (by omega), wideTable_hit O f _ (hC.seeds s p hp _)]
    rfl

/-- The secret in the response. -/
noncomputable def familySecret (O : Oracles) (pk : PublicKey P) (x : Z) (k : FamilyUse P) : Z :=
  KeyUse.secret (x + shiftOf O pk (k.path.map Prod.fst)) k.use

theorem memberDh_eq (O : Oracles) (pk : PublicKey P) (x : Z) (p : List Origin) :
    memberDh O pk (fun I : P => x • I) p = fun I => (x + shiftOf O pk p) • I := by
  funext I
  unfold memberDh
  rw [add_smul]

theorem family_query_shift (O : Oracles) (pk : PublicKey P) (x : Z) (hpk : pk.point = x • (basepoint : P))
    (k : FamilyUse P) (v w : Z) : k.query O pk (fun I => x • I) (w * familySecret O pk x k + v) w =
      k.query O pk (fun I => x • I) v 0 := by
  unfold FamilyUse.query familySecret
  rw [memberDh_eq]
  refine use_query_shift _ _ ?_ _ _ _
  rw [memberKey_point, hpk, add_smul]

/-- Every answer of the owner has the shape of a sigma protocol. -/
theorem serveFamily_eq (H O : Oracles) (h : SoftEq H O) (pk : PublicKey P) (key : Scalar) (hk : key.Canonical)
    (hpk : pk = RistrettoBoth.fromPoint (key.toZ • basepoint)) (n : Arr 32) (r : FamilyRequest P) :
    serveFamily H ⟨⟨key, n⟩, pk⟩ r = realAns H (FamilyUse.query O pk fun I => key.toZ • I)
      (FamilyUse.answer O pk fun I => key.toZ • I) (familySecret O pk key.toZ) r.use
      (hashWith H (r.use.nonceQuery O pk (memberSeed H O pk key n r.use.path))) := by
  have hpt : pk.point = key.toZ • (basepoint : P) := by rw [hpk]; rfl
  unfold serveFamily
  rw [memberOf_eq H O h pk key hk hpk n r.path, Option.getD_some]
  have hz : (memberScalar O pk key (r.path.map Step.origin)).toZ = key.toZ + shiftOf O pk (r.path.map Step.origin) := Scalar.toZ_ofZ _
  have hcan : (memberScalar O pk key (r.path.map Step.origin)).Canonical := Scalar.canonical_ofZ _
  rw [serveKey_eq H _ _ (by rw [memberKey_point, hpt, hz, add_smul])]
  unfold realAns
  simp only [FamilyUse.query, FamilyUse.answer, familySecret, FamilyRequest.use, steps_map, memberDh_eq,
    FamilyUse.nonceQuery, hz]

theorem family_seeded_le (O : Oracles) (pk : PublicKey P) (key : Scalar) (hk : key.Canonical)
    (hpk : pk = RistrettoBoth.fromPoint (key.toZ • basepoint)) (hC : CoversFamily O pk key D J K)
    (A : Client (FamilyRequest P) (KeyAnswer P) (FamilyForgery P × List (FamilyRequest P × KeyAnswer P))) (q m : Nat)
    (fin : FamilyForgery P × List (FamilyRequest P × KeyAnswer P) → Prop) (hA : A.Limited D FamilyRequest.use K fin q m) :
    (chance fun ω : Arr 32 × (D → Arr 64) =>
      let H := wideTable O D ω.2
      let r := A.play H (serveFamily H ⟨⟨key, ω.1⟩, pk⟩)
      r.1.Valid H (memberKey H pk) r.2) ≤
    (avg fun f : D → Arr 64 => avg fun N : K → Arr 64 => ind (
      let r := A.play (table O D f) fun r => realAns (table O D f) (FamilyUse.query O pk fun I => key.toZ • I)
        (FamilyUse.answer O pk fun I => key.toZ • I) (familySecret O pk key.toZ) r.use (residue (noncesOf N r.use))
      r.1.Valid (table O D f) (memberKey O pk) r.2)) + J.card * (J.card + q : Nat) / 2 ^ 256 := by
  classical
  let node : K → J := fun k => ⟨k.1.path, hC.uses k.1 k.2⟩
  let parent : J → Option J := familyParent hC.parents
  let rank : J → Nat := fun j => j.1.length
  let kq : Arr 32 → J ⊕ K → List MOp := familyQuery O pk key
  let win : Oracles → FamilyForgery P × List (FamilyRequest P × KeyAnswer P) → Prop := fun O' r => r.1.Valid O' (memberKey O pk) r.2
  have hr : ∀ i j, parent i = some j → rank j < rank i := by
    rintro ⟨l, hl⟩ j h
    cases l with
    | nil => cases h
    | cons s p => cases h; exact Nat.lt_succ_self _
  have hD : ∀ n y i, treeOwner parent node y = some i → kq n y ∈ D := by
    rintro n (⟨l, hl⟩ | k) i h
    · cases l with
      | nil => cases h
      | cons s p => exact hC.seeds s p hl n
    · exact hC.nonces k.1 k.2 n
  have hinj : ∀ n (y : Owned (treeOwner parent node)) n' (y' : Owned (treeOwner parent node)), kq n y.1 = kq n' y'.1 →
      n = n' ∧ (treeOwner parent node y.1 = treeOwner parent node y'.1 → y.1 = y'.1) := by
    rintro n ⟨⟨l, hl⟩ | k, i, hi⟩ n' ⟨⟨l', hl'⟩ | k', i', hi'⟩ h
    · cases l with
      | nil => cases hi
      | cons s p =>
        cases l' with
        | nil => cases hi'
        | cons s' p' =>
          obtain ⟨h1, h2⟩ := member_seed_query_inj O pk key s s' p p' n n' h
          refine ⟨h1, fun ho => ?_⟩
          have ho : (⟨p, hC.parents s p hl⟩ : J) = ⟨p', hC.parents s' p' hl'⟩ := Sum.inl.inj (Option.some.inj ho)
          have hp : p = p' := congrArg Subtype.val ho
          clear ho
          subst h2 hp
          rfl
    · cases l with
      | nil => cases hi
      | cons s p => exact (member_seed_ne_nonce O pk _ key s p n n' _ h).elim
    · cases l' with
      | nil => cases hi'
      | cons s' p' => exact (member_seed_ne_nonce O pk _ key s' p' n' n _ h.symm).elim
    · have h : k.1.use.nonceQuery (memberKey O pk (k.1.path.map Prod.fst)) n =
        k'.1.use.nonceQuery (memberKey O pk (k'.1.path.map Prod.fst)) n' := h
      refine ⟨nonce_seed_inj _ _ _ _ _ _ h, fun ho => ?_⟩
      have ho : node k = node k' := Sum.inl.inj (Option.some.inj ho)
      have ho : k.1.path = k'.1.path := congrArg Subtype.val ho
      rw [ho] at h
      have hu := (use_nonce_inj _ _ _ _ _ h).2
      refine congrArg Sum.inr (Subtype.ext ?_)
      obtain ⟨⟨p, u⟩, hk⟩ := k
      obtain ⟨⟨p', u'⟩, hk'⟩ := k'
      simp only at ho hu
      subst ho hu
      rfl
  have hshown : ∀ n (y : Owned (treeOwner parent node)) (u : Use), Shown u → u.WF → u.norm = u → kq n y.1 ≠ u.query := by
    rintro n ⟨⟨l, hl⟩ | k, i, hi⟩ u h1 h2 h3
    · cases l with
      | nil => cases hi
      | cons s p => exact member_seed_not_shown O pk key s p n u h1 h2 h3
    · exact nonce_not_shown _ n _ u h1 h2 h3
  let val : (D → Arr 64) → (J ⊕ K → Arr 64) → J ⊕ K → Arr 64 := fun f g y => match y with
    | .inl j => memberVal O pk key f (g (.inl ⟨[], hC.root⟩)) j.1
    | .inr k => f ⟨k.1.nonceQuery O pk (seed32 (memberVal O pk key f (g (.inl ⟨[], hC.root⟩)) k.1.path)), hC.nonces k.1 k.2 _⟩
  have s1 := tree_service_le (ι := J) O (FamilyUse.query O pk fun I => key.toZ • I)
    (FamilyUse.answer O pk fun I => key.toZ • I) FamilyRequest.use (familySecret O pk key.toZ) parent node rank hr kq hinj
    (fun n y k v => by
      unfold FamilyUse.query
      rw [← asUse_query]
      exact hshown n y _ (asUse_shown ..) (asUse_wf ..) (asUse_norm ..)) hD val
    (by
      rintro f g (⟨l, hl⟩ | k) h
      · cases l with
        | nil => rfl
        | cons s p => cases h
      · cases h)
    (by
      rintro f g (⟨l, hl⟩ | k) i h
      · cases l with
        | nil => cases h
        | cons s p =>
          cases h
          show memberVal O pk key f _ (s :: p) = _
          rw [memberVal, dif_pos (hC.seeds s p hl _)]
          rfl
      · cases h
        rfl) fin win
    (fun O₁ O₂ a h hv => by
      obtain ⟨u, hu1, hu2, hu3, hu4⟩ := checks_shown (valid_checks (show a.1.claim.Valid O₁ _ _ from hv))
      refine valid_congr (hashWith_congr (h _ fun n y he => ?_)) hv
      rw [← hu4] at he
      exact hshown n y u hu1 hu2 hu3 he) A q m hA
  rw [Fintype.card_coe] at s1
  refine le_trans (le_of_eq ?_) s1
  -- the real game
  have hreal : ∀ (f : D → Arr 64) (g : J ⊕ K → Arr 64),
      (let H := wideTable O D f
       let r := A.play H (serveFamily H ⟨⟨key, seed32 (g (.inl ⟨[], hC.root⟩))⟩, pk⟩)
       r.1.Valid H (memberKey H pk) r.2) ↔
      win (table O D f) (A.play (table O D f) fun r => realAns (table O D f) (FamilyUse.query O pk fun I => key.toZ • I)
        (FamilyUse.answer O pk fun I => key.toZ • I) (familySecret O pk key.toZ) r.use
        (residue (noncesOf (fun k => val f g (.inr k)) r.use))) := by
    intro f g
    have hsoft := softEq_wide O hC.noSoft f
    have hplay : A.play (wideTable O D f) (serveFamily (wideTable O D f) ⟨⟨key, seed32 (g (.inl ⟨[], hC.root⟩))⟩, pk⟩) =
        A.play (table O D f) fun r => realAns (table O D f) (FamilyUse.query O pk fun I => key.toZ • I)
        (FamilyUse.answer O pk fun I => key.toZ • I) (familySecret O pk key.toZ) r.use
        (residue (noncesOf (fun k => val f g (.inr k)) r.use)) := by
      refine client_play_eq (X := Empty) _ _ _ _ {r | r.use ∈ K} (fun x => x.elim) (fun l _ => wide_table_64 O f l)
        (fun r hrK => ?_) A (limited_requests FamilyRequest.use fin A q m hA) (fun l _ x => x.elim)
      have hrK' : r.use ∈ K := hrK
      rw [serveFamily_eq _ O hsoft pk key hk hpk, memberSeed_eq O pk key hC f _ _ (hC.uses _ hrK')]
      have hn : hashWith (wideTable O D f) (r.use.nonceQuery O pk 
          (seed32 (memberVal O pk key f (g (.inl ⟨[], hC.root⟩)) r.use.path))) =
          residue (noncesOf (fun k => val f g (.inr k)) r.use) := by
        rw [hashWith_congr (wide_table_64 O f _), hashWith_table O D f _ (hC.nonces _ hrK' _)]
        simp only [noncesOf, hrK', dif_pos, val]
      rw [hn]
      unfold realAns
      rw [hashWith_congr (wide_table_64 O f _)]
    simp only [win]
    rw [hplay]
    have hkeys : memberKey (wideTable O D f) pk = memberKey O pk := funext fun p => by
      rw [memberKey_congr hsoft]
    rw [hkeys]
    constructor
    · exact valid_congr (hashWith_congr (wide_table_64 O f _))
    · exact valid_congr (hashWith_congr (wide_table_64 O f _).symm)
  rw [chance_eq_avg, avg_prod, avg_comm]
  refine avg_congr fun f => ?_
  have e1 : ∀ g : J ⊕ K → Arr 64, ind (win (table O D f) (A.play (table O D f) fun r => realAns (table O D f)
        (FamilyUse.query O pk fun I => key.toZ • I)
        (FamilyUse.answer O pk fun I => key.toZ • I) (familySecret O pk key.toZ) r.use
        (residue (noncesOf (fun k => val f g (.inr k)) r.use)))) =
      ind (let H := wideTable O D f
       let r := A.play H (serveFamily H ⟨⟨key, seed32 (g (.inl ⟨[], hC.root⟩))⟩, pk⟩)
       r.1.Valid H (memberKey H pk) r.2) := fun g => congrArg ind (propext (hreal f g)).symm
  simp only [e1]
  rw [avg_update (Sum.inl ⟨[], hC.root⟩ : J ⊕ K)]
  simp only [Function.update_self]
  rw [← avg_seed32]
  exact avg_congr fun w => (avg_const _).symm

/-! ### Extraction -/

/-- The simulated attack makes a valid claim. -/
def FamilyRun (O : Oracles) (pk : PublicKey P) (dh : P → P) (C : K → Arr 64 × Arr 64)
    (A : Client (FamilyRequest P) (KeyAnswer P) (FamilyForgery P)) (f : D → Arr 64) : Prop :=
  let r := progPlay (FamilyUse.query O pk dh) (FamilyUse.answer O pk dh) FamilyRequest.use (coinsOf C) (table O D f) (A.logged [])
  r.2.1.Valid r.1 (memberKey O pk) r.2.2

/-- A programmed query cannot make a new claim valid. -/
theorem family_programmed_not_new (O' O : Oracles) (pk : PublicKey P) (hpk : pk = RistrettoBoth.fromPoint pk.point)
    (dh : P → P) (log : List (FamilyRequest P × KeyAnswer P)) (c : FamilyForgery P) (hv : c.Valid O' (memberKey O pk) log)
    (r : FamilyRequest P) (z w : Z) (hw : hashWith O' (c.claim.query (memberKey O pk c.path)) = w)
    (hmem : (r, FamilyUse.answer O pk dh r.use z w) ∈ log)
    (hq : c.claim.query (memberKey O pk c.path) = r.use.query O pk dh z w) : False := by
  have hv' : c.claim.Valid O' (memberKey O pk c.path) (askedUnder (memberKey O pk) (memberKey O pk c.path) log) := hv
  obtain ⟨u, h1, h2, h3, h4⟩ := checks_key (valid_checks hv')
  simp only [FamilyUse.query, FamilyUse.answer, FamilyRequest.use, steps_map] at hq hmem
  have hkey : (memberKey O pk (r.path.map Step.origin)).compressed.1 = (memberKey O pk c.path).compressed.1 := by
    rw [← h3, ← asUse_query] at hq
    have := hash_uses_separated _ _ h1 (asUse_wf ..) hq
    rw [h2, asUse_norm] at this
    rw [← h4, this, shownKey_asUse]
  obtain ⟨e1, e2⟩ := memberKey_inj O pk hpk _ _ hkey
  have e3 : memberDh O pk dh (r.path.map Step.origin) = memberDh O pk dh c.path := by
    funext I; unfold memberDh; rw [e2]
  rw [e1, e3] at hq hmem
  refine programmed_not_new O' _ (memberDh O pk dh c.path) _ c.claim hv' r.req z w hw ?_ hq
  refine List.mem_filterMap.mpr ⟨_, hmem, ?_⟩
  simp only
  rw [if_pos (Subtype.ext hkey)]

/-- For fixed coins: the extractor succeeds about as often as the square of the simulated attack. -/
private theorem extract_family_coins (O : Oracles) (pk : PublicKey P) (hpk : pk = RistrettoBoth.fromPoint pk.point)
    (dh : P → P) (C : K → Arr 64 × Arr 64) (A : Client (FamilyRequest P) (KeyAnswer P) (FamilyForgery P))
    (q m : Nat) (hA : A.Limited D FamilyRequest.use K (fun c => c.claim.query (memberKey O pk c.path) ∈ D) q m) :
    ∃ p, (chance fun f : D → Arr 64 => FamilyRun O pk dh C A f) ≤ p ∧
      p ^ 2 / (q + 1 : Nat) - guess * p ≤
      chance fun x : (D → Arr 64) × (D → Arr 64) =>
        pk.point = extractFamilyFrom O pk dh A C x.1 x.2 • (basepoint : P) := by
  let qf : FamilyForgery P → List MOp := fun c => c.claim.query (memberKey O pk c.path)
  let S := A.simulate (FamilyUse.query O pk dh) (FamilyUse.answer O pk dh) FamilyRequest.use (coinsOf C) []
  let B := simulateFamily O pk dh C A
  have hrun : ∀ O, B.run O = S.run O := fun O => by
    simp only [B, S, simulateFamily, Algo.run_bind, Algo.run]
  have hasked : ∀ O, B.asked O = S.asked O ++ [qf (B.run O)] :=
    fun O => by
      rw [hrun]
      simp only [B, S, qf, simulateFamily, Algo.asked_bind, Algo.asked]
  have hB : B.Within O D (q + 1) := by
    intro f
    obtain ⟨h1, h2, h3⟩ := simulate_limited (D := D) (table O D f) (FamilyUse.query O pk dh) (FamilyUse.answer O pk dh)
      FamilyRequest.use (coinsOf C) _ A q m [] hA
    rw [hasked, hrun]
    refine ⟨by simpa using h1, fun l hl => ?_⟩
    rcases List.mem_append.mp hl with h | h
    · exact h2 l h
    · rw [List.mem_singleton.mp h]; exact h3
  let win : (D → Arr 64) → Prop := fun f => Checks (table O D f) (memberKey O pk (B.run (table O D f)).path) (B.run (table O D f)).claim
  let tq : (D → Arr 64) → List MOp := fun f => qf (B.run (table O D f))
  have hf := forking O B (q + 1) hB win tq (fun f _ => by rw [hasked]; simp [tq])
  refine ⟨chance win, chance_mono fun f h => ?_, ?_⟩
  · unfold FamilyRun at h
    simp only at h
    obtain ⟨h1, pg, h2, h3⟩ := progPlay_simulate (table O D f) (FamilyUse.query O pk dh) (FamilyUse.answer O pk dh)
      FamilyRequest.use (coinsOf C) A [] [] (fun q w h => by simp at h)
    change Checks (table O D f) (memberKey O pk (B.run (table O D f)).path) (B.run (table O D f)).claim
    rw [hrun]
    simp only [progAll] at h1 h2 h3
    rw [h2, h1] at h
    set c := S.run (table O D f) with hc
    have hm := progAll_merlin (table O D f) pg (qf c)
    cases hl : pg.lookup (qf c) with
    | none =>
      rw [hl] at hm
      exact checks_congr _ _ _ c.claim (hashWith_congr hm)
        (valid_checks (show c.claim.Valid _ (memberKey O pk c.path) _ from h))
    | some w =>
      exfalso
      rw [hl] at hm
      obtain ⟨r, z, hmem, hq⟩ := h3 _ _ hl
      refine family_programmed_not_new _ O pk hpk dh _ c h r z (residue w) ?_ hmem hq
      unfold hashWith hashToZ residue
      rw [show @Oracles.merlin (progAll (table O D f) pg) (c.claim.query (memberKey O pk c.path)) 64 = w from hm]
  · refine le_trans (le_of_eq (by ring)) (le_trans hf (chance_mono ?_))
    rintro ⟨f, g⟩ ⟨h1, h2, htq, hne⟩
    simp only at h1 h2 htq hne
    have hx : extractFamilyFrom O pk dh A C f g =
        ((B.run (table O D f)).claim.response - (B.run (table O D (rewind ((B.asked (table O D f)).takeWhile (· ≠ tq f)) f g))).claim.response) /
          (hashWith (table O D f) (tq f) - hashWith (table O D (rewind ((B.asked (table O D f)).takeWhile (· ≠ tq f)) f g)) (tq f)) -
          shiftOf O pk (B.run (table O D f)).path := rfl
    rw [hx]
    clear hx
    set f' := rewind ((B.asked (table O D f)).takeWhile (· ≠ tq f)) f g with hf'
    have h1 : Checks (table O D f) (memberKey O pk (B.run (table O D f)).path) (B.run (table O D f)).claim := h1
    have h2 : Checks (table O D f') (memberKey O pk (B.run (table O D f')).path) (B.run (table O D f')).claim := h2
    set r := B.run (table O D f)
    set r' := B.run (table O D f')
    have htq : r'.claim.query (memberKey O pk r'.path) = r.claim.query (memberKey O pk r.path) := htq
    obtain ⟨u, a1, a2, a3, a4⟩ := checks_key h1
    obtain ⟨u', b1, b2, b3, b4⟩ := checks_key h2
    have huu : u' = u := by
      have := hash_uses_separated u' u b1 a1 (by rw [a3, b3, htq])
      rwa [a2, b2] at this
    subst huu
    obtain ⟨e1, -⟩ := memberKey_inj O pk hpk r'.path r.path (by rw [← a4, ← b4])
    rw [e1] at h2 htq
    have hx := claims_extract _ _ _ _ _ h1 h2 htq hne
    rw [memberKey_point] at hx
    rw [sub_smul, ← eq_sub_of_add_eq hx]

theorem family_core (O : Oracles) (pk : PublicKey P) (key : Scalar) (hk : key.Canonical)
    (hpk : pk = RistrettoBoth.fromPoint (key.toZ • basepoint)) (A : Client (FamilyRequest P) (KeyAnswer P) (FamilyForgery P))
    (q m : Nat) (hA : A.Limited D FamilyRequest.use K (fun c => c.claim.query (memberKey O pk c.path) ∈ D) q m)
    (hC : CoversFamily O pk key D J K) :
    let ε := chance fun ω : Arr 32 × (D → Arr 64) =>
      let H := wideTable O D ω.2
      let r := (A.logged []).play H (serveFamily H ⟨⟨key, ω.1⟩, pk⟩)
      r.1.Valid H (memberKey H pk) r.2
    let loss : ℚ := J.card * (J.card + q : Nat) / 2 ^ 256 + m * ((q + m : Nat) * guess + spare)
    ∃ p : (K → Arr 64 × Arr 64) → ℚ, ε - loss ≤ avg p ∧ ∀ C, p C ^ 2 / (q + 1 : Nat) - guess * p C ≤
      chance fun x : (D → Arr 64) × (D → Arr 64) =>
        pk.point = extractFamilyFrom O pk (fun I => key.toZ • I) A C x.1 x.2 • (basepoint : P) := by
  intro ε loss
  let dh : P → P := fun I => key.toZ • I
  have hpt : pk.point = key.toZ • (basepoint : P) := by rw [hpk]; rfl
  have hwf : pk = RistrettoBoth.fromPoint pk.point := by rw [hpk]; rfl
  let win : Oracles → FamilyForgery P × List (FamilyRequest P × KeyAnswer P) → Prop := fun O' r => r.1.Valid O' (memberKey O pk) r.2
  choose p hp1 hp2 using fun C : K → Arr 64 × Arr 64 => extract_family_coins O pk hwf dh C A q m hA
  have hA' := logged_limited FamilyRequest.use _ A q m [] hA
  refine ⟨p, ?_, hp2⟩
  have s1 := family_seeded_le O pk key hk hpk hC (A.logged []) q m _ hA'
  have s2 := service_le_simulated O (FamilyUse.query O pk dh) (FamilyUse.answer O pk dh) FamilyRequest.use
    (familySecret O pk key.toZ) (family_query_shift O pk key.toZ hpt) (fun k => use_query_inj _ _ k.use)
    (fun k hk v => hC.challenges k hk v) _ win (A.logged []) q m 0
    (fun _ => none) (fun _ => none) (fun _ => none) hA' ⟨[], by simp, fun d h => (h rfl).elim⟩ (fun _ => Or.inl ⟨rfl, rfl⟩)
  have hov : ∀ {ι S : Type} (f : ι → S), ov (fun _ => none) f = f := fun f => rfl
  simp only [hov, Nat.zero_add] at s2
  change _ ≤ (avg fun f : D → Arr 64 => avg fun C : K → Arr 64 × Arr 64 => ind (FamilyRun O pk dh C A f)) + _ at s2
  have s3 : (avg fun f : D → Arr 64 => avg fun C : K → Arr 64 × Arr 64 => ind (FamilyRun O pk dh C A f)) ≤ avg p := by
    rw [avg_comm]
    refine avg_mono fun C => ?_
    rw [← chance_eq_avg]
    exact hp1 C
  change ε ≤ (avg fun f : D → Arr 64 => avg fun N : K → Arr 64 => ind (win (table O D f) ((A.logged []).play (table O D f)
    fun r => realAns (table O D f) (FamilyUse.query O pk dh) (FamilyUse.answer O pk dh) (familySecret O pk key.toZ)
      r.use (residue (noncesOf N r.use))))) + _ at s1
  simp only [loss]
  linarith

/-- **C81** a key pair and everything that comes from it.  The owner uses the key pair, the key pairs soft-derived from it
with any chain codes, the key pairs made by accepting certificates from any issuers (who choose their public keys, the
transcripts and the certificates in any way), and so on along paths of such steps; the hash values behind tweaks and chain
codes are fixed in any way whatever.  Take any attacker with at most `q` hash queries and `m` requests; each request names a
path, with all the chain codes and certificates, and asks the key pair at its end for a signature, a VRF output with proof or
a certificate, all of its choice and adaptively, with the system RNG (for the steps and the answer) under its control; the
paths have `J.card` nodes altogether.  If with probability `ε` (over the root's nonce seed and the hash function) the attacker
makes a new signature, proof or certificate under the public key at the end of any path, then the procedure
`extractFamilyFrom` — given the root public key and the VRF outputs of the root — finds the root's secret key with probability
at least `δ(δ/(q+1) − guess)`, where `δ = ε − c(c+q)/2²⁵⁶ − m((q+m)·guess + spare)` and `c = J.card`. -/
theorem family_unforgeable (O : Oracles) (pk : PublicKey P) (key : Scalar) (hk : key.Canonical)
    (hpk : pk = RistrettoBoth.fromPoint (key.toZ • basepoint)) (A : Client (FamilyRequest P) (KeyAnswer P) (FamilyForgery P))
    (q m : Nat) (hA : A.Limited D FamilyRequest.use K (fun c => c.claim.query (memberKey O pk c.path) ∈ D) q m)
    (hC : CoversFamily O pk key D J K) :
    let ε := chance fun ω : Arr 32 × (D → Arr 64) =>
      let H := wideTable O D ω.2
      let r := (A.logged []).play H (serveFamily H ⟨⟨key, ω.1⟩, pk⟩)
      r.1.Valid H (memberKey H pk) r.2
    let loss : ℚ := J.card * (J.card + q : Nat) / 2 ^ 256 + m * ((q + m : Nat) * guess + spare)
    loss ≤ ε →
    (ε - loss) * ((ε - loss) / (q + 1 : Nat) - guess) ≤
      chance fun x : (K → Arr 64 × Arr 64) × ((D → Arr 64) × (D → Arr 64)) =>
        pk.point = extractFamilyFrom O pk (fun I => key.toZ • I) A x.1 x.2.1 x.2.2 • (basepoint : P) := by
  intro ε loss hle
  obtain ⟨p, h1, hp2⟩ := family_core O pk key hk hpk A q m hA hC
  refine fork_coins p ε loss (q + 1 : Nat) _ (by positivity) (by unfold chance; positivity) hle h1 ?_
  rw [chance_eq_avg, avg_prod]
  refine avg_mono fun C => ?_
  rw [← chance_eq_avg]
  exact hp2 C


/-! ### The hypotheses are met by every attacker -/

private instance : Finite Z := inferInstanceAs (Finite (ZMod ell))

/-- **C81** nothing is lost by leaving out the queries for tweaks and chain codes: a client that looks them up by itself
gets the same results. -/
theorem family_knowing_play (O : Oracles) (hD : NoSoftQuery D) (f : D → Arr 64) {α : Type}
    (serve : FamilyRequest P → KeyAnswer P) (A : Client (FamilyRequest P) (KeyAnswer P) α) : ∀ log,
    ((A.knowing O softQueries).logged log).play (wideTable O D f) serve = (A.logged log).play (wideTable O D f) serve := by
  have hc : ∀ l ∈ softQueries, (wideTable O D f).merlin l 64 = O.merlin l 64 := by
    intro l hl
    show (if h : _ ∈ D ∧ 64 ≤ 64 then _ else _ : Arr 64) = _
    rw [dif_neg fun e => (noSoft_iff D).mp hD l e.1 hl]
  induction A with
  | ret a => intro log; rfl
  | ask l k ih =>
    intro log
    simp only [Client.knowing]
    split_ifs with hl
    · simp only [Client.logged, Client.play, hc l hl]
      exact ih _ log
    · exact ih _ log
  | request r k ih => intro log; exact ih _ _

/-- **C81** every step succeeds, whatever the system RNG does; the key pair at the end of a path consists of a secret scalar
that differs from the root's by the shift of the path and of the public key that belongs to it, `memberKey`. -/
theorem family_public_keys (O : Oracles) (sk : SecretKey) (hk : sk.key.Canonical) (p : List (Step P)) :
    ∃ member : Keypair P, memberOf O sk.toKeypair p = some member ∧
      member.pub = memberKey O sk.toPublic (p.map Step.origin) ∧
      member.secret.key.toZ = sk.key.toZ + shiftOf O (sk.toPublic : PublicKey P) (p.map Step.origin) ∧
      member.secret.key.Canonical ∧ member.pub = member.secret.toPublic := by
  obtain ⟨key, n⟩ := sk
  set pk : PublicKey P := (⟨key, n⟩ : SecretKey).toPublic with hpkdef
  have hpk : pk = RistrettoBoth.fromPoint (key.toZ • basepoint) := by
    show RistrettoBoth.fromPoint (key •. (basepoint : P)) = _
    rw [mulPoint_eq]
  have hpt : pk.point = key.toZ • (basepoint : P) := by rw [hpk]; rfl
  have hz : (memberScalar O pk key (p.map Step.origin)).toZ = key.toZ + shiftOf O pk (p.map Step.origin) := Scalar.toZ_ofZ _
  refine ⟨_, memberOf_eq O O (fun _ _ _ => ⟨rfl, rfl⟩) pk key hk hpk n p, rfl, hz, Scalar.canonical_ofZ _, ?_⟩
  simp only
  rw [memberKey_wf O pk (by rw [hpk]; rfl), memberKey_point, hpt, ← add_smul, ← hz]
  show _ = RistrettoBoth.fromPoint (memberScalar O pk key (p.map Step.origin) •. (basepoint : P))
  rw [mulPoint_eq]

/-- **C81** the certificate belongs to the key: if anybody opens an honest certificate (one that satisfies the certificate
equation), the result is the member's public key. -/
theorem certified_member_key (O : Oracles) (pk : PublicKey P) (p : List Origin) (issuer : PublicKey P)
    (t : Transcript) (Γ : P) (s : Z)
    (h : (memberKey O pk p).point + s • basepoint = hashWith O (certQuery t.log issuer.compressed.1 (compress Γ).1) • issuer.point + Γ) :
    openWith O issuer t ⟨compress Γ⟩ = .ok (memberKey O pk (.accept t.log issuer.compressed (compress Γ) s :: p)) := by
  obtain ⟨x, hx⟩ := exists_smul_basepoint ((memberKey O pk p).point + s • (basepoint : P))
  have hpub : (SecretKey.toPublic ⟨Scalar.ofZ x, zeros 32⟩ : PublicKey P) =
      memberKey O pk (.accept t.log issuer.compressed (compress Γ) s :: p) := by
    show RistrettoBoth.fromPoint (Scalar.ofZ x •. (basepoint : P)) = RistrettoBoth.fromPoint _
    rw [mulPoint_eq, Scalar.toZ_ofZ, ← hx]
  rw [← hpub, openWith_iff]
  refine ⟨Γ, rfl, ?_⟩
  simp only [Scalar.toZ_ofZ]
  rw [← hx, h]

/-- **C81** every attacker satisfies the hypotheses of `family_unforgeable`, for suitable finite sets and bounds, once it
looks up tweaks and chain codes by itself (which makes no difference: `family_knowing_play`). -/
theorem every_family_attacker_is_limited (O : Oracles) (pk : PublicKey P) (key : Scalar)
    (A : Client (FamilyRequest P) (KeyAnswer P) (FamilyForgery P)) :
    ∃ D J K q m, (A.knowing O softQueries).Limited D FamilyRequest.use K (fun c => c.claim.query (memberKey O pk c.path) ∈ D) q m ∧
      CoversFamily O pk key D J K := by
  classical
  haveI := finiteAnswer (P := P)
  obtain ⟨D, K, q, m, h⟩ := exists_limited FamilyRequest.use (fun c : FamilyForgery P => c.claim.query (memberKey O pk c.path)) A
  haveI := Fintype.ofFinite (Arr 32)
  haveI := Fintype.ofFinite Z
  let J : Finset (List (Origin × Arr 32)) := insert [] (K.biUnion fun k => k.path.tails.toFinset)
  let seedsOf : List (Origin × Arr 32) → Finset (List MOp) := fun l => match l with
    | [] => ∅
    | s :: p => Finset.univ.image fun n : Arr 32 => (memberSeedUse O pk key s p n).query
  let D1 := D.filter (· ∉ softQueries)
  let D2 := K.biUnion fun k => Finset.univ.image (fun v : Z => k.query O pk (fun I => key.toZ • I) v 0) ∪
    Finset.univ.image (fun n : Arr 32 => k.nonceQuery O pk n)
  let D3 := J.biUnion seedsOf
  have hJ : ∀ s p, s :: p ∈ J → p ∈ J := by
    intro s p hp
    rcases Finset.mem_insert.mp hp with hp | hp
    · cases hp
    · obtain ⟨k, hk, hp⟩ := Finset.mem_biUnion.mp hp
      refine Finset.mem_insert_of_mem (Finset.mem_biUnion.mpr ⟨k, hk, ?_⟩)
      rw [List.mem_toFinset, List.mem_tails] at hp ⊢
      exact (List.suffix_cons s p).trans hp
  have hl := knowing_limited (fin' := fun c => c.claim.query (memberKey O pk c.path) ∈ D1) O softQueries FamilyRequest.use A
    (fun c hc => Finset.mem_filter.mpr ⟨hc, claim_not_soft _ _⟩) h
  have hsub : D1 ⊆ D1 ∪ D2 ∪ D3 := fun x hx => Finset.mem_union_left _ (Finset.mem_union_left _ hx)
  refine ⟨D1 ∪ D2 ∪ D3, J, K, q, m, limited_mono _ _ hsub (Finset.Subset.refl _) (fun a ha => hsub ha) le_rfl le_rfl hl, ?_⟩
  refine ⟨Finset.mem_insert_self _ _, hJ, fun k hk => ?_, fun k hk v => ?_, fun k hk n => ?_, fun s p hp n => ?_, ?_⟩
  · refine Finset.mem_insert_of_mem (Finset.mem_biUnion.mpr ⟨k, hk, ?_⟩)
    rw [List.mem_toFinset, List.mem_tails]
  · refine Finset.mem_union_left _ (Finset.mem_union_right _ (Finset.mem_biUnion.mpr ⟨k, hk, Finset.mem_union_left _ ?_⟩))
    exact Finset.mem_image_of_mem (fun v : Z => k.query O pk (fun I => key.toZ • I) v 0) (Finset.mem_univ v)
  · refine Finset.mem_union_left _ (Finset.mem_union_right _ (Finset.mem_biUnion.mpr ⟨k, hk, Finset.mem_union_right _ ?_⟩))
    exact Finset.mem_image_of_mem (fun n : Arr 32 => k.nonceQuery O pk n) (Finset.mem_univ n)
  · refine Finset.mem_union_right _ (Finset.mem_biUnion.mpr ⟨s :: p, hp, ?_⟩)
    exact Finset.mem_image_of_mem (fun n : Arr 32 => (memberSeedUse O pk key s p n).query) (Finset.mem_univ n)
  · rw [noSoft_iff]
    intro l hl
    rcases Finset.mem_union.mp hl with hl | hl
    · rcases Finset.mem_union.mp hl with hl | hl
      · exact (Finset.mem_filter.mp hl).2
      · obtain ⟨k, hk, hl⟩ := Finset.mem_biUnion.mp hl
        rcases Finset.mem_union.mp hl with hl | hl
        · obtain ⟨v, -, rfl⟩ := Finset.mem_image.mp hl
          exact use_not_soft _ _ k.use v 0
        · obtain ⟨n, -, rfl⟩ := Finset.mem_image.mp hl
          exact nonce_not_soft _ n k.use
    · obtain ⟨j, hj, hl⟩ := Finset.mem_biUnion.mp hl
      cases j with
      | nil => exact absurd hl (Finset.notMem_empty _)
      | cons s p =>
        obtain ⟨n, -, rfl⟩ := Finset.mem_image.mp hl
        exact member_seed_not_soft O pk key s p n


/-- An attacker who knows the secret key `x`: lets the owner accept a certificate that shifts the key by one and sign with
the new key, then makes a certificate of its own under that key. -/
noncomputable def familyInsider (O : Oracles) (pk : PublicKey P) (x : Z) (cc : ChainCode) (t t' : Transcript) (sys : Rng) :
    Client (FamilyRequest P) (KeyAnswer P) (FamilyForgery P) :=
  .request ⟨[.soft t cc sys, .accept pk t (zeros 32) 1 sys], .sign t sys⟩ fun _ =>
  .request ⟨[.accept pk t (zeros 32) 1 sys], .issue t basepoint sys⟩ fun _ =>
  .ask (certQuery t'.log (memberKey O pk [.accept t.log pk.compressed (zeros 32) 1]).compressed.1 (compress (basepoint : P)).1) fun w =>
  .ret ⟨[.accept t.log pk.compressed (zeros 32) 1],
    .cert t' ⟨compress (basepoint : P)⟩ ⟨Scalar.ofZ (residue w * (x + shiftOf O pk [.accept t.log pk.compressed (zeros 32) 1]) + 1), zeros 32⟩⟩

/-- That attacker always succeeds. -/
theorem familyInsider_wins (O H : Oracles) (h : SoftEq H O) (pk : PublicKey P) (x : Z) (cc : ChainCode)
    (hpt : pk.point = x • (basepoint : P)) (t t' : Transcript) (ht : t ≠ t') (sys : Rng) (serve : FamilyRequest P → KeyAnswer P) :
    let r := ((familyInsider O pk x cc t t' sys).logged []).play H serve
    r.1.Valid H (memberKey H pk) r.2 := by
  have hkeys : memberKey H pk = memberKey O pk := funext fun p => memberKey_congr h pk p
  simp only [familyInsider, Client.logged, Client.play]
  rw [hkeys]
  refine ⟨?_, ?_⟩
  · rw [openWith_iff]
    refine ⟨basepoint, rfl, ?_⟩
    simp only [Scalar.toZ_ofZ]
    rw [add_smul, one_smul, mul_smul, memberKey_point, hpt, add_smul]
    rfl
  · intro seed sys' cs hm
    obtain ⟨x, hx, he⟩ := List.mem_filterMap.mp hm
    split_ifs at he
    have he := congrArg Prod.fst (Option.some.inj he)
    simp only at he
    simp only [List.mem_cons, List.not_mem_nil, or_false] at hx
    rcases hx with rfl | rfl
    · simp only [KeyRequest.issue.injEq] at he
      exact (ht he.1).elim
    · cases he

/-- Non-vacuity: that attacker succeeds with probability one, so `ε` can be as large as possible. -/
example (O : Oracles) (pk : PublicKey P) (key : Scalar) (cc : ChainCode) (hpk : pk = RistrettoBoth.fromPoint (key.toZ • basepoint))
    (t t' : Transcript) (ht : t ≠ t') (sys : Rng) (D : Finset (List MOp)) (hD : NoSoftQuery D) :
    (chance fun ω : Arr 32 × (D → Arr 64) =>
      let H := wideTable O D ω.2
      let r := ((familyInsider O pk key.toZ cc t t' sys).logged []).play H (serveFamily H ⟨⟨key, ω.1⟩, pk⟩)
      r.1.Valid H (memberKey H pk) r.2) = 1 := by
  have hpt : pk.point = key.toZ • (basepoint : P) := by rw [hpk]; rfl
  have h : ∀ ω : Arr 32 × (D → Arr 64),
      let H := wideTable O D ω.2
      let r := ((familyInsider O pk key.toZ cc t t' sys).logged []).play H (serveFamily H ⟨⟨key, ω.1⟩, pk⟩)
      r.1.Valid H (memberKey H pk) r.2 := fun ω =>
    familyInsider_wins O _ (softEq_wide O hD ω.2) pk key.toZ cc hpt t t' ht sys _
  rw [chance_eq_avg]
  simp only [ind, h, if_true]
  exact avg_const 1

end Schnorrkel.Props
