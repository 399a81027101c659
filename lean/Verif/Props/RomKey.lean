import Verif.Lemmas.RomKey
import Verif.Lemmas.RomFork
import Verif.Props.RomSign
import Verif.Props.Domain
import Verif.Props.Cert
import Verif.Props.VrfMulti

/-! # C73: one key pair for signatures, VRF proofs and certificates -/

namespace Schnorrkel.Props
open Spec Schnorrkel
variable {P : Type} [Ristretto P] {D : Finset (List MOp)} {K : Finset (KeyUse P)}

/-! ### The services are sigma protocols -/

/-- The secret in the response: VRF proofs subtract it. -/
def KeyUse.secret (x : Z) : KeyUse P → Z
  | .sign _ _ => x
  | .prove _ _ _ _ => -x
  | .issue _ _ _ => x

theorem use_query_shift (pk : PublicKey P) (x : Z) (hpk : pk.point = x • (basepoint : P)) (k : KeyUse P) (v w : Z) :
    KeyUse.query pk (fun I => x • I) k (w * KeyUse.secret x k + v) w = KeyUse.query pk (fun I => x • I) k v 0 := by
  cases k with
  | sign log rng =>
    simp only [KeyUse.query, KeyUse.secret, hpk]
    rw [show (w * x + v) • (basepoint : P) - w • x • (basepoint : P) = v • (basepoint : P) - (0 : Z) • x • (basepoint : P) by module]
  | prove log I kusama rng =>
    simp only [KeyUse.query, KeyUse.secret, hpk]
    rw [show w • x • (basepoint : P) + (w * -x + v) • (basepoint : P) = (0 : Z) • x • (basepoint : P) + v • basepoint by module,
      show w • x • I + (w * -x + v) • I = (0 : Z) • x • I + v • I by module]
  | issue log S rng =>
    simp only [KeyUse.query, KeyUse.secret, hpk]
    rw [show S + (w * x + v) • (basepoint : P) - w • x • (basepoint : P) =
      S + v • (basepoint : P) - (0 : Z) • x • (basepoint : P) by module]

/-- The queries as uses of the hash. -/
def KeyUse.asUse (pk : PublicKey P) (dh : P → P) : KeyUse P → Z → Z → Use
  | .sign log _, z, w => .signature log pk.compressed.1 (compress (z • (basepoint : P) - w • pk.point)).1
  | .prove log I kusama _, z, w => .dleq log kusama (compress I).1 pk.compressed.1
      (compress (w • pk.point + z • (basepoint : P))).1 (compress (w • dh I + z • I)).1 (compress (dh I)).1
  | .issue log S _, z, w => .cert log pk.compressed.1 (compress (S + z • (basepoint : P) - w • pk.point)).1

theorem asUse_query (pk : PublicKey P) (dh : P → P) (k : KeyUse P) (z w : Z) :
    (KeyUse.asUse pk dh k z w).query = k.query pk dh z w := by
  cases k <;> rfl

theorem asUse_wf (pk : PublicKey P) (dh : P → P) (k : KeyUse P) (z w : Z) : (KeyUse.asUse pk dh k z w).WF := by
  cases k <;> exact trivial

theorem asUse_norm (pk : PublicKey P) (dh : P → P) (k : KeyUse P) (z w : Z) :
    (KeyUse.asUse pk dh k z w).norm = KeyUse.asUse pk dh k z w := by
  cases k <;> rfl

theorem use_query_inj (pk : PublicKey P) (dh : P → P) (k : KeyUse P) : Function.Injective fun v => k.query pk dh v 0 := by
  intro v v' h
  simp only at h
  rw [← asUse_query, ← asUse_query] at h
  have h := hash_uses_separated _ _ (asUse_wf ..) (asUse_wf ..) h
  rw [asUse_norm, asUse_norm] at h
  cases k with
  | sign log rng =>
    simp only [KeyUse.asUse, Use.signature.injEq, true_and] at h
    have := compress_inj.mp (Subtype.ext h)
    exact smul_basepoint_inj.mp (sub_left_injective this)
  | prove log I kusama rng =>
    simp only [KeyUse.asUse, Use.dleq.injEq, true_and] at h
    have := compress_inj.mp (Subtype.ext h.1)
    exact smul_basepoint_inj.mp (add_left_cancel this)
  | issue log S rng =>
    simp only [KeyUse.asUse, Use.cert.injEq, true_and] at h
    have := compress_inj.mp (Subtype.ext h)
    exact smul_basepoint_inj.mp (add_left_cancel (sub_left_injective this))

/-- The nonce queries as uses of the hash. -/
def KeyUse.nonceUse (pk : PublicKey P) (n : Arr 32) : KeyUse P → Use
  | .sign log rng => Use.signNonce log pk.compressed.1 n.1 rng.1
  | .prove log input kusama rng => Use.dleqNonce log kusama (compress input).1 pk.compressed.1 n.1 rng.1
  | .issue log seed rng => Use.issuing log pk.compressed.1 n.1 (compress seed).1 rng.1

theorem nonceUse_query (pk : PublicKey P) (n : Arr 32) (k : KeyUse P) :
    (KeyUse.nonceUse pk n k).query = k.nonceQuery pk n := by
  cases k <;> rfl

theorem nonceUse_wf (pk : PublicKey P) (n : Arr 32) (k : KeyUse P) : (KeyUse.nonceUse pk n k).WF := by
  cases k <;> exact trivial

theorem use_nonce_inj (pk : PublicKey P) (n : Arr 32) (k : KeyUse P) (n' : Arr 32) (k' : KeyUse P)
    (h : k.nonceQuery pk n = k'.nonceQuery pk n') : n = n' ∧ k = k' := by
  rw [← nonceUse_query, ← nonceUse_query] at h
  have h := hash_uses_separated _ _ (nonceUse_wf ..) (nonceUse_wf ..) h
  cases k with
  | sign log rng =>
    cases k' with
    | sign log' rng' =>
      simp only [KeyUse.nonceUse, Use.norm, Use.signNonce.injEq, true_and] at h
      obtain ⟨rfl, h1, h2⟩ := h
      rw [Subtype.ext h1, Subtype.ext h2]
      exact ⟨rfl, rfl⟩
    | prove log' I' ku' rng' => cases ku' <;> simp [KeyUse.nonceUse, Use.norm] at h
    | issue log' S' rng' => simp [KeyUse.nonceUse, Use.norm] at h
  | prove log I ku rng =>
    cases k' with
    | sign log' rng' => cases ku <;> simp [KeyUse.nonceUse, Use.norm] at h
    | prove log' I' ku' rng' =>
      cases ku <;> cases ku' <;> simp [KeyUse.nonceUse, Use.norm] at h
      all_goals
        obtain ⟨rfl, h1, h2, h3⟩ := h
        have e := compress_inj.mp (Subtype.ext h1)
        rw [Subtype.ext h2, Subtype.ext h3, e]
        exact ⟨rfl, rfl⟩
    | issue log' S' rng' => cases ku <;> simp [KeyUse.nonceUse, Use.norm] at h
  | issue log S rng =>
    cases k' with
    | sign log' rng' => simp [KeyUse.nonceUse, Use.norm] at h
    | prove log' I' ku' rng' => cases ku' <;> simp [KeyUse.nonceUse, Use.norm] at h
    | issue log' S' rng' =>
      simp only [KeyUse.nonceUse, Use.norm, Use.issuing.injEq, true_and] at h
      obtain ⟨rfl, h1, h2, h3⟩ := h
      have e := compress_inj.mp (Subtype.ext h2)
      rw [Subtype.ext h1, Subtype.ext h3, e]
      exact ⟨rfl, rfl⟩

theorem nonce_ne_query (pk : PublicKey P) (dh : P → P) (n : Arr 32) (k k' : KeyUse P) (z w : Z) :
    k.nonceQuery pk n ≠ k'.query pk dh z w := by
  intro h
  rw [← nonceUse_query, ← asUse_query] at h
  have h := hash_uses_separated _ _ (nonceUse_wf ..) (asUse_wf ..) h
  rw [asUse_norm] at h
  cases k with
  | sign log rng => cases k' <;> simp [KeyUse.nonceUse, KeyUse.asUse, Use.norm] at h
  | prove log I ku rng => cases ku <;> cases k' <;> simp [KeyUse.nonceUse, KeyUse.asUse, Use.norm] at h
  | issue log S rng => cases k' <;> simp [KeyUse.nonceUse, KeyUse.asUse, Use.norm] at h

theorem vrfCreateFromPoint_eq (sk : SecretKey) (I : P) :
    sk.vrfCreateFromPoint (RistrettoBoth.fromPoint I) = ioOf I (sk.key.toZ • I) := by
  unfold SecretKey.vrfCreateFromPoint ioOf
  rw [mulPoint_eq]
  rfl

/-- Every answer of the owner has the shape of a sigma protocol. -/
theorem serveKey_eq (O : Oracles) (key : Scalar) (pk : PublicKey P)
    (hpk : pk.point = key.toZ • (basepoint : P)) (n : Arr 32) (r : KeyRequest P) :
    serveKey O ⟨⟨key, n⟩, pk⟩ r = realAns O (KeyUse.query pk fun I => key.toZ • I) (KeyUse.answer pk fun I => key.toZ • I)
      (KeyUse.secret key.toZ) r.use (hashWith O (r.use.nonceQuery pk n)) := by
  set x := key.toZ with hx
  cases r with
  | sign t sys =>
    simp only [serveKey, sign_merlin_form, KeyRequest.use, realAns, KeyUse.answer, KeyUse.query, KeyUse.secret,
      KeyUse.nonceQuery, hpk, challengeOf]
    generalize hashWith O (Use.signNonce t.log pk.compressed.1 n.1 (sys.fill 32).1.1).query = v
    rw [show v • (basepoint : P) - (0 : Z) • x • (basepoint : P) = v • (basepoint : P) by module]
    generalize hashWith O (Use.signature t.log pk.compressed.1 (compress (v • (basepoint : P))).1).query = w
    rw [show (w * x + v) • (basepoint : P) - w • x • (basepoint : P) = v • (basepoint : P) by module]
  | prove extra I kusama sys =>
    simp only [serveKey, vrfCreateFromPoint_eq]
    rw [dleq_merlin_form O ⟨⟨key, n⟩, pk⟩]
    simp only [KeyRequest.use, realAns, KeyUse.answer, KeyUse.query, KeyUse.secret, KeyUse.nonceQuery, hpk, ioOf,
      RistrettoBoth.fromPoint, ← hx]
    generalize hashWith O (Use.dleqNonce extra.log kusama (compress I).1 pk.compressed.1 n.1 (sys.fill 32).1.1).query = v
    rw [show (0 : Z) • x • (basepoint : P) + v • (basepoint : P) = v • (basepoint : P) by module,
      show (0 : Z) • x • I + v • I = v • I by module]
    simp only [Use.query]
    generalize hashWith O (dleqQuery extra.log kusama (compress I).1 pk.compressed.1 (compress (v • (basepoint : P))).1
      (compress (v • I)).1 (compress (x • I)).1) = w
    rw [show w • x • (basepoint : P) + (w * -x + v) • (basepoint : P) = v • (basepoint : P) by module,
      show w • x • I + (w * -x + v) • I = v • I by module, show v - w * x = w * -x + v by ring]
  | issue t S sys =>
    simp only [serveKey, KeyRequest.use, realAns, KeyUse.answer, KeyUse.query, KeyUse.secret, KeyUse.nonceQuery, hpk]
    obtain ⟨s, hs, hb, hst⟩ := @issuing_nonce_is_hash P _ O ⟨⟨key, n⟩, pk⟩ t (PublicKey.fromPoint S) sys
    simp only [PublicKey.fromPoint, RistrettoBoth.fromPoint, ← hx] at hb hst
    change (issueWith O (⟨⟨key, n⟩, pk⟩ : Keypair P) t (PublicKey.fromPoint S) sys).bytes.1 = _ at hb
    change s.toZ = hashWith O (Use.issuing t.log pk.compressed.1 n.1 (compress S).1 (sys.fill 32).1.1).query +
      hashWith O (certQuery t.log pk.compressed.1 _) * x at hst
    change _ = (compress (S + hashWith O (Use.issuing t.log pk.compressed.1 n.1 (compress S).1 (sys.fill 32).1.1).query •
      (basepoint : P))).1 ++ s.bytes.1 at hb
    change s.toZ = hashWith O (Use.issuing t.log pk.compressed.1 n.1 (compress S).1 (sys.fill 32).1.1).query +
      hashWith O (certQuery t.log pk.compressed.1 (compress (S + hashWith O (Use.issuing t.log pk.compressed.1 n.1
        (compress S).1 (sys.fill 32).1.1).query • (basepoint : P))).1) * x at hst
    generalize hashWith O (Use.issuing t.log pk.compressed.1 n.1 (compress S).1 (sys.fill 32).1.1).query = v at hb hst ⊢
    rw [show S + v • (basepoint : P) - (0 : Z) • x • (basepoint : P) = S + v • (basepoint : P) by module]
    generalize hashWith O (certQuery t.log pk.compressed.1 (compress (S + v • (basepoint : P))).1) = w at hst ⊢
    rw [show S + (w * x + v) • (basepoint : P) - w • x • (basepoint : P) = S + v • (basepoint : P) by module]
    have e : issueWith O (⟨⟨key, n⟩, pk⟩ : Keypair P) t (PublicKey.fromPoint S) sys =
        ⟨Arr.append (compress (S + v • (basepoint : P))) (Scalar.ofZ (w * x + v)).bytes⟩ := by
      have e1 : Scalar.ofZ (w * x + v) = s := by rw [← hs.ofZ_toZ, hst, add_comm]
      rw [e1]
      cases hc : issueWith O (⟨⟨key, n⟩, pk⟩ : Keypair P) t (PublicKey.fromPoint S) sys
      rw [hc] at hb
      exact congrArg AdaptorCertSecret.mk (Subtype.ext hb)
    exact congrArg KeyAnswer.cert e

/-! ### Checking a claim -/

/-- The claim passes its check. -/
def Checks (O : Oracles) (pk : PublicKey P) : KeyForgery P → Prop
  | .signature t b => ∃ σ, Signature.fromBytes b = .ok σ ∧ verifyWith O pk t σ = .ok ()
  | .proof extra input output kusama b => ∃ π, VRFProof.fromBytes b = .ok π ∧
      ∃ r, dleqVerifyWith O pk extra (ioOf input output) π kusama = .ok r
  | .cert t c sk => openWith O pk t c = .ok sk.toPublic

theorem dleqVerifyWith_iff (O : Oracles) (pk : PublicKey P) (t : Transcript) (I Q : P) (π : VRFProof) (hc : π.c.Canonical)
    (kusama : Bool) : (∃ r, dleqVerifyWith O pk t (ioOf I Q) π kusama = .ok r) ↔
      π.c.toZ = hashWith O (dleqQuery t.log kusama (compress I).1 pk.compressed.1
        (compress (π.c.toZ • pk.point + π.s.toZ • (basepoint : P))).1 (compress (π.c.toZ • Q + π.s.toZ • I)).1 (compress Q).1) := by
  letI := O
  have hch : ∀ R Hr : Compressed, π.c = dleqChallenge t kusama (ioOf I Q).input.compressed pk.compressed R Hr
      (ioOf I Q).output.compressed ↔ π.c.toZ = hashWith O (dleqQuery t.log kusama (compress I).1 pk.compressed.1
        R.1 Hr.1 (compress Q).1) := by
    intro R Hr
    have hq := dleq_challenge_is_query t.log kusama (ioOf I Q).input.compressed pk.compressed R Hr (ioOf I Q).output.compressed
    have hcan : (dleqChallenge t kusama (ioOf I Q).input.compressed pk.compressed R Hr
      (ioOf I Q).output.compressed).Canonical := Scalar.canonical_wide _
    change (dleqChallenge t kusama (ioOf I Q).input.compressed pk.compressed R Hr (ioOf I Q).output.compressed).toZ =
      hashWith O (dleqQuery t.log kusama (compress I).1 pk.compressed.1 R.1 Hr.1 (compress Q).1) at hq
    constructor
    · intro h; rw [h]; exact hq
    · intro h; rw [← hc.ofZ_toZ, h, ← hq, hcan.ofZ_toZ]
  constructor
  · rintro ⟨r, hr⟩
    obtain ⟨-, ⟨R, Hr, h1, h2, h3, h4⟩, h5⟩ := ((dleq_verify_iff pk t (ioOf I Q) π kusama).1 r).mp hr
    rw [← h1, ← h2, hch, h3, h4] at h5
    exact h5
  · intro h
    refine ⟨⟨_, _, π.s⟩, ((dleq_verify_iff pk t (ioOf I Q) π kusama).1
      ⟨compress (π.c.toZ • pk.point + π.s.toZ • (basepoint : P)), compress (π.c.toZ • Q + π.s.toZ • I), π.s⟩).mpr ⟨rfl,
      ⟨_, _, rfl, rfl, rfl, rfl⟩, ?_⟩⟩
    exact (hch _ _).mpr h

theorem openWith_iff (O : Oracles) (pk : PublicKey P) (t : Transcript) (c : AdaptorCertPublic) (sk : SecretKey) :
    openWith O pk t c = .ok sk.toPublic ↔ ∃ Γ : P, compress Γ = c.bytes ∧
      sk.key.toZ • (basepoint : P) = hashWith O (certQuery t.log pk.compressed.1 c.bytes.1) • pk.point + Γ := by
  letI := O
  have hpub : (sk.toPublic : PublicKey P) = RistrettoBoth.fromPoint (sk.key.toZ • (basepoint : P)) := by
    show RistrettoBoth.fromPoint (sk.key •. (basepoint : P)) = _
    rw [mulPoint_eq]
  have hch := cert_challenge_is_query t pk.compressed c.bytes
  change certChallenge t pk.compressed c.bytes = hashWith O (certQuery t.log pk.compressed.1 c.bytes.1) at hch
  unfold openWith
  rw [hpub, ← hch]
  rcases open_adaptor_cert_table pk t c with ⟨h1, h2⟩ | ⟨Γ, h1, h2⟩
  · rw [h2]
    constructor
    · intro h; cases h
    · rintro ⟨Γ, h, -⟩; exact (h1 Γ h).elim
  · rw [h2]
    constructor
    · intro h
      injection h with h
      exact ⟨Γ, h1, (congrArg RistrettoBoth.point h).symm⟩
    · rintro ⟨Γ', h, e⟩
      rw [compress_inj.mp (h1.trans h.symm), e]

/-- The check is one hash query. -/
theorem checks_congr (O O' : Oracles) (pk : PublicKey P) (c : KeyForgery P)
    (h : hashWith O (c.query pk) = hashWith O' (c.query pk)) (hc : Checks O pk c) : Checks O' pk c := by
  cases c with
  | signature t b =>
    obtain ⟨σ, h1, h2⟩ := hc
    refine ⟨σ, h1, (verifyWith_congr pk _ _ ?_).mp h2⟩
    have hR : b.take 32 = σ.R.1 := ((signature_from_bytes_ok_iff b σ).mp h1).2.1
    simp only [KeyForgery.query, hR] at h
    exact h
  | proof extra I Q kusama b =>
    obtain ⟨π, h1, h2⟩ := hc
    have hcan := (((vrf_proof_codec b).1 π).mp h1).2.1
    rw [dleqVerifyWith_iff _ _ _ _ _ _ hcan] at h2
    refine ⟨π, h1, ?_⟩
    rw [dleqVerifyWith_iff _ _ _ _ _ _ hcan]
    simp only [KeyForgery.query, h1] at h
    exact h2.trans h
  | cert t c sk =>
    simp only [Checks, openWith_iff] at hc ⊢
    simp only [KeyForgery.query] at h
    rwa [h] at hc

theorem valid_checks {O : Oracles} {pk : PublicKey P} {log : List (KeyRequest P × KeyAnswer P)} {c : KeyForgery P}
    (h : c.Valid O pk log) : Checks O pk c := by
  cases c with
  | signature t b => obtain ⟨σ, h1, h2, -⟩ := h; exact ⟨σ, h1, h2⟩
  | proof extra I Q kusama b => obtain ⟨π, h1, h2, -⟩ := h; exact ⟨π, h1, h2⟩
  | cert t c sk => exact h.1

/-- Validity depends on the hash function through one query. -/
theorem valid_congr {O O' : Oracles} {pk : PublicKey P} {log : List (KeyRequest P × KeyAnswer P)} {c : KeyForgery P}
    (h : hashWith O (c.query pk) = hashWith O' (c.query pk)) (hv : c.Valid O pk log) : c.Valid O' pk log := by
  have hc := checks_congr O O' pk c h (valid_checks hv)
  cases c with
  | signature t b =>
    obtain ⟨σ, h1, h2, h3⟩ := hv
    obtain ⟨σ', h1', h2'⟩ := hc
    rw [h1] at h1'
    cases h1'
    exact ⟨σ, h1, h2', h3⟩
  | proof extra I Q kusama b =>
    obtain ⟨π, h1, h2, h3⟩ := hv
    obtain ⟨π', h1', h2'⟩ := hc
    rw [h1] at h1'
    cases h1'
    exact ⟨π, h1, h2', h3⟩
  | cert t c sk => exact ⟨hc, hv.2⟩

/-- The query of a claim that passes, as a use of the hash. -/
theorem checks_use {O : Oracles} {pk : PublicKey P} {c : KeyForgery P} (h : Checks O pk c) :
    ∃ u : Use, u.WF ∧ u.norm = u ∧ u.query = c.query pk ∧ match c with
      | .signature t b => u = .signature t.log pk.compressed.1 (b.take 32)
      | .proof extra I Q kusama b => ∃ π, VRFProof.fromBytes b = .ok π ∧
        u = .dleq extra.log kusama (compress I).1 pk.compressed.1 (compress (π.c.toZ • pk.point + π.s.toZ • (basepoint : P))).1
          (compress (π.c.toZ • Q + π.s.toZ • I)).1 (compress Q).1
      | .cert t c _ => u = .cert t.log pk.compressed.1 c.bytes.1 := by
  cases c with
  | signature t b => exact ⟨.signature t.log pk.compressed.1 (b.take 32), trivial, rfl, rfl, rfl⟩
  | proof extra I Q kusama b =>
    obtain ⟨π, h1, -⟩ := h
    exact ⟨.dleq extra.log kusama (compress I).1 pk.compressed.1 (compress (π.c.toZ • pk.point + π.s.toZ • (basepoint : P))).1
      (compress (π.c.toZ • Q + π.s.toZ • I)).1 (compress Q).1, trivial, rfl, by simp only [KeyForgery.query, h1, Use.query], π, h1, rfl⟩
  | cert t c sk => exact ⟨.cert t.log pk.compressed.1 c.bytes.1, trivial, rfl, rfl, rfl⟩

/-- A programmed query cannot make a new claim valid. -/
theorem programmed_not_new (O : Oracles) (pk : PublicKey P) (dh : P → P) (log : List (KeyRequest P × KeyAnswer P))
    (c : KeyForgery P) (hv : c.Valid O pk log) (r : KeyRequest P) (z : Z) (w : Z)
    (hw : hashWith O (c.query pk) = w) (hmem : (r, KeyUse.answer pk dh r.use z w) ∈ log)
    (hq : c.query pk = r.use.query pk dh z w) : False := by
  obtain ⟨u, hu1, hu2, hu3, hu4⟩ := checks_use (valid_checks hv)
  rw [← hu3, ← asUse_query] at hq
  have hq := hash_uses_separated _ _ hu1 (asUse_wf ..) hq
  rw [hu2, asUse_norm] at hq
  cases c with
  | signature t b =>
    simp only at hu4
    obtain ⟨σ, h1, h2, h3⟩ := hv
    have hb := (signature_from_bytes_ok_iff b σ).mp h1
    rw [hu4] at hq
    cases r with
    | sign t' sys =>
      simp only [KeyRequest.use, KeyUse.asUse, Use.signature.injEq, true_and] at hq
      obtain ⟨e1, e2⟩ := hq
      have et : t = t' := by cases t; cases t'; simp only at e1; rw [e1]
      subst et
      have eR : σ.R = compress (z • (basepoint : P) - w • pk.point) := Subtype.ext (by rw [← e2]; exact hb.2.1.symm)
      rw [verifyWith_iff] at h2
      simp only [KeyForgery.query, hb.2.1] at hw
      unfold challengeOf at hw
      rw [hw, eR] at h2
      have hz := smul_basepoint_inj.mp (sub_left_injective (compress_inj.mp h2))
      refine h3 sys ?_
      have : σ = ⟨compress (z • (basepoint : P) - w • pk.point), Scalar.ofZ z⟩ := by
        have hs := (show σ.s.Canonical from hb.2.2.2).ofZ_toZ
        rw [hz] at hs
        cases σ
        simp only at eR hs
        rw [eR, hs]
      rw [this]
      exact hmem
    | prove extra I ku sys => simp [KeyRequest.use, KeyUse.asUse] at hq
    | issue t' S sys => simp [KeyRequest.use, KeyUse.asUse] at hq
  | proof extra I Q kusama b =>
    simp only at hu4
    obtain ⟨π, h1, hu4⟩ := hu4
    obtain ⟨π', h1', h2, h3⟩ := hv
    rw [h1] at h1'
    cases h1'
    have hcan := ((vrf_proof_codec b).1 π).mp h1
    rw [hu4] at hq
    cases r with
    | sign t' sys => simp [KeyRequest.use, KeyUse.asUse] at hq
    | prove extra' I' ku sys =>
      simp only [KeyRequest.use, KeyUse.asUse, Use.dleq.injEq, true_and] at hq
      obtain ⟨e1, rfl, e2, e3, e4, e5⟩ := hq
      have et : extra = extra' := by cases extra; cases extra'; simp only at e1; rw [e1]
      subst et
      have eI := compress_inj.mp (Subtype.ext e2)
      subst eI
      have eQ : Q = dh I := compress_inj.mp (Subtype.ext e5)
      subst eQ
      rw [dleqVerifyWith_iff _ _ _ _ _ _ hcan.2.1] at h2
      simp only [KeyForgery.query, h1] at hw
      rw [hw] at h2
      have eR := compress_inj.mp (Subtype.ext e3)
      rw [h2] at eR
      have hz := smul_basepoint_inj.mp (add_left_cancel eR)
      refine h3 sys _ (?_ : (_, KeyAnswer.proof _ π ⟨compress (w • pk.point + z • (basepoint : P)),
        compress (w • dh I + z • I), Scalar.ofZ z⟩) ∈ log)
      have : π = ⟨Scalar.ofZ w, Scalar.ofZ z⟩ := by
        have hs := hcan.2.2.ofZ_toZ
        have hc := hcan.2.1.ofZ_toZ
        rw [hz] at hs
        rw [h2] at hc
        cases π
        simp only at hc hs
        rw [hc, hs]
      rw [this]
      exact hmem
    | issue t' S sys => simp [KeyRequest.use, KeyUse.asUse] at hq
  | cert t c sk =>
    simp only at hu4
    rw [hu4] at hq
    cases r with
    | sign t' sys => simp [KeyRequest.use, KeyUse.asUse] at hq
    | prove extra I ku sys => simp [KeyRequest.use, KeyUse.asUse] at hq
    | issue t' S sys =>
      simp only [KeyRequest.use, KeyUse.asUse, Use.cert.injEq, true_and] at hq
      obtain ⟨e1, e2⟩ := hq
      have et : t = t' := by cases t; cases t'; simp only at e1; rw [e1]
      subst et
      refine hv.2 S sys _ hmem ?_
      rw [cert_toPublic_append]
      cases c
      exact congrArg AdaptorCertPublic.mk (Subtype.ext e2.symm)

/-- Two claims about the same query with different answers give the secret key. -/
theorem claims_extract (O O' : Oracles) (pk : PublicKey P) (c c' : KeyForgery P) (h : Checks O pk c) (h' : Checks O' pk c')
    (hq : c'.query pk = c.query pk) (hne : hashWith O (c.query pk) ≠ hashWith O' (c.query pk)) :
    pk.point = ((c.response - c'.response) / (hashWith O (c.query pk) - hashWith O' (c.query pk))) • (basepoint : P) := by
  obtain ⟨u, hu1, hu2, hu3, hu4⟩ := checks_use h
  obtain ⟨u', hu1', hu2', hu3', hu4'⟩ := checks_use h'
  have huu : u' = u := by
    have := hash_uses_separated u' u hu1' hu1 (by rw [hu3, hu3', hq])
    rwa [hu2, hu2'] at this
  subst huu
  have key : ∀ y : Z, (hashWith O (c.query pk) - hashWith O' (c.query pk)) • pk.point = y • (basepoint : P) →
      pk.point = (y / (hashWith O (c.query pk) - hashWith O' (c.query pk))) • (basepoint : P) := by
    intro y hy
    rw [div_eq_inv_mul, mul_smul, ← hy, smul_smul, inv_mul_cancel₀ (sub_ne_zero.mpr hne), one_smul]
  apply key
  clear key
  cases c with
  | signature t b =>
    simp only at hu4
    obtain ⟨σ, h1, h2⟩ := h
    have hb := (signature_from_bytes_ok_iff b σ).mp h1
    cases c' with
    | signature t' b' =>
      simp only at hu4'
      obtain ⟨σ', h1', h2'⟩ := h'
      have hb' := (signature_from_bytes_ok_iff b' σ').mp h1'
      rw [hu4, Use.signature.injEq] at hu4'
      obtain ⟨e1, -, e2⟩ := hu4'
      have et : t = t' := by cases t; cases t'; simp only at e1; rw [e1]
      subst et
      rw [hb.2.1, hb'.2.1] at e2
      have eR : σ.R = σ'.R := Subtype.ext e2
      rw [verifyWith_iff] at h2 h2'
      rw [← eR] at h2'
      have e := compress_inj.mp (h2.trans h2'.symm)
      simp only [KeyForgery.query, KeyForgery.response, responseOf, h1, h1', hb.2.1]
      unfold challengeOf
      rw [sub_smul, sub_smul]
      rw [sub_eq_sub_iff_add_eq_add] at e ⊢
      rw [add_comm, ← e.symm, add_comm]
    | proof extra' I' Q' kusama' b' =>
      simp only at hu4'
      obtain ⟨π, -, hu4'⟩ := hu4'
      rw [hu4] at hu4'
      cases hu4'
    | cert t' c' sk' => simp only at hu4'; rw [hu4] at hu4'; cases hu4'
  | proof extra I Q kusama b =>
    simp only at hu4
    obtain ⟨π, h1, hu4⟩ := hu4
    obtain ⟨π₀, h1₀, h2⟩ := h
    rw [h1] at h1₀
    cases h1₀
    have hcan := ((vrf_proof_codec b).1 π).mp h1
    rw [dleqVerifyWith_iff _ _ _ _ _ _ hcan.2.1] at h2
    cases c' with
    | signature t' b' => simp only at hu4'; rw [hu4] at hu4'; cases hu4'
    | proof extra' I' Q' kusama' b' =>
      simp only at hu4'
      obtain ⟨π', h1', hu4'⟩ := hu4'
      obtain ⟨π₀, h1₀, h2'⟩ := h'
      rw [h1'] at h1₀
      cases h1₀
      have hcan' := ((vrf_proof_codec b').1 π').mp h1'
      rw [dleqVerifyWith_iff _ _ _ _ _ _ hcan'.2.1] at h2'
      rw [hu4, Use.dleq.injEq] at hu4'
      obtain ⟨-, -, -, -, e, -, -⟩ := hu4'
      have e := compress_inj.mp (Subtype.ext e)
      simp only [KeyForgery.query, h1, h1'] at hq
      rw [hq] at h2'
      simp only [KeyForgery.query, KeyForgery.response, h1, h1']
      rw [← h2, ← h2']
      have e2 : π.c.toZ • pk.point - π'.c.toZ • pk.point = π'.s.toZ • (basepoint : P) - π.s.toZ • (basepoint : P) := by
        rw [sub_eq_sub_iff_add_eq_add, e]
        abel
      rw [sub_smul, e2, ← sub_smul]
      congr 1
      ring
    | cert t' c' sk' => simp only at hu4'; rw [hu4] at hu4'; cases hu4'
  | cert t c sk =>
    simp only at hu4
    cases c' with
    | signature t' b' => simp only at hu4'; rw [hu4] at hu4'; cases hu4'
    | proof extra' I' Q' kusama' b' =>
      simp only at hu4'
      obtain ⟨π, -, hu4'⟩ := hu4'
      rw [hu4] at hu4'
      cases hu4'
    | cert t' c' sk' =>
      simp only at hu4'
      rw [hu4, Use.cert.injEq] at hu4'
      obtain ⟨e1, -, e2⟩ := hu4'
      simp only [Checks, openWith_iff] at h h'
      obtain ⟨Γ, h1, h2⟩ := h
      obtain ⟨Γ', h1', h2'⟩ := h'
      have eΓ : Γ = Γ' := compress_inj.mp (by rw [h1, h1']; exact Subtype.ext e2)
      subst eΓ
      simp only [KeyForgery.query] at hq
      rw [hq] at h2'
      simp only [KeyForgery.query, KeyForgery.response]
      rw [sub_smul, sub_smul, h2, h2']
      abel

/-- The simulated attack makes a valid claim. -/
def CheckedRun (O : Oracles) (pk : PublicKey P) (dh : P → P) (C : K → Arr 64 × Arr 64)
    (A : Client (KeyRequest P) (KeyAnswer P) (KeyForgery P)) (f : D → Arr 64) : Prop :=
  let r := progPlay (KeyUse.query pk dh) (KeyUse.answer pk dh) KeyRequest.use (coinsOf C) (table O D f) (A.logged [])
  r.2.1.Valid r.1 pk r.2.2

/-- For fixed coins: the extractor succeeds about as often as the square of the simulated attack. -/
private theorem extract_coins' (O : Oracles) (pk : PublicKey P) (dh : P → P) (C : K → Arr 64 × Arr 64)
    (A : Client (KeyRequest P) (KeyAnswer P) (KeyForgery P))
    (q m : Nat) (hA : A.Limited D KeyRequest.use K (fun c => c.query pk ∈ D) q m) :
    ∃ p, (chance fun f : D → Arr 64 => CheckedRun O pk dh C A f) ≤ p ∧
      p ^ 2 / (q + 1 : Nat) - guess * p ≤
      chance fun x : (D → Arr 64) × (D → Arr 64) => pk.point = extractKeyFrom O pk dh A C x.1 x.2 • (basepoint : P) := by
  let S := A.simulate (KeyUse.query pk dh) (KeyUse.answer pk dh) KeyRequest.use (coinsOf C) []
  let B := simulateKey pk dh C A
  have hrun : ∀ O, B.run O = S.run O := fun O => by
    simp only [B, S, simulateKey, Algo.run_bind, Algo.run]
  have hasked : ∀ O, B.asked O = S.asked O ++ [(B.run O).query pk] :=
    fun O => by
      rw [hrun]
      simp only [B, S, simulateKey, Algo.asked_bind, Algo.asked]
  have hB : B.Within O D (q + 1) := by
    intro f
    obtain ⟨h1, h2, h3⟩ := simulate_limited (D := D) (table O D f) (KeyUse.query pk dh) (KeyUse.answer pk dh)
      KeyRequest.use (coinsOf C) _ A q m [] hA
    rw [hasked, hrun]
    refine ⟨by simpa using h1, fun l hl => ?_⟩
    rcases List.mem_append.mp hl with h | h
    · exact h2 l h
    · rw [List.mem_singleton.mp h]; exact h3
  let win : (D → Arr 64) → Prop := fun f => Checks (table O D f) pk (B.run (table O D f))
  let tq : (D → Arr 64) → List MOp := fun f => (B.run (table O D f)).query pk
  have hf := forking O B (q + 1) hB win tq (fun f _ => by rw [hasked]; simp [tq])
  refine ⟨chance win, chance_mono fun f h => ?_, ?_⟩
  · unfold CheckedRun at h
    simp only at h
    obtain ⟨h1, pg, h2, h3⟩ := progPlay_simulate (table O D f) (KeyUse.query pk dh) (KeyUse.answer pk dh) KeyRequest.use
      (coinsOf C) A [] [] (fun q w h => by simp at h)
    change Checks (table O D f) pk (B.run (table O D f))
    rw [hrun]
    simp only [progAll] at h1 h2 h3
    rw [h2, h1] at h
    set c := S.run (table O D f) with hc
    have hm := progAll_merlin (table O D f) pg (c.query pk)
    cases hl : pg.lookup (c.query pk) with
    | none =>
      rw [hl] at hm
      exact checks_congr _ _ pk c (hashWith_congr hm) (valid_checks h)
    | some w =>
      exfalso
      rw [hl] at hm
      obtain ⟨r, z, hmem, hq⟩ := h3 _ _ hl
      refine programmed_not_new _ pk dh _ c h r z (residue w) ?_ hmem hq
      unfold hashWith hashToZ residue
      rw [show @Oracles.merlin (progAll (table O D f) pg) (c.query pk) 64 = w from hm]
  · refine le_trans (le_of_eq (by ring)) (le_trans hf (chance_mono ?_))
    rintro ⟨f, g⟩ ⟨h1, h2, htq, hne⟩
    simp only at h1 h2 htq hne
    exact claims_extract _ _ pk _ _ h1 h2 htq hne

theorem one_key_core (O : Oracles) (pk : PublicKey P) (key : Scalar)
    (hpk : pk.point = key.toZ • (basepoint : P)) (A : Client (KeyRequest P) (KeyAnswer P) (KeyForgery P)) (q m : Nat)
    (hA : A.Limited D KeyRequest.use K (fun c => c.query pk ∈ D) q m)
    (hC : CoversKey pk (fun I => key.toZ • I) D K) :
    let ε := chance fun ω : Arr 32 × (D → Arr 64) =>
      let r := (A.logged []).play (table O D ω.2) (serveKey (table O D ω.2) ⟨⟨key, ω.1⟩, pk⟩)
      r.1.Valid (table O D ω.2) pk r.2
    let loss : ℚ := q / 2 ^ 256 + m * ((q + m : Nat) * guess + spare)
    ∃ p : (K → Arr 64 × Arr 64) → ℚ, ε - loss ≤ avg p ∧ ∀ C, p C ^ 2 / (q + 1 : Nat) - guess * p C ≤
      chance fun x : (D → Arr 64) × (D → Arr 64) =>
        pk.point = extractKeyFrom O pk (fun I => key.toZ • I) A C x.1 x.2 • (basepoint : P) := by
  intro ε loss
  let dh : P → P := fun I => key.toZ • I
  let win : Oracles → KeyForgery P × List (KeyRequest P × KeyAnswer P) → Prop := fun O r => r.1.Valid O pk r.2
  choose p hp1 hp2 using fun C : K → Arr 64 × Arr 64 => extract_coins' O pk dh C A q m hA
  have hA' := logged_limited KeyRequest.use _ A q m [] hA
  have h1 : ε - loss ≤ avg p := by
    have s1 := seeded_le (α := KeyForgery P × List (KeyRequest P × KeyAnswer P)) O (KeyUse.query pk dh) (KeyUse.answer pk dh)
      KeyRequest.use (KeyUse.secret key.toZ) (fun n k => k.nonceQuery pk n) (use_nonce_inj pk)
      (fun n k k' v => nonce_ne_query pk dh n k k' v 0) (fun k hk n => (hC k hk).2 n)
      (fun n O r => serveKey O ⟨⟨key, n⟩, pk⟩ r) (fun n O r => serveKey_eq O key pk hpk n r) _ win
      (fun O₁ O₂ a h hv => by
        obtain ⟨u, hu1, hu2, hu3, hu4⟩ := checks_use (valid_checks (show a.1.Valid O₁ pk a.2 from hv))
        refine valid_congr (hashWith_congr (h _ fun n k he => ?_)) hv
        rw [← hu3, ← nonceUse_query] at he
        have he := hash_uses_separated _ _ (nonceUse_wf ..) hu1 he
        rw [hu2] at he
        clear h hu3
        obtain ⟨c, log⟩ := a
        cases c with
        | signature t b =>
          simp only at hu4
          rw [hu4] at he
          cases k with
          | prove _ _ ku _ => cases ku <;> simp [KeyUse.nonceUse, Use.norm] at he
          | _ => simp [KeyUse.nonceUse, Use.norm] at he
        | proof extra I Q kusama b =>
          simp only at hu4
          obtain ⟨π, -, hu4⟩ := hu4
          rw [hu4] at he
          cases k with
          | prove _ _ ku _ => cases ku <;> simp [KeyUse.nonceUse, Use.norm] at he
          | _ => simp [KeyUse.nonceUse, Use.norm] at he
        | cert t c sk =>
          simp only at hu4
          rw [hu4] at he
          cases k with
          | prove _ _ ku _ => cases ku <;> simp [KeyUse.nonceUse, Use.norm] at he
          | _ => simp [KeyUse.nonceUse, Use.norm] at he) (A.logged []) q m hA'
    have s2 := service_le_simulated O (KeyUse.query pk dh) (KeyUse.answer pk dh) KeyRequest.use (KeyUse.secret key.toZ)
      (use_query_shift pk key.toZ hpk) (use_query_inj pk dh) (fun k hk v => (hC k hk).1 v) _ win (A.logged []) q m 0
      (fun _ => none) (fun _ => none) (fun _ => none) hA' ⟨[], by simp, fun d h => (h rfl).elim⟩ (fun _ => Or.inl ⟨rfl, rfl⟩)
    have hov : ∀ {ι S : Type} (f : ι → S), ov (fun _ => none) f = f := fun f => rfl
    simp only [hov, Nat.zero_add] at s2
    change _ ≤ (avg fun f : D → Arr 64 => avg fun C : K → Arr 64 × Arr 64 => ind (CheckedRun O pk dh C A f)) + _ at s2
    have s3 : (avg fun f : D → Arr 64 => avg fun C : K → Arr 64 × Arr 64 => ind (CheckedRun O pk dh C A f)) ≤ avg p := by
      rw [avg_comm]
      refine avg_mono fun C => ?_
      rw [← chance_eq_avg]
      exact hp1 C
    have e : ε = chance (fun ω : Arr 32 × (D → Arr 64) => win (table O D ω.2) ((A.logged []).play (table O D ω.2)
      (serveKey (table O D ω.2) ⟨⟨key, ω.1⟩, pk⟩))) := rfl
    rw [e]
    simp only [loss]
    linarith
  exact ⟨p, h1, hp2⟩

/-- **C73** one key pair may be used for signatures, VRFs and implicit certificates at the same time.  Take any attacker
with at most `q` hash queries and `m` requests, each of which is for a signature on a transcript, a VRF output with proof at
a point, or a certificate for a seed key, all of its choice and adaptively, with the owner's system RNG under its control.
If with probability `ε` (over the owner's nonce seed and the hash function) it makes a new signature, a new VRF proof, or a
new certificate whose secret key it knows, then the procedure `extractKeyFrom` — given the public key and the VRF outputs,
not the secret key — finds the secret key with probability at least `δ(δ/(q+1) − guess)`, where
`δ = ε − q/2²⁵⁶ − m((q+m)·guess + spare)`. -/
theorem one_key_unforgeable (O : Oracles) (pk : PublicKey P) (key : Scalar)
    (hpk : pk.point = key.toZ • (basepoint : P)) (A : Client (KeyRequest P) (KeyAnswer P) (KeyForgery P)) (q m : Nat)
    (hA : A.Limited D KeyRequest.use K (fun c => c.query pk ∈ D) q m)
    (hC : CoversKey pk (fun I => key.toZ • I) D K) :
    let ε := chance fun ω : Arr 32 × (D → Arr 64) =>
      let r := (A.logged []).play (table O D ω.2) (serveKey (table O D ω.2) ⟨⟨key, ω.1⟩, pk⟩)
      r.1.Valid (table O D ω.2) pk r.2
    let loss : ℚ := q / 2 ^ 256 + m * ((q + m : Nat) * guess + spare)
    loss ≤ ε →
    (ε - loss) * ((ε - loss) / (q + 1 : Nat) - guess) ≤
      chance fun x : (K → Arr 64 × Arr 64) × ((D → Arr 64) × (D → Arr 64)) =>
        pk.point = extractKeyFrom O pk (fun I => key.toZ • I) A x.1 x.2.1 x.2.2 • (basepoint : P) := by
  intro ε loss hle
  obtain ⟨p, h1, hp2⟩ := one_key_core O pk key hpk A q m hA hC
  refine fork_coins p ε loss (q + 1 : Nat) _ (by positivity) (by unfold chance; positivity) hle h1 ?_
  rw [chance_eq_avg, avg_prod]
  refine avg_mono fun C => ?_
  rw [← chance_eq_avg]
  exact hp2 C

/-! ### Without VRF requests nothing but the public key is needed -/

/-- The request is not for a VRF output. -/
def KeyRequest.NoVrf : KeyRequest P → Prop
  | .prove _ _ _ _ => False
  | _ => True

theorem simulate_noVrf (pk : PublicKey P) (dh dh' : P → P) (coins : KeyUse P → Arr 64 × Arr 64)
    (A : Client (KeyRequest P) (KeyAnswer P) (KeyForgery P)) (hA : A.Requests {r | KeyRequest.NoVrf r}) : ∀ pg,
    A.simulate (KeyUse.query pk dh) (KeyUse.answer pk dh) KeyRequest.use coins pg =
      A.simulate (KeyUse.query pk dh') (KeyUse.answer pk dh') KeyRequest.use coins pg := by
  induction A with
  | ret a => intro pg; rfl
  | ask q k ih =>
    intro pg
    simp only [Client.simulate]
    cases pg.lookup q with
    | some w => exact ih w (hA w) pg
    | none => exact congrArg (Algo.ask q) (funext fun w => ih w (hA w) pg)
  | request r k ih =>
    intro pg
    have hr : KeyRequest.NoVrf r := hA.1
    cases r with
    | sign t sys => exact ih _ (hA.2 _) _
    | prove extra I ku sys => exact hr.elim
    | issue t S sys => exact ih _ (hA.2 _) _

/-- **C73** if the attacker asks for signatures and certificates only, the procedure does not use VRF outputs: the result
is the same whatever function stands in for them.  So in that case it finds the secret key from the public key alone. -/
theorem no_vrf_no_outputs (O : Oracles) (pk : PublicKey P) (dh dh' : P → P)
    (A : Client (KeyRequest P) (KeyAnswer P) (KeyForgery P)) (hA : A.Requests {r | KeyRequest.NoVrf r})
    (C : K → Arr 64 × Arr 64) (f g : D → Arr 64) :
    extractKeyFrom O pk dh A C f g = extractKeyFrom O pk dh' A C f g := by
  have h : simulateKey pk dh C A = simulateKey pk dh' C A := by
    unfold simulateKey
    rw [simulate_noVrf pk dh dh' (coinsOf C) A hA []]
  unfold extractKeyFrom
  rw [h]

/-! ### The requests are the API -/

/-- **C73** a VRF signature on a transcript is a `prove` request at its input point. -/
theorem vrf_sign_extra_is_request (O : Oracles) (kp : Keypair P) (t : VRFTranscript Transcript) (extra : Transcript)
    (sys : Rng) :
    letI := O
    let r := kp.vrfSignExtra t extra sys
    serveKey O kp (.prove extra (PublicKey.vrfHash kp.pub t).point KUSAMA_VRF sys) = .proof r.1 r.2.1 r.2.2 := by
  letI := O
  have hw : RistrettoBoth.fromPoint (PublicKey.vrfHash kp.pub t).point = PublicKey.vrfHash kp.pub t := by
    cases t <;> rfl
  simp only [serveKey, Keypair.vrfSignExtra, Keypair.vrfCreateHash, hw, dleqProoveWith]

/-- **C73** a VRF signature on several transcripts is a `prove` request at the merged input point. -/
theorem vrfs_sign_extra_is_request (O : Oracles) (kp : Keypair P) (ts : List (VRFTranscript Transcript))
    (extra : Transcript) (sys : Rng) (ps : List (VRFInOut P)) (π : VRFProof) (b : VRFProofBatchable)
    (h : letI := O; kp.vrfsSignExtra ts extra sys = .ok (ps, π, b)) :
    ∃ input, serveKey O kp (.prove extra input KUSAMA_VRF sys) = .proof (ioOf input (kp.secret.key.toZ • input)) π b := by
  letI := O
  unfold Keypair.vrfsSignExtra at h
  have hps : ts.map (fun t => kp.vrfCreateHash t) ≠ [] := by
    intro he
    have := ((vrfs_merge_spec kp.pub (ts.map fun t => kp.vrfCreateHash t)).1).mpr he
    rw [he] at h this
    dsimp only at h
    cases hm : PublicKey.vrfsMerge kp.pub ([] : List (VRFInOut P)) <;> rw [hm] at h this <;> simp [Outcome.isPanic] at this
    cases h
  obtain ⟨m, h1, h2, h3, h4, h5⟩ := (vrfs_merge_spec kp.pub (ts.map fun t => kp.vrfCreateHash t)).2 hps
  simp only [h1] at h
  have hout : m.output.point = kp.secret.key.toZ • m.input.point := by
    have hout' : ∀ p ∈ ts.map (fun t => kp.vrfCreateHash t), p.output.point = kp.secret.key.toZ • p.input.point := by
      intro p hp
      obtain ⟨t, -, rfl⟩ := List.mem_map.mp hp
      simp only [Keypair.vrfCreateHash, SecretKey.vrfCreateFromPoint, mulPoint_eq]
      rfl
    clear h h1 h2 h3 hps
    revert h4 h5 hout'
    generalize ts.map (fun t => kp.vrfCreateHash t) = l
    intro h4 h5 hout'
    rw [h4, h5, List.smul_sum, List.map_map]
    refine congrArg List.sum (List.map_congr_left fun p hp => ?_)
    simp only [Function.comp, hout' p hp]
    rw [smul_comm]
  have hm : m = ioOf m.input.point (kp.secret.key.toZ • m.input.point) := by
    obtain ⟨⟨a, b⟩, ⟨c, d⟩⟩ := m
    simp only [RistrettoBoth.WF] at h2 h3
    simp only at hout
    unfold ioOf
    rw [← hout]
    simp only [RistrettoBoth.fromPoint, ← h2, ← h3]
  refine ⟨m.input.point, ?_⟩
  simp only [serveKey, vrfCreateFromPoint_eq, ← hm]
  change Outcome.ok (_, _, _) = Outcome.ok _ at h
  injection h with h
  obtain ⟨-, h⟩ := Prod.mk.inj h
  obtain ⟨h6, h7⟩ := Prod.mk.inj h
  rw [← h6, ← h7]
  rfl

/-! ### The hypotheses are met by every attacker -/

private instance : Finite Z := inferInstanceAs (Finite (ZMod ell))
private instance finiteP : Finite P := Finite.of_surjective (fun z : Z => z • (basepoint : P)) fun p => by
  obtain ⟨z, hz⟩ := exists_smul_basepoint p
  exact ⟨z, hz.symm⟩
private instance : Finite Scalar :=
  Finite.of_injective Scalar.bytes fun a b h => by cases a; cases b; simpa using h
private instance finiteBoth : Finite (RistrettoBoth P) :=
  Finite.of_injective (fun r : RistrettoBoth P => (r.compressed, r.point)) fun a b h => by
    cases a; cases b; simpa using h
theorem finiteAnswer : Finite (KeyAnswer P) := by
  let f : KeyAnswer P → (Compressed × Scalar) ⊕ (((RistrettoBoth P × RistrettoBoth P) × (Scalar × Scalar)) ×
      (Compressed × Compressed × Scalar)) ⊕ Arr 64
    | .signature σ => .inl (σ.R, σ.s)
    | .proof io π b => .inr (.inl (((io.input, io.output), (π.c, π.s)), (b.R, b.Hr, b.s)))
    | .cert c => .inr (.inr c.bytes)
  refine Finite.of_injective f ?_
  intro a b h
  cases a <;> cases b <;> simp only [f, Sum.inl.injEq, Sum.inr.injEq, Prod.mk.injEq, reduceCtorEq] at h
  · rename_i σ σ'
    cases σ; cases σ'
    simp only at h
    rw [h.1, h.2]
  · rename_i io π b io' π' b'
    cases io; cases io'; cases π; cases π'; cases b; cases b'
    simp only at h
    obtain ⟨⟨⟨h1, h2⟩, h3, h4⟩, h5, h6, h7⟩ := h
    rw [h1, h2, h3, h4, h5, h6, h7]
  · rename_i c c'
    cases c; cases c'
    simp only at h
    rw [h]

theorem limited_mono {Req Ans κ α : Type} (key : Req → κ) (A : Client Req Ans α) :
    ∀ {D D' : Finset (List MOp)} {K K' : Finset κ} {fin fin' : α → Prop} {q q' m m' : Nat}, D ⊆ D' → K ⊆ K' →
    (∀ a, fin a → fin' a) → q ≤ q' → m ≤ m' → A.Limited D key K fin q m → A.Limited D' key K' fin' q' m' := by
  induction A with
  | ret a => intro D D' K K' fin fin' q q' m m' _ _ hf _ _ h; exact hf a h
  | ask l k ih =>
    rintro D D' K K' fin fin' q q' m m' hD hK hf hq hm ⟨h1, q₁, rfl, h2⟩
    exact ⟨hD h1, q' - 1, by omega, fun w => ih w hD hK hf (by omega) hm (h2 w)⟩
  | request r k ih =>
    rintro D D' K K' fin fin' q q' m m' hD hK hf hq hm ⟨h1, m₁, rfl, h2⟩
    exact ⟨hK h1, m' - 1, by omega, fun w => ih w hD hK hf hq (by omega) (h2 w)⟩

theorem exists_limited {Req Ans κ α : Type} [Finite Ans] (key : Req → κ) (qf : α → List MOp) (A : Client Req Ans α) :
    ∃ D K q m, A.Limited D key K (fun a => qf a ∈ D) q m := by
  classical
  induction A with
  | ret a => exact ⟨{qf a}, ∅, 0, 0, by simp [Client.Limited]⟩
  | ask l k ih =>
    choose D K q m h using ih
    haveI := Fintype.ofFinite (Arr 64)
    have hsub : ∀ w, D w ⊆ insert l (Finset.univ.biUnion D) := fun w x hx =>
      Finset.mem_insert_of_mem (Finset.mem_biUnion.mpr ⟨w, Finset.mem_univ _, hx⟩)
    refine ⟨insert l (Finset.univ.biUnion D), Finset.univ.biUnion K, Finset.univ.sup q + 1, Finset.univ.sup m,
      Finset.mem_insert_self _ _, _, rfl, fun w => ?_⟩
    exact limited_mono key _ (hsub w) (Finset.subset_biUnion_of_mem K (Finset.mem_univ w)) (fun a ha => hsub w ha)
      (Finset.le_sup (Finset.mem_univ w)) (Finset.le_sup (Finset.mem_univ w)) (h w)
  | request r k ih =>
    choose D K q m h using ih
    haveI := Fintype.ofFinite Ans
    have hsub : ∀ w, D w ⊆ Finset.univ.biUnion D := fun w => Finset.subset_biUnion_of_mem D (Finset.mem_univ w)
    refine ⟨Finset.univ.biUnion D, insert (key r) (Finset.univ.biUnion K), Finset.univ.sup q,
      Finset.univ.sup m + 1, Finset.mem_insert_self _ _, _, rfl, fun w => ?_⟩
    exact limited_mono key _ (hsub w)
      (fun x hx => Finset.mem_insert_of_mem (Finset.mem_biUnion.mpr ⟨w, Finset.mem_univ _, hx⟩))
      (fun a ha => hsub w ha) (Finset.le_sup (Finset.mem_univ w)) (Finset.le_sup (Finset.mem_univ w)) (h w)

/-- **C73** every attacker satisfies the hypotheses of `one_key_unforgeable`, for suitable finite sets and bounds. -/
theorem every_key_attacker_is_limited (pk : PublicKey P) (dh : P → P)
    (A : Client (KeyRequest P) (KeyAnswer P) (KeyForgery P)) :
    ∃ D K q m, A.Limited D KeyRequest.use K (fun c => c.query pk ∈ D) q m ∧ CoversKey pk dh D K := by
  classical
  haveI := finiteAnswer (P := P)
  obtain ⟨D, K, q, m, h⟩ := exists_limited KeyRequest.use (KeyForgery.query pk) A
  haveI := Fintype.ofFinite (Arr 32)
  haveI := Fintype.ofFinite Z
  have hsub : D ⊆ D ∪ K.biUnion (fun k => Finset.univ.image (fun v : Z => k.query pk dh v 0) ∪
    Finset.univ.image (fun n : Arr 32 => k.nonceQuery pk n)) := Finset.subset_union_left
  refine ⟨_, K, q, m, limited_mono _ A hsub (Finset.Subset.refl _) (fun a ha => hsub ha) le_rfl le_rfl h,
    fun r hr => ⟨fun R => ?_, fun n => ?_⟩⟩
  · refine Finset.mem_union_right _ (Finset.mem_biUnion.mpr ⟨r, hr, Finset.mem_union_left _ ?_⟩)
    exact Finset.mem_image_of_mem (fun v : Z => r.query pk dh v 0) (Finset.mem_univ R)
  · refine Finset.mem_union_right _ (Finset.mem_biUnion.mpr ⟨r, hr, Finset.mem_union_right _ ?_⟩)
    exact Finset.mem_image_of_mem (fun n : Arr 32 => r.nonceQuery pk n) (Finset.mem_univ n)

/-- An attacker who knows the secret key: asks for a signature, a VRF proof and a certificate on `t`, then makes a
certificate with reconstruction point `B` on `t'`. -/
def keyInsider (pk : PublicKey P) (x : Z) (t t' : Transcript) (sys : Rng) :
    Client (KeyRequest P) (KeyAnswer P) (KeyForgery P) :=
  .request (.sign t sys) fun _ =>
  .request (.prove t basepoint true sys) fun _ =>
  .request (.issue t basepoint sys) fun _ =>
  .ask (certQuery t'.log pk.compressed.1 (compress (basepoint : P)).1) fun w =>
  .ret (.cert t' ⟨compress (basepoint : P)⟩ ⟨Scalar.ofZ (residue w * x + 1), zeros 32⟩)

/-- Non-vacuity: that attacker succeeds with probability one, so `ε` can be as large as possible. -/
example (O : Oracles) (pk : PublicKey P) (key : Scalar) (hpk : pk.point = key.toZ • (basepoint : P))
    (t t' : Transcript) (ht : t ≠ t') (sys : Rng) (D : Finset (List MOp)) :
    (chance fun ω : Arr 32 × (D → Arr 64) =>
      let r := ((keyInsider pk key.toZ t t' sys).logged []).play (table O D ω.2) (serveKey (table O D ω.2) ⟨⟨key, ω.1⟩, pk⟩)
      r.1.Valid (table O D ω.2) pk r.2) = 1 := by
  have h : ∀ ω : Arr 32 × (D → Arr 64),
      let r := ((keyInsider pk key.toZ t t' sys).logged []).play (table O D ω.2) (serveKey (table O D ω.2) ⟨⟨key, ω.1⟩, pk⟩)
      r.1.Valid (table O D ω.2) pk r.2 := by
    intro ω
    simp only [keyInsider, Client.logged, Client.play]
    refine ⟨?_, ?_⟩
    · rw [openWith_iff]
      refine ⟨basepoint, rfl, ?_⟩
      simp only [Scalar.toZ_ofZ]
      rw [add_smul, one_smul, mul_smul, hpk]
      rfl
    · intro seed sys' cs hm
      simp only [serveKey, List.mem_cons, Prod.mk.injEq, KeyRequest.issue.injEq, reduceCtorEq, false_and, List.not_mem_nil,
        or_false] at hm
      exact (ht hm.1.1.symm).elim
  rw [chance_eq_avg]
  simp only [ind, h, if_true]
  exact avg_const 1

end Schnorrkel.Props
