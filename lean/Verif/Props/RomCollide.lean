import Verif.Spec.RomCollide
import Verif.Lemmas.RomCollide
import Verif.Props.RomExclusive
import Verif.Props.MuSig
import Verif.Props.Aead
import Verif.Props.VrfBatch
import Verif.Props.Derive
import Verif.Props.Cert
import Verif.Instance

/-! # C70: derived values do not collide (random-oracle model) -/

namespace Schnorrkel.Props
open SigningTranscript Spec
variable {P : Type} [Ristretto P]

/-- **C70** commitments of multi-signatures are binding: whoever asks at most `n` hash values finds two different reveals
that honest cosigners accept for one commitment with probability at most `(n+2)(n+1)/2 / 2^128`. -/
theorem musig_commitment_binding_random_oracle {T T' : Type} (O : Oracles) (A : Algo (Reveal × Reveal)) (D : Finset (List MOp)) (n : Nat)
    (hA : A.WideWithin O D n)
    (hD : ∀ f : D → Arr 64, let r := A.run (wideTable O D f); commitmentQuery r.1 ∈ D ∧ commitmentQuery r.2 ∈ D) :
    chance (fun f : D → Arr 64 => let O' := wideTable O D f
      let r := A.run O'
      r.1 ≠ r.2 ∧ ∃ (m : MuSig P T (RevealStage P)) (m' : MuSig P T' (RevealStage P)) (them them' : PublicKey P),
        BothOpen O' m them r.1 m' them' r.2) ≤ ((n + 2) * (n + 1) : ℚ) / 2 / 2 ^ 128 := by
  have h := chance_collide_out O A n 16 (by omega) hA (fun r => commitmentQuery r.1) (fun r => commitmentQuery r.2) hD
  rw [show (256 : ℚ) ^ 16 = 2 ^ 128 by norm_num] at h
  refine le_trans (chance_mono ?_) h
  intro f hv
  simp only at hv ⊢
  generalize A.run (wideTable O D f) = r at hv ⊢
  generalize wideTable O D f = O' at hv ⊢
  obtain ⟨hne, m, m', them, them', ⟨c, h1, h2⟩, h3, h4⟩ := hv
  letI := O'
  have key : ∀ {T : Type} (m : MuSig P T (RevealStage P)) (them : PublicKey P) (r : Reveal),
      m.Rs.get? them = some (.commit c) → (m.addTheirReveal them r).1 = .ok () → commitmentTo r = c := by
    intro T m them r hg ha
    unfold MuSig.addTheirReveal at ha
    rw [hg] at ha
    simp only [CoR.setRevealed, toCommitment_eq, intoPoints_eq] at ha
    cases hp : (points r : Option (RevealedPoints P)) with
    | none => rw [hp] at ha; exact absurd ha (by simp)
    | some p =>
      rw [hp] at ha
      simp only at ha
      by_contra hne
      rw [if_neg (fun h => hne h.symm)] at ha
      exact absurd ha (by simp)
  have e1 := key m them r.1 h1 h3
  have e2 := key m' them' r.2 h2 h4
  obtain ⟨h5, h6⟩ := musig_commitment_binding r.1 r.2 (e1.trans e2.symm) hne
  exact ⟨h5, congrArg Subtype.val h6⟩

/-- **C70** `make_bytes`: two different pairs of context and VRF input/output give the same `k` bytes with probability at
most `(n+2)(n+1)/2 / 256^k`. -/
theorem vrf_bytes_collision_random_oracle (O : Oracles) (k : Nat) (hk : k ≤ 64)
    (A : Algo ((Bytes × VRFInOut P) × (Bytes × VRFInOut P))) (D : Finset (List MOp)) (n : Nat) (hA : A.WideWithin O D n)
    (hD : ∀ f : D → Arr 64, let r := A.run (wideTable O D f)
      ∀ x ∈ [r.1, r.2], vrfResultQuery x.1 (x.2.input.compressed.1, x.2.output.compressed.1) k ∈ D) :
    chance (fun f : D → Arr 64 => letI := wideTable O D f
      let r := A.run (wideTable O D f)
      r.1 ≠ r.2 ∧ (∀ x ∈ [r.1, r.2], x.2.input.WF ∧ x.2.output.WF) ∧ r.1.2.makeBytes r.1.1 k = r.2.2.makeBytes r.2.1 k) ≤
      ((n + 2) * (n + 1) : ℚ) / 2 / 256 ^ k := by
  refine le_trans (chance_mono ?_) (chance_collide_out O A n k hk hA
    (fun r => vrfResultQuery r.1.1 (r.1.2.input.compressed.1, r.1.2.output.compressed.1) k)
    (fun r => vrfResultQuery r.2.1 (r.2.2.input.compressed.1, r.2.2.output.compressed.1) k)
    (fun f => ⟨hD f _ (by simp), hD f _ (by simp)⟩))
  intro f hv
  simp only at hv ⊢
  generalize A.run (wideTable O D f) = r at hv ⊢
  generalize wideTable O D f = O' at hv ⊢
  obtain ⟨⟨c, i, o⟩, ⟨c', i', o'⟩⟩ := r
  obtain ⟨hne, hw, he⟩ := hv
  letI := O'
  rw [make_bytes_is_query, make_bytes_is_query] at he
  refine ⟨fun h => hne ?_, congrArg Subtype.val he⟩
  simp only [vrfResultQuery, pairFrames, List.cons_append, List.nil_append, List.cons.injEq, MOp.append.injEq, true_and,
    and_true] at h
  obtain ⟨h1, h2, h3⟩ := h
  have w1 : i.WF ∧ o.WF := hw (c, ⟨i, o⟩) (by simp)
  have w2 : i'.WF ∧ o'.WF := hw (c', ⟨i', o'⟩) (by simp)
  simp only [h1, wf_ext w1.1 w2.1 h2, wf_ext w1.2 w2.2 h3]

/-- **C70** hard derivation: two different triples of index, chain code and secret scalar give the same mini secret key, or
the same chain code, with probability at most `(n+2)(n+1)/2 / 2^256` each. -/
theorem hard_derivation_collision_random_oracle (O : Oracles)
    (A : Algo ((Bytes × Option ChainCode × SecretKey) × (Bytes × Option ChainCode × SecretKey)))
    (D : Finset (List MOp)) (n : Nat) (hA : A.WideWithin O D n)
    (hD : ∀ f : D → Arr 64, let r := A.run (wideTable O D f)
      ∀ x ∈ [r.1, r.2], let q := hardQuery x.1 (x.2.1.map (·.bytes.1)) x.2.2.key.bytes.1
        q ∈ D ∧ q ++ [.challenge (b! "HDKD-chaincode") 32] ∈ D) :
    let new := fun r : (Bytes × Option ChainCode × SecretKey) × (Bytes × Option ChainCode × SecretKey) =>
      ¬ (r.1.1 = r.2.1 ∧ r.1.2.1 = r.2.2.1 ∧ r.1.2.2.key = r.2.2.2.key)
    chance (fun f : D → Arr 64 => letI := wideTable O D f
      let r := A.run (wideTable O D f)
      new r ∧ (r.1.2.2.hardDeriveMiniSecretKey r.1.2.1 r.1.1).1 = (r.2.2.2.hardDeriveMiniSecretKey r.2.2.1 r.2.1).1) ≤
      ((n + 2) * (n + 1) : ℚ) / 2 / 2 ^ 256 ∧
    chance (fun f : D → Arr 64 => letI := wideTable O D f
      let r := A.run (wideTable O D f)
      new r ∧ (r.1.2.2.hardDeriveMiniSecretKey r.1.2.1 r.1.1).2 = (r.2.2.2.hardDeriveMiniSecretKey r.2.2.1 r.2.1).2) ≤
      ((n + 2) * (n + 1) : ℚ) / 2 / 2 ^ 256 := by
  intro new
  have hinj : ∀ r, new r → hardQuery r.1.1 (r.1.2.1.map (·.bytes.1)) r.1.2.2.key.bytes.1 ≠
      hardQuery r.2.1 (r.2.2.1.map (·.bytes.1)) r.2.2.2.key.bytes.1 := by
    rintro ⟨⟨i, c, k⟩, ⟨i', c', k'⟩⟩ hne h
    obtain ⟨h1, h2, h3⟩ := (hard_query_injective _ _ _ _ _ _).1.mp h
    apply hne
    refine ⟨h1, ?_, ?_⟩
    · have hj : Function.Injective fun c : ChainCode => c.bytes.1 := by
        rintro ⟨a⟩ ⟨b⟩ h
        exact congrArg _ (Subtype.ext h)
      exact Option.map_injective hj h2
    · simp only at h3 ⊢
      cases hk : k.key; cases hk' : k'.key
      rw [hk, hk'] at h3
      exact congrArg _ (Subtype.ext h3)
  have e32 : (256 : ℚ) ^ 32 = 2 ^ 256 := by norm_num
  constructor
  · have h := chance_collide_out O A n 32 (by omega) hA
      (fun r => hardQuery r.1.1 (r.1.2.1.map (·.bytes.1)) r.1.2.2.key.bytes.1)
      (fun r => hardQuery r.2.1 (r.2.2.1.map (·.bytes.1)) r.2.2.2.key.bytes.1)
      (fun f => ⟨(hD f _ (by simp)).1, (hD f _ (by simp)).1⟩)
    rw [e32] at h
    refine le_trans (chance_mono ?_) h
    rintro f ⟨hne, he⟩
    letI := wideTable O D f
    refine ⟨hinj _ hne, ?_⟩
    rw [(hard_derivation_spec (P := Toy) _ _ _).1, (hard_derivation_spec (P := Toy) _ _ _).1] at he
    exact congrArg (fun m : MiniSecretKey => m.1.1) he
  · have h := chance_collide_out O A n 32 (by omega) hA
      (fun r => hardQuery r.1.1 (r.1.2.1.map (·.bytes.1)) r.1.2.2.key.bytes.1 ++ [.challenge (b! "HDKD-chaincode") 32])
      (fun r => hardQuery r.2.1 (r.2.2.1.map (·.bytes.1)) r.2.2.2.key.bytes.1 ++ [.challenge (b! "HDKD-chaincode") 32])
      (fun f => ⟨(hD f _ (by simp)).2, (hD f _ (by simp)).2⟩)
    rw [e32] at h
    refine le_trans (chance_mono ?_) h
    rintro f ⟨hne, he⟩
    letI := wideTable O D f
    refine ⟨fun h => hinj _ hne (List.append_cancel_right h), ?_⟩
    rw [(hard_derivation_spec (P := Toy) _ _ _).1, (hard_derivation_spec (P := Toy) _ _ _).1] at he
    exact congrArg (fun m : ChainCode => m.bytes.1) he

theorem sortedPair_if (a b : Bytes) : open Classical in
    SortedPair a b (if lexLt b a then b else a) (if lexLt b a then a else b) := by
  by_cases h : lexLt b a
  · exact .inr ⟨if_pos h, if_pos h, h⟩
  · exact .inl ⟨if_neg h, if_neg h, h⟩

theorem sortedPair_unique {a b lo hi lo' hi' : Bytes} (h : SortedPair a b lo hi) (h' : SortedPair a b lo' hi') :
    lo = lo' ∧ hi = hi' := by
  rcases h with ⟨rfl, rfl, h1⟩ | ⟨rfl, rfl, h1⟩ <;> rcases h' with ⟨rfl, rfl, h2⟩ | ⟨rfl, rfl, h2⟩
  · exact ⟨rfl, rfl⟩
  · exact absurd h2 h1
  · exact absurd h1 h2
  · exact ⟨rfl, rfl⟩

theorem aead_unauthenticated_kexOf [Oracles] (ctx : Bytes) (kp : Keypair P) (pk : PublicKey P) (n : Nat) :
    kp.aeadUnauthenticated ctx pk n = Oracles.merlin (kexOf ctx kp pk n) n := by
  obtain ⟨lo, hi, h1, h2⟩ := aead_unauthenticated_is_query kp ctx pk n
  obtain ⟨rfl, rfl⟩ := sortedPair_unique h1 (sortedPair_if _ _)
  exact h2

/-- **C70** session keys: two key exchanges that differ in the context, in the pair of public keys or in the shared point get
the same `k`-byte key with probability at most `(n+2)(n+1)/2 / 256^k`. -/
theorem aead_key_collision_random_oracle (O : Oracles) (k : Nat) (hk : k ≤ 64)
    (A : Algo ((Bytes × Keypair P × PublicKey P) × (Bytes × Keypair P × PublicKey P))) (D : Finset (List MOp)) (n : Nat)
    (hA : A.WideWithin O D n)
    (hD : ∀ f : D → Arr 64, let r := A.run (wideTable O D f); ∀ x ∈ [r.1, r.2], kexOf x.1 x.2.1 x.2.2 k ∈ D) :
    chance (fun f : D → Arr 64 => letI := wideTable O D f
      let r := A.run (wideTable O D f)
      ¬ SameExchange r.1 r.2 ∧ r.1.2.1.aeadUnauthenticated r.1.1 r.1.2.2 k = r.2.2.1.aeadUnauthenticated r.2.1 r.2.2.2 k) ≤
      ((n + 2) * (n + 1) : ℚ) / 2 / 256 ^ k := by
  refine le_trans (chance_mono ?_) (chance_collide_out O A n k hk hA
    (fun r => kexOf r.1.1 r.1.2.1 r.1.2.2 k) (fun r => kexOf r.2.1 r.2.2.1 r.2.2.2 k)
    (fun f => ⟨hD f _ (by simp), hD f _ (by simp)⟩))
  rintro f ⟨hne, he⟩
  letI := wideTable O D f
  rw [aead_unauthenticated_kexOf, aead_unauthenticated_kexOf] at he
  refine ⟨fun h => hne ?_, congrArg Subtype.val he⟩
  obtain ⟨h1, h2, h3, -⟩ := kex_query_injective (sortedPair_if _ _) (sortedPair_if _ _) h
  refine ⟨h1, ?_, compress_inj.mp (Subtype.ext h3)⟩
  rcases h2 with ⟨h, h'⟩ | ⟨h, h'⟩
  · exact .inl ⟨Subtype.ext h, Subtype.ext h'⟩
  · exact .inr ⟨Subtype.ext h, Subtype.ext h'⟩

/-- The parent key in a soft derivation query. -/
private noncomputable def parentIn (q : List MOp) : P :=
  Classical.epsilon fun A : P => ∃ log cc, q = softQuery log cc (compress A).1

private theorem parentIn_query (log : List MOp) (cc : Bytes) (pk : PublicKey P) (h : pk.WF) :
    (parentIn (softQuery log cc pk.compressed.1) : P) = pk.point := by
  have he : ∃ A : P, ∃ log' cc', softQuery log cc pk.compressed.1 = softQuery log' cc' (compress A).1 :=
    ⟨pk.point, log, cc, by rw [h]⟩
  obtain ⟨l, c, h1⟩ := Classical.epsilon_spec he
  have h2 := ((soft_query_injective _ _ _ _ _ _).1.mp h1).2.2
  exact (compress_inj.mp (Eq.trans h (Subtype.ext h2))).symm

private theorem soft_child_point (O : Oracles) (l : List MOp) (c : Arr 32) (k : PublicKey P) (sys : Rng) :
    (letI := O; (Derivation.derivedKey k (⟨l⟩ : Transcript) ⟨c⟩ sys).1.point) =
      hashWith O (softQuery l c.1 k.compressed.1) • basepoint + k.point := by
  letI := O
  have h := (soft_derivation_spec (⟨⟨Scalar.ofZ 0, zeros 32⟩, k⟩ : Keypair P) (Scalar.canonical_ofZ 0) (⟨l⟩ : Transcript) ⟨c⟩
    zeroRng sys).2.2.1.1
  have h2 := congrArg RistrettoBoth.point h
  rw [add_comm]
  exact h2

/-- What soft derivation of a public key starts from. -/
abbrev SoftStart (P : Type) := Transcript × ChainCode × PublicKey P

/-- **C70** soft derivation: two different triples of transcript, chain code and parent public key give the same child
public key with probability at most `(n+2)(n+1)/2 · guess`. -/
theorem soft_derivation_collision_random_oracle (O : Oracles) (A : Algo (SoftStart P × SoftStart P)) (sys : Rng)
    (D : Finset (List MOp)) (n : Nat) (hA : A.Within O D n)
    (hD : ∀ f : D → Arr 64, let r := A.run (table O D f)
      ∀ x ∈ [r.1, r.2], softQuery x.1.log x.2.1.bytes.1 x.2.2.compressed.1 ∈ D) :
    chance (fun f : D → Arr 64 => letI := table O D f
      let (a, b) := A.run (table O D f)
      a ≠ b ∧ a.2.2.WF ∧ b.2.2.WF ∧
        (Derivation.derivedKey a.2.2 a.1 a.2.1 sys).1 = (Derivation.derivedKey b.2.2 b.1 b.2.1 sys).1) ≤
      ((n + 2) * (n + 1) : ℚ) / 2 * guess := by
  refine le_trans (chance_mono ?_) (chance_pair_points (P := P) O A n hA (fun _ => basepoint) parentIn
    (fun r => softQuery r.1.1.log r.1.2.1.bytes.1 r.1.2.2.compressed.1)
    (fun r => softQuery r.2.1.log r.2.2.1.bytes.1 r.2.2.2.compressed.1)
    (fun f => ⟨hD f _ (by simp), hD f _ (by simp)⟩))
  intro f hv
  simp only at hv ⊢
  generalize A.run (table O D f) = r at hv ⊢
  generalize table O D f = O' at hv ⊢
  obtain ⟨⟨⟨l⟩, ⟨c⟩, k⟩, ⟨⟨l'⟩, ⟨c'⟩, k'⟩⟩ := r
  obtain ⟨hne, w, w', he⟩ := hv
  simp only at w w' he ⊢
  rw [parentIn_query _ _ _ w, parentIn_query _ _ _ w']
  refine ⟨fun h => hne ?_, Ristretto.basepoint_ne, Ristretto.basepoint_ne, ?_⟩
  · obtain ⟨h1, h2, h3⟩ := (soft_query_injective _ _ _ _ _ _).1.mp h
    simp only [h1, Subtype.ext h2, wf_ext w w' h3]
  · rw [← soft_child_point O' l c k sys, ← soft_child_point O' l' c' k' sys]
    exact congrArg RistrettoBoth.point he

/-- The issuer key and the point in a certificate query. -/
private noncomputable def certIn (q : List MOp) : P × P :=
  Classical.epsilon fun A : P × P => ∃ log, q = certQuery log (compress A.1).1 (compress A.2).1

private theorem certIn_query (log : List MOp) (I Γ : P) : certIn (certQuery log (compress I).1 (compress Γ).1) = (I, Γ) := by
  have he : ∃ A : P × P, ∃ log', certQuery log (compress I).1 (compress Γ).1 = certQuery log' (compress A.1).1 (compress A.2).1 :=
    ⟨(I, Γ), log, rfl⟩
  obtain ⟨l, h1⟩ := Classical.epsilon_spec he
  obtain ⟨-, h2, h3⟩ := (cert_query_injective _ _ _ _ _ _).mp h1
  exact Prod.ext (compress_inj.mp (Subtype.ext h2)).symm (compress_inj.mp (Subtype.ext h3)).symm

/-- What opening an implicit certificate starts from. -/
abbrev CertStart (P : Type) := Transcript × PublicKey P × AdaptorCertPublic

/-- **C70** implicit certificates: two different triples of transcript, non-identity issuer and certificate open to the same
public key with probability at most `(n+2)(n+1)/2 · guess`: a certified key certifies one identity. -/
theorem cert_collision_random_oracle (O : Oracles) (A : Algo (CertStart P × CertStart P))
    (D : Finset (List MOp)) (n : Nat) (hA : A.Within O D n)
    (hD : ∀ f : D → Arr 64, let r := A.run (table O D f)
      ∀ x ∈ [r.1, r.2], certQuery x.1.log x.2.1.compressed.1 x.2.2.bytes.1 ∈ D) :
    chance (fun f : D → Arr 64 => letI := table O D f
      let (a, b) := A.run (table O D f)
      a ≠ b ∧ (∀ x ∈ [a, b], x.2.1.WF ∧ x.2.1.point ≠ 0) ∧
        ∃ pk, PublicKey.openAdaptorCert a.2.1 a.1 a.2.2 = .ok pk ∧ PublicKey.openAdaptorCert b.2.1 b.1 b.2.2 = .ok pk) ≤
      ((n + 2) * (n + 1) : ℚ) / 2 * guess := by
  refine le_trans (chance_mono ?_) (chance_pair_points (P := P) O A n hA (fun q => (certIn q).1) (fun q => (certIn q).2)
    (fun r => certQuery r.1.1.log r.1.2.1.compressed.1 r.1.2.2.bytes.1)
    (fun r => certQuery r.2.1.log r.2.2.1.compressed.1 r.2.2.2.bytes.1)
    (fun f => ⟨hD f _ (by simp), hD f _ (by simp)⟩))
  intro f hv
  simp only at hv ⊢
  generalize A.run (table O D f) = r at hv ⊢
  generalize table O D f = O' at hv ⊢
  obtain ⟨⟨⟨l⟩, k, ⟨c⟩⟩, ⟨⟨l'⟩, k', ⟨c'⟩⟩⟩ := r
  obtain ⟨hne, hw, pk, h1, h2⟩ := hv
  have w : k.WF ∧ k.point ≠ 0 := hw (⟨l⟩, k, ⟨c⟩) (by simp)
  have w' : k'.WF ∧ k'.point ≠ 0 := hw (⟨l'⟩, k', ⟨c'⟩) (by simp)
  simp only at h1 h2 ⊢
  letI := O'
  have key : ∀ (l : List MOp) (k : PublicKey P) (c : Arr 32), k.WF →
      PublicKey.openAdaptorCert k (⟨l⟩ : Transcript) ⟨c⟩ = .ok pk → ∃ Γ : P, compress Γ = c ∧
        pk.point = hashWith O' (certQuery l k.compressed.1 c.1) • k.point + Γ ∧
        (certIn (certQuery l k.compressed.1 c.1) : P × P) = (k.point, Γ) := by
    intro l k c hk ho
    rcases open_adaptor_cert_table k (⟨l⟩ : Transcript) ⟨c⟩ with ⟨-, h⟩ | ⟨Γ, hΓ, h⟩
    · rw [h] at ho; exact absurd ho (by simp)
    · rw [h] at ho
      have e := Except.ok.inj ho
      refine ⟨Γ, hΓ, ?_, ?_⟩
      · rw [← e, cert_challenge_is_query]; rfl
      · have h3 := certIn_query l k.point Γ
        have hk' : compress k.point = k.compressed := hk
        rw [hk', hΓ] at h3
        exact h3
  obtain ⟨Γ, hΓ, e1, e2⟩ := key l k c w.1 h1
  obtain ⟨Γ', hΓ', e1', e2'⟩ := key l' k' c' w'.1 h2
  rw [e2, e2']
  refine ⟨fun h => hne ?_, w.2, w'.2, e1.symm.trans e1'⟩
  obtain ⟨g1, g2, g3⟩ := (cert_query_injective _ _ _ _ _ _).mp h
  simp only [g1, wf_ext w.1 w'.1 g2, Subtype.ext g3]

/-! ## The hypotheses are met: by every algorithm, for some `D` and `n` -/

example (O : Oracles) (A : Algo (Reveal × Reveal)) : ∃ (D : Finset (List MOp)) (n : Nat), A.WideWithin O D n ∧
    ∀ f : D → Arr 64, let r := A.run (wideTable O D f); commitmentQuery r.1 ∈ D ∧ commitmentQuery r.2 ∈ D := by
  obtain ⟨D, n, -, h1, h2⟩ := exists_domain_two O A (fun r => commitmentQuery r.1) (fun r => commitmentQuery r.2)
  exact ⟨D, n, h1, fun f => h2 _⟩

example (O : Oracles) (A : Algo (SoftStart P × SoftStart P)) : ∃ (D : Finset (List MOp)) (n : Nat), A.Within O D n ∧
    ∀ f : D → Arr 64, let r := A.run (table O D f)
      ∀ x ∈ [r.1, r.2], softQuery x.1.log x.2.1.bytes.1 x.2.2.compressed.1 ∈ D := by
  obtain ⟨D, n, h1, -, h2⟩ := exists_domain_two O A (fun r => softQuery r.1.1.log r.1.2.1.bytes.1 r.1.2.2.compressed.1)
    (fun r => softQuery r.2.1.log r.2.2.1.bytes.1 r.2.2.2.compressed.1)
  exact ⟨D, n, h1, fun f => by simpa using h2 _⟩

example (O : Oracles) (A : Algo (CertStart P × CertStart P)) : ∃ (D : Finset (List MOp)) (n : Nat), A.Within O D n ∧
    ∀ f : D → Arr 64, let r := A.run (table O D f)
      ∀ x ∈ [r.1, r.2], certQuery x.1.log x.2.1.compressed.1 x.2.2.bytes.1 ∈ D := by
  obtain ⟨D, n, h1, -, h2⟩ := exists_domain_two O A (fun r => certQuery r.1.1.log r.1.2.1.compressed.1 r.1.2.2.bytes.1)
    (fun r => certQuery r.2.1.log r.2.2.1.compressed.1 r.2.2.2.bytes.1)
  exact ⟨D, n, h1, fun f => by simpa using h2 _⟩

example (O : Oracles) (A : Algo ((Bytes × Keypair P × PublicKey P) × (Bytes × Keypair P × PublicKey P))) :
    ∃ (D : Finset (List MOp)) (n : Nat), A.WideWithin O D n ∧
    ∀ f : D → Arr 64, let r := A.run (wideTable O D f); ∀ x ∈ [r.1, r.2], kexOf x.1 x.2.1 x.2.2 32 ∈ D := by
  obtain ⟨D, n, -, h1, h2⟩ := exists_domain_two O A (fun r => kexOf r.1.1 r.1.2.1 r.1.2.2 32) (fun r => kexOf r.2.1 r.2.2.1 r.2.2.2 32)
  exact ⟨D, n, h1, fun f => by simpa using h2 _⟩

end Schnorrkel.Props
