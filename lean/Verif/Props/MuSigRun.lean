import Verif.Props.MuSigKeys

/-! # C41: the straightforward protocol run

Any list of secret keys with distinct public keys: everybody sends everything to everybody (including
itself), in the order of the list.  This is an instance of `HonestRun` for every group, so `musig_complete`
is not vacuous, and gives a statement without session bookkeeping. -/

namespace Schnorrkel.Props
open SigningTranscript Spec
variable {P : Type} [Ristretto P] {T T' : Type}

section
variable [Oracles] [SigningTranscript T]

/-- Signer: secret key and its RNG. -/
abbrev Signer := SecretKey × Rng

/-- All signers' nonce points when they start from transcript `t`. -/
def pointsOf (P : Type) [Ristretto P] (t : T) (d : Signer) : RevealedPoints P :=
  ownPoints (d.1.toKeypair : Keypair P) t d.2

/-- A signer up to the reveal stage: it receives all commitments and all reveals. -/
def plainSigner (P : Type) [Ristretto P] (t : T) (ds : List Signer) (d : Signer) : Cosigner P where
  T := T
  sk := d.1
  t := t
  sys := d.2
  commits := ds.map fun d' => .commitment d'.1.toPublic (commitmentTo (pointsOf P t d').toReveal)
  reveals := ds.map fun d' => .reveal d'.1.toPublic (pointsOf P t d').toReveal
  cosigns := []

/-- The share a signer sends. -/
def plainShare (P : Type) [Ristretto P] (t : T) (ds : List Signer) (d : Signer) : Cosignature :=
  match (plainSigner P t ds d).cosignature with
  | .ok c => c
  | _ => ⟨zeros 32⟩

/-- A signer that also receives all shares. -/
def plainCosigner (P : Type) [Ristretto P] (t : T) (ds : List Signer) (d : Signer) : Cosigner P :=
  { plainSigner P t ds d with
    cosigns := ds.map fun d' => ⟨d'.1.toPublic, plainShare P t ds d'⟩ }

private theorem runCommit_t (ds : List Signer) (g : Signer → Commitment) (m : MuSig P T (CommitStage P)) :
    (runCommit m (ds.map fun d => .commitment d.1.toPublic (g d))).2.t = m.t := by
  induction ds generalizing m with
  | nil => rfl
  | cons d ds ih =>
    simp only [List.map_cons, runCommit]
    rw [ih, addTheirCommitment_spec]
    split
    · rfl
    · split <;> rfl

private theorem runReveal_t (ds : List Signer) (g : Signer → Reveal) (m : MuSig P T (RevealStage P)) :
    (runReveal m (ds.map fun d => .reveal d.1.toPublic (g d))).2.t = m.t := by
  induction ds generalizing m with
  | nil => rfl
  | cons d ds ih =>
    simp only [List.map_cons, runReveal]
    rw [ih, addTheirReveal_spec']
    repeat' first | rfl | split

private theorem plain_t (t : T) (ds : List Signer) (d : Signer) :
    (plainCosigner P t ds d).atReveal.t = (MuSig.drawNonces t d.1.nonce d.2).2.1 := by
  show (session _ _ _ _ _).t = _
  unfold session
  rw [show (plainCosigner P t ds d).reveals = ds.map (fun d' => .reveal d'.1.toPublic (pointsOf P t d').toReveal) from rfl,
    runReveal_t]
  show (runCommit _ _).2.t = _
  rw [show (plainCosigner P t ds d).commits = ds.map (fun d' => .commitment d'.1.toPublic
    (commitmentTo (pointsOf P t d').toReveal)) from rfl, runCommit_t]
  rfl

private theorem plain_commitment (t : T) (ds : List Signer) (d : Signer) :
    (plainCosigner P t ds d).commitment = .ok (commitmentTo (pointsOf P t d).toReveal) :=
  (musig_session_never_panics (P := P) d.1.toKeypair t d.2 _ [] []).1

private theorem plain_reveal (t : T) (ds : List Signer) (d : Signer) :
    (plainCosigner P t ds d).revealMsg = (pointsOf P t d).toReveal :=
  (musig_session_never_panics (P := P) d.1.toKeypair t d.2 _ _ []).2.2.1

private theorem plain_cosignature (t : T) (ds : List Signer) (d : Signer) :
    (plainCosigner P t ds d).cosignature = .ok (plainShare P t ds d) ∧
      ∃ s : Scalar, s.Canonical ∧ (plainShare P t ds d).bytes = s.bytes := by
  have hg : Good (plainSigner P t ds d).atReveal := session_good _ _ _ _ _
  obtain ⟨m0, s, h1, h2, h3, _⟩ := cosign_run _ hg
  have hc : (plainSigner P t ds d).cosignature = .ok m0.ourCosignature := by
    unfold Cosigner.cosignature; rw [h1]; rfl
  have hsh : plainShare P t ds d = m0.ourCosignature := by unfold plainShare; rw [hc]
  refine ⟨?_, s, h3, ?_⟩
  · rw [hsh]; exact hc
  · rw [hsh]; unfold MuSig.ourCosignature; rw [h2]

private theorem findSome_map {α β γ : Type} (ds : List α) (f : α → β) (g : β → Option γ) (d : α) (c : γ) (hd : d ∈ ds)
    (hg : g (f d) = some c) (hu : ∀ d' ∈ ds, g (f d') ≠ none → d' = d) : (ds.map f).findSome? g = some c := by
  induction ds with
  | nil => simp at hd
  | cons x ds ih =>
    rw [List.map_cons, List.findSome?_cons]
    cases hx : g (f x) with
    | some y =>
      have := hu x (by simp) (by rw [hx]; simp)
      subst this
      rw [hx] at hg; simp [hg]
    | none =>
      simp only
      apply ih
      · rw [List.mem_cons] at hd
        rcases hd with rfl | hd
        · rw [hg] at hx; cases hx
        · exact hd
      · intro d' hd'; exact hu d' (by simp [hd'])

/-- Straightforward runs are honest runs. -/
theorem plain_honest [SigningTranscript T'] {Rel : T → T' → Prop} (hR : TSim Rel) (t : T) (t' : T') (hRel : Rel t t')
    (ds : List Signer) (hcan : ∀ d ∈ ds, d.1.key.Canonical)
    (hdist : ∀ d ∈ ds, ∀ d' ∈ ds, (d.1.toPublic : PublicKey P) = d'.1.toPublic → d = d') :
    HonestRun (ds.map (plainCosigner P t ds)) t' where
  canonical := by
    intro i hi
    obtain ⟨d, hd, rfl⟩ := List.mem_map.mp hi
    exact hcan d hd
  distinct := by
    intro i hi j hj h
    obtain ⟨d, hd, rfl⟩ := List.mem_map.mp hi
    obtain ⟨d', hd', rfl⟩ := List.mem_map.mp hj
    rw [hdist d hd d' hd' h]
  genuine := by
    intro i hi
    obtain ⟨d, hd, rfl⟩ := List.mem_map.mp hi
    constructor
    · intro c hc
      obtain ⟨d', hd', rfl⟩ := List.mem_map.mp (show c ∈ ds.map _ from hc)
      exact (wf_toPublic d'.1).symm
    · intro c hc
      obtain ⟨d', hd', rfl⟩ := List.mem_map.mp (show c ∈ ds.map _ from hc)
      exact (wf_toPublic d'.1).symm
  transcripts := by
    intro i hi
    obtain ⟨d, hd, rfl⟩ := List.mem_map.mp hi
    refine ⟨Rel, hR, ?_⟩
    rw [plain_t]
    unfold MuSig.drawNonces
    exact hR.witnessScalar_left _ _ _ (hR.witnessScalar_left _ _ _ (hR.witnessScalar_left _ _ _ hRel))
  commits := by
    intro i hi j hj hne
    obtain ⟨d, hd, rfl⟩ := List.mem_map.mp hi
    obtain ⟨d', hd', rfl⟩ := List.mem_map.mp hj
    refine ⟨_, plain_commitment t ds d', ?_⟩
    unfold firstCommitment
    show (ds.map _).findSome? _ = _
    apply findSome_map ds _ _ d' _ hd'
    · simp [Cosigner.pk, plainCosigner, plainSigner]
    · intro x hx h
      simp only [ne_eq, ite_eq_right_iff, reduceCtorEq, imp_false, not_not] at h
      exact hdist x hx d' hd' (BMap.key_ext (wf_toPublic _) (wf_toPublic _) h)
  reveals := by
    intro i hi j hj hne
    obtain ⟨d, hd, rfl⟩ := List.mem_map.mp hi
    obtain ⟨d', hd', rfl⟩ := List.mem_map.mp hj
    rw [plain_reveal]
    exact List.mem_map.mpr ⟨d', hd', rfl⟩
  no_other_reveal := by
    intro i hi k r hr _ _
    obtain ⟨d, hd, rfl⟩ := List.mem_map.mp hi
    obtain ⟨d', hd', h⟩ := List.mem_map.mp (show RevealCall.reveal k r ∈ ds.map _ from hr)
    cases h
    exact ⟨_, List.mem_map.mpr ⟨d', hd', rfl⟩, rfl, (plain_reveal t ds d').symm⟩
  no_trusted := by
    intro i hi k r hr
    obtain ⟨d, hd, rfl⟩ := List.mem_map.mp hi
    obtain ⟨d', hd', h⟩ := List.mem_map.mp (show RevealCall.trusted k r ∈ ds.map _ from hr)
    cases h
  cosigns := by
    intro i hi j hj hne
    obtain ⟨d, hd, rfl⟩ := List.mem_map.mp hi
    obtain ⟨d', hd', rfl⟩ := List.mem_map.mp hj
    obtain ⟨h1, s, h2, h3⟩ := plain_cosignature (P := P) t ds d'
    refine ⟨_, s, h1, h3, ?_⟩
    unfold firstShare
    show (ds.map _).findSome? _ = _
    apply findSome_map ds _ _ d' _ hd'
    · simp only [Cosigner.pk, plainCosigner, plainSigner, if_true]
      rw [Scalar.fromCanonicalBytes_eq_some]
      exact ⟨h3.symm, h2⟩
    · intro x hx h
      simp only [ne_eq, ite_eq_right_iff, Classical.not_imp] at h
      exact hdist x hx d' hd' (BMap.key_ext (wf_toPublic _) (wf_toPublic _) h.1)

/-- **C41** For every nonempty list of signers with reduced keys and distinct public keys, every
transcript type, transcript and RNGs: everybody obtains the same signature, a collector given the reveals
and shares obtains it too, and it verifies under the aggregate key. -/
theorem musig_plain_run [SigningTranscript T'] {Rel : T → T' → Prop} (hR : TSim Rel) (t : T) (t' : T') (hRel : Rel t t')
    (ds : List Signer) (hne : ds ≠ []) (hcan : ∀ d ∈ ds, d.1.key.Canonical)
    (hdist : ∀ d ∈ ds, ∀ d' ∈ ds, (d.1.toPublic : PublicKey P) = d'.1.toPublic → d = d') :
    ∃ (σ : Signature) (pk : PublicKey P),
      (∀ es : List (PublicKey P × Unit), (∀ k, (∃ e ∈ es, e.1 = k) ↔ ∃ d ∈ ds, d.1.toPublic = k) →
        (insertAll es).publicKey = pk) ∧
      (∀ d ∈ ds, (plainCosigner P t ds d).result = .ok (some σ) ∧
        (plainCosigner P t ds d).atReveal.publicKey = pk) ∧
      (PublicKey.verify pk t' σ).1 = .ok () ∧
      (collector t (ds.map fun d => ⟨(d.1.toPublic : PublicKey P), (pointsOf P t d).toReveal, plainShare P t ds d⟩)).signature
        = .ok σ := by
  have h := plain_honest hR t t' hRel ds hcan hdist
  have hl : ∀ k ∈ ds.map fun d => (d.1.toPublic : PublicKey P), k.WF := by
    intro k hk
    obtain ⟨d, hd, rfl⟩ := List.mem_map.mp hk
    exact wf_toPublic _
  obtain ⟨ks, hks, hkm⟩ := increasing_list_exists _ hl
  obtain ⟨σ, h1, h2, h3⟩ := musig_complete h (by simpa using hne) ks hks (by
    intro k
    rw [hkm]
    constructor
    · intro hk
      obtain ⟨d, hd, rfl⟩ := List.mem_map.mp hk
      exact ⟨_, List.mem_map.mpr ⟨d, hd, rfl⟩, rfl⟩
    · rintro ⟨i, hi, rfl⟩
      obtain ⟨d, hd, rfl⟩ := List.mem_map.mp hi
      exact List.mem_map.mpr ⟨d, hd, rfl⟩)
  refine ⟨σ, _, ?_, ?_, h2, ?_⟩
  · intro es hes
    apply (aggregate_key_of_set ks hks (fun k hk => hl k ((hkm k).mp hk))).1
    intro k
    rw [hkm, hes, List.mem_map]
  · intro d hd
    exact h1 _ (List.mem_map.mpr ⟨d, hd, rfl⟩)
  · apply h3 T Rel t hR hRel
    constructor
    · intro c hc
      obtain ⟨d, hd, rfl⟩ := List.mem_map.mp hc
      exact (wf_toPublic d.1).symm
    · intro j hj
      obtain ⟨d, hd, rfl⟩ := List.mem_map.mp hj
      refine ⟨_, (plain_cosignature t ds d).1, ?_⟩
      rw [plain_reveal]
      exact List.mem_map.mpr ⟨d, hd, rfl⟩
    · intro x hx _
      obtain ⟨d, hd, rfl⟩ := List.mem_map.mp hx
      refine ⟨_, List.mem_map.mpr ⟨d, hd, rfl⟩, _, (plain_cosignature t ds d).1, ?_⟩
      rw [plain_reveal]
      rfl
end

/-! ## Concrete cases -/

/-- Three secret keys 1, 2, 3. -/
def toySigners : List Signer :=
  [(⟨⟨leArr 32 1⟩, zeros 32⟩, zeroRng), (⟨⟨leArr 32 2⟩, zeros 32⟩, zeroRng), (⟨⟨leArr 32 3⟩, zeros 32⟩, zeroRng)]

/-- Non-vacuity: three signers on a merlin transcript meet the hypotheses. -/
example : letI := toyOracles; HonestRun (toySigners.map (plainCosigner Toy (Transcript.new (b! "msg")) toySigners))
    (Transcript.new (b! "msg")) := by
  letI := toyOracles
  refine plain_honest merlin_sim _ _ rfl toySigners ?_ ?_
  · decide +kernel
  · have h : ∀ i : Fin 3, ∀ j : Fin 3, ((toySigners.get i).1.toPublic : PublicKey Toy).compressed.1 =
        ((toySigners.get j).1.toPublic : PublicKey Toy).compressed.1 → i = j := by decide +kernel
    intro d hd d' hd' he
    obtain ⟨i, rfl⟩ := List.mem_iff_get.mp hd
    obtain ⟨j, rfl⟩ := List.mem_iff_get.mp hd'
    exact congrArg toySigners.get (h i j (by rw [he]))

end Schnorrkel.Props
