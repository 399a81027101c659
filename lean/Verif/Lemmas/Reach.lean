import Verif.Spec.Reach
import Verif.Lemmas.MuSigSign
import Verif.Lemmas.Vrf
import Verif.Lemmas.Batch

/-! # Invariants of the values handed out by the API, one function at a time -/

namespace Schnorrkel
open SigningTranscript Spec
variable {P : Type} [Ristretto P] {T E : Type}

theorem canonical_sign [SigningTranscript T] {sk : SecretKey} (t : T) (pk : PublicKey P)
    (sys : Rng) : (sk.sign t pk sys).1.s.Canonical :=
  Scalar.canonical_add (Scalar.canonical_mul _ _) (canonical_witness _ _ _ _)

theorem ok_of_bind {ε α β : Type} {x : Except ε α} {f : α → Except ε β} {b : β} (h : (x >>= f) = .ok b) :
    ∃ a, x = .ok a ∧ f a = .ok b := by
  cases x with
  | error e => cases h
  | ok a => exact ⟨a, rfl, h⟩

theorem outcome_ok_of_bind {α β : Type} {x : Outcome α} {f : α → Outcome β} {b : β} (h : (x >>= f) = .ok b) :
    ∃ a, x = .ok a ∧ f a = .ok b := by
  cases x with
  | err e => cases h
  | panic e => cases h
  | ok a => exact ⟨a, rfl, h⟩

theorem outcome_ofExcept_ok {α : Type} {x : SignatureResult α} {a : α} (h : Outcome.ofExcept x = .ok a) :
    x = .ok a := by
  cases x with
  | error e => cases h
  | ok b => cases h; rfl

/-- Whatever the doublecheck variants return was decoded by `Signature::from_bytes`. -/
theorem doublecheck_canonical {α : Type} {b : Bytes} {pk : SignatureResult α} {v : α → Signature → SignatureResult Unit}
    {s : Signature}
    (h : (do let sig ← Signature.fromBytes b; let p ← pk; let () ← v p sig; .ok sig : SignatureResult Signature) = .ok s) :
    s.s.Canonical := by
  obtain ⟨sig, h1, h⟩ := ok_of_bind h
  obtain ⟨p, h2, h⟩ := ok_of_bind h
  obtain ⟨u, h3, h⟩ := ok_of_bind h
  cases h
  exact (Signature.fromBytes_eq_ok.mp h1).2

theorem canonical_deriveSecretKey [SigningTranscript T] {kp : Keypair P} (h : kp.secret.key.Canonical) (t : T)
    (cc : ChainCode) (sys : Rng) : (kp.deriveSecretKey t cc sys).1.key.Canonical :=
  Scalar.canonical_add h (canonical_challenge _ _)

theorem canonical_acceptAdaptorCert [SigningTranscript T] {pk : PublicKey P} {t : T} {seed : SecretKey} {cert sys out}
    (hs : seed.key.Canonical) (h : (PublicKey.acceptAdaptorCert pk t seed cert sys).1 = .ok out) :
    out.2.key.Canonical := by
  unfold PublicKey.acceptAdaptorCert PublicKey.acceptAdaptorCertT at h
  simp only at h
  split at h
  · cases h
  · rename_i s hsc
    cases h
    exact Scalar.canonical_add (Scalar.fromCanonicalBytes_eq_some.mp hsc).2 hs

theorem canonical_issueSelf [SigningTranscript T] {kp : Keypair P} {t : T} {sys out}
    (h : (kp.issueSelfAdaptorCert t sys).1 = .ok out) : out.2.key.Canonical := by
  unfold Keypair.issueSelfAdaptorCert at h
  simp only at h
  split at h
  · rename_i r sys' he
    cases h
    refine canonical_acceptAdaptorCert (seed := _) ?_ (congrArg Prod.fst he)
    exact Scalar.canonical_wide _
  · cases h

/-- Every key and scalar of a session map is in order. -/
def SoundMap (m : BMap P (CoR P)) : Prop :=
  ∀ e ∈ m, e.1.WF ∧ ∀ s ∈ corScalars e.2, s.Canonical

theorem SoundMap.set {m : BMap P (CoR P)} (h : SoundMap m) {k : PublicKey P} (hk : k.WF) {v : CoR P}
    (hv : ∀ s ∈ corScalars v, s.Canonical) : SoundMap (m.set k v) := by
  induction m with
  | nil => rintro e he; simp only [BMap.set, List.mem_singleton] at he; subst he; exact ⟨hk, hv⟩
  | cons x m ih =>
    obtain ⟨k', w⟩ := x
    have h0 := h (k', w) (by simp)
    have hm : SoundMap m := fun e he => h e (by simp [he])
    intro e he
    simp only [BMap.set] at he
    split at he
    · rcases List.mem_cons.mp he with rfl | he
      · exact ⟨h0.1, hv⟩
      · exact hm e he
    · rcases List.mem_cons.mp he with rfl | he
      · exact ⟨hk, hv⟩
      · exact h e he
    · rcases List.mem_cons.mp he with rfl | he
      · exact h0
      · exact ih hm e he

theorem SoundMap.get {m : BMap P (CoR P)} (h : SoundMap m) {k : PublicKey P} {v : CoR P} (hv : m.get? k = some v) :
    ∀ s ∈ corScalars v, s.Canonical := by
  obtain ⟨k', hm, _⟩ := BMap.mem_of_get? hv
  exact (h _ hm).2

theorem setRevealed_sound [Oracles] {o : CoR P} (h : ∀ s ∈ corScalars o, s.Canonical) (r : Reveal) :
    ∀ s ∈ corScalars (o.setRevealed r).2, s.Canonical := by
  unfold CoR.setRevealed
  split
  · exact h
  · split
    · exact h
    · exact h
    · cases o with
      | commit c => simp only []; split <;> simp [corScalars]
      | reveal c => simp only []; split <;> simp [corScalars]
      | cosigned s => exact h
      | collect r s => exact h

theorem setCosigned_sound {o : CoR P} (h : ∀ s ∈ corScalars o, s.Canonical) {s : Scalar} (hs : s.Canonical) :
    ∀ x ∈ corScalars (o.setCosigned s).2, x.Canonical := by
  unfold CoR.setCosigned
  cases o with
  | commit c => simp [corScalars]
  | reveal c => simp [corScalars, hs]
  | cosigned s => simp only []; split <;> exact h
  | collect r s => exact h

theorem addTheirCommitment_sound {m : MuSig P T (CommitStage P)} (h : SoundMap m.Rs) {k : PublicKey P} (hk : k.WF)
    (c : Commitment) : SoundMap (m.addTheirCommitment k c).2.Rs := by
  rw [addTheirCommitment_spec]
  split
  · exact h.set hk (by simp [corScalars])
  · split <;> exact h

theorem addTheirReveal_sound [Oracles] {m : MuSig P T (RevealStage P)} (h : SoundMap m.Rs) {k : PublicKey P} (hk : k.WF)
    (r : Reveal) : SoundMap (m.addTheirReveal k r).2.Rs := by
  unfold MuSig.addTheirReveal
  split
  · exact h
  · rename_i o ho
    exact h.set hk (setRevealed_sound (h.get ho) r)

theorem addTrusted_sound {m : MuSig P T (RevealStage P)} (h : SoundMap m.Rs) {k : PublicKey P} (hk : k.WF)
    (r : Reveal) : SoundMap (m.addTrusted k r).2.Rs := by
  unfold MuSig.addTrusted
  split
  · exact h
  · exact h
  · simp only []
    split
    · exact h.set hk (by simp [corScalars])
    · split <;> exact h

theorem addTheirCosignature_sound {m : MuSig P T CosignStage} (h : SoundMap m.Rs) {k : PublicKey P} (hk : k.WF)
    (c : Cosignature) : SoundMap (m.addTheirCosignature k c).2.Rs := by
  unfold MuSig.addTheirCosignature
  split
  · exact h
  · rename_i s hs
    split
    · exact h
    · rename_i o ho
      exact h.set hk (setCosigned_sound (h.get ho) (Scalar.fromCanonicalBytes_eq_some.mp hs).2)

theorem collectAdd_sound {m : MuSig P T CollectStage} (h : SoundMap m.Rs) {k : PublicKey P} (hk : k.WF)
    (r : Reveal) (c : Cosignature) : SoundMap (m.add k r c).2.Rs := by
  unfold MuSig.add
  split
  · exact h
  · exact h
  · split
    · exact h
    · rename_i s hs
      simp only []
      split
      · exact h.set hk (by simpa [corScalars] using (Scalar.fromCanonicalBytes_eq_some.mp hs).2)
      · split <;> exact h

theorem drawNonces_canonical [SigningTranscript T] (t : T) (nonce : Arr 32) (sys : Rng) :
    ∀ s ∈ (MuSig.drawNonces t nonce sys).1.1, s.Canonical := by
  intro s hs
  simp only [MuSig.drawNonces, List.mem_cons, List.not_mem_nil, or_false] at hs
  rcases hs with rfl | rfl | rfl <;> exact canonical_witness _ _ _ _

theorem cosignStage_sound [Oracles] [SigningTranscript T] {m : MuSig P T (RevealStage P)} {m' : MuSig P T CosignStage}
    (h : SoundMap m.Rs) (hk : m.stage.keypair.pub.WF) (hm : m.cosignStage = .ok m') :
    m'.stage.sMe.Canonical ∧ SoundMap m'.Rs := by
  unfold MuSig.cosignStage at hm
  simp only at hm
  obtain ⟨rw, _, hm⟩ := outcome_ok_of_bind hm
  obtain ⟨R, _, hm⟩ := outcome_ok_of_bind hm
  have key : ∀ (l : List Scalar) (a b : Scalar), (∀ s ∈ l, s.Canonical) → (Scalar.sum l + a * b).Canonical :=
    fun l a b hl => Scalar.canonical_add (Scalar.canonical_sum hl) (Scalar.canonical_mul _ _)
  split at hm
  · cases hm
  · cases hm
    have hc : ∀ (l : List (Scalar × Scalar)) (a b : Scalar), (Scalar.sum (l.map fun (y, x) => x * y) + a * b).Canonical := by
      intro l a b
      apply key
      intro s hs
      obtain ⟨x, _, rfl⟩ := List.mem_map.mp hs
      exact Scalar.canonical_mul _ _
    refine ⟨hc _ _ _, h.set hk ?_⟩
    simp only [corScalars, List.mem_singleton, forall_eq]
    exact hc _ _ _

theorem sharesGo_canonical {m : BMap P (CoR P)} (h : SoundMap m) {ss : List Scalar} (hs : MuSig.sharesGo m = .ok ss) :
    ∀ s ∈ ss, s.Canonical := by
  induction m generalizing ss with
  | nil => cases hs; simp
  | cons e m ih =>
    obtain ⟨k, v⟩ := e
    have hm : SoundMap m := fun e he => h e (by simp [he])
    have h0 := (h (k, v) (by simp)).2
    cases v with
    | commit c => exact ih hm hs
    | reveal p => cases hs
    | collect p s => cases hs
    | cosigned s =>
      simp only [MuSig.sharesGo] at hs
      obtain ⟨l, hl, hs⟩ := outcome_ok_of_bind hs
      cases hs
      intro x hx
      rcases List.mem_cons.mp hx with rfl | hx
      · exact h0 _ (by simp [corScalars])
      · exact ih hm hl x hx

theorem collectSharesGo_canonical {m : BMap P (CoR P)} (h : SoundMap m) {ss : List Scalar}
    (hs : MuSig.collectSharesGo m = .ok ss) : ∀ s ∈ ss, s.Canonical := by
  induction m generalizing ss with
  | nil => cases hs; simp
  | cons e m ih =>
    obtain ⟨k, v⟩ := e
    have hm : SoundMap m := fun e he => h e (by simp [he])
    have h0 := (h (k, v) (by simp)).2
    cases v with
    | commit c => cases hs
    | reveal p => cases hs
    | cosigned s => cases hs
    | collect p s =>
      simp only [MuSig.collectSharesGo] at hs
      obtain ⟨l, hl, hs⟩ := outcome_ok_of_bind hs
      cases hs
      intro x hx
      rcases List.mem_cons.mp hx with rfl | hx
      · exact h0 _ (by simp [corScalars])
      · exact ih hm hl x hx

theorem sign_canonical {m : MuSig P T CosignStage} (h : SoundMap m.Rs) {s : Signature} (hs : m.sign = .ok (some s)) :
    s.s.Canonical := by
  unfold MuSig.sign at hs
  obtain ⟨u, _, hs⟩ := outcome_ok_of_bind hs
  split at hs
  · cases hs
  · obtain ⟨ss, h1, hs⟩ := outcome_ok_of_bind hs
    cases hs
    exact Scalar.canonical_sum (sharesGo_canonical h h1)

theorem signature_canonical [Oracles] [SigningTranscript T] {m : MuSig P T CollectStage} (h : SoundMap m.Rs)
    {s : Signature} (hs : m.signature = .ok s) : s.s.Canonical := by
  unfold MuSig.signature at hs
  simp only at hs
  obtain ⟨_, _, hs⟩ := outcome_ok_of_bind hs
  obtain ⟨_, _, hs⟩ := outcome_ok_of_bind hs
  obtain ⟨ss, h1, hs⟩ := outcome_ok_of_bind hs
  cases hs
  exact Scalar.canonical_sum (collectSharesGo_canonical h h1)

theorem publicKeys_mem {S : Type} {m : MuSig P T S} {b : Bool} {k : PublicKey P} (h : k ∈ m.publicKeys b) :
    ∃ v, (k, v) ∈ m.Rs := by
  unfold MuSig.publicKeys at h
  obtain ⟨e, he, h2⟩ := List.mem_filterMap.mp h
  obtain ⟨k', v⟩ := e
  cases v with
  | commit c => cases b <;> simp at h2; subst h2; exact ⟨_, he⟩
  | reveal c => simp at h2; subst h2; exact ⟨_, he⟩
  | cosigned c => simp at h2; subst h2; exact ⟨_, he⟩
  | collect p c => simp at h2; subst h2; exact ⟨_, he⟩

end Schnorrkel
