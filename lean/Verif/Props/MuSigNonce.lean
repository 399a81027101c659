import Verif.Props.MuSigRun

/-! # C50: where MuSig nonces come from, and what their reuse gives away -/

namespace Schnorrkel.Props
open SigningTranscript Spec
variable {P : Type} [Ristretto P] {T T' : Type}

/-- Hash query behind the `i`-th nonce: transcript history, secret seed, index, and 32 fresh RNG bytes. -/
def musigNonceQuery (log : List MOp) (seed : Bytes) (i : Nat) (rng : Bytes) : List MOp :=
  log ++ [.rekey (b! "MuSigWitness") seed, .rekey (b! "MuSigWitness") (leBytes 8 i), .rngKey rng, .prf 64]

/-- **C50** On a merlin transcript the points a session commits to and reveals are `rᵢ·B`, where `rᵢ` is
the hash of the transcript before the session, the secret seed, the index and 32 RNG bytes each. -/
theorem musig_nonces_are_hashes [Oracles] (sk : SecretKey) (t : Transcript) (sys : Rng) :
    ((ownPoints (sk.toKeypair : Keypair P) t sys).pts.1) =
      [hashToZ (musigNonceQuery t.log sk.nonce.1 0 (sys.fill 32).1.1) • basepoint,
       hashToZ (musigNonceQuery t.log sk.nonce.1 1 ((sys.fill 32).2.fill 32).1.1) • basepoint,
       hashToZ (musigNonceQuery t.log sk.nonce.1 2 (((sys.fill 32).2.fill 32).2.fill 32).1.1) • basepoint] := by
  have key : ∀ (i : Nat) (sys : Rng), (witnessScalar t (b! "MuSigWitness") [sk.nonce.1, leBytes 8 i] sys).1.toZ =
      hashToZ (musigNonceQuery t.log sk.nonce.1 i (sys.fill 32).1.1) := by
    intro i sys
    unfold witnessScalar hashToZ musigNonceQuery
    rw [Scalar.toZ_wide]
    simp [SigningTranscript.witnessBytes, witnessBytesRng, Transcript.rekeyAll, Transcript.finalizeRng,
      Transcript.rngFill]
  unfold ownPoints MuSig.drawNonces
  simp only [List.map_cons, List.map_nil]
  rw [show (sk.toKeypair : Keypair P).secret.nonce.1 = sk.nonce.1 from rfl, key]
  have ht : ∀ i sys, (witnessScalar t (b! "MuSigWitness") [sk.nonce.1, leBytes 8 i] sys).2 =
      (t, (sys.fill 32).2) := by
    intro i sys; rfl
  simp only [ht, key]

/-- **C50** The queries for different transcripts, seeds, indices (below 2⁶⁴) or RNG bytes differ. -/
theorem musig_nonce_query_injective (l₁ l₂ : List MOp) (s₁ s₂ r₁ r₂ : Bytes) (i₁ i₂ : Nat)
    (h₁ : i₁ < 2 ^ 64) (h₂ : i₂ < 2 ^ 64) :
    musigNonceQuery l₁ s₁ i₁ r₁ = musigNonceQuery l₂ s₂ i₂ r₂ ↔ l₁ = l₂ ∧ s₁ = s₂ ∧ i₁ = i₂ ∧ r₁ = r₂ := by
  constructor
  · intro h
    unfold musigNonceQuery at h
    obtain ⟨h1, h2⟩ := List.append_inj' h rfl
    simp only [List.cons.injEq, MOp.rekey.injEq, MOp.rngKey.injEq, true_and, and_true] at h2
    refine ⟨h1, h2.1, ?_, h2.2.2⟩
    have := congrArg leNat h2.2.1
    rw [leNat_leBytes, leNat_leBytes, Nat.mod_eq_of_lt (by norm_num at h₁ ⊢; exact h₁),
      Nat.mod_eq_of_lt (by norm_num at h₂ ⊢; exact h₂)] at this
    exact this
  · rintro ⟨rfl, rfl, rfl, rfl⟩; rfl

/-- The public coefficients of our share: the three nonce coefficients, and challenge times weight. -/
def shareCoeffs [Oracles] [SigningTranscript T] (t : T) (V : View P) (pk : Compressed) : List Z :=
  nonceCoeffs t V pk ++ [musigChallenge t V * weight (V.keys.map (·.compressed.1)) pk.1]

/-- **C50** The nonces do not depend on the cosigners, on anything they send, or on later edits of the
transcript: sessions started with the same key, transcript and RNG answers use the same three nonces, and
their shares are then linear equations, with public coefficients, in the same four unknowns. Any public
linear combination of the equations that eliminates the nonces yields the secret key. -/
theorem musig_nonce_reuse_reveals_key [Oracles] [SigningTranscript T] (sk : SecretKey)
    (t : T) (sys : Rng) (hists : List (List (CommitCall P T) × List (RevealCall P T))) :
    ∃ (outs : List (List Z × Scalar)),
      List.Forall₂ (fun h o => ∃ m0 V, (session sk.toKeypair t sys h.1 h.2).cosignStage = .ok m0 ∧
        V.keys = (session sk.toKeypair t sys h.1 h.2).publicKeys true ∧
        (∀ e ∈ V, status sk.toKeypair t sys h.1 h.2 e.1.compressed = .revealed e.2) ∧
        m0.ourCosignature.bytes = o.2.bytes ∧
        o.1 = shareCoeffs (session sk.toKeypair t sys h.1 h.2).t V (sk.toPublic : PublicKey P).compressed) hists outs ∧
      ∀ ws : List Z,
        ((List.zipWith (fun w o => w * o.1.getD 0 0) ws outs).sum = 0 ∧
         (List.zipWith (fun w o => w * o.1.getD 1 0) ws outs).sum = 0 ∧
         (List.zipWith (fun w o => w * o.1.getD 2 0) ws outs).sum = 0 ∧
         (List.zipWith (fun w o => w * o.1.getD 3 0) ws outs).sum = 1) →
        sk.key.toZ = (List.zipWith (fun w o => w * o.2.toZ) ws outs).sum := by
  -- the nonces
  obtain ⟨r0, r1, r2, hr⟩ : ∃ r0 r1 r2 : Z, (MuSig.drawNonces t sk.nonce sys).1.1.map Scalar.toZ = [r0, r1, r2] :=
    ⟨_, _, _, rfl⟩
  have hone : ∀ h : List (CommitCall P T) × List (RevealCall P T), ∃ o : List Z × Scalar,
      (∃ m0 V, (session sk.toKeypair t sys h.1 h.2).cosignStage = .ok m0 ∧
        V.keys = (session sk.toKeypair t sys h.1 h.2).publicKeys true ∧
        (∀ e ∈ V, status sk.toKeypair t sys h.1 h.2 e.1.compressed = .revealed e.2) ∧
        m0.ourCosignature.bytes = o.2.bytes ∧
        o.1 = shareCoeffs (session sk.toKeypair t sys h.1 h.2).t V (sk.toPublic : PublicKey P).compressed) ∧
      o.2.toZ = o.1.getD 0 0 * r0 + o.1.getD 1 0 * r1 + o.1.getD 2 0 * r2 + o.1.getD 3 0 * sk.key.toZ := by
    intro h
    set m := session (sk.toKeypair : Keypair P) t sys h.1 h.2 with hm
    have hg : Good m := session_good _ t sys h.1 h.2
    obtain ⟨m0, s, h1, h2, h3, h4, _⟩ := cosign_run m hg
    have hstage : m.stage = ⟨sk.toKeypair, (MuSig.drawNonces t sk.nonce sys).1,
        (ownPoints (P := P) sk.toKeypair t sys).toReveal⟩ := session_stage _ t sys h.1 h.2
    refine ⟨(_, s), ⟨m0, viewOf m.Rs, h1, ?_, ?_, ?_, rfl⟩, ?_⟩
    · have hE' : ∀ e ∈ m.Rs, ∀ s, e.2 ≠ .cosigned s := by
        intro e he s h
        have := hg.early e he; rw [h] at this; exact this
      exact (publicKeys_true m hE').symm
    · intro e he
      obtain ⟨v, hv, hvr⟩ := BMap.mem_mapVal.mp (show (e.1, e.2) ∈ BMap.mapVal _ m.Rs from he)
      have hget := BMap.get?_of_mem hg.sorted hv
      have hearly := hg.early _ hv
      rw [hm, session_get] at hget
      cases hst : status (sk.toKeypair : Keypair P) t sys h.1 h.2 e.1.compressed with
      | absent => rw [hst] at hget; cases hget
      | committed c => rw [hst] at hget; cases hget; cases hvr
      | revealed p => rw [hst] at hget; cases hget; cases hvr; rfl
    · unfold MuSig.ourCosignature; rw [h2]
    · rw [hstage] at h4
      simp only at h4 ⊢
      rw [hr] at h4
      rw [h4]
      unfold nonceCoeffs
      simp only [List.zipWith_cons_cons, List.zipWith_nil_left, List.sum_cons, List.sum_nil, List.cons_append,
        List.nil_append, List.getD_cons_zero, List.getD_cons_succ]
      rw [show (sk.toKeypair : Keypair P).pub = sk.toPublic from rfl, show (sk.toKeypair : Keypair P).secret = sk from rfl]
      ring
  have hall : ∃ outs : List (List Z × Scalar),
      List.Forall₂ (fun h o => ∃ m0 V, (session sk.toKeypair t sys h.1 h.2).cosignStage = .ok m0 ∧
        V.keys = (session sk.toKeypair t sys h.1 h.2).publicKeys true ∧
        (∀ e ∈ V, status sk.toKeypair t sys h.1 h.2 e.1.compressed = .revealed e.2) ∧
        m0.ourCosignature.bytes = o.2.bytes ∧
        o.1 = shareCoeffs (session sk.toKeypair t sys h.1 h.2).t V (sk.toPublic : PublicKey P).compressed) hists outs ∧
      ∀ o ∈ outs, o.2.toZ = o.1.getD 0 0 * r0 + o.1.getD 1 0 * r1 + o.1.getD 2 0 * r2 + o.1.getD 3 0 * sk.key.toZ := by
    induction hists with
    | nil => exact ⟨[], .nil, by simp⟩
    | cons h hists ih =>
      obtain ⟨outs, h1, h2⟩ := ih
      obtain ⟨o, h3, h4⟩ := hone h
      refine ⟨o :: outs, .cons h3 h1, ?_⟩
      intro o' ho'
      rw [List.mem_cons] at ho'
      rcases ho' with rfl | ho'
      · exact h4
      · exact h2 _ ho'
  obtain ⟨outs, h1, h2⟩ := hall
  refine ⟨outs, h1, ?_⟩
  clear h1
  intro ws
  have key : ∀ ws : List Z, (List.zipWith (fun w o => w * o.2.toZ) ws outs).sum =
      (List.zipWith (fun w o => w * o.1.getD 0 0) ws outs).sum * r0 +
      (List.zipWith (fun w o => w * o.1.getD 1 0) ws outs).sum * r1 +
      (List.zipWith (fun w o => w * o.1.getD 2 0) ws outs).sum * r2 +
      (List.zipWith (fun w o => w * o.1.getD 3 0) ws outs).sum * sk.key.toZ := by
    induction outs with
    | nil => intro ws; simp
    | cons o outs ih =>
      intro ws
      cases ws with
      | nil => simp
      | cons w ws =>
        have ih := ih (fun o ho => h2 o (by simp [ho])) ws
        simp only [List.zipWith_cons_cons, List.sum_cons]
        rw [ih, h2 o (by simp)]
        ring
  rintro ⟨e0, e1, e2, e3⟩
  rw [key, e0, e1, e2, e3]
  ring

/-! ## Concrete case -/

private theorem view_eq {st : Compressed → Status P} : ∀ V V' : View P, V.keys = V'.keys →
    (∀ e ∈ V, st e.1.compressed = .revealed e.2) → (∀ e ∈ V', st e.1.compressed = .revealed e.2) → V = V'
  | [], [], _, _, _ => rfl
  | [], _ :: _, h, _, _ => by simp [View.keys] at h
  | _ :: _, [], h, _, _ => by simp [View.keys] at h
  | e :: V, e' :: V', h, h1, h2 => by
    simp only [View.keys, List.map_cons, List.cons.injEq] at h
    have a := h1 e List.mem_cons_self
    have b := h2 e' List.mem_cons_self
    rw [h.1, b] at a
    have : e = e' := Prod.ext h.1 (by injection a with a; exact a.symm)
    rw [this, view_eq V V' h.2 (fun x hx => h1 x (List.mem_cons_of_mem _ hx))
      (fun x hx => h2 x (List.mem_cons_of_mem _ hx))]

/-- The session of secret key 1 with a cosigner of secret key 2 whose first revealed point is `i`. -/
private def toyHist (i : Nat) : List (CommitCall Toy Transcript) × List (RevealCall Toy Transcript) :=
  ([], [.trusted (⟨⟨leArr 32 2⟩, zeros 32⟩ : SecretKey).toPublic ⟨leArr 96 (i + 5 * 256 ^ 32 + 7 * 256 ^ 64)⟩])

private def toyKey : SecretKey := ⟨⟨leArr 32 1⟩, zeros 32⟩
private def toyView (i : Nat) : View Toy :=
  letI := toyOracles
  viewOf (session (toyKey.toKeypair : Keypair Toy) (Transcript.new (b! "msg")) zeroRng (toyHist i).1 (toyHist i).2).Rs
private def toyCoeffs (i : Nat) : List Z :=
  letI := toyOracles
  shareCoeffs (session (toyKey.toKeypair : Keypair Toy) (Transcript.new (b! "msg")) zeroRng (toyHist i).1 (toyHist i).2).t
    (toyView i) (toyKey.toPublic : PublicKey Toy).compressed

private theorem toy_view (i : Nat) (hi : i = 1 ∨ i = 2 ∨ i = 3) : letI := toyOracles
    (toyView i).keys = (session (toyKey.toKeypair : Keypair Toy) (Transcript.new (b! "msg")) zeroRng (toyHist i).1
      (toyHist i).2).publicKeys true ∧
    ∀ e ∈ toyView i, status (toyKey.toKeypair : Keypair Toy) (Transcript.new (b! "msg")) zeroRng (toyHist i).1
      (toyHist i).2 e.1.compressed = .revealed e.2 := by
  letI := toyOracles
  constructor
  · refine (publicKeys_true _ fun e he s h => ?_).symm
    have := (session_good (toyKey.toKeypair : Keypair Toy) (Transcript.new (b! "msg")) zeroRng (toyHist i).1
      (toyHist i).2).early e he
    rw [h] at this; exact this
  · have h : (toyView i).all (fun e => decide (status (toyKey.toKeypair : Keypair Toy) (Transcript.new (b! "msg"))
        zeroRng (toyHist i).1 (toyHist i).2 e.1.compressed = .revealed e.2)) = true := by
      rcases hi with rfl | rfl | rfl <;> decide +kernel
    intro e he
    exact of_decide_eq_true (List.all_eq_true.mp h e he)

private theorem toy_coeffs (w : Z)
    (hw : w = 3140848845380617192471839935018725264560214240808880155229538891055540111757) (j : Fin 4) :
    w * (toyCoeffs 1).getD j 0 + (-2 * w * (toyCoeffs 2).getD j 0 + (w * (toyCoeffs 3).getD j 0 + 0)) =
      if j = 3 then 1 else 0 := by
  subst hw
  revert j
  decide +kernel

/-- Non-vacuity of `musig_nonce_reuse_reveals_key`: three sessions with secret key 1, one transcript, one RNG and one
cosigner, who reveals three different points; a public combination eliminates the nonces. -/
example : letI := toyOracles
    ∃ ws : List Z, ∀ outs : List (List Z × Scalar),
      List.Forall₂ (fun h o => ∃ V : View Toy,
        V.keys = (session (toyKey.toKeypair : Keypair Toy) (Transcript.new (b! "msg")) zeroRng h.1 h.2).publicKeys true ∧
        (∀ e ∈ V, status (toyKey.toKeypair : Keypair Toy) (Transcript.new (b! "msg")) zeroRng h.1 h.2 e.1.compressed =
          .revealed e.2) ∧
        o.1 = shareCoeffs (session (toyKey.toKeypair : Keypair Toy) (Transcript.new (b! "msg")) zeroRng h.1 h.2).t V
          (toyKey.toPublic : PublicKey Toy).compressed) [toyHist 1, toyHist 2, toyHist 3] outs →
      (List.zipWith (fun w o => w * o.1.getD 0 0) ws outs).sum = 0 ∧
      (List.zipWith (fun w o => w * o.1.getD 1 0) ws outs).sum = 0 ∧
      (List.zipWith (fun w o => w * o.1.getD 2 0) ws outs).sum = 0 ∧
      (List.zipWith (fun w o => w * o.1.getD 3 0) ws outs).sum = 1 := by
  letI := toyOracles
  obtain ⟨w, hw⟩ : ∃ w : Z, w = 3140848845380617192471839935018725264560214240808880155229538891055540111757 := ⟨_, rfl⟩
  refine ⟨[w, -2 * w, w], fun outs h => ?_⟩
  have hV : ∀ i, (i = 1 ∨ i = 2 ∨ i = 3) → ∀ o : List Z × Scalar, (∃ V : View Toy,
        V.keys = (session (toyKey.toKeypair : Keypair Toy) (Transcript.new (b! "msg")) zeroRng (toyHist i).1
          (toyHist i).2).publicKeys true ∧
        (∀ e ∈ V, status (toyKey.toKeypair : Keypair Toy) (Transcript.new (b! "msg")) zeroRng (toyHist i).1 (toyHist i).2
          e.1.compressed = .revealed e.2) ∧
        o.1 = shareCoeffs (session (toyKey.toKeypair : Keypair Toy) (Transcript.new (b! "msg")) zeroRng (toyHist i).1
          (toyHist i).2).t V (toyKey.toPublic : PublicKey Toy).compressed) → o.1 = toyCoeffs i := by
    rintro i hi o ⟨V, a, b, c⟩
    have hv := toy_view i hi
    rw [c, view_eq V (toyView i) (a.trans hv.1.symm) b hv.2]
    rfl
  cases h with
  | cons h1 h =>
    cases h with
    | cons h2 h =>
      cases h with
      | cons h3 h =>
        cases h
        have e1 := hV 1 (by simp) _ h1
        have e2 := hV 2 (by simp) _ h2
        have e3 := hV 3 (by simp) _ h3
        simp only [List.zipWith_cons_cons, List.zipWith_nil_left, List.sum_cons, List.sum_nil]
        rw [e1, e2, e3]
        exact ⟨toy_coeffs w hw 0, toy_coeffs w hw 1, toy_coeffs w hw 2, toy_coeffs w hw 3⟩

end Schnorrkel.Props
