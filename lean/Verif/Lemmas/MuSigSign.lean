import Verif.Lemmas.MuSig

/-! # Multi-signature sessions: aggregation, cosigning and the final sum -/

namespace Schnorrkel
open SigningTranscript Spec
variable {P : Type} [Ristretto P] {T T' : Type}

/-! ## Weights and aggregate keys -/

theorem commitPublicKeys_log [Oracles] (keys : List (PublicKey P)) :
    (commitPublicKeys keys).log = [.append (b! "dom-sep") (b! "MuSig-aggregate-public_key")] ++
      (keys.map (·.compressed.1)).map (.append (b! "pk-set")) := by
  unfold commitPublicKeys
  have : ∀ (ks : List (PublicKey P)) (t : Transcript),
      (ks.foldl (fun t pk => commitPoint t (b! "pk-set") pk.compressed) t).log =
        t.log ++ (ks.map (·.compressed.1)).map (.append (b! "pk-set")) := by
    intro ks
    induction ks with
    | nil => simp
    | cons k ks ih =>
      intro t
      rw [List.foldl_cons, ih]
      simp [commitPoint, commitBytes, Transcript.appendMessage]
  rw [this]
  rfl

theorem computeWeighting_toZ [Oracles] (keys : List (PublicKey P)) (pk : PublicKey P) :
    (computeWeighting (commitPublicKeys keys) pk).toZ =
      weight (keys.map (·.compressed.1)) pk.compressed.1 := by
  simp only [computeWeighting, challengeScalar, commitPoint, commitBytes, challengeBytes,
    Transcript.challengeBytes, Transcript.appendMessage, Scalar.toZ_wide, commitPublicKeys_log]
  unfold weight weightQuery hashToZ
  simp only [List.append_assoc, List.cons_append, List.nil_append]

theorem canonical_computeWeighting [Oracles] (t : Transcript) (pk : PublicKey P) :
    (computeWeighting t pk).Canonical := canonical_challenge _ _

theorem aggregatePoint_eq [Oracles] (keys : List (PublicKey P)) :
    aggregatePoint keys = PublicKey.fromPoint (aggregate keys) := by
  simp only [aggregatePoint, aggregate, mulPoint_eq, computeWeighting_toZ]

/-! ## Views -/

/-- The points an entry reveals. -/
def CoR.revealed : CoR P → Option (RevealedPoints P)
  | .reveal p => some p
  | .collect p _ => some p
  | _ => none

/-- The participants of a session: keys with revealed points. -/
def viewOf (m : BMap P (CoR P)) : View P := BMap.mapVal CoR.revealed m

/-- Entries before cosigning. -/
def CoR.isEarly : CoR P → Prop
  | .commit _ => True
  | .reveal _ => True
  | _ => False

theorem CoR.isEarly_iff (v : CoR P) : v.isEarly ↔ ∃ s, CoR.ofStatus s = some v := by
  cases v with
  | commit c => exact ⟨fun _ => ⟨.committed c, rfl⟩, fun _ => trivial⟩
  | reveal p => exact ⟨fun _ => ⟨.revealed p, rfl⟩, fun _ => trivial⟩
  | cosigned s => constructor
                  · rintro ⟨⟩
                  · rintro ⟨s, h⟩; cases s <;> simp [CoR.ofStatus] at h
  | collect p s => constructor
                   · rintro ⟨⟩
                   · rintro ⟨s, h⟩; cases s <;> simp [CoR.ofStatus] at h

theorem iterRsGo_ok (m : BMap P (CoR P)) (h : ∀ e ∈ m, ∀ s, e.2 ≠ .cosigned s) :
    MuSig.iterRsGo m = .ok (viewOf m) := by
  induction m with
  | nil => rfl
  | cons e m ih =>
    obtain ⟨k, v⟩ := e
    have ih := ih (fun e he => h e (by simp [he]))
    cases v with
    | commit c => simp only [MuSig.iterRsGo, ih]; rfl
    | reveal p => simp only [MuSig.iterRsGo, ih]; rfl
    | cosigned s => exact absurd rfl (h (k, .cosigned s) (by simp) s)
    | collect p s => simp only [MuSig.iterRsGo, ih]; rfl

theorem publicKeys_true {S : Type} (m : MuSig P T S) (h : ∀ e ∈ m.Rs, ∀ s, e.2 ≠ .cosigned s) :
    m.publicKeys true = (viewOf m.Rs).keys := by
  unfold MuSig.publicKeys viewOf View.keys BMap.mapVal
  rw [List.map_filterMap]
  apply List.filterMap_congr
  intro e he
  obtain ⟨k, v⟩ := e
  cases v with
  | commit c => rfl
  | reveal p => rfl
  | cosigned s => exact absurd rfl (h _ he s)
  | collect p s => rfl

/-! ## Nonce coefficients -/

section
variable [SigningTranscript T] [SigningTranscript T']

theorem commitFrames_append (t : T) (a b : List (Bytes × Bytes)) :
    commitFrames t (a ++ b) = commitFrames (commitFrames t a) b := List.foldl_append

theorem rewinderTranscript_eq (t : T) (V : View P) :
    MuSig.rewinderTranscript t V = commitFrames t (V.flatMap fun e =>
      (b! "pk-set", e.1.compressed.1) :: e.2.pts.1.map fun p => (b! "R", (compress p).1)) := by
  unfold MuSig.rewinderTranscript
  induction V generalizing t with
  | nil => rfl
  | cons e V ih =>
    rw [List.foldl_cons, List.flatMap_cons, commitFrames_append, ih]
    congr 1
    unfold commitFrames
    rw [List.foldl_cons, List.foldl_map]
    rfl

theorem rewindsOf_toZ [Oracles] (t : T) (V : View P) (pk : PublicKey P) :
    (MuSig.rewindsOf (MuSig.rewinderTranscript (commitPoint (protoName t (b! "Schnorr-sig"))
      (b! "sign:pk") (compress (aggregate V.keys))) V) pk).1.map Scalar.toZ = nonceCoeffs t V pk.compressed := by
  rw [rewinderTranscript_eq]
  unfold nonceCoeffs coeffFrames
  rw [commitFrames_append, commitFrames_append]
  rfl

theorem canonical_rewindsOf (t : T) (pk : PublicKey P) : ∀ s ∈ (MuSig.rewindsOf t pk).1, s.Canonical := by
  intro s hs
  simp only [MuSig.rewindsOf, List.mem_cons, List.not_mem_nil, or_false] at hs
  rcases hs with rfl | rfl | rfl <;> exact canonical_challenge _ _

theorem multiscalar_zipWith (ss : List Scalar) (ps : List P) :
    multiscalar (ss.zip ps) = (List.zipWith (· • ·) (ss.map Scalar.toZ) ps).sum := by
  unfold multiscalar
  rw [List.zip, List.map_zipWith, List.zipWith_map_left]
  simp only [mulPoint_eq]

theorem TSim.commitFrames {R : T → T' → Prop} (hR : TSim R) {a : T} {b : T'} (h : R a b)
    (fs : List (Bytes × Bytes)) : R (Spec.commitFrames a fs) (Spec.commitFrames b fs) := by
  unfold Spec.commitFrames
  induction fs generalizing a b with
  | nil => exact h
  | cons f fs ih => exact ih (hR.commit _ _ _ _ h)

theorem nonceCoeffs_sim [Oracles] {R : T → T' → Prop} (hR : TSim R) {a : T} {b : T'} (h : R a b) (V : View P)
    (pk : Compressed) : nonceCoeffs a V pk = nonceCoeffs b V pk := by
  have h0 := hR.commitFrames h (coeffFrames (aggregate V.keys) V pk)
  have h1 := hR.challengeScalar_rel (b! "R") h0
  have h2 := hR.challengeScalar_rel (b! "R") h1
  unfold nonceCoeffs
  simp only [hR.challengeScalar_eq (b! "R") h0, hR.challengeScalar_eq (b! "R") h1,
    hR.challengeScalar_eq (b! "R") h2]

theorem noncePoint_sim [Oracles] {R : T → T' → Prop} (hR : TSim R) {a : T} {b : T'} (h : R a b) (V : View P)
    (pk : Compressed) (r : RevealedPoints P) : noncePoint a V pk r = noncePoint b V pk r := by
  unfold noncePoint; rw [nonceCoeffs_sim hR h]

theorem musigR_sim [Oracles] {R : T → T' → Prop} (hR : TSim R) {a : T} {b : T'} (h : R a b) (V : View P) :
    musigR a V = musigR b V := by
  unfold musigR; simp only [noncePoint_sim hR h]

theorem sigChallenge_sim {R : T → T' → Prop} (hR : TSim R) {a : T} {b : T'} (h : R a b) (pk c : Compressed) :
    sigChallenge a pk c = sigChallenge b pk c := by
  unfold sigChallenge preChallenge
  rw [hR.challengeScalar_eq (b! "sign:c") (hR.point _ _ (hR.point _ _ (hR.proto _ h)))]

theorem musigChallenge_sim [Oracles] {R : T → T' → Prop} (hR : TSim R) {a : T} {b : T'} (h : R a b) (V : View P) :
    musigChallenge a V = musigChallenge b V := by
  unfold musigChallenge; rw [musigR_sim hR h, sigChallenge_sim hR h]

theorem sharePoint_sim [Oracles] {R : T → T' → Prop} (hR : TSim R) {a : T} {b : T'} (h : R a b) (V : View P)
    (e : PublicKey P × RevealedPoints P) : sharePoint a V e = sharePoint b V e := by
  unfold sharePoint; rw [musigChallenge_sim hR h, noncePoint_sim hR h]

/-- The shares' public points add up to the right-hand side of the verification equation. -/
theorem sum_sharePoint [Oracles] (t : T) (V : View P) :
    (V.map (sharePoint t V)).sum = musigR t V + musigChallenge t V • aggregate V.keys := by
  have h1 : aggregate V.keys = (V.map fun e => weight (V.keys.map (·.compressed.1)) e.1.compressed.1 • e.1.point).sum := by
    unfold aggregate
    conv_lhs => enter [1, 2]; unfold View.keys
    rw [List.map_map]; rfl
  rw [h1]
  unfold musigR sharePoint
  generalize musigChallenge t V = c
  have : ∀ (L : View P) (f g : PublicKey P × RevealedPoints P → P) (w : PublicKey P × RevealedPoints P → Z),
      (L.map fun e => f e + (c * w e) • g e).sum = (L.map f).sum + c • (L.map fun e => w e • g e).sum := by
    intro L f g w
    induction L with
    | nil => simp
    | cons e L ih => simp only [List.map_cons, List.sum_cons, ih]; module
  exact this V _ _ _

/-! ## Cosigning -/

/-- What a cosigner computes: everything is determined by the transcript and the view. -/
theorem cosignStage_spec [Oracles] (m : MuSig P T (RevealStage P)) (hE : ∀ e ∈ m.Rs, e.2.isEarly)
    (hme : m.Rs.get? m.stage.keypair.pub ≠ none) :
    ∃ (t' : T) (s : Scalar), m.cosignStage = .ok ⟨t', m.Rs.set m.stage.keypair.pub (.cosigned s),
        ⟨compress (musigR m.t (viewOf m.Rs)), s⟩⟩ ∧
      s.Canonical ∧
      s.toZ = (List.zipWith (· * ·) (nonceCoeffs m.t (viewOf m.Rs) m.stage.keypair.pub.compressed)
          (m.stage.rMe.1.map Scalar.toZ)).sum +
        musigChallenge m.t (viewOf m.Rs) * weight ((viewOf m.Rs).keys.map (·.compressed.1))
          m.stage.keypair.pub.compressed.1 * m.stage.keypair.secret.key.toZ := by
  set V := viewOf m.Rs with hV
  have hE' : ∀ e ∈ m.Rs, ∀ s, e.2 ≠ .cosigned s := by
    intro e he s h; have := hE e he; rw [h] at this; exact this
  obtain ⟨t, Rs, stage⟩ := m
  simp only at *
  set kp := stage.keypair with hkp
  set t1 := commitPoint (protoName t (b! "Schnorr-sig")) (b! "sign:pk") (compress (aggregate V.keys)) with ht1
  have hpk : (MuSig.publicKey (P := P) (T := T) (S := RevealStage P) ⟨protoName t (b! "Schnorr-sig"), Rs, stage⟩).compressed =
      compress (aggregate V.keys) := by
    unfold MuSig.publicKey MuSig.computePublicKey
    rw [publicKeys_true _ hE', aggregatePoint_eq]; rfl
  have hrew : ∀ t, (MuSig.rewinder (⟨t, Rs, stage⟩ : MuSig P T (RevealStage P))) =
      .ok (MuSig.rewindsOf (MuSig.rewinderTranscript t V)) := by
    intro t
    unfold MuSig.rewinder MuSig.iterRs
    rw [iterRsGo_ok _ hE']; rfl
  have hR : (MuSig.computeR (⟨t1, Rs, stage⟩ : MuSig P T (RevealStage P))
      (MuSig.rewindsOf (MuSig.rewinderTranscript t1 V))) = .ok (compress (musigR t V)) := by
    unfold MuSig.computeR MuSig.iterRs
    rw [iterRsGo_ok _ hE']
    simp only [Outcome.bind_ok, multiscalar_zipWith, ht1, rewindsOf_toZ]
    rfl
  obtain ⟨o, ho⟩ := Option.ne_none_iff_exists'.mp hme
  rw [hkp] at ho
  simp only [MuSig.cosignStage, hpk, hrew, ← ht1, Outcome.bind_ok, hR, ho]
  refine ⟨_, _, rfl, ?_, ?_⟩
  all_goals
    have hcan : ∀ s ∈ ((stage.rMe.1.zip (MuSig.rewindsOf (MuSig.rewinderTranscript t1 V) kp.pub).1).map
        fun (y, x) => x * y), s.Canonical := by
      intro s hs
      rw [List.mem_map] at hs
      obtain ⟨⟨a, b⟩, _, rfl⟩ := hs
      exact Scalar.canonical_mul _ _
  · exact Scalar.canonical_add (Scalar.canonical_sum hcan) (Scalar.canonical_mul _ _)
  · rw [Scalar.toZ_add (Scalar.canonical_sum hcan) (Scalar.canonical_mul _ _), Scalar.toZ_sum hcan,
      Scalar.toZ_mul, Scalar.toZ_mul, publicKeys_true _ hE', computeWeighting_toZ]
    congr 1
    rw [List.map_map, ← rewindsOf_toZ, ← ht1]
    generalize MuSig.rewindsOf (MuSig.rewinderTranscript t1 V) kp.pub = l
    rw [List.zipWith_map_left, List.zipWith_map_right, List.zip, List.map_zipWith, List.zipWith_comm]
    congr 2
    funext a b
    exact Scalar.toZ_mul _ _

/-- The share computed by an honest cosigner is valid. -/
theorem honest_share [Oracles] (t : T) (V : View P) (x : Z) (rs : List Z) (pk : PublicKey P)
    (own : RevealedPoints P) (hpk : pk.point = x • basepoint)
    (hown : own.pts.1 = rs.map fun r => r • basepoint) (s : Scalar)
    (hs : s.toZ = (List.zipWith (· * ·) (nonceCoeffs t V pk.compressed) rs).sum +
        musigChallenge t V * weight (V.keys.map (·.compressed.1)) pk.compressed.1 * x) :
    ValidShare t V (pk, own) s := by
  unfold ValidShare sharePoint noncePoint
  simp only
  rw [hs, hown, hpk, add_smul, smul_smul]
  congr 1
  generalize nonceCoeffs t V pk.compressed = cs
  rw [List.zipWith_map_right]
  clear hs hown
  induction cs generalizing rs with
  | nil => simp
  | cons c cs ih =>
    cases rs with
    | nil => simp
    | cons r rs => simp only [List.zipWith_cons_cons, List.sum_cons, add_smul, ih, smul_smul]

end

/-! ## Cosign stage -/

theorem addTheirCosignature_spec (m : MuSig P T CosignStage) (k : PublicKey P) (c : Cosignature) :
    m.addTheirCosignature k c = match Scalar.fromCanonicalBytes c.bytes with
      | none => (.err .scalarFormatError, m)
      | some s => match m.Rs.get? k with
        | none => (.err (.muSigAbsent .reveal), m)
        | some (.commit _) => (.err (.muSigAbsent .reveal), m)
        | some (.reveal _) => (.ok (), { m with Rs := m.Rs.set k (.cosigned s) })
        | some (.cosigned s') => if s' = s then (.ok (), m) else (.err (.muSigInconsistent .cosignature true), m)
        | some (.collect _ _) => (.panic "Internal error, set_cosigned during collection phase.", m) := by
  unfold MuSig.addTheirCosignature
  rw [scalarFromCanonicalBytes_eq']
  cases Scalar.fromCanonicalBytes c.bytes with
  | none => rfl
  | some s =>
    simp only []
    cases h : m.Rs.get? k with
    | none => rfl
    | some o =>
      have hset := BMap.set_get? h
      cases o with
      | commit c => simp [CoR.setCosigned, hset]
      | reveal p => simp [CoR.setCosigned]
      | cosigned s' =>
        simp only [CoR.setCosigned]
        split <;> simp [hset]
      | collect p s' => simp [CoR.setCosigned, hset]

/-- The entry of `e` after a history of the cosign stage. -/
def cosignEntry (cs : List (CosignCall P)) (e : PublicKey P × CoR P) : CoR P :=
  match e.2 with
  | .reveal p => match firstShare cs e.1.compressed with
    | some s => .cosigned s
    | none => .reveal p
  | o => o

omit [Ristretto P] in
theorem firstShare_cons (c : CosignCall P) (cs : List (CosignCall P)) (k : Compressed) :
    firstShare (c :: cs) k = (if c.them.compressed = k then Scalar.fromCanonicalBytes c.share.bytes else none).or
      (firstShare cs k) := by
  unfold firstShare
  rw [List.findSome?_cons]
  split <;> simp_all

theorem runCosign_map (cs : List (CosignCall P)) (m : MuSig P T CosignStage) (hm : m.Rs.Sorted)
    (hC : ∀ e ∈ m.Rs, ∀ p s, e.2 ≠ .collect p s) :
    (runCosign m cs).2.Rs = m.Rs.map (fun e => (e.1, cosignEntry cs e)) ∧
    (runCosign m cs).2.stage = m.stage ∧ ∀ r ∈ (runCosign m cs).1, r.isPanic = false := by
  induction cs generalizing m with
  | nil =>
    refine ⟨?_, rfl, by simp [runCosign]⟩
    simp only [runCosign]
    conv_lhs => rw [← List.map_id m.Rs]
    apply List.map_congr_left
    rintro ⟨k, v⟩ _
    cases v <;> rfl
  | cons c cs ih =>
    have skip : (∀ e ∈ m.Rs, cosignEntry (c :: cs) e = cosignEntry cs e) →
        m.Rs.map (fun e => (e.1, cosignEntry cs e)) = m.Rs.map (fun e => (e.1, cosignEntry (c :: cs) e)) := by
      intro h
      apply List.map_congr_left
      intro e he; rw [h e he]
    simp only [runCosign]
    rw [addTheirCosignature_spec]
    cases hs : Scalar.fromCanonicalBytes c.share.bytes with
    | none =>
      obtain ⟨h1, h2, h3⟩ := ih m hm hC
      refine ⟨?_, h2, ?_⟩
      · rw [h1]
        apply skip
        rintro ⟨k, v⟩ _
        cases v <;> simp [cosignEntry, firstShare_cons, hs]
      · simpa [Outcome.isPanic] using h3
    | some s =>
      simp only []
      -- the case where nothing changes
      have same : (∀ e ∈ m.Rs, e.1.compressed = c.them.compressed → ∀ p, e.2 ≠ .reveal p) →
          m.Rs.map (fun e => (e.1, cosignEntry cs e)) = m.Rs.map (fun e => (e.1, cosignEntry (c :: cs) e)) := by
        intro h
        apply skip
        rintro ⟨k, v⟩ he
        cases v with
        | reveal p =>
          have : ¬ c.them.compressed = k.compressed := fun hh => h _ he hh.symm p rfl
          simp [cosignEntry, firstShare_cons, this]
        | _ => rfl
      cases hg : m.Rs.get? c.them with
      | none =>
        obtain ⟨h1, h2, h3⟩ := ih m hm hC
        refine ⟨?_, h2, by simpa [Outcome.isPanic] using h3⟩
        simp only []
        rw [h1]
        apply same
        intro e he hk
        have := BMap.get?_of_mem hm (k := e.1) (v := e.2) he
        rw [BMap.get?_congr _ hk, hg] at this; cases this
      | some o =>
        have hval : ∀ e ∈ m.Rs, e.1.compressed = c.them.compressed → e.2 = o := by
          intro e he hk
          have := BMap.get?_of_mem hm (k := e.1) (v := e.2) he
          rw [BMap.get?_congr _ hk, hg] at this
          exact (Option.some.inj this).symm
        cases o with
        | commit c' =>
          obtain ⟨h1, h2, h3⟩ := ih m hm hC
          refine ⟨?_, h2, by simpa [Outcome.isPanic] using h3⟩
          simp only []
          rw [h1]
          apply same
          intro e he hk p hp; rw [hval e he hk] at hp; cases hp
        | cosigned s' =>
          obtain ⟨h1, h2, h3⟩ := ih m hm hC
          have hr : ∀ (x : Outcome Unit × MuSig P T CosignStage), (x = (.ok (), m) ∨ x = (.err (.muSigInconsistent .cosignature true), m)) →
              (runCosign x.2 cs).2.Rs = m.Rs.map (fun e => (e.1, cosignEntry (c :: cs) e)) ∧
              (runCosign x.2 cs).2.stage = m.stage ∧
              ∀ r ∈ x.1 :: (runCosign x.2 cs).1, r.isPanic = false := by
            rintro x (rfl | rfl)
            all_goals
              refine ⟨?_, h2, by simpa [Outcome.isPanic] using h3⟩
              simp only []
              rw [h1]
              apply same
              intro e he hk p hp; rw [hval e he hk] at hp; cases hp
          simp only []
          apply hr
          split
          · left; rfl
          · right; rfl
        | collect p s' =>
          obtain ⟨k, h1, _⟩ := BMap.mem_of_get? hg
          exact absurd rfl (hC _ h1 p s')
        | reveal p =>
          simp only []
          have hsorted := BMap.sorted_set hm c.them (.cosigned s)
          have hset := BMap.set_eq_map hm (x := c.them) (by rw [hg]; simp) (.cosigned s)
          have hC' : ∀ e ∈ m.Rs.set c.them (.cosigned s), ∀ p s, e.2 ≠ .collect p s := by
            rw [hset]
            intro e he p' s'
            rw [List.mem_map] at he
            obtain ⟨e', he', rfl⟩ := he
            simp only []
            split
            · simp
            · exact hC e' he' p' s'
          obtain ⟨h1, h2, h3⟩ := ih { m with Rs := m.Rs.set c.them (.cosigned s) } hsorted hC'
          refine ⟨?_, h2, by simpa [Outcome.isPanic] using h3⟩
          rw [h1]
          simp only [hset, List.map_map]
          apply List.map_congr_left
          rintro ⟨k, v⟩ he
          simp only [Function.comp]
          by_cases hk : k.compressed = c.them.compressed
          · have hv := hval _ he hk
            simp only at hv
            subst hv
            simp [cosignEntry, firstShare_cons, hk, hs]
          · have hk' : ¬ c.them.compressed = k.compressed := fun h => hk h.symm
            cases v <;> simp [cosignEntry, firstShare_cons, hk, hk']

/-- Late entries. -/
theorem uncosignedGo_ok (m : BMap P (CoR P)) (h : ∀ e ∈ m, ∀ p s, e.2 ≠ .collect p s) :
    MuSig.uncosignedGo m = .ok (m.filterMap fun e => match e.2 with | .reveal _ => some e.1 | _ => none) := by
  induction m with
  | nil => rfl
  | cons e m ih =>
    obtain ⟨k, v⟩ := e
    have ih := ih (fun e he => h e (by simp [he]))
    cases v with
    | commit c => simp only [MuSig.uncosignedGo, ih]; rfl
    | reveal p => simp only [MuSig.uncosignedGo, ih]; rfl
    | cosigned s => simp only [MuSig.uncosignedGo, ih]; rfl
    | collect p s => exact absurd rfl (h (k, .collect p s) (by simp) p s)

theorem cosignedGo_ok (m : BMap P (CoR P)) (h : ∀ e ∈ m, ∀ p s, e.2 ≠ .collect p s) :
    MuSig.cosignedGo m = .ok (m.filterMap fun e => match e.2 with | .cosigned _ => some e.1 | _ => none) := by
  induction m with
  | nil => rfl
  | cons e m ih =>
    obtain ⟨k, v⟩ := e
    have ih := ih (fun e he => h e (by simp [he]))
    cases v with
    | commit c => simp only [MuSig.cosignedGo, ih]; rfl
    | reveal p => simp only [MuSig.cosignedGo, ih]; rfl
    | cosigned s => simp only [MuSig.cosignedGo, ih]; rfl
    | collect p s => exact absurd rfl (h (k, .collect p s) (by simp) p s)

theorem sharesGo_ok (m : BMap P (CoR P)) (h : ∀ e ∈ m, ∀ p s, e.2 ≠ .collect p s)
    (h' : ∀ e ∈ m, ∀ p, e.2 ≠ .reveal p) :
    MuSig.sharesGo m = .ok (m.filterMap fun e => match e.2 with | .cosigned s => some s | _ => none) := by
  induction m with
  | nil => rfl
  | cons e m ih =>
    obtain ⟨k, v⟩ := e
    have ih := ih (fun e he => h e (by simp [he])) (fun e he => h' e (by simp [he]))
    cases v with
    | commit c => simp only [MuSig.sharesGo, ih]; rfl
    | reveal p => exact absurd rfl (h' (k, .reveal p) (by simp) p)
    | cosigned s => simp only [MuSig.sharesGo, ih]; rfl
    | collect p s => exact absurd rfl (h (k, .collect p s) (by simp) p s)

theorem BMap.get?_mapKV {V W : Type} (g : Compressed → V → W) (m : BMap P V) (x : PublicKey P) :
    BMap.get? (m.map fun e => (e.1, g e.1.compressed e.2)) x = (m.get? x).map (g x.compressed) := by
  induction m with
  | nil => rfl
  | cons e m ih =>
    obtain ⟨k, v⟩ := e
    simp only [List.map_cons, BMap.get?]
    cases h : RistrettoBoth.cmp x k with
    | lt => rfl
    | eq => rw [(cmp_eq_iff _ _).mp h]; rfl
    | gt => exact ih

/-- The entry of a key after cosigning. -/
def lateEntry (me : Compressed) (sMe : Scalar) (cs : List (CosignCall P)) (k : Compressed) (o : CoR P) : CoR P :=
  if k = me then .cosigned sMe
  else match o with
    | .reveal p => match firstShare cs k with
      | some s => .cosigned s
      | none => .reveal p
    | o => o

theorem lateEntry_ne_collect {me : Compressed} {sMe : Scalar} {cs : List (CosignCall P)} {k : Compressed}
    {o : CoR P} (h : o.isEarly) (p : RevealedPoints P) (s : Scalar) : lateEntry me sMe cs k o ≠ .collect p s := by
  unfold lateEntry
  split
  · simp
  · cases o with
    | commit c => simp
    | reveal q => simp only []; split <;> simp
    | cosigned s => exact absurd h id
    | collect p s => exact absurd h id

/-- Everything that can be said of a session on entering the cosign stage. -/
structure Good (m : MuSig P T (RevealStage P)) : Prop where
  sorted : m.Rs.Sorted
  early : ∀ e ∈ m.Rs, e.2.isEarly
  own : ∃ p, m.Rs.get? m.stage.keypair.pub = some (.reveal p)

theorem cosign_run [Oracles] [SigningTranscript T] (m : MuSig P T (RevealStage P)) (h : Good m) :
    ∃ (m0 : MuSig P T CosignStage) (s : Scalar), m.cosignStage = .ok m0 ∧
      m0.stage = ⟨compress (musigR m.t (viewOf m.Rs)), s⟩ ∧ s.Canonical ∧
      s.toZ = (List.zipWith (· * ·) (nonceCoeffs m.t (viewOf m.Rs) m.stage.keypair.pub.compressed)
          (m.stage.rMe.1.map Scalar.toZ)).sum +
        musigChallenge m.t (viewOf m.Rs) * weight ((viewOf m.Rs).keys.map (·.compressed.1))
          m.stage.keypair.pub.compressed.1 * m.stage.keypair.secret.key.toZ ∧
      ∀ cs, (runCosign m0 cs).2.Rs = m.Rs.map (fun e =>
          (e.1, lateEntry m.stage.keypair.pub.compressed s cs e.1.compressed e.2)) ∧
        (runCosign m0 cs).2.stage = m0.stage ∧ ∀ r ∈ (runCosign m0 cs).1, r.isPanic = false := by
  obtain ⟨p, hp⟩ := h.own
  obtain ⟨t', s, h1, h2, h3⟩ := cosignStage_spec m h.early (by rw [hp]; simp)
  refine ⟨_, s, h1, rfl, h2, h3, ?_⟩
  intro cs
  have hset := BMap.set_eq_map h.sorted (x := m.stage.keypair.pub) (by rw [hp]; simp) (.cosigned s)
  obtain ⟨h4, h5, h6⟩ := runCosign_map cs ⟨t', m.Rs.set m.stage.keypair.pub (.cosigned s), _⟩
    (BMap.sorted_set h.sorted _ _) (by
      rw [hset]
      intro e he p s'
      rw [List.mem_map] at he
      obtain ⟨e', he', rfl⟩ := he
      simp only []
      split
      · simp
      · have := h.early e' he'
        intro hc; rw [hc] at this; exact this)
  refine ⟨?_, h5, h6⟩
  rw [h4, hset]
  simp only [List.map_map]
  apply List.map_congr_left
  rintro ⟨k, v⟩ he
  simp only [Function.comp, lateEntry, cosignEntry]
  by_cases hk : k.compressed = m.stage.keypair.pub.compressed
  · simp [hk]
  · simp only [hk, if_false]

theorem late_shares (l : BMap P (CoR P)) (hE : ∀ e ∈ l, e.2.isEarly) (me : Compressed) (sMe : Scalar)
    (cs : List (CosignCall P)) (hme : ∀ e ∈ l, e.1.compressed = me → ∃ p, e.2 = .reveal p) :
    (viewOf l).mapM (fun e => shareOf me sMe cs e.1.compressed) =
      if (l.map fun e => (e.1, lateEntry me sMe cs e.1.compressed e.2)).filterMap
          (fun e => match e.2 with | .reveal _ => some e.1 | _ => none) = ([] : List (PublicKey P))
      then some ((l.map fun e => (e.1, lateEntry me sMe cs e.1.compressed e.2)).filterMap
          (fun e => match e.2 with | .cosigned s => some s | _ => none))
      else none := by
  induction l with
  | nil => rfl
  | cons e l ih =>
    have ih := ih (fun e he => hE e (by simp [he])) (fun e he => hme e (by simp [he]))
    obtain ⟨k, v⟩ := e
    have hv := hE (k, v) (by simp)
    have hk' := hme (k, v) (by simp)
    simp only [List.map_cons, List.filterMap_cons]
    generalize (l.map fun e => (e.1, lateEntry me sMe cs e.1.compressed e.2)) = L at ih ⊢
    generalize (L.filterMap
          (fun e => match e.2 with | .reveal _ => some e.1 | _ => none)) = A at ih ⊢
    generalize (L.filterMap
          (fun e => match e.2 with | .cosigned s => some s | _ => none)) = B at ih ⊢
    by_cases hk : k.compressed = me
    · obtain ⟨p, hp⟩ := hk' hk
      simp only at hp
      subst hp
      have : viewOf ((k, CoR.reveal p) :: l) = (k, p) :: viewOf l := rfl
      rw [this, List.mapM_cons, ih]
      simp only [shareOf, hk, if_true, lateEntry]
      split <;> rfl
    · cases v with
      | commit c =>
        have : viewOf ((k, CoR.commit c) :: l) = viewOf l := rfl
        rw [this, ih]
        simp only [lateEntry, hk, if_false]
      | reveal p =>
        have : viewOf ((k, CoR.reveal p) :: l) = (k, p) :: viewOf l := rfl
        rw [this, List.mapM_cons, ih]
        simp only [shareOf, hk, lateEntry, if_false]
        cases firstShare cs k.compressed with
        | none => simp
        | some s =>
          simp only []
          split <;> rfl
      | cosigned s => exact absurd hv id
      | collect p s => exact absurd hv id

theorem sign_run [Oracles] [SigningTranscript T] (m : MuSig P T (RevealStage P)) (h : Good m)
    (m0 : MuSig P T CosignStage) (s : Scalar) (cs : List (CosignCall P))
    (hRs : m0.Rs = m.Rs.map (fun e => (e.1, lateEntry m.stage.keypair.pub.compressed s cs e.1.compressed e.2))) :
    m0.sign = .ok (((viewOf m.Rs).mapM fun e => shareOf m.stage.keypair.pub.compressed s cs e.1.compressed).map
      fun ss => ⟨m0.stage.R, Scalar.sum ss⟩) := by
  have hc : ∀ e ∈ m0.Rs, ∀ p s, e.2 ≠ .collect p s := by
    rw [hRs]
    intro e he p s
    rw [List.mem_map] at he
    obtain ⟨e', he', rfl⟩ := he
    exact lateEntry_ne_collect (h.early e' he') p s
  have hme : ∀ e ∈ m.Rs, e.1.compressed = m.stage.keypair.pub.compressed → ∃ p, e.2 = .reveal p := by
    intro e he hk
    obtain ⟨p, hp⟩ := h.own
    have := BMap.get?_of_mem h.sorted (k := e.1) (v := e.2) he
    rw [BMap.get?_congr _ hk, hp] at this
    exact ⟨p, (Option.some.inj this).symm⟩
  rw [late_shares _ h.early _ _ _ hme, ← hRs]
  unfold MuSig.sign MuSig.uncosigned
  rw [uncosignedGo_ok _ hc]
  simp only [Outcome.bind_ok]
  by_cases hu : m0.Rs.filterMap (fun e => match e.2 with | .reveal _ => some e.1 | _ => none) = ([] : List (PublicKey P))
  · rw [if_pos hu, hu]
    have hr : ∀ e ∈ m0.Rs, ∀ p, e.2 ≠ .reveal p := by
      intro e he p hp
      rw [List.filterMap_eq_nil_iff] at hu
      have := hu e he
      rw [hp] at this; cases this
    rw [sharesGo_ok _ hc hr]
    rfl
  · rw [if_neg hu]
    have : (List.getLast? (m0.Rs.filterMap (fun e => match e.2 with | .reveal _ => some e.1 | _ => none))).isSome = true := by
      rw [Option.isSome_iff_ne_none, Ne, List.getLast?_eq_none_iff]; exact hu
    rw [if_pos this]
    rfl

/-! ## Reachable sessions -/

section
variable [Oracles] [SigningTranscript T]

theorem new_Rs (kp : Keypair P) (t : T) (sys : Rng) :
    (MuSig.new kp t sys).1.Rs = [(kp.pub, .reveal (ownPoints kp t sys))] := by
  simp only [MuSig.new, BMap.set]
  congr 3
  unfold ownPoints
  simp only [mulPoint_eq]

theorem session_stage (kp : Keypair P) (t : T) (sys : Rng) (cs : List (CommitCall P T)) (rs : List (RevealCall P T)) :
    (session kp t sys cs rs).stage = ⟨kp, (MuSig.drawNonces t kp.secret.nonce sys).1, (ownPoints kp t sys).toReveal⟩ := by
  unfold session
  rw [runReveal_stage]
  unfold MuSig.revealStage
  simp only [runCommit_stage]
  simp only [MuSig.new]
  congr 2
  unfold ownPoints
  simp only [mulPoint_eq]

theorem commit_sorted (kp : Keypair P) (t : T) (sys : Rng) (cs : List (CommitCall P T)) :
    (runCommit (MuSig.new kp t sys).1 cs).2.Rs.Sorted :=
  runCommit_sorted _ _ (by rw [new_Rs]; simp [BMap.Sorted])

theorem session_sorted (kp : Keypair P) (t : T) (sys : Rng) (cs : List (CommitCall P T)) (rs : List (RevealCall P T)) :
    (session kp t sys cs rs).Rs.Sorted :=
  runReveal_sorted _ _ (commit_sorted kp t sys cs)

theorem commit_get (kp : Keypair P) (t : T) (sys : Rng) (cs : List (CommitCall P T)) (k : PublicKey P) :
    (runCommit (MuSig.new kp t sys).1 cs).2.Rs.get? k =
      CoR.ofStatus (statusCommit kp.pub.compressed (ownPoints kp t sys) cs k.compressed) := by
  rw [runCommit_get _ _ (by rw [new_Rs]; simp [BMap.Sorted]), new_Rs]
  unfold statusCommit
  by_cases hk : k.compressed = kp.pub.compressed
  · simp [BMap.get?, (cmp_eq_iff k kp.pub).mpr hk, hk, CoR.ofStatus]
  · have : BMap.get? [(kp.pub, CoR.reveal (ownPoints kp t sys))] k = none := by
      have hne : RistrettoBoth.cmp k kp.pub ≠ .eq := by rw [Ne, cmp_eq_iff]; exact hk
      unfold BMap.get?
      split
      · rename_i h; exact absurd h hne
      · rfl
      · rfl
    rw [this, if_neg hk]
    cases firstCommitment cs k.compressed <;> rfl

theorem session_get (kp : Keypair P) (t : T) (sys : Rng) (cs : List (CommitCall P T)) (rs : List (RevealCall P T))
    (k : PublicKey P) :
    (session kp t sys cs rs).Rs.get? k = CoR.ofStatus (status kp t sys cs rs k.compressed) :=
  runReveal_get rs _ (commit_sorted kp t sys cs) k _ (commit_get kp t sys cs k)

theorem status_me (kp : Keypair P) (t : T) (sys : Rng) (cs : List (CommitCall P T)) (rs : List (RevealCall P T)) :
    status kp t sys cs rs kp.pub.compressed = .revealed (ownPoints kp t sys) := by
  unfold status statusCommit; rw [if_pos rfl]; rfl

theorem session_good (kp : Keypair P) (t : T) (sys : Rng) (cs : List (CommitCall P T)) (rs : List (RevealCall P T)) :
    Good (session kp t sys cs rs) where
  sorted := session_sorted kp t sys cs rs
  early := by
    intro e he
    have := BMap.get?_of_mem (session_sorted kp t sys cs rs) (k := e.1) (v := e.2) he
    rw [session_get] at this
    exact (CoR.isEarly_iff _).mpr ⟨_, this⟩
  own := ⟨ownPoints kp t sys, by rw [session_stage, session_get, status_me]; rfl⟩

theorem session_wf (kp : Keypair P) (hk : kp.pub.WF) (t : T) (sys : Rng) (cs : List (CommitCall P T))
    (rs : List (RevealCall P T)) (hc : ∀ c ∈ cs, CommitCall.WF c) (hr : ∀ c ∈ rs, RevealCall.WF c) :
    (session kp t sys cs rs).Rs.KeysWF := by
  apply runReveal_wf _ _ _ hr
  apply runCommit_wf _ _ _ hc
  rw [new_Rs]
  intro e he
  simp only [List.mem_singleton] at he
  rw [he]; exact hk

end

end Schnorrkel
