import Verif.Spec.MuSig
import Verif.Lemmas.BMap
import Verif.Lemmas.Sign
import Verif.Lemmas.Batch

/-! # Multi-signature sessions: lookups after arbitrary histories -/

namespace Schnorrkel
open SigningTranscript Spec
variable {P : Type} [Ristretto P] {T : Type}

/-! ## Messages -/

theorem toCommitment_eq [Oracles] (r : Reveal) : r.toCommitment = .ok (commitmentTo r) := by
  have : r.checkLength = .ok () := by simp [Reveal.checkLength, r.bytes.2]
  simp only [Reveal.toCommitment, this]
  rfl

theorem intoPoints_eq (r : Reveal) : (r.intoPoints : Outcome (RevealedPoints P)) =
    match (points r : Option (RevealedPoints P)) with
    | some p => .ok p
    | none => .err .pointDecompressionError := by
  have : r.checkLength = .ok () := by simp [Reveal.checkLength, r.bytes.2]
  simp only [Reveal.intoPoints, this, Outcome.ofExcept_ok, Outcome.bind_ok, Reveal.iterPoints, points,
    List.mapM_cons, List.mapM_nil]
  rcases ha : (decompress (r.bytes.slice 0 32 (by omega)) : Option P) with _ | a
  · rfl
  rcases hb : (decompress (r.bytes.slice 32 32 (by omega)) : Option P) with _ | b
  · rfl
  rcases hc : (decompress (r.bytes.slice 64 32 (by omega)) : Option P) with _ | c
  · rfl
  rfl

theorem intoPoints_ne_panic (r : Reveal) (s : String) : (r.intoPoints : Outcome (RevealedPoints P)) ≠ .panic s := by
  rw [intoPoints_eq]; split <;> simp

theorem RevealedPoints.cases (p : RevealedPoints P) : ∃ a b c, p = ⟨⟨[a, b, c], rfl⟩⟩ := by
  obtain ⟨⟨l, h⟩⟩ := p
  match l, h with
  | [a, b, c], _ => exact ⟨a, b, c, rfl⟩

theorem Arr.slice_val {n : Nat} (a : Arr n) (i k : Nat) (h : i + k ≤ n) :
    (a.slice i k h).1 = (a.1.drop i).take k := rfl

theorem points_eq_some {r : Reveal} {p : RevealedPoints P} : points r = some p ↔ p.toReveal = r := by
  obtain ⟨a, b, c, rfl⟩ := p.cases
  have hl := r.bytes.2
  have hs : r.bytes.1 = (r.bytes.1.drop 0).take 32 ++ ((r.bytes.1.drop 32).take 32 ++ (r.bytes.1.drop 64).take 32) := by
    rw [List.take_of_length_le (l := r.bytes.1.drop 64) (by simp [hl])]
    rw [show r.bytes.1.drop 64 = (r.bytes.1.drop 32).drop 32 by rw [List.drop_drop], List.take_append_drop]
    simp
  constructor
  · intro h
    unfold points at h
    split at h
    · rename_i a' b' c' h1 h2 h3
      simp only [Option.some.injEq, RevealedPoints.mk.injEq, Subtype.mk.injEq, List.cons.injEq, and_true] at h
      obtain ⟨rfl, rfl, rfl⟩ := h
      have h1 := congrArg Subtype.val (compress_of_decompress h1)
      have h2 := congrArg Subtype.val (compress_of_decompress h2)
      have h3 := congrArg Subtype.val (compress_of_decompress h3)
      simp only [Arr.slice_val] at h1 h2 h3
      have : ((RevealedPoints.mk ⟨[a', b', c'], rfl⟩).toReveal).bytes = r.bytes := by
        apply Arr.ext'
        rw [hs]
        simp [RevealedPoints.toReveal, h1, h2, h3]
      exact (congrArg Reveal.mk this : _)
    · cases h
  · rintro rfl
    have h1 : ((RevealedPoints.mk ⟨[a, b, c], rfl⟩).toReveal).bytes.1 =
        (compress a).1 ++ ((compress b).1 ++ (compress c).1) := by
      simp [RevealedPoints.toReveal]
    have e1 : ((RevealedPoints.mk ⟨[a, b, c], rfl⟩).toReveal).bytes.slice 0 32 (by omega) = compress a := by
      apply Arr.ext'; rw [Arr.slice_val, h1]; simp [(compress a).2]
    have e2 : ((RevealedPoints.mk ⟨[a, b, c], rfl⟩).toReveal).bytes.slice 32 32 (by omega) = compress b := by
      apply Arr.ext'; rw [Arr.slice_val, h1]; simp [(compress a).2, (compress b).2]
    have e3 : ((RevealedPoints.mk ⟨[a, b, c], rfl⟩).toReveal).bytes.slice 64 32 (by omega) = compress c := by
      apply Arr.ext'
      rw [Arr.slice_val, h1, ← List.append_assoc, List.drop_left' (by simp [(compress a).2, (compress b).2]),
        List.take_of_length_le (by simp [(compress c).2])]
    unfold points
    rw [e1, e2, e3, decompress_compress, decompress_compress, decompress_compress]

theorem points_toReveal (p : RevealedPoints P) : points p.toReveal = some p := points_eq_some.mpr rfl

theorem scalarFromCanonicalBytes_eq' (b : Arr 32) : scalarFromCanonicalBytes b = Scalar.fromCanonicalBytes b := by
  rfl

/-! ## Commit stage -/

/-- Status as recorded in a session. -/
def CoR.ofStatus : Status P → Option (CoR P)
  | .absent => none
  | .committed c => some (.commit c)
  | .revealed p => some (.reveal p)

theorem CoR.ofStatus_inj {a b : Status P} (h : CoR.ofStatus a = CoR.ofStatus b) : a = b := by
  cases a <;> cases b <;> simp_all [CoR.ofStatus]

/-- One commit call. -/
theorem addTheirCommitment_spec (m : MuSig P T (CommitStage P)) (k : PublicKey P) (c : Commitment) :
    m.addTheirCommitment k c = match m.Rs.get? k with
      | none => (.ok (), { m with Rs := m.Rs.set k (.commit c) })
      | some o => if o = .commit c then (.ok (), m) else (.error (.muSigInconsistent .commitment true), m) := by
  unfold MuSig.addTheirCommitment
  cases h : m.Rs.get? k with
  | none => rfl
  | some o => by_cases h : o = .commit c <;> simp [h]

/-- Maps in a session only ever grow, by keys the caller supplied. -/
structure SameStage {S : Type} (m m' : MuSig P T S) : Prop where
  stage : m'.stage = m.stage

theorem runCommit_stage (cs : List (CommitCall P T)) (m : MuSig P T (CommitStage P)) :
    (runCommit m cs).2.stage = m.stage := by
  induction cs generalizing m with
  | nil => rfl
  | cons c cs ih =>
    cases c with
    | commitment k c =>
      simp only [runCommit]
      rw [ih]
      rw [addTheirCommitment_spec]
      split
      · rfl
      · split <;> rfl
    | transcript f => simp only [runCommit]; rw [ih]; rfl

/-- Keys mentioned by commit calls are genuine public keys. -/
def CommitCall.WF : CommitCall P T → Prop
  | .commitment k _ => k.WF
  | .transcript _ => True

theorem runCommit_sorted (cs : List (CommitCall P T)) (m : MuSig P T (CommitStage P)) (hm : m.Rs.Sorted) :
    (runCommit m cs).2.Rs.Sorted := by
  induction cs generalizing m with
  | nil => exact hm
  | cons c cs ih =>
    cases c with
    | commitment k c =>
      simp only [runCommit]
      apply ih
      rw [addTheirCommitment_spec]
      split
      · exact BMap.sorted_set hm _ _
      · split <;> exact hm
    | transcript f => simp only [runCommit]; exact ih _ hm

theorem runCommit_wf (cs : List (CommitCall P T)) (m : MuSig P T (CommitStage P)) (hm : m.Rs.KeysWF)
    (hc : ∀ c ∈ cs, CommitCall.WF c) : (runCommit m cs).2.Rs.KeysWF := by
  induction cs generalizing m with
  | nil => exact hm
  | cons c cs ih =>
    cases c with
    | commitment k c =>
      simp only [runCommit]
      apply ih _ _ (fun x hx => hc x (by simp [hx]))
      rw [addTheirCommitment_spec]
      split
      · exact BMap.keysWF_set hm (hc (.commitment k c) (by simp)) _
      · split <;> exact hm
    | transcript f => simp only [runCommit]; exact ih _ hm (fun x hx => hc x (by simp [hx]))

theorem runCommit_get (cs : List (CommitCall P T)) (m : MuSig P T (CommitStage P)) (hm : m.Rs.Sorted)
    (k : PublicKey P) :
    (runCommit m cs).2.Rs.get? k = match m.Rs.get? k with
      | some o => some o
      | none => (firstCommitment cs k.compressed).map .commit := by
  induction cs generalizing m with
  | nil => simp only [runCommit, firstCommitment]; split <;> simp_all
  | cons c cs ih =>
    cases c with
    | commitment k' c =>
      simp only [runCommit]
      rw [addTheirCommitment_spec]
      split
      · rename_i hn
        rw [ih _ (BMap.sorted_set hm _ _)]
        simp only [BMap.get?_set hm]
        by_cases hk : k.compressed = k'.compressed
        · rw [if_pos hk, BMap.get?_congr _ hk, hn]
          simp [firstCommitment, hk]
        · have hk' : ¬ k'.compressed = k.compressed := fun h => hk h.symm
          rw [if_neg hk]
          simp only [firstCommitment, List.findSome?_cons, hk', if_false]
      · rename_i o ho
        have : ∀ r : SignatureResult Unit, (match (runCommit m cs).2.Rs.get? k with | x => x) = match m.Rs.get? k with
            | some o => some o
            | none => (firstCommitment (.commitment k' c :: cs) k.compressed).map CoR.commit := by
          intro _
          rw [ih m hm]
          by_cases hk : k.compressed = k'.compressed
          · rw [BMap.get?_congr _ hk, ho]
          · have hk' : ¬ k'.compressed = k.compressed := fun h => hk h.symm
            simp only [firstCommitment, List.findSome?_cons, hk', if_false]
        split <;> exact this (.ok ())
    | transcript f =>
      simp only [runCommit]
      exact ih (m.editTranscript f) hm

/-! ## Reveal stage -/

theorem addTheirReveal_spec [Oracles] (m : MuSig P T (RevealStage P)) (k : PublicKey P) (r : Reveal) :
    m.addTheirReveal k r = match m.Rs.get? k with
      | none => (.err (.muSigAbsent .commitment), m)
      | some o => match (points r : Option (RevealedPoints P)) with
        | none => (.err .pointDecompressionError, { m with Rs := m.Rs.set k o })
        | some p => match o with
          | .commit c => if c = commitmentTo r then (.ok (), { m with Rs := m.Rs.set k (.reveal p) })
              else (.err (.muSigInconsistent .commitment false), { m with Rs := m.Rs.set k o })
          | .reveal q => if q = p then (.ok (), { m with Rs := m.Rs.set k o })
              else (.err (.muSigInconsistent .reveal true), { m with Rs := m.Rs.set k o })
          | .cosigned _ => (.panic "Internal error, cosigning during reveal phase.", { m with Rs := m.Rs.set k o })
          | .collect _ _ => (.panic "Internal error, set_reveal during collection phase.", { m with Rs := m.Rs.set k o }) := by
  unfold MuSig.addTheirReveal
  cases m.Rs.get? k with
  | none => rfl
  | some o =>
    simp only [CoR.setRevealed, toCommitment_eq, intoPoints_eq]
    cases (points r : Option (RevealedPoints P)) with
    | none => rfl
    | some p =>
      cases o with
      | commit c => simp only []; split <;> rfl
      | reveal q => simp only []; split <;> rfl
      | cosigned s => rfl
      | collect q s => rfl

theorem BMap.set_get? {V : Type} {m : BMap P V} {k : PublicKey P} {v : V} (h : m.get? k = some v) : m.set k v = m := by
  induction m with
  | nil => simp [BMap.get?] at h
  | cons e m ih =>
    obtain ⟨k', w⟩ := e
    unfold BMap.get? at h
    unfold BMap.set
    split at h
    · cases h; rfl
    · cases h
    · rw [ih h]

/-- `addTheirReveal` with the no-op updates removed. -/
theorem addTheirReveal_spec' [Oracles] (m : MuSig P T (RevealStage P)) (k : PublicKey P) (r : Reveal) :
    m.addTheirReveal k r = match m.Rs.get? k with
      | none => (.err (.muSigAbsent .commitment), m)
      | some o => match (points r : Option (RevealedPoints P)) with
        | none => (.err .pointDecompressionError, m)
        | some p => match o with
          | .commit c => if c = commitmentTo r then (.ok (), { m with Rs := m.Rs.set k (.reveal p) })
              else (.err (.muSigInconsistent .commitment false), m)
          | .reveal q => if q = p then (.ok (), m) else (.err (.muSigInconsistent .reveal true), m)
          | .cosigned _ => (.panic "Internal error, cosigning during reveal phase.", m)
          | .collect _ _ => (.panic "Internal error, set_reveal during collection phase.", m) := by
  rw [addTheirReveal_spec]
  cases h : m.Rs.get? k with
  | none => rfl
  | some o =>
    have : { m with Rs := m.Rs.set k o } = m := by rw [BMap.set_get? h]
    simp only [this]

theorem addTrusted_spec (m : MuSig P T (RevealStage P)) (k : PublicKey P) (r : Reveal) :
    m.addTrusted k r = match (points r : Option (RevealedPoints P)) with
      | none => (.err .pointDecompressionError, m)
      | some p => match m.Rs.get? k with
        | none => (.ok (), { m with Rs := m.Rs.set k (.reveal p) })
        | some o => if o = .reveal p then (.ok (), m) else (.err (.muSigInconsistent .reveal true), m) := by
  unfold MuSig.addTrusted
  simp only [intoPoints_eq]
  cases (points r : Option (RevealedPoints P)) with
  | none => rfl
  | some p =>
    simp only []
    cases m.Rs.get? k with
    | none => rfl
    | some o => by_cases h : o = .reveal p <;> simp [h]

def RevealCall.WF : RevealCall P T → Prop
  | .reveal k _ => k.WF
  | .trusted k _ => k.WF
  | .transcript _ => True

/-- Invariant of the map before cosigning: only commitments and reveals. -/
def Early (m : BMap P (CoR P)) : Prop := ∀ k v, m.get? k = some v → ∃ s, CoR.ofStatus s = some v

theorem runReveal_stage [Oracles] (cs : List (RevealCall P T)) (m : MuSig P T (RevealStage P)) :
    (runReveal m cs).2.stage = m.stage := by
  induction cs generalizing m with
  | nil => rfl
  | cons c cs ih =>
    cases c with
    | reveal k r =>
      simp only [runReveal]
      rw [ih, addTheirReveal_spec']
      split
      · rfl
      · split
        · rfl
        · split <;> first | rfl | (split <;> rfl)
    | trusted k r =>
      simp only [runReveal]
      rw [ih, addTrusted_spec]
      split
      · rfl
      · split
        · rfl
        · split <;> rfl
    | transcript f => simp only [runReveal]; rw [ih]; rfl

theorem addTheirReveal_sorted [Oracles] {m : MuSig P T (RevealStage P)} (hm : m.Rs.Sorted) (k : PublicKey P) (r : Reveal) :
    (m.addTheirReveal k r).2.Rs.Sorted := by
  rw [addTheirReveal_spec']
  split
  · exact hm
  · split
    · exact hm
    · split <;> first | exact hm | (split <;> first | exact hm | exact BMap.sorted_set hm _ _)

theorem addTrusted_sorted {m : MuSig P T (RevealStage P)} (hm : m.Rs.Sorted) (k : PublicKey P) (r : Reveal) :
    (m.addTrusted k r).2.Rs.Sorted := by
  rw [addTrusted_spec]
  split
  · exact hm
  · split
    · exact BMap.sorted_set hm _ _
    · split <;> exact hm

theorem runReveal_sorted [Oracles] (cs : List (RevealCall P T)) (m : MuSig P T (RevealStage P)) (hm : m.Rs.Sorted) :
    (runReveal m cs).2.Rs.Sorted := by
  induction cs generalizing m with
  | nil => exact hm
  | cons c cs ih =>
    cases c with
    | reveal k r => simp only [runReveal]; exact ih _ (addTheirReveal_sorted hm _ _)
    | trusted k r => simp only [runReveal]; exact ih _ (addTrusted_sorted hm _ _)
    | transcript f => simp only [runReveal]; exact ih _ hm

theorem runReveal_wf [Oracles] (cs : List (RevealCall P T)) (m : MuSig P T (RevealStage P)) (hm : m.Rs.KeysWF)
    (hc : ∀ c ∈ cs, RevealCall.WF c) : (runReveal m cs).2.Rs.KeysWF := by
  induction cs generalizing m with
  | nil => exact hm
  | cons c cs ih =>
    cases c with
    | reveal k r =>
      simp only [runReveal]
      apply ih _ _ (fun x hx => hc x (by simp [hx]))
      rw [addTheirReveal_spec']
      split
      · exact hm
      · split
        · exact hm
        · split <;> first | exact hm | (split <;> first | exact hm | exact BMap.keysWF_set hm (hc (.reveal k r) (by simp)) _)
    | trusted k r =>
      simp only [runReveal]
      apply ih _ _ (fun x hx => hc x (by simp [hx]))
      rw [addTrusted_spec]
      split
      · exact hm
      · split
        · exact BMap.keysWF_set hm (hc (.trusted k r) (by simp)) _
        · split <;> exact hm
    | transcript f => simp only [runReveal]; exact ih _ hm (fun x hx => hc x (by simp [hx]))

/-- One call changes the status of the keys as the one-element history says. -/
theorem addTheirReveal_get [Oracles] {m : MuSig P T (RevealStage P)} (hm : m.Rs.Sorted) (k k' : PublicKey P)
    (r : Reveal) (s : Status P) (hs : m.Rs.get? k = CoR.ofStatus s) :
    (m.addTheirReveal k' r).2.Rs.get? k =
      CoR.ofStatus (statusReveal s [RevealCall.reveal (T := T) k' r] k.compressed) := by
  rw [addTheirReveal_spec']
  by_cases hk : k'.compressed = k.compressed
  · rw [BMap.get?_congr _ hk, hs]
    cases s with
    | absent => simpa [CoR.ofStatus, statusReveal, firstTrusted] using hs
    | committed c =>
      simp only [CoR.ofStatus, statusReveal, firstOpening, List.findSome?_cons, hk, true_and, List.findSome?_nil]
      cases hp : (points r : Option (RevealedPoints P)) with
      | none => simpa [CoR.ofStatus] using hs
      | some p =>
        by_cases hc : c = commitmentTo r
        · simp [hc, BMap.get?_set hm, hk]
        · have hc' : commitmentTo r ≠ c := fun h => hc h.symm
          simpa [hc, hc', CoR.ofStatus] using hs
    | revealed q =>
      simp only [CoR.ofStatus, statusReveal]
      cases hp : (points r : Option (RevealedPoints P)) with
      | none => exact hs
      | some p => simp only []; split <;> exact hs
  · have e : statusReveal s [RevealCall.reveal (T := T) k' r] k.compressed = s := by
      cases s <;> simp [statusReveal, firstOpening, firstTrusted, hk]
    have hk' : ¬ k.compressed = k'.compressed := fun h => hk h.symm
    rw [e, ← hs]
    split
    · rfl
    · split
      · rfl
      · split <;> first | rfl | (split <;> first | rfl | simp [BMap.get?_set hm, hk'])

theorem addTrusted_get [Oracles] {m : MuSig P T (RevealStage P)} (hm : m.Rs.Sorted) (k k' : PublicKey P)
    (r : Reveal) (s : Status P) (hs : m.Rs.get? k = CoR.ofStatus s) :
    (m.addTrusted k' r).2.Rs.get? k =
      CoR.ofStatus (statusReveal s [RevealCall.trusted (T := T) k' r] k.compressed) := by
  rw [addTrusted_spec]
  by_cases hk : k'.compressed = k.compressed
  · rw [BMap.get?_congr _ hk, hs]
    cases s with
    | absent =>
      simp only [CoR.ofStatus, statusReveal, firstTrusted, List.findSome?_cons, hk, if_true, List.findSome?_nil]
      cases hp : (points r : Option (RevealedPoints P)) with
      | none => simpa [CoR.ofStatus] using hs
      | some p => simp [BMap.get?_set hm, hk]
    | committed c =>
      simp only [CoR.ofStatus, statusReveal, firstOpening, List.findSome?_cons, List.findSome?_nil]
      cases hp : (points r : Option (RevealedPoints P)) with
      | none => exact hs
      | some p => simp only []; split <;> exact hs
    | revealed q =>
      simp only [CoR.ofStatus, statusReveal]
      cases hp : (points r : Option (RevealedPoints P)) with
      | none => exact hs
      | some p => simp only []; split <;> exact hs
  · have e : statusReveal s [RevealCall.trusted (T := T) k' r] k.compressed = s := by
      cases s <;> simp [statusReveal, firstOpening, firstTrusted, hk]
    have hk' : ¬ k.compressed = k'.compressed := fun h => hk h.symm
    rw [e, ← hs]
    split
    · rfl
    · split
      · simp [BMap.get?_set hm, hk']
      · split <;> rfl

theorem statusReveal_cons [Oracles] (s : Status P) (c : RevealCall P T) (cs : List (RevealCall P T)) (k : Compressed) :
    statusReveal s (c :: cs) k = statusReveal (statusReveal s [c] k) cs k := by
  cases s with
  | absent =>
    have : firstTrusted (c :: cs) k = (firstTrusted [c] k).or (firstTrusted cs k) := by
      unfold firstTrusted
      rw [show c :: cs = [c] ++ cs from rfl, List.findSome?_append]
    simp only [statusReveal, this]
    cases h : firstTrusted [c] k with
    | none => rfl
    | some p => rfl
  | committed x =>
    have : firstOpening (c :: cs) k x = (firstOpening [c] k x).or (firstOpening cs k x) := by
      unfold firstOpening
      rw [show c :: cs = [c] ++ cs from rfl, List.findSome?_append]
    simp only [statusReveal, this]
    cases h : firstOpening [c] k x with
    | none => rfl
    | some p => rfl
  | revealed p => rfl

theorem runReveal_get [Oracles] (cs : List (RevealCall P T)) (m : MuSig P T (RevealStage P)) (hm : m.Rs.Sorted)
    (k : PublicKey P) (s : Status P) (hs : m.Rs.get? k = CoR.ofStatus s) :
    (runReveal m cs).2.Rs.get? k = CoR.ofStatus (statusReveal s cs k.compressed) := by
  induction cs generalizing m s with
  | nil =>
    simp only [runReveal, hs]
    cases s <;> rfl
  | cons c cs ih =>
    rw [statusReveal_cons]
    cases c with
    | reveal k' r =>
      simp only [runReveal]
      exact ih _ (addTheirReveal_sorted hm _ _) _ (addTheirReveal_get hm _ _ _ _ hs)
    | trusted k' r =>
      simp only [runReveal]
      exact ih _ (addTrusted_sorted hm _ _) _ (addTrusted_get hm _ _ _ _ hs)
    | transcript f =>
      simp only [runReveal]
      have : statusReveal s [RevealCall.transcript f] k.compressed = s := by
        cases s <;> rfl
      rw [this]
      exact ih (m.editTranscript f) hm _ hs

end Schnorrkel
