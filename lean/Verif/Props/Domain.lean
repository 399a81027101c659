import Verif.Spec.Domain
import Verif.Props.Witness
import Verif.Props.MuSigNonce

/-! # C54: domain separation between all uses of the hash -/

namespace Schnorrkel.Props
open Spec

/-- Kind of a query read off its end (and its first frame). -/
private def classifyPrf (first : Option MOp) : List MOp → Nat
  | .rngKey _ :: .rekey l _ :: _ =>
    if l = b! "" then 20 else if l = b! "signing" then 22 else if l = b! "proving\x000" then 23
    else if l = b! "issuing" then 24 else if l = b! "accepting" then 25
    else if l = b! "issue_self_adaptor_cert" then 26 else if l = b! "make_esk" then 27
    else if l = b! "HDKD-nonce" then 28 else if l = b! "MuSigWitness" then 29 else 100
  | .rngKey _ :: _ =>
    if first = some (.append (b! "dom-sep") (b! "V-RNG")) then 21
    else if first = some (.append (b! "dom-sep") (b! "VB-RNG")) then 7
    else 5
  | .prf _ :: l => classifyPrf first l
  | _ => 100

private def classifyRev (first : Option MOp) : List MOp → Nat
  | .challenge l _ :: rest =>
    if l = b! "sign:c" then 0 else if l = b! "prove" then 2 else if l = b! "VRFHash" then 3
    else if l = b! "HDKD-scalar" then 8 else if l = b! "HDKD-hard" then 10
    else if l = b! "sk" then 12 else if l = b! "no" then 13 else if l = b! "adaptor-e" then 14
    else if l = b! "commitment" then 17 else if l = b! "R" then 19
    else if l = b! "HDKD-chaincode" then
      (match rest with
       | .challenge l' _ :: _ => if l' = b! "HDKD-scalar" then 9 else 11
       | _ => 100)
    else
      (match rest with
       | .append l' _ :: _ =>
          if l' = b! "no" then 1 else if l' = b! "kex" then 15 else if l' = b! "epk" then 16
          else if l' = b! "pk-choice" then 18
          else if first = some (.append (b! "dom-sep") (b! "VRFResult")) then 4 else 6
       | _ => 100)
  | .prf n :: rest => classifyPrf first (.prf n :: rest)
  | _ => 100

private def classify (l : List MOp) : Nat := classifyRev l.head? l.reverse

/-- Number of the constructor. -/
private def kind : Use → Nat
  | .signature .. => 0 | .legacy .. => 1 | .dleq .. => 2 | .vrfInput .. => 3 | .vrfResult .. => 4
  | .vrfRng .. => 5 | .merge .. => 6 | .vrfBatch .. => 7 | .softKey .. => 8 | .softChain .. => 9
  | .hardKey .. => 10 | .hardChain .. => 11 | .expandKey .. => 12 | .expandNonce .. => 13 | .cert .. => 14
  | .kex .. => 15 | .twoDh .. => 16 | .musigCommitment .. => 17 | .musigWeight .. => 18 | .musigCoeff .. => 19
  | .batchDigest .. => 20 | .batchCoeff .. => 21 | .signNonce .. => 22 | .dleqNonce .. => 23 | .issuing .. => 24
  | .accepting .. => 25 | .selfIssuing .. => 26 | .ephemeral .. => 27 | .derivedNonce .. => 28 | .musigNonce .. => 29

private theorem classifyPrf_prfs (first : Option MOp) (ns : List Nat) (l : List MOp) :
    classifyPrf first (ns.map .prf ++ l) = classifyPrf first l := by
  induction ns with
  | nil => rfl
  | cons n ns ih => simpa [classifyPrf] using ih

private theorem classifyRev_prfs (first : Option MOp) (ns : List Nat) (l : List MOp) (h : ns ≠ []) :
    classifyRev first (ns.map .prf ++ l) = classifyPrf first l := by
  cases ns with
  | nil => exact absurd rfl h
  | cons n ns =>
    rw [← classifyPrf_prfs first (n :: ns) l]
    rfl

private theorem classifyPrf_appends (first : Option MOp) (r : Bytes) (x : List MOp)
    (hx : ∀ o ∈ x, ∃ l m, o = MOp.append l m) :
    classifyPrf first (.rngKey r :: x) = if first = some (.append (b! "dom-sep") (b! "V-RNG")) then 21
      else if first = some (.append (b! "dom-sep") (b! "VB-RNG")) then 7 else 5 := by
  cases x with
  | nil => rfl
  | cons a x =>
    obtain ⟨l, m, rfl⟩ := hx a (by simp)
    rfl

private theorem classify_query (u : Use) (h : u.WF) : classify u.query = kind u := by
  cases u <;> simp only [Use.query, kind]
  all_goals unfold classify
  case vrfRng ctx p ns =>
    rw [List.reverse_append, ← List.map_reverse, classifyRev_prfs _ _ _ (by simpa [Use.WF] using h)]
    simp [pairFrames, classifyPrf]
  case vrfBatch es r i =>
    unfold dleqBatchQuery
    rw [List.reverse_append, List.reverse_replicate, ← List.map_replicate, classifyRev_prfs _ _ _ (by simp)]
    rw [List.reverse_append, List.reverse_singleton]
    refine (classifyPrf_appends _ r (List.reverse _) ?_).trans ?_
    rotate_left
    · simp
    · simp only [List.mem_reverse, List.mem_append, List.mem_flatten, List.mem_map]
      rintro o (ho | ⟨l, ⟨e, _, rfl⟩, ho⟩)
      · simp at ho; exact ⟨_, _, ho⟩
      · simp [pairFrames] at ho
        rcases ho with rfl | rfl | rfl <;> exact ⟨_, _, rfl⟩
  case batchCoeff pks Rs ds r i =>
    unfold batchQuery
    rw [List.reverse_append, List.reverse_replicate, ← List.map_replicate, classifyRev_prfs _ _ _ (by simp)]
    rw [List.reverse_append, List.reverse_singleton]
    refine (classifyPrf_appends _ r (List.reverse _) ?_).trans ?_
    rotate_left
    · simp
    · simp only [List.mem_reverse, List.mem_append, List.mem_map]
      rintro o (((ho | ⟨l, _, rfl⟩) | ⟨l, _, rfl⟩) | ⟨l, _, rfl⟩)
      · simp at ho; exact ⟨_, _, ho⟩
      all_goals exact ⟨_, _, rfl⟩
  case musigCoeff log agg es pk i =>
    unfold coeffQuery
    rw [List.reverse_append, List.reverse_replicate, List.replicate_succ]
    simp [classifyRev]
  case dleq log kusama h pk R Hr o => cases kusama <;> simp [dleqQuery, classifyRev]
  case vrfInput m log pk => cases m <;> simp [vrfInputQuery, classifyRev]
  case hardKey i cc key => cases cc <;> simp [hardQuery, classifyRev, simpleLog]
  case hardChain i cc key => cases cc <;> simp [hardQuery, classifyRev, simpleLog]
  case dleqNonce log kusama h pk seed rng =>
    cases kusama <;> simp [dleqNonceQuery, witnessQuery, dleqNonceFrames, classifyRev, classifyPrf]
  all_goals simp [schnorrFrames, classifyRev, classifyPrf, witnessQuery, certFrames, softQuery, twoDhQuery, kexQuery,
    kexFrames, certQuery, mergeQuery, vrfResultQuery, pairFrames]

/-- Splitting at the last element satisfying `p` is unique. -/
private theorem marker_unique {α : Type} (p : α → Bool) {a a' x x' : List α} {m m' : α}
    (hm : p m = true) (hm' : p m' = true) (hx : ∀ e ∈ x, p e = false) (hx' : ∀ e ∈ x', p e = false)
    (h : a ++ m :: x = a' ++ m' :: x') : a = a' ∧ m = m' ∧ x = x' := by
  have hlen : x.length = x'.length := by
    have key : ∀ (a x : List α) (m : α), p m = true → (∀ e ∈ x, p e = false) →
        ((a ++ m :: x).reverse.takeWhile (fun e => !p e)).length = x.length := by
      intro a x m hm hx
      rw [List.reverse_append, List.reverse_cons, List.append_assoc, List.takeWhile_append_of_pos]
      · simp [List.takeWhile_cons, hm]
      · intro e he; simp [hx e (by simpa using he)]
    rw [← key a x m hm hx, h, key a' x' m' hm' hx']
  obtain ⟨h1, h2⟩ := List.append_inj' h (by simp [hlen])
  simp only [List.cons.injEq] at h2
  exact ⟨h1, h2⟩

/-- Lists of equal-sized blocks are determined by their concatenation. -/
private theorem flatMap_inj {α β : Type} (f : α → List β) (k : Nat) (hk : 0 < k) :
    ∀ l l' : List α, (∀ a ∈ l, (f a).length = k) → (∀ a ∈ l', (f a).length = k) →
      (∀ a ∈ l, ∀ a' ∈ l', f a = f a' → a = a') → l.flatMap f = l'.flatMap f → l = l' := by
  intro l
  induction l with
  | nil =>
    intro l' _ h2 _ h
    cases l' with
    | nil => rfl
    | cons a l' =>
      have := congrArg List.length h
      simp [List.flatMap_cons, h2 a (by simp)] at this
      omega
  | cons a l ih =>
    intro l' h1 h2 hf h
    cases l' with
    | nil =>
      have := congrArg List.length h
      simp [List.flatMap_cons, h1 a (by simp)] at this
      omega
    | cons a' l' =>
      rw [List.flatMap_cons, List.flatMap_cons] at h
      obtain ⟨e1, e2⟩ := List.append_inj h (by rw [h1 a (by simp), h2 a' (by simp)])
      have := hf a (by simp) a' (by simp) e1
      subst this
      rw [ih l' (fun b hb => h1 b (by simp [hb])) (fun b hb => h2 b (by simp [hb]))
        (fun b hb b' hb' => hf b (by simp [hb]) b' (by simp [hb'])) e2]

private theorem map_append_inj (l : Bytes) {a b : List Bytes} (h : a.map (MOp.append l) = b.map (MOp.append l)) :
    a = b := List.map_injective_iff.mpr (fun _ _ h => by simpa using h) h

private def isApp (l : Bytes) : MOp → Bool
  | .append l' _ => decide (l' = l)
  | _ => false

private theorem coeff_inj (log log' : List MOp) (agg agg' pk pk' : Bytes) (es es' : List (Bytes × List Bytes))
    (i i' : Nat) (h3 : ∀ e ∈ es, e.2.length = 3) (h3' : ∀ e ∈ es', e.2.length = 3)
    (h : coeffQuery log agg es pk i = coeffQuery log' agg' es' pk' i') :
    log = log' ∧ agg = agg' ∧ es = es' ∧ pk = pk' ∧ i = i' := by
  unfold coeffQuery at h
  let blk := fun e : Bytes × List Bytes => MOp.append (b! "pk-set") e.1 :: e.2.map (.append (b! "R"))
  have hblk : ∀ (l : Bytes), l ≠ b! "pk-set" → l ≠ b! "R" → ∀ es : List (Bytes × List Bytes),
      ∀ o ∈ es.flatMap blk, isApp l o = false := by
    intro l h1 h2 es o ho
    simp only [List.mem_flatMap] at ho
    obtain ⟨e, _, ho⟩ := ho
    simp only [blk, List.mem_cons, List.mem_map] at ho
    rcases ho with rfl | ⟨b, _, rfl⟩
    · simp [isApp]; exact fun h => h1 h.symm
    · simp [isApp]; exact fun h => h2 h.symm
  have h' : (log ++ [MOp.append (b! "proto-name") (b! "Schnorr-sig")]) ++ .append (b! "sign:pk") agg ::
      (es.flatMap blk ++ .append (b! "pk-choice") pk :: List.replicate (i + 1) (.challenge (b! "R") 64)) =
      (log' ++ [MOp.append (b! "proto-name") (b! "Schnorr-sig")]) ++ .append (b! "sign:pk") agg' ::
      (es'.flatMap blk ++ .append (b! "pk-choice") pk' :: List.replicate (i' + 1) (.challenge (b! "R") 64)) := by
    simpa [blk] using h
  have hx : ∀ (es : List (Bytes × List Bytes)) (pk : Bytes) (i : Nat),
      ∀ o ∈ (es.flatMap blk ++ MOp.append (b! "pk-choice") pk :: List.replicate (i + 1) (.challenge (b! "R") 64)),
        isApp (b! "sign:pk") o = false := by
    intro es pk i o ho
    rw [List.mem_append, List.mem_cons] at ho
    rcases ho with ho | rfl | ho
    · exact hblk _ (by decide) (by decide) es o ho
    · rfl
    · rw [List.eq_of_mem_replicate ho]; rfl
  obtain ⟨e1, e2, e3⟩ := marker_unique (isApp (b! "sign:pk")) (by simp [isApp]) (by simp [isApp])
    (hx es pk i) (hx es' pk' i') h'
  have hr : ∀ (i : Nat), ∀ o ∈ List.replicate (i + 1) (MOp.challenge (b! "R") 64), isApp (b! "pk-choice") o = false := by
    intro i o ho; rw [List.eq_of_mem_replicate ho]; rfl
  obtain ⟨e4, e5, e6⟩ := marker_unique (isApp (b! "pk-choice")) (by simp [isApp]) (by simp [isApp])
    (hr i) (hr i') e3
  refine ⟨(List.append_inj' e1 rfl).1, by simpa using e2, ?_, by simpa using e5, ?_⟩
  · refine flatMap_inj blk 4 (by omega) es es' ?_ ?_ ?_ e4
    · intro a ha; simp [blk, h3 a ha]
    · intro a ha; simp [blk, h3' a ha]
    · rintro ⟨a, as⟩ _ ⟨b, bs⟩ _ hab
      simp only [blk, List.cons.injEq, MOp.append.injEq, true_and] at hab
      rw [hab.1, map_append_inj _ hab.2]
  · have := congrArg List.length e6
    simpa using this

private theorem replicate_prf_inj {a a' : List MOp} {r r' : Bytes} {i i' : Nat}
    (h : a ++ [.rngKey r] ++ List.replicate (i + 1) (.prf 16) = a' ++ [.rngKey r'] ++ List.replicate (i' + 1) (.prf 16)) :
    a = a' ∧ r = r' ∧ i = i' := by
  let p : MOp → Bool := fun o => match o with | .rngKey _ => true | _ => false
  have hr : ∀ (i : Nat), ∀ o ∈ List.replicate (i + 1) (MOp.prf 16), p o = false := by
    intro i o ho; rw [List.eq_of_mem_replicate ho]
  rw [List.append_assoc, List.append_assoc] at h
  obtain ⟨h1, h2, h3⟩ := marker_unique p (by rfl) (by rfl) (hr i) (hr i') h
  refine ⟨h1, by simpa using h2, ?_⟩
  have := congrArg List.length h3
  simpa using this

/-- **C54** Queries of different places of the crate never coincide, whatever transcript histories the caller
supplies; and within one place a query determines everything fed in (apart from the parameters that do not
reach the hash at all, see `Use.norm`). -/
theorem hash_uses_separated (u v : Use) (hu : u.WF) (hv : v.WF) (h : u.query = v.query) : u.norm = v.norm := by
  have hk : kind u = kind v := by rw [← classify_query u hu, h, classify_query v hv]
  cases u <;> cases v <;> first | (exfalso; revert hk; simp only [kind]; omega) | skip
  all_goals simp only [Use.query] at h
  case musigCoeff.musigCoeff =>
    obtain ⟨rfl, rfl, rfl, rfl, rfl⟩ := coeff_inj _ _ _ _ _ _ _ _ _ _ hu hv h
    rfl
  case batchCoeff.batchCoeff pks Rs ds r i pks' Rs' ds' r' i' =>
    obtain ⟨h1, rfl, rfl⟩ := replicate_prf_inj h
    simp only [Use.WF] at hu hv
    have hl := congrArg List.length h1
    simp only [List.length_append, List.length_map, List.length_singleton] at hl
    obtain ⟨h2, h3⟩ := List.append_inj' h1 (by simp; omega)
    obtain ⟨h4, h5⟩ := List.append_inj' h2 (by simp; omega)
    obtain ⟨h6, h7⟩ := List.append_inj' h4 (by simp; omega)
    rw [map_append_inj _ h3, map_append_inj _ h5, map_append_inj _ h7]
  case vrfBatch.vrfBatch es r i es' r' i' =>
    obtain ⟨h1, rfl, rfl⟩ := replicate_prf_inj h
    have h1 := List.append_cancel_left h1
    rw [← List.flatMap_def, ← List.flatMap_def] at h1
    have := flatMap_inj _ 3 (by omega) es es' (fun _ _ => by simp [pairFrames]) (fun _ _ => by simp [pairFrames])
      (by rintro ⟨a, b, c⟩ _ ⟨a', b', c'⟩ _; simp [pairFrames]) h1
    rw [this]
  case merge.merge pk ps p pk' ps' p' =>
    unfold mergeQuery at h
    obtain ⟨h1, -⟩ := List.append_inj' h rfl
    obtain ⟨h2, h3⟩ := List.append_inj' h1 rfl
    obtain ⟨h4, h5⟩ := List.append_inj h2 rfl
    rw [← List.flatMap_def, ← List.flatMap_def] at h5
    have := flatMap_inj _ 2 (by omega) ps ps' (fun _ _ => by simp [pairFrames]) (fun _ _ => by simp [pairFrames])
      (by rintro ⟨a, b⟩ _ ⟨a', b'⟩ _; simp [pairFrames]) h5
    obtain ⟨a, b⟩ := p; obtain ⟨a', b'⟩ := p'
    simp [pairFrames] at h3 h4
    rw [this, h3.1, h3.2, h4]
  case musigWeight.musigWeight ks pk ks' pk' =>
    obtain ⟨h1, h2⟩ := List.append_inj' h rfl
    have := map_append_inj _ (List.append_cancel_left h1)
    simp at h2
    rw [this, h2]
  case vrfRng.vrfRng c p ns c' p' ns' =>
    obtain ⟨a, b⟩ := p; obtain ⟨a', b'⟩ := p'
    simp [pairFrames] at h
    obtain ⟨rfl, rfl, rfl, h⟩ := h
    have : ns = ns' := List.map_injective_iff.mpr (fun _ _ h => by simpa using h) h
    rw [this]
  case vrfResult.vrfResult c p n c' p' n' =>
    obtain ⟨a, b⟩ := p; obtain ⟨a', b'⟩ := p'
    simp [vrfResultQuery, pairFrames] at h
    obtain ⟨rfl, rfl, rfl, rfl⟩ := h
    rfl
  case vrfInput.vrfInput m log pk m' log' pk' =>
    cases m <;> cases m' <;> simp only [vrfInputQuery, Bool.false_eq_true, if_true, if_false, List.append_nil] at h
    · obtain ⟨h1, -⟩ := List.append_inj' h rfl
      obtain ⟨h1, h2⟩ := List.append_inj' h1 rfl
      simp at h2; rw [h1, h2]
    · obtain ⟨h1, -⟩ := List.append_inj' h rfl
      exact absurd (by rw [← h1]; simp) (hv pk)
    · obtain ⟨h1, -⟩ := List.append_inj' h rfl
      exact absurd (by rw [h1]; simp) (hu pk')
    · obtain ⟨h1, -⟩ := List.append_inj' h rfl
      rw [h1]; rfl
  case dleqNonce.dleqNonce log k h' pk s r log' k' h'' pk' s' r' =>
    cases k <;> cases k'
    · obtain ⟨rfl, rfl, rfl, rfl, rfl⟩ := (vrf_nonce_query_injective _ _ _ _ _ _ _ _ _ _).1.mp h
      rfl
    · exact absurd h.symm (vrf_nonce_query_injective _ _ _ _ _ _ _ _ _ _).2.2
    · exact absurd h (vrf_nonce_query_injective _ _ _ _ _ _ _ _ _ _).2.2
    · obtain ⟨rfl, rfl, rfl, rfl⟩ := (vrf_nonce_query_injective _ _ _ _ _ _ _ _ _ _).2.1.mp h
      rfl
  case dleq.dleq log k h' pk R Hr o log' k' h'' pk' R' Hr' o' =>
    cases k <;> cases k' <;>
      simp only [dleqQuery, Bool.false_eq_true, if_true, if_false, List.append_assoc, List.cons_append,
        List.nil_append] at h
    all_goals
      obtain ⟨h1, h2⟩ := List.append_inj' h rfl
      simp at h2
    · obtain ⟨rfl, rfl, rfl, rfl, rfl⟩ := h2; rw [h1]
    · obtain ⟨rfl, rfl, rfl, rfl, rfl⟩ := h2; rw [h1]
  case hardKey.hardKey i cc k i' cc' k' =>
    obtain ⟨rfl, rfl, rfl⟩ := (hard_query_injective _ _ _ _ _ _).1.mp h
    rfl
  case hardChain.hardChain i cc k i' cc' k' =>
    obtain ⟨rfl, rfl, rfl⟩ := (hard_query_injective _ _ _ _ _ _).1.mp (List.append_inj' h rfl).1
    rfl
  case musigNonce.musigNonce log s i r log' s' i' r' =>
    replace h := (witness_query_injective _ _ _ _ _ _ _ _ _ _ (by simp) (by simp)).mp h
    obtain ⟨rfl, -, h2, rfl, -⟩ := h
    simp only [List.cons.injEq, and_true] at h2
    obtain ⟨rfl, h2⟩ := h2
    simp only [Use.WF] at hu hv
    have := congrArg leNat h2
    rw [leNat_leBytes, leNat_leBytes, Nat.mod_eq_of_lt (by norm_num at hu ⊢; exact hu),
      Nat.mod_eq_of_lt (by norm_num at hv ⊢; exact hv)] at this
    rw [this]
  case legacy.legacy => simp at h; obtain ⟨rfl, rfl, rfl, rfl⟩ := h; rfl
  case kex.kex => simp [kexQuery, kexFrames] at h; obtain ⟨rfl, rfl, rfl, rfl, rfl⟩ := h; rfl
  case expandKey.expandKey => simp at h; rw [h]
  case expandNonce.expandNonce => simp at h; rw [h]
  case musigCommitment.musigCommitment => simp at h; obtain ⟨rfl, rfl, rfl⟩ := h; rfl
  case signature.signature =>
    simp only [schnorrFrames, List.append_assoc] at h
    obtain ⟨rfl, h2⟩ := List.append_inj' h rfl
    simp at h2; obtain ⟨rfl, rfl⟩ := h2; rfl
  case softKey.softKey =>
    obtain ⟨rfl, h2⟩ := List.append_inj' h rfl
    simp at h2; obtain ⟨rfl, rfl⟩ := h2; rfl
  case softChain.softChain =>
    obtain ⟨h, -⟩ := List.append_inj' h rfl
    obtain ⟨rfl, h2⟩ := List.append_inj' h rfl
    simp at h2; obtain ⟨rfl, rfl⟩ := h2; rfl
  case cert.cert =>
    obtain ⟨rfl, h2⟩ := List.append_inj' h rfl
    simp at h2; obtain ⟨rfl, rfl⟩ := h2; rfl
  case twoDh.twoDh =>
    simp only [twoDhQuery, kexFrames, List.append_assoc] at h
    obtain ⟨rfl, h2⟩ := List.append_inj' h rfl
    simp at h2; obtain ⟨rfl, rfl, rfl, rfl, rfl, rfl, rfl⟩ := h2; rfl
  case batchDigest.batchDigest =>
    replace h := (witness_query_injective _ _ _ _ _ _ _ _ _ _ (by simp) (by simp)).mp h
    obtain ⟨rfl, -⟩ := h; rfl
  case signNonce.signNonce =>
    obtain ⟨rfl, h2⟩ := List.append_inj' h rfl
    simp at h2; obtain ⟨rfl, rfl, rfl⟩ := h2; rfl
  case issuing.issuing =>
    replace h := (witness_query_injective _ _ _ _ _ _ _ _ _ _ (by simp) (by simp)).mp h
    obtain ⟨h1, -, h2, rfl, -⟩ := h
    obtain ⟨rfl, h3⟩ := List.append_inj' h1 rfl
    simp [certFrames] at h2 h3
    obtain ⟨rfl, rfl⟩ := h2; rw [h3]
  case accepting.accepting =>
    replace h := (witness_query_injective _ _ _ _ _ _ _ _ _ _ (by simp) (by simp)).mp h
    obtain ⟨h1, -, h2, rfl, -⟩ := h
    obtain ⟨rfl, h3⟩ := List.append_inj' h1 rfl
    simp [certFrames] at h2 h3
    obtain ⟨rfl, rfl⟩ := h2; rw [h3]
  case selfIssuing.selfIssuing =>
    replace h := (witness_query_injective _ _ _ _ _ _ _ _ _ _ (by simp) (by simp)).mp h
    obtain ⟨rfl, -, h2, rfl, -⟩ := h
    simp at h2; obtain ⟨rfl, rfl⟩ := h2; rfl
  case ephemeral.ephemeral =>
    replace h := (witness_query_injective _ _ _ _ _ _ _ _ _ _ (by simp) (by simp)).mp h
    obtain ⟨rfl, -, h2, rfl, -⟩ := h
    simp at h2; rw [h2]
  case derivedNonce.derivedNonce =>
    replace h := (witness_query_injective _ _ _ _ _ _ _ _ _ _ (by simp) (by simp)).mp h
    obtain ⟨h1, -, h2, rfl, -⟩ := h
    obtain ⟨h1, -⟩ := List.append_inj' h1 rfl
    obtain ⟨rfl, h3⟩ := List.append_inj' h1 rfl
    simp at h2 h3
    obtain ⟨rfl, rfl⟩ := h2; obtain ⟨rfl, rfl⟩ := h3; rfl

/-- **C54** nothing is lost in `norm` for uses outside the two exceptions: there the parameters themselves
are equal. -/
theorem hash_uses_separated_exact (u v : Use) (hu : u.WF) (hv : v.WF) (h : u.query = v.query)
    (h₁ : ∀ log pk, u ≠ .vrfInput true log pk) (h₂ : ∀ log h pk s r, u ≠ .dleqNonce log true h pk s r) : u = v := by
  have := hash_uses_separated u v hu hv h
  have hun : u.norm = u := by
    unfold Use.norm
    split
    · exact absurd rfl (h₁ _ _)
    · exact absurd rfl (h₂ _ _ _ _ _)
    · rfl
  rw [hun] at this
  subst this
  unfold Use.norm at h₁ h₂ ⊢
  split
  · simp only [] at h₁; exact absurd rfl (h₁ _ _)
  · simp only [] at h₂; exact absurd rfl (h₂ _ _ _ _ _)
  · rfl

/-- **C54** the MuSig nonce coefficients on a merlin transcript are answers to `musigCoeff` uses naming the
transcript history, the aggregate key, every participating key with its revealed points, and the key. -/
theorem musig_coeffs_are_queries {P : Type} [Ristretto P] [Oracles] (t : Transcript) (V : View P) (pk : Compressed) :
    let es := V.map fun e => (e.1.compressed.1, e.2.pts.1.map fun p => (compress p).1)
    nonceCoeffs t V pk = [0, 1, 2].map fun i =>
      hashToZ (Use.musigCoeff t.log (compress (aggregate V.keys)).1 es pk.1 i).query := by
  intro es
  have hf : ∀ (fs : List (Bytes × Bytes)) (t : Transcript),
      (commitFrames t fs).log = t.log ++ fs.map fun f => MOp.append f.1 f.2 := by
    intro fs
    induction fs with
    | nil => intro t; simp [commitFrames]
    | cons f fs ih =>
      intro t
      show (commitFrames (SigningTranscript.commitBytes t f.1 f.2) fs).log = _
      rw [ih]; simp [SigningTranscript.commitBytes, Transcript.appendMessage]
  have hc : ∀ (t : Transcript) (l : Bytes), SigningTranscript.challengeScalar t l =
      (Scalar.fromBytesModOrderWide (Oracles.merlin (t.log ++ [.challenge l 64]) 64), ⟨t.log ++ [.challenge l 64]⟩) :=
    fun _ _ => rfl
  have hq : (coeffFrames (aggregate V.keys) V pk).map (fun f => MOp.append f.1 f.2) =
      [.append (b! "proto-name") (b! "Schnorr-sig"), .append (b! "sign:pk") (compress (aggregate V.keys)).1] ++
      (es.flatMap fun e => .append (b! "pk-set") e.1 :: e.2.map (.append (b! "R"))) ++ [.append (b! "pk-choice") pk.1] := by
    simp [coeffFrames, es, List.map_flatMap, List.flatMap_map, Function.comp_def]
  unfold nonceCoeffs
  simp only [hc, hf, Scalar.toZ_wide, hq, List.map_cons, List.map_nil, Use.query, coeffQuery, hashToZ]
  simp [List.replicate]

/-- **C54** a multi-signature coefficient query fixes all keys, all revealed points, the aggregate key, the chosen
key and the transcript: two sessions share a coefficient only by agreeing on all of them. -/
theorem musig_coeff_query_injective {P : Type} [Ristretto P] [Oracles] (l₁ l₂ : List MOp) (A₁ A₂ : P)
    (V₁ V₂ : View P) (k₁ k₂ : Compressed) (i₁ i₂ : Nat)
    (h₁ : ∀ e ∈ V₁, compress e.1.point = e.1.compressed) (h₂ : ∀ e ∈ V₂, compress e.1.point = e.1.compressed)
    (h : (Use.musigCoeff l₁ (compress A₁).1 (V₁.map fun e => (e.1.compressed.1, e.2.pts.1.map fun p => (compress p).1)) k₁.1 i₁).query =
         (Use.musigCoeff l₂ (compress A₂).1 (V₂.map fun e => (e.1.compressed.1, e.2.pts.1.map fun p => (compress p).1)) k₂.1 i₂).query) :
    l₁ = l₂ ∧ A₁ = A₂ ∧ V₁ = V₂ ∧ k₁ = k₂ ∧ i₁ = i₂ := by
  have hw : ∀ V : View P, ∀ e ∈ V.map fun e => (e.1.compressed.1, e.2.pts.1.map fun p => (compress p).1), e.2.length = 3 := by
    intro V e he
    simp only [List.mem_map] at he
    obtain ⟨x, -, rfl⟩ := he
    simp [x.2.pts.2]
  obtain ⟨e1, e2, e3, e4, e5⟩ := coeff_inj _ _ _ _ _ _ _ _ _ _ (hw V₁) (hw V₂) h
  refine ⟨e1, compress_inj.mp (Subtype.ext e2), ?_, Subtype.ext e4, e5⟩
  clear h e2 e1 e4 e5
  induction V₁ generalizing V₂ with
  | nil => cases V₂ with
    | nil => rfl
    | cons => simp at e3
  | cons a V₁ ih =>
    cases V₂ with
    | nil => simp at e3
    | cons b V₂ =>
      simp only [List.map_cons, List.cons.injEq, Prod.mk.injEq] at e3
      obtain ⟨⟨ha, hb⟩, hr⟩ := e3
      rw [ih V₂ (fun e he => h₁ e (by simp [he])) (fun e he => h₂ e (by simp [he])) hr]
      have hk : a.1 = b.1 := by
        exact BMap.key_ext (h₁ a (by simp)) (h₂ b (by simp)) (Subtype.ext ha)
      have hp : a.2 = b.2 := by
        have : a.2.pts.1 = b.2.pts.1 :=
          List.map_injective_iff.mpr (fun _ _ h => compress_inj.mp (Subtype.ext h)) hb
        rcases ha2 : a.2 with ⟨x⟩
        rcases hb2 : b.2 with ⟨y⟩
        rw [ha2, hb2] at this
        exact congrArg RevealedPoints.mk (Subtype.ext this)
      rw [show a = b from Prod.ext hk hp]

/-- **C54** the digest of a merlin transcript that batch verification commits to is a `batchDigest` use. -/
theorem batch_digest_is_query [Oracles] (t : Transcript) :
    (SigningTranscript.witnessBytesRng t (b! "") 16 [[]] notAnRng).1 =
      Oracles.merlin (Use.batchDigest t.log).query 16 := by
  simp [SigningTranscript.witnessBytesRng, Transcript.rekeyAll, Transcript.finalizeRng, Transcript.rngFill,
    Use.query, witnessQuery]
  rfl

/-- Repeated `fill_bytes` on a merlin RNG: the answers to requests of the listed sizes. -/
def rngFills [Oracles] (trng : List MOp) : List Nat → List Bytes
  | [] => []
  | n :: ns => (Transcript.rngFill trng n).1.1 :: rngFills (Transcript.rngFill trng n).2 ns

/-- **C55** the `k`-th request to `make_merlin_rng(context)` is answered by the `vrfRng` use naming the context,
the input and output of the VRF, and the sizes of the requests so far. -/
theorem vrf_rng_is_query {P : Type} [Ristretto P] [Oracles] (p : VRFInOut P) (ctx : Bytes) (ns : List Nat) :
    (rngFills (p.makeMerlinRng ctx) ns).length = ns.length ∧
    ∀ k (h : k < ns.length), (rngFills (p.makeMerlinRng ctx) ns)[k]? =
      some (Oracles.merlin (Use.vrfRng ctx (p.input.compressed.1, p.output.compressed.1) (ns.take (k + 1))).query ns[k]).1 := by
  have h0 : p.makeMerlinRng ctx = [.append (b! "dom-sep") (b! "VRFResult"), .append (b! "") ctx] ++
      pairFrames (p.input.compressed.1, p.output.compressed.1) ++ [.rngKey (zeros 32).1] := by
    simp [VRFInOut.makeMerlinRng, Transcript.finalizeRng, Transcript.rekeyAll, Transcript.appendMessage,
      Transcript.new, VRFInOut.commit, SigningTranscript.commitPoint, SigningTranscript.commitBytes, pairFrames]
    rfl
  have key : ∀ (ns : List Nat) (l : List MOp), (rngFills l ns).length = ns.length ∧
      ∀ k (h : k < ns.length), (rngFills l ns)[k]? =
        some (Oracles.merlin (l ++ (ns.take (k + 1)).map .prf) ns[k]).1 := by
    intro ns
    induction ns with
    | nil => intro l; exact ⟨rfl, fun k h => absurd h (by simp)⟩
    | cons n ns ih =>
      intro l
      obtain ⟨a, b⟩ := ih (l ++ [.prf n])
      refine ⟨by simp [rngFills, Transcript.rngFill, a], ?_⟩
      intro k h
      cases k with
      | zero => simp [rngFills, Transcript.rngFill]
      | succ k =>
        have := b k (by simpa using h)
        simp only [rngFills, Transcript.rngFill, List.getElem?_cons_succ, List.getElem_cons_succ, List.take_succ_cons,
          List.map_cons]
        rw [this]; simp
  rw [h0]
  exact key ns _

/-- **C55** outputs of `make_merlin_rng` are never answers to a query of `make_bytes` (nor of `make_rng`), and two
of them coincide as queries only for equal context, input, output and request sizes. -/
theorem vrf_rng_query_injective (c₁ c₂ : Bytes) (p₁ p₂ : Bytes × Bytes) (ns₁ ns₂ : List Nat) (n : Nat)
    (h₁ : ns₁ ≠ []) (h₂ : ns₂ ≠ []) :
    ((Use.vrfRng c₁ p₁ ns₁).query = (Use.vrfRng c₂ p₂ ns₂).query ↔ c₁ = c₂ ∧ p₁ = p₂ ∧ ns₁ = ns₂) ∧
    (Use.vrfRng c₁ p₁ ns₁).query ≠ (Use.vrfResult c₂ p₂ n).query := by
  refine ⟨⟨fun h => ?_, by rintro ⟨rfl, rfl, rfl⟩; rfl⟩, fun h => ?_⟩
  · have := hash_uses_separated (.vrfRng c₁ p₁ ns₁) (.vrfRng c₂ p₂ ns₂) h₁ h₂ h
    simpa [Use.norm] using this
  · have := hash_uses_separated (.vrfRng c₁ p₁ ns₁) (.vrfResult c₂ p₂ n) h₁ trivial h
    simp [Use.norm] at this

/-- **C55** `make_rng` seeds the RNG with the answer to the `vrfResult` use of the seed's length; verifiers
and provers holding equal compressed inputs and outputs get the same RNG. -/
theorem make_rng_is_query {P : Type} [Ristretto P] [Oracles] {R : Type} {n : Nat} (fromSeed : Arr n → R)
    (p : VRFInOut P) (ctx : Bytes) :
    p.makeRng fromSeed ctx =
      fromSeed (Oracles.merlin (Use.vrfResult ctx (p.input.compressed.1, p.output.compressed.1) n).query n) := by
  unfold VRFInOut.makeRng
  congr 1

/-- **C53** `attach_chacharng(t, seed)` is `attach_rng` with the RNG of that seed: signatures made with it are a
function of the seed and do not touch the system RNG. -/
theorem attached_chacharng_deterministic {P : Type} [Ristretto P] {T : Type} [SigningTranscript T]
    (hT : DefaultWitness T) (t : T) (fromSeed : Arr 32 → Rng) (seed : Arr 32) (sk : SecretKey) (pk : PublicKey P)
    (sys : Rng) :
    (sk.sign (attachChachaRng fromSeed t seed) pk sys).1 = (sk.sign t pk (fromSeed seed)).1 ∧
    (sk.sign (attachChachaRng fromSeed t seed) pk sys).2.2 = sys :=
  (attached_rng_is_the_rng hT t (fromSeed seed) sys (⟨sk, pk⟩ : Keypair P)).1 pk

/-- Non-vacuity, and why `WF` restricts malleable VRF inputs: a history ending with the non-malleability frame,
wrapped in `Malleable`, asks the very query of a plain transcript. -/
example (log : List MOp) (pk : Bytes) :
    (Use.vrfInput true (log ++ [.append (b! "vrf-nm-pk") pk]) []).query = (Use.vrfInput false log pk).query := by
  simp [Use.query, vrfInputQuery]

/-- Non-vacuity: well-formed uses of different kinds exist, on the same caller history. -/
example (log : List MOp) (pk R : Bytes) : (Use.signature log pk R).WF ∧ (Use.cert log pk R).WF ∧
    (Use.signature log pk R).query ≠ (Use.cert log pk R).query := by
  refine ⟨trivial, trivial, fun h => ?_⟩
  have := hash_uses_separated (.signature log pk R) (.cert log pk R) trivial trivial h
  simp [Use.norm] at this

end Schnorrkel.Props
