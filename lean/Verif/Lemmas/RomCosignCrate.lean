import Verif.Lemmas.RomCosignDraw
import Verif.Props.MuSigLists

/-! # The owner, as the crate implements it -/

namespace Schnorrkel
open Spec Schnorrkel.Props
variable {P : Type} [Ristretto P] {D : Finset (List MOp)}

/-! ## Records of a session -/

theorem BMap.get?_mapKV' {V W : Type} (g : PublicKey P × V → W) (m : BMap P V) (x : PublicKey P) :
    (∃ e ∈ m, e.1.compressed = x.compressed ∧ m.get? x = some e.2 ∧ BMap.get? (m.map fun e => (e.1, g e)) x = some (g e)) ∨
    (m.get? x = none ∧ BMap.get? (m.map fun e => (e.1, g e)) x = none) := by
  induction m with
  | nil => exact Or.inr ⟨rfl, rfl⟩
  | cons e m ih =>
    obtain ⟨k, v⟩ := e
    simp only [List.map_cons, BMap.get?]
    cases hc : RistrettoBoth.cmp x k with
    | eq => exact Or.inl ⟨(k, v), by simp, ((cmp_eq_iff x k).mp hc).symm, rfl, rfl⟩
    | lt => exact Or.inr ⟨rfl, rfl⟩
    | gt =>
      rcases ih with ⟨e, he, h1, h2, h3⟩ | h
      · exact Or.inl ⟨e, by simp [he], h1, h2, h3⟩
      · exact Or.inr h

theorem registered_get (me : PublicKey P) (cs : List (P × Commitment)) (k : PublicKey P) (hk : k.compressed ≠ me.compressed) :
    (registered me cs).get? k = firstCommitment (commitCalls cs) k.compressed := by
  have key : ∀ (cs : List (P × Commitment)) (m : BMap P Commitment), m.Sorted →
      BMap.get? (cs.foldl (fun m e => if compress e.1 = me.compressed ∨ (m.get? (PublicKey.fromPoint e.1)).isSome then m
        else m.set (PublicKey.fromPoint e.1) e.2) m) k = (m.get? k).or (firstCommitment (commitCalls cs) k.compressed) := by
    intro cs
    induction cs with
    | nil => intro m _; simp [commitCalls, firstCommitment]
    | cons e cs ih =>
      intro m hm
      simp only [List.foldl_cons]
      have hfc : firstCommitment (commitCalls (e :: cs)) k.compressed =
          if compress e.1 = k.compressed then some e.2 else firstCommitment (commitCalls cs) k.compressed := by
        unfold firstCommitment commitCalls
        rw [List.map_cons, List.findSome?_cons]
        by_cases h : compress e.1 = k.compressed
        · have h' : (PublicKey.fromPoint e.1).compressed = k.compressed := h
          rw [if_pos h]
          simp only [if_pos h']
        · have h' : ¬ (PublicKey.fromPoint e.1).compressed = k.compressed := h
          rw [if_neg h]
          simp only [if_neg h']
      rw [hfc]
      split
      · rename_i h
        rw [ih m hm]
        split
        · rename_i hek
          rcases h with h | h
          · exact absurd (hek.symm.trans h) hk
          · rw [BMap.get?_congr m (a := PublicKey.fromPoint e.1) (b := k) hek] at h
            obtain ⟨c, hc⟩ := Option.isSome_iff_exists.mp h
            rw [hc]; rfl
        · rfl
      · rename_i h
        rw [not_or] at h
        rw [ih _ (BMap.sorted_set hm _ _), BMap.get?_set hm]
        by_cases hek : compress e.1 = k.compressed
        · have h2 := h.2
          rw [BMap.get?_congr m (a := PublicKey.fromPoint e.1) (b := k) hek] at h2
          rw [if_pos hek, if_pos (show k.compressed = (PublicKey.fromPoint e.1).compressed from hek.symm)]
          cases hg : m.get? k with
          | none => rfl
          | some c => rw [hg] at h2; exact absurd rfl h2
        · rw [if_neg hek, if_neg (show ¬ k.compressed = (PublicKey.fromPoint e.1).compressed from fun h => hek h.symm)]
  have := key cs [] (by simp [BMap.Sorted])
  unfold registered
  rw [this]
  rfl

theorem firstOpening_eq (O : Oracles) (rs : List (P × Reveal)) (k : Compressed) (c : Commitment) :
    (letI := O; firstOpening (revealCalls rs) k c) = firstOpen O rs k c := by
  unfold firstOpening firstOpen revealCalls
  rw [List.findSome?_map]
  rfl

theorem firstTrusted_eq (rs : List (P × Reveal)) (k : Compressed) : firstTrusted (revealCalls rs) k = none := by
  unfold firstTrusted revealCalls
  rw [List.findSome?_map, List.findSome?_eq_none_iff]
  intro e _
  rfl

/-- What is on record about someone who has sent a commitment. -/
def entryOf (O : Oracles) (rs : List (P × Reveal)) (e : PublicKey P × Commitment) : CoR P :=
  match firstOpen O rs e.1.compressed e.2 with
  | some p => .reveal p
  | none => .commit e.2

/-- What is on record in a session. -/
theorem session_Rs (O : Oracles) (kp : Keypair P) (hk : kp.pub.WF) (t : Transcript) (sys : Rng) (cs : List (P × Commitment)) (rs : List (P × Reveal)) :
    (letI := O; session kp t sys (commitCalls cs) (revealCalls rs)).Rs =
      BMap.set ((registered kp.pub cs).map fun e => (e.1, entryOf O rs e)) kp.pub (.reveal (letI := O; ownPoints kp t sys)) := by
  letI := O
  have hok := registered_ok kp.pub cs
  have hs : BMap.Sorted ((registered kp.pub cs).map fun e => (e.1, entryOf O rs e)) := BMap.sorted_map hok.sorted
  have hw : BMap.KeysWF ((registered kp.pub cs).map fun e => (e.1, entryOf O rs e)) := by
    intro e he
    obtain ⟨e', he', rfl⟩ := List.mem_map.mp he
    exact hok.wf e' he'
  refine BMap.ext_get? (session_sorted _ _ _ _ _) (BMap.sorted_set hs _ _) (session_wf kp hk t sys _ _ ?_ ?_) (BMap.keysWF_set hw hk _) ?_
  · intro c hc
    obtain ⟨e, -, rfl⟩ := List.mem_map.mp hc
    exact wf_fromPoint e.1
  · intro c hc
    obtain ⟨e, -, rfl⟩ := List.mem_map.mp hc
    exact wf_fromPoint e.1
  · intro x _
    rw [session_get, BMap.get?_set hs]
    by_cases hx : x.compressed = kp.pub.compressed
    · rw [if_pos hx, hx, status_me]; rfl
    · rw [if_neg hx]
      unfold status statusCommit
      rw [if_neg hx, ← registered_get kp.pub cs x hx]
      rcases BMap.get?_mapKV' (entryOf O rs) (registered kp.pub cs) x with ⟨e, he, h1, h2, h3⟩ | ⟨h1, h2⟩
      · rw [h2, h3]
        simp only [statusReveal]
        have := firstOpening_eq O rs x.compressed e.2
        rw [this]
        unfold entryOf
        rw [h1]
        cases firstOpen O rs x.compressed e.2 <;> rfl
      · rw [h1, h2]
        simp only [statusReveal]
        rw [firstTrusted_eq]
        rfl

theorem publicKeys_false {S : Type} (m : MuSig P Transcript S) : m.publicKeys false = m.Rs.map (·.1) := by
  unfold MuSig.publicKeys
  rw [← List.filterMap_eq_map]
  refine List.filterMap_congr fun e _ => ?_
  cases e.2 <;> rfl

theorem session_keys (O : Oracles) (kp : Keypair P) (hk : kp.pub.WF) (t : Transcript) (sys : Rng) (cs : List (P × Commitment)) (rs : List (P × Reveal)) :
    (letI := O; session kp t sys (commitCalls cs) (revealCalls rs)).publicKeys false = groupKeys kp.pub (registered kp.pub cs) := by
  rw [publicKeys_false, session_Rs O kp hk]
  unfold groupKeys BMap.keys
  refine keys_set kp.pub _ _ _ _ ?_
  rw [List.map_map, List.map_map]
  rfl

theorem set_map_val {V W : Type} (f : V → W) (me : PublicKey P) (v : V) : ∀ m : BMap P V,
    BMap.set (m.map fun e => (e.1, f e.2)) me (f v) = (BMap.set m me v).map fun e => (e.1, f e.2) := by
  intro m
  induction m with
  | nil => rfl
  | cons e m ih =>
    obtain ⟨k, x⟩ := e
    simp only [List.map_cons, BMap.set]
    cases RistrettoBoth.cmp me k with
    | eq => rfl
    | lt => rfl
    | gt => simp only [List.map_cons, ih]

theorem openBy_some (O : Oracles) (rs : List (P × Reveal)) : ∀ (coms : BMap P Commitment) (es : View P), openBy O coms rs = some es →
    (coms.map fun e => (e.1, entryOf O rs e)) = es.map fun e => (e.1, CoR.reveal e.2) := by
  intro coms
  induction coms with
  | nil =>
    intro es h
    unfold openBy at h
    simp only [List.mapM_nil, Option.pure_def, Option.some.injEq] at h
    subst h; rfl
  | cons e coms ih =>
    intro es h
    unfold openBy at h
    simp only [List.mapM_cons, Option.bind_eq_bind, Option.bind_eq_some_iff, Option.pure_def, Option.some.injEq, Option.map_eq_some_iff] at h
    obtain ⟨a, ⟨p, hp, rfl⟩, bs, hbs, rfl⟩ := h
    simp only [List.map_cons]
    rw [ih bs hbs]
    unfold entryOf
    rw [hp]

theorem openBy_none (O : Oracles) (rs : List (P × Reveal)) : ∀ coms : BMap P Commitment, openBy O coms rs = none →
    ∃ e ∈ coms, entryOf O rs e = .commit e.2 := by
  intro coms
  induction coms with
  | nil =>
    intro h
    unfold openBy at h
    simp at h
  | cons e coms ih =>
    intro h
    by_cases hf : firstOpen O rs e.1.compressed e.2 = none
    · refine ⟨e, by simp, ?_⟩
      unfold entryOf
      rw [hf]
    · obtain ⟨p, hp⟩ := Option.ne_none_iff_exists'.mp hf
      have : openBy O coms rs = none := by
        cases h' : openBy O coms rs with
        | none => rfl
        | some es =>
          unfold openBy at h h'
          rw [List.mapM_cons, hp, h'] at h
          cases h
      obtain ⟨e', he', h'⟩ := ih this
      exact ⟨e', by simp [he'], h'⟩

theorem viewOf_reveals (es : View P) : viewOf (es.map fun e => (e.1, CoR.reveal e.2)) = es := by
  unfold viewOf BMap.mapVal
  rw [List.filterMap_map]
  induction es with
  | nil => rfl
  | cons e es ih =>
    rw [List.filterMap_cons]
    show (e.1, e.2) :: _ = _
    rw [ih]

theorem session_view (O : Oracles) (kp : Keypair P) (hk : kp.pub.WF) (t : Transcript) (sys : Rng) (cs : List (P × Commitment)) (rs : List (P × Reveal))
    (es : View P) (h : openBy O (registered kp.pub cs) rs = some es) :
    viewOf (letI := O; session kp t sys (commitCalls cs) (revealCalls rs)).Rs = BMap.set es kp.pub (letI := O; ownPoints kp t sys) := by
  rw [session_Rs O kp hk, openBy_some O rs _ es h]
  rw [set_map_val CoR.reveal]
  exact viewOf_reveals _

theorem mem_map_keys {V : Type} {m : BMap P V} {e : PublicKey P × V} (h : e ∈ m) : e.1 ∈ m.map (·.1) := List.mem_map.mpr ⟨e, h, rfl⟩

theorem session_complete (O : Oracles) (kp : Keypair P) (hk : kp.pub.WF) (t : Transcript) (sys : Rng) (cs : List (P × Commitment)) (rs : List (P × Reveal)) :
    (letI := O; session kp t sys (commitCalls cs) (revealCalls rs)).publicKeys true =
      (letI := O; session kp t sys (commitCalls cs) (revealCalls rs)).publicKeys false ↔ openBy O (registered kp.pub cs) rs ≠ none := by
  letI := O
  set m := session kp t sys (commitCalls cs) (revealCalls rs) with hm
  have hg := session_good kp t sys (commitCalls cs) (revealCalls rs)
  rw [← hm] at hg
  have hE' : ∀ e ∈ m.Rs, ∀ s, e.2 ≠ .cosigned s := by
    intro e he s h; have := hg.early e he; rw [h] at this; exact this
  rw [publicKeys_true m hE', publicKeys_false]
  constructor
  · intro h hn
    obtain ⟨e, he, h1⟩ := openBy_none O rs _ hn
    have hget : m.Rs.get? e.1 = some (.commit e.2) := by
      have hok := registered_ok kp.pub cs
      have hs : BMap.Sorted ((registered kp.pub cs).map fun e => (e.1, entryOf O rs e)) := BMap.sorted_map hok.sorted
      rw [hm, session_Rs O kp hk, BMap.get?_set hs, if_neg (hok.me e he)]
      refine BMap.get?_of_mem hs ?_
      rw [← h1]
      exact List.mem_map.mpr ⟨e, he, rfl⟩
    obtain ⟨k, hk1, hk2⟩ := BMap.mem_of_get? hget
    have : k ∈ (viewOf m.Rs).keys := by
      rw [h]; exact mem_map_keys hk1
    obtain ⟨⟨k', p⟩, h3, rfl⟩ := List.mem_map.mp this
    obtain ⟨v, h4, h5⟩ := BMap.mem_mapVal.mp h3
    have := BMap.keys_inj hg.sorted hk1 h4 rfl
    simp only at this
    rw [← this] at h5
    cases h5
  · intro h
    obtain ⟨es, hes⟩ := Option.ne_none_iff_exists'.mp h
    rw [session_view O kp hk t sys cs rs es hes, session_Rs O kp hk, openBy_some O rs _ es hes, set_map_val CoR.reveal, List.map_map]
    rfl

end Schnorrkel
