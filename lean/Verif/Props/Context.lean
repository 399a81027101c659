import Verif.Lemmas.Sign
import Verif.Instance

/-! # C19, C20: contexts and transcripts -/

namespace Schnorrkel.Props
open SigningTranscript Spec

/-! ## C19: contexts -/

/-- The four ways to turn a context into a transcript. -/
inductive Msg where
  | bytes (m : Bytes)
  | xof (h : Arr 32)
  | hash256 (h : Arr 32)
  | hash512 (h : Arr 64)

/-- Transcript for a context and a message. -/
def Msg.transcript (ctx : Bytes) : Msg → Transcript
  | .bytes m => (signingContext ctx).bytes m
  | .xof h => (signingContext ctx).xof h
  | .hash256 h => (signingContext ctx).hash256 h
  | .hash512 h => (signingContext ctx).hash512 h

/-- **C19** transcripts are equal iff context, mode and message are equal. -/
theorem context_transcripts_injective (c₁ c₂ : Bytes) (m₁ m₂ : Msg) :
    m₁.transcript c₁ = m₂.transcript c₂ ↔ c₁ = c₂ ∧ m₁ = m₂ := by
  constructor
  · intro h
    have h := congrArg Transcript.log h
    cases m₁ <;> cases m₂ <;>
      simp [Msg.transcript, signingContext, SigningContext.new, SigningContext.bytes, Transcript.new,
        SigningContext.xof, SigningContext.hash256, SigningContext.hash512,
        Transcript.appendMessage] at h ⊢
    all_goals first | exact h | exact ⟨h.1, Subtype.ext h.2⟩
  · rintro ⟨rfl, rfl⟩; rfl

/-- **C19** the same `SigningContext` value may be used for any number of messages: making a
transcript leaves nothing behind (`&self`), and the history is exactly the documented one. -/
theorem context_transcript_history (c m : Bytes) :
    ((signingContext c).bytes m).log = Spec.ctxLog c m := rfl

/-- **C19** the histories for prehashed messages. -/
theorem context_prehash_history (c : Bytes) (h : Arr 32) (h' : Arr 64) :
    ((signingContext c).xof h).log =
      [.append (b! "dom-sep") (b! "SigningContext"), .append (b! "") c, .append (b! "sign-XoF") h.1] ∧
    ((signingContext c).hash256 h).log =
      [.append (b! "dom-sep") (b! "SigningContext"), .append (b! "") c, .append (b! "sign-256") h.1] ∧
    ((signingContext c).hash512 h').log =
      [.append (b! "dom-sep") (b! "SigningContext"), .append (b! "") c, .append (b! "sign-512") h'.1] := ⟨rfl, rfl, rfl⟩

/-- Mixed histories of commits and challenges, generic in the transcript. -/
def answers {T : Type} [SigningTranscript T] (t : T) : List XEv → List Bytes
  | [] => []
  | .commit l b :: es => answers (commitBytes t l b) es
  | .challenge l n :: es => (challengeBytes t l n).1.1 :: answers (challengeBytes t l n).2 es

/-- **C19** attaching an RNG changes no challenge, after any history of commits, challenges and of
witness draws on the attached transcript. -/
theorem attach_rng_transparent {T : Type} [SigningTranscript T] (t : T) (rng : Rng)
    (es₁ es₂ : List XEv) (l : Bytes) (n : Nat) (seeds : List Bytes) (sys : Rng) :
    let w := XEv.replay (attachRng t rng) es₁
    answers (attachRng t rng) es₁ = answers t es₁ ∧
    (XEv.replay (attachRng t rng) es₁).t = XEv.replay t es₁ ∧
    answers (witnessBytes w l n seeds sys).2.1 es₂ = answers (XEv.replay t es₁) es₂ := by
  have h1 : ∀ (es : List XEv) (t : T) (rng : Rng),
      answers (attachRng t rng) es = answers t es := by
    intro es
    induction es with
    | nil => intros; rfl
    | cons e es ih =>
      intro t rng
      cases e with
      | commit l b => exact ih _ _
      | challenge l n =>
        simp only [answers]
        exact congrArg₂ _ rfl (ih _ _)
  have h2 : ∀ (es : List XEv) (t : T) (rng : Rng),
      XEv.replay (attachRng t rng) es = attachRng (XEv.replay t es) rng := by
    intro es
    induction es with
    | nil => intros; rfl
    | cons e es ih =>
      intro t rng
      cases e with
      | commit l b => exact ih _ _
      | challenge l n => exact ih _ _
  refine ⟨h1 _ _ _, by rw [h2]; rfl, ?_⟩
  simp only [h2]
  exact h1 _ _ _

/-- **C19** witnesses from a transcript with attached RNG use only that RNG: the system RNG is not
touched, and the attached one is advanced. -/
theorem attach_rng_replaces_system_rng [Oracles] (t : Transcript) (rng sys : Rng) (l : Bytes) (n : Nat)
    (seeds : List Bytes) :
    (witnessBytes (attachRng t rng) l n seeds sys).2.2 = sys ∧
    (witnessBytes (attachRng t rng) l n seeds sys).2.1.rng = (rng.fill 32).2 ∧
    (witnessBytes (attachRng t rng) l n seeds sys).1 = (witnessBytes t l n seeds rng).1 :=
  ⟨rfl, rfl, rfl⟩

/-! ## C20: XoF framing -/

private theorem le8_inj {a b : Nat} (ha : a < 2 ^ 64) (hb : b < 2 ^ 64)
    (h : leBytes 8 a = leBytes 8 b) : a = b := by
  have := congrArg leNat h
  simp only [leNat_leBytes] at this
  rwa [Nat.mod_eq_of_lt (by omega), Nat.mod_eq_of_lt (by omega)] at this

private theorem le8_append {a b : Nat} (ha : a < 2 ^ 64) (hb : b < 2 ^ 64) {x y : Bytes}
    (h : leBytes 8 a ++ x = leBytes 8 b ++ y) : a = b ∧ x = y := by
  obtain ⟨h1, h2⟩ := List.append_inj h (by simp)
  exact ⟨le8_inj ha hb h1, h2⟩

private theorem frame_append {a b x y : Bytes} (ha : a.length < 2 ^ 64) (hb : b.length < 2 ^ 64)
    (h : frame a ++ x = frame b ++ y) : a = b ∧ x = y := by
  unfold frame at h
  rw [List.append_assoc, List.append_assoc] at h
  obtain ⟨h1, h2⟩ := le8_append ha hb h
  exact List.append_inj h2 h1

private theorem frames_inj : ∀ (s t : List Bytes), (∀ x ∈ s, x.length < 2 ^ 64) →
    (∀ x ∈ t, x.length < 2 ^ 64) → (s.map frame).flatten = (t.map frame).flatten → s = t
  | [], [], _, _, _ => rfl
  | [], b :: t, _, _, h => by
    have := congrArg List.length h
    simp [frame] at this
    omega
  | a :: s, [], _, _, h => by
    have := congrArg List.length h
    simp [frame] at this
  | a :: s, b :: t, hs, ht, h => by
    simp only [List.map_cons, List.flatten_cons] at h
    obtain ⟨h1, h2⟩ := frame_append (hs a (by simp)) (ht b (by simp)) h
    rw [h1, frames_inj s t (fun x hx => hs x (by simp [hx])) (fun x hx => ht x (by simp [hx])) h2]

private theorem witness_tail_inj {l₁ l₂ : Bytes} {n₁ n₂ : Nat} {s₁ s₂ : List Bytes} {r₁ r₂ : Arr 32}
    (h₁ : (XReq.witness l₁ n₁ s₁ r₁).Fits) (h₂ : (XReq.witness l₂ n₂ s₂ r₂).Fits)
    (h : (XReq.witness l₁ n₁ s₁ r₁).enc = (XReq.witness l₂ n₂ s₂ r₂).enc) :
    XReq.witness l₁ n₁ s₁ r₁ = XReq.witness l₂ n₂ s₂ r₂ := by
  obtain ⟨a1, a2, a3⟩ := h₁
  obtain ⟨c1, c2, c3⟩ := h₂
  unfold XReq.enc at h
  obtain ⟨h, hr⟩ := List.append_inj' h (by rw [r₁.2, r₂.2])
  obtain ⟨h, hn⟩ := List.append_inj' h (by simp)
  simp only [List.append_assoc] at h
  obtain ⟨h1, h2⟩ := frame_append a1 c1 (List.append_cancel_left h)
  rw [h1, le8_inj a2 c2 hn, Subtype.ext hr, frames_inj _ _ a3 c3 h2]

/-- Two XoF histories followed by requests give the same hash input only if they are identical. -/
private theorem tail_inj : ∀ (e₁ e₂ : List XEv) (q₁ q₂ : XReq), (∀ e ∈ e₁, e.Fits) →
    (∀ e ∈ e₂, e.Fits) → q₁.Fits → q₂.Fits →
    (e₁.map XEv.enc).flatten ++ q₁.enc = (e₂.map XEv.enc).flatten ++ q₂.enc → e₁ = e₂ ∧ q₁ = q₂ := by
  -- a challenge request is a challenge event followed by the terminator "xof"
  have key : ∀ (e₁ e₂ : List XEv) (w₁ w₂ : Option XReq), (∀ e ∈ e₁, e.Fits) →
      (∀ e ∈ e₂, e.Fits) →
      (∀ q, w₁ = some q → q.Fits ∧ ∃ l n s r, q = .witness l n s r) →
      (∀ q, w₂ = some q → q.Fits ∧ ∃ l n s r, q = .witness l n s r) →
      (e₁.map XEv.enc).flatten ++ (w₁.elim (b! "xof") XReq.enc) =
        (e₂.map XEv.enc).flatten ++ (w₂.elim (b! "xof") XReq.enc) → e₁ = e₂ ∧ w₁ = w₂ := by
    intro e₁
    induction e₁ with
    | nil =>
      intro e₂ w₁ w₂ _ f2 g1 g2 h
      cases e₂ with
      | nil =>
        refine ⟨rfl, ?_⟩
        cases w₁ with
        | none =>
          cases w₂ with
          | none => rfl
          | some q₂ =>
            obtain ⟨_, l, n, s, r, rfl⟩ := g2 _ rfl
            simp [XReq.enc] at h
        | some q₁ =>
          obtain ⟨f, l, n, s, r, rfl⟩ := g1 _ rfl
          cases w₂ with
          | none => simp [XReq.enc] at h
          | some q₂ =>
            obtain ⟨f', l', n', s', r', rfl⟩ := g2 _ rfl
            simp only [List.map_nil, List.flatten_nil, List.nil_append, Option.elim] at h
            rw [witness_tail_inj f f' h]
      | cons e e₂ =>
        exfalso
        cases w₁ with
        | none => cases e <;> simp [XEv.enc] at h
        | some q =>
          obtain ⟨_, l, n, s, r, rfl⟩ := g1 _ rfl
          cases e <;> simp [XEv.enc, XReq.enc] at h
    | cons e e₁ ih =>
      intro e₂ w₁ w₂ f1 f2 g1 g2 h
      cases e₂ with
      | nil =>
        exfalso
        cases w₂ with
        | none => cases e <;> simp [XEv.enc] at h
        | some q =>
          obtain ⟨_, l, n, s, r, rfl⟩ := g2 _ rfl
          cases e <;> simp [XEv.enc, XReq.enc] at h
      | cons e' e₂ =>
        have fe := f1 e (by simp)
        have fe' := f2 e' (by simp)
        have f1' : ∀ x ∈ e₁, x.Fits := fun x hx => f1 x (by simp [hx])
        have f2' : ∀ x ∈ e₂, x.Fits := fun x hx => f2 x (by simp [hx])
        cases e with
        | commit l b =>
          cases e' with
          | commit l' b' =>
            simp only [List.map_cons, List.flatten_cons, XEv.enc, List.append_assoc] at h
            obtain ⟨h1, h⟩ := frame_append fe.1 fe'.1 (List.append_cancel_left h)
            obtain ⟨h2, h⟩ := frame_append fe.2 fe'.2 h
            obtain ⟨h3, h4⟩ := ih e₂ w₁ w₂ f1' f2' g1 g2 h
            exact ⟨by rw [h1, h2, h3], h4⟩
          | challenge l' n' => simp [XEv.enc] at h
        | challenge l n =>
          cases e' with
          | commit l' b' => simp [XEv.enc] at h
          | challenge l' n' =>
            simp only [List.map_cons, List.flatten_cons, XEv.enc, List.append_assoc] at h
            obtain ⟨h1, h⟩ := frame_append fe.1 fe'.1 (List.append_cancel_left h)
            obtain ⟨h2, h⟩ := le8_append fe.2 fe'.2 h
            obtain ⟨h3, h4⟩ := ih e₂ w₁ w₂ f1' f2' g1 g2 h
            exact ⟨by rw [h1, h2, h3], h4⟩
  have norm : ∀ (es : List XEv) (q : XReq), (∀ e ∈ es, e.Fits) → q.Fits →
      ∃ (es' : List XEv) (w : Option XReq), (∀ e ∈ es', e.Fits) ∧
        (∀ q, w = some q → q.Fits ∧ ∃ l n s r, q = .witness l n s r) ∧
        (es.map XEv.enc).flatten ++ q.enc = (es'.map XEv.enc).flatten ++ (w.elim (b! "xof") XReq.enc) ∧
        ((∃ l n, q = .challenge l n ∧ w = none ∧ es' = es ++ [.challenge l n]) ∨
          (w = some q ∧ es' = es)) := by
    intro es q hes hq
    cases q with
    | challenge l n =>
      refine ⟨es ++ [.challenge l n], none, ?_, by simp, ?_, .inl ⟨l, n, rfl, rfl, rfl⟩⟩
      · intro e he
        rcases List.mem_append.mp he with h | h
        · exact hes e h
        · rw [List.mem_singleton] at h; subst h; exact hq
      · simp [XReq.enc]
    | witness l n s r =>
      exact ⟨es, some (.witness l n s r), hes, by rintro q ⟨⟩; exact ⟨hq, l, n, s, r, rfl⟩, rfl,
        .inr ⟨rfl, rfl⟩⟩
  intro e₁ e₂ q₁ q₂ f1 f2 g1 g2 h
  obtain ⟨es1, w1, a1, a2, a3, a4⟩ := norm e₁ q₁ f1 g1
  obtain ⟨es2, w2, c1, c2, c3, c4⟩ := norm e₂ q₂ f2 g2
  obtain ⟨h1, h2⟩ := key es1 es2 w1 w2 a1 c1 a2 c2 (by rw [← a3, ← c3, h])
  rcases a4 with ⟨l, n, rfl, rfl, rfl⟩ | ⟨rfl, rfl⟩
  · rcases c4 with ⟨l', n', rfl, rfl, rfl⟩ | ⟨rfl, rfl⟩
    · obtain ⟨h3, h4⟩ := List.append_inj' h1 rfl
      simp only [List.cons.injEq, and_true, XEv.challenge.injEq] at h4
      exact ⟨h3, by rw [h4.1, h4.2]⟩
    · cases h2
  · rcases c4 with ⟨l', n', rfl, rfl, rfl⟩ | ⟨rfl, rfl⟩
    · cases h2
    · exact ⟨h1, Option.some.inj h2⟩

private theorem replay_absorbed [Oracles] : ∀ (evs : List XEv) (t : XoFTranscript),
    (XEv.replay t evs).absorbed = t.absorbed ++ (evs.map XEv.enc).flatten
  | [], t => by simp [XEv.replay]
  | .commit l b :: es, t => by
    rw [XEv.replay, replay_absorbed es]
    simp [commitBytes, XoFTranscript.commitInput, inputBytes, XEv.enc, frame, le64]
  | .challenge l n :: es, t => by
    rw [XEv.replay, replay_absorbed es]
    simp [SigningTranscript.challengeBytes, XoFTranscript.challengeInput, inputBytes, XEv.enc, frame,
      le64]

/-- **C20** what the hash is asked: after any history of commits and challenges, a challenge (a
witness request) is answered by squeezing the hash of exactly `xofQuery`. -/
theorem xof_answers_are_queries [Oracles] (h : Bytes) (evs : List XEv) (l : Bytes) (n : Nat)
    (seeds : List Bytes) (rng : Rng) :
    let t := XEv.replay (XoFTranscript.new h) evs
    (challengeBytes t l n).1 = Oracles.xof (xofQuery h evs (.challenge l n)) n ∧
    (witnessBytesRng t l n seeds rng).1 =
      Oracles.xof (xofQuery h evs (.witness l n seeds (rng.fill 32).1)) n := by
  intro t
  have ht : t.absorbed = h ++ (evs.map XEv.enc).flatten := replay_absorbed evs _
  constructor
  · simp [SigningTranscript.challengeBytes, ht, XoFTranscript.challengeInput, inputBytes, xofQuery,
      XReq.enc, XEv.enc, frame, le64]
  · simp [witnessBytesRng, ht, XoFTranscript.witnessInput, inputBytes, xofQuery, XReq.enc, frame,
      le64]
    congr 1

/-- **C20** the hash input determines the whole history and the pending request: labels, lengths,
messages, nonce seeds and RNG bytes.  In particular challenge and witness inputs never coincide. -/
theorem xof_query_injective (h : Bytes) (e₁ e₂ : List XEv) (q₁ q₂ : XReq)
    (f₁ : ∀ e ∈ e₁, e.Fits) (f₂ : ∀ e ∈ e₂, e.Fits) (g₁ : q₁.Fits) (g₂ : q₂.Fits) :
    xofQuery h e₁ q₁ = xofQuery h e₂ q₂ ↔ e₁ = e₂ ∧ q₁ = q₂ := by
  constructor
  · intro hq
    unfold xofQuery at hq
    rw [List.append_assoc, List.append_assoc] at hq
    exact tail_inj e₁ e₂ q₁ q₂ f₁ f₂ g₁ g₂ (List.append_cancel_left hq)
  · rintro ⟨rfl, rfl⟩; rfl

/-- Non-vacuity: two requests that would be confused without the length framing. -/
example : xofQuery [] [.commit (b! "a") (b! "bc")] (.challenge (b! "x") 32) ≠
    xofQuery [] [.commit (b! "ab") (b! "c")] (.challenge (b! "x") 32) ∧
    (XEv.commit (b! "a") (b! "bc")).Fits ∧ (XReq.witness (b! "x") 64 [b! "s", b! "t"] (zeros 32)).Fits := by
  refine ⟨by decide +kernel, by simp [XEv.Fits], ?_⟩
  simp [XReq.Fits]

end Schnorrkel.Props
