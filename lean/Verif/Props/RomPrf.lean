import Verif.Lemmas.RomPrf
import Verif.Props.RomCollide

/-! # C71: values derived from a secret look random to everybody who cannot name the secret -/

namespace Schnorrkel.Props
open Spec
variable {P : Type} [Ristretto P] {α : Type}

/-! ## Soft derivation with a secret chain code -/

/-- The two queries of a soft derivation. -/
def softKq {S : Finset (List MOp × Arr 32)} (cc : Arr 32) (x : S × Bool) : List MOp :=
  if x.2 then softQuery x.1.1.1 cc.1 x.1.1.2.1 ++ [.challenge (b! "HDKD-chaincode") 32]
  else softQuery x.1.1.1 cc.1 x.1.1.2.1

theorem softKq_inj {S : Finset (List MOp × Arr 32)} (c : Arr 32) (x : S × Bool) (c' : Arr 32) (x' : S × Bool) (h : softKq c x = softKq c' x') :
    c = c' ∧ x = x' := by
  have key : ∀ a b : S, softQuery a.1.1 c.1 a.1.2.1 = softQuery b.1.1 c'.1 b.1.2.1 → c = c' ∧ a = b := by
    intro a b h
    obtain ⟨h1, h2, h3⟩ := (soft_query_injective _ _ _ _ _ _).1.mp h
    exact ⟨Subtype.ext h2, Subtype.ext (Prod.ext h1 (Subtype.ext h3))⟩
  obtain ⟨a, u⟩ := x
  obtain ⟨b, v⟩ := x'
  cases u <;> cases v <;> simp only [softKq, if_true, Bool.false_eq_true, if_false] at h
  · obtain ⟨h1, h2⟩ := key a b h
    exact ⟨h1, by rw [h2]⟩
  · exact ((soft_query_injective _ _ _ _ _ _).2 h).elim
  · exact ((soft_query_injective _ _ _ _ _ _).2 h.symm).elim
  · obtain ⟨h1, h2⟩ := key a b (List.append_inj' h rfl).1
    exact ⟨h1, by rw [h2]⟩

/-- `D` contains the queries of the soft derivations in `S`, for all chain codes. -/
def CoversSoft (D : Finset (List MOp)) (S : Finset (List MOp × Arr 32)) : Prop :=
  ∀ cc : Arr 32, ∀ r ∈ S, softQuery r.1 cc.1 r.2.1 ∈ D ∧
    softQuery r.1 cc.1 r.2.1 ++ [.challenge (b! "HDKD-chaincode") 32] ∈ D

theorem softKq_mem {D : Finset (List MOp)} {S : Finset (List MOp × Arr 32)} (h : CoversSoft D S) (cc : Arr 32)
    (x : S × Bool) : softKq cc x ∈ D := by
  unfold softKq
  split
  · exact (h cc _ x.1.2).2
  · exact (h cc _ x.1.2).1

theorem softChild_eq (O : Oracles) (cc : Arr 32) (sys : Rng) (r : Transcript × PublicKey P) :
    softChild O cc sys r = (RistrettoBoth.fromPoint (r.2.point +
      residue (O.merlin (softQuery r.1.log cc.1 r.2.compressed.1) 64) • (basepoint : P)),
      ⟨O.merlin (softQuery r.1.log cc.1 r.2.compressed.1 ++ [.challenge (b! "HDKD-chaincode") 32]) 32⟩) := by
  letI := O
  have h := (soft_derivation_spec (⟨⟨Scalar.ofZ 0, zeros 32⟩, r.2⟩ : Keypair P) (Scalar.canonical_ofZ 0) r.1 ⟨cc⟩ sys sys).2.2.1
  exact Prod.ext h.1 h.2

theorem softChild_withKeyed (O : Oracles) {D : Finset (List MOp)} {S : Finset (List MOp × Arr 32)} (hD : CoversSoft D S)
    (cc : Arr 32) (sys : Rng) (f : D → Arr 64) (g : S × Bool → Arr 64) (r : Transcript × PublicKey P)
    (hr : (r.1.log, r.2.compressed) ∈ S) :
    softChild (wideTable O D (withKeyed (softKq cc) f g)) cc sys r = freshChild g r := by
  have hi : Function.Injective (softKq (S := S) cc) := fun x x' h => (softKq_inj cc x cc x' h).2
  have h1 := wideTable_keyed64 O (softKq cc) hi f g (⟨_, hr⟩, false) (softKq_mem hD cc _)
  have h2 := wideTable_keyed O (softKq cc) hi f g (⟨_, hr⟩, true) (softKq_mem hD cc _) 32 (by omega)
  simp only [softKq, if_true, Bool.false_eq_true, if_false] at h1 h2
  rw [softChild_eq, h1, h2, freshChild, dif_pos hr]

/-- **C71** (soft derivation) with a chain code that is uniformly random and secret, the children — public keys and chain
codes — of any public keys on any transcripts, chosen adaptively by a client that asks at most `q` hash queries, look like
children made with fresh random bytes, up to `q / 2^256`. -/
theorem soft_derivation_pseudorandom (O : Oracles) (D : Finset (List MOp)) (S : Finset (List MOp × Arr 32))
    (hD : CoversSoft D S) (sys : Rng) (A : Client (Transcript × PublicKey P) (PublicKey P × ChainCode) α) (q : Nat)
    (hA : A.Bounded {r | (r.1.log, r.2.compressed) ∈ S} q) (win : α → Prop) :
    |chance (fun ω : Arr 32 × (D → Arr 64) =>
        win (A.play (wideTable O D ω.2) (softChild (wideTable O D ω.2) ω.1 sys))) -
      chance (fun ω : (D → Arr 64) × (S × Bool → Arr 64) => win (A.play (wideTable O D ω.1) (freshChild ω.2)))| ≤
    q / 2 ^ 256 := by
  have h := keyed_diff_guess O (softKq (S := S)) softKq_inj (softKq_mem hD)
    (fun cc f => softChild (wideTable O D f) cc sys) (fun _ g => freshChild g) {r | (r.1.log, r.2.compressed) ∈ S}
    (fun cc f g r hr => softChild_withKeyed O hD cc sys f g r hr) A q hA win
  rw [card_arr32, Nat.cast_pow, Nat.cast_ofNat] at h
  exact h

/-! ## Unlinkability -/

/-- The two queries of a soft derivation from a fixed public key. -/
def linkKq {S : Finset (List MOp)} (pk : Arr 32) (cc : Arr 32) (x : S × Bool) : List MOp :=
  if x.2 then softQuery x.1.1 cc.1 pk.1 ++ [.challenge (b! "HDKD-chaincode") 32] else softQuery x.1.1 cc.1 pk.1

theorem linkKq_inj {S : Finset (List MOp)} (pk c : Arr 32) (x : S × Bool) (c' : Arr 32) (x' : S × Bool)
    (h : linkKq pk c x = linkKq pk c' x') : c = c' ∧ x = x' := by
  have key : ∀ a b : S, softQuery a.1 c.1 pk.1 = softQuery b.1 c'.1 pk.1 → c = c' ∧ a = b := by
    intro a b h
    obtain ⟨h1, h2, -⟩ := (soft_query_injective _ _ _ _ _ _).1.mp h
    exact ⟨Subtype.ext h2, Subtype.ext h1⟩
  obtain ⟨a, u⟩ := x
  obtain ⟨b, v⟩ := x'
  cases u <;> cases v <;> simp only [linkKq, if_true, Bool.false_eq_true, if_false] at h
  · obtain ⟨h1, h2⟩ := key a b h
    exact ⟨h1, by rw [h2]⟩
  · exact ((soft_query_injective _ _ _ _ _ _).2 h).elim
  · exact ((soft_query_injective _ _ _ _ _ _).2 h.symm).elim
  · obtain ⟨h1, h2⟩ := key a b (List.append_inj' h rfl).1
    exact ⟨h1, by rw [h2]⟩

/-- `D` contains the queries of the soft derivations from `pk` on the transcripts in `S`, for all chain codes. -/
def CoversLink (D : Finset (List MOp)) (S : Finset (List MOp)) (pk : PublicKey P) : Prop :=
  ∀ cc : Arr 32, ∀ r ∈ S, softQuery r cc.1 pk.compressed.1 ∈ D ∧
    softQuery r cc.1 pk.compressed.1 ++ [.challenge (b! "HDKD-chaincode") 32] ∈ D

theorem linkKq_mem {D S : Finset (List MOp)} {pk : PublicKey P} (h : CoversLink D S pk) (cc : Arr 32)
    (x : S × Bool) : linkKq pk.compressed cc x ∈ D := by
  unfold linkKq
  split
  · exact (h cc _ x.1.2).2
  · exact (h cc _ x.1.2).1

theorem link_diff (O : Oracles) (D S : Finset (List MOp)) (pk : PublicKey P)
    (hD : CoversLink D S pk) (sys : Rng) (A : Client Transcript (PublicKey P × ChainCode) α) (q : Nat)
    (hA : A.Bounded {t | t.log ∈ S} q) (win : α → Prop) :
    |chance (fun ω : Arr 32 × (D → Arr 64) =>
        win (A.play (wideTable O D ω.2) fun t => softChild (wideTable O D ω.2) ω.1 sys (t, pk))) -
      chance (fun ω : (D → Arr 64) × (S × Bool → Arr 64) => win (A.play (wideTable O D ω.1) (freshChildOf pk ω.2)))| ≤
    q / 2 ^ 256 := by
  have h := keyed_diff_guess O (linkKq (S := S) pk.compressed) (linkKq_inj pk.compressed) (linkKq_mem hD)
    (fun cc f t => softChild (wideTable O D f) cc sys (t, pk)) (fun _ g => freshChildOf pk g) {t | t.log ∈ S}
    (fun cc f g t ht => by
      have hi : Function.Injective (linkKq (S := S) pk.compressed cc) := fun x x' h => (linkKq_inj _ cc x cc x' h).2
      have h1 := wideTable_keyed64 O (linkKq pk.compressed cc) hi f g (⟨_, ht⟩, false) (linkKq_mem hD cc _)
      have h2 := wideTable_keyed O (linkKq pk.compressed cc) hi f g (⟨_, ht⟩, true) (linkKq_mem hD cc _) 32 (by omega)
      simp only [linkKq, if_true, Bool.false_eq_true, if_false] at h1 h2
      exact (softChild_eq _ cc sys (t, pk)).trans (by rw [h1, h2, freshChildOf, dif_pos (show t.log ∈ S from ht)])) A q hA win
  rw [card_arr32, Nat.cast_pow, Nat.cast_ofNat] at h
  exact h

/-- The random bytes for tweaks, shifted. -/
def shiftTweaks {S : Finset (List MOp)} (c : Z) (g : S × Bool → Arr 64) : S × Bool → Arr 64 :=
  fun x => if x.2 then g x else shift c (g x)

/-- Shifting is a permutation. -/
def shiftTweaksEquiv {S : Finset (List MOp)} (c : Z) : (S × Bool → Arr 64) ≃ (S × Bool → Arr 64) :=
  Equiv.piCongrRight fun x => if x.2 then Equiv.refl _ else shift c

theorem shiftTweaksEquiv_apply {S : Finset (List MOp)} (c : Z) (g : S × Bool → Arr 64) :
    shiftTweaksEquiv c g = shiftTweaks c g := by
  funext x
  unfold shiftTweaksEquiv shiftTweaks
  simp only [Equiv.piCongrRight_apply, Pi.map_apply]
  split <;> rfl

theorem freshChildOf_shift {S : Finset (List MOp)} (pk pk' : PublicKey P) (c : Z) (hc : pk.point = pk'.point + c • basepoint)
    (g : S × Bool → Arr 64) (h : ∀ s : S, ¬ Beyond (g (s, false))) (t : Transcript) (ht : t.log ∈ S) :
    freshChildOf pk g t = freshChildOf pk' (shiftTweaks c g) t := by
  unfold freshChildOf
  rw [dif_pos ht, dif_pos ht]
  simp only [shiftTweaks, Bool.false_eq_true, if_false, if_true]
  rw [residue_shift c _ (h _), hc, add_smul, add_assoc, add_comm (c • basepoint)]

theorem client_play_congr {Req Ans : Type} (O : Oracles) (s₁ s₂ : Req → Ans) (S : Set Req) (h : ∀ r ∈ S, s₁ r = s₂ r)
    (A : Client Req Ans α) (hA : A.Requests S) : A.play O s₁ = A.play O s₂ :=
  client_play_eq (X := Empty) O O s₁ s₂ S (fun e => nomatch e) (fun _ _ => rfl) h A hA (fun _ _ e => nomatch e)

theorem fresh_le (O : Oracles) (D S : Finset (List MOp)) (pk pk' : PublicKey P) (A : Client Transcript (PublicKey P × ChainCode) α)
    (hA : A.Requests {t | t.log ∈ S}) (win : α → Prop) :
    chance (fun ω : (D → Arr 64) × (S × Bool → Arr 64) => win (A.play (wideTable O D ω.1) (freshChildOf pk ω.2))) ≤
    chance (fun ω : (D → Arr 64) × (S × Bool → Arr 64) => win (A.play (wideTable O D ω.1) (freshChildOf pk' ω.2))) +
      S.card * spare := by
  obtain ⟨c, hc⟩ := exists_smul_basepoint (pk.point - pk'.point)
  have hc' : pk.point = pk'.point + c • basepoint := by rw [← hc]; abel
  have hb : chance (fun g : S × Bool → Arr 64 => ∃ s : S, Beyond (g (s, false))) ≤ S.card * spare := by
    have := chance_exists_le (fun (s : S) (g : S × Bool → Arr 64) => Beyond (g (s, false))) spare
      (fun s => by rw [chance_coord]; exact chance_beyond)
    rwa [Fintype.card_coe] at this
  rw [chance_eq_avg] at hb
  rw [chance_eq_avg, chance_eq_avg, avg_prod, avg_prod]
  refine le_trans (avg_mono (G := fun f => (avg fun g : S × Bool → Arr 64 => ind (win (A.play (wideTable O D f) (freshChildOf pk' g)))) +
    S.card * spare) fun f => ?_) ?_
  · simp only
    rw [← avg_equiv (shiftTweaksEquiv c) fun g => ind (win (A.play (wideTable O D f) (freshChildOf pk' g)))]
    refine le_trans (avg_mono (G := fun g => ind (win (A.play (wideTable O D f) (freshChildOf pk' (shiftTweaksEquiv c g)))) +
      ind (∃ s : S, Beyond (g (s, false)))) fun g => ?_) ?_
    · refine (ind_diff _ _ _ fun h => ?_).1
      rw [shiftTweaksEquiv_apply, client_play_congr (wideTable O D f) _ _ {t : Transcript | t.log ∈ S}
        (fun t ht => freshChildOf_shift pk pk' c hc' g (fun s hs => h ⟨s, hs⟩) t ht) A hA]
    · rw [avg_add]
      linarith
  · rw [avg_add, avg_const]

/-- **C71** (unlinkability) with a secret random chain code, children of `pk` and children of `pk'` — on transcripts chosen
adaptively by a client that knows both parents and asks at most `q` hash queries — look the same, up to `2q / 2^256` and
`2^-259` for each transcript. -/
theorem soft_derivation_unlinkable (O : Oracles) (D S : Finset (List MOp)) (pk pk' : PublicKey P)
    (hD : CoversLink D S pk) (hD' : CoversLink D S pk') (sys : Rng) (A : Client Transcript (PublicKey P × ChainCode) α) (q : Nat)
    (hA : A.Bounded {t | t.log ∈ S} q) (win : α → Prop) :
    |chance (fun ω : Arr 32 × (D → Arr 64) =>
        win (A.play (wideTable O D ω.2) fun t => softChild (wideTable O D ω.2) ω.1 sys (t, pk))) -
      chance (fun ω : Arr 32 × (D → Arr 64) =>
        win (A.play (wideTable O D ω.2) fun t => softChild (wideTable O D ω.2) ω.1 sys (t, pk')))| ≤
    2 * q / 2 ^ 256 + S.card * spare := by
  have h1 := abs_le.mp (link_diff O D S pk hD sys A q hA win)
  have h2 := abs_le.mp (link_diff O D S pk' hD' sys A q hA win)
  have h3 := fresh_le O D S pk pk' A (client_bounded_requests _ A q hA) win
  have h4 := fresh_le O D S pk' pk A (client_bounded_requests _ A q hA) win
  have e : (2 * q / 2 ^ 256 : ℚ) = q / 2 ^ 256 + q / 2 ^ 256 := by ring
  rw [abs_le, e]
  constructor <;> linarith [h1.1, h1.2, h2.1, h2.2]

/-! ## Hard derivation -/

/-- The two queries of a hard derivation. -/
def hardKq {S : Finset (Option ChainCode × Bytes)} (key : Bytes) (x : S × Bool) : List MOp :=
  if x.2 then hardQuery x.1.1.2 (x.1.1.1.map (·.bytes.1)) key ++ [.challenge (b! "HDKD-chaincode") 32]
  else hardQuery x.1.1.2 (x.1.1.1.map (·.bytes.1)) key

theorem hardKq_inj {S : Finset (Option ChainCode × Bytes)} (key : Bytes) : Function.Injective (hardKq (S := S) key) := by
  have hmap : ∀ a b : Option ChainCode, a.map (·.bytes.1) = b.map (·.bytes.1) → a = b := by
    rintro (_ | ⟨a⟩) (_ | ⟨b⟩) h
    · rfl
    · simp at h
    · simp at h
    · simp only [Option.map_some, Option.some.injEq] at h
      exact congrArg (fun x => some (ChainCode.mk x)) (Subtype.ext h)
  have key' : ∀ a b : S, hardQuery a.1.2 (a.1.1.map (·.bytes.1)) key = hardQuery b.1.2 (b.1.1.map (·.bytes.1)) key → a = b := by
    intro a b h
    obtain ⟨h1, h2, -⟩ := (hard_query_injective _ _ _ _ _ _).1.mp h
    exact Subtype.ext (Prod.ext (hmap _ _ h2) h1)
  have hne : ∀ (i j : Bytes) (c d : Option Bytes),
      hardQuery i c key ≠ hardQuery j d key ++ [.challenge (b! "HDKD-chaincode") 32] := by
    intro i j c d h
    have := congrArg List.getLast? h
    simp [hardQuery] at this
  rintro ⟨a, u⟩ ⟨b, v⟩ h
  cases u <;> cases v <;> simp only [hardKq, if_true, Bool.false_eq_true, if_false] at h
  · rw [key' a b h]
  · exact (hne _ _ _ _ h).elim
  · exact (hne _ _ _ _ h.symm).elim
  · rw [key' a b (List.append_inj' h rfl).1]

/-- `D` contains the queries of the hard derivations in `S` from `sk`. -/
def CoversHard (D : Finset (List MOp)) (S : Finset (Option ChainCode × Bytes)) (sk : SecretKey) : Prop :=
  ∀ r ∈ S, hardQuery r.2 (r.1.map (·.bytes.1)) sk.key.bytes.1 ∈ D ∧
    hardQuery r.2 (r.1.map (·.bytes.1)) sk.key.bytes.1 ++ [.challenge (b! "HDKD-chaincode") 32] ∈ D

theorem hardKq_names {S : Finset (Option ChainCode × Bytes)} (key : Bytes) (x : S × Bool) : Names key (hardKq key x) := by
  refine ⟨b! "secret-key", ?_⟩
  unfold hardKq hardQuery
  split <;> simp

/-- **C71** (hard derivation) whatever the secret key, and whatever the client knows about it: the children — mini secret
keys and chain codes — on any indices and chain codes that the client chooses look like independent random strings, except
as far as the client, *when given random strings*, hashes something that contains the secret scalar. -/
theorem hard_derivation_pseudorandom (O : Oracles) (D : Finset (List MOp)) (S : Finset (Option ChainCode × Bytes))
    (sk : SecretKey) (hD : CoversHard D S sk)
    (A : Client (Option ChainCode × Bytes) (MiniSecretKey × ChainCode) α) (hA : A.Requests {r | r ∈ S}) (win : α → Prop) :
    |chance (fun f : D → Arr 64 => win (A.play (wideTable O D f) (hardChild (wideTable O D f) sk))) -
      chance (fun ω : (D → Arr 64) × (S × Bool → Arr 64) => win (A.play (wideTable O D ω.1) (randomChild ω.2)))| ≤
    chance (fun ω : (D → Arr 64) × (S × Bool → Arr 64) =>
      ∃ l ∈ A.asked (wideTable O D ω.1) (randomChild ω.2), Names sk.key.bytes.1 l) := by
  have hm : ∀ x : S × Bool, hardKq sk.key.bytes.1 x ∈ D := by
    intro x
    unfold hardKq
    split
    · exact (hD _ x.1.2).2
    · exact (hD _ x.1.2).1
  refine le_trans (keyed_diff_fixed O (hardKq (S := S) sk.key.bytes.1) (hardKq_inj _) hm
    (fun f => hardChild (wideTable O D f) sk) (fun _ g => randomChild g) {r | r ∈ S} (fun f g r hr => ?_) A hA win) ?_
  · have h1 := wideTable_keyed O (hardKq sk.key.bytes.1) (hardKq_inj _) f g (⟨r, hr⟩, false) (hm _) 32 (by omega)
    have h2 := wideTable_keyed O (hardKq sk.key.bytes.1) (hardKq_inj _) f g (⟨r, hr⟩, true) (hm _) 32 (by omega)
    simp only [hardKq, if_true, Bool.false_eq_true, if_false] at h1 h2
    unfold hardChild randomChild
    rw [dif_pos (show r ∈ S from hr)]
    refine (@hard_derivation_spec Toy _ (_) sk r.1 r.2).1.trans ?_
    exact Prod.ext (congrArg MiniSecretKey.mk h1) (congrArg ChainCode.mk h2)
  · refine chance_mono ?_
    rintro ω ⟨l, hl, x, rfl⟩
    exact ⟨_, hl, hardKq_names _ x⟩

/-! ## Session keys and VRF output bytes -/

/-- **C71** (session keys) whatever the keys of the two parties: their session keys for any contexts the client chooses look
like independent random strings, except as far as the client, when given random strings, hashes something that contains the
shared Diffie-Hellman point. -/
theorem aead_key_pseudorandom (O : Oracles) (D : Finset (List MOp)) (S : Finset Bytes) (kp : Keypair P) (pk : PublicKey P)
    (n : Nat) (hn : n ≤ 64) (hD : ∀ ctx ∈ S, kexOf ctx kp pk n ∈ D)
    (A : Client Bytes (Arr n) α) (hA : A.Requests {r | r ∈ S}) (win : α → Prop) :
    |chance (fun f : D → Arr 64 =>
        win (A.play (wideTable O D f) fun ctx => letI := wideTable O D f; kp.aeadUnauthenticated ctx pk n)) -
      chance (fun ω : (D → Arr 64) × (S → Arr 64) => win (A.play (wideTable O D ω.1) (randomBytes ω.2 n hn)))| ≤
    chance (fun ω : (D → Arr 64) × (S → Arr 64) =>
      ∃ l ∈ A.asked (wideTable O D ω.1) (randomBytes ω.2 n hn), Names (compress (kp.secret.key.val • pk.point)).1 l) := by
  have hi : Function.Injective (fun ctx : S => kexOf ctx.1 kp pk n) := by
    intro a b h
    simp only [kexOf, kexQuery] at h
    simp only [List.cons_append, List.nil_append, List.cons.injEq, MOp.append.injEq, true_and, and_true] at h
    exact Subtype.ext h
  refine le_trans (keyed_diff_fixed O (fun ctx : S => kexOf ctx.1 kp pk n) hi (fun x => hD _ x.2)
    (fun f ctx => letI := wideTable O D f; kp.aeadUnauthenticated ctx pk n) (fun _ g => randomBytes g n hn) {r | r ∈ S}
    (fun f g r hr => ?_) A hA win) ?_
  · rw [@aead_unauthenticated_kexOf P _ (_)]
    have := wideTable_keyed O (fun ctx : S => kexOf ctx.1 kp pk n) hi f g ⟨r, hr⟩ (hD _ hr) n hn
    unfold randomBytes
    rw [dif_pos (show r ∈ S from hr)]
    exact this
  · refine chance_mono ?_
    rintro ω ⟨l, hl, x, rfl⟩
    refine ⟨_, hl, b! "kex", ?_⟩
    simp [kexOf, kexQuery, kexFrames]

/-- **C71** (VRF output bytes) for every input/output pair: the bytes made from it for any contexts look like independent random
strings, except as far as the client, when given random strings, hashes something that contains the VRF output point. -/
theorem vrf_bytes_pseudorandom (O : Oracles) (D : Finset (List MOp)) (S : Finset Bytes) (io : VRFInOut P)
    (n : Nat) (hn : n ≤ 64) (hD : ∀ ctx ∈ S, vrfResultQuery ctx (io.input.compressed.1, io.output.compressed.1) n ∈ D)
    (A : Client Bytes (Arr n) α) (hA : A.Requests {r | r ∈ S}) (win : α → Prop) :
    |chance (fun f : D → Arr 64 =>
        win (A.play (wideTable O D f) fun ctx => letI := wideTable O D f; io.makeBytes ctx n)) -
      chance (fun ω : (D → Arr 64) × (S → Arr 64) => win (A.play (wideTable O D ω.1) (randomBytes ω.2 n hn)))| ≤
    chance (fun ω : (D → Arr 64) × (S → Arr 64) =>
      ∃ l ∈ A.asked (wideTable O D ω.1) (randomBytes ω.2 n hn), Names io.output.compressed.1 l) := by
  let kq : S → List MOp := fun ctx => vrfResultQuery ctx.1 (io.input.compressed.1, io.output.compressed.1) n
  have hi : Function.Injective kq := fun a b h => Subtype.ext (vrf_result_query_injective h).1
  refine le_trans (keyed_diff_fixed O kq hi (fun x => hD _ x.2)
    (fun f ctx => letI := wideTable O D f; io.makeBytes ctx n) (fun _ g => randomBytes g n hn) {r | r ∈ S}
    (fun f g r hr => ?_) A hA win) ?_
  · rw [@make_bytes_is_query P _ (_)]
    have := wideTable_keyed O kq hi f g ⟨r, hr⟩ (hD _ hr) n hn
    unfold randomBytes
    rw [dif_pos (show r ∈ S from hr)]
    exact this
  · refine chance_mono ?_
    rintro ω ⟨l, hl, x, rfl⟩
    refine ⟨_, hl, b! "vrf-out", ?_⟩
    simp [kq, vrfResultQuery, pairFrames]

theorem reciever_aead_twoDhOf [Oracles] (log : List MOp) (kp : Keypair P) (epk spk : PublicKey P) (n : Nat) :
    kp.recieverAead (⟨log⟩ : Transcript) epk spk n = Oracles.merlin (twoDhOf log kp epk spk n) n := by
  obtain ⟨lo, hi, lo', hi', h1, h2, h3⟩ := reciever_aead_is_query kp ⟨log⟩ epk spk n
  obtain ⟨rfl, rfl⟩ := sortedPair_unique h1 (sortedPair_if _ _)
  obtain ⟨rfl, rfl⟩ := sortedPair_unique h2 (sortedPair_if _ _)
  exact h3

/-- **C71** (session keys, 2DH) whatever the keys of receiver, ephemeral and sender: the receiver's session keys on any
transcripts the client chooses look like independent random strings, except as far as the client, when given random strings,
hashes something that contains *both* Diffie-Hellman points. -/
theorem two_dh_key_pseudorandom (O : Oracles) (D S : Finset (List MOp)) (kp : Keypair P) (epk spk : PublicKey P)
    (n : Nat) (hn : n ≤ 64) (hD : ∀ log ∈ S, twoDhOf log kp epk spk n ∈ D)
    (A : Client (List MOp) (Arr n) α) (hA : A.Requests {r | r ∈ S}) (win : α → Prop) :
    |chance (fun f : D → Arr 64 =>
        win (A.play (wideTable O D f) fun log => letI := wideTable O D f; kp.recieverAead (⟨log⟩ : Transcript) epk spk n)) -
      chance (fun ω : (D → Arr 64) × (S → Arr 64) => win (A.play (wideTable O D ω.1) (randomBytes ω.2 n hn)))| ≤
    chance (fun ω : (D → Arr 64) × (S → Arr 64) =>
      ∃ l ∈ A.asked (wideTable O D ω.1) (randomBytes ω.2 n hn), Names (compress (kp.secret.key.val • epk.point)).1 l ∧
        Names (compress (kp.secret.key.val • spk.point)).1 l) := by
  let kq : S → List MOp := fun log => twoDhOf log.1 kp epk spk n
  have hi : Function.Injective kq := fun a b h => Subtype.ext (two_dh_query_injective h).1
  refine le_trans (keyed_diff_fixed O kq hi (fun x => hD _ x.2)
    (fun f log => letI := wideTable O D f; kp.recieverAead (⟨log⟩ : Transcript) epk spk n) (fun _ g => randomBytes g n hn)
    {r | r ∈ S} (fun f g r hr => ?_) A hA win) ?_
  · rw [@reciever_aead_twoDhOf P _ (_)]
    have := wideTable_keyed O kq hi f g ⟨r, hr⟩ (hD _ hr) n hn
    unfold randomBytes
    rw [dif_pos (show r ∈ S from hr)]
    exact this
  · refine chance_mono ?_
    rintro ω ⟨l, hl, x, rfl⟩
    refine ⟨_, hl, ⟨b! "epk", ?_⟩, ⟨b! "epk", ?_⟩⟩ <;> simp [kq, twoDhOf, twoDhQuery, kexFrames]

/-! ## Commitments -/

theorem commitmentQuery_first (v v' : Fin 3 → Arr 64)
    (h : commitmentQuery (nonceReveal P v) = commitmentQuery (nonceReveal P v')) : residue (v 0) = residue (v' 0) := by
  have e : ∀ v : Fin 3 → Arr 64, (nonceReveal P v).bytes.1.take 32 = (compress (residue (v 0) • (basepoint : P))).1 := by
    intro v
    simp only [nonceReveal, RevealedPoints.toReveal, List.map_cons, List.flatten_cons]
    rw [List.take_append_of_le_length (by rw [(compress _).2]), List.take_of_length_le (by rw [(compress _).2])]
  simp only [commitmentQuery, List.cons.injEq, MOp.append.injEq, true_and, and_true, e] at h
  exact smul_basepoint_inj.mp (compress_inj.mp (Subtype.ext h.1))

theorem chance_residue (z : Z) : chance (fun w : Arr 64 => residue w = z) ≤ guess := by
  have := card_bad_le {w | residue w = z} z (fun w hw => hw)
  unfold chance guess
  rw [card_arr64]
  push_cast
  gcongr
  exact_mod_cast this

theorem chance_nonceReveal_one (l : List MOp) :
    chance (fun v : Fin 3 → Arr 64 => commitmentQuery (nonceReveal P v) = l) ≤ guess := by
  have : ∃ z : Z, ∀ v : Fin 3 → Arr 64, commitmentQuery (nonceReveal P v) = l → residue (v 0) = z := by
    by_cases h : ∃ v : Fin 3 → Arr 64, commitmentQuery (nonceReveal P v) = l
    · obtain ⟨v₀, h₀⟩ := h
      exact ⟨_, fun v hv => commitmentQuery_first v v₀ (hv.trans h₀.symm)⟩
    · exact ⟨0, fun v hv => (h ⟨v, hv⟩).elim⟩
  obtain ⟨z, hz⟩ := this
  have h1 := chance_mono (p := fun v : Fin 3 → Arr 64 => commitmentQuery (nonceReveal P v) = l)
    (p' := fun v => residue (v 0) = z) hz
  have h2 := chance_coord (X := Fin 3) 0 (fun w : Arr 64 => residue w = z)
  exact le_trans h1 (le_trans h2.le (chance_residue z))

theorem chance_mem_of_one {Ω β : Type} [Finite Ω] (F : Ω → β) (c : ℚ) (h : ∀ l, chance (fun v => F v = l) ≤ c) (ls : List β) :
    chance (fun v => ∃ l ∈ ls, F v = l) ≤ ls.length * c := by
  have hi : ∀ i : Fin ls.length, chance (fun v => F v = ls.get i) ≤ c := fun i => h (ls.get i)
  have := chance_exists_le (fun (i : Fin ls.length) (v : Ω) => F v = ls.get i) c hi
  rw [Fintype.card_fin] at this
  refine le_trans (chance_mono ?_) this
  rintro v ⟨l, hl, h⟩
  obtain ⟨i, hi, rfl⟩ := List.getElem_of_mem hl
  exact ⟨⟨i, hi⟩, h⟩

theorem chance_nonceReveal (ls : List (List MOp)) :
    chance (fun v : Fin 3 → Arr 64 => ∃ l ∈ ls, commitmentQuery (nonceReveal P v) = l) ≤ ls.length * guess :=
  chance_mem_of_one (fun v => commitmentQuery (nonceReveal P v)) guess chance_nonceReveal_one ls

/-- **C71** (commitments) the commitment to three random nonces tells nothing about them: a client that asks at most `q`
hash queries cannot tell it from 16 random bytes, up to `q · guess`. -/
theorem musig_commitment_hiding (O : Oracles) (D : Finset (List MOp))
    (hD : ∀ v : Fin 3 → Arr 64, commitmentQuery (nonceReveal P v) ∈ D)
    (A : Client Unit (SignatureResult Commitment) α) (q : Nat) (hA : A.Bounded Set.univ q) (win : α → Prop) :
    |chance (fun ω : (Fin 3 → Arr 64) × (D → Arr 64) =>
        win (A.play (wideTable O D ω.2) fun _ => letI := wideTable O D ω.2; (nonceReveal P ω.1).toCommitment)) -
      chance (fun ω : (D → Arr 64) × (Unit → Arr 64) =>
        win (A.play (wideTable O D ω.1) fun _ => randomCommitment (ω.2 ())))| ≤ q * guess := by
  have h := keyed_diff (κ := Fin 3 → Arr 64) O (fun v (_ : Unit) => commitmentQuery (nonceReveal P v))
    (fun _ _ _ _ => rfl) (fun v _ => hD v)
    (fun v f (_ : Unit) => letI := wideTable O D f; (nonceReveal P v).toCommitment)
    (fun _ _ g _ => randomCommitment (g ())) Set.univ
    (fun v f g r _ => by
      rw [@toCommitment_eq (_)]
      exact congrArg (fun c => Except.ok (Commitment.mk c))
        (wideTable_keyed O (fun _ : Unit => commitmentQuery (nonceReveal P v)) (fun _ _ _ => rfl) f g () (hD v) 16 (by omega)))
    (fun _ => A) (fun _ => client_bounded_requests _ A q hA) (fun _ => win)
  rw [chance_snd (fun ω : (D → Arr 64) × (Unit → Arr 64) => win (A.play (wideTable O D ω.1) fun _ =>
    randomCommitment (ω.2 ())))] at h
  refine le_trans h ?_
  have hne : Nonempty ((D → Arr 64) × (Unit → Arr 64)) := ⟨fun _ => zeros 64, fun _ => zeros 64⟩
  refine chance_prod_le _ _ fun ω => ?_
  refine le_trans (chance_mono ?_) (le_trans (chance_nonceReveal (P := P) (A.asked (wideTable O D ω.1) fun _ =>
    randomCommitment (ω.2 ()))) ?_)
  · rintro v ⟨l, hl, -, h⟩
    exact ⟨l, hl, h⟩
  · exact mul_le_mul_of_nonneg_right (Nat.cast_le.mpr (client_asked_length _ _ Set.univ A q hA)) guess_nonneg

/-! ## Expansion of mini secret keys -/

/-- The two queries of an expansion. -/
def expandKq (m : Arr 32) (b : Bool) : List MOp :=
  if b then expandQuery m.1 ++ [.challenge (b! "no") 32] else expandQuery m.1

theorem expandKq_inj (m : Arr 32) (b : Bool) (m' : Arr 32) (b' : Bool) (h : expandKq m b = expandKq m' b') :
    m = m' ∧ b = b' := by
  cases b <;> cases b' <;> simp [expandKq, expandQuery] at h <;> exact ⟨Subtype.ext h, rfl⟩

theorem expandedKey_eq (O : Oracles) (m : Arr 32) :
    expandedKey O m = ⟨Scalar.ofZ (residue (O.merlin (expandKq m false) 64)), O.merlin (expandKq m true) 32⟩ := by
  letI := O
  unfold expandedKey MiniSecretKey.expand MiniSecretKey.expandUniform
  refine congrArg₂ SecretKey.mk ?_ rfl
  refine Scalar.Canonical.eq_of_toZ (Scalar.canonical_wide _) (Scalar.canonical_ofZ _) ?_
  rw [Scalar.toZ_ofZ]
  exact Scalar.toZ_wide _

/-- **C71** (expansion) a key expanded (`ExpansionMode::Uniform`) from a random mini secret key cannot be told from a random
secret key with a random nonce seed — not even by a client that is given the secret key itself — up to `q / 2^256` for a
client that asks `q` hash queries. -/
theorem expand_uniform_pseudorandom (O : Oracles) (D : Finset (List MOp))
    (hD : ∀ m : Arr 32, expandQuery m.1 ∈ D ∧ expandQuery m.1 ++ [.challenge (b! "no") 32] ∈ D)
    (A : Client Unit SecretKey α) (q : Nat) (hA : A.Bounded Set.univ q) (win : α → Prop) :
    |chance (fun ω : Arr 32 × (D → Arr 64) =>
        win (A.play (wideTable O D ω.2) fun _ => expandedKey (wideTable O D ω.2) ω.1)) -
      chance (fun ω : (D → Arr 64) × (Bool → Arr 64) => win (A.play (wideTable O D ω.1) fun _ => randomSecretKey ω.2))| ≤
    q / 2 ^ 256 := by
  have hm : ∀ (m : Arr 32) (b : Bool), expandKq m b ∈ D := by
    intro m b
    cases b
    · exact (hD m).1
    · exact (hD m).2
  have h := keyed_diff_guess O expandKq expandKq_inj hm
    (fun m f _ => expandedKey (wideTable O D f) m) (fun _ g (_ : Unit) => randomSecretKey g) Set.univ
    (fun m f g r _ => by
      have hi : Function.Injective (expandKq m) := fun x x' h => (expandKq_inj m x m x' h).2
      have h1 := wideTable_keyed64 O (expandKq m) hi f g false (hm m _)
      have h2 := wideTable_keyed O (expandKq m) hi f g true (hm m _) 32 (by omega)
      rw [expandedKey_eq, h1, h2]
      rfl) A q hA win
  rw [card_arr32, Nat.cast_pow, Nat.cast_ofNat] at h
  exact h

/-- The signature made with nonce answer `v` and challenge answer `w`. -/
def answeredSignature (x : Z) (v w : Arr 64) : Signature :=
  ⟨compress (residue v • (basepoint : P)), Scalar.ofZ (residue w * x + residue v)⟩

/-- The chosen-message attack, as a computation with the secret key: the signer's and the verifier's hash queries are
asked explicitly. -/
def attackClient (sk : SecretKey) (pk : PublicKey P) : List (Transcript × Signature) → Attacker (Transcript × Bytes) →
    Client Unit SecretKey Prop
  | log, .ret a => .ask (challengeOf pk a.1 (a.2.take 32)) fun w => .ret (∃ σ, Signature.fromBytes a.2 = .ok σ ∧
      compress (σ.s.toZ • (basepoint : P) - residue w • pk.point) = σ.R ∧ (a.1, σ) ∉ log)
  | log, .ask q k => .ask q fun w => attackClient sk pk log (k w)
  | log, .sign t sys k =>
    .ask (Use.signNonce t.log pk.compressed.1 sk.nonce.1 (sys.fill 32).1.1).query fun v =>
    .ask (challengeOf pk t (compress (residue v • (basepoint : P))).1) fun w =>
      let σ := answeredSignature (P := P) sk.key.toZ v w
      attackClient sk pk ((t, σ) :: log) (k σ)

theorem hashWith_eq_residue (O : Oracles) (l : List MOp) : hashWith O l = residue (O.merlin l 64) := rfl

theorem fromBytes_R {b : Bytes} {σ : Signature} (h : Signature.fromBytes b = .ok σ) : b.take 32 = σ.R.1 := by
  obtain ⟨rfl, -⟩ := Signature.fromBytes_eq_ok.mp h
  simp only [Signature.toBytes_eq]
  rw [List.take_append_of_le_length (by rw [σ.R.2]), List.take_of_length_le (by rw [σ.R.2])]

theorem attackClient_play (O : Oracles) (sk : SecretKey) (pk : PublicKey P) (s : Unit → SecretKey)
    (A : Attacker (Transcript × Bytes)) : ∀ log, (attackClient sk pk log A).play O s ↔
      ∃ σ, Signature.fromBytes (A.play O sk pk).1.2 = .ok σ ∧ verifyWith O pk (A.play O sk pk).1.1 σ = .ok () ∧
        ((A.play O sk pk).1.1, σ) ∉ (A.play O sk pk).2 ++ log := by
  induction A with
  | ret a =>
    intro log
    simp only [attackClient, Client.play, Attacker.play, List.nil_append]
    refine exists_congr fun σ => and_congr_right fun h1 => and_congr_left fun h2 => ?_
    rw [verifyWith_iff, hashWith_eq_residue, fromBytes_R h1]
    rfl
  | ask q k ih =>
    intro log
    exact ih _ log
  | sign t sys k ih =>
    intro log
    have hσ : signWith O sk t pk sys = answeredSignature (P := P) sk.key.toZ
        (O.merlin (Use.signNonce t.log pk.compressed.1 sk.nonce.1 (sys.fill 32).1.1).query 64)
        (O.merlin (challengeOf pk t (compress (residue (O.merlin
          (Use.signNonce t.log pk.compressed.1 sk.nonce.1 (sys.fill 32).1.1).query 64) • (basepoint : P))).1) 64) := by
      rw [sign_merlin_form]
      rfl
    simp only [attackClient, Client.play, Attacker.play]
    rw [← hσ, ih]
    refine exists_congr fun σ => and_congr_right fun _ => and_congr_right fun _ => not_congr ?_
    simp only [List.mem_append, List.mem_cons]
    tauto

theorem attackClient_bounded {D : Finset (List MOp)} {K : Finset (List MOp × Arr 32)} (sk : SecretKey) (pk : PublicKey P)
    (A : Attacker (Transcript × Bytes)) :
    ∀ q m log, A.Bounded pk D K q m → (attackClient sk pk log A).Bounded Set.univ (q + 2 * m + 1) := by
  induction A with
  | ret a => intro q m log _; exact ⟨_, rfl, fun _ => trivial⟩
  | ask l k ih =>
    rintro q m log ⟨-, q', rfl, h⟩
    exact ⟨q' + 2 * m + 1, by omega, fun w => ih w q' m log (h w)⟩
  | sign t sys k ih =>
    rintro q m log ⟨-, m', rfl, h⟩
    exact ⟨q + 2 * m' + 2, by omega, fun v => ⟨q + 2 * m' + 1, rfl, fun w => ih _ q m' _ (h _)⟩⟩

/-- **C71** (expansion) so signatures under keys expanded from random mini secret keys are as hard to forge as under random
keys, where `signatures_unforgeable` applies: for every attacker, given the public key, with at most `q` hash queries and `m`
signing requests, the chances of a forgery differ by at most `(q + 2m + 1) / 2^256`. -/
theorem expanded_keys_unforgeable (O : Oracles) (D : Finset (List MOp))
    (hD : ∀ m : Arr 32, expandQuery m.1 ∈ D ∧ expandQuery m.1 ++ [.challenge (b! "no") 32] ∈ D)
    (A : PublicKey P → Attacker (Transcript × Bytes)) (q m : Nat) (hA : ∀ pk, ∃ D K, (A pk).Bounded pk D K q m) :
    |chance (fun ω : Arr 32 × (D → Arr 64) =>
        let sk := expandedKey (wideTable O D ω.2) ω.1
        Forges (wideTable O D ω.2) sk (sk.toPublic : PublicKey P) (A sk.toPublic)) -
      chance (fun ω : (D → Arr 64) × (Bool → Arr 64) =>
        let sk := randomSecretKey ω.2
        Forges (wideTable O D ω.1) sk (sk.toPublic : PublicKey P) (A sk.toPublic))| ≤
    (q + 2 * m + 1 : Nat) / 2 ^ 256 := by
  let B : Client Unit SecretKey Prop := .request () fun sk => attackClient sk (sk.toPublic : PublicKey P) [] (A sk.toPublic)
  have hB : B.Bounded Set.univ (q + 2 * m + 1) := by
    refine ⟨trivial, fun sk => ?_⟩
    obtain ⟨D', K', h⟩ := hA sk.toPublic
    exact attackClient_bounded sk _ _ q m [] h
  have key : ∀ (O' : Oracles) (sk : SecretKey), B.play O' (fun _ => sk) ↔
      Forges O' sk (sk.toPublic : PublicKey P) (A sk.toPublic) := by
    intro O' sk
    refine (attackClient_play O' sk _ (fun _ => sk) _ []).trans ?_
    simp only [List.append_nil]
    rfl
  have h := expand_uniform_pseudorandom O D hD B (q + 2 * m + 1) hB id
  simp only [id, key] at h
  exact h

/-! ## The hypotheses are met -/

theorem Client.bounded_mono {Req Ans : Type} {S S' : Set Req} (A : Client Req Ans α) (hS : S ⊆ S') :
    ∀ {q q' : Nat}, q ≤ q' → A.Bounded S q → A.Bounded S' q' := by
  induction A with
  | ret a => intros; trivial
  | ask l k ih =>
    rintro q q' hq ⟨q₁, rfl, h⟩
    exact ⟨q' - 1, by omega, fun w => ih w (by omega) (h w)⟩
  | request r k ih =>
    rintro q q' hq ⟨h1, h2⟩
    exact ⟨hS h1, fun a => ih a hq (h2 a)⟩

/-- **C71** a client whose answers come from a finite set is bounded, by a finite set of requests. -/
theorem every_client_is_bounded {Req Ans : Type} [Finite Ans] (A : Client Req Ans α) :
    ∃ (S : Set Req) (q : Nat), S.Finite ∧ A.Bounded S q := by
  induction A with
  | ret a => exact ⟨∅, 0, Set.finite_empty, trivial⟩
  | ask l k ih =>
    choose S q hS h using ih
    haveI := Fintype.ofFinite (Arr 64)
    refine ⟨⋃ w, S w, Finset.univ.sup q + 1, Set.finite_iUnion hS, Finset.univ.sup q, rfl, fun w => ?_⟩
    exact Client.bounded_mono _ (Set.subset_iUnion S w) (Finset.le_sup (f := q) (Finset.mem_univ w)) (h w)
  | request r k ih =>
    choose S q hS h using ih
    haveI := Fintype.ofFinite Ans
    refine ⟨insert r (⋃ w, S w), Finset.univ.sup q, (Set.finite_iUnion hS).insert r, Set.mem_insert _ _, fun w => ?_⟩
    exact Client.bounded_mono _ ((Set.subset_iUnion S w).trans (Set.subset_insert _ _))
      (Finset.le_sup (f := q) (Finset.mem_univ w)) (h w)

open Classical in
/-- Suitable finite sets of queries exist for all requests. -/
theorem exists_covers_soft (S : Finset (List MOp × Arr 32)) : ∃ D, CoversSoft D S := by
  haveI := Fintype.ofFinite (Arr 32)
  refine ⟨(Finset.univ ×ˢ S).image (fun x : Arr 32 × (List MOp × Arr 32) => softQuery x.2.1 x.1.1 x.2.2.1) ∪
    (Finset.univ ×ˢ S).image (fun x : Arr 32 × (List MOp × Arr 32) =>
      softQuery x.2.1 x.1.1 x.2.2.1 ++ [.challenge (b! "HDKD-chaincode") 32]), fun cc r hr => ⟨?_, ?_⟩⟩
  · exact Finset.mem_union_left _ (Finset.mem_image.mpr ⟨(cc, r), by simp [hr], rfl⟩)
  · exact Finset.mem_union_right _ (Finset.mem_image.mpr ⟨(cc, r), by simp [hr], rfl⟩)

open Classical in
theorem exists_covers_link (S : Finset (List MOp)) (pk pk' : PublicKey P) : ∃ D, CoversLink D S pk ∧ CoversLink D S pk' := by
  haveI := Fintype.ofFinite (Arr 32)
  obtain ⟨D, hD⟩ := exists_covers_soft (S.image (fun l => (l, pk.compressed)) ∪ S.image (fun l => (l, pk'.compressed)))
  refine ⟨D, fun cc r hr => hD cc (r, pk.compressed) ?_, fun cc r hr => hD cc (r, pk'.compressed) ?_⟩
  · exact Finset.mem_union_left _ (Finset.mem_image_of_mem _ hr)
  · exact Finset.mem_union_right _ (Finset.mem_image_of_mem (fun l => (l, pk'.compressed)) hr)

open Classical in
theorem exists_covers_hard (S : Finset (Option ChainCode × Bytes)) (sk : SecretKey) : ∃ D, CoversHard D S sk :=
  ⟨S.image (fun r => hardQuery r.2 (r.1.map (·.bytes.1)) sk.key.bytes.1) ∪
    S.image (fun r => hardQuery r.2 (r.1.map (·.bytes.1)) sk.key.bytes.1 ++ [.challenge (b! "HDKD-chaincode") 32]),
    fun _ hr => ⟨Finset.mem_union_left _ (Finset.mem_image.mpr ⟨_, hr, rfl⟩),
      Finset.mem_union_right _ (Finset.mem_image.mpr ⟨_, hr, rfl⟩)⟩⟩

open Classical in
theorem exists_covers_expand : ∃ D : Finset (List MOp),
    ∀ m : Arr 32, expandQuery m.1 ∈ D ∧ expandQuery m.1 ++ [.challenge (b! "no") 32] ∈ D := by
  haveI := Fintype.ofFinite (Arr 32)
  exact ⟨Finset.univ.image (fun m : Arr 32 => expandQuery m.1) ∪
    Finset.univ.image (fun m : Arr 32 => expandQuery m.1 ++ [.challenge (b! "no") 32]),
    fun m => ⟨Finset.mem_union_left _ (Finset.mem_image.mpr ⟨m, Finset.mem_univ _, rfl⟩),
      Finset.mem_union_right _ (Finset.mem_image.mpr ⟨m, Finset.mem_univ _, rfl⟩)⟩⟩

open Classical in
example : ∃ D : Finset (List MOp), ∀ v : Fin 3 → Arr 64, commitmentQuery (nonceReveal P v) ∈ D := by
  haveI := Fintype.ofFinite (Fin 3 → Arr 64)
  exact ⟨Finset.univ.image fun v => commitmentQuery (nonceReveal P v), fun v =>
    Finset.mem_image.mpr ⟨v, Finset.mem_univ _, rfl⟩⟩

/-- A client who knows the secret scalar recomputes the child and compares. -/
def insiderChild (sk : SecretKey) (i : Bytes) : Client (Option ChainCode × Bytes) (MiniSecretKey × ChainCode) Bool :=
  .request (none, i) fun c => .ask (hardQuery i none sk.key.bytes.1) fun w =>
    .ret (decide (c.1.bytes = firstBytes w 32 (by omega)))

/-- Non-vacuity, and why the right-hand side of `hard_derivation_pseudorandom` cannot be dropped: that client accepts the
real children always, random children with probability `2^-256` only, and names the secret scalar always. -/
example (O : Oracles) (D : Finset (List MOp)) (sk : SecretKey) (i : Bytes) (hD : CoversHard D {(none, i)} sk) :
    (insiderChild sk i).Requests {r | r ∈ ({(none, i)} : Finset (Option ChainCode × Bytes))} ∧
    (∀ f : D → Arr 64, (insiderChild sk i).play (wideTable O D f) (hardChild (wideTable O D f) sk) = true) ∧
    (∀ (f : D → Arr 64) (s : _ → _), ∃ l ∈ (insiderChild sk i).asked (wideTable O D f) s, Names sk.key.bytes.1 l) := by
  refine ⟨⟨by simp, fun _ _ => trivial⟩, fun f => ?_, fun f s => ⟨_, List.mem_cons_self, b! "secret-key", by
    simp [hardQuery]⟩⟩
  refine decide_eq_true (Subtype.ext ?_)
  have h := congrArg (fun c => c.1.bytes.1) (@hard_derivation_spec Toy _ (wideTable O D f) sk none i).1
  refine Eq.trans h ?_
  exact wideTable_short O f _ (hD (none, i) (by simp)).1 32 (by omega)

end Schnorrkel.Props
