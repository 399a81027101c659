import Verif.Lemmas.RomLazy
import Verif.Lemmas.RomRescale
import Verif.Lemmas.RomCollide
import Verif.Lemmas.MuSigSign
import Verif.Props.Domain
import Verif.Props.Sign
import Verif.Props.RomPrf

/-! # Multi-signature sessions seen by the attacker: static facts -/

namespace Schnorrkel
open Spec Schnorrkel.Props
variable {P : Type} [Ristretto P]

/-! ## Kinds of queries -/

/-- Queries that end like those for commitments. -/
def IsCommit (q : List MOp) : Prop := q.getLast? = some (.challenge (b! "commitment") 16)
/-- Queries that end like those for challenges of signatures. -/
def IsSig (q : List MOp) : Prop := q.getLast? = some (.challenge (b! "sign:c") 64)

theorem commitmentQuery_last (r : Reveal) : (commitmentQuery r).getLast? = some (.challenge (b! "commitment") 16) := by
  simp [commitmentQuery]
theorem weightQuery_last (ks : List Bytes) (k : Bytes) : (weightQuery ks k).getLast? = some (.challenge (b! "") 64) := by
  unfold weightQuery
  rw [List.getLast?_append_of_ne_nil _ (by simp)]
  rfl
theorem coeffQuery_last (log : List MOp) (agg : Bytes) (es : List (Bytes × List Bytes)) (pk : Bytes) (i : Nat) :
    (Use.musigCoeff log agg es pk i).query.getLast? = some (.challenge (b! "R") 64) := by
  simp only [Use.query, coeffQuery]
  rw [List.getLast?_append_of_ne_nil _ (by simp), List.getLast?_replicate]
  rfl
theorem signature_last (log : List MOp) (pk R : Bytes) :
    (Use.signature log pk R).query.getLast? = some (.challenge (b! "sign:c") 64) := by
  simp [Use.query]

theorem isCommit_commitmentQuery (r : Reveal) : IsCommit (commitmentQuery r) := commitmentQuery_last r
theorem isSig_challengeOf (pk : PublicKey P) (t : Transcript) (R : Bytes) : IsSig (challengeOf pk t R) := signature_last _ _ _

theorem not_isCommit_weight (ks : List Bytes) (k : Bytes) : ¬ IsCommit (weightQuery ks k) := by
  unfold IsCommit; rw [weightQuery_last]; decide
theorem not_isSig_weight (ks : List Bytes) (k : Bytes) : ¬ IsSig (weightQuery ks k) := by
  unfold IsSig; rw [weightQuery_last]; decide
theorem not_isCommit_coeff (t : Transcript) (agg : P) (V : View P) (k : PublicKey P) (i : Nat) : ¬ IsCommit (coeffOf t agg V k i) := by
  unfold IsCommit coeffOf; rw [coeffQuery_last]; decide
theorem not_isSig_coeff (t : Transcript) (agg : P) (V : View P) (k : PublicKey P) (i : Nat) : ¬ IsSig (coeffOf t agg V k i) := by
  unfold IsSig coeffOf; rw [coeffQuery_last]; decide
theorem not_isCommit_challengeOf (pk : PublicKey P) (t : Transcript) (R : Bytes) : ¬ IsCommit (challengeOf pk t R) := by
  unfold IsCommit challengeOf; rw [signature_last]; decide
theorem weight_ne_coeff (ks : List Bytes) (k : Bytes) (t : Transcript) (agg : P) (V : View P) (k' : PublicKey P) (i : Nat) :
    weightQuery ks k ≠ coeffOf t agg V k' i := by
  intro h
  have := congrArg List.getLast? h
  rw [weightQuery_last, coeffOf, coeffQuery_last] at this
  revert this; decide

theorem commitmentQuery_inj {r r' : Reveal} (h : commitmentQuery r = commitmentQuery r') : r = r' := by
  simp only [commitmentQuery, List.cons.injEq, MOp.append.injEq, true_and, and_true] at h
  obtain ⟨h1, h2, h3⟩ := h
  have hs : ∀ r : Reveal, r.bytes.1 = r.bytes.1.take 32 ++ ((r.bytes.1.drop 32).take 32 ++ (r.bytes.1.drop 64).take 32) := by
    intro r
    have hl := r.bytes.2
    rw [List.take_of_length_le (l := r.bytes.1.drop 64) (by simp [hl])]
    rw [show r.bytes.1.drop 64 = (r.bytes.1.drop 32).drop 32 by rw [List.drop_drop], List.take_append_drop,
      List.take_append_drop]
  have : r.bytes = r'.bytes := Subtype.ext (by rw [hs r, hs r', h1, h2, h3])
  cases r; cases r'; simpa using this

theorem commitmentQuery_bytes (r : Reveal) : ∃ a b c : Bytes, commitmentQuery r = [.append (b! "dom-sep") (b! "MuSig-commitment"),
    .append (b! "sign:R") a, .append (b! "sign:R") b, .append (b! "sign:R") c, .challenge (b! "commitment") 16] ∧
    a ++ b ++ c = r.bytes.1 := by
  refine ⟨_, _, _, rfl, ?_⟩
  have hl := r.bytes.2
  rw [List.take_of_length_le (l := r.bytes.1.drop 64) (by simp [hl])]
  rw [show r.bytes.1.drop 64 = (r.bytes.1.drop 32).drop 32 by rw [List.drop_drop], List.append_assoc, List.take_append_drop,
      List.take_append_drop]

theorem committedIn_commitmentQuery (r : Reveal) : (committedIn (commitmentQuery r) : Option (RevealedPoints P)) = points r := by
  obtain ⟨a, b, c, h1, h2⟩ := commitmentQuery_bytes r
  rw [h1]
  have hl : (a ++ b ++ c).length = 96 := by rw [h2]; exact r.bytes.2
  have hr : (⟨⟨a ++ b ++ c, hl⟩⟩ : Reveal) = r := by
    cases r with | mk bs => exact congrArg Reveal.mk (Subtype.ext h2)
  unfold committedIn
  simp only
  rw [dif_pos hl, if_pos (by rw [hr, h1]), hr]

theorem committedIn_some {q : List MOp} {p : RevealedPoints P} (h : committedIn q = some p) :
    ∃ r, q = commitmentQuery r ∧ points r = some p := by
  unfold committedIn at h
  split at h
  · split at h
    · split at h
      · rename_i h'
        exact ⟨_, h'.symm, h⟩
      · cases h
    · cases h
  · cases h

theorem committedIn_not {q : List MOp} (h : ¬ IsCommit q) : (committedIn q : Option (RevealedPoints P)) = none := by
  cases h' : (committedIn q : Option (RevealedPoints P)) with
  | none => rfl
  | some p =>
    obtain ⟨r, rfl, -⟩ := committedIn_some h'
    exact absurd (isCommit_commitmentQuery r) h

/-! ## Known answers -/

/-- The commitment made of the first bytes of an answer. -/
def pref (w : Arr 64) : Commitment := ⟨firstBytes w 16 (by omega)⟩

theorem wideTable_known (O : Oracles) {D : Finset (List MOp)} {tab : Known} {q : List MOp} {w : Arr 64} (hq : q ∈ D)
    (h : tab.lookup q = some w) (f : D → Arr 64) : (wideTable O D (ov (Lk tab) f)).merlin q 64 = w := by
  rw [wideTable_hit O _ _ hq, ov_of_some (Lk tab) f ⟨q, hq⟩ w h]

theorem hashWith_known (O : Oracles) {D : Finset (List MOp)} {tab : Known} {q : List MOp} {w : Arr 64} (hq : q ∈ D)
    (h : tab.lookup q = some w) (f : D → Arr 64) : hashWith (wideTable O D (ov (Lk tab) f)) q = residue w := by
  rw [hashWith_eq_residue, wideTable_known O hq h]

theorem wideTable_known16 (O : Oracles) {D : Finset (List MOp)} {tab : Known} {q : List MOp} {w : Arr 64} (hq : q ∈ D)
    (h : tab.lookup q = some w) (f : D → Arr 64) :
    (wideTable O D (ov (Lk tab) f)).merlin q 16 = firstBytes w 16 (by omega) := by
  apply Subtype.ext
  rw [wideTable_short O _ _ hq 16 (by omega), wideTable_known O hq h]
  rfl

theorem oracle_known (O : Oracles) {tab : Known} {q : List MOp} {w : Arr 64} (h : tab.lookup q = some w) :
    (tab.oracle O).merlin q 64 = w := by
  unfold Known.oracle
  simp only [h]
  apply Subtype.ext
  show w.1.take 64 = w.1
  exact List.take_of_length_le (by rw [w.2])

theorem hashWith_oracle (O : Oracles) {tab : Known} {q : List MOp} {w : Arr 64} (h : tab.lookup q = some w) :
    hashWith (tab.oracle O) q = residue w := by
  rw [hashWith_eq_residue, oracle_known O h]

/-! ## Formulas -/

/-- The aggregate key. -/
def aggO (O : Oracles) (ks : List (PublicKey P)) : P := letI := O; aggregate ks
/-- Nonce coefficients. -/
def coeffO (O : Oracles) (t : Transcript) (V : View P) (k : Compressed) : List Z := letI := O; nonceCoeffs t V k
/-- The collective nonce. -/
def nonceO (O : Oracles) (t : Transcript) (V : View P) : P := letI := O; musigR t V
/-- The challenge query. -/
def chalQ (O : Oracles) (t : Transcript) (V : View P) : List MOp :=
  challengeOf (PublicKey.fromPoint (aggO O V.keys)) t (compress (nonceO O t V)).1

theorem musigChallenge_eq (O : Oracles) (t : Transcript) (V : View P) :
    (letI := O; musigChallenge t V) = hashWith O (chalQ O t V) := by
  letI := O
  show musigChallenge t V = _
  unfold musigChallenge
  rw [sigChallenge_merlin]
  rfl

theorem aggO_congr {O₁ O₂ : Oracles} (ks : List (PublicKey P)) (h : ∀ q ∈ weightQueries ks, hashWith O₁ q = hashWith O₂ q) :
    aggO O₁ ks = aggO O₂ ks := by
  unfold aggO aggregate
  congr 1
  refine List.map_congr_left fun k hk => ?_
  congr 1
  exact h _ (List.mem_map.mpr ⟨k, hk, rfl⟩)

theorem coeffO_eq (O : Oracles) (t : Transcript) (V : View P) (k : PublicKey P) :
    coeffO O t V k.compressed = [hashWith O (coeffOf t (aggO O V.keys) V k 0), hashWith O (coeffOf t (aggO O V.keys) V k 1),
      hashWith O (coeffOf t (aggO O V.keys) V k 2)] := by
  letI := O
  exact musig_coeffs_are_queries t V k.compressed

theorem coeffO_congr {O₁ O₂ : Oracles} (t : Transcript) (V : View P) (k : PublicKey P) (ha : aggO O₁ V.keys = aggO O₂ V.keys)
    (h : ∀ i < 3, hashWith O₁ (coeffOf t (aggO O₂ V.keys) V k i) = hashWith O₂ (coeffOf t (aggO O₂ V.keys) V k i)) :
    coeffO O₁ t V k.compressed = coeffO O₂ t V k.compressed := by
  have h0 := h 0 (by omega)
  have h1 := h 1 (by omega)
  have h2 := h 2 (by omega)
  rw [coeffO_eq, coeffO_eq, ha, h0, h1, h2]

theorem nonceO_eq (O : Oracles) (t : Transcript) (V : View P) :
    nonceO O t V = (V.map fun e => (List.zipWith (· • ·) (coeffO O t V e.1.compressed) e.2.pts.1).sum).sum := by
  unfold nonceO coeffO musigR
  rfl

theorem nonceO_congr {O₁ O₂ : Oracles} (t : Transcript) (V : View P)
    (h : ∀ e ∈ V, coeffO O₁ t V e.1.compressed = coeffO O₂ t V e.1.compressed) : nonceO O₁ t V = nonceO O₂ t V := by
  rw [nonceO_eq, nonceO_eq]
  refine congrArg List.sum (List.map_congr_left fun e he => ?_)
  rw [h e he]

theorem chalQ_congr {O₁ O₂ : Oracles} (t : Transcript) (V : View P) (ha : aggO O₁ V.keys = aggO O₂ V.keys)
    (h : ∀ e ∈ V, coeffO O₁ t V e.1.compressed = coeffO O₂ t V e.1.compressed) : chalQ O₁ t V = chalQ O₂ t V := by
  unfold chalQ
  rw [ha, nonceO_congr t V h]

theorem sum_map_sub_single {α : Type} (f g : α → P) (a : α) : ∀ l : List α, l.Nodup → a ∈ l → (∀ b ∈ l, b ≠ a → f b = g b) →
    (l.map f).sum - (l.map g).sum = f a - g a := by
  intro l
  induction l with
  | nil => intro _ h; cases h
  | cons b l ih =>
    intro hn hm h
    simp only [List.nodup_cons] at hn
    simp only [List.map_cons, List.sum_cons]
    rcases List.mem_cons.mp hm with rfl | hm
    · have : l.map f = l.map g := List.map_congr_left fun c hc => h c (by simp [hc]) (by rintro rfl; exact hn.1 hc)
      rw [this]; abel
    · have hb : f b = g b := h b (by simp) (by rintro rfl; exact hn.1 hm)
      have := ih hn.2 hm (fun c hc => h c (by simp [hc]))
      rw [hb, ← this]; abel

/-- The collective nonce tells the first coefficient of a cosigner whose first nonce is not zero. -/
theorem nonceO_first {O₁ O₂ : Oracles} (t : Transcript) (V : View P) (hn : V.Nodup) (me : PublicKey P) (own : RevealedPoints P)
    (hm : (me, own) ∈ V) (hk : ∀ e ∈ V, e.1.compressed = me.compressed → e = (me, own)) (r : Z) (hr : r ≠ 0) (p₁ p₂ : P)
    (hown : own.pts.1 = [r • basepoint, p₁, p₂])
    (ha : aggO O₁ V.keys = aggO O₂ V.keys)
    (h : ∀ e ∈ V, ∀ i < 3, (e ≠ (me, own) ∨ i ≠ 0) →
      hashWith O₁ (coeffOf t (aggO O₂ V.keys) V e.1 i) = hashWith O₂ (coeffOf t (aggO O₂ V.keys) V e.1 i))
    (he : nonceO O₁ t V = nonceO O₂ t V) :
    hashWith O₁ (coeffOf t (aggO O₂ V.keys) V me 0) = hashWith O₂ (coeffOf t (aggO O₂ V.keys) V me 0) := by
  have h1 := sum_map_sub_single (fun e : PublicKey P × RevealedPoints P =>
      (List.zipWith (· • ·) (coeffO O₁ t V e.1.compressed) e.2.pts.1).sum)
    (fun e => (List.zipWith (· • ·) (coeffO O₂ t V e.1.compressed) e.2.pts.1).sum) (me, own) V hn hm (by
      intro e hV hne
      show (List.zipWith (· • ·) (coeffO O₁ t V e.1.compressed) e.2.pts.1).sum = _
      rw [coeffO_congr t V e.1 ha (fun i hi => h e hV i hi (Or.inl hne))])
  rw [← nonceO_eq, ← nonceO_eq, he, sub_self] at h1
  simp only [coeffO_eq, hown, ha, List.zipWith_cons_cons, List.zipWith_nil_right, List.sum_cons, List.sum_nil] at h1
  rw [h _ hm 1 (by omega) (Or.inr (by omega)), h _ hm 2 (by omega) (Or.inr (by omega))] at h1
  have h2 : (hashWith O₁ (coeffOf t (aggO O₂ V.keys) V me 0) * r) • (basepoint : P) =
      (hashWith O₂ (coeffOf t (aggO O₂ V.keys) V me 0) * r) • basepoint := by
    rw [mul_smul, mul_smul]
    have := sub_eq_zero.mp h1.symm
    exact add_right_cancel this
  haveI : Fact ell.Prime := ⟨ell_prime⟩
  exact mul_right_cancel₀ hr (smul_basepoint_inj.mp h2)

end Schnorrkel
