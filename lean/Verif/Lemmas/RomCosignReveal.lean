import Verif.Lemmas.RomCosignSteps
import Verif.Instance

/-! # Revealing, in the two games -/

namespace Schnorrkel
open Spec Schnorrkel.Props
variable {P : Type} [Ristretto P] {D : Finset (List MOp)} {α : Type} [Goal P α] {fin : α → Prop}

attribute [local irreducible] guess spare hit rescale

/-! ## Views -/

/-- What the view of a session looks like. -/
structure ViewOk (me : PublicKey P) (own : RevealedPoints P) (b : Nat) (V : View P) : Prop where
  nodup : V.Nodup
  mem : (me, own) ∈ V
  uniq : ∀ e ∈ V, e.1.compressed = me.compressed → e = (me, own)
  wf : ∀ e ∈ V, e.1.WF
  len : V.length ≤ b + 1

theorem length_set_le {V : Type} (m : BMap P V) (k : PublicKey P) (v : V) : (m.set k v).length ≤ m.length + 1 := by
  induction m with
  | nil => simp [BMap.set]
  | cons e m ih =>
    unfold BMap.set
    split <;> simp only [List.length_cons] <;> omega

theorem view_ok {me : PublicKey P} (hme : me.WF) (own : RevealedPoints P) {b : Nat} {coms : BMap P Commitment} (hc : ComsOk me b coms)
    {es : View P} (he : es.map (·.1) = coms.map (·.1)) : ViewOk me own b (BMap.set es me own) := by
  have hs : BMap.Sorted es := by
    have h := hc.sorted
    unfold BMap.Sorted at h ⊢
    have h1 : (coms.map (·.1)).Pairwise fun a b => RistrettoBoth.cmp a b = .lt := List.pairwise_map.mpr h
    rw [← he] at h1
    exact List.pairwise_map.mp h1
  have hw : BMap.KeysWF es := by
    intro e hem
    have : e.1 ∈ coms.map (·.1) := he ▸ List.mem_map_of_mem hem
    obtain ⟨e', he', heq⟩ := List.mem_map.mp this
    rw [← heq]
    exact hc.wf e' he'
  have hS := BMap.sorted_set hs me own
  have hW := BMap.keysWF_set hw hme own
  have hmem : (me, own) ∈ BMap.set es me own := by
    have : (BMap.set es me own).get? me = some own := by rw [BMap.get?_set hs, if_pos rfl]
    obtain ⟨k, h1, h2⟩ := BMap.mem_of_get? this
    have hk : k = me := BMap.key_ext (hW _ h1) hme h2
    rw [hk] at h1
    exact h1
  refine ⟨?_, hmem, ?_, hW, ?_⟩
  · refine List.Pairwise.imp ?_ hS
    rintro a b' hab rfl
    rw [cmp_self] at hab
    cases hab
  · intro e hem hk
    exact Prod.ext (BMap.key_ext (hW e hem) hme hk) (BMap.keys_inj hS hem hmem hk)
  · refine (length_set_le es me own).trans ?_
    have : es.length = coms.length := by simpa using congrArg List.length he
    rw [this]
    have := hc.len
    omega

/-! ## Known answers -/

section
variable {O : Oracles} {S S' : TB}

theorem agg_known {n : Nat} {pend ex : List Commitment} (h : Tidy D n pend ex S) (ks : List (PublicKey P))
    (hk : ∀ q ∈ weightQueries ks, ∃ w, S.1.lookup q = some w) (f : D → Arr 64) :
    aggO (wideTable O D (ov (Lk S.1) f)) ks = aggO (S.1.oracle O) ks := by
  refine aggO_congr ks fun q hq => ?_
  obtain ⟨w, hw⟩ := hk q hq
  rw [hashWith_known O (h.mem _ (lookup_mem hw)) hw, hashWith_oracle O hw]

theorem agg_ext (he : Ext S S') (ks : List (PublicKey P)) (hk : ∀ q ∈ weightQueries ks, ∃ w, S.1.lookup q = some w) :
    aggO (S'.1.oracle O) ks = aggO (S.1.oracle O) ks := by
  refine aggO_congr ks fun q hq => ?_
  obtain ⟨w, hw⟩ := hk q hq
  rw [hashWith_oracle O hw, hashWith_oracle O (he q w hw)]

theorem hash_known {n : Nat} {pend ex : List Commitment} (h : Tidy D n pend ex S) {q : List MOp} (hk : ∃ w, S.1.lookup q = some w)
    (f : D → Arr 64) : hashWith (wideTable O D (ov (Lk S.1) f)) q = hashWith (S.1.oracle O) q := by
  obtain ⟨w, hw⟩ := hk
  rw [hashWith_known O (h.mem _ (lookup_mem hw)) hw, hashWith_oracle O hw]

theorem hash_ne_zero {n : Nat} {pend ex : List Commitment} (h : Tidy D n pend ex S) {q : List MOp} (hk : ∃ w, S.1.lookup q = some w)
    (h1 : ¬ IsCommit q) (h2 : ¬ IsSig q) : hashWith (S.1.oracle O) q ≠ 0 := by
  obtain ⟨w, hw⟩ := hk
  rw [hashWith_oracle O hw]
  intro hz
  rcases h.nz _ (lookup_mem hw) hz with h3 | h3
  · exact h1 h3
  · exact h2 h3

end

/-- Shifting is a permutation. -/
def shiftedEquiv (x : Z) (w : Arr 64) : (Fin 3 → Arr 64) ≃ (Fin 3 → Arr 64) :=
  Equiv.piCongrRight fun j => if j = 0 then shift (residue w * x) else Equiv.refl _

theorem shiftedEquiv_apply (x : Z) (w : Arr 64) (v : Fin 3 → Arr 64) : shiftedEquiv x w v = shifted x w v := by
  funext j
  unfold shiftedEquiv shifted
  simp only [Equiv.piCongrRight_apply, Pi.map_apply]
  split <;> rfl

theorem fakePoints_shifted {me : PublicKey P} {x : Z} (hx : me.point = x • (basepoint : P)) (v : Fin 3 → Arr 64) (hv : ¬ Beyond (v 0))
    (w : Arr 64) : fakePoints me (shifted x w v, w) = noncePoints P v := by
  unfold fakePoints noncePoints
  have h0 : residue (shifted x w v 0) = residue (v 0) + residue w * x := residue_shift _ _ hv
  have h1 : shifted x w v 1 = v 1 := rfl
  have h2 : shifted x w v 2 = v 2 := rfl
  have e : residue (shifted x w v 0) • (basepoint : P) - residue w • me.point = residue (v 0) • basepoint := by
    rw [h0, hx, add_smul, mul_smul, add_sub_cancel_right]
  simp only [h1, h2, e]

section
variable (O : Oracles) (hD : ∀ r, commitmentQuery r ∈ D) (T : Finset (List MOp)) (me : PublicKey P) (x : Z) (b N : Nat)

/-- The signature share of a simulated session. -/
noncomputable def fakeShare (O : Oracles) (me : PublicKey P) (t : Transcript) (V : View P) (v : Fin 3 → Arr 64) : Z :=
  (List.zipWith (· * ·) (coeffO O t V me.compressed) [residue (v 0), residue (v 1), residue (v 2)]).sum

/-- The factor between the challenge and the coin. -/
noncomputable def factor (O : Oracles) (me : PublicKey P) (t : Transcript) (V : View P) : Z :=
  (coeffO O t V me.compressed).headD 0 / hashWith O (ownWeight me V)

/-- A simulated session that waits, and the real one. -/
theorem Paired.get {O : Oracles} {T : Finset (List MOp)} {me : PublicKey P} {x : Z} {b n : Nat} {js : List Nat} {ns : Nat → Fin 3 → Arr 64} {S : TB}
    {ss : List (RealPhase P)} {ss' : List (FakePhase P)} (h : Paired O D T me x b n js ns S ss ss') {j : Nat} {t : Transcript} {o : Option (View P × Scalar)}
    {coms : BMap P Commitment} (hj : ss'[j]? = some (.revealing t o coms)) :
    ss[j]? = some (.revealing t (ns j) coms) ∧ t.log ∈ T ∧ ComsOk me b coms ∧ ¬ Beyond (ns j 0) ∧ residue (ns j 0) ≠ 0 := by
  rcases forall₂_get h.rel j with ⟨-, h'⟩ | ⟨p, p', g1, g2, hr⟩
  · rw [hj] at h'; cases h'
  · rw [hj] at g2
    cases g2
    cases hr with
    | revealing _ v _ _ ht hok hv hv0 _ _ =>
      have := h.names j _ _ _ g1
      subst this
      exact ⟨g1, ht, hok, hv, hv0⟩

/-- No nonce coefficient of the owner is known for the session number `j`, if it is ripe. -/
def Fresh (me : PublicKey P) (ns : Nat → Fin 3 → Arr 64) (tab : Known) (ss' : List (FakePhase P)) (j : Nat) : Prop :=
  ∀ t coms es, ripe tab ss' j = some (t, coms, es) → ∀ agg : P, tab.lookup (coeffOf t agg (BMap.set es me (noncePoints P (ns j))) me 0) = none

theorem Fresh.cons {me : PublicKey P} {ns : Nat → Fin 3 → Arr 64} {S : TB} {ss' : List (FakePhase P)} {j : Nat} (h : Fresh me ns S.1 ss' j)
    (q : List MOp) (w : Arr 64) (hk : Kept ss' S ((q, w) :: S.1, S.2))
    (hq : ∀ t coms es, ripe S.1 ss' j = some (t, coms, es) → ∀ agg : P, coeffOf t agg (BMap.set es me (noncePoints P (ns j))) me 0 ≠ q) :
    Fresh me ns ((q, w) :: S.1) ss' j := by
  intro t coms es hr agg
  have hr' : ripe S.1 ss' j = some (t, coms, es) := (hk.ripe j).symm.trans hr
  rw [lookup_cons_ne (hq t coms es hr' agg)]
  exact h t coms es hr' agg

/-- Different sessions use different nonce coefficients. -/
theorem coeff_apart {O : Oracles} {T : Finset (List MOp)} {me : PublicKey P} {x : Z} {b n : Nat} {js : List Nat} {ns : Nat → Fin 3 → Arr 64} {S : TB}
    {ss : List (RealPhase P)} {ss' : List (FakePhase P)} (h : Paired O D T me x b n js ns S ss ss') (hme : me.WF) {j j' : Nat} (hne : j' ≠ j)
    {t t' : Transcript} {coms coms' : BMap P Commitment} {es es' : View P} (hr : ripe S.1 ss' j = some (t, coms, es))
    (hr' : ripe S.1 ss' j' = some (t', coms', es')) (agg agg' : P) (k : PublicKey P) (i : Nat) :
    coeffOf t' agg' (BMap.set es' me (noncePoints P (ns j'))) me 0 ≠ coeffOf t agg (BMap.set es me (noncePoints P (ns j))) k i := by
  intro heq
  obtain ⟨h1, h2⟩ := ripe_eq_some.mp hr
  obtain ⟨h1', h2'⟩ := ripe_eq_some.mp hr'
  obtain ⟨g, -, hok, -, -⟩ := h.get h1
  obtain ⟨g', -, hok', -, -⟩ := h.get h1'
  have v1 := view_ok hme (noncePoints P (ns j)) hok (openings_keys h2)
  have v2 := view_ok hme (noncePoints P (ns j')) hok' (openings_keys h2')
  letI : Oracles := toyOracles
  obtain ⟨-, -, hV, -, -⟩ := musig_coeff_query_injective t'.log t.log agg' agg _ _ me.compressed k.compressed 0 i v2.wf v1.wf heq
  have hm := v2.mem
  rw [hV] at hm
  have := v1.uniq _ hm rfl
  simp only [Prod.mk.injEq, true_and] at this
  refine hne (h.apart _ _ _ _ _ _ _ _ g' g ?_)
  rw [nonceReveal_eq, nonceReveal_eq, this]

/-- The challenge is chosen last. -/
theorem close_final (hx : me.point = x • (basepoint : P)) {n j : Nat} {js : List Nat} {ns : Nat → Fin 3 → Arr 64} {S : TB} {ss : List (RealPhase P)}
    {ss' : List (FakePhase P)} (h : Paired O D T me x b n (j :: js) ns S ss ss') (t : Transcript) (coms : BMap P Commitment)
    (hj' : ss'[j]? = some (.revealing t none coms)) (hme : me.WF) (es : View P) (ho : S.1.openings coms = some es)
    (V : View P) (hV : V = BMap.set es me (noncePoints P (ns j)))
    (hW : ∀ q ∈ weightQueries V.keys, ∃ w, S.1.lookup q = some w)
    (hX : ∀ e ∈ V, ∀ j < 3, ∃ w, S.1.lookup (coeffOf t (aggO (S.1.oracle O) V.keys) V e.1 j) = some w)
    (hQ : S.1.lookup (chalQ (S.1.oracle O) t V) = none) (hQD : chalQ (S.1.oracle O) t V ∈ D)
    (A : Client (CosignRequest P) CosignAnswer α) (Ψ : TB → View P × Scalar → ℚ) (hΨ : ∀ S o, 0 ≤ Ψ S o) (E : ℚ) (hE : 0 ≤ E)
    (hk : ∀ u s, Paired O D T me x b (n + 1) js ns ((chalQ (S.1.oracle O) t V, u) :: S.1, S.2) ss (ss'.set j (.revealing t (some (es, s)) coms)) →
      real O hD me x ((chalQ (S.1.oracle O) t V, u) :: S.1, S.2) ss A ≤ Ψ ((chalQ (S.1.oracle O) t V, u) :: S.1, S.2) (es, s) + E) :
    real O hD me x S ss A ≤
      (avg fun w : Arr 64 => Ψ ((chalQ (S.1.oracle O) t V, rescale (factor (S.1.oracle O) me t V) w) :: S.1, S.2)
        (es, Scalar.ofZ (fakeShare (S.1.oracle O) me t V (shifted x w (ns j))))) + spare + E := by
  obtain ⟨hj, -, hok, hv, hv0⟩ := h.get hj'
  set v := ns j with hvdef
  have hvo : ViewOk me (noncePoints P v) b V := hV ▸ view_ok hme _ hok (openings_keys ho)
  have hVk : V.keys = groupKeys me coms := hV ▸ view_keys me _ (openings_keys ho)
  set Q := chalQ (S.1.oracle O) t V with hQdef
  have hsig : IsSig Q := isSig_challengeOf _ _ _
  have hncm : ¬ IsCommit Q := not_isCommit_challengeOf _ _ _
  have hagg := fun f : D → Arr 64 => agg_known (O := O) h.tidy V.keys hW f
  have hmeV : me ∈ V.keys := List.mem_map.mpr ⟨_, hvo.mem, rfl⟩
  have hwk : ∃ w, S.1.lookup (ownWeight me V) = some w := hW _ (List.mem_map.mpr ⟨me, hmeV, rfl⟩)
  have hwne : hashWith (S.1.oracle O) (ownWeight me V) ≠ 0 :=
    hash_ne_zero h.tidy hwk (not_isCommit_weight _ _) (not_isSig_weight _ _)
  have hxne : hashWith (S.1.oracle O) (coeffOf t (aggO (S.1.oracle O) V.keys) V me 0) ≠ 0 :=
    hash_ne_zero h.tidy (hX _ hvo.mem 0 (by omega)) (not_isCommit_coeff _ _ _ _ _) (not_isSig_coeff _ _ _ _ _)
  haveI : Fact ell.Prime := ⟨ell_prime⟩
  have hf : factor (S.1.oracle O) me t V = hashWith (S.1.oracle O) (coeffOf t (aggO (S.1.oracle O) V.keys) V me 0) /
      hashWith (S.1.oracle O) (ownWeight me V) := by
    unfold factor
    rw [coeffO_eq]
    rfl
  have hfne : factor (S.1.oracle O) me t V ≠ 0 := by
    rw [hf]; exact div_ne_zero hxne hwne
  -- the real game
  have e : real O hD me x S ss A = avg fun w : Arr 64 =>
      real O hD me x ((Q, rescale (factor (S.1.oracle O) me t V) w) :: S.1, S.2) ss A := by
    rw [avg_rescale _ hfne fun u => real O hD me x ((Q, u) :: S.1, S.2) ss A]
    unfold real
    rw [avg_sample Q hQD S fun F => val1 O hD me x F ss A, sample_new hQ]
    rfl
  rw [e]
  have key : ∀ w : Arr 64, real O hD me x ((Q, rescale (factor (S.1.oracle O) me t V) w) :: S.1, S.2) ss A ≤
      (Ψ ((Q, rescale (factor (S.1.oracle O) me t V) w) :: S.1, S.2) (es, Scalar.ofZ (fakeShare (S.1.oracle O) me t V (shifted x w v))) +
        ind (Beyond w)) + E := by
    intro w
    by_cases hw : Beyond w
    · rw [show ind (Beyond w) = 1 from if_pos hw]
      have h1 := real_le_one O hD me x A ((Q, rescale (factor (S.1.oracle O) me t V) w) :: S.1, S.2) ss
      have h2 := hΨ ((Q, rescale (factor (S.1.oracle O) me t V) w) :: S.1, S.2) (es, Scalar.ofZ (fakeShare (S.1.oracle O) me t V (shifted x w v)))
      linarith
    · rw [show ind (Beyond w) = 0 from if_neg hw, add_zero]
      set u := rescale (factor (S.1.oracle O) me t V) w with hu
      have hru : residue u = factor (S.1.oracle O) me t V * residue w := residue_rescale _ hfne w hw
      have hrev : (t, coms) ∈ revealedIn ss := by
        obtain ⟨a, c', e1, -⟩ := set_split hj
        rw [e1, revealedIn_append, revealedIn_revealing]
        simp
      have hp := h.program Q hQD u hQ hsig hncm (t, coms) hrev (fun f => ⟨_, by
        show Q = challengeOf (PublicKey.fromPoint (aggO _ (groupKeys me coms))) t _
        rw [hQdef, ← hVk, hagg f]
        rfl⟩)
      set S' : TB := ((Q, u) :: S.1, S.2) with hS'
      have hext : Ext S S' := by
        intro q' w' hq'
        show List.lookup q' (_ :: S.1) = _
        rw [lookup_cons_ne]
        · exact hq'
        · rintro rfl; rw [hQ] at hq'; cases hq'
      have hp2 := hp.settled t v coms hj hj' es (Scalar.ofZ (fakeShare (S.1.oracle O) me t V (shifted x w v))) (by
          rw [show S'.1.openings coms = S.1.openings coms from openings_cons _ _ _ _ fun h' => absurd h' hncm, ho]) (by
          intro f
          unfold realShare
          rw [← hV]
          refine congrArg Scalar.ofZ ?_
          have hW' : ∀ q ∈ weightQueries V.keys, ∃ w, S'.1.lookup q = some w := fun q hq => by
            obtain ⟨w', hw'⟩ := hW q hq; exact ⟨w', hext q w' hw'⟩
          have hagg' : aggO (wideTable O D (ov (Lk S'.1) f)) V.keys = aggO (S.1.oracle O) V.keys := by
            rw [agg_known (O := O) hp.tidy V.keys hW' f, agg_ext hext V.keys hW]
          have hx1 : ∀ e ∈ V, coeffO (wideTable O D (ov (Lk S'.1) f)) t V e.1.compressed = coeffO (S.1.oracle O) t V e.1.compressed := by
            intro e he
            refine coeffO_congr t V e.1 hagg' fun j hj => ?_
            obtain ⟨w', hw'⟩ := hX e he j hj
            rw [hash_known hp.tidy ⟨w', hext _ w' hw'⟩ f, hashWith_oracle O hw', hashWith_oracle O (hext _ w' hw')]
          have hch : chalQ (wideTable O D (ov (Lk S'.1) f)) t V = Q := chalQ_congr t V hagg' hx1
          have hhash : hashWith (wideTable O D (ov (Lk S'.1) f)) Q = residue u :=
            hashWith_known O hQD (lookup_cons_self Q u S.1) f
          have hown : hashWith (wideTable O D (ov (Lk S'.1) f)) (ownWeight me V) = hashWith (S.1.oracle O) (ownWeight me V) := by
            obtain ⟨w', hw'⟩ := hwk
            rw [hash_known hp.tidy ⟨w', hext _ w' hw'⟩ f, hashWith_oracle O hw', hashWith_oracle O (hext _ w' hw')]
          unfold shareIn fakeShare
          rw [hx1 _ hvo.mem, hch, hhash, hown, hru, hf]
          show (List.zipWith _ (coeffO (S.1.oracle O) t V me.compressed) _).sum + _ = _
          rw [coeffO_eq]
          have h0 : residue (shifted x w v 0) = residue (v 0) + residue w * x := residue_shift _ _ hv
          rw [h0, show shifted x w v 1 = v 1 from rfl, show shifted x w v 2 = v 2 from rfl]
          simp only [List.zipWith_cons_cons, List.zipWith_nil_right, List.sum_cons, List.sum_nil]
          field_simp
          ring)
      exact hk _ _ hp2
  refine le_trans (avg_mono key) ?_
  rw [avg_add, avg_add, avg_const (Ω := Arr 64), ← chance_eq_avg]
  have := chance_beyond
  linarith

/-- All coefficients but the owner's first. -/
noncomputable def otherCoeffs (me : PublicKey P) (t : Transcript) (agg : P) (V : View P) : List (List MOp) :=
  (V.flatMap fun e => [0, 1, 2].map fun i => coeffOf t agg V e.1 i).filter (· ≠ coeffOf t agg V me 0)

theorem otherCoeffs_length (me : PublicKey P) (t : Transcript) (agg : P) (V : View P) : (otherCoeffs me t agg V).length ≤ 3 * V.length := by
  unfold otherCoeffs
  refine (List.length_filter_le _ _).trans ?_
  have : ∀ W : View P, (W.flatMap fun e => [0, 1, 2].map fun i => coeffOf t agg V e.1 i).length = 3 * W.length := by
    intro W
    induction W with
    | nil => rfl
    | cons e W ih =>
      rw [List.flatMap_cons, List.length_append, ih]
      simp only [List.map_cons, List.map_nil, List.length_cons, List.length_nil]
      omega
  exact (this V).le

theorem mem_otherCoeffs {me : PublicKey P} {t : Transcript} {agg : P} {V : View P} {q : List MOp} :
    q ∈ otherCoeffs me t agg V ↔ (∃ e ∈ V, ∃ j < 3, q = coeffOf t agg V e.1 j) ∧ q ≠ coeffOf t agg V me 0 := by
  unfold otherCoeffs
  rw [List.mem_filter, List.mem_flatMap]
  simp only [List.mem_map, List.mem_cons, List.not_mem_nil, or_false, decide_eq_true_eq]
  refine and_congr ⟨?_, ?_⟩ (by simp)
  · rintro ⟨e, he, j, hj, rfl⟩
    exact ⟨e, he, j, by omega, rfl⟩
  · rintro ⟨e, he, j, hj, rfl⟩
    exact ⟨e, he, j, by omega, rfl⟩

theorem coeffOf_inj {t : Transcript} {agg : P} {V : View P} (hV : ∀ e ∈ V, e.1.WF) {k k' : PublicKey P} {j j' : Nat}
    (h : coeffOf t agg V k j = coeffOf t agg V k' j') : k.compressed = k'.compressed ∧ j = j' := by
  letI : Oracles := toyOracles
  obtain ⟨-, -, -, h1, h2⟩ := musig_coeff_query_injective t.log t.log agg agg V V k.compressed k'.compressed j j' hV hV h
  exact ⟨h1, h2⟩

/-- The collective nonce is fresh. -/
theorem chance_nonce_hit (t : Transcript) {own : RevealedPoints P} {V : View P} (hV : ViewOk me own b V) (r : Z) (hr : r ≠ 0) (p₁ p₂ : P)
    (hown : own.pts.1 = [r • basepoint, p₁, p₂]) (S : TB)
    (hW : ∀ q ∈ weightQueries V.keys, ∃ w, S.1.lookup q = some w)
    (hX : ∀ q ∈ otherCoeffs me t (aggO (S.1.oracle O) V.keys) V, ∃ w, S.1.lookup q = some w)
    (hn : S.1.lookup (coeffOf t (aggO (S.1.oracle O) V.keys) V me 0) = none) :
    chance (fun u : Arr 64 => (S.add (coeffOf t (aggO (S.1.oracle O) V.keys) V me 0) u).1.lookup
      (chalQ ((S.add (coeffOf t (aggO (S.1.oracle O) V.keys) V me 0) u).1.oracle O) t V) ≠ none) ≤ S.1.length * guess := by
  set A := aggO (S.1.oracle O) V.keys with hA
  set q0 := coeffOf t A V me 0 with hq0
  set F : Arr 64 → List MOp := fun u => chalQ ((S.add q0 u).1.oracle O) t V with hF
  have hext : ∀ u, Ext S (S.add q0 u) := fun u => Ext.add S q0 u hn
  have hagg : ∀ u, aggO ((S.add q0 u).1.oracle O) V.keys = A := fun u => agg_ext (hext u) V.keys hW
  have hinj : ∀ u u', F u = F u' → residue u = residue u' := by
    intro u u' he
    obtain ⟨-, -, e3⟩ := signature_query_inj he
    have e4 : nonceO ((S.add q0 u).1.oracle O) t V = nonceO ((S.add q0 u').1.oracle O) t V := compress_inj.mp (Subtype.ext e3)
    have e5 := nonceO_first t V hV.nodup me own hV.mem hV.uniq r hr p₁ p₂ hown ((hagg u).trans (hagg u').symm) (by
      intro e hem j hj hne
      rw [hagg u']
      have hq : coeffOf t A V e.1 j ∈ otherCoeffs me t A V := by
        refine mem_otherCoeffs.mpr ⟨⟨e, hem, j, hj, rfl⟩, fun h' => ?_⟩
        obtain ⟨h1, h2⟩ := coeffOf_inj hV.wf h'
        rcases hne with h3 | h3
        · exact h3 (hV.uniq e hem h1)
        · exact h3 h2
      obtain ⟨w, hw⟩ := hX _ hq
      rw [hashWith_oracle O (hext u _ w hw), hashWith_oracle O (hext u' _ w hw)]) e4
    rw [hagg u'] at e5
    have l1 : (S.add q0 u).1.lookup (coeffOf t A V me 0) = some u := lookup_cons_self q0 u S.1
    have l2 : (S.add q0 u').1.lookup (coeffOf t A V me 0) = some u' := lookup_cons_self q0 u' S.1
    rwa [hashWith_oracle O l1, hashWith_oracle O l2] at e5
  have hone : ∀ l, chance (fun u => F u = l) ≤ guess := by
    intro l
    by_cases h : ∃ u, F u = l
    · obtain ⟨u₀, h₀⟩ := h
      exact le_trans (chance_mono fun u hu => hinj u u₀ (hu.trans h₀.symm)) (chance_residue (residue u₀))
    · refine le_trans (chance_mono fun u hu => (h ⟨u, hu⟩).elim) (chance_residue 0)
  have := chance_mem_of_one F guess hone (S.1.map (·.1))
  rw [List.length_map] at this
  refine le_trans (chance_mono ?_) this
  intro u hu
  refine ⟨F u, ?_, rfl⟩
  by_contra hm
  refine hu ?_
  show List.lookup (F u) ((q0, u) :: S.1) = none
  rw [lookup_cons_ne]
  · exact lookup_none_iff.mpr hm
  · intro heq
    exact not_isSig_coeff t A V me 0 (show IsSig q0 from heq ▸ isSig_challengeOf _ _ _)

/-- What stays true while a session is settled. -/
structure Going (O : Oracles) (D T : Finset (List MOp)) (me : PublicKey P) (x : Z) (b : Nat) (j : Nat) (js : List Nat) (ns : Nat → Fin 3 → Arr 64)
    (ss : List (RealPhase P)) (ss' : List (FakePhase P)) (S₀ : TB) (n : Nat) (S : TB) : Prop where
  paired : Paired O D T me x b n (j :: js) ns S ss ss'
  kept : Kept ss' S₀ S
  fresh : ∀ j' ∈ js, Fresh me ns S.1 ss' j'

variable {O T me x b} in
theorem Going.add {j : Nat} {js : List Nat} {ns : Nat → Fin 3 → Arr 64} {ss : List (RealPhase P)} {ss' : List (FakePhase P)} {S₀ : TB} {n : Nat} {S : TB}
    (h : Going O D T me x b j js ns ss ss' S₀ n S) (q : List MOp) (hq : q ∈ D) (w : Arr 64) (hn : S.1.lookup q = none)
    (hp : pref w ∉ exOf ss' ++ S.1.map fun e => pref e.2) (hz : residue w ≠ 0)
    (hf : ∀ j' ∈ js, ∀ t coms es, ripe S.1 ss' j' = some (t, coms, es) → ∀ agg : P,
      coeffOf t agg (BMap.set es me (noncePoints P (ns j'))) me 0 ≠ q) : Going O D T me x b j js ns ss ss' S₀ (n + 1) (S.add q w) := by
  have hk := h.paired.kept_add q w hp
  exact ⟨h.paired.add q hq w hn hp hz, h.kept.trans hk, fun j' hj' => (h.fresh j' hj').cons q w hk (hf j' hj')⟩

/-- The nonce coefficients, then the challenge. -/
theorem close_coeffs (hx : me.point = x • (basepoint : P)) {n j : Nat} {js : List Nat} {ns : Nat → Fin 3 → Arr 64} {S₀ S : TB} {ss : List (RealPhase P)}
    {ss' : List (FakePhase P)} (h : Going O D T me x b j js ns ss ss' S₀ n S) (hnd : j ∉ js) (t : Transcript) (coms : BMap P Commitment)
    (hj' : ss'[j]? = some (.revealing t none coms)) (hme : me.WF) (es : View P) (ho : S.1.openings coms = some es)
    (V : View P) (hV : V = BMap.set es me (noncePoints P (ns j)))
    (hW : ∀ q ∈ weightQueries V.keys, ∃ w, S.1.lookup q = some w)
    (agg : P) (hagg : agg = aggO (S.1.oracle O) V.keys)
    (hfree : S.1.lookup (coeffOf t agg V me 0) = none)
    (hcD : ∀ k : PublicKey P, ∀ j < 3, coeffOf t agg V k j ∈ D) (hQD : ∀ R : P, challengeOf (PublicKey.fromPoint agg) t (compress R).1 ∈ D)
    (A : Client (CosignRequest P) CosignAnswer α) (Ψ : TB → View P × Scalar → ℚ) (hΨ : ∀ S o, 0 ≤ Ψ S o) (E : ℚ) (hE : 0 ≤ E)
    (hk : ∀ S' s, Paired O D T me x b (n + 3 * (b + 1) + 2) js ns S' ss (ss'.set j (.revealing t (some (es, s)) coms)) → Kept ss' S₀ S' →
      (∀ j' ∈ js, Fresh me ns S'.1 ss' j') → real O hD me x S' ss A ≤ Ψ S' (es, s) + E) (hn : n + 3 * (b + 1) + 2 ≤ N) :
    real O hD me x S ss A ≤
      (avg fun w : Arr 64 => sampleAll (coeffQueries me t agg V) S fun S => Ψ
        ((challengeOf (PublicKey.fromPoint agg) t (compress (nonceO (S.1.oracle O) t V)).1, rescale (factor (S.1.oracle O) me t V) w) :: S.1, S.2)
        (es, Scalar.ofZ (fakeShare (S.1.oracle O) me t V (shifted x w (ns j))))) +
        (3 * (b + 1) : Nat) * e1 N + (e1 N + N * guess + (spare + E)) := by
  obtain ⟨hj, -, hok, hv, hv0⟩ := h.paired.get hj'
  have hvo : ViewOk me (noncePoints P (ns j)) b V := hV ▸ view_ok hme _ hok (openings_keys ho)
  have hripe : ripe S.1 ss' j = some (t, coms, es) := ripe_eq_some.mpr ⟨hj', ho⟩
  set q0 := coeffOf t agg V me 0 with hq0
  set qs := otherCoeffs me t agg V with hqs
  have hqslen : qs.length ≤ 3 * (b + 1) := (otherCoeffs_length me t agg V).trans (Nat.mul_le_mul_left 3 hvo.len)
  have he := e1_nonneg N
  have hg := guess_nonneg
  have hsp := spare_nonneg
  have hqD : ∀ q ∈ qs, q ∈ D := by
    intro q hq
    obtain ⟨⟨e, -, j, hj, rfl⟩, -⟩ := mem_otherCoeffs.mp hq
    exact hcD e.1 j hj
  have hqc : ∀ q ∈ qs, ¬ IsCommit q := by
    intro q hq
    obtain ⟨⟨e, -, j, hj, rfl⟩, -⟩ := mem_otherCoeffs.mp hq
    exact not_isCommit_coeff _ _ _ _ _
  have hother : ∀ {n' : Nat} {S' : TB}, Going O D T me x b j js ns ss ss' S₀ n' S' → (S'.1.openings coms : Option (View P)) = some es →
      ∀ (k : PublicKey P) (i : Nat), ∀ j' ∈ js, ∀ t' coms' es', ripe S'.1 ss' j' = some (t', coms', es') → ∀ agg' : P,
      coeffOf t' agg' (BMap.set es' me (noncePoints P (ns j'))) me 0 ≠ coeffOf t agg V k i := by
    intro n' S' hp ho' k i j' hj'' t' coms' es' hr' agg'
    rw [hV]
    exact coeff_apart hp.paired hme (fun h' : j' = j => hnd (by rw [← h']; exact hj'')) (ripe_eq_some.mpr ⟨hj', ho'⟩) hr' agg agg' k i
  set Φ : TB → ℚ := fun S => avg fun w : Arr 64 => Ψ
        ((challengeOf (PublicKey.fromPoint agg) t (compress (nonceO (S.1.oracle O) t V)).1, rescale (factor (S.1.oracle O) me t V) w) :: S.1, S.2)
        (es, Scalar.ofZ (fakeShare (S.1.oracle O) me t V (shifted x w (ns j)))) with hΦ
  have hΦ0 : ∀ S, 0 ≤ Φ S := fun S => avg_nonneg fun w => hΨ _ _
  rw [sampleAll_avg]
  show _ ≤ sampleAll (qs ++ [q0]) S Φ + _ + _
  rw [sampleAll_append]
  have e : real O hD me x S ss A = sampleAll qs S fun S => sample q0 S fun S => real O hD me x S ss A := by
    unfold real
    rw [avg_sampleAll qs hqD S fun F => val1 O hD me x F ss A]
    congr 1
    funext S'
    exact avg_sample q0 (hcD me 0 (by omega)) S' fun F => val1 O hD me x F ss A
  rw [e]
  refine le_trans (sampleAll_le N (e1 N) he (fun n S => Going O D T me x b j js ns ss ss' S₀ n S ∧ S.1.lookup q0 = none ∧
      (S.1.openings coms : Option (View P)) = some es) (fun n S hp => ⟨⟨hp.1.paired.mono (by omega), hp.1.kept, hp.1.fresh⟩, hp.2⟩) _
      (fun S => sample q0 S Φ)
      (fun S => sample_le_one fun S => real_le_one O hD me x _ _ _) (fun S => sample_nonneg hΦ0) (e1 N + N * guess + (spare + E))
      (by positivity) qs ?_ n S (by omega) ⟨h, hfree, ho⟩ ?_) ?_
  · rintro n' S' q hn' ⟨hp1, hp2, hp3⟩ hq hl
    refine le_trans (chance_mono ?_) (hp1.paired.chance_bad (N := N) (by omega))
    intro w hw h'
    refine hw ⟨hp1.add q (hqD q hq) w hl h'.1 h'.2 ?_, ?_, ?_⟩
    · obtain ⟨⟨e, -, i, -, rfl⟩, -⟩ := mem_otherCoeffs.mp hq
      exact hother hp1 hp3 e.1 i
    · show List.lookup q0 ((q, w) :: S'.1) = none
      rw [lookup_cons_ne (fun h => (mem_otherCoeffs.mp hq).2 h.symm)]
      exact hp2
    · rw [show (S'.add q w).1 = (q, w) :: S'.1 from rfl, openings_cons _ _ _ _ fun h' => absurd h' (hqc q hq)]
      exact hp3
  · rintro S' ⟨hp1, hp2, hp3⟩ hext hall
    have hW' : ∀ q ∈ weightQueries V.keys, ∃ w, S'.1.lookup q = some w := fun q hq => by
      obtain ⟨w', hw'⟩ := hW q hq; exact ⟨w', hext q w' hw'⟩
    have hagg' : agg = aggO (S'.1.oracle O) V.keys := by rw [agg_ext hext V.keys hW]; exact hagg
    refine le_trans (sample_le q0 S' _ Φ (fun S => real_le_one O hD me x _ _ _) hΦ0
      (fun u => (pref u ∉ (exOf ss' ++ S'.1.map fun e => pref e.2) ∧ residue u ≠ 0) ∧
        (S'.add q0 u).1.lookup (chalQ ((S'.add q0 u).1.oracle O) t V) = none) (e1 N + N * guess) (spare + E) (by linarith) hp2 ?_ ?_) ?_
    · refine le_trans (chance_mono (p' := fun u => ¬ (pref u ∉ (exOf ss' ++ S'.1.map fun e => pref e.2) ∧ residue u ≠ 0) ∨
        (S'.add q0 u).1.lookup (chalQ ((S'.add q0 u).1.oracle O) t V) ≠ none) fun u hu => not_and_or.mp hu) (le_trans chance_or ?_)
      refine add_le_add (hp1.paired.chance_bad (by omega)) ?_
      have hc := chance_nonce_hit O me b t hvo (residue (ns j 0)) hv0 (residue (ns j 1) • basepoint) (residue (ns j 2) • basepoint) rfl S' hW'
        (by rw [← hagg']; exact hall) (by rw [← hagg']; exact hp2)
      rw [← hagg'] at hc
      refine le_trans hc (mul_le_mul_of_nonneg_right ?_ hg)
      have : S'.1.length ≤ N := hp1.paired.tidy.len.trans (by omega)
      exact_mod_cast this
    · rintro u ⟨⟨hu1, hu2⟩, hu3⟩
      have hext2 : Ext S' (S'.add q0 u) := Ext.add S' q0 u hp2
      have hagg2 : aggO ((S'.add q0 u).1.oracle O) V.keys = agg := (agg_ext hext2 V.keys hW').trans hagg'.symm
      have hQ : chalQ ((S'.add q0 u).1.oracle O) t V =
          challengeOf (PublicKey.fromPoint agg) t (compress (nonceO ((S'.add q0 u).1.oracle O) t V)).1 := by
        unfold chalQ; rw [hagg2]
      have hgo := hp1.add q0 (hcD me 0 (by omega)) u hp2 hu1 hu2 (hother hp1 hp3 me 0)
      have ho2 : ((S'.add q0 u).1.openings coms : Option (View P)) = some es := by
        rw [show (S'.add q0 u).1 = (q0, u) :: S'.1 from rfl, openings_cons _ _ _ _ fun h' => absurd h' (not_isCommit_coeff _ _ _ _ _)]
        exact hp3
      have hfin := close_final O hD T me x b hx hgo.paired t coms hj' hme es ho2 V hV
        (fun q hq => by obtain ⟨w', hw'⟩ := hW' q hq; exact ⟨w', hext2 q w' hw'⟩)
        (by
          intro e hem j hj
          rw [hagg2]
          by_cases hq : coeffOf t agg V e.1 j = q0
          · exact ⟨u, by rw [hq]; exact lookup_cons_self q0 u S'.1⟩
          · obtain ⟨w', hw'⟩ := hall _ (mem_otherCoeffs.mpr ⟨⟨e, hem, j, hj, rfl⟩, hq⟩)
            exact ⟨w', hext2 _ w' hw'⟩)
        hu3 (by rw [hQ]; exact hQD _) A Ψ hΨ E hE (by
          intro u' s hpair
          have hkq : Kept ss' (S'.add q0 u) ((chalQ ((S'.add q0 u).1.oracle O) t V, u') :: (S'.add q0 u).1, (S'.add q0 u).2) := by
            intro t' o' coms' _
            exact openings_cons _ _ _ _ fun h' => absurd h' (not_isCommit_challengeOf _ _ _)
          refine hk _ s (hpair.mono (by omega)) (hgo.kept.trans hkq) fun j' hj'' => (hgo.fresh j' hj'').cons _ _ hkq ?_
          intro t' coms' es' _ agg' heq
          have hsg : IsSig (coeffOf t' agg' (BMap.set es' me (noncePoints P (ns j'))) me 0) := by
            rw [heq]; exact isSig_challengeOf _ _ _
          exact not_isSig_coeff t' agg' _ me 0 hsg)
      rw [hQ] at hfin
      rw [← add_assoc]
      exact hfin
    · exact le_of_eq (by ring)
  · have : (qs.length : ℚ) * e1 N ≤ (3 * (b + 1) : Nat) * e1 N := by
      refine mul_le_mul_of_nonneg_right ?_ he
      exact_mod_cast hqslen
    show _ ≤ sampleAll qs S (fun S => sample q0 S Φ) + _ + _
    linarith

end

end Schnorrkel
