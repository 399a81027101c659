import Verif.Props.Zk
import Verif.Props.MuSigKeys

/-! # C59: knowledge soundness (extraction from two accepting runs of a forked hash) -/

namespace Schnorrkel.Props
open SigningTranscript Spec
variable {P : Type} [Ristretto P]

private theorem solve_point {A G : P} {d e : Z} (hd : d ≠ 0) (h : d • A = e • G) : A = (e / d) • G := by
  rw [div_eq_inv_mul, mul_smul, ← h, smul_smul, inv_mul_cancel₀ hd, one_smul]

/-- **C59** two signatures with the same commitment, accepted under two hash functions that answer the challenge
differently, give the discrete logarithm of the public key; the secret key made from it signs every transcript. -/
theorem signature_fork_extracts (O O' : Oracles) (pk : PublicKey P) (t : Transcript) (s s' : Scalar) (R : Compressed)
    (h : verifyWith O pk t ⟨R, s⟩ = .ok ()) (h' : verifyWith O' pk t ⟨R, s'⟩ = .ok ())
    (hne : hashWith O (Use.signature t.log pk.compressed.1 R.1).query ≠
      hashWith O' (Use.signature t.log pk.compressed.1 R.1).query) :
    let x := (s.toZ - s'.toZ) / (hashWith O (Use.signature t.log pk.compressed.1 R.1).query -
      hashWith O' (Use.signature t.log pk.compressed.1 R.1).query)
    pk.point = x • (basepoint : P) ∧
    ∀ (O₁ : Oracles) (nonce : Arr 32) (t₁ : Transcript) (sys : Rng),
      verifyWith O₁ pk t₁ (signWith O₁ ⟨Scalar.ofZ x, nonce⟩ t₁ pk sys) = .ok () := by
  intro x
  have hx : pk.point = x • (basepoint : P) := by
    rw [verifyWith_iff] at h h'
    have e := compress_inj.mp (h.trans h'.symm)
    simp only at e
    refine solve_point (sub_ne_zero.mpr hne) ?_
    rw [sub_smul, sub_smul]
    rw [sub_eq_sub_iff_add_eq_add] at e ⊢
    rw [add_comm, ← e, add_comm]
  refine ⟨hx, fun O₁ nonce t₁ sys => ?_⟩
  rw [verifyWith_iff, sign_merlin_form]
  simp only [Scalar.toZ_ofZ]
  rw [hx, smul_smul, ← sub_smul, add_sub_cancel_left]

/-- The aggregate of a list of keys when the hash functions are `O`. -/
def aggregateWith (O : Oracles) (keys : List (PublicKey P)) : P := letI := O; aggregate keys

/-- **C59** rogue keys do not help: whoever knows the discrete logarithm of the aggregate key before and after the
hash answer for one participant's weight is changed, knows that participant's secret key. -/
theorem musig_weight_fork_extracts (O : Oracles) (ks : List (PublicKey P)) (hks : (ks.map (·.compressed)).Nodup)
    (pk : PublicKey P) (hpk : pk ∈ ks) (w : Arr 64) (x x' : Z)
    (hne : residue w ≠ hashWith O (weightQuery (ks.map (·.compressed.1)) pk.compressed.1))
    (h : aggregateWith O ks = x • (basepoint : P))
    (h' : aggregateWith (program O (weightQuery (ks.map (·.compressed.1)) pk.compressed.1) w) ks = x' • (basepoint : P)) :
    pk.point = ((x' - x) / (residue w - hashWith O (weightQuery (ks.map (·.compressed.1)) pk.compressed.1))) •
      (basepoint : P) := by
  classical
  refine solve_point (sub_ne_zero.mpr hne) ?_
  rw [sub_smul x', ← h, ← h']
  have e : ∀ O : Oracles, aggregateWith O ks =
      (ks.map fun k => hashWith O (weightQuery (ks.map (·.compressed.1)) k.compressed.1) • k.point).sum := fun _ => rfl
  have hsub : ∀ (f g : PublicKey P → P) (l : List (PublicKey P)),
      (l.map f).sum - (l.map g).sum = (l.map fun k => f k - g k).sum := by
    intro f g l
    induction l with
    | nil => simp
    | cons a l ih => simp only [List.map_cons, List.sum_cons, ← ih]; abel
  rw [e, e, hsub]
  have hnd : ks.Nodup := hks.of_map _
  rw [List.sum_map_eq_nsmul_single pk, List.count_eq_one_of_mem hnd hpk, one_smul, hashWith_hit, ← sub_smul]
  intro k hk hmem
  have hc : weightQuery (ks.map (·.compressed.1)) k.compressed.1 ≠ weightQuery (ks.map (·.compressed.1)) pk.compressed.1 := by
    intro hq
    have := (weightQuery_injective hq).2
    exact hk (List.inj_on_of_nodup_map hks hmem hpk (Subtype.ext this))
  rw [hashWith_miss _ _ _ w hc, sub_self]

/-- **C59** combined: four signatures under the aggregate key (two per weight answer, each two sharing a commitment
with different challenge answers) give the chosen participant's secret key, explicitly. -/
theorem musig_forgery_extracts (O : Oracles) (ks : List (PublicKey P)) (hks : (ks.map (·.compressed)).Nodup)
    (pk : PublicKey P) (hpk : pk ∈ ks) (w : Arr 64)
    (hne : residue w ≠ hashWith O (weightQuery (ks.map (·.compressed.1)) pk.compressed.1))
    (t t' : Transcript) (R R' : Compressed) (s₁ s₂ s₁' s₂' : Scalar) (O₂ O₂' : Oracles) :
    let O' := program O (weightQuery (ks.map (·.compressed.1)) pk.compressed.1) w
    let X : PublicKey P := PublicKey.fromPoint (aggregateWith O ks)
    let X' : PublicKey P := PublicKey.fromPoint (aggregateWith O' ks)
    let c₁ := hashWith O (Use.signature t.log X.compressed.1 R.1).query
    let c₂ := hashWith O₂ (Use.signature t.log X.compressed.1 R.1).query
    let c₁' := hashWith O' (Use.signature t'.log X'.compressed.1 R'.1).query
    let c₂' := hashWith O₂' (Use.signature t'.log X'.compressed.1 R'.1).query
    verifyWith O X t ⟨R, s₁⟩ = .ok () → verifyWith O₂ X t ⟨R, s₂⟩ = .ok () → c₁ ≠ c₂ →
    verifyWith O' X' t' ⟨R', s₁'⟩ = .ok () → verifyWith O₂' X' t' ⟨R', s₂'⟩ = .ok () → c₁' ≠ c₂' →
    pk.point = (((s₁'.toZ - s₂'.toZ) / (c₁' - c₂') - (s₁.toZ - s₂.toZ) / (c₁ - c₂)) /
      (residue w - hashWith O (weightQuery (ks.map (·.compressed.1)) pk.compressed.1))) • (basepoint : P) := by
  intro O' X X' c₁ c₂ c₁' c₂' h1 h2 hc h1' h2' hc'
  exact musig_weight_fork_extracts O ks hks pk hpk w _ _ hne
    (signature_fork_extracts O O₂ X t s₁ s₂ R h1 h2 hc).1
    (signature_fork_extracts O' O₂' X' t' s₁' s₂' R' h1' h2' hc').1

/-- Non-vacuity: forks exist — any two different answers to one challenge are both completed by an honest signer,
with the same commitment, and the extracted number is the signer's key. -/
example (O : Oracles) (sk : SecretKey) (t : Transcript) (r : Z) (w w' : Arr 64) (hne : residue w ≠ residue w') :
    let pk : PublicKey P := sk.toPublic
    let R := compress (r • (basepoint : P))
    let q := (Use.signature t.log pk.compressed.1 R.1).query
    let s : Scalar := Scalar.ofZ (r + residue w * sk.key.toZ)
    let s' : Scalar := Scalar.ofZ (r + residue w' * sk.key.toZ)
    verifyWith (program O q w) pk t ⟨R, s⟩ = .ok () ∧ verifyWith (program O q w') pk t ⟨R, s'⟩ = .ok () ∧
    hashWith (program O q w) q ≠ hashWith (program O q w') q ∧
    (s.toZ - s'.toZ) / (hashWith (program O q w) q - hashWith (program O q w') q) = sk.key.toZ := by
  intro pk R q s s'
  have hpt : pk.point = sk.key.toZ • (basepoint : P) := mulPoint_eq _ _
  have hv : ∀ w : Arr 64, verifyWith (program O q w) pk t ⟨R, Scalar.ofZ (r + residue w * sk.key.toZ)⟩ = .ok () := by
    intro w
    rw [verifyWith_iff]
    simp only [Scalar.toZ_ofZ]
    rw [hashWith_hit, hpt, smul_smul, ← sub_smul, add_sub_cancel_right]
  refine ⟨hv w, hv w', by rw [hashWith_hit, hashWith_hit]; exact hne, ?_⟩
  rw [hashWith_hit, hashWith_hit, Scalar.toZ_ofZ, Scalar.toZ_ofZ]
  have hd : residue w - residue w' ≠ 0 := sub_ne_zero.mpr hne
  field_simp
  ring

end Schnorrkel.Props
