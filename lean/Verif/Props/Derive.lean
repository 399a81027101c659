import Verif.Spec.Derive
import Verif.Props.Vrf

/-! # C34–C36: hierarchical deterministic key derivation -/

namespace Schnorrkel.Props
open SigningTranscript Spec
variable {P : Type} [Ristretto P] {T T' : Type} [SigningTranscript T] [SigningTranscript T']

/-- The tweak scalar and chain code seen by the two parties coincide. -/
theorem tweak_sim {Rel : T → T' → Prop} (hR : TSim Rel) {t : T} {t' : T'} (ht : Rel t t')
    (pk : PublicKey P) (cc : ChainCode) :
    (PublicKey.deriveScalarAndChaincode pk t cc).1 = (PublicKey.deriveScalarAndChaincode pk t' cc).1 ∧
    (PublicKey.deriveScalarAndChaincode pk t cc).2.1 =
      (PublicKey.deriveScalarAndChaincode pk t' cc).2.1 := by
  have h1 := hR.point (b! "public-key") pk.compressed (hR.commit _ _ (b! "chain-code") cc.bytes.1 ht)
  have h2 := hR.challengeScalar_eq (b! "HDKD-scalar") h1
  have h3 := hR.challengeScalar_rel (b! "HDKD-scalar") h1
  exact ⟨h2, congrArg ChainCode.mk (hR.challenge _ _ (b! "HDKD-chaincode") 32 h3).1⟩

theorem canonical_tweak (pk : PublicKey P) (t : T) (cc : ChainCode) :
    (PublicKey.deriveScalarAndChaincode pk t cc).1.Canonical := canonical_challenge _ _

theorem derive_secret_key_key (kp : Keypair P) (t : T) (cc : ChainCode) (sys : Rng) :
    (kp.deriveSecretKey t cc sys).1.key =
      kp.secret.key + (PublicKey.deriveScalarAndChaincode kp.pub t cc).1 := rfl

/-! ## C35 -/

/-- **C35** one soft derivation step, by two parties with transcripts of any two types with the same
history, whatever the RNGs: deriving the keypair and taking its public key equals deriving the public
key; the chain codes agree; the child keypair is consistent and its scalar reduced. -/
theorem soft_derivation_commutes {Rel : T → T' → Prop} (hR : TSim Rel) {t : T} {t' : T'}
    (ht : Rel t t') (sk : SecretKey) (hc : sk.key.Canonical) (cc : ChainCode) (sys sys' : Rng) :
    let kp : Keypair P := sk.toKeypair
    let child := Derivation.derivedKey kp t cc sys
    let pubChild := Derivation.derivedKey kp.pub t' cc sys'
    child.1.pub = pubChild.1 ∧ child.2.1 = pubChild.2.1 ∧ child.1 = child.1.secret.toKeypair ∧
      child.1.secret.key.Canonical := by
  intro kp child pubChild
  obtain ⟨h1, h2⟩ := tweak_sim hR ht kp.pub cc
  have hcan := Scalar.canonical_add hc (canonical_tweak kp.pub t cc)
  refine ⟨?_, h2, rfl, hcan⟩
  show PublicKey.fromPoint ((sk.key + (PublicKey.deriveScalarAndChaincode kp.pub t cc).1) •. basepoint) =
    PublicKey.fromPoint (sk.key •. basepoint + (PublicKey.deriveScalarAndChaincode kp.pub t' cc).1 •. basepoint)
  rw [← h1]
  simp only [mulPoint_eq]
  rw [Scalar.toZ_add hc (canonical_tweak kp.pub t cc), add_smul]

/-- **C35** paths of any length: the secret-key holder and the public-key holder walk the same path
(any mix of transcript types, any RNGs) and end with matching keys and equal chain codes. -/
theorem soft_derivation_path_commutes (path : List DStep) (sk : SecretKey) (hc : sk.key.Canonical)
    (cc : ChainCode) (sys sys' : Rng) :
    let kp : Keypair P := sk.toKeypair
    let child := derivePath path kp cc sys
    let pubChild := derivePath' path kp.pub cc sys'
    child.1.pub = pubChild.1 ∧ child.2.1 = pubChild.2.1 ∧ child.1 = child.1.secret.toKeypair ∧
      child.1.secret.key.Canonical := by
  induction path generalizing sk cc sys sys' with
  | nil => exact ⟨rfl, rfl, rfl, hc⟩
  | cons s path ih =>
    intro kp child pubChild
    letI := s.inst
    letI := s.inst'
    obtain ⟨h1, h2, h3, h4⟩ := soft_derivation_commutes (P := P) s.sim s.rel sk hc cc sys sys'
    have := ih (Derivation.derivedKey kp s.t cc sys).1.secret h4 (Derivation.derivedKey kp s.t cc sys).2.1
      (Derivation.derivedKey kp s.t cc sys).2.2 (Derivation.derivedKey kp.pub s.t' cc sys').2.2
    rw [← h3] at this
    rw [h2] at this
    have e : pubChild = derivePath' path (Derivation.derivedKey kp s.t cc sys).1.pub
        (Derivation.derivedKey kp.pub s.t' cc sys').2.1 (Derivation.derivedKey kp.pub s.t' cc sys').2.2 := by
      rw [h1]; rfl
    have e' : child = derivePath path (Derivation.derivedKey kp s.t cc sys).1
        (Derivation.derivedKey kp.pub s.t' cc sys').2.1 (Derivation.derivedKey kp s.t cc sys).2.2 := by
      rw [← h2]; rfl
    rw [e, e']
    exact this

/-- **C35** the secret-key, keypair and extended-key entry points all derive the same child. -/
theorem derivation_entry_points_agree (sk : SecretKey) (t : T) (cc : ChainCode) (sys : Rng) :
    letI := secretKeyDerivation P
    let kp : Keypair P := sk.toKeypair
    let child := Derivation.derivedKey kp t cc sys
    Derivation.derivedKey sk t cc sys = (child.1.secret, child.2.1, child.2.2) ∧
    kp.deriveSecretKey t cc sys = (child.1.secret, child.2.1, child.2.2) ∧
    ExtendedKey.derivedKey ⟨kp, cc⟩ t sys = (⟨child.1, child.2.1⟩, child.2.2) ∧
    ExtendedKey.derivedKey ⟨sk, cc⟩ t sys = (⟨child.1.secret, child.2.1⟩, child.2.2) ∧
    (∀ (K : Type) [Derivation K] (k : K), ExtendedKey.derivedKey ⟨k, cc⟩ t sys =
      (⟨(Derivation.derivedKey k t cc sys).1, (Derivation.derivedKey k t cc sys).2.1⟩,
        (Derivation.derivedKey k t cc sys).2.2)) :=
  ⟨rfl, rfl, rfl, rfl, fun _ _ _ => rfl⟩

/-- **C35** exact child of an arbitrary keypair (even an inconsistent one) on a merlin transcript, as a
function of the public history, chain code and public key bytes: tweak and chain code are hash answers,
independent of the RNG, of the nonce, and of whether an RNG is attached. -/
theorem soft_derivation_spec [Oracles] (kp : Keypair P) (hc : kp.secret.key.Canonical) (t : Transcript)
    (cc : ChainCode) (rng sys : Rng) :
    let z := softTweak t.log cc.bytes.1 kp.pub.compressed.1
    let cc' : ChainCode := ⟨softChaincode t.log cc.bytes.1 kp.pub.compressed.1⟩
    let child := Derivation.derivedKey kp t cc sys
    let childRng := Derivation.derivedKey kp (attachRng t rng) cc sys
    let pubChild := Derivation.derivedKey kp.pub t cc sys
    (child.1.secret.key.toZ = kp.secret.key.toZ + z ∧ child.2.1 = cc' ∧ child.1.secret.key.Canonical ∧
      child.1.pub = child.1.secret.toPublic) ∧
    (childRng.1.secret.key = child.1.secret.key ∧ childRng.2.1 = cc' ∧ childRng.1.pub = child.1.pub) ∧
    (pubChild.1 = RistrettoBoth.fromPoint (kp.pub.point + z • basepoint) ∧ pubChild.2.1 = cc') ∧
    Derivation.derivedKey kp.pub (attachRng t rng) cc sys = pubChild := by
  intro z cc' child childRng pubChild
  have hz : (PublicKey.deriveScalarAndChaincode kp.pub t cc).1.toZ = z := by
    show (Scalar.fromBytesModOrderWide (Oracles.merlin _ 64)).toZ = _
    rw [Scalar.toZ_wide]
    simp only [z, softTweak, hashToZ, softQuery, commitPoint, SigningTranscript.commitBytes,
      Transcript.appendMessage, List.append_assoc, List.cons_append, List.nil_append]
  have hcc : (PublicKey.deriveScalarAndChaincode kp.pub t cc).2.1 = cc' := by
    simp only [PublicKey.deriveScalarAndChaincode, challengeScalar, SigningTranscript.challengeBytes,
      cc', softChaincode, softQuery, commitPoint, SigningTranscript.commitBytes, Transcript.challengeBytes,
      Transcript.appendMessage, List.append_assoc, List.cons_append, List.nil_append]
  have hcan := canonical_tweak kp.pub t cc
  refine ⟨⟨?_, hcc, Scalar.canonical_add hc hcan, rfl⟩, ⟨rfl, hcc, rfl⟩, ⟨?_, hcc⟩, rfl⟩
  · rw [← hz]; exact Scalar.toZ_add hc hcan
  · rw [← hz, ← mulPoint_eq]; rfl

/-- **C35** `derived_key_simple` and `derived_key_simple_rng` are `derived_key` on the transcript with
history `simpleLog i`, for every key type. -/
theorem derived_key_simple_spec [Oracles] {K : Type} [Derivation K] (k : K) (cc : ChainCode) (i : Bytes)
    (rng sys : Rng) :
    derivedKeySimple k cc i sys = Derivation.derivedKey k (⟨simpleLog i⟩ : Transcript) cc sys ∧
    derivedKeySimpleRng k cc i rng sys =
      Derivation.derivedKey k (attachRng (⟨simpleLog i⟩ : Transcript) rng) cc sys ∧
    ExtendedKey.derivedKeySimple ⟨k, cc⟩ i sys =
      ExtendedKey.derivedKey ⟨k, cc⟩ (⟨simpleLog i⟩ : Transcript) sys := ⟨rfl, rfl, rfl⟩

/-- A path of `derived_key_simple` steps. -/
def simplePath [Oracles] (is : List Bytes) : List DStep :=
  is.map fun i => ⟨Transcript, Transcript, inferInstance, inferInstance, (· = ·), merlin_sim,
    ⟨simpleLog i⟩, ⟨simpleLog i⟩, rfl⟩

/-- **C35** distinct (history, chain code, public key) triples ask distinct hash queries; soft tweaks
and soft chain codes never share a query. -/
theorem soft_query_injective (l₁ l₂ : List MOp) (c₁ c₂ p₁ p₂ : Bytes) :
    (softQuery l₁ c₁ p₁ = softQuery l₂ c₂ p₂ ↔ l₁ = l₂ ∧ c₁ = c₂ ∧ p₁ = p₂) ∧
    softQuery l₁ c₁ p₁ ≠ softQuery l₂ c₂ p₂ ++ [.challenge (b! "HDKD-chaincode") 32] := by
  constructor
  · constructor
    · intro h
      unfold softQuery at h
      have := List.append_inj' h rfl
      simp at this
      tauto
    · rintro ⟨rfl, rfl, rfl⟩; rfl
  · intro h
    have := congrArg List.getLast? h
    simp [softQuery] at this

/-- The toy secret key 3 with zero nonce. -/
private def k3 : SecretKey := ⟨Scalar.ofNat 3, zeros 32⟩

/-- Non-vacuity for C35: the key 3 walks a two-step path in the toy group; the child really differs from
the parent, and from the child on the other index. -/
example : letI := toyOracles
    k3.key.Canonical ∧
    let a := derivePath (simplePath [b! "x", b! "y"]) (k3.toKeypair : Keypair Toy) ⟨zeros 32⟩ zeroRng
    let b := derivePath (simplePath [b! "x", b! "z"]) (k3.toKeypair : Keypair Toy) ⟨zeros 32⟩ zeroRng
    a.1.secret.key ≠ k3.key ∧ a.1.secret.key ≠ b.1.secret.key ∧ a.2.1 ≠ b.2.1 := by
  letI := toyOracles
  refine ⟨by decide +kernel, ?_, ?_, ?_⟩ <;> decide +kernel

/-! ## C36 -/

/-- **C36** the parent's secret scalar is the child's minus a value computed from public data only: the
parent's public key, the chain code and a transcript `t'` with the same history.  Exact equality of
scalars, for every RNG, and even for keypairs whose halves do not match. -/
theorem parent_secret_from_child {Rel : T → T' → Prop} (hR : TSim Rel) {t : T} {t' : T'}
    (ht : Rel t t') (kp : Keypair P) (hc : kp.secret.key.Canonical) (cc : ChainCode) (sys : Rng) :
    (kp.deriveSecretKey t cc sys).1.key - (PublicKey.deriveScalarAndChaincode kp.pub t' cc).1 =
      kp.secret.key := by
  rw [derive_secret_key_key, (tweak_sim hR ht kp.pub cc).1]
  have hs := canonical_tweak kp.pub t' cc
  have ha := Scalar.canonical_add hc hs
  apply Scalar.Canonical.eq_of_toZ (Scalar.canonical_sub ha hs) hc
  rw [Scalar.toZ_sub ha hs, Scalar.toZ_add hc hs]
  ring

/-- A path of steps on plain merlin transcripts with the given histories. -/
def merlinPath [Oracles] (logs : List (List MOp)) : List DStep :=
  logs.map fun l => ⟨Transcript, Transcript, inferInstance, inferInstance, (· = ·), merlin_sim,
    ⟨l⟩, ⟨l⟩, rfl⟩

/-- **C36** for every path of soft derivations: the final secret scalar is the root's plus a sum of
tweaks which `publicPath` computes from the root's public key and chain code alone; the final public key
and chain code are the ones computed there.  So the root secret is recoverable from any descendant. -/
theorem root_secret_from_descendant [Oracles] (logs : List (List MOp)) (sk : SecretKey)
    (hc : sk.key.Canonical) (cc : ChainCode) (sys : Rng) :
    let kp : Keypair P := sk.toKeypair
    let child := derivePath (merlinPath logs) kp cc sys
    let pub := publicPath kp.pub.point cc.bytes.1 logs
    child.1.secret.key.toZ = sk.key.toZ + pub.2.2 ∧ child.1.pub.point = pub.1 ∧
      child.2.1.bytes.1 = pub.2.1 := by
  induction logs generalizing sk cc sys with
  | nil => exact ⟨(add_zero _).symm, rfl, rfl⟩
  | cons l logs ih =>
    intro kp child pub
    obtain ⟨⟨h1, h2, h3, h4⟩, _, ⟨h5, _⟩, _⟩ := soft_derivation_spec kp hc ⟨l⟩ cc sys sys
    obtain ⟨h6, _, h7, _⟩ := soft_derivation_commutes (P := P) merlin_sim
      (rfl : (⟨l⟩ : Transcript) = ⟨l⟩) sk hc cc sys sys
    have := ih (Derivation.derivedKey kp (⟨l⟩ : Transcript) cc sys).1.secret h3
      (Derivation.derivedKey kp (⟨l⟩ : Transcript) cc sys).2.1
      (Derivation.derivedKey kp (⟨l⟩ : Transcript) cc sys).2.2
    rw [← h7] at this
    simp only [] at this
    rw [h6, h5] at this
    have hcomp : kp.pub.compressed = compress kp.pub.point := rfl
    have e : child = derivePath (merlinPath logs) (Derivation.derivedKey kp (⟨l⟩ : Transcript) cc sys).1
      (Derivation.derivedKey kp (⟨l⟩ : Transcript) cc sys).2.1
      (Derivation.derivedKey kp (⟨l⟩ : Transcript) cc sys).2.2 := rfl
    rw [h1, h2] at this
    rw [e, h2]
    refine ⟨?_, this.2.1, this.2.2⟩
    rw [this.1]
    simp only [pub, publicPath, hcomp, RistrettoBoth.fromPoint]
    exact add_assoc _ _ _

/-- **C36** the output of a hard derivation is the answer to a query naming exactly the index, the
optional chain code and the secret scalar; all entry points agree; the nonce is irrelevant. -/
theorem hard_derivation_spec [Oracles] (sk : SecretKey) (cc : Option ChainCode) (i : Bytes) :
    let q := hardQuery i (cc.map (·.bytes.1)) sk.key.bytes.1
    sk.hardDeriveMiniSecretKey cc i =
      (⟨Oracles.merlin q 32⟩, ⟨Oracles.merlin (q ++ [.challenge (b! "HDKD-chaincode") 32]) 32⟩) ∧
    (∀ nonce, (⟨sk.key, nonce⟩ : SecretKey).hardDeriveMiniSecretKey cc i =
      sk.hardDeriveMiniSecretKey cc i) ∧
    (sk.toKeypair : Keypair P).hardDeriveMiniSecretKey cc i = sk.hardDeriveMiniSecretKey cc i ∧
    (∀ (m : MiniSecretKey) mode, m.hardDeriveMiniSecretKey cc i mode =
      (m.expand mode).hardDeriveMiniSecretKey cc i) ∧
    (∀ c mode, ExtendedKey.hardDeriveMiniSecretKey ⟨sk, c⟩ i mode =
      ⟨(sk.hardDeriveMiniSecretKey (some c) i).1.expand mode,
        (sk.hardDeriveMiniSecretKey (some c) i).2⟩) := by
  refine ⟨?_, fun _ => rfl, rfl, fun _ _ => rfl, fun _ _ => rfl⟩
  cases cc <;> rfl

/-- **C36** distinct (index, optional chain code, scalar) triples ask distinct queries — with and without
a chain code included — and no hard query is a soft query. -/
theorem hard_query_injective (i₁ i₂ k₁ k₂ : Bytes) (c₁ c₂ : Option Bytes) :
    (hardQuery i₁ c₁ k₁ = hardQuery i₂ c₂ k₂ ↔ i₁ = i₂ ∧ c₁ = c₂ ∧ k₁ = k₂) ∧
    (∀ log cc pk, hardQuery i₁ c₁ k₁ ≠ softQuery log cc pk ∧
      hardQuery i₁ c₁ k₁ ≠ softQuery log cc pk ++ [.challenge (b! "HDKD-chaincode") 32] ∧
      hardQuery i₁ c₁ k₁ ++ [.challenge (b! "HDKD-chaincode") 32] ≠ softQuery log cc pk ∧
      hardQuery i₁ c₁ k₁ ++ [.challenge (b! "HDKD-chaincode") 32] ≠
        softQuery log cc pk ++ [.challenge (b! "HDKD-chaincode") 32]) := by
  constructor
  · constructor
    · intro h
      cases c₁ <;> cases c₂ <;> simp [hardQuery, simpleLog] at h ⊢ <;> tauto
    · rintro ⟨rfl, rfl, rfl⟩; rfl
  · intro log cc pk
    have base : hardQuery i₁ c₁ k₁ ≠ softQuery log cc pk := by
      intro h
      have := congrArg List.getLast? h
      simp [softQuery, hardQuery] at this
    refine ⟨base, ?_, ?_, fun h => base (List.append_inj' h rfl).1⟩
    · intro h
      have := congrArg List.getLast? h
      simp [hardQuery] at this
    · intro h
      have := congrArg List.getLast? h
      simp [softQuery] at this

/-- Non-vacuity for C36: a child of key 3 in the toy group, recovered by subtraction. -/
example : letI := toyOracles
    let kp : Keypair Toy := k3.toKeypair
    let t : Transcript := ⟨simpleLog (b! "x")⟩
    (kp.deriveSecretKey t ⟨zeros 32⟩ zeroRng).1.key ≠ kp.secret.key ∧
    (kp.deriveSecretKey t ⟨zeros 32⟩ zeroRng).1.key -
      (PublicKey.deriveScalarAndChaincode kp.pub t ⟨zeros 32⟩).1 = Scalar.ofNat 3 := by
  letI := toyOracles
  constructor <;> decide +kernel

/-! ## C34 -/

/-- **C34** the VRF input point is the hash of a query which for plain transcripts names the public key
and for `Malleable` ones does not. -/
theorem vrf_input_is_query [Oracles] (pk : PublicKey P) (log : List MOp) :
    (PublicKey.vrfHash pk (.plain (⟨log⟩ : Transcript))).point =
      fromUniform (Oracles.merlin (vrfInputQuery false log pk.compressed.1) 64) ∧
    (PublicKey.vrfHash pk (.malleable (⟨log⟩ : Transcript))).point =
      fromUniform (Oracles.merlin (vrfInputQuery true log pk.compressed.1) 64) := by
  constructor
  · simp [PublicKey.vrfHash, vrfMalleableHash, VRFTranscript.addressed, vrfInputQuery,
      RistrettoBoth.fromPoint, SigningTranscript.challengeBytes, Transcript.challengeBytes, commitPoint,
      SigningTranscript.commitBytes, Transcript.appendMessage]
  · simp [PublicKey.vrfHash, vrfMalleableHash, VRFTranscript.addressed, vrfInputQuery,
      RistrettoBoth.fromPoint, SigningTranscript.challengeBytes, Transcript.challengeBytes]

/-- **C34** non-malleable input queries are injective in history and public key; malleable ones do not
depend on the public key at all. -/
theorem vrf_input_query_injective (l₁ l₂ : List MOp) (p₁ p₂ : Bytes) :
    (vrfInputQuery false l₁ p₁ = vrfInputQuery false l₂ p₂ ↔ l₁ = l₂ ∧ p₁ = p₂) ∧
    vrfInputQuery true l₁ p₁ = vrfInputQuery true l₁ p₂ := by
  refine ⟨⟨fun h => ?_, by rintro ⟨rfl, rfl⟩; rfl⟩, rfl⟩
  simp [vrfInputQuery] at h
  have := List.append_inj' h rfl
  simp at this
  exact this

/-- **C34** with a `Malleable` transcript a soft-derived child has the same VRF input as its parent and
output = parent's output + tweak·input, the tweak being public: whoever sees one output knows the other.
For every transcript type. -/
theorem malleable_vrf_child_related {E : Type} [SigningTranscript E] (kp : Keypair P)
    (hc : kp.secret.key.Canonical) (t : T) (cc : ChainCode) (e : E) (sys : Rng) :
    let child := (Derivation.derivedKey kp t cc sys).1
    let z := (PublicKey.deriveScalarAndChaincode kp.pub t cc).1
    let parentOut := kp.vrfCreateHash (.malleable e)
    let childOut := child.vrfCreateHash (.malleable e)
    childOut.input = parentOut.input ∧
    childOut.output.point = parentOut.output.point + z •. parentOut.input.point ∧
    childOut.toPreout = ⟨compress (parentOut.output.point + z •. parentOut.input.point)⟩ := by
  intro child z parentOut childOut
  have ho : childOut.output.point = parentOut.output.point + z •. parentOut.input.point := by
    show (kp.secret.key + z) •. (vrfMalleableHash e : RistrettoBoth P).point =
      kp.secret.key •. (vrfMalleableHash e : RistrettoBoth P).point +
        z •. (vrfMalleableHash e : RistrettoBoth P).point
    simp only [mulPoint_eq]
    rw [Scalar.toZ_add hc (canonical_tweak kp.pub t cc), add_smul]
  refine ⟨rfl, ho, ?_⟩
  show (⟨compress childOut.output.point⟩ : VRFPreOut) = _
  rw [ho]

/-- Non-vacuity for C34: in the toy group the plain inputs of key 3 and of its child differ, the
malleable ones coincide with a non-trivial tweak. -/
example : letI := toyOracles
    let kp : Keypair Toy := k3.toKeypair
    let child := (derivedKeySimple kp ⟨zeros 32⟩ (b! "x") zeroRng).1
    let t : Transcript := ⟨[]⟩
    (PublicKey.vrfHash kp.pub (.plain t)).point ≠ (PublicKey.vrfHash child.pub (.plain t)).point ∧
    (kp.vrfCreateHash (.malleable t)).output.point ≠ (child.vrfCreateHash (.malleable t)).output.point := by
  letI := toyOracles
  constructor <;> decide +kernel

end Schnorrkel.Props
