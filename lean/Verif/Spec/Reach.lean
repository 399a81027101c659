import Verif.Model.Serde
import Verif.Model.MuSig
import Verif.Model.Aead
import Verif.Model.Derive

/-! # Values a program can obtain through the public API

`Reach v` holds when `v` can be produced by some sequence of public API calls, with arbitrary byte
strings, points, transcripts (of any type), random generators and hash functions.  Struct literals are
allowed exactly where the Rust struct has only public fields (`Keypair`, `VRFInOut`, `ExtendedKey`). -/

namespace Spec
open Schnorrkel SigningTranscript

/-- Values that carry scalars or curve points in two representations. -/
inductive Val (P : Type) : Type 1 where
  | secret (sk : SecretKey)
  | pub (pk : PublicKey P)
  | keypair (kp : Keypair P)
  | sig (s : Signature)
  | prepared (b : PreparedBatch)
  | inout (p : VRFInOut P)
  | proof (p : VRFProof)
  | batchable (p : VRFProofBatchable)
  /-- a scalar handed out as such, or as its 32 bytes (certificates, cosignatures) -/
  | scalar (s : Scalar)
  | musigCommit {T : Type} (m : MuSig P T (CommitStage P))
  | musigReveal {T : Type} (m : MuSig P T (RevealStage P))
  | musigCosign {T : Type} (m : MuSig P T CosignStage)
  | musigCollect {T : Type} (m : MuSig P T CollectStage)

variable {P : Type}

/-- Scalars inside an entry of a cosigning session. -/
def corScalars : CoR P → List Scalar
  | .cosigned s => [s]
  | .collect _ s => [s]
  | _ => []

/-- Every scalar inside a value. -/
def Val.scalars : Val P → List Scalar
  | .secret sk => [sk.key]
  | .pub _ => []
  | .keypair kp => [kp.secret.key]
  | .sig s => [s.s]
  | .prepared b => [b.bs]
  | .inout _ => []
  | .proof p => [p.c, p.s]
  | .batchable p => [p.s]
  | .scalar s => [s]
  | .musigCommit m => m.stage.keypair.secret.key :: m.stage.rMe.1 ++ m.Rs.flatMap fun e => corScalars e.2
  | .musigReveal m => m.stage.keypair.secret.key :: m.stage.rMe.1 ++ m.Rs.flatMap fun e => corScalars e.2
  | .musigCosign m => m.stage.sMe :: m.Rs.flatMap fun e => corScalars e.2
  | .musigCollect m => m.Rs.flatMap fun e => corScalars e.2

/-- Every point with its encoding inside a value. -/
def Val.points : Val P → List (RistrettoBoth P)
  | .secret _ => []
  | .pub pk => [pk]
  | .keypair kp => [kp.pub]
  | .sig _ => []
  | .prepared _ => []
  | .inout p => [p.input, p.output]
  | .proof _ => []
  | .batchable _ => []
  | .scalar _ => []
  | .musigCommit m => m.stage.keypair.pub :: m.Rs.map (·.1)
  | .musigReveal m => m.stage.keypair.pub :: m.Rs.map (·.1)
  | .musigCosign m => m.Rs.map (·.1)
  | .musigCollect m => m.Rs.map (·.1)

variable [Ristretto P] [Oracles]

/-- Obtainable through the public API. -/
inductive Reach : Val P → Prop where
  -- keys.rs
  | secretFromBytes {bs sk} : SecretKey.fromBytes bs = .ok sk → Reach (.secret sk)
  | secretFromEd25519 {bs sk} : SecretKey.fromEd25519Bytes bs = .ok sk → Reach (.secret sk)
  | secretGenerate (rng : Rng) : Reach (.secret (SecretKey.generateWith rng).1)
  | miniExpand (m : MiniSecretKey) (mode) : Reach (.secret (m.expand mode))
  | miniExpandKeypair (m : MiniSecretKey) (mode) : Reach (.keypair (m.expandToKeypair mode))
  | miniExpandPublic (m : MiniSecretKey) (mode) : Reach (.pub (m.expandToPublic mode))
  | secretZeroize {sk} : Reach (.secret sk) → Reach (.secret sk.zeroize)
  | toPublic {sk} : Reach (.secret sk) → Reach (.pub sk.toPublic)
  | toKeypair {sk} : Reach (.secret sk) → Reach (.keypair sk.toKeypair)
  | keypairFrom {sk} : Reach (.secret sk) → Reach (.keypair (Keypair.ofSecret sk))
  | pubFromCompressed {c} {pk : PublicKey P} : PublicKey.fromCompressed c = .ok pk → Reach (.pub pk)
  | pubFromPoint (p : P) : Reach (.pub (PublicKey.fromPoint p))
  | pubFromBytes {bs} {pk : PublicKey P} : PublicKey.fromBytes bs = .ok pk → Reach (.pub pk)
  | keypairFromBytes {bs} {kp : Keypair P} : Keypair.fromBytes bs = .ok kp → Reach (.keypair kp)
  | keypairFromHalf {bs} {kp : Keypair P} : Keypair.fromHalfEd25519Bytes bs = .ok kp → Reach (.keypair kp)
  | keypairGenerate (rng : Rng) : Reach (.keypair (Keypair.generateWith rng).1)
  | keypairZeroize {kp} : Reach (.keypair kp) → Reach (.keypair kp.zeroize)
  | keypairSecret {kp} : Reach (.keypair kp) → Reach (.secret kp.secret)
  | keypairPublic {kp} : Reach (.keypair kp) → Reach (.pub kp.pub)
  | keypairLiteral {sk pk} : Reach (.secret sk) → Reach (.pub pk) → Reach (.keypair ⟨sk, pk⟩)
  -- points.rs
  | bothDefault : Reach (.pub RistrettoBoth.default)
  | bothFromCompressed {c} {r : RistrettoBoth P} : RistrettoBoth.fromCompressed c = .ok r → Reach (.pub r)
  | bothFromPoint (p : P) : Reach (.pub (RistrettoBoth.fromPoint p))
  | bothFromBytes {bs} {r : RistrettoBoth P} : RistrettoBoth.fromBytes bs = .ok r → Reach (.pub r)
  -- sign.rs
  | sigFromBytes {bs s} : Signature.fromBytes bs = .ok s → Reach (.sig s)
  | sigFromBytesUnmarked {bs s} : Signature.fromBytesNotDistinguishedFromEd25519 bs = .ok s → Reach (.sig s)
  | secretSign {T : Type} [SigningTranscript T] {sk pk} (t : T) (sys) :
      Reach (.secret sk) → Reach (.pub pk) → Reach (.sig (sk.sign t pk sys).1)
  | secretSignSimple {sk pk} (ctx msg sys) :
      Reach (.secret sk) → Reach (.pub pk) → Reach (.sig (sk.signSimple ctx msg pk sys))
  | secretSignDoublecheck {T : Type} [SigningTranscript T] {sk pk s} (t : T) (sys) :
      Reach (.secret sk) → Reach (.pub pk) → sk.signDoublecheck t pk sys = .ok s → Reach (.sig s)
  | secretSignSimpleDoublecheck {sk pk s} (ctx msg sys) :
      Reach (.secret sk) → Reach (.pub pk) → sk.signSimpleDoublecheck ctx msg pk sys = .ok s → Reach (.sig s)
  | keypairSign {T : Type} [SigningTranscript T] {kp} (t : T) (sys) :
      Reach (.keypair kp) → Reach (.sig (kp.sign t sys).1)
  | keypairSignSimple {kp} (ctx msg sys) : Reach (.keypair kp) → Reach (.sig (kp.signSimple ctx msg sys))
  | keypairSignDoublecheck {T : Type} [SigningTranscript T] {kp s} (t : T) (sys) :
      Reach (.keypair kp) → kp.signDoublecheck t sys = .ok s → Reach (.sig s)
  | keypairSignSimpleDoublecheck {kp s} (ctx msg sys) :
      Reach (.keypair kp) → kp.signSimpleDoublecheck ctx msg sys = .ok s → Reach (.sig s)
  -- batch.rs
  | preparedNew {T : Type} [SigningTranscript T] {mode} {ts : List T} {sigs pks b} :
      (∀ s ∈ sigs, Reach (.sig s)) → (∀ k ∈ pks, Reach (.pub k)) →
      PreparedBatch.new mode ts sigs pks = .ok b → Reach (.prepared b)
  | preparedRead {profile bs b} : PreparedBatch.readBytes profile bs = .ok b → Reach (.prepared b)
  -- derive.rs
  | deriveScalar {T : Type} [SigningTranscript T] {pk : PublicKey P} (t : T) (cc) :
      Reach (.pub pk) → Reach (.scalar (PublicKey.deriveScalarAndChaincode pk t cc).1)
  | deriveSecretKey {T : Type} [SigningTranscript T] {kp : Keypair P} (t : T) (cc sys) :
      Reach (.keypair kp) → Reach (.secret (kp.deriveSecretKey t cc sys).1)
  | derivedKeypair {T : Type} [SigningTranscript T] {kp : Keypair P} (t : T) (cc sys) :
      Reach (.keypair kp) → Reach (.keypair (Derivation.derivedKey kp t cc sys).1)
  | derivedKeypairSimple {kp : Keypair P} (cc i sys) :
      Reach (.keypair kp) → Reach (.keypair (derivedKeySimple kp cc i sys).1)
  | derivedKeypairSimpleRng {kp : Keypair P} (cc i rng sys) :
      Reach (.keypair kp) → Reach (.keypair (derivedKeySimpleRng kp cc i rng sys).1)
  | derivedSecret {T : Type} [SigningTranscript T] {sk} (t : T) (cc sys) :
      Reach (.secret sk) → Reach (.secret ((secretKeyDerivation P).derivedKey sk t cc sys).1)
  | derivedSecretSimple {sk} (cc i sys) :
      Reach (.secret sk) → Reach (.secret (@derivedKeySimple _ _ (secretKeyDerivation P) sk cc i sys).1)
  | derivedSecretSimpleRng {sk} (cc i rng sys) :
      Reach (.secret sk) → Reach (.secret (@derivedKeySimpleRng _ _ (secretKeyDerivation P) sk cc i rng sys).1)
  | derivedPublic {T : Type} [SigningTranscript T] {pk : PublicKey P} (t : T) (cc sys) :
      Reach (.pub pk) → Reach (.pub (Derivation.derivedKey pk t cc sys).1)
  | derivedPublicSimple {pk : PublicKey P} (cc i sys) :
      Reach (.pub pk) → Reach (.pub (derivedKeySimple pk cc i sys).1)
  | derivedPublicSimpleRng {pk : PublicKey P} (cc i rng sys) :
      Reach (.pub pk) → Reach (.pub (derivedKeySimpleRng pk cc i rng sys).1)
  | extendedKeypair {T : Type} [SigningTranscript T] {kp : Keypair P} (t : T) (cc sys) :
      Reach (.keypair kp) → Reach (.keypair ((⟨kp, cc⟩ : ExtendedKey (Keypair P)).derivedKey t sys).1.key)
  | extendedPublic {T : Type} [SigningTranscript T] {pk : PublicKey P} (t : T) (cc sys) :
      Reach (.pub pk) → Reach (.pub ((⟨pk, cc⟩ : ExtendedKey (PublicKey P)).derivedKey t sys).1.key)
  | extendedSecret {T : Type} [SigningTranscript T] {sk} (t : T) (cc sys) :
      Reach (.secret sk) →
      Reach (.secret (@ExtendedKey.derivedKey T _ _ (secretKeyDerivation P) ⟨sk, cc⟩ t sys).1.key)
  | extendedHard (x : ExtendedKey SecretKey) (i mode) : Reach (.secret x.key) →
      Reach (.secret (x.hardDeriveMiniSecretKey i mode).key)
  -- cert.rs: the scalar in the second half of an issued certificate
  | certScalar {T : Type} [SigningTranscript T] {kp : Keypair P} {seed} (t : T) (sys) :
      Reach (.keypair kp) → Reach (.pub seed) →
      Reach (.scalar ⟨(kp.issueAdaptorCert t seed sys).1.bytes.slice 32 32 (by omega)⟩)
  | certAccept {T : Type} [SigningTranscript T] {pk : PublicKey P} {seed cert out} (t : T) (sys) :
      Reach (.pub pk) → Reach (.secret seed) →
      (PublicKey.acceptAdaptorCert pk t seed cert sys).1 = .ok out → Reach (.secret out.2)
  | certSelf {T : Type} [SigningTranscript T] {kp : Keypair P} {out} (t : T) (sys) :
      Reach (.keypair kp) → (kp.issueSelfAdaptorCert t sys).1 = .ok out → Reach (.secret out.2)
  | certOpen {T : Type} [SigningTranscript T] {pk k : PublicKey P} {cert} (t : T) :
      Reach (.pub pk) → PublicKey.openAdaptorCert pk t cert = .ok k → Reach (.pub k)
  -- vrf.rs
  | vrfHash {T : Type} [SigningTranscript T] {pk : PublicKey P} (t : VRFTranscript T) :
      Reach (.pub pk) → Reach (.pub (PublicKey.vrfHash pk t))
  | vrfMalleable {T : Type} [SigningTranscript T] (t : T) : Reach (.pub (vrfMalleableHash t))
  | vrfAttach {T : Type} [SigningTranscript T] {pk : PublicKey P} {o p} (t : VRFTranscript T) :
      Reach (.pub pk) → VRFPreOut.attachInputHash o pk t = .ok p → Reach (.inout p)
  | vrfCreatePoint {sk input} : Reach (.secret sk) → Reach (.pub input) →
      Reach (.inout (sk.vrfCreateFromPoint input))
  | vrfCreateCompressed {sk} {o} {p : VRFInOut P} : Reach (.secret sk) →
      sk.vrfCreateFromCompressedPoint o = .ok p → Reach (.inout p)
  | vrfCreate {T : Type} [SigningTranscript T] {kp : Keypair P} (t : VRFTranscript T) :
      Reach (.keypair kp) → Reach (.inout (kp.vrfCreateHash t))
  | inoutLiteral {a b} : Reach (.pub a) → Reach (.pub b) → Reach (.inout ⟨a, b⟩)
  | inoutInput {p} : Reach (.inout p) → Reach (.pub p.input)
  | inoutOutput {p} : Reach (.inout p) → Reach (.pub p.output)
  | vrfsMerge {pk ps} {p : VRFInOut P} : Reach (.pub pk) → (∀ q ∈ ps, Reach (.inout q)) →
      PublicKey.vrfsMerge pk ps = .ok p → Reach (.inout p)
  | proofFromBytes {bs p} : VRFProof.fromBytes bs = .ok p → Reach (.proof p)
  | batchableFromBytes {bs p} : VRFProofBatchable.fromBytes bs = .ok p → Reach (.batchable p)
  | shortenDleq {T : Type} [SigningTranscript T] {b pk} {p : VRFInOut P} (t : T) (kusama) :
      Reach (.batchable b) → Reach (.pub pk) → Reach (.inout p) →
      Reach (.proof (b.shortenDleq t pk p kusama))
  | shortenVrf {T : Type} [SigningTranscript T] {b} {pk : PublicKey P} {o p} (t : VRFTranscript T) :
      Reach (.batchable b) → Reach (.pub pk) → b.shortenVrf pk t o = .ok p → Reach (.proof p)
  | dleqProof {T : Type} [SigningTranscript T] {kp : Keypair P} {p} (t : T) (kusama sys) :
      Reach (.keypair kp) → Reach (.inout p) → Reach (.proof (kp.dleqProove t p kusama sys).1.1)
  | dleqBatchable {T : Type} [SigningTranscript T] {kp : Keypair P} {p} (t : T) (kusama sys) :
      Reach (.keypair kp) → Reach (.inout p) → Reach (.batchable (kp.dleqProove t p kusama sys).1.2)
  | vrfSign {T E : Type} [SigningTranscript T] [SigningTranscript E] {kp : Keypair P} (t : VRFTranscript T)
      (extra : E) (sys) : Reach (.keypair kp) → Reach (.inout (kp.vrfSignExtra t extra sys).1)
  | vrfSignProof {T E : Type} [SigningTranscript T] [SigningTranscript E] {kp : Keypair P}
      (t : VRFTranscript T) (extra : E) (sys) :
      Reach (.keypair kp) → Reach (.proof (kp.vrfSignExtra t extra sys).2.1)
  | vrfSignBatchable {T E : Type} [SigningTranscript T] [SigningTranscript E] {kp : Keypair P}
      (t : VRFTranscript T) (extra : E) (sys) :
      Reach (.keypair kp) → Reach (.batchable (kp.vrfSignExtra t extra sys).2.2)
  | vrfSignCheckInout {T E : Type} [SigningTranscript T] [SigningTranscript E] {kp : Keypair P} {out}
      (t : VRFTranscript T) (check : VRFInOut P → Option E) (sys) : Reach (.keypair kp) →
      kp.vrfSignExtraAfterCheck t check sys = some out → Reach (.inout out.1)
  | vrfSignCheckProof {T E : Type} [SigningTranscript T] [SigningTranscript E] {kp : Keypair P} {out}
      (t : VRFTranscript T) (check : VRFInOut P → Option E) (sys) : Reach (.keypair kp) →
      kp.vrfSignExtraAfterCheck t check sys = some out → Reach (.proof out.2.1)
  | vrfSignCheckBatchable {T E : Type} [SigningTranscript T] [SigningTranscript E] {kp : Keypair P} {out}
      (t : VRFTranscript T) (check : VRFInOut P → Option E) (sys) : Reach (.keypair kp) →
      kp.vrfSignExtraAfterCheck t check sys = some out → Reach (.batchable out.2.2)
  | vrfsSignInout {T E : Type} [SigningTranscript T] [SigningTranscript E] {kp : Keypair P} {out}
      (ts : List (VRFTranscript T)) (extra : E) (sys) : Reach (.keypair kp) →
      kp.vrfsSignExtra ts extra sys = .ok out → ∀ p ∈ out.1, Reach (.inout p)
  | vrfsSignProof {T E : Type} [SigningTranscript T] [SigningTranscript E] {kp : Keypair P} {out}
      (ts : List (VRFTranscript T)) (extra : E) (sys) : Reach (.keypair kp) →
      kp.vrfsSignExtra ts extra sys = .ok out → Reach (.proof out.2.1)
  | vrfsSignBatchable {T E : Type} [SigningTranscript T] [SigningTranscript E] {kp : Keypair P} {out}
      (ts : List (VRFTranscript T)) (extra : E) (sys) : Reach (.keypair kp) →
      kp.vrfsSignExtra ts extra sys = .ok out → Reach (.batchable out.2.2)
  | dleqVerify {T : Type} [SigningTranscript T] {pk : PublicKey P} {p proof b} (t : T) (kusama) :
      Reach (.pub pk) → Reach (.inout p) → Reach (.proof proof) →
      (PublicKey.dleqVerify pk t p proof kusama).1 = .ok b → Reach (.batchable b)
  | vrfVerifyInout {T E : Type} [SigningTranscript T] [SigningTranscript E] {pk : PublicKey P} {o proof out}
      (t : VRFTranscript T) (extra : E) : Reach (.pub pk) → Reach (.proof proof) →
      PublicKey.vrfVerifyExtra pk t o proof extra = .ok out → Reach (.inout out.1)
  | vrfVerifyBatchable {T E : Type} [SigningTranscript T] [SigningTranscript E] {pk : PublicKey P}
      {o proof out} (t : VRFTranscript T) (extra : E) : Reach (.pub pk) → Reach (.proof proof) →
      PublicKey.vrfVerifyExtra pk t o proof extra = .ok out → Reach (.batchable out.2)
  | vrfsVerifyInout {T E : Type} [SigningTranscript T] [SigningTranscript E] {pk : PublicKey P}
      {outs proof out} (ts : List (VRFTranscript T)) (extra : E) : Reach (.pub pk) → Reach (.proof proof) →
      PublicKey.vrfsVerifyExtra pk ts outs proof extra = .ok out → ∀ p ∈ out.1, Reach (.inout p)
  | vrfsVerifyBatchable {T E : Type} [SigningTranscript T] [SigningTranscript E] {pk : PublicKey P}
      {outs proof out} (ts : List (VRFTranscript T)) (extra : E) : Reach (.pub pk) → Reach (.proof proof) →
      PublicKey.vrfsVerifyExtra pk ts outs proof extra = .ok out → Reach (.batchable out.2)
  | vrfVerifyBatch {T : Type} [SigningTranscript T] {outs proofs} {pks : List (PublicKey P)} {ps}
      (ts : List (VRFTranscript T)) (sys) : (∀ k ∈ pks, Reach (.pub k)) →
      (∀ b ∈ proofs, Reach (.batchable b)) →
      vrfVerifyBatch ts outs proofs pks sys = .ok ps → ∀ p ∈ ps, Reach (.inout p)
  -- musig.rs
  | sliceKey {l : List (PublicKey P)} {s} : (∀ k ∈ l, Reach (.pub k)) →
      aggregatePublicKeyFromSlice l = some s → Reach (.pub s.publicKey)
  | sliceWeight {l : List (PublicKey P)} {s choice w} : (∀ k ∈ l, Reach (.pub k)) → Reach (.pub choice) →
      aggregatePublicKeyFromSlice l = some s → s.weighting choice = some w → Reach (.scalar w)
  | sortedSliceKey {l : List (PublicKey P)} {s} : (∀ k ∈ l, Reach (.pub k)) →
      aggregatePublicKeyFromSortedSlice l = some s → Reach (.pub s.publicKey)
  | sortedSliceWeight {l : List (PublicKey P)} {s choice w} : (∀ k ∈ l, Reach (.pub k)) →
      Reach (.pub choice) → aggregatePublicKeyFromSortedSlice l = some s → s.weighting choice = some w →
      Reach (.scalar w)
  | mapKey {V : Type} {m : BMap P V} : (∀ e ∈ m, Reach (.pub e.1)) → Reach (.pub m.publicKey)
  | mapWeight {V : Type} {m : BMap P V} {choice w} : (∀ e ∈ m, Reach (.pub e.1)) → Reach (.pub choice) →
      m.weighting choice = some w → Reach (.scalar w)
  | musigNew {T : Type} [SigningTranscript T] {kp : Keypair P} (t : T) (sys) :
      Reach (.keypair kp) → Reach (.musigCommit (MuSig.new kp t sys).1)
  | musigAddCommitment {T : Type} {m : MuSig P T (CommitStage P)} {k} (c) :
      Reach (.musigCommit m) → Reach (.pub k) → Reach (.musigCommit (m.addTheirCommitment k c).2)
  | musigEditC {T : Type} {m : MuSig P T (CommitStage P)} (f : T → T) :
      Reach (.musigCommit m) → Reach (.musigCommit (m.editTranscript f))
  | musigToReveal {T : Type} {m : MuSig P T (CommitStage P)} :
      Reach (.musigCommit m) → Reach (.musigReveal m.revealStage)
  | musigAddReveal {T : Type} {m : MuSig P T (RevealStage P)} {k} (r) :
      Reach (.musigReveal m) → Reach (.pub k) → Reach (.musigReveal (m.addTheirReveal k r).2)
  | musigAddTrusted {T : Type} {m : MuSig P T (RevealStage P)} {k} (r) :
      Reach (.musigReveal m) → Reach (.pub k) → Reach (.musigReveal (m.addTrusted k r).2)
  | musigEditR {T : Type} {m : MuSig P T (RevealStage P)} (f : T → T) :
      Reach (.musigReveal m) → Reach (.musigReveal (m.editTranscript f))
  | musigToCosign {T : Type} [SigningTranscript T] {m : MuSig P T (RevealStage P)} {m'} :
      Reach (.musigReveal m) → m.cosignStage = .ok m' → Reach (.musigCosign m')
  | musigCosignature {T : Type} {m : MuSig P T CosignStage} :
      Reach (.musigCosign m) → Reach (.scalar ⟨m.ourCosignature.bytes⟩)
  | musigAddCosignature {T : Type} {m : MuSig P T CosignStage} {k} (c) :
      Reach (.musigCosign m) → Reach (.pub k) → Reach (.musigCosign (m.addTheirCosignature k c).2)
  | musigSign {T : Type} {m : MuSig P T CosignStage} {s} :
      Reach (.musigCosign m) → m.sign = .ok (some s) → Reach (.sig s)
  | musigCollectNew {T : Type} [SigningTranscript T] (t : T) : Reach (.musigCollect (collectCosignatures t))
  | musigCollectAdd {T : Type} {m : MuSig P T CollectStage} {k} (r c) :
      Reach (.musigCollect m) → Reach (.pub k) → Reach (.musigCollect (m.add k r c).2)
  | musigSignature {T : Type} [SigningTranscript T] {m : MuSig P T CollectStage} {s} :
      Reach (.musigCollect m) → m.signature = .ok s → Reach (.sig s)
  | musigPublicC {T : Type} {m : MuSig P T (CommitStage P)} (require : Bool) :
      Reach (.musigCommit m) → Reach (.pub (m.computePublicKey require))
  | musigPublicR {T : Type} {m : MuSig P T (RevealStage P)} (require : Bool) :
      Reach (.musigReveal m) → Reach (.pub (m.computePublicKey require))
  | musigPublicS {T : Type} {m : MuSig P T CosignStage} (require : Bool) :
      Reach (.musigCosign m) → Reach (.pub (m.computePublicKey require))
  | musigPublicT {T : Type} {m : MuSig P T CollectStage} (require : Bool) :
      Reach (.musigCollect m) → Reach (.pub (m.computePublicKey require))
  | musigKeysC {T : Type} {m : MuSig P T (CommitStage P)} (require : Bool) :
      Reach (.musigCommit m) → ∀ k ∈ m.publicKeys require, Reach (.pub k)
  | musigKeysR {T : Type} {m : MuSig P T (RevealStage P)} (require : Bool) :
      Reach (.musigReveal m) → ∀ k ∈ m.publicKeys require, Reach (.pub k)
  | musigKeysS {T : Type} {m : MuSig P T CosignStage} (require : Bool) :
      Reach (.musigCosign m) → ∀ k ∈ m.publicKeys require, Reach (.pub k)
  | musigKeysT {T : Type} {m : MuSig P T CollectStage} (require : Bool) :
      Reach (.musigCollect m) → ∀ k ∈ m.publicKeys require, Reach (.pub k)
  -- serdey.rs
  | serdeSecret {alloc f w sk} : SecretKey.deserialize alloc f w = .ok sk → Reach (.secret sk)
  | serdePublic {alloc f w} {pk : PublicKey P} : PublicKey.deserialize alloc f w = .ok pk → Reach (.pub pk)
  | serdeKeypair {alloc f w} {kp : Keypair P} : Keypair.deserialize alloc f w = .ok kp → Reach (.keypair kp)
  | serdeBoth {alloc f w} {r : RistrettoBoth P} : RistrettoBoth.deserialize alloc f w = .ok r → Reach (.pub r)
  | serdeSig {alloc f w s} : Signature.deserialize alloc f w = .ok s → Reach (.sig s)
  | serdeProof {alloc f w p} : VRFProof.deserialize alloc f w = .ok p → Reach (.proof p)
  | serdeBatchable {alloc f w p} : VRFProofBatchable.deserialize alloc f w = .ok p → Reach (.batchable p)

end Spec
