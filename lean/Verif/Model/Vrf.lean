import Verif.Model.Batch

/-! # `src/vrf.rs`

Hash-to-curve is `fromUniform`; constant-time and variable-time arithmetic compute the same values, so
the `vartime` flag and the `alloc`/no-`alloc` variants of a sum coincide in the model. -/

namespace Schnorrkel
variable {P : Type} [Ristretto P] {T E : Type} [SigningTranscript T] [SigningTranscript E]
open SigningTranscript

/-- `vrf.rs:119` -/
def KUSAMA_VRF : Bool := true
/-- `vrf.rs:122` -/
def VRF_PREOUT_LENGTH : Nat := 32
/-- `vrf.rs:125` -/
def VRF_PROOF_LENGTH : Nat := 64
/-- `vrf.rs:128` -/
def VRF_PROOF_BATCHABLE_LENGTH : Nat := 96

/-- `vrf.rs:133-177` an argument implementing `VRFSigningTranscript`: a plain transcript (non-malleable)
or one wrapped in `Malleable`. -/
inductive VRFTranscript (T : Type) where
  | plain (t : T)
  | malleable (t : T)

/-- `vrf.rs:149-152`, `172-175` `transcript_with_malleability_addressed` -/
def VRFTranscript.addressed (v : VRFTranscript T) (publickey : PublicKey P) : T :=
  match v with
  | .plain t => commitPoint t (b! "vrf-nm-pk") publickey.compressed
  | .malleable t => t

/-- `vrf.rs:189-193` -/
def vrfMalleableHash (t : T) : RistrettoBoth P :=
  let (b, _) := challengeBytes t (b! "VRFHash") 64
  RistrettoBoth.fromPoint (fromUniform b)

/-- `vrf.rs:229-230` -/
structure VRFPreOut where
  bytes : Arr 32
deriving DecidableEq

/-- `vrf.rs:283-289` -/
structure VRFInOut (P : Type) where
  input : RistrettoBoth P
  output : RistrettoBoth P

/-- `vrf.rs:499-505` -/
structure VRFProof where
  c : Scalar
  s : Scalar
deriving DecidableEq

/-- `vrf.rs:546-555` -/
structure VRFProofBatchable where
  R : Compressed
  Hr : Compressed
  s : Scalar
deriving DecidableEq

/-- `vrf.rs:197-202` -/
def PublicKey.vrfHash (pk : PublicKey P) (t : VRFTranscript T) : RistrettoBoth P :=
  vrfMalleableHash (t.addressed pk)

namespace VRFPreOut
/-- `vrf.rs:233-234` -/
def DESCRIPTION : String :=
  "A Ristretto Schnorr VRF output represented as a 32-byte Ristretto compressed point"
/-- `vrf.rs:238-240` -/
def toBytes (o : VRFPreOut) : Arr 32 := o.bytes
/-- `vrf.rs:250-261` -/
def fromBytes (bytes : Bytes) : SignatureResult VRFPreOut :=
  if h : bytes.length ≠ VRF_PREOUT_LENGTH then
    .error (.bytesLengthError "VRFPreOut" DESCRIPTION VRF_PREOUT_LENGTH)
  else .ok ⟨⟨bytes.take 32, by simp [VRF_PREOUT_LENGTH] at h; simp [h]⟩⟩
/-- `vrf.rs:264-274` -/
def attachInputHash (o : VRFPreOut) (pub : PublicKey P) (t : VRFTranscript T) :
    SignatureResult (VRFInOut P) := do
  let input := PublicKey.vrfHash pub t
  let output : RistrettoBoth P ← RistrettoBoth.fromBytesSer "VRFPreOut" DESCRIPTION o.bytes.1
  if output.point = 0 then .error .pointDecompressionError
  else .ok ⟨input, output⟩
end VRFPreOut

/-- `vrf.rs:205-210` -/
def PublicKey.vrfAttachHash (pk : PublicKey P) (output : VRFPreOut) (t : VRFTranscript T) :
    SignatureResult (VRFInOut P) := output.attachInputHash pk t

/-- `vrf.rs:294-297` -/
def SecretKey.vrfCreateFromPoint (sk : SecretKey) (input : RistrettoBoth P) : VRFInOut P :=
  ⟨input, RistrettoBoth.fromPoint (sk.key •. input.point)⟩

/-- `vrf.rs:305-308` -/
def SecretKey.vrfCreateFromCompressedPoint (sk : SecretKey) (input : VRFPreOut) :
    SignatureResult (VRFInOut P) := do
  let input : RistrettoBoth P ← RistrettoBoth.fromCompressed input.bytes
  .ok (sk.vrfCreateFromPoint input)

/-- `vrf.rs:313-315` -/
def Keypair.vrfCreateHash (kp : Keypair P) (t : VRFTranscript T) : VRFInOut P :=
  kp.secret.vrfCreateFromPoint (PublicKey.vrfHash kp.pub t)

namespace VRFInOut
/-- `vrf.rs:320-322` -/
def asOutputBytes (p : VRFInOut P) : Arr 32 := p.output.compressed
/-- `vrf.rs:325-327` -/
def toPreout (p : VRFInOut P) : VRFPreOut := ⟨p.output.compressed⟩
/-- `vrf.rs:338-341` -/
def commit (p : VRFInOut P) (t : T) : T :=
  let t := commitPoint t (b! "vrf-in") p.input.compressed
  commitPoint t (b! "vrf-out") p.output.compressed
/-- `vrf.rs:353-360`, for a byte array type of `n` bytes. -/
def makeBytes [Oracles] (p : VRFInOut P) (context : Bytes) (n : Nat) : Arr n :=
  let t := Transcript.new (b! "VRFResult")
  let t := t.appendMessage (b! "") context
  let t := p.commit t
  (t.challengeBytes (b! "") n).1
/-- `vrf.rs:367-369`: `R::from_seed(self.make_bytes::<R::Seed>(context))`, for a seed type of `n` bytes and any
`from_seed`; `make_chacharng` (`vrf.rs:383-385`) is the case `n = 32`. -/
def makeRng [Oracles] {R : Type} {n : Nat} (fromSeed : Arr n → R) (p : VRFInOut P) (context : Bytes) : R :=
  fromSeed (p.makeBytes context n)
/-- `vrf.rs:396-417`: the log of the returned `TranscriptRng`. -/
def makeMerlinRng [Oracles] (p : VRFInOut P) (context : Bytes) : List MOp :=
  let t := Transcript.new (b! "VRFResult")
  let t := t.appendMessage (b! "") context
  let t := p.commit t
  (Transcript.finalizeRng (t.rekeyAll (b! "") []) notAnRng).1
end VRFInOut

/-- `vrf.rs:420-424` -/
def challengeScalar128 (t : T) : Scalar :=
  Scalar.fromU128 (challengeBytes t (b! "") 16).1

/-- `vrf.rs:450-461`: the coefficients used by `vrfs_merge`. -/
def mergeCoefficients [Oracles] (pk : PublicKey P) (ps : List (VRFInOut P)) : List Scalar :=
  let t := Transcript.new (b! "MergeVRFs")
  let t := commitPoint t (b! "vrf:pk") pk.compressed
  let t := ps.foldl (fun t p => p.commit t) t
  ps.map fun p => challengeScalar128 (p.commit t)

/-- `vrf.rs:445-495` `vrfs_merge` (any `vartime`). -/
def PublicKey.vrfsMerge [Oracles] (pk : PublicKey P) (ps : List (VRFInOut P)) :
    Outcome (VRFInOut P) :=
  if ps = [] then .panic "assertion failed: !ps.is_empty()"
  else
    let zs := mergeCoefficients pk ps
    let go := fun io : VRFInOut P → P =>
      RistrettoBoth.fromPoint (multiscalar (zs.zip (ps.map io)))
    .ok ⟨go (·.input.point), go (·.output.point)⟩

namespace VRFProof
/-- `vrf.rs:508` -/
def DESCRIPTION : String :=
  "A Ristretto Schnorr VRF proof without batch verification support, which consists of two scalars, making it 64 bytes."
/-- `vrf.rs:512-518` -/
def toBytes (p : VRFProof) : Arr 64 := Arr.append p.c.bytes p.s.bytes
/-- `vrf.rs:522-540` -/
def fromBytes (bytes : Bytes) : SignatureResult VRFProof :=
  if h : bytes.length ≠ VRF_PROOF_LENGTH then
    .error (.bytesLengthError "VRFProof" DESCRIPTION VRF_PROOF_LENGTH)
  else
    have h : bytes.length = 64 := not_not.mp h
    match scalarFromCanonicalBytes ⟨bytes.take 32, by simp [h]⟩ with
    | none => .error .scalarFormatError
    | some c =>
      match scalarFromCanonicalBytes ⟨bytes.drop 32, by simp [h]⟩ with
      | none => .error .scalarFormatError
      | some s => .ok ⟨c, s⟩
end VRFProof

namespace VRFProofBatchable
/-- `vrf.rs:558` -/
def DESCRIPTION : String :=
  "A Ristretto Schnorr VRF proof that supports batch verification, which consists of two Ristretto compressed points and one scalar, making it 96 bytes."
/-- `vrf.rs:563-570` -/
def toBytes (p : VRFProofBatchable) : Arr 96 := Arr.append (Arr.append p.R p.Hr) p.s.bytes
/-- `vrf.rs:575-594` -/
def fromBytes (bytes : Bytes) : SignatureResult VRFProofBatchable :=
  if h : bytes.length ≠ VRF_PROOF_BATCHABLE_LENGTH then
    .error (.bytesLengthError "VRFProofBatchable" DESCRIPTION VRF_PROOF_BATCHABLE_LENGTH)
  else
    have h : bytes.length = 96 := not_not.mp h
    let R : Arr 32 := ⟨bytes.take 32, by simp [h]⟩
    let Hr : Arr 32 := ⟨(bytes.drop 32).take 32, by simp [h]⟩
    match scalarFromCanonicalBytes ⟨bytes.drop 64, by simp [h]⟩ with
    | none => .error .scalarFormatError
    | some s => .ok ⟨R, Hr, s⟩
/-- `vrf.rs:598-616` -/
def shortenDleq (self : VRFProofBatchable) (t : T) (pub : PublicKey P) (p : VRFInOut P)
    (kusama : Bool) : VRFProof :=
  let t := protoName t (b! "DLEQProof")
  let t := commitPoint t (b! "vrf:h") p.input.compressed
  let t := if !kusama then commitPoint t (b! "vrf:pk") pub.compressed else t
  let t := commitPoint t (b! "vrf:R=g^r") self.R
  let t := commitPoint t (b! "vrf:h^r") self.Hr
  let t := if kusama then commitPoint t (b! "vrf:pk") pub.compressed else t
  let t := commitPoint t (b! "vrf:h^sk") p.output.compressed
  ⟨(challengeScalar t (b! "prove")).1, self.s⟩
/-- `vrf.rs:623-635` -/
def shortenVrf [Oracles] (self : VRFProofBatchable) (pub : PublicKey P) (t : VRFTranscript T)
    (out : VRFPreOut) : SignatureResult VRFProof := do
  let p ← out.attachInputHash pub t
  let t0 := Transcript.new (b! "VRF")
  .ok (self.shortenDleq t0 pub p KUSAMA_VRF)
end VRFProofBatchable

namespace Keypair
/-- `vrf.rs:649-677` `dleq_proove` -/
def dleqProove (kp : Keypair P) (t : T) (p : VRFInOut P) (kusama : Bool) (sys : Rng) :
    (VRFProof × VRFProofBatchable) × T × Rng :=
  let t := protoName t (b! "DLEQProof")
  let t := commitPoint t (b! "vrf:h") p.input.compressed
  let t := if !kusama then commitPoint t (b! "vrf:pk") kp.pub.compressed else t
  let (r, t, sys) := witnessScalar t (b! "proving\x000") [kp.secret.nonce.1] sys
  let R := compress (r •. (basepoint : P))
  let t := commitPoint t (b! "vrf:R=g^r") R
  let Hr := compress (r •. p.input.point)
  let t := commitPoint t (b! "vrf:h^r") Hr
  let t := if kusama then commitPoint t (b! "vrf:pk") kp.pub.compressed else t
  let t := commitPoint t (b! "vrf:h^sk") p.output.compressed
  let (c, t) := challengeScalar t (b! "prove")
  let s := r - c * kp.secret.key
  ((⟨c, s⟩, ⟨R, Hr, s⟩), t, sys)
/-- `vrf.rs:696-704` -/
def vrfSignExtra (kp : Keypair P) (t : VRFTranscript T) (extra : E) (sys : Rng) :
    VRFInOut P × VRFProof × VRFProofBatchable :=
  let p := kp.vrfCreateHash t
  let ((proof, batchable), _, _) := kp.dleqProove extra p KUSAMA_VRF sys
  (p, proof, batchable)
/-- `vrf.rs:686-692` -/
def vrfSign [Oracles] (kp : Keypair P) (t : VRFTranscript T) (sys : Rng) :
    VRFInOut P × VRFProof × VRFProofBatchable :=
  kp.vrfSignExtra t (Transcript.new (b! "VRF")) sys
/-- `vrf.rs:735-749`; the `FnMut` check is a function of the output it is shown. -/
def vrfSignExtraAfterCheck (kp : Keypair P) (t : VRFTranscript T) (check : VRFInOut P → Option E)
    (sys : Rng) : Option (VRFInOut P × VRFProof × VRFProofBatchable) :=
  let p := kp.vrfCreateHash t
  match check p with
  | none => none
  | some extra =>
    let ((proof, batchable), _, _) := kp.dleqProove extra p KUSAMA_VRF sys
    some (p, proof, batchable)
/-- `vrf.rs:714-730` -/
def vrfSignAfterCheck [Oracles] (kp : Keypair P) (t : VRFTranscript T) (check : VRFInOut P → Bool)
    (sys : Rng) : Option (VRFInOut P × VRFProof × VRFProofBatchable) :=
  kp.vrfSignExtraAfterCheck t
    (fun io => if check io then some (Transcript.new (b! "VRF")) else none) sys
/-- `vrf.rs:773-787` -/
def vrfsSignExtra [Oracles] (kp : Keypair P) (ts : List (VRFTranscript T)) (extra : E) (sys : Rng) :
    Outcome (List (VRFInOut P) × VRFProof × VRFProofBatchable) := do
  let ps := ts.map fun t => kp.vrfCreateHash t
  let p ← PublicKey.vrfsMerge kp.pub ps
  let ((proof, batchable), _, _) := kp.dleqProove extra p KUSAMA_VRF sys
  .ok (ps, proof, batchable)
/-- `vrf.rs:758-764` -/
def vrfsSign [Oracles] (kp : Keypair P) (ts : List (VRFTranscript T)) (sys : Rng) :
    Outcome (List (VRFInOut P) × VRFProof × VRFProofBatchable) :=
  kp.vrfsSignExtra ts (Transcript.new (b! "VRF")) sys
end Keypair

namespace PublicKey
/-- `vrf.rs:803-852` `dleq_verify`; scalar equality is equality of bytes. -/
def dleqVerify (pk : PublicKey P) (t : T) (p : VRFInOut P) (proof : VRFProof) (kusama : Bool) :
    SignatureResult VRFProofBatchable × T :=
  let t := protoName t (b! "DLEQProof")
  let t := commitPoint t (b! "vrf:h") p.input.compressed
  let t := if !kusama then commitPoint t (b! "vrf:pk") pk.compressed else t
  let R := compress (doubleScalarMulBasepoint proof.c pk.point proof.s)
  let t := commitPoint t (b! "vrf:R=g^r") R
  let Hr := compress (multiscalar [(proof.c, p.output.point), (proof.s, p.input.point)])
  let t := commitPoint t (b! "vrf:h^r") Hr
  let t := if kusama then commitPoint t (b! "vrf:pk") pk.compressed else t
  let t := commitPoint t (b! "vrf:h^sk") p.output.compressed
  let (c, t) := challengeScalar t (b! "prove")
  if proof.c = c then (.ok ⟨R, Hr, proof.s⟩, t) else (.error .equationFalse, t)
/-- `vrf.rs:865-879` -/
def vrfVerifyExtra (pk : PublicKey P) (t : VRFTranscript T) (out : VRFPreOut) (proof : VRFProof)
    (extra : E) : SignatureResult (VRFInOut P × VRFProofBatchable) := do
  let p ← out.attachInputHash pk t
  let batchable ← (dleqVerify pk extra p proof KUSAMA_VRF).1
  .ok (p, batchable)
/-- `vrf.rs:855-862` -/
def vrfVerify [Oracles] (pk : PublicKey P) (t : VRFTranscript T) (out : VRFPreOut)
    (proof : VRFProof) : SignatureResult (VRFInOut P × VRFProofBatchable) :=
  vrfVerifyExtra pk t out proof (Transcript.new (b! "VRF"))
/-- `vrf.rs:900-926`.  `collect::<Result<..>>` drives the zip element by element, so the generic zip is
always used: the transcript iterator is advanced once past the last output. -/
def vrfsVerifyExtra [Oracles] (pk : PublicKey P) (ts : List (VRFTranscript T))
    (outs : List VRFPreOut) (proof : VRFProof) (extra : E) :
    Outcome (List (VRFInOut P) × VRFProofBatchable) := do
  let ps ← .ofExcept ((ts.zip outs).mapM fun x => x.2.attachInputHash pk x.1)
  if ts.drop (outs.length + 1) ≠ [] then .panic "Too few VRF outputs for VRF inputs."
  else if ps.length ≠ outs.length then .panic "Too few VRF inputs for VRF outputs."
  else do
    let p ← vrfsMerge pk ps
    let batchable ← .ofExcept (dleqVerify pk extra p proof KUSAMA_VRF).1
    .ok (ps, batchable)
/-- `vrf.rs:883-894` -/
def vrfsVerify [Oracles] (pk : PublicKey P) (ts : List (VRFTranscript T)) (outs : List VRFPreOut)
    (proof : VRFProof) : Outcome (List (VRFInOut P) × VRFProofBatchable) :=
  vrfsVerifyExtra pk ts outs proof (Transcript.new (b! "VRF"))
end PublicKey

/-- `vrf.rs:953` -/
def DLEQ_ASSERT_MESSAGE : String :=
  "The number of messages/transcripts / input points, output points, proofs, and public keys must be equal."

/-- `vrf.rs:978-1010`: `dleq_verify_batch` after drawing the coefficients `zz`. -/
def dleqBatchEquation [Oracles] (ps : List (VRFInOut P)) (proofs : List VRFProofBatchable)
    (pks : List (PublicKey P)) (kusama : Bool) (zz : List Scalar) : Outcome Unit :=
  let zs := List.zipWith (fun z (proof : VRFProofBatchable) => z * proof.s) zz proofs
  let bCoefficient := Scalar.sum zs
  let t0 := Transcript.new (b! "VRF")
  let zc := List.zipWith (fun z (x : VRFProofBatchable × PublicKey P × VRFInOut P) =>
    z * (x.1.shortenDleq t0 x.2.1 x.2.2 kusama).c) zz (proofs.zip (pks.zip ps))
  do
    let b1 ← optionalMultiscalar (zz.map (- ·) ++ zc ++ [bCoefficient])
      (proofs.map (fun proof => decompress proof.R) ++ pks.map (fun pk => some pk.point) ++
        [some (basepoint : P)])
    let b2 ← optionalMultiscalar (zz.map (- ·) ++ zc ++ zs)
      (proofs.map (fun proof => decompress proof.Hr) ++ ps.map (fun p => some p.output.point) ++
        ps.map (fun p => some p.input.point))
    let b := (b1.map fun id => decide (id = 0)).getD false &&
      (b2.map fun id => decide (id = 0)).getD false
    if b then .ok () else .err .equationFalse

/-- `vrf.rs:947-1011` `dleq_verify_batch`; `sys` is `getrandom_or_panic()`. -/
def dleqVerifyBatch [Oracles] (ps : List (VRFInOut P)) (proofs : List VRFProofBatchable)
    (pks : List (PublicKey P)) (kusama : Bool) (sys : Rng) : Outcome Unit :=
  if ps.length ≠ proofs.length then .panic DLEQ_ASSERT_MESSAGE
  else if proofs.length ≠ pks.length then .panic DLEQ_ASSERT_MESSAGE
  else
    let t := (pks.zip ps).foldl (fun t x => x.2.commit (commitPoint t (b! "") x.1.compressed))
      (Transcript.new (b! "VB-RNG"))
    let (trng, _) := Transcript.finalizeRng (t.rekeyAll (b! "") []) sys
    let zz := drawZs proofs.length trng
    dleqBatchEquation ps proofs pks kusama zz

/-- `vrf.rs:1017-1042` `vrf_verify_batch`; the nested zip advances the transcripts once past the
shorter of `publickeys`, `outs`. -/
def vrfVerifyBatch [Oracles] (ts : List (VRFTranscript T)) (outs : List VRFPreOut)
    (proofs : List VRFProofBatchable) (pks : List (PublicKey P)) (sys : Rng) :
    Outcome (List (VRFInOut P)) := do
  let ps ← .ofExcept (((ts.zip pks).zip outs).mapM fun x => x.2.attachInputHash x.1.2 x.1.1)
  if ts.drop (min pks.length outs.length + 1) ≠ [] then
    .panic "Too few VRF outputs for VRF inputs."
  else if ps.length ≠ outs.length then .panic "Too few VRF inputs for VRF outputs."
  else
    match dleqVerifyBatch ps proofs pks KUSAMA_VRF sys with
    | .ok () => .ok ps
    | .err _ => .err .equationFalse
    | .panic m => .panic m

end Schnorrkel
