import Verif.Model.Sign

/-! # `src/batch.rs`

Iterators are finite lists.  Rust's `Zip` comes in two flavours which differ in how far they advance
the first iterator once the second is exhausted: the generic one pulls one more element and drops it,
the `TrustedLen` specialisation used by `collect` does not.  Both are modelled (`ZipMode`). -/

namespace Schnorrkel
variable {P : Type} [Ristretto P] [Oracles] {T : Type} [SigningTranscript T]
open SigningTranscript

/-- Which implementation of `core::iter::Zip` drives `transcripts.by_ref().zip(..)`. [batch.rs:203-204] -/
inductive ZipMode where
  | generic | trustedLen
deriving DecidableEq

/-- What is left of the first iterator (elements `l`) after `by_ref().zip(0..n)` has been driven to
its end. [batch.rs:203-215] -/
def ZipMode.rest {α : Type} (m : ZipMode) (l : List α) (n : Nat) : List α :=
  match m with
  | .generic => l.drop (n + 1)
  | .trustedLen => l.drop n

/-- `batch.rs:87-102` `NotAnRng`: writes zeros. -/
def notAnRng : Rng := ⟨fun _ n => zeros n, []⟩

/-- `batch.rs:26-27` -/
def ASSERT_MESSAGE : String :=
  "The number of messages/transcripts, signatures, and public keys must be equal."

/-- `batch.rs:192-194`, `195-197`: `commit_point(b"", ..)` for each element. -/
def commitAll (t : Transcript) (l : List Compressed) : Transcript :=
  l.foldl (fun t c => commitPoint t (b! "") c) t

/-- `batch.rs:205-214`: the closure run on each `(transcript, index)`; indexing may panic. -/
def hramLoop (Rs : List Compressed) (pks : List (PublicKey P)) :
    List T → Nat → Transcript → Outcome (List Scalar × Transcript)
  | [], _, zt => .ok ([], zt)
  | t :: ts, i, zt =>
    let d := (witnessBytesRng t (b! "") 16 [[]] notAnRng).1
    let zt := zt.appendMessage (b! "") d.1
    let t := protoName t (b! "Schnorr-sig")
    match pks[i]?, Rs[i]? with
    | some pk, some R =>
      let t := commitPoint t (b! "sign:pk") pk.compressed
      let t := commitPoint t (b! "sign:R") R
      let (k, _) := challengeScalar t (b! "sign:c")
      do
        let (ks, zt) ← hramLoop Rs pks ts (i + 1) zt
        .ok (k :: ks, zt)
    | _, _ => .panic "index out of bounds"

/-- `batch.rs:221-229`: one 128-bit scalar per signature from the keyed `TranscriptRng`. -/
def drawZs : Nat → List MOp → List Scalar
  | 0, _ => []
  | n + 1, trng =>
    let (r, trng) := Transcript.rngFill trng 16
    Scalar.fromU128 r :: drawZs n trng

/-- `batch.rs:178-232` `prepare_batch`. -/
def prepareBatch (mode : ZipMode) (transcripts : List T) (Rs : List Compressed)
    (pks : List (PublicKey P)) (rng : Rng) : Outcome (List Scalar × List Scalar) :=
  let zt := Transcript.new (b! "V-RNG")
  let zt := commitAll zt (pks.map (·.compressed))
  let zt := commitAll zt Rs
  do
    let (hrams, zt) ← hramLoop Rs pks (transcripts.take Rs.length) 0 zt
    if mode.rest transcripts Rs.length ≠ [] then .panic ASSERT_MESSAGE
    else if hrams.length ≠ pks.length then .panic ASSERT_MESSAGE
    else
      let (trng, _) := Transcript.finalizeRng (zt.rekeyAll (b! "") []) rng
      .ok (drawZs Rs.length trng, hrams)

/-- `batch.rs:266-275`: the deduplication loop, from index `i`, over the mutable `ppks`, `hrams`. -/
def dedupLoop (zs : List Scalar) :
    List (PublicKey P) → Nat → List (PublicKey P) → List Scalar →
    Outcome (List (PublicKey P) × List Scalar)
  | [], _, ppks, hrams => .ok (ppks, hrams)
  | pk :: pks, i, ppks, hrams =>
    match hrams[i]?, zs[i]? with
    | some h, some z =>
      let zhram := h * z
      match ppks.getLast? with
      | none => dedupLoop zs pks (i + 1) (ppks ++ [pk]) (hrams.set ppks.length zhram)
      | some last => do
        let same ← RistrettoBoth.eqDebug last pk
        if !same then
          dedupLoop zs pks (i + 1) (ppks ++ [pk]) (hrams.set ppks.length zhram)
        else
          match hrams[ppks.length - 1]? with
          | some acc =>
            dedupLoop zs pks (i + 1) ppks (hrams.set (ppks.length - 1) (acc + zhram))
          | none => .panic "index out of bounds"
    | _, _ => .panic "index out of bounds"

/-- `batch.rs:255-278`: the public keys `As` and their coefficients, deduplicated or not. -/
def batchAs (zs hrams : List Scalar) (pks : List (PublicKey P)) (dedup : Bool) :
    Outcome (List (PublicKey P) × List Scalar) :=
  if !dedup then
    -- `for (hram, z) in hrams.iter_mut().zip(zs.iter())`: entries beyond `zs` are left alone
    .ok (pks, List.zipWith (· * ·) hrams zs ++ hrams.drop zs.length)
  else do
    let (ppks, hrams) ← dedupLoop zs pks 0 [] hrams
    .ok (ppks, hrams.take ppks.length)

/-- `batch.rs:237-289` `verify_batch_equation`. -/
def verifyBatchEquation (bs : Scalar) (zs hrams : List Scalar) (Rs : List Compressed)
    (pks : List (PublicKey P)) (dedup : Bool) : Outcome Unit := do
  let (As, hrams) ← batchAs zs hrams pks dedup
  let b ← optionalMultiscalar (-bs :: (zs ++ hrams))
    (some (basepoint : P) :: (Rs.map decompress ++ As.map fun pk => some pk.point))
  if (b.map fun id => decide (id = 0)).getD false then .ok () else .err .equationFalse

/-- `batch.rs:151-154`, `322-325`: `signatures.iter().map(|s| s.s).zip(zs).map(|(s,z)| z*s).sum()`. -/
def basepointCoefficient (sigs : List Signature) (zs : List Scalar) : Scalar :=
  Scalar.sum (List.zipWith (fun sig z => z * sig.s) sigs zs)

/-- `batch.rs:133-157` `verify_batch_rng` -/
def verifyBatchRng (mode : ZipMode) (transcripts : List T) (sigs : List Signature)
    (pks : List (PublicKey P)) (dedup : Bool) (rng : Rng) : Outcome Unit :=
  if sigs.length ≠ pks.length then .panic ASSERT_MESSAGE
  else do
    let (zs, hrams) ← prepareBatch mode transcripts (sigs.map (·.R)) pks rng
    let bs := basepointCoefficient sigs zs
    verifyBatchEquation bs zs hrams (sigs.map (·.R)) pks dedup

/-- `batch.rs:68-85` `verify_batch`; `sys` is `getrandom_or_panic()`. -/
def verifyBatch (mode : ZipMode) (transcripts : List T) (sigs : List Signature)
    (pks : List (PublicKey P)) (dedup : Bool) (sys : Rng) : Outcome Unit :=
  verifyBatchRng mode transcripts sigs pks dedup sys

/-- `batch.rs:116-127` `verify_batch_deterministic` -/
def verifyBatchDeterministic (mode : ZipMode) (transcripts : List T) (sigs : List Signature)
    (pks : List (PublicKey P)) (dedup : Bool) : Outcome Unit :=
  verifyBatchRng mode transcripts sigs pks dedup notAnRng

/-- `batch.rs:298-301` -/
structure PreparedBatch where
  bs : Scalar
  Rs : List Compressed
deriving DecidableEq

/-- Build profile, for integer underflow: panic in debug, wrap in release. [batch.rs:367] -/
inductive Profile where
  | debug | release
deriving DecidableEq

/-- `usize` subtraction. [batch.rs:367] -/
def Profile.subUsize (p : Profile) (a b : Nat) : Outcome Nat :=
  if b ≤ a then .ok (a - b) else
  match p with
  | .debug => .panic "attempt to subtract with overflow"
  | .release => .ok (a + 2 ^ 64 - b)

/-- `Vec::<T>::with_capacity(l)` for elements of `size` bytes: panics when `l * size > isize::MAX`. [batch.rs:376] -/
def withCapacity (l size : Nat) : Outcome Unit :=
  if l * size < 2 ^ 63 then .ok () else .panic "capacity overflow"

namespace PreparedBatch
/-- `batch.rs:307-329` `PreparedBatch::new` -/
def new (mode : ZipMode) (transcripts : List T) (sigs : List Signature)
    (pks : List (PublicKey P)) : Outcome PreparedBatch :=
  if sigs.length ≠ pks.length then .panic ASSERT_MESSAGE
  else do
    let (zs, _) ← prepareBatch mode transcripts (sigs.map (·.R)) pks notAnRng
    let bs := basepointCoefficient sigs zs
    .ok ⟨bs, sigs.map (·.R)⟩

/-- `batch.rs:334-354` `PreparedBatch::verify` -/
def verify (mode : ZipMode) (pb : PreparedBatch) (transcripts : List T)
    (pks : List (PublicKey P)) (dedup : Bool) : Outcome Unit :=
  if pb.Rs.length ≠ pks.length then .panic ASSERT_MESSAGE
  else do
    let (zs, hrams) ← prepareBatch mode transcripts pb.Rs pks notAnRng
    verifyBatchEquation pb.bs zs hrams pb.Rs pks dedup

/-- `batch.rs:368-372` the closure `read`: `split_at(32)` panics on a short slice. -/
def read32 (bytes : Bytes) : Outcome (Arr 32 × Bytes) :=
  if h : 32 ≤ bytes.length then .ok (⟨bytes.take 32, by simp [h]⟩, bytes.drop 32)
  else .panic "mid > len"

/-- `batch.rs:377-379`: `l` reads. -/
def readMany : Nat → Bytes → Outcome (List Compressed)
  | 0, _ => .ok []
  | l + 1, bytes => do
    let (r, bytes) ← read32 bytes
    let rs ← readMany l bytes
    .ok (r :: rs)

/-- `batch.rs:368-380`: the rest of `read_bytes`, once the number `l` of points is computed. -/
def readBody (l : Nat) (bytes : Bytes) : Outcome PreparedBatch := do
  let (bs, bytes) ← read32 bytes
  let bs := bs.modify 31 (· &&& 127)
  let bs ← .ofExcept (checkScalar bs)
  let () ← withCapacity l 32
  let Rs ← readMany l bytes
  .ok ⟨bs, Rs⟩

/-- `batch.rs:358-381` `read_bytes` -/
def readBytes (profile : Profile) (bytes : Bytes) : Outcome PreparedBatch :=
  if bytes.length % 32 ≠ 0 ∨ bytes.length < 64 then
    .err (.bytesLengthError "PreparedBatch" "A Prepared batched signature" 0)
  else do
    let l ← profile.subUsize (bytes.length % 32) 1
    readBody l bytes

/-- `batch.rs:385-387` -/
def byteLen (pb : PreparedBatch) : Nat := 32 + 32 * pb.Rs.length

/-- `batch.rs:403-408` `reserve_mut`: the first `len` elements of the slice, and the rest which stays in `heap`;
`split_at_mut` panics on a short slice. -/
def reserveMut (heap : Bytes) (len : Nat) : Outcome (Bytes × Bytes) :=
  if len ≤ heap.length then .ok (heap.take len, heap.drop len) else .panic "mid > len"

/-- `batch.rs:393` the closure `place`, on the part of the buffer already passed and the rest; `copy_from_slice`
panics unless the lengths agree. -/
def place (s : Bytes) (st : Bytes × Bytes) : Outcome (Bytes × Bytes) := do
  let (reserved, heap) ← reserveMut st.2 32
  if reserved.length ≠ s.length then .panic "copy_from_slice: lengths differ" else .ok (st.1 ++ s, heap)

/-- `batch.rs:397-399` -/
def placeAll : List Compressed → Bytes × Bytes → Outcome (Bytes × Bytes)
  | [], st => .ok st
  | R :: Rs, st => do
    let st ← place R.1 st
    placeAll Rs st

/-- `batch.rs:391-400` `write_bytes` into the buffer `bytes`; returns its final content. -/
def writeBytes (pb : PreparedBatch) (bytes : Bytes) : Outcome Bytes :=
  if bytes.length ≠ pb.byteLen then .panic "assertion failed"
  else do
    let bs := pb.bs.bytes.modify 31 (· ||| 128)
    let st ← place bs.1 ([], bytes)
    let st ← placeAll pb.Rs st
    .ok (st.1 ++ st.2)
end PreparedBatch

end Schnorrkel
