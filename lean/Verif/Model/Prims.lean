import Verif.Model.Basic
import Mathlib.Algebra.Module.ZMod

/-! # External dependencies: dalek scalars, the Ristretto group, merlin, SHA-512, RNGs

Nothing in this file is schnorrkel code; it is the interface the crate is written against.  The
group and the hash oracles are class parameters, so every theorem holds for every instance;
`Verif/Instance.lean` exhibits one. -/

namespace Schnorrkel

/-- Order of the Ristretto group (`curve25519_dalek::constants::BASEPOINT_ORDER`). [the modulus behind every `Scalar` operation, e.g. keys.rs:149] -/
@[irreducible] def ell : Nat := 2 ^ 252 + 27742317777372353535851937790883648493

/-- `ell` is prime: proved from a Pratt certificate in `Verif.Prime`. -/
theorem ell_prime : Nat.Prime ell := by
  have : ell = 7237005577332262213973186563042994240857116359379907606001950938285454250989 := by
    decide +kernel
  rw [this]; exact Verif.Prime.prime_ell

instance : Fact (Nat.Prime ell) := ⟨ell_prime⟩

/-- Scalars modulo the group order. [specification only] -/
abbrev Z := ZMod ell

/-- dalek `Scalar`: 32 raw bytes.  The type does not by itself guarantee that they are reduced
(`from_bits` exists), so canonicity is a predicate that has to be proved. [keys.rs:363, sign.rs:55] -/
structure Scalar where
  bytes : Arr 32
deriving DecidableEq

namespace Scalar
/-- Integer value of the stored bytes. [behind every use of a `Scalar`, e.g. sign.rs:182] -/
def val (s : Scalar) : Nat := leNat s.bytes.1
/-- dalek `Scalar::is_canonical`. [the test behind lib.rs:275, keys.rs:541] -/
def Canonical (s : Scalar) : Prop := s.val < ell
instance (s : Scalar) : Decidable s.Canonical := inferInstanceAs (Decidable (_ < _))
/-- Residue class modulo ℓ. [specification only] -/
def toZ (s : Scalar) : Z := (s.val : Z)
/-- `pack` of an unpacked scalar. [behind keys.rs:149, sign.rs:182] -/
def ofNat (n : Nat) : Scalar := ⟨leArr 32 n⟩
/-- Canonical representative of a residue class. [specification only] -/
def ofZ (z : Z) : Scalar := ofNat z.val
/-- dalek `Scalar::from_bits` (`legacy_compatibility`): clears bit 255, nothing else. [called at keys.rs:203, sign.rs:75] -/
def fromBits (b : Arr 32) : Scalar :=
  ⟨⟨b.1.take 31 ++ (b.1.drop 31).map (· &&& 0x7f), by have := b.2; simp; omega⟩⟩
/-- dalek `Scalar::from_canonical_bytes`. [called at lib.rs:275, keys.rs:541] -/
def fromCanonicalBytes (b : Arr 32) : Option Scalar :=
  if leNat b.1 < ell then some ⟨b⟩ else none
/-- dalek `Scalar::from_bytes_mod_order_wide`. [called at context.rs:66, 74, keys.rs:149, 565, cert.rs:212] -/
def fromBytesModOrderWide (b : Arr 64) : Scalar := ofNat (leNat b.1 % ell)
/-- dalek `Scalar::from(u128)`: zero-extends 16 bytes. [called at batch.rs:227, vrf.rs:423, 974] -/
def fromU128 (b : Arr 16) : Scalar := ofNat (leNat b.1)
/-- dalek `Scalar + Scalar`: one conditional subtraction of ℓ, correct only on reduced inputs. [e.g. sign.rs:182, derive.rs:267, cert.rs:123, 175] -/
def add (a b : Scalar) : Scalar :=
  if a.val + b.val < ell then ofNat (a.val + b.val) else ofNat (a.val + b.val - ell)
/-- dalek `Scalar - Scalar`: one conditional addition of ℓ, correct only on reduced inputs. [vrf.rs:671] -/
def sub (a b : Scalar) : Scalar :=
  if b.val ≤ a.val then ofNat (a.val - b.val) else ofNat (a.val + ell - b.val)
/-- dalek `Scalar * Scalar`: Montgomery multiplication, reduces any 256-bit inputs. [e.g. sign.rs:182, cert.rs:123, musig.rs:625-626] -/
def mul (a b : Scalar) : Scalar := ofNat (a.val * b.val % ell)
/-- dalek `-Scalar`: reduces, then subtracts from zero. [batch.rs:282, sign.rs:240, vrf.rs:992] -/
def neg (a : Scalar) : Scalar := ofNat ((ell - a.val % ell) % ell)
/-- dalek `Scalar::ZERO`. [start of the sums at batch.rs:154, 325, musig.rs:625, 703, 752, vrf.rs:983] -/
def zero : Scalar := ofNat 0
/-- dalek `Scalar::ONE`. [not called by the crate] -/
def one : Scalar := ofNat 1
/-- dalek `iter.sum::<Scalar>()`: fold with `+` from zero. [batch.rs:154, 325, musig.rs:625, 703, 752, vrf.rs:983] -/
def sum (l : List Scalar) : Scalar := l.foldl add zero

instance : Add Scalar := ⟨add⟩
instance : Sub Scalar := ⟨sub⟩
instance : Mul Scalar := ⟨mul⟩
instance : Neg Scalar := ⟨neg⟩
end Scalar

/-- A 32-byte string holding a (possibly invalid) point encoding: dalek `CompressedRistretto`. [points.rs:37, sign.rs:44] -/
abbrev Compressed := Arr 32

/-- The Ristretto group as used through `curve25519_dalek::ristretto`. [points.rs:38, 77, 86, keys.rs:578, vrf.rs:192] -/
class Ristretto (P : Type) extends AddCommGroup P where
  decEq : DecidableEq P
  /-- `RISTRETTO_BASEPOINT_POINT` / `RISTRETTO_BASEPOINT_TABLE` -/
  basepoint : P
  basepoint_ne : basepoint ≠ 0
  order : ∀ p : P, ell • p = 0
  generates : ∀ p : P, ∃ n : Nat, p = n • basepoint
  /-- `RistrettoPoint::compress` -/
  compress : P → Compressed
  /-- `CompressedRistretto::decompress` -/
  decompress : Compressed → Option P
  decompress_iff : ∀ b p, decompress b = some p ↔ compress p = b
  compress_zero : compress 0 = zeros 32
  /-- `RistrettoPoint::from_uniform_bytes` -/
  fromUniform : Arr 64 → P

instance {P : Type} [Ristretto P] : DecidableEq P := Ristretto.decEq

export Ristretto (basepoint compress decompress fromUniform)

/-- Scalars mod ℓ act on the group (every element is killed by ℓ); used to state properties. [specification only] -/
instance instModuleZ {P : Type} [Ristretto P] : Module Z P :=
  AddCommGroup.zmodModule (n := ell) Ristretto.order

/-- dalek `Scalar * RistrettoPoint` (also the basepoint-table and multiscalar variants). [e.g. keys.rs:578, sign.rs:177, aead.rs:58, vrf.rs:663] -/
def Scalar.mulPoint {P : Type} [Ristretto P] (s : Scalar) (p : P) : P := s.val • p
/-- Notation `s •. p` for `Scalar.mulPoint s p`. -/
infixr:73 " •. " => Scalar.mulPoint

/-- dalek `RistrettoPoint::vartime_multiscalar_mul` on paired lists. [called at vrf.rs:475-477, 833, musig.rs:433] -/
def multiscalar {P : Type} [Ristretto P] (l : List (Scalar × P)) : P :=
  (l.map fun x => x.1 •. x.2).sum

/-- dalek `VartimeMultiscalarMul::optional_multiscalar_mul`: asserts equal lengths, `None` if any
point is `None`. [called at batch.rs:281, vrf.rs:991, 1001] -/
def optionalMultiscalar {P : Type} [Ristretto P] (ss : List Scalar) (ps : List (Option P)) :
    Outcome (Option P) :=
  if ss.length = ps.length then
    .ok ((ps.mapM id).map fun qs => multiscalar (ss.zip qs))
  else .panic "multiscalar length mismatch"

/-- One operation on a merlin transcript or on the `TranscriptRng` built from it.  merlin frames
label, length and data of each, so the transcript state is determined by the log of operations. [context.rs:133-158] -/
inductive MOp where
  /-- `Transcript::append_message(label, msg)` -/
  | append (label msg : Bytes)
  /-- `Transcript::challenge_bytes(label, dest)` with `dest.len() = len` -/
  | challenge (label : Bytes) (len : Nat)
  /-- `TranscriptRngBuilder::rekey_with_witness_bytes(label, witness)` -/
  | rekey (label witness : Bytes)
  /-- `TranscriptRngBuilder::finalize(rng)`, keyed by 32 bytes read from `rng` -/
  | rngKey (r : Bytes)
  /-- `TranscriptRng::fill_bytes(dest)` -/
  | prf (len : Nat)
deriving DecidableEq, Repr

/-- Hash functions: arbitrary functions of everything absorbed. [context.rs:139, 156, 321, 342, keys.rs:187-189] -/
class Oracles where
  /-- bytes squeezed by merlin as the last operation of the log -/
  merlin : List MOp → (n : Nat) → Arr n
  /-- SHA-512 -/
  sha512 : Bytes → Arr 64
  /-- the extensible-output hash underlying an `XoFTranscript` -/
  xof : Bytes → (n : Nat) → Arr n

/-- An RNG: output of each `fill_bytes` is an arbitrary function of the requests made before.
Universally quantifying over `src` covers every stream, including constant ones. [context.rs:79, keys.rs:313, 562] -/
structure Rng where
  src : List Nat → (n : Nat) → Arr n
  hist : List Nat

/-- `RngCore::fill_bytes` on an `n`-byte buffer. [keys.rs:313, 562-564, context.rs:339] -/
def Rng.fill (r : Rng) (n : Nat) : Arr n × Rng := (r.src r.hist n, { r with hist := r.hist ++ [n] })

/-- merlin `Transcript`. [context.rs:133, 177] -/
structure Transcript where
  log : List MOp
deriving DecidableEq

namespace Transcript
/-- merlin `Transcript::append_message`. [called at context.rs:135, 192, 204, keys.rs:145] -/
def appendMessage (t : Transcript) (label msg : Bytes) : Transcript := ⟨t.log ++ [.append label msg]⟩
/-- merlin `Transcript::new(label)`: appends the domain separator. [called at context.rs:191, keys.rs:144, sign.rs:277, vrf.rs:354] -/
def new (label : Bytes) : Transcript := appendMessage ⟨[]⟩ (b! "dom-sep") label
/-- merlin `Transcript::challenge_bytes`. [called at context.rs:139, keys.rs:148, 152] -/
def challengeBytes [Oracles] (t : Transcript) (label : Bytes) (n : Nat) : Arr n × Transcript :=
  let l := t.log ++ [.challenge label n]
  (Oracles.merlin l n, ⟨l⟩)
/-- merlin `build_rng().rekey_with_witness_bytes(..)*`: log of the keyed builder. [called at context.rs:151-154] -/
def rekeyAll (t : Transcript) (label : Bytes) (seeds : List Bytes) : List MOp :=
  t.log ++ seeds.map (.rekey label)
/-- `TranscriptRngBuilder::finalize(&mut rng)`: reads 32 bytes of the RNG. [called at context.rs:155, batch.rs:220, vrf.rs:416, 965] -/
def finalizeRng (builder : List MOp) (rng : Rng) : List MOp × Rng :=
  let (r, rng) := rng.fill 32
  (builder ++ [.rngKey r.1], rng)
/-- `TranscriptRng::fill_bytes`. [called at context.rs:156, batch.rs:226, vrf.rs:973] -/
def rngFill [Oracles] (trng : List MOp) (n : Nat) : Arr n × List MOp :=
  let l := trng ++ [.prf n]
  (Oracles.merlin l n, l)
end Transcript

end Schnorrkel
