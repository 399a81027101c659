import Verif.Model.Keys
import Verif.Model.Sign

/-! # `Debug` output (`{:?}`) of keys and signatures

Text is a list of characters.  External formatting: core prints `[u8]` as decimal numbers separated by `", "` in
brackets; dalek 4.1 prints `Scalar` and `CompressedRistretto` as below.  The alternate form `{:#?}` is not modelled. -/

namespace Schnorrkel

/-- A string literal as the list of its characters, expanded at elaboration time. [e.g. keys.rs:101] -/
macro "c!" s:str : term => do
  let elems ← s.getString.toList.mapM fun c => `($(Lean.quote c))
  `(([$(elems.toArray),*] : List Char))

/-- core `impl Debug for u8`: decimal digits. [called through keys.rs:101] -/
def showU8 (b : UInt8) : List Char := Nat.toDigits 10 b.toNat

/-- core `impl Debug for [u8]`: elements separated by `", "`. [called through keys.rs:101] -/
def showElems : Bytes → List Char
  | [] => []
  | [b] => showU8 b
  | b :: bs => showU8 b ++ (c! ", ") ++ showElems bs

/-- core `impl Debug for [u8]` / `[u8; n]`. [called at keys.rs:101, 374] -/
def showBytes (bs : Bytes) : List Char := (c! "[") ++ showElems bs ++ (c! "]")

/-- dalek `impl Debug for Scalar`. [called at keys.rs:374, sign.rs:60] -/
def Scalar.debug (s : Scalar) : List Char :=
  (c! "Scalar{\n\tbytes: ") ++ showBytes s.bytes.1 ++ (c! ",\n}")

/-- dalek `impl Debug for CompressedRistretto`. [called at points.rs:43, sign.rs:60] -/
def debugCompressed (c : Compressed) : List Char := (c! "CompressedRistretto: ") ++ showBytes c.1

/-- `keys.rs:99-103` -/
def MiniSecretKey.debug (m : MiniSecretKey) : List Char :=
  (c! "MiniSecretKey: ") ++ showBytes m.bytes.1

/-- `keys.rs:372-376` -/
def SecretKey.debug (sk : SecretKey) : List Char :=
  (c! "SecretKey { key: ") ++ sk.key.debug ++ (c! " nonce: ") ++ showBytes sk.nonce.1 ++ (c! " }")

/-- `points.rs:41-45` -/
def RistrettoBoth.debug {P : Type} (r : RistrettoBoth P) : List Char :=
  (c! "RistrettoPoint( ") ++ debugCompressed r.compressed ++ (c! " )")

/-- `keys.rs:601-605` -/
def PublicKey.debug {P : Type} (pk : PublicKey P) : List Char :=
  (c! "PublicKey( ") ++ RistrettoBoth.debug pk ++ (c! " )")

/-- `keys.rs:711` `#[derive(Debug)]` -/
def Keypair.debug {P : Type} (kp : Keypair P) : List Char :=
  (c! "Keypair { secret: ") ++ kp.secret.debug ++ (c! ", public: ") ++ PublicKey.debug kp.pub ++ (c! " }")

/-- `sign.rs:58-62` -/
def Signature.debug (s : Signature) : List Char :=
  (c! "Signature( R: ") ++ debugCompressed s.R ++ (c! ", s: ") ++ s.s.debug ++ (c! " )")

end Schnorrkel
