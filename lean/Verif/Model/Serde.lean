import Verif.Model.Keys
import Verif.Model.Sign
import Verif.Model.Vrf

/-! # `src/serdey.rs`: `serde` support

The `serde`, `serde_bytes` and format crates are not modelled; a data format is described by what it
writes for `serialize_bytes` and by which visitor method it calls when asked for a sequence or for bytes. -/

namespace Schnorrkel
variable {P : Type} [Ristretto P]

/-- Which visitor method a format's deserializer calls. [serdey.rs:24-33] -/
inductive Visit where
  /-- `visit_seq`, yielding these elements, each readable as a `u8` or not -/
  | seq (elems : List (Option UInt8))
  /-- `visit_borrowed_bytes` (or `visit_borrowed_str`, whose bytes are taken) -/
  | borrowed (b : Bytes)
  /-- `visit_bytes` / `visit_byte_buf` -/
  | transient (b : Bytes)
  /-- any other method, or an error of the format -/
  | other

/-- A data format. [serdey.rs:17-19, 24-33] -/
structure Format where
  Wire : Type
  /-- `Serializer::serialize_bytes` -/
  writeBytes : Bytes → Wire
  /-- `Deserializer::deserialize_seq` -/
  readSeq : Wire → Visit
  /-- `Deserializer::deserialize_bytes` -/
  readBytes : Wire → Visit

/-- Deserialization errors: of the format (invalid type, bad element), or `E::custom(err)`
(`errors.rs:151-156`). -/
inductive SerdeError where
  | format
  | custom (e : SignatureError)
deriving DecidableEq

/-- `serdey.rs:17-20`: `serde_bytes::Bytes::new(&self.to_bytes()[..]).serialize(serializer)`. -/
def serdeSerialize (f : Format) {n : Nat} (bytes : Arr n) : f.Wire := f.writeBytes bytes.1

/-- `serdey.rs:27,29` `<Cow<[u8]>>::deserialize`: serde deserializes a `Cow` as its owned type `Vec<u8>`,
that is by `deserialize_seq` with a visitor that only accepts `visit_seq`. -/
def readOwned (f : Format) (w : f.Wire) : Except SerdeError Bytes :=
  match f.readSeq w with
  | .seq elems => match elems.mapM id with
    | some b => .ok b
    | none => .error .format
  | _ => .error .format

/-- `serdey.rs:31` `<&serde_bytes::Bytes>::deserialize`: `deserialize_bytes` with a visitor that only accepts
borrowed data. -/
def readBorrowed (f : Format) (w : f.Wire) : Except SerdeError Bytes :=
  match f.readBytes w with
  | .borrowed b => .ok b
  | _ => .error .format

/-- `serdey.rs:23-38`; `alloc` is whether the `std` or `alloc` feature is on. -/
def serdeDeserialize {α : Type} (alloc : Bool) (fromBytes : Bytes → SignatureResult α) (f : Format) (w : f.Wire) :
    Except SerdeError α :=
  match (if alloc then readOwned f w else readBorrowed f w) with
  | .error e => .error e
  | .ok bytes => match fromBytes bytes with
    | .ok a => .ok a
    | .error e => .error (.custom e)

/-- `keys.rs:345` -/
def MiniSecretKey.serialize (f : Format) (x : MiniSecretKey) := serdeSerialize f x.toBytes
/-- `keys.rs:345` -/
def MiniSecretKey.deserialize (alloc : Bool) (f : Format) := serdeDeserialize alloc MiniSecretKey.fromBytes f
/-- `keys.rs:588` -/
def SecretKey.serialize (f : Format) (x : SecretKey) := serdeSerialize f x.toBytes
/-- `keys.rs:588` -/
def SecretKey.deserialize (alloc : Bool) (f : Format) := serdeDeserialize alloc SecretKey.fromBytes f
/-- `keys.rs:708` -/
def PublicKey.serialize (f : Format) (x : PublicKey P) := serdeSerialize f (PublicKey.toBytes x)
/-- `keys.rs:708` -/
def PublicKey.deserialize (alloc : Bool) (f : Format) : f.Wire → Except SerdeError (PublicKey P) :=
  serdeDeserialize alloc PublicKey.fromBytes f
/-- `keys.rs:914` -/
def Keypair.serialize (f : Format) (x : Keypair P) := serdeSerialize f x.toBytes
/-- `keys.rs:914` -/
def Keypair.deserialize (alloc : Bool) (f : Format) : f.Wire → Except SerdeError (Keypair P) :=
  serdeDeserialize alloc Keypair.fromBytes f
/-- `points.rs:144` -/
def RistrettoBoth.serialize (f : Format) (x : RistrettoBoth P) := serdeSerialize f x.toBytes
/-- `points.rs:144` -/
def RistrettoBoth.deserialize (alloc : Bool) (f : Format) : f.Wire → Except SerdeError (RistrettoBoth P) :=
  serdeDeserialize alloc RistrettoBoth.fromBytes f
/-- `sign.rs:155` -/
def Signature.serialize (f : Format) (x : Signature) := serdeSerialize f x.toBytes
/-- `sign.rs:155` -/
def Signature.deserialize (alloc : Bool) (f : Format) := serdeDeserialize alloc Signature.fromBytes f
/-- `vrf.rs:277` -/
def VRFPreOut.serialize (f : Format) (x : VRFPreOut) := serdeSerialize f x.toBytes
/-- `vrf.rs:277` -/
def VRFPreOut.deserialize (alloc : Bool) (f : Format) := serdeDeserialize alloc VRFPreOut.fromBytes f
/-- `vrf.rs:542` -/
def VRFProof.serialize (f : Format) (x : VRFProof) := serdeSerialize f x.toBytes
/-- `vrf.rs:542` -/
def VRFProof.deserialize (alloc : Bool) (f : Format) := serdeDeserialize alloc VRFProof.fromBytes f
/-- `vrf.rs:638` -/
def VRFProofBatchable.serialize (f : Format) (x : VRFProofBatchable) := serdeSerialize f x.toBytes
/-- `vrf.rs:638` -/
def VRFProofBatchable.deserialize (alloc : Bool) (f : Format) := serdeDeserialize alloc VRFProofBatchable.fromBytes f

end Schnorrkel
