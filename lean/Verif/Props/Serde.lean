import Verif.Model.Serde
import Verif.Props.Keys
import Verif.Props.Sign
import Verif.Props.Vrf
import Verif.Instance

/-! # C44: serde -/

namespace Schnorrkel.Props
variable {P : Type} [Ristretto P]

/-- The format answers a request for a sequence, on bytes it wrote itself, with a sequence of exactly these
bytes (JSON arrays of numbers, bincode). No serde type of this crate has more than 96 bytes. -/
def SeqFormat (f : Format) : Prop := ∀ b : Bytes, b.length ≤ 96 → f.readSeq (f.writeBytes b) = .seq (b.map some)

/-- The format has a byte-string type of its own and answers a request for a sequence, on a byte string,
with the byte string. -/
def ByteStringFormat (f : Format) : Prop :=
  ∀ b, f.readSeq (f.writeBytes b) = .borrowed b ∨ f.readSeq (f.writeBytes b) = .transient b

/-- The format answers a request for bytes, on bytes it wrote itself, with the borrowed bytes. -/
def BorrowFormat (f : Format) : Prop := ∀ b : Bytes, b.length ≤ 96 → f.readBytes (f.writeBytes b) = .borrowed b

private theorem mapM_some (b : Bytes) : (b.map some).mapM (id : Option UInt8 → Option UInt8) = some b := by
  induction b with
  | nil => rfl
  | cons x b ih => rw [List.map_cons, List.mapM_cons, ih]; rfl

private theorem mapM_id_eq {l : List (Option UInt8)} {b : Bytes} : l.mapM (id : Option UInt8 → Option UInt8) = some b ↔ l = b.map some := by
  induction l generalizing b with
  | nil => cases b <;> simp
  | cons x l ih =>
    rw [List.mapM_cons]
    cases x with
    | none => cases b <;> simp
    | some x =>
      cases hl : l.mapM (id : Option UInt8 → Option UInt8) with
      | none =>
        cases b with
        | nil => simp
        | cons y b => simp only [id, List.map_cons, List.cons.injEq, ← ih, hl]; simp
      | some b' =>
        have := (ih (b := b')).mp hl
        cases b with
        | nil => simp
        | cons y b =>
          simp only [id, List.map_cons, List.cons.injEq, ← ih, hl]
          simp

/-- **C44** Whatever the format: with `std` or `alloc`, deserialization succeeds exactly when the format
presents a sequence of bytes and `from_bytes` accepts these bytes, with the value of `from_bytes`; a
rejection by `from_bytes` is passed on; and every other presentation is an error of the format. -/
theorem deserialize_is_from_bytes {α : Type} (fromBytes : Bytes → SignatureResult α) (f : Format) (w : f.Wire) :
    (∀ a, serdeDeserialize true fromBytes f w = .ok a ↔
      ∃ b : Bytes, f.readSeq w = .seq (b.map some) ∧ fromBytes b = .ok a) ∧
    (∀ e, serdeDeserialize true fromBytes f w = .error (.custom e) ↔
      ∃ b : Bytes, f.readSeq w = .seq (b.map some) ∧ fromBytes b = .error e) ∧
    (serdeDeserialize true fromBytes f w = .error .format ↔ ∀ b : Bytes, f.readSeq w ≠ .seq (b.map some)) := by
  unfold serdeDeserialize readOwned
  simp only [if_true]
  cases hs : f.readSeq w with
  | seq elems =>
    simp only [Visit.seq.injEq, ne_eq]
    cases hm : elems.mapM (id : Option UInt8 → Option UInt8) with
    | none =>
      have hno : ∀ b : Bytes, elems ≠ b.map some := fun b hb => by rw [mapM_id_eq.mpr hb] at hm; cases hm
      simp [hno]
    | some b =>
      have hb := mapM_id_eq.mp hm
      subst hb
      have hinj : ∀ b' : Bytes, b.map some = b'.map some ↔ b = b' := fun b' =>
        ⟨fun h => List.map_injective_iff.mpr (Option.some_injective _) h, fun h => by rw [h]⟩
      simp only [hinj]
      cases hf : fromBytes b with
      | ok a => simp [hf]
      | error e => simp [hf]
  | borrowed b => simp
  | transient b => simp
  | other => simp

/-- **C44** Without `alloc`: exactly when the format presents borrowed bytes that `from_bytes` accepts. -/
theorem deserialize_no_alloc_is_from_bytes {α : Type} (fromBytes : Bytes → SignatureResult α) (f : Format)
    (w : f.Wire) (a : α) :
    serdeDeserialize false fromBytes f w = .ok a ↔ ∃ b, f.readBytes w = .borrowed b ∧ fromBytes b = .ok a := by
  unfold serdeDeserialize readBorrowed
  cases hs : f.readBytes w with
  | borrowed b =>
    simp only [Bool.false_eq_true, if_false, Visit.borrowed.injEq, exists_eq_left']
    cases hf : fromBytes b <;> simp
  | seq l => simp
  | transient b => simp
  | other => simp

/-- Both builds, from a statement about `from_bytes ∘ to_bytes`. -/
private theorem round {α : Type} {n : Nat} (hn : n ≤ 96) (fromBytes : Bytes → SignatureResult α) (b : Arr n) (a : α)
    (h : fromBytes b.1 = .ok a) (f : Format) :
    (SeqFormat f → serdeDeserialize true fromBytes f (serdeSerialize f b) = .ok a) ∧
    (BorrowFormat f → serdeDeserialize false fromBytes f (serdeSerialize f b) = .ok a) :=
  ⟨fun hf => ((deserialize_is_from_bytes fromBytes f _).1 a).mpr ⟨b.1, hf b.1 (by rw [b.2]; exact hn), h⟩,
   fun hf => (deserialize_no_alloc_is_from_bytes fromBytes f _ a).mpr ⟨b.1, hf b.1 (by rw [b.2]; exact hn), h⟩⟩

/-- **C44** Round trip of every serde type, in every format that presents its bytes as a sequence (with
`alloc`) or as borrowed bytes (without). -/
theorem serde_roundtrip (f : Format) (alloc : Bool) (hf : if alloc then SeqFormat f else BorrowFormat f) :
    (∀ x : MiniSecretKey, MiniSecretKey.deserialize alloc f (x.serialize f) = .ok x) ∧
    (∀ x : SecretKey, x.key.Canonical → SecretKey.deserialize alloc f (x.serialize f) = .ok x) ∧
    (∀ x : PublicKey P, x.WF → PublicKey.deserialize alloc f (PublicKey.serialize f x) = .ok x) ∧
    (∀ x : Keypair P, x.secret.key.Canonical → x.pub.WF → Keypair.deserialize alloc f (x.serialize f) = .ok x) ∧
    (∀ x : RistrettoBoth P, x.WF → RistrettoBoth.deserialize alloc f (RistrettoBoth.serialize f x) = .ok x) ∧
    (∀ x : Signature, x.s.Canonical → Signature.deserialize alloc f (x.serialize f) = .ok x) ∧
    (∀ x : VRFPreOut, VRFPreOut.deserialize alloc f (x.serialize f) = .ok x) ∧
    (∀ x : VRFProof, x.c.Canonical → x.s.Canonical → VRFProof.deserialize alloc f (x.serialize f) = .ok x) ∧
    (∀ x : VRFProofBatchable, x.s.Canonical → VRFProofBatchable.deserialize alloc f (x.serialize f) = .ok x) := by
  have key : ∀ {α : Type} {n : Nat} (_ : n ≤ 96) (fromBytes : Bytes → SignatureResult α) (b : Arr n) (a : α),
      fromBytes b.1 = .ok a → serdeDeserialize alloc fromBytes f (serdeSerialize f b) = .ok a := by
    intro α n hn fromBytes b a h
    cases alloc with
    | true => exact (round hn fromBytes b a h f).1 hf
    | false => exact (round hn fromBytes b a h f).2 hf
  refine ⟨?_, ?_, ?_, ?_, ?_, ?_, ?_, ?_, ?_⟩
  · intro x; exact key (by norm_num) _ _ _ (((minisecretkey_from_bytes_table _).1 x).mpr rfl)
  · intro x h; exact key (by norm_num) _ _ _ (secretkey_bytes_roundtrip x h)
  · intro x h; exact key (by norm_num) _ _ _ (((publickey_from_bytes_table _).1 x).mpr ⟨rfl, congrArg Subtype.val h⟩)
  · intro x h h'; exact key (by norm_num) _ _ _ (keypair_bytes_roundtrip x h h').1
  · intro x h; exact key (by norm_num) _ _ _ (((ristretto_from_bytes_table _).1 x).mpr ⟨rfl, congrArg Subtype.val h⟩)
  · intro x h; exact key (by norm_num) _ _ _ (signature_bytes_roundtrip.1 x h)
  · intro x; exact key (by norm_num) _ _ _ (((vrf_preout_codec _).1 x).mpr ⟨x.toBytes.2, rfl⟩)
  · intro x h h'; exact key (by norm_num) _ _ _ (((vrf_proof_codec _).1 x).mpr ⟨rfl, h, h'⟩)
  · intro x h; exact key (by norm_num) _ _ _ (((vrf_proof_batchable_codec _).1 x).mpr ⟨rfl, h⟩)

/-- **C44 (defect)** With `std`/`alloc`, in every format with a byte-string type, nothing that was serialized
can be read back, although serialization writes a byte string: every type, every value. -/
theorem serde_byte_string_formats_fail (f : Format) (hf : ByteStringFormat f) {α : Type} {n : Nat}
    (fromBytes : Bytes → SignatureResult α) (b : Arr n) :
    serdeDeserialize true fromBytes f (serdeSerialize f b) = .error .format := by
  rw [(deserialize_is_from_bytes fromBytes f _).2.2]
  intro b' h
  unfold serdeSerialize at h
  rcases hf b.1 with h' | h' <;> rw [h'] at h <;> cases h

/-- Whatever is deserialized satisfies the invariants of its type, in every format and on every input. -/
theorem deserialize_validates (f : Format) (alloc : Bool) (w : f.Wire) :
    (∀ x, SecretKey.deserialize alloc f w = .ok x → x.key.Canonical) ∧
    (∀ x : PublicKey P, PublicKey.deserialize alloc f w = .ok x → x.WF) ∧
    (∀ x : Keypair P, Keypair.deserialize alloc f w = .ok x → x.secret.key.Canonical ∧ x.pub.WF) ∧
    (∀ x : RistrettoBoth P, RistrettoBoth.deserialize alloc f w = .ok x → x.WF) ∧
    (∀ x, Signature.deserialize alloc f w = .ok x → x.s.Canonical) ∧
    (∀ x, VRFProof.deserialize alloc f w = .ok x → x.c.Canonical ∧ x.s.Canonical) ∧
    (∀ x, VRFProofBatchable.deserialize alloc f w = .ok x → x.s.Canonical) := by
  have key : ∀ {α : Type} {fromBytes : Bytes → SignatureResult α} {a : α},
      serdeDeserialize alloc fromBytes f w = .ok a → ∃ b, fromBytes b = .ok a := by
    intro α fromBytes a h
    cases alloc with
    | true => obtain ⟨b, _, h⟩ := ((deserialize_is_from_bytes fromBytes f w).1 a).mp h; exact ⟨b, h⟩
    | false => obtain ⟨b, _, h⟩ := (deserialize_no_alloc_is_from_bytes fromBytes f w a).mp h; exact ⟨b, h⟩
  have hpk : ∀ (b : Bytes) (x : PublicKey P), PublicKey.fromBytes b = .ok x → x.WF := fun b x h =>
    (publickey_constructors_wf (P := P) 0 ⟨Scalar.zero, zeros 32⟩).2.2.2.2.1 b x h
  refine ⟨?_, ?_, ?_, ?_, ?_, ?_, ?_⟩
  · intro x h; obtain ⟨b, h⟩ := key h; exact (secretkey_bytes_canonical b x h).2
  · intro x h; obtain ⟨b, h⟩ := key h; exact hpk b x h
  · intro x h
    obtain ⟨b, h⟩ := key h
    obtain ⟨_, h1, h2⟩ := ((keypair_from_bytes_table b).1 x).mp h
    exact ⟨(secretkey_bytes_canonical _ _ h1).2, hpk _ _ h2⟩
  · intro x h
    obtain ⟨b, h⟩ := key h
    obtain ⟨h1, h2⟩ := ((ristretto_from_bytes_table b).1 x).mp h
    exact Arr.ext' (h2.trans h1.symm)
  · intro x h; obtain ⟨b, h⟩ := key h; exact (signature_bytes_roundtrip.2.1 b x h).2
  · intro x h; obtain ⟨b, h⟩ := key h; exact (((vrf_proof_codec b).1 x).mp h).2
  · intro x h; obtain ⟨b, h⟩ := key h; exact (((vrf_proof_batchable_codec b).1 x).mp h).2

/-! ## Two concrete formats -/

/-- bincode: eight-byte little-endian length, then the bytes; the same on reading a sequence of `u8`. -/
def bincode : Format where
  Wire := Bytes
  writeBytes b := leBytes 8 b.length ++ b
  readSeq w :=
    let n := leNat (w.take 8)
    if 8 ≤ w.length ∧ n ≤ (w.drop 8).length then .seq (((w.drop 8).take n).map some) else .other
  readBytes w :=
    let n := leNat (w.take 8)
    if 8 ≤ w.length ∧ n ≤ (w.drop 8).length then .borrowed ((w.drop 8).take n) else .other

/-- Self-describing tokens, as in JSON: bytes are written as an array of numbers. -/
def jsonTokens : Format where
  Wire := List Nat
  writeBytes b := b.map UInt8.toNat
  readSeq w := .seq (w.map fun n => if n < 256 then some (UInt8.ofNat n) else none)
  readBytes w := .seq (w.map fun n => if n < 256 then some (UInt8.ofNat n) else none)

/-- Tokens with a byte-string type, as in MessagePack. -/
def byteStrings : Format where
  Wire := Bytes
  writeBytes b := b
  readSeq w := .borrowed w
  readBytes w := .borrowed w

theorem json_is_seq : SeqFormat jsonTokens := by
  intro b _
  simp only [jsonTokens, List.map_map]
  congr 1
  apply List.map_congr_left
  intro x _
  have : x.toNat < 256 := x.toNat_lt
  simp [Function.comp, this]

theorem byteStrings_is : ByteStringFormat byteStrings ∧ BorrowFormat byteStrings := ⟨fun _ => Or.inl rfl, fun _ _ => rfl⟩

/-- **C44** bincode: size and round trip for all byte strings shorter than 2⁶⁴. -/
theorem bincode_spec (b : Bytes) (h : b.length < 2 ^ 64) :
    (bincode.writeBytes b).length = b.length + 8 ∧ bincode.readSeq (bincode.writeBytes b) = .seq (b.map some) ∧
    bincode.readBytes (bincode.writeBytes b) = .borrowed b := by
  have h1 : (leBytes 8 b.length ++ b).take 8 = leBytes 8 b.length := by
    rw [List.take_append_of_le_length (by rw [leBytes_length]), List.take_of_length_le (by rw [leBytes_length])]
  have h2 : (leBytes 8 b.length ++ b).drop 8 = b := by
    rw [List.drop_append_of_le_length (by rw [leBytes_length]), List.drop_of_length_le (by rw [leBytes_length])]
    rfl
  have h3 : leNat (leBytes 8 b.length) = b.length := by
    rw [leNat_leBytes]; exact Nat.mod_eq_of_lt (by norm_num at h ⊢; exact h)
  simp only [bincode, h1, h2, h3, List.length_append, leBytes_length, le_refl, and_true, List.take_length]
  refine ⟨by omega, ?_, ?_⟩ <;> rw [if_pos (by omega)]

theorem bincode_is : SeqFormat bincode ∧ BorrowFormat bincode :=
  ⟨fun b h => (bincode_spec b (by omega)).2.1, fun b h => (bincode_spec b (by omega)).2.2⟩

/-- Non-vacuity: round trips in JSON and bincode, failure in MessagePack-like formats. -/
example : (∀ x : Signature, x.s.Canonical → Signature.deserialize true jsonTokens (x.serialize jsonTokens) = .ok x) ∧
    (∀ x : Signature, x.s.Canonical → Signature.deserialize true bincode (x.serialize bincode) = .ok x) ∧
    (∀ x : Signature, x.s.Canonical → Signature.deserialize false byteStrings (x.serialize byteStrings) = .ok x) ∧
    (∀ x : Signature, Signature.deserialize true byteStrings (x.serialize byteStrings) = .error .format) :=
  ⟨(serde_roundtrip (P := Toy) jsonTokens true json_is_seq).2.2.2.2.2.1,
   (serde_roundtrip (P := Toy) bincode true bincode_is.1).2.2.2.2.2.1,
   (serde_roundtrip (P := Toy) byteStrings false byteStrings_is.2).2.2.2.2.2.1,
   fun x => serde_byte_string_formats_fail byteStrings byteStrings_is.1 _ _⟩

end Schnorrkel.Props
