import Verif.Model.Compare
import Verif.Props.Keys
import Verif.Props.Sign

/-! # C88: comparing, hashing and viewing protocol values -/

namespace Schnorrkel.Props
variable {P : Type} [Ristretto P]

private theorem arr_val_inj {n : Nat} {a b : Arr n} : a.1 = b.1 ↔ a = b := ⟨Arr.ext', congrArg _⟩

private theorem arr_append_inj {n m : Nat} {a b : Arr n} {c d : Arr m} :
    Arr.append a c = Arr.append b d ↔ a = b ∧ c = d := by
  constructor
  · intro h
    have h' : a.1 ++ c.1 = b.1 ++ d.1 := congrArg Subtype.val h
    have := List.append_inj h' (by rw [a.2, b.2])
    exact ⟨Arr.ext' this.1, Arr.ext' this.2⟩
  · rintro ⟨rfl, rfl⟩; rfl

private theorem cmpBytes_append : ∀ (a b c d : Bytes), a.length = b.length →
    cmpBytes (a ++ c) (b ++ d) = thenCmp (cmpBytes a b) (cmpBytes c d)
  | [], [], c, d, _ => by simp [cmpBytes, thenCmp]
  | x :: a, y :: b, c, d, h => by
    simp only [List.cons_append, cmpBytes]
    split
    · rfl
    · split
      · rfl
      · exact cmpBytes_append a b c d (by simpa using h)

omit [Ristretto P] in
private theorem inout_cmp (a b : VRFInOut P) :
    a.cmp b = cmpBytes (a.input.compressed.1 ++ a.output.compressed.1) (b.input.compressed.1 ++ b.output.compressed.1) := by
  rw [cmpBytes_append _ _ _ _ (by rw [a.input.compressed.2, b.input.compressed.2])]
  rfl

omit [Ristretto P] in
private theorem inout_bytes (a b : VRFInOut P) :
    a.input.compressed.1 ++ a.output.compressed.1 = b.input.compressed.1 ++ b.output.compressed.1 ↔
      a.input.compressed = b.input.compressed ∧ a.output.compressed = b.output.compressed := by
  constructor
  · intro h
    have := List.append_inj h (by rw [a.input.compressed.2, b.input.compressed.2])
    exact ⟨Arr.ext' this.1, Arr.ext' this.2⟩
  · rintro ⟨h1, h2⟩; rw [h1, h2]

/-- **C88** `VRFInOut` values whose parts carry their own encodings: `==` holds exactly for equal inputs and equal
outputs as group elements, the debug assertions never fire, `cmp` says `Equal` exactly on equal values, and equal
values are exactly those that feed the hasher alike. -/
theorem inout_eq_ord_hash (a b : VRFInOut P) (ha : a.input.WF) (ha' : a.output.WF) (hb : b.input.WF) (hb' : b.output.WF) :
    (a.eq b = true ↔ a.input.point = b.input.point ∧ a.output.point = b.output.point) ∧
    a.eqDebug b = .ok (a.eq b) ∧ (a.cmp b = .eq ↔ a.eq b = true) ∧ (a.hashInput = b.hashInput ↔ a.eq b = true) := by
  have h1 := publickey_eq_ord_hash_consistent a.input b.input ha hb
  have h2 := publickey_eq_ord_hash_consistent a.output b.output ha' hb'
  have heq : a.eq b = true ↔ a.input.compressed = b.input.compressed ∧ a.output.compressed = b.output.compressed := by
    simp [VRFInOut.eq, RistrettoBoth.eq]
  refine ⟨?_, ?_, ?_, ?_⟩
  · unfold VRFInOut.eq
    rw [Bool.and_eq_true, h1.1, h2.1]
  · unfold VRFInOut.eqDebug VRFInOut.eq
    rw [h1.2.1, h2.2.1]
    show (if RistrettoBoth.eq a.input b.input = true then _ else _) = _
    cases RistrettoBoth.eq a.input b.input <;> rfl
  · rw [inout_cmp, cmpBytes_eq, inout_bytes, heq]
  · rw [heq]; exact inout_bytes a b

omit [Ristretto P] in
/-- **C88** `cmp` on `VRFInOut` is the lexicographic order of the 64 bytes input ‖ output, hence total: antisymmetric
and transitive; `partial_cmp` is never undefined and agrees with it. -/
theorem inout_total_order (a b c : VRFInOut P) :
    (a.cmp b = .lt ↔ Spec.lexLt (a.input.toBytes.1 ++ a.output.toBytes.1) (b.input.toBytes.1 ++ b.output.toBytes.1)) ∧
    a.partialCmp b = some (a.cmp b) ∧ (a.cmp b).swap = b.cmp a ∧
    (a.cmp b = .lt → b.cmp c = .lt → a.cmp c = .lt) := by
  refine ⟨?_, ?_, ?_, ?_⟩
  · rw [inout_cmp, cmpBytes_lt]; rfl
  · unfold VRFInOut.partialCmp VRFInOut.cmp RistrettoBoth.partialCmp
    cases a.input.cmp b.input <;> rfl
  · rw [inout_cmp, inout_cmp, cmpBytes_swap]
  · rw [inout_cmp, inout_cmp, inout_cmp]; exact cmpBytes_trans

/-- **C88** two outputs have the same pre-output iff they are equal points, also when their inputs differ. -/
theorem preout_eq_iff (a b : VRFInOut P) (ha : a.output.WF) (hb : b.output.WF) :
    a.toPreout.eq b.toPreout = true ↔ a.output.point = b.output.point := by
  rw [← compress_inj (P := P) (p := a.output.point), ha, hb]
  exact decide_eq_true_iff

/-- **C88** pre-outputs: `==`, `cmp` and `Hash` are those of the 32 bytes `to_bytes` returns. -/
theorem preout_compare (a b : VRFPreOut) :
    (a.eq b = true ↔ a.toBytes.1 = b.toBytes.1) ∧ (a.cmp b = .eq ↔ a.eq b = true) ∧
    (a.cmp b = .lt ↔ Spec.lexLt a.toBytes.1 b.toBytes.1) ∧ (a.cmp b).swap = b.cmp a ∧
    (a.hashInput = b.hashInput ↔ a.eq b = true) ∧ a.asBytes = a.toBytes ∧
    (∀ x ∈ VRFPreOut.default.toBytes.1, x = 0) := by
  have he : a.eq b = true ↔ a.bytes.1 = b.bytes.1 := by rw [arr_val_inj]; simp [VRFPreOut.eq]
  refine ⟨he, ?_, ?_, ?_, ?_, rfl, ?_⟩
  · rw [he]; exact cmpBytes_eq _ _
  · exact cmpBytes_lt _ _
  · exact cmpBytes_swap _ _
  · rw [he]; exact Iff.rfl
  · intro x hx
    simpa [VRFPreOut.default, VRFPreOut.toBytes, zeros] using hx

/-- **C88** signatures with a scalar below 2²⁵⁵ (every parsed or produced one) are equal iff their encodings are. -/
theorem signature_eq_iff (a b : Signature) (ha : a.s.val < 2 ^ 255) (hb : b.s.val < 2 ^ 255) :
    a.eq b = true ↔ a.toBytes = b.toBytes := by
  have he : a.eq b = true ↔ a.R = b.R ∧ a.s.bytes = b.s.bytes := by simp [Signature.eq]
  have hs : ∀ s : Scalar, s.val < 2 ^ 255 → (s.bytes.get 31 (by omega)).toNat < 128 := by
    intro s h
    have h2 := s.bytes.leNat31
    unfold Scalar.val at h
    rw [show (256:Nat) ^ 31 = 2 ^ 248 by norm_num] at *
    omega
  rw [he]
  constructor
  · rintro ⟨h1, h2⟩
    unfold Signature.toBytes
    rw [h1, h2]
  · intro h
    have h' := congrArg Subtype.val h
    rw [Signature.toBytes_eq, Signature.toBytes_eq] at h'
    have h3 := List.append_inj h' (by rw [a.R.2, b.R.2])
    refine ⟨Arr.ext' h3.1, ?_⟩
    have h4 : a.s.bytes.modify 31 (· ||| 128) = b.s.bytes.modify 31 (· ||| 128) := Arr.ext' h3.2
    rw [← unmark_mark (hs _ ha), ← unmark_mark (hs _ hb), h4]

/-- **C88** proofs and reveals are equal iff their encodings are. -/
theorem proof_eq_iff (a b : VRFProof) (c d : VRFProofBatchable) (e f : Reveal) :
    (a.eq b = true ↔ a.toBytes = b.toBytes) ∧ (c.eq d = true ↔ c.toBytes = d.toBytes) ∧
    (e.eq f = true ↔ e.bytes = f.bytes) := by
  refine ⟨?_, ?_, ?_⟩
  · unfold VRFProof.toBytes
    rw [arr_append_inj]; simp [VRFProof.eq]
  · unfold VRFProofBatchable.toBytes
    rw [arr_append_inj, arr_append_inj]; simp [VRFProofBatchable.eq, and_assoc]
  · simp [Reveal.eq, arr_val_inj]

/-- **C88** two parsed signatures are equal under `==` iff they were parsed from the same bytes. -/
theorem parsed_signatures_eq (x y : Bytes) (a b : Signature) (ha : Signature.fromBytes x = .ok a)
    (hb : Signature.fromBytes y = .ok b) : a.eq b = true ↔ x = y := by
  have h1 := (signature_from_bytes_ok_iff x a).mp ha
  have h2 := (signature_from_bytes_ok_iff y b).mp hb
  have hl := ell_le_255
  rw [signature_eq_iff a b (by omega) (by omega), ← arr_val_inj]
  rw [Signature.fromBytes_eq_ok] at ha hb
  rw [ha.1, hb.1]

/-- **C88** the views of a public key agree: `ct_eq` is `==`, `partial_cmp` is `cmp`, `as_ref` and `as_compressed` are
`to_bytes`, the point view decodes from them, and the conversion from a secret key is `to_public`. -/
theorem key_views (a b : PublicKey P) (sk : SecretKey) (m : MiniSecretKey) (ha : a.WF) :
    PublicKey.ctEq a b = RistrettoBoth.eq a b ∧ RistrettoBoth.partialCmp a b = some (RistrettoBoth.cmp a b) ∧
    PublicKey.asRef a = (PublicKey.toBytes a).1 ∧ RistrettoBoth.asCompressed a = PublicKey.toBytes a ∧
    PublicKey.fromBytes (PublicKey.asRef a) = .ok (PublicKey.fromPoint (RistrettoBoth.asPoint a)) ∧
    (PublicKey.ofSecret sk : PublicKey P).point = sk.key.val • (basepoint : P) ∧
    (PublicKey.ofSecret sk : PublicKey P) = (Keypair.ofSecret sk : Keypair P).pub ∧ m.asBytes = m.toBytes := by
  refine ⟨rfl, rfl, rfl, rfl, ?_, rfl, rfl, rfl⟩
  refine fromBytesSer_ok.mpr ⟨?_, rfl⟩
  show a.compressed.1 = (compress a.point).1
  rw [ha]

/-- **C88** `generate()` is `generate_with` on the system RNG: exactly its first 32 bytes as a mini secret, or its
first 64 bytes reduced and the next 32 as nonce; the public half belongs to the secret half. -/
theorem generate_system (sys : Rng) :
    (MiniSecretKey.generate sys).toBytes = sys.src sys.hist 32 ∧
    (SecretKey.generate sys).key.val = leNat (sys.src sys.hist 64).1 % ell ∧
    (SecretKey.generate sys).nonce = sys.src (sys.hist ++ [64]) 32 ∧
    (Keypair.generate sys : Keypair P).secret = SecretKey.generate sys ∧
    (Keypair.generate sys : Keypair P).pub = (SecretKey.generate sys).toPublic := by
  obtain ⟨h1, h2, -, -, h3, -, h4, h5, -⟩ := generate_spec (P := P) sys
  exact ⟨h3, h1, h2, h4, h5⟩

omit [Ristretto P] in
/-- **C88** dropping a mini secret, secret key or keypair leaves no secret byte in its memory. -/
theorem drop_erases (m : MiniSecretKey) (sk : SecretKey) (kp : Keypair P) :
    (∀ b ∈ m.dropped.toBytes.1, b = 0) ∧ (∀ b ∈ sk.dropped.toBytes.1, b = 0) ∧
    (∀ b ∈ kp.dropped.secret.toBytes.1, b = 0) ∧ kp.dropped.pub = kp.pub := by
  obtain ⟨h1, h2, -, -⟩ := zeroize_erases m sk kp
  exact ⟨h1, h2, (zeroize_erases m kp.zeroize.secret kp).2.1, rfl⟩

omit [Ristretto P] in
/-- **C88** every encoding has the length its public constant announces. -/
theorem announced_lengths (m : MiniSecretKey) (sk : SecretKey) (pk : PublicKey P) (kp : Keypair P) (sig : Signature)
    (o : VRFPreOut) (a : VRFProof) (b : VRFProofBatchable) :
    m.toBytes.1.length = MINI_SECRET_KEY_LENGTH ∧ sk.toBytes.1.length = SECRET_KEY_LENGTH ∧
    sk.toEd25519Bytes.1.length = SECRET_KEY_LENGTH ∧ (PublicKey.toBytes pk).1.length = PUBLIC_KEY_LENGTH ∧
    kp.toBytes.1.length = KEYPAIR_LENGTH ∧ kp.toHalfEd25519Bytes.1.length = KEYPAIR_LENGTH ∧
    KEYPAIR_LENGTH = SECRET_KEY_LENGTH + PUBLIC_KEY_LENGTH ∧ sig.toBytes.1.length = SIGNATURE_LENGTH ∧
    o.toBytes.1.length = VRF_PREOUT_LENGTH ∧ a.toBytes.1.length = VRF_PROOF_LENGTH ∧
    b.toBytes.1.length = VRF_PROOF_BATCHABLE_LENGTH ∧ (RistrettoBoth.toBytes pk).1.length = RISTRETTO_POINT_LENGTH :=
  ⟨m.toBytes.2, sk.toBytes.2, sk.toEd25519Bytes.2, (PublicKey.toBytes pk).2, kp.toBytes.2, kp.toHalfEd25519Bytes.2, rfl,
    sig.toBytes.2, o.toBytes.2, a.toBytes.2, b.toBytes.2, (RistrettoBoth.toBytes pk).2⟩

/-! ### Non-vacuity -/

/-- two `VRFInOut`s with equal inputs and different outputs, ordered by the output -/
example : ∃ a b : VRFInOut Toy, a.input.WF ∧ a.output.WF ∧ b.input.WF ∧ b.output.WF ∧
    a.eq b = false ∧ a.cmp b ≠ .eq ∧ a.toPreout.eq b.toPreout = false := by
  refine ⟨⟨RistrettoBoth.fromPoint (basepoint : Toy), RistrettoBoth.fromPoint (basepoint : Toy)⟩,
    ⟨RistrettoBoth.fromPoint (basepoint : Toy), RistrettoBoth.default⟩, rfl, rfl, rfl, wf_default, ?_, ?_, ?_⟩ <;>
    decide +kernel

/-- equal values that differ from another one, as signatures -/
example : ∃ a b : Signature, a.s.val < 2 ^ 255 ∧ b.s.val < 2 ^ 255 ∧ a.eq a = true ∧ a.eq b = false :=
  ⟨⟨zeros 32, Scalar.one⟩, ⟨zeros 32, ⟨zeros 32⟩⟩, by decide +kernel, by decide +kernel, by decide +kernel, by decide +kernel⟩

end Schnorrkel.Props
