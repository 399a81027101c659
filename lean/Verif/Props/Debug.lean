import Verif.Model.Debug
import Verif.Spec.Debug
import Verif.Instance

/-! # C56: `{:?}` prints secret keys in full -/

namespace Schnorrkel.Props
open Spec

private theorem numbersFrom_text (l : List Char) (h : ∀ c ∈ l, c.isDigit = false) (rest : List Char) :
    numbersFrom none (l ++ rest) = numbersFrom none rest := by
  induction l with
  | nil => rfl
  | cons c l ih =>
    have hc := h c (by simp)
    simp [numbersFrom, hc, ih (fun c hc => h c (by simp [hc]))]

/-- Every byte, followed by a non-digit, reads back as itself. -/
private theorem numbersFrom_u8 (b : UInt8) (c : Char) (hc : c.isDigit = false) (rest : List Char) :
    numbersFrom none (showU8 b ++ c :: rest) = b.toNat :: numbersFrom none rest := by
  have key : ∀ n : Nat, n < 256 → ∃ ds : List Char, Nat.toDigits 10 n = ds ∧ ds ≠ [] ∧
      (∀ d ∈ ds, d.isDigit = true) ∧ ds.foldl (fun a d => a * 10 + (d.toNat - 48)) 0 = n := by
    intro n hn
    refine ⟨_, rfl, ?_⟩
    revert hn n
    decide +kernel
  have gen : ∀ (ds : List Char), (∀ d ∈ ds, d.isDigit = true) → ∀ a,
      numbersFrom (some a) (ds ++ c :: rest) =
        ds.foldl (fun a d => a * 10 + (d.toNat - 48)) a :: numbersFrom none rest := by
    intro ds
    induction ds with
    | nil => intro _ a; simp [numbersFrom, hc]
    | cons d ds ih =>
      intro h a
      have hd := h d (by simp)
      simp [List.cons_append, numbersFrom, hd, if_true, List.foldl_cons]
      rw [ih (fun d hd => h d (by simp [hd]))]
  obtain ⟨ds, h1, h2, h3, h4⟩ := key b.toNat b.toNat_lt
  unfold showU8
  rw [h1]
  cases ds with
  | nil => exact absurd rfl h2
  | cons d ds =>
    have hd := h3 d (by simp)
    simp [List.cons_append, numbersFrom, hd, if_true]
    rw [gen ds (fun d hd => h3 d (by simp [hd]))]
    rw [← h4]
    simp

private theorem numbersFrom_bytes (bs : Bytes) (rest : List Char) :
    numbersFrom none (showBytes bs ++ rest) = bs.map UInt8.toNat ++ numbersFrom none rest := by
  have h : ∀ bs : Bytes, numbersFrom none (showElems bs ++ ']' :: rest) =
      bs.map UInt8.toNat ++ numbersFrom none rest := by
    intro bs
    induction bs with
    | nil => simp [showElems, numbersFrom]
    | cons b bs ih =>
      cases bs with
      | nil => simp [showElems, numbersFrom_u8 b ']' (by decide)]
      | cons b' bs =>
        have e : showElems (b :: b' :: bs) ++ ']' :: rest =
            showU8 b ++ ',' :: ([' '] ++ (showElems (b' :: bs) ++ ']' :: rest)) := by
          simp [showElems]
        rw [e, numbersFrom_u8 b ',' (by decide), numbersFrom_text [' '] (by decide), ih]
        rfl
  have e : showBytes bs ++ rest = ['['] ++ (showElems bs ++ ']' :: rest) := by simp [showBytes]
  rw [e, numbersFrom_text ['['] (by decide), h]

/-- **C56** (defect) the numbers in the `{:?}` text of a secret key or seed are exactly its bytes: whoever reads a
log line containing it has the key.  `Keypair`'s text additionally contains the public key. -/
theorem debug_prints_secrets {P : Type} (m : MiniSecretKey) (sk : SecretKey) (kp : Keypair P) :
    numbers m.debug = m.toBytes.1.map UInt8.toNat ∧
    numbers sk.debug = sk.toBytes.1.map UInt8.toNat ∧
    numbers kp.debug = kp.secret.toBytes.1.map UInt8.toNat ++ kp.pub.compressed.1.map UInt8.toNat := by
  have hs : ∀ (sk : SecretKey) (rest : List Char), numbersFrom none (sk.debug ++ rest) =
      sk.toBytes.1.map UInt8.toNat ++ numbersFrom none rest := by
    intro sk rest
    have e : sk.debug ++ rest = ((c! "SecretKey { key: ") ++ (c! "Scalar{\n\tbytes: ")) ++
        (showBytes sk.key.bytes.1 ++ (((c! ",\n}") ++ (c! " nonce: ")) ++
          (showBytes sk.nonce.1 ++ ((c! " }") ++ rest)))) := by
      simp [SecretKey.debug, Scalar.debug]
    rw [e, numbersFrom_text _ (by decide), numbersFrom_bytes, numbersFrom_text _ (by decide), numbersFrom_bytes,
      numbersFrom_text _ (by decide)]
    simp [SecretKey.toBytes, Arr.append]
  refine ⟨?_, ?_, ?_⟩
  · have e : m.debug = (c! "MiniSecretKey: ") ++ (showBytes m.bytes.1 ++ []) := by simp [MiniSecretKey.debug]
    unfold numbers
    rw [e, numbersFrom_text _ (by decide), numbersFrom_bytes]
    simp [numbersFrom, MiniSecretKey.toBytes]
  · have := hs sk []
    simpa [numbers, numbersFrom] using this
  · have e : kp.debug = (c! "Keypair { secret: ") ++ (kp.secret.debug ++
        (((c! ", public: ") ++ (c! "PublicKey( ") ++ (c! "RistrettoPoint( ") ++ (c! "CompressedRistretto: ")) ++
          (showBytes kp.pub.compressed.1 ++ (((c! " )") ++ (c! " )") ++ (c! " }")) ++ [])))) := by
      simp [Keypair.debug, PublicKey.debug, RistrettoBoth.debug, debugCompressed]
    unfold numbers
    rw [e, numbersFrom_text _ (by decide), hs, numbersFrom_text _ (by decide), numbersFrom_bytes,
      numbersFrom_text _ (by decide)]
    simp [numbersFrom]

/-- **C56** consequently the text determines the secret: equal `{:?}` output means equal keys and nonces. -/
theorem debug_injective (a b : SecretKey) (h : a.debug = b.debug) : a = b := by
  have h1 := (debug_prints_secrets (P := Unit) ⟨zeros 32⟩ a ⟨a, ⟨zeros 32, ()⟩⟩).2.1
  have h2 := (debug_prints_secrets (P := Unit) ⟨zeros 32⟩ b ⟨b, ⟨zeros 32, ()⟩⟩).2.1
  rw [h, h2] at h1
  have h3 : b.toBytes.1 = a.toBytes.1 :=
    List.map_injective_iff.mpr (fun x y h => UInt8.toNat_inj.mp h) h1
  simp [SecretKey.toBytes, Arr.append] at h3
  obtain ⟨e1, e2⟩ := List.append_inj h3 (by rw [a.key.bytes.2, b.key.bytes.2])
  rcases a with ⟨⟨ak⟩, an⟩
  rcases b with ⟨⟨bk⟩, bn⟩
  simp [SecretKey.mk.injEq, Scalar.mk.injEq]
  exact ⟨Subtype.ext e1.symm, Subtype.ext e2.symm⟩

/-- **C56** the text of a public key or signature is its encoding and nothing else. -/
theorem debug_public {P : Type} (pk : PublicKey P) (s : Signature) :
    numbers (PublicKey.debug pk) = pk.compressed.1.map UInt8.toNat ∧
    numbers s.debug = s.R.1.map UInt8.toNat ++ s.s.bytes.1.map UInt8.toNat := by
  refine ⟨?_, ?_⟩
  · have e : PublicKey.debug pk = (((c! "PublicKey( ") ++ (c! "RistrettoPoint( ") ++ (c! "CompressedRistretto: ")) ++
          (showBytes pk.compressed.1 ++ (((c! " )") ++ (c! " )")) ++ []))) := by
      simp [PublicKey.debug, RistrettoBoth.debug, debugCompressed]
    unfold numbers
    rw [e, numbersFrom_text _ (by decide), numbersFrom_bytes, numbersFrom_text _ (by decide)]
    simp [numbersFrom]
  · have e : s.debug = (((c! "Signature( R: ") ++ (c! "CompressedRistretto: ")) ++
          (showBytes s.R.1 ++ (((c! ", s: ") ++ (c! "Scalar{\n\tbytes: ")) ++
            (showBytes s.s.bytes.1 ++ (((c! ",\n}") ++ (c! " )")) ++ []))))) := by
      simp [Signature.debug, debugCompressed, Scalar.debug]
    unfold numbers
    rw [e, numbersFrom_text _ (by decide), numbersFrom_bytes, numbersFrom_text _ (by decide), numbersFrom_bytes,
      numbersFrom_text _ (by decide)]
    simp [numbersFrom]

private theorem map_toNat_inj {a b : Bytes} (h : a.map UInt8.toNat = b.map UInt8.toNat) : a = b :=
  List.map_injective_iff.mpr (fun _ _ h => UInt8.toNat_inj.mp h) h

/-- **C56** for every type: two values print the same text exactly when they have the same bytes.  For public keys
(and the public half of a pair) the bytes are the stored encoding; the decoded point does not enter the text. -/
theorem debug_same_text_iff {P : Type} (m₁ m₂ : MiniSecretKey) (s₁ s₂ : SecretKey) (k₁ k₂ : Keypair P)
    (p₁ p₂ : PublicKey P) (g₁ g₂ : Signature) :
    (m₁.debug = m₂.debug ↔ m₁ = m₂) ∧ (s₁.debug = s₂.debug ↔ s₁ = s₂) ∧
    (k₁.debug = k₂.debug ↔ k₁.secret = k₂.secret ∧ k₁.pub.compressed = k₂.pub.compressed) ∧
    (PublicKey.debug p₁ = PublicKey.debug p₂ ↔ p₁.compressed = p₂.compressed) ∧
    (g₁.debug = g₂.debug ↔ g₁ = g₂) := by
  have hsk : ∀ a b : SecretKey, a.toBytes.1 = b.toBytes.1 → a = b := by
    intro a b h3
    simp [SecretKey.toBytes, Arr.append] at h3
    obtain ⟨e1, e2⟩ := List.append_inj h3 (by rw [a.key.bytes.2, b.key.bytes.2])
    rcases a with ⟨⟨ak⟩, an⟩
    rcases b with ⟨⟨bk⟩, bn⟩
    simp [SecretKey.mk.injEq, Scalar.mk.injEq]
    exact ⟨Subtype.ext e1, Subtype.ext e2⟩
  refine ⟨⟨fun h => ?_, by rintro rfl; rfl⟩, ⟨debug_injective _ _, by rintro rfl; rfl⟩, ⟨fun h => ?_, ?_⟩,
    ⟨fun h => ?_, ?_⟩, ⟨fun h => ?_, by rintro rfl; rfl⟩⟩
  · have h1 := (debug_prints_secrets m₁ s₁ k₁).1
    rw [h, (debug_prints_secrets m₂ s₁ k₁).1] at h1
    have := map_toNat_inj h1
    rcases m₁ with ⟨a⟩
    rcases m₂ with ⟨b⟩
    simp only [MiniSecretKey.mk.injEq]
    exact Subtype.ext this.symm
  · have h1 := (debug_prints_secrets m₁ s₁ k₁).2.2
    rw [h, (debug_prints_secrets m₁ s₁ k₂).2.2] at h1
    obtain ⟨e1, e2⟩ := List.append_inj h1 (by rw [List.length_map, List.length_map, k₁.secret.toBytes.2, k₂.secret.toBytes.2])
    exact ⟨hsk _ _ (map_toNat_inj e1).symm, Subtype.ext (map_toNat_inj e2).symm⟩
  · rintro ⟨h1, h2⟩
    simp only [Keypair.debug, PublicKey.debug, RistrettoBoth.debug, h1, h2]
  · have h1 := (debug_public p₁ g₁).1
    rw [h, (debug_public p₂ g₁).1] at h1
    exact Subtype.ext (map_toNat_inj h1).symm
  · intro h1
    simp only [PublicKey.debug, RistrettoBoth.debug, h1]
  · have h1 := (debug_public p₁ g₁).2
    rw [h, (debug_public p₁ g₂).2] at h1
    obtain ⟨e1, e2⟩ := List.append_inj h1 (by rw [List.length_map, List.length_map, g₁.R.2, g₂.R.2])
    rcases g₁ with ⟨r, ⟨a⟩⟩
    rcases g₂ with ⟨r', ⟨b⟩⟩
    simp only [Signature.mk.injEq, Scalar.mk.injEq]
    exact ⟨Subtype.ext (map_toNat_inj e1).symm, Subtype.ext (map_toNat_inj e2).symm⟩

/-- Non-vacuity: text and numbers of a concrete key. -/
example : String.ofList (showBytes [7, 255]) = "[7, 255]" ∧
    (numbers (⟨Scalar.ofNat 258, zeros 32⟩ : SecretKey).debug).take 3 = [2, 1, 0] := by
  constructor <;> decide +kernel

end Schnorrkel.Props
