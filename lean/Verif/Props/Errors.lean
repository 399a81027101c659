import Verif.Model.Errors
import Verif.Props.Serde
import Verif.Props.Vrf
import Verif.Props.Sign

/-! # C72: error messages -/

namespace Schnorrkel.Props
variable {P : Type} [Ristretto P]

theorem first_unique {x : Char} : ∀ {d d' a a' : List Char}, d ++ x :: a = d' ++ x :: a' → x ∉ d → x ∉ d' →
    d = d' ∧ a = a'
  | [], [], _, _, h, _, _ => ⟨rfl, by simpa using h⟩
  | [], c :: d', _, _, h, _, hd' => by
    simp only [List.nil_append, List.cons_append, List.cons.injEq] at h
    exact (hd' (by rw [h.1]; exact List.mem_cons_self)).elim
  | c :: d, [], _, _, h, hd, _ => by
    simp only [List.nil_append, List.cons_append, List.cons.injEq] at h
    exact (hd (by rw [← h.1]; exact List.mem_cons_self)).elim
  | c :: d, c' :: d', _, _, h, hd, hd' => by
    simp only [List.cons_append, List.cons.injEq] at h
    obtain ⟨h1, h2⟩ := first_unique h.2 (fun m => hd (List.mem_cons_of_mem _ m)) (fun m => hd' (List.mem_cons_of_mem _ m))
    exact ⟨by rw [h.1, h1], h2⟩

theorem last_unique {x : Char} {a a' d d' : List Char} (h : a ++ x :: d = a' ++ x :: d') (hd : x ∉ d) (hd' : x ∉ d') :
    a = a' ∧ d = d' := by
  have h1 := congrArg List.reverse h
  simp only [List.reverse_append, List.reverse_cons, List.append_assoc, List.cons_append, List.nil_append] at h1
  obtain ⟨h2, h3⟩ := first_unique h1 (by simpa using hd) (by simpa using hd')
  exact ⟨List.reverse_injective h3, List.reverse_injective h2⟩

theorem space_not_digit (n : Nat) : ' ' ∉ Nat.toDigits 10 n := fun h =>
  absurd (Nat.isDigit_of_mem_toDigits (by omega) (by omega) h) (by decide)

theorem toDigits_inj {m n : Nat} (h : Nat.toDigits 10 m = Nat.toDigits 10 n) : m = n := by
  have := congrArg (fun l => Nat.ofDigitChars 10 l 0) h
  simpa only [Nat.ofDigitChars_toDigits (by omega : 1 < 10) (by omega : 10 ≤ 10)] using this

/-- Two errors that say the same: equal except perhaps for the description in a length error. -/
def SameError : SignatureError → SignatureError → Prop
  | .bytesLengthError n _ l, .bytesLengthError n' _ l' => n = n' ∧ l = l'
  | e, e' => e = e'

/-- All errors that are not length errors. -/
def otherErrors : List SignatureError :=
  [.equationFalse, .pointDecompressionError, .scalarFormatError, .invalidKey, .notMarkedSchnorrkel,
    .muSigAbsent .commitment, .muSigAbsent .reveal, .muSigAbsent .cosignature,
    .muSigInconsistent .commitment false, .muSigInconsistent .reveal false, .muSigInconsistent .cosignature false,
    .muSigInconsistent .commitment true, .muSigInconsistent .reveal true, .muSigInconsistent .cosignature true]

theorem error_cases (e : SignatureError) : (∃ n d l, e = .bytesLengthError n d l) ∨ e ∈ otherErrors := by
  rcases e with _ | _ | _ | _ | ⟨n, d, l⟩ | _ | s | ⟨s, b⟩
  case bytesLengthError => exact .inl ⟨n, d, l, rfl⟩
  case muSigAbsent => right; cases s <;> decide
  case muSigInconsistent => right; cases s <;> cases b <;> decide
  all_goals (right; decide)

theorem other_display : ∀ e ∈ otherErrors, e.display.getLast? ≠ some 'h' ∧
    ∀ e' ∈ otherErrors, e.display = e'.display → e = e' := by
  decide +kernel

theorem length_display (n d n' d' : String) (l l' : Nat) :
    (SignatureError.bytesLengthError n d l).display = (SignatureError.bytesLengthError n' d' l').display ↔
      n = n' ∧ l = l' := by
  constructor
  · intro h
    simp only [SignatureError.display, List.append_assoc] at h
    have h2 : (n.toList ++ (c! " must be")) ++ ' ' :: Nat.toDigits 10 l =
        (n'.toList ++ (c! " must be")) ++ ' ' :: Nat.toDigits 10 l' := by
      apply List.append_cancel_right (bs := c! " bytes in length")
      simpa using h
    obtain ⟨h3, h4⟩ := last_unique h2 (space_not_digit _) (space_not_digit _)
    exact ⟨String.toList_injective (List.append_cancel_right h3), toDigits_inj h4⟩
  · rintro ⟨rfl, rfl⟩; rfl

theorem length_display_last (n d : String) (l : Nat) :
    (SignatureError.bytesLengthError n d l).display.getLast? = some 'h' := by
  have e : (SignatureError.bytesLengthError n d l).display =
      (n.toList ++ (c! " must be ") ++ Nat.toDigits 10 l ++ (c! " bytes in lengt")) ++ ['h'] := by
    simp [SignatureError.display]
  rw [e, List.getLast?_append]
  rfl

theorem sameError_other {e e' : SignatureError} (h : e ∈ otherErrors) : SameError e e' ↔ e = e' := by
  cases e
  case bytesLengthError => simp [otherErrors] at h
  all_goals exact Iff.rfl

/-- **C72** the message determines the error — the kind, the stage and the duplicate flag, the type name and the expected
length; only the description of a length error is not shown. -/
theorem error_display_injective (e e' : SignatureError) : e.display = e'.display ↔ SameError e e' := by
  rcases error_cases e with ⟨n, d, l, rfl⟩ | he
  · rcases error_cases e' with ⟨n', d', l', rfl⟩ | he'
    · exact length_display n d n' d' l l'
    · constructor
      · intro h
        have := length_display_last n d l
        rw [h] at this
        exact ((other_display e' he').1 this).elim
      · intro h
        cases e'
        case bytesLengthError => simp [otherErrors] at he'
        all_goals simp [SameError] at h
  · rw [sameError_other he]
    constructor
    · intro h
      rcases error_cases e' with ⟨n', d', l', rfl⟩ | he'
      · have := length_display_last n' d' l'
        rw [← h] at this
        exact ((other_display e he).1 this).elim
      · exact (other_display e he).2 e' he' h
    · rintro rfl; rfl

/-- **C72** the messages of all other errors. -/
theorem error_messages : ∀ e : SignatureError, (e, String.ofList e.display) ∈
    [(SignatureError.equationFalse, "Verification equation failed"),
      (.pointDecompressionError, "Cannot decompress Ristretto point"),
      (.scalarFormatError, "Cannot use scalar with high-bit set"),
      (.invalidKey, "The provided key is not valid"),
      (.notMarkedSchnorrkel, "Signature bytes not marked as a schnorrkel signature"),
      (.muSigAbsent .commitment, "Absent commitment violated multi-signature protocol"),
      (.muSigAbsent .reveal, "Absent reveal violated multi-signature protocol"),
      (.muSigAbsent .cosignature, "Absent cosignature violated multi-signature protocol"),
      (.muSigInconsistent .commitment false, "Inconsistent commitment violated multi-signature protocol"),
      (.muSigInconsistent .reveal false, "Inconsistent reveal violated multi-signature protocol"),
      (.muSigInconsistent .cosignature false, "Inconsistent cosignature violated multi-signature protocol"),
      (.muSigInconsistent .commitment true, "Inconsistent duplicate commitment in multi-signature"),
      (.muSigInconsistent .reveal true, "Inconsistent duplicate reveal in multi-signature"),
      (.muSigInconsistent .cosignature true, "Inconsistent duplicate cosignature in multi-signature")] ∨
    ∃ n d l, e = .bytesLengthError n d l := by
  intro e
  rcases error_cases e with h | h
  · exact .inr h
  · left
    revert e
    decide +kernel

/-- **C72** what the user is told about input of the wrong length, for every decoder: error and message. -/
theorem length_error_messages (bs : Bytes) :
    (bs.length ≠ 32 → ∃ e, MiniSecretKey.fromBytes bs = .error e ∧
      e = .bytesLengthError "MiniSecretKey" "Analogous to ed25519 secret key as 32 bytes, see RFC8032." 32 ∧
      e.display = c! "MiniSecretKey must be 32 bytes in length") ∧
    (bs.length ≠ 64 → ∃ e, SecretKey.fromBytes bs = .error e ∧ SecretKey.fromEd25519Bytes bs = .error e ∧
      e = .bytesLengthError "SecretKey" "An ed25519-like expanded secret key as 64 bytes, as specified in RFC8032." 64 ∧
      e.display = c! "SecretKey must be 64 bytes in length") ∧
    (bs.length ≠ 32 → ∃ e, (PublicKey.fromBytes bs : SignatureResult (PublicKey P)) = .error e ∧
      e = .bytesLengthError "PublicKey"
        "A Ristretto Schnorr public key represented as a 32-byte Ristretto compressed point" 32 ∧
      e.display = c! "PublicKey must be 32 bytes in length") ∧
    (bs.length ≠ 96 → ∃ e, (Keypair.fromBytes bs : SignatureResult (Keypair P)) = .error e ∧
      (Keypair.fromHalfEd25519Bytes bs : SignatureResult (Keypair P)) = .error e ∧
      e = .bytesLengthError "Keypair" "A 96 bytes Ristretto Schnorr keypair" 96 ∧
      e.display = c! "Keypair must be 96 bytes in length") ∧
    (bs.length ≠ 64 → ∃ e, Signature.fromBytes bs = .error e ∧
      e = .bytesLengthError "Signature" "A 64 byte Ristretto Schnorr signature" 64 ∧
      e.display = c! "Signature must be 64 bytes in length") ∧
    (bs.length ≠ 32 → ∃ e, (RistrettoBoth.fromBytes bs : SignatureResult (RistrettoBoth P)) = .error e ∧
      e = .bytesLengthError "RistrettoPoint" "A ristretto point represented as a 32-byte compressed point" 32 ∧
      e.display = c! "RistrettoPoint must be 32 bytes in length") ∧
    (bs.length ≠ 32 → ∃ e, VRFPreOut.fromBytes bs = .error e ∧
      e = .bytesLengthError "VRFPreOut"
        "A Ristretto Schnorr VRF output represented as a 32-byte Ristretto compressed point" 32 ∧
      e.display = c! "VRFPreOut must be 32 bytes in length") ∧
    (bs.length ≠ 64 → ∃ e, VRFProof.fromBytes bs = .error e ∧
      e = .bytesLengthError "VRFProof"
        "A Ristretto Schnorr VRF proof without batch verification support, which consists of two scalars, making it 64 bytes." 64 ∧
      e.display = c! "VRFProof must be 64 bytes in length") ∧
    (bs.length ≠ 96 → ∃ e, VRFProofBatchable.fromBytes bs = .error e ∧
      e = .bytesLengthError "VRFProofBatchable"
        "A Ristretto Schnorr VRF proof that supports batch verification, which consists of two Ristretto compressed points and one scalar, making it 96 bytes." 96 ∧
      e.display = c! "VRFProofBatchable must be 96 bytes in length") := by
  refine ⟨fun h => ?_, fun h => ?_, fun h => ?_, fun h => ?_, fun h => ?_, fun h => ?_, fun h => ?_, fun h => ?_, fun h => ?_⟩
  · exact ⟨_, dif_pos h, rfl, by decide +kernel⟩
  · exact ⟨_, dif_pos h, dif_pos h, rfl, by decide +kernel⟩
  · exact ⟨_, dif_pos h, rfl, by decide +kernel⟩
  · exact ⟨_, dif_pos h, dif_pos h, rfl, by decide +kernel⟩
  · exact ⟨_, dif_pos h, rfl, by decide +kernel⟩
  · exact ⟨_, dif_pos h, rfl, by decide +kernel⟩
  · exact ⟨_, dif_pos h, rfl, by decide +kernel⟩
  · exact ⟨_, dif_pos h, rfl, by decide +kernel⟩
  · exact ⟨_, dif_pos h, rfl, by decide +kernel⟩

/-- Non-vacuity: a 31-byte public key; and two errors that differ only in what is not shown. -/
example : (PublicKey.fromBytes (List.replicate 31 0) : SignatureResult (PublicKey Toy)) =
    .error (.bytesLengthError "PublicKey"
      "A Ristretto Schnorr public key represented as a 32-byte Ristretto compressed point" 32) ∧
    SignatureError.bytesLengthError "A" "x" 1 ≠ .bytesLengthError "A" "y" 1 ∧
    SameError (.bytesLengthError "A" "x" 1) (.bytesLengthError "A" "y" 1) :=
  ⟨rfl, by decide, rfl, rfl⟩

end Schnorrkel.Props
