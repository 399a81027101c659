import Verif.Model.Debug

/-! # `src/errors.rs`: messages (`Display`, `{}`)

Text is a list of characters; core prints `usize` in decimal. -/

namespace Schnorrkel

/-- `errors.rs:34-43` -/
def MultiSignatureStage.display : MultiSignatureStage → List Char
  | .commitment => c! "commitment"
  | .reveal => c! "reveal"
  | .cosignature => c! "cosignature"

/-- `errors.rs:114-142` -/
def SignatureError.display : SignatureError → List Char
  | .equationFalse => c! "Verification equation failed"
  | .pointDecompressionError => c! "Cannot decompress Ristretto point"
  | .scalarFormatError => c! "Cannot use scalar with high-bit set"
  | .invalidKey => c! "The provided key is not valid"
  | .bytesLengthError name _ length => name.toList ++ (c! " must be ") ++ Nat.toDigits 10 length ++ (c! " bytes in length")
  | .notMarkedSchnorrkel => c! "Signature bytes not marked as a schnorrkel signature"
  | .muSigAbsent stage => (c! "Absent ") ++ stage.display ++ (c! " violated multi-signature protocol")
  | .muSigInconsistent stage duplicate =>
    if duplicate then (c! "Inconsistent duplicate ") ++ stage.display ++ (c! " in multi-signature")
    else (c! "Inconsistent ") ++ stage.display ++ (c! " violated multi-signature protocol")

end Schnorrkel
