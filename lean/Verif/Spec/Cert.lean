import Verif.Model.Cert
import Verif.Spec

/-! # Specification vocabulary for implicit certificates -/

namespace Schnorrkel
open SigningTranscript
variable {T : Type} [SigningTranscript T]

/-- The certificate challenge `e` for issuer key bytes and reconstruction data `gamma`. -/
def certChallenge (t : T) (issuer gamma : Compressed) : Z :=
  (challengeScalar (commitPoint (commitPoint (protoName t (b! "Adaptor")) (b! "issuer-pk") issuer)
    (b! "gamma") gamma) (b! "adaptor-e")).1.toZ

end Schnorrkel

namespace Spec
open Schnorrkel

/-- merlin query behind the certificate challenge. -/
def certQuery (log : List MOp) (issuer gamma : Bytes) : List MOp :=
  log ++ [.append (b! "proto-name") (b! "Adaptor"), .append (b! "issuer-pk") issuer,
    .append (b! "gamma") gamma, .challenge (b! "adaptor-e") 64]

/-- The implicit-certificate relation: secret scalar `x` belongs to the key certified by an issuer with
point `A` through reconstruction point `Γ` and challenge `e`. -/
def CertRel {P : Type} [Ristretto P] (A Γ : P) (e x : Z) : Prop := x • (basepoint : P) = e • A + Γ

end Spec
