import Verif.Model.Vrf
import Verif.Model.Derive
import Verif.Model.Aead
import Verif.Spec

/-! # Specification vocabulary for secret randomness -/

namespace Spec
open Schnorrkel

/-- merlin query behind secret randomness: transcript history, secret seeds under a label, 32 bytes of an
RNG, and the number of bytes wanted. -/
def witnessQuery (log : List MOp) (label : Bytes) (seeds : List Bytes) (rng : Bytes) (n : Nat) : List MOp :=
  log ++ seeds.map (.rekey label) ++ [.rngKey rng, .prf n]

/-- Frames a VRF/DLEQ prover has committed when it draws its nonce: the public key is among them only in
the non-Kusama framing. -/
def dleqNonceFrames (kusama : Bool) (h pk : Bytes) : List MOp :=
  [.append (b! "proto-name") (b! "DLEQProof"), .append (b! "vrf:h") h] ++
    (if kusama then [] else [.append (b! "vrf:pk") pk])

/-- merlin query behind the nonce of a VRF/DLEQ proof. -/
def dleqNonceQuery (log : List MOp) (kusama : Bool) (h pk seed rng : Bytes) : List MOp :=
  witnessQuery (log ++ dleqNonceFrames kusama h pk) (b! "proving\x000") [seed] rng 64

/-- Frames common to issuing and accepting a certificate. -/
def certFrames (issuer : Bytes) : List MOp :=
  [.append (b! "proto-name") (b! "Adaptor"), .append (b! "issuer-pk") issuer]

end Spec
