import Verif.Spec.RomExclusive
import Verif.Spec.RomWide
import Verif.Spec.MuSig

/-! # Two inputs, one result -/

namespace Spec
open Schnorrkel
variable {P : Type} [Ristretto P]

/-- The hash query behind the session key of `aead_unauthenticated`. -/
noncomputable def kexOf (ctx : Bytes) (kp : Keypair P) (pk : PublicKey P) (n : Nat) : List MOp :=
  open Classical in
  let a := kp.pub.compressed.1
  let b := pk.compressed.1
  kexQuery ctx (if lexLt b a then b else a) (if lexLt b a then a else b) (compress (kp.secret.key.val • pk.point)).1 n

/-- Two key exchanges have the same context, the same pair of public keys and the same shared point. -/
def SameExchange (a b : Bytes × Keypair P × PublicKey P) : Prop :=
  a.1 = b.1 ∧ ((a.2.1.pub.compressed = b.2.1.pub.compressed ∧ a.2.2.compressed = b.2.2.compressed) ∨
      (a.2.1.pub.compressed = b.2.2.compressed ∧ a.2.2.compressed = b.2.1.pub.compressed)) ∧
    a.2.1.secret.key.val • a.2.2.point = b.2.1.secret.key.val • b.2.2.point

/-- The holders of `m` and `m'` (two sessions, or twice the same one) registered the same commitment for cosigners
`them` and `them'`, and accept the reveals `r` and `r'` for it. -/
def BothOpen {T T' : Type} (O : Oracles) (m : MuSig P T (RevealStage P)) (them : PublicKey P) (r : Reveal)
    (m' : MuSig P T' (RevealStage P)) (them' : PublicKey P) (r' : Reveal) : Prop :=
  letI := O
  (∃ c, m.Rs.get? them = some (.commit c) ∧ m'.Rs.get? them' = some (.commit c)) ∧
    (m.addTheirReveal them r).1 = .ok () ∧ (m'.addTheirReveal them' r').1 = .ok ()

end Spec
