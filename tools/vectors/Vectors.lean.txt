/- Not part of the Lean project and not part of any proof: a *test* of the translation.

The model's definitions are run with executable versions of the real primitives (merlin 3 over STROBE-128 and Keccak-f,
SHA-512, Ristretto255 as in RFC 9496) and compared with published outputs of the Rust crate.  The group laws demanded by the
class `Ristretto` are not proved for this executable group (its elements are redundant projective coordinates); they are
skipped with an unsafe cast, which is fine for running a program and would be useless in a proof.

Run:  cp Vectors.lean.txt /tmp/Vectors.lean && cd /verif/lean && lake env lean --run /tmp/Vectors.lean -/
import Verif.Model.Keys
import Verif.Model.Sign
import Verif.Model.Derive

open Schnorrkel

/-! ## Keccak-f[1600] -/
def keccakRC : Array UInt64 := Id.run do
  -- LFSR of the specification
  let mut out : Array UInt64 := #[]
  let mut r : Nat := 1
  for _ in [0:24] do
    let mut rc : UInt64 := 0
    for j in [0:7] do
      if r % 2 = 1 then rc := rc ^^^ ((1 : UInt64) <<< (UInt64.ofNat (2 ^ j - 1)))
      r := r * 2
      if r ≥ 256 then r := (r ^^^ 0x171)
    out := out.push rc
  return out
def rotl (x : UInt64) (n : Nat) : UInt64 :=
  if n % 64 = 0 then x else (x <<< UInt64.ofNat (n % 64)) ||| (x >>> UInt64.ofNat (64 - n % 64))
def keccakF (a0 : Array UInt64) : Array UInt64 := Id.run do
  let mut a := a0
  for rnd in [0:24] do
    let mut c : Array UInt64 := #[]
    for x in [0:5] do
      c := c.push (a[x]! ^^^ a[x+5]! ^^^ a[x+10]! ^^^ a[x+15]! ^^^ a[x+20]!)
    for x in [0:5] do
      let d := c[(x+4)%5]! ^^^ rotl c[(x+1)%5]! 1
      for y in [0:5] do a := a.set! (x+5*y) (a[x+5*y]! ^^^ d)
    -- rho and pi
    let mut x := 1
    let mut y := 0
    let mut cur := a[1]!
    for t in [0:24] do
      let nx := y
      let ny := (2*x+3*y) % 5
      let tmp := a[nx+5*ny]!
      a := a.set! (nx+5*ny) (rotl cur ((t+1)*(t+2)/2))
      cur := tmp
      x := nx
      y := ny
    for j in [0:5] do
      let row := #[a[5*j]!, a[5*j+1]!, a[5*j+2]!, a[5*j+3]!, a[5*j+4]!]
      for i in [0:5] do
        a := a.set! (i+5*j) (row[i]! ^^^ ((~~~ row[(i+1)%5]!) &&& row[(i+2)%5]!))
    a := a.set! 0 (a[0]! ^^^ keccakRC[rnd]!)
  return a
def keccakBytes (st : Array UInt8) : Array UInt8 := Id.run do
  let mut a : Array UInt64 := #[]
  for i in [0:25] do
    let mut w : UInt64 := 0
    for j in [0:8] do w := w ||| (st[8*i+j]!.toUInt64 <<< UInt64.ofNat (8*j))
    a := a.push w
  a := keccakF a
  let mut out : Array UInt8 := #[]
  for i in [0:25] do
    for j in [0:8] do out := out.push (a[i]! >>> UInt64.ofNat (8*j)).toUInt8
  return out

/-! ## STROBE-128 and merlin -/
structure Strobe where
  st : Array UInt8
  pos : Nat
  posBegin : Nat
namespace Strobe
def R : Nat := 166
def xorAt (s : Strobe) (i : Nat) (b : UInt8) : Strobe := { s with st := s.st.set! i (s.st[i]! ^^^ b) }
def runF (s : Strobe) : Strobe :=
  let s := s.xorAt s.pos (UInt8.ofNat s.posBegin)
  let s := s.xorAt (s.pos + 1) 0x04
  let s := s.xorAt (R + 1) 0x80
  ⟨keccakBytes s.st, 0, 0⟩
def step (s : Strobe) : Strobe :=
  let s := { s with pos := s.pos + 1 }
  if s.pos = R then s.runF else s
def absorb (s : Strobe) (d : Bytes) : Strobe := d.foldl (fun s b => (s.xorAt s.pos b).step) s
def overwrite (s : Strobe) (d : Bytes) : Strobe := d.foldl (fun s b => { s with st := s.st.set! s.pos b }.step) s
def squeeze (s : Strobe) : Nat → Bytes × Strobe
  | 0 => ([], s)
  | n+1 =>
    let b := s.st[s.pos]!
    let (r, s) := squeeze { s with st := s.st.set! s.pos 0 }.step n
    (b :: r, s)
def begin (s : Strobe) (flags : Nat) : Strobe :=
  let old := s.posBegin
  let s := { s with posBegin := s.pos + 1 }
  let s := s.absorb [UInt8.ofNat old, UInt8.ofNat flags]
  if flags / 4 % 2 = 1 ∧ s.pos ≠ 0 then s.runF else s
def metaAd (s : Strobe) (d : Bytes) (more : Bool) : Strobe := (if more then s else s.begin 18).absorb d
def ad (s : Strobe) (d : Bytes) : Strobe := (s.begin 2).absorb d
def prf (s : Strobe) (n : Nat) : Bytes × Strobe := (s.begin 7).squeeze n
def key (s : Strobe) (d : Bytes) : Strobe := (s.begin 6).overwrite d
def new (label : Bytes) : Strobe :=
  let head : Bytes := [1, 168, 1, 0, 1, 96] ++ b! "STROBEv1.0.2"
  (Strobe.mk (keccakBytes (head ++ List.replicate (200 - head.length) 0).toArray) 0 0).metaAd label false
end Strobe

def merlinStep (s : Strobe) : MOp → Bytes × Strobe
  | .append l m => ([], ((s.metaAd l false).metaAd (leBytes 4 m.length) true).ad m)
  | .challenge l n => ((s.metaAd l false).metaAd (leBytes 4 n) true).prf n
  | .rekey l w => ([], ((s.metaAd l false).metaAd (leBytes 4 w.length) true).key w)
  | .rngKey r => ([], (s.metaAd (b! "rng") false).key r)
  | .prf n => (s.metaAd (leBytes 4 n) false).prf n
def merlinRun (log : List MOp) : Bytes :=
  (log.foldl (fun (x : Bytes × Strobe) op => merlinStep x.2 op) ([], Strobe.new (b! "Merlin v1.0"))).1

/-! ## SHA-512 -/
def primesUpTo (n : Nat) : List Nat := (List.range n).filter fun k => k ≥ 2 ∧ ((List.range k).drop 2).all fun d => k % d ≠ 0
partial def irootAux (k n lo hi : Nat) : Nat :=
  if hi ≤ lo + 1 then lo else
    let m := (lo + hi) / 2
    if m ^ k ≤ n then irootAux k n m hi else irootAux k n lo m
def shaK : Array UInt64 := ((primesUpTo 410).take 80).toArray.map fun p =>
  UInt64.ofNat (irootAux 3 (p * 2 ^ 192) 0 (2 ^ 70) % 2 ^ 64)
def shaH : Array UInt64 := ((primesUpTo 20).take 8).toArray.map fun p =>
  UInt64.ofNat (irootAux 2 (p * 2 ^ 128) 0 (2 ^ 70) % 2 ^ 64)
def rotr (x : UInt64) (n : Nat) : UInt64 := rotl x (64 - n)
def sha512Run (m : Bytes) : Bytes := Id.run do
  let pad := (128 - (m.length + 17) % 128) % 128
  let msg := (m ++ [0x80] ++ List.replicate pad 0 ++ (leBytes 16 (8 * m.length)).reverse).toArray
  let mut h := shaH
  for blk in [0:msg.size/128] do
    let mut w : Array UInt64 := #[]
    for i in [0:16] do
      let mut x : UInt64 := 0
      for j in [0:8] do x := (x <<< 8) ||| msg[128*blk+8*i+j]!.toUInt64
      w := w.push x
    for i in [16:80] do
      let s0 := rotr w[i-15]! 1 ^^^ rotr w[i-15]! 8 ^^^ (w[i-15]! >>> 7)
      let s1 := rotr w[i-2]! 19 ^^^ rotr w[i-2]! 61 ^^^ (w[i-2]! >>> 6)
      w := w.push (w[i-16]! + s0 + w[i-7]! + s1)
    let mut v := h
    for i in [0:80] do
      let e := v[4]!
      let a := v[0]!
      let S1 := rotr e 14 ^^^ rotr e 18 ^^^ rotr e 41
      let ch := (e &&& v[5]!) ^^^ ((~~~ e) &&& v[6]!)
      let t1 := v[7]! + S1 + ch + shaK[i]! + w[i]!
      let S0 := rotr a 28 ^^^ rotr a 34 ^^^ rotr a 39
      let mj := (a &&& v[1]!) ^^^ (a &&& v[2]!) ^^^ (v[1]! &&& v[2]!)
      v := #[t1 + S0 + mj, v[0]!, v[1]!, v[2]!, v[3]! + t1, v[4]!, v[5]!, v[6]!]
    h := Array.zipWith (· + ·) h v
  let mut out : Bytes := []
  for x in h do
    out := out ++ (leBytes 8 x.toNat).reverse
  return out

unsafe instance realOracles : Oracles where
  merlin log _ := ⟨merlinRun log, unsafeCast ()⟩
  sha512 m := ⟨sha512Run m, unsafeCast ()⟩
  xof _ n := zeros n

/-! ## Ristretto255 -/
def fp : Nat := 2 ^ 255 - 19
def fadd (a b : Nat) := (a + b) % fp
def fsub (a b : Nat) := (a + fp - b % fp) % fp
def fmul (a b : Nat) := a * b % fp
def fneg (a : Nat) := (fp - a % fp) % fp
partial def fpow (a e : Nat) : Nat :=
  if e = 0 then 1 else
    let h := fpow (fmul a a) (e / 2)
    if e % 2 = 1 then fmul a h else h
def finv (a : Nat) := fpow a (fp - 2)
def fd : Nat := fmul (fneg 121665) (finv 121666)
def sqrtM1 : Nat := fpow 2 ((fp - 1) / 4)
def isNeg (a : Nat) : Bool := a % 2 = 1
def fabs (a : Nat) : Nat := if isNeg a then fneg a else a
/-- `SQRT_RATIO_M1` of RFC 9496. -/
def sqrtRatio (u v : Nat) : Bool × Nat :=
  let v3 := fmul (fmul v v) v
  let v7 := fmul (fmul v3 v3) v
  let r := fmul (fmul u v3) (fpow (fmul u v7) ((fp - 5) / 8))
  let check := fmul v (fmul r r)
  let correct := check = u % fp
  let flipped := check = fneg u
  let flippedI := check = fmul (fneg u) sqrtM1
  let r := if flipped ∨ flippedI then fmul r sqrtM1 else r
  (correct || flipped, fabs r)
def invSqrtAMinusD : Nat := (sqrtRatio 1 (fsub (fneg 1) fd)).2
structure Pt where
  x : Nat
  y : Nat
  z : Nat
  t : Nat
namespace Pt
def id : Pt := ⟨0, 1, 1, 0⟩
def add (p q : Pt) : Pt :=
  let a := fmul (fsub p.y p.x) (fsub q.y q.x)
  let b := fmul (fadd p.y p.x) (fadd q.y q.x)
  let c := fmul (fmul p.t (fmul 2 fd)) q.t
  let d := fmul (fmul p.z 2) q.z
  let e := fsub b a
  let f := fsub d c
  let g := fadd d c
  let h := fadd b a
  ⟨fmul e f, fmul g h, fmul f g, fmul e h⟩
def neg (p : Pt) : Pt := ⟨fneg p.x, p.y, p.z, fneg p.t⟩
partial def mul (n : Nat) (p : Pt) : Pt :=
  if n = 0 then id else
    let h := mul (n / 2) (p.add p)
    if n % 2 = 1 then h.add p else h
def encode (p : Pt) : Bytes :=
  let u1 := fmul (fadd p.z p.y) (fsub p.z p.y)
  let u2 := fmul p.x p.y
  let invsqrt := (sqrtRatio 1 (fmul u1 (fmul u2 u2))).2
  let den1 := fmul invsqrt u1
  let den2 := fmul invsqrt u2
  let zinv := fmul (fmul den1 den2) p.t
  let rotate := isNeg (fmul p.t zinv)
  let x := if rotate then fmul p.y sqrtM1 else p.x
  let y := if rotate then fmul p.x sqrtM1 else p.y
  let den := if rotate then fmul den1 invSqrtAMinusD else den2
  let y := if isNeg (fmul x zinv) then fneg y else y
  leBytes 32 (fabs (fmul den (fsub p.z y)))
def decode (b : Bytes) : Option Pt :=
  let s := leNat b
  if s ≥ fp ∨ isNeg s then none else
    let ss := fmul s s
    let u1 := fsub 1 ss
    let u2 := fadd 1 ss
    let u2s := fmul u2 u2
    let v := fsub (fneg (fmul fd (fmul u1 u1))) u2s
    let (ok, invsqrt) := sqrtRatio 1 (fmul v u2s)
    let denx := fmul invsqrt u2
    let deny := fmul (fmul invsqrt denx) v
    let x := fabs (fmul (fmul 2 s) denx)
    let y := fmul u1 deny
    let t := fmul x y
    if !ok || isNeg t || y = 0 then none else some ⟨x, y, 1, t⟩
def base : Pt :=
  let y := fmul 4 (finv 5)
  let yy := fmul y y
  let x := (sqrtRatio (fsub yy 1) (fadd (fmul fd yy) 1)).2
  ⟨x, y, 1, fmul x y⟩
def eq (p q : Pt) : Bool := fmul p.x q.y = fmul p.y q.x || fmul p.x q.x = fmul p.y q.y
end Pt

unsafe def anything {p : Prop} : p := unsafeCast ()
unsafe instance realGroup : AddCommGroup Pt where
  add := Pt.add
  add_assoc _ _ _ := anything
  zero := Pt.id
  zero_add _ := anything
  add_zero _ := anything
  nsmul := Pt.mul
  nsmul_zero _ := anything
  nsmul_succ _ _ := anything
  neg := Pt.neg
  zsmul n p := if n ≥ 0 then Pt.mul n.toNat p else Pt.neg (Pt.mul (-n).toNat p)
  zsmul_zero' _ := anything
  zsmul_succ' _ _ := anything
  zsmul_neg' _ _ := anything
  neg_add_cancel _ := anything
  add_comm _ _ := anything
unsafe instance realRistretto : Ristretto Pt where
  decEq p q := if p.eq q then .isTrue anything else .isFalse anything
  basepoint := Pt.base
  basepoint_ne := anything
  order _ := anything
  generates _ := anything
  compress p := ⟨p.encode, anything⟩
  decompress b := Pt.decode b.1
  decompress_iff _ _ := anything
  compress_zero := anything
  fromUniform _ := Pt.id

/-! ## The vectors -/
def hexDigit (c : Char) : Nat := if c.isDigit then c.toNat - 48 else c.toNat - 87
def hexList : List Char → Bytes
  | a :: b :: r => UInt8.ofNat (16 * hexDigit a + hexDigit b) :: hexList r
  | _ => []
def hex (s : String) : Bytes := hexList s.toList
def toHex (b : Bytes) : String := String.ofList (b.flatMap fun x =>
  let d := fun n : Nat => Char.ofNat (if n < 10 then 48 + n else 87 + n)
  [d (x.toNat / 16), d (x.toNat % 16)])
unsafe def arr (n : Nat) (s : String) : Arr n := ⟨hex s, anything⟩
def say (name : String) (ok : Bool) (got : String) : IO Unit :=
  IO.println s!"{if ok then "ok  " else "FAIL"} {name}  {got}"

unsafe def main : IO Unit := do
  let rng : Rng := ⟨fun _ n => zeros n, []⟩
  -- the primitives themselves
  let emptyHash := toHex (sha512Run [])
  say "SHA-512 of the empty string" (emptyHash.startsWith "cf83e1357eefb8bdf1542850d66d8007d620e4050b5715dc83f4a921d36ce9ce") emptyHash
  let b := toHex Pt.base.encode
  say "Ristretto base point (RFC 9496)" (b == "e2f2ae0a6abc4e71a884a961c500515f58e30b6aa582dd8db6a65945e08d2d76") b
  let m := toHex (merlinRun [.append (b! "dom-sep") (b! "test protocol"), .append (b! "some label") (b! "some data"),
    .challenge (b! "challenge") 32])
  say "merlin test vector" (m == "d5a21972d0d5fe320c0d263fac7fffb8145aa640af6e9bca177c03c7efcf0615") m
  -- keys.rs:520 and 794
  let sk := "28b0ae221c6bb06856b287f60d7ea0d98552ea5a16db16956849aa371db3eb51fd190cce74df356432b410bd64682309d6dedb27c76845daf388557cbac3ca34"
  let pk := "46ebddef8cd9bb167dc30878d7113b7e168e6f0646beffd77d69d39bad76b47a"
  match SecretKey.fromEd25519Bytes (hex sk) with
  | .ok s =>
    let got := toHex (s.toPublic : PublicKey Pt).compressed.1
    say "keys.rs doc test: from_ed25519_bytes, to_public" (got == pk) got
    say "to_ed25519_bytes" (toHex s.toEd25519Bytes.1 == sk) ""
  | .error _ => say "keys.rs doc test" false ""
  -- the same key from its mini secret key (Substrate's development phrase)
  let mini : MiniSecretKey := ⟨arr 32 "fac7959dbfe72f052e5a0c3c8d6530f202b02fd8f9f5ca3580ec8deb7797479e"⟩
  let kp : Keypair Pt := mini.expandToKeypair .ed25519
  say "expand, Ed25519 mode" (toHex kp.pub.compressed.1 == pk && toHex kp.secret.toEd25519Bytes.1 == sk) (toHex kp.pub.compressed.1)
  -- hard derivation: //Alice
  let alice : ChainCode := ⟨arr 32 "14416c6963650000000000000000000000000000000000000000000000000000"⟩
  let h := (kp.hardDeriveMiniSecretKey (some alice) []).1
  let hp := toHex (h.expandToPublic .ed25519 : PublicKey Pt).compressed.1
  say "hard derivation //Alice (mini secret)" (toHex h.bytes.1 == "e5be9a5092b81bca64be81d212e7f2f9eba183bb7a90954f7b76361f6edb5c0a") (toHex h.bytes.1)
  say "hard derivation //Alice (public key)" (hp == "d43593c715fdd31c61141abd04a99fd6822c8558854ccde39a5684e7a56da27d") hp
  -- soft derivation: /foo, from the secret and from the public key
  let foo : ChainCode := ⟨arr 32 "0c666f6f00000000000000000000000000000000000000000000000000000000"⟩
  let want := "40b9675df90efa6069ff623b0fdfcf706cd47ca7452a5056c7ad58194d23440a"
  let s1 := toHex (derivedKeySimple kp foo [] rng).1.pub.compressed.1
  say "soft derivation /foo of the key pair" (s1 == want) s1
  let s2 := toHex (derivedKeySimple kp.pub foo [] rng).1.compressed.1
  say "soft derivation /foo of the public key" (s2 == want) s2
  -- sign.rs:520: a signature made before the audit
  let msg := "Verifying that I am the owner of 5G9hQLdsKQswNPgB499DeA5PkFBbgkLPJWkkS6FAM6xGQ8xD. Hash: 221455a3\n".toUTF8.toList
  let sig := hex "5a9755f069939f45d96aaf125cf5ce7ba1db998686f87f2fb3cbdea922078741a73891ba265f70c31436e18a9acd14d189d73c12317ab6c313285cd938453202"
  match (PublicKey.fromBytes (hex "b4bfa1f7a5166695eb75299fd1c4c03ea212871c342f2c5dfea0902b2c246918") : SignatureResult (PublicKey Pt)) with
  | .ok p =>
    let ok := fun r : SignatureResult Unit => match r with | .ok _ => true | .error _ => false
    say "sign.rs test: verify_simple_preaudit_deprecated" (ok (p.verifySimplePreauditDeprecated (b! "substrate") msg sig)) ""
    say "  ... and not for another message" (! ok (p.verifySimplePreauditDeprecated (b! "substrate") (msg ++ [0]) sig)) ""
  | .error _ => say "sign.rs test: public key" false ""
  -- a signature published with the crate's WebAssembly wrapper
  let sig := hex "4e172314444b8f820bb54c22e95076f220ed25373e5c178234aa6c211d29271244b947e3ff3418ff6b45fd1df1140c8cbff69fc58ee6dc96df70936a2bb74b82"
  match (PublicKey.fromBytes (hex pk) : SignatureResult (PublicKey Pt)), Signature.fromBytes sig with
  | .ok p, .ok s =>
    say "verify_simple of a published signature" (match p.verifySimple (b! "substrate") (b! "this is a message") s with | .ok _ => true | _ => false) ""
    say "  ... and not in another context" (match p.verifySimple (b! "Substrate") (b! "this is a message") s with | .ok _ => false | _ => true) ""
  | _, _ => say "published signature" false ""
  -- a round trip
  let s := kp.signSimple (b! "substrate") (b! "message") rng
  say "sign_simple, verify_simple" (match kp.verifySimple (b! "substrate") (b! "message") s with | .ok _ => true | _ => false) (toHex s.toBytes.1)
