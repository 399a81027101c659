import Mathlib.NumberTheory.LucasPrimality
import Mathlib.Tactic.NormNum.Prime

/-! # ℓ is prime (Pratt certificate, checked by the kernel)

`ℓ = 2^252 + 27742317777372353535851937790883648493` is the order of the Ristretto group
(`curve25519_dalek::constants::BASEPOINT_ORDER`). -/

namespace Verif.Prime

/-- Square-and-multiply modular power; `fuel` bounds the bit length of the exponent. -/
def powMod (m : Nat) : Nat → Nat → Nat → Nat → Nat
  | 0, _, _, acc => acc % m
  | fuel+1, a, e, acc =>
    if e % 2 = 1 then powMod m fuel (a * a % m) (e / 2) (acc * a % m)
    else powMod m fuel (a * a % m) (e / 2) acc

theorem powMod_eq (m : Nat) : ∀ (fuel a e acc : Nat), e < 2 ^ fuel →
    powMod m fuel a e acc = acc * a ^ e % m := by
  intro fuel
  induction fuel with
  | zero => intro a e acc h; have : e = 0 := by simpa using h
            subst this; simp [powMod]
  | succ f ih =>
    intro a e acc h
    have hlt : e / 2 < 2 ^ f := by
      have : (2:Nat) ^ (f+1) = 2 * 2 ^ f := by rw [Nat.pow_succ]; ring
      omega
    have hsq : ∀ k, (a * a % m) ^ k % m = a ^ (2 * k) % m := by
      intro k
      rw [← Nat.pow_mod, Nat.pow_mul]; simp [sq]
    have he : e = 2 * (e / 2) + e % 2 := by omega
    unfold powMod
    split
    · rename_i h1
      rw [ih _ _ _ hlt, Nat.mul_mod, hsq, Nat.mod_mod, ← Nat.mul_mod]
      conv_rhs => rw [he, h1]
      congr 1; ring
    · rename_i h1
      have h0 : e % 2 = 0 := by omega
      rw [ih _ _ _ hlt, Nat.mul_mod, hsq, ← Nat.mul_mod]
      conv_rhs => rw [he, h0]
      simp

/-- Checkable Lucas certificate: `w` is the witness, `qs` the prime factors of `p-1`. -/
def cert (p w : Nat) (qs : List Nat) (fuel : Nat) : Bool :=
  decide (p - 1 < 2 ^ fuel) && decide (powMod p fuel w (p - 1) 1 = 1) &&
    qs.all fun q => decide (powMod p fuel w ((p - 1) / q) 1 ≠ 1)

theorem prime_of_cert (p w : Nat) (qs : List Nat) (fuel : Nat) (hp : 1 < p)
    (hc : cert p w qs fuel = true)
    (hq : ∀ q, q.Prime → q ∣ p - 1 → q ∈ qs) : p.Prime := by
  simp only [cert, Bool.and_eq_true, decide_eq_true_eq, List.all_eq_true] at hc
  obtain ⟨⟨hf, h1⟩, h2⟩ := hc
  refine lucas_primality p (w : ZMod p) ?_ ?_
  · rw [powMod_eq _ _ _ _ _ hf, Nat.one_mul] at h1
    have : ((w ^ (p-1) : Nat) : ZMod p) = ((1 : Nat) : ZMod p) := by
      rw [ZMod.natCast_eq_natCast_iff]; unfold Nat.ModEq; rw [h1, Nat.mod_eq_of_lt hp]
    simpa using this
  · intro q hqp hqd hcon
    have hm := h2 q (hq q hqp hqd)
    have hlt : (p - 1) / q < 2 ^ fuel := lt_of_le_of_lt (Nat.div_le_self _ _) hf
    rw [powMod_eq _ _ _ _ _ hlt, Nat.one_mul] at hm
    apply hm
    have : ((w ^ ((p-1)/q) : Nat) : ZMod p) = ((1 : Nat) : ZMod p) := by simpa using hcon
    rw [ZMod.natCast_eq_natCast_iff] at this
    unfold Nat.ModEq at this; rw [this, Nat.mod_eq_of_lt hp]

/-- A prime dividing a product of primes powers is one of the primes. -/
theorem mem_of_dvd_prod (qs : List Nat) (hqs : ∀ q ∈ qs, q.Prime) (n q : Nat) (hq : q.Prime)
    (hd : q ∣ n) (hn : n = qs.prod) : q ∈ qs := by
  subst hn
  obtain ⟨a, ha, hda⟩ := (Nat.Prime.prime hq).dvd_prod_iff.mp hd
  rw [(Nat.prime_dvd_prime_iff_eq hq (hqs a ha)).mp hda]; exact ha

theorem prime_of_cert' (p w : Nat) (qs : List Nat) (fuel : Nat)
    (hqs : ∀ q ∈ qs, q.Prime)
    (hc : (decide (1 < p) && decide (p - 1 = qs.prod) && cert p w qs fuel) = true) : p.Prime := by
  simp only [Bool.and_eq_true, decide_eq_true_eq] at hc
  exact prime_of_cert p w qs fuel hc.1.1 hc.2 fun q hq hd => mem_of_dvd_prod qs hqs _ q hq hd hc.1.2

theorem prime_292386187 : Nat.Prime 292386187 := by
  refine prime_of_cert' _ 2 [2, 3, 3, 3, 3, 307, 5879] 29 ?_ (by decide +kernel)
  simp only [List.mem_cons, List.not_mem_nil, or_false, forall_eq_or_imp, forall_eq]
  refine ⟨by norm_num, by norm_num, by norm_num, by norm_num, by norm_num, by norm_num, by norm_num⟩

theorem prime_213441916511 : Nat.Prime 213441916511 := by
  refine prime_of_cert' _ 13 [2, 5, 73, 292386187] 38 ?_ (by decide +kernel)
  simp only [List.mem_cons, List.not_mem_nil, or_false, forall_eq_or_imp, forall_eq]
  refine ⟨by norm_num, by norm_num, by norm_num, prime_292386187⟩

theorem prime_1257559732178653 : Nat.Prime 1257559732178653 := by
  refine prime_of_cert' _ 2 [2, 2, 3, 7, 23, 531581, 1224481] 51 ?_ (by decide +kernel)
  simp only [List.mem_cons, List.not_mem_nil, or_false, forall_eq_or_imp, forall_eq]
  refine ⟨by norm_num, by norm_num, by norm_num, by norm_num, by norm_num, by norm_num, by norm_num⟩

theorem prime_4434155615661930479 : Nat.Prime 4434155615661930479 := by
  refine prime_of_cert' _ 17 [2, 41, 43, 1257559732178653] 62 ?_ (by decide +kernel)
  simp only [List.mem_cons, List.not_mem_nil, or_false, forall_eq_or_imp, forall_eq]
  refine ⟨by norm_num, by norm_num, by norm_num, prime_1257559732178653⟩

theorem prime_172054593956031949258510691 : Nat.Prime 172054593956031949258510691 := by
  refine prime_of_cert' _ 2 [2, 5, 1361, 2851, 4434155615661930479] 88 ?_ (by decide +kernel)
  simp only [List.mem_cons, List.not_mem_nil, or_false, forall_eq_or_imp, forall_eq]
  refine ⟨by norm_num, by norm_num, by norm_num, by norm_num, prime_4434155615661930479⟩

theorem prime_19757330305831588566944191468367130476339 : Nat.Prime 19757330305831588566944191468367130476339 := by
  refine prime_of_cert' _ 2 [2, 269, 213441916511, 172054593956031949258510691] 134 ?_ (by decide +kernel)
  simp only [List.mem_cons, List.not_mem_nil, or_false, forall_eq_or_imp, forall_eq]
  refine ⟨by norm_num, by norm_num, prime_213441916511, prime_172054593956031949258510691⟩

theorem prime_276602624281642239937218680557139826668747 : Nat.Prime 276602624281642239937218680557139826668747 := by
  refine prime_of_cert' _ 2 [2, 7, 19757330305831588566944191468367130476339] 138 ?_ (by decide +kernel)
  simp only [List.mem_cons, List.not_mem_nil, or_false, forall_eq_or_imp, forall_eq]
  refine ⟨by norm_num, by norm_num, prime_19757330305831588566944191468367130476339⟩

theorem prime_58964693 : Nat.Prime 58964693 := by
  refine prime_of_cert' _ 2 [2, 2, 14741173] 26 ?_ (by decide +kernel)
  simp only [List.mem_cons, List.not_mem_nil, or_false, forall_eq_or_imp, forall_eq]
  refine ⟨by norm_num, by norm_num, by norm_num⟩

theorem prime_3044861653679985063343 : Nat.Prime 3044861653679985063343 := by
  refine prime_of_cert' _ 5 [2, 3, 11, 30703, 82163, 132667, 137849] 72 ?_ (by decide +kernel)
  simp only [List.mem_cons, List.not_mem_nil, or_false, forall_eq_or_imp, forall_eq]
  refine ⟨by norm_num, by norm_num, by norm_num, by norm_num, by norm_num, by norm_num, by norm_num⟩

theorem prime_198211423230930754013084525763697 : Nat.Prime 198211423230930754013084525763697 := by
  refine prime_of_cert' _ 5 [2, 2, 2, 2, 3, 23, 58964693, 3044861653679985063343] 108 ?_ (by decide +kernel)
  simp only [List.mem_cons, List.not_mem_nil, or_false, forall_eq_or_imp, forall_eq]
  refine ⟨by norm_num, by norm_num, by norm_num, by norm_num, by norm_num, by norm_num, prime_58964693, prime_3044861653679985063343⟩

theorem prime_ell : Nat.Prime 7237005577332262213973186563042994240857116359379907606001950938285454250989 := by
  refine prime_of_cert' _ 2 [2, 2, 3, 11, 198211423230930754013084525763697, 276602624281642239937218680557139826668747] 253 ?_ (by decide +kernel)
  simp only [List.mem_cons, List.not_mem_nil, or_false, forall_eq_or_imp, forall_eq]
  refine ⟨by norm_num, by norm_num, by norm_num, by norm_num, prime_198211423230930754013084525763697, prime_276602624281642239937218680557139826668747⟩

end Verif.Prime