import Verif.Spec.Aead
import Verif.Lemmas.Order
import Verif.Props.Cert

/-! # C38: key exchange and AEAD keys -/

namespace Schnorrkel.Props
open SigningTranscript Spec
variable {P : Type} [Ristretto P] {T T' : Type} [SigningTranscript T] [SigningTranscript T']

/-! ## Agreement -/

/-- **C38** the raw exchange is symmetric, for any two secret keys. -/
theorem raw_key_exchange_agree (a b : SecretKey) :
    a.rawKeyExchange (b.toPublic : PublicKey P) = b.rawKeyExchange (a.toPublic : PublicKey P) ∧
    a.aead32Unauthenticated (b.toPublic : PublicKey P) =
      b.aead32Unauthenticated (a.toPublic : PublicKey P) := by
  have : a.rawKeyExchange (b.toPublic : PublicKey P) = b.rawKeyExchange (a.toPublic : PublicKey P) := by
    show compress (a.key •. b.key •. (basepoint : P)) = compress (b.key •. a.key •. (basepoint : P))
    simp only [mulPoint_eq]
    rw [smul_comm]
  exact ⟨this, this⟩

theorem sort2_comm (a b : Compressed) : sort2 a b = sort2 b a := by
  unfold sort2
  rcases h : cmpBytes a.1 b.1 with _ | _ | _
  · have : cmpBytes b.1 a.1 = .gt := by rw [← cmpBytes_swap, h]; rfl
    simp [this]
  · have := Arr.ext' ((cmpBytes_eq _ _).mp h)
    subst this
    simp
  · have : cmpBytes b.1 a.1 = .lt := by rw [← cmpBytes_swap, h]; rfl
    simp [this]

/-- **C38** both parties of a key exchange drive their transcripts (of any two types with the same
history) alike, whoever is `self`. -/
theorem commit_key_exchange_agree {Rel : T → T' → Prop} (hR : TSim Rel) {t : T} {t' : T'}
    (ht : Rel t t') (a b : SecretKey) (ctx : Bytes) :
    Rel ((a.toKeypair : Keypair P).commitKeyExchange t ctx b.toPublic)
      ((b.toKeypair : Keypair P).commitKeyExchange t' ctx a.toPublic) := by
  have hfold : ∀ (l : List Compressed) (x : T) (y : T'), Rel x y →
      Rel (l.foldl (fun t pk => commitPoint t (b! "pk") pk) x)
        (l.foldl (fun t pk => commitPoint t (b! "pk") pk) y) := by
    intro l
    induction l with
    | nil => intro x y h; exact h
    | cons c l ih => intro x y h; exact ih _ _ (hR.point _ _ h)
  unfold Keypair.commitKeyExchange SecretKey.commitRawKeyExchange
  have e := (raw_key_exchange_agree (P := P) a b).1
  show Rel (commitPoint _ ctx (a.rawKeyExchange (b.toPublic : PublicKey P)))
    (commitPoint _ ctx (b.rawKeyExchange (a.toPublic : PublicKey P)))
  rw [e]
  apply hR.point
  show Rel (List.foldl _ t (sort2 (a.toPublic : PublicKey P).compressed (b.toPublic : PublicKey P).compressed))
    (List.foldl _ t' (sort2 (b.toPublic : PublicKey P).compressed (a.toPublic : PublicKey P).compressed))
  rw [sort2_comm]
  exact hfold _ _ _ ht

/-- **C38** `aead_unauthenticated`: both ends derive the same key, for every context and key size. -/
theorem aead_unauthenticated_agree [Oracles] (a b : SecretKey) (ctx : Bytes) (n : Nat) :
    (a.toKeypair : Keypair P).aeadUnauthenticated ctx b.toPublic n =
      (b.toKeypair : Keypair P).aeadUnauthenticated ctx a.toPublic n := by
  unfold Keypair.aeadUnauthenticated makeAead makeAeadT
  simp only []
  rw [commit_key_exchange_agree (P := P) merlin_sim rfl a b (b! "kex")]

/-- **C38** `init_aead_unauthenticated` / `init_aead32_unauthenticated`: the ephemeral public key sent
along always decodes, and with it the receiver derives the sender's key, for every system RNG. -/
theorem init_aead_agree [Oracles] (b : SecretKey) (ctx : Bytes) (n : Nat) (sys : Rng) :
    let sent := (PublicKey.initAeadUnauthenticated (b.toPublic : PublicKey P) ctx n sys).1
    let sent32 := (PublicKey.initAead32Unauthenticated (b.toPublic : PublicKey P) sys).1
    (∃ epk : PublicKey P, PublicKey.fromCompressed sent.1 = .ok epk ∧
      (b.toKeypair : Keypair P).aeadUnauthenticated ctx epk n = sent.2) ∧
    (∃ epk : PublicKey P, PublicKey.fromCompressed sent32.1 = .ok epk ∧
      b.aead32Unauthenticated epk = sent32.2) := by
  intro sent sent32
  let e := (SecretKey.generateWith sys).1
  refine ⟨⟨e.toPublic, fromCompressed_ok.mpr ⟨rfl, rfl⟩, ?_⟩, ⟨e.toPublic, fromCompressed_ok.mpr ⟨rfl, rfl⟩, ?_⟩⟩
  · exact aead_unauthenticated_agree b e ctx n
  · exact (raw_key_exchange_agree b e).2

/-- **C38** 2DH: `sender_aead` and `reciever_aead` derive the same key on transcripts of any two types with
the same history, for every RNG; the ephemeral key sent along always decodes. -/
theorem two_dh_aead_agree {Rel : T → T' → Prop} (hR : TSim Rel) {t : T} {t' : T'} (ht : Rel t t')
    (a b : SecretKey) (n : Nat) (sys : Rng) :
    let sent := ((a.toKeypair : Keypair P).senderAead t b.toPublic n sys).1
    ∃ epk : PublicKey P, PublicKey.fromCompressed sent.1 = .ok epk ∧
      (b.toKeypair : Keypair P).recieverAead t' epk a.toPublic n = sent.2 := by
  intro sent
  let w := witnessScalar t (b! "make_esk") [a.nonce.1] sys
  let e : SecretKey := ⟨w.1, a.nonce⟩
  refine ⟨e.toPublic, fromCompressed_ok.mpr ⟨rfl, rfl⟩, ?_⟩
  have h0 : Rel w.2.1 t' := hR.witnessScalar_left _ _ _ ht
  have h1 := commit_key_exchange_agree (P := P) hR h0 e b (b! "epk")
  have h2 := commit_key_exchange_agree (P := P) hR h1 a b (b! "epk")
  exact (hR.challenge _ _ (b! "") n h2).1.symm

/-- **C38** with an implicit certificate: the sender's call never panics, and the receiver, given the
certificate and the sender's public key, derives the same key. -/
theorem adaptor_cert_aead_agree [Oracles] {Rel : T → T' → Prop} (hR : TSim Rel) {t : T} {t' : T'}
    (ht : Rel t t') (a b : SecretKey) (n : Nat) (sys : Rng) :
    ∃ cert key, ((a.toKeypair : Keypair P).senderAeadWithAdaptorCert t b.toPublic n sys).1 = .ok (cert, key) ∧
      (b.toKeypair : Keypair P).recieverAeadWithAdaptorCert t' cert a.toPublic n = .ok key := by
  obtain ⟨cert, sk, h1, _, h3⟩ := issue_self_adaptor_cert_complete hR ht (a.toKeypair : Keypair P) sys
  have h3 := h3 rfl
  refine ⟨cert, (sk.toKeypair : Keypair P).aeadUnauthenticated (b! "") b.toPublic n, ?_, ?_⟩
  · unfold Keypair.senderAeadWithAdaptorCert
    rcases hr : (a.toKeypair : Keypair P).issueSelfAdaptorCert t sys with ⟨r, q⟩
    rw [hr] at h1
    simp only at h1
    subst h1
    rfl
  · unfold Keypair.recieverAeadWithAdaptorCert
    have : PublicKey.openAdaptorCert (a.toPublic : PublicKey P) t' cert = .ok sk.toPublic := h3
    rw [this]
    show Except.ok _ = Except.ok _
    rw [aead_unauthenticated_agree]

/-- **C38** a certificate that does not decode is reported, and no key is returned. -/
theorem reciever_cert_aead_error [Oracles] (b : Keypair P) (t : T) (cert : AdaptorCertPublic)
    (pk : PublicKey P) (n : Nat) :
    (∃ e, b.recieverAeadWithAdaptorCert t cert pk n = .error e) ↔ ∀ Γ : P, compress Γ ≠ cert.bytes := by
  unfold Keypair.recieverAeadWithAdaptorCert
  rcases open_adaptor_cert_table pk t cert with ⟨h, h2⟩ | ⟨Γ, h, h2⟩
  · rw [h2]; exact ⟨fun _ => h, fun _ => ⟨_, rfl⟩⟩
  · rw [h2]
    constructor
    · rintro ⟨e, he⟩; cases he
    · intro hh; exact absurd h (hh Γ)

/-! ## What the keys depend on -/

theorem sort2_spec (a b : Compressed) : ∃ lo hi, sort2 a b = [lo, hi] ∧ SortedPair a.1 b.1 lo.1 hi.1 := by
  unfold sort2 SortedPair
  split
  · rename_i h; exact ⟨b, a, rfl, .inr ⟨rfl, rfl, (cmpBytes_lt _ _).mp h⟩⟩
  · rename_i h; exact ⟨a, b, rfl, .inl ⟨rfl, rfl, fun h2 => h ((cmpBytes_lt _ _).mpr h2)⟩⟩

/-- **C38** the key is the hash answer to a query made of the context, the two public keys in sorted order
and the shared point. -/
theorem aead_unauthenticated_is_query [Oracles] (a : Keypair P) (ctx : Bytes) (pk : PublicKey P) (n : Nat) :
    ∃ lo hi, SortedPair a.pub.compressed.1 pk.compressed.1 lo hi ∧
      a.aeadUnauthenticated ctx pk n =
        Oracles.merlin (kexQuery ctx lo hi (compress (a.secret.key.val • pk.point)).1 n) n := by
  obtain ⟨lo, hi, h1, h2⟩ := sort2_spec a.pub.compressed pk.compressed
  refine ⟨lo.1, hi.1, h2, ?_⟩
  unfold Keypair.aeadUnauthenticated Keypair.commitKeyExchange makeAead makeAeadT
  rw [h1]
  rfl

/-- **C38** the receiver's 2DH key is the hash answer to a query made of the transcript history and both
exchanges, ephemeral first. -/
theorem reciever_aead_is_query [Oracles] (b : Keypair P) (t : Transcript) (epk spk : PublicKey P) (n : Nat) :
    ∃ lo hi lo' hi', SortedPair b.pub.compressed.1 epk.compressed.1 lo hi ∧
      SortedPair b.pub.compressed.1 spk.compressed.1 lo' hi' ∧
      b.recieverAead t epk spk n =
        Oracles.merlin (twoDhQuery t.log lo hi (compress (b.secret.key.val • epk.point)).1
          lo' hi' (compress (b.secret.key.val • spk.point)).1 n) n := by
  obtain ⟨lo, hi, h1, h2⟩ := sort2_spec b.pub.compressed epk.compressed
  obtain ⟨lo', hi', h3, h4⟩ := sort2_spec b.pub.compressed spk.compressed
  refine ⟨lo.1, hi.1, lo'.1, hi'.1, h2, h4, ?_⟩
  unfold Keypair.recieverAead Keypair.recieverAeadT Keypair.commitKeyExchange makeAeadT
  rw [h1, h3]
  simp only [List.foldl, SecretKey.commitRawKeyExchange, commitPoint, SigningTranscript.commitBytes,
    Transcript.appendMessage, SigningTranscript.challengeBytes, Transcript.challengeBytes, twoDhQuery,
    kexFrames, List.append_assoc, List.cons_append, List.nil_append]
  rfl

/-- **C38** injectivity: two `aead_unauthenticated` queries coincide only for the same context, the same
unordered pair of public keys, the same shared point and key size. -/
theorem kex_query_injective {ctx ctx' a b a' b' lo hi lo' hi' s s' : Bytes} {n n' : Nat}
    (h₁ : SortedPair a b lo hi) (h₂ : SortedPair a' b' lo' hi')
    (h : kexQuery ctx lo hi s n = kexQuery ctx' lo' hi' s' n') :
    ctx = ctx' ∧ ((a = a' ∧ b = b') ∨ (a = b' ∧ b = a')) ∧ s = s' ∧ n = n' := by
  simp [kexQuery, kexFrames] at h
  obtain ⟨rfl, rfl, rfl, rfl, rfl⟩ := h
  refine ⟨rfl, ?_, rfl, rfl⟩
  rcases h₁ with ⟨rfl, rfl, _⟩ | ⟨rfl, rfl, _⟩ <;> rcases h₂ with ⟨h, h', _⟩ | ⟨h, h', _⟩ <;> simp [h, h']

/-- **C38** injectivity of the 2DH query in history and both exchanges. -/
theorem two_dh_query_injective {l l' : List MOp} {a b s a' b' s' c d u c' d' u' : Bytes} {n n' : Nat}
    (h : twoDhQuery l a b s c d u n = twoDhQuery l' a' b' s' c' d' u' n') :
    l = l' ∧ (a = a' ∧ b = b' ∧ s = s') ∧ (c = c' ∧ d = d' ∧ u = u') ∧ n = n' := by
  simp only [twoDhQuery, List.append_assoc] at h
  have := List.append_inj' h rfl
  simp [kexFrames] at this
  tauto

/-- **C38** (caveat) the identity public key is accepted by key exchange: it makes the raw shared secret
the all-zero string whatever the secret key, so `aead32_unauthenticated` returns a publicly known key; and
no other public key does so for a non-zero secret. -/
theorem identity_public_key_gives_known_key (sk : SecretKey) (hc : sk.key.Canonical) (pk : PublicKey P) :
    sk.aead32Unauthenticated pk = zeros 32 ↔ pk.point = 0 ∨ sk.key.val = 0 := by
  show compress (sk.key •. pk.point) = zeros 32 ↔ _
  rw [← Ristretto.compress_zero (P := P), compress_inj, mulPoint_eq, smul_eq_zero', or_comm]
  have : sk.key.toZ = 0 ↔ sk.key.val = 0 := by
    unfold Scalar.toZ
    rw [ZMod.natCast_eq_zero_iff]
    constructor
    · intro h; exact Nat.eq_zero_of_dvd_of_lt h hc
    · intro h; rw [h]; exact dvd_zero _
  rw [this]

/-- The identity key really can be obtained from bytes. -/
example : PublicKey.fromBytes (zeros 32).1 = .ok (RistrettoBoth.default : PublicKey P) :=
  fromBytesSer_ok.mpr ⟨rfl, wf_default⟩

private def k3 : SecretKey := ⟨Scalar.ofNat 3, zeros 32⟩
private def k5 : SecretKey := ⟨Scalar.ofNat 5, zeros 32⟩

/-- Non-vacuity for C38: agreement is not because everything is equal — another context, or another peer,
gives another key in the toy environment. -/
example : letI := toyOracles
    let a : Keypair Toy := k3.toKeypair
    k3.key.Canonical ∧
    a.aeadUnauthenticated (b! "x") k5.toPublic 32 ≠ a.aeadUnauthenticated (b! "y") k5.toPublic 32 ∧
    a.aeadUnauthenticated (b! "x") k5.toPublic 32 ≠ a.aeadUnauthenticated (b! "x") k3.toPublic 32 ∧
    (a.senderAead (⟨[]⟩ : Transcript) k5.toPublic 32 zeroRng).1.2 ≠
      (a.senderAead (⟨[.prf 0]⟩ : Transcript) k5.toPublic 32 zeroRng).1.2 ∧
    k3.aead32Unauthenticated (RistrettoBoth.default : PublicKey Toy) = zeros 32 := by
  letI := toyOracles
  refine ⟨?_, ?_, ?_, ?_, ?_⟩ <;> decide +kernel

end Schnorrkel.Props
