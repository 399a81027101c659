# Formal model of w3f/schnorrkel in Lean 4 — design

Source modelled: `/repo` (Rust), read as text. Model: `lean/Verif/Model/*.lean`, one Lean file
per Rust file, every definition citing `src/<file>.rs:<lines>`. Specifications: `lean/Verif/Spec.lean`.
Property theorems: `lean/Verif/Props/*.lean` (helper lemmas are kept apart in `lean/Verif/Lemmas/*.lean`).

## 1. Trusted base

* Lean 4.33.0's kernel. Axioms: each property theorem depends on at most `propext`,
  `Classical.choice`, `Quot.sound`. No axioms of our own.
* Faithfulness of the hand translation Rust → Lean (the code is not run here). As a test of it, outside the proofs,
  `tools/vectors/Vectors.lean.txt` runs the model's definitions with executable merlin/STROBE/Keccak, SHA-512 and Ristretto255
  and compares them with published outputs of the crate: the vectors in `keys.rs:520, 794` and `sign.rs:520`, and
  Substrate's well-known keys (Ed25519 expansion of the development phrase, hard derivation `//Alice`, soft derivation
  `/foo` from the secret and from the public key, a signature in context `substrate`). All agree.
* Environment assumptions, packaged as *fields of a class* (`Env`), never as axioms, and shown
  satisfiable by a concrete instance (`Verif/Instance.lean`):
  - the Ristretto group `P` is a commutative group generated by the base point, of exponent ℓ,
    base point ≠ 0 (so of prime order ℓ); ℓ is *proved* prime (`Verif/Prime.lean`, Pratt certificate);
  - `compress`/`decompress`: `decompress b = some p ↔ compress p = b`, `compress 0 = [0;32]`
    (canonical encoding of RFC 9496);
  - `from_uniform_bytes` an arbitrary function `[u8;64] → P`;
  - merlin: challenge/PRF output is an arbitrary function (oracle) of the complete log of operations
    performed on the transcript (labels, messages, lengths, rekeys, RNG bytes);
  - SHA-512 and every XOF are arbitrary functions of the absorbed bytes.
* RNGs: an arbitrary function from the history of previous requests to bytes.
* Debug text (C56): `core::fmt` prints derived structs as `Name { field: value, .. }` and byte arrays as
  `[d, d, ..]` in decimal, as transcribed in `Model/Debug`.
* Dalek scalars: 32 bytes; arithmetic reduces mod ℓ (`from_bytes_mod_order_wide`, `+ - *`, `invert`).

Environment classes: `Ristretto P` (group, encoding, hash-to-group), `Oracles` (merlin, SHA-512, XOFs,
`Model/Prims.lean`), `SigningTranscript T` (the crate's trait, `Model/Context.lean`). Every theorem holds for
every instance; `Instance.lean` gives `Toy`/`toyOracles`, used only in non-vacuity examples and counterexamples.
`decide +kernel` is used on closed terms only (primality certificate, concrete examples); it is checked by the kernel.

### What is modelled

| Rust file | Lean file | content |
|---|---|---|
| `scalars.rs` | `Model/Scalars` | cofactor loops with carries and overflow checks, byte by byte |
| `points.rs` | `Model/Points` | `RistrettoBoth`: codecs, Eq (with its debug assert as a panic), Ord, Hash |
| `keys.rs` | `Model/Keys`, `Model/Debug` | all four key types: expansion, codecs, generation, zeroize, equality, conversions, Debug text |
| `context.rs` | `Model/Context` | trait with defaults; merlin, XOF and RNG-carrying instances; `SigningContext`; attach functions |
| `sign.rs` | `Model/Sign` | signature codec, sign, verify, simple, preaudit, doublecheck |
| `batch.rs` | `Model/Batch` | `prepare_batch` with iterator consumption, dedup loop, all verifiers, `PreparedBatch` codec |
| `vrf.rs` | `Model/Vrf` | all VRF types, codecs, prove/verify, merge, multi, batch, check-then-sign, output RNGs |
| `derive.rs` | `Model/Derive` | hard and soft derivation, `Derivation` trait for three key types, `ExtendedKey` |
| `cert.rs` | `Model/Cert` | issuing, accepting, opening, self-issuing |
| `aead.rs` | `Model/Aead` | key agreement up to the AEAD key bytes (the AEAD cipher itself is external) |
| `musig.rs` | `Model/MuSig` | sorted maps, commit/reveal/cosign state machine, collector, aggregate keys |
| `serdey.rs` | `Model/Serde` | both `alloc`/no-`alloc` visitors against a model of serde's data model |
| several | `Model/Compare` | derived comparisons, views, `generate()`, drops |
| `errors.rs` | `Model/Basic`, `Model/Errors` | the error values that the functions return, and their `Display` text |

### What is not modelled

Side channels and constant time, memory layout, merlin's Strobe internals (its 4 GiB length assert is not part of the model of a call, but C92 shows which calls can meet it),
`no_std`/feature gating (both sides of the `alloc` split in serde and of the build profile
where it changes behaviour are modelled), performance, `getrandom` itself, the AEAD ciphers, `RefCell` borrow state
of `SigningTranscriptWithRng` (each borrow ends inside the call that takes it). Sizes (`usize`) are taken to be 64-bit.
User-defined `SigningTranscript` implementations that override provided methods other than `witness_bytes` are not considered.

## 2. Conventions

* `&mut T` parameter ⇒ the function returns the new `T`. `Result` ⇒ `Except SignatureError`.
* A panic path ⇒ `Outcome.panic`, so absence of panics is a theorem, never an assumption.
* Byte arrays `[u8; n]` ⇒ `Arr n` (list with length proof); integers that can overflow are
  computed on `UInt8`/`Nat` with an explicit check.
* Rust iterators ⇒ finite lists, with the number of elements *consumed* modelled where the code
  calls `next()` again after a `zip`.

## 3. Plan per property

* **C01** Cofactor helpers are exact integer division/multiplication by 8. model both loops on UInt8 with checked add; induction on bytes over the LE value.
* **C02** Signature scalar check accepts exactly the canonical scalars. model check_scalar; relate to leNat < l by bit reasoning on the top byte.
* **C03** Ed25519-style expansion of a mini secret. model expansion with sha512 oracle; range from clamping; uses C01.
* **C04** Uniform expansion is a function of the seed and independent of RNGs. model on the merlin log; injectivity of logs.
* **C05** SecretKey byte round trips. codec equations; uses C01 and canonicity.
* **C06** Exact decision table of key decoding. each from_bytes characterised by an independent decision table in Spec.
* **C07** Every scalar produced by the API is canonical. canonicity lemma per producing function, for every module.
* **C08** PublicKey keeps compressed and uncompressed forms consistent. WF invariant per constructor; order laws on lists of bytes.
* **C09** Signature byte codec. codec lemma on 64-byte strings with bit-7 arithmetic.
* **C10** Sign then verify always succeeds. abstract lawful transcript class; module arithmetic over ZMod l.
* **C11** Verification decides exactly the Schnorr equation over the documented transcript. unfold verify; group algebra; Merlin log equality.
* **C12** No third-party signature malleability. needs C11 and additive order l of the base point.
* **C13** A signature transfers to another message or key only through a challenge collision. module cancellation (l prime).
* **C14** Identity public key is accepted and universally forgeable (defect). explicit forgery; negation proved with a witness.
* **C15** Nonce reuse reveals the secret key; distinct inputs never share a nonce query. field arithmetic in ZMod l; log injectivity of witness queries.
* **C16** Keypair::from_bytes and from_half_ed25519_bytes do not check that public matches secret (defect); both accept every secret with every public key. Direct from the round trips, and a counterexample for each.
* **C17** sign_doublecheck detects inconsistent keypairs. unfold; uses C11.
* **C18** Transcript continuity through &mut. log equality / lawful transcript relation.
* **C19** Signing contexts are domain separated. log injectivity.
* **C20** XoF transcripts frame their inputs unambiguously. parser/prefix-freeness induction over histories.
* **C21** Batch verification completeness and deduplication. induction over batch list; grouping lemma for dedup.
* **C22** Batch verification soundness by counting. linear equation over ZMod l in n unknowns < 2^128; counting by fixing all but one coordinate.
* **C23** Batch argument length mismatches. case analysis on lengths, zip model.
* **C24** PreparedBatch serialization cannot be read back (defect). model parser with build profile; universal negative.
* **C25** VRF completeness. DLEQ algebra + transcripts.
* **C26** VRF proof forms agree. codec + algebra.
* **C27** VRF rejects identity outputs. unfold.
* **C28** VRF output uniqueness (DLEQ soundness). special soundness algebra.
* **C29** VRF sign-after-check decisions. unfold.
* **C30** VRF multi-output proofs. merge linearity; induction over list; counting.
* **C31** VRF verification drops surplus transcripts (defect). zip-consumption model.
* **C32** VRF batch verification. as C21/C22 for the two DLEQ equations.
* **C33** VRF outputs bind context, input and output. log injectivity.
* **C34** Malleable VRF transcripts and HDKD. module algebra.
* **C35** Soft derivation commutes with taking public keys. induction over path.
* **C36** Soft-derived child secret reveals the parent secret. algebra.
* **C37** Adaptor (implicit) certificates. algebra + transcripts.
* **C38** Key exchange / AEAD agreement. commutativity of scalar multiplication.
* **C39** MuSig: no internal panic and errors change nothing. invariant over histories of the session state machine.
* **C40** MuSig: reveals bind to commitments and entries are immutable. invariant + monotonicity over histories.
* **C41** MuSig: honest protocol completeness and agreement. n-party model; sum algebra over sorted maps.
* **C42** MuSig aggregate key is order independent. permutation invariance of sorted map; what the in-place sort leaves behind in the caller's slice is a separate small model (Model/MuSigSlice).
* **C43** AggregatePublicKeySlice::weighting is inverted (defect). exact characterisation.
* **C44** Serde round trip. model of serde data model (seq / bytes formats).
* **C45** Deprecated-format verification. case analysis.
* **C46** Zeroize erases secret material. model of Zeroize.
* **C47** Secret-key equality and generation. unfold.
* **C48** Half-aggregated batches. both equations rewritten as one; decoding of R lists.
* **C49** MuSig sign does not check shares. sum algebra over the session view; exact defect equation.
* **C50** MuSig nonces and reuse. query characterisation; linear algebra over ZMod l.
* **C51** VRF/DLEQ nonces. witness-query characterisation, injectivity, two-run extraction.
* **C52** Other secret randomness. witness-query characterisation per function.
* **C53** Attached RNG. equality of runs, per operation.
* **C54** Domain separation. inductive type `Use` with one constructor per call site; a classifier reads the kind from the end of the query, then each kind is injective.
* **C55** RNGs from VRF outputs. induction over the list of requests; C54.
* **C56** Debug output. Model of the text the derived/handwritten Debug impls write; a specification reader extracts the decimal numbers from a text and finds the secret bytes.
* **C57** Simulation and distribution. Hash functions are programmed at one query; exact set of nonce answers giving a signature; count by C58.
* **C58** Wide reduction. Count of multiples in an interval.
* **C59** Forking. Field algebra over ZMod l for two runs with differently programmed hash functions.
* **C60** cosigned/uncosigned. Invariant of the cosign stage over histories.
* **C61** VRF on the wire. Composition of C27, C28, C30, C34 on merlin histories.
* **C62** VRF uniqueness in the random-oracle model (`Spec/Rom`, `Spec/RomVrf`). An adversary is an arbitrary
  decision tree of hash queries (`Algo`); the merlin answers of length 64 on a finite set `D` containing its queries and
  the verifier's are a uniformly random table, everything else is an arbitrary fixed function (the adversary may depend
  on it); probabilities are exact fractions of tables. A randomised adversary is covered by averaging over its coins.
  Proof: a wrong output pins the challenge (C31/C28), union bound over the steps with a resampling bijection.
* **C63** unforgeability (`Spec/RomSign`). The adversary tree also has signing requests carrying the RNG behaviour.
  Proof: (1) derived nonces → independent nonces unless the seed is guessed (bijection on tables); (2) real signer →
  simulated signer by induction on the tree, lazily sampling entries, with a residue-shifting permutation of the 64-byte
  strings; (3) general forking lemma for decision trees (`Lemmas/RomFork`: Cauchy–Schwarz over positions and over the
  stopping set); (4) extraction by C59 and averaging over the simulator's coins.
* **C64** altered batches (`Spec/BatchForge`). The batch equation (C21) is linear in the weighted sum of the scalars; the
  altered batch keeps that sum. Extraction: subtract the two equations, divide by the difference of coefficients.
* **C65** batch soundness (`Spec/RomWide`, `Spec/RomBatch`). Sample space: random table × 32 uniform RNG bytes of the
  verifier. Proof: the coefficient query of an invalid entry names the RNG bytes, so the attacker asked it with
  probability ≤ q/2^256; otherwise its answer is independent of everything else and must equal one 128-bit value
  (linear equation with a non-zero coefficient). The uniqueness statement adds C62's union bound.
- **C66** `Props/RomVrfs`: the attacker is followed by the verification (inputs, merging coefficients, challenge). Either the merged output is wrong, then the challenge answer is pinned (as C62); or the defects cancel, then among the wrong pairs the coefficient asked for *last* is pinned in its first 16 bytes by the answers before it (`Lemmas/RomLate`: `chance_late`, adapted bad sets). Repeated pairs share a coefficient, so multiplicities must be invertible: the number of outputs is below the group order.
- **C67** `Model/MutRef` (the forwarding `impl` for `&mut T`), `Spec/Protocol` (prover and verifier of a list of steps, both handing `&mut t` to every call; the functions of `cert.rs`, `derive.rs` and `aead.rs` that take a transcript have a version ending in `T` that returns the final transcript), `Props/Protocol`: induction over the steps with the simulation `TSim`; binding by unique parsing of the recorded frames plus uniqueness of `s` (and `c`) for accepted signatures and proofs.
- **C68** `Spec/RomMuSig`, `Props/RomMuSig`: `Lemmas/RomFork.forking_one`, a forking lemma in which only one table entry is answered afresh (a stopping set whose complement is that entry), applied to the weight of the honest key; for forged signatures it is applied twice, first to the challenge, then to the algorithm that runs the forger twice. Since all other entries stay, the other weights are the same in both runs, whenever they are asked. Attacks with access to signing sessions are not covered.
- **C69** `Spec/RomExclusive`, `Props/RomExclusive`: `Lemmas/RomCollide.chance_pair_points`, a birthday bound for two queries whose answers make two affine functions of the group meet (`c·A = c'·A'` for signatures, `c = c'` for proofs); the queries differ because the hashed frames parse uniquely.
- **C70** `Spec/RomCollide`, `Props/RomCollide`: the same birthday bound, for prefixes of answers (`chance_collide_out`) or affine functions (`chance_pair_points`).
- **C71** `Spec/RomPrf` (clients, services with the secret and services with fresh random bytes), `Lemmas/RomPrf` (the answers to all queries containing the secret are swapped with independent random bytes, a measure-preserving involution; the two runs agree unless such a query is asked), `Props/RomPrf`. Unlinkability adds the shift of residues used in C63.
- **C72** `Model/Errors`, `Props/Errors`: a length message is split at its last two spaces; the other fourteen messages are compared one by one.
- **C73** `Spec/RomKey`, `Lemmas/RomKey`, `Props/RomKey`: the three services are sigma protocols with one nonce query and one challenge query each; `service_le_simulated` replaces any such service by one that answers from coins and programs the hash function (statistical distance by the nonce seed and by guessing the programmed query), and the forking lemma is applied to the simulated attack. Domain separation (C47) makes the challenge and nonce queries of different services differ.
- **C74** `Spec/RomOwner`, `Lemmas/RomOwner`, `Props/RomOwner`: every secret value is the answer to one hash query (`serve_value_is_query`), different values come from different queries and none is a challenge or nonce query, so the answers at these queries are replaced by independent strings until the attacker hashes one; `service_le_simulated` (C73) replaces the other services. `value_query_names` spells out which secret such a query contains.
- **C75** `Spec/RomWallet`, `Lemmas/RomTree`, `Props/RomWallet`: nonce seeds form a tree, each the hash of a query containing its parent's; `seed_tree` shows by one measure-preserving bijection that all of them and all nonces are as good as independent strings unless two seeds coincide or the attacker hashes one (`tree_service_le`). The secret of each node is the root's plus a public tweak, so every answer is a sigma protocol for the root (`serveWallet_eq`), `service_le_simulated` (C73) simulates it, and forking gives the scalar of the node, hence of the root. Every attacker is covered after it looks up tweaks by itself (`every_wallet_attacker_is_limited`, `knowing_play`).
- **C76** `Spec/RomMini`, `Props/RomMini`, `Props/RomMiniEd`: no hash query of the wallet or of a verifier is one of an expansion (C54), so unless the attacker asks for the expansion of the mini secret key itself the wallet may be given fresh random bytes (`expansion_diff`, `sha_diff`); averaging `wallet_core` (C75) over the random root key gives the discrete logarithm of a random key (`wallet_average`). SHA-512 evaluations of the attacker are requests answered by a random function.
- **C77** `Spec/RomSimple`, `Props/RomSimple`: an attacker on the byte-level API is one on the transcript-level API (`simple_to_key`, from C02, C09 and C17); the expanded key is replaced by a random one as in C76 (`expansion_diff`, `sha_diff`); averaging `one_key_core` (C73) over the random key gives its discrete logarithm (`key_average`), and without VRF requests no VRF outputs are needed (`no_vrf_no_outputs`). The finite domain and the bound on requests follow from the query counts (`simple_domain`).
- **C78** `Spec/RomDh`, `Props/RomDh`: the attacker of C74 is run without the secret key; the clash event of `secret_values_pseudorandom` puts the shared point at a known place of one of its `q` hash queries (`sharedIn_value`), so a random index gives a Diffie–Hellman solver (`chance_mem_le`, `clash_le_solver`); average over the keys, and fork as in C74 for forgeries.
- **C79** `Spec/RomBatchKey`, `Props/RomBatchKey`, `Props/RomBatchKeyVrf`: the attacker and the owner run as one algorithm against the batch soundness theorems (C65, `checked_late`), so an accepted batch has, up to 2^-128, only valid entries; one that was not given out is then an ordinary forgery (`accuse`) and `one_key_core` applies. For VRFs the algorithm also asks the hash queries of the batch's inputs and challenges itself (`thenAnswers`), to know which entry to name.
- **C80** `Spec/RomVrfPrf`, `Props/RomVrfPrf`, `Props/RomVrfGuess`: the client is turned into one that hashes VRF inputs itself and asks for outputs at points (`onPoints`), so C74's `secret_values_pseudorandom` applies; in the world without secrets the outputs are computed from the logarithms of the input points, and a clash puts `x • Y` for one of the hashed inputs into one of the hash queries; replanting a random input answer (`replant`, `sim_agree`) and choosing a random query gives the solver. Predicting: the client asks for the bytes it guessed (`tried`), and random bytes are not guessed (`tried_ideal_le`).
- **C81** `Spec/RomFamily`, `Props/RomFamily`: as C75, with two kinds of steps. The nonce seed of an accepted key is a hash of the issuer, the certificate, the RNG bytes and the parent's nonce seed (`accepting`), so the seeds again form a tree (`tree_service_le`); secret scalars differ from the root's by public shifts, so all answers are simulated from the root public key, and a forgery under any member, extracted by forking, gives the root's secret key.
- **C82** `Spec/RomCosign`, `Lemmas/RomCosign*`, `Props/RomCosign`: games between the attacker and the owner, in this order. (1) `Owner.play`, the crate's functions, is refined to a game that keeps only transcripts, nonces and commitments (`play_win`). (2) The nonces are hashes of a secret seed, so they can be replaced by fresh random ones (`seed_step`, `draw_step`, loss q/2^256). (3) Nobody can ask for the commitment to unrevealed nonces, so commitments can be drawn first and the hash function programmed when the nonces are revealed (`hide_step`). (4) Once the owner has revealed, the opening of each other commitment on record is already among the answered queries, or it is the owner's own commitment in another session that it has yet to open (then the session waits; the attacker may send copies), or it will never be opened. As soon as all are known the whole view is determined, and the challenge is programmed such that the cosignature is known without the key (`fakeSettle`, `settleAll`, `close_all`, lazy sampling in `RomLazy`; the two distributions agree by rescaling residues, `RomRescale`). (5) The result is an algorithm that only asks hash queries (`simulateCosign`, `simVal_eq`, `sim_within`), to which the two nested forks of C68 apply for every value of its coins (`joint_forgery_coins`).
- **C83** `Spec/RomUsers`, `Props/RomUsers`: from an attacker on all users one makes an attacker on user j that plays the others (`alone`; each answer of another user is two hash queries, `serveStepwise_logged`, by the sigma-protocol form of C73). As long as j's key does not leak, j sees the same (`play_alone`). Then `one_key_core` of C73 for fixed keys and seeds of the others, averaged over j, the keys, the seeds and the coins at once (`avg_reseed`, `avg_pick`, `fork_coins`).
- **C84** `Spec/RomDual`, `Lemmas/RomDual{Game,Own,Serve}`, `Props/RomDual`: with the nonce seed gone (`dual_forges_le`: the nonces of sessions and of other requests are separate random values, by C67's separation of hash uses) the other requests are answered by an attacker on the sessions who knows the secret key (`serveReal`). Except with small probability no group has the owner's own key as its aggregate key (`own_le`), so that challenges of plain requests and of sessions are different hash queries; then, for fixed session nonces, the sessions are part of a client of the other services (`sideN`) and the programming argument of C73 applies (`serve_le`): the services run from coins *inside* an attacker on the sessions (`serveInside`), and C82 applies to that attacker.
- **C85** `Spec/RomMixed`, `Lemmas/RomMixed`, `Props/RomMixed`: the games of C82 and C84 are stated for any kind of goal (`Goal` in `Lemmas/RomCosignGame`: what the attacker outputs, the hash queries its check makes, when it is right, and which sessions spoil it).  Here the goal is first a claim that is right and not on the record of what was given out (nothing spoils it); after the other requests are served from coins, a right and new claim is right without the programmed answers (`programmed_on_record`, `new_claim_checks`), and no group key is the owner's key (`own_le`), so the second goal, a right claim spoiled only by sessions whose group key is the owner's, is met; its challenges are separate from those of all other sessions (`Goal.Separated`), the sessions are simulated as in C82, and the forking lemma is applied to two runs.  `servicesOnly_forges`: C73's attacks are the special case without sessions.
- **C86** `Spec/Randomness`, `Props/Randomness`: an RNG is any function of its request history; `answers`/`after` are its answers to, and its state after, a list of requests; `Uses`: equal answers give equal results; `Reads`: in addition the final RNG is `after`. Composition lemmas (`reads_mono`, `reads_bind`), then each call is written as a function of its witness requests.
- **C87** (exactly which calls can panic): `Props/Panics.lean`; length conditions of `PreparedBatch::{new,verify}`, exact outcome table of `read_bytes`, `vrfs_sign`, and unreachability of the `expect` in self-issued certificates for every key pair, transcript type and RNG (the sum `k + e·x` is reduced whatever `x`); collects the `…_panics_iff` theorems of C21–C31 and the MuSig ones.
- **C88** comparisons and views (Model/Compare, Props/Compare): derived `PartialEq`/`Ord`/`Hash` expanded field by field; reduced to the lexicographic order of the encodings and injectivity of the encodings.
- **C89** evaluation on given points (Props/Oprf): decision table of the two constructors, then group algebra (blinding is a bijection of the scalars because the group has prime order).
- **C90** proofs cannot be altered (Props/VrfUnique): from the exact acceptance condition of C28, cancelling the common terms in the group.
- **C91** (`Spec/Path`, `Props/Path`): a walk is a fold of the modelled derivation steps; the input hashed to the child's chain code determines the parent's scalar, chain code and the junction, so two walks are read backwards step by step; equal ends give equal paths or two different inputs with equal output, bounded with the lemma behind C70. A walk that returns to its start needs an answer that names a query asked no later than its own (`Lemmas/RomBack`). Equal keys at the ends of different paths need two different queries whose hash plus parent scalar agree. The same for watch-only wallets over extended public keys (`Props/PathPublic`), and for expansion mode Ed25519 with SHA-512 in the random table too (`Props/PathEd`; at most 2^261 strings clamp to one scalar); walks with a mode per hard junction are in `Props/PathModes`, `Props/PathModesLoop` and `Props/PathModesKeys`. C45 has gained the complete table of answers for unmarked strings (`Props/Preaudit`).
* **C92** Only strings supplied by the caller can exceed merlin's length limit. The model's hash is total; merlin's assert is the predicate `Fits` on logs (Spec/Limit). A call stays below the limit if its result is the same for any two hash functions that agree on all fitting logs; proved call by call, by induction over the lists for batches and sessions.
* **C93** The order in which different participants' MuSig messages arrive does not matter. Spec/MuSigOrder says when two histories consist of the same streams of messages per participant (the caller's edits of the transcript are one more stream) and what the answers to one participant are. Each call is shown to read and write one entry of the session's key map only (Lemmas/Interleave: a state machine whose steps are local to one key ends in the same state, with the same answers per key, for any interleaving), for the commit, reveal and cosign stages and collectors; sorted maps with equal entries are equal. Reordering messages of *one* participant does matter (the first one counts).
* **C94** Delivering a MuSig message again does no harm (`Harmless` in Spec/MuSigOrder): same final state, same answers to all other calls, an accepted message is accepted again. By the locality lemmas of C93: a message settles its own entry, and no later message of the same key unsettles it.
* **C95** Nobody influences how another participant's MuSig messages are answered: two histories with the same messages for one key (`SameStream`) answer them the same, by the locality lemmas of C93.

## 4. Findings about the code (each is a theorem, not an opinion)

* `Keypair::from_bytes` accepts any secret/public pair (C16); in Kusama mode such a pair makes the VRF nonce
  independent of the stored public key, so two proofs can leak the key (C51).
* The identity public key is accepted and every message has a forgery under it (C14).
* `AggregatePublicKeySlice::weighting` has its membership test inverted (C43).
* `PreparedBatch::read_bytes` can never return `Ok` on what `write_bytes` wrote, or on anything (C24).
* `verify_batch`/`vrfs_verify`/`vrf_verify_batch` ignore one surplus transcript when the iterator allows it, and panic
  on other length mismatches instead of returning an error (C23, C31).
* serde: formats with a distinct byte-string type fail to round-trip (C44).
* MuSig: `sign` never checks shares (C49); nonces do not bind the cosigner set (C50).
* The low three bits of an imported Ed25519 scalar are dropped (C05).
* `{:?}` of MiniSecretKey, SecretKey and Keypair prints the secret (C56).
* `verify_batch_deterministic` accepts batches of individually invalid signatures that anybody can make from valid ones
  (C64); it must not be used to conclude that each signature would verify on its own.
* Evaluation on points chosen by others (`vrf_create_from_compressed_point`) hands out VRF outputs and AEAD keys of the same
  secret key, and does not refuse the identity (C89).
* If transcripts are passed by reference, `accept_adaptor_cert` leaves the holder's transcript one challenge behind those of
  the issuer and of `open_adaptor_cert` (C67).
