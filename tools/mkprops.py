#!/usr/bin/env python3
# Generates /verif/properties.jsonl (one object per line).
import json
P=[]
def p(title, statement, quantifier, why, *anchors):
    P.append(dict(id="C%02d"%(len(P)+1), title=title, statement=statement, quantifier=quantifier,
                  why_tests_cant=why, anchors=[y for x in anchors for y in x.split('; ')]))

p("Cofactor helpers are exact integer division/multiplication by 8",
  "Dividing the 32 little-endian bytes of a scalar by the cofactor yields exactly floor(n/8); multiplying yields exactly 8n mod 2^256; neither ever overflows a byte addition (so neither panics in debug builds). Consequently multiply-then-divide is the identity when the top three bits are clear and divide-then-multiply is the identity when the low three bits are clear.",
  "every 32-byte string (2^256 of them)",
  "the test samples one random scalar per direction; carry chains depend on all 256 bits",
  "src/scalars.rs: divide_scalar_bytes_by_cofactor, multiply_scalar_bytes_by_cofactor")
p("Signature scalar check accepts exactly the canonical scalars",
  "Decoding a signature (or proof) scalar succeeds iff the 32 bytes, read as a little-endian integer, are < l (the Ristretto group order); the high-nibble fast path never changes the verdict and the decoded scalar has exactly the given bytes.",
  "every 32-byte string", "boundary is at a 253-bit integer; random tests never approach it from either side of every byte",
  "src/sign.rs: check_scalar", "src/vrf.rs: VRFProof::from_bytes, VRFProofBatchable::from_bytes")
p("Ed25519-style expansion of a mini secret",
  "MiniSecretKey::expand with mode Ed25519 produces the secret scalar floor(clamp(SHA512(seed)[0..32])/8), which lies in [2^251,2^252) and is canonical (< l), and the nonce SHA512(seed)[32..64]; the result equals SecretKey::from_ed25519_bytes of the clamped SHA-512 digest.",
  "every 32-byte mini secret and every behaviour of SHA-512 as a function", "all 2^256 seeds and all carry chains",
  "src/keys.rs: MiniSecretKey::expand_ed25519, SecretKey::from_ed25519_bytes")
p("Uniform expansion is a function of the seed and independent of RNGs",
  "MiniSecretKey::expand(Uniform) is a deterministic function of the seed bytes only, yields a canonical scalar, and different seeds query the transcript hash at different points for both scalar and nonce; expand_to_keypair and expand_to_public agree with expand in both modes.",
  "every 32-byte seed and every hash behaviour", "all seeds, all oracles",
  "src/keys.rs: MiniSecretKey::expand_uniform, expand, expand_to_keypair, expand_to_public")
p("SecretKey byte round trips",
  "from_bytes(to_bytes(sk)) returns sk with identical scalar and identical nonce for every key the API can produce; from_ed25519_bytes(to_ed25519_bytes(sk)) returns the same scalar and nonce for every key whose scalar is canonical (so that 8*scalar < 2^256), which every key the API produces is; from_ed25519_bytes drops exactly the low three bits and keeps the rest.",
  "every secret key / every 64-byte string", "quantifies over all 2^512 encodings",
  "src/keys.rs: SecretKey::to_bytes, from_bytes, to_ed25519_bytes, from_ed25519_bytes")
p("Exact decision table of key decoding",
  "For every byte string and each key type (MiniSecretKey, SecretKey plain and Ed25519 form, PublicKey, Keypair plain and half-Ed25519): decoding never panics; it fails with BytesLengthError (with the type's own name and length) iff the length is wrong, otherwise with ScalarFormatError (InvalidKey for the Ed25519 form) / PointDecompressionError exactly when the scalar / point part is invalid, and otherwise succeeds; encoding a decoded key returns the canonical input.",
  "every byte string of every length", "unbounded lengths; every malformed input",
  "src/keys.rs: *::from_bytes, Keypair::from_half_ed25519_bytes", "src/points.rs: RistrettoBoth::from_bytes_ser")
p("Every scalar produced by the API is canonical",
  "Every Scalar stored in a SecretKey, Signature, VRF proof, chain-derived key, MuSig share or certificate output by any API function is the canonical representative (< l), whatever inputs, RNG and hash outputs occurred, so arithmetic that assumes reduced inputs is only ever applied to reduced inputs.",
  "every API call with every input, RNG and oracle", "the wrong representative occurs with probability < 2^-120 for random inputs yet is reachable from bytes",
  "src/keys.rs, src/sign.rs, src/vrf.rs, src/derive.rs, src/cert.rs, src/musig.rs")
p("PublicKey keeps compressed and uncompressed forms consistent",
  "Every PublicKey/RistrettoBoth obtainable from the API (from_bytes, from_point, from_compressed, Default, to_public, derivation, aggregation, VRF outputs, serde) has compressed = compress(point); hence ==, ordering and hashing on compressed bytes agree with equality of group elements, ordering is a total order consistent with ==, and the debug assertion in == never fires.",
  "every value reachable by any sequence of API calls", "invariant over unbounded construction histories",
  "src/points.rs: RistrettoBoth, PartialEq, Ord, Hash", "src/keys.rs: PublicKey")
p("Signature byte codec",
  "Signature::to_bytes sets bit 7 of the last byte and from_bytes(to_bytes(s)) = s; from_bytes succeeds iff length is 64, the marker bit is set and the scalar with the marker cleared is canonical; the errors are BytesLengthError, NotMarkedSchnorrkel, ScalarFormatError in that priority; to_bytes is injective and every accepted string is the encoding of its decoding (no second encoding of a signature).",
  "every byte string and every signature value", "all 2^512 strings, all lengths",
  "src/sign.rs: Signature::to_bytes, Signature::from_bytes, check_scalar")
p("Sign then verify always succeeds",
  "For every keypair with public = secret*B, every signing transcript type that is a deterministic transcript (Merlin, XoF-hash transcript, with or without attached RNG), every transcript history, every RNG behaviour (including constant, broken ones): verify(t, sign(t)) = Ok; likewise sign_simple/verify_simple and sign_doublecheck/sign_simple_doublecheck, which return Ok with the same guarantee.",
  "every key, context, message, transcript history and RNG stream", "unbounded messages and arbitrary RNG",
  "src/sign.rs: SecretKey::sign, Keypair::sign*, PublicKey::verify, verify_simple")
p("Verification decides exactly the Schnorr equation over the documented transcript",
  "verify(t,sig) returns Ok iff R bytes = compress(s*B - k*A) where k is the challenge of t extended by exactly (proto-name \"Schnorr-sig\", sign:pk = A bytes, sign:R = R bytes); otherwise it returns EquationFalse; it never panics or returns another error.",
  "every transcript, public key and signature value", "both directions over all inputs",
  "src/sign.rs: PublicKey::verify")
p("No third-party signature malleability",
  "For one transcript, public key and R there is at most one s that verifies, and at most one accepted 64-byte encoding; signatures whose R is not a valid canonical point encoding never verify.",
  "every transcript, key and pair of signatures", "uniqueness over 2^252 scalars",
  "src/sign.rs: PublicKey::verify, Signature::from_bytes, check_scalar")
p("A signature transfers to another message or key only through a challenge collision",
  "If one signature verifies under (t1,A1) and (t2,A2) then k1*A1 = k2*A2; in particular with the same non-identity key the two challenge scalars are equal modulo l, and for Merlin contexts with different (context, message) or different keys these are the hash at two different inputs.",
  "every pair of transcripts and public keys", "relation between arbitrary pairs of runs",
  "src/sign.rs: PublicKey::verify", "src/context.rs: SigningContext")
p("Identity public key is accepted and universally forgeable (defect)",
  "PublicKey::from_bytes accepts the all-zero encoding (identity), and under that key anybody can produce, without any secret, a signature verifying for every transcript; conversely for no other accepted key does one (R,s) pair verify for two different challenge values.",
  "every transcript and every scalar s", "claims about all messages",
  "src/keys.rs: PublicKey::from_bytes", "src/sign.rs: PublicKey::verify")
p("Nonce reuse reveals the secret key; distinct inputs never share a nonce query",
  "Two accepting signatures with equal R and different challenge values determine the secret key by (s1-s2)/(k1-k2); and the signer derives its nonce from a hash query containing the whole transcript, public key, nonce seed and RNG bytes, so any difference in one of them gives a different query even with a broken RNG.",
  "every key, pair of transcripts and RNG", "relational property over two runs",
  "src/sign.rs: SecretKey::sign", "src/context.rs: witness_bytes_rng")
p("Keypair::from_bytes does not check that public matches secret (defect)",
  "Keypair::from_bytes and Keypair::from_half_ed25519_bytes accept every secret key followed by every valid public key encoding, so there are 96-byte strings each of them accepts whose public key is not secret*B. Keypairs made from a secret key (to_keypair, From), expanded from a mini secret key (both modes) or generated are consistent, with the stored encoding and point agreeing.",
  "every 96-byte string", "existence plus universal exact characterisation",
  "src/keys.rs: Keypair::from_bytes, Keypair::from_half_ed25519_bytes, From<SecretKey>")
p("sign_doublecheck detects inconsistent keypairs",
  "sign_doublecheck returns Ok only with a signature that verifies under the keypair's public key; on a keypair whose public key differs from secret*B it returns an error unless the challenge scalar is zero.",
  "every keypair (consistent or not), transcript, RNG", "all keypairs including corrupted ones",
  "src/sign.rs: Keypair::sign_doublecheck, sign_simple_doublecheck")
p("Transcript continuity through &mut",
  "After sign by the signer and successful verify by the verifier on equal transcripts passed by &mut, the two transcripts are again equal for all further commits and challenges; the resulting log is exactly the initial log plus the fixed protocol frames, with no dependence on RNG.",
  "every transcript history", "future behaviour after arbitrary histories",
  "src/context.rs: SigningTranscript for &mut T", "src/sign.rs: sign, verify")
p("Signing contexts are domain separated",
  "Transcripts from signing_context(c).bytes(m), .xof, .hash256, .hash512 are equal iff context, message mode and message (prehash) are all equal; attach_rng changes no committed or challenged value.",
  "all contexts, modes, messages", "injectivity over unbounded byte strings",
  "src/context.rs: SigningContext::new, bytes, xof, hash256, hash512, attach_rng")
p("XoF transcripts frame their inputs unambiguously",
  "For an XoFTranscript the byte string absorbed by the underlying hash determines the whole history of commits/challenges and the pending challenge or witness request (label, length, nonce seeds, RNG bytes); inputs for challenges and for witnesses are never equal.",
  "all operation histories with labels/messages shorter than 2^64", "unbounded histories; prefix-freeness argument",
  "src/context.rs: XoFTranscript::{commit_bytes, challenge_bytes, witness_bytes_rng}, input_bytes")
p("Batch verification completeness and deduplication",
  "If every (transcript, signature, public key) triple verifies individually then verify_batch, with deduplicate_public_keys true or false, and with any RNG, returns Ok; for the same coefficients deduplication never changes the verdict; the coefficient of each signature does not depend on iterator kind.",
  "every batch size, every RNG, every multiset of keys", "unbounded sizes and all grouping patterns",
  "src/batch.rs: verify_batch, verify_batch_rng, verify_batch_deterministic, prepare_batch, PreparedBatch::verify")
p("Batch verification soundness by counting",
  "If some triple in a batch of n does not satisfy its verification equation, then of the 2^(128 n) possible coefficient vectors at most 2^(128(n-1)) make the batch verify; the batch verifies iff the coefficient-weighted sum of the individual defects is zero, so individually invalid batches pass only for that exceptional set.",
  "every batch size, every invalid batch", "counting over all coefficient vectors",
  "src/batch.rs: PreparedBatch::verify, verify_batch_rng")
p("Batch argument length mismatches",
  "verify_batch panics exactly when the numbers of signatures and public keys differ, there are too few transcripts, or a surplus of transcripts is noticed (any surplus for an iterator of known exact length, two or more behind a generic zip); with equal lengths it never panics for any input. Defect: the documented panic for too many transcripts does not happen for one surplus transcript when the transcript iterator goes through a generic zip, and it is then silently ignored.",
  "all triples of lists of all lengths, both iterator kinds", "all lengths",
  "src/batch.rs: verify_batch, prepare_batch, PreparedBatch::new")
p("PreparedBatch serialization cannot be read back (defect)",
  "write_bytes produces exactly byte_len = 32 + 32 n bytes (the scalar sum with the top bit of its last byte set, then the n R encodings, whatever the buffer held before) and panics iff the buffer has another length; yet read_bytes never returns Ok for any input: on every string of acceptable length it panics on subtraction underflow in debug builds, and in release builds panics with capacity overflow or returns ScalarFormatError.",
  "every byte string and every prepared batch", "universal negative",
  "src/batch.rs: PreparedBatch::read_bytes, write_bytes, byte_len")
p("VRF completeness",
  "vrf_sign produces an input/output and proof such that vrf_verify with the output's bytes and the proof returns Ok with the same VRFInOut and the same batchable proof, iff the output is not the identity; for malleable and non-malleable transcripts, Kusama and standard framing, and for vrf_sign_extra / vrf_verify_extra with equal extra transcripts.",
  "all keys, inputs, extra transcripts, RNG", "all inputs and hash outcomes",
  "src/vrf.rs: vrf_sign, vrf_sign_extra, dleq_prove, dleq_verify, vrf_verify, vrf_verify_extra")
p("VRF proof forms agree",
  "shorten_dleq of the batchable proof returned by signing equals the short proof, verification of the short proof reconstructs exactly the batchable proof, and the codecs of VRFPreOut, VRFProof, VRFProofBatchable round-trip with exact error tables.",
  "all proofs and byte strings", "all inputs",
  "src/vrf.rs: VRFProofBatchable::shorten_dleq, shorten_vrf, VRFProof, VRFPreOut")
p("VRF rejects identity outputs",
  "vrf_verify (and multi variants) never returns Ok when the claimed output is the identity point; VRFPreOut::attach_input_hash returns PointDecompressionError exactly when the 32 bytes do not decode or decode to identity.",
  "every transcript, proof and key", "universal negative",
  "src/vrf.rs: VRFPreOut::attach_input_hash, vrf_verify")
p("VRF output uniqueness (DLEQ soundness)",
  "For a public key x*B and VRF input, if the claimed output is not x*input then for each pair (R,Hr) at most one challenge value can make the proof verify; hence two accepting proofs with the same (R,Hr) and different challenges imply the output is the unique x*input.",
  "every key, input, claimed output, proof", "soundness over all adversarial proofs",
  "src/vrf.rs: dleq_verify, vrf_verify")
p("VRF sign-after-check decisions",
  "vrf_sign_after_check returns a proof iff the check returns true (or the extra transcript), and what it returns is exactly what vrf_sign / vrf_sign_extra returns and verifies (for non-identity outputs); the output examined by the check is the output returned.",
  "all keys, inputs, predicates", "all predicates",
  "src/vrf.rs: vrf_sign_after_check, vrf_sign_extra_after_check")
p("VRF multi-output proofs",
  "vrfs_sign over any nonempty list of inputs yields a proof which vrfs_verify accepts for the outputs in the same order (all outputs non-identity after merging); merging uses per-pair coefficients derived from all inputs and outputs; a wrong output in any position passes only for a bounded fraction of coefficient vectors; empty input panics.",
  "all list lengths and positions", "unbounded lists, counting over coefficients",
  "src/vrf.rs: vrfs_merge, vrfs_sign, vrfs_verify, vrfs_sign_extra")
p("VRF verification drops surplus transcripts (defect)",
  "vrfs_verify(_extra) and vrf_verify_batch, given one transcript more than outputs, silently ignore the surplus transcript and answer as if it were absent, although their assertion says the lengths must agree; with two or more surplus transcripts, or too few transcripts, they panic (once all paired outputs decode to non-identity points). vrfs_verify with empty lists panics instead of returning an error.",
  "all list lengths, outputs and proofs", "all lengths",
  "src/vrf.rs: vrfs_verify_extra, vrf_verify_batch, attach inputs zip")
p("VRF batch verification",
  "dleq_verify_batch returns Ok for every list of individually valid batchable proofs whatever coefficients; with at least one invalid proof at most a 2^-128 fraction of the 128-bit coefficient vectors make the check succeed; vrf_verify_batch rejects identity outputs.",
  "all batch sizes, all coefficients", "counting",
  "src/vrf.rs: dleq_verify_batch, vrf_verify_batch")
p("VRF outputs bind context, input and output",
  "make_bytes/make_rng/make_chacharng/make_merlin_rng outputs depend only on (context, input, output) - never on the proof, RNG or extra transcript - and different contexts, inputs or outputs give different hash inputs; signer and verifier derive equal bytes.",
  "all contexts and VRF pairs", "injectivity over unbounded strings",
  "src/vrf.rs: VRFInOut::make_bytes, make_merlin_rng, commit")
p("Malleable VRF transcripts and HDKD",
  "Non-malleable transcripts commit the public key so different keys have different VRF input queries; malleable transcripts do not, hence for soft-derived children child output = parent output + scalar*input (related outputs), which is why malleable must not be combined with HDKD.",
  "all keys, derivations and inputs", "relational over all derivations",
  "src/vrf.rs: VRFSigningTranscript, Malleable, vrf_malleable_hash", "src/derive.rs")
p("Soft derivation commutes with taking public keys",
  "For every path of soft derivations (any length, any transcripts/chain codes), deriving the secret key then taking its public key equals deriving the public key, with equal chain codes at each step; SecretKey, Keypair and ExtendedKey derivations agree; the derived scalar and chain code do not depend on any RNG.",
  "all paths of any length, all chain codes, keys, RNGs", "unbounded paths",
  "src/derive.rs: Derivation for SecretKey, PublicKey, Keypair, ExtendedKey; derived_key, derived_key_simple")
p("Soft-derived child secret reveals the parent secret",
  "Given a soft child secret key, the parent public key and chain code, the parent secret scalar is computable by subtraction, for every path; hard derivation uses a query on the secret key bytes and depends on nothing else but message and chain code.",
  "all keys and paths", "universal relational",
  "src/derive.rs: derive_secret_key, hard_derive_mini_secret_key")
p("Adaptor (implicit) certificates",
  "For honest issuance the secret key from accept_adaptor_cert matches the public key everybody obtains from open_adaptor_cert, and issue_self_adaptor_cert yields such a pair without panicking. For arbitrary (malicious) certificates: accept_adaptor_cert fails iff the second half is not a canonical scalar, open_adaptor_cert fails iff the first half does not decode, and the accepted key matches the opened key iff the reconstruction point G satisfies G = (s + seed)*B - e*A (accept does not check this). A certificate whose reconstruction point is reused with two different challenges and both secrets known reveals the issuer secret; the challenge is a hash query determining the transcript, issuer key and reconstruction point.",
  "all issuers, seeds, transcripts, malicious certificates, RNGs", "all adversarial certificates",
  "src/cert.rs: issue_adaptor_cert, accept_adaptor_cert, open_adaptor_cert, issue_self_adaptor_cert")
p("Key exchange / AEAD agreement",
  "The two sides of every key exchange derive the same AEAD key for all keys, contexts and transcripts: commit_key_exchange, aead_unauthenticated / aead32_unauthenticated, init_aead(32)_unauthenticated against the receiver, sender_aead / reciever_aead (two Diffie-Hellman), and the adaptor-certificate variants, whose receiver fails exactly when the certificate does not decode. The AEAD key is a hash query that determines context, both public keys and shared point. Caveat proved: with the identity as the peer's public key the shared point is the identity, so the key is publicly computable.",
  "all keys, contexts, ephemeral secrets, certificates, RNGs", "all inputs",
  "src/aead.rs: raw_key_exchange, commit_key_exchange, aead_unauthenticated, aead32_unauthenticated, init_aead_unauthenticated, sender_aead, reciever_aead, sender_aead_with_adaptor_cert, reciever_aead_with_adaptor_cert")
p("MuSig: no internal panic and errors change nothing",
  "In every cosigning session and every history of commitments, reveals and cosignatures (any bytes, any order, duplicates, from outsiders), no internal expect/unwrap/index panics, every rejected message returns an error and leaves the observable state unchanged.",
  "all operation histories of any length", "unbounded adversarial histories",
  "src/musig.rs: MuSig::add_their_commitment, add_their_reveal, add_their_cosignature, commit_stage, reveal_stage, cosign_stage")
p("MuSig: reveals bind to commitments and entries are immutable",
  "A reveal is accepted iff its hash equals the stored commitment or it repeats the stored reveal; once revealed (cosigned), a participant's entry never changes whatever later messages arrive; duplicates are accepted idempotently, conflicting ones return MuSigInconsistent, unknown signers MuSigAbsent.",
  "all histories", "invariant over histories",
  "src/musig.rs: CoP, add_their_commitment, add_their_reveal, add_their_cosignature")
p("MuSig: honest protocol completeness and agreement",
  "For any nonempty set of signers who exchange honest messages in any order with any duplication, every signer's sign() is Some and all of them, and any collector, output the same signature, which verifies under the aggregate public key with ordinary verification.",
  "all numbers of signers, message orders, duplications", "all schedules and sizes",
  "src/musig.rs: MuSig::sign, cosign_stage, collect_cosignatures", "src/sign.rs: verify")
p("MuSig aggregate key is order independent",
  "The aggregate public key depends only on the set of signer keys, not on insertion order, and the map- and slice-based aggregations agree; the slice a caller passes in is only reordered (into non-decreasing order of encodings, even when the answer is None because of a duplicate), and the variant for sorted slices leaves it alone; sign() returns None iff some revealed participant lacks a cosignature.",
  "all sets and permutations", "all permutations",
  "src/musig.rs: AggregatePublicKey, aggregate_public_key_from_slice, aggregate_public_key_from_refs_slice")
p("AggregatePublicKeySlice::weighting is inverted (defect)",
  "weighting returns None for every key that is in the slice and Some for every key that is not (for slices of length not 1), contrary to its contract and to the map-based implementation.",
  "all sorted slices and keys", "universal characterisation",
  "src/musig.rs: AggregatePublicKeySlice")
p("Serde round trip",
  "Serializing any public type then deserializing returns an equal value for formats presenting bytes as sequences (JSON, bincode); deserialization validates exactly like from_bytes; formats with a distinct byte-string type fail because deserialization goes through an owned sequence (defect).",
  "all values and format behaviours", "all values/all formats",
  "src/serdey.rs: serde_boilerplate")
p("Deprecated-format verification",
  "PublicKey::verify_simple_preaudit_deprecated decides strings accepted by Signature::from_bytes exactly as verify_simple (no fallback acceptance of marked signatures under the legacy transcript), and unmarked strings only by the legacy equation; from_bytes_not_distinguished_from_ed25519 accepts exactly the 64-byte strings whose scalar is canonical once bit 255 is ignored, with ScalarFormatError or BytesLengthError otherwise.",
  "all contexts, messages, byte strings", "all byte strings",
  "src/sign.rs: verify_simple_preaudit_deprecated, from_bytes_not_distinguished_from_ed25519")
p("Zeroize erases secret material",
  "After zeroize, every secret byte of a MiniSecretKey, SecretKey (scalar and nonce) or Keypair is zero and its public part is unchanged.",
  "all keys", "all values",
  "src/keys.rs: Zeroize impls")
p("Secret-key equality and generation",
  "Equality of secret keys ignores exactly the nonce; equality of mini secret keys compares all bytes; generate_with / Keypair::generate_with produce consistent canonical keypairs for every RNG.",
  "all keys and RNGs", "all RNG streams",
  "src/keys.rs: ConstantTimeEq for SecretKey, generate_with")
p("Half-aggregated (prepared) batches agree with batch verification",
  "A PreparedBatch made from n signatures verifies against any n transcripts and public keys exactly when verify_batch_deterministic accepts those signatures, transcripts and keys; it is always producible from equally long lists, contains the R parts in order and a canonical scalar sum, and verifies whenever every signature verifies individually.",
  "all batch sizes, transcripts, signatures, keys, iterator kinds", "unbounded sizes, relational",
  "src/batch.rs: PreparedBatch::new, PreparedBatch::verify, verify_batch_deterministic")
p("MuSig sign does not check shares: exact condition for a verifying result",
  "MuSig::sign returns None iff some revealed participant lacks a cosignature; otherwise it returns the sum of whatever shares were supplied, unchecked, and that signature verifies under the aggregate key iff the defects of the individual shares sum to zero; with exactly one wrong share the result never verifies.",
  "all sessions, all adversarial shares", "all adversarial share values and all group sizes",
  "src/musig.rs: add_their_cosignature, sign, collect_cosignatures, Signature output")
p("MuSig nonces are bound to the pre-session transcript and reuse reveals the key",
  "Each secret nonce of a MuSig session is a hash query containing the transcript as it was at session creation, the nonce seed, the reveal index and the RNG bytes - not the cosigner set; sessions created with the same transcript, key and RNG bytes use the same three nonces, their cosignature shares are linear equations with public coefficients in the same four unknowns, and any public combination of them that eliminates the nonces gives the secret key.",
  "all pairs of sessions, RNGs, transcripts", "relational over two sessions",
  "src/musig.rs: MuSig::new, cosign_stage; src/context.rs: witness_scalar")
p("VRF/DLEQ proof nonces are bound to their inputs; Kusama mode omits the public key",
  "The commitments of every VRF proof made over a merlin transcript are r*B and r*H where r is a hash of the whole extra-transcript history, the VRF input, the public key (non-Kusama mode only), the secret nonce seed and 32 RNG bytes, injectively framed. In Kusama mode - the one all vrf_sign functions use - the public key is missing, so with a repeated RNG two proofs by one secret key beside two different stored public keys over the same input share r, and if their challenges differ they reveal the secret key.",
  "all keypairs (also inconsistent ones), transcripts, inputs, RNGs", "all inputs and RNG behaviours, relational over two runs",
  "src/vrf.rs: dleq_proove, KUSAMA_VRF", "src/context.rs: witness_scalar")
p("Certificate, derivation and key-exchange secrets are bound to their inputs",
  "On merlin transcripts the issuer's blinding scalar, the nonce seed of an accepted certificate key, every value in issue_self_adaptor_cert, the nonce seed of a soft-derived key and the ephemeral key of an AEAD sender are each a hash of the transcript history, the listed secret seeds and fresh RNG bytes.",
  "all keys, transcripts, RNGs", "all inputs and RNG behaviours",
  "src/cert.rs: issue_adaptor_cert, accept_adaptor_cert, issue_self_adaptor_cert", "src/derive.rs: derive_secret_key", "src/aead.rs: sender_aead*")
p("An attached RNG replaces the system RNG",
  "Signing, VRF proving, derivation, certificate issuing/accepting and AEAD sending on attach_rng(t, rng) return exactly what they return on t when the system RNG is rng, and leave the system RNG untouched; attach_chacharng is the case where rng comes from a seed.",
  "all transcripts, RNGs, keys", "all RNG streams",
  "src/context.rs: SigningTranscriptWithRng, attach_rng, attach_chacharng")
p("Domain separation between all uses of the transcript hash",
  "Every place where the crate squeezes a merlin transcript (30 kinds: signature, legacy, VRF and certificate challenges, VRF inputs, outputs and RNGs, merge and batch coefficients, derivation, expansion, key exchange, MuSig commitments, weights and coefficients, and all secret nonces) asks a query from which the kind and every parameter - whatever transcript history the caller supplies - can be read back; the only exceptions are parameters the code does not hash (the public key of a malleable VRF input and of a Kusama proof nonce) and a Malleable history that itself ends with the frame vrf-nm-pk.",
  "all pairs of uses and all caller-chosen histories", "all histories of unbounded length, all pairs of call sites",
  "src/sign.rs", "src/vrf.rs", "src/batch.rs", "src/cert.rs", "src/aead.rs", "src/derive.rs", "src/musig.rs", "src/keys.rs", "src/context.rs")
p("RNGs made from a VRF output",
  "make_rng/make_chacharng seed the RNG with make_bytes of the seed length; the k-th request to make_merlin_rng is answered by a hash query naming the context, the VRF input and output and the sizes of all requests so far, injectively, and never equal to a make_bytes query.",
  "all VRF input/output pairs, contexts and request sequences", "unbounded request sequences",
  "src/vrf.rs: make_rng, make_chacharng, make_merlin_rng")
p("Debug output prints secret keys in full (defect)",
  "The text of {:?} for a MiniSecretKey, SecretKey or Keypair contains every secret byte in decimal, in order, so the whole secret can be read off a log line; two values of one type (also PublicKey and Signature) print the same text exactly when their bytes are equal; the numbers in the text of a PublicKey or Signature are exactly its public bytes.",
  "all keys", "all key values, injectivity over the whole type",
  "src/keys.rs: Debug for MiniSecretKey, SecretKey, Keypair, PublicKey", "src/sign.rs: Debug for Signature")
p("Signatures and VRF proofs reveal nothing beyond the public key",
  "For every public key, message and chosen (challenge, response) there is a signature (and a VRF proof for any claimed output) that verifies once the one challenge query it asks is answered so: a simulator needs no secret. And the signatures (proofs) a signer outputs are exactly the verifying ones, each produced by floor(2^512/l) or one more of the 2^512 possible answers to its nonce query - whatever the secret key.",
  "all keys, transcripts, signatures, hash functions", "a statement about the whole distribution, all keys and all answers",
  "src/sign.rs: SecretKey::sign, verify", "src/vrf.rs: dleq_proove, dleq_verify")
p("Wide reduction is as uniform as possible",
  "Every scalar made from 64 hash bytes (challenges, nonces, keys) hits each residue class modulo the group order floor(2^512/l) or floor(2^512/l)+1 times.",
  "all residue classes", "2^512 inputs",
  "src/context.rs: challenge_scalar, witness_scalar")
p("Knowledge soundness of signatures and rogue-key resistance of MuSig aggregation",
  "Two accepted signatures with the same commitment and different challenge answers give the secret key of the public key by an explicit formula; for an aggregate key, two discrete logarithms of the aggregate under two different answers to one participant's weight query give that participant's secret key; so four forgeries under an aggregate key, suitably forked, give the secret key of any chosen honest participant, whatever keys the others chose.",
  "all keys (also adversarially chosen), transcripts, signatures, hash functions", "universal over adversarial keys and hash answers",
  "src/sign.rs: verify", "src/musig.rs: compute_weighting, aggregate_public_key")
p("MuSig cosigned/uncosigned lists",
  "After every history of a session, cosigned() lists exactly the revealed participants whose share is on record (ourselves included), uncosigned() exactly the other revealed participants, both in the order of public_keys; sign() withholds the signature exactly as long as uncosigned() is non-empty. The session's own transcript is changed by nothing but the caller's edits through transcript() (and, at the stage changes, by what those steps commit).",
  "all session histories", "unbounded histories",
  "src/musig.rs: cosigned, uncosigned, sign")
p("The VRF on the wire",
  "On merlin transcripts vrf_verify(_extra) and vrfs_verify(_extra) accept exactly the outputs and proofs satisfying a closed description in terms of hash queries and group equations (public key hashed after the commitments - Kusama order), returning the decoded pair and commitments; what vrf_sign(_extra) emits satisfies it; the output bytes the user reads are the bytes on the wire.",
  "all keys, transcripts, outputs, proofs", "full characterisation over all inputs",
  "src/vrf.rs: vrf_sign_extra, vrf_verify_extra, vrfs_verify_extra, KUSAMA_VRF, as_output_bytes, to_preout")
p("VRF outputs are unique, even against the key owner (random-oracle model)",
  "Whoever makes at most q hash queries, with unlimited computing power and even knowing the secret key, gets an output other than key*hash(input) past vrf_verify_extra with probability at most (q+2)*guess (guess is about 2^-252), and two different outputs for one input with probability at most twice that.",
  "all adaptive adversaries, public keys, transcripts; probability over the answers of the hash function", "quantifies over all adversaries and all hash functions; the probability is not measurable by sampling",
  "src/vrf.rs: vrf_verify_extra, dleq_verify, vrf_malleable_hash")
p("Signatures cannot be forged under chosen-message attack (random-oracle model)",
  "For every adversary making q adaptive hash queries and m adaptive signing requests on transcripts of its choice - and choosing what the signer's system RNG returns at each request - that outputs with probability e (over the secret nonce seed and the hash function) bytes that parse and verify as a signature not given out before for that transcript, an explicit procedure knowing only the public key computes the secret key with probability at least d(d/(q+1)-guess), d = e - q/2^256 - m((q+m)guess+spare). So signatures are strongly unforgeable if discrete logarithms are hard, whatever the system RNG does.",
  "all adaptive adversaries, keys, RNG behaviours; probability over nonce seed and hash function", "quantifies over all adversaries; unforgeability cannot be tested",
  "src/sign.rs: SecretKey::sign, PublicKey::verify, Signature::from_bytes", "src/context.rs: witness_scalar, challenge_scalar")
p("Deterministic batch verification accepts individually invalid signatures (defect); what a half-aggregate proves",
  "The batch coefficients do not depend on the scalars of the signatures, so two batches that differ only in scalars with the same coefficient-weighted sum get the same verdict. Hence anybody can take a batch of valid signatures, move two scalars by public amounts and obtain a batch that verify_batch_deterministic accepts although neither altered signature verifies. What acceptance of a half-aggregate does prove: two accepted prepared scalars for the same R's under hash functions differing only in the j-th coefficient give a valid j-th signature.",
  "all batches, keys, transcripts, hash functions, dedup flags", "universal over batches and hash functions; the positive half is about pairs of hash functions",
  "src/batch.rs: verify_batch_deterministic, verify_batch_rng, prepare_batch, PreparedBatch::verify")
p("Batch verification is sound (random-oracle model)",
  "Whoever makes at most q hash queries, with unlimited computing power and choosing all keys, transcripts, signatures or proofs, gets a batch containing an entry that individual verification rejects past verify_batch, dleq_verify_batch or vrf_verify_batch with probability at most 2^-128 + q/2^256, over the hash function and the 32 bytes of the verifier's RNG; and makes vrf_verify_batch return a wrong VRF output with probability at most that plus (q+2N)*guess for batches of up to N entries.",
  "all adaptive adversaries, keys, batches of any size; probability over hash function and verifier RNG", "quantifies over all adversaries; a probability of 2^-128 is not measurable",
  "src/batch.rs: verify_batch, verify_batch_rng", "src/vrf.rs: dleq_verify_batch, vrf_verify_batch")
p("Several VRF outputs under one proof are unique, even against the key owner (random-oracle model)",
  "Whoever makes at most q hash queries, with unlimited computing power and even knowing the secret key, gets m outputs of which at least one is not key*hash(input) past vrfs_verify_extra with probability at most (q+2m+1)*(guess+2^-128), choosing inputs, outputs, multiplicities and extra transcript freely; and two different outputs for one input, in one call or two, with at most twice that.",
  "all adaptive adversaries, public keys, transcripts, numbers of outputs below the group order; probability over the answers of the hash function", "quantifies over all adversaries and all hash functions; the probability is not measurable by sampling",
  "src/vrf.rs: vrfs_verify_extra, vrfs_merge, dleq_verify, challenge_scalar128")
p("Transcripts passed by mutable reference; protocols of many steps over one transcript",
  "Passing &mut t instead of t to sign, verify, dleq_proove, dleq_verify, derived_key, commit_key_exchange, sender_aead, reciever_aead, issue_adaptor_cert, accept_adaptor_cert or open_adaptor_cert gives the same results (including randomness from an attached RNG) and leaves the advanced transcript with the caller. A protocol of any length made of commitments, challenges, signatures, DLEQ proofs, certificates (issued / opened), soft derivations (of secret / public keys) and key exchanges (sender / receiver) over one transcript, run by a prover and a verifier with the same starting history: every step is accepted, the challenges, certified keys, derived keys, chain codes and AEAD keys agree and the transcripts end in step, whatever the RNGs. Only the holder of a certificate ends out of step: accept_adaptor_cert leaves the transcript one challenge (adaptor-e) behind that of the issuer and of open_adaptor_cert. On merlin transcripts the verifier's transcript records exactly a fixed list of frames per step, and two accepted runs of the same kinds of steps ending in equal transcripts agree in every committed byte, key, statement, signature, proof, certificate, chain code and ephemeral key.",
  "all protocols (lists of steps), keys, transcripts, RNGs, transcript types with equal histories", "unbounded protocol lengths and all inputs",
  "src/context.rs: impl SigningTranscript for &mut T; src/sign.rs: sign, verify; src/vrf.rs: dleq_proove, dleq_verify; src/derive.rs: derive_scalar_and_chaincode; derived_key; src/aead.rs: commit_key_exchange, sender_aead, reciever_aead; src/cert.rs: issue_adaptor_cert, accept_adaptor_cert, open_adaptor_cert")
p("Aggregate keys of multi-signatures cannot be controlled by rogue keys (random-oracle model)",
  "Whoever names a set of public keys that includes an honest key, choosing the others in any way, together with the discrete logarithm of the aggregate key the crate computes for that set, with probability e, can compute the secret key of the honest one from two runs with probability at least e(e/(q+1)-guess). Whoever outputs such a set and a signature that verifies under the aggregate key can compute it from four runs, with probability at least d(d/2n-guess) where d=e(e/n-guess), n=q+m+1, q hash queries, m cosigners.",
  "all adaptive adversaries (without signing queries), public keys, sets of cosigners, transcripts; probability over the answers of the hash function", "quantifies over all adversaries and all hash functions; the probability is not measurable by sampling",
  "src/musig.rs: AggregatePublicKey, compute_weighting, commit_public_keys; src/sign.rs: verify")
p("Signatures and proofs have one meaning (random-oracle model)",
  "Whoever makes at most n hash queries, with unlimited computing power and even choosing all secret keys, finds one signature (in wire format) that verifies for two different pairs of transcript and non-identity public key with probability at most (n+2)(n+1)/2*guess (guess is about 2^-252); the same for triples of context, message and key with verify_simple; and the same for one DLEQ proof passing dleq_verify for two different statements (transcript, key, input, output, Kusama flag). So a signer cannot later claim to have signed something else, and nobody can claim somebody else's signature with a key of his own.",
  "all adaptive adversaries, keys, transcripts, signatures, proofs; probability over the answers of the hash function", "quantifies over all adversaries and all hash functions; the probability is not measurable by sampling",
  "src/sign.rs: verify, verify_simple, Signature::from_bytes; src/vrf.rs: dleq_verify")
p("Derived values do not collide (random-oracle model)",
  "Whoever makes at most n hash queries finds, with probability at most (n+2)(n+1)/2 times the chance of one match: two different reveals that honest MuSig cosigners accept for one commitment (2^-128); two different pairs of context and VRF input/output with the same k bytes from make_bytes (256^-k); two different triples of index, chain code and secret scalar with the same hard-derived mini secret key or chain code (2^-256); two key exchanges differing in context, pair of public keys or shared point with the same k-byte AEAD key (256^-k); two different triples of transcript, chain code and parent with the same soft-derived public key (guess); two different triples of transcript, non-identity issuer and certificate that open to the same public key (guess).",
  "all adaptive adversaries, inputs and output sizes up to 64 bytes; probability over the answers of the hash function", "quantifies over all adversaries and all hash functions; the probability is not measurable by sampling",
  "src/musig.rs: add_their_reveal, Reveal::to_commitment; src/vrf.rs: make_bytes; src/derive.rs: hard_derive_mini_secret_key, derived_key; src/aead.rs: aead_unauthenticated; src/cert.rs: open_adaptor_cert")
p("Values derived from a secret look random to whoever cannot name the secret (random-oracle model)",
  "For every client, with unlimited computing power and choosing its requests adaptively, that makes at most q hash queries: with a random secret chain code, soft-derived child public keys and chain codes look like the parent plus a random multiple of the base point and random bytes (up to q/2^256), and children of two different parents cannot be told apart (2q/2^256 + 2^-259 per transcript); a key expanded in uniform mode from a random mini secret key cannot be told from a random secret key even when it is shown (q/2^256), so forging signatures under it is as hard as under a random key; a MuSig commitment to random nonces cannot be told from 16 random bytes (q*guess). For every fixed secret key: hard-derived mini secret keys and chain codes, AEAD session keys (one and two Diffie-Hellman exchanges) and VRF output bytes cannot be told from independent random strings, except with the probability that the client, when it is given random strings instead, hashes a message containing the secret scalar, the shared point(s), the VRF output point.",
  "all adaptive clients, keys, transcripts, contexts, indices; probability over the hash function and the secret", "quantifies over all adversaries and all hash functions; the probability is not measurable by sampling",
  "src/derive.rs: derived_key, hard_derive_mini_secret_key; src/keys.rs: MiniSecretKey::expand_uniform; src/aead.rs: aead_unauthenticated, reciever_aead; src/vrf.rs: make_bytes; src/musig.rs: Reveal::to_commitment")
p("Error messages identify the error",
  "The text shown for an error determines the kind of error, the multi-signature stage and duplicate flag, the type name and the expected length (only the description of a length error is not shown), whatever the names and lengths. Every decoder, given input of a wrong length, reports its own type's name, description and length: for example 'PublicKey must be 32 bytes in length'.",
  "all errors, names, lengths; all byte strings of wrong length, all decoders", "injectivity over unbounded names and lengths; all inputs",
  "src/errors.rs: Display for SignatureError, MultiSignatureStage; src/keys.rs, src/points.rs, src/sign.rs, src/vrf.rs: from_bytes")
p("One key pair can be used for signatures, VRFs and certificates at the same time (random-oracle model)",
  "Take any attacker that, adaptively and with the owner's system RNG under its control, makes at most q hash queries and gets at most m answers from the owner of a key pair: signatures on transcripts, VRF outputs with proofs (at any point, with any extra transcript, so in particular vrf_sign_extra and vrfs_sign_extra), adaptor certificates for seed keys. If with probability e it makes a new signature (as bytes), a VRF proof not given out for its input, output and extra transcript, or a certificate that was not issued on its transcript and opens to the public key of a secret key it shows, then an explicit procedure given only the public key and the VRF outputs finds the secret key with probability at least d(d/(q+1) - guess), d = e - q/2^256 - m((q+m)*guess + spare). If no VRF proofs are requested, it needs the public key alone. So the three services do not interfere: none of them helps to abuse another.",
  "all adaptive attackers, all mixtures of requests, transcripts, points, RNG answers; probability over the nonce seed and the hash function", "quantifies over all adversaries and all hash functions; the probability is not measurable by sampling",
  "src/sign.rs: sign, verify; src/vrf.rs: vrf_create_from_point, dleq_proove, dleq_verify, vrf_sign_extra, vrfs_sign_extra; src/cert.rs: issue_adaptor_cert, open_adaptor_cert")
p("All uses of a key pair together (random-oracle model)",
  "Besides signatures, VRF proofs and certificates the owner of a key pair derives secret values from it: VRF output bytes, AEAD session keys with one or two Diffie-Hellman exchanges, hard-derived mini secret keys and chain codes. Take any attacker that gets at most m of the former and any number of the latter, all at inputs it chooses adaptively and with the system RNG under its control, and makes at most q hash queries. Whatever it tries to find out, it succeeds almost equally often in a world where the values are independent random strings and the rest is made from coins, the public key and the VRF outputs at points it asked proofs for; the difference is at most the probability that, in that world, it hashes a message containing the VRF output point, the shared point(s) or the secret scalar behind a value it requested, plus q/2^256 + m((q+m)*guess + spare). And if it forges with probability e, the secret key is found with probability at least d(d/(q+1) - guess), where d is e less that probability and twice that loss. So deriving values does not help to forge, and signing does not help to learn values.",
  "all adaptive attackers, all mixtures of requests, transcripts, points, contexts, indices, RNG answers; probability over the nonce seed and the hash function", "quantifies over all adversaries and all hash functions; the probability is not measurable by sampling",
  "src/sign.rs: sign, verify; src/vrf.rs: vrf_create_from_point, make_bytes, dleq_proove; src/cert.rs: issue_adaptor_cert; src/aead.rs: aead_unauthenticated, reciever_aead; src/derive.rs: hard_derive_mini_secret_key")
p("A key pair and everything soft-derived from it are safe to use together (random-oracle model)",
  "The owner of a key pair uses it and the key pairs soft-derived from it along any paths; the root public key and the chain code are public, and the hash values behind tweaks and chain codes may be anything. The public keys anybody derives are those of the owner's key pairs, whatever the RNG does. Take any attacker that makes at most q hash queries and at most m requests, each naming a path and asking the key pair at its end for a signature, a VRF output with proof or a certificate, adaptively and with the system RNG under its control; let c be the number of key pairs on these paths. If with probability e it makes a new signature, proof or certificate under the public key at the end of any path (one not given out under that same public key), then an explicit procedure finds the root's secret key from the root public key, the chain code and the root's VRF outputs with probability at least d(d/(q+1)-guess), where d = e - c(c+q)/2^256 - m((q+m)guess+spare). So answers under one derived key never help against another or against the root, even though the secret scalars differ by public amounts and each nonce seed is a hash of the parent's.",
  "all adaptive attackers, all paths, requests, transcripts, points, RNG answers, all behaviours of the derivation hash; probability over the root's nonce seed and the rest of the hash function", "quantifies over all adversaries and all hash functions; the probability is not measurable by sampling",
  "src/derive.rs: derived_key, derive_secret_key, derive_scalar_and_chaincode; src/sign.rs: sign, verify; src/vrf.rs: dleq_proove, dleq_verify; src/cert.rs: issue_adaptor_cert, open_adaptor_cert")
p("Wallets made from random mini secret keys are safe, in both expansion modes (random-oracle model)",
  "Expand a mini secret key of 32 random bytes to a key pair, in uniform mode or in Ed25519 mode, and use the key pair and everything soft-derived from it as in C75, with a public chain code. For every attacker that is given the root public key and makes at most q hash queries (and, in Ed25519 mode, at most s evaluations of SHA-512), the chance of a forgery differs by at most q/2^256 (s/2^256) from that against a wallet whose secret scalar and nonce seed are made of random bytes. If an attacker with at most m requests forges with probability e, an explicit procedure finds the discrete logarithm of a random public key, given its VRF outputs, with probability at least d(d/(q+1)-guess), where d = e - (q or s)/2^256 - c(c+q)/2^256 - m((q+m)guess+spare) and c is the number of key pairs used. The random public key is that of 64 random bytes modulo the group order (uniform mode), or of the scalar that Ed25519 makes of 32 random bytes by clamping and division by the cofactor (Ed25519 mode).",
  "all adaptive attackers, all paths, requests, transcripts, points, RNG answers; probability over the mini secret key, the hash function and SHA-512", "quantifies over all adversaries and all hash functions; the probability is not measurable by sampling",
  "src/keys.rs: MiniSecretKey::expand, expand_uniform, expand_ed25519; src/derive.rs: derived_key; src/sign.rs: sign, verify; src/vrf.rs: dleq_proove, dleq_verify; src/cert.rs: issue_adaptor_cert, open_adaptor_cert")
p("Signatures on messages cannot be forged: the whole path from random bytes to bytes (random-oracle model)",
  "Make a mini secret key of 32 random bytes, expand it to a key pair in either mode, publish the 32 bytes of the public key, sign messages with sign_simple and publish the 64 bytes of the signatures. Take any attacker that is given the public key bytes, makes at most q hash queries and s evaluations of SHA-512, and gets at most m signatures on messages in contexts of its choice, adaptively and with the signer's system RNG under its control. If with probability e it comes up with a context, a message and a byte string that decodes to a signature accepted by verify_simple under the decoded public key, and that the signer did not return for that context and message, then an explicit procedure finds the discrete logarithm of a random public key from the public key alone with probability at least d(d/(q+1)-guess), where d = e - (2q+s)/2^256 - m((q+m)guess+spare). This is strong unforgeability: not even other bytes for a signed message can be made.",
  "all adaptive attackers, contexts, messages, RNG answers, both expansion modes; probability over the mini secret key, the hash function and SHA-512", "quantifies over all adversaries and all hash functions; the probability is not measurable by sampling",
  "src/keys.rs: MiniSecretKey::expand_to_keypair, PublicKey::to_bytes, from_bytes; src/sign.rs: sign_simple, verify_simple, Signature::to_bytes, from_bytes; src/context.rs: SigningContext")
p("Session keys, VRF bytes and derived secrets are as secret as Diffie-Hellman is hard (random-oracle model)",
  "Draw two secret scalars x and y in any way and give an attacker X = xB and Y = yB. It makes at most q hash queries, gets at most m signatures, certificates and VRF proofs (the latter at points whose discrete logarithm is known) from the owner of X, and any number of secret values that the owner of X derives with Y: AEAD session keys shared with the holder of Y, two-exchange session keys in which Y is the peer's ephemeral or static key and the other key is anything, VRF bytes at input Y, and any hard-derived mini secret keys and chain codes; all adaptively and with the system RNG under its control. Whatever it tries to find out, replacing these values by random strings and the rest by simulations without the secret key changes its chances by at most q times the probability that an explicit procedure, given X and Y only, finds the encoding of xyB, plus q/2^256 + m((q+m)guess+spare): so telling a session key from random bytes is solving the computational Diffie-Hellman problem. And if it forges a signature, certificate or VRF proof with probability e, the secret key is found from X and Y alone with probability at least d(d/(q+1)-guess), where d is e less q times that probability and less twice that loss.",
  "all distributions of the two keys, all adaptive attackers, contexts, transcripts, points, indices, RNG answers; probability over the keys, the nonce seed and the hash function", "quantifies over all adversaries and all hash functions; the probability is not measurable by sampling",
  "src/aead.rs: aead_unauthenticated, reciever_aead; src/vrf.rs: make_bytes; src/derive.rs: hard_derive_mini_secret_key; src/sign.rs: sign; src/cert.rs: issue_adaptor_cert")
p("Batch verification does not weaken a key that is in use (random-oracle model)",
  "Take any attacker that, adaptively and with the owner's system RNG under its control, makes at most q hash queries and gets at most m answers from the owner of a key pair (signatures, VRF outputs with proofs, certificates), and then names a batch of any length under any public keys. If with probability e verify_batch (with either zip function and with or without key deduplication, the verifier's RNG being random) accepts a batch in which some entry under the owner's public key is a signature the owner did not give out for its transcript, then an explicit procedure finds the secret key, given the public key and the VRF outputs, with probability at least d(d/(q+1)-guess), where d = e - 1/2^128 - (q+2m)/2^256 - q/2^256 - m((q+m)guess+spare). The same holds for vrf_verify_batch and an entry whose preoutput and proof the owner did not give out for its input, with q+2N in place of q for batches of at most N entries. So an attacker gains nothing by having its forgery checked in a batch rather than alone.",
  "all adaptive attackers, batches, keys, transcripts, points, RNG answers; probability over the nonce seed, the hash function and the verifier's RNG", "quantifies over all adversaries and all hash functions; the probability is not measurable by sampling",
  "src/batch.rs: verify_batch, verify_batch_rng, verify_batch_deterministic; src/vrf.rs: vrf_verify_batch, dleq_verify_batch, dleq_proove; src/sign.rs: sign, verify; src/cert.rs: issue_adaptor_cert")
p("VRF outputs are pseudorandom and cannot be predicted (random-oracle model)",
  "Draw a secret scalar x in any way. A client is given the public key X, makes at most q hash queries (one for each VRF input included), and gets from the owner at most m signatures, certificates and VRF outputs with proofs (vrf_sign_extra on input transcripts of its choice), and any number of byte strings that make_bytes makes of the VRF outputs on input transcripts for which it gets no proof, malleable or not, all adaptively and with the system RNG under its control. Whatever it tries to find out, replacing these byte strings by independent random ones, one for each context, input point and length, changes its chances by at most q^2 times the probability that an explicit procedure, given X and 64 random bytes, finds xY for the point Y these bytes are mapped to, plus 2(q/2^256 + m((q+m)guess+spare)). Hence, if it ends with a guess of at least N bytes that make_bytes would give on some input transcript for which it has no proof, and did not ask for these bytes, the guess is right with probability at most 256^-N plus that bound. So nobody can predict a VRF lottery without the key, even after seeing other outputs and proofs.",
  "all distributions of the key, all adaptive clients, transcripts, contexts, lengths up to 64, RNG answers; probability over the key, the nonce seed and the hash function", "quantifies over all adversaries and all hash functions; the probability is not measurable by sampling",
  "src/vrf.rs: vrf_hash, vrf_create_hash, make_bytes, vrf_sign_extra, dleq_proove; src/points.rs: RistrettoBoth; src/sign.rs: sign; src/cert.rs: issue_adaptor_cert")
p("Keys made by accepting certificates are safe, even from the issuer (random-oracle model)",
  "The owner of a key pair makes further key pairs from it, along any paths of two kinds of steps: soft derivation with any public chain code, and accepting an adaptor certificate from any issuer with the key pair as the seed key. The issuers may be the attacker: they choose their public keys, the transcripts and the certificates in any way (certificates with a scalar out of range are refused). Every step succeeds and gives a key pair that is consistent, with a secret scalar shifted by a public amount; an honest certificate opens to its public key. Take any attacker that makes at most q hash queries and at most m requests, each naming a path (with all its chain codes and certificates) and asking the key pair at its end for a signature, a VRF output with proof or a certificate, adaptively and with the system RNG under its control; let c be the number of key pairs on these paths. If with probability e it makes a new signature, proof or certificate under the public key at the end of any path (one not given out under that same public key), then an explicit procedure finds the root's secret key from the root public key and the root's VRF outputs with probability at least d(d/(q+1)-guess), where d = e - c(c+q)/2^256 - m((q+m)guess+spare). So a certified key cannot be used by its issuer, and accepting any number of hostile certificates under one seed key endangers neither it nor the other keys.",
  "all adaptive attackers and issuers, all paths, certificates, chain codes, requests, transcripts, points, RNG answers, all behaviours of the derivation hash; probability over the root's nonce seed and the rest of the hash function", "quantifies over all adversaries and all hash functions; the probability is not measurable by sampling",
  "src/cert.rs: accept_adaptor_cert, open_adaptor_cert, issue_adaptor_cert; src/derive.rs: derived_key, derive_secret_key; src/sign.rs: sign, verify; src/vrf.rs: dleq_proove, dleq_verify")
p("Multi-signatures cannot be forged even by someone running many sessions with the victim at once (random-oracle model)",
  "The owner of a key takes part in multi-signature sessions: it starts a session for a transcript and sends its commitment, then takes the commitments of the others and reveals, then takes their reveals and cosigns once everyone on record has revealed (messages the crate reports as wrong are ignored; otherwise a message may be anything, also a copy of one of the owner's own in another session). Take any attacker that plays all the other cosigners in any number of concurrent sessions, makes up their keys as it goes, interleaves the messages of all sessions as it likes and adapts everything to what it has seen: at most q hash queries, m sessions and r further requests with at most b messages each. It wins by outputting a signature that verifies under the aggregate key of any set of at most g keys that includes the owner's, for a transcript and an aggregate key with which the owner has revealed in no session. Let e be its probability of winning minus an explicit small loss (of the order of (q+m+rb)^2/2^128, since commitments have 16 bytes). Then an explicit procedure that does not have the secret key - it plays the owner without it, runs the attack four times and computes - finds the secret key with probability at least d(d/2n-guess), where d = e(e/n-guess) and n = q+r(4b+5)+g+1. So there is no attack by rogue keys, by choosing nonces or cosigners late or by combining concurrent sessions, if discrete logarithms are hard.",
  "all adaptive attackers, all interleavings of concurrent sessions, all cosigner keys, commitments, reveals and transcripts, all secret keys; the system RNG is arbitrary but must not repeat itself; probability over the nonce seed and the hash function", "quantifies over all adversaries, schedules and hash functions; the probability is not measurable by sampling",
  "src/musig.rs: MuSig::new, our_commitment, add_their_commitment, reveal_stage, our_reveal, add_their_reveal, cosign_stage, our_cosignature, expected_public_key, compute_weighting, rewinder, compute_R; src/context.rs: witness_scalar, challenge_scalar; src/sign.rs: verify")
p("Many users are as safe as one, even if keys of some of them leak (random-oracle model)",
  "Any number N of users each have a secret key of their own, with a random scalar and a random nonce seed. Take any attacker that knows all the public keys, makes at most q hash queries and sends at most m requests, adaptively, each of which either asks a user of its choice for a signature, a VRF output with proof or a certificate (transcripts, points and system RNG being the attacker's choice, and possibly the same for several users), or obtains the whole secret key, with the nonce seed, of a user of its choice. If with probability e it ends up with a signature, a VRF proof or a certificate with its secret key that verifies under the public key of a user whose secret key it did not obtain, and that this user did not give out, then an explicit procedure finds the discrete logarithm of a given random public key with probability at least d(d/(q+2m+1)-guess), d = e/N - (q+2m)/2^256 - m((q+3m)*guess+spare): it makes the given public key that of a random user, draws the secret keys of all other users itself, and never uses the secret key of the chosen user (only its VRF outputs).",
  "any number of users, all adaptive attackers, leaks, requests, transcripts, points, RNG answers; probability over all the users' secret keys and the hash function", "quantifies over all adversaries and all hash functions; the probability is not measurable by sampling",
  "src/sign.rs: sign, verify; src/vrf.rs: dleq_proove, dleq_verify; src/cert.rs: issue_adaptor_cert, open_adaptor_cert; src/keys.rs: SecretKey, Keypair; src/context.rs: witness_bytes_rng")
p("A key can be used for multi-signature sessions and for everything else at once (random-oracle model)",
  "The setting of C82, but the attacker may at any time, between any messages of any sessions, also ask the same key pair for a plain signature, a VRF output with proof or a certificate, on transcripts, at points and with answers of the system RNG of its choice: at most p such requests, adaptively. It wins as in C82, by a signature under the aggregate key of a set of at most g keys that includes the owner's, for a transcript and aggregate key with which the owner has revealed in no session. Let e be its probability of winning minus an explicit small loss (that of C82, plus p/2^256 + p((q+p)guess+spare) + (q+p+r+1)guess). Then an explicit procedure that does not have the secret key finds it from the public key and the VRF outputs (from the public key alone if no VRF outputs are asked for) with probability at least d(d/2n-guess), where d = e(e/n-guess) and n = q+r(4b+5)+g+1. So plain signatures, proofs and certificates never help to forge a multi-signature: no separate key is needed for multi-signatures. (The secret key is not zero.)",
  "all adaptive attackers, all interleavings of concurrent sessions and other requests, all cosigner keys, messages, transcripts and points, all secret keys; the system RNG is arbitrary, but must not repeat itself in sessions; probability over the nonce seed and the hash function", "quantifies over all adversaries, schedules and hash functions; the probability is not measurable by sampling",
  "src/musig.rs: MuSig::new, our_commitment, add_their_commitment, reveal_stage, our_reveal, add_their_reveal, cosign_stage, our_cosignature; src/sign.rs: sign, verify; src/vrf.rs: dleq_proove; src/cert.rs: issue_adaptor_cert; src/context.rs: witness_scalar, challenge_scalar")
p("Taking part in multi-signature sessions endangers neither signatures nor VRF proofs nor certificates of the same key (random-oracle model)",
  "The setting of C84: the attacker runs any number of concurrent multi-signature sessions with the owner of a key pair, with cosigner keys and messages of its choice (at most m sessions and r further requests with at most b messages each), and in between asks the same key pair for plain signatures, VRF outputs with proofs and certificates, on transcripts, at points and with answers of the system RNG of its choice (at most p), all adaptively, with at most q hash queries. This time it wins by a plain signature that verifies under the owner's own public key, a VRF proof that verifies under it, or a certificate that opens under it to a public key whose secret key it shows, which the owner has not given out in answer to a plain request - whatever transcripts were used in sessions. Let e be its probability of winning minus the small explicit loss of C84. Then an explicit procedure that does not have the secret key - it plays the owner without it, runs the attack twice and divides - finds the secret key from the public key and the VRF outputs (from the public key alone if no VRF outputs are asked for) with probability at least e(e/n-guess), n = q+r(4b+5)+1. So the owner's commitments, reveals and cosignatures can never be turned into a plain signature, proof or certificate of the owner, not even by choosing the cosigners so that the aggregate key is related to the owner's. (The secret key is not zero.)",
  "all adaptive attackers, all interleavings of concurrent sessions and other requests, all cosigner keys, messages, transcripts and points, all secret keys; the system RNG is arbitrary, but must not repeat itself in sessions; probability over the nonce seed and the hash function", "quantifies over all adversaries, schedules and hash functions; the probability is not measurable by sampling",
  "src/musig.rs: MuSig::new, our_commitment, add_their_commitment, reveal_stage, our_reveal, add_their_reveal, cosign_stage, our_cosignature; src/sign.rs: sign, verify; src/vrf.rs: dleq_proove, dleq_verify; src/cert.rs: issue_adaptor_cert, open_adaptor_cert; src/context.rs: witness_scalar, challenge_scalar")
p("What each call reads from the random number generator",
  "Every call that needs randomness depends on the system RNG only through its answers to a fixed sequence of requests, and makes exactly these requests: signing (all variants), VRF and DLEQ proofs (one or many outputs), issuing and accepting certificates (also when accepting fails), deriving a child secret key and sending with two-key exchange make one 32-byte request on merlin and extendable-output transcripts; a multi-signature session makes three when it starts and none later; a self-issued certificate, or sending with one, makes three; generating a key pair (also for encryption to a public key) asks for 64 then 32 bytes, a mini secret key for 32; batch verification uses at most one 32-byte answer whatever its size. On a transcript with an attached RNG none of the transcript-based calls touches the system RNG. Deriving public keys reads nothing; VRF outputs, the decision whether to sign, derived secret scalars and chain codes do not depend on the RNG at all. Hence an RNG that repeats itself (a restored snapshot, a forked process) makes the call repeat its result exactly.",
  "all RNGs, transcripts of all kinds, keys, messages, certificates, batches", "quantifies over all RNG states; a test sees one", 
  "src/context.rs: witness_bytes, witness_bytes_rng, SigningTranscriptWithRng; src/sign.rs: sign; src/vrf.rs: dleq_proove, dleq_verify_batch; src/cert.rs: issue_adaptor_cert, accept_adaptor_cert, issue_self_adaptor_cert; src/derive.rs: derive_secret_key; src/musig.rs: MuSig::new; src/keys.rs: generate_with; src/aead.rs: sender_aead, init_aead_unauthenticated; src/batch.rs: verify_batch")
p("Exactly which calls can panic",
  "Of the public calls, only those that check list lengths can panic on their arguments, and they do so on exactly these inputs: verify_batch (all variants), PreparedBatch::new and PreparedBatch::verify when the numbers of transcripts, signatures and keys differ (with a generic iterator one surplus transcript goes unnoticed); PreparedBatch::write_bytes when the buffer is not exactly byte_len long; PreparedBatch::read_bytes on every string of an acceptable length in debug builds, and in release builds when its first 32 bytes without the top bit are a reduced scalar (otherwise a scalar error; a length error on other lengths); vrfs_merge and vrfs_sign on the empty list; dleq_verify_batch, vrf_verify_batch and vrfs_verify on exactly stated length mismatches. PreparedBatch::new and vrfs_sign never return an error. The internal expects are unreachable: issuing a certificate to oneself and encrypting under a self-issued certificate succeed for every key pair (consistent or not), transcript and random source, and no history of MuSig calls panics.",
  "every list of transcripts, signatures, keys, outputs and proofs of any lengths, every byte string, both build profiles, every key pair, transcript and random source, every history of MuSig calls",
  "a panic on a rare input is a denial of service; tests exercise a few lengths and can never show that an expect is unreachable for all keys, transcripts and random sources",
  "src/batch.rs: verify_batch, PreparedBatch::{new,verify,read_bytes,write_bytes}","src/vrf.rs: vrfs_merge, vrfs_sign_extra, vrfs_verify_extra, dleq_verify_batch, vrf_verify_batch","src/cert.rs: issue_self_adaptor_cert","src/aead.rs: sender_aead_with_adaptor_cert","src/musig.rs")

p("Comparing, hashing and viewing protocol values",
  "VRF input/output pairs are equal under == exactly when both points are equal, in debug builds the comparison never fails its assertion, cmp is the lexicographic total order of input then output encodings, agrees with partial_cmp and with ==, and equal values are exactly those fed to a hasher alike; pre-outputs compare, order and hash as their 32 bytes and two outputs share a pre-output iff they are the same point; signatures, both kinds of VRF proofs and reveals are equal iff their encodings are (so parsed signatures are equal iff parsed from the same bytes); constant-time equality, as_ref, as_compressed, as_point and From<SecretKey> of a public key agree with ==, to_bytes, from_bytes and to_public; generate() is generate_with on the system RNG; dropping a mini secret, secret key or keypair leaves only zero bytes in place of the secret; every encoding has the length its public constant announces.",
  "all pairs and triples of values whose points carry their own encoding (every value the API produces), all signatures with a scalar below 2^255, all proofs, all RNGs",
  "equality and order are used as map keys and for deduplication: consistency of ==, cmp and Hash must hold for all pairs and triples, which tests sample",
  "src/vrf.rs: VRFInOut, VRFPreOut, VRFProof, VRFProofBatchable","src/points.rs: RistrettoBoth","src/keys.rs: PublicKey, Keypair, SecretKey, MiniSecretKey","src/sign.rs: Signature","src/musig.rs: Reveal")

p("Evaluating the VRF on a given point: key exchange proofs, OPRFs, sequential VRFs",
  "vrf_create_from_point keeps the input and outputs the secret scalar times it; vrf_create_from_compressed_point succeeds iff the bytes encode a point (PointDecompressionError otherwise) and does the same; a proof made for the evaluation convinces the asker who rebuilds the pair from the bytes it sent and received; with a blinding factor r (not 0) the evaluation on r I multiplied by 1/r is the evaluation on I, and blinded bytes hide the input perfectly (each is the blinding of every non-identity input under exactly one factor); evaluations by two keys in sequence never fail, commute and multiply; the evaluation on a peer's public key is the raw key exchange. The documented caution made exact: whoever can ask for evaluations obtains the key's VRF output on any transcript and the key of any message sent with init_aead32_unauthenticated, and the identity is not refused as input. VRFInOut::commit adds exactly the two encodings and leads to equal transcripts only from equal transcripts and pairs.",
  "all secret keys, points, byte strings, blinding factors, transcripts, RNGs, both framings",
  "algebraic identities over the whole group and perfect hiding are statements about all factors and all points",
  "src/vrf.rs: vrf_create_from_point, vrf_create_from_compressed_point, VRFInOut::commit, dleq_proove, dleq_verify","src/aead.rs: raw_key_exchange, init_aead32_unauthenticated")

p("VRF and DLEQ proofs cannot be altered",
  "Two accepted DLEQ proofs of one statement that verification expands to the same R and Hr are the same proof; if two different accepted proofs of one statement have the same challenge, their commitments R differ, so the hash takes one value at two inputs; on the wire, two 64-byte proofs accepted by vrf_verify_extra for the same key, input, output bytes and extra transcript whose 96-byte expansions agree in the first 64 bytes are the same bytes, with the same expansion and the same input/output pair.",
  "all keys, transcripts of all kinds, inputs, outputs, both framings, all byte strings",
  "that no third encoding or second response exists is a statement about all byte strings",
  "src/vrf.rs: dleq_verify, vrf_verify_extra, VRFProof::from_bytes, VRFProofBatchable::to_bytes")

p("Different derivation paths lead to different keys",
 "Walking any mix of hard and soft junctions from an extended secret key: two walks of the same length that end in the same chain code took the same path from the same secret scalar and chain code, unless the hash function collides on two inputs hashed on the way; walks of different lengths can only meet if one passes through the other's starting point; ending in the same scalar needs in addition a coincidence in the last step. The same for watch-only walks from an extended public key. The expansion mode is not hashed into the chain code, so one hard junction taken in two modes gives two keys with one chain code; also when hard junctions along the walks use different modes, equal final chain codes of walks of the same length mean the same junctions taken through the same nodes. In the random-oracle model whoever makes n hash queries, among them those of both walks, meets such a collision with probability at most n(n-1)/2 / 2^256; and in a whole wallet of paths of any number and lengths from one key, two different paths end in the same chain code with probability at most n^2 / 2^256 (also when each hard junction chooses its own mode), and in the same secret scalar with probability at most n^2 / 2^256 + n(n-1)/2 times the chance of one match (mode Uniform) or 2^-251 (mode Ed25519, and wallets that mix the modes, where two paths that differ only in the mode of a hard junction count as different); the same two bounds hold for the chain codes and public keys of a whole watch-only wallet.",
 "all pairs of extended keys, paths of any length and mix of junctions, expansion modes, RNGs, hash functions; all query-bounded algorithms",
 "unbounded paths; a statement about all pairs of paths and about probability",
 "src/derive.rs: Derivation::derived_key_simple, ExtendedKey::{derived_key_simple, hard_derive_mini_secret_key}")
p("Only strings supplied by the caller can exceed merlin's length limit",
  "merlin panics when a message, witness or output is 4 GiB or longer. No call of the crate runs into that by itself, whatever the keys, signatures, proofs and numbers of participants: a signing context and message, a derivation index, a key-exchange or VRF-output context and the number of bytes asked for are the only ones that can, and if they (and the transcripts passed in) are shorter, then signing, verifying, key expansion, derivation, certificates, key exchange, VRFs, batches of any size and multi-signatures with any number of participants never depend on what merlin does beyond its limit and hand back transcripts within it. For hard derivation, session keys and VRF output bytes the bound is exact.",
  "all keys, transcripts, strings, batches and sessions", "needs inputs of 4 GiB, and batches and sessions of every size",
  "src/context.rs: SigningContext::bytes, SigningTranscript for merlin::Transcript", "src/batch.rs: prepare_batch", "src/musig.rs: commit_public_keys, rewinder", "src/vrf.rs: make_bytes, vrfs_merge, dleq_verify_batch")

p("The order in which different participants' multi-signature messages arrive does not matter",
  "Two histories of a MuSig session that differ only in how the messages of different participants are interleaved with each other and with the caller's edits of the transcript (everybody's own messages, and the edits, in the same order) leave the session in the same state and give everybody the same answers, accepted or refused: in the commit stage, in the reveal stage (reveals and trusted reveals), in the cosign stage, for whole sessions, and for collectors. So the keys, the aggregated key, the challenge, one's own cosignature, and what sign() and signature() return are the same for every delivery schedule.",
  "all keys, transcripts, RNGs, all histories of any length and number of participants, duplicated, contradictory and malformed messages included, all reorderings of them that keep each participant's own order",
  "the number of delivery schedules is exponential in the number of messages",
  "src/musig.rs: MuSig<T,CommitStage>::add_their_commitment, MuSig<T,RevealStage>::{add_their_reveal, add_trusted}, MuSig<T,CosignStage>::{add_their_cosignature, sign}, MuSig<T,CollectStage>::{add, signature}, MuSig::transcript")

p("Delivering a multi-signature message again does no harm",
  "A commitment, reveal, trusted reveal, share or collector contribution that was delivered once, accepted or not, can be delivered again at any later moment of the same stage, after any other messages: the state the session ends in, and the answers to all other messages, are what they would be without the repetition; and if it was accepted once, it is accepted again (so at-least-once delivery is enough).",
  "all keys, transcripts, RNGs, histories of any length before and after, malformed and contradictory messages included",
  "a statement about all histories around the repetition",
  "src/musig.rs: MuSig<T,CommitStage>::add_their_commitment, MuSig<T,RevealStage>::{add_their_reveal, add_trusted}, MuSig<T,CosignStage>::add_their_cosignature, MuSig<T,CollectStage>::add, CoR::{set_revealed, set_cosigned}")

p("Nobody influences how another participant's multi-signature messages are answered",
  "Within a stage of a MuSig session, whether a message for one key is accepted, and with which error it is refused, depends only on the messages received for that key (in the reveal stage: its commitments and its reveals; in the cosign stage, for keys other than one's own: its commitments, reveals and shares), never on what is sent for other keys, in which number, or in between, nor on the caller's edits of the transcript. The same for contributions to a collector.",
  "all keys, transcripts, RNGs and histories of any length; all floods of malformed or contradictory messages by others",
  "non-interference is a statement about pairs of histories",
  "src/musig.rs: MuSig<T,CommitStage>::add_their_commitment, MuSig<T,RevealStage>::{add_their_reveal, add_trusted}, MuSig<T,CosignStage>::add_their_cosignature, MuSig<T,CollectStage>::add")

with open('/verif/properties.jsonl','w') as f:
    for x in P: f.write(json.dumps(x)+"\n")
print(len(P))
