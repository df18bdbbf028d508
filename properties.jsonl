{"id": "C01", "title": "Outcome independent of message schedule", "statement": "If three parties run protocol code that, under one interleaving of sends and receives, ends with every party returning a value and no message left over, then under every interleaving no party can deadlock, every execution is finite, and the parties return exactly the same values.", "quantifier": "all party programs built from send/receive, all interleavings of the three parties and of message deliveries", "why_tests_cant": "a test run observes one schedule chosen by the executor; the number of schedules is exponential", "anchors": ["iris-mpc/src/traits/network_trait.rs NetworkTrait", "iris-mpc/src/traits/test_network.rs PartyTestNetwork", "iris-mpc/src/aby3/utils.rs send_and_receive"]}
{"id": "C02", "title": "Ring element wire codec round-trips and rejects bad input", "statement": "Decoding the encoding of a ring element returns that element for every type (Bit, u8..u128); decoding any byte string whose length is not exactly the element size fails, and for Bit every byte other than 0 and 1 is rejected.", "quantifier": "every ring width, every ring element, every byte string", "why_tests_cant": "2^128 values and unboundedly many byte strings", "anchors": ["iris-mpc/src/types/int_ring.rs IntRing2k::add_to_bytes/from_bytes_mut/take_from_bytes_mut", "iris-mpc/src/types/bit.rs TryFrom<u8>"]}
{"id": "C03", "title": "Vector wire codec round-trips and rejects bad lengths", "statement": "A vector of n ring elements sent as bytes is decoded to the same vector by both the eager and the iterator decoder; a message whose length is not n times the element size is an error, and the eager decoder never returns a vector whose length differs from n.", "quantifier": "every width, every vector, every byte string and expected count", "why_tests_cant": "vectors are unbounded", "anchors": ["iris-mpc/src/aby3/utils.rs ring_slice_to_bytes, ring_vec_from_bytes, ring_iter_from_bytes, RingBytesIter"]}
{"id": "C04", "title": "Bit decomposition of ring elements", "statement": "to_bits yields exactly the binary digits (least significant first), from_bits inverts it and rejects slices of the wrong length, and get_msb is true exactly for values at least half the modulus.", "quantifier": "every ring width and element, every bit vector", "why_tests_cant": "2^128 elements", "anchors": ["iris-mpc/src/types/ring_element.rs RingElement::to_bits/from_bits/get_msb/get_bit"]}
{"id": "C05", "title": "Ring inverse", "statement": "For u8, u16, u32 and u64 the inverse of every odd element multiplies with it to one modulo 2^K, and every even element is rejected with NoInverseError.", "quantifier": "all elements of the four ring types (indeed all widths)", "why_tests_cant": "2^64 inputs; the Euclid loop uses wrapping arithmetic of the doubled width", "anchors": ["iris-mpc/src/types/mod.rs extended_euclid_rev", "iris-mpc/src/types/int_ring.rs IntRing2k::inverse"]}
{"id": "C06", "title": "ABY3 preprocessing correlates randomness", "statement": "After preprocess, for every choice of local seeds and every schedule, each party's second generator is in the same state as its predecessor's first generator, so zero shares drawn by the three parties always cancel.", "quantifier": "all seeds, all generators, all schedules, all later draw sequences", "why_tests_cant": "seeds are random 256-bit values; correlation must persist forever", "anchors": ["iris-mpc/src/aby3/protocol.rs Aby3::setup_prf_from_seed", "iris-mpc/src/aby3/random/prf.rs Prf"]}
{"id": "C07", "title": "ABY3 share, input and open round-trip", "statement": "Opening the shares produced by share(x) or by input(Some x, id) gives every party x, for all randomness and all schedules; open_many does so elementwise.", "quantifier": "all secrets, widths, random values, inputting parties, vector lengths, schedules", "why_tests_cant": "the value space and the random masks are too large to enumerate", "anchors": ["iris-mpc/src/aby3/protocol.rs Aby3::share, input, open, open_many, open_bit, open_bit_many"]}
{"id": "C08", "title": "ABY3 linear operations", "statement": "add, sub, add_const, sub_const and mul_const on shares produce consistent shares of the corresponding ring operation on the secrets, without communication.", "quantifier": "all consistent sharings, widths and constants", "why_tests_cant": "unbounded inputs; each party's code path differs by id", "anchors": ["iris-mpc/src/aby3/share.rs Share add/sub/add_const/sub_const/mul", "iris-mpc/src/aby3/protocol.rs"]}
{"id": "C09", "title": "ABY3 multiplication and dot products", "statement": "mul, dot, dot_many and masked_dot_many return consistent shares of the product / (masked) inner products, and reject vectors of different sizes with InvalidSizeError.", "quantifier": "all sharings, all vector lengths and batch sizes, masks, randomness, schedules", "why_tests_cant": "unbounded lengths", "anchors": ["iris-mpc/src/aby3/protocol.rs Aby3::mul, dot, dot_many, masked_dot_many, mul_many"]}
{"id": "C10", "title": "Secret AND and OR", "statement": "and, and_many, or, or_many and binary_or return consistent binary shares of the bitwise AND / OR of the secrets, for every width.", "quantifier": "all sharings, widths, lengths, schedules", "why_tests_cant": "unbounded inputs", "anchors": ["iris-mpc/src/aby3/protocol.rs Aby3::and, and_many", "iris-mpc/src/traits/binary_trait.rs or, or_many"]}
{"id": "C11", "title": "Arithmetic-to-binary conversion", "statement": "arithmetic_to_binary(_many) of a sharing of x gives a binary sharing of the same K-bit value x (full adder plus Kogge-Stone), for every width K.", "quantifier": "all widths, sharings, batch sizes, schedules", "why_tests_cant": "carry chains depend on all 2^(3K) share combinations", "anchors": ["iris-mpc/src/traits/binary_trait.rs binary_add_3, binary_add_3_many", "iris-mpc/src/aby3/protocol.rs a2b_pre"]}
{"id": "C12", "title": "Most significant bit extraction", "statement": "get_msb and get_msb_many return binary shares of the sign bits of the secrets, in order, for every non-empty batch size, including ones that are not multiples of the 128-bit packing.", "quantifier": "all widths >= 3, all batch sizes >= 1, all secrets, schedules", "why_tests_cant": "packing/transposition boundaries and carry chains cannot be enumerated", "anchors": ["iris-mpc/src/aby3/protocol.rs msb_adder_many, get_msb_many", "iris-mpc/src/aby3/utils.rs transpose_pack_u128"]}
{"id": "C13", "title": "OR-reduction of a bit vector", "statement": "reduce_binary_or of n >= 1 shared bits is a sharing of their disjunction, for every n and every positive chunk size.", "quantifier": "all vector lengths, all chunk sizes, all bit values, schedules", "why_tests_cant": "padding to 128, odd tree levels and chunk boundaries interact", "anchors": ["iris-mpc/src/aby3/protocol.rs pack, reduce_or_u128.., reduce_binary_or", "iris-mpc/src/aby3/utils.rs or_tree, split"]}
{"id": "C14", "title": "ABY3 database query equals the plaintext search", "statement": "iris_in_db run by three parties on consistent shares returns to every party true exactly when some database entry is close to the probe according to the plaintext matcher, for every database and chunk size and every schedule.", "quantifier": "all databases (any size >= 1), all codes and masks passing the mask-weight check, all chunk sizes >= 1, all share randomness, all schedules", "why_tests_cant": "databases and randomness are unbounded", "anchors": ["iris-mpc/src/iris/protocol.rs IrisProtocol::iris_in_db", "iris-mpc/src/aby3/protocol.rs", "plain-reference/src/lib.rs IrisCode::is_close"]}
{"id": "C15", "title": "Masked Hamming distance never wraps", "statement": "The shared value computed for each database entry equals the number of masked positions where the codes differ, and subtracting the threshold sets the sign bit exactly when the distance is below the threshold, for every accepted ring width.", "quantifier": "all binary codes, masks, widths K > 14", "why_tests_cant": "2^12800 codes", "anchors": ["iris-mpc/src/iris/protocol.rs masked_hamming_distance_post, get_cmp_diff, new"]}
{"id": "C16", "title": "Iris API input validation", "statement": "IrisProtocol::new accepts exactly the rings wide enough for the comparison; an empty database or a mask count different from the database size gives InvalidSizeError; a combined mask below the weight threshold gives MaskHWError; wrong code length gives a size error; none of these sends a message first.", "quantifier": "all inputs and all schedules", "why_tests_cant": "error paths depend on arbitrary sizes", "anchors": ["iris-mpc/src/iris/protocol.rs new, combine_masks, compare_iris_many, iris_in_db"]}
{"id": "C17", "title": "Iris code bit array behaves as a 12800-bit vector", "statement": "set_bit/get_bit/flip_bit address exactly one of the 12800 bits, bits() yields them in order, count_ones counts them, and AND/XOR act bitwise.", "quantifier": "all arrays and all indices below 12800", "why_tests_cant": "2^12800 states", "anchors": ["plain-reference/src/lib.rs IrisCodeArray"]}
{"id": "C18", "title": "Floating-point match threshold is the exact one", "statement": "For every possible mask weight the double-precision computation (weight * 0.34) truncated to an integer equals floor(34*weight/100), in the plaintext and the MPC code alike; the mask threshold constant is 8960.", "quantifier": "every mask weight 0..12800", "why_tests_cant": "rounding of binary floating point could differ at multiples of 50; every weight must agree", "anchors": ["plain-reference/src/lib.rs MATCH_THRESHOLD_RATIO, MASK_THRESHOLD, is_close", "iris-mpc/src/iris/protocol.rs get_cmp_diff"]}
{"id": "C19", "title": "Plaintext matcher is the specified distance test", "statement": "is_close is true exactly when the number of differing unmasked bits is below 34% of the number of commonly valid bits, is symmetric, and an iris with valid mask is close to itself; too few common bits is a panic.", "quantifier": "all pairs of iris codes", "why_tests_cant": "2^51200 pairs", "anchors": ["plain-reference/src/lib.rs IrisCode::is_close, get_distance", "plain-reference/src/bin/find_match.rs"]}
{"id": "C20", "title": "One party's share reveals nothing", "statement": "For each scheme (ABY3, Swift3, SPDZ-wise with fixed key) and each single party, the number of random choices leading to a given local share is the same for every secret.", "quantifier": "all secrets, all parties, all local share values, all widths", "why_tests_cant": "a statement about the full distribution over 2^(2K) random choices", "anchors": ["iris-mpc/src/aby3/protocol.rs share", "iris-mpc/src/swift3/protocol.rs share", "iris-mpc/src/spdzwise/protocol.rs share"]}
{"id": "C21", "title": "Resharing messages are perfectly masked", "statement": "In ABY3 mul/and/dot/input the message a party receives is the local product plus a mask it does not know: for each fixed secrets and view, the map from the unknown generator output to the received message is a bijection.", "quantifier": "all secrets, all local state, all widths", "why_tests_cant": "a statement about the full distribution", "anchors": ["iris-mpc/src/aby3/protocol.rs mul, and, input", "iris-mpc/src/aby3/random/prf.rs gen_zero_share"]}
{"id": "C22", "title": "Joint-message-passing detects a lying sender", "statement": "If jmp_verify succeeds at the receiver while the co-sender is honest, then every value the receiver accepted from the (possibly malicious) sender equals the value the honest co-sender computed, unless a SHA-512 collision occurred; with all parties honest jmp_verify never fails and clears the queues.", "quantifier": "all behaviours of one malicious party, all transcripts, all schedules", "why_tests_cant": "the adversary ranges over all programs", "anchors": ["iris-mpc/src/aby3_mal/protocol.rs jmp_*", "iris-mpc/src/spdzwise/protocol.rs jmp_*", "iris-mpc/src/swift3/protocol.rs jmp_*"]}
{"id": "C23", "title": "Hash-based zero check", "statement": "hash_based_zero_verify succeeds for all parties when every shared value is zero, and, barring hash collisions, an honest pair can only both succeed when every value is zero.", "quantifier": "all share vectors, lengths, schedules", "why_tests_cant": "unbounded vectors and adversarial messages", "anchors": ["iris-mpc/src/spdzwise/protocol.rs hash_based_zero_verify", "iris-mpc/src/aby3_mal/protocol.rs hash_based_zero_verify"]}
{"id": "C24", "title": "Sacrificing catches wrong multiplication triples", "statement": "For the dot/multiplication sacrifice over the verification ring: correct triples always pass, and if a triple has additive error d not zero after truncation to K bits, then at most a 2^-(V-K+1) fraction of the public challenge values lets it pass. With one corrupt party running any code under any schedule: if both honest parties finish generating the triples, then the errors the corrupt party has added satisfy the check equation for the tossed coin and the honest parties hold shares of triples with exactly these errors, or two named strings they have hashed collide.", "quantifier": "all errors, all challenges, all widths V >= K; all corrupt parties, all their programs, all schedules", "why_tests_cant": "a counting statement over 2^64 / 2^128 challenges", "anchors": ["iris-mpc/src/aby3_mal/protocol.rs get_mul_triple, dot_sacrifice"]}
{"id": "C25", "title": "Binary triple verification", "statement": "verify_triples accepts every correct pair of binary triples and rejects whenever the two triples' errors differ in some bit. In a run with an arbitrary corrupt party, honest parties that finish hold two families with the same errors, unless they have hashed a collision.", "quantifier": "all share vectors, error patterns", "why_tests_cant": "unbounded vectors", "anchors": ["iris-mpc/src/spdzwise/protocol.rs verify_triples", "iris-mpc/src/aby3_mal/protocol.rs"]}
{"id": "C26", "title": "SPDZ-wise MAC invariant", "statement": "Every local operation (add, sub, add_const, sub_const, mul_const) maps shares with valid MACs (mac = key * value) to shares with valid MACs of the expected result; share() produces valid MACs.", "quantifier": "all keys, shares, constants, widths", "why_tests_cant": "unbounded inputs", "anchors": ["iris-mpc/src/spdzwise/share.rs", "iris-mpc/src/spdzwise/protocol.rs add_const, sub_const, share"]}
{"id": "C27", "title": "SPDZ-wise MAC check", "statement": "verify_macs succeeds on any number of queued values with valid MACs under every schedule; a single value whose MAC is off by a non-zero amount passes for at most the stated fraction of the random coefficients.", "quantifier": "all queues, keys, random coefficients", "why_tests_cant": "counting over 2^64 coefficients", "anchors": ["iris-mpc/src/spdzwise/protocol.rs verify_macs, hash_based_zero_verify"]}
{"id": "C28", "title": "Triple buffer preserves every bit in order", "statement": "Adding AND triples of any widths to the verification queue keeps exactly the bits added, in a fixed order identical for a, b and c, with 128 per word except the last; get(n) fails exactly when fewer than n words are stored and otherwise removes n words.", "quantifier": "all sequences of additions of all widths", "why_tests_cant": "history dependent packing", "anchors": ["iris-mpc/src/spdzwise/triples.rs Triples"]}
{"id": "C29", "title": "SPDZ-wise triple budget of iris_in_db", "statement": "The number of precomputed AND triples requested by iris_in_db suffices for the final verification (so that verify().unwrap() does not panic) exactly under a stated arithmetic condition on ring width, database size, chunk size and left-over stock: always for chunk sizes that are multiples of 128 above 128 from an empty stock; for other chunk sizes or left-over stocks there are databases for which every party panics (defect found).", "quantifier": "all database sizes, chunk sizes and ring widths", "why_tests_cant": "arithmetic over all sizes; fails only at particular sizes", "anchors": ["iris-mpc/src/iris/protocol.rs iris_in_db, msb_and_gates", "iris-mpc/src/spdzwise/protocol.rs precompute_and_triples, verify_triple_queue"]}
{"id": "C30", "title": "Coin tossing agreement", "statement": "coin returns the same seed to all honest parties: the XOR of the three contributions; a party whose opening does not match its commitment causes InvalidCommitment at the honest parties.", "quantifier": "all seeds, commitments randomness, schedules", "why_tests_cant": "random 256-bit seeds, adversarial openings", "anchors": ["iris-mpc/src/spdzwise/protocol.rs coin", "iris-mpc/src/swift3/protocol.rs coin"]}
{"id": "C31", "title": "Commitments", "statement": "An honestly opened commitment verifies; two different openings of one commitment give a hash collision.", "quantifier": "all values and randomness", "why_tests_cant": "unbounded value vectors", "anchors": ["iris-mpc/src/commitment/mod.rs"]}
{"id": "C32", "title": "Triple permutation is consistent", "statement": "permute with the same seed applies the same permutation of bit positions at all three parties and to all three components, so a set of valid triples stays a set of valid triples. The permutation is the one given by the drawn positions, and each permutation of the positions comes from exactly one sequence of draws.", "quantifier": "all seeds, all triple vectors", "why_tests_cant": "factorially many permutations", "anchors": ["iris-mpc/src/spdzwise/protocol.rs permute, swap_bit"]}
{"id": "C33", "title": "Malicious ABY3 preprocessing", "statement": "After MalAby3 preprocess with honest parties each party's first generator equals the successor's second one; an opening that does not match its commitment is rejected.", "quantifier": "all seeds, commitment randomness, schedules", "why_tests_cant": "random seeds", "anchors": ["iris-mpc/src/aby3_mal/protocol.rs setup_prf_from_seed"]}
{"id": "C34", "title": "Malicious ABY3 multiplication and AND", "statement": "mul, dot, dot_many, and, and_many in MalAby3 return consistent shares of the product when all parties are honest, for all randomness, widths and schedules, and the embedded sacrifice and JMP checks pass.", "quantifier": "all sharings, randomness, schedules", "why_tests_cant": "unbounded inputs", "anchors": ["iris-mpc/src/aby3_mal/protocol.rs mul, dot_many, and_many"]}
{"id": "C35", "title": "Malicious ABY3 input consistency", "statement": "After input by a possibly malicious dealer, two honest receivers either hold shares of one common value or at least one aborts.", "quantifier": "all dealer behaviours, schedules", "why_tests_cant": "adversary ranges over all message choices", "anchors": ["iris-mpc/src/aby3_mal/protocol.rs input"]}
{"id": "C36", "title": "Malicious ABY3 database query equals the plaintext search", "statement": "With honest parties iris_in_db over MalAby3 returns the plaintext answer to every party and the malicious checks pass, for all databases, chunk sizes, randomness and schedules.", "quantifier": "as C14", "why_tests_cant": "as C14", "anchors": ["iris-mpc/src/iris/protocol.rs iris_in_db", "iris-mpc/src/aby3_mal/protocol.rs"]}
{"id": "C37", "title": "Swift3 preprocessing correlates randomness", "statement": "After Swift3 preprocess with honest parties each pair of parties shares one generator and all three share a common generator, for all seeds and schedules.", "quantifier": "all seeds and schedules", "why_tests_cant": "random seeds", "anchors": ["iris-mpc/src/swift3/protocol.rs setup_prf_from_seed"]}
{"id": "C38", "title": "Swift3 share, input and open round-trip", "statement": "Opening the shares produced by share(x) or input(Some x, id) gives every party x and the embedded consistency checks pass.", "quantifier": "all secrets, randomness, dealers, schedules", "why_tests_cant": "unbounded inputs", "anchors": ["iris-mpc/src/swift3/protocol.rs share, input, open, open_many, open_bit"]}
{"id": "C39", "title": "Swift3 linear operations and a2b", "statement": "Swift3 add, sub, add_const, sub_const, mul_const and the arithmetic-to-binary splitting keep shares consistent and compute the stated ring operation.", "quantifier": "all consistent sharings, widths, constants", "why_tests_cant": "unbounded inputs", "anchors": ["iris-mpc/src/swift3/share.rs", "iris-mpc/src/swift3/protocol.rs a2b_pre"]}
{"id": "C40", "title": "Swift3 multiplication, dot product and AND", "statement": "mul, dot, dot_many, and, and_many return consistent sharings of the product, leave the JMP queues matched between parties, and keep generators synchronised.", "quantifier": "all sharings, lengths, randomness, schedules", "why_tests_cant": "unbounded inputs", "anchors": ["iris-mpc/src/swift3/protocol.rs mul_post, and_post, and_post_many, dot_post, dot_post_many, jshare*"]}
{"id": "C41", "title": "Swift3 verification and database queries with honest parties", "statement": "With honest parties, rings of 15 to 63 bits and any schedule, iris_in_db over Swift3 shares the plaintext answer before the verification; if every proof check of the registered dot products accepts, every party gets the plaintext answer; if the check of a party rejects, this party panics and no party ever gets an answer; at no moment of any run has a party returned a wrong answer. verify accepts AND gates always, and multiplications/dot products unless the proof session of a party rejects (with DZKPVerifyError, never a panic). Over rings of 64 bits or more verification of multiplications or dot products, hence every query, panics at every party.", "quantifier": "all codes, masks, databases, sharings, chunk sizes, generators that eventually give acceptable challenges, prover randomness, previously registered gates, and all message schedules", "why_tests_cant": "the proof check fails for honest runs with a small probability over the randomness, so tests see acceptance only; the outcome must be characterised for every randomness and every schedule", "anchors": ["iris-mpc/src/iris/protocol.rs iris_in_db", "iris-mpc/src/swift3/protocol.rs verify", "iris-mpc/src/dzkp"]}
{"id": "C42", "title": "Negation of shared bits", "statement": "The ! operator on ABY3 binary shares complements the shared secret. For Swift3 binary shares it does not: the result shares the unchanged secret (defect, proved).", "quantifier": "all sharings, widths", "why_tests_cant": "unbounded inputs", "anchors": ["iris-mpc/src/aby3/share.rs Not", "iris-mpc/src/swift3/share.rs Not"]}
{"id": "C43", "title": "AND-proof completeness", "statement": "With honest parties the distributed zero-knowledge proof for registered AND gates is accepted, for any number of gates, any parameters (l,m) covering them, and any randomness.", "quantifier": "all gate counts, values, randomness, parameters", "why_tests_cant": "unbounded circuits and random challenges", "anchors": ["iris-mpc/src/dzkp/and_proof.rs AndProof::prove, verify_prev, verify_next, combine_verifications"]}
{"id": "C44", "title": "Multiplication-proof completeness", "statement": "With honest parties, rings of less than 64 bits and correct gates, the distributed zero-knowledge proof for registered multiplications and dot products runs through for every value and randomness, and is accepted exactly when the leading coefficients of the two verifiers' parts of p(r) do not cancel. (The stronger claim that an honest proof is always accepted is false of the code: when they cancel, for about a fraction 2^-K of the randomness, combine_verifications compares a shrunk with an unshrunk vector and rejects. For 64- and 128-bit rings every session panics.)", "quantifier": "all gate counts, values, randomness", "why_tests_cant": "a failure has probability about 2^-K, invisible to tests", "anchors": ["iris-mpc/src/dzkp/mul_proof.rs combine_verifications", "iris-mpc/src/dzkp/dot_proof.rs combine_verifications"]}
{"id": "C45", "title": "Polynomial arithmetic", "statement": "Poly addition, subtraction, multiplication, scaling and evaluation are those of the polynomial ring (evaluation is a homomorphism); degree/shrink are exact; lagrange_polys followed by interpolate gives the polynomial of degree below the number of points through the given values; long division by a divisor whose last stored coefficient is odd returns quotient and remainder with a shorter remainder (with trailing zero coefficients it does not: defect).", "quantifier": "all coefficient vectors over any commutative ring / field", "why_tests_cant": "unbounded degrees", "anchors": ["iris-mpc/src/dzkp/polynomial.rs Poly"]}
{"id": "C46", "title": "Polynomial identity predicates", "statement": "is_zero holds exactly for the representations of the zero polynomial. is_one is meant to hold exactly for the one polynomial; in the code it holds exactly for the monic polynomials of degree one (defect: it is false for one()).", "quantifier": "all polynomials", "why_tests_cant": "unbounded", "anchors": ["iris-mpc/src/dzkp/polynomial.rs is_zero, is_one"]}
{"id": "C47", "title": "Network configuration check", "statement": "check_config succeeds exactly when my_id occurs among the parties and no two parties have the same id.", "quantifier": "all configurations", "why_tests_cant": "unbounded party lists", "anchors": ["mpc-net/src/config.rs check_config"]}
{"id": "C48", "title": "Connection establishment pairs every two parties", "statement": "With a valid configuration (ids below 2^32, at least two parties) every party ends up with exactly one channel per other party, in each direction keyed by the right id, for every order in which connections arrive. An id of 2^32 or more makes establish panic, and a single-party network panics in get_custom_channels.", "quantifier": "all party sets, all arrival orders", "why_tests_cant": "arrival orders are exponential", "anchors": ["mpc-net/src/lib.rs MpcNetworkHandler::establish, get_byte_channels"]}
{"id": "C49", "title": "Managed channels are FIFO and lossless", "statement": "Through ChannelHandle the k-th receive job is answered with the k-th frame accepted from the peer, for any interleaving of job submissions and actor steps, and no message and no job gets stuck. A frame above the codec's 8 MiB limit is never sent and the sender learns it only through the returned status, which the callers in iris-mpc drop.", "quantifier": "all job sequences and actor schedules", "why_tests_cant": "unbounded histories", "anchors": ["mpc-net/src/channel.rs ChannelHandle, handle_read_job, handle_write_job"]}
{"id": "C50", "title": "Length-delimited framing", "statement": "Concatenating encoded frames (each of at most 8 MiB) and decoding from arbitrarily split chunks returns the original frames; longer frames are refused by the encoder; bincode frames decode to the sent value.", "quantifier": "all frame sequences, all chunkings", "why_tests_cant": "unbounded", "anchors": ["mpc-net/src/codecs.rs BincodeCodec", "mpc-net/src/lib.rs"]}
{"id": "C51", "title": "Test network wiring", "statement": "In the three-party test network what party i sends to next/prev/id is received by exactly that party on the matching receive call, and broadcast returns everyone's message in id order at each party.", "quantifier": "all messages, parties, schedules", "why_tests_cant": "schedules", "anchors": ["iris-mpc/src/traits/test_network.rs TestNetwork3p, PartyTestNetwork"]}
{"id": "C52", "title": "Utility arithmetic", "statement": "ceil_log2 x is the least y with x <= 2^y; split returns the low and high halves; packing/transposition put bit j of item i at bit i of row j.", "quantifier": "all arguments", "why_tests_cant": "unbounded", "anchors": ["iris-mpc/src/aby3/utils.rs ceil_log2, split, transpose_shared_input, transpose_pack_u128"]}
{"id": "C53", "title": "Plain MPC backend equals the specification", "statement": "The Plain implementation of MpcTrait used as reference computes the same iris_in_db result as the plaintext matcher.", "quantifier": "all databases", "why_tests_cant": "unbounded", "anchors": ["iris-mpc/src/traits/mpc_trait.rs Plain"]}
{"id": "C54", "title": "SPDZ-wise multiplication, dot and database query", "statement": "With honest parties SpdzWise input, mul, dot_many, get_msb_many and iris_in_db compute the right shared result with valid MACs, and verification succeeds whenever enough triples were precomputed.", "quantifier": "all sharings, keys, randomness, schedules", "why_tests_cant": "unbounded", "anchors": ["iris-mpc/src/spdzwise/protocol.rs mul, dot_many, get_msb_many, verify"]}
{"id": "C55", "title": "Moduli of the zero-knowledge proofs", "statement": "Every polynomial that IrreduciblePolys::get can return is irreducible over GF(2), has exactly the requested degree and 0/1 coefficients; outside 40..=63 it panics. GF2p64 is a field with 2^64 elements: its operations are those of GF(2)[X]/(X^64+X^4+X^3+X+1), which is irreducible, and inverse is the field inverse.", "quantifier": "all degrees, all field elements", "why_tests_cant": "the domain has 2^64 elements and irreducibility is a statement about all factorisations", "anchors": ["iris-mpc/src/dzkp/irreducible_polys.rs IrreduciblePolys::get", "iris-mpc/src/dzkp/gf2p64.rs GF2p64"]}
{"id": "C56", "title": "AND-proof soundness", "statement": "If in the views of the two verifying parties at least one of the registered AND gates is wrong, then whatever proof the proving party sends (chosen after the theta challenges, before the beta and r challenges), the verification accepts for at most a fraction 1/2^64 + 2m/(2^64-m-1) of the challenges; with the security assertion of set_parameters this is at most 2^-40.", "quantifier": "all gate lists with a wrong gate, all proofs (adaptive in theta), all parameters (l,m)", "why_tests_cant": "A statement about all cheating strategies and a count over 2^64-sized challenge spaces; sampling cannot find the accepting challenges.", "anchors": ["iris-mpc/src/dzkp/and_proof.rs: verify_pi, combine_verifications, set_parameters", "iris-mpc/src/swift3/protocol.rs: get_and_r"]}
{"id": "C57", "title": "The product checks of the malicious ABY3 backend do not bind a corrupt party that waits for the coin", "statement": "(Negative.) In dot_many of the malicious backend a corrupt party which delays its two messages to its successor until it has received those of its predecessor knows the coin r before it sends its product components. By adding e and e*r to them it makes both honest parties accept, under every schedule and with every check passing, inner products changed by any e of its choice; in iris_in_db it thereby inverts every comparison, and with a one-entry database both honest parties return the wrong answer.", "quantifier": "all operands, sharings, chosen errors, databases, chunk sizes, states, and all message schedules", "why_tests_cant": "tests run honest parties only; the attack is a different program of one party, and that it is undetected must hold for every schedule and all randomness", "anchors": ["iris-mpc/src/aby3_mal/protocol.rs dot_sacrifice_many, coin", "iris-mpc/src/iris/protocol.rs iris_in_db"]}
{"id": "C58", "title": "The value opened by the SPDZ-wise backend is not protected by its MAC check", "statement": "Negative result. `open` and `open_many` of the SPDZ-wise backend check the MACs of the shares before the components are exchanged, and the exchange itself is not checked. Let one party c be corrupt, follow the protocol during the MAC check, and change only the component it sends afterwards. Then under every schedule no check fails, the successor of c returns Ok with any value c chooses (`C58_open`), or with the values plus any errors c chooses (`C58_open_many`), while the predecessor of c returns the right values. So the two honest parties accept different results.", "quantifier": "every corrupt party, all values, MAC keys and valid authenticated shares, all target values or errors, all consistent states, every schedule", "why_tests_cant": "the tests run honest parties only; the statement is about a deviating party under every interleaving", "anchors": ["iris-mpc/src/spdzwise/protocol.rs: open, open_many, verify_macs", "iris-mpc/src/aby3/protocol.rs: open, open_many"]}
{"id": "C59", "title": "Malicious ABY3: an opened product is right or the honest parties do not finish", "statement": "When one corrupt party runs arbitrary code in mul, dot or dot_many followed by open(_many): for any errors it puts into its components of the products there is a set of at most 2^(K-1) of the 2^V coin values, fixed by these errors alone, such that for every other coin value honest parties that finish both output the correct value, unless one of a few named pairs of strings they have hashed is a collision.", "quantifier": "all inputs, sharings, generator states, error patterns, corrupt programs and schedules; all vector lengths", "why_tests_cant": "ranges over all adversarial programs and a 2^64/2^128 coin space", "anchors": ["iris-mpc/src/aby3_mal/protocol.rs: mul, dot, dot_many, get_mul_triple, dot_sacrifice, dot_sacrifice_many, open, open_many, jmp_verify, hash-based zero check"]}
{"id": "C60", "title": "SPDZ-wise triple generation with a corrupt party", "statement": "When one corrupt party runs arbitrary code during the generation of n words of binary triples: for any errors it puts into its components of the products there is a set of shuffles, fixed by these errors alone and at most a 1/(128(n+1)) fraction of all shuffles, such that for every other shuffle honest parties that finish hold consistent shares of n words of valid triples, unless one of two named pairs of strings they have hashed is a collision.", "quantifier": "all requested counts, generator states, error patterns, corrupt programs and schedules", "why_tests_cant": "ranges over all adversarial programs and all permutations of more than a million positions", "anchors": ["iris-mpc/src/spdzwise/protocol.rs: generate_triples, permute, verify_triples, open_bin_many", "iris-mpc/src/aby3/protocol.rs: and_many"]}
{"id": "C61", "title": "Stored iris bytes, random irises and similar irises", "statement": "The raw bytes of an iris code array are 1600 bytes in which bit i is bit i mod 8 of byte i/8, reading them back gives the array, every string of 1600 bytes is the raw form of exactly one array and any other length panics. random_rng never fails: the code is exactly the bytes drawn and position i is invalid exactly if the i-th Bernoulli(0.10) draw is true. get_similar_iris never fails: bit i of the code is flipped exactly if draw 2i of Bernoulli(0.05) is true, bit i of the mask exactly if draw 2i+1 is; so the distance to the original is the number of flips at positions that stay valid.", "quantifier": "all arrays, byte strings, irises and generator behaviours", "why_tests_cant": "12800 positions times all generator outputs", "anchors": ["plain-reference/src/lib.rs: as_raw_slice, as_raw_mut_slice, IrisCodeArray::random_rng, IrisCode::random_rng, get_similar_iris"]}
{"id": "C62", "title": "A created database gives the parties consistent shares of its irises", "statement": "create_sample_data always succeeds and appends the requested number of rows to the table. From any database made by any number of runs (ABY3, Swift3) the three parties' read_db return the same masks and consistent sharings of exactly the codes that are stored in the clear; for SPDZ-wise after one run also a sharing of the MAC key and shares with valid MACs under it. A party id above 2 is refused. Negative result: a second run of the creation program for SPDZ-wise makes read_db fail at every party (two MAC keys).", "quantifier": "all generator behaviours, numbers of entries, sequences of runs, parties", "why_tests_cant": "there are no tests of these programs, and the claim ranges over all randomness and histories of runs", "anchors": ["iris-mpc/src/bin/create_sample_data.rs: create_aby3_db, create_swift3_db, create_spdzwise_db", "iris-mpc/examples/aby3.rs: read_db", "iris-mpc/examples/aby3_mal.rs: read_db", "iris-mpc/examples/swift3.rs: read_db", "iris-mpc/examples/spdzwise.rs: read_db", "plain-reference/src/bin/create_sample_data_plain.rs: main"]}
{"id": "C63", "title": "The matching programs answer like the plaintext program on the same database", "statement": "For every created database, seed, should_match flag and chunk size (SPDZ-wise: multiple of 128, at least 256), under every schedule the three parties running examples/aby3.rs, aby3_mal.rs or spdzwise.rs all output what find_match outputs for the same iris and database; if some entry has fewer than 70% common valid positions they all fail with the mask error where find_match panics. For Swift3 the same holds if its randomised check accepts; if the check of a party rejects, this party panics and no party gets any answer. With should_match, few flips imply the answer true.", "quantifier": "all databases made by the creation program, seeds, flags, chunk sizes, operating-system randomness and schedules", "why_tests_cant": "ranges over all databases, randomness and interleavings of three processes", "anchors": ["iris-mpc/examples/aby3.rs: main, get_iris_share, read_db", "iris-mpc/examples/aby3_mal.rs: main, get_iris_share, read_db", "iris-mpc/examples/spdzwise.rs: main, get_iris_share, read_db", "iris-mpc/examples/swift3.rs: main, get_iris_share, read_db", "plain-reference/src/bin/find_match.rs: main"]}
{"id": "C64", "title": "The triple check of the SPDZ-wise backend does not bind a corrupt party that waits for the coin", "statement": "(Negative.) In generate_triples a corrupt party which delays its two messages to its successor until it has received those of its predecessor knows the shuffle before it sends its components of the products. It can make all parties accept, under every schedule and with every check passing, triples whose products are off by any error words of its choice. With all bits of all triples wrong it can invert every conjunction of 128-bit words that the parties compute afterwards, and the final verification still accepts.", "quantifier": "all requested counts, chosen errors, operands, sharings, states, and all message schedules", "why_tests_cant": "tests run honest parties only; the attack is a different program of one party, and that it is undetected must hold for every schedule and all randomness", "anchors": ["iris-mpc/src/spdzwise/protocol.rs: generate_triples, permute, verify_triples, precompute_and_triples, and_many, verify"]}
{"id": "C65", "title": "AND circuits of the SPDZ-wise backend are checked against the precomputed triples before anything is opened", "statement": "With a corrupt party that deviates arbitrarily (it may make every AND gate of msb_adder_many and reduce_binary_or wrong), verify lets the honest parties continue only if the errors of the recorded gates equal those of the shuffled precomputed triples, or one of two named pairs of strings they hashed is a collision. Hence with valid precomputed triples: if both honest parties finish the comparisons, the disjunction, verify and open_bit, both output the right bit, unless a named pair of strings is a collision; the same for and_many followed by verify. Without enough precomputed triples they do not finish.", "quantifier": "every corrupt party and its behaviour, every schedule, every ring width from 3 bits, all lists of shared values, chunk sizes, states, generators and hash functions", "why_tests_cant": "the honest-party tests never exercise a deviating party; the claim ranges over all its behaviours and over circuits of any size", "anchors": ["iris-mpc/src/spdzwise/protocol.rs: verify_triple_queue, verify, and, and_many, get_msb_many, reduce_binary_or, open_bit", "iris-mpc/src/spdzwise/triples.rs"]}
{"id": "C66", "title": "SPDZ-wise products and MAC check with a corrupt party", "statement": "With one arbitrarily misbehaving party, honest parties that finish mul, dot, dot_many or masked_dot_many hold consistent shares of the right value plus an error and of the right MAC plus an error, both errors being exactly what the corrupt party added to its components, and the results are queued for the MAC check. If they finish verify_macs, the random combination of the queued MACs equals the key times that of the values up to the errors sent during the check, or the two strings they hash collide. Hence an error in a product that is not zero modulo 2^K is caught: except for at most 2^(V-K')*2^(K-1) of the 2^V keys and, for each other key, at most 2^(K'-1) of the 2^V values of one coefficient, the honest parties cannot finish without a hash collision.", "quantifier": "all behaviours of the corrupt party, all schedules, all vectors (any number and lengths), keys, generator states, errors in every message; K <= K' <= V", "why_tests_cant": "quantifies over arbitrary adversarial programs, all keys and all random coefficients; a bound on the number of bad keys and coefficients out of 2^V cannot be sampled", "anchors": ["iris-mpc/src/spdzwise/protocol.rs: verify_macs, hash_based_zero_verify, mul, dot, dot_many, masked_dot_many"]}
{"id": "C67", "title": "A SPDZ-wise database query with a corrupt party answers correctly or detects the deviation", "statement": "With one arbitrarily misbehaving party and valid precomputed triples, honest parties that finish iris_in_db both output whether the database contains a match. The only exceptions: the corrupt party has changed an inner product of a chunk modulo 2^K and passed the MAC check of that chunk, through a named equation in the key and the random coefficients or a named pair of colliding strings; or one of two named pairs of strings hashed by verify and open_bit is a collision. Started without enough triples, so that the query generates them, the same holds unless the corrupt party's errors in the new triples meet one of at most 1/N of the N! shuffles (N bits shuffled), or one of two named pairs of strings hashed in the generation is a collision. The equation holds for few keys and coefficients: except for 2^(V-K')*2^(K-1) of the 2^V keys, at most 2^(K'-1) of the 2^V values of one coefficient satisfy it, whatever the other coefficients and the errors in the check.", "quantifier": "all behaviours of the corrupt party, all schedules, all databases, queries, chunk sizes, ring widths 15..128, keys, generators, hash functions", "why_tests_cant": "quantifies over arbitrary adversarial programs and databases of any size; tests run honest parties only", "anchors": ["iris-mpc/src/iris/protocol.rs: iris_in_db, compare_iris_many", "iris-mpc/src/spdzwise/protocol.rs: verify_macs, get_msb_many, reduce_binary_or, verify, open_bit"]}
{"id": "C68", "title": "A whole ABY3 query tells one semi-honest party nothing but the answer", "statement": "During iris_in_db over ABY3 the messages one party receives, together with the code shares it got from the client, have a joint distribution that depends only on the number of database entries, the masks (public), the chunk size and the answer: for any two queries and databases with the same sizes, masks and answer, every combination of shares and messages is produced by exactly the same number of choices of the client's sharing randomness and of the tape of the generator the party does not know. Also for fixed shares of this party, whatever the shares of the others. The messages received in and_many, masked_dot_many, get_msb_many and reduce_binary_or do not depend on the inputs at all. Every tape leads to exactly one view.", "quantifier": "all parties, all pairs of queries and databases of any size with equal masks and answer, all chunk sizes, ring widths from 15 bits, all states of the party's own generators, all tapes, all schedules, all message sequences", "why_tests_cant": "a statement about probability distributions over all random tapes and all pairs of inputs; a test sees single runs", "anchors": ["iris-mpc/src/iris/protocol.rs: iris_in_db", "iris-mpc/src/aby3/protocol.rs: masked_dot_many, and_many, get_msb_many, reduce_binary_or, open_bit", "iris-mpc/src/aby3/random/prf.rs"]}
{"id": "C69", "title": "Back pressure: channels that hold only a few messages cannot change or block a query", "statement": "If each channel between two parties holds only a limited number of messages and a send waits while it is full, the outcome still does not depend on the schedule, and a program that completes with some capacities completes with the same results with all larger ones. For every capacity of at least two messages per channel all runs of iris_in_db over ABY3, malicious ABY3, SPDZ-wise (with enough triples) and Swift3 (if its check accepts) complete with the right answer; so do the runs in all other properties about complete runs. One message is not enough: the exchange of two vectors in the SPDZ-wise products then deadlocks for all inputs.", "quantifier": "all programs, all capacities (different per channel), all schedules; for the queries all databases, chunk sizes, ring widths, generators and hash functions", "why_tests_cant": "a deadlock through full queues depends on the schedule and on capacities; tests use fast local channels and small inputs", "anchors": ["mpc-net/src/channel.rs: ChannelHandle::manage, send", "iris-mpc/src/aby3/utils.rs: send_slices_and_receive_iters", "iris-mpc/src/iris/protocol.rs: iris_in_db"]}
{"id": "C70", "title": "Crashes and lost connections never cause a wrong answer or an endless wait; closing at once can cause an error", "statement": "Whatever parties crash and whatever connections break, at any point and with any loss of messages in flight, a party that returns a result returns the result of the run without faults, and the only error is that of a broken connection. All executions are finite, and when nothing more happens each party has crashed, has returned its result or has reported the loss of a connection: nobody waits for ever. This holds for every protocol proved to complete, with unlimited channels and with limited ones, in particular for iris_in_db. If connections end only when both ends have stopped, and nothing breaks, all parties return their results. But finish() closes the connections of a party as soon as it has finished, without waiting until its last messages have arrived: for every protocol that communicates there is an execution without any fault in which one party fails, and for the ABY3 query this can hit each of the parties while the other two output the answer.", "quantifier": "all protocols that complete without faults, all crash points, all points of connection loss and numbers of messages lost, all capacities, all schedules", "why_tests_cant": "quantifies over all points at which a crash or loss can happen in all schedules; tests run without faults, and the in-process test network has no closing", "anchors": ["iris-mpc/src/aby3/network.rs: send, receive, shutdown", "mpc-net/src/lib.rs: MpcNetworkHandler::shutdown", "mpc-net/src/channel.rs: ChannelHandle::manage", "iris-mpc/src/iris/protocol.rs: iris_in_db, finish"]}
{"id": "C71", "title": "The example programs of mpc-net and their custom codec are correct; close succeeds exactly if nothing is unread", "statement": "The hand-written codec of the custom-channel example decodes a message exactly if the buffer starts with its encoding and leaves what follows, waits without consuming anything exactly on a proper beginning of an encoding, and fails exactly on an unknown message number; a sequence of messages is received unchanged however its bytes are cut into pieces, and of a part of the bytes a beginning of the sequence is received. The four example programs run to the end at all three parties under every schedule, for every order in which each party's map of channels is traversed, and for every capacity of the channels of at least one message; all assertions hold and all messages are consumed. Channel::close returns Ok exactly if the peer sent no message that has not been read, and then the peer has closed its sending half; otherwise it reports unexpected data; and if both sides close, both calls return.", "quantifier": "all buffers, message sequences, ways to cut the byte stream, traversal orders of the maps, schedules, channel capacities, and reachable states of a channel", "why_tests_cant": "the examples are not tested at all; the traversal order of a HashMap differs from run to run, and the way a stream is cut depends on the transport", "anchors": ["mpc-net/examples/three_party_custom_channels.rs: MessageCodec, main", "mpc-net/examples/three_party.rs: main", "mpc-net/examples/three_party_managed.rs: main", "mpc-net/examples/three_party_bincode_channels.rs: main", "mpc-net/src/channel.rs: Channel::close"]}
{"id": "C72", "title": "Signed secrets compute like two's-complement integers", "statement": "For the signed number types a secret converted to its share type and back is unchanged, and every share value is the conversion of exactly one number of the type. Sums, differences, products and negations computed on share values and converted back are the results on integers, wrapped to the width, so they are exact whenever the exact result fits. The most significant bit of the share is the sign. Operators mixing share values and plain numbers agree with converting first. Arithmetic shift is the floor of the division by the power of two, with the shift amount reduced modulo the width. Converting to the wider verification type is sign extension and sums and products there convert back to the results of the type. Floor division is exact and panics exactly on a zero divisor.", "quantifier": "all widths, all integers of the type, all share values, all shift amounts", "why_tests_cant": "the share types have up to 2^128 values; the unit tests sample a few", "anchors": ["iris-mpc/src/types/sharable.rs: Sharable for i8, i16, i32, i64, i128", "iris-mpc/src/types/int_ring.rs: IntRing2k for signed types", "iris-mpc/src/types/ring_element.rs: RingImpl operators"]}
{"id": "C73", "title": "A SPDZ-wise vector of shares behaves as a list of authenticated shares", "statement": "The vector type of the SPDZ-wise backend, which stores the values and the MACs in two separate vectors, behaves in every operation (new, from_vec, push, extend, indexing, assignment, split_at, chunks, filter and sum under an iris mask) exactly as the list of pairs of a value share and its MAC share, with the same panics; in particular a value never gets separated from its MAC, and the two vectors always have equal length.", "quantifier": "all vectors, all indices, split points, chunk sizes and masks, all sequences of operations", "why_tests_cant": "quantifies over all sequences of operations on vectors of any length; there are no unit tests of the type", "anchors": ["iris-mpc/src/spdzwise/vecshare.rs: VecShare", "iris-mpc/src/spdzwise/share.rs: Share", "iris-mpc/src/spdzwise/protocol.rs: filter_reduce_add_twice"]}
{"id": "C74", "title": "Malicious ABY3: a whole query with a corrupt party", "statement": "In every execution of a database query over the malicious ABY3 backend in which one party is corrupt and sends arbitrary messages, honest parties that finish both output whether the database contains a match, unless the corrupt party has forged one of the checked calls of the query (a batch of AND gates, a batch of inner products, the opening of the answer): it has found a collision of the hash function on two strings that the honest parties compare in that call, or has introduced errors into the results of that call which the coin of the call does not reveal; errors chosen independently of the coin are not revealed by at most 2^(K-1) of its 2^V values. The list of calls this refers to is bookkeeping without influence on the execution, and accounts for every message received.", "quantifier": "all generators, hash functions, seeds, queries, databases, sharings, chunk sizes, corrupt parties, all behaviours of the corrupt party and all schedules", "why_tests_cant": "quantifies over all behaviours of a corrupt party, all schedules and all inputs; the tests run honest parties only", "anchors": ["iris-mpc/src/aby3_mal/protocol.rs: and, and_many, dot_many, get_mul_triple_many, sacrifice, jmp_verify, open_bit", "iris-mpc/src/iris/protocol.rs: iris_in_db, compare_iris_many", "iris-mpc/src/aby3/utils.rs: or_tree", "iris-mpc/src/traits/binary_trait.rs: binary_add_3_many"]}
{"id": "C75", "title": "Swift3: the proofs for multiplications and dot products are sound", "statement": "If at least one registered multiplication (or dot product) gate is wrong according to the views of the two verifying parties, then whatever proof the prover sends - it may be chosen depending on the challenges theta, but not on beta and r - the two verifiers accept for at most a fraction 2^-39 of all challenges (theta, beta, r); the exact bound is 1/2^d + (2m/2^d)(2^(Kd)/#r), d = ceil(log2(2m)) + 40. The challenges the parties derive from their generators are of the form counted.", "quantifier": "all rings Z_2^K with 2 <= K < 64, all numbers l, m <= 2^22 of rows and columns, all dot-product sizes, all views of the verifiers with a wrong gate at any position, all strategies of the prover", "why_tests_cant": "a soundness error of 2^-39 over all strategies of a cheating prover cannot be sampled; it needs counting roots of polynomials over the residue field of a Galois ring.", "anchors": ["iris-mpc/src/swift3/protocol.rs: mul_verify, dot_verify, get_mul_r", "iris-mpc/src/dzkp/mul_proof.rs: verify_pi, combine_verifications", "iris-mpc/src/dzkp/dot_proof.rs: verify_pi, combine_verifications", "iris-mpc/src/dzkp/polynomial.rs: lagrange_polys, random"]}
{"id": "C76", "title": "Swift3: AND gates can be wrong without detection (negative result)", "statement": "The verification of the Swift3 backend takes its first challenges (theta) from the generator all three parties have in common, so each party knows them before it computes its gates. For every state of that generator, every corrupt party and every number n with 4096 < n <= 2^44 of AND gates there are errors, not all zero, which the party can compute in advance, such that adding them to its shares in and_many and following the protocol otherwise leads, for all inputs and all sharings of them, under every schedule, to a successful verify at all three parties and to opened results that are wrong at exactly the positions of the errors.", "quantifier": "all generators that do not block the drawing of r, all states of the common generator, all three choices of the corrupt party, all numbers of gates between 4097 and 2^44, all inputs, sharings, other generators, schedules", "why_tests_cant": "the tests have no corrupt party; that a suitable error exists for every state of the generator and is never detected, for all inputs and schedules, cannot be tested", "anchors": ["iris-mpc/src/swift3/protocol.rs: and_verify, and_many, aby_and_many, verify, open_bit_many", "iris-mpc/src/swift3/random/prf.rs: gen_p", "iris-mpc/src/dzkp/and_proof.rs: prove, verify, combine_verifications, calc_params"]}
{"id": "C77", "title": "Swift3: input and openings with a corrupt party", "statement": "Whatever one party does, if both honest parties finish open, open_many, open_bit or open_bit_many on their parts of a Swift3 sharing, then both output the shared values and everything they had received before from the corrupt party in joint message passing is what the other honest party had recorded; or two of the strings they compared are a hash collision (the strings are named: the recorded queues, or a message of the corrupt party and the bytes of the missing share). After input, if what they received is right, they hold consistent parts of a sharing of the dealer's value (of some value if the dealer is corrupt); input followed by open returns one value at both, the dealer's if it is honest.", "quantifier": "all three choices of the corrupt party and all its behaviours (all messages at any time, crashes), all values and lists, all states, all finished runs of the two honest parties", "why_tests_cant": "there is no corrupt party in the tests, and its messages range over all byte strings", "anchors": ["iris-mpc/src/swift3/protocol.rs: input, open, open_many, open_bit, open_bit_many, jmp_send, jmp_queue, jmp_receive, jmp_verify"]}
{"id": "C78", "title": "Swift3: multiplications with a corrupt party", "statement": "Whatever one party does, if both honest parties finish and, mul, dot, and_many or dot_many, their states still fit together (same number of registered gates, same shared generators), and if the results they hold are not consistent parts of a sharing of the products of the shared inputs, then the states they are left with show it: something an honest party received in joint message passing differs from what the other honest party recorded (which the next opening compares), or a gate registered for the corrupt party is wrong (which verify is there to reject). A state that shows no such trace had none before either.", "quantifier": "all three choices of the corrupt party and all its behaviours, all inputs and vector lengths, all ring sizes, all fitting states (with any earlier deviations), all finished runs of the two honest parties", "why_tests_cant": "there is no corrupt party in the tests; its messages and the earlier history range over all possibilities", "anchors": ["iris-mpc/src/swift3/protocol.rs: and, mul, dot, and_many, dot_many, mul_pre, and_post, mul_post, dot_post, aby_and, aby_mul, aby_dot, jmp_send, jmp_queue, jmp_receive", "iris-mpc/src/dzkp/and_proof.rs: register_and", "iris-mpc/src/dzkp/mul_proof.rs: register_mul", "iris-mpc/src/dzkp/dot_proof.rs: register_dot"]}
{"id": "C79", "title": "Swift3: verification with a corrupt party", "statement": "Whatever one party does, if both honest parties finish verify, then its proofs for multiplications, AND gates and dot products have passed their checks with the challenges they have drawn, and the queues of joint message passing are unchanged. If one of its registered gates is wrong (gates and the way it chooses its proof from the thetas fixed before the challenges), its proof passes only for challenges in a set of at most a fraction 2^-39 (AND) resp. 2^-38 (mul, dot) of all challenges of the two honest parties; 2^-40 resp. 2^-39 if it has sent them the same commitment, unless the openings are a hash collision. coin: each honest party's coin is the XOR of the honest seeds and of an opening of the commitment it received; with the same commitment the coins agree, or the openings are a hash collision. Negative result: a corrupt party that sends different commitments makes the honest parties end with different coins, under every schedule.", "quantifier": "all three choices of the corrupt party and all its behaviours, all fitting states with any number of gates, all generators, all finished runs of the honest parties; for the negative result all schedules and all pairs of openings of 64 bytes", "why_tests_cant": "there is no corrupt party in the tests; its messages range over all byte strings, and the bound counts all challenges for every strategy", "anchors": ["iris-mpc/src/swift3/protocol.rs: coin, verify, and_verify, mul_verify, dot_verify, get_rands_for_and_dzkp, get_and_r, get_mul_r", "iris-mpc/src/dzkp/and_proof.rs: verify, combine_verifications", "iris-mpc/src/dzkp/mul_proof.rs: verify, combine_verifications", "iris-mpc/src/dzkp/dot_proof.rs: verify, combine_verifications", "iris-mpc/src/commitment.rs: commit, verify"]}
{"id": "C80", "title": "Distributed zero-knowledge proofs stay sound when the two verifiers use different challenges", "statement": "If a gate registered for the prover is wrong, then whatever proof and proof seed the prover sends (it may choose both after seeing the thetas), the challenges (theta, betas and r of the one verifier, betas' and r' of the other verifier) for which both verifications combine to acceptance are at most a fraction 2^-39 (AND gates) resp. 2^-38 (multiplications, dot products) of all challenges, for the parameters used by the code. With the same challenges for both this is acceptance in the sense of C56/C75.", "quantifier": "all views of the verifiers with a wrong gate, all numbers of rows, all numbers of columns that the code accepts (assertion of set_parameters for AND gates, m <= 2^22 for the others), all rings of 2 to 63 bits, all sizes of the dot products, all proofs and all ways of choosing them from the thetas", "why_tests_cant": "the tests run honest provers with equal challenges; the statement counts all challenges for every strategy", "anchors": ["iris-mpc/src/dzkp/and_proof.rs: verify, combine_verifications", "iris-mpc/src/dzkp/mul_proof.rs: verify, combine_verifications", "iris-mpc/src/dzkp/dot_proof.rs: verify, combine_verifications", "iris-mpc/src/swift3/protocol.rs: coin, and_verify, mul_verify, dot_verify"]}
{"id": "C81", "title": "Swift3: a database query with a corrupt party", "statement": "Whatever one party does during a query (body, verification, opening of the result bit), if both honest parties finish, then all proofs of the corrupt party have passed their checks and both honest parties output whether the plaintext search finds a match; unless a gate of the corrupt party registered by the honest parties is wrong although its proof has passed (at most a fraction 2^-38 of the challenges, see C79), or one of four named pairs of strings hashed by the honest parties (queues of joint message passing; the two openings) is a hash collision.", "quantifier": "all three choices of the corrupt party and all its behaviours, all queries and non-empty databases with at least 8960 common mask bits, all valid sharings, all chunk sizes, rings of 15 to 128 bits, all fitting states, all generators, all finished runs of the honest parties", "why_tests_cant": "there is no corrupt party in the tests; its messages range over all byte strings and all schedules", "anchors": ["iris-mpc/src/iris/protocol.rs: iris_in_db", "iris-mpc/src/swift3/protocol.rs: verify, open_bit, jmp_verify", "iris-mpc/src/swift3/protocol.rs: dot_many, and_many, get_msb_many"]}
{"id": "C82", "title": "Swift3: set-up of the generators with a corrupt party", "statement": "Whatever one party does during set-up, if both honest parties finish, then each has received two commitments and a message that opens them; the pairwise generator of the honest parties is the same at both, from the exclusive or of their seeds; the common generator of each comes from the exclusive or of the seeds of the honest parties and the one it was sent, and if the corrupt party has sent the same commitment of that seed to both, then the states of the honest parties fit together as needed by all later operations (or the two openings are a hash collision). Nothing forces it to: a corrupt party that commits to two different seeds makes the common generators differ under every schedule, and then set-up, input of a value by an honest party and open end, under every schedule, with both honest parties accepting that value plus the difference of the generators' first outputs.", "quantifier": "all three choices of the corrupt party, all seeds and commitment randomness, all generators and hash functions, all ring sizes; for the first part all behaviours of the corrupt party and all finished runs of the honest parties; for the second part all schedules, all values, both honest dealers", "why_tests_cant": "there is no corrupt party in the tests, and equivocation is only visible when the views of the two honest parties are compared", "anchors": ["iris-mpc/src/swift3/protocol.rs: setup_prf, setup_prf_from_seed, send_seed_commitment, send_seed_opening", "iris-mpc/src/swift3/protocol.rs: input, open, jmp_verify", "iris-mpc/src/swift3/random/prf.rs: Prf"]}
{"id": "C83", "title": "The match programs with a corrupt party", "statement": "Whatever one party does, from connecting to the end: a party that gets an answer has compared only codes with at least 8960 common valid positions. If both honest parties of the malicious ABY3 program finish, their shared generator is the same at both and each has received an opening of the commitment it got in set-up; and both print the answer of the plaintext program on that database and query, unless the corrupt party has forged one of the calls of the query (a named hash collision, or errors its coin does not reveal). The same for the Swift3 program if the corrupt party has sent the same commitment to both in set-up, with the exceptions of C81 or a collision of the openings. The SPDZ-wise program starts its query from states that meet the conditions of C67.", "quantifier": "all three choices of the corrupt party and all its behaviours, all databases made by the creation program, all seeds, all chunk sizes, all generators and hash functions, all finished runs of the honest parties", "why_tests_cant": "there is no corrupt party in the tests, and the programs are never run by them", "anchors": ["iris-mpc/examples/aby3_mal.rs: main, read_db, get_iris_share", "iris-mpc/examples/swift3.rs: main", "iris-mpc/examples/spdzwise.rs: main", "iris-mpc/src/aby3_mal/protocol.rs: setup_prf_from_seed, verify_commitment", "iris-mpc/src/iris/protocol.rs: iris_in_db, combine_masks, compare_iris_many"]}
{"id": "C84", "title": "A whole query over the malicious ABY3 backend tells one semi-honest party nothing but the answer", "statement": "During iris_in_db over the malicious ABY3 backend the messages one party receives (masked products, opened values of the sacrificed triples, tossed coins, hashes of the queues and of the zero checks, the final opening), together with the code shares it got from the client, have a joint distribution that depends only on the number of database entries, the masks (public), the chunk size and the answer: for any two queries and databases with the same sizes, masks and answer every combination of shares and messages is produced by exactly the same number of choices of the client's sharing randomness and of the tape of the generator the party does not know. Also for fixed shares of this party, whatever the shares of the others; likewise for and_many, dot_many, get_msb_many and reduce_binary_or. It does not matter how a tossed seed is expanded, nor what the hash function is. Every tape leads to exactly one view.", "quantifier": "all parties, all pairs of queries and databases of any size with equal masks and answer, all chunk sizes, ring widths from 15 bits with at least 40 spare bits in the verification ring, all hash functions, all expansions of coins, all states of the party's own generators, all tapes, all schedules, all message sequences", "why_tests_cant": "a statement about probability distributions over all random tapes and all pairs of inputs; a test sees single runs", "anchors": ["iris-mpc/src/iris/protocol.rs: iris_in_db", "iris-mpc/src/aby3_mal/protocol.rs: dot_many, and_many, get_mul_triple_many, coin, jmp_verify, hash_zero_verify, open_bit"]}
{"id": "C85", "title": "Many queries over malicious ABY3: all answers right, and nothing adds up over a session", "statement": "When any number of queries is answered one after the other on the same malicious-ABY3 protocol objects (the generators and the queues for the deferred comparison carry over), every party obtains the right answer to every query, under every schedule. The messages that one semi-honest party receives in the whole session have exactly the same distribution in any two sessions whose queries have, one by one, the same masks, sizes, answers and shares of that party; codes and databases may differ.", "quantifier": "all lists of queries with any databases (at least one entry each) and sharings, all parties, all lists of received messages, all hash functions and seed expansions, all starting states with agreeing generators and queues, all schedules", "why_tests_cant": "A test runs a few queries with fixed randomness; that joint views over an unbounded number of queries leak nothing but the answers is a statement about all random tapes, all inputs and all session lengths.", "anchors": ["iris-mpc/src/iris/protocol.rs: iris_in_db", "iris-mpc/src/aby3_mal/protocol.rs: MalAby3Protocol"]}
{"id": "C86", "title": "Sessions of many queries over ABY3, SPDZ-wise and Swift3: right answers, and how long a backend lasts", "statement": "When iris_in_db is called again and again on the same backends, with the same or other databases: over ABY3 all parties obtain all answers, in order. Over SPDZ-wise they do so exactly if the AND triples suffice, where what one query leaves over is used by the next, and otherwise all parties panic; with chunk sizes 128*k, 2 <= k <= 2K-2 (the default 1024 is one) they always suffice, with larger multiples of 128 as long as the database does not shrink, and a query over one entry can fail after a query over a large database. Over Swift3 either all parties obtain all answers or, under every schedule, one of them rejects and nobody obtains the answers; nobody ever obtains a wrong answer. But Swift3 never removes a verified gate: the dot products of all earlier queries, with padding, are verified again, and as soon as there are more than 2^44/51202 of them every party panics, so no backend answers queries over more than about 343 million entries in total.", "quantifier": "all numbers of queries, all query codes and databases with sufficient masks, all shares of them, chunk sizes, ring widths, generators, hash functions and schedules", "why_tests_cant": "tests run one or two queries on a fresh backend; the accounting of left-over triples and of accumulated gates depends on the whole history of the session", "anchors": ["iris-mpc/src/iris/protocol.rs: iris_in_db", "iris-mpc/src/spdzwise/protocol.rs: precompute_and_triples, verify_triple_queue", "iris-mpc/src/swift3/protocol.rs: verify, dot_verify", "iris-mpc/src/dzkp/dot_proof.rs: calc_params, set_parameters", "iris-mpc/src/dzkp/irreducible_polys.rs: get_inner"]}
{"id": "C87", "title": "A whole SPDZ-wise query reveals nothing but the answer to one semi-honest party", "statement": "For each party that follows the protocol, the messages it receives during iris_in_db over the SPDZ-wise backend (generation and sacrifice of the AND triples, dot products, batch verification of the MACs, extraction of most significant bits, OR-tree, comparison of triples and queues, opening of the answer), together with the shares it got from the client, have a joint distribution that depends only on the number of database entries, the masks, its own state and the answer: the query code, the database codes, the MAC key, and the shares and states of the other two parties may be different. The same holds for AND gates, for the verification of MACs and for the extraction of most significant bits alone.", "quantifier": "all parties, query codes, databases and MAC keys with the same masks and the same answer, all shares of them, ring widths 15..128, chunk sizes for which the triples suffice, all views, all long enough tapes, all hash functions and all expansions of seeds into shuffles", "why_tests_cant": "privacy is a statement about the distribution of views for all pairs of inputs; a test sees one execution and checks only the answer", "anchors": ["iris-mpc/src/spdzwise/protocol.rs: precompute_and_triples, generate_triples, permute, verify_triples, verify_macs, get_msb_many, and_many, verify, open_bit", "iris-mpc/src/iris/protocol.rs: iris_in_db"]}
{"id": "C88", "title": "The distributed proofs of Swift3 reveal nothing to the verifiers, and where this fails", "statement": "When a party proves its AND gates, multiplications or dot products, the proof it sends to its successor is uniformly distributed whatever its gates are. What its predecessor sees, the seed and the verification computed by the successor, is equally likely for any two lists of correct gates that look the same to the predecessor: for AND gates for every challenge point the code may choose, for multiplications and dot products for every point that is not, modulo two, an interpolation point, which are all but a fraction 2^-40 of the points the code may choose. The exception is real: the code may choose the interpolation points 1, 3, 5, ..., and then the verification sent to the predecessor contains the wires of one gate per row in the clear.", "quantifier": "all numbers of rows and row lengths up to the supported maximum, all correct gates and all pairs of them with the same view of the predecessor, all challenges, ring widths below 64, all long enough tapes, all expansions of seeds", "why_tests_cant": "zero-knowledge compares distributions of views for all pairs of secrets; a test that runs prover and verifiers sees only that the proof is accepted", "anchors": ["iris-mpc/src/dzkp/and_proof.rs: AndProof::prove, verify_prev, verify_next", "iris-mpc/src/dzkp/mul_proof.rs: MulProof::prove, register_mul", "iris-mpc/src/dzkp/dot_proof.rs: DotProof::prove", "iris-mpc/src/swift3/protocol.rs: get_and_r, get_mul_r"]}
{"id": "C89", "title": "One party learns only the answer from the computation and the opening of a Swift3 query", "statement": "With an ideal random generator between the other two parties, the messages that a semi-honest party receives during the computation of a Swift3 query and the opening of its result have the same distribution in any two situations that agree on its own shares, its own state, the masks, the number of database entries and the answer; jointly with the shares handed out by the client they do not depend on the codes at all. Before the opening not even the answer matters: AND gates, dot products, extraction of most significant bits and OR trees give equally distributed messages for arbitrary shares of the same number. The verification of the gates is not part of this property (see C88).", "quantifier": "all queries, databases, sharings, consistent states of the other parties, all parties, all numbers of entries, chunk sizes and ring widths from 15 bits, all views, all long enough tapes, all hash functions", "why_tests_cant": "privacy compares the distributions of views for all pairs of secrets; a test sees single runs and their outputs", "anchors": ["iris-mpc/src/swift3/protocol.rs: and_many, dot_many, aby_and, and_post, jshare, get_msb_many, reduce_binary_or, open_bit, jmp_verify", "iris-mpc/src/iris/protocol.rs: iris_in_db"]}
{"id": "C90", "title": "input and input_all hide the inputs from every other party", "statement": "In all four MPC backends: when party id inputs a value with input, or all parties input a value with input_all, the messages received by a semi-honest party have the same distribution for any two inputs of the other parties, with an ideal random generator between the other two parties. In the SPDZ-wise backend they do not depend on the MAC key either. Every tape of the generator leads to exactly one view. input_all of Swift3 gives consistent sharings of the three inputs under every schedule.", "quantifier": "all inputs, dealers, parties, ring widths, consistent states (Swift3 and ABY3 privacy: all states), all views, all long enough tapes", "why_tests_cant": "privacy compares the distributions of views for all pairs of inputs; a test sees single runs and their outputs", "anchors": ["iris-mpc/src/aby3/protocol.rs: input, input_all", "iris-mpc/src/aby3_mal/protocol.rs: input, input_all", "iris-mpc/src/spdzwise/protocol.rs: input, input_all", "iris-mpc/src/swift3/protocol.rs: input, input_all"]}
{"id": "C91", "title": "Openings reveal the opened values only (SPDZ-wise: in the larger ring); the single Swift3 gates reveal nothing", "statement": "open, open_many, open_bit and open_bit_many show a party nothing but the opened values: for two sharings of the same values in which the party has the same shares, every view has the same probability, in all four MPC backends (in ABY3 the view is one message, a function of values and own shares). In the SPDZ-wise backend `the values` are those of the ring with the security bits: open and open_many reveal also the upper bits that they cut off from their results, and sharings that differ only there are always told apart. mul, dot and AND of Swift3 reveal nothing about their inputs.", "quantifier": "all values, all consistent sharings, all consistent states (with any queues, any MAC keys, any stock of triples), all parties, all views, all tapes and numbers of random bits, all schedules", "why_tests_cant": "Privacy is a statement about the distribution of everything a party receives, for all values of the unknown shares; no test of results sees it.", "anchors": ["iris-mpc/src/aby3/protocol.rs: open, open_many, open_bit, open_bit_many", "iris-mpc/src/aby3_mal/protocol.rs: open, open_many, open_bit, open_bit_many", "iris-mpc/src/spdzwise/protocol.rs: open, open_many, open_bit, open_bit_many, verify_macs", "iris-mpc/src/swift3/protocol.rs: open, open_many, open_bit_many, mul, dot, and"]}
{"id": "C92", "title": "A session of many ABY3 queries leaks nothing beyond the answers", "statement": "When iris_in_db is called any number of times, one after the other, on the same ABY3 backend (the generators continue where the last query left them; databases may differ from call to call), all messages that one semi-honest party receives in the whole session have the same joint distribution in any two sessions whose queries the party cannot tell apart, one by one, by its own shares, the masks and the answers. The other parties may start from other generator states. Every tape of the unknown generator leads to exactly one view.", "quantifier": "all numbers of queries, all database sizes, all codes, masks with enough common bits, sharings, parties, chunk sizes, correlated states, all views, all tapes at least as long as a bound that depends on the sizes only", "why_tests_cant": "privacy compares joint distributions of views over all pairs of sessions of any length; tests see single runs", "anchors": ["iris-mpc/src/iris/protocol.rs: iris_in_db, compare_iris_many, hamming_distance_many", "iris-mpc/src/aby3/protocol.rs: open_bit, reduce_binary_or, get_msb_many, masked_dot_many, prf of the protocol"]}
{"id": "C93", "title": "The single gates reveal nothing", "statement": "When the three parties call one of mul, dot, dot_many, the AND or OR of shared bits, or get_msb by itself, the messages that any one party receives have the same distribution for any two inputs. In the semi-honest and in the SPDZ-wise backend this holds whatever the shares of the three parties are; in the malicious ABY3 backend, whose gates also make, check and consume a multiplication triple, it holds for any two inputs that agree in the shares of the party that looks. Every choice of the unknown randomness gives exactly one view.", "quantifier": "all inputs and sharings, all parties, ring sizes, vector lengths, generator states, SPDZ keys and states, all views and all numbers of random bits from a stated bound on", "why_tests_cant": "a distribution over all random tapes, compared for all pairs of inputs; a missing or re-used mask leaves every result correct", "anchors": ["iris-mpc/src/aby3/protocol.rs: mul, dot, dot_many, and, get_msb", "iris-mpc/src/aby3_mal/protocol.rs: mul, dot, and, get_mul_triple, dot_sacrifice, get_msb", "iris-mpc/src/spdzwise/protocol.rs: mul, dot, dot_many, and, binary_or"]}
{"id": "C94", "title": "The set-up tells a party nothing about the generator of the other two", "statement": "In preprocess / setup_prf of all four MPC backends, what a party receives is independent of the pseudorandom generator that the other two parties share: over the random seeds (and commitment randomness) drawn by the other two, for every view and every generator state, the joint probability is the product of the probability of the view and that of a generator with a uniformly random 32-byte seed. In ABY3 and SPDZ-wise the only message is the predecessor's seed; in the malicious backends the view consists of the commitments and openings of one seed of each neighbour (Swift3: and of the common seed). No assumption on the hash function or the generator is needed.", "quantifier": "all parties, all own draws, all states before the set-up, all views, all generator states, all hash functions and all generators; under every schedule", "why_tests_cant": "Independence is a statement about the distribution over 2^256 and more seeds; a test sees single runs.", "anchors": ["iris-mpc/src/aby3/protocol.rs: setup_prf, setup_prf_from_seed, preprocess", "iris-mpc/src/spdzwise/protocol.rs: preprocess", "iris-mpc/src/aby3_mal/protocol.rs: setup_prf_from_seed, setup_prf", "iris-mpc/src/swift3/protocol.rs: setup_prf_from_seed, setup_prf"]}
{"id": "C95", "title": "Whoever watches the wires learns only the sizes", "statement": "The metadata of the traffic (who sends how many bytes to whom, in which order, and when a party waits for a message of whom) of a query, of a session of queries and of the single operations do not depend on the iris codes, the masks, the shares, the state of the random generators, the MAC key, the contents of the received messages or the answer. Two runs of a party's code on inputs of the same sizes perform the same actions, except that one that is given up with an error stops earlier; in two executions, under any schedules, in which all parties return Ok, every party performs exactly the same actions. For ABY3, the malicious variant of ABY3 and the SPDZ-wise backend (there for equal numbers of waiting values and triples). Sizes themselves do show: opening different numbers of values looks different. In Swift3 the same holds for the single operations, for a query up to the verification of the proofs, and for the verification of the AND gates (for equally many registered gates). It does not hold for the verification of the multiplications and dot products: there a party sends polynomials serialised without their vanishing leading coefficients, so the length of that message depends on the values in it. What does stay fixed in Swift3, for whole queries and sessions including all verifications, is the pattern: which party sends to which and waits for which, in which order (if the same kinds of gates are waiting at the start and the generators are not stuck).", "quantifier": "all rings, generators, hashes, parties, chunk sizes, codes, databases, masks, shares, keys, local states of equal size, all received messages (also forged ones), all pairs of schedules, all sequences of queries", "why_tests_cant": "Independence compares all pairs of secret inputs and all received messages; a test can record the traffic of a few runs, and a branch on a secret that changes a message length in rare cases would be missed", "anchors": ["iris-mpc/src/iris/protocol.rs: iris_in_db", "iris-mpc/src/aby3/protocol.rs: masked_dot_many, get_msb_many, reduce_binary_or, open_bit", "iris-mpc/src/aby3_mal/protocol.rs: get_mul_triple_many, dot_sacrifice_many, and_many, jmp_verify", "iris-mpc/src/spdzwise/protocol.rs: precompute_and_triples, verify_macs, verify_triple_queue", "iris-mpc/src/traits/binary_trait.rs: binary_add_3_many, or_many", "iris-mpc/src/aby3/utils.rs: or_tree, send_slice_and_receive_iter", "iris-mpc/src/swift3/protocol.rs: mul, and_many, dot_many, jshare, jmp_send, jmp_queue, jmp_verify, and_verify, mul_verify, dot_verify", "iris-mpc/src/dzkp/and_proof.rs: create_proof, verify, SharedVerify", "iris-mpc/src/dzkp/polynomial.rs: shrink, Rem"]}
{"id": "C96", "title": "How much a query communicates", "statement": "Every run of an ABY3 party's query that returns an answer has sent an exactly known number of bytes, the same for the three parties under every schedule, independent of codes, masks, shares and received messages: one ring element per database entry (a dot product costs one ring element however long the vectors are), 2K-3 words of 16 bytes per 128 entries of a chunk for the comparison, one word less than the results fill plus 22 bytes for combining them, and one byte for the answer. For chunk sizes that are multiples of 128 this is n*ceil(K/8) + 32(K-1)*ceil(n/128) + 7; no chunk size is cheaper; chunks of one entry cost 2K-3 words for every entry. A session costs the sum over its queries. In the malicious variant of ABY3 the bytes are exactly known as well: each checked batch costs a seed, three digests and, for dot products, an element of the larger ring for every element of the vectors (at least 102400 bytes per entry), each AND 24 bytes per bit and two words; the results are combined with 26 bytes per gate and 224 bytes per call.", "quantifier": "all rings (ABY3: of at least 3 bits), generators, hashes, parties, database sizes, chunk sizes, codes, masks, shares, local states, received messages and schedules; all sequences of queries", "why_tests_cant": "A benchmark measures a few sizes; the formula is claimed for all sizes, chunk sizes, inputs and schedules, and optimality compares all chunk sizes", "anchors": ["iris-mpc/src/iris/protocol.rs: iris_in_db, compare_iris_many", "iris-mpc/src/aby3/protocol.rs: masked_dot_many, dot, msb_adder_many, transposed_pack_and, reduce_or_u8, reduce_binary_or, open_bit", "iris-mpc/src/aby3/utils.rs: or_tree, transpose_pack_u128, send_and_receive", "iris-mpc/src/aby3_mal/protocol.rs: get_mul_triple_many, dot_sacrifice_many, and_many, get_msb_many, reduce_binary_or, open_bit, coin, jmp_verify"]}
{"id": "C97", "title": "The exact traffic and the number of rounds of a query over ABY3 and over its malicious variant", "statement": "Whenever a database query over ABY3 with K-bit shares (K >= 3) returns an answer at a party, the party's network actions were exactly a fixed list of exchanges (send to the next party, then wait for the previous one): per chunk of n entries one message of n ring elements, one with the first layer of carries and K-2 with one carry word row each, then the OR tree level by level with at most chunk_size words in a message, seven messages of 8,4,2,1,4,2,1 bytes and one byte for the answer. So the number of rounds is K per chunk plus the groups of the tree plus 8; for a database that fits in one chunk it is K + ceil(log2(ceil(n/128))) + 8. For the malicious variant the actions are likewise a fixed list of rounds (an exchange; a digest to the previous party; a digest to both others): every AND and every dot product batch takes the products, a coin seed, the opened differences, a transcript digest and a check digest; the number of rounds is 6*ceil(log2 K)+17 per chunk, 6 per group in the OR tree and 3 at the end, for one chunk 6*(ceil(log2 K)+ceil(log2 n))+20. In both cases the lengths add up to the bytes of C96.", "quantifier": "every PRG, key states, ring width, comparison sign, code, mask, database and chunk size, every received bytes, and every schedule of the three parties", "why_tests_cant": "tests do not look at the wire and fix one database size and chunk size; a latency budget needs the count for every size", "anchors": ["iris-mpc/src/iris/protocol.rs: iris_in_db, compare_iris_many", "iris-mpc/src/aby3/protocol.rs: masked_dot_many, dot, msb_adder_many, transposed_pack_and, reduce_or_u8, reduce_binary_or, open_bit", "iris-mpc/src/aby3/utils.rs: or_tree, transpose_pack_u128, send_and_receive", "iris-mpc/src/aby3_mal/protocol.rs: get_mul_triple_many, dot_sacrifice_many, and_many, reduce_binary_or, open_bit, coin, jmp_verify"]}
