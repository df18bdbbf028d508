# Design of the formal model of TaceoLabs/worldcoin-experiments

The model, its specifications and its theorems are in `lean/Verif/`; `properties.jsonl` states the properties in English,
`MANIFEST.json` maps each property to its theorems (regenerate with `tools/manifest.py`), `seeded/LOG.jsonl` records the
wrong programs the theorems were tested against.

## 1. Structure

| directory | contents |
|-----------|----------|
| `Verif/Model/*` | definitions that follow the Rust functions one by one; every definition cites file and lines and states simplifications |
| `Verif/Spec/*` | small specifications that do not use the model's helpers: what a sharing is, Hamming distance, what an adversary can do, what "every schedule" means … |
| `Verif/Proof/*` | lemmas and program logics |
| `Verif/Props/*` | the property theorems `Cnn_…`, each file with `example`s that show that the hypotheses are met by concrete non-trivial cases |

## 2. Modelling approach

* **Parties.** The protocol code of one party (the Rust `async fn`s with `?`) is a term of the free monad `Prog`: *return*,
  *fail with an `Error`* (a panic is a distinguished error), *send bytes to party j*, *receive bytes from party j*. `&mut self`
  is a state passed along (`Proto σ α = σ → Prog (α × σ)`).
* **Network.** Three parties, FIFO channels of byte strings between any two, small-step interleaving semantics: any enabled
  party may take the next step (`Step`, `Config`). Statements about honest runs use `EverySchedule` (`Spec/Joint`): *every*
  maximal interleaving terminates with all parties done and the postcondition true, with unlimited channels and with
  channels limited to any capacity of at least two messages (C69). It is proved with a Hoare logic `WPS`
  (existence of one run, closed under `bind`) plus the diamond property (C01): one complete run fixes the result of all.
* **Adversary.** `Spec/Adversary`: one party runs an *arbitrary* program; `Reaches` is the reachability relation of that
  network, `Local` the history (messages received and sent) of one party. Theorems with a corrupt party are about all
  corrupt programs and all schedules. `Spec/Pair` (`HonestViews`) is the abstraction used for whole protocols: the two
  honest parties have finished, and what they received from each other was sent; nothing is assumed about the messages
  of the corrupt party. `C24_views_of_reachable` proves that every execution in which both finish is of this form. The
  Hoare logic for such pairs is `PW`/`PWS` (`Proof/Pair`).
* **Probabilities** are counted: "with probability at most 2^-k" is "for all but at most `n` of the `N` values of the
  coin / challenge / shuffle", where the exceptional set is fixed *before* the state that determines the coin is
  quantified, and depends only on what the statement says (the errors, the registered gates).
* **Ring elements** are `BitVec K` for arbitrary `K`; the Rust types are K = 1, 8, 16, 32, 64, 128. The wire format is
  real byte lists (big endian, `ceil(K/8)` bytes).
* **Randomness.** `ChaCha12Rng` is an arbitrary deterministic generator `Prg`, universally quantified (state, seeding,
  draws; the only law is the range of `gen_range` and the length of seeds). Entropy from the operating system is an explicit
  argument of the program.
* **Hash.** SHA-512 is an arbitrary function from byte strings to 64 bytes, universally quantified. Soundness theorems end
  with "or *these two* strings are a collision"; the strings are named in the statement (an existential collision would be
  trivial for a compressing function).
* **Floating point.** Products of small integers and `f64` literals are modelled exactly (round to nearest even on the
  significand, C18). `sqrt`, `log2` in the parameter choices of the proofs and in `ceil_log2` are modelled by their exact
  integer results, assuming the `f64` functions are exact in the ranges used.
* **Panics.** `unwrap`, `expect`, `assert!`, index out of bounds, overflow where checked in a debug build and `todo!()`
  are `Err.panic`. A party that blocks for ever is a receive that is never served.

## 3. Trusted base

* Lean's kernel (4.33.0) and the axioms `propext`, `Classical.choice`, `Quot.sound`: `vcheck` prints the axioms of every
  theorem in the manifest and no others occur. No axioms of our own, no compiled evaluation.
* The reading of the Rust sources into `Verif/Model/*` (cited line by line), and the English readings of `Verif/Spec/*`.
* Behaviour of crates that are not in the repository, modelled from their documentation: `bincode` 1.3 (little-endian fixed
  integers, 8-byte lengths, trailing bytes ignored), `gf256` (`p64`, `gf2p64` as carry-less arithmetic modulo the recorded
  polynomial), `tokio-util` 0.7.10 `LengthDelimitedCodec` (4-byte big-endian length, 8 MiB limit), `quinn` 0.10 (reliable
  ordered streams; a connection attempt completes once the server endpoint is bound), `tokio` channels (FIFO),
  `rusqlite`/SQLite (a table is the list of its rows in the order of insertion, `SELECT` without `ORDER BY` returns them in
  this order), `bytemuck` casts on a little-endian machine.
* **Modelled**: `iris-mpc/src`: `types/*`, `traits/{binary_trait,mpc_trait,test_network,share_trait}`, `aby3/*`,
  `aby3_mal/protocol`, `spdzwise/*`, `swift3/*` (with `verify`), `dzkp/*`, `commitment`, `iris/protocol`; `mpc-net/src`:
  `config`, `lib` (`establish`, channels), `channel`, `codecs`; `plain-reference/src/lib.rs`; the programs
  `bin/create_sample_data.rs`, `plain-reference/src/bin/find_match.rs` and the four `examples/*.rs` without their argument
  parsing and printing.
* **Not modelled**: TLS, certificates and their generation, address resolution, time-outs
  (the detection of a lost connection is a step that can happen, C70, without time); statistics and tracing output; memory exhaustion; timing; flow control by bytes (back pressure
  is modelled as channels limited to a number of messages, C69, not to a number of bytes); the internals of ChaCha12 and SHA-512; argument parsing; benches and tests.

## 4. Properties

"run" = theorem for every schedule; "corrupt" = theorem about all programs of a corrupt party.

| id | what is modelled | how proved |
|----|------------------|------------|
| C01 | `Prog`, `Config`, `Step` | diamond lemma, induction on the length of the complete run |
| C02–C04 | byte codecs, bit decomposition | induction on bytes / bit extensionality |
| C05 | `extended_euclid_rev` with wrapping arithmetic | loop invariant by strong induction; u128 is `todo!()` |
| C06–C10 | `aby3/*` | run; ring identities, induction on vectors |
| C11–C13 | `binary_trait.rs`, `msb_adder_many`, transposes, `or_tree` | run; carry-chain invariant per Kogge–Stone level, induction on tree size |
| C14–C16, C53 | `iris/protocol.rs` over an abstract lawful backend (`MpcLawful`), instances ABY3, plain | run; composition; exact errors |
| C17–C19 | `plain-reference` | word/bit arithmetic, exact `f64` |
| C20, C21 | sharing functions, messages | explicit bijections of the randomness |
| C22, C23 | joint message passing, zero check | corrupt; projection to histories, hash collision named |
| C24, C25, C27 | sacrifice, binary triple check, MAC check | run completeness; exact value of the check; counting; corrupt (`C24_run_*`, `C25_run_verify`) |
| C26, C28, C32 | MAC linearity, triple buffer, permutation | algebra, list invariants; permutation is uniform in the draws |
| C29 | triple accounting of `iris_in_db` | exact characterisation; the claim as documented is false (counterexamples) |
| C30, C31 | coin, commitments | run; hash collision named |
| C33–C36 | `aby3_mal` | run; corrupt for input and set-up; panics for 32/128 bit |
| C37–C42 | `swift3` | run; C42 negative for Swift3 |
| C43–C46, C55, C56 | `dzkp` | polynomial algebra over the modelled rings; soundness by root counting; C44/C45/C46 contain negative results |
| C47–C51 | `mpc-net`, test network | transition systems with any number of parties, invariants, termination measure |
| C52 | utilities | induction |
| C54 | `spdzwise` end to end | run |
| C57, C58 | attacks on `aby3_mal` (rushing) and `spdzwise` (opening) | explicit corrupt programs, proved to succeed for all inputs |
| C59, C60 | `aby3_mal` opened products, `spdzwise` triple generation | corrupt, whole runs (pair logic), counting of coins / shuffles |
| C64 | rushing attack on `spdzwise` triple generation | explicit corrupt programs, proved to succeed for all inputs |
| C65 | `spdzwise` AND circuits and `verify` with a corrupt party | two honest parties (`Proof/Pair*`); logic of possible worlds for circuits whose gates may be wrong (`Proof/PairWorld`), the recorded gates decide which world is the real one |
| C66 | `spdzwise` products and `verify_macs` with a corrupt party | `Spec/PairMac.lean`: local parts of the functions named (`macDraws`, `reshared`), strings of a possible collision (`macCollision`). Pair logic for `mul`, `dot`, `dot_many`, `masked_dot_many`, `verify_macs` (`Proof/PairMac.lean`); counting keys and coefficients in `Props/SpdzMac.lean`. |
| C67 | `spdzwise` database query with a corrupt party | `Spec/PairIris.lean`: a forged chunk (`ChunkForged`, `ForgedIn`). The chunks compose by induction with the pair logic (`Proof/PairIris.lean`); the AND gates of all chunks and of the disjunction are one circuit in the sense of C65; counting as in C66 |
| C68 | perfect privacy of a whole ABY3 query against one semi-honest party | `Spec/Privacy.lean`: recorded messages, the ideal generator as a bit tape, number of tapes leading to a view. A compositional judgement (`Proof/Uni.lean`): for every sequence of messages of the fixed format there is a piece of the unknown tape of the same number of bits leading to it; counting (`Proof/UniCount.lean`) turns this into uniformity. The last message is determined by the answer (`Proof/UniOpen.lean`). Random generators are replaced by the ideal one: the security of the real one (ChaCha12) is not modelled |
| C69 | channels of limited capacity (`BStep`, `AllSchedulesWithin`) | the program logic for runs is one for capacity 2, which gives unlimited channels and all larger capacities; diamond lemma for limited channels; explicit deadlock for capacity 1 |
| C70 | crashes, broken and closed connections (`Model/Fault`: `FStep`) | every execution with faults is compared with a prefix of one without (`Sim`); no endless wait: the histories of the parties are prefixes of those of the complete run (an instrumented program returns its history, confluence), and the earliest missing step of the waiting parties would be enabled; explicit executions for the negative part |
| C71 | the examples of `mpc-net`, their codec, `Channel::close` (`Model/Examples`) | the decoder is characterised by iffs, streams by induction over the pieces; one explicit run per traversal order, then confluence with capacity 1 (C69); close from C49 |
| C72 | the signed number types and their operators (`Model/Sharable`) | `BitVec.toInt`/`ofInt`, arithmetic modulo 2^K; all widths at once |
| C73 | the SPDZ-wise `VecShare` as two vectors (`Model/VecShare`) | refinement of lists of pairs, operation by operation |
| C74 | malicious ABY3 database query with a corrupt party | `Spec/PairCalls.lean`: the methods with a list of the checked calls (`logOps`) and what it means to forge a call (`CallForged`). The pair logic with worlds of C65 (`Proof/PairCalls.lean`, `PairCallsQuery.lean`): as long as no call is forged the values are right; the list is erased by a simulation (`Proof/PairErase.lean`) |
| C75 | soundness of the multiplication and dot-product proofs | `Spec/Dzkp.lean`: acceptance of the two verifiers as a predicate on challenges. The ring `Z_2^K[X]/f` with `f` irreducible mod 2 is a Galois ring: elements are split into a power of 2 and a part that does not vanish modulo 2; linear forms and polynomials are counted in the residue field (`Proof/GaloisRing.lean`, `Proof/ZkMulSound.lean`) |
| C76 | wrong AND gates the Swift3 verification does not find | `Spec/Swift3Cheat.lean` (the honest `and_many` with a function applied to the sent components), `Proof/Swift3Frame.lean` (operations do not read the registered AND gates; how far each moves the common generator), `Proof/Swift3Cheat.lean`. Negative result: theta is a function of the common generator; more than 64 weights in GF(2^64) are linearly dependent over the bits (pigeonhole), errors on such a dependency cancel in the first column, so the honestly computed proof is accepted (`andVerify_cols`) |
| C77 | Swift3 `input` and openings with a corrupt party | `Proof/PairExec.lean` (symbolic execution of the programs of the two honest parties against arbitrary messages of the third; rule for every step), `Proof/Swift3PairOpen.lean`, `Swift3PairInput.lean`. The comparison of the hashed queues gives equality of the queues or a named collision; the three positions of the corrupt party are run separately |
| C78 | Swift3 multiplications with a corrupt party | `Proof/Swift3PairReg.lean`, `Swift3PairOps.lean`, `Swift3PairMany.lean`: the programs of the two honest parties are run against arbitrary messages of the third (`PairExec`); what they register (the inputs, the masks and the part of the product of the corrupt party) is computed symbolically, and the identity 'result right, or recorded message differs, or registered gate wrong' is an identity of polynomials (over the ring, or bit by bit over ZMod 2 with the tactic `xor_ring`). `Proof/Swift3PairHonest.lean`: honest states are `PairOk` and `Clean` |
| C79 | Swift3 verification with a corrupt party | `Proof/Swift3PairVerify.lean`, `Swift3PairCheck.lean`: symbolic execution of the two honest parties against arbitrary messages (`PairExec`); `Swift3PairSound.lean`: the challenges drawn have the shape counted in C56, C75, C80; `Swift3Coins.lean`: the run with two coins |
| C80 | soundness of the distributed proofs with different challenges at the two verifiers | `Proof/ZkTwoCoins.lean`: the combined check is a polynomial identity in two points; over the residue field it is counted by a product Schwartz–Zippel argument (`count_accept_two`) over `(θ, (β, r), (β', r'))` |
| C81 | Swift3 query with a corrupt party | `Props/Swift3PairQuery.lean`: the run is split at the verification and at the opening (`PWS.split`); body by `queryBody_pws`, check by C79, opening by C77; `Proof/Swift3Finish.lean`: a generator with which honest parties provably finish (non-vacuity, `C41_query_accepted`) |
| C82 | Swift3 set-up with a corrupt party | `Spec/Swift3Setup.lean`: `SetupOpens`, `twoSeeds`; `Proof/Swift3Setup.lean`: set-up spelled out per party, run of the two honest parties with arbitrary messages from the third (`run2`), joint run with `twoSeeds` (`run3`), `input` when the dealer has another common generator than the other two; `Props/Swift3PairSetup.lean` |
| C83 | Match programs with a corrupt party | `Proof/PairSetup.lean`: set-up of malicious ABY3 and SPDZ-wise spelled out and run with two honest parties; mask check of a single party by induction over the chunks; `Props/PairMains.lean`: composition with C74, C81, and the conditions of C67; the state of the corrupt party is bookkeeping (`withGhost`) |
| C84 | perfect privacy of a whole query over malicious ABY3 against one semi-honest party | `Spec/PrivacyMal.lean`: as C68 with an ideal generator that also yields seeds. The opened values of a sacrifice are not independent of the shares, so uniformity of the messages is not the invariant; instead two worlds run in lock-step (`Proof/Lock.lean`: both runs succeed and the party receives the same messages) with tapes that are images of one tape under two injective maps (`Cpl`, `Proof/LockAnd.lean`), built gate by gate up to the whole query; `Proof/LockCount.lean` turns a coupling into equal numbers of tapes. Random generators are replaced by the ideal one: the security of the real one (ChaCha12) is not modelled |
| C85 | a session of many queries over malicious ABY3: right answers, and the joint view leaks nothing beyond the answers | `Spec/Session.lean`: a list of queries run one after the other on the same states. The Hoare triple and the coupling of one query (C84) both end in a state from which the next query can start; induction over the list |
| C86 | sessions over ABY3, SPDZ-wise, Swift3 | `Spec/Session.lean`: `session`, `swift3Session`, the recursions for left-over triples (`SessionEnough`) and for registered gates (`SessionFits`). Induction over the list of queries with the Hoare triples of one query that give the exact stock, or (`Proof/Swift3Session.lean`) the exact size and bounds on the number of registered dot products; arithmetic of ceilings for the chunk sizes; the stall of one query is propagated with an arbitrary continuation |
| C87 | perfect privacy of a whole query over SPDZ-wise against one semi-honest party | `Spec/PrivacySpdz.lean`: as C84, with states that also hold shares of the MAC key. Lock-step coupling of two worlds with different keys (`Proof/SpdzLock*.lean`); AND gates, MAC checks and MSB extraction as in C84. New: the triples are shuffled with a tossed seed before the sacrifice, so the correction of the tape depends on a permutation that the tape itself determines; `Proof/SpdzLockTwist.lean` shows that the resulting map of tapes is injective, `Proof/SpdzLockCount.lean` turns it into equal numbers of tapes. Backend without left-over triples and without pending MAC checks |
| C88 | zero-knowledge of the distributed proofs; failure at interpolation points | `Spec/ZkPrivacy.lean`: the messages of the prover and what the predecessor receives, as functions of the tape of the prover; probabilities are numbers of tapes. Successor: masks are a bijection between tapes and proofs (`Proof/ZkMask.lean`). Predecessor: its view is determined by its own gates and the values of the wire polynomials at `r`, and a shift of the random values `w` carries one prover into the other because the Lagrange basis polynomial of point 0 is a unit at `r` (`Proof/ZkHide*.lean`, `Proof/ZkTape.lean`); the count of points where it is not, and what they reveal, in `Proof/ZkReveal.lean` |
| C89 | perfect privacy of the computation and the opening of a Swift3 query against one semi-honest party | `Spec/PrivacyS3.lean`: as C84, with the generator that a party lacks in the Swift3 state. Gates: couplings of two worlds with *arbitrary* shares and states (`Cpl3`, `Proof/S3Lock*.lean`): a bijection of the tapes makes the messages of party `i` equal; the tape used by a gate is that of the resharing of masks, of the cross terms (`andPostLocal`) and of the sharing by one party (`jshare`), the roles depend on the party. Opening: lock-step run from consistent states (`Proof/S3LockOpen.lean`), the missing component is a function of own share and answer. Modelled: query with `verify` replaced by a no-op (`ops` takes it as parameter); the messages of `verify` are the subject of C88, their joint distribution with the gates is not covered |
| C90 | privacy of `input` and `input_all` in all four MPC backends, correctness of `input_all` of Swift3 (`Model/Swift3InputAll`) | ABY3: the messages are uniform (`Proof/InputAby3.lean`). The other backends: couplings of two worlds as in C84, C87, C89 (`Proof/InputMalLock.lean`, `Proof/InputSpdz.lean`, `Proof/S3Input.lean`): the mask of the dealer, or of the party before `i`, is drawn from the generator that `i` does not know and absorbs the difference of the inputs; case distinction on the position of `i` relative to the dealer |
| C91 | Openings reveal the opened values only; the single Swift3 gates reveal nothing | The component a party lacks is determined by the value and its own share; the exact view of ABY3; lock-step runs of two worlds (as in C84, C87, C89) for the others; negative result for the upper bits in the SPDZ-wise backend (finding 21) |
| C92 | a session of many ABY3 queries leaks nothing beyond the answers | `Proof/UniSession.lean`: the judgement `TapeSim` (messages and next state of a party as functions of what it knows and of a uniform string) composes over queries; each query is the uniform part of C68 followed by the opening, whose message is determined by the answer |
| C93 | The single gates reveal nothing | ABY3: one masked exchange per round (`Uni`), so the number of tapes for each view is that of a uniform message. SPDZ-wise: `CplS` couplings of the masked re-sharing of value and MAC. Malicious ABY3: lock-step runs with a tape transformation (`mulTape`, `dotTape`, `tripleTape`) that shifts the factors of the triple by the unknown share; `get_msb` composes the AND gates. `Props/GatePrivacy.lean` |
| C94 | The set-up tells a party nothing about the generator of the other two | `setupCount` counts the draws of the other two parties that lead to a view and an outcome (Spec/SetupPrivacy); recorded runs of the four set-ups give view and key explicitly; xoring a seed that party i never sees shifts the key by any difference and leaves the view alone, so the joint count is a product (`count_indep`). `_occurs`: the counts are finite and positive. |
| C95 | Whoever watches the wires learns only the sizes | `Prog.traffic` (Spec/Traffic) erases contents from a party's run; a relational logic `Alike`/`PA` (same actions until one side fails, for all pairs of received messages) is proved closed under all program constructs and instantiated function by function: exchange helpers, binary circuits, msb adder, or-tree, iris layer (Proof/AlikeGen), ABY3 and its malicious variant (AlikeInst), SPDZ-wise with a relation on buffer sizes (AlikeSpdz); executions of three parties by projecting a watched execution on each party. Swift3: operations and query without `verify` (AlikeSwift3), `and_verify` for equally many gates and a generator that is not stuck (AlikeAndVerify); for `mul_verify`/`dot_verify` the property is false and the varying length is exhibited for all numbers of gates (VerifyLength, Props/TrafficSwift3). for whole Swift3 queries and sessions with all verifications the pattern without lengths is proved equal with the weaker logic `Pat`/`PP` (AlikePattern). Not covered: timing, and which of the lengths in `mul_verify`/`dot_verify` besides that of `SharedVerify` are fixed. |
| C96 | How much a query communicates | a unary logic `Costs`/`PC` (every path that returns sends exactly n bytes, results have known lengths) over the same programs as C95, instantiated function by function for ABY3 (Proof/Cost) and its malicious variant (Proof/CostMal); the formulas are in Spec/Cost, closed form and optimality by arithmetic (Props/Cost). Not covered: the SPDZ-wise backend (its traffic depends on the triples that are left) and Swift3 (the length of its verification messages varies, C95) |
| C97 | The exact traffic and the number of rounds of a query over ABY3 and over its malicious variant | judgements `PX`, `PV` (the exact list of exchanges, or of rounds, of every run that returns `Ok`) composed along the code up to `iris_in_db`; lifted to all executions of three parties; closed form of the number of rounds, and the sum of the lengths agrees with C96 |
| C61–C63 | the programs: creation of databases, reading of shares, matching (`App`) | induction over runs of the creation program; run, composed with C14/C36/C54/C41 |

Every property in `properties.jsonl` is expressed in the model; none is marked not applicable. Properties that the code does
not have are proved in the form "exactly when", with the counterexamples as theorems (see below).

## 5. Findings (theorems about the code as it is)

1. `iris_in_db` over SPDZ-wise does not always precompute enough triples; the query then panics (C29_*).
2. Honest Swift3 runs over arithmetic gates are rejected with probability about 2^-K because `combine_verifications` compares
   a reduced with an unreduced value (C44_*, C41_outcome); then one party panics and the other two wait for ever (C41_query).
3. Swift3 arithmetic verification panics for 64- and 128-bit rings (C44_wide_*, C41_wide, C41_query_wide).
4. `Not` of a Swift3 share does not complement the secret (C42). 5. `Poly::is_one` accepts wrong polynomials (C46_isOne),
   `long_division` is wrong with trailing zero coefficients (C45).
6. Malicious ABY3 multiplications panic for 32- and 128-bit rings (C34_panics, C36_panics).
7. The coin of the sacrifice in malicious ABY3 is not bound to the messages it is to check: a corrupt party that waits
   for the coin before sending its components changes dot products, and the answer of a query, without being caught (C57).
   The shuffle of the SPDZ-wise triples has the same flaw: C64.
8. The value opened by the SPDZ-wise `open`/`open_many` is not authenticated: C58.
9. Swift3 `dot_many` truncates on unequal inner lengths instead of reporting `InvalidSize` (C40).
10. `mpc-net` rejects frames over 8 MiB, and `iris-mpc` ignores the send status (C49_oversize_skipped); party ids from 2^32
    on and single-party configurations panic (C48).
11. `chunk_size = 0` panics (C16_chunk_zero); `inverse` of u128 is `todo!()` (C05_128_panics); `Bit` iterator decoding
    panics where the vector decoder reports an error (C03_iter_bit_panics).
12. A second run of `create_sample_data` for SPDZ-wise on the same file makes the database unreadable (C62_spdz_twice).
13. With room for only one message per channel the SPDZ-wise exchange of two vectors would deadlock (C69_one_message_deadlocks);
    the code has room for eight, and two suffice.
14. `finish` closes connections without waiting for the delivery of the last messages: a party can fail although nothing went
    wrong (C70_every_protocol_may_fail, C70_aby3_query_may_fail).
15. The first challenges of the Swift3 verification come from the generator all parties have in common, so a corrupt party knows
    them before it computes its gates, and with more than 4096 AND gates can make some of them wrong without detection (C76).
16. `coin` of Swift3 sends commitment and opening to each party separately and nothing is compared afterwards: a corrupt party can
    make the two honest parties use different coins, without detection (C79_coin_differ). The soundness of the proofs only
    degrades to 2^-39 resp. 2^-38 (C80).
17. The same in `setup_prf` of Swift3: a corrupt party can give the honest parties different common generators, without detection
    (C82_setup_differ). An input of an honest party is then shifted by a value the corrupt party knows (it sees all seeds), and
    opens with all checks passing (C82_input_shifted).
18. A Swift3 backend never removes verified gates, and every verification adds padding for good: the gates of all earlier queries
    are verified again in every query, until there are more than 2^44/51202 dot products; from then on every query panics
    (C86_swift3_accumulates, C86_swift3_limit). Because of the padding this happens after some hundred to a thousand queries
    even over a small database (1386 queries over one entry, computed outside the proof).
19. SPDZ-wise: left-over triples can make a later query over a smaller database fail (C86_spdz_shrinking); not with the default
    chunk size (C86_spdz_any_sizes).
20. Swift3: `get_mul_r` (swift3/protocol.rs:1894-1908) redraws only if the constant coefficient is zero and so, unlike `get_and_r`
    (1882-1892), may return the interpolation points 1, 3, 5, …; then the verification sent to the predecessor contains
    the wires of one gate per row in the clear, among them the shares the predecessor lacks (C88_allowed,
    C88_mul_reveals, C88_dot_reveals). This happens with a probability of at most 2^-40 (C88_rare), so the proofs are only
    statistically zero-knowledge
21. SPDZ-wise `open` and `open_many` (spdzwise/protocol.rs:869-900) open the value in the larger ring and cut it off only afterwards,
    without masking the upper bits first: every party learns them, although they carry information about the computation (the
    overflow of sums and products) that the result does not (C91_spdz_open_reveals, C91_spdz_open_distinguishes).
22. Swift3 `mul_verify`/`dot_verify` send a `SharedVerify` whose polynomials were reduced by `Rem`, which removes vanishing leading
    coefficients (dzkp/polynomial.rs:52-60, 557-567); the length of this message therefore depends on secret-derived values
    (C95_swift3_mul_verify_varies, C95_swift3_dot_verify_varies). In `and_verify` all messages have fixed lengths.

C57, C64 and the bounds in C24/C59/C60 fit together: the bounds hold for errors fixed before the coin, which the code does not
enforce.
