# Formal model of ruidazeng/upsi-revisited

A Lean 4 model of the C++ code under `/repo/upsi`, with machine-checked proofs of the
properties in `properties.jsonl`.

## Layout

* `lean/Verif/Base.lean` – outcomes (`ok`, `err`, `abort`, `ub`), shared helpers.
* `lean/Verif/<Area>/Model.lean` – the model; every definition cites the `/repo` file and lines.
* `lean/Verif/<Area>/Spec.lean` – small independent specification (where the property needs one).
* `lean/Verif/<Area>/Lemmas.lean` – helper lemmas.
* `lean/Verif/<Area>/Props.lean` – the property theorems, each followed by `example`s showing the
  hypotheses are met by a concrete non-trivial case.

Areas: `Tree` (crypto trees, plaintext trees with deletions, serialization), `ElGamal`, `Paillier`,
`Num` (byte conversions, modular exponentiation, CRT, gc_util), `Proto` (wire format and the four updatable
protocols over multi-day histories), `Rec` (record and line files, external sort, parallel processing),
`Data` (CSV, data set files, file names, flags, random strings, data generators), `Curve` (commutative cipher,
hashing to the curve), `Role` (service shell, day counter, communication counters), `Setup` (key setup and key reading, initial trees),
`View` (what a party sees: distributions of decrypted plaintexts and of shares, message sizes).

## Trusted base

* Lean 4.33.0 kernel and, per theorem, at most the axioms `propext`, `Classical.choice`,
  `Quot.sound` (vcheck prints them).  No own axioms, no `native_decide`, no `bv_decide`.
* The reading of the C++ source: nothing is extracted mechanically; each definition cites the lines
  it models and states its simplifications.
* Build mode: `.bazelrc` has `build -c opt`, i.e. NDEBUG, so `assert` is compiled out.  The model has
  no asserts; `CHECK`/`CRYPTO_CHECK`/`LOG(FATAL)` stay and are the outcome `abort`.
* Undefined behaviour (out-of-bounds, etc.) is the separate outcome `ub`.

### Modelled as parameters (assumed behaviour)

* SHA-256 / PRF / random oracle: arbitrary functions of the input (only determinism and output length).
* BoringSSL big numbers: sign and magnitude, with the documented signs and failures of each `BN_*` function (C68); limb
  arithmetic is not modelled.  Elsewhere integers are used, justified by `C68_refinement`.  EC arithmetic: an abstract commutative group of
  prime order `q` with generator `g` (cofactor 1 as in P-256).
* Randomness: explicit inputs, theorems quantify over all of them.
* `std::shuffle`: an arbitrary permutation.
* Garbled circuits and oblivious transfer (emp-toolkit): ideal functionality.
* gRPC transport: a function call delivering the message or an error.
* protobuf: in the protocol models, a data type with the fields that are set; the wire bytes of records, key files,
  protocol messages, tree files and tag files are modelled and shown to parse back to it (C35, C55, C72).

### Not modelled

Computational security, except for C79, C80, C82 (each party hides its elements) and C81 (tree updates of the deletion protocols hide the entries), which are reductions to explicit Diffie-Hellman or composite-residuosity distinguishers, without a model of running time; perfect hiding of plaintexts, shares
and masked values is proved by exact counting (C64, C66, C67, C70).  Timing, performance, memory exhaustion, OpenSSL,
emp-toolkit, gRPC, absl flag machinery, filesystem crashes below the level of a truncated byte
string, printing.  Thread interleavings are modelled only for parallel record processing (C38), at the
granularity of the mutex-protected read and append steps.

## Plan per property

* **C01** Tree insertion conserves elements. Literal model of `insert` (collect along path, buckets by distance, refill leaf to stash). Perm theorem with ghost output of the leftovers, lifted to every history by induction.
* **C02** Every stored element is found on its own path. Invariant: each stored element sits on its own path (node index is a prefix of its leaf index); preserved by layer growth and by insertion; then getPath contains it.
* **C03** A path lookup reads exactly the leaf-to-root nodes and the stash. Closed form of the loop `u >>= 1` from the leaf; independent spec `ancestors`.
* **C04** Node and stash capacities are never exceeded. Invariant over histories.
* **C05** Sender and receiver trees stay in sync. Simulation relation between sender tree and receiver tree, arbitrary encryption function with coins; induction over updates; corollary for path lookups.
* **C06** The shape of an update message does not depend on the elements. Two-run theorem: equal shapes for equal batch sizes and equal path identifiers.
* **C07** Path index extraction is exact. Loop invariant of `extractPathIndices` (queue-like append), spec by membership + strict order.
* **C08** Elements are dropped silently, but only when unavoidable and as few as possible. 'Never lost' is false of the code: witnesses by evaluation of the model. Proved instead: losses are unavoidable and minimal against every arrangement of the path (exchange argument on the greedy fill, Hall-type level condition), for plain insertions and insertions with deletions; batches reduce to singles.
* **C09** Tree depth grows just enough. Minimality + node count by induction; bound 2^30 for machine ints.
* **C10** No out-of-bounds node access. Model returns `ub` on any out-of-range access; theorem: reachable trees never give `ub`.
* **C11** Update messages of every node count: exact effect. Exact characterisation of `replaceNodes` outcomes; witnesses.
* **C12** Tree serialization round-trips. Model of message types; round trip.
* **C13** Signed payloads survive tree serialization iff non-negative. `ToBytes` aborts on negatives; iff theorem.
* **C14** Deletion-tree path sums equal net payloads. Model of `InsertWithDeletions` incl. sort+merge; invariant `sum over own path = net`.
* **C15** Deletion-tree insertion merges and drops cancelled entries. Postcondition of one insertion.
* **C16** ElGamal decryption inverts encryption and operations are homomorphic. Algebra in an abstract group.
* **C17** Two-party threshold ElGamal decryption works in either order. Algebra.
* **C18** n-party joint key. Induction over the share list.
* **C19** Masked equality test is exact. Uses prime order: k•(x-y)•g = 0 iff q | k(x-y).
* **C20** Exponential ElGamal decryption returns the exact sum or an error. Table = list of multiples; find; injectivity below q.
* **C21** Paillier decrypts what was encrypted; addition and scaling are homomorphic; out-of-range messages are rejected. Number theory in `ZMod (n^2)`/`Nat.ModEq`: (1+n)^m = 1+mn, Carmichael/Euler.
* **C22** CRT-accelerated Paillier interoperates with the plain one. Prime-component decryption model + CRT lemma.
* **C23** Two-party threshold Paillier. Key d ≡ 0 mod φ, 1 mod n; c^d = 1+mn.
* **C24** Two-modulus CRT is correct and unique. Chinese remainder.
* **C25** Fixed-base exponentiation equals modular exponentiation. Byte-wise 2^8-ary loop invariant.
* **C26** Commutative cipher commutes and inverts. Module algebra + Fermat inverse.
* **C27** Hash-to-curve returns a valid even-y point and is deterministic. Model with the concrete random oracle, Euler criterion, arbitrary square-root function; exact result for every number of loop rounds; link to Mathlib's elliptic curves.
* **C28** Private key range checks. Decision logic.
* **C29** Ciphertext wire round-trip and its infinity gap. Option-valued point decoding.
* **C30** Big integer byte encoding is canonical. Base-256 digits; canonical.
* **C31** Checked conversion to machine integers. Range check model.
* **C32** Low-64 extraction is reduction mod 2^64. Fold over bytes.
* **C33** 128-bit block packing round-trips. Padding + 16 bytes.
* **C34** Bit decomposition for circuit inputs: exact when long enough, out of bounds otherwise. Model returns `ub` outside the buffer.
* **C35** Record files round-trip. Varint encode/decode + stream parser; truncation.
* **C36** CSV escaping round-trips. Byte-level model of the splitter (leading blanks, quoted columns, delimiter); round trip by induction over the fields; witnesses for malformed quoting.
* **C37** External sharded sort. Shards + k-way merge.
* **C38** Parallel record processing equals sequential mapping. Worker threads as a transition system (read a chunk under the mutex, process, append); induction over an arbitrary schedule.
* **C39** Boolean-flag and protocol-name parsing is exact. Decision logic.
* **C40** Padding elements never collide with set elements. Numeric bounds.
* **C41** Path joining. String function.
* **C42** Addition-only cardinality is exact every day. Multi-day two-party model on top of Tree+ElGamal.
* **C43** Addition-only PSI outputs exactly the intersection. As C42 with group map.
* **C44** Addition-only SUM is exact or an error. As C42 + DecryptExp.
* **C45** Addition-only secret shares reconstruct. As C42 + Paillier shares.
* **C46** Deletion protocol reports the net intersection. Tree with deletions + ideal GC.
* **C47** Deletion-PSI tracks the current intersection. As C46, set output; witness of order dependence.
* **C48** Original (OPRF-based) updatable PSI is exact. Function-by-function model of messages I-V on top of Tree, the curve codec and the modular inverse; daily invariant (tree mirrors, recorded keys); induction over days; from-imported-state version; witnesses for collisions and malformed messages.
* **C49** Centered share arithmetic of the circuit phase. Modular arithmetic.
* **C50** Protocol role state machine. The role shell (day counters, message dispatch, run loops) with the parties' computations as parameters; induction over request sequences and rounds; refinement to the day-by-day protocol models of C42-C45.
* **C51** The service answers each request with at most one message and propagates errors. Model of the service, its message sink and the client connection; handlers are arbitrary programs.
* **C52** Communication accounting is exact. Ghost ledger computed from requests and answers only; induction; overflow witness.
* **C53** Protocol outputs depend on the inputs only. Corollary of C42–C48.
* **C54** Generated data sets meet their contract. Model of generators with random choices as inputs.
* **C55** Setup distributes matching keys. Setup writes key messages, modelled down to their protobuf bytes, to files named with POSIX slash squeezing; the party constructors read them back; frame lemma for files.
* **C56** Line files round-trip. Byte-level model of `fgets`-based line reading; round trip; witnesses for each excluded case.
* **C57** Data set files round-trip. Writer and reader of data set files on top of the CSV model and `std::getline`; decimal parsing model.
* **C58** Hash-derived and random numbers stay in range. Model of the oracle loop and PRF recursion with arbitrary hash functions; induction.
* **C59** Byte-level ElGamal and stored keys. Algebra in an abstract group plus the point codec.
* **C60** Addition-only runs from imported initial sets. Model of `GenerateTrees`, tree serialization and import on top of the day-by-day models of C42-C45 (which are stated from any consistent state); the imported state satisfies their invariant.
* **C61** Original protocol from imported initial sets. As C60 with the hash-tag file, on top of C48.
* **C62** Deletion protocols from imported initial sets. As C60 on top of C46/C47, whose invariants carry the offset of the imported state.
* **C63** Honest runs never crash. A total-correctness layer over C42-C47: an outcome predicate `Only` (ok with a postcondition, or one of a listed set of errors) is propagated through every function of the model, using the invariants of C42-C47; the stash bound gives absence of loss. With deletions the predicate is `Ends` (ok, or ub under a stated cause), and a mass bound keeps payload sums below the moduli.
* **C64** Party zero learns only how many candidates match. Exact counting instead of probability: `ways f w` counts the masks and permutations under which an experiment shows `w` (all draws are equally likely). The candidates party one holds before masking do not depend on masks and shuffle; every candidate is observed through fresh masks, the number of masks showing a value depends only on the class of the candidate (zero or not; with intersections also the payload), and permutations act on classes, so the counts equal those of a small ideal experiment. Only plaintexts are covered: that the first ciphertext components reveal nothing is a computational assumption (DDH), not expressible here.
* **C65** Message sizes are a function of public identifiers and of the paths of the day's elements. Invariant of the receiver's copy over histories: a node that was part of an update holds exactly its capacity of ciphertexts, any other node is empty (layers added by growth start empty and are filled only when an update touches them); from C06 (shapes of updates), C11 (exact effect of an update) and C03 (nodes read by a lookup). Lifted to the four addition-only protocols and the two with deletions. Witness: two elements, same everything else, different number of candidates.
* **C66** Each party's secret shares are uniformly random. The share loop computed exactly (party zero keeps n - r, party one decrypts (payload + r) mod n, using threshold Paillier correctness C23 and the invariant of complete runs of C63); counting draws by induction over the candidates, each value being hit by exactly one draw.
* **C67** The original protocol: what each party sees in the clear, and two leaks. As C64, by exact counting of draws, from the invariant of C48: the plaintexts of messages II and III and the points of message IV are computed as functions of the masks, permutations and random numbers of the day; a non-zero point times a uniform mask is a uniform non-zero point. The leaks: the matches of message II all show the day's point hr; on the curve (Mathlib's group of points) negation pairs the masks so that exactly half give an odd y, while C27 says the hash always returns the even root.
* **C68** BigNum arithmetic is integer arithmetic, with exact error cases. Sign-and-magnitude model of the BoringSSL `BN_*` functions behind every method of `BigNum` (as documented: signs, failures; limbs are not modelled), on which the methods are written line by line; theorems through the represented integer, and a refinement theorem to the integer-level functions used in the rest of the model.
* **C69** Paillier encryption with the private key, or with reported randomness, is uniform over the ciphertexts of a message. Orders in the unit group modulo p^(s+1) (Mathlib) for the generator chosen by the private key; bijections between coins and ciphertexts through the Chinese remainder theorem; the degenerate case p = 2q+1 as a negative theorem.
* **C70** With deletions, masks and shares hide the peer's elements in what a party sees in the clear. A view function repeating the lines of a day with all outputs kept (proved to agree with the day); the draws of the peer as a finite type; injectivity of draws to views through the ciphertext invariants of C46, ranges from C65, then counting: views of one world missing in the other are at most the failing draws.
* **C71** With deletions, Jacobi symbols of Paillier ciphertexts leak paths and matches. Mathlib's Jacobi symbol; multiplicativity through the public-key operations; for p = q = 3 mod 4 the public key's coins are powers of minus a square; message and transfer level statements over arbitrary states; a concrete day with n = 77 in which both leaks occur.
* **C72** Messages and tree files survive their encoding to bytes. Encoder and parser of every message of upsi.proto over the field encoder of C55 (varints, tags, nested lengths); round trips composed from the inside out, each inner encoding being no longer than the outer one; file theorems through the file system of C35.
* **C73** Over the network every protocol gives the same results; oversized messages fail; byte counts are exact. The days of all protocols with every message passed through the encoder, the size limit and the parser of C72 (Main/Net, Main/NetOther); equivalence with the direct days as an iff on outcomes with explicit message sizes; runs by induction over the days; the flat candidate list by splitting the responder's loop. gRPC itself is reduced to: deliver the bytes or fail, with the configured limit.
* **C74** Setup and run together: the parties report what setup printed as expected. The two programs of the addition-only protocols over a file system (Main/Files, Main/AddMain): setup writes keys, days and trees, the parties read them back and run the networked protocol of C73. Composition of C35/C37 (files), C54 (data), C55 (keys), C57 (loading), C61/C72 (trees), C73 and C42-C45; the printed numbers by induction over the nested loop with its 32-bit sum. The whole pipeline is also run in the kernel on a small case.
* **C75** Setup and run together for the protocols with deletions. The two programs of the protocols with deletions over a file system (Main/DelMain). Generated rows as numbers (Main/DelFacts): net payloads, held sets and validity of every day carry over from strings to numbers because all strings have the same length. Composition of C35/C37 (files), C54 (data), C55 (keys), C57 (loading), C62/C72 (trees), C73 and C46/C47; the printed number cannot overflow for these sizes. The whole pipeline is also run in the kernel, with a negative result.
* **C76** Setup and run together for the original protocol. The two programs of the original protocol over a file system (Main/OgMain), each party with the keys it read. Composition of C35/C37 (files), C54 (data), C55 (keys), C57 (loading), C61/C72 (tree and tag files), C73 and C48; the whole pipeline is also run in the kernel.
* **C77** Points as strings of bytes. Concrete byte encoding of affine points (Curve/PointUtil) after SEC 1 and BoringSSL, with the square root function of the library as a parameter known only on squares; characterised by the values of the byte strings, and linked to Mathlib group of the curve, which gives an instance of the abstract codec used elsewhere in the model.
* **C78** Runs with mock trees. CreateMockTrees (Mock/Model) on the tree model and the key models; the invariant of the exchange is weakened so that entries whose element never occurs in the other data set may be mirrored by encryptions of zero, and the one-round lemmas are proved for the weakened invariant; the multi-day theorems are then shared with those for fresh trees (RoundStep).
* **C79** Party zero hides its elements from party one under DDH. `prob` is the exact share of the draws; party one is an arbitrary function from the messages so far to an answer (`talk`). Every ciphertext of message I is a plaintext plus an encryption of zero with a coin of its own; the encryptions of zero are replaced by random pairs one at a time, each step being a distinguisher of Diffie-Hellman triples that runs the conversation (`hybrid_bound`), after which the plaintexts do not matter (`ideal_shift`). The secret-sharing payloads (Paillier) and message III of the sum protocol are not covered. Running time of the distinguishers is not modelled: they are given explicitly and call the conversation once.
* **C80** Party one hides its elements from party zero under DDH. Both parties run on labels (`symRun`): every ciphertext of message II is an encryption of a known plaintext with a coin that is plus or minus the coin of one place plus a known offset; the candidates are then masked, shuffled and partially decrypted. First all encryptions of zero made with the coins of party one are replaced by random pairs (`reductionWith`), then the masked candidates by random pairs, or by (random, its share) if the plaintext is zero (`reductionMask`). What is left depends only on the number of zero candidates per day, which is the growth of the intersection (`symRuns_count`), up to a relabelling of the shuffles. Only the cardinality protocol, from empty trees; party zero follows the protocol (a party zero that deviates is not covered). Running time of the distinguishers is not modelled.
* **C81** The tree updates of the deletion protocols hide the entries under DCR. The updates are a function of the ciphertexts in the places that the path identifiers determine (`updatesC`, `treeUpdates_eq`). Over uniform coins of the two primes a private-key encryption of m is g^m times a uniform n-th residue (`private_residues`, by the bijection of the Chinese remainder theorem); a hybrid over the places replaces the residues by uniform units (`dcr_bound`), which absorb g^m (`dcr_shift`). Only the updates, not the candidates. Running time of the distinguishers is not modelled.
* **C82** Party one hides its elements but the intersection in the intersection protocol. As C80, with payloads: every candidate has a payload of party zero (coin and plaintext known), to which the masked candidate is added with a second mask. A third replacement turns (first mask, second mask, product) into a random triple; then the payload of a candidate that is not a match is uniform, and that of a match shows its plaintext only. What is left depends on the payloads of the matches, which are the new shared elements (by counting), so the shuffles can be relabelled to move one history onto the other.
* **C83** Generation of initial trees and runs that import them never crash. Generation: sendUpdate_only and the mirror of the tree with its encrypted copy give that every entry is encrypted, decoded and serialized again without failure (generate_only); with deletions merging keeps payloads non-negative and their total below the modulus. Import: the invariants of C60-C62 plus a size bound (Fits/DFit) hold after import, and the progress lemmas of C63 apply from any state with them.
* **C84** Setup and runs with --start_size together. The programs with `--start_size` (Main/MockMain) read the files of the setup model (C74, C75) and make mock trees (C78); the lemmas of C74/C75 identify what was read with what setup drew, and C78 gives the result of the run from the mock trees.
* **C85** After setup, the two programs never crash. Each networked day (Main/Net) is related to the direct day of the protocol by a simulation (`Sim` in Main/NetOnly): it fails because of a refused message or ends as the direct day does. The direct runs from the imported trees make progress (C63, C83), and the file lemmas of C74/C76 give that the programs start; so the programs end normally or with one of the two errors (Main/OnlyProps, Main/OnlyOg). For the programs with deletions the flat message format loses the grouping, so the simulation is proved along the invariant of C63, where the direct round succeeds (Main/OnlyDel).
* **C86** Setup does its work. The generator, the keys (C55) and the generation of the trees (C83) make progress; the tree files stay below the 2^31 bytes a record can have because a tree over n elements has at most 2n nodes, each holding no more entries than it has room for (Main/TreeBytes: the copy is bounded by the message that made it). The file lemmas of C74 show that setup finds its own keys again (Main/SetupOnly, Main/SetupOnlyOg).
* **C87** Runs read exactly their input files. The names of the input files are spelled out in a separate list (Main/InputProps); the programs of the parties begin with the reads, which succeed only on existing files and depend on the file system only through them.
* **C88** Setup writes exactly its output files. Each writing step sets one file; `Wrote l before after` (the files of l exist, all others are unchanged) composes (Main/OutputProps), with the names of the output files spelled out in a separate list and compared up to repeated slashes. The inputs of C87 are among the outputs.
* **C89** Setup does not depend on leftovers. Two executions side by side (Main/FreshProps): they agree on the files written so far, every file setup reads is among these, so each step has the same outcome. With C87 the runs afterwards agree.
