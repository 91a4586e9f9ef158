{"id": "C01", "title": "Tree insertion conserves elements", "statement": "After inserting a batch into a party's plaintext tree, the multiset of stored elements plus the multiset of elements that did not fit into the stash equals the multiset stored before plus the batch: no element is duplicated, altered or invented, and an element can only disappear by stash overflow.", "quantifier": "every tree state reachable from an empty tree by any sequence of batches, every node/stash size, every batch, every random path choice and every hash function; fewer than 2^30 elements in total (beyond that the 32-bit shifts overflow, C09)", "why_tests_cant": "depends on all histories and all random paths; a test samples a few", "anchors": ["upsi/crypto_tree.cc:BaseTree::insert", "upsi/crypto_node.cc:CryptoNode::addElement"]}
{"id": "C02", "title": "Every stored element is found on its own path", "statement": "At every reachable tree state, looking up the path of an element returns every copy of that element the tree holds (in particular every element that was inserted and not lost to stash overflow is returned by its own path lookup), for all later tree depths.", "quantifier": "every history of batch insertions, every element, every hash function and all random path choices; fewer than 2^30 elements in total (beyond that the 32-bit shifts overflow, C09)", "why_tests_cant": "re-positioning depends on tree depth, hashes and random paths; the state space is unbounded", "anchors": ["upsi/crypto_tree.cc:BaseTree::insert", "upsi/crypto_tree.cc:BaseTree::getPath", "upsi/crypto_tree.cc:BaseTree::computeIndex"]}
{"id": "C03", "title": "A path lookup reads exactly the leaf-to-root nodes and the stash", "statement": "The path lookup for an element returns precisely the concatenation of the contents of the leaf addressed by the first depth bits of its hash, every ancestor of that leaf up to the root, and the stash; each node once; depth+2 nodes in total.", "quantifier": "every tree, every element, every hash function, every depth", "why_tests_cant": "ranges over all depths and hash values", "anchors": ["upsi/crypto_tree.cc:BaseTree::getPath", "upsi/crypto_tree.cc:BaseTree::computeIndex"]}
{"id": "C04", "title": "Node and stash capacities are never exceeded", "statement": "In every reachable plaintext tree every non-stash node holds at most node_size elements and the stash holds at most stash_size elements.", "quantifier": "every history of batch insertions with any sizes; fewer than 2^30 elements in total (beyond that the 32-bit shifts overflow, C09)", "why_tests_cant": "invariant over unbounded histories", "anchors": ["upsi/crypto_node.cc:CryptoNode::addElement", "upsi/crypto_tree.cc:BaseTree::insert"]}
{"id": "C05", "title": "Sender and receiver trees stay in sync", "statement": "If a receiver applies, in order, every update produced by a sender's tree, both trees keep the same depth, size and node count, and at every node the receiver's contents decrypt to the sender's contents at that node followed by padding; hence a receiver-side path lookup decrypts to the sender's path lookup plus padding.", "quantifier": "every sequence of update batches (including empty ones), every padding and encryption coin; fewer than 2^30 elements in total (beyond that the 32-bit shifts overflow, C09)", "why_tests_cant": "a history property over two replicas", "anchors": ["upsi/crypto_tree.cc:BaseTree::insert", "upsi/crypto_tree.cc:BaseTree::replaceNodes", "upsi/crypto_tree.cc:CryptoTree::Update", "upsi/crypto_node.cc:CryptoNode::pad"]}
{"id": "C06", "title": "The shape of an update message does not depend on the elements", "statement": "The number of nodes in an update message, the addressed nodes, and the number of (padded) ciphertexts in each node are functions of the number of inserted elements, the public random path identifiers and the tree's public parameters only, not of the inserted elements or of the stored contents.", "quantifier": "all pairs of same-size histories with different element values but the same random path identifiers; fewer than 2^30 elements in total (beyond that the 32-bit shifts overflow, C09)", "why_tests_cant": "a relational (two-run) property over all inputs", "anchors": ["upsi/crypto_tree.cc:BaseTree::insert", "upsi/crypto_node.cc:CryptoNode::pad", "upsi/crypto_tree.cc:CryptoTree::Update"]}
{"id": "C07", "title": "Path index extraction is exact", "statement": "Given any non-empty set of leaf indices of one level, path extraction yields a strictly decreasing list, containing exactly the leaves, all their ancestors, and the stash index 0, each once; in particular sender and receiver derive the same list from the same path identifiers irrespective of their order or duplicates.", "quantifier": "every list of leaf indices of any common depth, any length, with duplicates", "why_tests_cant": "all lists and depths", "anchors": ["upsi/crypto_tree.cc:BaseTree::extractPathIndices", "upsi/crypto_tree.cc:BaseTree::generateRandomPaths"]}
{"id": "C08", "title": "Elements are dropped silently, but only when unavoidable and as few as possible", "statement": "Inserting elements into a tree (plainly or with deletions) never reports an error for lack of room: an element that fits nowhere is dropped silently. The drop is never avoidable and always minimal: the nodes of the element's path and the stash together keep as many of their elements (merged entries, with deletions) as any arrangement respecting the node capacity, the stash capacity and every element's own path could keep; so nothing is dropped exactly when some arrangement holds everything, equivalently when for every level the elements that share no node below it with the path fit into the levels above. In particular nothing is ever dropped while the number of insertions does not exceed the stash size, and with the shipped default sizes a history exists in which an element is lost.", "quantifier": "every reachable tree (every history of batches, every stash and node size, every hash function), every element or signed entry inserted and every competing arrangement of the path; fewer than 2^30 elements in total (beyond that the 32-bit shifts overflow, C09)", "why_tests_cant": "the loss needs specific hash/path coincidences that random tests rarely hit", "anchors": ["upsi/crypto_tree.cc:BaseTree::insert", ".bazelrc"]}
{"id": "C09", "title": "Tree depth grows just enough", "statement": "After inserting k elements into a tree of size n the depth is the smallest value not below the old depth with n+k < 2^(depth+1); the tree then has exactly 2^(depth+1) nodes; depth never decreases, and every shift stays within int range as long as the total is below 2^30.", "quantifier": "every history of batch sizes", "why_tests_cant": "all sizes and histories", "anchors": ["upsi/crypto_tree.cc:BaseTree::addNewLayer", "upsi/crypto_tree.cc:BaseTree::insert", "upsi/crypto_tree.cc:BaseTree::replaceNodes"]}
{"id": "C10", "title": "No out-of-bounds node access", "statement": "In every reachable tree, every node index read or written by insertion, update application with a well-formed message, or a path lookup is inside the node array.", "quantifier": "every history, element, hash and random path; fewer than 2^30 elements in total (beyond that the 32-bit shifts overflow, C09)", "why_tests_cant": "memory safety over all histories", "anchors": ["upsi/crypto_tree.cc:BaseTree::insert", "upsi/crypto_tree.cc:BaseTree::getPath", "upsi/crypto_tree.cc:BaseTree::replaceNodes"]}
{"id": "C11", "title": "Update messages of every node count: exact effect", "statement": "Applying an update message whose node count differs from the count implied by its path identifiers is not rejected by the receiver. Exactly: with the right count the addressed nodes are replaced; with fewer nodes a prefix of the addressed nodes is replaced and the call succeeds; with more nodes the receiver accesses memory outside its path list (undefined behaviour). Nodes that are not on the announced paths are never changed by a defined call.", "quantifier": "every receiver tree and every update message", "why_tests_cant": "needs adversarial messages of all shapes", "anchors": ["upsi/crypto_tree.cc:BaseTree::replaceNodes", "upsi/crypto_tree.cc:CryptoTree::Update"]}
{"id": "C12", "title": "Tree serialization round-trips", "statement": "Serializing a plaintext tree and deserializing it gives back a tree with the same sizes, depth and node contents, so importing a tree written by setup resumes exactly where setup stopped.", "quantifier": "every reachable tree with non-negative contents (negative ones: C13)", "why_tests_cant": "all contents and sizes", "anchors": ["upsi/crypto_tree.cc:BaseTree::Serialize", "upsi/crypto_tree.cc:BaseTree::Deserialize", "upsi/crypto_node.cc:SerializeNode", "upsi/crypto_node.cc:DeserializeNode"]}
{"id": "C13", "title": "Signed payloads survive tree serialization iff non-negative", "statement": "Serializing a plaintext tree with signed payloads and deserializing it gives the same tree exactly when no stored payload is negative; if a stored payload is negative the process aborts in the byte conversion (it never writes a wrong payload), and such trees are reachable.", "quantifier": "every tree with integer payloads", "why_tests_cant": "all payload values", "anchors": ["upsi/crypto_node.cc:SerializeNode", "upsi/crypto/big_num.cc:BigNum::ToBytes"]}
{"id": "C14", "title": "Deletion-tree path sums equal net payloads", "statement": "In the tree with deletions, for every element, the sum of the payloads attached to that element over its own path equals the sum of all payloads ever inserted for it (additions positive, deletions negative), as long as the stash did not overflow.", "quantifier": "every history of batches of signed (element,payload) updates, every hash and path choice; fewer than 2^30 elements in total (beyond that the 32-bit shifts overflow, C09)", "why_tests_cant": "history property with merging and cancellation", "anchors": ["upsi/crypto_tree.cc:InsertWithDeletions"]}
{"id": "C15", "title": "Deletion-tree insertion merges and drops cancelled entries", "statement": "After each insertion along a path, the nodes of that path hold at most one entry per element and no entry with payload zero.", "quantifier": "every reachable tree state and insertion", "why_tests_cant": "all histories", "anchors": ["upsi/crypto_tree.cc:InsertWithDeletions"]}
{"id": "C16", "title": "ElGamal decryption inverts encryption and operations are homomorphic", "statement": "Decrypting an encryption of m gives m for every key and coin; the product of ciphertexts decrypts to the product, exponentiation to the power, inversion to the inverse, re-randomization to the same message, and GetZero to the identity. Re-randomization adds the coins. IsCiphertextZero recognises only the trivial ciphertext, not every encryption of zero.", "quantifier": "every group, key, message, scalar and coin", "why_tests_cant": "universal algebraic law", "anchors": ["upsi/crypto/elgamal.cc:ElGamalEncrypter::Encrypt", "upsi/crypto/elgamal.cc:ElGamalDecrypter::Decrypt", "upsi/crypto/elgamal.cc:elgamal::Mul"]}
{"id": "C17", "title": "Two-party threshold ElGamal decryption works in either order", "statement": "With a joint key made from two shares, one party's partial decryption followed by the other party's decryption returns the plaintext, whichever party starts, and still after either re-randomization in between.", "quantifier": "all shares, messages and coins", "why_tests_cant": "universal algebraic law", "anchors": ["upsi/crypto/elgamal.cc:GeneratePublicKeyFromShares", "upsi/crypto/elgamal.cc:ElGamalDecrypter::PartialDecrypt"]}
{"id": "C18", "title": "n-party joint key", "statement": "For any number of shares greater than zero, a public key combined from shares is the public key of the sum of the private keys, and partial decryption by all share holders in any order opens the ciphertext; an empty share list is an error and mismatched generators abort the process.", "quantifier": "every non-empty list of shares, any order", "why_tests_cant": "list length unbounded", "anchors": ["upsi/crypto/elgamal.cc:GeneratePublicKeyFromShares"]}
{"id": "C19", "title": "Masked equality test is exact", "statement": "For an encrypted path element y and query x, the homomorphic difference raised to a non-zero mask decrypts to the group identity exactly when x equals y modulo the group order; so for elements below the order it flags equality without false positives or negatives; with a zero mask it always flags equality.", "quantifier": "all elements, masks, keys and coins", "why_tests_cant": "probability-zero style corner cases can't be sampled", "anchors": ["upsi/addition/party_zero.cc:GenerateMessageI", "upsi/addition/party_one.cc:GenerateMessageII", "upsi/crypto/elgamal.cc:elgamal::IsCiphertextZero"]}
{"id": "C20", "title": "Exponential ElGamal decryption returns the exact sum or an error", "statement": "Decrypting an exponential-ElGamal ciphertext of a number m below the group order returns m when m is below the table bound and an error otherwise; it never returns a wrong value, provided the table bound is at most the group order.", "quantifier": "every key, coin and message", "why_tests_cant": "all messages", "anchors": ["upsi/crypto/elgamal.cc:ElGamalDecrypter::InitDecryptExp", "upsi/crypto/elgamal.cc:ElGamalDecrypter::DecryptExp"]}
{"id": "C21", "title": "Paillier decrypts what was encrypted; addition and scaling are homomorphic; out-of-range messages are rejected", "statement": "For distinct primes p, q >= 5 and a Damgard-Jurik exponent s below both, decrypting Encrypt(m) returns m for 0<=m<n^s; Add decrypts to the sum mod n^s; Multiply to the product mod n^s; re-randomization preserves the plaintext; negative or too large messages give an error, never a wrong ciphertext.", "quantifier": "all primes p≠q, messages, coins", "why_tests_cant": "number-theoretic law over all keys", "anchors": ["upsi/crypto/paillier.cc:PublicPaillier::Encrypt", "upsi/crypto/paillier.cc:PrivatePaillier::Decrypt", "upsi/crypto/paillier.cc:PublicPaillier::Add"]}
{"id": "C22", "title": "CRT-accelerated Paillier interoperates with the plain one", "statement": "A ciphertext produced with the private key (CRT path) decrypts to the same plaintext as one produced with the public key, and decryption by the two prime components plus CRT equals decryption by definition.", "quantifier": "all keys, messages and coins", "why_tests_cant": "universal law", "anchors": ["upsi/crypto/paillier.cc:PrimeCrypto", "upsi/crypto/paillier.cc:PrivatePaillier", "upsi/crypto/two_modulus_crt.cc"]}
{"id": "C23", "title": "Two-party threshold Paillier", "statement": "For shares of the decryption exponent, one party's partial decryption completed by the other returns the plaintext for every ciphertext obtained by encryption and additions, irrespective of which party completes; the exact division in the decoder never fails on such ciphertexts. (Key generation does not check p != q: with p = q decryption can return a wrong plaintext.) Key generation succeeds exactly for a first share between zero and the decryption exponent; inputs outside [0, n^2) are error statuses; every unit below n^2 is a ciphertext of some message and decrypts, while a number sharing a factor with n kills the process.", "quantifier": "all distinct primes with gcd(n,phi)=1, all splits of the key, messages and coins", "why_tests_cant": "number-theoretic law over all keys and splits", "anchors": ["upsi/crypto/threshold_paillier.cc:ThresholdPaillier::PartialDecrypt", "upsi/crypto/threshold_paillier.cc:ThresholdPaillier::Decrypt", "upsi/crypto/threshold_paillier.cc:GenerateThresholdPaillierKeys"]}
{"id": "C24", "title": "Two-modulus CRT is correct and unique", "statement": "For coprime moduli p and q, the recombined value is the unique number below p*q congruent to both residues; if the moduli are not coprime the process aborts.", "quantifier": "all coprime moduli and residues", "why_tests_cant": "universal", "anchors": ["upsi/crypto/two_modulus_crt.cc:TwoModulusCrt::Compute"]}
{"id": "C25", "title": "Fixed-base exponentiation equals modular exponentiation", "statement": "For both fixed-base strategies, ModExp(e) equals base^e mod m for every non-negative exponent of any byte length, and a negative exponent is an error; the table strategy requires the base to be below the modulus and aborts otherwise. The two strategies agree.", "quantifier": "all bases, moduli and exponents", "why_tests_cant": "unbounded exponents", "anchors": ["upsi/crypto/fixed_base_exp.cc"]}
{"id": "C26", "title": "Commutative cipher commutes and inverts", "statement": "Encrypting with one key and re-encrypting with another never fails and gives the same bytes in either order; decryption with the same key undoes re-encryption and vice versa; distinct inputs encrypt to distinct bytes exactly when their hashed points differ; re-encrypting an ElGamal ciphertext multiplies its plaintext by the key.", "quantifier": "all valid keys, all points of the prime-order group", "why_tests_cant": "universal algebra", "anchors": ["upsi/crypto/ec_commutative_cipher.cc:Encrypt", "upsi/crypto/ec_commutative_cipher.cc:ReEncrypt", "upsi/crypto/ec_commutative_cipher.cc:Decrypt"]}
{"id": "C27", "title": "Hash-to-curve returns a valid even-y point and is deterministic", "statement": "Hash-to-curve returns exactly the point whose x is the first candidate whose right-hand side is a non-zero square and whose y is the even root: it satisfies the curve equation and is not infinity; the result does not depend on which square root the arithmetic library picks; it never fails, and runs on as long as no candidate is usable.", "quantifier": "all inputs, all hash functions and all curves with odd prime modulus for which the oracle supports the size of the modulus", "why_tests_cant": "all inputs and candidate sequences", "anchors": ["upsi/crypto/ec_group.cc:GetPointByHashingToCurveInternal", "upsi/crypto/ec_group.cc:GetPointByHashingToCurveSha256"]}
{"id": "C28", "title": "Private key range checks", "statement": "A private key is accepted exactly when it lies in [1, order-1]; keys generated by the group are always accepted and every acceptable key can be generated; a cipher restored from exported key bytes is the same cipher; a seed-derived key is below the order but unchecked: it can be zero, and then every encryption fails. Exactly the four hash types of the enumeration are accepted.", "quantifier": "all integers", "why_tests_cant": "all integers and orders", "anchors": ["upsi/crypto/ec_group.cc:CheckPrivateKey", "upsi/crypto/ec_group.cc:GeneratePrivateKey", "upsi/crypto/ec_commutative_cipher.cc:CreateWithKeyFromSeed"]}
{"id": "C29", "title": "Ciphertext wire round-trip and its infinity gap", "statement": "A ciphertext deserialized from its serialized form equals the original unless one of its components is the point at infinity, in which case serialization is an error: a ciphertext never turns into a different one on the wire.", "quantifier": "all ciphertexts", "why_tests_cant": "infinity components have negligible probability in tests", "anchors": ["upsi/util/elgamal_proto_util.cc", "upsi/crypto/ec_group.cc:CreateECPoint", "upsi/utils.cc:DeserializeCiphertexts"]}
{"id": "C30", "title": "Big integer byte encoding is canonical", "statement": "Encoding a non-negative integer to bytes and decoding returns it; the encoding has no leading zero byte, zero encodes to the empty string, distinct integers have distinct encodings; a negative integer aborts.", "quantifier": "all integers", "why_tests_cant": "unbounded", "anchors": ["upsi/crypto/big_num.cc:BigNum::ToBytes", "upsi/crypto/context.cc:Context::CreateBigNum"]}
{"id": "C31", "title": "Checked conversion to machine integers", "statement": "Conversion to a 64-bit value returns the value exactly when its magnitude fits in 64 bits and an error otherwise (no truncation); the sign of a negative number is lost.", "quantifier": "all integers", "why_tests_cant": "all integers", "anchors": ["upsi/crypto/big_num.cc:BigNum::ToIntValue"]}
{"id": "C32", "title": "Low-64 extraction is reduction mod 2^64", "statement": "The helper that turns big-integer bytes into a machine word yields the value modulo 2^64 for every byte length, including shorter than eight bytes.", "quantifier": "all byte strings", "why_tests_cant": "all lengths", "anchors": ["upsi/util/gc_util.cc:bytes2uint64", "upsi/util/gc_util.cc:BigNum2uint64"]}
{"id": "C33", "title": "128-bit block packing round-trips", "statement": "Packing an integer below 2^128 into a cipher block and unpacking gives the integer; a larger integer whose byte string has more than 16 bytes keeps the leading bytes of its encoding (not its low 128 bits).", "quantifier": "all integers", "why_tests_cant": "all values", "anchors": ["upsi/util/gc_util.cc:BigNum2block", "upsi/util/gc_util.cc:block2BigNum", "upsi/util/gc_util.cc:PadBytes"]}
{"id": "C34", "title": "Bit decomposition for circuit inputs: exact when long enough, out of bounds otherwise", "statement": "Decomposing an integer into cnt circuit bits yields its low cnt bits, most significant first, whenever its byte string has at least cnt bits; for a shorter byte string (a small integer) the read is out of bounds, and callers can reach that.", "quantifier": "all byte strings and bit counts", "why_tests_cant": "short encodings occur with small probability", "anchors": ["upsi/util/gc_util.cc:bytes2bool", "upsi/util/gc_util.cc:BigNum2bool"]}
{"id": "C35", "title": "Record files round-trip", "statement": "Any sequence of records of fewer than 2^31 bytes written to a record file is read back identical and in order, ending with has-more false; for a file truncated at any byte, the reader returns an initial part of the records and then either ends (cut at a record boundary) or reports an error; it never returns a wrong record. A record of 2^31 bytes or more is outside the writer contract (undefined behaviour); on arbitrary bytes the reader always ends with records and an end or an error. The record-of-messages helpers (one message per file, many messages per file) read back the messages written. A missing file, or one that cannot be written, is an error, not an empty sequence of records. If the bytes of any file are read to the end without an error, they are exactly a sequence of length prefixes, each followed by the record returned for it.", "quantifier": "all record sequences with records shorter than 2^31 bytes, all truncation points; writers and readers of arbitrary bytes", "why_tests_cant": "all lengths incl. varint boundaries and all crash points", "anchors": ["upsi/util/recordio.cc:RecordWriterImpl", "upsi/util/recordio.cc:RecordReaderImpl", "upsi/util/recordio.cc:ExtractVarint32"]}
{"id": "C36", "title": "CSV escaping round-trips", "statement": "Splitting the comma-join of escaped fields returns the original fields, in order, for every non-empty list of fields without NUL bytes. Malformed quoting is never an error: an unterminated quote takes the rest of the line and text after a closing quote is dropped.", "quantifier": "all field lists", "why_tests_cant": "all strings with quotes, commas, blanks", "anchors": ["upsi/util/data_util.cc:SplitCSVLineWithDelimiter", "upsi/util/data_util.cc:EscapeForCsv"]}
{"id": "C37", "title": "External sharded sort", "statement": "Writing records through the sharding writer and merging the shards yields a sorted permutation of the written records, for any shard size limit and any number of shards, touching no file other than the shards and the output; a shard that cannot be created makes the close fail and leaves the writer failed for all later writes. After closing, each shard holds a consecutive non-empty group of the written records in stable order of the key, and exceeds the size limit by at most its last record (as long as the 32-bit byte counter cannot overflow).", "quantifier": "all record lists, size limits and key functions", "why_tests_cant": "all interleavings of flushes", "anchors": ["upsi/util/recordio.cc:ShardingWriterImpl", "upsi/util/recordio.cc:MultiSortedReaderImpl", "upsi/util/recordio.cc:ShardMergerImpl"]}
{"id": "C38", "title": "Parallel record processing equals sequential mapping", "statement": "Processing a record file with any positive thread count, any positive chunk size and any interleaving of the worker threads either fails or leaves an output file with exactly the per-record results, sorted by key (a permutation of the sequential results; the input order is not kept).", "quantifier": "all record lists, thread counts and chunk sizes ≥ 1", "why_tests_cant": "all schedules and partition boundaries", "anchors": ["upsi/util/process_record_file_util.h"]}
{"id": "C39", "title": "Boolean-flag and protocol-name parsing is exact", "statement": "Functionality and protocol names parse to the documented value and printing then parsing is the identity; every other string is rejected with an error.", "quantifier": "all strings", "why_tests_cant": "all strings", "anchors": ["upsi/utils.cc:AbslParseFlag", "upsi/utils.cc:AbslUnparseFlag"]}
{"id": "C40", "title": "Padding elements never collide with set elements", "statement": "Every padding value generated for a tree node differs from every element the program itself generates and from every user element of fewer than 16 decimal digits, so a padding entry can never match a query for such an element; a user element of 16 digits starting with 1 can collide with a padding value.", "quantifier": "all coins and all elements", "why_tests_cant": "collision would be rare", "anchors": ["upsi/utils.cc:GetRandomPadElement", "upsi/utils.cc:GetRandomNumericString", "upsi/utils.cc:NumericString2uint", "upsi/params.h"]}
{"id": "C41", "title": "Path joining", "statement": "Joining path components: the directory separator between the first and the second non-empty part is never doubled and never missing; later parts are appended after a dot; empty parts are skipped.", "quantifier": "all strings", "why_tests_cant": "all strings", "anchors": ["upsi/util/file.cc:JoinPathImpl"]}
{"id": "C42", "title": "Addition-only cardinality is exact every day", "statement": "If all messages of all days are processed without error and no stash overflowed, then after each day the cardinality reported equals the size of the intersection of the two parties' cumulative sets, for any split of additions over days, any coins and any shuffles.", "quantifier": "all multi-day histories of disjoint daily additions, coins, permutations, non-zero masks; elements below the padding range", "why_tests_cant": "multi-day, two-party histories with randomness", "anchors": ["upsi/addition/party_zero.cc:PartyZeroCardinality", "upsi/addition/party_one.cc:PartyOneCardinality"]}
{"id": "C43", "title": "Addition-only PSI outputs exactly the intersection", "statement": "Under the same conditions the elements party zero outputs over the days are exactly the intersection of the cumulative sets, each once.", "quantifier": "all multi-day histories, coins, permutations, non-zero masks; elements below the padding range", "why_tests_cant": "multi-day, two-party histories with randomness", "anchors": ["upsi/addition/party_zero.cc:PartyZeroPSI", "upsi/addition/party_one.cc:PartyOnePSI"]}
{"id": "C44", "title": "Addition-only SUM is exact or an error", "statement": "Under the same conditions the sum reported equals the sum of party zero's payloads over the intersection, modulo 2^64; a day whose contribution reaches the decryption-table bound makes the run fail with an error instead of a wrong number.", "quantifier": "all multi-day histories and non-negative payloads whose total over the intersection is below the group order; elements below the padding range", "why_tests_cant": "all payload magnitudes and histories", "anchors": ["upsi/addition/party_zero.cc:PartyZeroSum", "upsi/addition/party_one.cc:PartyOneSum"]}
{"id": "C45", "title": "Addition-only secret shares reconstruct", "statement": "Under the same conditions the additive shares held by the two parties sum, position by position, modulo the Paillier modulus to the elements of exactly the intersection.", "quantifier": "all histories, coins and masks", "why_tests_cant": "relational two-party property", "anchors": ["upsi/addition/party_zero.cc:PartyZeroSecretShare", "upsi/addition/party_one.cc:PartyOneSecretShare"]}
{"id": "C46", "title": "Deletion protocol reports the net intersection", "statement": "With additions and deletions, the number reported after each day equals, modulo 2^64, the sum over all elements of (party zero's net payload) times (party one's net multiplicity), i.e. the cardinality or sum of the intersection of the current sets, given ideal circuit evaluation, no stash overflow and no share wrap-around.", "quantifier": "all multi-day histories of consistent signed updates", "why_tests_cant": "histories with cancellation", "anchors": ["upsi/deletion/party.h", "upsi/deletion/party_zero.cc", "upsi/deletion/party_one.cc"]}
{"id": "C47", "title": "Deletion-PSI tracks the current intersection", "statement": "The deletion-PSI cardinality after each day equals the size of the intersection of the current sets; the output set equals that intersection on every history in which, within a day, no removal of an element is processed after its re-insertion. (Otherwise the reported set can be wrong: witness.)", "quantifier": "all histories and shuffles", "why_tests_cant": "depends on a shuffle order", "anchors": ["upsi/deletion-psi/party_zero.cc:SecondPhase", "upsi/deletion-psi/party_one.cc:SecondPhase"]}
{"id": "C48", "title": "Original (OPRF-based) updatable PSI is exact", "statement": "In the original (OPRF-based) protocol, when a run completes and no element fell out of party one's tree, the elements reported are exactly the common elements of the two cumulative sets, each reported once, provided hashing is injective on the elements used and no party adds an element twice; when elements fell out, nothing false and nothing twice is reported and only dropped elements can be missed; the same from any consistent imported state. Colliding hashes give a false positive, repeated elements repeat in the output, and messages with more candidate sets or answers than requested are undefined behaviour.", "quantifier": "all multi-day histories, keys, coins, path identifiers", "why_tests_cant": "histories", "anchors": ["upsi/original/party_zero.cc", "upsi/original/party_one.cc"]}
{"id": "C49", "title": "Centered share arithmetic of the circuit phase", "statement": "Reducing the sum of two shares modulo the Paillier modulus with a conditional correction and re-centering modulo 2^64 recovers a signed value exactly when the shares did not wrap; otherwise it is off by exactly one modulus; for a value v, |v| of the n possible sender shares wrap.", "quantifier": "all shares and values", "why_tests_cant": "all 64-bit boundaries", "anchors": ["upsi/deletion/party.h:GarbledCircuit"]}
{"id": "C50", "title": "Protocol role state machine", "statement": "The server's day counter is the number of day-ending requests it accepted, never exceeds the configured number of days, and the protocol is finished exactly when it reaches that number; afterwards every request is rejected without effect; unexpected or failing requests do not advance the day; without payload each day's data set is processed exactly once and in order; a client run that ends without error has advanced both parties by exactly the configured days in lock-step and computed what the day-by-day protocol prescribes. With payload the order of messages within a day is not enforced. Deletion servers accept exactly one (two) requests between resets and use each day's data once.", "quantifier": "all request sequences, all computations of the parties, all numbers of days", "why_tests_cant": "all sequences", "anchors": ["upsi/roles.h", "upsi/addition/party_zero.cc:Handle", "upsi/addition/party_zero.cc:Run", "upsi/addition/party_one.cc:Handle", "upsi/deletion/party_one.cc:Handle", "upsi/deletion-psi/party_one.cc:Handle"]}
{"id": "C51", "title": "The service answers each request with at most one message and propagates errors", "statement": "For every request the handler's response is the single message sent, a second send is an error, and a failed handler status is mapped to a non-OK transport status with the same message.", "quantifier": "all requests and handler behaviours", "why_tests_cant": "all behaviours", "anchors": ["upsi/network/service.cc", "upsi/network/connection.h"]}
{"id": "C52", "title": "Communication accounting is exact", "statement": "The bytes reported per day are the sum of the sizes of the party-zero messages received on that day (including rejected kinds and failed ones) and of the answers generated to them, and the reported total is their sum, as long as a day stays below 2^31 bytes (the addition-only counters are 32-bit and then wrap to wrong, even negative, numbers). With deletions the 64-bit counters hold the bytes sent each day, the garbled-circuit bytes are reported as the daily growth of the connection counter, and the total is the sum of everything printed; a run over zero days is undefined behaviour.", "quantifier": "all message histories", "why_tests_cant": "all histories", "anchors": ["upsi/addition/party_one.h:AddComm", "upsi/addition/party_one.h:PrintComm", "upsi/deletion/party.h:PrintComm"]}
{"id": "C53", "title": "Protocol outputs depend on the inputs only", "statement": "For fixed inputs the result of each of the seven protocol variants (cardinality; intersection; number of matches and sum; values the secret shares reconstruct to; inner product with deletions; counter and reported set with deletions; intersection in the original protocol) is the same for all keys, hash functions, encryption coins, non-zero masks, paddings, path identifiers, permutations and tree parameters, and for every split of the additions over days, as long as the runs complete and no stash overflows.", "quantifier": "all pairs of completed runs with the same inputs (up to order and days)", "why_tests_cant": "relational over all randomness", "anchors": ["upsi/addition/party_one.cc", "upsi/addition/party_zero.cc"]}
{"id": "C54", "title": "Generated data sets meet their contract", "statement": "When the drawn random strings are distinct, generated addition-only daily sets are duplicate-free per party across days, have the requested sizes and the reported shared count and sum; generated deletion histories never delete an absent element nor add a present one and the reported result is the one obtained from the history. Equal draws put duplicates into a party's set. Every row of a deletion history carries plus or minus the one value of its element. Too many shared elements or a possible sum above 2^63 - 1 are errors; a maximum value of 0 (at most 1 with deletions) terminates the process and a daily size of 0 with deletions is a division by zero. Reported sums are exact (with deletions: modulo 2^64).", "quantifier": "all parameters and random choices", "why_tests_cant": "all random choices", "anchors": ["upsi/util/data_util.cc:GenerateAddOnlySets", "upsi/util/data_util.cc:GenerateDeletionSets"]}
{"id": "C55", "title": "Setup distributes matching keys", "statement": "After a successful key setup in any output directory, for all keys and coins: both addition-only parties read the same joint public key, which belongs to the sum of the private keys they read, and the two halves of one threshold Paillier key, so ciphertexts made by one are opened by both together; parties of the original protocol read their own key pair and the peer's public key; deletion parties read their own private Paillier key and the peer's public key, so what one encrypts the other decrypts. No other file is touched. Setup fails (with an error) exactly when the private keys add up to the group order, given writable files; a missing or unreadable key file kills the party at start. With equal directories for both parties the keys are silently wrong.", "quantifier": "all output directories, codecs, groups, keys and coins", "why_tests_cant": "all keys and roles", "anchors": ["upsi/util/setup_util.cc", "upsi/util/elgamal_key_util.cc", "upsi/util/elgamal_proto_util.cc", "upsi/addition/party.h:Party", "upsi/original/party.h:Party", "upsi/deletion/party.h:Party"]}
{"id": "C56", "title": "Line files round-trip", "statement": "Lines written to a line file are read back identical and in order when they contain no newline or NUL byte, do not end in a carriage return and are shorter than the 2047-byte line buffer; otherwise they can come back altered or split.", "quantifier": "all lists of lines", "why_tests_cant": "all byte strings of all lengths", "anchors": ["upsi/util/recordio.cc:LineReaderImpl", "upsi/util/file_posix.cc:ReadLine"]}
{"id": "C57", "title": "Data set files round-trip", "statement": "A data set of elements with optional integer values written to a file and read back gives the same elements in the same order with the same values; the element and value lists of a set that was read are of equal length or the set has no values; numeric strings are converted to exactly the numbers they denote. A blank line in a file, or asking for values of a set that has none, is undefined behaviour.", "quantifier": "all data sets and all file contents", "why_tests_cant": "all strings and file contents", "anchors": ["upsi/data_util.cc:Dataset", "upsi/util/data_util.cc"]}
{"id": "C58", "title": "Hash-derived and random numbers stay in range", "statement": "The random oracle and the keyed PRF return a number below the requested bound for every input and hash function, or abort when the bound or key size is not supported; the PRF returns the first digest of its re-hashing chain whose low bits are below the bound; interval sampling never leaves the interval, reaches every number in it and aborts on an empty interval; coprime sampling returns a coprime number. The value of the oracle is the documented function of the digests, and coprime sampling returns the first coprime candidate of the draws and aborts for a zero bound.", "quantifier": "all inputs, bounds, hash functions and coins", "why_tests_cant": "all hash functions and coins", "anchors": ["upsi/crypto/context.cc:RandomOracle", "upsi/crypto/context.cc:PRF", "upsi/crypto/context.cc:GenerateRandBetween", "upsi/crypto/context.cc:RelativelyPrimeRandomLessThan"]}
{"id": "C59", "title": "Byte-level ElGamal and stored keys", "statement": "Decrypting the bytes of an encryption returns the bytes of the plaintext point, for generated keys and for keys restored from bytes; encryption fails only when a component is the point at infinity; the identity element can be encrypted but not be returned by decryption; exported keys restore the same keys and a private key that does not fit is rejected; a public-key-only object cannot decrypt; stored curve keys are read back exactly or rejected when the curve differs.", "quantifier": "all keys, coins and plaintext points", "why_tests_cant": "universal algebra", "anchors": ["upsi/crypto/commutative_elgamal.cc:CommutativeElGamal", "upsi/util/ec_key_util.cc:DeserializeEcKey"]}
{"id": "C60", "title": "Addition-only runs from imported initial sets", "statement": "When the trees of the initial sets are generated by the setup program, written, imported by both parties and followed by any number of daily updates, import succeeds and a completed run without stash overflow reports exactly the growth of the result since setup: cardinality, sum (modulo 2^64) and shares count exactly the common elements of the full cumulative sets that were not already common at setup. In PSI an initial element of party zero that becomes common later is reported only as an empty string, and in secret sharing its shares open to its value instead of to the element (as for daily elements). Trees generated for another functionality make a secret-sharing party die at start, and the other way round.", "quantifier": "all initial sets, histories, keys, coins, path identifiers, tree parameters", "why_tests_cant": "all initial sets and multi-day histories", "anchors": ["upsi/util/setup_util.cc:GenerateTrees", "upsi/addition/setup.cc", "upsi/roles.h:HasTree", "upsi/crypto_tree.cc:Deserialize"]}
{"id": "C61", "title": "Original protocol from imported initial sets", "statement": "In the original protocol, trees and hash tags of the initial sets written by the setup program are imported without failure, and a completed run without overflow reports exactly the common elements of the cumulative sets that were not already common at setup, each once, including initial elements of party zero that became common later.", "quantifier": "all initial sets, histories, keys, coins, path identifiers", "why_tests_cant": "all initial sets and multi-day histories", "anchors": ["upsi/original/setup.cc:WriteHX", "upsi/original/party_zero.h:PartyZero", "upsi/original/party_one.h:PartyOne"]}
{"id": "C62", "title": "Deletion protocols from imported initial sets", "statement": "With deletions, trees of the initial sets written by setup are imported without failure, and after any history (also removing initial elements) the number reported is, modulo 2^64, the current inner product (cardinality or sum of the intersection of the current sets) minus the one at setup: it is a difference and can wrap below zero. The deletion-PSI output is the set of elements that became common since setup, plus the negation of every initially common element that is no longer common.", "quantifier": "all initial sets, histories, keys, coins, path identifiers", "why_tests_cant": "all initial sets and multi-day histories", "anchors": ["upsi/deletion/setup.cc", "upsi/util/setup_util.cc:GenerateTrees", "upsi/roles.h:HasTree"]}
{"id": "C63", "title": "Honest runs never crash", "statement": "A run between two honest parties ends normally or with a documented error and never crashes, for every admissible history: addition-only runs and runs of the original protocol (also from imported trees) can only fail with the error raised when a point to be sent is the point at infinity (and, with sums, the error that a day's sum exceeds the decryption table). If neither party ever inserts more elements than its stash holds, nothing is lost and the run reports exactly the right cardinality, intersection, sum or shares unless that error occurs; with sums below the table bound the table error cannot occur. Runs with deletions never return an error and never abort, provided the masks and shares the parties draw are not zero and not below the elements they mask; the only undefined behaviour they can reach is reading past the end of a hash shorter than nine bytes and, for intersections, negating the most negative 64-bit integer, which needs a hash collision, a wrapped share or a loss.", "quantifier": "all multi-day histories, keys, coins in the ranges the code draws them from, path identifiers, tree parameters", "why_tests_cant": "all histories and coins", "anchors": ["upsi/addition/party_zero.cc", "upsi/addition/party_one.cc", "upsi/deletion/party_zero.cc", "upsi/deletion/party_one.cc", "upsi/deletion-psi/party_zero.cc", "upsi/deletion-psi/party_one.cc", "upsi/original/party_zero.cc", "upsi/original/party_one.cc", "upsi/crypto_tree.cc", "upsi/crypto/elgamal.cc"]}
{"id": "C64", "title": "Party zero learns only how many candidates match", "statement": "In the addition-only protocols, masking and shuffling hide the candidates: if party one draws the masks of a day uniformly from [1, order - 1] and the permutation of the candidates uniformly, then the plaintexts party zero decrypts from message II have exactly the distribution of M identities and N - M independent uniformly random non-identity points in random order, where N is the number of candidates and M the number of matches reported - for any state of the parties, any elements and any other coins; so days with the same N and M cannot be told apart from the plaintexts. Redrawing the masks and shuffles changes no state, so the views of different days are independent. In the sum and sharing protocols the same holds for the first components, up to draws on which the day fails. In the intersection protocol the pairs of plaintexts carry no more than the multiset of (does it match?, party zero's own element) over the candidates, up to a failure probability of at most 2N/(order - 1).", "quantifier": "every pair of states, all elements, all coins other than masks and shuffle; distribution over all masks and permutations", "why_tests_cant": "a distribution over all masks and permutations", "anchors": ["upsi/addition/party_one.cc: GenerateMessageII", "upsi/addition/party_zero.cc: ProcessMessageII, SendMessageIII", "upsi/crypto/elgamal.cc: CreateRandomMask", "upsi/crypto/ec_group.cc: GeneratePrivateKey"]}
{"id": "C65", "title": "Message sizes are a function of public identifiers and of the paths of the day's elements", "statement": "After any completed history the sizes of messages I and II of the next day (identifiers and ciphertexts per node of the tree updates, number of candidates; with deletions the number of candidates of every element) are given by a closed form in the identifiers sent so far and the hashes of the elements updated that day: a lookup yields a full stash plus one full node for every node of the element's path that was part of an earlier update of the peer. Stored elements, matches, payload, sign of an update, padding, keys and coins have no influence. The number is between stash + node and stash + (depth + 1) * node, and it is constant once all nodes were updated; before that it is not: two elements can give messages of different sizes, which reveals something about the element.", "quantifier": "all multi-day histories, elements, keys, coins, identifiers, tree parameters", "why_tests_cant": "all histories", "anchors": ["upsi/crypto_tree.cc:getPath, replaceNodes, Update", "upsi/addition/party_zero.cc: GenerateMessageI", "upsi/addition/party_one.cc: GenerateMessageII", "upsi/deletion/party.h: CombinePathInitiator"]}
{"id": "C66", "title": "Each party's secret shares are uniformly random", "statement": "In the secret-sharing protocol, if party zero draws its random values uniformly from [0, n), everything else being fixed, then on every day with N candidates and M matches each list of M values in [0, n) is party one's list of new shares for exactly n^(N-M) of the n^N draws, and each list of M values in (0, n] is party zero's list of new shares for equally many; no other list occurs. So neither party's own shares say anything about the elements beyond the number of matches.", "quantifier": "every admissible completed history and further day, all keys and other coins; distribution over all random values", "why_tests_cant": "a distribution over all draws", "anchors": ["upsi/addition/party_zero.cc:SendMessageIII", "upsi/addition/party_one.cc:ProcessMessageIII"]}
{"id": "C67", "title": "The original protocol: what each party sees in the clear, and two leaks", "statement": "In the original protocol, on a day that completes after any completed admissible history: (a) what party zero decrypts from message III depends, over the uniform masks and permutations of party one, only on the sizes of the candidate sets and on which elements of the day match; (b) the points party one receives in message IV depend, over party zero's masks and random numbers, only on which elements match (points for matches are the hash of a random number, all others uniformly random); (c) what party one decrypts from message II depends only on which candidates match; (d) but the point hiding the matches in message II is drawn once a day, so party one sees the same point once for every element in the intersection, and any repeated point reveals matches; (e) and the points sent for matches in message IV always have an even y-coordinate, so a point with an odd one tells party one that the element is not in the intersection, which happens for exactly half the draws of every element outside the intersection.", "quantifier": "all keys, element histories, states reached, days, masks, random numbers and permutations", "why_tests_cant": "a claim about the distribution over all draws of the masks; a test sees single draws, and each single draw looks random", "anchors": ["upsi/original/party_zero.cc: SendMessageII, SendMessageIV", "upsi/original/party_one.cc: SendMessageIII, SendMessageV", "upsi/crypto/ec_group.cc: GetPointByHashingToCurveInternal"]}
{"id": "C68", "title": "BigNum arithmetic is integer arithmetic, with exact error cases", "statement": "A BigNum is an integer: two are equal exactly when the integers are; addition, subtraction, multiplication, negation, comparison, truncated division, exact division, modular addition/subtraction/multiplication/squaring/exponentiation/inversion, shifts, bit tests, low bits and gcd return the integer they stand for (residues in [0, |m|)); division by zero, inexact exact division, zero moduli, negative exponents and negative shifts terminate the process, a missing modular inverse is an error status. The exceptions: Exp ignores the sign of the exponent, ModNegate of a non-zero multiple of the modulus returns the modulus itself, and IsSafePrime(2) terminates the process.", "quantifier": "all integers of all sizes and signs", "why_tests_cant": "all signs and sizes", "anchors": ["upsi/crypto/big_num.cc:BigNum", "upsi/crypto/big_num.h:BigNum", "upsi/crypto/context.cc:CreateBigNum"]}
{"id": "C69", "title": "Paillier encryption with the private key, or with reported randomness, is uniform over the ciphertexts of a message", "statement": "For a key made of safe primes of the same bit length (more exactly, neither prime being twice the other plus one), every ciphertext of a message comes from exactly one of the private-key coin pairs in [1,p) x [1,q) and from exactly one coin of the public key's EncryptWithRand / EncryptAndGetRand (units below n), so these encryptions are uniformly distributed over all ciphertexts of the message; the randomness reported by the private-key EncryptAndGetRand reproduces the same ciphertext under the public key. The base chosen by the private key generates the whole unit group modulo p^(s+1). For p = 2q+1 this fails: coins r and r+2 always give the same ciphertext; and the public key's plain Encrypt never reaches more than half of the ciphertexts, as coins r and r+(p-1)(q-1)/2 coincide.", "quantifier": "all pairs of safe primes, all exponents s >= 1, all messages below n^s, all coins, every choice of the random search for a generator", "why_tests_cant": "an exact one-to-one correspondence over all coins of arbitrarily large keys", "anchors": ["upsi/crypto/paillier.cc:PrimeCrypto", "upsi/crypto/paillier.cc:PrivatePaillier::Encrypt", "upsi/crypto/paillier.cc:PrivatePaillierWithRand::EncryptAndGetRand", "upsi/crypto/paillier.cc:PublicPaillier::EncryptWithRand", "upsi/crypto/paillier.cc:PublicPaillier::EncryptAndGetRand"]}
{"id": "C70", "title": "With deletions, masks and shares hide the peer's elements in what a party sees in the clear", "statement": "In the protocol with deletions (cardinality and sum), after every completed admissible history and for every next day: what a party sees in the clear before the final exchange of share words (the plaintexts it decrypts from the peer's candidates, its outputs of the comparison circuit, the plaintexts of the blocks it receives) consists of exactly as many numbers below the modulus and bits as the peer draws to hide its elements, and determines every one of these draws. So over uniform draws each view of a completed run has the same probability, and two worlds with different elements, payloads and histories but the same message sizes give the same views except for at most as many as there are draws on which the run does not complete. Runs complete when the masks are not below the element bound and the shares are not zero, unless some number has a hash of fewer than nine bytes; otherwise encryption can fail, and failing depends on the element.", "quantifier": "every pair of admissible completed histories and next days with the same message sizes, all keys, elements, payloads, other coins; distribution over all masks, shares and circuit bits", "why_tests_cant": "a distribution over all draws; a test sees single draws, each of which looks random", "anchors": ["upsi/deletion/party.h:CombinePathInitiator", "upsi/deletion/party.h:CombinePathResponder", "upsi/deletion/party.h:GarbledCircuit", "upsi/deletion/party_zero.cc:Run", "upsi/deletion/party_one.cc:Handle"]}
{"id": "C71", "title": "With deletions, Jacobi symbols of Paillier ciphertexts leak paths and matches", "statement": "For Paillier keys made of safe primes (of at least 7), the Jacobi symbol of a ciphertext modulo the public n, which anyone can compute, is multiplicative under homomorphic addition and is always +1 for ciphertexts and re-randomisations made with the public key, while a ciphertext made with the private key (as all ciphertexts in the trees of the deletion protocols are) has symbol +1 or -1 according to the parities of its coins. Therefore, with deletions, the candidates a party sends for an element carry exactly the symbols of the peer's own tree ciphertexts on the path of that element: elements whose paths carry different symbols are told apart by the peer although every plaintext is masked; and a block received in the oblivious transfer has symbol +1 whenever the comparison failed, so symbol -1 reveals a match.", "quantifier": "all keys of such primes, trees, elements, coins, states and days", "why_tests_cant": "it holds for every coin: no test of decrypted values or sizes shows it", "anchors": ["upsi/crypto/paillier.cc:PrivatePaillier::Encrypt", "upsi/crypto/paillier.cc:PublicPaillier::Encrypt", "upsi/crypto/paillier.cc:PublicPaillier::ReRand", "upsi/deletion/party.h:CombinePathInitiator", "upsi/deletion/party.h:GarbledCircuit"]}
{"id": "C72", "title": "Messages and tree files survive their encoding to bytes", "statement": "Whatever a party puts into a client or server message of any of the protocols (tree updates, candidate sets, sums, shares, the messages of the original protocol), with any number of nodes, elements and ciphertexts of any length, the peer parses back exactly that from the bytes, provided the encoding stays below the 2 GiB limit of the format; hence different messages have different bytes. The same holds for the plaintext and encrypted tree files and the tag files written by the setup programs, provided the sizes fit int32; a larger size is not read back. An empty message or one with unknown fields only is parsed as a message of no kind; when a message carries two kinds, the last one counts; two messages of the same kind in one string of bytes are read as one with the contents of the first followed by those of the second. A negative int32 field takes ten bytes and is read back. The bytes of every message, tree file, tag file and key file are those prescribed by upsi.proto, elgamal.proto and paillier.proto: each field under the number declared for it there, fields in the order of their numbers, repeated fields element by element, so any other program using these definitions reads the same contents.", "quantifier": "all messages, tree files and tag files of any size", "why_tests_cant": "the number and length of fields is unbounded; nested length prefixes change size at every power of 128", "anchors": ["upsi/network/upsi.proto:ClientMessage", "upsi/network/upsi.proto:ServerMessage", "upsi/network/upsi.proto:EncryptedElement", "upsi/network/upsi.proto:TreeUpdates", "upsi/crypto/elgamal.proto:ElGamalCiphertext", "upsi/crypto_tree.h:Serialize", "upsi/crypto_tree.h:Deserialize"]}
{"id": "C73", "title": "Over the network every protocol gives the same results; oversized messages fail; byte counts are exact", "statement": "For each of the seven protocol variants, a day in which every message is turned into bytes, sent over gRPC and parsed by the peer ends with a result exactly if the day run by direct calls ends with that result and every message is at most 1 GiB; a larger message makes the day fail and is never delivered in part. In the deletion protocol this holds although the candidates travel as one flat list without their grouping. The byte count the addition-only and original protocols record for the day is the number of bytes of all messages of the day as a signed 32-bit number (so it wraps above 2 GiB); in the deletion protocols party zero records the size of its requests and party one the size of message II without its envelope. Hence the result properties of the protocols hold for runs over the network.", "quantifier": "all states, inputs, coins, group encodings and numbers of days", "why_tests_cant": "message sizes and contents are unbounded; the limit lies far above what a test sends", "anchors": ["upsi/network/connection.h:Connection", "upsi/network/service.cc:Handle", "upsi/addition/party_one.cc:Handle", "upsi/addition/party_zero.cc:Handle", "upsi/addition/party_one.h:AddComm", "upsi/original/party_zero.cc:Handle", "upsi/deletion/party.h:AddComm", "upsi/deletion/party_zero.cc:SendMessageI", "upsi/deletion-psi/party_one.cc:GenerateMessageII", "upsi/addition/run.cc:RunPartyZero"]}
{"id": "C74", "title": "Setup and run together: the parties report what setup printed as expected", "statement": "For any flags, if addition/setup.cc succeeds and both parties of addition/run.cc, started on the same directories (with --trees exactly if there are initial sets), run to the end over the network, and no tree drops an element, then: the cardinality party zero reports, and the number of elements the PSI and sum protocols find, is the cardinality setup printed; every element PSI names is one of the shared elements setup drew, and without initial sets it names exactly these; the reported sum agrees with the printed one modulo 2^32, and equals it when the values of the initial matches stay below 2^31 - otherwise the printed sum is too large, because setup adds the initial matches in an int; without initial sets the secret shares add up to exactly the shared elements; after setup --func=SS with initial sets there are as many shares as printed and they add up to one number for each common element that was not common from the start: the value if the element is in the initial set of party zero, the element itself if it was added later. Without initial sets the printed cardinality is --shared_size, or an eighth of the elements of a party if that flag is negative; the count of initial matches is undefined exactly from 2^31 matches on. Setup prints nothing exactly if there are initial sets and --expected=false. Run for more days than setup generated, the program of party zero ends with an uncaught exception and prints no result for the shorter history.", "quantifier": "all flags, key and data draws, coins, group encodings, initial file systems and numbers of days", "why_tests_cant": "the claim spans key generation, data generation, files, network and protocol for every choice of sizes and randomness; tests run one seed and tiny sets", "anchors": ["upsi/addition/setup.cc:GenerateData", "upsi/addition/setup.cc:main", "upsi/addition/run.cc:RunPartyZero", "upsi/addition/run.cc:RunPartyOne", "upsi/util/setup_util.cc:GenerateTrees", "upsi/util/setup_util.cc:WriteTrees", "upsi/util/data_util.cc:GenerateAddOnlySets", "upsi/util/data_util.cc:ReadDailyDatasets"]}
{"id": "C75", "title": "Setup and run together for the protocols with deletions", "statement": "For any flags with at least one day and one update a day, if deletion/setup.cc (or deletion-psi/setup.cc) succeeds: the number it prints is exactly the correct result for the generated rows at the end minus that at the start. If then both parties of deletion/run.cc, started on the same directories (with --import exactly if there are initial elements), run to the end over the network, no tree drops an entry, no 64-bit hashes collide and no share wraps, the number party zero prints is the printed one when that is not negative and 2^64 more when it is. For deletion-psi the number party zero prints equals the printed one, also when negative, and the elements it collects are exactly those held by both at the end but not at the start and the negations of those held by both at the start but not at the end. deletion/run.cc only runs cardinality and sum, deletion-psi/run.cc only the intersection.", "quantifier": "all flags, primes, data draws, coins, random oracles and initial file systems", "why_tests_cant": "the claim spans key generation, data generation with deletions, files, network, encryption and circuits for every choice of sizes and randomness", "anchors": ["upsi/deletion/setup.cc:GenerateData", "upsi/deletion/setup.cc:main", "upsi/deletion/run.cc:RunPartyZero", "upsi/deletion/run.cc:RunPartyOne", "upsi/deletion-psi/setup.cc:main", "upsi/deletion-psi/run.cc:RunPartyZero", "upsi/deletion-psi/party_zero.cc:PrintResult", "upsi/util/data_util.cc:GenerateDeletionSets", "upsi/util/setup_util.cc:GenerateTrees"]}
{"id": "C76", "title": "Setup and run together for the original protocol", "statement": "For any flags, if original/setup.cc succeeds and then both parties of original/run.cc, started on the same directories (with --trees exactly if there are initial elements), run to the end over the network, no tree drops an element and the hash to the curve does not collide on the drawn elements: the elements party zero reports together with those common from the start are exactly the shared elements setup drew, each once; the number it prints is the one setup printed; if it is below 30 the elements are printed in decimal. Setup prints a number unless there are initial sets and --expected=false. With the default flags of run.cc and a setup without initial sets both programs end with an uncaught exception. The printed total of bytes is the true one if no day reaches 2 GiB.", "quantifier": "all flags, keys, data draws, coins, hash functions and initial file systems", "why_tests_cant": "the claim spans key generation, data generation, key files, data files, tree and tag files, network and protocol for every choice of sizes and randomness", "anchors": ["upsi/original/setup.cc:GenerateData", "upsi/original/setup.cc:WriteHX", "upsi/original/setup.cc:main", "upsi/original/run.cc:RunPartyZero", "upsi/original/run.cc:RunPartyOne", "upsi/original/party.h:Party", "upsi/original/party_zero.cc:PrintResult", "upsi/original/party_zero.cc:PrintComm"]}
{"id": "C77", "title": "Points as strings of bytes", "statement": "CreateECPoint(string) and IsCurvePoint accept exactly the compressed and the uncompressed SEC 1 forms, with reduced coordinates of the length of the field, of the points of the curve other than infinity; everything else is an error, never an abort. ToBytesCompressed gives every such point one string of one byte more than the field, ToBytesUncompressed one of twice the field plus one; both are read back as the same point, and reading an uncompressed string and writing it again gives a different string. The point at infinity cannot be written. HashToCurve of the point utility returns, for SHA-256 and SHA-512, the compressed form of the first usable candidate with its even root, which IsCurvePoint accepts, whatever square root the library picks, and refuses the other hash types. GetRandomCurvePoint always returns a string IsCurvePoint accepts, and over the draws each point of the group other than infinity appears exactly once. Create succeeds exactly for known curves over a field that passes the primality test.", "quantifier": "all curves over odd prime fields, points, strings of bytes, hash functions, draws and square root functions", "why_tests_cant": "every string of bytes can be received from the other party; tests see a few points", "anchors": ["upsi/crypto/ec_point_util.cc:Create", "upsi/crypto/ec_point_util.cc:GetRandomCurvePoint", "upsi/crypto/ec_point_util.cc:HashToCurve", "upsi/crypto/ec_point_util.cc:IsCurvePoint", "upsi/crypto/ec_point.cc:ToBytesCompressed", "upsi/crypto/ec_point.cc:ToBytesUnCompressed", "upsi/crypto/ec_group.cc:CreateECPoint", "upsi/crypto/ec_group.cc:Create"]}
{"id": "C78", "title": "Runs with mock trees", "statement": "With the flag start_size set to the same positive number at both parties, party construction fills each own tree with that many random elements below 10^15 and the copy of the other tree with encryptions of zero; this never fails. Provided all elements of the data sets are positive and no mock element of a party equals an element the other party adds or deletes, a run that completes (no entry lost, no hash collision, no wrapping share) gives the results of the data sets alone, whatever the mock elements are and even if both parties drew the same ones: the secret-sharing protocol yields shares of exactly the common elements, the cardinality and sum protocol with deletions the inner product of the net payloads of the updates, and the intersection protocol with deletions exactly the common elements. Each side condition is needed: a mock element that the other party adds gives an additional share of the value one or an additional count, the element zero matches all mock entries on its path, and different start sizes make the program access memory out of bounds.", "quantifier": "all keys, functionalities with mock trees, start sizes, random draws of mock elements and paths, and histories of updates", "why_tests_cant": "benchmarks are run with mock trees, whose contents are random; a unit test sees one draw", "anchors": ["upsi/addition/party_zero.h:CreateMockTrees", "upsi/addition/party_one.h:CreateMockTrees", "upsi/deletion/party.h:CreateMockTrees", "upsi/deletion-psi/party.h:CreateMockTrees", "upsi/addition/run.cc:start_size"]}
{"id": "C79", "title": "Party zero hides its elements from party one under DDH", "statement": "In the addition-only protocols everything party one gets from party zero hides which elements party zero holds, assuming the decisional Diffie-Hellman problem is hard in the curve group. Precisely: let party one follow any strategy whatsoever (any function from the messages received to the next answer, well formed or not) and then any test. For two histories of party zero with the same path identifiers that read equally many entries of its copy of the other tree (the leakage of C65) the probabilities that the test says yes differ by at most the advantages of explicitly given distinguishers of Diffie-Hellman triples, two per ciphertext sent, each of which runs the conversation once, plus the number of ciphertexts divided by the group order for each history. This covers all days of the cardinality protocol, all days of the intersection protocol up to reading message II (what party zero does afterwards may visibly fail if party one deviates), and message I of a day of the sum protocol from any state. With a party one that follows the protocol the conversation consists of exactly the messages I of the run, and the numbers of entries are those of the closed form of C65.", "quantifier": "all groups of prime order, all strategies and tests of party one, all pairs of histories of party zero with the same leakage", "why_tests_cant": "hiding quantifies over all attackers; no test can enumerate them", "anchors": ["upsi/addition/party_zero.cc:GenerateMessageI", "upsi/addition/party_zero.cc:ProcessMessageII", "upsi/addition/party_one.cc:GenerateMessageII", "upsi/crypto/elgamal.cc:Encrypt", "upsi/crypto/elgamal.cc:ReRandomize", "upsi/crypto_tree.cc:Update"]}
{"id": "C80", "title": "Party one hides its elements from party zero under DDH", "statement": "In the cardinality protocol everything an honest-but-curious party zero gets from party one over all days hides which elements party one holds, except for the size of the intersection after each day, assuming the decisional Diffie-Hellman problem is hard in the curve group. Precisely: party zero follows the protocol with any elements, key and coins of its own and applies any test to the public key of party one and to all messages II. For two histories from empty trees with the same path identifiers in which as many entries are read each day (the leakage of C65), no tree loses an element, and the intersection has the same size after each day, the probabilities (over the key, the encryption coins, the masks and the shuffles of party one) that the test says yes differ by at most the advantages of explicitly given distinguishers of Diffie-Hellman triples, one per coin and one per mask for each history, each of which runs the protocol once. No coin or mask outside the listed places influences what party zero sees, and what it sees is what it gets in a run of the protocol.", "quantifier": "all groups with a generator of prime order, all tests of party zero, all pairs of histories of party one with the same leakage", "why_tests_cant": "hiding quantifies over all attackers; no test can enumerate them", "anchors": ["upsi/addition/party_one.cc:GenerateMessageII", "upsi/addition/party_zero.cc:GenerateMessageI", "upsi/addition/party_zero.cc:ProcessMessageII", "upsi/crypto/elgamal.cc:Encrypt", "upsi/crypto/elgamal.cc:Exp", "upsi/crypto_tree.cc:Update"]}
{"id": "C81", "title": "The tree updates of the deletion protocols hide the entries under DCR", "statement": "In the protocols with deletions the tree updates a party sends over several rounds hide which elements it inserts or deletes, and with which payloads, assuming n-th residues modulo n^2 are hard to recognise (decisional composite residuosity). Precisely: for every Paillier key made from safe primes, every test of all tree updates of any number of rounds, and two histories with the same path identifiers starting from well-formed trees of the same shape, with elements and pads below n and payloads whose absolute values sum to less than n, the probabilities over the encryption coins that the test says yes differ by at most the advantages of explicitly given distinguishers of n-th residues, one per ciphertext for each history, each of which makes the updates once from the modulus alone. Any number of encryptions with the private key hides the messages likewise. Each ciphertext has its own pair of coins and no other coins are used. The messages of the other party have no influence on the updates, so this holds whatever the other party sends. (The candidates sent beside the updates are not covered; C71 says what they leak.)", "quantifier": "all safe-prime Paillier keys, all tests, all numbers of rounds, all pairs of histories with the same path identifiers, all messages of the other party", "why_tests_cant": "hiding quantifies over all attackers; no test can enumerate them", "anchors": ["upsi/crypto_tree.cc:Update", "upsi/crypto_node.cc:EncryptNode", "upsi/crypto/paillier.cc:PrivatePaillier::Encrypt", "upsi/deletion/party_zero.cc:GenerateMessageI", "upsi/deletion/party_one.cc:GenerateMessageII", "upsi/deletion-psi/party_zero.cc:GenerateMessageI", "upsi/deletion-psi/party_one.cc:GenerateMessageII"]}
{"id": "C82", "title": "Party one hides its elements but the intersection in the intersection protocol", "statement": "In the intersection (PSI) protocol everything an honest-but-curious party zero gets from party one over all days hides which elements party one holds, except for the intersection after each day, assuming the decisional Diffie-Hellman problem is hard in the curve group. Precisely: party zero follows the protocol with any elements, key and coins of its own and applies any test to the public key of party one, to all messages II and to how the conversation ended. For two histories from empty trees with the same path identifiers in which as many entries are read each day (the leakage of C65), no tree loses an element, and every value is shared the same number of times after each day, the probabilities (over the key, the encryption coins, both masks of each candidate and the shuffles of party one) that the test says yes differ by at most the advantages of explicitly given distinguishers of Diffie-Hellman triples (one per coin and two per candidate for each history, each of which runs the protocol once) plus four times the number of candidates over the group order. No coin of party one outside the listed places, and no other mask, influences what party zero sees, and what it sees is what it gets in a run of the protocol.", "quantifier": "all groups with a generator of prime order, all tests of party zero, all pairs of histories of party one with the same leakage", "why_tests_cant": "hiding quantifies over all attackers; no test can enumerate them", "anchors": ["upsi/addition/party_one.cc:GenerateMessageII", "upsi/addition/party_zero.cc:GenerateMessageI", "upsi/addition/party_zero.cc:ProcessMessageII", "upsi/crypto/elgamal.cc:Encrypt", "upsi/crypto/elgamal.cc:Exp", "upsi/crypto/elgamal.cc:Mul", "upsi/crypto_tree.cc:Update"]}
{"id": "C83", "title": "Generation of initial trees and runs that import them never crash", "statement": "The setup program's generation of the initial trees, for all initial sets with non-negative values, sizes and coins, ends normally or, with overwhelming improbability, with the error of a ciphertext that contains the point at infinity (with deletions it always ends normally if the elements and the total of the payloads lie below the Paillier modulus). After it, the import by both parties succeeds, and every admissible history then run from the imported trees ends normally or with that error (sum: or because a day's sum exceeds the limit, which cannot happen if all values add up to less; deletion: or with undefined behaviour that only a hash shorter than nine bytes, or an update of -2^63 after a hash collision, can cause): no other error, no abort. If initial set and additions of each party together fit its stash no element is lost, and the results are those of C60, C61 and C62.", "quantifier": "all initial sets, histories of any length, sizes, coins, keys and group encodings", "why_tests_cant": "whether a run ends depends on all coins and all earlier states, so no set of runs covers it", "anchors": ["upsi/addition/setup.cc", "upsi/original/setup.cc:WriteHX", "upsi/deletion/setup.cc", "upsi/crypto_tree.cc:CryptoTree", "upsi/roles.h:HasTree", "upsi/addition/party_zero.cc", "upsi/deletion/party_zero.cc"]}
{"id": "C84", "title": "Setup and runs with --start_size together", "statement": "After the setup program ran without initial sets, both parties run with the same positive start_size (random mock trees) report what setup printed, exactly as without mock trees: the secret-sharing program ends with shares that add up to the shared elements setup drew, the cardinality and sum program with deletions prints the printed number as an unsigned 64-bit number, and the intersection program with deletions prints that number and collects exactly the elements both parties hold at the end. This holds provided the programs end normally, no tree drops an entry, no hashes collide, the elements of the data sets are positive and no mock element of a party is an element of the other party's data sets. The programs with deletions refuse a positive start_size together with the import flag, whatever the files.", "quantifier": "all setup flags without initial sets, all draws of setup, of the mock trees and of the parties, all start sizes", "why_tests_cant": "the draws of setup, mock trees and protocol are random and of unbounded number; a test sees one of them", "anchors": ["upsi/addition/run.cc:main", "upsi/deletion/run.cc:main", "upsi/deletion-psi/run.cc:main", "upsi/deletion/party.h:CreateMockTrees", "upsi/addition/party_zero.h:CreateMockTrees", "upsi/deletion/setup.cc:main"]}
{"id": "C85", "title": "After setup, the two programs never crash", "statement": "After the setup program ended normally without losing an initial entry, both parties of every protocol, run with the same flags on the files setup wrote, never abort and never report an error other than two: they find every file readable and of the right kind, and either end normally, or report the error raised when a point to be sent is the point at infinity (addition and original protocol), or report the error of a message that is larger than gRPC accepts. The addition and the original programs never reach undefined behaviour; the programs with deletions reach it only if the random oracle returns a hash shorter than nine bytes or, for the intersection, if party zero has to negate -2^63, which needs a hash collision or a wrapped share while the sets fit the stash. No tree drops an entry while a party's sets fit its stash. With small sets the programs therefore end with one of the errors or report what setup printed.", "quantifier": "all setup flags within the sizes of the code, all draws of setup and of the parties, all file systems", "why_tests_cant": "the draws of setup and the protocol are random, and a test sees one run of unboundedly many", "anchors": ["upsi/addition/run.cc:main", "upsi/addition/setup.cc:main", "upsi/original/run.cc:main", "upsi/original/setup.cc:main", "upsi/addition/party_zero.cc:PartyZeroNoPayload::Handle", "upsi/network/connection.h:Connection", "upsi/deletion/run.cc:main", "upsi/deletion-psi/run.cc:main", "upsi/deletion/setup.cc:main"]}
{"id": "C86", "title": "Setup does its work", "statement": "For flags the generator accepts, random choices in their ranges, keys and initial trees that fit into files and a disk that can be written, the setup programs of the addition-only and of the original protocol end normally, having written every key, data set and tree file, or report that they met the point at infinity; they never crash, never reach undefined behaviour and report no other error. Setup for the addition-only protocols without initial trees ends normally exactly unless the two private keys add up to the group order.", "quantifier": "all accepted flags, all random choices, all group codecs, all writable disks", "why_tests_cant": "the draws of setup are random and the flags range over unboundedly many values; a test sees one run", "anchors": ["upsi/addition/setup.cc:main", "upsi/addition/setup.cc:GenerateData", "upsi/original/setup.cc:main", "upsi/util/setup_util.cc:WriteTrees", "upsi/util/setup_util.cc:GenerateTrees", "upsi/util/proto_util.h:WriteProtoToFile"]}
{"id": "C87", "title": "Runs read exactly their input files", "statement": "A run of the two parties that ends normally found every file it was told to use: each daily set of both parties, each key file and, with imported trees, each tree file (and the list of hashed elements of the original protocol); a missing file is never taken for an empty one. The run as a whole - its result, its byte counts and its failures - depends on no other file, and each party reads keys only from its own directory (in the original protocol also the public key of its peer): in particular never the private key of its peer.", "quantifier": "all programs of the parties, all flags, all contents of the disk, all random choices", "why_tests_cant": "the files present and the contents of the disk are unbounded; a test shows one disk", "anchors": ["upsi/addition/run.cc", "upsi/deletion/run.cc", "upsi/deletion-psi/run.cc", "upsi/original/run.cc", "upsi/util/data_util.cc:ReadDailyDatasets", "upsi/util/proto_util.h:ReadProtoFromFile", "upsi/addition/party.h:Party", "upsi/deletion/party.h:Party", "upsi/original/party.h:Party"]}
{"id": "C88", "title": "Setup writes exactly its output files", "statement": "When a setup program ends normally, every key file, every daily set of both parties and - with initial sets - every tree file (and the list of hashed elements of the original protocol) exists, and no other file has been created, changed or removed. These are enough for a run: every input file of a run of the parties for as many days or fewer is there.", "quantifier": "all four setup programs (deletion and deletion-psi share one), all flags, all random choices, all earlier contents of the disk", "why_tests_cant": "the flags and the earlier contents of the disk are unbounded; a test shows one directory", "anchors": ["upsi/addition/setup.cc:main", "upsi/deletion/setup.cc:main", "upsi/deletion-psi/setup.cc:main", "upsi/original/setup.cc:main", "upsi/util/setup_util.cc:WriteTrees", "upsi/util/setup_util.cc:GenerateThresholdKeys", "upsi/util/setup_util.cc:GeneratePaillierKeys", "upsi/util/setup_util.cc:GenerateElGamalKeys", "upsi/util/data_util.cc:Dataset::Write"]}
{"id": "C89", "title": "Setup does not depend on leftovers", "statement": "Whatever was on the disk before - the files of an earlier setup with other flags, or foreign files -, a setup program with the same flags and random choices prints the same and leaves output files with the same contents, or fails in the same way; only the permission to write counts. The parties' runs afterwards, for as many days as generated or fewer, agree completely.", "quantifier": "all four setup programs (deletion and deletion-psi share one), all flags, all random choices, any two earlier contents of the disk", "why_tests_cant": "the earlier contents of the disk are unbounded, and setup reads back files it has written; a test starts from one directory", "anchors": ["upsi/addition/setup.cc:main", "upsi/deletion/setup.cc:main", "upsi/deletion-psi/setup.cc:main", "upsi/original/setup.cc:main", "upsi/util/setup_util.cc:GenerateThresholdKeys", "upsi/util/setup_util.cc:GenerateTrees", "upsi/util/elgamal_key_util.cc:ComputeJointElGamalPublicKey"]}
