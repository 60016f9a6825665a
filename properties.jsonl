{"id": "C01", "title": "Versioned map semantics of commit and get", "statement": "After any history of committed value sets, get(k, v) returns exactly the value of the last write to k at a version <= v (None if that write was a deletion or there was none).", "quantifier": "every history of value sets (inserts, overwrites, deletes, duplicates, empty sets), every key, every version", "why_tests_cant": "the set of histories is infinite; the answer depends on every earlier write, including deletions and no-ops", "anchors": ["src/tree.rs: put_value_sets, get", "src/tree_cache.rs: TreeCache::put_value, freeze", "src/mock.rs: put_value, get_value_option"]}
{"id": "C02", "title": "get_with_proof agrees with the map", "statement": "For every readable version, get_with_proof(k, v) succeeds and its value equals the map's value for k at v; it never reports a present key as absent or vice versa.", "quantifier": "every history, every readable version, every key (present or absent)", "why_tests_cant": "needs the shape of the whole stored tree to be right for every key set, including shared prefixes of any length up to 64 nibbles", "anchors": ["src/tree.rs: get_with_proof, insert_at, insert_at_internal_node, insert_at_leaf_node", "src/node_type.rs: get_only_child_with_siblings"]}
{"id": "C03", "title": "Root hash is a function of the map only (history independence)", "statement": "The root hash returned by put_value_sets for a version, and get_root_hash of that version, equal the canonical sparse-Merkle root of the map at that version; hence two histories (any order of inserts, deletes, overwrites, any batching) that reach the same map have the same root.", "quantifier": "every pair of histories, every hash function", "why_tests_cant": "requires that splitting, coalescing on delete and 16-way node hashing agree for all key sets and orders", "anchors": ["src/tree.rs: put_value_sets, get_root_hash", "src/node_type.rs: InternalNode::hash, merkle_hash", "src/tree_cache.rs: freeze"]}
{"id": "C04", "title": "Completeness of existence proofs", "statement": "If key k has value x at version v, the proof returned by get_with_proof(k, v) passes verify_existence against get_root_hash(v).", "quantifier": "every history, version, key present at that version, hash function", "why_tests_cant": "must hold for every tree shape and depth 0..256 of the leaf", "anchors": ["src/tree.rs: get_with_proof", "src/types/proof/definition.rs: SparseMerkleProof::verify"]}
{"id": "C05", "title": "Completeness of non-existence proofs", "statement": "If key k is absent at version v, the proof returned by get_with_proof(k, v) passes verify_nonexistence against get_root_hash(v), whether the search ends at an empty slot, at another leaf, or in the empty tree.", "quantifier": "every history, version, absent key, hash function", "why_tests_cant": "the terminating leaf may sit at a different nibble than the queried one; all such configurations must verify", "anchors": ["src/tree.rs: get_with_proof", "src/types/proof/definition.rs: SparseMerkleProof::verify", "src/node_type.rs: has_only_child"]}
{"id": "C06", "title": "Soundness of existence verification", "statement": "If verify_existence(root of a tree, k, x) accepts any proof whatsoever, then the tree maps k to x, unless the hash function collides (or hits the placeholder) on the strings hashed by the tree and by the verifier.", "quantifier": "every proof object (including adversarial ones), every map, key, value and hash function", "why_tests_cant": "quantifies over all adversarial proofs; tests only try a handful of corruptions", "anchors": ["src/types/proof/definition.rs: SparseMerkleProof::verify, verify_existence", "src/types/proof.rs: SparseMerkleInternalNode::hash, SparseMerkleLeafNode::hash"]}
{"id": "C07", "title": "Soundness of non-existence verification", "statement": "If verify_nonexistence(root of a tree, k) accepts any proof whatsoever, then k is absent from the tree, unless the hash function collides on the strings involved.", "quantifier": "every proof object, every map, key and hash function", "why_tests_cant": "quantifies over all adversarial proofs", "anchors": ["src/types/proof/definition.rs: SparseMerkleProof::verify, verify_nonexistence"]}
{"id": "C08", "title": "Root hash binds the map", "statement": "Two maps with equal root hashes are equal (keys and value hashes), unless the hash function collides on the strings hashed by the two trees.", "quantifier": "every pair of maps and hash function", "why_tests_cant": "quantifies over all pairs of maps", "anchors": ["src/types/proof.rs: SparseMerkleInternalNode::hash, SparseMerkleLeafNode::hash, LEAF_DOMAIN_SEPARATOR, INTERNAL_DOMAIN_SEPARATOR"]}
{"id": "C09", "title": "Committed versions are immutable", "statement": "Committing further value sets never changes what any earlier readable version returns: root hash, get, get_with_proof (value and proof), leaf count; no stored node is overwritten.", "quantifier": "every history, every later commit, every earlier version and key", "why_tests_cant": "needs node keys of the new version to be fresh for all tree shapes and all operation mixes in one version", "anchors": ["src/tree.rs: put_value_sets", "src/tree_cache.rs: put_node, delete_node, freeze", "src/mock.rs: write_node_batch"]}
{"id": "C10", "title": "Pruning safety", "statement": "purge_stale_nodes(r), interleaved anywhere in a history, leaves every version v >= r (up to the latest) fully readable with unchanged roots, values and proofs, and leaves the tree ready for further commits.", "quantifier": "every history of commits and purges, every r, every version >= r, every key", "why_tests_cant": "a wrong stale entry shows only when a shared subtree is reached from a later version", "anchors": ["src/tree_cache.rs: delete_node, freeze", "src/mock.rs: purge_stale_nodes", "src/tree.rs: insert_at_internal_node"]}
{"id": "C11", "title": "Stale index entries are exact and unique", "statement": "Each stale index entry with stale_since_version v names a stored node of an earlier version that no readable version from v on can reach; below the root the entries of version v are exactly the nodes reachable at v-1 and not at v; no node is ever entered twice; purge_stale_nodes therefore never fails with 'non-existent node' and commit never fails with 'Duplicated retire log'.", "quantifier": "every history of commits and purges", "why_tests_cant": "uniqueness is a property of the whole history", "anchors": ["src/tree_cache.rs: delete_node, freeze", "src/mock.rs: put_stale_node_index, purge_stale_nodes"]}
{"id": "C12", "title": "Pruning completeness (no leaked nodes)", "statement": "After purge_stale_nodes(r) every stored node below the root belongs to some version >= r; a set that changes the root hash of a non-empty tree retires the previous root. For root nodes, over a whole history: a call retires, for each of its sets that has an effect (stores a value or removes a present key) on a map that is not empty, exactly the root it was working from (that of the last version before with an effect, or the one before the call), and a root is stored exactly until a purge reaches that version. (So the code leaks: the root of an empty map, and the root before a set without effect committed by its own call, are never deleted.)", "quantifier": "every history, every r", "why_tests_cant": "a leak is invisible to functional tests", "anchors": ["src/tree.rs: insert_at (Node::Null case)", "src/tree_cache.rs: freeze"]}
{"id": "C13", "title": "Commit never fails or panics on a well-formed store", "statement": "On a store produced by any history, put_value_sets returns Ok: none of 'already exists in NodeBatch', 'Node gets stale twice', 'Ran out of nibbles', 'Null node exists for non-root node', the InternalNode::new asserts or the leaf counter underflow can fire.", "quantifier": "every history, every list of value sets (any keys, duplicates, deletes), first_version = latest+1, no u64 overflow", "why_tests_cant": "panics hide in rare shapes (deep shared prefixes, delete-reinsert within one version)", "anchors": ["src/tree.rs: put, insert_at*, create_leaf_node", "src/tree_cache.rs: put_node, delete_node, freeze", "src/node_type.rs: InternalNode::new"]}
{"id": "C14", "title": "One multi-set call equals consecutive calls", "statement": "put_value_sets([s1..sn], v) returns the same root hashes and yields the same readable versions as n single-set calls at v, v+1, ... each committed before the next.", "quantifier": "every store produced by a history, every list of value sets", "why_tests_cant": "the in-memory frozen cache and the storage must be interchangeable for every shape", "anchors": ["src/tree.rs: put_value_sets, put_value_set", "src/tree_cache.rs: get_node_option, freeze"]}
{"id": "C15", "title": "Batch API agrees with the sequential API", "statement": "batch_put_value_sets returns the same root hashes as put_value_sets with the same (deduplicated, last wins) sets, and its batch makes the same maps readable, for non-empty sets. Precomputed node hashes handed to it change nothing, neither what is returned nor what is stored, as long as they are right. Wrong ones are trusted and give wrong roots, but never wrong values, and they change nothing that is read at older versions.", "quantifier": "every store produced by a history, every list of non-empty value sets (keys in any order, duplicates allowed)", "why_tests_cant": "two different algorithms (recursive partition vs. one-by-one insertion) must agree on all inputs", "anchors": ["src/tree.rs: batch_put_value_sets, batch_insert_at, batch_create_subtree, batch_create_subtree_with_existing_leaf", "src/types/nibble.rs: NibbleRangeIterator"]}
{"id": "C16", "title": "Update proofs are complete", "statement": "The proofs returned by put_value_sets_with_proof verify: verify_update(old root, new root, updates) accepts for each value set, for inserts, overwrites, splits, deletes with and without coalescing, and no-op deletes.", "quantifier": "every store produced by a history, every value set, hash function", "why_tests_cant": "the verifier recomputes the new root from the old path in many shape-dependent cases", "anchors": ["src/tree.rs: put_value_sets_with_proof", "src/types/proof/definition.rs: check_compute_new_root, compute_new_merkle_path_on_split, verify_update"]}
{"id": "C17", "title": "Update verification is sound", "statement": "If verify_update(root of m, new root, updates) accepts, then the new root is the root of m with the updates applied, absent hash collisions. (False of the code: a delete is accepted with an empty proof for a key that exists; with overflow checks off an insert is accepted against an unrelated leaf.)", "quantifier": "every adversarial proof list, map, update list", "why_tests_cant": "quantifies over adversarial proofs", "anchors": ["src/types/proof/definition.rs: UpdateMerkleProof::verify_update, check_compute_new_root, compute_new_merkle_path_on_split"]}
{"id": "C18", "title": "No-op sets keep the root and still create a version", "statement": "A value set that changes nothing (empty, or deletes only absent keys) leaves the root hash unchanged, and the new version is readable.", "quantifier": "every store produced by a history, every no-op set", "why_tests_cant": "includes root-missing and all-deleted corner cases", "anchors": ["src/tree_cache.rs: freeze", "src/tree.rs: insert_at"]}
{"id": "C19", "title": "Leaf count is exact", "statement": "get_leaf_count(v) equals the number of keys present at version v.", "quantifier": "every history, every readable version", "why_tests_cant": "counts are maintained incrementally through splits and coalescing", "anchors": ["src/tree.rs: get_leaf_count", "src/node_type.rs: InternalNode::sum_leaf_count, Child::leaf_count"]}
{"id": "C20", "title": "Iterator yields exactly the sorted tail", "statement": "JellyfishMerkleIterator::new(reader, v, start) yields, without error, exactly the key/value pairs of version v with key >= start, in strictly increasing key order, each once, then ends.", "quantifier": "every history, readable version, start key", "why_tests_cant": "stack positioning depends on where start falls relative to every existing key", "anchors": ["src/iterator.rs: JellyfishMerkleIterator::new, next, cleanup_stack, NodeVisitInfo"]}
{"id": "C21", "title": "Iterator by index", "statement": "JellyfishMerkleIterator::new_by_index(reader, v, i) yields exactly the pairs of version v from the i-th smallest key on.", "quantifier": "every history, readable version, index", "why_tests_cant": "relies on leaf counts at every node", "anchors": ["src/iterator.rs: new_by_index, skip_leaves"]}
{"id": "C22", "title": "Range proofs are complete and sound", "statement": "get_range_proof(k, v) together with the left sibling hashes verifies against the root; and SparseMerkleRangeProof::verify accepts only if the given leaf is in the tree, absent collisions.", "quantifier": "every map, present key, adversarial proof, hash function", "why_tests_cant": "quantifies over tree shapes and adversarial proofs", "anchors": ["src/tree.rs: get_range_proof", "src/types/proof/definition.rs: SparseMerkleRangeProof::verify"]}
{"id": "C23", "title": "Restore reproduces the tree", "statement": "Feeding all key/value pairs of a version that has at least one key in increasing order, in any chunking, with the range proofs of get_range_proof, every add_chunk succeeds and after finish the target store holds exactly the canonical tree: same root hash, values, proofs. (A version without keys cannot be restored: proved that finish panics.)", "quantifier": "every non-empty map, every chunking, version, hash function", "why_tests_cant": "freezing of partial nodes depends on every pair of neighbouring keys", "anchors": ["src/restore.rs: add_chunk_impl, add_one, insert_at_leaf, freeze, verify, finish_impl"]}
{"id": "C24", "title": "Restore accepts only authentic chunks", "statement": "If the expected root is the root of a map m and add_chunk returns Ok, then the pairs received so far are exactly the pairs of m with key up to the last received key, absent collisions; on error nothing is written to the store.", "quantifier": "every sequence of (adversarial) chunks and proofs", "why_tests_cant": "adversarial input", "anchors": ["src/restore.rs: add_chunk_impl, verify, compute_left_sibling_impl", "src/types/proof/definition.rs: SparseMerkleRangeProof::verify"]}
{"id": "C25", "title": "Restore survives a crash at any chunk boundary", "statement": "If the process stops after any number of accepted chunks, JellyfishMerkleRestore::new on the same store recovers a state from which feeding the remaining keys (those above the rightmost stored leaf) completes to the same tree.", "quantifier": "every map, chunking and crash point", "why_tests_cant": "recovery reads back whatever frontier happened to be frozen", "anchors": ["src/restore.rs: new, recover_partial_nodes, freeze_previous_leaf", "src/mock.rs: get_rightmost_leaf"]}
{"id": "C26", "title": "finish certifies the expected root", "statement": "If finish returns Ok the restored root hash equals expected_root_hash. (False of the code: finish performs no check, so finishing early silently stores a different root.)", "quantifier": "every chunk sequence", "why_tests_cant": "needs every early-finish point", "anchors": ["src/restore.rs: finish_impl"]}
{"id": "C27", "title": "Exclusion proofs name the true neighbours", "statement": "For an absent key in a non-empty tree, get_with_exclusion_proof returns the greatest smaller key and the least greater key of that version (None exactly when there is none), each with a verifying existence proof.", "quantifier": "every history, readable version, absent key", "why_tests_cant": "neighbour search pops and descends along arbitrary shapes", "anchors": ["src/tree.rs: get_with_exclusion_proof, get_bounding_path, search_for_closest_node, search_closest_extreme_node, get_extreme_key_hash"]}
{"id": "C28", "title": "ICS23 proofs are accepted by an ics23 verifier exactly when they should be", "statement": "get_with_ics23_proof returns, for a present key, its value and an existence proof that an ics23 verifier using ics23_spec accepts against the root hash of that version; for an absent key of a non-empty map, a non-existence proof naming the true neighbours that it accepts. Within the limits of the format: non-empty keys and values, at most 64 steps. Conversely, whatever proof such a verifier accepts against the root of a map is true of the map.", "quantifier": "every history, version, key preimage, value and byte-concatenating hash function; every (adversarial) ics23 proof, barring hash collisions", "why_tests_cant": "bit order, skip count, prefix/suffix placement and adjacency must agree at every depth", "anchors": ["src/tree/ics23_impl.rs: sparse_merkle_proof_to_ics23_existence_proof, get_with_ics23_proof, ics23_spec"]}
{"id": "C29", "title": "Node statistics are exact", "statement": "For each value set, node_stats reports exactly the number of new nodes, new leaves, stale nodes and stale leaves of that set's batch. num_nodes of the in-memory store counts the readable nodes: a commit raises it by the new nodes of the statistics, and a purge lowers it by one for every stale entry up to the given version.", "quantifier": "every history, every list of value sets", "why_tests_cant": "counters are adjusted incrementally by put_node/delete_node", "anchors": ["src/tree_cache.rs: put_node, delete_node, freeze", "src/writer.rs: NodeStats"]}
{"id": "C30", "title": "Last write wins within a set", "statement": "If a key occurs several times in one value set, only its last occurrence matters for the value, the root and the proof.", "quantifier": "every value set with repetitions, in both APIs", "why_tests_cant": "delete-reinsert inside one version exercises cache removal paths", "anchors": ["src/tree.rs: put_value_sets, batch_put_value_sets", "src/tree_cache.rs: put_value"]}
{"id": "C31", "title": "Proof size bound", "statement": "Proofs returned by get_with_proof, of a present or absent key, have at most 256 siblings, and the lowest sibling is never the empty placeholder. Exactly: the number of siblings is the least d such that at most one key of that version shares its first d bits with the queried key; the leaf of the proof is that key (if any); the sibling at each depth stands for the keys that leave the path of the queried key there, being null, a leaf or an internal node as they are none, one or more.", "quantifier": "every history, version, key", "why_tests_cant": "depends on the deepest shared prefix", "anchors": ["src/tree.rs: get_with_proof", "src/types/proof/definition.rs: verify"]}
{"id": "C32", "title": "Missing versions are reported, not invented", "statement": "For a version whose root node is not stored, get_with_proof and get_with_exclusion_proof return the MissingRootError for that version, get_root_hash errors and get_root_hash_option is None.", "quantifier": "every store, key and version", "why_tests_cant": "all stores", "anchors": ["src/tree.rs: get_with_proof, get_root_node, get_root_hash_option", "src/lib.rs: MissingRootError"]}
{"id": "C33", "title": "NibblePath behaves as a list of nibbles", "statement": "push, pop, last, get_nibble, get_bit, nibbles, bits, num_nibbles and collect on the packed-byte NibblePath agree with the same operations on a plain list of nibbles, and the packed form is unique per list (equal paths are equal structs).", "quantifier": "every sequence of pushes/pops up to 64 nibbles, every index", "why_tests_cant": "odd/even packing over all lengths and contents", "anchors": ["src/types/nibble/nibble_path.rs: push, pop, last, get_nibble, get_bit, bits, nibbles, FromIterator", "src/types/nibble/nibble_path.rs: NibbleIterator, BitIterator"]}
{"id": "C34", "title": "skip_common_prefix and common prefix lengths", "statement": "skip_common_prefix advances both iterators by exactly the longest common prefix and returns its length; common_prefix_bits_len / common_prefix_nibbles_len return the longest common bit / nibble prefix length of two keys.", "quantifier": "every pair of paths / 32-byte keys", "why_tests_cant": "all pairs", "anchors": ["src/types/nibble/nibble_path.rs: skip_common_prefix", "src/bytes32ext.rs: common_prefix_bits_len, common_prefix_nibbles_len"]}
{"id": "C35", "title": "Key bit and nibble views are consistent", "statement": "get_nibble, nibble and iter_bits of a 32-byte key describe the same 256-bit big-endian string; from_bit_iter inverts iter_bits; byte order (KeyHash Ord) is the lexicographic order of nibbles and of bits.", "quantifier": "every pair of 32-byte keys", "why_tests_cant": "2^256 keys", "anchors": ["src/bytes32ext.rs: get_nibble, nibble, iter_bits, from_bit_iter, HashValueBitIterator"]}
{"id": "C36", "title": "NibbleRangeIterator partitions sorted keys", "statement": "On key-sorted input whose keys share their first i nibbles, NibbleRangeIterator yields consecutive, non-empty, exhaustive ranges, one per distinct i-th nibble in increasing order.", "quantifier": "every sorted key list with common prefix, every nibble index", "why_tests_cant": "binary search boundaries over all lengths", "anchors": ["src/types/nibble.rs: NibbleRangeIterator::next"]}
{"id": "C37", "title": "Internal node hashing is the 4-level sparse Merkle rule", "statement": "InternalNode::hash equals the hash of the binary tree over its 16 slots in which a subtree with no child is the placeholder and a subtree whose single child is a leaf is that leaf.", "quantifier": "every set of children (2^16 existence masks x leaf masks x hashes)", "why_tests_cant": "all bitmaps and hashes", "anchors": ["src/node_type.rs: merkle_hash, range_bitmaps, has_only_child, generate_bitmaps"]}
{"id": "C38", "title": "Reads tolerate storage faults by failing, never by lying", "statement": "If a reader returns an error on some lookups, or reports some nodes or values missing, and is otherwise the true store, then every proof, root, leaf-count and iterator call either fails or returns what it returns on the true store; get does so unless a value is reported missing; put_value_sets, put_value_sets_with_proof, batch_put_value_sets and append_value_set do so unless a root node is reported missing (then put_value_sets silently starts from an empty tree).", "quantifier": "every pattern of read faults", "why_tests_cant": "fault patterns are exponential", "anchors": ["src/tree.rs: get_with_proof, insert_at", "src/reader.rs: TreeReader::get_node", "src/node_type.rs: build_sibling"]}
{"id": "C39", "title": "Overwrite API (append_value_set) keeps the map semantics", "statement": "append_value_set at the latest version returns the root of the updated map and its batch makes the updated map readable. (False of the code for delete-all followed by another delete, where the old root is resurrected; and its stale entries name live nodes, so a later purge destroys the tree.)", "quantifier": "every store with a latest version and every value set", "why_tests_cant": "feature-gated path, corner cases", "anchors": ["src/tree.rs: append_value_set", "src/tree_cache.rs: new_overwrite, freeze, delete_node"]}
{"id": "C40", "title": "In-memory store returns the newest value at or below a version", "statement": "put_value accepts versions in non-decreasing order per key (rejecting others) and get_value_option(max, k) returns the value with the greatest version <= max. put_leaf refuses an existing node key and otherwise stores the leaf and its value, changing nothing else.", "quantifier": "every sequence of put_value calls, every query", "why_tests_cant": "all sequences", "anchors": ["src/mock.rs: put_value, get_value_option"]}
{"id": "C41", "title": "A commit touches only nodes next to written paths", "statement": "Every node a put_value_sets call writes for a value set carries that set's version and is the root or lies directly below the path of a key in that set; so does every node it marks stale; a set of insertions marks stale only nodes on the paths of its keys. Subtrees without written keys are shared, not copied.", "quantifier": "every history, every list of value sets", "why_tests_cant": "all histories and key distributions", "anchors": ["src/tree.rs: put, insert_at, insert_at_child", "src/tree_cache.rs: put_node, delete_node, freeze"]}
{"id": "C42", "title": "An interrupted write can be retried", "statement": "Whatever part of an update batch (or any other garbage about versions not yet committed) a crash leaves in the store, every query of every readable version answers as before the crash; calling put_value_sets again returns the same root hashes and the same batch, and writing that batch gives a store that answers like one that never crashed. Restriction: either no leftover root node of the versions being written is visible, or the value sets never delete a key from a map they have just emptied (outside it the retry can return a wrong root or retire a live one: counterexamples proved). batch_put_value_sets needs no restriction.", "quantifier": "every history, value sets, subset of the batch written before the crash, every query", "why_tests_cant": "crash points are subsets of an unbounded batch", "anchors": ["src/tree.rs: put_value_sets, put_value_sets_with_proof, batch_put_value_sets", "src/tree_cache.rs: new, get_node, delete_node, freeze", "src/writer.rs: write_node_batch"]}
{"id": "C43", "title": "Reads concurrent with commits and pruning are consistent", "statement": "A query of a committed version that stays readable while commits and purges run gives the answer it gives at rest, even if each of its storage lookups is answered from a different intermediate state. An iterator over such a version returns all its pairs in order, without errors, whatever commits and purges happen during and between its calls.", "quantifier": "every history, every continuation by commits and purges, every assignment of lookups to intermediate states, every query", "why_tests_cant": "schedules: one state per lookup", "anchors": ["src/tree.rs: get_with_proof, get_range_proof, get_with_exclusion_proof", "src/iterator.rs: next", "src/reader.rs: TreeReader"]}
{"id": "C44", "title": "A restored store can be worked on like any other", "statement": "After a completed restore at version w, every further history of put_value_sets, batch_put_value_sets and purge_stale_nodes succeeds starting at version w+1, and every query of every version from w on (not pruned) is answered as by an ordinary store whose version w has the restored map; further commits return the same root hashes.", "quantifier": "every restored map, chunking, restarts, every later history, version and query", "why_tests_cant": "all snapshots times all later histories", "anchors": ["src/restore.rs: add_chunk_impl, finish_impl", "src/tree.rs: put_value_sets, get_with_proof", "src/mock.rs: purge_stale_nodes"]}
{"id": "C45", "title": "Version 0 is built on a pre-genesis tree", "statement": "A tree present at the pre-genesis version (u64::MAX, e.g. restored there) is the starting point of version 0: put_value_sets at version 0 returns the roots of the restored map after the value sets, and the versions written answer all queries for the updated map. (False of the code in part, proved: a first value set without effect writes no root for version 0 and loses the tree; the values of restored keys are invisible at versions 0 and up; rewriting a restored key cannot be written to the mock store.)", "quantifier": "every map, chunking and restarts of the restore, every list of value sets, every version and key", "why_tests_cant": "all maps times all value sets; the existing unit test only looks at the root key of the cache", "anchors": ["src/tree_cache.rs: new, freeze", "src/types.rs: PRE_GENESIS_VERSION", "src/mock.rs: put_value, get_value_option", "src/tree.rs: put_value_sets, get_with_proof"]}
{"id": "C46", "title": "Verifiers do not panic on untrusted input", "statement": "verify, verify_existence and verify_nonexistence return (Ok or Err) for every proof, root, key and value; so should SparseMerkleRangeProof::verify and UpdateMerkleProof::verify_update. (Proved for the first three. Range verification panics exactly when overflow checks are on and there are more than 256 siblings. verify_update is panic-free on proofs of the shape the library produces, but the genuine proof of one key, presented for the insertion of another that leaves its path above the leaf, makes it panic: with overflow checks always, without them for some inputs.)", "quantifier": "every proof object, root, key, value and update list, honest or hostile, with and without overflow checks", "why_tests_cant": "inputs are attacker-chosen and unbounded", "anchors": ["src/types/proof/definition.rs: SparseMerkleProof::verify, verify_update, check_compute_new_root, compute_new_merkle_path_on_split, SparseMerkleRangeProof::verify"]}
{"id": "C47", "title": "Any backend that keeps the writer contract behaves like the mock store", "statement": "For every store of the user's (not only the mock): if it starts empty, shows every batch in full once write_node_batch has returned (a write may be interrupted and repeated), and a pruning up to version r touches no node other than those recorded as stale since a version <= r, then put_value_sets, put_value_sets_with_proof and batch_put_value_sets succeed and return the same root hashes, proofs and batches as on the mock store, and every query of every readable version gives the same answer, whichever stale nodes are gone, unreadable or still there.", "quantifier": "every backend, history, interruption of writes, subset of stale nodes deleted, version and query", "why_tests_cant": "user-supplied backends and partial pruning are unbounded", "anchors": ["src/reader.rs: TreeReader", "src/writer.rs: TreeWriter, StaleNodeIndex", "src/tree.rs: put_value_sets, batch_put_value_sets, get_with_proof"]}
{"id": "C48", "title": "Contents of an update batch", "statement": "The update returned for value sets committed from version n on has one value entry per version and key written, holding the last write to that key in that set, and no other; every node in it carries one of the versions committed, is not in the store yet and is used by the tree of its own version; every version has its root node in it, with the hash returned; every stale entry names a node of an earlier version that is in the store or the batch and has not been retired before. NodeBatch::merge of two updates is equivalent to writing them one after the other; clear, is_empty, get_node, insert_node, insert_value and extend behave as operations of finite maps.", "quantifier": "every history, every list of value sets (and batch inserts), every pair of batches", "why_tests_cant": "all histories and key distributions", "anchors": ["src/tree.rs: put_value_sets, batch_put_value_sets", "src/tree_cache.rs: freeze", "src/writer.rs: NodeBatch, TreeUpdateBatch, StaleNodeIndex"]}
{"id": "C49", "title": "Borsh encodings are faithful and a byte store works", "statement": "Every type that derives the borsh traits (keys, nodes, proofs, batches) is decoded to what was encoded, only encodings are decoded, and no two values share one. The bytes are those of the borsh layout of the declared fields and variants, so that other implementations can read them. Every node of an update batch and its key can be encoded, and every served membership, range or update proof can be, as long as there are fewer than 2^64 versions and writes. A whole TreeUpdateBatch (within the length limits of borsh) is read back as it was written, its content determines its bytes, and batch_put_value_sets gives the same bytes as put_value_sets. A store that keeps the encoded nodes under the encoded keys therefore serves every history: all queries of readable versions and all further commits behave as on the mock store, under interrupted writes and partial pruning. (Decoding checks no invariants: some bytes decode to paths and nodes on which other functions panic.)", "quantifier": "every value of every encodable type, every byte string, every history, interruption and pruning", "why_tests_cant": "unbounded values and byte strings; the unit tests encode a few random nodes", "anchors": ["src/node_type.rs: NodeKey, Node, InternalNode, Children, Child, LeafNode", "src/types/nibble/nibble_path.rs: NibblePath", "src/types/proof/definition.rs: SparseMerkleProof, UpdateMerkleProof, SparseMerkleRangeProof", "src/writer.rs: NodeBatch, StaleNodeIndex, TreeUpdateBatch", "Cargo.toml: borsh"]}
{"id": "C50", "title": "A store can be rolled back to an earlier version", "statement": "Take a store after any history and a version v that is still readable, and delete every record made for a later version: its nodes, its values and the retirements recorded since. Then every further history of put_value_sets, batch_put_value_sets and purge_stale_nodes succeeds from version v+1 on, every query of every version not pruned is answered as by a store that never saw the deleted versions, and further commits get the same root hashes on both.", "quantifier": "every history, readable version, later history, version, key and query", "why_tests_cant": "all pairs of histories and all rollback points", "anchors": ["src/tree.rs: put_value_sets, batch_put_value_sets, get_with_proof", "src/tree_cache.rs: new, freeze", "src/mock.rs: purge_stale_nodes", "src/writer.rs: StaleNodeIndex"]}
{"id": "C51", "title": "New versions can be built on any retained version", "statement": "On any readable version v - not only the last - put_value_sets, put_value_sets_with_proof and batch_put_value_sets called with first version v+1 return the canonical roots of the map of v with the value sets applied, and update proofs that verify; whatever the store holds of later versions has no influence, and the result is the one returned when v was the last version. Restriction (not for the batch API): no write deletes a key from a map that the same call has emptied; outside it the call can return the root of a map containing keys of the later version (counterexample proved).", "quantifier": "every history with pruning, readable version, list of value sets, content of later versions", "why_tests_cant": "all histories times all base versions times all leftovers", "anchors": ["src/tree.rs: put_value_sets, put_value_sets_with_proof, batch_put_value_sets", "src/tree_cache.rs: new, get_node_option, freeze"]}
{"id": "C52", "title": "Writes at a wrong version are refused", "statement": "A write at a version other than the next one is refused. (False of the code, proved: put_value_sets at a version whose predecessor is missing succeeds and builds on the empty map, after which get and get_with_proof disagree; a set of deletions only then writes a null root for the predecessor and none for the version asked for. Proved: batch_put_value_sets refuses a gap; the mock store without allow_overwrite refuses versions it has.)", "quantifier": "every history, version and list of value sets", "why_tests_cant": "all histories and versions", "anchors": ["src/tree.rs: put_value_sets, batch_put_value_sets", "src/tree_cache.rs: new, freeze", "src/mock.rs: write_node_batch"]}
{"id": "C53", "title": "Proofs are unique", "statement": "For any root hash - whether or not it comes from a tree - and any key, at most one SparseMerkleProof is accepted by verify (verify_existence, verify_nonexistence), and it supports at most one claim: a root cannot prove two values of a key, nor both presence and absence. In particular the proof returned by get_with_proof is the only one accepted for the root of that version. Likewise for range proofs, including the left siblings (except, without overflow checks, for those of more than 256 siblings: each of them is accepted, exactly for the root of the tree with that one leaf). For ICS23 proofs the same holds against the root of any map (an ICS23 path is not tied to its key, so a root with no map behind it can have two): an accepted existence proof is the one get_with_ics23_proof returns, and an accepted non-existence proof names exactly the true neighbours that exist. All barring hash collisions among the strings involved.", "quantifier": "every root digest, key, pair of proofs and claimed values", "why_tests_cant": "all adversarial proofs and roots", "anchors": ["src/types/proof/definition.rs: SparseMerkleProof::verify, SparseMerkleRangeProof::verify", "src/tree.rs: get_with_proof"]}
{"id": "C54", "title": "Restore survives a crash inside a chunk's write", "statement": "If the process stops while add_chunk is writing, so that only part of the chunk's nodes and values has been stored, JellyfishMerkleRestore::new on the same store and the pairs above the rightmost stored leaf complete to the same tree. (False for arbitrary parts and for the mock store, which stores nodes before values and shorter paths first: proved that values or leaves can be lost although finish succeeds with the expected root, and that the restoration can get stuck. Proved, for any number of such crashes: it holds if the store keeps the values of a batch before its nodes, and its nodes from left to right with children before their parent.)", "quantifier": "every map, chunking, sequence of crash points inside and between writes", "why_tests_cant": "all crash points and all partial writes", "anchors": ["src/restore.rs: new, recover_partial_nodes, add_chunk_impl", "src/writer.rs: TreeWriter::write_node_batch", "src/mock.rs: write_node_batch, get_rightmost_leaf"]}
{"id": "C55", "title": "An iterator can be called again after an error", "statement": "When a call of the iterator's next returns an error because a read failed or something was reported missing, nothing is lost: whatever the sequence of such failures, no call panics, the pairs returned are in order a first part of what the iterator yields on the sound store, None is returned only after the last of them, and once reads succeed the iterator yields exactly the rest. (False of the code when the map has exactly one key: proved that an error while its value is read makes the iterator end without the pair. Proved in all other cases.)", "quantifier": "every history, readable version, start key or index, and sequence of calls with arbitrary read failures during each", "why_tests_cant": "all schedules of read failures", "anchors": ["src/iterator.rs: JellyfishMerkleIterator::next, new, new_by_index"]}
{"id": "C56", "title": "Queries about pruned versions fail or tell the truth", "statement": "After any history of commits and purges, for every version ever committed - pruned or not - get returns the value in the map of that version, and whenever get_root_hash, get_leaf_count, get_with_proof, get_range_proof, get_with_exclusion_proof, get_with_ics23_proof or an iterator call succeeds, its result is the true one (the one returned had nothing been pruned); an iterator leaves nothing out and ends only after the last pair. get_with_proof returns MissingRootError exactly when the version's root has been purged. (A failing get_with_proof can also panic: proved for a root that leaks, see C12.)", "quantifier": "every history with purges, every committed version, key, start key or index, number of iterator calls", "why_tests_cant": "all histories with pruning, including versions that are only partly deleted", "anchors": ["src/tree.rs: get_with_proof, get_range_proof, get_with_exclusion_proof, get_root_hash, get_leaf_count", "src/iterator.rs: new, next", "src/mock.rs: purge_stale_nodes"]}
{"id": "C57", "title": "Bounded work", "statement": "A successful get_with_proof depends on at most 2n+1 nodes of the store, n being the number of siblings in the proof it returns (the least depth at which at most one key is left around the queried one, see C31), and on one value. An update of n writes (put_value_sets, with or without proofs, or append_value_set; with batch_put_value_sets on a store made by a history) stores at most 66n nodes plus one per version, retires at most 66n nodes and stores at most n value entries; the same holds version by version in the reported node_stats. Both factors 66 are reached.", "quantifier": "every reader (whatever it answers), every key, version and list of value sets", "why_tests_cant": "the worst case is two keys sharing 63 nibbles; the bound must hold for every tree and every answer of the storage", "anchors": ["src/tree.rs: get_with_proof, put_value_sets, insert_at, insert_at_leaf_node, insert_at_internal_node", "src/node_type.rs: get_child_with_siblings_helper, build_sibling", "src/tree_cache.rs: put_node, delete_node, freeze"]}
{"id": "C58", "title": "A light client follows a full node", "statement": "A client that keeps nothing but a root hash and calls verify_update on each (value set, new root, proofs) that put_value_sets_with_proof produced accepts everything a full node sends, whatever the node commits and prunes in between; it then holds exactly what get_root_hash answers, and accepts the node's get_with_proof answer for every key. Conversely, whatever it is sent and by whom, if it accepts, its root hash is that of the map after exactly those updates, and it accepts an existence or non-existence claim only if it is true of that map - barring hash collisions among the strings actually hashed, and for deletes that come with a leaf or are of absent keys (see C17 for why this is needed).", "quantifier": "every history before and after the client joins, every list of messages from anybody, every key and proof", "why_tests_cant": "all histories composed over many versions, and all adversarial messages", "anchors": ["src/tree.rs: put_value_sets_with_proof, get_with_proof, get_root_hash", "src/types/proof/definition.rs: UpdateMerkleProof::verify_update, SparseMerkleProof::verify", "src/mock.rs: purge_stale_nodes"]}
{"id": "C59", "title": "What is stored", "statement": "What the store holds is determined by the value sets and by how far it has been pruned: below the roots, a node is stored under (version, path) exactly when the tree of some retained version has a node at the path (a key starts with it, and its parent path does not single out a key) and the version is the last whose set wrote to a key below the path or made the node appear; its content - leaf, or children with their hashes, versions and leaf counts - is what the map says. The stale index below the roots lists exactly the nodes so replaced or removed after the horizon. The value history of a key lists exactly what each version last wrote to it. So two clients that write the same sets, whatever the grouping into calls, the insertion interface and the times at which they prune, end with the same nodes below the roots, the same roots of retained versions, the same stale entries below the roots and the same value histories.", "quantifier": "every history of commits through either interface and purges, every node key and node, every pair of histories with the same sets and horizon", "why_tests_cant": "all histories and all pairs of histories; the renewal rule must be exact for every node of every version", "anchors": ["src/tree.rs: put_value_sets, batch_put_value_sets, insert_at, batch_insert_at", "src/tree_cache.rs: put_node, delete_node, freeze", "src/mock.rs: write_tree_update_batch, put_value, purge_stale_nodes"]}
{"id": "C60", "title": "State sync from a live source", "statement": "A receiver that fetches one version of a running source chunk by chunk - each chunk through a fresh iterator resumed at the last key it has and the get_range_proof of the chunk's last key, read from whatever state the source is in by then - and feeds them to add_chunk, never meets an error, however the fetches interleave with the source's commits and purges (as long as the source keeps the version) and with restarts of the receiver through JellyfishMerkleRestore::new and get_rightmost_leaf. Once the source has nothing more to send, finish succeeds and the receiver answers every query about the version as the source does; if it keeps the version number it can then replay the value sets the source has committed since, in any grouping into calls and with purges of its own, and answers every query about every version both keep as the source does.", "quantifier": "every history of the source before and during the sync, every chunk size, every interleaving, every number and place of restarts", "why_tests_cant": "all interleavings of three parties' steps", "anchors": ["src/restore.rs: new, add_chunk_impl, finish_impl", "src/iterator.rs: new, next", "src/tree.rs: get_range_proof, put_value_sets, batch_put_value_sets", "src/mock.rs: get_rightmost_leaf, purge_stale_nodes"]}
{"id": "C61", "title": "The map an application sees", "statement": "An application that names its keys by byte strings and hands KeyHash::with(key) to every call sees a versioned map from byte strings to values: get and get_with_proof answer its last write to the key, the proof verifies, the iterator yields exactly its pairs under their key hashes; two applications with the same map have the same root hash whatever their histories, and equal root hashes mean equal maps; an accepted existence proof (native or ics23) for (KeyHash::with(key), value) means the application stored exactly value under exactly key, and an accepted non-existence proof means its map lacks key - as long as no two of the byte strings involved have the same digest.", "quantifier": "every history of writes of byte-string keys through either interface and purges, every key, every proof from anybody, every pair of histories", "why_tests_cant": "all histories, byte strings and adversarial proofs; two hash levels (of keys and of nodes) meet here", "anchors": ["src/lib.rs: KeyHash::with, ValueHash::with, SimpleHasher::hash", "src/tree.rs: get, get_with_proof, get_root_hash", "src/types/proof/definition.rs: verify_existence, verify_nonexistence", "src/tree/ics23_impl.rs: get_with_ics23_proof", "src/iterator.rs: new, next"]}
{"id": "C62", "title": "Printed forms identify what they print", "statement": "The log line of KeyHash::with shows the key as a Rust byte string literal that denotes exactly those bytes, in printable ASCII on one line, so different keys are logged differently; the Debug forms of key, value and root hashes are the kind's name and 64 hexadecimal digits, alike only for equal hashes; the Debug form of a nibble path is one hexadecimal digit per nibble, alike only for equal paths.", "quantifier": "every byte string, every pair of hashes, every pair of nibble paths", "why_tests_cant": "all byte strings, including quotes, backslashes, control and non-ASCII bytes in any order", "anchors": ["src/lib.rs: EscapedByteSlice, KeyHash, ValueHash, RootHash (Debug)", "src/types/nibble/nibble_path.rs: NibblePath (Debug)", "src/types/nibble.rs: Nibble (LowerHex)"]}
{"id": "C63", "title": "How large the store gets", "statement": "At any point of a history the store holds at most 66 nodes per write of a version's set and one more of each version, hence at most 66 nodes per write ever made plus one per version; with pruning, at most 64 nodes per key of the oldest retained version, 66 per write since, and one root per version ever committed - only one for all versions given up if each of them changed something and left a key; at most 66 stale entries per write since the oldest retained version wait, always fewer than there are nodes; at most one value entry per write is kept. Pruning does not bound the roots of empty versions: n of them stay n nodes.", "quantifier": "every history of writes through either interface and purges, every number of versions", "why_tests_cant": "the bound must hold for every history length, key set and pruning pattern", "anchors": ["src/tree.rs: put_value_sets, batch_put_value_sets", "src/tree_cache.rs: put_node, delete_node, freeze", "src/mock.rs: write_tree_update_batch, purge_stale_nodes, num_nodes"]}
{"id": "C64", "title": "Preparing an update and pruning do not disturb each other", "statement": "put_value_sets, put_value_sets_with_proof and batch_put_value_sets only read the store; the caller writes the returned batch later. While such a call runs, or between the call and the write, the store may be pruned any number of times: however the lookups of the call are spread over the states in between, it returns the roots, proofs and batch it would have returned before (and after) the pruning; the write is accepted, and the store is then the one of the history in which the commit came after the pruning. Pruning up to a committed version and committing the next versions can be done in either order: both succeed, and the store holds the same nodes, stale entries and values afterwards.", "quantifier": "every history, every list of value sets, every sequence of purges, every distribution of the lookups over the states in between", "why_tests_cant": "all interleavings of a computation's reads with a pruner", "anchors": ["src/tree.rs: put_value_sets, put_value_sets_with_proof, batch_put_value_sets", "src/mock.rs: purge_stale_nodes, write_tree_update_batch"]}
{"id": "C65", "title": "A late write is refused without effect", "statement": "An update was prepared for the next version, and before it was written somebody else committed that version (and perhaps more, and pruned): then writing it fails, and a write that fails has no effect on what any retained version answers. (False of the code. Proved: in the store without allow_overwrite it is refused as long as the version is retained, also when the update was computed while the others were at work; a failing write leaves some of its entries and nothing else, and never affects a version before its first one; what a refused late write leaves is exactly that the root node of the version has been replaced, so get_root_hash answers the refused root. Proved counterexamples: after that, the committed key is missing from this and all later versions; once the version has been pruned, the late write is accepted, get and get_with_proof of the latest version disagree and every purge fails; with allow_overwrite a late write of version 0 is accepted and mixes the two updates.)", "quantifier": "every history before the update is prepared and while it waits, every list of value sets through either interface", "why_tests_cant": "all interleavings of two writers and a pruner, and every point at which a write can fail", "anchors": ["src/mock.rs: write_tree_update_batch, write_node_batch, put_value, put_stale_node_index, purge_stale_nodes, MockTreeStoreInner", "src/tree.rs: put_value_sets, put_value_sets_with_proof, batch_put_value_sets"]}
{"id": "C66", "title": "Results do not depend on hash-table iteration order", "statement": "The cache of an update call and the in-memory store keep their data in hash tables whose iteration order differs from process to process. Two processes that perform the same operations nevertheless get the same root hashes, proofs, statistics and batches, or the same errors, from every update call, their stores hold the same records, and every query gives the same answer or the same error; restarting a restoration recovers the same state. (get_rightmost_leaf and with it append_value_set are independent of the order as long as no two stored leaves have the same key. Proved to be false otherwise: after two commits of the greatest key, whether append_value_set accepts the latest version is decided by the order of the table.)", "quantifier": "every history through either interface, every order of every table at every point of the history, every query", "why_tests_cant": "a test run uses a handful of hasher seeds; all orders of tables of any size have to agree", "anchors": ["src/tree_cache.rs: TreeCache, FrozenTreeCache, freeze", "src/tree.rs: put_value_sets, put_value_sets_with_proof, append_value_set, batch_put_value_sets", "src/mock.rs: MockTreeStoreInner, get_rightmost_leaf, write_node_batch, purge_stale_nodes", "src/restore.rs: new, recover_partial_nodes"]}
{"id": "C67", "title": "Restoring into any storage backend, also after failed chunk writes", "statement": "Restoration does not depend on the backend: over any store that writes the batches it is handed and finds the rightmost of its leaves, an honest sender's chunks pass all checks, a restart after completely written chunks succeeds, and when everything has been sent, finish completes a tree that answers every query about the new version like the source; until then every version is reported missing. If the backend fails to write a chunk, leaving any part of it, and the receiver lives on, the sender goes on with the next pairs: nothing is lost, the next call (or finish) writes everything again. Sending the same chunk again is refused. (The exception is a map with a single pair: after a failed write of its chunk, finish panics.)", "quantifier": "every history and retained version of the source, every backend, every chunking, every mixture of restarts and failed writes, every part of a chunk a failed write may leave", "why_tests_cant": "tests use the in-memory store, whose writes do not fail; all backends, partitions and failure points have to be covered", "anchors": ["src/restore.rs: JellyfishMerkleRestore, new, add_chunk, add_chunk_impl, finish, finish_impl, freeze", "src/writer.rs: TreeWriter::write_node_batch", "src/reader.rs: TreeReader::get_rightmost_leaf"]}
{"id": "C68", "title": "JSON round trip", "statement": "Every type of the crate that derives the serde traits is read back from its JSON text (serde_json) as it was written: hashes, nibbles, node keys, nodes and all parts of nodes, existence, update and range proofs. The text is the compact JSON object with the declared field and variant names in the declared order, so that other implementations can read it. Every proof has a text, and so has every node and node key of every update. Different values have different texts. Reading tolerates fields in any order, unknown fields and the array form of a struct, refuses duplicate fields and trailing text, reads a proof whose leaf is left out as one without a leaf, and requires the other fields. Reading checks none of the invariants of the types (witnesses: a path whose nibbles cannot be iterated, a nibble of 16 or more).", "quantifier": "every value of every such type, every order of the fields, every unknown field", "why_tests_cant": "the tests round-trip one proof of each kind; all values of all types and all variants of their texts have to be covered", "anchors": ["src/lib.rs: RootHash, KeyHash, ValueHash", "src/node_type.rs: NodeKey, NodeType, Child, Children, InternalNode, LeafNode, Node", "src/types/proof/definition.rs: SparseMerkleProof, UpdateMerkleProof, SparseMerkleRangeProof", "src/types/proof.rs: SparseMerkleNode, SparseMerkleInternalNode, SparseMerkleLeafNode", "src/types/nibble/nibble_path.rs: NibblePath", "src/types/nibble.rs: Nibble"]}
{"id": "C69", "title": "A node on any backend, from state sync on", "statement": "A node takes over a retained version of a source by restoration into an empty store of any kind (chunks, restarts and failed writes as in C67) and then goes on committing and pruning on that store; writes may be interrupted and repeated, and a pruning may delete any part of what it may delete. No such node ever gets stuck, and each version it keeps answers every query like an ordinary history that wrote the restored pairs at that version and then did the same; further commits have the same root hashes. A node that keeps the source's version number and replays what the source has committed since, in any grouping and with prunings of its own, answers every query about every version both keep as the source does.", "quantifier": "every history and retained version of the source, every backend, every restoration, every later history with interrupted writes and partial prunings", "why_tests_cant": "the tests restore into the in-memory store and do not work on with it; all backends, restorations and later histories have to be covered", "anchors": ["src/restore.rs: JellyfishMerkleRestore, new, add_chunk, finish", "src/tree.rs: put_value_sets, put_value_sets_with_proof, batch_put_value_sets, get, get_with_proof", "src/writer.rs: TreeWriter::write_node_batch, StaleNodeIndex", "src/reader.rs: TreeReader"]}
{"id": "C70", "title": "Restoring over a store that already holds something", "statement": "A restoration started with new_overwrite works over a store that holds anything: other versions, or what earlier attempts at the same version left. No chunk of an honest sender is refused, whatever writes fail on the way and however often the receiver is lost and started again from the beginning; when finish has succeeded, the root hash, proofs, leaf count, range, exclusion and ics23 proofs and iterations of the restored version are those of the source, and so is get for every key of the map; nodes of all other versions and values at all earlier versions are as they were, so earlier versions of the store's own history answer every query as before; until finish the root of the restored version is what it was. In particular starting again with new_overwrite repairs a restoration interrupted anywhere in an empty store. get looks at the value history only, so a key that the restored map does not contain still shows the value the store held before. A node that works on over such a store commits version after version without failing, as long as it never deletes from an empty map: root hashes and update proofs are those of the maps, every version from the restored one on answers tree queries like a store with that history, and earlier versions stay as they were. If the store held nothing above the restored version and no stale-node index named a node of that version or a later one, the node may also delete from an empty map, commit in batches and prune, with a backend that deletes any part of what it may: every version not given up answers tree queries like a store with that history, the next commit succeeds with the same root hashes, and the store's older versions keep answering until the prunings reach them. Starting with new instead fails on every store of a history nothing of which was given up and that ever wrote something (with an error if the rightmost leaf is a whole tree, with a panic otherwise); after prunings it may succeed and then refuses all chunks that begin at or below an old key (witness).", "quantifier": "every history and retained version of the source, every store content, every sequence of chunk sizes, failed or partial writes and fresh starts, every earlier history of the target", "why_tests_cant": "the tests call new_overwrite once, over a store with one earlier version, and compare a few queries; all previous contents and interruptions have to be covered", "anchors": ["src/restore.rs: JellyfishMerkleRestore, new_overwrite, new, add_chunk, finish", "src/tree.rs: get, get_with_proof, get_root_hash", "src/reader.rs: TreeReader", "src/writer.rs: TreeWriter"]}
{"id": "C71", "title": "The order of keys and pruning by scanning", "statement": "Node keys and stale-node entries have a strict total order: node keys by version, then by the length of the path, then nibble by nibble; stale-node entries by the version since when they are stale, then by node key. So all keys of a version come before those of later versions and the ancestors of a node of a version before the node; keys of the map are ordered like their nibbles. A scan of the stale-node index in ascending order up to the first entry that is stale only since a later version meets exactly the entries a pruning may delete, and deleting their nodes in that or any other order leaves the same store. (The borsh bytes of keys do not have this order: integers are little endian.)", "quantifier": "all keys and entries, every history, every pruning version, every order of deletion", "why_tests_cant": "the order and its agreement with the pruning condition have to hold for all keys; the tests prune small histories", "anchors": ["src/node_type.rs: NodeKey", "src/writer.rs: StaleNodeIndex", "src/types/nibble/nibble_path.rs: NibblePath", "src/lib.rs: KeyHash", "src/mock.rs: purge_stale_nodes"]}
