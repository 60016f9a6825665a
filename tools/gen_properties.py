#!/usr/bin/env python3
"""Writes /verif/properties.jsonl (one JSON object per line)."""
import json, os
P = []
def p(title, statement, quantifier, why, anchors):
    P.append(dict(id=f"C{len(P)+1:02d}", title=title, statement=statement, quantifier=quantifier,
                  why_tests_cant=why, anchors=anchors))

T="src/tree.rs"; N="src/node_type.rs"; C="src/tree_cache.rs"; D="src/types/proof/definition.rs"
NP="src/types/nibble/nibble_path.rs"; NB="src/types/nibble.rs"; B="src/bytes32ext.rs"; M="src/mock.rs"
I="src/iterator.rs"; R="src/restore.rs"; ICS="src/tree/ics23_impl.rs"; PR="src/types/proof.rs"; W="src/writer.rs"; RD="src/reader.rs"

p("Versioned map semantics of commit and get",
  "After any history of committed value sets, get(k, v) returns exactly the value of the last write to k at a version <= v (None if that write was a deletion or there was none).",
  "every history of value sets (inserts, overwrites, deletes, duplicates, empty sets), every key, every version",
  "the set of histories is infinite; the answer depends on every earlier write, including deletions and no-ops",
  [f"{T}: put_value_sets, get", f"{C}: TreeCache::put_value, freeze", f"{M}: put_value, get_value_option"])
p("get_with_proof agrees with the map",
  "For every readable version, get_with_proof(k, v) succeeds and its value equals the map's value for k at v; it never reports a present key as absent or vice versa.",
  "every history, every readable version, every key (present or absent)",
  "needs the shape of the whole stored tree to be right for every key set, including shared prefixes of any length up to 64 nibbles",
  [f"{T}: get_with_proof, insert_at, insert_at_internal_node, insert_at_leaf_node", f"{N}: get_only_child_with_siblings"])
p("Root hash is a function of the map only (history independence)",
  "The root hash returned by put_value_sets for a version, and get_root_hash of that version, equal the canonical sparse-Merkle root of the map at that version; hence two histories (any order of inserts, deletes, overwrites, any batching) that reach the same map have the same root.",
  "every pair of histories, every hash function",
  "requires that splitting, coalescing on delete and 16-way node hashing agree for all key sets and orders",
  [f"{T}: put_value_sets, get_root_hash", f"{N}: InternalNode::hash, merkle_hash", f"{C}: freeze"])
p("Completeness of existence proofs",
  "If key k has value x at version v, the proof returned by get_with_proof(k, v) passes verify_existence against get_root_hash(v).",
  "every history, version, key present at that version, hash function",
  "must hold for every tree shape and depth 0..256 of the leaf",
  [f"{T}: get_with_proof", f"{D}: SparseMerkleProof::verify"])
p("Completeness of non-existence proofs",
  "If key k is absent at version v, the proof returned by get_with_proof(k, v) passes verify_nonexistence against get_root_hash(v), whether the search ends at an empty slot, at another leaf, or in the empty tree.",
  "every history, version, absent key, hash function",
  "the terminating leaf may sit at a different nibble than the queried one; all such configurations must verify",
  [f"{T}: get_with_proof", f"{D}: SparseMerkleProof::verify", f"{N}: has_only_child"])
p("Soundness of existence verification",
  "If verify_existence(root of a tree, k, x) accepts any proof whatsoever, then the tree maps k to x, unless the hash function collides (or hits the placeholder) on the strings hashed by the tree and by the verifier.",
  "every proof object (including adversarial ones), every map, key, value and hash function",
  "quantifies over all adversarial proofs; tests only try a handful of corruptions",
  [f"{D}: SparseMerkleProof::verify, verify_existence", f"{PR}: SparseMerkleInternalNode::hash, SparseMerkleLeafNode::hash"])
p("Soundness of non-existence verification",
  "If verify_nonexistence(root of a tree, k) accepts any proof whatsoever, then k is absent from the tree, unless the hash function collides on the strings involved.",
  "every proof object, every map, key and hash function",
  "quantifies over all adversarial proofs",
  [f"{D}: SparseMerkleProof::verify, verify_nonexistence"])
p("Root hash binds the map",
  "Two maps with equal root hashes are equal (keys and value hashes), unless the hash function collides on the strings hashed by the two trees.",
  "every pair of maps and hash function",
  "quantifies over all pairs of maps",
  [f"{PR}: SparseMerkleInternalNode::hash, SparseMerkleLeafNode::hash, LEAF_DOMAIN_SEPARATOR, INTERNAL_DOMAIN_SEPARATOR"])
p("Committed versions are immutable",
  "Committing further value sets never changes what any earlier readable version returns: root hash, get, get_with_proof (value and proof), leaf count; no stored node is overwritten.",
  "every history, every later commit, every earlier version and key",
  "needs node keys of the new version to be fresh for all tree shapes and all operation mixes in one version",
  [f"{T}: put_value_sets", f"{C}: put_node, delete_node, freeze", f"{M}: write_node_batch"])
p("Pruning safety",
  "purge_stale_nodes(r), interleaved anywhere in a history, leaves every version v >= r (up to the latest) fully readable with unchanged roots, values and proofs, and leaves the tree ready for further commits.",
  "every history of commits and purges, every r, every version >= r, every key",
  "a wrong stale entry shows only when a shared subtree is reached from a later version",
  [f"{C}: delete_node, freeze", f"{M}: purge_stale_nodes", f"{T}: insert_at_internal_node"])
p("Stale index entries are exact and unique",
  "Each stale index entry with stale_since_version v names a stored node of an earlier version that no readable version from v on can reach; below the root the entries of version v are exactly the nodes reachable at v-1 and not at v; no node is ever entered twice; purge_stale_nodes therefore never fails with 'non-existent node' and commit never fails with 'Duplicated retire log'.",
  "every history of commits and purges",
  "uniqueness is a property of the whole history",
  [f"{C}: delete_node, freeze", f"{M}: put_stale_node_index, purge_stale_nodes"])
p("Pruning completeness (no leaked nodes)",
  "After purge_stale_nodes(r) every stored node below the root belongs to some version >= r; a set that changes the root hash of a non-empty tree retires the previous root. For root nodes, over a whole history: a call retires, for each of its sets that has an effect (stores a value or removes a present key) on a map that is not empty, exactly the root it was working from (that of the last version before with an effect, or the one before the call), and a root is stored exactly until a purge reaches that version. (So the code leaks: the root of an empty map, and the root before a set without effect committed by its own call, are never deleted.)",
  "every history, every r",
  "a leak is invisible to functional tests",
  [f"{T}: insert_at (Node::Null case)", f"{C}: freeze"])
p("Commit never fails or panics on a well-formed store",
  "On a store produced by any history, put_value_sets returns Ok: none of 'already exists in NodeBatch', 'Node gets stale twice', 'Ran out of nibbles', 'Null node exists for non-root node', the InternalNode::new asserts or the leaf counter underflow can fire.",
  "every history, every list of value sets (any keys, duplicates, deletes), first_version = latest+1, no u64 overflow",
  "panics hide in rare shapes (deep shared prefixes, delete-reinsert within one version)",
  [f"{T}: put, insert_at*, create_leaf_node", f"{C}: put_node, delete_node, freeze", f"{N}: InternalNode::new"])
p("One multi-set call equals consecutive calls",
  "put_value_sets([s1..sn], v) returns the same root hashes and yields the same readable versions as n single-set calls at v, v+1, ... each committed before the next.",
  "every store produced by a history, every list of value sets",
  "the in-memory frozen cache and the storage must be interchangeable for every shape",
  [f"{T}: put_value_sets, put_value_set", f"{C}: get_node_option, freeze"])
p("Batch API agrees with the sequential API",
  "batch_put_value_sets returns the same root hashes as put_value_sets with the same (deduplicated, last wins) sets, and its batch makes the same maps readable, for non-empty sets. Precomputed node hashes handed to it change nothing, neither what is returned nor what is stored, as long as they are right. Wrong ones are trusted and give wrong roots, but never wrong values, and they change nothing that is read at older versions.",
  "every store produced by a history, every list of non-empty value sets (keys in any order, duplicates allowed)",
  "two different algorithms (recursive partition vs. one-by-one insertion) must agree on all inputs",
  [f"{T}: batch_put_value_sets, batch_insert_at, batch_create_subtree, batch_create_subtree_with_existing_leaf", f"{NB}: NibbleRangeIterator"])
p("Update proofs are complete",
  "The proofs returned by put_value_sets_with_proof verify: verify_update(old root, new root, updates) accepts for each value set, for inserts, overwrites, splits, deletes with and without coalescing, and no-op deletes.",
  "every store produced by a history, every value set, hash function",
  "the verifier recomputes the new root from the old path in many shape-dependent cases",
  [f"{T}: put_value_sets_with_proof", f"{D}: check_compute_new_root, compute_new_merkle_path_on_split, verify_update"])
p("Update verification is sound",
  "If verify_update(root of m, new root, updates) accepts, then the new root is the root of m with the updates applied, absent hash collisions. (False of the code: a delete is accepted with an empty proof for a key that exists; with overflow checks off an insert is accepted against an unrelated leaf.)",
  "every adversarial proof list, map, update list",
  "quantifies over adversarial proofs",
  [f"{D}: UpdateMerkleProof::verify_update, check_compute_new_root, compute_new_merkle_path_on_split"])
p("No-op sets keep the root and still create a version",
  "A value set that changes nothing (empty, or deletes only absent keys) leaves the root hash unchanged, and the new version is readable.",
  "every store produced by a history, every no-op set",
  "includes root-missing and all-deleted corner cases",
  [f"{C}: freeze", f"{T}: insert_at"])
p("Leaf count is exact",
  "get_leaf_count(v) equals the number of keys present at version v.",
  "every history, every readable version",
  "counts are maintained incrementally through splits and coalescing",
  [f"{T}: get_leaf_count", f"{N}: InternalNode::sum_leaf_count, Child::leaf_count"])
p("Iterator yields exactly the sorted tail",
  "JellyfishMerkleIterator::new(reader, v, start) yields, without error, exactly the key/value pairs of version v with key >= start, in strictly increasing key order, each once, then ends.",
  "every history, readable version, start key",
  "stack positioning depends on where start falls relative to every existing key",
  [f"{I}: JellyfishMerkleIterator::new, next, cleanup_stack, NodeVisitInfo"])
p("Iterator by index",
  "JellyfishMerkleIterator::new_by_index(reader, v, i) yields exactly the pairs of version v from the i-th smallest key on.",
  "every history, readable version, index",
  "relies on leaf counts at every node",
  [f"{I}: new_by_index, skip_leaves"])
p("Range proofs are complete and sound",
  "get_range_proof(k, v) together with the left sibling hashes verifies against the root; and SparseMerkleRangeProof::verify accepts only if the given leaf is in the tree, absent collisions.",
  "every map, present key, adversarial proof, hash function",
  "quantifies over tree shapes and adversarial proofs",
  [f"{T}: get_range_proof", f"{D}: SparseMerkleRangeProof::verify"])
p("Restore reproduces the tree",
  "Feeding all key/value pairs of a version that has at least one key in increasing order, in any chunking, with the range proofs of get_range_proof, every add_chunk succeeds and after finish the target store holds exactly the canonical tree: same root hash, values, proofs. (A version without keys cannot be restored: proved that finish panics.)",
  "every non-empty map, every chunking, version, hash function",
  "freezing of partial nodes depends on every pair of neighbouring keys",
  [f"{R}: add_chunk_impl, add_one, insert_at_leaf, freeze, verify, finish_impl"])
p("Restore accepts only authentic chunks",
  "If the expected root is the root of a map m and add_chunk returns Ok, then the pairs received so far are exactly the pairs of m with key up to the last received key, absent collisions; on error nothing is written to the store.",
  "every sequence of (adversarial) chunks and proofs",
  "adversarial input",
  [f"{R}: add_chunk_impl, verify, compute_left_sibling_impl", f"{D}: SparseMerkleRangeProof::verify"])
p("Restore survives a crash at any chunk boundary",
  "If the process stops after any number of accepted chunks, JellyfishMerkleRestore::new on the same store recovers a state from which feeding the remaining keys (those above the rightmost stored leaf) completes to the same tree.",
  "every map, chunking and crash point",
  "recovery reads back whatever frontier happened to be frozen",
  [f"{R}: new, recover_partial_nodes, freeze_previous_leaf", f"{M}: get_rightmost_leaf"])
p("finish certifies the expected root",
  "If finish returns Ok the restored root hash equals expected_root_hash. (False of the code: finish performs no check, so finishing early silently stores a different root.)",
  "every chunk sequence",
  "needs every early-finish point",
  [f"{R}: finish_impl"])
p("Exclusion proofs name the true neighbours",
  "For an absent key in a non-empty tree, get_with_exclusion_proof returns the greatest smaller key and the least greater key of that version (None exactly when there is none), each with a verifying existence proof.",
  "every history, readable version, absent key",
  "neighbour search pops and descends along arbitrary shapes",
  [f"{T}: get_with_exclusion_proof, get_bounding_path, search_for_closest_node, search_closest_extreme_node, get_extreme_key_hash"])
p("ICS23 proofs are accepted by an ics23 verifier exactly when they should be",
  "get_with_ics23_proof returns, for a present key, its value and an existence proof that an ics23 verifier using ics23_spec accepts against the root hash of that version; for an absent key of a non-empty map, a non-existence proof naming the true neighbours that it accepts. Within the limits of the format: non-empty keys and values, at most 64 steps. Conversely, whatever proof such a verifier accepts against the root of a map is true of the map.",
  "every history, version, key preimage, value and byte-concatenating hash function; every (adversarial) ics23 proof, barring hash collisions",
  "bit order, skip count, prefix/suffix placement and adjacency must agree at every depth",
  [f"{ICS}: sparse_merkle_proof_to_ics23_existence_proof, get_with_ics23_proof, ics23_spec"])
p("Node statistics are exact",
  "For each value set, node_stats reports exactly the number of new nodes, new leaves, stale nodes and stale leaves of that set's batch. num_nodes of the in-memory store counts the readable nodes: a commit raises it by the new nodes of the statistics, and a purge lowers it by one for every stale entry up to the given version.",
  "every history, every list of value sets",
  "counters are adjusted incrementally by put_node/delete_node",
  [f"{C}: put_node, delete_node, freeze", f"{W}: NodeStats"])
p("Last write wins within a set",
  "If a key occurs several times in one value set, only its last occurrence matters for the value, the root and the proof.",
  "every value set with repetitions, in both APIs",
  "delete-reinsert inside one version exercises cache removal paths",
  [f"{T}: put_value_sets, batch_put_value_sets", f"{C}: put_value"])
p("Proof size bound",
  "Proofs returned by get_with_proof, of a present or absent key, have at most 256 siblings, and the lowest sibling is never the empty placeholder. Exactly: the number of siblings is the least d such that at most one key of that version shares its first d bits with the queried key; the leaf of the proof is that key (if any); the sibling at each depth stands for the keys that leave the path of the queried key there, being null, a leaf or an internal node as they are none, one or more.",
  "every history, version, key",
  "depends on the deepest shared prefix",
  [f"{T}: get_with_proof", f"{D}: verify"])
p("Missing versions are reported, not invented",
  "For a version whose root node is not stored, get_with_proof and get_with_exclusion_proof return the MissingRootError for that version, get_root_hash errors and get_root_hash_option is None.",
  "every store, key and version",
  "all stores",
  [f"{T}: get_with_proof, get_root_node, get_root_hash_option", "src/lib.rs: MissingRootError"])
p("NibblePath behaves as a list of nibbles",
  "push, pop, last, get_nibble, get_bit, nibbles, bits, num_nibbles and collect on the packed-byte NibblePath agree with the same operations on a plain list of nibbles, and the packed form is unique per list (equal paths are equal structs).",
  "every sequence of pushes/pops up to 64 nibbles, every index",
  "odd/even packing over all lengths and contents",
  [f"{NP}: push, pop, last, get_nibble, get_bit, bits, nibbles, FromIterator", f"{NP}: NibbleIterator, BitIterator"])
p("skip_common_prefix and common prefix lengths",
  "skip_common_prefix advances both iterators by exactly the longest common prefix and returns its length; common_prefix_bits_len / common_prefix_nibbles_len return the longest common bit / nibble prefix length of two keys.",
  "every pair of paths / 32-byte keys",
  "all pairs",
  [f"{NP}: skip_common_prefix", f"{B}: common_prefix_bits_len, common_prefix_nibbles_len"])
p("Key bit and nibble views are consistent",
  "get_nibble, nibble and iter_bits of a 32-byte key describe the same 256-bit big-endian string; from_bit_iter inverts iter_bits; byte order (KeyHash Ord) is the lexicographic order of nibbles and of bits.",
  "every pair of 32-byte keys",
  "2^256 keys",
  [f"{B}: get_nibble, nibble, iter_bits, from_bit_iter, HashValueBitIterator"])
p("NibbleRangeIterator partitions sorted keys",
  "On key-sorted input whose keys share their first i nibbles, NibbleRangeIterator yields consecutive, non-empty, exhaustive ranges, one per distinct i-th nibble in increasing order.",
  "every sorted key list with common prefix, every nibble index",
  "binary search boundaries over all lengths",
  [f"{NB}: NibbleRangeIterator::next"])
p("Internal node hashing is the 4-level sparse Merkle rule",
  "InternalNode::hash equals the hash of the binary tree over its 16 slots in which a subtree with no child is the placeholder and a subtree whose single child is a leaf is that leaf.",
  "every set of children (2^16 existence masks x leaf masks x hashes)",
  "all bitmaps and hashes",
  [f"{N}: merkle_hash, range_bitmaps, has_only_child, generate_bitmaps"])
p("Reads tolerate storage faults by failing, never by lying",
  "If a reader returns an error on some lookups, or reports some nodes or values missing, and is otherwise the true store, then every proof, root, leaf-count and iterator call either fails or returns what it returns on the true store; get does so unless a value is reported missing; put_value_sets, put_value_sets_with_proof, batch_put_value_sets and append_value_set do so unless a root node is reported missing (then put_value_sets silently starts from an empty tree).",
  "every pattern of read faults",
  "fault patterns are exponential",
  [f"{T}: get_with_proof, insert_at", f"{RD}: TreeReader::get_node", f"{N}: build_sibling"])
p("Overwrite API (append_value_set) keeps the map semantics",
  "append_value_set at the latest version returns the root of the updated map and its batch makes the updated map readable. (False of the code for delete-all followed by another delete, where the old root is resurrected; and its stale entries name live nodes, so a later purge destroys the tree.)",
  "every store with a latest version and every value set",
  "feature-gated path, corner cases",
  [f"{T}: append_value_set", f"{C}: new_overwrite, freeze, delete_node"])
p("In-memory store returns the newest value at or below a version",
  "put_value accepts versions in non-decreasing order per key (rejecting others) and get_value_option(max, k) returns the value with the greatest version <= max. put_leaf refuses an existing node key and otherwise stores the leaf and its value, changing nothing else.",
  "every sequence of put_value calls, every query",
  "all sequences",
  [f"{M}: put_value, get_value_option"])

p("A commit touches only nodes next to written paths",
  "Every node a put_value_sets call writes for a value set carries that set's version and is the root or lies directly below the path of a key in that set; so does every node it marks stale; a set of insertions marks stale only nodes on the paths of its keys. Subtrees without written keys are shared, not copied.",
  "every history, every list of value sets",
  "all histories and key distributions",
  [f"{T}: put, insert_at, insert_at_child", f"{C}: put_node, delete_node, freeze"])

p("An interrupted write can be retried",
  "Whatever part of an update batch (or any other garbage about versions not yet committed) a crash leaves in the store, every query of every readable version answers as before the crash; calling put_value_sets again returns the same root hashes and the same batch, and writing that batch gives a store that answers like one that never crashed. Restriction: either no leftover root node of the versions being written is visible, or the value sets never delete a key from a map they have just emptied (outside it the retry can return a wrong root or retire a live one: counterexamples proved). batch_put_value_sets needs no restriction.",
  "every history, value sets, subset of the batch written before the crash, every query",
  "crash points are subsets of an unbounded batch",
  [f"{T}: put_value_sets, put_value_sets_with_proof, batch_put_value_sets", f"{C}: new, get_node, delete_node, freeze", "src/writer.rs: write_node_batch"])
p("Reads concurrent with commits and pruning are consistent",
  "A query of a committed version that stays readable while commits and purges run gives the answer it gives at rest, even if each of its storage lookups is answered from a different intermediate state. An iterator over such a version returns all its pairs in order, without errors, whatever commits and purges happen during and between its calls.",
  "every history, every continuation by commits and purges, every assignment of lookups to intermediate states, every query",
  "schedules: one state per lookup",
  [f"{T}: get_with_proof, get_range_proof, get_with_exclusion_proof", "src/iterator.rs: next", f"{RD}: TreeReader"])

p("A restored store can be worked on like any other",
  "After a completed restore at version w, every further history of put_value_sets, batch_put_value_sets and purge_stale_nodes succeeds starting at version w+1, and every query of every version from w on (not pruned) is answered as by an ordinary store whose version w has the restored map; further commits return the same root hashes.",
  "every restored map, chunking, restarts, every later history, version and query",
  "all snapshots times all later histories",
  ["src/restore.rs: add_chunk_impl, finish_impl", f"{T}: put_value_sets, get_with_proof", f"{M}: purge_stale_nodes"])

p("Version 0 is built on a pre-genesis tree",
  "A tree present at the pre-genesis version (u64::MAX, e.g. restored there) is the starting point of version 0: put_value_sets at version 0 returns the roots of the restored map after the value sets, and the versions written answer all queries for the updated map. (False of the code in part, proved: a first value set without effect writes no root for version 0 and loses the tree; the values of restored keys are invisible at versions 0 and up; rewriting a restored key cannot be written to the mock store.)",
  "every map, chunking and restarts of the restore, every list of value sets, every version and key",
  "all maps times all value sets; the existing unit test only looks at the root key of the cache",
  [f"{C}: new, freeze", "src/types.rs: PRE_GENESIS_VERSION", f"{M}: put_value, get_value_option", f"{T}: put_value_sets, get_with_proof"])

p("Verifiers do not panic on untrusted input",
  "verify, verify_existence and verify_nonexistence return (Ok or Err) for every proof, root, key and value; so should SparseMerkleRangeProof::verify and UpdateMerkleProof::verify_update. (Proved for the first three. Range verification panics exactly when overflow checks are on and there are more than 256 siblings. verify_update is panic-free on proofs of the shape the library produces, but the genuine proof of one key, presented for the insertion of another that leaves its path above the leaf, makes it panic: with overflow checks always, without them for some inputs.)",
  "every proof object, root, key, value and update list, honest or hostile, with and without overflow checks",
  "inputs are attacker-chosen and unbounded",
  [f"{D}: SparseMerkleProof::verify, verify_update, check_compute_new_root, compute_new_merkle_path_on_split, SparseMerkleRangeProof::verify"])

p("Any backend that keeps the writer contract behaves like the mock store",
  "For every store of the user's (not only the mock): if it starts empty, shows every batch in full once write_node_batch has returned (a write may be interrupted and repeated), and a pruning up to version r touches no node other than those recorded as stale since a version <= r, then put_value_sets, put_value_sets_with_proof and batch_put_value_sets succeed and return the same root hashes, proofs and batches as on the mock store, and every query of every readable version gives the same answer, whichever stale nodes are gone, unreadable or still there.",
  "every backend, history, interruption of writes, subset of stale nodes deleted, version and query",
  "user-supplied backends and partial pruning are unbounded",
  [f"{RD}: TreeReader", "src/writer.rs: TreeWriter, StaleNodeIndex", f"{T}: put_value_sets, batch_put_value_sets, get_with_proof"])

p("Contents of an update batch",
  "The update returned for value sets committed from version n on has one value entry per version and key written, holding the last write to that key in that set, and no other; every node in it carries one of the versions committed, is not in the store yet and is used by the tree of its own version; every version has its root node in it, with the hash returned; every stale entry names a node of an earlier version that is in the store or the batch and has not been retired before. NodeBatch::merge of two updates is equivalent to writing them one after the other; clear, is_empty, get_node, insert_node, insert_value and extend behave as operations of finite maps.",
  "every history, every list of value sets (and batch inserts), every pair of batches",
  "all histories and key distributions",
  [f"{T}: put_value_sets, batch_put_value_sets", f"{C}: freeze", "src/writer.rs: NodeBatch, TreeUpdateBatch, StaleNodeIndex"])

p("Borsh encodings are faithful and a byte store works",
  "Every type that derives the borsh traits (keys, nodes, proofs, batches) is decoded to what was encoded, only encodings are decoded, and no two values share one. The bytes are those of the borsh layout of the declared fields and variants, so that other implementations can read them. Every node of an update batch and its key can be encoded, and every served membership, range or update proof can be, as long as there are fewer than 2^64 versions and writes. A whole TreeUpdateBatch (within the length limits of borsh) is read back as it was written, its content determines its bytes, and batch_put_value_sets gives the same bytes as put_value_sets. A store that keeps the encoded nodes under the encoded keys therefore serves every history: all queries of readable versions and all further commits behave as on the mock store, under interrupted writes and partial pruning. (Decoding checks no invariants: some bytes decode to paths and nodes on which other functions panic.)",
  "every value of every encodable type, every byte string, every history, interruption and pruning",
  "unbounded values and byte strings; the unit tests encode a few random nodes",
  ["src/node_type.rs: NodeKey, Node, InternalNode, Children, Child, LeafNode", "src/types/nibble/nibble_path.rs: NibblePath", f"{D}: SparseMerkleProof, UpdateMerkleProof, SparseMerkleRangeProof", "src/writer.rs: NodeBatch, StaleNodeIndex, TreeUpdateBatch", "Cargo.toml: borsh"])

p("A store can be rolled back to an earlier version",
  "Take a store after any history and a version v that is still readable, and delete every record made for a later version: its nodes, its values and the retirements recorded since. Then every further history of put_value_sets, batch_put_value_sets and purge_stale_nodes succeeds from version v+1 on, every query of every version not pruned is answered as by a store that never saw the deleted versions, and further commits get the same root hashes on both.",
  "every history, readable version, later history, version, key and query",
  "all pairs of histories and all rollback points",
  [f"{T}: put_value_sets, batch_put_value_sets, get_with_proof", f"{C}: new, freeze", f"{M}: purge_stale_nodes", "src/writer.rs: StaleNodeIndex"])

p("New versions can be built on any retained version",
  "On any readable version v - not only the last - put_value_sets, put_value_sets_with_proof and batch_put_value_sets called with first version v+1 return the canonical roots of the map of v with the value sets applied, and update proofs that verify; whatever the store holds of later versions has no influence, and the result is the one returned when v was the last version. Restriction (not for the batch API): no write deletes a key from a map that the same call has emptied; outside it the call can return the root of a map containing keys of the later version (counterexample proved).",
  "every history with pruning, readable version, list of value sets, content of later versions",
  "all histories times all base versions times all leftovers",
  [f"{T}: put_value_sets, put_value_sets_with_proof, batch_put_value_sets", f"{C}: new, get_node_option, freeze"])

p("Writes at a wrong version are refused",
  "A write at a version other than the next one is refused. (False of the code, proved: put_value_sets at a version whose predecessor is missing succeeds and builds on the empty map, after which get and get_with_proof disagree; a set of deletions only then writes a null root for the predecessor and none for the version asked for. Proved: batch_put_value_sets refuses a gap; the mock store without allow_overwrite refuses versions it has.)",
  "every history, version and list of value sets",
  "all histories and versions",
  [f"{T}: put_value_sets, batch_put_value_sets", f"{C}: new, freeze", f"{M}: write_node_batch"])

p("Proofs are unique",
  "For any root hash - whether or not it comes from a tree - and any key, at most one SparseMerkleProof is accepted by verify (verify_existence, verify_nonexistence), and it supports at most one claim: a root cannot prove two values of a key, nor both presence and absence. In particular the proof returned by get_with_proof is the only one accepted for the root of that version. Likewise for range proofs, including the left siblings (except, without overflow checks, for those of more than 256 siblings: each of them is accepted, exactly for the root of the tree with that one leaf). For ICS23 proofs the same holds against the root of any map (an ICS23 path is not tied to its key, so a root with no map behind it can have two): an accepted existence proof is the one get_with_ics23_proof returns, and an accepted non-existence proof names exactly the true neighbours that exist. All barring hash collisions among the strings involved.",
  "every root digest, key, pair of proofs and claimed values",
  "all adversarial proofs and roots",
  [f"{D}: SparseMerkleProof::verify, SparseMerkleRangeProof::verify", f"{T}: get_with_proof"])

p("Restore survives a crash inside a chunk's write",
  "If the process stops while add_chunk is writing, so that only part of the chunk's nodes and values has been stored, JellyfishMerkleRestore::new on the same store and the pairs above the rightmost stored leaf complete to the same tree. (False for arbitrary parts and for the mock store, which stores nodes before values and shorter paths first: proved that values or leaves can be lost although finish succeeds with the expected root, and that the restoration can get stuck. Proved, for any number of such crashes: it holds if the store keeps the values of a batch before its nodes, and its nodes from left to right with children before their parent.)",
  "every map, chunking, sequence of crash points inside and between writes",
  "all crash points and all partial writes",
  ["src/restore.rs: new, recover_partial_nodes, add_chunk_impl", "src/writer.rs: TreeWriter::write_node_batch", f"{M}: write_node_batch, get_rightmost_leaf"])

p("An iterator can be called again after an error",
  "When a call of the iterator's next returns an error because a read failed or something was reported missing, nothing is lost: whatever the sequence of such failures, no call panics, the pairs returned are in order a first part of what the iterator yields on the sound store, None is returned only after the last of them, and once reads succeed the iterator yields exactly the rest. (False of the code when the map has exactly one key: proved that an error while its value is read makes the iterator end without the pair. Proved in all other cases.)",
  "every history, readable version, start key or index, and sequence of calls with arbitrary read failures during each",
  "all schedules of read failures",
  ["src/iterator.rs: JellyfishMerkleIterator::next, new, new_by_index"])

p("Queries about pruned versions fail or tell the truth",
  "After any history of commits and purges, for every version ever committed - pruned or not - get returns the value in the map of that version, and whenever get_root_hash, get_leaf_count, get_with_proof, get_range_proof, get_with_exclusion_proof, get_with_ics23_proof or an iterator call succeeds, its result is the true one (the one returned had nothing been pruned); an iterator leaves nothing out and ends only after the last pair. get_with_proof returns MissingRootError exactly when the version's root has been purged. (A failing get_with_proof can also panic: proved for a root that leaks, see C12.)",
  "every history with purges, every committed version, key, start key or index, number of iterator calls",
  "all histories with pruning, including versions that are only partly deleted",
  [f"{T}: get_with_proof, get_range_proof, get_with_exclusion_proof, get_root_hash, get_leaf_count", "src/iterator.rs: new, next", f"{M}: purge_stale_nodes"])

p("Bounded work",
  "A successful get_with_proof depends on at most 2n+1 nodes of the store, n being the number of siblings in the proof it returns (the least depth at which at most one key is left around the queried one, see C31), and on one value. An update of n writes (put_value_sets, with or without proofs, or append_value_set; with batch_put_value_sets on a store made by a history) stores at most 66n nodes plus one per version, retires at most 66n nodes and stores at most n value entries; the same holds version by version in the reported node_stats. Both factors 66 are reached.",
  "every reader (whatever it answers), every key, version and list of value sets",
  "the worst case is two keys sharing 63 nibbles; the bound must hold for every tree and every answer of the storage",
  [f"{T}: get_with_proof, put_value_sets, insert_at, insert_at_leaf_node, insert_at_internal_node", f"{N}: get_child_with_siblings_helper, build_sibling", f"{C}: put_node, delete_node, freeze"])

p("A light client follows a full node",
  "A client that keeps nothing but a root hash and calls verify_update on each (value set, new root, proofs) that put_value_sets_with_proof produced accepts everything a full node sends, whatever the node commits and prunes in between; it then holds exactly what get_root_hash answers, and accepts the node's get_with_proof answer for every key. Conversely, whatever it is sent and by whom, if it accepts, its root hash is that of the map after exactly those updates, and it accepts an existence or non-existence claim only if it is true of that map - barring hash collisions among the strings actually hashed, and for deletes that come with a leaf or are of absent keys (see C17 for why this is needed).",
  "every history before and after the client joins, every list of messages from anybody, every key and proof",
  "all histories composed over many versions, and all adversarial messages",
  [f"{T}: put_value_sets_with_proof, get_with_proof, get_root_hash", f"{D}: UpdateMerkleProof::verify_update, SparseMerkleProof::verify", f"{M}: purge_stale_nodes"])

p("What is stored",
  "What the store holds is determined by the value sets and by how far it has been pruned: below the roots, a node is stored under (version, path) exactly when the tree of some retained version has a node at the path (a key starts with it, and its parent path does not single out a key) and the version is the last whose set wrote to a key below the path or made the node appear; its content - leaf, or children with their hashes, versions and leaf counts - is what the map says. The stale index below the roots lists exactly the nodes so replaced or removed after the horizon. The value history of a key lists exactly what each version last wrote to it. So two clients that write the same sets, whatever the grouping into calls, the insertion interface and the times at which they prune, end with the same nodes below the roots, the same roots of retained versions, the same stale entries below the roots and the same value histories.",
  "every history of commits through either interface and purges, every node key and node, every pair of histories with the same sets and horizon",
  "all histories and all pairs of histories; the renewal rule must be exact for every node of every version",
  [f"{T}: put_value_sets, batch_put_value_sets, insert_at, batch_insert_at", f"{C}: put_node, delete_node, freeze", f"{M}: write_tree_update_batch, put_value, purge_stale_nodes"])

p("State sync from a live source",
  "A receiver that fetches one version of a running source chunk by chunk - each chunk through a fresh iterator resumed at the last key it has and the get_range_proof of the chunk's last key, read from whatever state the source is in by then - and feeds them to add_chunk, never meets an error, however the fetches interleave with the source's commits and purges (as long as the source keeps the version) and with restarts of the receiver through JellyfishMerkleRestore::new and get_rightmost_leaf. Once the source has nothing more to send, finish succeeds and the receiver answers every query about the version as the source does; if it keeps the version number it can then replay the value sets the source has committed since, in any grouping into calls and with purges of its own, and answers every query about every version both keep as the source does.",
  "every history of the source before and during the sync, every chunk size, every interleaving, every number and place of restarts",
  "all interleavings of three parties' steps",
  ["src/restore.rs: new, add_chunk_impl, finish_impl", "src/iterator.rs: new, next", f"{T}: get_range_proof, put_value_sets, batch_put_value_sets", f"{M}: get_rightmost_leaf, purge_stale_nodes"])

p("The map an application sees",
  "An application that names its keys by byte strings and hands KeyHash::with(key) to every call sees a versioned map from byte strings to values: get and get_with_proof answer its last write to the key, the proof verifies, the iterator yields exactly its pairs under their key hashes; two applications with the same map have the same root hash whatever their histories, and equal root hashes mean equal maps; an accepted existence proof (native or ics23) for (KeyHash::with(key), value) means the application stored exactly value under exactly key, and an accepted non-existence proof means its map lacks key - as long as no two of the byte strings involved have the same digest.",
  "every history of writes of byte-string keys through either interface and purges, every key, every proof from anybody, every pair of histories",
  "all histories, byte strings and adversarial proofs; two hash levels (of keys and of nodes) meet here",
  ["src/lib.rs: KeyHash::with, ValueHash::with, SimpleHasher::hash", f"{T}: get, get_with_proof, get_root_hash", f"{D}: verify_existence, verify_nonexistence", f"{ICS}: get_with_ics23_proof", f"{I}: new, next"])

p("Printed forms identify what they print",
  "The log line of KeyHash::with shows the key as a Rust byte string literal that denotes exactly those bytes, in printable ASCII on one line, so different keys are logged differently; the Debug forms of key, value and root hashes are the kind's name and 64 hexadecimal digits, alike only for equal hashes; the Debug form of a nibble path is one hexadecimal digit per nibble, alike only for equal paths.",
  "every byte string, every pair of hashes, every pair of nibble paths",
  "all byte strings, including quotes, backslashes, control and non-ASCII bytes in any order",
  ["src/lib.rs: EscapedByteSlice, KeyHash, ValueHash, RootHash (Debug)", f"{NP}: NibblePath (Debug)", f"{NB}: Nibble (LowerHex)"])

p("How large the store gets",
  "At any point of a history the store holds at most 66 nodes per write of a version's set and one more of each version, hence at most 66 nodes per write ever made plus one per version; with pruning, at most 64 nodes per key of the oldest retained version, 66 per write since, and one root per version ever committed - only one for all versions given up if each of them changed something and left a key; at most 66 stale entries per write since the oldest retained version wait, always fewer than there are nodes; at most one value entry per write is kept. Pruning does not bound the roots of empty versions: n of them stay n nodes.",
  "every history of writes through either interface and purges, every number of versions",
  "the bound must hold for every history length, key set and pruning pattern",
  [f"{T}: put_value_sets, batch_put_value_sets", "src/tree_cache.rs: put_node, delete_node, freeze", f"{M}: write_tree_update_batch, purge_stale_nodes, num_nodes"])

p("Preparing an update and pruning do not disturb each other",
  "put_value_sets, put_value_sets_with_proof and batch_put_value_sets only read the store; the caller writes the returned batch later. While such a call runs, or between the call and the write, the store may be pruned any number of times: however the lookups of the call are spread over the states in between, it returns the roots, proofs and batch it would have returned before (and after) the pruning; the write is accepted, and the store is then the one of the history in which the commit came after the pruning. Pruning up to a committed version and committing the next versions can be done in either order: both succeed, and the store holds the same nodes, stale entries and values afterwards.",
  "every history, every list of value sets, every sequence of purges, every distribution of the lookups over the states in between",
  "all interleavings of a computation's reads with a pruner",
  [f"{T}: put_value_sets, put_value_sets_with_proof, batch_put_value_sets", f"{M}: purge_stale_nodes, write_tree_update_batch"])

p("A late write is refused without effect",
  "An update was prepared for the next version, and before it was written somebody else committed that version (and perhaps more, and pruned): then writing it fails, and a write that fails has no effect on what any retained version answers. (False of the code. Proved: in the store without allow_overwrite it is refused as long as the version is retained, also when the update was computed while the others were at work; a failing write leaves some of its entries and nothing else, and never affects a version before its first one; what a refused late write leaves is exactly that the root node of the version has been replaced, so get_root_hash answers the refused root. Proved counterexamples: after that, the committed key is missing from this and all later versions; once the version has been pruned, the late write is accepted, get and get_with_proof of the latest version disagree and every purge fails; with allow_overwrite a late write of version 0 is accepted and mixes the two updates.)",
  "every history before the update is prepared and while it waits, every list of value sets through either interface",
  "all interleavings of two writers and a pruner, and every point at which a write can fail",
  [f"{M}: write_tree_update_batch, write_node_batch, put_value, put_stale_node_index, purge_stale_nodes, MockTreeStoreInner", f"{T}: put_value_sets, put_value_sets_with_proof, batch_put_value_sets"])

p("Results do not depend on hash-table iteration order",
  "The cache of an update call and the in-memory store keep their data in hash tables whose iteration order differs from process to process. Two processes that perform the same operations nevertheless get the same root hashes, proofs, statistics and batches, or the same errors, from every update call, their stores hold the same records, and every query gives the same answer or the same error; restarting a restoration recovers the same state. (get_rightmost_leaf and with it append_value_set are independent of the order as long as no two stored leaves have the same key. Proved to be false otherwise: after two commits of the greatest key, whether append_value_set accepts the latest version is decided by the order of the table.)",
  "every history through either interface, every order of every table at every point of the history, every query",
  "a test run uses a handful of hasher seeds; all orders of tables of any size have to agree",
  ["src/tree_cache.rs: TreeCache, FrozenTreeCache, freeze", f"{T}: put_value_sets, put_value_sets_with_proof, append_value_set, batch_put_value_sets", f"{M}: MockTreeStoreInner, get_rightmost_leaf, write_node_batch, purge_stale_nodes", f"{R}: new, recover_partial_nodes"])

p("Restoring into any storage backend, also after failed chunk writes",
  "Restoration does not depend on the backend: over any store that writes the batches it is handed and finds the rightmost of its leaves, an honest sender's chunks pass all checks, a restart after completely written chunks succeeds, and when everything has been sent, finish completes a tree that answers every query about the new version like the source; until then every version is reported missing. If the backend fails to write a chunk, leaving any part of it, and the receiver lives on, the sender goes on with the next pairs: nothing is lost, the next call (or finish) writes everything again. Sending the same chunk again is refused. (The exception is a map with a single pair: after a failed write of its chunk, finish panics.)",
  "every history and retained version of the source, every backend, every chunking, every mixture of restarts and failed writes, every part of a chunk a failed write may leave",
  "tests use the in-memory store, whose writes do not fail; all backends, partitions and failure points have to be covered",
  [f"{R}: JellyfishMerkleRestore, new, add_chunk, add_chunk_impl, finish, finish_impl, freeze", f"{W}: TreeWriter::write_node_batch", f"{RD}: TreeReader::get_rightmost_leaf"])

p("JSON round trip",
  "Every type of the crate that derives the serde traits is read back from its JSON text (serde_json) as it was written: hashes, nibbles, node keys, nodes and all parts of nodes, existence, update and range proofs. The text is the compact JSON object with the declared field and variant names in the declared order, so that other implementations can read it. Every proof has a text, and so has every node and node key of every update. Different values have different texts. Reading tolerates fields in any order, unknown fields and the array form of a struct, refuses duplicate fields and trailing text, reads a proof whose leaf is left out as one without a leaf, and requires the other fields. Reading checks none of the invariants of the types (witnesses: a path whose nibbles cannot be iterated, a nibble of 16 or more).",
  "every value of every such type, every order of the fields, every unknown field",
  "the tests round-trip one proof of each kind; all values of all types and all variants of their texts have to be covered",
  ["src/lib.rs: RootHash, KeyHash, ValueHash", f"{N}: NodeKey, NodeType, Child, Children, InternalNode, LeafNode, Node", f"{D}: SparseMerkleProof, UpdateMerkleProof, SparseMerkleRangeProof", "src/types/proof.rs: SparseMerkleNode, SparseMerkleInternalNode, SparseMerkleLeafNode", f"{NP}: NibblePath", "src/types/nibble.rs: Nibble"])

p("A node on any backend, from state sync on",
  "A node takes over a retained version of a source by restoration into an empty store of any kind (chunks, restarts and failed writes as in C67) and then goes on committing and pruning on that store; writes may be interrupted and repeated, and a pruning may delete any part of what it may delete. No such node ever gets stuck, and each version it keeps answers every query like an ordinary history that wrote the restored pairs at that version and then did the same; further commits have the same root hashes. A node that keeps the source's version number and replays what the source has committed since, in any grouping and with prunings of its own, answers every query about every version both keep as the source does.",
  "every history and retained version of the source, every backend, every restoration, every later history with interrupted writes and partial prunings",
  "the tests restore into the in-memory store and do not work on with it; all backends, restorations and later histories have to be covered",
  [f"{R}: JellyfishMerkleRestore, new, add_chunk, finish", f"{T}: put_value_sets, put_value_sets_with_proof, batch_put_value_sets, get, get_with_proof", f"{W}: TreeWriter::write_node_batch, StaleNodeIndex", f"{RD}: TreeReader"])

p("Restoring over a store that already holds something",
  "A restoration started with new_overwrite works over a store that holds anything: other versions, or what earlier attempts at the same version left. No chunk of an honest sender is refused, whatever writes fail on the way and however often the receiver is lost and started again from the beginning; when finish has succeeded, the root hash, proofs, leaf count, range, exclusion and ics23 proofs and iterations of the restored version are those of the source, and so is get for every key of the map; nodes of all other versions and values at all earlier versions are as they were, so earlier versions of the store's own history answer every query as before; until finish the root of the restored version is what it was. In particular starting again with new_overwrite repairs a restoration interrupted anywhere in an empty store. get looks at the value history only, so a key that the restored map does not contain still shows the value the store held before. A node that works on over such a store commits version after version without failing, as long as it never deletes from an empty map: root hashes and update proofs are those of the maps, every version from the restored one on answers tree queries like a store with that history, and earlier versions stay as they were. If the store held nothing above the restored version and no stale-node index named a node of that version or a later one, the node may also delete from an empty map, commit in batches and prune, with a backend that deletes any part of what it may: every version not given up answers tree queries like a store with that history, the next commit succeeds with the same root hashes, and the store's older versions keep answering until the prunings reach them. Starting with new instead fails on every store of a history nothing of which was given up and that ever wrote something (with an error if the rightmost leaf is a whole tree, with a panic otherwise); after prunings it may succeed and then refuses all chunks that begin at or below an old key (witness).",
  "every history and retained version of the source, every store content, every sequence of chunk sizes, failed or partial writes and fresh starts, every earlier history of the target",
  "the tests call new_overwrite once, over a store with one earlier version, and compare a few queries; all previous contents and interruptions have to be covered",
  [f"{R}: JellyfishMerkleRestore, new_overwrite, new, add_chunk, finish", f"{T}: get, get_with_proof, get_root_hash", f"{RD}: TreeReader", f"{W}: TreeWriter"])

p("The order of keys and pruning by scanning",
  "Node keys and stale-node entries have a strict total order: node keys by version, then by the length of the path, then nibble by nibble; stale-node entries by the version since when they are stale, then by node key. So all keys of a version come before those of later versions and the ancestors of a node of a version before the node; keys of the map are ordered like their nibbles. A scan of the stale-node index in ascending order up to the first entry that is stale only since a later version meets exactly the entries a pruning may delete, and deleting their nodes in that or any other order leaves the same store. (The borsh bytes of keys do not have this order: integers are little endian.)",
  "all keys and entries, every history, every pruning version, every order of deletion",
  "the order and its agreement with the pruning condition have to hold for all keys; the tests prune small histories",
  ["src/node_type.rs: NodeKey", "src/writer.rs: StaleNodeIndex", "src/types/nibble/nibble_path.rs: NibblePath", "src/lib.rs: KeyHash", "src/mock.rs: purge_stale_nodes"])
out = os.path.join(os.path.dirname(os.path.abspath(__file__)), "..", "properties.jsonl")
with open(out, "w") as f:
    for x in P: f.write(json.dumps(x) + "\n")
print(len(P))
