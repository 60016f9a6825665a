# Formal model of penumbra-zone/jmt in Lean 4 — design

(Living document: written before the proofs, updated as they land. `MANIFEST.json` holds the
status of each property, `properties.jsonl` the English statements.)

## Layers

1. `Verif/Spec/*` — the independent specification, short enough to read in minutes:
   a versioned map (`Spec.Map`), histories of value sets, the canonical sparse-Merkle root of a finite
   map (`Spec.root`: empty = placeholder, singleton = leaf hash, otherwise split on the next
   key bit), the meaning of "no hash collision among these strings". Nothing in it mentions
   nibbles, node keys, caches or storage.
2. `Verif/Model/*` — the code, function by function, each definition citing file and lines.
   `&mut` becomes a returned value, `Result` becomes `Except Err`, a panic is an explicit
   `Err.panic`, a loop is structural recursion (bounded by the 64-nibble key).
3. `Verif/Proofs/*` — helper lemmas and the refinement proofs.
4. `Verif/Props/*` — the property theorems, with concrete cases that meet their hypotheses beside them, or for
   the theorems of several files together in `Verif/Props/WitnessA.lean`, `WitnessB.lean` and `WitnessC.lean`.

## Key proof idea

A stored tree for map `m` is fully determined by `m` and a *version assignment*
`ver : nibble path → version`: at each path `p` that is "present" (the root, or a non-empty
subtree whose parent subtree has at least two keys) the store holds, under key
`(ver p, p)`, the canonical node `canonNode m ver p`. `put` is shown to transform such a
state for `m` into one for `m[k := x]`, changing `ver` to the new version exactly on touched paths.
Everything else (roots, proofs, immutability, pruning, iterators, exclusion proofs, batch API,
restore) is a corollary of, or a second algorithm against, this one canonical form.

## Modelling decisions

* Hash function: a `SimpleHasher` is a state machine (`new`, `update`, `finalize`) as in lib.rs;
  it is an arbitrary parameter of every theorem. No injectivity is assumed; soundness theorems
  take "no collision among the strings actually hashed by this tree and this proof" as an explicit,
  satisfiable hypothesis.
* Keys and digests are 32-byte lists; values are byte lists; versions are `Nat` with the u64
  bound checked where the code can overflow (`freeze`).
* `HashMap`/`BTreeMap`/`HashSet` are association lists / duplicate-free lists; the model
  iterates hash tables in the order of the list; that the order does not matter is C66.
* `TreeReader` is a function that may fail (`Except`).
* usize arithmetic: Nat, with the subtractions that may underflow modelled as checked
  (panic), and for `verify_update` also in wrapping form (release build).

## Plan per property

| id | model | proof |
|----|-------|-------|
| C01 | put_value_sets, TreeCache, freeze, MockTreeStore value history | refinement over histories |
| C02 | get_with_proof over the store | canonical form ⇒ canonical proof |
| C03 | node hashing, freeze root hashes | canonical form hash = Spec.root; Spec.root invariant under enumeration order |
| C04/C05 | verify | induction over bit depth on canonical proofs |
| C06/C07 | verify | induction over siblings with collision-freeness on the strings involved |
| C08 | Spec.root | induction over depth |
| C09 | write_node_batch | freshness invariant (no stored node carries the new version) |
| C10/C11 | purge_stale_nodes, stale index | history invariant: stale-since-s nodes not live at any version ≥ s |
| C12 | as above | history invariant: every non-root stored node is live at its own version until its stale entry; roots: exact characterisation of the retired and the stored ones from the versions of the roots along a run (`Fresh.root`, Props/RootRetire), negation witnesses for roots that leak |
| C13 | all panics/bails explicit | the refinement theorem concludes `.ok` |
| C14 | put_value_sets | both sides equal the same spec |
| C15 | batch_* functions, NibbleRangeIterator | second refinement to the same canonical form; for arbitrary (also wrong) precomputed hashes a frame argument: they only reach nodes of the new versions (`Props/BatchHashes`) |
| C16 | put_value_sets_with_proof, check_compute_new_root | canonical proof + pure algebra of Spec.root |
| C17 | check_compute_new_root | negation witnesses + `_partial` soundness |
| C18 | freeze | corollary + corner-case negations |
| C19 | leaf_count | part of canonical form |
| C20/C21 | iterator as a state machine | invariant: stack = remaining sorted tail |
| C22 | get_range_proof, RangeProof::verify | induction over bits |
| C23–C26 | restore state machine | invariant: partial nodes = right frontier of canonical tree |
| C27 | exclusion search | canonical form + lexicographic order lemmas |
| C28 | ics23_impl.rs; the verifier of the external ics23 crate is a specification (`Spec/Ics23`) | fold equality; an accepted path is the path of the tree (binding); adjacency of leaves by induction on bits |
| C29 | counters | invariant in the refinement |
| C30 | put_value_sets | spec-level lemma + C01/C03 |
| C31 | canonical proofs; Spec/ProofShape says which siblings a proof holds | length induction; the stopping depth of the walk down is the least depth with at most one key around `k` |
| C32 | readers | direct case analysis for every store |
| C33–C36 | byte-level functions | induction / finite byte tables lifted by lemmas |
| C37 | merkle_hash | induction on width |
| C38 | readers with faults (`Spec/Faults.lean`) | every model function is monotone in the reader (`Le`), by induction on its recursion |
| C39 | new_overwrite, append_value_set | cache invariant with base nodes of the version being written (`Proofs/Freeze`, `Overwrite`), then an invariant over commits, appends and purges below the appended versions; five negation witnesses, two of them proved for every history (Props/OverwriteFails.lean: a changed root hash means the old root node is both rewritten and stale) |
| C41 | put_value_sets | version assignment changes only next to written paths |
| C42 | put_value_sets over a store with leftovers (`Spec/Crash.lean`) | the update reads only settled keys: it succeeds over a reader that errors elsewhere, then C38's monotonicity; two negation witnesses |
| C43 | all queries over a reader mixing states of a run | nodes of committed versions only disappear, those of readable versions never |
| C44 | restore followed by ordinary histories | the store after `finish` satisfies the invariant of the history `restoredAs`, then as for any history |
| C45 | `TreeCache::new` at version 0 with a root at `u64::MAX` | the tree invariant holds from the pre-genesis tree; an effective first set gives version 0 a root of its own (`root_moved`), then as for any run; further calls over any backend by the invariant `PreInv` (Proofs/PreHistory); statistics, stale entries and pruning of the first call from the steps of the run (Proofs/PreStale); counterexamples by evaluation |
| C46 | the verifiers with explicit panics and `usize` arithmetic in both build modes | case analysis on every subtraction, addition and allocation; counterexamples by evaluation |
| C47 | runs of an arbitrary backend, known only by its reader and the writer's promises (`Spec/Backend.lean`) | simulation: the backend agrees with the mock store on every settled, unretired key; updates and queries read nothing else (as in C42) |
| C48 | `TreeUpdateBatch`, `NodeBatch::merge` and the other functions of src/writer.rs (`Model/Writer.lean`) | the batch is the fold of the per-version differences of the run; each component characterised by membership |
| C49 | the derived borsh implementations (`Model/Borsh.lean`) over the borsh format (`Spec/Borsh.lean`: integers little endian, `u32` lengths, enum tags, `de_strict_order`) | codecs are lawful by composition; nodes of a batch are nodes of canonical trees, whose counts are bounded by the writes; injectivity of the key encoding makes a byte store a backend (C47); the bytes of every type are written down once more, without encoders (Spec/BorshBytes.lean), and the encoders are proved to produce them |
| C50 | the store of the model with its later records removed (`Spec/Rollback.lean`) | the store invariant of the shorter history holds of the filtered store: a node of tree j+1 not made at j+1 was in tree j, so every node of tree v has a version ≤ v; then the continuation theorem of C44 |
| C51 | the write functions over a store that has gone on | the reader that shows only the nodes up to v is an error-only view of every such store; the run over it succeeds, hence the same run over the store |
| C52 | the write functions and the mock store at wrong versions | gap: the cache starts as that of an empty tree, then the same induction; existing version: the batch contains the root of the version, which the mock store has; counterexamples by evaluation |
| C53 | `verify`, range `verify`, any root | two checks that end in the same digest climb the same path: injectivity on the strings hashed, by induction on the siblings; for ics23 proofs (Props/Ics23Unique): the accepted path is the path of the tree (`ics_bind`), neighbours by `most_iff`/`adjacent_iff` |
| C54 | `add_chunk`, `new`, `finish` and a store that holds part of a batch (`Spec/RestoreCrash.lean`) | a part that is closed to the left and downwards is what an uninterrupted restore of some shorter prefix of the map has written, with some values stored early: the restore invariant of C25 with that slack; counterexamples by evaluation |
| C55 | `Iter.next` called repeatedly, each time with another faulty view of the store (`Spec/IterResume.lean`) | a faulty call returns what the sound call returns, or an error and an iterator that yields the same; induction on the calls |
| C56 | histories with and without their purges (`Spec/PrunedReads.lean`) | both histories write the same batches (simulation, as in C47), so the pruned store is a faulty view of the one never pruned; then C38 and C55; the missing-root error from C12 |
| C57 | get_with_proof, put_value_sets and helpers, any reader | reads: the lookups of each step are collected along the recursion; writes: each level of the recursion stages at most one node, plus two leaves at the bottom; retiring a node staged in the same call costs nothing |
| C58 | a client built from verify_update and verify, a node built from put_value_sets_with_proof, write and purge | induction over what the node does (completeness, from C16 and C04/C05) and over the messages (soundness, from C17, C06, C07) |
| C59 | put_value_sets, batch_put_value_sets, freeze, write, purge | the per-version invariant tracks for each node exactly which writes renew it; a separate specification (Spec/Layout.lean) over maps and value sets determines each node uniquely, and the invariant says the store holds precisely those |
| C60 | a client built from the iterator, get_range_proof, add_chunk, new and finish, against a source that goes on (Spec/StateSync.lean) | what the client fetches is what is left to send (C20, C43), so each event is a step of the honest session of C25; catching up is C44 with the source's value sets |
| C61 | application histories over byte-string keys, translated call by call by hashing the keys (Spec/UserMap.lean) | the map of hashed keys read at the hash of a byte string is the byte-string map when digests of the keys differ; then C01-C08, C20, C28 |
| C62 | the hand-written Debug implementations (Model/Print.lean); byte string literals as in the Rust reference (Spec/Print.lean) | per byte: reading back one escape gives the byte and what follows; then induction |
| C63 | nothing new: numNodes, the stale list and the value histories of the modelled store (Props/Space.lean) | by C59 and C12 every stored node, and one stale entry per entry, is also made when all sets are committed in one call without pruning; C29 and C57 count those version by version; a node at or below the horizon is a node of the oldest retained version (induction on versions), so it lies on a path to one of its keys |
| C64 | nothing new: the three update calls over a reader that answers each lookup from some state during the pruning (Props/Writers.lean) | the nodes left after pruning and the absence of later roots suffice for the update (a reader that fails everywhere else is enough, as in C38/C42); commutation: the batch retires nothing at or before a committed version and writes nothing that was stale |
| C65 | what failing calls of the mock store leave: the loops with the store they leave and the error, in B-tree order (Model/MockFail.lean) | agreement with the other model by simulation; a failing write leaves part of its batch (induction over the loops); the root of the first version is the least key of the batch, so a late write is refused there, after replacing it; counterexamples by evaluation |
| C66 | update calls whose cache tables are put in any order before each `freeze` drains them, stores whose tables are listed in any order (Model/Shuffle.lean) | simulation between two processes: caches whose tables are permutations of each other stay so through every lookup, insertion and removal, and `freeze` maps them to equal roots and statistics; stores by the same relation; restorations: the leaves of a restored store have distinct keys; the exception for `get_rightmost_leaf` by evaluation |
| C67 | `add_chunk` and `finish` up to the write and the batch they hand over (Model/RestoreBackend.lean); the backend is any reader before and after the write | simulation by a restoration over the mock store (C25) in which a failed chunk and the next one are one chunk: the nodes waiting to be written are only added to; what `freeze` does does not depend on them |
| C68 | the serde derives as combinators over a JSON value type, with a printer and a fuelled reader of JSON text (Spec/Json.lean, Spec/Serde.lean, Model/Serde.lean) | the reader inverts the printer by mutual induction on the value; a law `enc a = some j → dec j = some a` is closed under every combinator; encodability of nodes follows from C49; order of fields by invariance of lookups under permutation; the exact text of every type is written down once more, without encoders (Spec/SerdeText.lean), and the encoders are proved to produce it |
| C69 | C67 and C47 composed: a backend that shows what a restored store shows (Spec/BackendLife.lean) | the restored backend answers lookups like a mock store that satisfies the invariant of the history `restoredAs`; the simulation of C47 is started from that store |
| C70 | `new_overwrite` over any reader; chunks, failed writes and fresh starts (Spec/RestoreOver.lean) | simulation by a restoration over an empty store (C67): what that one's store shows, this one's shows too; the tree queries only need what is found, so they agree with the source; working on: a store that finds more performs the same commits (C51); prunings: the backend's life (C69) carried over to backends that show more values than the mock store they follow, with what is below the restored version tracked apart; `new`: a node written at a version has all its ancestors written at that version (its parent would otherwise be a node of the preceding tree too, which cannot name it), so climbing from the rightmost leaf meets the root |
| C71 | the derived orders (`Model/Borsh.lean`: `keyLt`, `staleLt`) and pruning as a scan with `take_while` (`Model/PurgeScan.lean`) | packing keeps the order of equally long paths; in an ascending list `take_while` is a filter; a closed form of the pruning loop shows that the order of deletion does not matter |
| C40 | mock put_value/get_value_option | induction over call sequences |

## Trusted base

* Lean 4.33's kernel.  Every theorem depends at most on `propext`, `Classical.choice` and `Quot.sound` (no axiom of
  ours, no compiled evaluation).  Non-vacuity examples and negation witnesses use `decide +kernel`: the kernel evaluates them.
* The reading of the Rust source embodied in `Verif/Model`.  As a check of that reading (tests, not proofs), `Props/Vectors.lean`
  replays the project's own vectors (src/tests/sha2_256_vectors.json) with a SHA-256 written down from FIPS 180-4
  (`Spec/Sha256.lean`): the model computes the roots the real code is tested against.
  `Props/Conformance.lean` replays the deterministic unit tests of src/tests (jellyfish_merkle, update_proof, tree_cache, iterator, restore)
  on the model, with the node counts, purge counts and verification results the project asserts.

### Modelled

| source | modelled in | what |
|--------|-------------|------|
| lib.rs, bytes32ext.rs, types/nibble.rs, nibble_path.rs | Types, Bytes, NibblePath, Exclusion | hashers, digests, bit and nibble views, nibble paths and their iterators, NibbleRangeIterator |
| node_type.rs | NodeType | nodes, children, merkle_hash, build_sibling, get_child_with_siblings |
| tree_cache.rs, tree.rs | TreeCache, Tree, Batch, Exclusion | put_value_sets(_with_proof), batch_put_value_sets, get_with_proof, roots, leaf counts, exclusion and range proofs |
| mock.rs, writer.rs | Mock, MockFail, System, Writer | all of the mock store incl. purge; histories of commits, batch commits and purges |
| types/proof | Proof | SparseMerkleProof, UpdateMerkleProof, SparseMerkleRangeProof |
| tree/ics23_impl.rs | Ics23 | all of it |
| iterator.rs | Iterator | both constructors and `next` |
| derives of BorshSerialize/BorshDeserialize | Borsh | every deriving type |
| derives of Serialize/Deserialize | Serde | every deriving type, in JSON |
| restore.rs | Restore | `new`, `new_overwrite`, `add_chunk_impl`, `finish_impl` and everything below them |

Simplifications: `write_node_batch` called by restore is atomic (a failure leaves the store unchanged); except in C42 (commits), C54 and C67 (restore), where a write may be cut
short anywhere, a crash happens between calls; histories start on an empty store, on a restored one (C44) or on a tree at the
pre-genesis version `u64::MAX` (C45); the `num_keys_received` counter does not overflow.

### Not modelled

the borsh, serde and serde_json crates themselves (for JSON see `Spec/Json.lean` and `Spec/Serde.lean`, from knowledge of serde 1.x, part of the trusted base of C68: no escapes, booleans, floats or negative numbers, no recursion limit; that the derived impls of `UpdateMerkleProof` ask `H` itself to implement the serde traits is a matter of types and not modelled); borsh alike (its format is written down in `Spec/Borsh.lean` from knowledge of borsh 1.x and is part of the trusted base of C49; the encoding of map and set types only for ascending lists, which is what a `BTreeMap` iterates), derived `Debug`/`Display` formatting (the hand-written ones are C62), tracing, memory, threads and locks (`RwLock` of the mock store, the `Arc`
handles), `proptest` generators, `StateSnapshotReceiver` as a trait (its two methods are the modelled functions), concrete hash functions (arbitrary
parameter; SHA-256 only for the vectors), `TreeReader for TreeCache` beyond `get_node_option` (tree_cache.rs:364-390: private, never called), the ics23 crate beyond the verification algorithm written down in `Spec/Ics23.lean` (no batching, compression, length prefixes or IAVL rules; this file is a transcription from knowledge of ics23 0.11, whose source is not in the sandbox, and is part of the trusted base of C28).
