# Design

Target: `versatus/patriecia` (`/repo`, read as text only). Two data structures are modelled:

* `jmt` — the Jellyfish Merkle tree (versioned, persistent, sparse Merkle);
* `pmt` — the Ethereum style Merkle Patricia trie.

All Lean sources are in `lean/Verif`. Layout:

| directory | contents |
|---|---|
| `Verif/Common` | finite maps (assoc lists), error type |
| `Verif/Jmt/*.lean` | model of `/repo/jmt/src`, function by function, with citations |
| `Verif/Pmt/*.lean` | model of `/repo/pmt/src`, function by function, with citations |
| `Verif/Spec/*.lean` | small independent specifications (abstract map, binary sparse Merkle root, …) |
| `Verif/Proofs/*.lean` | helper lemmas, abstraction relations, invariants |
| `Verif/Props/*.lean` | the property theorems named in `MANIFEST.json`, each with a non-vacuity `example` |

## Modelling conventions

* Every Rust panic path (assert!, expect, unreachable!, index out of range) and every `Err` is an explicit
  value of an error type; functions are total and return `Except Err _`.
* `&mut self` becomes a returned new value. `HashMap`/`BTreeMap` are finite maps (association lists with
  unique keys); C85 proves that the iteration order of hash
  maps matters to `get_rightmost_leaf` only.
* Recursion over the store is structural in the remaining nibbles of the key (`nibble_iter`), loops
  `for _ in 0..=64` are recursion on fuel 65.
* Versions are `Nat` (Rust `u64`). `Jmt/Overflow.lean` has the update calls with the arithmetic of the machine, and C102 proves that they are the same
  as long as the versions of a history stay below `u64::MAX`; so the theorems about histories hold of the machine's histories within that range.
* Digests are an arbitrary type `D`, hash functions arbitrary functions (structure `Hasher D`):
  `leaf key valuehash`, `node left right`, `value bytes`, `placeholder`. The byte level instance
  (domain separators, concatenation, one function on byte strings) is a separate definition, and
  scheme-level collisions are shown to be byte-level collisions. No assumption about any hash function
  is made anywhere: soundness theorems conclude "the claim holds, or here is a collision / a preimage of the placeholder".
* The reader is the in-memory store of `mock.rs`, whose lookups never return an error. Readers whose lookups do (`FReader`, `Jmt/Failing.lean`) are
  modelled separately: the functions that look something up are written once more over them, and C95 and C96 relate the two. During one call a
  lookup either fails each time or never.

## Per property plan

| id | what is modelled | how it is proved |
|---|---|---|
| C01 | TreeCache, insert_at*, put_value_sets, mock store | refinement: store represents a versioned tree, tree denotes a map, node hash = spec `smtRoot`, induction over the history |
| C02 | same | corollary of C01 and permutation invariance of `smtRoot` |
| C03 | get_with_proof, mock store | store invariant holding for all committed versions, preserved by later commits |
| C04 | get_with_proof, get_child_with_siblings, SparseMerkleProof::verify | induction along the path, node-level lemma C28 |
| C05, C06 | SparseMerkleProof::verify against spec root | induction over the siblings (top down), collision extraction |
| C07 | spec root | induction on depth, collision extraction |
| C08 | all assertions of the update path as error values | the refinement theorem shows the result is `ok` |
| C09 | put_value_sets with frozen cache | both sides computed through the refinement; stores compared |
| C10 | batch_insert_at etc. | refinement of batch insertion to the same tree denotation; C01 for both; false at a first version above 0 (witness), partial otherwise |
| C11, C12, C13 | stale index, purge_stale_nodes | invariant on (versions, nodes, stale entries) over histories; C13 false of a first version above 0 without effect (witness), partial otherwise |
| C14, C15 | counters, leaf counts | invariants carried with the refinement |
| C16, C17 | iterator stack machine | stack denotes the remaining sorted entries; induction |
| C18 | value history and tree | joint invariant |
| C19 | exclusion proof search | induction over the tree for the search, the climb to the neighbour and the descent to its first key; false when the neighbour's subtree is older than the queried version (witness); whatever is answered is right, and partial success when the neighbours were written by the queried version |
| C20 | get_range_proof, RangeProof::verify | fold lemma over sibling lists |
| C21, C22, C23, C24 | restore state machine | representation of partial nodes as left part of a tree; C23 false (witness), partial otherwise; C24 by showing that recovery from the store plus the last pair gives the state of an uninterrupted run, then induction over sessions |
| C25 | tree shape | part of the representation invariant |
| C26 | packed NibblePath | refinement to lists |
| C27 | bytes32ext | list lemmas, whole-table facts on bytes |
| C28 | merkle_hash with 16 bit bitmaps | bitmap lemma plus unfolding of four levels |
| C29, C30 | mock value history | induction over writes; C30 `version()` part false for empty sets (witness) |
| C31 | ics23 conversion, the verification rules of the ICS23 standard | the evaluated proof is the fold of C04; verification succeeds exactly when key and value are not empty and no other key shares the first 64 bits (the published depth limit); false otherwise (witnesses for every hash function) |
| C32 | hash preimages | list arithmetic |
| C33 | verify functions | totality by construction; range proof panics above 256 siblings (witness) |
| C34 | freeze | invariant; false for a first version above 0 (witness) |
| C35–C48 | pmt InnerTrie, nibbles, node codec, db, iterator | refinement of trie operations to a map; witnesses for the false ones (C36, C39, C41, C42 on reopened views, C44, C45 with empty key, C48) |
| C49, C50 | stale marks, purge over multi-version batches | invariants of C11/C12; false for copied roots (witnesses), partial otherwise |
| C51 | batch_put_value_sets with node hash maps | the maps are read only through `get_hash`; both runs computed. Runs with fewer hashes are compared step by step (`Proofs/HashCache`): same result or the panic of `get_hash` |
| C52 | iterator `next` on any reader | case analysis of the stack machine |
| C53 | restore `add_chunk` on any chunks | the zipper invariant `Live` is kept by every call, also failing ones; a resumed restore can panic (witness) |
| C55 | ics23 conversion of exclusion proofs, ICS23 non-existence verification | the paths of the nearest keys part once, and everything between them is empty: induction over the sparse Merkle tree; false next to empty values (witness) |
| C56, C57 | verification rules of the ICS23 standard against ics23_spec | a verifying path is, step by step from the root, the path of an entry (lengths and domain separators exclude all else), or a byte level collision is exhibited; the order checks then force everything between the neighbours to be empty |
| C60 | verification, get_with_proof | induction along the path from the root: a list of siblings that climbs to the root hash is the one of the tree, or two hashed inputs clash |
| C62 | `VersionedTrie` | from C60: the proof that verifies is unique; completeness from C04 |
| C63 | all reads, purge_stale_nodes | every read function gives, on a store with fewer nodes, the same answer or an error; a pruned store has no node that the store without pruning does not have |
| C64 | conversions of `db::Version` | positional notation; other lengths are read as 0 |
| C65 | put_value_sets, batch_put_value_sets | a cache over a reader with more nodes does the same steps; compared with the store that holds the nodes of `v` alone (`thin`) |
| C66 | the same, purge_stale_nodes | as C65 with a reader that may lack nodes: each step is the same or an error |
| C67 | TrieIterator over a database with lost nodes | the subtrees that can still be reached (`left`) are what the iterator visits and what `get` reads |
| C68 | get_proof, verify_proof | the nodes on the path of the key are all read by verify_proof, and nothing else is |
| C69 | EscapedByteSlice | against a reader of Rust byte string literals (`Spec/Literal`) |
| C70 | put_value_sets, batch_put_value_sets over any reader | a relation `Touch` between the tree caches before and after each function: which keys were added and how many |
| C71 | all reads over a reader that gives less | reads are monotone in the reader: same answer or error (`Below`), then C63 |
| C72 | JellyfishMerkleIterator::next | an error leaves the stack as it was |
| C73 | at_root, commit on the pruning MemoryDB | the invariant of C59 with the nodes of the opened root as a second list (`Opened`), step by step beside the archive run |
| C74 | get_with_proof | proof equals the path of the specified tree (C03); induction on the depth: the entries left on the path are those that agree so far |
| C75 | range proof verification, add_chunk | the verified chain of hashes is cut into siblings of one path (`range_verify_sibs`); the argument of C60 makes the path the one of the specified tree, or gives a clash |
| C76 | borsh encoding of update batches | maps are lists in key order, read by inserting one entry after the other; a sorted list is rebuilt as it was; sizes of computed batches from C70, numbers from the invariant of C61 |
| C77 | commit, when insert_batch or remove_batch of the database fails midway | the run with failing commits beside the run without: same roots in memory, same root hashes, so what both can read is the same (`Alikes`); on a pruning database the invariant of C41 does not mention the nodes written or removed by the failed commit (`LightInv.failCommit`) |
| C78 | len, is_empty | entries are keyed by hash; a commit leaves its root node in the database |
| C79 | write_tree_update_batch and purge_stale_nodes cut into single changes, reads and iterators in between | every moment holds the nodes and values of the version (`HoldsAt`); reads of two stores that both contain the least store with the version agree (`core`, `Below`) |
| C80 | the same batch, or the update computed anew, on a store that holds part of the batch | per key, the history is the old one with a beginning of the new values (`Part`); pushing again is analysed on lists (`pushAll`); computing again with the lemmas of C65 |
| C81 | get, insert, remove, get_proof, commit of pmt on two databases that agree on a list of keys | the lists of keys read are followed through the recursions (`getAt_reads_root`, `insertAt_agree`, `deleteAt_cost`, `pathAt_reads`); the number of nodes to be written is counted in the node (`load`, `under`), and bounded by a meter of the calls since the last commit (`Spec.meter`, `AllMetered`) |
| C83 | derived serde implementations of nodes and tries as functions to and from JSON values (`Common/Serde`, `Pmt/Serde`) | induction over the node with a limit on the nesting; tries that were made by `new` and not committed have no hash nodes (`AllInMemory`), so they do not depend on a database; the chain of keys `0^i` makes tries of any depth (`Rep.height_chain`). `Spec/PmtDoc` says which documents stand for which tries, as a relation; reading is this relation (`Node.ofSerde_iff`) |
| C82 | restore, then updates and prunings, as in C01 to C24 | a finished restore leaves exactly the nodes of the tree that a batch of the pairs makes, all of one version, and one value for each key (`RInv.finish_exact`, `VTree.Uni.unique`), so the store satisfies the invariant of a history of one batch (`Live.storeInv`); the induction over updates then starts from there (`runOps_resume`) |
| C84 | restore with `new_overwrite` and `new` on a store with data | the restore never reads the store, so a run on any store is matched step by step with the run on an empty one: each node and value list is that of the run on the empty store laid over the destination (`StoreOver`, `Live.addChunks_over`, `Live.finish_over`); the version is then read as after C22 by monotonicity of reads (`Below`), and older versions because their node keys and values are not touched (`StoreOver.still`). `new`: the parents of a stored node of an unpruned store are all stored (`StoreInv.ancestors`), so recovery of the partial nodes runs up to the root and fails (`StoreInv.recover_fails`), whatever the order of the node map |
| C85 | `Trie.commitIn`, `Sys.runIn` (`Pmt/Order.lean`): commits that meet cache and removed keys in a given order; `Shuffle`, `runOpsIn` (`Jmt/Order.lean`): the store and the batch are permuted before each operation; `putSetsIn`, `batchPutSetsIn`: the maps of the cache are permuted before every update and every `freeze` of a call | simulation: `Db.Alike` (equal lookups, no key twice) is preserved by every call of a trie and by commits in any order (`Sys.Alike.runIn`); `Store.Alike` is preserved by writes and purges because the reader of a permuted store is the same function and `BatchSpec` holds of a permuted batch (`runOpsIn_alike`); one call by the simulation `Sim` of C101 with no version renamed (`TreeCache.Turned`: the maps hold the same, in any order), which every function of the update path preserves (`putValueSetsIn_same`, `batchPutValueSetsIn_same`); `freeze` also by `freezeMove_any` |
| C86 | `Layers` (`Props/JmtLayers.lean`): histories laid one after another into one store by restores | frame argument (`Proofs/Frame.lean`): a store in which all nodes, values and marks are older than `w` (`Tidy w`) is never touched by the updates of a tree that starts at `w`, since these read only nodes of versions from `w` on; so the store is at any time the older store and the store of the newest layer side by side (`Beside`), and a pruning acts on each of the two (`Beside.write`, `Beside.purge`, `Beside.runOps`); induction on the number of layers |
| C87 | `Store.attempt` (`Jmt/Interrupt.lean`): the store when `write_tree_update_batch` ends, by success, failure or panic; `Race`: a batch computed from an earlier state of the store | a batch for version `j` has nodes and values of versions from `j` on only (`BatchSpec.writesFrom`) and a root node for `j` (`BatchSpec.hasRoot`), which the store has already; induction over the changes for what an attempt leaves alone (`attempt_before`, `attempt_taken`); the facts about a version need nodes of this and older versions only (`VersionFacts.sameBefore`) |
| C88 | derived serde implementations of nodes, node keys, hashes and proofs as functions to and from JSON values (`Jmt/Serde.lean`); `Spec/JmtDoc.lean`: which documents stand for which values; `Made`: children made with the methods of `Children` | structure of the types; reading a structure depends only on the entries with the names of its fields (`readFields_perm`); an equivalence for every reader, from the parts to the whole (`C88_documents`); the counter of children by induction over the methods (`C88_made_partial`) |
| C89 | `NodeBatch.merge`, `collect` (`Jmt/Merge.lean`): updates computed through a batch that is not written yet; `Store.Agrees`: same nodes, value histories, stale marks and flag | an update does not read values (`putValueSets_same`), so reading through the batch gives the same batch as reading the written store; histories by induction over the merged, ordered entries (`writeValues_merge`); induction over the updates (`collect_spec`) |
| C90 | `Store.putLeaf`: the store after the call beside the result | case distinction over the two lookups |
| C91 | `Preimages` (`Jmt/Merge.lean`) | induction over the recorded preimages; then C55 |
| C92 | `KeyBitIter` (`Jmt/Text.lean`), `BitIter` | an iterator is the part of the bits between its two positions; induction over the calls |
| C93 | Debug texts as lists of characters (`Jmt/Text.lean`) | the digits are injective; a decimal number has no comma |
| C94 | `decode_node`, `encode_raw`, and `Rlp` for the crate `rlp`; `Spec/PmtFormat`: the items that stand for nodes in the Yellow Paper; `Spec/PmtBytes`: the bytes that are accepted, and those that panic | induction over the rounds of decoding, also for the equivalences `C94_accepted` and `C94_breaks`; induction over nodes and over items of the format |
| C95 | the reads, updates and the recovery of a restore over readers whose lookups fail (`Jmt/Failing.lean`) | function by function: the same result as without errors, or the error (`OrFail`), by induction along the loops |
| C96 | JellyfishMerkleIterator over a reader whose lookups fail now and then | an error on the way down leaves a stack with the same entries still to come (`nextLoop_kept`); induction over the calls |
| C97 | InnerTrie and TrieIterator over a database whose `get` (and `len`) fails (`Pmt/Failing.lean`) | call by call: the same outcome as without errors, or the error after passing hash nodes that are passed otherwise too (`OutDb`); programs: `Alikes` of C77 for calls that are dropped, `Sys.Like` (same root, written nodes and database, same set of passed hash nodes) for calls made again; induction over the calls of `next` |
| C98 | the calls of InnerTrie as sequences of single accesses to the shared database, and threads that make them in any order (`Pmt/Threads.lean`) | a call whose accesses are made without others in between is the call of `Pmt/Trie` (`Sys.ask_run`); in an archive database entries are only added, and a lookup that finds nothing ends a call (`Call.Strict`), so that the rest of a call does on the shared database what it does on a part of it (`ThreadInv`); a system with more entries returns the same (`Twins.ask`); every call is a well-founded tree of accesses, so it ends (`Pool.ends`) |
| C99 | TrieIterator and OwnedTrieIterator while others use the database (`Pmt/Sweep.lean`): calls in between, and threads between any two lookups | everything on the stack stands for a stored tree (`Fed`), so every lookup finds its node, and a round does the same in every database that has the nodes; induction over the blocks of calls and over the schedule |
| C100 | remove, `delete_at`, commit (no new model; the specification `Spec/PmtMarks` follows which keys were removed while they were prefixes, and extends the node composition of the Yellow Paper by forced branches) | every tree is determined by its entries and its branches with fewer than two entries (`Thin`); insertion adds none, removal at most one at its path (`loose_insert`, `loose_del`), and there is none where entries part or one ends and one goes on (`thin_lone`), so marks go away when the entries call for a branch; induction over programs. Which of the marks carry a branch depends on what is in memory (`C100_depends_on_memory`), so it is quantified existentially |
| C101 | `TreeCache::new` with a root of version `u64::MAX`, `put_value_sets`, `batch_put_value_sets`, `freeze`, reads (`Jmt/Calls` adds a database that keeps all batches, since the mock store refuses some) | a run of the tree code is unchanged by an injective renaming of versions (`Proofs/Rename`, `Proofs/RenameBatch`: `Sim`), so the run from version 0 over `u64::MAX` is the run from version 1 over a batch at version 0 (or, when the first set has no effect, the run without that set); then the invariant of ordinary histories applies. False as claimed, see the findings |
| C102 | the version arithmetic of `put_value_sets`, `batch_put_value_sets` and `freeze`, with and without overflow checks (`Jmt/Overflow`) | the next version of the cache is the version of the round throughout (`NextKept`), so the sums of the machine are those of the unbounded model up to the end; induction over the sets and over the history. False with overflow checks at the last version, see the findings |
| C103 | `add_chunk` and `finish` of a restore on a store whose `write_node_batch` fails at times, writing nothing (`Jmt/RestoreFailing`) | the state of two restores that differ only in the store and in what is still to be written runs alike (`Like`); a failed write leaves the state of a refused proof, for which the zipper invariant `Live` holds already; what `finish` leaves is determined by the pairs taken. False for a chunk given again |
| C104 | restores by `new_overwrite` that end inside `write_node_batch`, with any nodes and any values of the batch written (`Jmt/RestoreTorn`), and a restore over what they leave | whatever they leave is the store before with nodes and values of the version restored besides (`LeftOver`, an invariant over any number of broken off restores); a restore never reads the store, so it runs as on an empty one, and a simulation keeps what it has written on top (`StoreAgain`). False for `new` and for stores that do not allow overwriting |
| C105 | `add_chunk` with the store as a refused `write_node_batch` of the mock leaves it (`Jmt/RestoreRefused`, over the single changes of `Jmt/Interrupt`) | values to be written are of the version restored (`Due`), and of keys given, so that a refusal needs a later value of such a key in the store (`Ahead`); a refused value stays in `frozen_nodes` and is refused for ever (`Blocked`). False of stores with later values of these keys |
| C106 | `verify_proof`, `get_at`, `decode_node`; `Spec/PmtWalk`: the walk of a key through the bytes of a proof, with `Spec/PmtBytes` for what the bytes stand for | a walk has only one end, and one that comes to no place twice has fewer steps over hashes than there are pairs of a hash in the database and a rest of the path, which are as many as the model allows |
| C107 | `get`, `get_at`, `recover_from_db`, `decode_node`; `Spec/PmtWalk` over the entries of any database | as C106, which is the case of the database that `verify_proof` makes |
| C108 | `insert`, `insert_at` on any database; `Spec/PmtShape`: the form of paths; what is read before and after | what reading gives at a place (`Gives`) does not change along a step; induction over the node and over the hashes passed |
| C109 | `remove`, `delete_at`, `degenerate` on any database, sequences of `insert` and `remove` | as C108; `degenerate` gives a node that reads the same |
| C110 | `get_proof`, `get_path_at`, `verify_proof` on any database; `Spec/PmtHonest`: databases of encoded nodes, perhaps incomplete | induction over the node and over the hashes passed: all nodes fetched on the way are parts of the proof; then C94 and the walks of C106, C107; what a commit inserts are encodings of nodes (`Proofs/PmtCommitHonest`, induction over the node), so after any calls and commits by C111 |
| C111 | `commit`, `write_node`, `encode_raw` on any archive database; `Spec/PmtShape`: form and size of paths, no empty values | induction over the node: the node with hashes for its children reads the same once what was written is stored; entries under their hashes stay without a collision; then C107 (more entries), C108, C109; any calls, proofs and commits by induction over them (`get_proof` caches only nodes under their hashes). Witness: an empty value in a branch is lost |
| C112 | `TrieIterator::next`, `values` on any database; `Spec/PmtHeld`: what is held at a path of digits, by the walk of C107 | the stack stands for a set of pairs to come (`Stack`); a round keeps it or yields one of it (`round_kept`); disjoint by prefixes. The rounds end by induction over `Ending` (no endless walk). Witnesses: an odd path, bytes that are no node, and a node that leads to itself |
| C113 | `TrieIterator::next` after `insert`, `remove` and `commit` on any database | C109 and C111 for what is read, C112 for what is yielded; paths of odd length are untouched by `insertAt` and `deleteAt` (`Puts`, `Takes`), so even lengths stay |
| C61 | derived borsh encodings | codecs built from combinators, each with the law that writing then reading is the identity and that only written bytes are read; every node a history stores fits its integer types; reading does not check what the constructors require (witnesses) |
| C59 | insert, remove, commit on the pruning database | `Spec/PmtReach` defines the nodes found from a root; the account of passed nodes of C41, made exact (every operation drops exactly the references it puts into `passing_keys`), gives the upper bound on what is stored; false for earlier roots and after `get_proof` (witnesses) |
| C58 | commit, node codec, rlp | `Spec/YellowPaper` defines the root by recursion over the list of entries; induction over the depth shows the encoding of a tree in normal form to be that of its entries; false after the removals of C39 (witness) |
| C54 | commit, node codec | the encodings of hash-free trees are injective barring a collision among the stored encodings |

## What the theorems found

Statements of `properties.jsonl` that are false of the code; each negation is a theorem with a concrete or general witness, next to a
`_partial` theorem with the part that holds.

* C10: `batch_put_value_sets` errs on a missing preceding root, `put_value_sets` silently starts an empty tree (`C10_missing_root_false`).
* C13, C34: an effect-free first version above 0 writes a root under the version before (`C13_first_version_false`, `C34_first_version_false`).
* C14: `new_leaves - stale_leaves` is off by one when an effect-free version copies a root leaf (`C14_leaf_difference_false`).
* C19: `get_with_exclusion_proof` looks the neighbour's subtree up under the queried version and fails with `Missing node` when that
  subtree is older (`C19_older_neighbour_false`). It never answers wrongly and never panics (`C19_answers_right`, `C19_total`). When exactly
  it succeeds is `C19_exact`: for each of the nearest keys, the walk to the missing key ends at its leaf, or the node where its path
  leaves that of the missing key is stored under the queried version. `C55_exact` says the same of `get_with_ics23_proof`.
* C23: `finish` does not compare the root hash; a truncated restore can be finished (`C23_truncated_restore_false`); `finish` with no
  chunk received panics (`C23_finish_empty_panics`).
* C53 (limit of the claim): a restore resumed from a store panics on a wrong chunk that an uninterrupted one refuses
  (`C53_resumed_panics`); the rightmost stored leaf lies below nodes that are already complete and are not recovered.
* C31, C55: `ics23_spec` allows 64 inner operations, the tree needs up to 256: existence proofs of two keys whose hashes agree in 64 bits are
  refused (`C31_depth_false`). Values may be empty in the tree, but the standard refuses proofs of empty values, also those of a neighbour
  in a non-existence proof (`C31_empty_value_false`, `C55_empty_value_false`).
* C30: `version()` of the mock store ignores versions with an empty set (`C30_version_false`).
* C33: range proof verification panics on more than 256 siblings (`C33_range_verify_panics`).
* C49, C50: roots copied by an empty version, or in the middle of a multi-version batch, are not reclaimed/marked
  (`C49_root_copy_false`, `C50_root_marks_false`).

* C36, C39: `delete_at` on a branch whose path ends there reports `true` also when the branch has no value, and does not simplify the
  branch (`C36_absent_reported_removed`, `C39_contents_do_not_determine_root`, `C39_emptied_trie_has_other_root`),
  so that the root is not the one the Yellow Paper defines (`C58_removed_prefix_false`). How far off it can be is C100: the additional branches are at removed
  prefixes at which the entries call for no branch, and nothing else differs. The positive theorems hold for all other removals: of absent keys, of keys that
  are proper prefixes of no present key, and of keys at which other entries part, where the branch is needed anyway (`Spec.Smooth`).
* C41: with the pruning database, removing an absent key and committing deletes nodes that are still needed (`C41_absent_removal_false`:
  `delete_at` puts the hash nodes it passes into `passing_keys` also when nothing is removed), and so does changing one of two keys that
  share a stored leaf (`C41_shared_leaf_false`: the database has no reference counts). The same happens with equal nodes
  without any value, which are left where a proper prefix of a present key was removed (`C41_removed_prefix_false`). A program without these three is shown to do the same
  as on an archive database, call by call (`C41_pruning_safe_partial`). Equal values are allowed: what must not be is that at two places of the trie the
  entries go on in the same way, unless it is one short entry that is stored in its parent (`Spec.Twins`).
* C63, C62: `get` and `contains` read the value history only. At a version that was never committed they answer as at the last version
  before it (`C62_contains`), while the proved reads report an error (`C63_get_with_proof`).
* C64: a byte string that is not 8 bytes long is silently read as version 0 (`C64_other_length`).
* C65: a value set that removes the last key and then deletes again drops the null root that it had put into the cache
  (`tree.rs:584-587`); the root hash is then read from the root of version `v+1` in the store, if there is one. The call returns the root
  hash of the stored version instead of that of the empty map (`C65_update_false`). Proved for sets without this; `batch_put_value_sets`
  is not affected.
* C66: `put_value_sets` takes a missing root node for the empty tree (`tree.rs:550-560`). On top of a pruned version, or at a version with
  a gap before it, it silently drops everything stored (`C66_pruned_false`, `C66_gap_false`); `batch_put_value_sets` reports an error.
* C67: the iterator skips nodes that it cannot load (`trie_iterator.rs`, `recover_from_db` gives `Ok(None)`) and ends as if what it has found
  were all (`C67_silent_false`); a view of a root that is not stored iterates as the empty trie (`C67_lost_root_yields_nothing`).
* C71: `get_with_proof` does not compare the value with the hash in the leaf (`tree.rs:884-898`). When one entry of the history of a key
  is lost, the entry before it is found in its place, and the old value is returned with a proof of the new one (`C71_history_false`).
  Lost nodes, and values that are then not found at all, only make reads fail (`C71_as_undamaged_partial`).
* C72: after an error the iterator keeps its stack, so the next call runs into the same error. A loop over the iterator that skips errors
  never ends once a node is missing, for instance when the version is pruned meanwhile (`C72_endless_false`).
* C73: `commit` of a trie that was opened with `at_root` panics on a pruning database when the contents are those of the opened root and the
  root node is shorter than 32 bytes: the node is in `gen_keys` of neither, its hash is in `passing_keys`, and the root that was just written is
  deleted before it is read back (`C73_same_contents_panics`; a removal that finds nothing is enough, `C73_absent_removal_panics`).
* C76: reading a batch does not check the order of the entries of its maps nor that keys are different: bytes with entries exchanged, or with an
  entry that a later one overwrites, are read as the same batch (`C76_other_bytes_false`). The bytes of a batch are therefore not canonical.
* C77: a commit is not atomic. On a pruning database, a commit that fails while removing nodes has already removed nodes of the last root that was returned,
  and the root it has written is not returned: the trie in memory is intact and can be committed again, but a process that restarts from the last root it
  knows finds keys missing (`C77_last_root_lost`).
* C78: `is_empty` and `len` look at the database and not at the trie: a trie with entries not yet committed is `is_empty`, an empty trie is not after a commit,
  and `len` counts nodes (`C78_not_contents`).
* C80: a batch cannot be written again once one of its stale marks, or values of two versions of one key, have been written: it reports an error, so the marks (values) that
  are missing stay missing (`C80_redo`); without `allow_overwrite` it panics (`C80_redo_panics`). Computing the update again instead is not always safe: `put_value_sets` with a set that
  deletes while nothing is stored finds the root node of the interrupted attempt and marks it stale, so that pruning loses the newest version (`C80_recompute_false`).
  Another update at the same version leaves values of the first one behind, which are returned with proofs that do not verify (`C80_other_update_false`).
* C81: every proof asked for between two commits writes all nodes changed since the last commit into the cache, where those that are changed again before the commit remain; the next commit
  stores them. The bound for commits therefore contains, for every proof, the nodes changed before it.
* C83: what has been committed is not part of the serialisation of a trie: every node of 32 bytes and more is lost, and its keys cannot be read from the copy
  (`C83_committed_false`), whose database is new and private. For every limit on the nesting of documents (128 in `serde_json`) there are tries that are serialised and cannot be
  deserialised (`C83_too_deep`). Deserialising checks nothing: a trie with an extension without prefix is accepted and its commit panics (`C83_unchecked`).
* C84: `JellyfishMerkleRestore::new` takes the rightmost leaf of any version in the store for a leaf of an interrupted restore. On a
  store that holds a key in some version and was never pruned it therefore always panics or returns an error (`C84_new_false`). If it
  starts, because pruning removed the parents of that leaf, it refuses all chunks up to the greatest stored key (`C84_new_goes_on`). Only
  `new_overwrite` can be used beside other versions. Even then `get_value_option` at the restored version answers with the older value of a
  key that is not in that version (`C84_value_left_false`), while `get` and `get_with_proof` answer correctly. No node is marked stale by a
  restore, so older versions are never pruned because of it.
* C85: `get_rightmost_leaf` replaces its candidate only by a greater key, so of several leaves with the greatest key (one for each version
  that changed it and was not pruned) it returns the one the hash map happens to give first. `JellyfishMerkleRestore::new` on the same store
  may thus succeed in one run and panic in the next (`C85_new_false`). It is well determined if no key has two leaves
  (`C85_rightmost_partial`), as in a store that holds one interrupted restore only.
* C86: nothing marks the nodes of the version that was newest when a restore at a later version began. They stay in the store
  whatever is pruned later (`C86_newest_kept`), which costs space, one tree for each restore.
* C87: `write_node_batch` inserts a node and only then asserts that nothing was replaced (`mock.rs:136-139`). When the assertion fails the
  node has been overwritten, and the lock, one of `parking_lot`, is not poisoned. A version that a second writer was not allowed to
  write can therefore change its root hash, and values of it come with proofs that do not verify (`C87_damage_false`). Checking before inserting
  would avoid it.
* C88: deserialising a document checks the shape only. It accepts an internal node whose `num_children` is not the number of its children, an
  internal node with a single leaf as child (`InternalNode::new_impl` refuses it), a path that is longer than its bytes and a `Nibble` of 200
  (`C88_node_unchecked_false`, `C88_path_unchecked_false`). The document of a proof without the field `leaf` is accepted as a proof without leaf
  (`C88_absent`). For `SparseMerkleProof<H>` serde demands that the hasher `H` is serialisable itself, as only fields of type `PhantomData<H>`
  are exempt from this and the field is a `PhantomHasher<H>`; `sha2::Sha256` is not. (This is about which programs compile and is not part of the model.)
* C89: `NodeBatch::merge` hides what would have been refused: an older value after a newer one, and a second node with the same key
  (`C89_refused_false`).
* C90: `put_leaf` stores the leaf before it stores the value. When the value is refused the leaf stays: the version exists, with a root hash,
  reading the key fails with "Missing value", and a second `put_leaf` fails with "Key exists." (`C90_refused_false`).
* C92 (remark): `get_bit` of the bit iterator over keys notes the assumptions `index < self.pos.end` and `self.pos.end == 256`
  (`bytes32ext.rs:84-86`). `next_back` breaks both. `assume!` only informs a verifier, so the bits returned are right nevertheless.
* C93: printing a node key read from a document can panic, for the reason given at C88 (`C93_unchecked_panics_false`).
* C94: `decode_node` accepts bytes that `encode_raw` never writes: any half byte in front of an even path, a length in front of a single
  small byte, bytes after the end of the list that are no item (`C94_one_encoding_false`). Contents do not determine the root hashes for
  which `verify_proof` proves them; the root still determines the contents (C43). Also accepted are lists whose later items lie behind their end, and the
  beginning of an item of data that is longer than the bytes, which is read as the empty node (`Spec.Accepted`, constructors `leaf` and `cut`).
* C95: `get_with_proof` and the searches of exclusion proofs replace every error in reading the root node by `MissingRootError` ("probably pruned"),
  whatever the error was (`tree.rs:856-862`, `983-989`, `1167-1173`). A caller that takes this answer to mean that the version is gone is wrong when the
  disk could not be read for a moment (`C95_root_false`).
* C96: in a version with one key the iterator sets `done` before it looks the value up (`iterator.rs:297-306`). If this lookup fails once, the next
  call returns `None` and the pair is never returned (`C96_single_false`). In all other versions a caller may go on after an error and loses nothing.
* C101: the case `TreeCache::new` keeps a branch for, a new genesis on top of a state of version `u64::MAX`, works only in part. The node at
  the root is found, so the root hashes of the first call are right. But the values of the old state carry version `u64::MAX` and are never found
  at a version from 0 on: `get_with_proof` ends with "Missing value" for each key that still has its old value (`C101_old_keys_false`). If the
  first set has no effect (it only deletes absent keys), no root is written for version 0; if that was the whole first call, the next call finds
  no root, begins with the empty tree and returns `Ok`: the state is lost (`C101_state_lost`, witness `C101_state_lost_false`); `batch_put_value_sets` fails there with "Missing node" instead (`C101_batch_fails`). And the mock store refuses a batch that
  mentions an old key, because its version is smaller than the one in the history (`C101_mock_store`).
* C102: `freeze` counts `next_version` on after the last set of a call too (`tree_cache.rs:322`). In a program built with overflow checks a call that makes
  version `u64::MAX` therefore panics, though the version is a valid one and nothing comes after it (`C102_checked_put`, `C102_last_version_false`; a history
  goes through exactly if it does not make that version, `C102_checked_history`). Built without checks it returns the right result; a call that goes on after
  that version returns `Ok` with the further sets as versions 0, 1, ... (`C102_wraps_false`).
* C103: a chunk whose write has failed cannot be given again: its keys have been taken already, and the call returns "Account keys must come in increasing
  order." whatever the store does (`C103_again_false`, for every chunk and every state). The caller must go on with the next chunk, or call `finish`, which writes
  what is left; with a tree of one key `finish` panics then (`C103_finish`). `finish` also writes pairs whose proof was refused: after one refused
  `add_chunk` it returns `Ok` with a wrong version (`C103_unconfirmed_false`), though the comment on `add_chunk_impl` says that nothing of an invalid chunk is written.
* C104: `new` trusts what it finds. It goes on after the rightmost stored leaf and takes the hashes of stored internal nodes as they are, so a batch of which only a
  part was written is never noticed: with the nodes written but not the values, or with an internal node written but not a leaf below it, the remaining chunks are
  accepted, `finish` returns `Ok`, the root hash is the expected one, and reads fail with "Missing value" or "Missing node" (`C104_resume_false`,
  `C104_resume_leaf_false`). `TreeWriter` does not say that a batch must be written as a whole; a comment
  on `NodeBatch` (`writer.rs:23`) says that it will be written atomically, which the mock store does not do. Starting over with `new_overwrite` is always right, if the store
  lets nodes be overwritten (`C104_started_over_partial`); otherwise it panics (`C104_no_overwrite_false`).
* C105: `write_node_batch` of the mock writes the nodes before it looks at the values, and `put_value` refuses a value that is older than the last one of its key. A chunk of a
  restore of an old version can thus be refused with its nodes written, over nodes in use: `get_with_proof` of that version gives the old value with a proof that no longer verifies
  (`C105_refused_chunk_false`). The restore keeps the refused batch, so that nothing succeeds any more (`C105_no_way_on`), and on a store that does not let nodes be overwritten
  the next `add_chunk` panics (`C105_next_chunk_panics`).
* C97: `insert` and `remove` put a hash into `passing_keys` before they look the node up (`inner.rs:494-508`, `560-574`, `638-653`). If the lookup fails, the
  trie is as before except for this set, and on a pruning database the next commit deletes the nodes in it, although the trie still refers to them
  (`C97_pruning_false`): an error that lasts for a moment loses data. If the failed call is made again before the commit, nothing is lost (`C97_made_again`).
* C97: the iterators return `None` when a lookup fails (`trie_iterator.rs:134-137`), so `values` returns `Ok` with part of the pairs (`C97_values_false`), and a
  caller that calls `next` again gets the pairs behind the subtree that could not be read (`C97_skips_false`). `len` returns 0 and `is_empty` true when the
  database cannot tell its size (`inner.rs:93-95`, `C97_len_false`).
* C98: on a pruning database, a commit of one thread deletes nodes that the tries of other threads (clones, or views of the same root) refer to; a key that they
  read before can no longer be read (`C98_pruning_false`). No interleaving is needed for this, only that the tries share the database.
* C98: `len` and `is_empty` of `MemoryDB` are `try_read().unwrap()` (`db.rs:115-121`): they panic while another thread holds the lock for writing, and so do `len` and
  `is_empty` of the tries (`inner.rs:93-104`). `values` of `MemoryDB` returns an empty list then (`db.rs:123-133`, `C98_len_false`).
* C99: on a pruning database, an owned iterator over a copy of a trie loses the pairs below nodes that a commit of the trie deletes, and ends without an
  error (`C99_pruning_false`).
* C51: supplied hashes are not checked; with a wrong one the call succeeds and returns a wrong root hash (`C51_wrong_hash_false`).
* C61: deserialising checks the shape of the bytes only. Bytes exist that are read as a node key whose path has no byte for its nibbles, so
  that looking at a nibble panics, and as an internal node whose number of children is wrong (`C61_node_key_unchecked_false`,
  `C61_node_unchecked_false`).
* C59: the pruning database grows with every commit. The root node is replaced by its decoded form after a commit, so its hash never gets
  into `passing_keys`, and the root node of every commit stays stored (`C59_old_root_false`). Also `get_proof` on a trie with changes writes
  nodes that a later change makes useless; the commit stores them and nothing removes them (`C59_proof_false`). Earlier roots are all that is
  left behind by a program as in C41 without `get_proof` (`C59_only_old_roots_partial`).
* C42: the proof of an empty trie does not verify (`C42_empty_trie_false`), and `get_proof` on a view made by `at_root` panics
  (`C42_view_panics`).
* C44: `verify_proof` panics on a node with an empty compact path (`C44_verify_panics`), and on a proof of one part exactly if
  `Spec.Breaks` describes it or it is its own hash (`C44_one_part`). It never panics if no part breaks and no bare hashes lead in a circle
  (`C44_bytes_partial`). Not modelled: chains of proof nodes that decode to
  bare hashes make the recursion as deep as the proof is long, so a long proof can overflow the stack of the Rust program.
* C45: iterating panics when the empty key is present together with another key (`C45_empty_key_panics`), and may when it is
  the only key, after a proper prefix of a present key was removed (`C45_lone_empty_key_false`); exactly if a branch is left over (`C45_exactly`).
* C46: `encode_compact` and `encode_raw` panic on the empty nibble string without terminator (`C46_empty_path_panics`).
* C48: on a pruning database a failed insertion followed by a commit deletes the nodes passed on the way (`C48_light_false`); a commit on a
  view whose root node is lost panics (`C48_lost_root_panics`).

## Modelled and not modelled

Modelled in `Verif/Jmt`: `types.rs` nibble/bit views of keys (`Key`), `bytes32ext.rs`, `types/nibble/nibble_path.rs` (packed form,
`NibblePath`), `node_type.rs` without the serialisation (`NodeType`, `Hash`), `tree_cache.rs` (`TreeCache`), `tree.rs` update paths
(`Tree`, `Batch`), reads and proofs (`Read`, `Proof`), exclusion proofs (`Exclusion`), `tree/ics23_impl.rs` (`Ics23`), `mock.rs` (`Store`, `Db`, `History`; its writes and removals one by one: `Interrupt`), `iterator.rs` (`Iterator`), `restore.rs`
(`Restore`), hash preimages (`Bytes`).

Modelled in `Verif/Pmt`: `nibbles.rs` (`Nibbles`), the part of the external crate `rlp` 0.5 that is used, transcribed from its published
behaviour since its source is not in the repository (`Rlp`), `node.rs` and the node codec of `inner.rs` (`Node`), the operations of
`inner.rs` on the in-memory database of `db.rs` (`Trie`), several tries over one database (`System`), commits in which the database fails (`Faulty`), a database whose lookups fail (`Failing`), threads over one database (`Threads`), iterators while the database changes (`Sweep`), `len` and `is_empty` (`Size`), `trie_iterator.rs` (`Iter`). `Db.log` is a ghost field: every
encoding ever written, never read by the code; collisions are stated about it. The cache of a trie is the list of pairs written, in order.

`Jmt/Versioned`: the rest of `trie.rs`. `Jmt/VersionBytes`: the conversions of `db::Version`. `Jmt/Escape`: the text of a key in the log. `Jmt/Borsh`: the derived borsh encodings of nodes, node keys, stale indices and proofs. `Jmt/BorshBatch`: those of update batches, as
ordered maps with packed paths (`TreeUpdateBatch.wire` turns a batch of the model, whose node map is unordered, into this form).

`Common/Serde`, `Pmt/Serde`: the derived serde implementations of the tries of pmt, for the data model of `serde_json` (a tree of JSON values; the text of a document, and the
parser, are not modelled; the limit on the nesting counts nodes, each of which is two or three levels of the document).

`Jmt/Serde`: the derived serde implementations of jmt, in the same way.

`Jmt/Text`: the `Debug` texts in their one-line form, and the bit iterator over keys.

`Jmt/Overflow`: the update calls with the arithmetic of `u64`. `Jmt/RestoreFailing`: a restore on a store that cannot be written at times. `Jmt/RestoreTorn`: restores that end inside a write. `Jmt/RestoreRefused`: restores on a store that refuses a value.

`Jmt/Merge`: the rest of `NodeBatch`, and the methods of `MockTreeStore` that no other file uses (`put_leaf`, preimages).

Not modelled: metrics, the migration of values
(`get_value_existence` helpers used only in tests), `writer.rs`/`reader.rs` traits beyond the mock store, restore
wrappers (`StateSnapshotReceiver`, `restore.rs:703-731`, only passes calls on), storage failures (except missing entries, errors of lookups (C95, C96, C97), errors of the batches of a PMT commit, failed writes of a restore (C103), writes of a restore cut short (C104), and values refused (C105)). `jmt/src/types/access_path.rs`, `types/block_info.rs` and `types/transaction/change_set.rs` belong to no declared
module and are not compiled. `next` of `OwnedTrieIterator` (`trie_iterator.rs:194-279`) has the same text as that of
`TrieIterator` (75-160), and one definition stands for both.

## Trusted base

* Lean 4.33.0 kernel (and Mathlib modules imported one by one); axioms at most `propext`, `Classical.choice`, `Quot.sound`.
* The reading of the Rust text: each model definition cites file and lines.
* External crates are represented by their contract only: sha2/keccak (arbitrary functions), `rlp` (modelled codec; its encoder is proved to be that of the Yellow Paper, `C58_rlp`), `hashbrown`/`BTreeMap`
  (finite maps), `borsh` 0.10 (`Jmt/Borsh`: its published encoding of integers, options, enums, vectors and structs), `ics23` (`Spec/Ics23`: the verification of existence and non-existence proofs, transcribed from the published standard), `parking_lot`/`RwLock`/`Arc` (a read lock or write lock is held for one access of `MemoryDB`, which is therefore one step of a thread in C98; otherwise single-threaded semantics, except that C79 lets every single lookup of a reader fall between any two single changes of a writer; the mock store itself holds its lock for longer).
