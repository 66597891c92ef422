{"id": "C01", "title": "Root hash is the sparse Merkle root of the contents", "statement": "After any sequence of committed value sets (inserts, overwrites, deletions, repeated keys, empty sets) the root hash returned by put_value_set/put_value_sets for version v, and the one read back by get_root_hash(v), is the sparse Merkle root (256-level binary tree, empty subtree = placeholder, single-key subtree = that leaf) of exactly the key/value map obtained by applying the sets in order.", "quantifier": "every finite history of value sets at consecutive versions starting from an empty store, every set of 256-bit keys, every hash function", "why_tests_cant": "the number of histories and key-prefix configurations is unbounded; tests sample random keys, which practically never share long prefixes, and sample only a few deletion patterns", "anchors": ["jmt/src/tree.rs:put_value_set", "jmt/src/tree.rs:put_value_sets", "jmt/src/tree.rs:get_root_hash", "jmt/src/tree_cache.rs:TreeCache::freeze", "jmt/src/node_type.rs:InternalNode::merkle_hash"]}
{"id": "C02", "title": "Root hash is independent of history", "statement": "If two histories, however different in order, number of versions, intermediate inserts and deletions, lead to the same key/value map, then the root hashes of their final versions are equal.", "quantifier": "every pair of histories of value sets ending in the same map", "why_tests_cant": "equality over pairs of arbitrary histories; a test compares a handful of pairs", "anchors": ["jmt/src/tree.rs:put_value_set", "jmt/src/tree.rs:insert_at", "jmt/src/tree.rs:insert_at_internal_node", "jmt/src/tree.rs:insert_at_leaf_node"]}
{"id": "C03", "title": "Every committed version stays readable and immutable", "statement": "After committing versions 0..n, get_with_proof(k, v) for each v<=n returns exactly the value the map had after version v (None when absent), no matter how many later versions were committed.", "quantifier": "every history, every committed version v, every key k", "why_tests_cant": "quantifies over all later histories; a copy-on-write mistake only shows up for particular sharing patterns between versions", "anchors": ["jmt/src/tree.rs:get_with_proof", "jmt/src/tree_cache.rs:TreeCache::get_node", "jmt/src/mock.rs:MockTreeStore::write_tree_update_batch"]}
{"id": "C04", "title": "Generated proofs always verify", "statement": "For every committed version v and key k, the proof returned by get_with_proof(k, v) verifies against get_root_hash(v): as an inclusion proof for the returned value, or as a non-inclusion proof when None is returned.", "quantifier": "every history, committed version, and key (present, absent with empty subtree, absent with another leaf)", "why_tests_cant": "proof shape depends on the positions of all keys; tests cannot enumerate 2^256 keys and every tree shape", "anchors": ["jmt/src/tree.rs:get_with_proof", "jmt/src/node_type.rs:InternalNode::get_child_with_siblings", "jmt/src/types/proof/definition.rs:SparseMerkleProof::verify"]}
{"id": "C05", "title": "Inclusion proofs are sound", "statement": "If any SparseMerkleProof (also one made up by an adversary) verifies as inclusion of (k, value) against the root hash of a committed tree, then the tree holds k with a value of the same value hash, or an explicit collision / placeholder preimage of the node hash function has been exhibited.", "quantifier": "every tree content, key, value, and every proof object (arbitrary leaf, arbitrary list of siblings)", "why_tests_cant": "ranges over all adversarial proofs; tests try a few corrupted ones", "anchors": ["jmt/src/types/proof/definition.rs:SparseMerkleProof::verify", "jmt/src/types/proof/definition.rs:SparseMerkleProof::verify_existence", "jmt/src/types/proof.rs:SparseMerkleInternalNode::hash", "jmt/src/types/proof.rs:SparseMerkleLeafNode::hash"]}
{"id": "C06", "title": "Non-inclusion proofs are sound", "statement": "If any SparseMerkleProof verifies as non-inclusion of k against the root hash of a committed tree, then k is absent from the tree, or an explicit collision / placeholder preimage of the node hash function has been exhibited.", "quantifier": "every tree content, key and every proof object", "why_tests_cant": "ranges over all adversarial proofs", "anchors": ["jmt/src/types/proof/definition.rs:SparseMerkleProof::verify", "jmt/src/types/proof/definition.rs:SparseMerkleProof::verify_nonexistence"]}
{"id": "C07", "title": "Root hash binds the contents", "statement": "If two trees have the same root hash then they hold the same keys with the same value hashes, or an explicit collision / placeholder preimage of the node hash function has been exhibited.", "quantifier": "every pair of tree contents", "why_tests_cant": "statement over all pairs of maps; cannot be sampled", "anchors": ["jmt/src/types/proof.rs:SparseMerkleInternalNode::hash", "jmt/src/types/proof.rs:SparseMerkleLeafNode::hash", "jmt/src/node_type.rs:InternalNode::merkle_hash"]}
{"id": "C08", "title": "Updates never fail or panic on a consistent store", "statement": "On a store produced by committing versions 0..n-1 in order, put_value_set at version n succeeds for every value set: no error is returned and no internal assertion (node already exists, node stale twice, ran out of nibbles, prefix mismatch, empty internal node) fires, and writing the batch to the store succeeds.", "quantifier": "every history and every next value set including deletions of absent keys and repeated keys", "why_tests_cant": "requires showing every internal assertion unreachable for every tree shape and update order", "anchors": ["jmt/src/tree.rs:put_value_sets", "jmt/src/tree.rs:insert_at", "jmt/src/tree_cache.rs:TreeCache::delete_node", "jmt/src/tree_cache.rs:TreeCache::put_node", "jmt/src/node_type.rs:InternalNode::new_impl", "jmt/src/mock.rs:MockTreeStore::write_tree_update_batch"]}
{"id": "C09", "title": "A multi-version update equals successive single-version updates", "statement": "put_value_sets([s1..sn], v) returns the same root hashes as put_value_set(s1, v), ..., put_value_set(sn, v+n-1) committed one by one, and after writing its batch the store holds the same nodes and the same value history, so every read (get_node_option, get_value_option, get_with_proof, get_root_hash, iteration) at every version gives the same answer.", "quantifier": "every store reached by a history, every list of value sets", "why_tests_cant": "frozen-cache/storage interplay depends on the whole list of sets", "anchors": ["jmt/src/tree.rs:put_value_sets", "jmt/src/tree_cache.rs:TreeCache::freeze", "jmt/src/tree_cache.rs:TreeCache::get_node"]}
{"id": "C10", "title": "Batch insertion agrees with one-by-one insertion", "statement": "batch_put_value_sets on insert-only, non-empty value sets yields the same root hashes as put_value_sets on the same sets (a later duplicate of a key wins).", "quantifier": "every store reached by a history, every list of non-empty insert-only sets", "why_tests_cant": "two different recursive algorithms must agree on all key sets", "anchors": ["jmt/src/tree.rs:batch_put_value_sets", "jmt/src/tree.rs:batch_insert_at", "jmt/src/tree.rs:batch_create_subtree", "jmt/src/tree.rs:batch_create_subtree_with_existing_leaf", "jmt/src/types/nibble.rs:NibbleRangeIterator"]}
{"id": "C11", "title": "Pruning never breaks a readable version", "statement": "After purging stale nodes with least readable version m, every get_with_proof, get_root_hash and iteration at any committed version >= m gives exactly the result it gave before purging.", "quantifier": "every history, every m, every committed version >= m, every key", "why_tests_cant": "deleting one node too many is only observable for particular version/prefix combinations", "anchors": ["jmt/src/mock.rs:MockTreeStore::purge_stale_nodes", "jmt/src/tree_cache.rs:TreeCache::delete_node", "jmt/src/tree_cache.rs:TreeCache::freeze", "jmt/src/writer.rs:StaleNodeIndex"]}
{"id": "C12", "title": "Stale marks are accurate", "statement": "A node marked stale since version v exists until it is pruned, was written at a version < v, was part of the tree of an earlier version (if it is not a root: of version v-1), is not part of the tree of any version >= v, and is never marked twice.", "quantifier": "every history, every stale index entry, every committed version", "why_tests_cant": "quantifies over all nodes and versions of all histories", "anchors": ["jmt/src/tree_cache.rs:TreeCache::delete_node", "jmt/src/tree_cache.rs:TreeCache::freeze", "jmt/src/mock.rs:MockTreeStore::put_stale_node_index"]}
{"id": "C13", "title": "Updates only write fresh node keys", "statement": "The node batch of an update at versions v..v+n-1 contains only node keys whose version lies in v..v+n-1, so committing it never overwrites or alters a node of an earlier version.", "quantifier": "every store reached by a history and every list of value sets", "why_tests_cant": "needs every code path of the recursive update to be covered for every tree shape", "anchors": ["jmt/src/tree_cache.rs:TreeCache::put_node", "jmt/src/tree.rs:insert_at_internal_node", "jmt/src/tree.rs:insert_at_leaf_node", "jmt/src/mock.rs:MockTreeStore::write_node_batch"]}
{"id": "C14", "title": "Node statistics are exact", "statement": "For each version in an update the reported new_nodes and stale_nodes equal the number of node-batch entries created and stale-index entries recorded at that version, and new_leaves - stale_leaves equals the change in the number of keys.", "quantifier": "every history and every value set", "why_tests_cant": "counter bookkeeping along recursive insert/delete/collapse must hold on all shapes", "anchors": ["jmt/src/tree_cache.rs:TreeCache::put_node", "jmt/src/tree_cache.rs:TreeCache::delete_node", "jmt/src/tree_cache.rs:TreeCache::freeze", "jmt/src/writer.rs:NodeStats"]}
{"id": "C15", "title": "Leaf count equals the number of keys", "statement": "get_leaf_count(v) returns Some(number of keys present in version v) on every committed version of a tree built with leaf-count tracking.", "quantifier": "every history, every committed version", "why_tests_cant": "an off-by-one in one update path shows only for specific shapes", "anchors": ["jmt/src/tree.rs:get_leaf_count", "jmt/src/node_type.rs:InternalNode::sum_leaf_count", "jmt/src/node_type.rs:Node::leaf_count"]}
{"id": "C16", "title": "Iteration from a key is complete, ordered and exact", "statement": "Iterating version v from starting key s yields exactly the pairs (k, value) of version v with k >= s, in strictly increasing key order, each once, then None.", "quantifier": "every history, committed version, and starting key", "why_tests_cant": "the traversal stack machine must be right for every tree and every start position", "anchors": ["jmt/src/iterator.rs:JellyfishMerkleIterator::new", "jmt/src/iterator.rs:JellyfishMerkleIterator::next", "jmt/src/iterator.rs:NodeVisitInfo"]}
{"id": "C17", "title": "Iteration from an index starts at that index", "statement": "new_by_index(v, i) yields exactly the pairs of version v in increasing key order with the first i dropped (nothing if i >= number of keys); in particular iter(v) yields everything.", "quantifier": "every history, committed version, and index", "why_tests_cant": "depends on leaf counts in every node of every tree", "anchors": ["jmt/src/iterator.rs:JellyfishMerkleIterator::new_by_index", "jmt/src/iterator.rs:JellyfishMerkleIterator::skip_leaves", "jmt/src/tree.rs:VersionedTrie::iter"]}
{"id": "C18", "title": "Direct reads agree with proved reads", "statement": "For every committed version v and key k, get(k, v) (read from the value history) equals the value returned by get_with_proof(k, v).", "quantifier": "every history of consecutive versions, committed version and key", "why_tests_cant": "two independent data structures (value history and node tree) must agree for all histories", "anchors": ["jmt/src/tree.rs:VersionedTrie::get", "jmt/src/tree.rs:get_with_proof", "jmt/src/mock.rs:MockTreeStore::get_value_option"]}
{"id": "C19", "title": "Exclusion proofs exist and bound the missing key", "statement": "For every key k absent from a non-empty committed version v, get_with_exclusion_proof(k, v) succeeds and returns proofs that verify for the greatest present key below k and the least present key above k (only one of them at the ends of the key space), so that nothing present lies between.", "quantifier": "every history, committed version and absent key", "why_tests_cant": "neighbour search depends on the whole tree shape and on node versions", "anchors": ["jmt/src/tree.rs:get_with_exclusion_proof", "jmt/src/tree.rs:search_closest_extreme_node", "jmt/src/tree.rs:get_bounding_path", "jmt/src/tree.rs:get_extreme_key_hash"]}
{"id": "C20", "title": "Range proofs verify", "statement": "For every committed version v and present key k, get_range_proof(k, v) together with the left siblings of k computed from the keys <= k verifies against get_root_hash(v).", "quantifier": "every history, version and present key", "why_tests_cant": "sibling splitting by key bits must be right for all keys and trees", "anchors": ["jmt/src/tree.rs:get_range_proof", "jmt/src/types/proof/definition.rs:SparseMerkleRangeProof::verify"]}
{"id": "C21", "title": "Restoring all chunks reproduces the tree", "statement": "Feeding all key/value pairs of a committed version in order, split into arbitrary non-empty chunks each with its range proof, to a fresh restore succeeds and finish leaves a store whose tree at the target version has the same root hash and contents.", "quantifier": "every tree content with at least one key, every split into chunks", "why_tests_cant": "all trees and all chunkings", "anchors": ["jmt/src/restore.rs:JellyfishMerkleRestore::add_chunk_impl", "jmt/src/restore.rs:JellyfishMerkleRestore::add_one", "jmt/src/restore.rs:JellyfishMerkleRestore::finish_impl"]}
{"id": "C22", "title": "A restore accepts only the genuine leading keys", "statement": "If add_chunk succeeds, then the pairs accepted so far are exactly the key/value-hash pairs of the expected tree up to the last accepted key, or an explicit collision / placeholder preimage of the node hash function has been exhibited.", "quantifier": "every expected tree, every sequence of chunks and proofs supplied by an adversary", "why_tests_cant": "adversarial chunks and proofs cannot be enumerated", "anchors": ["jmt/src/restore.rs:JellyfishMerkleRestore::verify", "jmt/src/restore.rs:JellyfishMerkleRestore::add_chunk_impl", "jmt/src/restore.rs:JellyfishMerkleRestore::compute_left_sibling"]}
{"id": "C23", "title": "A finished restore has the expected root hash", "statement": "If finish returns Ok then the root hash of the restored version equals the expected root hash given at construction.", "quantifier": "every sequence of successful add_chunk calls followed by finish", "why_tests_cant": "ranges over all truncated or complete restore sessions", "anchors": ["jmt/src/restore.rs:JellyfishMerkleRestore::finish_impl", "jmt/src/restore.rs:JellyfishMerkleRestore::freeze"]}
{"id": "C24", "title": "An interrupted restore can be resumed", "statement": "If a restore is dropped after any number of chunks, a new restore over the same storage resumes in a state from which adding the pairs after the rightmost stored leaf and finishing gives the same final tree as an uninterrupted restore.", "quantifier": "every tree, every crash point between chunks", "why_tests_cant": "crash points times tree shapes", "anchors": ["jmt/src/restore.rs:JellyfishMerkleRestore::new", "jmt/src/restore.rs:JellyfishMerkleRestore::recover_partial_nodes", "jmt/src/mock.rs:MockTreeStore::get_rightmost_leaf"]}
{"id": "C25", "title": "The stored tree is canonical", "statement": "In every committed version every internal node reachable from the root covers at least two keys, every leaf sits at the shortest prefix that distinguishes its key from all other keys of that version (up to whole nibbles), and no path is longer than 64 nibbles.", "quantifier": "every history and every committed version", "why_tests_cant": "needs an invariant over all histories including deletions that collapse chains of nodes", "anchors": ["jmt/src/tree.rs:insert_at_internal_node", "jmt/src/tree.rs:insert_at_leaf_node", "jmt/src/node_type.rs:InternalNode::new_impl"]}
{"id": "C26", "title": "Nibble paths behave as stacks of nibbles", "statement": "The packed NibblePath built by any sequence of push and pop behaves as the plain list of nibbles: last, get_nibble, get_bit, len and iteration agree with the list, and two paths are equal exactly when the lists are equal (so node keys collide only for equal paths).", "quantifier": "every sequence of pushes and pops up to 64 nibbles", "why_tests_cant": "all operation sequences and contents; packed half-byte residue bugs only show for particular pop/push interleavings", "anchors": ["jmt/src/types/nibble/nibble_path.rs:NibblePath::push", "jmt/src/types/nibble/nibble_path.rs:NibblePath::pop", "jmt/src/types/nibble/nibble_path.rs:NibblePath::get_nibble", "jmt/src/types/nibble/nibble_path.rs:NibblePath::new_odd"]}
{"id": "C27", "title": "Bit, nibble and byte views of a key agree", "statement": "For every 32-byte key the bit iterator, the nibble accessor and the byte string describe the same 256-bit string; rebuilding the key from its bits gives the key back, every sequence of 256 bits is that of a key, and a sequence of another length is refused; the common prefix length in bits is the exact number of equal leading bits; byte-wise key order is bit-lexicographic order.", "quantifier": "every key and every pair of keys", "why_tests_cant": "2^256 keys and all pairs", "anchors": ["jmt/src/bytes32ext.rs:Bytes32Ext::iter_bits", "jmt/src/bytes32ext.rs:Bytes32Ext::get_nibble", "jmt/src/bytes32ext.rs:Bytes32Ext::from_bit_iter", "jmt/src/bytes32ext.rs:Bytes32Ext::common_prefix_bits_len"]}
{"id": "C28", "title": "Internal node hashing and sibling extraction are consistent", "statement": "For every internal node that is not a sole leaf child and every nibble n, folding the sibling hashes returned by get_child_with_siblings for n onto the hash of the returned child (placeholder if none) along the bits of n reproduces the node's hash; and that hash is the sparse binary Merkle hash over the 16 children.", "quantifier": "every internal node (all 16-child configurations with arbitrary hashes) and nibble", "why_tests_cant": "2^16 existence patterns times leaf patterns times arbitrary hashes", "anchors": ["jmt/src/node_type.rs:InternalNode::merkle_hash", "jmt/src/node_type.rs:InternalNode::get_child_with_siblings", "jmt/src/node_type.rs:InternalNode::get_child_without_siblings"]}
{"id": "C29", "title": "Value history answers the latest value at or below a version", "statement": "After any sequence of accepted writes to the in-memory store, get_value_option(v, k) is the value of the last write to k with version <= v (None if that was a deletion or there is none), and a write with a version lower than the last one for that key is rejected.", "quantifier": "every sequence of writes, every version and key", "why_tests_cant": "all write sequences", "anchors": ["jmt/src/mock.rs:MockTreeStoreInner::put_value", "jmt/src/mock.rs:MockTreeStore::get_value_option"]}
{"id": "C30", "title": "The number of keys and emptiness reported by the store match the latest contents", "statement": "len() equals the number of keys present in the latest committed version, is_empty() is equivalent to len() = 0, and version() is the latest committed version.", "quantifier": "every history of committed value sets", "why_tests_cant": "all histories, including deletions and empty updates", "anchors": ["jmt/src/mock.rs:VersionedDatabase::len", "jmt/src/mock.rs:VersionedDatabase::version", "jmt/src/db.rs:VersionedDatabase"]}
{"id": "C31", "title": "ICS23 existence proofs compute the tree's root", "statement": "For every present key, the ICS23 existence proof derived from the tree's proof, evaluated by the ICS23 rules (hash leaf prefix, key, value; then each inner op prefix and suffix), yields get_root_hash(v), and satisfies the published spec's path-length limit.", "quantifier": "every history, version and present key", "why_tests_cant": "path prefixes/suffixes depend on every bit of the key and on sibling positions", "anchors": ["jmt/src/tree/ics23_impl.rs:sparse_merkle_proof_to_ics23_existence_proof", "jmt/src/tree/ics23_impl.rs:ics23_spec"]}
{"id": "C32", "title": "Leaf and internal hashes are domain separated", "statement": "The byte strings hashed for leaf nodes and for internal nodes are never equal, and each determines its contents uniquely.", "quantifier": "every leaf (key, value hash) and every pair of child hashes", "why_tests_cant": "all byte contents", "anchors": ["jmt/src/types/proof.rs:SparseMerkleInternalNode::hash", "jmt/src/types/proof.rs:SparseMerkleLeafNode::hash"]}
{"id": "C33", "title": "Proof verification is total", "statement": "Verifying any SparseMerkleProof or SparseMerkleRangeProof, whatever its contents, returns Ok or Err and never panics.", "quantifier": "every proof object", "why_tests_cant": "untrusted inputs of unbounded size", "anchors": ["jmt/src/types/proof/definition.rs:SparseMerkleProof::verify", "jmt/src/types/proof/definition.rs:SparseMerkleRangeProof::verify"]}
{"id": "C34", "title": "An update with no effect leaves a readable identical version", "statement": "Committing a value set that changes nothing (empty, or only deletions of absent keys) at version v yields a version v whose root hash, contents and proofs are identical to version v-1, and the version is readable.", "quantifier": "every history and every ineffective value set, including the very first version", "why_tests_cant": "edge case interplay between cache, storage and version numbers across all histories", "anchors": ["jmt/src/tree_cache.rs:TreeCache::freeze", "jmt/src/tree.rs:put_value_sets"]}
{"id": "C35", "title": "The Patricia trie behaves as a map", "statement": "After any sequence of insert, remove and commit (root_hash) calls on a trie over an archive (non-light) database, get(k) returns the most recently inserted value of k, or None if never inserted or since removed; contains(k) says whether get(k) is Some.", "quantifier": "every sequence of operations, every byte-string key and non-empty value", "why_tests_cant": "all key-prefix configurations (branch splits, extension splits, merges after removal) and commit points", "anchors": ["pmt/src/inner.rs:InnerTrie::insert", "pmt/src/inner.rs:InnerTrie::remove", "pmt/src/inner.rs:InnerTrie::get", "pmt/src/inner.rs:InnerTrie::contains", "pmt/src/inner.rs:InnerTrie::commit"]}
{"id": "C36", "title": "remove reports whether the key was present", "statement": "remove(k) returns true exactly when k was present before the call.", "quantifier": "every trie state and key", "why_tests_cant": "depends on node shapes reached only by particular prefix combinations", "anchors": ["pmt/src/inner.rs:InnerTrie::remove", "pmt/src/inner.rs:InnerTrie::delete_at"]}
{"id": "C37", "title": "Empty values are rejected without effect", "statement": "insert(k, empty) returns an error and leaves the trie's contents and root unchanged.", "quantifier": "every trie state and key", "why_tests_cant": "all states", "anchors": ["pmt/src/inner.rs:InnerTrie::insert"]}
{"id": "C38", "title": "Trie root hash does not depend on insertion order", "statement": "Two insert-only histories that produce the same map give the same root hash.", "quantifier": "every pair of insertion sequences with the same final map", "why_tests_cant": "all permutations and overwrites of arbitrary key sets", "anchors": ["pmt/src/inner.rs:InnerTrie::insert_at", "pmt/src/inner.rs:InnerTrie::commit"]}
{"id": "C39", "title": "Trie root hash depends only on contents", "statement": "Two histories of inserts and removes that produce the same map give the same root hash; in particular removing everything gives the empty-trie hash.", "quantifier": "every pair of operation sequences with the same final map", "why_tests_cant": "all pairs of histories", "anchors": ["pmt/src/inner.rs:InnerTrie::delete_at", "pmt/src/inner.rs:InnerTrie::degenerate", "pmt/src/inner.rs:InnerTrie::commit"]}
{"id": "C40", "title": "A committed root can be reopened with the same contents", "statement": "With an archive database, after commit returns h, at_root(h) gives a view whose get(k) agrees with the committed contents for every k, also after any number of later modifications and commits (barring a hash collision).", "quantifier": "every history, every committed root, every key", "why_tests_cant": "all histories and encodings (inline vs hashed children)", "anchors": ["pmt/src/inner.rs:InnerTrie::at_root", "pmt/src/inner.rs:InnerTrie::commit", "pmt/src/inner.rs:InnerTrie::write_node", "pmt/src/inner.rs:InnerTrie::recover_from_db"]}
{"id": "C41", "title": "Light-mode pruning never deletes live nodes", "statement": "With a light (pruning) database, after any sequence of insert, remove and commit the current contents stay readable.", "quantifier": "every history of operations and commits on a light database", "why_tests_cant": "needs reference tracking across all histories; failures appear only for shared subtrees or no-op removals", "anchors": ["pmt/src/inner.rs:InnerTrie::commit", "pmt/src/db.rs:MemoryDB::remove"]}
{"id": "C42", "title": "Trie proofs verify and return the stored value", "statement": "For every committed trie and key k, verify_proof(root, k, get_proof(k)) returns Ok(get(k)).", "quantifier": "every trie content and key (present or absent)", "why_tests_cant": "all shapes and inline/hashed node combinations", "anchors": ["pmt/src/inner.rs:InnerTrie::get_proof", "pmt/src/inner.rs:InnerTrie::verify_proof", "pmt/src/inner.rs:InnerTrie::get_path_at"]}
{"id": "C43", "title": "Trie proofs are sound", "statement": "If verify_proof(root, k, proof) returns Ok(r) for the root hash of a committed trie and any adversarial proof, then r = get(k), or an explicit hash collision has been exhibited.", "quantifier": "every committed trie, key, and adversarial list of proof nodes", "why_tests_cant": "adversarial proofs cannot be enumerated", "anchors": ["pmt/src/inner.rs:InnerTrie::verify_proof"]}
{"id": "C44", "title": "Trie proof verification is total", "statement": "verify_proof returns Ok or Err and never panics, whatever bytes the proof contains.", "quantifier": "every list of byte strings", "why_tests_cant": "untrusted inputs", "anchors": ["pmt/src/inner.rs:InnerTrie::verify_proof", "pmt/src/inner.rs:InnerTrie::decode_node", "pmt/src/nibbles.rs:Nibbles::from_compact"]}
{"id": "C45", "title": "Trie iteration yields exactly the contents", "statement": "Iterating a trie yields every (key, value) pair exactly once, in increasing lexicographic key order (a key before its extensions), and then ends.", "quantifier": "every trie state", "why_tests_cant": "all shapes", "anchors": ["pmt/src/trie_iterator.rs:TrieIterator::next", "pmt/src/inner.rs:InnerTrie::iter"]}
{"id": "C46", "title": "Compact nibble encoding round-trips", "statement": "For every nibble string with or without terminator, decoding the compact (hex-prefix) encoding gives the string back, the encoding is injective, and raw bytes to nibbles and back is the identity.", "quantifier": "every byte string and nibble string", "why_tests_cant": "all lengths, parities and contents", "anchors": ["pmt/src/nibbles.rs:Nibbles::encode_compact", "pmt/src/nibbles.rs:Nibbles::from_compact", "pmt/src/nibbles.rs:Nibbles::from_raw", "pmt/src/nibbles.rs:Nibbles::encode_raw"]}
{"id": "C47", "title": "Node encoding round-trips", "statement": "Decoding the encoding of any node gives back the same node with each child of 32 or more encoded bytes replaced by its hash; distinct nodes have distinct encodings.", "quantifier": "every node tree", "why_tests_cant": "all nestings of inline children and lengths around RLP's 55/56 and 32-byte thresholds", "anchors": ["pmt/src/inner.rs:InnerTrie::encode_raw", "pmt/src/inner.rs:InnerTrie::decode_node", "pmt/src/inner.rs:InnerTrie::write_node"]}
{"id": "C48", "title": "A failed trie operation changes nothing observable", "statement": "If insert or remove returns an error because a node is missing from the database, get on every key gives the same answer as before, also after a following commit.", "quantifier": "every trie state and database with missing nodes", "why_tests_cant": "fault placement times shapes", "anchors": ["pmt/src/inner.rs:InnerTrie::insert", "pmt/src/inner.rs:InnerTrie::remove", "pmt/src/inner.rs:InnerTrie::commit"]}
{"id": "C49", "title": "Pruning reclaims every unreachable node", "statement": "After purge_stale_nodes(m), every node key left in the store is part of the tree of some committed version >= m.", "quantifier": "every history and every m up to the latest version", "why_tests_cant": "leaks show only for particular shapes of history (no-op versions, emptied trees)", "anchors": ["jmt/src/mock.rs:MockTreeStore::purge_stale_nodes", "jmt/src/tree_cache.rs:TreeCache::delete_node", "jmt/src/tree_cache.rs:TreeCache::freeze"]}
{"id": "C50", "title": "Stale marks of a multi-version update equal those of successive updates", "statement": "put_value_sets([s1..sn], v) records the same set of stale node indices (stale-since version and node key) as committing s1, ..., sn one by one.", "quantifier": "every store reached by a history, every list of value sets", "why_tests_cant": "differences show only for particular effect-free sets inside a batch", "anchors": ["jmt/src/tree.rs:JellyfishMerkleTree::put_value_sets", "jmt/src/tree_cache.rs:TreeCache::delete_node", "jmt/src/tree_cache.rs:TreeCache::freeze"]}
{"id": "C51", "title": "Supplied node hashes do not change a batch", "statement": "If the node hash maps given to batch_put_value_sets hold, for every round, the true hash of every node the round writes below the root, then root hashes and update batch are the same as with no maps given. If some of these hashes are missing, the result is the same or the call panics, and it does panic if the hash of a changed child of the root is missing.", "quantifier": "every store reached by a history, every list of non-empty insert-only sets, every list of hash maps", "why_tests_cant": "the test suite only supplies hashes for particular shapes", "anchors": ["jmt/src/tree.rs:JellyfishMerkleTree::batch_put_value_sets", "jmt/src/tree.rs:JellyfishMerkleTree::get_hash"]}
{"id": "C52", "title": "A failing iteration never skips a pair", "statement": "When next of a JellyfishMerkleIterator yields an error, the next call yields the same error again or None, and neither call moves the iterator on; no later pair is ever yielded after an error.", "quantifier": "every reader (also one with lost nodes or values), every iterator state", "why_tests_cant": "tests iterate over intact stores only", "anchors": ["jmt/src/iterator.rs:JellyfishMerkleIterator::next"]}
{"id": "C53", "title": "Adding chunks never panics", "statement": "On a restore started on a store without nodes and values, no sequence of chunks and proofs makes add_chunk panic: every call returns Ok or Err.", "quantifier": "every sequence of chunks (empty, unsorted, repeated keys) and proofs, also after failed calls", "why_tests_cant": "adversarial chunks and proofs cannot be enumerated; add_one, freeze and the left sibling computation contain many asserts and unreachable arms", "anchors": ["jmt/src/restore.rs:JellyfishMerkleRestore::add_chunk_impl", "jmt/src/restore.rs:JellyfishMerkleRestore::add_one", "jmt/src/restore.rs:JellyfishMerkleRestore::freeze", "jmt/src/restore.rs:JellyfishMerkleRestore::compute_left_sibling"]}
{"id": "C54", "title": "The trie root hash determines the contents", "statement": "Two histories (possibly on different archive databases) whose commits return the same root hash had the same contents when committed, or an explicit hash collision has been exhibited.", "quantifier": "every pair of histories of inserts, removes, commits and reopened views", "why_tests_cant": "a relation between all pairs of histories", "anchors": ["pmt/src/inner.rs:InnerTrie::commit", "pmt/src/inner.rs:InnerTrie::write_node", "pmt/src/inner.rs:InnerTrie::encode_raw"]}
{"id": "C55", "title": "ICS23 non-existence proofs verify", "statement": "For every key absent from a non-empty version, get_with_ics23_proof returns a non-existence proof which the ICS23 verification accepts against ics23_spec() and get_root_hash(v); it returns one only for absent keys.", "quantifier": "every history, version and absent key", "why_tests_cant": "which inner operations the verifier demands to be left-most, right-most or neighbouring depends on the whole shape of the tree between the two neighbours", "anchors": ["jmt/src/tree/ics23_impl.rs:exclusion_proof_to_ics23_nonexistence_proof", "jmt/src/tree/ics23_impl.rs:get_with_ics23_proof", "jmt/src/tree/ics23_impl.rs:ics23_spec"]}
{"id": "C56", "title": "ics23_spec admits no forged existence proofs", "statement": "Whatever ICS23 existence proof verifies for (key, value) against ics23_spec() and get_root_hash(v), the version v holds the key with that value, unless an explicit hash collision is exhibited among the bytes hashed by the verification and by the tree.", "quantifier": "every history, version, key, value and every proof, also made-up ones with arbitrary prefixes and suffixes", "why_tests_cant": "the adversary chooses prefixes, suffixes and path length freely; only a proof covers all forgeries", "anchors": ["jmt/src/tree/ics23_impl.rs:ics23_spec", "jmt/src/types/proof.rs:SparseMerkleLeafNode::hash", "jmt/src/types/proof.rs:SparseMerkleInternalNode::hash"]}
{"id": "C57", "title": "ics23_spec admits no forged non-existence proofs", "statement": "Whatever ICS23 non-existence proof verifies for a key against ics23_spec() and get_root_hash(v), the version v does not hold the key, unless an explicit hash collision is exhibited.", "quantifier": "every history, version, key and every proof", "why_tests_cant": "the verifier's order checks see only prefixes and suffixes; that they force the gap between the neighbours to be empty is a fact about all trees", "anchors": ["jmt/src/tree/ics23_impl.rs:ics23_spec", "jmt/src/tree/ics23_impl.rs:exclusion_proof_to_ics23_nonexistence_proof"]}
{"id": "C58", "title": "The trie root is the one of Ethereum's Yellow Paper", "statement": "commit returns TRIE(J) of the Yellow Paper (appendices B, C, D: RLP, hex-prefix encoding, the recursive node composition with nodes of 32 or more encoded bytes replaced by their Keccak hash) for the list J of the entries the trie then has, so roots are interoperable with other implementations, or an explicit hash collision is exhibited.", "quantifier": "every history of inserts, removes, commits and reopened views on an archive database, every hash function", "why_tests_cant": "test vectors fix a few tries; the claim compares an incremental algorithm with a definition by recursion over all sets of entries", "anchors": ["pmt/src/inner.rs:InnerTrie::commit", "pmt/src/inner.rs:InnerTrie::encode_raw", "pmt/src/inner.rs:InnerTrie::insert_at", "pmt/src/inner.rs:InnerTrie::delete_at", "pmt/src/nibbles.rs:Nibbles::encode_compact"]}
{"id": "C59", "title": "The pruning database keeps only the nodes of the current trie", "statement": "After every commit on a pruning database the stored nodes are exactly those found from the root hash just returned by following the hashes inside nodes, so the database does not grow with the number of commits, or an explicit hash collision is exhibited.", "quantifier": "every history of inserts, removes, proofs and commits of one trie on a pruning database, every hash function", "why_tests_cant": "tests compare sizes after a few commits; the claim needs an account of every node passed by every operation over unbounded histories", "anchors": ["pmt/src/inner.rs:InnerTrie::commit", "pmt/src/inner.rs:InnerTrie::insert_at", "pmt/src/inner.rs:InnerTrie::delete_at", "pmt/src/inner.rs:InnerTrie::degenerate", "pmt/src/inner.rs:InnerTrie::get_proof", "pmt/src/db.rs:MemoryDB::remove_batch"]}
{"id": "C60", "title": "Only one proof verifies for a key", "statement": "Against the root hash of a readable version only one SparseMerkleProof verifies for a key, whatever value or absence is claimed with it: exactly the proof get_with_proof returns, with a claimed value that has the hash of the stored one; or an explicit hash collision is exhibited. So proofs are not malleable.", "quantifier": "every history, readable version, key, proof and claimed value, every hash function", "why_tests_cant": "tests change single parts of a valid proof; the claim excludes all other lists of siblings and leaves", "anchors": ["jmt/src/types/proof/definition.rs:SparseMerkleProof::verify", "jmt/src/tree.rs:Sha256Jmt::get_with_proof", "jmt/src/tree.rs:Sha256Jmt::get_root_hash"]}
{"id": "C61", "title": "Serialised nodes, node keys and proofs are read back", "statement": "Borsh deserialisation of the bytes of a Node, NodeKey, StaleNodeIndex, SparseMerkleProof or SparseMerkleRangeProof returns the value written and no other bytes are read as it; different node keys have different bytes. A store kept as a table from the bytes of node keys to the bytes of nodes therefore answers every read as the store does.", "quantifier": "every value within the integer types, every byte string, every reached store with fewer than 2^64 versions and keys", "why_tests_cant": "property tests sample values; canonicity is a claim about all byte strings", "anchors": ["jmt/src/node_type.rs:Node", "jmt/src/node_type.rs:NodeKey", "jmt/src/types/nibble/nibble_path.rs:NibblePath", "jmt/src/writer.rs:StaleNodeIndex", "jmt/src/types/proof/definition.rs:SparseMerkleProof"]}
{"id": "C62", "title": "verify_proof accepts exactly the proofs of get_proof", "statement": "VersionedTrie::contains tells whether the key has a value at the version. For readable versions v and w, verify_proof at v against the root hash of w accepts a proof exactly when it is the one get_proof returns at w and the value of the key has the same hash at v and w (so with v = w exactly the proof of get_proof); or an explicit hash collision is exhibited.", "quantifier": "every history, pair of readable versions, key and proof, every hash function", "why_tests_cant": "tests verify genuine proofs and a few changed ones; the claim excludes all other proofs", "anchors": ["jmt/src/trie.rs:VersionedTrie::contains", "jmt/src/tree.rs:VersionedTrie::get_proof", "jmt/src/tree.rs:VersionedTrie::verify_proof"]}
{"id": "C63", "title": "Reads of unavailable versions never lie", "statement": "A read at any version, also one pruned or never committed, does not panic, and either returns an error or exactly what a store would return on which nothing was ever pruned: get_with_proof the value and a verifying proof, get_root_hash the root hash, get_leaf_count the number of keys, iterators the pairs of the version in order up to an error.", "quantifier": "every history with arbitrary pruning, every version number and key, every hash function", "why_tests_cant": "partially pruned versions depend on which nodes later versions share; the claim covers all of them", "anchors": ["jmt/src/tree.rs:Sha256Jmt::get_with_proof", "jmt/src/tree.rs:Sha256Jmt::get_root_hash", "jmt/src/tree.rs:Sha256Jmt::get_leaf_count", "jmt/src/iterator.rs:JellyfishMerkleIterator", "jmt/src/mock.rs:MockTreeStore::purge_stale_nodes"]}
{"id": "C64", "title": "Versions as bytes keep their order", "statement": "A version is read back from its bytes, its 8 bytes are the only ones of that length read as it, and the lexicographic order of the bytes is the order of the versions.", "quantifier": "all 64 bit versions and all byte strings", "why_tests_cant": "the claim is about all pairs of versions", "anchors": ["jmt/src/db.rs:Version"]}
{"id": "C65", "title": "Updates can be computed on top of any readable version", "statement": "put_value_sets and batch_put_value_sets at version v+1, for any readable version v and not only the newest one, return the root hashes of the contents of v with the sets applied, and the same roots and batch as on a store where v is the newest version. Nothing of the versions after v that are already stored shows through.", "quantifier": "every history with pruning, readable version and list of value sets, every hash function", "why_tests_cant": "tests compute updates on top of the newest version; what shows through depends on which nodes of later versions are stored", "anchors": ["jmt/src/tree.rs:Sha256Jmt::put_value_sets", "jmt/src/tree.rs:Sha256Jmt::batch_put_value_sets", "jmt/src/tree.rs:Sha256Jmt::insert_at"]}
{"id": "C66", "title": "Updates on unavailable versions never lie", "statement": "put_value_sets and batch_put_value_sets at version w+1, for any version w, also one pruned or never committed, either return an error or the root hashes of the contents of w with the sets applied.", "quantifier": "every history with arbitrary pruning, every version number and list of value sets, every hash function", "why_tests_cant": "which nodes of a pruned version are left depends on the whole history", "anchors": ["jmt/src/tree.rs:Sha256Jmt::put_value_sets", "jmt/src/tree.rs:Sha256Jmt::batch_put_value_sets", "jmt/src/tree_cache.rs:TreeCache::new", "jmt/src/mock.rs:MockTreeStore::purge_stale_nodes"]}
{"id": "C67", "title": "Iterating a trie with lost nodes", "statement": "When stored nodes are lost, iterating a trie still ends without a panic, yields in increasing key order exactly the pairs that get can still read, and lets the caller know that something is missing.", "quantifier": "every program on an archive database, every trie it makes and every set of lost nodes", "why_tests_cant": "the claim is about every subset of the stored nodes", "anchors": ["pmt/src/trie_iterator.rs:TrieIterator::next", "pmt/src/inner.rs:InnerTrie::iter", "pmt/src/inner.rs:InnerTrie::get"]}
{"id": "C68", "title": "Which lists of nodes verify", "statement": "For a committed trie that is not empty, get_proof of a key returns different byte strings, at most twice the length of the key plus one, and verify_proof accepts exactly the lists that have all of them, in any order and among any others; it then gives what the trie has for the key. Every other list is refused as InvalidProof. Or two of the byte strings concerned have the same hash.", "quantifier": "every program, committed trie, key, present or not, and list of byte strings", "why_tests_cant": "the claim is about every list of byte strings", "anchors": ["pmt/src/inner.rs:InnerTrie::verify_proof", "pmt/src/inner.rs:InnerTrie::get_proof"]}
{"id": "C69", "title": "Keys in the log are unambiguous", "statement": "The text in which a key is reported to the log is a Rust byte string literal for exactly that key. It is printable ASCII, and different keys have different texts.", "quantifier": "all keys", "why_tests_cant": "the claim is about all byte strings", "anchors": ["jmt/src/lib.rs:EscapedByteSlice", "jmt/src/lib.rs:KeyHash::with"]}
{"id": "C70", "title": "Updates are local and cheap", "statement": "Whatever the store holds: a successful put_value_sets writes, besides root nodes, only nodes on the path of a key of the set of their version or one step off it, and gives up only such nodes; and the numbers of nodes written and given up are at most 66 for each update, plus one root node for each version and one more. The same holds for batch_put_value_sets.", "quantifier": "every reader, list of value sets, version, both migration flags, and node-hash cache", "why_tests_cant": "the bound is on all stores and all update sets, with trees of any size", "anchors": ["jmt/src/tree.rs:JellyfishMerkleTree::put_value_sets", "jmt/src/tree.rs:JellyfishMerkleTree::batch_put_value_sets", "jmt/src/tree_cache.rs:TreeCache::freeze"]}
{"id": "C71", "title": "Reads from a damaged store", "statement": "When nodes or values are lost from a store, every read gives the answer of the undamaged store or an error. It does not panic, and it does not give another answer.", "quantifier": "every history, every version, key, and set of lost nodes and values", "why_tests_cant": "the claim is about every subset of what is stored", "anchors": ["jmt/src/tree.rs:JellyfishMerkleTree::get_with_proof", "jmt/src/tree.rs:JellyfishMerkleTree::get_root_hash", "jmt/src/iterator.rs:JellyfishMerkleIterator::next"]}
{"id": "C72", "title": "Iteration ends", "statement": "The iterator of a version yields finitely many items and then ends, also when nodes or values are missing.", "quantifier": "every history, version, starting key, and set of lost nodes and values", "why_tests_cant": "the claim is about every subset of what is stored and about all later calls", "anchors": ["jmt/src/iterator.rs:JellyfishMerkleIterator::next"]}
{"id": "C73", "title": "The last root can be opened again on a pruning database", "statement": "A program on a pruning database may open the root hash that the last commit returned with at_root and go on with the opened trie, as often as it likes: no call panics, every call returns the same as on an archive database, and the trie made last gives the value of every key.", "quantifier": "every program of insertions, removals, commits and openings, all keys and values", "why_tests_cant": "what is deleted at a commit depends on all nodes passed since the opening; the claim is about all programs", "anchors": ["pmt/src/inner.rs:InnerTrie::commit", "pmt/src/inner.rs:InnerTrie::at_root"]}
{"id": "C74", "title": "How long proofs are and what they contain", "statement": "The proof that get_with_proof returns for a key, present or not, has exactly as many siblings as are needed to tell the present keys apart along its path: at that depth at most one present key agrees with it, at every smaller depth at least two do. There are at most 256 siblings; they are the hashes of the subtrees beside the path, last to first; and the leaf is the present key that agrees with the key down to the end, with its value hash. In particular a present key's proof has one sibling more than the most leading bits another present key shares with it, and there are no siblings when there is at most one key.", "quantifier": "every history, readable version, key and hash function", "why_tests_cant": "the depth depends on all present keys, and the claim is about all maps and all keys", "anchors": ["jmt/src/tree.rs:JellyfishMerkleTree::get_with_proof", "jmt/src/node_type.rs:InternalNode::get_child_with_siblings", "jmt/src/types/proof/definition.rs:SparseMerkleProof"]}
{"id": "C75", "title": "Only genuine range proofs verify", "statement": "When a range proof verifies against the root hash of a version for a leaf and a list of left siblings, then the key is present in that version with that value hash, the proof is the one get_range_proof returns for the key, and the left siblings are those determined by the keys up to it; in particular a restore accepts a chunk only with the genuine proof of its last key.", "quantifier": "every history, readable version, range proof, leaf, list of left siblings, hash function", "why_tests_cant": "an accepted forgery would be one among all proofs and sibling lists; tests try a few", "anchors": ["jmt/src/types/proof/definition.rs:SparseMerkleRangeProof::verify", "jmt/src/tree.rs:JellyfishMerkleTree::get_range_proof", "jmt/src/restore.rs:JellyfishMerkleRestore::add_chunk_impl"]}
{"id": "C76", "title": "Serialised update batches are read back", "statement": "Writing a tree update batch to bytes and reading it gives a batch with the same node under every node key, the same values, the same stale indices and the same statistics, and nothing else; batches that differ in any of these have different bytes. The batch of every update of a store can be written in this way as long as versions and numbers fit their integer types.", "quantifier": "every update batch, in particular the batch of every call on every reachable store", "why_tests_cant": "batches have arbitrarily many entries of all kinds; tests round-trip a few", "anchors": ["jmt/src/writer.rs:TreeUpdateBatch", "jmt/src/writer.rs:NodeBatch", "jmt/src/writer.rs:NodeStats", "jmt/src/writer.rs:StaleNodeIndex"]}
{"id": "C77", "title": "A failed commit is harmless", "statement": "When the database returns an error during a commit, after writing any part of the new nodes or removing any part of the old ones, nothing observable has changed: every later call, on this trie and on others, returns what it would have returned without the failed commit; in particular the commit can be repeated and returns the root hash it would have returned at first, and all roots returned earlier stay readable.", "quantifier": "every program of inserts, removes, commits, proofs and views with failing commits at any points, every part of the batches done before the error, every hash function", "why_tests_cant": "the in-memory database of the tests never fails, and the parts of a batch that may have been done are exponentially many", "anchors": ["pmt/src/inner.rs:InnerTrie::commit", "pmt/src/inner.rs:InnerTrie::write_node", "pmt/src/db.rs:Database::insert_batch", "pmt/src/db.rs:Database::remove_batch"]}
{"id": "C78", "title": "is_empty and len describe the database", "statement": "After any calls on tries over one new database, is_empty of each of them returns true exactly when no commit has been made by any of them. On an archive database len is the number of different nodes that have been stored, and never decreases.", "quantifier": "every program on a new database of either kind, every hash function", "why_tests_cant": "relates a count to the whole history of calls of all tries", "anchors": ["pmt/src/inner.rs:InnerTrie::len", "pmt/src/inner.rs:InnerTrie::is_empty", "pmt/src/db.rs:MemoryDB::len"]}
{"id": "C79", "title": "A version is read the same while the store changes", "statement": "As long as a version is not given up by pruning, get_with_proof, get_root_hash, get_leaf_count and get_range_proof at it give the same answers whenever they are called, even if the single lookups of one call happen between the single writes of an update or the single removals of a pruning; and an iterator over the version yields exactly the pairs of the version, in order, whatever updates and prunings happen, wholly or in part, between the calls of next.", "quantifier": "every history of updates, every later history, every order and every part of the writes and removals, every key and version, every hash function", "why_tests_cant": "interleavings of reads with single writes are not under the control of a test, and there are infinitely many histories", "anchors": ["jmt/src/mock.rs:MockTreeStore::write_tree_update_batch", "jmt/src/mock.rs:MockTreeStore::purge_stale_nodes", "jmt/src/iterator.rs:JellyfishMerkleIterator::next", "jmt/src/tree.rs:JellyfishMerkleTree::get_with_proof"]}
{"id": "C80", "title": "An interrupted write can be taken up again", "statement": "If the writing of an update is cut short at any point, any number of times, the update can be computed again, gives the same roots and the same batch, and writing it on a store that allows overwriting leaves the store as the uninterrupted write would have.", "quantifier": "every history of updates, every update, every point of interruption, every order of the writes, every hash function", "why_tests_cant": "the in-memory store of the tests is never interrupted, and the points of interruption of all updates are unbounded", "anchors": ["jmt/src/mock.rs:MockTreeStore::write_tree_update_batch", "jmt/src/mock.rs:put_value", "jmt/src/mock.rs:MockTreeStore::put_stale_node_index", "jmt/src/tree.rs:JellyfishMerkleTree::put_value_sets", "jmt/src/tree.rs:JellyfishMerkleTree::batch_put_value_sets"]}
{"id": "C81", "title": "Trie calls cost as much as the key is long", "statement": "On an archive database, however many keys a trie of pmt holds, the effect and the result of get, contains, insert and get_proof for a key of n bytes depend on at most 2n+1 database entries and those of remove on at most 6n+3, a proof has at most 2n+2 nodes, and a commit writes at most one node more than the sum of 2n+4 over the insertions and 4n+2 over the removals since the last commit (plus what proofs in between have written) and removes at most the sum of 2n+1 and 6n+3; or else two different stored byte strings have the same hash. On a pruning database the same holds for one trie used as in C41.", "quantifier": "every program over any number of tries, every trie, every key and value, every hash function", "why_tests_cant": "the claim is about all sizes of the trie; a test measures single tries and does not see which entries a result depends on", "anchors": ["pmt/src/inner.rs:InnerTrie::get", "pmt/src/inner.rs:InnerTrie::insert", "pmt/src/inner.rs:InnerTrie::remove", "pmt/src/inner.rs:InnerTrie::get_proof", "pmt/src/inner.rs:InnerTrie::commit", "pmt/src/inner.rs:degenerate"]}
{"id": "C83", "title": "Serialising tries", "statement": "A trie of pmt that is serialised and deserialised in the serde_json format has the same root node and root hash, different roots have different serialisations, and the copy, which has an empty database of its own, reads all keys as the original and, committed, gives the same root hash, from which all keys can be read in its database. What the copy reads is never different from what the original reads. Byte strings are accepted in upper and lower case and with an even number of digits only, structures as objects or arrays. A document is accepted if and only if it has the fields of a trie, each once, of the right types, with nodes not nested too deep.", "quantifier": "every program over any number of tries on both kinds of databases, every trie of it, every key, every hash function", "why_tests_cant": "the serialisation follows all shapes of nodes, of which there are infinitely many, and whether keys are lost depends on the history of the trie", "anchors": ["pmt/src/inner.rs:InnerTrie", "pmt/src/node.rs:Node", "pmt/src/nibbles.rs:Nibbles::serialize", "pmt/src/nibbles.rs:Nibbles::deserialize", "serde_hash/src/lib.rs:H256"]}
{"id": "C82", "title": "Going on from a restored version", "statement": "A tree that was restored into an empty store as version w can be used as any other tree: every sequence of put_value_sets and batch_put_value_sets from version w + 1 on and of prunings succeeds, every version not pruned holds what the restored pairs and the updates make up, with the sparse Merkle root of it, the right number of leaves and proofs that verify. This holds for every run of chunks and proofs whose last chunk was accepted, and for restores in several sessions. If the newest version of a store was restored under its own number, the copy and the source give the same root hashes, answers and proofs from then on, whatever is done on both.", "quantifier": "every accepted run of a restore, every later sequence of updates and prunings, every version and key, every hash function", "why_tests_cant": "restored nodes all have one version and no history, a shape that updates never make; each later update meets another part of it", "anchors": ["jmt/src/restore.rs:JellyfishMerkleRestore::new", "jmt/src/restore.rs:JellyfishMerkleRestore::add_chunk", "jmt/src/restore.rs:JellyfishMerkleRestore::finish", "jmt/src/tree.rs:JellyfishMerkleTree::put_value_sets", "jmt/src/tree.rs:JellyfishMerkleTree::batch_put_value_sets", "jmt/src/mock.rs:MockTreeStore::purge_stale_nodes"]}
{"id": "C84", "title": "Restoring beside other versions", "statement": "A version can be restored into a store that already holds other versions. If the store has no node of version w and no value of version w or later, a restore of version w gives the tree of the received pairs at version w, with the sparse Merkle root, the number of leaves, the answers and verifying proofs, and everything that could be read of an older version before is read with the same answer afterwards; genuine chunks are all accepted, and the store has room for later versions as before. This holds for restores started with new_overwrite. With new it is false: on a store with data that was never pruned new always fails, and where it starts, on a pruned store, it refuses every chunk that begins at or below a key already stored. It is also false of get_value_option, which for the restored version still answers with an older value of a key the version does not hold.", "quantifier": "every store with room for the version, every list of chunks and proofs whose last one was accepted, every older version, every key, every hash function", "why_tests_cant": "tests restore into empty stores; what the destination may hold and the order in which nodes are met is unbounded", "anchors": ["jmt/src/restore.rs:JellyfishMerkleRestore::new", "jmt/src/restore.rs:JellyfishMerkleRestore::new_overwrite", "jmt/src/restore.rs:JellyfishMerkleRestore::add_chunk", "jmt/src/restore.rs:JellyfishMerkleRestore::finish", "jmt/src/restore.rs:JellyfishMerkleRestore::recover_partial_nodes", "jmt/src/mock.rs:MockTreeStore::get_rightmost_leaf"]}
{"id": "C85", "title": "The order of hash maps does not matter", "statement": "Nothing that can be observed depends on the order in which hash maps and hash sets give their entries. Patricia trie: a program in which every commit writes its cache and removes its keys in any order of its own returns the same values and root hashes or fails in the same way, and afterwards all reads, iterations, database entries and sizes are the same. Jellyfish Merkle tree: updates and prunings on a store whose maps, and whose batches, give their entries in a new order each time succeed alike and leave stores with the same answers; one call of put_value_sets or batch_put_value_sets, on any reader, with the maps of its cache in a new order before every update and every freeze, fails in the same way or gives the same batch, root hashes and statistics. This is false of get_rightmost_leaf: of several stored leaves with the greatest key it takes whichever comes first, and whether a restore can be started with new depends on it.", "quantifier": "every program or history of operations, every choice of an order for every map at every operation", "why_tests_cant": "one run sees one order; HashMap takes a random one for each map, and the number of orders is factorial", "anchors": ["pmt/src/inner.rs:InnerTrie::commit", "pmt/src/db.rs:Database::insert_batch", "jmt/src/tree_cache.rs:TreeCache::freeze", "jmt/src/mock.rs:MockTreeStore::write_tree_update_batch", "jmt/src/mock.rs:MockTreeStore::purge_stale_nodes", "jmt/src/mock.rs:MockTreeStore::get_rightmost_leaf", "jmt/src/restore.rs:JellyfishMerkleRestore::new"]}
{"id": "C86", "title": "Stores with several restored versions, each updated and pruned further", "statement": "Versions may be restored with new_overwrite into one store any number of times, each at an unused version number above all earlier ones and each followed by any updates and prunings. None of these operations fails after a restore whose last add_chunk returned Ok. Every version, in the history before the first restore or in the history that follows any of them, has the root hash, leaf count, values and verifying proofs of the map that its own history makes up (for a restored version, the pairs received), unless it was pruned. Prunings after a later restore apply to older histories as well, but the newest version of each history is never removed.", "quantifier": "every number of restores, every sequence of add_chunk calls in each, every sequence of updates and prunings before and after each, every readable version, every key", "why_tests_cant": "the state space is the product of unboundedly many histories; a mark or node of one history that hits another would show only for particular shapes of both trees", "anchors": ["jmt/src/restore.rs:JellyfishMerkleRestore::new_overwrite", "jmt/src/restore.rs:JellyfishMerkleRestore::add_chunk_impl", "jmt/src/restore.rs:JellyfishMerkleRestore::finish_impl", "jmt/src/tree.rs:JellyfishMerkleTree::put_value_sets", "jmt/src/mock.rs:MockTreeStore::write_tree_update_batch", "jmt/src/mock.rs:MockTreeStore::purge_stale_nodes"]}
{"id": "C87", "title": "A second writer of a version is refused and changes nothing", "statement": "Two writers compute an update from the same state of a store that does not allow overwriting. After the first has written its versions, writing the batch of the second panics, in whatever order its nodes are written, as long as the version was not pruned. The values and stale marks are unchanged, and all versions are read as before. The last claim is proved of all versions before the one that was written twice. It is false of that version itself: the existing node is replaced before the assertion fails, so the version can have the root hash of the refused update, with values whose proofs do not verify.", "quantifier": "every history before and after the moment at which the second writer reads, every update of the second writer, every order of the nodes, every moment at which the writing ends, every older version and every key", "why_tests_cant": "the outcome depends on the interleaving of two writers and on the order in which nodes are written; a test that expects the panic does not look at the store after it", "anchors": ["jmt/src/mock.rs:MockTreeStore::write_node_batch", "jmt/src/mock.rs:MockTreeStore::write_tree_update_batch", "jmt/src/mock.rs:put_value", "jmt/src/tree.rs:JellyfishMerkleTree::put_value_sets", "jmt/src/tree.rs:JellyfishMerkleTree::get_with_proof"]}
{"id": "C88", "title": "Nodes, node keys and proofs as JSON documents", "statement": "Deserialising the serde_json document of a Node, NodeKey, KeyHash, SparseMerkleProof or SparseMerkleRangeProof returns the value written; different values have different documents; a proof that was sent as a document verifies as before, and the nodes of a store can be exported and imported. Reading never panics; the order of fields and unknown fields do not matter, missing and repeated fields are refused, except that a missing optional field is read as none; an array of exactly the fields is read like an object. A document is read as a hash, a node key, a node or a proof if and only if it is one of those described this way, and as nothing but what it describes. The constructor of internal nodes sums the leaf counts of the children, and makes a node of unknown count as soon as a child has an unknown count. Whatever is read could have been made with the constructors of the types. The last claim is false: the number of children, the length of a path, the range of a nibble and the rule that a single child is not a leaf are not checked.", "quantifier": "every value within the integer types, every JSON value, every reached store with fewer than 2^64 versions and keys", "why_tests_cant": "round trips are claims about all nodes and proofs, and absence of panics about all documents", "anchors": ["jmt/src/node_type.rs:Node", "jmt/src/node_type.rs:NodeKey", "jmt/src/node_type.rs:InternalNode::new_impl", "jmt/src/node_type.rs:Children", "jmt/src/types/nibble/nibble_path.rs:NibblePath", "jmt/src/types/nibble.rs:Nibble", "jmt/src/types/proof/definition.rs:SparseMerkleProof", "jmt/src/types/proof/definition.rs:SparseMerkleRangeProof", "jmt/src/lib.rs:PhantomHasher", "jmt/src/lib.rs:KeyHash"]}
{"id": "C89", "title": "Merged batches write what the batches write one after another", "statement": "NodeBatch::merge holds the nodes and values of both batches, those of the argument where both have one. If one batch can be written and then another, the merged batch can be written and the store then holds the same nodes, values and stale marks. Hence any sequence of updates can be computed without writing, each reading through the batch collected so far, and be written at once, with the store that writing them one by one gives. And merging changes nothing else: the merged batch is refused where one of the two would have been. The last claim is false: merge hides that the second batch holds an older value or a node written already.", "quantifier": "every two batches made with the methods of NodeBatch, every store; every history of updates and prunings and every further sequence of updates", "why_tests_cant": "the repository has one test that merges batches of a few fixed updates; whether nodes replaced or read through a merged batch agree depends on the shapes of all the trees passed through", "anchors": ["jmt/src/writer.rs:NodeBatch::merge", "jmt/src/writer.rs:NodeBatch::extend", "jmt/src/writer.rs:NodeBatch::clear", "jmt/src/writer.rs:NodeBatch::is_empty", "jmt/src/mock.rs:MockTreeStore::write_node_batch", "jmt/src/mock.rs:MockTreeStore::write_tree_update_batch", "jmt/src/tree.rs:JellyfishMerkleTree::put_value_set", "jmt/src/tree.rs:JellyfishMerkleTree::batch_put_value_sets"]}
{"id": "C90", "title": "put_leaf stores a leaf with its value, or nothing", "statement": "put_leaf succeeds if and only if there is no node with the key and the leaf's key has no value of a later version. It then stores the leaf and, from the version of the node key on, the value, and changes nothing else; a leaf put at a root is a readable tree with one key whose proofs verify. A put_leaf that fails changes nothing. The last claim is false: when the value is refused the leaf has been stored already, the version has a root hash but reading its key fails, and the call cannot be repeated.", "quantifier": "every store, node key, leaf and value", "why_tests_cant": "the tests of the repository call put_leaf on an empty store only; the failing case needs a value history that is ahead of the node key", "anchors": ["jmt/src/mock.rs:MockTreeStore::put_leaf", "jmt/src/mock.rs:put_value", "jmt/src/tree.rs:JellyfishMerkleTree::get_with_proof"]}
{"id": "C91", "title": "Recorded preimages are found, and suffice for non-existence proofs", "statement": "preimage returns the last preimage recorded with put_key_preimage under the hash asked for, and none if there is none; what is found has this hash and was recorded. If the preimage of every present key was recorded and none is empty, get_with_ics23_proof returns for an absent key a non-existence proof that passes ics23 verification, under the conditions of C55.", "quantifier": "every sequence of recorded preimages and hash functions, every history, every readable version, every absent key", "why_tests_cant": "that the needed preimages are those of the two neighbours, and that they are found whatever else was recorded, is a claim about all sets of keys", "anchors": ["jmt/src/mock.rs:MockTreeStore::put_key_preimage", "jmt/src/mock.rs:MockTreeStore::preimage", "jmt/src/tree/ics23_impl.rs:JellyfishMerkleTree::exclusion_proof_to_ics23_nonexistence_proof"]}
{"id": "C92", "title": "Bits can be taken from both ends", "statement": "However next and next_back are called on the iterator over the bits of a key, they return what taking items from the front and the back of the 256 bits returns, and size_hint is the number of bits left. The same holds of the bit iterator over what is left of a nibble path, which never panics and whose peek is what next would return.", "quantifier": "all keys, all paths made with push and pop, every number of nibbles already taken, every sequence of calls", "why_tests_cant": "the calls can be interleaved in exponentially many ways for each key and path", "anchors": ["jmt/src/bytes32ext.rs:HashValueBitIterator::next", "jmt/src/bytes32ext.rs:HashValueBitIterator::next_back", "jmt/src/bytes32ext.rs:HashValueBitIterator::size_hint", "jmt/src/types/nibble/nibble_path.rs:BitIterator::next", "jmt/src/types/nibble/nibble_path.rs:BitIterator::next_back", "jmt/src/types/nibble/nibble_path.rs:BitIterator::peek"]}
{"id": "C93", "title": "Hashes and node keys can be told from their texts", "statement": "The Debug text of a KeyHash, ValueHash or RootHash is the name and the hexadecimal digits, and determines kind and bytes. The Debug text of a nibble path has one digit for each nibble, that of a NodeKey determines version and path, and the text of MissingRootError determines the version. Printing never panics. The last claim is false of node keys read from documents.", "quantifier": "all hashes, all versions, all paths made with push and pop", "why_tests_cant": "that no two values have the same text is a claim about all pairs", "anchors": ["jmt/src/lib.rs:KeyHash::fmt", "jmt/src/lib.rs:ValueHash::fmt", "jmt/src/lib.rs:RootHash::fmt", "jmt/src/lib.rs:MissingRootError", "jmt/src/types/nibble.rs:Nibble::fmt", "jmt/src/types/nibble/nibble_path.rs:NibblePath::fmt", "jmt/src/node_type.rs:NodeKey"]}
{"id": "C94", "title": "Nodes are accepted only as they are written", "statement": "decode_node accepts exactly the byte strings that encode_raw returns for some node, which are the RLP encodings of the items that stand for nodes in the Yellow Paper; what is accepted is a well-formed node (paths of digits, no empty extension path, no empty branch value) that is written as the same bytes. So at most one root hash can be given for the same contents. Decoding panics on no bytes. (Both are false; the bytes that are accepted, the node they are accepted as, and the bytes that panic are described exactly.)", "quantifier": "every byte string and node", "why_tests_cant": "every byte string is an input; forms that are never written are not in any test", "anchors": ["pmt/src/inner.rs:InnerTrie::decode_node", "pmt/src/inner.rs:InnerTrie::encode_raw", "pmt/src/nibbles.rs:Nibbles::from_compact"]}
{"id": "C95", "title": "A failing lookup never makes an answer wrong", "statement": "When lookups of the TreeReader return errors, every read, update and recovery of a restore returns what it returns without errors, or the error of a lookup; nothing is taken to be absent because it could not be read, and nothing panics. In a store, reading a version that was not given up gives the right value with a proof that verifies, or an error. That the error is that of the lookup is false of get_with_proof and exclusion proofs: they report a missing root whenever the root cannot be read.", "quantifier": "every reader, every set of failing lookups and error texts, all keys, versions and updates", "why_tests_cant": "each of the lookups of each call may fail; the in-memory store of the tests never does", "anchors": ["jmt/src/reader.rs:TreeReader", "jmt/src/tree.rs:JellyfishMerkleTree::get_with_proof", "jmt/src/tree.rs:JellyfishMerkleTree::get_with_exclusion_proof", "jmt/src/tree.rs:JellyfishMerkleTree::put_value_sets", "jmt/src/tree.rs:JellyfishMerkleTree::batch_put_value_sets", "jmt/src/tree_cache.rs:TreeCache::new", "jmt/src/restore.rs:JellyfishMerkleRestore::new", "jmt/src/iterator.rs:JellyfishMerkleIterator::new"]}
{"id": "C96", "title": "An iterator can be used again after an error", "statement": "When lookups fail now and then while a version is iterated, the pairs returned are the first pairs of the version in order, none left out and none twice; an error is that of a lookup of the call; None is returned only when every pair has been returned; and as many calls without failures as there are pairs return them all. The claim about None is false for versions with exactly one key.", "quantifier": "all histories, versions not given up, starting keys and indices, all sequences of calls with any lookups failing in each, while the store changes", "why_tests_cant": "errors come from outside the code, at any of the lookups of any call", "anchors": ["jmt/src/iterator.rs:JellyfishMerkleIterator::next", "jmt/src/iterator.rs:JellyfishMerkleIterator::new", "jmt/src/iterator.rs:JellyfishMerkleIterator::new_by_index"]}
{"id": "C97", "title": "Database errors do not harm a trie", "statement": "When lookups in the database of a Patricia trie return errors, every call returns what it returns without errors, or the database error; after the error the trie stands for the same map as before. A program in which some calls fail returns for the others what they return without the failed ones; a call that is made again until it succeeds leaves the state that one call leaves, on archive and pruning databases. values returns a beginning of the listing. False in parts: on a pruning database a failed update that is not made again lets the next commit delete nodes in use; values and iterators do not report the error; len and is_empty take an error for emptiness.", "quantifier": "every program with any lookups failing during any of its calls, any keys and values, every hash function", "why_tests_cant": "each lookup of each call may fail, and the harm shows up calls later; the in-memory database of the tests never fails", "anchors": ["pmt/src/inner.rs:InnerTrie::recover_from_db", "pmt/src/inner.rs:InnerTrie::insert_at", "pmt/src/inner.rs:InnerTrie::delete_at", "pmt/src/inner.rs:InnerTrie::commit", "pmt/src/inner.rs:InnerTrie::values", "pmt/src/inner.rs:InnerTrie::len", "pmt/src/trie_iterator.rs:TrieIterator::next"]}
{"id": "C98", "title": "Threads sharing a database do not disturb each other", "statement": "Threads that have clones of tries, and share their database, may make any calls at the same time: whatever the order in which their single accesses to the database take place, no call panics or misses a node because of another thread, each call returns what it returns when the thread is alone, between two calls each trie of a thread reads as the map made by the thread's own calls, and a thread that is given its turn again and again comes to the end of its program. False of pruning databases, where a commit deletes nodes that the tries of other threads refer to, and of len, is_empty and values of MemoryDB, which do not wait for the lock: the first two panic while another thread writes, the third returns nothing.", "quantifier": "every program before, any number of threads with any programs, every interleaving of the accesses, every hash function (or a collision among the stored byte strings)", "why_tests_cant": "the interleavings cannot be chosen by a test, and there are too many of them", "anchors": ["pmt/src/db.rs:MemoryDB", "pmt/src/inner.rs:InnerTrie::commit", "pmt/src/inner.rs:InnerTrie::get_at", "pmt/src/inner.rs:InnerTrie::insert_at", "pmt/src/inner.rs:InnerTrie::delete_at", "pmt/src/inner.rs:InnerTrie::get_path_at", "pmt/src/inner.rs:InnerTrie::len"]}
{"id": "C99", "title": "An iterator yields the trie as it was when the iterator was made", "statement": "An iterator (borrowing or owning its trie) yields the pairs that the trie had when the iterator was made, in the order of the keys and each once, and then None, whatever calls are made between its calls of next on tries that share the database, and whatever other threads do between any two of its lookups. False of pruning databases: a commit of the trie deletes nodes that an owned iterator over a copy still has to visit, and it ends early without an error; and with the empty key the iterator panics as in C45.", "quantifier": "every program before, every calls in between, every interleaving with threads, every hash function (or a collision among the stored byte strings)", "why_tests_cant": "the moments at which others change the database cannot be enumerated", "anchors": ["pmt/src/trie_iterator.rs:TrieIterator::next", "pmt/src/trie_iterator.rs:OwnedTrieIterator::next", "pmt/src/inner.rs:InnerTrie::recover_from_db", "pmt/src/db.rs:MemoryDB"]}
{"id": "C100", "title": "Removals leave nothing behind but branches at removed prefixes", "statement": "Of every trie there is a list B of keys that were removed from it while present and proper prefixes of other present keys (or of such removed keys), and at which the entries have not called for a branch since (two entries parting there, or one ending and one going on), such that commit returns the root hash that the Yellow Paper's node composition gives for the current entries when a branch is forced at each key of B, and remove(k) returns true exactly if k is present, in B, or a point where the paths of entries or members of B part; or an explicit hash collision is exhibited. Without such removals B is empty, and the root is that of the Yellow Paper.", "quantifier": "every history of inserts, removes, commits, proofs and reopened views on an archive database, every key, every hash function", "why_tests_cant": "the shapes left behind depend on all earlier removals and on which nodes were in memory at the time", "anchors": ["pmt/src/inner.rs:InnerTrie::delete_at", "pmt/src/inner.rs:InnerTrie::degenerate", "pmt/src/inner.rs:InnerTrie::insert_at", "pmt/src/inner.rs:InnerTrie::commit"]}
{"id": "C101", "title": "A new genesis on top of an existing state", "statement": "When a state has been restored as version u64::MAX (PRE_GENESIS_VERSION), put_value_sets or batch_put_value_sets (with no empty set) at version 0 starts from it: the root hash returned for the i-th set is that of the restored pairs with the first i+1 sets applied, further calls go on from there, and every version written can be read (root hash, number of leaves, values and absences with proofs that verify), the restored pairs included.", "quantifier": "every finished restore as version u64::MAX into an empty store, every first call at version 0, every list of further calls of either kind, every version and key", "why_tests_cant": "the code path is one the source calls extreme; what it loses depends on which keys the sets mention and on whether the first set changes anything", "anchors": ["jmt/src/tree_cache.rs:TreeCache::new", "jmt/src/tree_cache.rs:TreeCache::freeze", "jmt/src/types.rs:PRE_GENESIS_VERSION", "jmt/src/tree.rs:JellyfishMerkleTree::put_value_sets", "jmt/src/tree.rs:JellyfishMerkleTree::get_with_proof"]}
{"id": "C102", "title": "Versions up to the end of u64", "statement": "put_value_sets and batch_put_value_sets with n sets at version v do what they would do if versions had no bound, as long as the versions they make, v to v+n-1, are u64 values; so u64::MAX can be the last version of a history.", "quantifier": "every reader, every first version, every list of sets and of hash caches, every history of updates and pruning, programs built with and without overflow checks", "why_tests_cant": "tests begin at version 0; the end of the range is reached only by histories that begin near it, and what happens there depends on build flags", "anchors": ["jmt/src/tree_cache.rs:TreeCache::freeze", "jmt/src/tree.rs:JellyfishMerkleTree::put_value_sets", "jmt/src/tree.rs:JellyfishMerkleTree::batch_put_value_sets"]}
{"id": "C103", "title": "A restore survives a store that cannot be written for a while", "statement": "If write_node_batch fails during some add_chunk calls of a restore, writing nothing, then those calls return Err and all others return what they would have returned; a chunk whose write failed can be given again; and once finish returns Ok the store holds the same nodes and values as without the failures.", "quantifier": "every sequence of chunks and proofs, genuine or not, every pattern of failing writes", "why_tests_cant": "the test store never fails to write, and the patterns of failures over all sequences of chunks cannot be enumerated", "anchors": ["jmt/src/restore.rs:JellyfishMerkleRestore::add_chunk_impl", "jmt/src/restore.rs:JellyfishMerkleRestore::finish_impl"]}
{"id": "C104", "title": "A restore that broke off in the middle of a write can be made good", "statement": "If the process ends while a restore writes a batch, so that only some of its nodes and values are in the store, then a later restore of the same version, started with new or with new_overwrite, gives the right version: once it returns Ok, the version has the root hash, the number of leaves, the answers and verifying proofs of the pairs received. Older versions stay readable with the same answers throughout, and the calls of the later restore return what they would have returned had nothing been left behind.", "quantifier": "every store, every number of broken off restores, of this tree or of others, every call they break off in, every part of the batch written, every later sequence of chunks and proofs", "why_tests_cant": "each subset of each batch of each restore is a different store to start from; tests drop restores between calls only", "anchors": ["jmt/src/restore.rs:JellyfishMerkleRestore::new", "jmt/src/restore.rs:JellyfishMerkleRestore::new_overwrite", "jmt/src/restore.rs:JellyfishMerkleRestore::add_chunk_impl", "jmt/src/mock.rs:MockTreeStore::write_node_batch"]}
{"id": "C105", "title": "A chunk that is refused leaves the store as it was", "statement": "A call of add_chunk that returns Err has not changed the store; after any calls none of which returned Ok, the store is as it was before the restore, and the restore can go on with other chunks.", "quantifier": "every store, every version, every restore started by new or new_overwrite, every sequence of chunks and proofs", "why_tests_cant": "which value of which chunk is refused depends on the values already in the store; tests restore into empty stores", "anchors": ["jmt/src/restore.rs:JellyfishMerkleRestore::add_chunk_impl", "jmt/src/mock.rs:MockTreeStore::write_node_batch", "jmt/src/mock.rs:put_value"]}
{"id": "C106", "title": "What verify_proof makes of any bytes", "statement": "verify_proof does nothing but walk: from the root hash to the last part of the proof that has it, and so on from hash to part, from an extension behind its path, and from a branch to the child of the next digit of the key. It returns Ok(Some(v)) exactly if the walk ends at the leaf with the rest of the path and the value v, or at a branch with the value v when no digit is left; Ok(None) exactly if it ends at an empty node, at another leaf, at an extension with another path, or at such a branch without a value; InvalidProof exactly if it comes to a hash that no part has, or to a part that is not read as a node; and it panics exactly if it comes to a part on which decoding panics, or comes to the same place twice. Whatever the root hash is, an answer stays when parts are added, reordered or repeated, and two proofs never give different answers, unless two parts have the same hash.", "quantifier": "every root hash, every key, every list of byte strings of fewer than 2^64 bytes each", "why_tests_cant": "the bytes of a proof come from whoever sends it; tests use proofs made by get_proof and a few changed ones", "anchors": ["pmt/src/inner.rs:InnerTrie::verify_proof", "pmt/src/inner.rs:InnerTrie::get_at", "pmt/src/inner.rs:InnerTrie::decode_node"]}
{"id": "C107", "title": "What get answers on any database", "statement": "get on a trie does nothing but walk, from the root node along the digits of the key, with the stored bytes of each hash on the way. It returns Ok with an answer exactly if the walk ends with it, an error exactly if it comes to a hash under which nothing is stored or bytes that are no node, and it panics exactly if it comes to bytes on which decoding panics, or to the same place twice. So when entries of the database are lost, get gives the same result as before or MissingTrieNode; and only what is stored under the hashes on the way matters.", "quantifier": "every database, whatever bytes it holds under whatever hashes (fewer than 2^64 bytes each), every trie, every key", "why_tests_cant": "tests read databases that tries have written; what a damaged, pruned or foreign database makes of a read cannot be sampled", "anchors": ["pmt/src/inner.rs:InnerTrie::get", "pmt/src/inner.rs:InnerTrie::get_at", "pmt/src/inner.rs:InnerTrie::recover_from_db", "pmt/src/inner.rs:InnerTrie::decode_node"]}
{"id": "C108", "title": "What insert does on any database", "statement": "On a database that is damaged, incomplete or not written by a trie, insert of a non-empty value succeeds exactly if get of the key does; otherwise it returns the same error, or panics. After a success the key has the value, and get of every other key gives what it gave before, whether a value, None, an error or a panic. After an error every key reads as before. So of many insertions, some of which fail, each key that could be read has the last value given, and all others read as before.", "quantifier": "every database, whatever bytes it holds under whatever hashes (fewer than 2^64 bytes each), every trie with paths of digits, every key and value, every list of insertions", "why_tests_cant": "tests insert into databases that tries have written; how the many ways to split nodes meet nodes that no trie writes (extensions of extensions, branches of one child, empty leaves) cannot be sampled", "anchors": ["pmt/src/inner.rs:InnerTrie::insert", "pmt/src/inner.rs:InnerTrie::insert_at", "pmt/src/inner.rs:InnerTrie::get_at", "pmt/src/inner.rs:InnerTrie::recover_from_db"]}
{"id": "C109", "title": "What remove does on any database", "statement": "On a database that is damaged, incomplete or not written by a trie, remove fails with the same error, or panics, if get of the key does. After a success the key has no value, get of every other key gives what it gave before, whether a value, None, an error or a panic, and false was returned only if the key had no value. After an error every key reads as before; errors are possible although the key can be read, as the only child that is left to a branch is read too. So after any inserts and removes, some of which fail, every key reads as the calls that returned Ok say, and as before if there are none for it.", "quantifier": "every database, whatever bytes it holds under whatever hashes (fewer than 2^64 bytes each), every trie with paths of digits (new, opened, or left by a commit or by such calls), every key, every sequence of calls", "why_tests_cant": "tests remove from databases that tries have written; nodes that no trie writes, and nodes missing at any place, cannot be sampled", "anchors": ["pmt/src/inner.rs:InnerTrie::remove", "pmt/src/inner.rs:InnerTrie::delete_at", "pmt/src/inner.rs:InnerTrie::degenerate", "pmt/src/inner.rs:InnerTrie::insert_at"]}
{"id": "C110", "title": "What get_proof returns on any database", "statement": "On any database get_proof returns an error exactly if get of the key does, and the same, and panics if it does; it returns a proof only if the key can be read. On a database that holds nodes of any tries in the encoding of the Yellow Paper under their hashes, perhaps not all of them, a trie whose root is the node stored under the root hash (as after a commit) and not empty returns a proof for every key that can be read; it consists of entries of the database, verify_proof gives with it the value (or None) that get gives, and get_proof changes nothing that is read. A commit to such an archive database leaves such a database. So after any calls of insert, remove and get_proof and any commits on one, a proof verifies against the root of the last commit with what the successful calls say, or what could be read at the beginning.", "quantifier": "every database, every trie, every key; for the proofs every database of encoded nodes, of which those with fewer than 32 bytes are only the root", "why_tests_cant": "databases of which any part is missing, and nodes of foreign tries that no sequence of operations of this crate would write, cannot be sampled", "anchors": ["pmt/src/inner.rs:InnerTrie::get_proof", "pmt/src/inner.rs:InnerTrie::get_path_at", "pmt/src/inner.rs:InnerTrie::verify_proof", "pmt/src/inner.rs:InnerTrie::encode_raw"]}
{"id": "C111", "title": "What commit changes of what is read, on any archive database", "statement": "On any archive database whose entries are stored under their hashes, after a successful commit of a trie whose paths and values can be encoded and whose branches hold no empty value, every key reads exactly as before, be it a value, no value, an error or a panic, from the trie and from the trie opened at the returned root; only a key whose node was missing may read otherwise, because the commit may have written that node. Nothing stored is lost. On a pruning database a key may also be missing after the commit, but never reads otherwise than before. The commit succeeds, whatever is stored, if the root is not a hash that has not been read yet. So after insert (or any calls of insert and remove, some of which fail) and commit, the reopened trie reads as the successful calls say. The same holds of any calls with any number of commits and of calls of get_proof (which fills the cache that the next commit stores) in between, in any order. An empty value that a stored leaf may have, and that an insertion has moved into a branch, is lost by the commit.", "quantifier": "every archive database of entries under their hashes (decodable or not, of any tries, complete or not), every trie, every key; up to a collision of the hash function among the bytes inserted", "why_tests_cant": "damaged and foreign databases, every place at which a node can be missing, and all keys cannot be sampled", "anchors": ["pmt/src/inner.rs:InnerTrie::commit", "pmt/src/inner.rs:InnerTrie::write_node", "pmt/src/inner.rs:InnerTrie::encode_raw", "pmt/src/inner.rs:InnerTrie::insert_at"]}
{"id": "C112", "title": "What iterating yields on any database", "statement": "On any database, whatever bytes it holds and whatever is missing, iterating over a trie that comes to an end has yielded exactly the values at the ends of the paths of digits that can be walked from the root, each path once and in lexicographic order, under the bytes that the digits make; missing nodes are passed over; if bytes are stored that are no node, iterating may end early, and what it has yielded until then is right and complete up to there. If all paths have an even number of digits, then the keys are yielded in ascending order, none twice, every pair yielded is what get returns, and (with no such bytes) every key that get reads is yielded. A path with an odd number of digits, which only a foreign trie has, is yielded under a key that get does not find. Iterating panics only if stored bytes make decoding panic or the empty key has a value, and otherwise ends if the stored nodes do not lead back to themselves; if they do, it may go on forever although get returns.", "quantifier": "every database of entries of fewer than 2^64 bytes, every trie with well-formed paths, every number of rounds", "why_tests_cant": "foreign and damaged databases with nodes that no operation of this crate writes, shared and cyclic ones among them, cannot be sampled", "anchors": ["pmt/src/trie_iterator.rs:TrieIterator::next", "pmt/src/inner.rs:InnerTrie::values", "pmt/src/nibbles.rs:Nibbles::encode_raw", "pmt/src/inner.rs:InnerTrie::get"]}
{"id": "C113", "title": "What iterating yields after any calls, on any database", "statement": "On any database, complete or not, whose bytes are all nodes, after any calls of insert and remove, some of which may have failed, iterating yields in ascending order exactly the keys that have a value according to the calls that returned Ok, or that could be read before if no such call was about them; keys that no call was about are yielded exactly as before the calls. If moreover the stored nodes do not lead back to themselves and the empty key has no value, iterating does end, always with the same list. Paths of an odd number of digits, which are not of keys and which only a foreign trie has, hold what they held. With any number of commits and proofs in between on an archive database, iterating at the end yields every key that has a value in this sense, and nothing else except keys whose node was missing at the beginning and has been written by a commit.", "quantifier": "every database of entries of fewer than 2^64 bytes that are nodes, every trie with well-formed paths, every list of calls; with commits every archive database of entries under their hashes, up to a collision of the hash function", "why_tests_cant": "the interplay of iterating with calls on damaged and foreign databases cannot be sampled: every place of a missing node, every order of calls, failures and commits", "anchors": ["pmt/src/trie_iterator.rs:TrieIterator::next", "pmt/src/inner.rs:InnerTrie::insert_at", "pmt/src/inner.rs:InnerTrie::delete_at", "pmt/src/inner.rs:InnerTrie::commit"]}
