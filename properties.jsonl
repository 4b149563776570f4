{"id": "C01", "title": "Binary root is the RFC 6962 Merkle tree hash", "statement": "After pushing any list of byte strings onto a new binary tree whose storage does not fail, every push returns Ok and root() returns the RFC 6962 Merkle Tree Hash of exactly that list (leaf prefix 0x00, node prefix 0x01, split at the largest power of two below the length).", "quantifier": "every list of byte strings of length below 2^63, every hash function (for the empty list: SHA-256, whose digest of nothing is the built-in constant), every build profile", "why_tests_cant": "the set of leaf lists is unbounded and the carry chain differs for every length; tests fix seven or so lengths", "anchors": ["src/binary/merkle_tree.rs: MerkleTree::push, MerkleTree::root, join_all_subtrees, build_root_node", "src/binary/hash.rs: leaf_sum, node_sum"]}
{"id": "C02", "title": "Empty binary and sum trees hash to SHA-256 of the empty string", "statement": "A tree with no leaves reports the constant empty_sum, and that constant is SHA-256 of the empty byte string.", "quantifier": "every storage (whatever it contains)", "why_tests_cant": "the storage contents are arbitrary; the constant itself is a finite fact", "anchors": ["src/common.rs: empty_sum_sha256", "src/binary/merkle_tree.rs: root", "src/sum/merkle_tree.rs: root"]}
{"id": "C03", "title": "Binary proofs are the RFC 6962 audit paths", "statement": "For every pushed list and every index i below the number of leaves, prove(i) returns Ok((root, set)) where root equals root() and set is the leaf hash of item i followed by the RFC 6962 audit path of leaf i from leaf to root.", "quantifier": "every list of fewer than 2^62 leaves (2^63 in a build without overflow checks) and every valid index (from 2^62 leaves on, the position arithmetic panics under overflow checks, see C22); on working storage", "why_tests_cant": "pairs (length, index) are unbounded, and imbalanced trees move side nodes to positions that depend on both", "anchors": ["src/binary/merkle_tree.rs: prove", "src/common/position_path.rs: PositionPathIter"]}
{"id": "C04", "title": "Out-of-range proof index", "statement": "prove(i) on a tree with n leaves returns Err(InvalidProofIndex(i)) and changes nothing for every n <= i < u64::MAX. The one exception is i = u64::MAX: with overflow checks it panics, without them the check wraps around and, on a tree built over empty storage, a LoadError is returned instead.", "quantifier": "every tree and every u64 index; for the wrapped check, every list of fewer than 2^63 leaves pushed onto empty storage", "why_tests_cant": "the boundary index u64::MAX is never tried by the tests", "anchors": ["src/binary/merkle_tree.rs: prove"]}
{"id": "C05", "title": "Generated proofs verify", "statement": "For every tree and valid index, feeding the output of prove to the reference verifier verify(root, set, i, n) returns true.", "quantifier": "every list of fewer than 2^62 leaves (2^63 in a build without overflow checks) and every valid index; on working storage", "why_tests_cant": "unbounded number of shapes", "anchors": ["src/binary/merkle_tree.rs: prove", "test-helpers/src/binary/verify.rs: verify"]}
{"id": "C06", "title": "Accepted proofs identify the right leaf", "statement": "If verify(root, set, i, n) accepts with root the root of an n-leaf tree and set starting with the leaf hash of some data d, then d is the i-th leaf of that tree, unless an explicit hash collision among the messages hashed by the tree and by the verifier is exhibited.", "quantifier": "every tree of fewer than 2^63 leaves, index, data and (adversarial) proof set", "why_tests_cant": "the adversary's proof set ranges over all lists of digests", "anchors": ["test-helpers/src/binary/verify.rs: verify"]}
{"id": "C07", "title": "Binary root commits to the whole leaf list", "statement": "If two leaf lists give the same binary root then they are the same list (same length, order and contents), unless the hashing of the two lists exhibits an explicit collision.", "quantifier": "all pairs of lists of at most 2^63 leaves", "why_tests_cant": "no finite set of pairs settles injectivity", "anchors": ["src/binary/merkle_tree.rs: root", "src/binary/hash.rs: leaf_sum, node_sum"]}
{"id": "C08", "title": "Storage holds exactly the complete subtrees", "statement": "After n pushes onto a new tree over empty storage, the storage maps key 2^h(2k+1)-1 to that same index paired with the Merkle hash of leaves k*2^h..(k+1)*2^h for every complete subtree (k+1)*2^h <= n, and holds nothing else.", "quantifier": "every list of at most 2^63 leaves, every u64 key", "why_tests_cant": "keys and lengths are unbounded; the tests inspect one 7-leaf tree", "anchors": ["src/binary/merkle_tree.rs: push, join_all_subtrees", "src/binary/node.rs: create_node, key"]}
{"id": "C09", "title": "Load restores the tree", "statement": "MerkleTree::load(storage, n) on the storage left by n pushes succeeds and the loaded tree gives the same root, the same proofs, and the same behaviour under further pushes as the original.", "quantifier": "every leaf list of fewer than 2^62 leaves (2^63 in a build without overflow checks), every continuation staying below the same bound; proof indices other than u64::MAX (for which see C04)", "why_tests_cant": "tests load three sizes and compare only roots", "anchors": ["src/binary/merkle_tree.rs: load, build, peak_positions"]}
{"id": "C10", "title": "Load can reopen any earlier size", "statement": "After n pushes, load(storage, m) for any m <= n yields a tree whose root and proofs are those of the first m leaves.", "quantifier": "every leaf list and every earlier count below 2^62 (2^63 in a build without overflow checks); proof indices other than u64::MAX (for which see C04)", "why_tests_cant": "pairs of sizes are unbounded", "anchors": ["src/binary/merkle_tree.rs: load"]}
{"id": "C11", "title": "Load reports missing peaks", "statement": "load(storage, n) succeeds iff every peak of an n-leaf tree is present in storage; otherwise it returns LoadError carrying the in-order index of the first (highest) missing peak, and never panics. For 2^62 <= n < 2^63 it panics under overflow checks whatever the storage holds.", "quantifier": "every storage content on storage whose reads do not fail; every n below 2^62 (2^63 in a build without overflow checks) for the first part, every n from 2^62 to 2^63-1 for the second part", "why_tests_cant": "storage contents are arbitrary", "anchors": ["src/binary/merkle_tree.rs: load, build, peak_positions"]}
{"id": "C12", "title": "Interrupted push never damages stored leaves", "statement": "If a push fails (storage error at any write, whether or not the failing write was applied), the storage it leaves can still be loaded at the old leaf count and gives the old root and proofs.", "quantifier": "every list of fewer than 2^62 leaves (2^63 in a build without overflow checks), every crash point in the push, torn or lost final write, every later history; proof indices other than u64::MAX (for which see C04)", "why_tests_cant": "crash points and histories are unbounded; no test injects storage errors", "anchors": ["src/binary/merkle_tree.rs: push, join_all_subtrees, load"]}
{"id": "C13", "title": "What a failed push does to the open tree", "statement": "If push returns Err, the leaf count is unchanged. If the failure was at the write of the leaf record, the open tree is unchanged; if it was at a later write, the open tree has lost its subtree list and root() is the root of the empty tree. (So the expectation that a failed push leaves the open tree unchanged is refuted; the storage is unharmed, see C12.)", "quantifier": "every tree of fewer than 2^63 leaves, every crash point", "why_tests_cant": "no test injects storage errors", "anchors": ["src/binary/merkle_tree.rs: push, join_all_subtrees"]}
{"id": "C14", "title": "Root and prove are pure observations", "statement": "root() and prove() write nothing to the storage and do not change the tree: every later observation is the same as if they had not been called.", "quantifier": "every tree state, every index, every fault schedule on reads (prove); every history of fewer than 2^62 pushes (2^63 in a build without overflow checks) with observations anywhere; proof indices other than u64::MAX (for which see C04)", "why_tests_cant": "must hold in every reachable state", "anchors": ["src/binary/merkle_tree.rs: root, prove, root_node"]}
{"id": "C15", "title": "Stored binary nodes are immutable", "statement": "On a tree built over empty storage, later pushes never change or delete any record already in the storage. On any storage, through failing pushes and reloads, the records of the complete subtrees of acknowledged leaves are never changed or deleted again.", "quantifier": "every history of at most 2^63 pushes; through failures and reloads, fewer than 2^62 acknowledged leaves (2^63 in a build without overflow checks)", "why_tests_cant": "histories are unbounded", "anchors": ["src/binary/merkle_tree.rs: push"]}
{"id": "C16", "title": "Binary storage growth", "statement": "n pushes perform exactly 2n - popcount(n) storage writes, to distinct keys.", "quantifier": "every list of at most 2^63 leaves", "why_tests_cant": "unbounded n", "anchors": ["src/binary/merkle_tree.rs: push, join_all_subtrees"]}
{"id": "C17", "title": "Acknowledged pushes survive any crash-and-reload history", "statement": "For any sequence of push attempts with storage failures at arbitrary points, where after each failed push the tree is re-opened with load at the last acknowledged count, the final tree has exactly the root and proofs of the list of acknowledged leaves.", "quantifier": "every sequence of pushes (fewer than 2^62, or 2^63 in a build without overflow checks) and every fault schedule; proof indices other than u64::MAX (for which see C04)", "why_tests_cant": "schedules of faults and histories are unbounded", "anchors": ["src/binary/merkle_tree.rs: push, load"]}
{"id": "C18", "title": "Positions enumerate the perfect tree in order", "statement": "The in-order traversal of the subtree at any position lists consecutive in-order indices, leaf i of the bottom row having index 2i; height() is the row of the position.", "quantifier": "every u64 index of height at most 62 (all but 2^63-1 and 2^64-1) for the traversal; every u64 index for the height", "why_tests_cant": "64-bit domain", "anchors": ["src/common/position.rs: Position, height, from_leaf_index, left_child, right_child"]}
{"id": "C19", "title": "Parent and child are inverse", "statement": "The parent of the left or right child of a position is the position itself, and every position is one of the two children of its parent; parent increases height by one, child decreases it by one.", "quantifier": "every u64 index of height at most 62 with children; every u64 index of height at most 61 (parents)", "why_tests_cant": "64-bit domain", "anchors": ["src/common/position.rs: parent, left_child, right_child, height"]}
{"id": "C20", "title": "Sibling and uncle laws", "statement": "sibling is an involution without fixed point that preserves height and parent; uncle is the sibling of the parent.", "quantifier": "every u64 index of height at most 61 (sibling), 60 (uncle)", "why_tests_cant": "64-bit domain", "anchors": ["src/common/position.rs: sibling, uncle, parent"]}
{"id": "C21", "title": "Leaf index round trip", "statement": "from_leaf_index(i).leaf_index() = i for i < 2^63 and from_leaf_index panics from 2^63 on in a build with overflow checks; leaves are exactly the even indices, is_node is the negation of is_leaf, and leaf_index panics exactly on internal nodes.", "quantifier": "every u64 leaf index", "why_tests_cant": "64-bit domain", "anchors": ["src/common/position.rs: from_leaf_index, leaf_index, is_leaf, is_node"]}
{"id": "C22", "title": "Exactly where position arithmetic overflows", "statement": "With overflow checks, parent and sibling panic exactly at the indices 2^63-1, 2^63+2^62-1 and 2^64-1; the children of an internal node panic exactly for the right child of 2^63-1 and both children of 2^64-1. Without checks the wrapped results next to the top are the mathematically right ones. Consequently position paths from the root of an n-leaf tree panic for every 2^62 <= n < 2^63 and for none below (C24).", "quantifier": "every u64 index, both overflow behaviours", "why_tests_cant": "only extreme indices overflow; tests use indices below 20", "anchors": ["src/common/position.rs: parent, sibling, child, orientation, direction"]}
{"id": "C23", "title": "Path iteration follows the ancestors", "statement": "as_path_iter from a position to a leaf below it yields the position, then each successive ancestor of the leaf down to the leaf itself, each paired with its sibling.", "quantifier": "every position of height at most 62 and every leaf under it (63 in a build without overflow checks)", "why_tests_cant": "64-bit domain", "anchors": ["src/common/path_iterator.rs: PathIter", "src/common/position.rs: Position"]}
{"id": "C24", "title": "Position paths follow the n-leaf tree shape", "statement": "root.path(leaf, n).iter() yields, from root to leaf, the positions of the subtrees on the RFC 6962 path to the leaf paired with the positions of the sibling subtrees; all yielded positions exist in the n-leaf tree.", "quantifier": "every n below 2^62 (2^63 in a build without overflow checks) and every leaf index below n", "why_tests_cant": "unbounded shapes", "anchors": ["src/common/position_path.rs: PositionPathIter, PositionPath", "src/common/position.rs: path"]}
{"id": "C25", "title": "Peaks are the binary digits of the leaf count", "statement": "The peaks consulted by load for n leaves are, left to right, the complete subtrees whose sizes are the powers of two in the binary expansion of n in decreasing order, covering leaves 0..n without overlap.", "quantifier": "every n below 2^62 (2^63 in a build without overflow checks)", "why_tests_cant": "unbounded n", "anchors": ["src/binary/merkle_tree.rs: peak_positions, root_position"]}
{"id": "C26", "title": "Bit addressing reads the big-endian number", "statement": "get_bit_at_index_from_msb(i) is bit 8N-1-i of the big-endian integer value of the array, and None exactly when i >= 8N.", "quantifier": "every byte array of every length, every index", "why_tests_cant": "domain is exponential", "anchors": ["src/common/msb.rs: get_bit_at_index_from_msb, get_bit"]}
{"id": "C27", "title": "Common prefix count is the longest common bit prefix", "statement": "common_prefix_count is symmetric, never panics, equals 8N iff the arrays are equal, and otherwise is the index of the first differing bit.", "quantifier": "every pair of equal-length byte arrays", "why_tests_cant": "domain is exponential", "anchors": ["src/common/msb.rs: common_prefix_count"]}
{"id": "C28", "title": "Sparse root after any history", "statement": "After any history of updates and deletes on a new sparse tree every operation returns Ok, and root() is the compact sparse Merkle root of the map that results if each update writes its key and each delete of a recorded key removes the leaf met on the path of the key. If no delete is stale (each delete names a present key or one never stored) this is the key/value map the history denotes. Stale deletes are an exception: update k1, update k2, delete k1, delete k1 empties the tree although k2 was never deleted.", "quantifier": "every history of update/delete (hash collisions excluded explicitly); on working storage that was empty at first", "why_tests_cant": "histories and 256-bit keys are unbounded", "anchors": ["src/sparse/merkle_tree.rs: update, delete, root, update_with_path_set, delete_with_path_set"]}
{"id": "C29", "title": "Sparse root is independent of insertion order", "statement": "Any two update histories that leave the same final map give the same root.", "quantifier": "all pairs of update histories with equal final maps; every hash function that, on the messages of the trees gone through, has no collisions, no zero hash and no hash equal to a key used; on working storage that was empty at first", "why_tests_cant": "permutations are unbounded", "anchors": ["src/sparse/merkle_tree.rs: update, root"]}
{"id": "C30", "title": "Deleting a present key undoes its insertion", "statement": "delete(k) of a present key k gives exactly the root of the map without k, except for the all-zero key after a stale delete, which may then be undeletable; update(k,d) of an absent key followed by delete(k) always restores the previous root.", "quantifier": "every reachable tree and every present key; every hash function that, on the messages of the trees gone through, has no collisions, no zero hash and no hash equal to a key used; on working storage that was empty at first", "why_tests_cant": "unbounded states", "anchors": ["src/sparse/merkle_tree.rs: delete, delete_with_path_set"]}
{"id": "C31", "title": "Deleting an absent key", "statement": "delete(k) of a key that was never stored returns Ok and leaves the root and every storage record unchanged. delete(k) of a key that was stored and is absent now is not a no-op: it removes the key whose leaf is met on the path of k, if any.", "quantifier": "every reachable tree and every absent key; every hash function that, on the messages of the trees gone through, has no collisions, no zero hash and no hash equal to a key used; on working storage that was empty at first; for the stale delete any key but the all-zero one (for which see C30)", "why_tests_cant": "the failing histories need a key that was inserted and deleted before; tests only use never-inserted keys", "anchors": ["src/sparse/merkle_tree.rs: delete"]}
{"id": "C32", "title": "Update overwrites and is idempotent", "statement": "For nonempty data, update(k,d) after update(k,e) gives the same root as update(k,d) alone, and repeating an update does not change the root.", "quantifier": "every reachable tree, key and data; every hash function that, on the messages of the trees gone through, has no collisions, no zero hash and no hash equal to a key used; on working storage that was empty at first", "why_tests_cant": "unbounded states", "anchors": ["src/sparse/merkle_tree.rs: update"]}
{"id": "C33", "title": "Update with empty data is delete", "statement": "update(k, \"\") has exactly the effects and result of delete(k).", "quantifier": "every tree state, every storage, every fault schedule", "why_tests_cant": "must hold in every state", "anchors": ["src/sparse/merkle_tree.rs: update"]}
{"id": "C34", "title": "Sparse root is zero exactly for the empty map", "statement": "root() is the 32-byte zero value iff the map is empty.", "quantifier": "every reachable tree (no message hashing to zero); every hash function that, on the messages of the trees gone through, has no collisions, no zero hash and no hash equal to a key used; on working storage that was empty at first", "why_tests_cant": "unbounded states", "anchors": ["src/sparse/merkle_tree.rs: root", "src/sparse/hash.rs: zero_sum"]}
{"id": "C35", "title": "Sparse load restores the tree", "statement": "If the map is not empty, load(storage, root()) yields a tree that cannot be told apart from the original under every continuation and every pattern of storage failures. For the empty map load(storage, root()) is a LoadError, or, if the all-zero key was stored and deleted before, brings its deleted leaf back.", "quantifier": "every reachable tree, every continuation; every hash function that, on the messages of the trees gone through, has no collisions, no zero hash and no hash equal to a key used; on storage that was empty at first and works until the reload", "why_tests_cant": "unbounded states; the tests never load the empty root", "anchors": ["src/sparse/merkle_tree.rs: load"]}
{"id": "C36", "title": "Sparse load errors", "statement": "load fails with LoadError iff the root key is absent from storage, with DeserializeError iff the stored prefix byte is neither 0 nor 1, with StorageError iff the read fails.", "quantifier": "every storage content and root", "why_tests_cant": "storage contents are arbitrary", "anchors": ["src/sparse/merkle_tree.rs: load", "src/sparse/primitive.rs: TryFrom", "src/common/prefix.rs: try_from"]}
{"id": "C37", "title": "Old sparse roots stay loadable under updates", "statement": "After any further updates (no deletes), every earlier root of a nonempty map can still be loaded, has the root node it had, and every continuation from it succeeds and gives canonical roots.", "quantifier": "every history of updates and every earlier point of it; every hash function that, on the messages of the trees gone through, has no collisions, no zero hash and no hash equal to a key used; on working storage that was empty at first", "why_tests_cant": "histories are unbounded", "anchors": ["src/sparse/merkle_tree.rs: update, load"]}
{"id": "C38", "title": "Interrupted sparse update is harmless to the stored tree", "statement": "If updates fail at any storage calls, whether or not the failing writes take effect, the open tree keeps the root of the successful calls; when storage works again this root can be loaded, and all further calls (on the open or the loaded tree, retries included) succeed and give canonical roots.", "quantifier": "every tree, key, data and every crash point; every hash function that, on the messages of the trees gone through, has no collisions, no zero hash and no hash equal to a key used; on storage that was empty at first, with any failures of updates and no failed delete (for which see C39)", "why_tests_cant": "crash points are unbounded", "anchors": ["src/sparse/merkle_tree.rs: update, update_with_path_set"]}
{"id": "C39", "title": "Interrupted sparse delete", "statement": "If a delete fails at any storage call, the open tree keeps its old root, no later call panics and every later successful call gives the canonical root. The tree in storage is not safe: after an interrupted delete the old root may be unloadable, or loadable with nodes missing so that retrying the delete fails with ChildNotFound.", "quantifier": "every tree, key and crash point; every hash function that, on the messages of the trees gone through, has no collisions, no zero hash and no hash equal to a key used; on storage that was empty at first", "why_tests_cant": "no test injects storage errors", "anchors": ["src/sparse/merkle_tree.rs: delete, delete_with_path_set"]}
{"id": "C40", "title": "Sparse root commits to the map", "statement": "Two maps with equal sparse roots are equal (as maps from keys to data hashes), unless an explicit collision among the hashed messages, or one that hashes to zero, is exhibited.", "quantifier": "all pairs of maps", "why_tests_cant": "infinite pairs", "anchors": ["src/sparse/merkle_tree.rs: root", "src/sparse/node.rs: hash"]}
{"id": "C41", "title": "Keys that equal node hashes", "statement": "Keys different from every node hash are safe (C28, C42). A key that is the hash of a stored node is not: delete(hash of the leaf of k) deletes k (other than the zero key), delete(root()) panics whenever the map has at least two keys, and update under the hash of a leaf can destroy that leaf.", "quantifier": "every history before the call, on working storage that was empty at first, every present key, every hash function as in C28; the last claim is an example with SHA-256, in every build", "why_tests_cant": "needs keys chosen equal to stored hashes; tests hash their keys", "anchors": ["src/sparse/merkle_tree.rs: update, delete, path_set", "src/sparse/node.rs: leaf_key"]}
{"id": "C42", "title": "Sparse operations never panic on reachable trees", "statement": "No assertion, index, unwrap, debug assertion or arithmetic overflow fires in update, delete, root or load along any history with any storage failures, as long as the hash function behaves on the messages of the history (no collision, no zero hash, no key equal to a node hash).", "quantifier": "every history on a storage that was empty at first, every pattern of storage failures, every build profile; for load every storage content and root", "why_tests_cant": "unbounded histories", "anchors": ["src/sparse/merkle_tree.rs: set_root_node, update_with_path_set", "src/sparse/node.rs: create_node_on_path, common_path_length, leaf_key"]}
{"id": "C43", "title": "Node and primitive encodings round trip", "statement": "Converting a node to its stored primitive and back is the identity for sparse and binary nodes; decoding accepts exactly prefixes 0 and 1 and reports the offending byte otherwise.", "quantifier": "every node and every primitive", "why_tests_cant": "exponential domain", "anchors": ["src/sparse/primitive.rs", "src/binary/primitive.rs", "src/common/prefix.rs"]}
{"id": "C44", "title": "Sparse storage residue", "statement": "The exact effect of the operations on the key records: update(k, d) leaves a record for k holding its leaf; delete changes no record of any used key other than the all-zero key; after update(k,d), delete(k) the record of k still holds the deleted leaf.", "quantifier": "every reachable tree; every hash function that, on the messages of the trees gone through, has no collisions, no zero hash and no hash equal to a key used; on working storage that was empty at first", "why_tests_cant": "unbounded states", "anchors": ["src/sparse/merkle_tree.rs: update, delete_with_path_set"]}
{"id": "C45", "title": "Sum root is the sum tree hash", "statement": "After pushing any list of (fee, data) onto a new sum tree, root() is Ok of the total fee and the recursive sum-tree hash of the list.", "quantifier": "every nonempty list of fewer than 2^64 leaves whose total fee fits in u64, every hash function, every build profile; on working storage", "why_tests_cant": "unbounded lists", "anchors": ["src/sum/merkle_tree.rs: push, root", "src/sum/hash.rs", "src/sum/node.rs"]}
{"id": "C46", "title": "Fee overflow", "statement": "If the total fee does not fit in u64, push or root panics with overflow checks on and the reported fee is the total modulo 2^64 with them off.", "quantifier": "every fee list (fewer than 2^64 leaves, each fee a u64); on working storage", "why_tests_cant": "overflow needs extreme fees", "anchors": ["src/sum/node.rs: create_node"]}
{"id": "C47", "title": "Sum root commits to fees and data", "statement": "Equal sum-tree roots imply equal lists of (fee, data), unless an explicit collision is exhibited.", "quantifier": "all pairs of lists of fewer than 2^64 leaves with 64-bit fees, empty ones included; every pair of reported roots, also over storage that fails elsewhere, in different builds, and after totals have wrapped in builds without overflow checks", "why_tests_cant": "infinite pairs", "anchors": ["src/sum/hash.rs: leaf_sum, node_sum"]}
{"id": "C48", "title": "Sum root is repeatable", "statement": "root() does not change the tree: calling it any number of times between pushes changes no later root.", "quantifier": "every interleaving of push and root; fewer than 2^64 leaves with 64-bit fees, the total fitting in 64 bits in a build with overflow checks; on working storage", "why_tests_cant": "interleavings are unbounded", "anchors": ["src/sum/merkle_tree.rs: root, root_node, join_subtrees"]}
{"id": "C49", "title": "Sum storage contains the tree", "statement": "After root(), starting from the root digest and following left and right child keys through storage reaches, in order, exactly the pushed leaves.", "quantifier": "every leaf list (no collisions among hashed messages); fewer than 2^64 leaves with 64-bit fees, the total fitting in 64 bits in a build with overflow checks", "why_tests_cant": "unbounded lists", "anchors": ["src/sum/merkle_tree.rs: push, root, join_subtrees", "src/sum/node.rs: left_child_key, right_child_key"]}
{"id": "C50", "title": "What a failed sum push does to the open tree", "statement": "If push does not succeed because the write of the leaf record failed, the open tree is unchanged; if a later write failed or the fee addition overflowed, the open tree has lost all its subtrees and root() reports the empty tree. (So the expectation that a failed push leaves the tree unchanged is refuted.)", "quantifier": "every tree built by successful pushes, every crash point; fewer than 2^64 leaves with 64-bit fees", "why_tests_cant": "no test injects storage errors", "anchors": ["src/sum/merkle_tree.rs: push, join_all_subtrees"]}
{"id": "C51", "title": "StorageMap behaves as a map", "statement": "Any sequence of insert/remove/get/contains_key on StorageMap returns what a mathematical map returns: insert and remove return the previous value, get the latest insert not followed by a remove.", "quantifier": "every operation sequence", "why_tests_cant": "unbounded histories", "anchors": ["src/common/storage_map.rs", "src/storage.rs"]}
{"id": "C52", "title": "Reference tree and library tree agree", "statement": "The streaming reference tree of test-helpers and the library tree return the same root for every leaf list, and the same proof (leaf hash, then RFC 6962 audit path) for every leaf. For an index that is not a leaf the library reports InvalidProofIndex and the reference tree returns the root with an empty proof.", "quantifier": "every leaf list and index; fewer than 2^62 leaves (2^63 in a build without overflow checks) where load or prove is involved, at most 2^63 otherwise; proof indices other than u64::MAX (for which see C04); on working storage", "why_tests_cant": "tests sample 14 sizes", "anchors": ["test-helpers/src/binary/merkle_tree.rs", "src/binary/merkle_tree.rs"]}
{"id": "C53", "title": "In-memory wrappers are faithful", "statement": "The in_memory binary and sparse trees return exactly what the generic trees over StorageMap return; the results they discard are always Ok.", "quantifier": "every history; fewer than 2^62 leaves (2^63 in a build without overflow checks) where load or prove is involved, at most 2^63 otherwise; for the sparse tree every hash function that, on the messages of the trees gone through, has no collisions, no zero hash and no hash equal to a key used; proof indices other than u64::MAX (for which see C04)", "why_tests_cant": "unbounded histories", "anchors": ["src/binary/in_memory.rs", "src/sparse/in_memory.rs"]}
{"id": "C54", "title": "Sparse storage is addressed by content", "statement": "Whatever trees are opened on a storage and whatever calls are made and fail, every record in it is filed under its own hash, or under its key if it is a leaf. So load(storage, r) gives a tree with root r, with one exception: if r is a user key with a record, load succeeds and gives the tree of that one leaf, whose root is not r.", "quantifier": "every hash function, every storage filed this way (the empty one in particular), every sequence of sessions with any loads, calls and failures; every r", "why_tests_cant": "tests load only roots they obtained from root(); they cannot run all sessions, failures and values of r", "anchors": ["src/sparse/merkle_tree.rs: MerkleTree::update, delete, load", "src/sparse/node.rs: StorageNode", "src/sparse/primitive.rs"]}
{"id": "C55", "title": "Sparse updates never remove records", "statement": "update with nonempty data removes no record from storage, whatever it finds there and whatever fails; a record it replaces is replaced by one filed under its own hash or key.", "quantifier": "every storage contents, every sequence of update-only sessions with any loads and failures, every key of the storage", "why_tests_cant": "needs every storage content and every point of failure", "anchors": ["src/sparse/merkle_tree.rs: MerkleTree::update, delete, load", "src/sparse/node.rs: StorageNode", "src/sparse/primitive.rs"]}
{"id": "C56", "title": "Sparse calls end on any storage", "statement": "update and delete terminate on any storage, even one with wrong, missing or cyclic records: at most 771 storage calls for update and 1026 for delete.", "quantifier": "every tree value, every storage contents, every pattern of failures, every key and data", "why_tests_cant": "tests never run on corrupt storages, and a loop that does not end cannot be observed by a test", "anchors": ["src/sparse/merkle_tree.rs: MerkleTree::update, delete, load", "src/sparse/node.rs: StorageNode", "src/sparse/primitive.rs", "src/common/path_iterator.rs: PathIter"]}
{"id": "C57", "title": "Sessions and branching histories", "statement": "In any sequence of sessions on one storage, each on a new tree or on a tree loaded at any root reported earlier (so histories may branch), with any calls, failures and crashes, every root reported is the canonical root of the map acknowledged on that branch and no call panics. If the sessions so far only updated, every tree reported can still be opened on working storage and all calls on it succeed.", "quantifier": "every number of sessions, roots loaded, calls, failure patterns and crash points; every hash function without collisions, zero hashes or key clashes on the messages involved", "why_tests_cant": "unbounded interleavings of sessions, branches and crash points", "anchors": ["src/sparse/merkle_tree.rs: MerkleTree::update, delete, load", "src/sparse/node.rs: StorageNode", "src/sparse/primitive.rs"]}
{"id": "C58", "title": "Errors of the sparse tree come from the storage, and none is swallowed", "statement": "On any tree over any storage content with any pattern of storage failures, an update or delete that returns Ok has done exactly what it would have done had no storage call failed (same root, same records). An error it returns is either StorageError, or ChildError wrapping it, carrying the error value of a storage call made by this very call, or an error the call would also return with no storage failure. On a tree built from empty storage in which no removal has failed so far, only the first kind occurs: a failing call always reports a genuine storage failure, never a deserialization error, a missing child, or a load error.", "quantifier": "every tree state, storage content, failure schedule (including writes that fail after being applied), every history from an empty tree, every call, key and data, both build profiles; for the last sentence every hash function that, on the messages of the maps tried, has no collisions, no zero hash and no hash equal to a key used", "why_tests_cant": "The failing storage call may be any of the hundreds a call makes, and swallowing an error (for example treating a failed child read as a missing child) is only visible for particular failure points on particular tree shapes.", "anchors": ["src/sparse/merkle_tree.rs: MerkleTree::update, MerkleTree::delete, MerkleTreeError", "src/sparse/node.rs: StorageNode::left_child, StorageNode::right_child, StorageNodeError", "src/common/path_iterator.rs: PathIter::next", "src/common/node.rs: ChildError"]}
{"id": "C59", "title": "Going on with an open tree after a failed push", "statement": "When a push of the binary tree fails after its first storage call, the open tree restarts silently: whatever pushes then succeed (for example the retried one), root() is the root of those later leaves alone while the leaf count still includes the earlier ones, and after two such pushes the stored record of the parent of leaves n-1 and n (n the count at the failure, always odd) holds the parent of the two later leaves instead. Loading the tree again at its count can then succeed with a wrong root (one leaf, the retried push and one more). The caller must open the tree again from storage before going on (C12). The sum tree after such a failure is exactly a new tree over the same storage.", "quantifier": "every leaf list, hash function, build profile, storage content, pattern of failures and list of later leaves; fewer than 2^62 leaves (2^63 without overflow checks) in all for the binary tree, fewer than 2^64 with 64-bit fees for the sum tree", "why_tests_cant": "the failure may hit any write of any push and the later history is unbounded; the damage shows only in the records and in roots read after more pushes", "anchors": ["src/binary/merkle_tree.rs: MerkleTree::push, join_all_subtrees, root, load", "src/sum/merkle_tree.rs: MerkleTree::push, join_all_subtrees, root"]}
{"id": "C60", "title": "Debug and release builds agree", "statement": "For the binary, sum and sparse trees, the in-memory trees, positions and their paths, and the test helpers: if a call or a history of calls does not panic in a build with overflow checks and debug assertions, then a build with fewer checks returns the same results and leaves the same tree and storage. (The condition is needed: prove(u64::MAX) differs.)", "quantifier": "every pair of build profiles one of which has all the checks of the other (on targets of the same or of different pointer size), every hash function, tree value, storage content, failure pattern and history of calls", "why_tests_cant": "tests run in one build profile; agreement on every input cannot be sampled", "anchors": ["src/binary/merkle_tree.rs: MerkleTree", "src/sum/merkle_tree.rs: MerkleTree", "src/sparse/merkle_tree.rs: MerkleTree", "src/binary/in_memory.rs", "src/sparse/in_memory.rs", "src/common/position.rs: Position", "src/common/position_path.rs: PositionPathIter", "test-helpers/src/binary/verify.rs: verify", "test-helpers/src/binary/merkle_tree.rs: MerkleTree"]}
{"id": "C61", "title": "A delete can destroy other trees on the same sparse storage; a new tree is sound on any leftovers", "statement": "After any sessions on one storage (any calls, failures, cut-off deletes), a session that starts a new sparse tree over that storage with storage working makes every call successfully with the canonical root, and the tree it leaves can be loaded and used again. On the other hand a successful delete takes the leaf record out of the storage itself: after delete(k) removed k with data d, the tree holding exactly (k, d) cannot be loaded any more; there are three sessions, all calls successful and all roots right, after which the first session's reported root fails to load although nobody changed that tree.", "quantifier": "every hash function that behaves on the messages and keys involved, every list of sessions with any failures, every new session and follow-up session on working storage; every history for the destroyed leaf on working storage that was empty at first, if the record of the key has not been lost before", "why_tests_cant": "tests use one tree per storage; what damaged storage can hold, and which later tree it harms, depends on every earlier history and failure point", "anchors": ["src/sparse/merkle_tree.rs: MerkleTree::new, MerkleTree::load, MerkleTree::delete, MerkleTree::update, delete_with_path_set"]}
{"id": "C62", "title": "Paths over any node type", "statement": "A user can implement the node traits for a type of their own. For every such type, whatever its children, heights and keys are (it need not be a tree), iterating the path from a root to a leaf yields exactly one determined sequence: first the root; then after each node the pair of its children, the one in the direction of the next key bit first; it ends at the first error (which is yielded), at the first node without children, or when the key has no more bits, and after that every call returns nothing. Its length is at most the number of bits below the root, plus one. If the root is higher than the key has bits, overflow checks make the call panic, and without them only the root is yielded.", "quantifier": "every implementation of the node traits (arbitrary functions for key size, height, key, leaf test and children, including failing children and children that form no tree), every root and leaf, every number of calls to next, every build profile", "why_tests_cant": "The crate is tested with its own three node types; the iterator is generic and its users' types, errors and malformed shapes are unlimited.", "anchors": ["src/common/path_iterator.rs: PathIter::new, Iterator::next, AsPathIterator::as_path_iter", "src/common/node.rs: Node, ParentNode, ChildError", "src/common/path.rs: Path, ComparablePath, Instruction"]}
{"id": "C63", "title": "The chain of subtrees and the infallible storage interface", "statement": "The binary and the sum tree keep their subtrees in a linked chain that is taken apart and put together during each call. Doing so never loses, duplicates or reorders a subtree and never loops: for every history of pushes, roots and proofs on a new tree over working storage the results are those of the list of pushed leaves, and whatever the storage does each call has the result, error or panic and leaves the storage that the same call has on a tree that holds its subtrees in an immutable list. A storage whose error type is uninhabited, used through the infallible traits, never panics and answers as a map.", "quantifier": "every sequence of calls, every tree state (also unreachable ones), every schedule of storage failures, every hash function and build profile; every sequence of calls through the infallible traits; for the comparison with the lists of leaves the limits of C01, C03 and C48; proof indices other than u64::MAX (for which see C04)", "why_tests_cant": "The chain has up to 64 links in configurations that tests with a few leaves never reach, and the state left by a failure in the middle of relinking is not exercised.", "anchors": ["src/common/subtree.rs: Subtree", "src/storage.rs: StorageInspectInfallible, StorageMutateInfallible", "src/binary/merkle_tree.rs: push, root, prove, load, build, join_all_subtrees, join_subtrees, build_root_node", "src/sum/merkle_tree.rs: push, root, root_node, join_all_subtrees, join_subtrees"]}
{"id": "C64", "title": "Binary and sum trees stop at the first storage failure and report it", "statement": "For every call (push, root, prove, load) on a binary or sum tree in any state, over any storage: either all storage calls made succeed, and then result and state are the same as on storage that never fails; or the last storage call made is the first that fails, nothing is done after it, and the call returns the storage's own error as a storage error. On a tree made by pushes this means that a call returns exactly what the list of leaves says or an error of the storage, never LoadError and never a panic. A failed sum root can be asked for again: every later answer is the right root or an error of the storage.", "quantifier": "every tree state, storage content and schedule of failures (with or without effect of the failing write), every call and argument, hash function and build profile; for the reachable form every list of leaves within the limits of C03 and C48; proof indices other than u64::MAX (for which see C04)", "why_tests_cant": "Tests use an in-memory map that cannot fail; a swallowed or retried error at one of many storage calls would go unnoticed.", "anchors": ["src/binary/merkle_tree.rs: MerkleTree::load, prove, push, build, join_all_subtrees", "src/sum/merkle_tree.rs: MerkleTree::push, root, join_all_subtrees, root_node, join_subtrees"]}
{"id": "C65", "title": "Exact number of storage calls", "statement": "A successful prove reads the storage exactly once per entry of the proof it returns. A successful load of n leaves reads exactly popcount(n) records. The push that makes n leaves writes exactly c+1 records, where 2^c is the highest power of two dividing n, for the binary and for the sum tree. A successful root of a sum tree with n leaves writes popcount(n)-1 records (none if n=0); the root of a binary tree makes no storage call. A failing call never makes more calls than the same call on storage that does not fail (C64).", "quantifier": "every tree and storage for prove and load (n < 2^62, or 2^63 in a build without overflow checks); every list of leaves (shorter than 2^63 or 2^64) and any schedule of failures for push and root", "why_tests_cant": "Counts for all n cannot be sampled; the cost of a call is invisible in its result.", "anchors": ["src/binary/merkle_tree.rs: MerkleTree::load, prove, push", "src/sum/merkle_tree.rs: MerkleTree::push, root"]}
{"id": "C66", "title": "Proofs checked against a wrong number of leaves", "statement": "Whatever index and number of leaves a caller claims, a proof that the verifier accepts against the root of a tree is about data that is a leaf of that tree (the one to which the claimed directions lead), unless two hashed messages collide. The claimed index itself is only as good as the claimed count: the verifier uses index and count only through the left/right directions they give, so the proof of the last leaf of any tree is also accepted as a proof for the last leaf of every odd number of leaves.", "quantifier": "all leaf lists, all claimed indices and counts below 2^63, all proof sets of any length, all hash functions, both build profiles", "why_tests_cant": "Tests verify with the right count. The claim ranges over every pair of wrong index and count and every proof set, including ones an attacker makes up.", "anchors": ["test-helpers/src/binary/verify.rs: verify", "src/binary/merkle_tree.rs: MerkleTree::prove", "src/binary/merkle_tree.rs: MerkleTree::root"]}
{"id": "C67", "title": "Roots of different kinds of trees", "statement": "Binary, sum and sparse trees use the same prefix bytes, so a root does not say which kind of tree it belongs to. A sum tree with one leaf has the digest of the binary tree whose single leaf is fee bytes followed by data. A sparse tree whose keys divide its sorted entries the way a list is divided (one entry; two entries with different first bits; one entry for each value of the first e bits; ...) has the root of the binary tree over key followed by value digest. There are no other coincidences: any other equality between a sum digest and a binary root, a sum digest and the root of a nonempty sparse tree, or the root of a nonempty sparse tree and a binary root comes with two hashed messages that collide or a message that hashes to zero.", "quantifier": "all leaf lists, all fee/data lists, all maps and clean histories, all hash functions (SHA-256 where the empty digest matters), both build profiles; at most 2^63 binary leaves, fewer than 2^64 sum leaves with totals that fit in 64 bits; on working storage", "why_tests_cant": "A claim about all pairs of trees of different kinds; the exact boundary between forced coincidences and collisions cannot be sampled.", "anchors": ["src/binary/hash.rs: leaf_sum, node_sum", "src/sum/hash.rs: leaf_sum, node_sum", "src/sparse/hash.rs", "src/common/prefix.rs: Prefix", "src/binary/merkle_tree.rs: MerkleTree::root", "src/sum/merkle_tree.rs: MerkleTree::root", "src/sparse/merkle_tree.rs: MerkleTree::root"]}
{"id": "C68", "title": "Several open trees on one storage", "statement": "Sum trees sharing one storage never disturb each other: every push and root call on every tree returns what it would return if each tree were a list of its own, and at the end every digest ever reported by any of the trees can still be followed through the storage to the leaves of that moment (unless hashed messages collide). Binary trees sharing one storage work together as long as all their clients agree on one list, each continuing a beginning of it: whatever trees are created, loaded, pushed onto, queried or dropped, in any order, and whatever calls the storage fails, each open tree reports the root and the proofs of its own list (or the storage's error), and every acknowledged number of leaves can be loaded again. Without the agreement this is false: with two binary trees for different lists all calls succeed, but a proof returned for one of them does not verify against its own root.", "quantifier": "all sequences of calls on any number of trees in any order, all prior storage contents, all failure schedules (binary), all hash functions, both build profiles; fewer than 2^62 leaves (2^63 without overflow checks) for binary trees, fewer than 2^64 leaves with 64-bit fees, the total fitting in 64 bits in a build with overflow checks for each sum tree; proof indices other than u64::MAX (for which see C04)", "why_tests_cant": "Interleavings of calls on several trees, failures and reloads are unbounded; tests use one tree per storage.", "anchors": ["src/binary/merkle_tree.rs: MerkleTree::new, load, push, root, prove", "src/sum/merkle_tree.rs: MerkleTree::new, push, root", "src/common/storage_map.rs: StorageMap"]}
{"id": "C69", "title": "Data-driven tests report what the trees do", "statement": "A value written in hexadecimal or base64 is read back unchanged; one written as text is read back exactly if it is UTF-8. A binary proof test passes exactly if its values are readable and have 32 bytes and the verifier gives the expected answer; it fails with its name exactly if the verifier gives the other answer. A sparse test passes exactly if each of its steps stands for a call and the in-memory tree has the expected root after these calls; for a history without stale deletes that is the root of the map the history denotes. The first malformed step decides the result (unknown action, unreadable value, missing or wrongly sized key), so a malformed test never passes. Every proof test the suite writer generates, whatever samples are drawn, passes.", "quantifier": "all values, all tests, all steps, all sample lists below 2^62 (2^63 in a build without overflow checks) and indices, all codecs whose decoding undoes encoding, all hash functions, both build profiles; for the verdict of sparse tests a hash function as in C28", "why_tests_cant": "These are claims about the test runner itself: that a passing fixture means what it says for every fixture, and that no malformed fixture passes.", "anchors": ["test-helpers/src/data/encoded_value.rs: EncodedValue::from_raw, into_bytes", "test-helpers/src/data/binary.rs: ProofTest::execute", "test-helpers/src/data/sparse.rs: Step::execute, action_type, Test::execute", "test-helpers/src/suites/binary_proofs.rs: generate_test, generate_test_0_leaves, generate_test_1_leaf_invalid_proof_index, generate_test_1_leaf_invalid_root"]}
{"id": "C70", "title": "The verifier on every input", "statement": "The proof checker of the test helpers, given any root, any proof set and any 64-bit index and count, answers unless an overflow check stops it. An index out of range or an empty proof set is rejected. Below 2^63 leaves it always answers, with the same answer in every build profile. Without overflow checks it answers on all inputs and accepts exactly if the index is in range, the proof set has at least the forced siblings and hashes up to the root, and it is not the case that the index is below 2^63 while the count is not: from 2^63 leaves on every proof for the lower half is rejected. With overflow checks it panics exactly if the smallest aligned block around the index that reaches beyond the leaves ends at 2^64 and the proof set is long enough to get there; in particular any non-empty proof set with the claimed index 2^64-2 and count 2^64-1 makes it panic. Where the checked build does not panic, both builds agree.", "quantifier": "all roots, proof sets of any length, indices and counts below 2^64, hash functions and build profiles", "why_tests_cant": "The tests check four proofs of at most five leaves; the inputs come from whoever supplies the proof and range over all 64-bit pairs and lists of hashes", "anchors": ["test-helpers/src/binary/verify.rs: verify"]}
{"id": "C71", "title": "Exact number of storage calls of the sparse tree", "statement": "On working storage that starts empty, the number of storage calls of each update and delete is a function of the keys in the map alone: an update makes two writes for the leaf, one read for each node that is a child of an inner node on the path of the key, and one write for each inner node on the new path; a delete makes no call on an empty tree, one if the key has no record, and otherwise one read of the record, the same reads of the path, one removal for each node on the path and one write for each inner node on the new path. If all other keys differ from the key of the call within the first b bits, an update makes at most 2+3b calls and a delete at most 2+4b, however many keys are stored.", "quantifier": "every history of updates and deletes (stale deletes included), every next call, every key set, every profile, every hash function that behaves on the messages of the history", "why_tests_cant": "the number of calls depends on the whole set of keys, and no test counts storage calls", "anchors": ["src/sparse/merkle_tree.rs: MerkleTree::update, delete, path_set, update_with_path_set, delete_with_path_set", "src/sparse/node.rs: StorageNode::left_child, right_child", "src/common/path_iterator.rs: PathIter"]}
{"id": "C72", "title": "32-bit and 64-bit targets agree", "statement": "The crate can be built without the standard library and runs on 32-bit targets such as WebAssembly. For the binary, sum and sparse trees, the in-memory trees, position paths and the test helpers: with the same build flags, a 32-bit and a 64-bit target return the same result for every call (also the same error or the same panic), make the same storage calls and leave the same tree and storage, even over a storage with impossible records, where an unchecked subtraction of pointer-sized integers wraps to different values.", "quantifier": "every build profile, both pointer sizes, every hash function, tree value, storage content, failure pattern and history of calls", "why_tests_cant": "tests run on one target, and differences would show only on inputs where pointer-sized arithmetic wraps", "anchors": ["src/common/path_iterator.rs: PathIter::new", "src/sparse/node.rs: create_node_on_path", "src/binary/merkle_tree.rs: MerkleTree", "src/sum/merkle_tree.rs: MerkleTree", "src/sparse/merkle_tree.rs: MerkleTree", "test-helpers/src/binary/verify.rs: verify"]}
{"id": "C73", "title": "Position paths on any root, leaf and leaf count", "statement": "The public path iterators over positions are total and predictable on inputs the trees never pass. Only the bits of the leaf number below the height of the root matter, so a leaf outside the root's subtree is treated as the leaf at the same place inside it. From any root of height at most 62 and for any leaf count up to 2^63, path never panics and yields the subtrees of the existing part below that root: the RFC 6962 path if the leaf exists, the beginning of the last leaf's path if it does not, nothing if no leaf below the root exists. Other leaf counts panic with overflow checks and are taken modulo 2^63 without. A leaf argument that is not a leaf position panics with the leaf_index assertion when the root is a node. Iteration never runs for ever, also from the two top positions.", "quantifier": "all root positions, all leaf arguments (leaf or not, below the root or not, existing or not), all u64 leaf counts, all build profiles", "why_tests_cant": "The inputs are pairs of 64-bit positions and a 64-bit count; the unit tests iterate over a handful of small trees with matching root, leaf and count.", "anchors": ["src/common/position.rs: Position::path, Position::leaf_index, Position::child", "src/common/position_path.rs: PositionPath, PositionPathIter", "src/common/path_iterator.rs: PathIter, AsPathIterator"]}
{"id": "C74", "title": "Opening a binary tree with any leaf count", "statement": "With overflow checks, load panics for every leaf count from 2^62 on, whatever the storage holds and without touching it. Without overflow checks, load works for every count below 2^63; a count of 2^63 or more is not rejected: load does exactly what it does for the count that is 2^63 smaller (for u64::MAX: the count 0) and labels the tree with the given count, so u64::MAX opens as an empty tree on any storage. A tree opened with a count that is 2^63 too large answers every later sequence of pushes, roots and proofs of existing leaves as the tree with the right count, and keeps the wrong count.", "quantifier": "every u64 leaf count, every storage content and fault schedule (load); every leaf list, every later sequence of calls on storage that does not fail; both kinds of build; for the later calls fewer than 2^63-1 leaves in all", "why_tests_cant": "counts, storage contents and histories are unbounded, and trees of that size cannot be built in a test", "anchors": ["src/binary/merkle_tree.rs: load, build, peak_positions, root_position, push, prove", "src/common/position.rs: from_leaf_index, child", "src/common/position_path.rs"]}
{"id": "C75", "title": "Printing nodes and errors", "statement": "Printing a node with `{:?}` never panics for any sparse node whatever was read into it (also as a storage node), for any binary node, and for any node a sum tree holds or stores after any calls and failures; a sum node panics exactly if it is not a leaf and lacks a child key, and no tree ever makes such a node. The texts are exactly the documented ones: the kind of the node, then its fields in order, numbers in decimal and digests in lower case hexadecimal (the derived text of a binary node shows the digest as an array of decimal numbers); error messages likewise. The text identifies what it shows: sparse and binary nodes with the same text are equal, sum nodes with the same text have the same digest, fee and child keys, and the messages of load, proof-index and deserialization errors identify the key, index or byte.", "quantifier": "all nodes, all hash functions, all histories of sum-tree calls with all storage failures, all error values", "why_tests_cant": "The `unwrap` and the assertions in the printing code are only reached when something is logged, typically while debugging a failure; that no reachable node trips them, and that no two nodes look alike, is a statement about all nodes.", "anchors": ["src/sparse/node.rs: impl fmt::Debug for Node, impl fmt::Debug for StorageNode", "src/sum/node.rs: impl fmt::Debug for Node", "src/binary/node.rs: Node (derive Debug)", "src/common/position.rs: Position (derive Debug)", "src/binary/merkle_tree.rs: MerkleTreeError", "src/sparse/merkle_tree.rs: MerkleTreeError", "src/common/prefix.rs: PrefixError"]}
{"id": "C76", "title": "Opening a tree at an inner node", "statement": "After any history, the hash of the part of a sparse tree below any prefix shared by two or more keys is accepted by load as if it were a root. An update in the tree opened there, of a key with the prefix whose place is its own or empty, panics with debug assertions after writing its records, and otherwise returns Ok with the hash of the updated part as root; either way the whole tree as it was can still be loaded. An update of a new key with the prefix whose place is taken by another key returns Ok in every build and gives, for every history, the root of a tree whose nodes beside the path are as many levels too high as the part is below the root; unless hashes collide, this is the root of no map and the hash of no part of any map. Keys can be lost: in an example with SHA-256, deleting a key of the part then returns Ok and changes nothing. A delete in the opened tree, of a key of the part other than the zero key, panics exactly if debug assertions are on and two or more keys of the part remain; otherwise it returns Ok with the hash of the part without the key as root. Afterwards the root of the whole tree is still accepted by load, but the record of the opened node is gone: although the storage answers every request, every update of a key with the prefix, and every delete of a stored key with the prefix other than the zero key, then returns an error. The same is shown in an example with SHA-256, in every build.", "quantifier": "all histories, prefixes, keys, data, build profiles, maps and hash functions without collisions on the messages involved; the sentences with an example are existence claims, for every build", "why_tests_cant": "A stored hash carries no mark of being a root; what happens for each inner node, key and build is a statement about all trees, and the tests only load roots.", "anchors": ["src/sparse/merkle_tree.rs: MerkleTree::load, MerkleTree::update, MerkleTree::delete, set_root_node, update_with_path_set, delete_with_path_set", "src/common/path_iterator.rs: PathIter::new"]}
{"id": "C77", "title": "Binary trees on storage that cannot be trusted: comparing the root after load is enough", "statement": "Every record a binary tree writes names the key it is written under, in every history and under every failure schedule. On storage whose records name their keys but may hold any hashes and may lack records, a tree that `load` opens never panics in `root`, and its root is computed from the hashes in its peak records only. If that root equals the root of a list of leaves then, unless two messages of known lists collide, every later push and root is that of the tree over that list, and every later proof has the right root and length or is refused for a missing record. The stored positions are not checked: a record with the right hash and a wrong position loads and gives the right root, and later successful pushes give a wrong root; with overflow checks it can make `root` panic.", "quantifier": "all build profiles, hash functions, reliable storages with arbitrary contents whose records name their keys, leaf counts below the supported limit, lists of leaves with the reported root, and later histories of push, root and prove; for the first part all histories, trees and failure schedules; proof indices other than u64::MAX (for which see C04)", "why_tests_cant": "A test corrupts particular records; the claim is about every possible content of the storage and every later history, and reduces undetected corruption to a hash collision.", "anchors": ["src/binary/merkle_tree.rs: MerkleTree::load, build, root, prove, push", "src/binary/primitive.rs: From<Primitive> for Node"]}
{"id": "C78", "title": "Sparse tree on storage that loses records or is rolled back", "statement": "Let the storage of a sparse tree lose any records between calls, bring back any records it held earlier (all of it, or a different age for each key), and fail in any way during calls; and let trees be opened anew or loaded at any root reported earlier. Then every root the tree reports is still the canonical root of the map made by the calls that succeeded on that branch, a reported root that loads gives exactly that root, and no call panics. What loss can do is make calls fail, and make `delete` of a present key answer `Ok` without effect when the record under the key is gone.", "quantifier": "all sequences of calls, storage changes (loss, rollback, failure) and reopenings, starting from an empty storage, and all hash functions without collisions on the messages involved", "why_tests_cant": "every call can be followed by any combination of lost and revived records; a test tries a few of them", "anchors": ["src/sparse/merkle_tree.rs: MerkleTree::load, update, delete, path_set, update_with_path_set, delete_with_path_set", "src/storage.rs: StorageInspect, StorageMutate"]}
{"id": "C79", "title": "Length and uniqueness of proofs", "statement": "A proof for leaf i of n, generated from any tree over any storage contents, has exactly 1 + pathLength i n elements, where pathLength is the formula used by Certificate Transparency clients: the bit length of i xor (n-1), plus the number of ones of i above it; that is at most ceil(log2 n) siblings, and at most 64 elements in all. The verifier does not check the length. If the client does, an accepted proof set is exactly the one `prove` returns, whatever its first element, or two hashed messages collide. An accepted proof set that starts with a leaf hash is the one `prove` returns even without the check: proofs cannot be varied.", "quantifier": "all build profiles and hash functions; for the length all trees, storages, counts below the supported limit and indices; for uniqueness all lists of fewer than 2^63 leaves and all proof sets", "why_tests_cant": "tests compare a few proofs with expected values; they cannot exclude that some other proof set is accepted", "anchors": ["src/binary/merkle_tree.rs: MerkleTree::prove", "src/common/position_path.rs: PositionPathIter", "test-helpers/src/binary/verify.rs: verify"]}
{"id": "C80", "title": "Sparse trees on storage that cannot be trusted", "statement": "A sparse tree opened on storage with arbitrary contents has the right root, and all later calls leave the right roots and do not panic, if the storage returns, under the hashes of the nodes of the trees gone through, nothing or the right record, and under the keys used, nothing or some leaf record of that key; anything else it holds does not matter. Checking that every returned record hashes to the key it was asked for gives this only if the heights in the records are right too. The root reported after load is computed from the record found under the requested root, so comparing the two checks that record (all but its height). The library itself checks nothing below the root: a changed leaf record is silently taken over into the next root, and, since heights are not hashed, a changed height makes an update that stores the value a key already has succeed with a different root.", "quantifier": "all hash functions, maps, storage contents, storage failures, call sequences and build profiles; the failures are concrete storages, for every build profile; in the first claim hash functions without collisions, zero hashes or hashes equal to a key used, on the messages of the maps gone through", "why_tests_cant": "the storage contents are arbitrary, including records that hash correctly and differ only in the unhashed height", "anchors": ["src/sparse/merkle_tree.rs: MerkleTree::load, update, delete, root", "src/sparse/node.rs: Node::hash, Node::create_node_on_path, StorageNode children", "src/sparse/primitive.rs: Primitive, TryFrom<Primitive>"]}
{"id": "C81", "title": "Exact contents of the storage of a sparse tree", "statement": "On reliable storage that holds the records of the tree of a map (for instance empty storage and the empty map), any history of update and delete calls leaves under every storage key exactly what a function of the map alone predicts: an update adds the records of the new tree and the leaf record of the key; a removal that meets a key on the path takes away the records of the old tree that are not in the new one and nothing else; a removal that meets none takes away what is under the zero key; a removal on an empty tree or of a key without record changes nothing. If storage calls fail at any points during one more call, every storage key has what it had before, or what a completed call would leave there, or (removals only) nothing in the place of a record of the old tree; if the call succeeds all the same, the contents are exactly the predicted ones.", "quantifier": "all build profiles, all storages sound for the maps gone through, all starting maps, all histories of calls of any length, all storage keys, all fates of the storage calls of the last call; the hash function must not collide on what is hashed", "why_tests_cant": "A test looks at a few storage keys after a few calls; the claim is about every key of the storage after every history and at every point where the storage can fail, and includes that nothing else is touched.", "anchors": ["src/sparse/merkle_tree.rs: MerkleTree::update, MerkleTree::delete, update_with_path_set, delete_with_path_set", "src/sparse/node.rs: Node::create_leaf, create_node_on_path, hash", "src/common/storage_map.rs: StorageMap"]}
{"id": "C82", "title": "Several open sparse trees on one storage", "statement": "Any number of sparse trees can be open on one storage, with calls on them and loads of one at the root of another interleaved in any order and any storage calls failing. Nothing panics and every tree keeps reporting the root of its own map. If the storage is reliable and no removal takes out of one tree an entry (a key with the hash of its data) that another open tree has too, every action succeeds and the contents of the storage are exactly known after each. The condition is exact: after a call on one tree, all records of another tree that was stored completely are still there if and only if the call was not a removal of an entry the other tree has too.", "quantifier": "all numbers of open trees, all interleaved sequences of update, delete and load, all storage failures (first part), all sound initial storages, all build profiles, all hash functions without collisions or clashes on what is hashed and used as a key", "why_tests_cant": "Tests use one tree per storage; which removals harm which other trees depends on the shapes of both trees and on all interleavings.", "anchors": ["src/sparse/merkle_tree.rs: MerkleTree::update, MerkleTree::delete, MerkleTree::load, MerkleTree::root"]}
{"id": "C83", "title": "Every write of the sum tree, on every storage", "statement": "The sum tree behaves exactly like a small machine that keeps only the list of leaves. push writes, in this order, the records of the trees over the last 1, 2, 4, \u2026 leaves, for every power of two that divides the new number of leaves n; root writes the records of the trees over the last n mod 2^(h+1) leaves for every set bit h of n except the lowest. Each record has the hash, the height, the fee (modulo 2^64) and the hashes of the two halves of the tree over those leaves. A call stops at the first write that fails (returning the storage's error) or at the first tree whose fee does not fit into 64 bits if overflow checks are on (a panic), and does none of the later writes; a push that stops after its first write leaves a tree without leaves, one whose first write fails leaves the tree as it was, and root never changes the leaves. Consequently: without failures every key holds the record of the last written tree with that hash, or what it held before; with failures of any pattern every key holds what it held before or a correct record of a tree over some of the pushed leaves.", "quantifier": "Every build profile, hash function (no assumption on collisions), initial storage content, pattern of failing writes (with or without effect), and sequence of push and root calls with fewer than 2^64 pushes and fees below 2^64.", "why_tests_cant": "The repository's tests of the sum tree compare roots on a storage that never fails; the set and order of the writes, and what is left after each possible failure, depend on every leaf count, crash point and profile.", "anchors": ["src/sum/merkle_tree.rs: MerkleTree::push", "src/sum/merkle_tree.rs: MerkleTree::root", "src/sum/merkle_tree.rs: join_all_subtrees", "src/sum/merkle_tree.rs: join_subtrees", "src/sum/node.rs: Node::create_leaf, Node::create_node"]}
{"id": "C84", "title": "Every call of the binary tree on every storage, also after failures", "statement": "The binary tree behaves exactly like a small machine that keeps a count and a list of leaves. push writes, in this order, the trees over the last 1, 2, 4, \u2026 leaves of the list, for every power of two that divides the new length of the list, each under the index of that ancestor of its first leaf (by the count) that has the height of the tree, until a write fails; then the count stays, and if it was not the first write the list is emptied. root returns the Merkle hash of the list and makes no storage call. prove(i) reads the leaf and then the subtrees beside its path (taken from the count), preferring the trees that root builds from the list, and returns them with the Merkle hash of the list; it fails at the first read that fails or finds nothing; and after a push that failed after its first write it panics for every leaf that exists, until another push succeeds. Whatever fails, every key holds what it held before or a record with the hash of a tree over some of the pushed leaves.", "quantifier": "Every build profile, hash function, initial storage content, pattern of failing reads and writes (with or without effect), and sequence of push, root and prove calls with fewer than 2^62 pushes (2^63 in a build without overflow checks) and any indices other than u64::MAX.", "why_tests_cant": "The repository's tests never let a storage call fail; the behaviour after each possible failure, and the order and keys of all reads and writes, range over all histories, storages and crash points.", "anchors": ["src/binary/merkle_tree.rs: MerkleTree::push", "src/binary/merkle_tree.rs: MerkleTree::root", "src/binary/merkle_tree.rs: MerkleTree::prove", "src/binary/merkle_tree.rs: join_all_subtrees", "src/binary/merkle_tree.rs: build_root_node", "src/binary/node.rs: Node::create_node"]}
{"id": "C85", "title": "Every call of the sparse tree on every storage, also after failures", "statement": "For a sparse tree that is new or was loaded for some map, on storage whose records are not wrong but may be incomplete, and whatever becomes of each future storage call (it works, fails without effect, or fails after its effect), the whole behaviour of any further history of updates and deletes is fixed by a small specification that knows only the current map and the storage: which records are read and in which order, which are written or removed and in which order (for an update: leaf first, then the branches bottom-up, root last; for a delete: first the old leaf and branches are removed bottom-up, then the new branches are written bottom-up), at which call the operation stops on an error, which error the caller gets, and which contents are left. The call either succeeds and replaces the map, or fails and leaves the map (and root) as it was, and later calls go on from there.", "quantifier": "every hash function that is ideal on the tried maps, every starting map and storage with sound records, every schedule of storage faults, every history of calls of any length", "why_tests_cant": "tests only use an in-memory map that never fails; which records are left after a failure at each of the unboundedly many call points of each history cannot be enumerated", "anchors": ["src/sparse/merkle_tree.rs: MerkleTree::update, MerkleTree::delete, path_set, update_with_path_set, delete_with_path_set, MerkleTree::load", "src/sparse/node.rs: StorageNode (child access)", "src/common/path_iterator.rs: PathIter", "src/storage.rs: StorageInspect, StorageMutate"]}
{"id": "C86", "title": "A root found in storage is a whole tree: updates write children before parents", "statement": "A sparse tree writes each node only after everything below it. So on storage in which no inner node misses a child (for instance empty storage), after any history of updates with data, with storage calls failing in any way (with or without effect) and the history going on or being cut off, still no inner node in storage misses a child, nothing stored before is gone, and every root ever reported is stored. For every map the history went through or tried to reach, also in a call that failed: when storage works again, load at its root either fails with LoadError, or gives the whole tree, on which every further call succeeds with the results and storage contents of a tree that never saw a failure. The presence of the root record thus decides whether an interrupted update took effect.", "quantifier": "every starting map and sound storage without missing children, every fault schedule, every history of updates of any length, every map tried, every continuation; every hash function that, on the messages of the trees gone through, has no collisions, no zero hash and no hash equal to a key used", "why_tests_cant": "depends on the order of writes at every possible cut point of every update at every depth; tests use a storage that never fails", "anchors": ["src/sparse/merkle_tree.rs: MerkleTree::update, update_with_path_set, MerkleTree::load", "src/storage.rs: StorageMutate"]}
{"id": "C87", "title": "A binary tree found in storage is there completely", "statement": "Clients come one after the other to one storage. Each opens the binary tree with `load` at some leaf count - also a count that no push was ever acknowledged for - pushes the leaves that come next in one common list, and stops at the first failure. Whatever storage calls fail and whether the failed writes took effect: no record is lost, and once the storage works again `load(n)` either reports LoadError or returns the tree over exactly the first n leaves of the list, with the right root, right proofs and right behaviour under further pushes. So a count found by trial is as good as an acknowledged one. This needs the common list: if after an unacknowledged push another leaf is pushed in its place (and fails too), `load` may succeed and report the root with the first leaf while `prove` returns the second one, a proof that does not verify.", "quantifier": "every hash function, build profile, list of leaves, sequence of visits (counts, numbers of pushes), fault schedule, load count, later history of calls, and every initial storage that is itself intact; counts below 2^62 (2^63 in a build without overflow checks); proof indices other than u64::MAX (for which see C04)", "why_tests_cant": "A test fixes one crash point; the claim ranges over every sequence of crashes, every count tried and everything done afterwards.", "anchors": ["src/binary/merkle_tree.rs:MerkleTree::load", "src/binary/merkle_tree.rs:MerkleTree::push", "src/binary/merkle_tree.rs:MerkleTree::join_all_subtrees", "src/binary/merkle_tree.rs:MerkleTree::prove"]}
{"id": "C88", "title": "A binary tree opened from any storage, call by call", "statement": "Loading a binary tree at count n reads the records of the largest complete subtrees of n leaves, from the left, and nothing else; it fails at the first read that fails (with the storage's error) or finds nothing (with LoadError and that key). If those records are the ones of a list of n leaves, then, whatever else the storage contains or lacks and whatever storage calls fail later, every further push, root and prove returns exactly what the machine of C84 returns when it starts with that list and that count, and leaves exactly the same storage and count. The condition holds for every prefix of a list whose pushes were acknowledged, also after a further push that failed, and for the storages of C87.", "quantifier": "Every build profile, hash function, list of leaves shorter than the largest count load accepts, storage content with no wrong record for the largest complete subtrees, pattern of failing calls, and later sequence of push, root and prove calls with fewer than 2^62 leaves in all (2^63 in a build without overflow checks) and any indices other than u64::MAX.", "why_tests_cant": "The repository's tests load from complete storages that never fail. What a loaded tree does on storages that lack records or fail at some call ranges over all storages, crash points and histories.", "anchors": ["src/binary/merkle_tree.rs: MerkleTree::load", "src/binary/merkle_tree.rs: build", "src/binary/merkle_tree.rs: peak_positions", "src/binary/merkle_tree.rs: MerkleTree::push", "src/binary/merkle_tree.rs: MerkleTree::prove"]}
{"id": "C89", "title": "The storage of sum trees is whole", "statement": "Sum trees are started one after the other on one storage, with any calls and any failures: writes that fail with or without effect, pushes abandoned half-way, panics of the fee addition. No record ever misses a child and no key loses its record. A root returned by `root` is that of the empty tree or has a record in storage. On a storage that was empty at first: if the storage has a record under the root of some list of leaves, it is the right record, following child keys from it gives exactly that list, and that list was pushed in this order on one of the trees; and a root that was returned once stays readable in full, whatever later trees do and whatever fails.", "quantifier": "every build profile, hash function, fault schedule, sequence of trees each with its history of calls, list of leaves (the last two claims up to collisions among the occurring messages, and with 64-bit fees and counts)", "why_tests_cant": "The tests read no record back at all; the claim ranges over all crash points and over all trees that share the storage.", "anchors": ["src/sum/merkle_tree.rs:MerkleTree::push", "src/sum/merkle_tree.rs:MerkleTree::root", "src/sum/merkle_tree.rs:MerkleTree::join_all_subtrees", "src/sum/merkle_tree.rs:MerkleTree::join_subtrees"]}
{"id": "C90", "title": "Several sum trees open on one failing storage", "statement": "Any number of sum trees are open on one storage that may fail at any calls. What every call on every tree returns and writes is determined, call by call, by the leaves of that tree alone and by which storage calls fail; no tree disturbs another. No record ever misses a child and no key loses its record. If the storage was empty at first: a record under the root of some list of leaves is always the right record, with all of the tree below it, and that list was pushed in this order on one of the trees; and every root returned by a successful `root` call is that of leaves pushed before on that very tree and can be followed down to all of them at the end, whatever any tree did and whatever failed before or after.", "quantifier": "every sequence of calls on any number of trees, every fault schedule (writes failing with or without effect, panics of the fee addition), every initial storage, hash function and build profile; 64-bit fees and counts; the claims about found trees up to collisions among the occurring messages", "why_tests_cant": "No test opens two trees on one storage or lets the storage fail; the claim ranges over all interleavings and crash points.", "anchors": ["src/sum/merkle_tree.rs:MerkleTree::push", "src/sum/merkle_tree.rs:MerkleTree::root", "src/sum/merkle_tree.rs:MerkleTree::new"]}
{"id": "C91", "title": "Several binary trees open on one storage, whatever their lists", "statement": "Any number of new binary trees, with any leaves, are open on one storage that may fail at any calls. What every call returns, reads and writes is determined, call by call, by the leaves of its tree, by the common storage content and by which storage calls fail. On working storage every `root` returns the root of exactly the leaves pushed on that tree, and `prove(k)` of a leaf the tree has always succeeds with that root; but the storage holds under each key what any of the trees wrote there last, so the proof set begins with the leaf pushed last as number k on any of the trees, and its other entries are what the tree has just made for the root or else what the common storage holds. Hence, if another tree later pushed a different leaf under the same number, `prove` returns Ok with a set that is not the proof of the tree's own leaf.", "quantifier": "every sequence of calls on any number of trees (fewer than 2^62 leaves each, 2^63 in a build without overflow checks), every initial storage content and fault schedule, hash function and build profile; the last three claims for storage that works; proof indices other than u64::MAX (for which see C04)", "why_tests_cant": "No test opens two binary trees on one storage; the claim ranges over all interleavings, lists and crash points.", "anchors": ["src/binary/merkle_tree.rs:MerkleTree::new", "src/binary/merkle_tree.rs:MerkleTree::push", "src/binary/merkle_tree.rs:MerkleTree::prove", "src/binary/merkle_tree.rs:MerkleTree::root"]}
{"id": "C92", "title": "Everything that can be done with binary trees on one storage, whatever it holds", "statement": "Any number of binary trees share one storage. The storage may hold any hashes and lack any records, as long as every record names the key it is filed under (every record the library writes does), and any storage call may fail, with or without effect. Trees are made new, loaded at any counts (also counts nobody ever acknowledged) and called with push, root and prove in any order. Then every reply, the contents of the storage, the number of storage calls made and all leaf counts are exactly those of a small machine that keeps, for each tree, the count and the sizes and hashes of complete subtrees: load reads the hashes of the largest complete subtrees of the count, push joins equally large subtrees from the right and writes each subtree made, root joins all from the right to the left without a storage call. The only call that can panic is prove, and only for a tree whose last push since it was made or loaded failed. If the storage works, every push and root succeeds, load fails only with LoadError, and prove fails only with InvalidProofIndex or LoadError.", "quantifier": "every build profile, hash function, storage whose records name their keys, fault schedule, and sequence of new, load, push, root and prove on any number of trees, with counts below 2^62 (2^63 in a build without overflow checks) and indices other than u64::MAX", "why_tests_cant": "interleavings of several handles with loads at arbitrary counts, arbitrary storage contents and fault patterns form an unbounded space", "anchors": ["src/binary/merkle_tree.rs: MerkleTree::new, load, push, root, prove, build, join_all_subtrees, root_node", "src/binary/node.rs: Node", "src/common/position.rs: Position"]}
{"id": "C93", "title": "Everything that can be done with sparse trees on one storage", "statement": "Any number of sparse trees share one storage whose records are not wrong but may be incomplete, and whose calls may fail at any points, with or without effect. Trees are made new, loaded at the root of any map (also one nobody ever acknowledged), called with update and delete and asked for their roots in any order. Then every answer, the contents of the storage and the number of storage calls made are exactly those of a small specification that knows only the storage and one map per tree. Nothing panics; a failed call gives StorageError or ChildError, a failed load StorageError or LoadError for the root asked for. Once the storage works, a call succeeds exactly if the records of both parts at each branch on the way of its key are there (an update counts its own new leaf as there; a removal from an empty tree or of a key without record needs none), and otherwise names the first one missing; load succeeds exactly if there is a record under the root. If no call removed anything and no inner node missed a child at first, then whatever failed: no inner node misses a child, nothing is gone, every root answered is stored, all records of all open trees are there, so every call on every tree succeeds once the storage works.", "quantifier": "every build profile, number of trees, sequence of new, load, update, delete and root, fault schedule and storage without wrong records for the maps and keys involved; every hash function without collisions, zero hashes or key clashes on what is hashed; loads at roots of maps that are not empty", "why_tests_cant": "The outcome of a call depends on what all other trees did to the shared storage before and on which storage calls failed; only a proof over all interleavings and schedules gives the exact condition under which a call succeeds.", "anchors": ["src/sparse/merkle_tree.rs: MerkleTree::new, load, update, delete, root", "src/sparse/node.rs: StorageNode", "src/common/path_iterator.rs: PathIter"]}
{"id": "C94", "title": "Every storage implementation that behaves like a map will do", "statement": "The trees are generic in the storage. Take any implementation of the storage traits that behaves like a map: in its consistent states a successful get returns what the key was last given, a successful insert or remove changes that key only and leaves the implementation consistent, and a call that reports an error has either done nothing or done what it was asked for; get may change the internal state, and nothing is assumed about the previous values that writes return. Then, for every build profile, hash function, consistent state and sequence of calls on any number of binary trees (new, load, push, root, prove), sum trees (push, root) or sparse trees (new, load at any root, update, delete, root), every result and everything the trees keep in memory are exactly those of the same trees on a plain map with the same content whose calls fail in some pattern, and the implementation ends up holding what that map holds. If the implementation never fails, no call of the map does. So every other property proved for maps with failures holds for every such implementation; in particular, without failures, binary roots and proofs are those of RFC 6962, sum roots those of C45 and sparse roots those of C28.", "quantifier": "every storage implementation (any type of states, any get, insert and remove) with an invariant and a view under which it behaves like a map; every consistent state; every sequence of calls on any number of trees; every hash function and build profile; the explicit roots and proofs within the limits of C01, C03 and C45", "why_tests_cant": "tests run the trees on one implementation, a hash map; the crate is used with databases whose internal state, caching and failures no test of the crate exercises", "anchors": ["src/storage.rs (StorageInspect, StorageMutate)", "src/binary/merkle_tree.rs (MerkleTree)", "src/sum/merkle_tree.rs (MerkleTree)", "src/sparse/merkle_tree.rs (MerkleTree)", "src/common/storage_map.rs (StorageMap)"]}
{"id": "C95", "title": "What holds on a storage of which nothing is known", "statement": "Take any implementation of the storage traits, even one that forgets what it was given and makes up what it returns. For every build profile and hash function: (1) pushing leaves on any number of binary trees and asking for their roots gives exactly the replies given on an empty map some of whose writes fail, and no write of the map fails if no write of the implementation does. So after up to 2^63 successful pushes the root is the RFC 6962 root of the pushed leaves, and the only way a push fails is an error reported by the implementation. (2) prove for a pushed leaf of a binary tree (below the leaf limit of the build) never panics: it returns the right root together with a proof of the right length (whose content is only as good as the storage), or a storage error, or a load error; the tree's root and count stay as they are. (3) Every sequence of calls on sum trees gives the replies given on an empty map some of whose writes fail; the root of items whose total fits in 64 bits is the total fee and the sum-tree hash of the items, or an error the implementation reported. (4) Every call on a sparse tree ends after at most 1026 storage calls, whatever records the storage returns: no answer can make it loop for ever.", "quantifier": "every storage implementation (any type of states, any get, insert and remove, no assumption); every state of it; every list of leaves or items, every sequence of pushes and roots on any number of trees, every request on sparse trees in any state; every hash function and build profile", "why_tests_cant": "tests run on a hash map that is always right; that roots do not depend on the storage at all, and that no record can make a sparse walk endless, concerns every possible behaviour of a storage", "anchors": ["src/storage.rs (StorageInspect, StorageMutate)", "src/binary/merkle_tree.rs (MerkleTree::push, root, prove)", "src/sum/merkle_tree.rs (MerkleTree::push, root)", "src/sparse/merkle_tree.rs (MerkleTree::load, update, delete)", "src/common/path_iterator.rs (PathIter)"]}
{"id": "C96", "title": "Sparse trees on a storage that may forget and go back in time, but makes nothing up", "statement": "Take any implementation of the storage traits that never makes up a record: a get returns nothing, an error, or a record that was given to an insert for that key at some time (the insert may have reported success or failure), or was there at the start. It may lose records, bring back lost, removed and overwritten ones, and answer differently from one call to the next. Any number of sparse trees are made new, loaded at the roots of non-empty maps, updated, deleted from and asked for their roots, in any order. If the hash function has no collisions among what is hashed for the maps gone through and does not hit the user keys, and nothing wrong for these maps was there at the start (trivially so for a storage that starts empty), then: no request panics; every error says that a storage call failed or that a record was not there (storage, load or child-not-found error), never that a record is bad; every root answered is the root of the tree's map; the map of a tree is that of its successful calls, a failed call changes nothing, and the only thing that depends on what the storage returned is a removal, which takes effect exactly if the one lookup of its key returned a record. Storages that behave like a map (C94) are a special case.", "quantifier": "every storage implementation that never makes up a record (any type of states), every state it starts in whose possible records are not wrong; every sequence of requests on any number of trees; every hash function without collisions on the messages of the maps at hand; every build profile", "why_tests_cant": "tests run on a hash map; caches, replicas and eventually consistent stores return stale or missing records in patterns no test enumerates", "anchors": ["src/storage.rs (StorageInspect, StorageMutate)", "src/sparse/merkle_tree.rs (MerkleTree::load, update, delete, path_set, update_with_path_set, delete_with_path_set, root)", "src/sparse/node.rs (StorageNode)", "src/common/path_iterator.rs (PathIter)"]}
{"id": "C97", "title": "Binary trees over one list of leaves on a storage that may forget and go back in time, but makes nothing up", "statement": "Take any implementation of the storage traits that never makes up a record: a get returns nothing, an error, or a record that was given to an insert for that key at some time (the insert may have reported success or failure), or was there at the start. It may lose records, bring back lost and overwritten ones, and answer differently from one call to the next. Any number of binary trees over the same list of leaves are made new, loaded at counts within the list, pushed the next leaf of the list, and asked for roots and proofs, in any order; a tree on which a push failed is dropped, until it is made new or loaded. If no record that can come back from before the start is wrong for a complete subtree of the list (trivially so for a storage that starts empty), then for every hash function: no request panics; every root answered is the RFC 6962 root of the leaves of the tree; every proof answered is the right one (root, leaf hash, audit path); a proof of an index beyond the leaves is refused as such; a load, a push or a proof fails only with the error of the storage or because a record was not there. The same holds of the storage afterwards, so the whole can be repeated after all trees are dropped.", "quantifier": "every storage implementation that never makes up a record (any type of states), every state it starts in whose possible records are not wrong; every list of fewer than 2^62 leaves (2^63 without overflow checks); every sequence of requests on any number of trees; every hash function; every build profile", "why_tests_cant": "tests run on a hash map; caches, replicas and eventually consistent stores return stale or missing records in patterns no test enumerates", "anchors": ["src/storage.rs (StorageInspect, StorageMutate)", "src/binary/merkle_tree.rs (MerkleTree::load, push, root, prove, build, join_all_subtrees)", "src/binary/primitive.rs"]}
{"id": "C98", "title": "Processes working on one storage at the same time, with binary trees over one list of leaves", "statement": "Any number of processes work at the same time on one storage, each with any number of own binary trees over the same list of leaves: making trees, loading, pushing the next leaf, asking for roots and proofs. Their storage calls are interleaved in any way, also in the middle of a push or a proof, and a process may crash at any call. The storage never makes up a record (it may fail, lose records, return older ones). Then for every schedule everything that any process is answered is right: roots are those of the leaves of its tree, proofs are the right ones, indices beyond the leaves are refused, nothing panics, and loads, pushes and proofs fail only with an error of the storage or because a record was not there; and no record in the storage is ever wrong. No locks are needed.", "quantifier": "every number of processes, every list of requests of each of them, every schedule of single storage calls, every storage implementation that never makes up a record, every list of fewer than 2^62 leaves (2^63 without overflow checks), every hash function, every build profile", "why_tests_cant": "the number of interleavings is unbounded; tests run one tree at a time", "anchors": ["src/storage.rs (StorageInspect, StorageMutate)", "src/binary/merkle_tree.rs (MerkleTree::load, push, root, prove)"]}
{"id": "C99", "title": "Processes working on one storage at the same time, with sparse trees", "statement": "Any number of processes work at the same time on one storage, each with any number of own sparse trees: making them, loading them at the roots of maps, updating, deleting, asking for roots. Their storage calls are interleaved in any way, also in the middle of an update or a delete, and a process may crash at any call. The storage never makes up a record (it may fail, lose records, return older ones), and the processes remove each other's records and overwrite each other's records of keys. Then for every schedule everything any process is answered is right: every root answered is the root of the map of the tree, as given by its successful calls; errors say that a storage call failed or that a record was not there, never that a record was bad; nothing panics; and no record in the storage is ever wrong. What a process may see of the others is that its calls fail because a record is gone, and that a delete does nothing because the record of the key is gone.", "quantifier": "every number of processes, every list of requests of each of them, every schedule of single storage calls, every storage implementation that never makes up a record, every initial contents that are not wrong for the maps and keys involved, every hash function that does not collide on what is hashed, every build profile", "why_tests_cant": "the number of interleavings is unbounded; tests run one tree at a time", "anchors": ["src/storage.rs (StorageInspect, StorageMutate)", "src/sparse/merkle_tree.rs (MerkleTree::load, update, delete, root)"]}
{"id": "C100", "title": "Processes sharing a storage do not make each other fail (binary trees)", "statement": "Any number of processes work at the same time on one storage, each with its own binary trees over the same list of leaves, as in C98; now the storage behaves like a map. Its calls may fail, and a write that fails may or may not have been done. At the start it has only right records, and with the record of a subtree those of all subtrees within (an empty storage will do). Then for every schedule of the single storage calls, at every moment, everything asked of a process that is not still under way has succeeded, unless one of the storage calls made for that very request failed: every push, every proof of a leaf that the tree has, and every load of leaves that were all there at the start. On a storage that never fails nobody fails. And once a process has a tree with m leaves, from that moment on every process, a new one or one that has been working already, can load m leaves, whatever happens in between. The storage stays as good as it was, so this holds again after restarts.", "quantifier": "every number of processes, every sequence of wishes of each of them, every schedule of single storage calls (so every crash point), every storage implementation that behaves like a map, whichever of its calls fail, every list of leaves up to the limit, every hash function, every build profile", "why_tests_cant": "the number of interleavings is unbounded; tests run one tree at a time", "anchors": ["src/storage.rs (StorageInspect, StorageMutate)", "src/binary/merkle_tree.rs (MerkleTree::load, push, prove, join_all_subtrees)"]}
{"id": "C101", "title": "Processes sharing a storage do not make each other fail (sparse trees that only grow)", "statement": "Any number of processes work at the same time on one storage, each with its own sparse trees, as in C99; now the storage behaves like a map, and the processes open empty trees, load trees, ask for roots, and update keys with non-empty data, possibly the same keys with different data; nobody removes a key. Calls of the storage may fail, and a write that fails may or may not have been done. At the start the storage has only right records, and with a record those of its children (an empty storage will do). Then for every schedule of the single storage calls, at every moment, everything asked of a process that is not still under way has succeeded, unless one of the storage calls made for that very request failed: every update, and every load of a map whose root was there at the start. On a storage that never fails nobody fails. Once a process has a tree for a map, its root is in the storage, and from that moment on every process, a new one or one that has been working already, can load it and go on with it, whatever happens in between. No record is lost, and the storage stays as good as it was.", "quantifier": "every number of processes, every sequence of requests of each of them without removals, every schedule of single storage calls (so every crash point), every storage implementation that behaves like a map, whichever of its calls fail, every build profile, every hash function that behaves on the messages of the maps that occur", "why_tests_cant": "the number of interleavings is unbounded; tests run one tree at a time", "anchors": ["src/storage.rs (StorageInspect, StorageMutate)", "src/sparse/merkle_tree.rs (MerkleTree::load, update, path_set, update_with_path_set)"]}
{"id": "C102", "title": "Sum trees of processes sharing one storage, call by call", "statement": "Any number of processes (threads, programs) each use their own sum trees on one shared storage, and their storage calls are interleaved in any order, at any granularity down to single calls; any of them may stop for ever at any point, and any storage call may fail. (1) Whatever the storage does, what the calls of a process return is determined by its own calls and by which of its own writes failed: it is exactly what the tree would return on a private empty map with the same failures, so the others cannot be noticed in any other way. (2) If none of its own writes failed, every push succeeds and every root is the root (total fee and digest) of the leaves pushed on that tree before. (3) On a storage that behaves like a map, at every moment (also in the middle of a push of any process) no record misses a child and no record has disappeared. (4) If the storage, empty at first, has a record under the root of some leaves, it is the right one, the whole tree below it is there, and these leaves were given to one tree of one process in this order (unless hashed messages collide). (5) From the moment a root is returned, at every later moment the complete tree under it can be read from the storage. (6) A process that gets all turns does what its program does on the storage.", "quantifier": "all numbers of processes, all programs (sequences of push and root calls on any number of trees), all interleavings of their storage calls, all moments including those in the middle of a call, all patterns of failing calls, all hash functions and build profiles; (1), (2) and (6): all storage implementations; (3)-(5): all map-like storage implementations; fewer than 2^64 leaves for each tree, with 64-bit fees; (2) totals that fit in 64 bits in a build with overflow checks", "why_tests_cant": "The interleavings of storage calls are unboundedly many, a test sees a few of them and cannot stop a process at every call; and the claim is about every moment and every storage implementation.", "anchors": ["src/sum/merkle_tree.rs: MerkleTree::push, root, join_all_subtrees, join_subtrees, root_node", "src/sum/node.rs: Node::create_leaf, create_node", "src/storage.rs: StorageMutate"]}
{"id": "C103", "title": "Binary trees of processes over different lists on one storage, call by call", "statement": "Any number of processes (threads, programs) each use their own binary trees, over any lists of leaves, on one shared storage; their storage calls are interleaved in any order down to single calls, and any of them may stop for ever at any point. (1) Whatever the storage does and whatever the others do, every call that has returned on a tree none of whose pushes failed before returned this: a push succeeded, or reported the error of a write of this very process; a root is the RFC 6962 root of the leaves pushed on this tree; a proof carries this root and has the right length, or reports the error of a read of this process, or a missing record that this process had written before (so the storage lost it); a proof for an index not below the number of leaves is refused as invalid. No call panics. (2) On a storage that behaves like a map, whatever fails, no record that was written is ever missing. (3) So on a working storage all pushes succeed, all roots are right and all proofs asked for are returned with the right root and length. Their hashes may be those of another process's leaves (the defect of C68 and C91; C98 says when they are right). (4) A process that gets all turns does what its program does on the storage.", "quantifier": "all numbers of processes, all programs (sequences of push, root and prove calls on any number of trees, fewer leaves than the limit of the build), all interleavings of their storage calls, all moments including those in the middle of a call, all patterns of failing calls, all hash functions and build profiles; (1) and (4): all storage implementations; (2), (3): all map-like storage implementations; proof indices other than u64::MAX (for which see C04)", "why_tests_cant": "The interleavings of storage calls are unboundedly many, and the claim is about every moment, every storage implementation and every other process.", "anchors": ["src/binary/merkle_tree.rs: MerkleTree::push, root, prove, join_all_subtrees, root_node", "src/binary/node.rs: Node::create_leaf, create_node", "src/storage.rs: StorageInspect, StorageMutate"]}
{"id": "C104", "title": "What the calls hash: which messages and how many", "statement": "The calls of the trees are modelled once more with a record of every message they hash. (1) Forgetting the record gives the calls of the model, on every tree and storage. (2) The record is complete: with any other hash function that agrees on the recorded messages the call does the same. (3) Unless it panics, also when it fails half-way, a push of a binary or sum tree, and root of a sum tree, hashes exactly one message for each write it makes. (4) The push that makes a tree of n leaves hashes c + 1 messages, 2^c the highest power of two dividing n; building a binary tree of n leaves hashes 2n - popcount(n) messages; root and every proof hash popcount(n) - 1. (5) On a sparse tree, whatever the storage holds and whichever calls fail, an update with data hashes at most three messages for each of its storage calls and at most 773 in all, a delete at most three for each storage call and one more, at most 1026 in all, and root at most one. (6) The messages are: 0 and the data of the leaf (with the fee in a sum tree), or 1 and two digests (with the fees); root and proofs never hash leaves; a sparse tree hashes the data without tag, and otherwise only 65 byte messages with tag 0 or 1. (7) The verifier of the test helpers: the same record, complete; an accepted proof costs one message for each element of the proof set but the first, a refused one no more.", "quantifier": "all trees (for (4): all trees made by pushes, up to 2^63 leaves), all storages with all patterns of failing calls, all data, keys, fees and indices, all hash functions and build profiles", "why_tests_cant": "The costs must hold for every size and every failing call, and the claim that nothing else is hashed ranges over all pairs of hash functions that agree on the recorded messages.", "anchors": ["src/binary/hash.rs: node_sum, leaf_sum", "src/sum/hash.rs: node_sum, leaf_sum", "src/sparse/hash.rs: sum", "src/binary/merkle_tree.rs: MerkleTree::push, root, prove, join_all_subtrees, root_node", "src/sum/merkle_tree.rs: MerkleTree::push, root", "src/sparse/merkle_tree.rs: MerkleTree::update, delete, root, update_with_path_set, delete_with_path_set", "test-helpers/src/binary/verify.rs: verify", "src/sparse/node.rs: Node::hash, create_leaf, create_node, create_node_on_path"]}
{"id": "C105", "title": "No process waits for another: bounded work on a shared storage", "statement": "Any number of processes share one storage, their storage calls mixed in any order. Whatever the storage does, whatever the other processes are (also such that never stop or that destroy records), and however the turns are dealt out: a process that handles requests on its own sparse trees makes at most 1026 storage calls for each request; one with binary trees at most 65 for each call (push, root, prove), or 128 for each wish when trees may also be loaded; one with sum trees at most 63 for each call, if there are fewer than 2^64. As soon as a process has had that many turns it has come to its end and all its calls have returned: there is no deadlock, no livelock and no starvation by others. No call of a binary tree runs forever, on any storage, from any memory and for any claimed number of leaves.", "quantifier": "all storage implementations and initial states, all other processes, all schedules, all sequences of requests, all hash functions and build profiles", "why_tests_cant": "It must hold for every interleaving with every other process and every answer of the storage; a test can only run some schedules, and cannot observe that no schedule blocks.", "anchors": ["src/binary/merkle_tree.rs: MerkleTree::load, push, root, prove, build, peak_positions, join_all_subtrees", "src/sum/merkle_tree.rs: MerkleTree::push, root, join_all_subtrees, root_node", "src/sparse/merkle_tree.rs: MerkleTree::load, update, delete", "src/common/position_path.rs: PositionPathIter::next"]}
{"id": "C106", "title": "Users who react: requests given to processes at any moment", "statement": "Any number of processes share one storage, each with its own trees. They are given their requests one by one, at any moment, by users who may have seen everything that any process has answered up to then; turns (one storage call each) are dealt out in any order in between, also to processes that have nothing to do. Then: (1) the storage and all answers are the same as if every process had been given all its requests at the start and only the turns that were used had been dealt out, for sparse, binary and sum trees; so everything that is true of processes with fixed programs (C98 to C103, C105) is true of users who react. (2) What a process has answered at some moment are the first of the answers it has given at any later moment. (3) Explicitly: with sparse trees, and with binary trees over one list of leaves, on any storage that never makes up a record, every answer is right and no record in the storage is wrong; binary trees over different lists answer what their own leaves say, or a storage call of that process is to blame; sum trees answer what they would answer on a map of their own. (4) Handing over: if at some moment the root of a map is in a storage that behaves like a map, any process, new or in the middle of its work, that is asked later to load it does so, unless a storage call made for that very request fails (no process removing keys). The same for binary trees over one list of leaves: if at some moment all records of the first m leaves are in the storage, any process that is asked later to load at most m leaves does so, unless a storage call made for that fails.", "quantifier": "all sequences of requests and turns for any number of processes, hence all users and schedulers that react to what they see; all storage implementations of the stated kind and initial states, all hash functions and build profiles; lists of leaves within the limits of C98", "why_tests_cant": "The users' choices may depend on every answer of every process at every moment; a test runs one user and one interleaving.", "anchors": ["src/sparse/merkle_tree.rs: MerkleTree::load, update, delete, root", "src/binary/merkle_tree.rs: MerkleTree::load, push, root, prove", "src/sum/merkle_tree.rs: MerkleTree::push, root", "src/storage.rs: StorageInspect, StorageMutate"]}
{"id": "C107", "title": "Memory: how many nodes a tree keeps", "statement": "(1) Any number of binary trees on one storage whose records name their keys: whatever is pushed, loaded and proved on them, and whichever storage calls fail, a tree that counts n leaves keeps k nodes with 2^k <= n + 1 (so at most 63). (2) After n successful pushes a new binary tree keeps exactly as many nodes as n has ones in binary, and so does a tree loaded at n leaves from a storage with any contents. (3) On any storage, whatever positions its records name and whichever calls fail, a loaded tree never keeps more than 65 nodes more than it had when loaded, and a new tree never more than 65, in every build profile and however many calls are made, also beyond the number of leaves the tree can count. (4) The scratch storage that `root` and `prove` make for themselves gets at most one record less than the tree keeps nodes. (5) A sum tree keeps, whatever fails, k nodes with 2^k <= (pushes made) + 1, and after n successful pushes exactly as many as n has ones in binary. (6) The linked chains of nodes as the code has them, which are dropped recursively, are as short. (7) A sparse tree keeps one node, and an update or deletion collects at most 257 nodes on the path and 256 beside it, on storage with any contents and failures.", "quantifier": "all hash functions, build profiles, storage contents and failures, all sequences of calls; (1) counts below the limit of the profile and records filed under the key they name; (2) below 2^63 pushes, loads below the limit of the profile; (3) records with 64-bit positions; (5) below 2^64 pushes of 64-bit fees", "why_tests_cant": "A test observes the memory of some histories on storage that works; a leak of nodes after some failed call, on some damaged record or past some count would only show in the history that has it.", "anchors": ["src/binary/merkle_tree.rs: push, join_all_subtrees, build, root_node, build_root_node, prove", "src/sum/merkle_tree.rs: push, join_all_subtrees", "src/common/subtree.rs: Subtree", "src/sparse/merkle_tree.rs: path_set"]}
{"id": "C108", "title": "Separate tables: other things happening to the storage", "statement": "A tree names the table it uses, and several tables may be in one storage. (1) While running processes use one table of a storage that answers like a map for this table, anything may happen to the storage between any two storage calls, such as calls for other tables made by anybody, as long as it leaves this table as it is: the processes are answered exactly as on a storage of their own that answers like a map, that holds the same, and on which they take the same turns. (2) If the storage only never makes up a record, and what happens brings up no record of the table either (records may vanish): the same with a storage that never makes up a record. (3) One process that has the table for itself, with any number of binary, sum or sparse trees, is answered exactly what it is answered on a plain map that holds the same as the table (and no call of which fails, if the storage never fails), and the table ends up with what that map holds. (4) Binary trees over one list of leaves, several processes on the table: everything that was wished came true unless a storage call made for that very wish failed. (5) The same if records may vanish: every answer is right, and no record in the table is wrong. (6) For the processes of one table, what the processes of other tables do is something that leaves their table as it is. (7) Hence with one process for each table of a storage, some with binary, some with sum, some with sparse trees, taking turns in any way: each is answered exactly what it is answered on a plain map of its own. (8) In (3) and (7), also while a process is in the middle of its calls: those it is through with have returned exactly what they return on a plain map. (9) Nobody waits: whatever happens to the storage in between and whoever else uses the table, a process makes in all at most 128 (binary), 63 (sum) or 1026 (sparse) storage calls per call it was given, and after that many turns of its own it is through; so in (7) every user who gets that many turns is through, with the answers of a plain map.", "quantifier": "all storages in the sense of C94 (1, 3, 4, 6, 7) or that never make up a record (2, 5), all hash functions, build profiles, numbers of tables and processes, calls, schedules and things happening between the storage calls; (3, 7) once the process is through with its calls, (8) at every moment; (9) all storages, all other processes, fewer than 2^64 calls", "why_tests_cant": "The tests use one table per storage and one user. A call that read or wrote records outside the keys of its own table's calls, or relied on something remembered between its storage calls about the rest of the storage, would show only in particular interleavings.", "anchors": ["src/binary/merkle_tree.rs: MerkleTree<TableType, StorageType>", "src/sum/merkle_tree.rs: MerkleTree<TableType, StorageType>", "src/sparse/merkle_tree.rs: MerkleTree<TableType, StorageType>", "src/storage.rs: Mappable, StorageInspect, StorageMutate", "src/common/storage_map.rs: StorageMap"]}
{"id": "C109", "title": "Proofs against a root of unknown origin", "statement": "A client has a root and a leaf count that somebody announced; whether any tree has that root is not known. For one index the verifier never accepts two different proof sets of the same length, unless two messages it hashes for them collide; so a client that insists on the length that belongs to index and count (C79) can be shown at most one piece of data for each index. Without that check it can be cheated without any collision: for every hash function and any two pieces of data there is a root for which proofs of both are accepted as leaf 0 of 2, one of them longer than it should be. If for every index below the count a proof of the right length is accepted, the root is the RFC 6962 root of the data shown, unless two messages hashed in checking collide. So one root cannot be shown complete in this way for two different lists, whatever their lengths, without a collision.", "quantifier": "every root, every proof set, index and count below 2^64 (for the last two claims every non-empty list of fewer than 2^63 pieces of data with a proof for each), every hash function, every build profile (for two proofs or two lists also two different ones)", "why_tests_cant": "Tests check proofs against roots of trees they built. Here the root is chosen by an adversary and need not belong to a tree, and the claim ranges over all roots and all pairs of proof sets; the false acceptance needs a root that no tree of the library has.", "anchors": ["test-helpers/src/binary/verify.rs: verify", "test-helpers/src/binary/hash.rs: leaf_sum, node_sum"]}
{"id": "C110", "title": "Proofs kept by clients while the tree grows", "statement": "A client keeps the proof of a leaf while more leaves are pushed. If the aligned block of 2^k leaves around the leaf is full, the first k+1 elements of the proof (the leaf and k siblings) are also those of every proof of that leaf in a longer list, whatever is pushed later; so only the rest has to be fetched again. Beyond that nothing can be kept: when the next larger block becomes full, the next element of the proof is another one, or there was none, unless two hashed messages collide. The whole proof in a tree of 2^k leaves is the beginning of the proof in every larger tree.", "quantifier": "every list of leaves and every list pushed after it, every leaf of the first, every k, every hash function, every storage (with any content, failures allowed as long as the pushes and the two calls of prove succeed; for the two proofs also two storages), every build profile (also two different ones); the first list shorter than the limit of the first build for proofs (2^62 with overflow checks, 2^63 without), the whole list shorter than that of the second", "why_tests_cant": "Tests compare proofs with expected values for a few fixed trees. The claim relates the proofs of all pairs of a list and an extension of it, for every leaf and block size.", "anchors": ["src/binary/merkle_tree.rs: push, prove", "src/common/position.rs: path"]}
{"id": "C111", "title": "Pruning the storage of a binary tree", "statement": "To go on with a binary tree its storage needs only the records of the largest complete subtrees, one for each binary digit one of the number of leaves; after acknowledged pushes they are there. If everything else has been removed (or replaced by anything), `load` succeeds, further pushes succeed, the root is that of all leaves, and every leaf pushed since can be proved with the same proof that a complete storage gives. A proof of an older leaf whose record was removed is refused with LoadError carrying the index of the leaf, it is never wrong and never a panic. If storage calls may fail, the load or a proof may also return the storage's error, and the rest holds as long as the pushes succeed. After any number of further pushes the storage can be pruned again.", "quantifier": "every list of leaves and every list pushed after loading, together fewer than 2^62 leaves (2^63 in a build without overflow checks); every storage that has the needed records, with any other content and any pattern of failing calls; every index of the leaves pushed later, and every index of the earlier leaves whose record is missing; every hash function, every build profile", "why_tests_cant": "Which records a proof reads depends on the shape of the tree before and after; the claim ranges over all pairs of leaf counts, all indices and all contents of the rest of the storage.", "anchors": ["src/binary/merkle_tree.rs: load, build, push, prove, root"]}
{"id": "C112", "title": "Going on with a tree from the proof of its last leaf", "statement": "The proof of the last leaf of a binary tree consists of the hash of the leaf and the Merkle hashes of the largest complete subtrees of the leaves before it, from the right. So a client that trusts a root and a number n of leaves, and is given data and a proof that the verifier accepts for leaf n-1 of n, can go on with the tree without knowing the other leaves: it files the elements of the proof under the keys of those subtrees, loads a tree with n-1 leaves, pushes the data and any further leaves, and gets the roots of the complete list and correct proofs of all leaves it pushed; or two messages hashed for the list or in checking the proof collide.", "quantifier": "every list of leaves, every last leaf, data and proof offered (also by an adversary), every list pushed later, in all fewer than 2^62 leaves (2^63 in a build without overflow checks; of the client's build, for the first claim of the build that proves); every storage of the first tree, every storage of the client whose calls do not fail and that has the filed records, with any other content; every hash function and pair of build profiles (the proof is checked with that of the first tree)", "why_tests_cant": "The claim ties together the shape of proofs, the keys that load reads and the verifier, for all leaf counts and for every proof an adversary can offer.", "anchors": ["src/binary/merkle_tree.rs: prove, load, build, peak_positions, push, root", "test-helpers/src/binary/verify.rs: verify"]}
{"id": "C113", "title": "A call of the sparse tree from a few handed over records", "statement": "To carry out one update or delete of a sparse tree, a client does not need the storage of the tree. It is enough to have the record of the root, what is stored under the key of the call, and for each branch on the way of the key the records of its two parts: two records and two more for each branch, so at most 2+2b if all other keys differ from the key of the call within the first b bits. On a storage with nothing but these the tree loads at its root, the call succeeds, and the new root is that of the map after the call. On any working storage whose records are not wrong the call succeeds exactly if none of the records it looks for on the way is missing; otherwise it returns the error that names the first missing one, and the root stays. So a client that keeps nothing but the 32 bytes of the root, is handed these records before each call and forgets them after it, has after any number of calls the root of the map after them.", "quantifier": "every map, every update or delete and every sequence of them, every working storage whose records are right or missing and that has those on the way of the key (all that hold the whole tree, for instance), every profile, every hash function without collisions on the messages of the map and of the map after the call", "why_tests_cant": "Tests keep the whole tree in memory, so they cannot show what a call could do without; which records are needed depends on the map and the key.", "anchors": ["src/sparse/merkle_tree.rs: load, update, delete, path_set, update_with_path_set, delete_with_path_set", "src/sparse/node.rs: StorageNode"]}
