# Formal model of fuel-merkle in Lean 4: design

## 1. Layout

* `lean/Verif/Model/*` – the model, one file per Rust module. Every definition cites the `/repo` file and
  lines it models and names its simplifications.
* `lean/Verif/Spec/*` – small separate specifications: RFC 6962 tree hash, audit path and verifier, sum tree
  hash, compact sparse tree root of a map, SHA-256, binary digits, and the vocabulary of the statements
  (`*Api`: histories of calls, the maps they denote, what a failing storage is). The pure ones
  (`Rfc6962`, `SumTree`, `SparseTree`, `Sha256`, `Bits`) do not import the model except for byte types.
* `lean/Verif/Proofs/*` – lemmas.
* `lean/Verif/Props/*` – the theorems named in `MANIFEST.json`, `C<nn>_…`, each with its English reading as
  docstring, and an `example` showing that a concrete non-trivial case meets the hypotheses.
* `lean/Verif/Tests/*` – `#guard` tests that run the model with SHA-256 against expected values of the
  repository: all fixtures, and every one of its 130 unit tests by name (`UnitCommon`, `UnitSparse`,
  `UnitBinary`). Two things differ there: the tests of `tests/binary.rs` use fixed samples of up to 64
  leaves instead of random ones of up to 10000, and one reload test uses 511 leaves instead of 65535.
  These are tests of the model's fidelity, not proofs.
* `seeded/LOG.jsonl` – wrong programs tried against the theorems, see section 8; `seeded/edits.jsonl` has the
  exact edits and `seeded/replay.py` applies one of them to a scratch copy and rebuilds.

## 2. Trusted base

* Lean 4.33.0's kernel and the three standard axioms `propext`, `Classical.choice`, `Quot.sound`.
  No theorem depends on any other axiom: the table in section 7 gives the exact list for each. There is no
  `sorry`, no `admit`, no axiom of our own, no `native_decide` and no `bv_decide`. `decide +kernel` occurs
  only for closed finite facts (examples, witnesses of defects, a SHA-256 value); it is checked by the
  kernel by evaluation and adds no axiom.
* That the model says what the Rust code does. The link is the reading of the source, line by line; the
  citations make it checkable, the `Tests` and the seeded bugs are evidence for it. Nothing was compiled
  or run: `/repo` was read as text.
* Of the environment of the code: Rust's semantics of the integer operations used (`checked`, wrapping in
  release, panicking in debug), of `Option`/`Result`/`?`, `Vec` and `Box`; that the `digest`/`sha2` crates
  compute a function of the concatenated input (for the theorems mentioning SHA-256: SHA-256 as in FIPS
  180-4, see `Spec/Sha256.lean`); that `hashbrown::HashMap` is a map; that a user's storage, when a call
  on it does not fail, acts as a map (C94 makes precise what is needed; C95 to C103 say what holds without it). Allocation failure and stack exhaustion are not modelled. (Recursion
  in the code modelled: `build_root_node` is a loop, dropping of `Subtree` lists is recursive in Rust but
  lists have at most 64 elements.)

## 3. How Rust is modelled

* `u64`, `u32`, `usize` are natural numbers, `i64` integers, with explicit range checks. Arithmetic that can
  overflow goes through functions parameterised by a build `Profile` (`overflowChecks`,
  `debugAssertions`): with checks a panic, without checks wrap-around. Theorems quantify over the profile,
  unless a theorem says what differs. `usize` has 32 or 64 bits,
  also a field of the `Profile`, so theorems hold on both kinds of targets.
* A panic (`unwrap`, `expect`, `assert!`, overflow, index out of range) is an explicit result, never
  "undefined". A loop that has no evident bound has explicit fuel, and running out of fuel is a result of
  its own (`diverges`) that theorems exclude; where the loop bound is needed (`path_set`, `PathIter`) the
  fuel is more than the number of rounds possible, and C42, C56 prove that it never runs out.
* `&mut self` methods return the new state also when they fail: a computation is a function
  `σ → Except ε α × σ`, so the state left by a failing call can be spoken about.
* User storage is a total map `K → Option V` with an arbitrary schedule of failures: each storage call may
  fail with any error value, and a failing write may or may not have been applied (`Fault.applied`). So
  theorems about `Store` hold for every pattern of failures and every crash point: a crash is a failure
  after which the tree object is dropped.
* `StorageMap` (hashbrown) is the same map without failures.
* `Model/AnyStorage.lean` has the trees once more, over an arbitrary implementation of the storage traits
  (`Backend`: any state, any `get`, `insert`, `remove`). C94 proves that on every implementation that
  behaves like a map they do what the trees on `Store` do, so that the theorems about `Store` hold for
  every such implementation. A storage whose methods panic or do not return is not
  modelled as such. The error type is arbitrary and the code passes storage errors on at once, so a panic
  of the storage that the user catches leaves the tree and the storage as an error of the same call does
  (one read may be missing: after a failed read of a node on a path its neighbour is still read). A call
  that does not return is a process that gets no more turns (C100, C106).
* `Option<Box<Subtree<Node>>>` is the list of its nodes in `Model/Binary.lean` and `Model/Sum.lean`.
  `Model/Linked.lean` has the same functions with the linked list itself and with scratch storage behind
  the infallible storage traits; C63 proves that the two models cannot be told apart.
* `Model/Metered.lean` has the calls of the trees once more with a record of the messages they hash; C104
  proves that without the record they are the calls of the model.
* The hash function is a parameter `H : List UInt8 → Bytes32`, hence all theorems hold for every hash
  function unless they say SHA-256; feeding a digest in several `update` calls is hashing the
  concatenation. No theorem assumes `H` injective (impossible for 32-byte digests). Where freedom from
  collisions matters, either the theorem exhibits the colliding pair (`Collide`), or its hypothesis
  (`Ideal`, `IdealFor`, `IdealLog`) ranges only over the finitely many messages that occur in the history
  at hand. Those hypotheses are shown satisfiable with SHA-256 itself for concrete histories.

## 4. What is modelled and what is not

Modelled, function by function: `src/common.rs`, all of `src/common/*` (`error`, `msb`, `node`, `path`,
`path_iterator`, `position`, `position_path`, `prefix`, `storage_map`, `subtree`), all of `src/binary/*`,
`src/sparse/*`, `src/sum/*`, and of `test-helpers` the binary reference tree and the proof verifier
(`test-helpers/src/binary/*`), the data-driven tests (`test-helpers/src/data/*`, with the codecs of
other crates as a parameter) and the writer of the proof tests (`test-helpers/src/suites/*`). `src/storage.rs`: the meaning of the traits (`Store`, and any implementation: `Backend`), and the blanket
implementations of the infallible traits (`Infallible`).

Printing: `Debug` of nodes in the one-line format and the messages of errors (`Model/Print.lean`, with
the formatting functions of the standard library and `hex::encode` as documented).

Not modelled: derived `Debug` of trees, storages and errors, the indented format `{:#?}`, `Clone`/`AsRef`/accessor boilerplate, feature flags (`std`,
`no_std`), reading and writing YAML, random sampling, memory use other than the number of nodes and scratch records kept (C107), running time other than
the number of storage calls (C16, C56, C65) and of hashed messages (C104), threads sharing one tree (the API takes `&mut self`; there are none). Processes that share a
storage, each with its own trees, are covered call by call: C98 to C103; C105 says that none of them waits for another, C106 is about users who react to what the processes answer, C108 about several tables in one storage and other things that happen to the storage.

## 5. Defects found

Properties that a user would expect and that are false of the code. In each case the property list states
what really holds, and the theorems prove that *and* the deviation, with a concrete witness.

| where | what | property |
|---|---|---|
| `binary::MerkleTree::prove` | `proof_index + 1 > leaves_count` overflows for `u64::MAX`: with overflow checks a panic, without them the range check passes and the call reports `LoadError` instead of `InvalidProofIndex` | C04 |
| `binary::MerkleTree::push`, `sum::MerkleTree::push` | `head` is taken before the fallible writes; if storage fails the open tree has lost all its leaves and goes on silently from there; further pushes on it overwrite stored records, so the tree cannot be opened correctly at its count any more | C13, C50, C59, C83, C84, C92 |
| `binary::MerkleTree::prove` | after a push that failed at a later write, `prove` of any existing leaf panics (`expect("Root node must be present")`) | C84, C92 |
| `binary::MerkleTree::load`/`prove` | with overflow checks position arithmetic panics for every leaf count n ≥ 2^62 | C11, C22, C74 |
| `binary::MerkleTree::load` | without overflow checks a leaf count of 2^63 or more is accepted and treated as the count 2^63 smaller; `u64::MAX` opens an empty tree on any storage | C74 |
| `test-helpers verify` | does not check the length of the proof: for the last of five leaves it accepts the one-element proof consisting of the root itself; for any two pieces of data there is a root against which both are accepted as leaf 0 of 2 | C06, C109 |
| same | index and count are used only through directions: the proof of the last leaf of any tree is accepted as one for the last leaf of every odd number of leaves, so the count must be trusted | C66 |
| same | for a claimed count of 2^63 or more: with overflow checks a proof set can make it panic (any non-empty one for index 2^64-2 of 2^64-1), without them every proof for an index below 2^63 is rejected | C70 |
| leaf and node prefixes | the three kinds of trees share the prefixes 0x00 and 0x01: a one-leaf sum tree, and sparse trees of a suitable shape, have roots of binary trees over other data; a root does not identify the kind of tree | C67 |
| `src/binary/merkle_tree.rs` `push`, `prove` | binary trees with different leaf lists on one storage overwrite each other's nodes (keys are positions): pushes and roots are fine, but `prove` returns `Ok` with a proof that does not verify | C68, C91, C103 |
| same, after failed pushes | a push that failed may have written its inner nodes; if another leaf is pushed in its place and that push fails too, `load` at the larger count succeeds with the root of the first leaf while `prove` returns the second one | C87 |
| `sum::Node::create_node` | the sum of the fees can overflow: with overflow checks a panic, without them it wraps | C46 |
| `sparse::MerkleTree::delete` | a `delete` of a key that was present earlier (its leaf record is still in storage) removes *another* key, the one on its path | C28, C31 |
| same | if that path ends in a placeholder, the record of the all-zero key is erased from storage | C30, C44 |
| `sparse::MerkleTree::load` | the root of the empty tree (zero) cannot be loaded; if the zero key was ever stored, loading zero gives a tree with that leaf | C35 |
| `sparse::MerkleTree::delete` | an interrupted delete has already removed nodes of the stored tree: the current root may no longer be loadable | C39 |
| `sparse::MerkleTree::delete` | a successful delete removes node records that other trees in the same storage share: an older root, reported and unchanged, can no longer be loaded. This happens to another tree exactly when it has the removed entry too | C61, C82, C93 |
| sparse storage | leaf records are also filed under their key: keys equal to node hashes overwrite nodes, and `load(key)` opens a one-leaf tree whose root is not the value asked for | C41, C54 |
| `sparse::MerkleTree::load` | the hash of any inner node is accepted as a root; an update in the opened tree then panics (with debug assertions) or works on that part only, and when the new key forks an existing leaf it returns `Ok` in every build with a root that belongs to no map, losing keys; a delete in the opened tree removes the record of the opened node, so that the whole tree, which still loads, answers updates and deletes of keys with that prefix with errors | C76 |
| `binary::MerkleTree::load` | the position stored in a record is trusted although the key is known: a record with the right hash and another position loads, gives the right root, and makes later roots wrong (`push` returns `Ok`) or, with overflow checks, makes `root` panic | C77 |
| `sparse::MerkleTree::delete` | a present key whose record under the key itself is lost cannot be deleted: the call answers `Ok` and does nothing | C78 |
| `sparse::MerkleTree` on untrusted storage | records below the root are not re-hashed: a changed leaf is silently taken over into the next root | C80 |
| `sparse::Node` | the height is stored but not hashed: with a changed height, even on storage that checks every hash, an `update` storing the value a key already has returns `Ok` and changes the root, or panics | C80 |

## 6. How the properties are proved

| id | property | how |
|---|---|---|
| C01 | Binary root is the RFC 6962 Merkle tree hash | invariant: the head list is the list of complete subtrees at the binary digits of n (carry induction); folding the peaks is the RFC recursion |
| C02 | Empty binary and sum trees hash to SHA-256 of the empty string | unfolding, and kernel evaluation of one SHA-256 block |
| C03 | Binary proofs are the RFC 6962 audit paths | the position path of leaf i in the n-leaf tree by induction on height; the storage invariant (C08) and the scratch nodes give the hashes of the siblings |
| C04 | Out-of-range proof index | case analysis of the index check with u64 overflow |
| C05 | Generated proofs verify | induction along the audit path against the verifier's loop |
| C06 | Accepted proofs identify the right leaf | the verifier computes a hash by absorbing siblings; equal roots give the leaf or an explicit collision |
| C07 | Binary root commits to the whole leaf list | explicit extraction of a collision by induction on the tree |
| C08 | Storage holds exactly the complete subtrees | invariant on the map: exactly the complete subtrees |
| C09 | Load restores the tree | peaks of n from the position path; each peak is in storage |
| C10 | Load can reopen any earlier size | as C09 with the storage of a longer history |
| C11 | Load reports missing peaks | exact characterisation of load's outcome from the peaks found |
| C12 | Interrupted push never damages stored leaves | invariant: storage agrees with the acknowledged leaves on complete subtrees, under every failure |
| C13 | What a failed push does to the open tree | symbolic execution of the failing push; witness of the changed root |
| C14 | Root and prove are pure observations | equality of states up to the count of storage calls |
| C15 | Stored binary nodes are immutable | monotonicity of the map under every call and failure |
| C16 | Binary storage growth | counting the complete subtrees: 2n - popcount n |
| C17 | Acknowledged pushes survive any crash-and-reload history | sessions of pushes, crashes and reloads; the invariant of C12 |
| C18 | Positions enumerate the perfect tree in order | closed form 2^h(2k+1)-1 of positions, on checked u64/i64 arithmetic |
| C19 | Parent and child are inverse | closed form |
| C20 | Sibling and uncle laws | closed form |
| C21 | Leaf index round trip | closed form |
| C22 | Exactly where position arithmetic overflows | closed form with exact bounds |
| C23 | Path iteration follows the ancestors | induction on the height |
| C24 | Position paths follow the n-leaf tree shape | induction on the height with the shape of the n-leaf tree |
| C25 | Peaks are the binary digits of the leaf count | binary digits of n |
| C26 | Bit addressing reads the big-endian number | arithmetic on bytes |
| C27 | Common prefix count is the longest common bit prefix | arithmetic on bytes, longest common prefix of bit strings |
| C28 | Sparse root after any history | ghost tree: the nodes read and written are those of the compact canonical tree of the map; update and delete refine insertion and erasure on it; storage invariant under explicit no-collision hypotheses; deviations of stale deletes exact |
| C29 | Sparse root is independent of insertion order | canonicity of the tree of a map |
| C30 | Deleting a present key undoes its insertion | as C28, and canonicity |
| C31 | Deleting an absent key | as C28 |
| C32 | Update overwrites and is idempotent | as C28, and canonicity |
| C33 | Update with empty data is delete | the code calls delete |
| C34 | Sparse root is zero exactly for the empty map | root of the canonical tree is zero only for the empty map unless a message hashes to zero |
| C35 | Sparse load restores the tree | the tree is in storage (invariant); simulation of trees that differ in the storage clock |
| C36 | Sparse load errors | case analysis |
| C37 | Old sparse roots stay loadable under updates | updates only add records of the tree, so old trees stay stored |
| C38 | Interrupted sparse update is harmless to the stored tree | every write of an update adds a node of the new tree or the leaf record, so all intermediate storages hold the old tree |
| C39 | Interrupted sparse delete | invariant of the open tree; witnesses for the loss |
| C40 | Sparse root commits to the map | explicit extraction of a collision by induction on the compact tree |
| C41 | Keys that equal node hashes | witnesses |
| C42 | Sparse operations never panic on reachable trees | invariant of C28 under every failure |
| C43 | Node and primitive encodings round trip | case analysis |
| C44 | Sparse storage residue | exact description of the leaf records left |
| C45 | Sum root is the sum tree hash | as C01 |
| C46 | Fee overflow | case analysis of the sum |
| C47 | Sum root commits to fees and data | explicit extraction of a collision |
| C48 | Sum root is repeatable | root only writes records already canonical |
| C49 | Sum storage contains the tree | invariant on the map |
| C50 | What a failed sum push does to the open tree | as C13 |
| C51 | StorageMap behaves as a map | refinement to the semantics of a list of map operations |
| C52 | Reference tree and library tree agree | invariant on the streaming proof set of the reference tree |
| C53 | In-memory wrappers are faithful | corollaries for storage that does not fail |
| C54 | Sparse storage is addressed by content | invariant on records, for every storage call of every computation of the API |
| C55 | Sparse updates never remove records | monotonicity of the map |
| C56 | Sparse calls end on any storage | counting storage calls along every path of the code |
| C57 | Sessions and branching histories | invariant over logs of sessions; the ideal hash hypothesis over all messages of the log |
| C58 | Errors of the sparse tree come from the storage, and none is swallowed | simulation of the call on failing storage by the call on working storage, up to the first failure reported; lost children read ahead by the path iterator are reported at the next step |
| C59 | Going on with an open tree after a failed push | invariant of a tree that lost its subtree list: subtrees and records of the later leaves at positions shifted by the old count |
| C60 | Debug and release builds agree | a relation `panics or is equal` preserved by every step of every function of the model |
| C61 | A delete can destroy other trees on the same sparse storage; a new tree is sound on any leftovers | sessions_ok keeps every record valid, so a new tree over any leftovers satisfies the invariant; follow_last shows its final tree is stored. NoLeaf, kept by every node merge, shows the removed leaf is not written back. |
| C62 | Paths over any node type | Model: `UserNode`, a record of arbitrary functions, plugged into the generic path iterator. Spec: `IsPath`, which describes a path item by item. `C62_path` by induction on the key bits left; `C62_unique`: the specification determines the sequence; `C62_too_high`. |
| C63 | The chain of subtrees and the infallible storage interface | Model: `Model/Linked.lean`, the trees with the inductive linked chain, `take`, `take_next`, and scratch storage behind `expect`. Simulation with the list models, step by step (`SimAt`), by induction on the length of the chain; then the history theorems C10 and C48 carry over. |
| C64 | Binary and sum trees stop at the first storage failure and report it | `FailFast`: a computation acts as on healed storage, or its last storage call failed and is reported; closed under sequencing. Each function is shown to be FailFast by following its text. The reachable form combines this with C10 and C48 on the healed tree. |
| C65 | Exact number of storage calls | The clock of the storage counts calls. Inductions over the loops relate it to the lengths of the proof, of the list of peaks and of the list of subtrees; these lengths are popcounts by the invariants of the trees. |
| C66 | Proofs checked against a wrong number of leaves | Verifier characterised by directions (Proofs/Verify.lean: verify_eq), soundness of climbing along any directions (Proofs/VerifySound.lean: climb_sound), directions of the last leaf computed in closed form. |
| C67 | Roots of different kinds of trees | C01, C45 and C28 give the roots in closed form; the top messages of the closed forms are compared (sum nodes are 81 bytes long, the others 65), for sparse against binary by induction on the key bits with the shape of the tree as induction invariant. |
| C68 | Several open trees on one storage | One storage and a table of open trees (`Desk`, Spec/Shared.lean); the invariant says the storage agrees with the longest acknowledged beginning of the common list and each open tree holds the peaks of its own; for sum trees each write keeps every stored subtree (`Keeps`, Proofs/Sum.lean). The counterexample is computed with SHA-256. |
| C69 | Data-driven tests report what the trees do | Model/TestData.lean; the codecs of other crates are a parameter with the law that decoding undoes encoding (met by a concrete hex and RFC 4648 base64); the verdicts follow from C05, C28 and C53. All fixtures of the repository are run through the model in Tests/TestData.lean. |
| C70 | The verifier on every input | One round of the loop is computed with and without wrapping (loop_round, loop_round_panic); the rounds inside the largest complete block by induction; from 2^63 leaves on the masked shift makes the loop run to the end of the proof set (loop_wrap) |
| C71 | Exact number of storage calls of the sparse tree | inverting successful runs to count the calls, then induction on the tree to compare reads, merges and removals with a descent through the key list |
| C72 | 32-bit and 64-bit targets agree | pointer-sized subtraction is modelled with the pointer size of the target; every function of the model is shown to be independent of it, the wrapped offsets being beyond the last bit of a key on both targets |
| C73 | Position paths on any root, leaf and leaf count | Agreement of two iterator runs whose leaves have the same remaining bits (a simulation by induction on fuel); the path lemma of C24 generalised to any block k·2^g and to missing leaves against the separate specification Spec.blockPath; a decreasing number of remaining items for termination, with the two top positions decided by the kernel for every profile. |
| C74 | Opening a binary tree with any leaf count | Without overflow checks the leaf position wraps modulo 2^63 and the root position becomes the all-ones index, both of whose children are the position of height 63; the path from it is shown to be the path of the wrapped tree. `push` and `prove` are shown to depend on the count only through these positions. |
| C75 | Printing nodes and errors | `Model/Print.lean` builds the texts character by character. Texts are read back from the left: numbers end at the first character that is not a digit, hexadecimal digests have 64 characters. For the sum tree, an invariant of all computations on trees says that every node made has both child keys or height 0. The exact texts are stated against `Spec/Text.lean`, which says what the hexadecimal and decimal form of something is by reading the digits back. |
| C76 | Opening a tree at an inner node | Descending d bits along a key in the canonical tree gives the canonical tree of the keys with that prefix; the lemmas about paths and side nodes hold at any depth, only the last step, `set_root_node`, sees that the height is not 256. When a leaf is forked, the number of placeholders is counted from the number of side nodes, so the fork ends d levels too high; from there each merge computes its depth from the height of the node below, and the tree it builds is described by `displaced`. It is canonical at no depth: the fork fixes the depth to be 0, and the node beside it is then on the wrong side. The counterexample is evaluated by the kernel and carried to every build by the comparison of profiles. For deletes, the path below the opened node is removed and rebuilt at its own depth; the root of the whole tree is larger than every tree on that path, so its record is not among those removed. No node of the rebuilt part is the opened node, since the deleted key is below it; the opened node is on the way of every key with the prefix, and by C85 a call with a missing record on its way ends with an error. |
| C77 | Binary trees on storage that cannot be trusted: comparing the root after load is enough | The positions of the peaks are determined by the leaf count when records name their keys (induction over the peak ranges), so joining them cannot panic and bags their hashes. Equal roots with equal shapes give equal peak hashes or a collision (induction over the peaks). `push` and `root` depend on the peaks only, and `prove` reads other records without effect on the root. The two negative facts are concrete storages. |
| C78 | Sparse tree on storage that loses records or is rolled back | inductive definition of the settings that can arise; invariant: every record the storage ever held is valid for its key, which is all the step lemmas of calls and load need; the deletion without effect by computation of delete on any tree |
| C79 | Length and uniqueness of proofs | length of the RFC 6962 path by induction on the number of leaves and bit arithmetic; every climb to the root whose directions lead to a leaf is the audit path of that leaf, by induction on the directions, or there is a collision; the verifier's directions with the right length lead to the leaf |
| C80 | Sparse trees on storage that cannot be trusted | The validity invariant of the sparse proofs allows arbitrary records in places that are neither keys nor hashes of messages, and a storage that is sound for the maps gone through is valid (records of the specification tree against records of the canonical tree). Load on any storage by unfolding. The two failures are concrete storages given as lists of records, evaluated by the kernel in the strictest profile and carried over to all profiles. |
| C81 | Exact contents of the storage of a sparse tree | The writes of a call are pinned down by running the existing refinement proof with the messages of the new tree only as the set of allowed messages (Proofs/SparseContents.lean: update_writes, delete_writes), so every record written is a record of the new tree; records of the old tree that are not on the path are records of the new one (record_path). image_step then gives the contents after one call, images_run after a history. |
| C82 | Several open sparse trees on one storage | Spec/SparseShared.lean: a desk of open trees over one storage and a board that computes maps and contents from the calls only. Invariant: every open tree represents its map and the storage is valid for all of them; the records lost in a removal are exactly those of subtrees on the path that hold the removed entry, so another tree loses one iff it holds the entry. |
| C83 | Every write of the sum tree, on every storage | Refinement: the head list of the model is the list of the binary digits of the leaf count, each the record of its stretch of leaves; one step of joining is one write of the machine; induction over the head list and over the calls. |
| C84 | Every call of the binary tree on every storage, also after failures | Refinement of the model by the machine, by induction over the list of subtrees (whose lengths are the binary digits of the length of the list) and over the calls. The position of a joined subtree is the parent of the position of its left part, hence an ancestor of its first leaf even if the list does not begin at an aligned leaf. |
| C85 | Every call of the sparse tree on every storage, also after failures | Abstract machine over (map, storage): reads of the way computed from the map, put/drop lists from the old and new branch lists; simulation by induction on the history, each step from equations for path_set, update_with_path_set and delete_with_path_set as lists of calls. |
| C86 | A root found in storage is a whole tree: updates write children before parents | Invariant Linked on storage contents preserved by every single write of the machine of C85 (leaf first, branches bottom-up, siblings found by the reads); Linked + Sound gives all records below a stored root by induction on the tree; continuation by the contents theorem of C81. |
| C87 | A binary tree found in storage is there completely | Invariant `Intact` (present records are right; a present inner node has both children) kept by every prefix of a push's writes; every complete subtree lies under a peak that `load` reads, so a successful load finds everything; hazard by kernel evaluation in every profile. |
| C88 | A binary tree opened from any storage, call by call | The loop of load is the machine's sequence of reads (induction over the peaks); the nodes it finds are the complete subtrees whose lengths are the binary digits of the count (induction over the digits), so the refinement of C84 goes on from there. |
| C89 | The storage of sum trees is whole | Invariant on the model itself (every subtree of the open tree has its record; a write adds a node whose children are present) through every call and failure; the machine of C83 tells which lists a record can come from; commitment of the root identifies the list, induction on its length descends to the children. |
| C90 | Several sum trees open on one failing storage | The step of the machine of C83 does not depend on the stored content, so it composes over trees; the invariants of C89 hold for all open trees at once since records are never removed. |
| C91 | Several binary trees open on one storage, whatever their lists | The step of the machine of C84 composes over trees, as its invariant does not speak of the storage; contents of a working storage by induction (last write wins); success of `prove` by comparison with the same calls on the tree alone, whose keys are a subset. |
| C92 | Everything that can be done with binary trees on one storage, whatever it holds | Simulation of the trees (model of every call) by the machine of Spec/BinaryTops.lean: the subtree list of each tree is the list of nodes of the machine's subtrees (HoldsTops), records keep naming their keys; then induction over the actions, and an invariant of the machine (a tree without subtrees has no leaves or its last push failed) for the panics. |
| C93 | Everything that can be done with sparse trees on one storage | `Spec/SparseMany.lean`: requests, the program on them (`Bench`) and the specification (`Shelf`: storage and a map per tree, calls by the machine of C85); `Op.lacks` lists the records a call looks for in vain. Refinement by induction over the requests, each tree keeping the invariant `Rep` of C28; the update-only part by the invariant of C86 for all trees at once. |
| C94 | Every storage implementation that behaves like a map will do | The three trees are modelled once more over an arbitrary `Backend` (`Model/AnyStorage.lean`), line by line. A simulation shows that a run on a map-like backend is a run on `Store` with the failures the backend showed, by induction on the loops and on the sequence of calls. |
| C95 | What holds on a storage of which nothing is known | The simulation of C94 with the relation that says nothing about the storage: push and root never use what the storage returns. For prove, a comparison with a failure-free run: every record read only ends up in the proof. For sparse trees, a bound on storage calls by the 256 steps of the path iterator. |
| C96 | Sparse trees on a storage that may forget and go back in time, but makes nothing up | Records under hashes are determined by the hash, so a stale record under a hash is the right record. Invariant: every record that can come back is that of a node of a map at hand or a leaf record of a user key. Path reading is followed record by record; the writing part of update and delete is turned into a list of writes, whose records and result are taken over from the theorems on the map model with each write made to fail in turn. |
| C97 | Binary trees over one list of leaves on a storage that may forget and go back in time, but makes nothing up | Keys are positions; for one list the record of the position of a complete subtree is determined, so a stale one is right. Invariant: what can come back for these positions is right, and every tree not given up has the peaks of its leaves in memory. Writing is followed write by write. For reading, the run is compared with one on a storage that holds all records of the list: what is returned is the same, unless there is an error of the storage. Other positions are covered by the scratch storage of prove. |
| C98 | Processes working on one storage at the same time, with binary trees over one list of leaves | A process is a program that is fed the answers to its calls so far; its next call is the first one that is not answered yet. As seen by one process, the answers so far are a storage that never makes up a record, so C97 holds for it; hence its next write is right, and what is in the storage stays right, by induction on the schedule. A second theorem shows that a process that gets all turns does what its program does directly. |
| C99 | Processes working on one storage at the same time, with sparse trees | As C98, with C96 in place of C97: the answers a process has got so far are, for it, a storage that never makes up a record; only the requests it has begun matter. A process that gets all turns does what its program does directly, which is shown function by function; and one that has come to its end has begun all its requests. |
| C100 | Processes sharing a storage do not make each other fail (binary trees) | Rely and guarantee: every process writes the record of a subtree only after those of all subtrees within it, so the storage is closed under going down; what a process wrote or found, and all below it, stays there. On the answers a process has got so far, each function is shown to succeed, or to be cut off at the call the process waits for, or to be stopped by a call that failed since the request began. |
| C101 | Processes sharing a storage do not make each other fail (sparse trees that only grow) | Rely and guarantee: every process writes the record of a node only after those of its children, so the storage stays linked; what a process wrote or found, and all below it, stays there. The order of the writes is read off a list of the writes of an update (`Writes.Ordered`). On the answers a process has got so far, each function is shown to succeed, or to be cut off at the call the process waits for, or to be stopped by a call that failed since the request began. |
| C102 | Sum trees of processes sharing one storage, call by call | C102_own, C102_right, C102_working, C102_end, C102_linked, C102_found, C102_returned and C102_alone (Props/ConcurrentSum.lean; Spec/ConcurrentSum.lean). A process on the tape of its answered calls is simulated, as long as it does not wait, by the same program on a private map whose failures are those of the tape (Sim); this gives (1), and with C68 (2). For its next call, a run on a map in which the awaited write takes effect (Wrote) gives, by C90, that the record is that of leaves of one of its trees and that its children were written by the process itself before; this is kept by every turn (Sound). |
| C103 | Binary trees of processes over different lists on one storage, call by call | C103_fair, C103_kept, C103_plain, C103_end and C103_alone (Props/ConcurrentBinary.lean; Spec/ConcurrentBinary.lean). A tree of a process on the tape of its answered calls keeps the peaks of its own leaves in memory, and all records of its tree were written by the process itself (Sturdy); a push is simulated by one on a private map whose failures are those of the tape (Blamed), a proof follows a successful one on that map except where a read of the process is to blame (Mild). Since the trees never remove, a map keeps what was written (Kept). |
| C104 | What the calls hash: which messages and how many | C104_binary_same, C104_sum_same, C104_sparse_same, C104_nothing_else, C104_one_per_write, C104_binary_cost, C104_binary_total, C104_sum_cost, C104_sparse_cost, C104_kinds and C104_verify (Props/Metered.lean; Model/Metered.lean, Spec/Metered.lean). Relational logics over the structure of the programs: Erases (forgetting the record), Paid and Within (messages against storage calls), Few (a bound), Needs (two runs with hash functions that agree on the record). The counts for n leaves follow with C16 and C65. |
| C105 | No process waits for another: bounded work on a shared storage | C105_sparse, C105_binary, C105_binary_calls, C105_sum and C105_returns (Props/Progress.lean; Spec/Progress.lean). A program that makes at most n storage calls on every storage makes at most n when its calls are answered by an office: the answers it was given are used as the script of a storage of its own, and the replay (Proofs/Replay.lean) shows that it makes the same calls there. The bounds of the programs are amortised: the calls of a push are paid for by the subtrees in memory that it removes; heights of the subtrees of a sum tree grow, so that there are at most 64 of them. |
| C106 | Users who react: requests given to processes at any moment | C106_sparse_fixed, C106_binary_fixed, C106_calls_fixed, C106_sum_fixed (1), C106_*_stays, C106_calls_stay (2), C106_binary_right, C106_binary_succeeds, C106_calls_fair, C106_sum_own, C106_sparse_right (3), C106_sparse_handover, C106_binary_handover (4) (Props/ConcurrentUsers.lean; Spec/ConcurrentUsers.lean: Happening, Hall). A process that waits for the storage makes the same call whatever requests are added to its list, so that by induction on what happens every turn that was used is the same with the final lists; a request that was answered is answered in the same way when more storage calls have been answered, since a program that does not wait has used a prefix of the answers. |
| C107 | Memory: how many nodes a tree keeps | The heights of the nodes a binary tree adds are strictly increasing whatever the storage holds, because a join takes two nodes of equal height and the parent is one higher (in every profile, but for the largest height, which only the last node can have), and heights are at most 64. With records that name their keys the sizes of the kept subtrees are distinct powers of two with sum at most the count (from C92); for sum trees from the exact machine of C83. Chains via C63. |
| C108 | Separate tables: other things happening to the storage | A run with things happening in between is a run without them on another storage: pairs of a state and the list of changes still to come, one before each call. That storage answers like a map, or never makes up a record, if every change leaves the table alone, or brings up no record; so C94, C98 and C100 apply to it. A turn of another table is such a change because the tables are separate. At any moment (`C108_so_far`, `C108_each_so_far`): the storage calls answered so far are compared with those of the first j calls alone, by induction on the turns; as soon as these are through, what comes later does not matter. (9): the bounds of C105, through the same storage of pairs. |
| C109 | Proofs against a root of unknown origin | climbing is injective up to a collision (induction on the path); for all leaves, induction on the shape of the tree: all climbs end with one and the same message |
| C110 | Proofs kept by clients while the tree grows | `auditPath_block` (`Proofs/CachedProof.lean`): by strong induction on the length of the list, the audit path of a leaf is the audit path inside its full aligned block followed by a rest, and the first element of the rest is the hash of a list of 2^k leaves exactly if the next block is full. With `prove_spec` (C03) and `mth_commits` (C07) for the change. |
| C111 | Pruning the storage of a binary tree | Every record `prove` reads for leaf i is that of a subtree whose parent block ends behind i (`shapePath_sides'`), so for i at least n it was a peak at n or was written later (`mem_peakRanges`, `Kept.wr_all`); `prove_needed` is C03 with these records only. Pushes read nothing (C08). |
| C112 | Going on with a tree from the proof of its last leaf | `auditPath_last`: strong induction on the number of leaves along the recursion of `peakRanges`. An accepted proof is the right one or there is a collision (C79), so the filed records are those that C111 needs. |
| C113 | A call of the sparse tree from a few handed over records | From C85: the machine says which records are looked for; the handed over ones contain them, and those left out are never asked for. `load` reads only the record of the root. |

All properties are proved in full; none is partial and none is inexpressible. Where the first draft of a
property turned out false (section 5), the statement was amended to what holds and the deviation was
proved as a theorem of its own. The suffix `_partial` is therefore not used.

## 7. Theorems and the axioms they depend on

P = `propext`, C = `Classical.choice`, Q = `Quot.sound`. Produced with `#print axioms`.

| theorem | axioms |
|---|---|
| `C01_binary_root` | C, Q, P |
| `C01_binary_root_sha256` | C, Q, P |
| `C02_binary_empty_root` | C, Q, P |
| `C02_sum_empty_root` | Q, P |
| `C03_binary_proof` | C, Q, P |
| `C04_index_rejected` | Q, P |
| `C04_max_index_panics` | Q, P |
| `C04_max_index_wraps` | C, Q, P |
| `C05_generated_proofs_verify` | C, Q, P |
| `C06_accepted_proofs_sound` | C, Q, P |
| `C06_length_not_checked` | C, Q, P |
| `C07_root_commits` | C, Q, P |
| `C07_root_commits_sha256` | C, Q, P |
| `C08_storage_contents` | C, Q, P |
| `C09_load_restores` | C, Q, P |
| `C10_load_prefix` | C, Q, P |
| `C10_load_prefix_root` | C, Q, P |
| `C11_load_missing` | C, Q, P |
| `C11_load_panics_beyond` | C, Q, P |
| `C12_interrupted_push` | C, Q, P |
| `C12_push_error_is_storage_error` | C, Q, P |
| `C13_failed_push_changes_root` | Q, P |
| `C13_failed_push` | C, Q, P |
| `C14_prove_pure` | C, Q, P |
| `C14_observations_invisible` | C, Q, P |
| `C15_records_immutable` | C, Q, P |
| `C15_records_immutable_crash` | C, Q, P |
| `C16_storage_growth` | C, Q, P |
| `C17_acknowledged_survive` | C, Q, P |
| `C17_reopen_succeeds` | C, Q, P |
| `C18_in_order` | C, Q, P |
| `C18_height` | Q, P |
| `C18_leaf` | C, Q, P |
| `C19_parent_of_children` | C, Q, P |
| `C19_child_of_parent` | C, Q, P |
| `C20_sibling` | C, Q, P |
| `C20_uncle` | C, Q, P |
| `C21_leaf_index_round_trip` | C, Q, P |
| `C21_leaves` | Q, P |
| `C21_leaf_index_overflow` | Q, P |
| `C22_parent` | C, Q, P |
| `C22_sibling` | C, Q, P |
| `C22_children` | C, Q, P |
| `C22_wrapping` | P |
| `C22_path_panics_beyond` | C, Q, P |
| `C23_path_iteration` | C, Q, P |
| `C24_position_path` | C, Q, P |
| `C25_peaks` | C, Q, P |
| `C25_peaks_cover` | C, Q, P |
| `C26_bit_addressing` | Q, P |
| `C27_common_prefix` | Q, P |
| `C28_root_of_history` | C, Q, P |
| `C28_root_canonical` | C, Q, P |
| `C28_updates_clean` | P |
| `C28_stale_delete_loses_key` | C, Q, P |
| `C29_same_state_same_root` | C, Q, P |
| `C29_same_map_same_root` | C, Q, P |
| `C29_update_order` | C, Q, P |
| `C30_delete_present` | C, Q, P |
| `C30_delete_present_clean` | C, Q, P |
| `C30_insert_delete` | C, Q, P |
| `C30_zero_key_undeletable` | C, Q, P |
| `C31_delete_never_stored` | C, Q, P |
| `C31_delete_stale` | C, Q, P |
| `C32_update_overwrites` | C, Q, P |
| `C32_update_idempotent` | C, Q, P |
| `C33_update_empty` | Q, P |
| `C33_in_histories` | Q, P |
| `C34_zero_root` | C, Q, P |
| `C34_zero_root_clean` | C, Q, P |
| `C35_load_current` | C, Q, P |
| `C35_load_empty` | C, Q, P |
| `C35_load_empty_resurrects` | C, Q, P |
| `C36_load_error` | P |
| `C36_deserialize_error` | Q, P |
| `C36_storage_error` | Q, P |
| `C36_load_total` | Q, P |
| `C37_old_root` | C, Q, P |
| `C38_failed_call_keeps_root` | Q, P |
| `C38_interrupted_updates` | C, Q, P |
| `C39_root_after_failures` | C, Q, P |
| `C39_interrupted_delete_loses_root` | Q, P |
| `C39_interrupted_delete_loses_node` | Q, P |
| `C40_root_commits` | C, Q, P |
| `C40_equal_roots` | C, Q, P |
| `C41_delete_leaf_hash` | C, Q, P |
| `C41_delete_root_panics` | C, Q, P |
| `C41_update_leaf_hash_loses_key` | Q, P |
| `C42_never_panics` | C, Q, P |
| `C42_load_never_panics` | Q, P |
| `C43_sparse_round_trip` | none |
| `C43_sparse_decode` | P |
| `C43_binary_round_trip` | none |
| `C44_update_records` | C, Q, P |
| `C44_delete_keeps_records` | C, Q, P |
| `C44_residue` | C, Q, P |
| `C45_sum_root` | C, Q, P |
| `C45_sum_root_sha256` | C, Q, P |
| `C46_overflow_panics` | C, Q, P |
| `C46_overflow_wraps` | C, Q, P |
| `C47_sum_root_commits` | C, Q, P |
| `C47_tree_roots_commit` | C, Q, P |
| `C47_reported_roots_commit` | C, Q, P |
| `C47_reported_roots_commit_sha256` | C, Q, P |
| `C48_histories` | C, Q, P |
| `C48_root_keeps_tree` | Q, P |
| `C49_storage_walk` | C, Q, P |
| `C50_failed_push` | C, Q, P |
| `C50_failed_push_changes_root` | Q, P |
| `C51_map_laws` | Q, P |
| `C51_frame` | Q, P |
| `C52_same_root` | C, Q, P |
| `C52_same_proof` | C, Q, P |
| `C52_missing_index` | C, Q, P |
| `C52_proof_index_first` | C, Q, P |
| `C53_binary_in_memory` | C, Q, P |
| `C53_binary_in_memory_prove` | C, Q, P |
| `C53_sparse_in_memory` | C, Q, P |
| `C53_pass_through` | Q, P |
| `C54_filed` | C, Q, P |
| `C54_load_root` | P |
| `C54_load_key` | C, Q, P |
| `C55_updates_keep_records` | C, Q, P |
| `C56_update_cost` | C, Q, P |
| `C56_delete_cost` | C, Q, P |
| `C57_sessions_safe` | C, Q, P |
| `C57_sessions_live` | C, Q, P |
| `C58_success_is_complete` | Q, P |
| `C58_error_reported_or_inherent` | Q, P |
| `C58_errors_from_storage` | C, Q, P |
| `C59_restarts_silently` | C, Q, P |
| `C59_overwrites_records` | C, Q, P |
| `C59_retry_example` | Q, P |
| `C59_sum_restarts` | C, Q, P |
| `C60_binary` | Q, P |
| `C60_binary_load` | Q, P |
| `C60_sum` | Q, P |
| `C60_sparse` | Q, P |
| `C60_in_memory` | Q, P |
| `C60_positions` | Q, P |
| `C60_helpers` | Q, P |
| `C60_differ` | Q, P |
| `C61_new_tree_sound` | C, Q, P |
| `C61_delete_unloads` | C, Q, P |
| `C61_delete_breaks_other_trees` | Q, P |
| `C62_path` | C, Q, P |
| `C62_too_high` | C, Q, P |
| `C62_unique` | C, Q, P |
| `C63_binary_histories` | C, Q, P |
| `C63_binary_same` | C, Q, P |
| `C63_binary_load` | Q, P |
| `C63_sum_histories` | C, Q, P |
| `C63_sum_same` | C, Q, P |
| `C63_subtree` | P |
| `C63_plain_storage` | Q, P |
| `C64_binary_call` | Q, P |
| `C64_binary_load` | Q, P |
| `C64_sum_call` | Q, P |
| `C64_binary_reachable` | C, Q, P |
| `C64_sum_reachable` | C, Q, P |
| `C64_sum_root_retry` | C, Q, P |
| `C65_prove_reads` | Q, P |
| `C65_load_reads` | C, Q, P |
| `C65_push_writes` | C, Q, P |
| `C65_sum_push_writes` | C, Q, P |
| `C65_sum_root_writes` | C, Q, P |
| `C66_membership_any_count` | C, Q, P |
| `C66_only_directions` | C, Q, P |
| `C66_last_leaf_same` | C, Q, P |
| `C66_last_leaf_any_odd_count` | C, Q, P |
| `C67_sum_leaf_is_binary_leaf` | C, Q, P |
| `C67_shaped_sparse_is_binary` | C, Q, P |
| `C67_full_is_shaped` | C, Q, P |
| `C67_sum_binary` | C, Q, P |
| `C67_sum_binary_trees` | C, Q, P |
| `C67_sum_sparse` | C, Q, P |
| `C67_sparse_binary` | C, Q, P |
| `C68_agreeing_trees` | C, Q, P |
| `C68_sum_trees_independent` | C, Q, P |
| `C68_sum_trees_keep_records` | C, Q, P |
| `C68_disagreeing_trees` | Q, P |
| `C69_values_round_trip` | P |
| `C69_standard_codecs` | C, Q, P |
| `C69_proof_test_verdict` | Q, P |
| `C69_written_tests_pass` | C, Q, P |
| `C69_written_negative_tests_pass` | C, Q, P |
| `C69_sparse_test_passes_iff` | Q, P |
| `C69_sparse_test_verdict` | C, Q, P |
| `C69_sparse_bad_step` | C, Q, P |
| `C70_rejected_at_once` | Q, P |
| `C70_answers_below` | C, Q, P |
| `C70_unchecked_answers` | C, Q, P |
| `C70_checked_panics_iff` | C, Q, P |
| `C70_builds_agree` | C, Q, P |
| `C70_lower_half_lost` | C, Q, P |
| `C70_any_proof_crashes` | C, Q, P |
| `C71_calls_of_one` | C, Q, P |
| `C71_calls_of_history` | C, Q, P |
| `C71_short_paths` | Q, P |
| `C72_binary` | Q, P |
| `C72_binary_load` | Q, P |
| `C72_sum` | Q |
| `C72_sparse` | Q, P |
| `C72_in_memory` | Q, P |
| `C72_helpers` | Q, P |
| `C73_leaf_below_root` | C, Q, P |
| `C73_any_root` | C, Q, P |
| `C73_missing_leaf` | C, Q, P |
| `C73_counts` | C, Q, P |
| `C73_not_a_leaf` | C, Q, P |
| `C73_ends` | C, Q, P |
| `C74_checked` | C, Q, P |
| `C74_unchecked` | C, Q, P |
| `C74_max` | Q, P |
| `C74_unchecked_goes_on` | C, Q, P |
| `C75_sparse_prints` | C, Q, P |
| `C75_sparse_text` | C, Q, P |
| `C75_binary_text` | C, Q, P |
| `C75_sum_prints` | C, Q, P |
| `C75_sum_reachable` | C, Q, P |
| `C75_sum_text` | C, Q, P |
| `C75_binary_messages` | C, Q, P |
| `C75_sparse_messages` | C, Q, P |
| `C75_sparse_shows` | C, Q, P |
| `C75_binary_shows` | C, Q, P |
| `C75_sum_shows` | C, Q, P |
| `C75_messages` | C, Q, P |
| `C76_branch_loads` | C, Q, P |
| `C76_branch_update` | C, Q, P |
| `C76_branch_fork_corrupts` | Q, P |
| `C76_branch_fork` | C, Q, P |
| `C76_fork_of_no_map` | C, Q, P |
| `C76_branch_delete` | C, Q, P |
| `C76_branch_delete_breaks` | C, Q, P |
| `C76_branch_delete_breaks_sha256` | Q, P |
| `C77_writes_name_their_keys` | C, Q, P |
| `C77_loaded_root` | C, Q, P |
| `C77_checked_root` | C, Q, P |
| `C77_positions_trusted` | Q, P |
| `C77_positions_panic` | C, Q, P |
| `C78_roots_right` | C, Q, P |
| `C78_reopened_root` | C, Q, P |
| `C78_lost_record_delete` | Q, P |
| `C79_proof_length` | C, Q, P |
| `C79_length_bounds` | C, Q, P |
| `C79_audit_path_length` | C, Q, P |
| `C79_length_checked` | C, Q, P |
| `C79_proof_unique` | C, Q, P |
| `C80_sound_storage` | C, Q, P |
| `C80_check` | P |
| `C80_loaded_root` | P |
| `C80_root_check` | P |
| `C80_leaf_trusted` | Q, P |
| `C80_height_trusted` | Q, P |
| `C81_contents` | C, Q, P |
| `C81_new` | C, Q, P |
| `C81_failing` | C, Q, P |
| `C82_roots` | C, Q, P |
| `C82_considerate` | C, Q, P |
| `C82_damage` | C, Q, P |
| `C83_machine` | C, Q, P |
| `C83_contents` | C, Q, P |
| `C83_failures` | C, Q, P |
| `C84_machine` | C, Q, P |
| `C84_failures` | C, Q, P |
| `C84_prove_panics` | C, Q, P |
| `C85_machine` | C, Q, P |
| `C85_new` | C, Q, P |
| `C86_linked` | C, Q, P |
| `C86_complete` | C, Q, P |
| `C86_resume` | C, Q, P |
| `C86_new` | C, Q, P |
| `C87_visits` | C, Q, P |
| `C87_empty` | Q, P |
| `C87_load` | C, Q, P |
| `C87_found` | C, Q, P |
| `C87_mixed` | Q, P |
| `C88_open` | C, Q, P |
| `C88_pushed` | C, Q, P |
| `C88_intact` | C, Q, P |
| `C89_linked` | Q, P |
| `C89_root_stored` | Q, P |
| `C89_found` | C, Q, P |
| `C89_returned` | C, Q, P |
| `C90_exact` | C, Q, P |
| `C90_linked` | Q, P |
| `C90_found` | C, Q, P |
| `C90_returned` | C, Q, P |
| `C91_exact` | C, Q, P |
| `C91_roots` | C, Q, P |
| `C91_contents` | C, Q, P |
| `C91_prove` | C, Q, P |
| `C91_foreign_leaf` | C, Q, P |
| `C92_exact` | C, Q, P |
| `C92_root` | P |
| `C92_panics` | C, Q, P |
| `C92_reliable` | C, Q, P |
| `C93_exact` | C, Q, P |
| `C93_errors` | C, Q, P |
| `C93_works` | C, Q, P |
| `C93_updates` | C, Q, P |
| `C94_binary` | C, Q, P |
| `C94_binary_root` | C, Q, P |
| `C94_binary_proof` | C, Q, P |
| `C94_sum` | C, Q, P |
| `C94_sum_root` | C, Q, P |
| `C94_sparse` | C, Q, P |
| `C94_sparse_root` | C, Q, P |
| `C95_binary` | Q, P |
| `C95_binary_root` | C, Q, P |
| `C95_binary_prove` | C, Q, P |
| `C95_sum` | Q, P |
| `C95_sum_root` | C, Q, P |
| `C95_sparse` | C, Q, P |
| `C96_right` | C, Q, P |
| `C96_fair` | C, Q, P |
| `C96_fresh` | Q, P |
| `C96_mapLike` | C, Q, P |
| `C97_right` | C, Q, P |
| `C97_trusted` | C, Q, P |
| `C97_fresh` | Q, P |
| `C97_replies` | Q, P |
| `C98_right` | C, Q, P |
| `C98_alone` | Q, P |
| `C99_right` | C, Q, P |
| `C99_alone` | Q, P |
| `C99_all` | C, Q, P |
| `C100_succeeds` | C, Q, P |
| `C100_working` | C, Q, P |
| `C100_visible` | C, Q, P |
| `C100_handover` | C, Q, P |
| `C100_fresh` | Q, P |
| `C101_succeeds` | C, Q, P |
| `C101_working` | C, Q, P |
| `C101_visible` | C, Q, P |
| `C101_handover` | C, Q, P |
| `C101_fresh` | Q, P |
| `C102_own` | C, Q, P |
| `C102_right` | C, Q, P |
| `C102_working` | Q, P |
| `C102_end` | C, Q, P |
| `C102_linked` | C, Q, P |
| `C102_found` | C, Q, P |
| `C102_returned` | C, Q, P |
| `C102_alone` | C, Q, P |
| `C103_fair` | C, Q, P |
| `C103_kept` | Q, P |
| `C103_plain` | C, Q, P |
| `C103_end` | Q, P |
| `C103_alone` | Q, P |
| `C104_binary_same` | Q, P |
| `C104_sum_same` | Q |
| `C104_sparse_same` | Q, P |
| `C104_one_per_write` | Q, P |
| `C104_binary_cost` | C, Q, P |
| `C104_binary_total` | C, Q, P |
| `C104_sum_cost` | C, Q, P |
| `C104_sparse_cost` | C, Q, P |
| `C104_kinds` | Q, P |
| `C104_nothing_else` | Q, P |
| `C104_verify` | C, Q, P |
| `C105_sparse` | C, Q, P |
| `C105_binary` | C, Q, P |
| `C105_binary_calls` | C, Q, P |
| `C105_sum` | C, Q, P |
| `C105_returns` | C, Q, P |
| `C106_sparse_fixed` | Q, P |
| `C106_binary_fixed` | Q, P |
| `C106_calls_fixed` | Q, P |
| `C106_sum_fixed` | Q, P |
| `C106_sparse_stays` | C, Q, P |
| `C106_binary_stays` | C, Q, P |
| `C106_calls_stay` | C, Q, P |
| `C106_sum_stays` | C, Q, P |
| `C106_binary_right` | C, Q, P |
| `C106_binary_succeeds` | C, Q, P |
| `C106_binary_handover` | C, Q, P |
| `C106_calls_fair` | C, Q, P |
| `C106_sum_own` | C, Q, P |
| `C106_sparse_right` | C, Q, P |
| `C106_sparse_handover` | C, Q, P |
| `C107_binary` | C, Q, P |
| `C107_binary_exact` | C, Q, P |
| `C107_binary_load` | C, Q, P |
| `C107_binary_any` | C, Q, P |
| `C107_binary_new` | C, Q, P |
| `C107_scratch` | C, Q, P |
| `C107_sum` | C, Q, P |
| `C107_sum_exact` | C, Q, P |
| `C107_chains` | C, Q, P |
| `C107_sparse` | C, Q, P |
| `C108_own` | Q, P |
| `C108_trusted` | C, Q, P |
| `C108_alone` | C, Q, P |
| `C108_shared` | C, Q, P |
| `C108_right` | C, Q, P |
| `C108_tables` | P |
| `C108_each` | C, Q, P |
| `C108_so_far` | C, Q, P |
| `C108_each_so_far` | C, Q, P |
| `C108_through` | C, Q, P |
| `C108_each_done` | C, Q, P |
| `C109_same_length` | C, Q, P |
| `C109_one_leaf` | C, Q, P |
| `C109_two_leaves` | C, Q, P |
| `C109_all_leaves` | C, Q, P |
| `C109_one_list` | C, Q, P |
| `C110_kept` | C, Q, P |
| `C110_session` | C, Q, P |
| `C110_changed` | C, Q, P |
| `C110_perfect` | C, Q, P |
| `C111_pruned` | C, Q, P |
| `C111_failing` | C, Q, P |
| `C111_what_to_keep` | C, Q, P |
| `C112_last_proof` | C, Q, P |
| `C112_start` | C, Q, P |
| `C113_exact` | C, Q, P |
| `C113_few_records` | C, Q, P |
| `C113_whole` | C, Q, P |
| `C113_how_few` | Q, P |
| `C113_client` | C, Q, P |

## 8. Seeded bugs

Each line of `seeded/LOG.jsonl` is one edit of the model, made in a scratch copy, followed by a rebuild.
`definition`, `edit`, `claim` say what was changed and which English claim is thereby false. `theorems_failed`
are the property theorems no longer proved: those whose own proof fails and those that use a lemma that
fails. `lemmas_failed` are the declarations where Lean reported the errors. `theorems_tightened` are the
theorems strengthened because the edit had not been noticed. An edit that does not change behaviour
(marked as equivalent in the note) is expected to break nothing but perhaps proof scripts.
