import Verif.Model.PathIter

/-
Path iteration over a user's own node type: the traits `Node`, `ParentNode` and
`AsPathIterator` are public (`/repo/src/common.rs:13-14`).
-/
namespace FuelMerkle

/-- A user's implementation of `Node` and `ParentNode` (`src/common/node.rs:3-24`) by functions
that do not panic. `keySizeInBits` may be anything (it is a provided method, lines 6-8, which a
user may override). A key is a byte array `[u8; N]` of any length, the only keys that have a path
(`src/common/path.rs:25-32`, `src/common/msb.rs:31-54`). `Clone` is taken to copy the node. -/
structure UserNode (T C : Type) where
  keySizeInBits : Nat
  height : T → Nat
  leafKey : T → Bytes
  isNode : T → Bool
  leftChild : T → Except C T
  rightChild : T → Except C T

variable {T C : Type}

/-- The implementation, as the iterator sees it. -/
def UserNode.ops (u : UserNode T C) : ParentNode Res T C where
  keySizeInBits := u.keySizeInBits
  height := u.height
  leafKey := fun t => .ok (u.leafKey t)
  isNode := u.isNode
  leftChild := fun t => .ok (u.leftChild t)
  rightChild := fun t => .ok (u.rightChild t)
  lift := fun x => x

/-- Calling `next` (`src/common/path_iterator.rs:152-178`) `calls` times: the answers, and the
iterator afterwards. -/
def PathIter.answers (u : UserNode T C) : (calls : Nat) → PathIter T C → Res (List (Option (Except C T × Except C T)) × PathIter T C)
  | 0, it => .ok ([], it)
  | n + 1, it => do
    let (v, it) ← it.next u.ops
    let (vs, it) ← PathIter.answers u n it
    return (v :: vs, it)

/-- `root.as_path_iter(leaf)` (`src/common/path_iterator.rs:185-192`) followed by that many calls
of `next`. -/
def UserNode.path (u : UserNode T C) (p : Profile) (root leaf : T) (calls : Nat) : Res (List (Option (Except C T × Except C T))) := do
  let it ← PathIter.new u.ops p root leaf
  let (vs, _) ← it.answers u calls
  return vs

end FuelMerkle
