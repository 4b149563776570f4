import Verif.Model.Msb
import Verif.Model.Position

/-
Path iteration: `/repo/src/common/node.rs`, `/repo/src/common/path_iterator.rs`,
`/repo/src/common/position_path.rs`.
-/
namespace FuelMerkle

/-- `ChildError` (`src/common/node.rs:31-38`). -/
inductive ChildError (Key E : Type) where
  | childNotFound (key : Key)
  | nodeIsLeaf
  | error (e : E)
deriving DecidableEq, Repr

/-- The traits `Node` and `ParentNode` (`src/common/node.rs:3-24`) as seen by the path
iterator, for nodes of type `T` whose children are computed in the monad `m`
(`m` carries panics and, for storage nodes, the storage). `C` is the child error.
`leafKey` is the key as a byte array (`Self::Key` is `Bytes8` or `Bytes32`). -/
structure ParentNode (m : Type → Type) (T C : Type) where
  keySizeInBits : Nat
  height : T → Nat
  leafKey : T → m Bytes
  isNode : T → Bool
  leftChild : T → m (Except C T)
  rightChild : T → m (Except C T)
  /-- panics of the surrounding code -/
  lift : {α : Type} → Res α → m α

/-- `struct PathIter` (`src/common/path_iterator.rs:79-83`). -/
structure PathIter (T C : Type) where
  leaf : T
  current : Option (Except C T × Except C T)
  currentOffset : Nat

namespace PathIter
variable {m : Type → Type} [Monad m] {T C : Type}

/-- `PathIter::new` (`src/common/path_iterator.rs:89-141`). -/
def new (ops : ParentNode m T C) (p : Profile) (root leaf : T) : m (PathIter T C) := do
  let initial := (Except.ok root, Except.ok root)
  let initialOffset ← ops.lift (usizeSub p ops.keySizeInBits (ops.height root))
  return { leaf := leaf, current := some initial, currentOffset := initialOffset }

/-- `Iterator::next` (`src/common/path_iterator.rs:152-178`). -/
def next (ops : ParentNode m T C) (it : PathIter T C) :
    m (Option (Except C T × Except C T) × PathIter T C) := do
  let value := it.current
  match it.current with
  | some (.ok pathNode, _) =>
    if ops.isNode pathNode then do
      let path ← ops.leafKey it.leaf
      match getInstruction path it.currentOffset with
      | some .left => do
        let l ← ops.leftChild pathNode
        let r ← ops.rightChild pathNode
        return (value, { it with current := some (l, r), currentOffset := it.currentOffset + 1 })
      | some .right => do
        let r ← ops.rightChild pathNode
        let l ← ops.leftChild pathNode
        return (value, { it with current := some (r, l), currentOffset := it.currentOffset + 1 })
      | none => return (value, { it with current := none })
    else return (value, { it with current := none })
  | some (.error _, _) => return (value, { it with current := none })
  | none => return (value, it)

/-- Fuel that suffices to exhaust a path iterator: one item per remaining key bit, the
first item, and the final `None`. -/
def fuel (ops : ParentNode m T C) : Nat := ops.keySizeInBits + 2

end PathIter

/-! ### Positions as path nodes -/

/-- `impl Node for Position` and `impl ParentNode for Position`
(`src/common/position.rs:249-279`; `Error = Infallible`, so the child error type is
empty). `Bytes8` has 64 bits. -/
def positionNode (p : Profile) : ParentNode Res Position Empty where
  keySizeInBits := 64
  height := Position.height
  leafKey := fun x => do
    let i ← x.leafIndex
    return u64ToBeBytes i
  isNode := Position.isNode
  leftChild := fun x => do
    let c ← x.leftChild p
    return .ok c
  rightChild := fun x => do
    let c ← x.rightChild p
    return .ok c
  lift := fun x => x

/-- `as_path_iter` on positions, run to the end (`src/common/path_iterator.rs:185-192`
and the iteration protocol): the list of (path, side) items. -/
def PathIter.collectPositions (p : Profile) :
    (fuel : Nat) → PathIter Position Empty → Res (List (Position × Position))
  | 0, _ => .error .diverges
  | fuel + 1, it => do
    let (v, it') ← it.next (positionNode p)
    match v with
    | none => return []
    | some (.ok a, .ok b) => do
      let rest ← collectPositions p fuel it'
      return (a, b) :: rest

/-- `root.as_path_iter(leaf)` collected. -/
def asPathIterList (p : Profile) (root leaf : Position) : Res (List (Position × Position)) := do
  let it ← PathIter.new (positionNode p) p root leaf
  it.collectPositions p (PathIter.fuel (positionNode p))

/-- `struct PositionPathIter` (`src/common/position_path.rs:40-44`). -/
structure PositionPathIter where
  rightmostPosition : Position
  currentSideNode : Option Position
  pathIter : PathIter Position Empty

namespace PositionPathIter

/-- `PositionPathIter::new` (`src/common/position_path.rs:47-53`). -/
def new (p : Profile) (root leaf : Position) (leavesCount : Nat) : Res PositionPathIter := do
  let last ← u64Sub p leavesCount 1
  let rightmost ← Position.fromLeafIndex p last
  let it ← PathIter.new (positionNode p) p root leaf
  return { rightmostPosition := rightmost, currentSideNode := none, pathIter := it }

/-- The `while` loop that descends leftwards from an invalid side node
(`src/common/position_path.rs:98-100`). The height drops at each step. -/
def descendLeft (p : Profile) (rightmost : Position) : (fuel : Nat) → Position → Res Position
  | 0, _ => .error .diverges
  | fuel + 1, side =>
    if side.inOrderIndex > rightmost.inOrderIndex then do
      let c ← side.leftChild p
      descendLeft p rightmost fuel c
    else return side

/-- `Iterator::next` (`src/common/position_path.rs:59-113`); the recursion is the `for`
loop over the inner iterator. -/
def next (p : Profile) :
    (fuel : Nat) → PositionPathIter → Res (Option (Position × Position) × PositionPathIter)
  | 0, _ => .error .diverges
  | fuel + 1, st => do
    let (v, it') ← st.pathIter.next (positionNode p)
    let st := { st with pathIter := it' }
    match v with
    | none => return (none, st)
    | some (.ok path, .ok side) =>
      if path.inOrderIndex ≤ st.rightmostPosition.inOrderIndex then do
        let side0 := match st.currentSideNode with
          | some node => node
          | none => side
        let side' ← descendLeft p st.rightmostPosition 66 side0
        return (some (path, side'), { st with currentSideNode := none })
      else
        let st := if st.currentSideNode.isNone then { st with currentSideNode := some side } else st
        next p fuel st

/-- The items of the iterator, in order. -/
def collect (p : Profile) : (fuel : Nat) → PositionPathIter → Res (List (Position × Position))
  | 0, _ => .error .diverges
  | fuel + 1, st => do
    let (v, st') ← next p (PathIter.fuel (positionNode p)) st
    match v with
    | none => return []
    | some x => do
      let rest ← collect p fuel st'
      return x :: rest

end PositionPathIter

/-- `root.path(leaf, leaves_count).iter()` collected (`src/common/position.rs:193-195`,
`src/common/position_path.rs:26-38`). -/
def Position.pathList (p : Profile) (root leaf : Position) (leavesCount : Nat) :
    Res (List (Position × Position)) := do
  let it ← PositionPathIter.new p root leaf leavesCount
  it.collect p (PathIter.fuel (positionNode p))

end FuelMerkle
