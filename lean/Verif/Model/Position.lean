import Verif.Model.Basic

/-
Positions: `/repo/src/common/position.rs`.
-/
namespace FuelMerkle

/-- `struct Position(u64)` (`src/common/position.rs:84`). The index is a `u64`; every
operation below keeps it below `2^64`. -/
structure Position where
  index : Nat
deriving DecidableEq, Repr

namespace Position

/-- `in_order_index` (`src/common/position.rs:90-92`). -/
def inOrderIndex (x : Position) : Nat := x.index

/-- `from_in_order_index` (`src/common/position.rs:100-102`). -/
def fromInOrderIndex (index : Nat) : Position := ⟨index⟩

/-- `from_leaf_index` (`src/common/position.rs:106-108`). -/
def fromLeafIndex (p : Profile) (index : Nat) : Res Position := do
  let i ← u64Mul p index 2
  return ⟨i⟩

/-- `height` (`src/common/position.rs:164-166`). -/
def height (x : Position) : Nat := u64TrailingZeros (u64Not x.inOrderIndex)

/-- `is_leaf` (`src/common/position.rs:175-177`). -/
def isLeaf (x : Position) : Bool := x.inOrderIndex % 2 == 0

/-- `is_node` (`src/common/position.rs:185-187`). -/
def isNode (x : Position) : Bool := !x.isLeaf

/-- `leaf_index` (`src/common/position.rs:94-97`). -/
def leafIndex (x : Position) : Res Nat := do
  rassert x.isLeaf
  return x.inOrderIndex / 2

/-- `orientation` (`src/common/position.rs:235-238`). The shift amount `height + 1` is
`u32` arithmetic on a value of at most 65. -/
def orientation (p : Profile) (x : Position) : Res Nat := do
  let shift ← u64Shl1 p (x.height + 1)
  return if x.inOrderIndex &&& shift ≠ 0 then 1 else 0

/-- `direction` (`src/common/position.rs:243-246`). -/
def direction (p : Profile) (x : Position) : Res Int := do
  let o ← x.orientation p
  let scale : Int := (o : Int) * 2 - 1
  return -scale

/-- `sibling` (`src/common/position.rs:112-116`). -/
def sibling (p : Profile) (x : Position) : Res Position := do
  let shift ← i64Shl1 p (x.height + 1)
  let d ← x.direction p
  let delta ← i64Mul p shift d
  let index ← i64Add p (asI64 x.inOrderIndex) delta
  return fromInOrderIndex (asU64 index)

/-- `parent` (`src/common/position.rs:120-124`). -/
def parent (p : Profile) (x : Position) : Res Position := do
  let shift ← i64Shl1 p x.height
  let d ← x.direction p
  let delta ← i64Mul p shift d
  let index ← i64Add p (asI64 x.inOrderIndex) delta
  return fromInOrderIndex (asU64 index)

/-- `uncle` (`src/common/position.rs:129-131`). -/
def uncle (p : Profile) (x : Position) : Res Position := do
  let q ← x.parent p
  q.sibling p

/-- `child` (`src/common/position.rs:209-214`). `height() - 1` cannot underflow because
of the assertion. -/
def child (p : Profile) (x : Position) (direction : Int) : Res Position := do
  rassert x.isNode
  let shift ← i64Shl1 p (x.height - 1)
  let delta ← i64Mul p shift direction
  let index ← i64Add p (asI64 x.inOrderIndex) delta
  return fromInOrderIndex (asU64 index)

/-- `LEFT_CHILD_DIRECTION` (`src/common/position.rs:86`). -/
def leftChildDirection : Int := -1

/-- `RIGHT_CHILD_DIRECTION` (`src/common/position.rs:87`). -/
def rightChildDirection : Int := 1

/-- `left_child` (`src/common/position.rs:135-137`). -/
def leftChild (p : Profile) (x : Position) : Res Position := x.child p leftChildDirection

/-- `right_child` (`src/common/position.rs:141-143`). -/
def rightChild (p : Profile) (x : Position) : Res Position := x.child p rightChildDirection

end Position

/-- `u64::to_be_bytes`. -/
def u64ToBeBytes (x : Nat) : Bytes :=
  (List.range 8).map fun i => UInt8.ofNat (x / 256 ^ (7 - i))

end FuelMerkle
