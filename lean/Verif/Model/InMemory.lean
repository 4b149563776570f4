import Verif.Model.Binary
import Verif.Model.Sparse

/-
The in-memory wrappers: `/repo/src/binary/in_memory.rs`, `/repo/src/sparse/in_memory.rs`.
Their storage is a `StorageMap`, whose error type is uninhabited.
-/
namespace FuelMerkle

/-- Run a `&mut self` method whose `Result` is discarded with `let _ =`: an `Err` is
swallowed, a panic is not. -/
def discard {σ ε α : Type} (x : Except (Fail ε) α × σ) : Res σ :=
  match x with
  | (.error (.panic q), _) => .error q
  | (_, s) => .ok s

namespace Binary.InMemory

/-- `in_memory::MerkleTree` (`src/binary/in_memory.rs:18-23`). -/
abbrev T := Tree Empty

/-- `new`, `default` (`src/binary/in_memory.rs:26-30, 45-49`). -/
def new : T := Tree.new Store.empty

/-- `push` (`src/binary/in_memory.rs:32-34`). -/
def push (p : Profile) (H : HashFn) (t : T) (data : Bytes) : Res T :=
  discard (Binary.push p H data t)

/-- `root` (`src/binary/in_memory.rs:36-38`). -/
def root (p : Profile) (H : HashFn) (t : T) : Res Bytes32 := t.root p H

/-- `prove` (`src/binary/in_memory.rs:40-42`). -/
def prove (p : Profile) (H : HashFn) (t : T) (proofIndex : Nat) :
    Res (Option (Bytes32 × List Bytes32)) :=
  match (Binary.prove p H proofIndex t).1 with
  | .ok x => .ok (some x)
  | .error (.err _) => .ok none
  | .error (.panic q) => .error q

end Binary.InMemory

namespace Sparse.InMemory

/-- `in_memory::MerkleTree` (`src/sparse/in_memory.rs:18-23`). -/
abbrev T := Tree Empty

/-- `new`, `default` (`src/sparse/in_memory.rs:26-30, 45-49`). -/
def new : T := Tree.new Store.empty

/-- `update` (`src/sparse/in_memory.rs:32-34`). -/
def update (p : Profile) (H : HashFn) (t : T) (key : Bytes32) (data : Bytes) : Res T :=
  discard (Sparse.update p H key data t)

/-- `delete` (`src/sparse/in_memory.rs:36-38`). -/
def delete (p : Profile) (H : HashFn) (t : T) (key : Bytes32) : Res T :=
  discard (Sparse.delete p H key t)

/-- `root` (`src/sparse/in_memory.rs:40-42`). -/
def root (H : HashFn) (t : T) : Bytes32 := t.root H

end Sparse.InMemory
end FuelMerkle
