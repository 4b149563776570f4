import Verif.Model.InMemory
import Verif.Spec.BinaryApi
import Verif.Spec.SparseApi

/-
Histories of calls on the in-memory trees.
-/
namespace FuelMerkle

/-- Pushes on a binary in-memory tree. -/
def Binary.InMemory.pushAll (p : Profile) (H : HashFn) : Binary.InMemory.T → List Bytes → Res Binary.InMemory.T
  | t, [] => .ok t
  | t, d :: ds => do
    let t ← Binary.InMemory.push p H t d
    pushAll p H t ds

/-- A call on a sparse in-memory tree. -/
def Sparse.InMemory.op (p : Profile) (H : HashFn) (t : Sparse.InMemory.T) : Sparse.Op → Res Sparse.InMemory.T
  | .update k d => Sparse.InMemory.update p H t k d
  | .delete k => Sparse.InMemory.delete p H t k

/-- Calls on a sparse in-memory tree. -/
def Sparse.InMemory.runAll (p : Profile) (H : HashFn) : Sparse.InMemory.T → List Sparse.Op → Res Sparse.InMemory.T
  | t, [] => .ok t
  | t, op :: ops => do
    let t ← Sparse.InMemory.op p H t op
    runAll p H t ops

end FuelMerkle
