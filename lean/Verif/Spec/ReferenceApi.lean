import Verif.Model.Reference

/-
Building a reference tree of the test helpers over a list of leaves. Used in the statements
of the properties.
-/
namespace FuelMerkle
namespace Reference

/-- Push a list of leaves, stopping at the first panic. -/
def pushAll (p : Profile) (H : HashFn) : List Bytes → Tree → Res Tree
  | [], t => .ok t
  | d :: ds, t => do
    let t ← t.push p H d
    pushAll p H ds t

/-- A new reference tree that will prove leaf `i`, holding the leaves `ds`. -/
def build (p : Profile) (H : HashFn) (i : Nat) (ds : List Bytes) : Res Tree := do
  let t ← Tree.new.setProofIndex i
  pushAll p H ds t

end Reference
end FuelMerkle
