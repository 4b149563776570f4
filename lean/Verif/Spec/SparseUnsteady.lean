import Verif.Spec.SparseStorage

/-
Sparse trees on storage that does not keep what it was given: between calls it may lose records
or bring back older ones. Used in the statements of the properties.
-/
namespace FuelMerkle
namespace Sparse
open Spec
variable {E : Type}

/-- A process and its storage: every record the storage ever held (between calls), the calls
made so far, the open tree and the map it should have. -/
structure Setting (E : Type) where
  held : Bytes32 → Prim → Prop
  acks : List (Ack E)
  kv : Entries Bytes
  tree : Tree E

/-- The setting after a call. -/
def Setting.call (p : Profile) (H : HashFn) (op : Op) (w : Setting E) : Setting E :=
  let (r, t) := op.run p H w.tree
  let e : Event E := ⟨op, (w.tree.storage.map op.key).isSome, r⟩
  ⟨fun k q => w.held k q ∨ t.storage.map k = some q, w.acks ++ [⟨e, w.kv, t.root H, e.effect w.kv⟩], e.effect w.kv, t⟩

/-- The settings that can arise from an empty storage. -/
inductive Arises (p : Profile) (H : HashFn) : Setting E → Prop
  /-- A new tree on an empty storage. -/
  | start (s : SpStore E) (h : ∀ k, s.map k = none) : Arises p H ⟨fun _ _ => False, [], [], Tree.new s⟩
  /-- A call. -/
  | call (w : Setting E) (op : Op) (h : Arises p H w) : Arises p H (w.call p H op)
  /-- The storage becomes any storage holding, under every key, nothing or something it held
  there before: records are lost, some or all of it is rolled back, it starts or stops
  failing. -/
  | change (w : Setting E) (s : SpStore E) (hs : ∀ k q, s.map k = some q → w.held k q) (h : Arises p H w) :
      Arises p H { w with tree := { w.tree with storage := s } }
  /-- A new tree is opened on the storage. -/
  | fresh (w : Setting E) (h : Arises p H w) : Arises p H { w with kv := [], tree := Tree.new w.tree.storage }
  /-- A root reported by some earlier call, not that of the empty tree, is loaded. -/
  | reopen (w : Setting E) (a : Ack E) (ha : a ∈ w.acks) (hr : a.root ≠ zero32) (t : Tree E) (s : SpStore E)
      (hl : Tree.load w.tree.storage a.root = (.ok t, s)) (h : Arises p H w) : Arises p H { w with kv := a.after, tree := t }

end Sparse
end FuelMerkle
