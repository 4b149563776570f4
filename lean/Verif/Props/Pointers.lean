import Verif.Proofs.Pointers
import Verif.Props.Profiles
import Verif.Props.SparseRoot

/-
C72: 32-bit and 64-bit targets compared. `{ p with pointers := w }` is the build `p` with the
pointer size `w`.
-/
namespace FuelMerkle.Props

variable {E : Type}

/-- **C72**. Histories of calls of the binary tree, from any tree value over any storage, with
any failures of the storage: every result (also an error or a panic), every storage call and the
tree and storage left behind are the same on a 32-bit and on a 64-bit target. -/
theorem C72_binary (p : Profile) (w : Pointers) (H : HashFn) (ops : List Binary.Op) (t : Binary.Tree E) :
    Binary.run { p with pointers := w } H ops t = Binary.run p H ops t := by
  obtain ⟨a, b, v⟩ := p
  have hs : ∀ op (t : Binary.Tree E), Binary.step ⟨a, b, w⟩ H op t = Binary.step ⟨a, b, v⟩ H op t := by
    intro op t
    unfold Binary.step
    cases op with
    | push d => simp only []; rw [Binary.push_ptr a b w v]
    | root => simp only []; rw [Binary.root_ptr a b w v]
    | prove i => simp only []; rw [Binary.prove_ptr a b w v]
  induction ops generalizing t with
  | nil => rfl
  | cons op ops ih =>
    rw [Binary.run, Binary.run, hs]
    simp only [] at ih ⊢
    rw [ih]

/-- Opening a binary tree from any storage at any count. -/
theorem C72_binary_load (p : Profile) (w : Pointers) (s : Binary.BStore E) (n : Nat) :
    Binary.Tree.load { p with pointers := w } s n = Binary.Tree.load p s n := by
  obtain ⟨a, b, v⟩ := p
  exact Binary.load_ptr a b w v s n

/-- Histories of calls of the sum tree. -/
theorem C72_sum (p : Profile) (w : Pointers) (H : HashFn) (ops : List Sum.Op) (t : Sum.Tree E) :
    Sum.run { p with pointers := w } H ops t = Sum.run p H ops t := by
  obtain ⟨a, b, v⟩ := p
  have hs : ∀ op (t : Sum.Tree E), Sum.step ⟨a, b, w⟩ H op t = Sum.step ⟨a, b, v⟩ H op t := by
    intro op t
    unfold Sum.step
    cases op with
    | push fee d => simp only []; rw [Sum.push_ptr a b w v]
    | root => simp only []; rw [Sum.root_ptr a b w v]
  induction ops generalizing t with
  | nil => rfl
  | cons op ops ih =>
    rw [Sum.run, Sum.run, hs]
    simp only [] at ih ⊢
    rw [ih]

/-- Histories of calls of the sparse tree, also over a storage whose records have impossible
heights, where an unchecked subtraction wraps to different values on the two targets. -/
theorem C72_sparse (p : Profile) (w : Pointers) (H : HashFn) (ops : List Sparse.Op) (t : Sparse.Tree E) :
    Sparse.run { p with pointers := w } H ops t = Sparse.run p H ops t := by
  obtain ⟨a, b, v⟩ := p
  have hs : ∀ (op : Sparse.Op) (t : Sparse.Tree E), op.run ⟨a, b, w⟩ H t = op.run ⟨a, b, v⟩ H t := by
    intro op t
    cases op with
    | update k d => exact congrFun (Sparse.update_ptr a b w v H k d) t
    | delete k => exact congrFun (Sparse.delete_ptr a b w v H k) t
  induction ops generalizing t with
  | nil => rfl
  | cons op ops ih =>
    rw [Sparse.run, Sparse.run, hs]
    simp only [] at ih ⊢
    rw [ih]

/-- The in-memory trees. -/
theorem C72_in_memory (p : Profile) (w : Pointers) (H : HashFn) :
    (∀ t d, Binary.InMemory.push { p with pointers := w } H t d = Binary.InMemory.push p H t d) ∧
    (∀ t, Binary.InMemory.root { p with pointers := w } H t = Binary.InMemory.root p H t) ∧
    (∀ t i, Binary.InMemory.prove { p with pointers := w } H t i = Binary.InMemory.prove p H t i) ∧
    (∀ t k d, Sparse.InMemory.update { p with pointers := w } H t k d = Sparse.InMemory.update p H t k d) ∧
    (∀ t k, Sparse.InMemory.delete { p with pointers := w } H t k = Sparse.InMemory.delete p H t k) := by
  obtain ⟨a, b, v⟩ := p
  refine ⟨fun t d => ?_, fun t => Binary.root_ptr a b w v H t, fun t i => ?_, fun t k d => ?_, fun t k => ?_⟩
  · unfold Binary.InMemory.push; rw [Binary.push_ptr a b w v]
  · unfold Binary.InMemory.prove; rw [Binary.prove_ptr a b w v]
  · unfold Sparse.InMemory.update; rw [Sparse.update_ptr a b w v]
  · unfold Sparse.InMemory.delete; rw [Sparse.delete_ptr a b w v]

/-- Position paths, the proof checker of the test helpers and the reference tree. -/
theorem C72_helpers (p : Profile) (w : Pointers) (H : HashFn) :
    (∀ x leaf, asPathIterList { p with pointers := w } x leaf = asPathIterList p x leaf) ∧
    (∀ (x leaf : Position) n, x.pathList { p with pointers := w } leaf n = x.pathList p leaf n) ∧
    (∀ root proof i n, Verify.verify { p with pointers := w } H root proof i n = Verify.verify p H root proof i n) ∧
    (∀ (t : Reference.Tree) d, t.push { p with pointers := w } H d = t.push p H d) ∧
    (∀ t : Reference.Tree, t.root { p with pointers := w } H = t.root p H) ∧
    (∀ t : Reference.Tree, t.prove { p with pointers := w } H = t.prove p H) := by
  obtain ⟨a, b, v⟩ := p
  exact ⟨asPathIterList_ptr a b w v, pathList_ptr a b w v, Verify.verify_ptr a b w v H, Reference.push_ptr a b w v H,
    Reference.root_ptr a b w v H, Reference.prove_ptr a b w v H⟩

/-- A root node whose recorded height no tree has, over a storage that holds nothing. -/
def tallRoot : Sparse.Tree Unit :=
  { rootNode := { height := 300, pfx := .node, bytesLo := keyA, bytesHi := keyB }
    storage := Store.empty }

/-- The case that the theorem about the sparse tree has to settle: the root is higher than a key is
long, the two targets compute different offsets, and an update does the same. -/
example : usizeSub ⟨false, false, .w32⟩ 256 300 = .ok (2 ^ 32 - 44) ∧ usizeSub ⟨false, false, .w64⟩ 256 300 = .ok (2 ^ 64 - 44) ∧
    Sparse.run ⟨false, false, .w32⟩ Sha256.sha256 [.update keyA [1]] tallRoot = Sparse.run ⟨false, false, .w64⟩ Sha256.sha256 [.update keyA [1]] tallRoot :=
  ⟨rfl, rfl, C72_sparse ⟨false, false, .w64⟩ .w32 _ _ _⟩

end FuelMerkle.Props
