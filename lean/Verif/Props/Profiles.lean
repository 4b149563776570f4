import Verif.Proofs.Profiles
import Verif.Props.Binary
import Verif.Props.Sum

/-
Property C60: debug and release builds agree unless the debug build panics.
-/
namespace FuelMerkle.Props
open Spec
variable {E : Type}

set_option maxRecDepth 100000

theorem Safe.same {σ ε α : Type} {f g : Exec σ (Fail ε) α} (h : Exec.Safe f g) {s : σ} (hp : ¬ Panicked (f s).1) : g s = f s := by
  rcases h s with ⟨x, s', e⟩ | e
  · exact absurd ⟨x, by rw [e]⟩ hp
  · exact e.symm

/-- Histories of calls of the binary tree, from any tree value over any storage: if no call
panics in a build, then a build with fewer checks returns the same results and leaves the same
tree and storage. -/
theorem C60_binary (q p : Profile) (hqp : Stricter q p) (H : HashFn) (ops : List Binary.Op) (t : Binary.Tree E)
    (h : ∀ o ∈ (Binary.run q H ops t).1, ¬ o.Panicked) : Binary.run p H ops t = Binary.run q H ops t := by
  induction ops generalizing t with
  | nil => rfl
  | cons op ops ih =>
    have hs : Binary.step p H op t = Binary.step q H op t := by
      have h0 := h (Binary.step q H op t).1 (by rw [Binary.run]; exact List.mem_cons_self ..)
      cases op with
      | push d => rw [Binary.step, Binary.step, Safe.same (Binary.push_safe hqp H d) (s := t) h0]
      | root =>
        rw [Binary.step, Binary.step]
        rcases Binary.root_safe hqp H t with ⟨x, e⟩ | e
        · exact absurd ⟨x, e⟩ h0
        · rw [e]
      | prove i => rw [Binary.step, Binary.step, Safe.same (Binary.prove_safe hqp H i) (s := t) h0]
    rw [Binary.run, Binary.run, hs]
    rw [Binary.run] at h
    rcases e : Binary.step q H op t with ⟨o, t'⟩
    rw [e] at h
    simp only [] at h ⊢
    rw [ih t' fun o ho => h o (List.mem_cons_of_mem _ ho)]

/-- Opening a binary tree from any storage at any count. -/
theorem C60_binary_load (q p : Profile) (hqp : Stricter q p) (s : Binary.BStore E) (n : Nat)
    (h : ¬ Panicked (Binary.Tree.load q s n).1) : Binary.Tree.load p s n = Binary.Tree.load q s n := by
  unfold Binary.Tree.load at h ⊢
  simp only [] at h ⊢
  rw [Safe.same (Binary.build_safe hqp)]
  intro hp
  obtain ⟨x, e⟩ := hp
  apply h
  rcases e2 : Binary.build q (⟨s, [], n⟩ : Binary.Tree E) with ⟨r, t'⟩
  rw [e2] at e
  simp only at e
  subst e
  exact ⟨x, rfl⟩

/-- Histories of calls of the sum tree. -/
theorem C60_sum (q p : Profile) (hqp : Stricter q p) (H : HashFn) (ops : List Sum.Op) (t : Sum.Tree E)
    (h : ∀ o ∈ (Sum.run q H ops t).1, ¬ o.Panicked) : Sum.run p H ops t = Sum.run q H ops t := by
  induction ops generalizing t with
  | nil => rfl
  | cons op ops ih =>
    have hs : Sum.step p H op t = Sum.step q H op t := by
      have h0 := h (Sum.step q H op t).1 (by rw [Sum.run]; exact List.mem_cons_self ..)
      cases op with
      | push fee d => rw [Sum.step, Sum.step, Safe.same (Sum.push_safe hqp H fee d) (s := t) h0]
      | root => rw [Sum.step, Sum.step, Safe.same (Sum.root_safe hqp H) (s := t) h0]
    rw [Sum.run, Sum.run, hs]
    rw [Sum.run] at h
    rcases e : Sum.step q H op t with ⟨o, t'⟩
    rw [e] at h
    simp only [] at h ⊢
    rw [ih t' fun o ho => h o (List.mem_cons_of_mem _ ho)]

/-- Histories of calls of the sparse tree (opening it and `root()` do no arithmetic and do not
depend on the build). -/
theorem C60_sparse (q p : Profile) (hqp : Stricter q p) (H : HashFn) (ops : List Sparse.Op) (t : Sparse.Tree E)
    (h : ∀ e ∈ (Sparse.run q H ops t).1, ¬ Panicked e.out) : Sparse.run p H ops t = Sparse.run q H ops t := by
  induction ops generalizing t with
  | nil => rfl
  | cons op ops ih =>
    have hs : op.run p H t = op.run q H t := by
      have h0 := h _ (by rw [Sparse.run]; exact List.mem_cons_self ..)
      cases op with
      | update k d => exact Safe.same (Sparse.update_safe hqp H k d) (s := t) h0
      | delete k => exact Safe.same (Sparse.delete_safe hqp H k) (s := t) h0
    rw [Sparse.run, Sparse.run, hs]
    rw [Sparse.run] at h
    rcases e : op.run q H t with ⟨o, t'⟩
    rw [e] at h
    simp only [] at h ⊢
    rw [ih t' fun o ho => h o (List.mem_cons_of_mem _ ho)]

/-- The in-memory trees. -/
theorem C60_in_memory (q p : Profile) (hqp : Stricter q p) (H : HashFn) :
    (∀ t t' d, Binary.InMemory.push q H t d = .ok t' → Binary.InMemory.push p H t d = .ok t') ∧
    (∀ t r, Binary.InMemory.root q H t = .ok r → Binary.InMemory.root p H t = .ok r) ∧
    (∀ t i r, Binary.InMemory.prove q H t i = .ok r → Binary.InMemory.prove p H t i = .ok r) ∧
    (∀ t t' k d, Sparse.InMemory.update q H t k d = .ok t' → Sparse.InMemory.update p H t k d = .ok t') ∧
    (∀ t t' k, Sparse.InMemory.delete q H t k = .ok t' → Sparse.InMemory.delete p H t k = .ok t') := by
  have hd : ∀ {σ ε α : Type} {f g : Exec σ (Fail ε) α} {s t : σ}, Exec.Safe f g → discard (f s) = .ok t → discard (g s) = .ok t := by
    intro σ ε α f g s t hs h
    rcases hs s with ⟨x, s', e⟩ | e
    · rw [e] at h; cases h
    · rwa [← e]
  refine ⟨fun t t' d => hd (Binary.push_safe hqp H d), fun t r h => (Binary.root_safe hqp H t).eq_ok h, ?_,
    fun t t' k d => hd (Sparse.update_safe hqp H k d), fun t t' k => hd (Sparse.delete_safe hqp H k)⟩
  intro t i r h
  unfold Binary.InMemory.prove at h ⊢
  rcases Binary.prove_safe hqp H i t with ⟨x, s', e⟩ | e
  · rw [e] at h; cases h
  · rwa [← e]

/-- Positions: parents, siblings, uncles, children and paths. -/
theorem C60_positions (q p : Profile) (hqp : Stricter q p) (x : Position) :
    (∀ i y, Position.fromLeafIndex q i = .ok y → Position.fromLeafIndex p i = .ok y) ∧
    (∀ y, x.parent q = .ok y → x.parent p = .ok y) ∧
    (∀ y, x.sibling q = .ok y → x.sibling p = .ok y) ∧
    (∀ y, x.uncle q = .ok y → x.uncle p = .ok y) ∧
    (∀ y, x.leftChild q = .ok y → x.leftChild p = .ok y) ∧
    (∀ y, x.rightChild q = .ok y → x.rightChild p = .ok y) ∧
    (∀ o, x.orientation q = .ok o → x.orientation p = .ok o) ∧
    (∀ leaf l, asPathIterList q x leaf = .ok l → asPathIterList p x leaf = .ok l) ∧
    (∀ leaf n l, x.pathList q leaf n = .ok l → x.pathList p leaf n = .ok l) :=
  ⟨fun i _ h => (Position.fromLeafIndex_safe hqp i).eq_ok h, fun _ h => (Position.parent_safe hqp x).eq_ok h,
    fun _ h => (Position.sibling_safe hqp x).eq_ok h, fun _ h => (Position.uncle_safe hqp x).eq_ok h,
    fun _ h => (Position.child_safe hqp x _).eq_ok h, fun _ h => (Position.child_safe hqp x _).eq_ok h,
    fun _ h => (Position.orientation_safe hqp x).eq_ok h, fun leaf _ h => (asPathIterList_safe hqp x leaf).eq_ok h,
    fun leaf n _ h => (pathList_safe hqp x leaf n).eq_ok h⟩

/-- The test helpers: the proof checker and the reference tree. -/
theorem C60_helpers (q p : Profile) (hqp : Stricter q p) (H : HashFn) :
    (∀ root proof i n b, Verify.verify q H root proof i n = .ok b → Verify.verify p H root proof i n = .ok b) ∧
    (∀ (t t' : Reference.Tree) d, t.push q H d = .ok t' → t.push p H d = .ok t') ∧
    (∀ (t : Reference.Tree) r, t.root q H = .ok r → t.root p H = .ok r) ∧
    (∀ (t : Reference.Tree) r, t.prove q H = .ok r → t.prove p H = .ok r) :=
  ⟨fun r l i n _ h => (Verify.verify_safe hqp H r l i n).eq_ok h, fun t _ d h => (Reference.push_safe hqp H t d).eq_ok h,
    fun t _ h => (Reference.root_safe hqp H t).eq_ok h, fun t _ h => (Reference.prove_safe hqp H t).eq_ok h⟩

/-- The condition cannot be dropped: on a binary tree with one leaf `prove(u64::MAX)` panics
with overflow checks, and without them it is taken for a valid index and looks for a leaf at the
wrapped position. -/
theorem C60_differ : ∃ t : Binary.Tree Unit,
    Binary.pushAll ⟨true, true, .w64⟩ Sha256.sha256 [[1]] (Binary.Tree.new Store.empty) = (.ok (), t) ∧
    Panicked (Binary.prove ⟨true, true, .w64⟩ Sha256.sha256 (2 ^ 64 - 1) t).1 ∧
    (Binary.prove ⟨false, false, .w64⟩ Sha256.sha256 (2 ^ 64 - 1) t).1 = .error (.err (.loadError (2 ^ 64 - 1))) :=
  ⟨_, rfl, ⟨.overflow, rfl⟩, rfl⟩

/-- A debug build is stricter than a release build. -/
example : Stricter ⟨true, true, .w64⟩ ⟨false, false, .w64⟩ := ⟨fun h => (by cases h), fun h => (by cases h)⟩

/-- A history without panics in a debug build: three pushes, a root and two proofs, one of them
out of range. -/
example : ∀ o ∈ (Binary.run ⟨true, true, .w64⟩ Sha256.sha256 [.push [1], .push [2], .push [3], .root, .prove 1, .prove 7]
    (Binary.Tree.new (Store.empty (E := Unit)))).1, ¬ o.Panicked := by
  rw [(Binary.run_refines ⟨true, true, .w64⟩ Sha256.sha256 _ (Binary.Inv.new Sha256.sha256 _) (by decide) (by simp [Binary.indicesOk]) (fun _ => rfl)).1]
  intro o ho
  simp only [Binary.specRun, Binary.specStep, List.mem_cons, List.not_mem_nil, or_false] at ho
  rcases ho with rfl | rfl | rfl | rfl | rfl | rfl <;> rintro ⟨x, hx⟩ <;> simp at hx

/-- A history without panics of the sparse tree, on failing storage. -/
example : ∀ e ∈ (Sparse.run ⟨true, true, .w64⟩ Sha256.sha256 [.update zero32 [1], .delete zero32]
    (Sparse.Tree.new (⟨fun _ => none, fun n => if n = 1 then some ⟨(), true⟩ else none, 0⟩ : Sparse.SpStore Unit))).1,
    ¬ Panicked e.out := by
  intro e he
  have : e.out = .error (.err (.storageError ())) ∨ e.out = .ok () := by
    simp only [Sparse.run, List.mem_cons, List.not_mem_nil, or_false] at he
    rcases he with rfl | rfl
    · exact .inl rfl
    · exact .inr rfl
  rintro ⟨x, hx⟩
  rcases this with h | h <;> rw [h] at hx <;> simp at hx

end FuelMerkle.Props
