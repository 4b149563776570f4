import Verif.Proofs.Profiles
import Verif.Model.TestData

/-
The pointer size of the target changes nothing.
-/
namespace FuelMerkle

variable (a b : Bool) (v w : Pointers)

theorem bindCongr {m : Type → Type} [Monad m] {α β : Type} {x y : m α} {f g : α → m β} (h : x = y) (hf : ∀ c, f c = g c) :
    (x >>= f) = (y >>= g) := by rw [h, funext hf]

theorem pathIter_new_ptr (x y : Position) :
    PathIter.new (positionNode ⟨a, b, v⟩) ⟨a, b, v⟩ x y = PathIter.new (positionNode ⟨a, b, w⟩) ⟨a, b, w⟩ x y :=
  bindCongr (usizeSub_eq (height_le x)) fun _ => rfl

theorem positionNode_ptr : positionNode ⟨a, b, v⟩ = positionNode ⟨a, b, w⟩ := rfl

theorem collectPositions_ptr (f : Nat) : ∀ it, PathIter.collectPositions ⟨a, b, v⟩ f it = PathIter.collectPositions ⟨a, b, w⟩ f it := by
  induction f with
  | zero => intro it; rfl
  | succ f ih =>
    intro it
    unfold PathIter.collectPositions
    rw [positionNode_ptr a b v w, funext ih]

theorem asPathIterList_ptr (x y : Position) : asPathIterList ⟨a, b, v⟩ x y = asPathIterList ⟨a, b, w⟩ x y :=
  bindCongr (pathIter_new_ptr a b v w x y) fun _ => by rw [positionNode_ptr a b v w, collectPositions_ptr a b v w]

namespace PositionPathIter

theorem descendLeft_ptr (r : Position) (f : Nat) : ∀ s, descendLeft ⟨a, b, v⟩ r f s = descendLeft ⟨a, b, w⟩ r f s := by
  induction f with
  | zero => intro s; rfl
  | succ f ih =>
    intro s
    unfold descendLeft
    split
    · exact bindCongr rfl ih
    · rfl

theorem next_ptr (f : Nat) : ∀ st, next ⟨a, b, v⟩ f st = next ⟨a, b, w⟩ f st := by
  induction f with
  | zero => intro s; rfl
  | succ f ih =>
    intro st
    unfold next
    refine bindCongr (by rw [positionNode_ptr a b v w]) fun x => ?_
    obtain ⟨v, it'⟩ := x
    rcases v with _ | ⟨_ | c, _ | d⟩
    · rfl
    · contradiction
    · contradiction
    · contradiction
    · simp only []
      split
      · exact bindCongr (descendLeft_ptr a b _ w _ _ _) fun _ => rfl
      · exact ih _

theorem collect_ptr (f : Nat) : ∀ st, collect ⟨a, b, v⟩ f st = collect ⟨a, b, w⟩ f st := by
  induction f with
  | zero => intro s; rfl
  | succ f ih =>
    intro st
    unfold collect
    refine bindCongr (next_ptr a b v w _ _) fun x => ?_
    obtain ⟨v, st'⟩ := x
    rcases v with _ | x
    · rfl
    · exact bindCongr (ih _) fun _ => rfl

end PositionPathIter

theorem pathList_ptr (x y : Position) (n : Nat) : x.pathList ⟨a, b, v⟩ y n = x.pathList ⟨a, b, w⟩ y n :=
  bindCongr (bindCongr rfl fun _ => bindCongr rfl fun _ => bindCongr (pathIter_new_ptr a b v w _ _) fun _ => rfl)
    fun _ => PositionPathIter.collect_ptr a b v w _ _

namespace Binary
variable {E : Type}

theorem peakPositions_ptr (n : Nat) : peakPositions ⟨a, b, v⟩ n = peakPositions ⟨a, b, w⟩ n :=
  bindCongr rfl fun _ => bindCongr rfl fun _ => bindCongr rfl fun _ => bindCongr rfl fun _ => bindCongr (pathList_ptr a b v w _ _ _) fun _ => rfl

theorem build_ptr : (build ⟨a, b, v⟩ : TreeM E Unit) = build ⟨a, b, w⟩ :=
  bindCongr rfl fun _ => bindCongr (by rw [peakPositions_ptr a b v w]) fun _ => rfl

theorem load_ptr (s : BStore E) (n : Nat) : Tree.load ⟨a, b, v⟩ s n = Tree.load ⟨a, b, w⟩ s n := by
  unfold Tree.load
  rw [build_ptr a b v w]

theorem buildRootNode_ptr (H : HashFn) (l : List Node) : ∀ c sc, buildRootNode ⟨a, b, v⟩ H c l sc = buildRootNode ⟨a, b, w⟩ H c l sc := by
  induction l with
  | nil => intro c sc; rfl
  | cons x l ih => intro c sc; exact bindCongr rfl fun _ => ih _ _

theorem rootNode_ptr (H : HashFn) (l : List Node) (sc : Scratch) : rootNode ⟨a, b, v⟩ H l sc = rootNode ⟨a, b, w⟩ H l sc := by
  cases l with
  | nil => rfl
  | cons x l => exact bindCongr (buildRootNode_ptr a b v w H l x sc) fun _ => rfl

theorem root_ptr (H : HashFn) (t : Tree E) : t.root ⟨a, b, v⟩ H = t.root ⟨a, b, w⟩ H :=
  bindCongr (rootNode_ptr a b v w H _ _) fun _ => rfl

theorem joinAllLoop_ptr (H : HashFn) (l : List Node) : ∀ c, (joinAllLoop ⟨a, b, v⟩ H c l : TreeM E Unit) = joinAllLoop ⟨a, b, w⟩ H c l := by
  induction l with
  | nil => intro c; rfl
  | cons x l ih =>
    intro c
    unfold joinAllLoop
    split
    · exact bindCongr rfl fun _ => bindCongr rfl fun _ => bindCongr rfl fun _ => bindCongr rfl fun _ => ih _
    · rfl

theorem push_ptr (H : HashFn) (d : Bytes) : (push ⟨a, b, v⟩ H d : TreeM E Unit) = push ⟨a, b, w⟩ H d := by
  refine bindCongr rfl fun t => bindCongr rfl fun _ => bindCongr rfl fun _ => bindCongr rfl fun _ => bindCongr ?_ fun _ => rfl
  refine bindCongr rfl fun t => ?_
  cases t.head with
  | nil => rfl
  | cons x l => exact joinAllLoop_ptr a b v w H l x

theorem prove_ptr (H : HashFn) (i : Nat) : (prove ⟨a, b, v⟩ H i : TreeM E _) = prove ⟨a, b, w⟩ H i := by
  unfold prove
  refine bindCongr rfl fun t => bindCongr rfl fun _ => ?_
  split
  · rfl
  · refine bindCongr rfl fun r => bindCongr rfl fun l => bindCongr rfl fun o => ?_
    cases o with
    | none => rfl
    | some q => exact bindCongr (by rw [pathList_ptr a b v w]) fun _ => bindCongr (by rw [rootNode_ptr a b v w]) fun _ => rfl

end Binary

namespace Sum
variable {E : Type}

theorem rootLoop_ptr (H : HashFn) (l : List Node) : ∀ c, (rootLoop ⟨a, b, v⟩ H c l : TreeM E Node) = rootLoop ⟨a, b, w⟩ H c l := by
  induction l with
  | nil => intro c; rfl
  | cons x l ih => intro c; exact bindCongr rfl fun _ => ih _

theorem root_ptr (H : HashFn) : (root ⟨a, b, v⟩ H : TreeM E _) = root ⟨a, b, w⟩ H := by
  refine bindCongr (bindCongr rfl fun t => ?_) fun _ => rfl
  cases t.head with
  | nil => rfl
  | cons x l => exact bindCongr (rootLoop_ptr a b v w H l x) fun _ => rfl

theorem joinAllLoop_ptr (H : HashFn) (l : List Node) : ∀ c, (joinAllLoop ⟨a, b, v⟩ H c l : TreeM E Unit) = joinAllLoop ⟨a, b, w⟩ H c l := by
  induction l with
  | nil => intro c; rfl
  | cons x l ih =>
    intro c
    unfold joinAllLoop
    split
    · exact bindCongr rfl fun _ => bindCongr rfl fun _ => bindCongr rfl fun _ => ih _
    · rfl

theorem push_ptr (H : HashFn) (fee : Nat) (d : Bytes) : (push ⟨a, b, v⟩ H fee d : TreeM E Unit) = push ⟨a, b, w⟩ H fee d := by
  refine bindCongr rfl fun t => bindCongr rfl fun _ => bindCongr rfl fun t => ?_
  cases t.head with
  | nil => rfl
  | cons x l => exact joinAllLoop_ptr a b v w H l x

end Sum

namespace Sparse
variable {E : Type}

theorem createNodeOnPath_ptr (H : HashFn) (path : Bytes32) (x y : Node) :
    Node.createNodeOnPath ⟨a, b, v⟩ H path.val x y = Node.createNodeOnPath ⟨a, b, w⟩ H path.val x y := by
  unfold Node.createNodeOnPath
  split
  · refine bindCongr rfl fun d => ?_
    by_cases hd : d ≤ Node.maxHeight
    · exact bindCongr (usizeSub_eq hd) fun _ => rfl
    · have hn : getInstruction path.val d = none := getInstruction_none (by unfold Node.maxHeight at hd; omega)
      unfold usizeSub
      rw [if_neg hd, if_neg hd, hn]
      cases a <;> rfl
  · refine bindCongr rfl fun d => ?_
    by_cases hd : d ≤ 256
    · exact bindCongr (usizeSub_eq hd) fun _ => rfl
    · rw [show Node.maxHeight = 256 from rfl]
      rcases usizeSub_wrap ⟨a, b, v⟩ hd with ⟨ha, hq⟩ | ⟨ha, o, hq, ho⟩ <;>
      rcases usizeSub_wrap ⟨a, b, w⟩ hd with ⟨ha', hq'⟩ | ⟨ha', o', hq', ho'⟩
      · rw [hq, hq']
      · exact absurd (ha.symm.trans ha') (by simp)
      · exact absurd (ha.symm.trans ha') (by simp)
      · rw [hq, hq']
        show (runwrap (getInstruction path.val o) >>= _) = (runwrap (getInstruction path.val o') >>= _)
        rw [getInstruction_none ho, getInstruction_none ho']

theorem pathSet_ptr (n : Node) : (pathSet ⟨a, b, v⟩ n : TreeM E _) = pathSet ⟨a, b, w⟩ n := by
  refine bindCongr rfl fun t => ?_
  have new : ∀ (r : Profile), (PathIter.new storageNode r t.rootNode n : TreeM E _) =
      Exec.liftRes (usizeSub r 256 t.rootNode.height) >>= fun o => pure ⟨n, some (.ok t.rootNode, .ok t.rootNode), o⟩ := fun _ => rfl
  rw [new, new]
  by_cases hh : t.rootNode.height ≤ 256
  · rw [usizeSub_eq (q := ⟨a, b, v⟩) (p := ⟨a, b, w⟩) hh]
  · rcases usizeSub_wrap ⟨a, b, v⟩ hh with ⟨ha, hq⟩ | ⟨ha, o, hq, ho⟩ <;>
    rcases usizeSub_wrap ⟨a, b, w⟩ hh with ⟨ha', hq'⟩ | ⟨ha', o', hq', ho'⟩
    · rw [hq, hq']
    · exact absurd (ha.symm.trans ha') (by simp)
    · exact absurd (ha.symm.trans ha') (by simp)
    · rw [hq, hq']
      funext s
      show (collectPath _ _ >>= _ : TreeM E _) s = (collectPath _ _ >>= _ : TreeM E _) s
      rw [collectPath_beyond n _ ho ho']

theorem mergeNode_ptr (H : HashFn) (path : Bytes32) (x y : Node) :
    (mergeNode ⟨a, b, v⟩ H path.val x y : TreeM E Node) = mergeNode ⟨a, b, w⟩ H path.val x y :=
  bindCongr (by rw [createNodeOnPath_ptr a b v w]) fun _ => rfl

theorem mergeNodes_ptr (H : HashFn) (path : Bytes32) (l : List Node) : ∀ c,
    (mergeNodes ⟨a, b, v⟩ H path.val c l : TreeM E Node) = mergeNodes ⟨a, b, w⟩ H path.val c l := by
  induction l with
  | nil => intro c; rfl
  | cons x l ih => intro c; exact bindCongr (mergeNode_ptr a b v w H _ _ _) fun _ => ih _

theorem updateWithPathSet_ptr (H : HashFn) (n : Node) (ps ss : List Node) :
    (updateWithPathSet ⟨a, b, v⟩ H n ps ss : TreeM E Unit) = updateWithPathSet ⟨a, b, w⟩ H n ps ss := by
  unfold updateWithPathSet
  refine bindCongr rfl fun path => ?_
  cases ps with
  | nil => rfl
  | cons x l =>
    refine bindCongr rfl fun rk => bindCongr rfl fun ak => bindCongr ?_ fun c => bindCongr (mergeNodes_ptr a b v w H _ _ _) fun _ => rfl
    split
    · refine bindCongr ?_ fun c => bindCongr rfl fun d => mergeNodes_ptr a b v w H _ _ _
      split
      · rfl
      · exact mergeNode_ptr a b v w H _ _ _
    · rfl

theorem deleteWithPathSet_ptr (H : HashFn) (n : Node) (ps ss : List Node) :
    (deleteWithPathSet ⟨a, b, v⟩ H n ps ss : TreeM E Unit) = deleteWithPathSet ⟨a, b, w⟩ H n ps ss := by
  unfold deleteWithPathSet
  refine bindCongr rfl fun _ => bindCongr rfl fun path => bindCongr ?_ fun c => bindCongr (mergeNodes_ptr a b v w H _ _ _) fun _ => rfl
  cases ss with
  | nil => rfl
  | cons x l =>
    simp only []
    split
    · rcases findNonPlaceholder l with ⟨_ | s, r⟩
      · rfl
      · exact bindCongr (mergeNode_ptr a b v w H _ _ _) fun _ => rfl
    · rfl

theorem delete_ptr (H : HashFn) (k : Bytes32) : (delete ⟨a, b, v⟩ H k : TreeM E Unit) = delete ⟨a, b, w⟩ H k := by
  unfold delete
  refine bindCongr rfl fun t => ?_
  split
  · rfl
  · refine bindCongr rfl fun o => ?_
    cases o with
    | none => rfl
    | some r =>
      simp only []
      cases Node.ofPrim r with
      | error e => rfl
      | ok n => exact bindCongr (pathSet_ptr a b v w _) fun _ => deleteWithPathSet_ptr a b v w H _ _ _

theorem update_ptr (H : HashFn) (k : Bytes32) (d : Bytes) : (update ⟨a, b, v⟩ H k d : TreeM E Unit) = update ⟨a, b, w⟩ H k d := by
  unfold update
  split
  · exact delete_ptr a b v w H k
  · refine bindCongr rfl fun _ => bindCongr rfl fun _ => bindCongr rfl fun _ => bindCongr rfl fun t => ?_
    split
    · rfl
    · exact bindCongr (pathSet_ptr a b v w _) fun _ => updateWithPathSet_ptr a b v w H _ _ _

end Sparse

namespace Verify

theorem loop_ptr (H : HashFn) (ps : List Bytes32) (i n f : Nat) : ∀ st, loop ⟨a, b, v⟩ H ps i n f st = loop ⟨a, b, w⟩ H ps i n f st := by
  induction f with
  | zero => intro st; rfl
  | succ f ih =>
    intro st
    unfold loop
    refine bindCongr rfl fun _ => bindCongr rfl fun _ => bindCongr rfl fun _ => bindCongr rfl fun _ => ?_
    split
    · rfl
    · cases ps[st.height]? with
      | none => rfl
      | some x => exact bindCongr rfl fun _ => bindCongr rfl fun _ => ih _

theorem verify_ptr (H : HashFn) (r : Bytes32) (ps : List Bytes32) (i n : Nat) :
    verify ⟨a, b, v⟩ H r ps i n = verify ⟨a, b, w⟩ H r ps i n := by
  unfold verify
  split
  · rfl
  · cases ps with
    | nil => rfl
    | cons x l => exact bindCongr (loop_ptr a b v w H _ _ _ _ _) fun _ => rfl

end Verify

namespace Reference

theorem rootLoop_ptr (H : HashFn) (l : List RNode) : ∀ c, rootLoop ⟨a, b, v⟩ H c l = rootLoop ⟨a, b, w⟩ H c l := by
  induction l with
  | nil => intro c; rfl
  | cons x l ih => intro c; exact bindCongr rfl fun _ => ih _

theorem root_ptr (H : HashFn) (t : Tree) : t.root ⟨a, b, v⟩ H = t.root ⟨a, b, w⟩ H := by
  unfold Tree.root
  cases t.head with
  | nil => rfl
  | cons x l => exact bindCongr (rootLoop_ptr a b v w H l x) fun _ => rfl

theorem joinAll_ptr (H : HashFn) (n i : Nat) (l : List RNode) : ∀ c ps, joinAll ⟨a, b, v⟩ H n i c l ps = joinAll ⟨a, b, w⟩ H n i c l ps := by
  induction l with
  | nil => intro c ps; rfl
  | cons x l ih =>
    intro c ps
    unfold joinAll
    split
    · exact bindCongr rfl fun _ => bindCongr rfl fun _ => bindCongr rfl fun _ => ih _ _
    · rfl

theorem push_ptr (H : HashFn) (t : Tree) (d : Bytes) : t.push ⟨a, b, v⟩ H d = t.push ⟨a, b, w⟩ H d :=
  bindCongr (joinAll_ptr a b v w H _ _ _ _ _) fun _ => rfl

theorem proveJoin_ptr (H : HashFn) (m : Nat) (l : List RNode) : ∀ c, proveJoin ⟨a, b, v⟩ H m c l = proveJoin ⟨a, b, w⟩ H m c l := by
  induction l with
  | nil => intro c; rfl
  | cons x l ih =>
    intro c
    unfold proveJoin
    split
    · exact bindCongr rfl fun _ => ih _
    · rfl

theorem prove_ptr (H : HashFn) (t : Tree) : t.prove ⟨a, b, v⟩ H = t.prove ⟨a, b, w⟩ H := by
  unfold Tree.prove
  refine bindCongr (root_ptr a b v w H t) fun _ => ?_
  cases t.head with
  | nil => rfl
  | cons x l =>
    cases t.proofSet with
    | nil => rfl
    | cons f fs => exact bindCongr (proveJoin_ptr a b v w H _ l x) fun _ => rfl

end Reference
end FuelMerkle
