import Verif.Proofs.Replay
import Verif.Spec.AnyStorageStale

/-
The sparse tree on the tape of its calls.
-/
namespace FuelMerkle.Sparse.Any
open Spec
variable {S E : Type} (B : Backend S Bytes32 Prim E) (cut : E)

/-- A tree is a storage and a root node. -/
def split (S : Type) : Split (Tree S) S Node where
  join s m := ⟨m, s⟩
  mem t := t.rootNode
  sto t := t.storage
  eta _ := rfl
  mem_join _ _ := rfl
  sto_join _ _ := rfl

/-- The computation on the storage is the one on the tape. -/
abbrev Rep {α : Type} (x : TreeM S E α) (y : TreeM (Tape Bytes32 Prim E) E α) : Prop := RunReplays B (split S) (split (Tape Bytes32 Prim E)) x y

theorem rep_get (k : Bytes32) : Rep B (onStorage (B.get k)) (onStorage ((tape cut).get k)) := by
  refine RunReplays.storage cut (.get k) (fun e => .err (.storageError e)) _ _ (fun s m => ?_) (fun t m => ?_)
  · simp only [onStorage, split, Backend.perform]
    rcases B.get k s with ⟨e | v, s'⟩ <;> rfl
  · simp only [onStorage, split, tape]
    rcases t.ask cut (.get k) with ⟨e | v, s'⟩ <;> rfl

theorem rep_insert (k : Bytes32) (v : Prim) : Rep B (onStorage (B.insert k v)) (onStorage ((tape cut).insert k v)) := by
  refine RunReplays.storage cut (.insert k v) (fun e => .err (.storageError e)) _ _ (fun s m => ?_) (fun t m => ?_)
  · simp only [onStorage, split, Backend.perform]
    rcases B.insert k v s with ⟨e | v, s'⟩ <;> rfl
  · simp only [onStorage, split, tape]
    rcases t.ask cut (.insert k v) with ⟨e | v, s'⟩ <;> rfl

theorem rep_remove (k : Bytes32) : Rep B (onStorage (B.remove k)) (onStorage ((tape cut).remove k)) := by
  refine RunReplays.storage cut (.remove k) (fun e => .err (.storageError e)) _ _ (fun s m => ?_) (fun t m => ?_)
  · simp only [onStorage, split, Backend.perform]
    rcases B.remove k s with ⟨e | v, s'⟩ <;> rfl
  · simp only [onStorage, split, tape]
    rcases t.ask cut (.remove k) with ⟨e | v, s'⟩ <;> rfl

/-- A call whose error is a value. -/
theorem rep_try (k : Bytes32) : Rep B (tryStorage (B.get k)) (tryStorage ((tape cut).get k)) := by
  intro m
  exact ((Replays.call (B := B) cut (.get k)).map (fun r => ((.ok r : Except (Fail (Error E)) _), m))).of_eq (fun _ => rfl) (fun _ => rfl)

theorem rep_childByKey (k : Bytes32) : Rep B (childByKey B k) (childByKey (tape cut) k) := by
  unfold childByKey
  split
  · exact RunReplays.pure _
  · refine RunReplays.bind (rep_try B cut k) fun r => ?_
    rcases r with e | _ | q
    · exact RunReplays.pure _
    · exact RunReplays.pure _
    · simp only
      cases Node.ofPrim q <;> exact RunReplays.pure _

theorem rep_leftChild (n : Node) : Rep B (leftChild B n) (leftChild (tape cut) n) := by
  unfold leftChild
  split
  · exact RunReplays.pure _
  · exact RunReplays.bind (RunReplays.lift _) fun k => rep_childByKey B cut k

theorem rep_rightChild (n : Node) : Rep B (rightChild B n) (rightChild (tape cut) n) := by
  unfold rightChild
  split
  · exact RunReplays.pure _
  · exact RunReplays.bind (RunReplays.lift _) fun k => rep_childByKey B cut k

theorem rep_next (it : PathIter Node (CErr E)) : Rep B (it.next (storageNode B)) (it.next (storageNode (tape cut))) := by
  obtain ⟨leaf, cur, off⟩ := it
  unfold PathIter.next
  rcases cur with _ | ⟨e | n, sd⟩
  · exact RunReplays.pure _
  · exact RunReplays.pure _
  · simp only []
    have h1 : (storageNode B).isNode n = n.isNode := rfl
    have h2 : (storageNode (tape cut)).isNode n = n.isNode := rfl
    by_cases hn : n.isNode = true
    · rw [if_pos (h1.trans hn), if_pos (h2.trans hn)]
      refine RunReplays.bind (RunReplays.bind (RunReplays.lift _) fun k => RunReplays.pure _) fun path => ?_
      rcases getInstruction path off with _ | (_ | _)
      · exact RunReplays.pure _
      · exact RunReplays.bind (rep_leftChild B cut n) fun l => RunReplays.bind (rep_rightChild B cut n) fun r => RunReplays.pure _
      · exact RunReplays.bind (rep_rightChild B cut n) fun l => RunReplays.bind (rep_leftChild B cut n) fun r => RunReplays.pure _
    · rw [if_neg (by rw [h1]; exact hn), if_neg (by rw [h2]; exact hn)]
      exact RunReplays.pure _

theorem rep_collectPath : ∀ (fuel : Nat) (it : PathIter Node (CErr E)), Rep B (collectPath B fuel it) (collectPath (tape cut) fuel it)
  | 0, _ => RunReplays.throw _
  | fuel + 1, it => by
    refine RunReplays.bind (rep_next B cut it) fun r => ?_
    rcases r with ⟨_ | ⟨e | x, e' | y⟩, it'⟩
    · exact RunReplays.pure _
    · exact RunReplays.throw _
    · exact RunReplays.throw _
    · exact RunReplays.throw _
    · exact RunReplays.bind (rep_collectPath fuel it') fun _ => RunReplays.pure _

/-- `path_set` after the memory was read. -/
def pathAt (p : Profile) (leafNode root : Node) : TreeM S E (List Node × List Node) := do
  let it ← PathIter.new (storageNode B) p root leafNode
  let items ← collectPath B (PathIter.fuel (storageNode B)) it
  let pathNodes := (items.map Prod.fst).reverse
  let sideNodes := (items.map Prod.snd).reverse.dropLast
  return (pathNodes, sideNodes)

theorem rep_pathSet (p : Profile) (n : Node) : Rep B (pathSet B p n) (pathSet (tape cut) p n) := by
  refine RunReplays.get (a := split S) (b := split (Tape Bytes32 Prim E)) (pathAt B p n) (pathAt (tape cut) p n) fun m => ?_
  refine RunReplays.bind (RunReplays.bind (RunReplays.lift _) fun _ => RunReplays.pure _) fun it => ?_
  exact RunReplays.bind (rep_collectPath B cut _ it) fun _ => RunReplays.pure _

theorem rep_mergeNode (p : Profile) (H : HashFn) (path : Bytes) (x y : Node) : Rep B (mergeNode B p H path x y) (mergeNode (tape cut) p H path x y) :=
  RunReplays.bind (RunReplays.lift _) fun _ => RunReplays.bind (rep_insert B cut _ _) fun _ => RunReplays.pure _

theorem rep_mergeNodes (p : Profile) (H : HashFn) (path : Bytes) : ∀ (ss : List Node) (x : Node), Rep B (mergeNodes B p H path x ss) (mergeNodes (tape cut) p H path x ss)
  | [], _ => RunReplays.pure _
  | y :: ss, x => RunReplays.bind (rep_mergeNode B cut p H path x y) fun z => rep_mergeNodes p H path ss z

theorem rep_setRootNode (p : Profile) (n : Node) : Rep B (setRootNode p n) (setRootNode p n) :=
  RunReplays.bind (RunReplays.lift _) fun _ => RunReplays.modify _ _ (fun _ => n) (fun _ _ => rfl) (fun _ _ => rfl)

theorem rep_updateWithPathSet (p : Profile) (H : HashFn) (n : Node) (ps ss : List Node) :
    Rep B (updateWithPathSet B p H n ps ss) (updateWithPathSet (tape cut) p H n ps ss) := by
  refine RunReplays.bind (RunReplays.lift _) fun path => ?_
  cases ps with
  | nil => exact RunReplays.throw _
  | cons x ps =>
    refine RunReplays.bind (RunReplays.lift _) fun k => RunReplays.bind (RunReplays.lift _) fun k' => ?_
    refine RunReplays.bind ?_ fun c => RunReplays.bind (rep_mergeNodes B cut p H _ _ _) fun c => rep_setRootNode B p c
    split
    · refine RunReplays.bind ?_ fun c => RunReplays.bind (RunReplays.lift _) fun d => rep_mergeNodes B cut p H _ _ _
      split
      · exact RunReplays.pure _
      · exact rep_mergeNode B cut p H _ _ _
    · exact RunReplays.pure _

theorem rep_removeAll (H : HashFn) : ∀ (ns : List Node), Rep B (removeAll B H ns) (removeAll (tape cut) H ns)
  | [] => RunReplays.pure _
  | _ :: ns => RunReplays.bind (rep_remove B cut _) fun _ => rep_removeAll H ns

theorem rep_deleteWithPathSet (p : Profile) (H : HashFn) (n : Node) (ps ss : List Node) :
    Rep B (deleteWithPathSet B p H n ps ss) (deleteWithPathSet (tape cut) p H n ps ss) := by
  refine RunReplays.bind (rep_removeAll B cut H ps) fun _ => RunReplays.bind (RunReplays.lift _) fun path => ?_
  refine RunReplays.bind ?_ fun c => RunReplays.bind (rep_mergeNodes B cut p H _ _ _) fun c => rep_setRootNode B p c
  cases ss with
  | nil => exact RunReplays.pure _
  | cons x ss =>
    simp only
    split
    · rcases findNonPlaceholder ss with ⟨_ | y, rest⟩
      · exact RunReplays.pure _
      · exact RunReplays.bind (rep_mergeNode B cut p H _ _ _) fun _ => RunReplays.pure _
    · exact RunReplays.pure _

/-- `delete` after the memory was read. -/
def deleteAt (p : Profile) (H : HashFn) (key : Bytes32) (root : Node) : TreeM S E Unit := do
  if root.hash H = zeroSum then return ()
  else do
    match ← onStorage (B.get key) with
    | none => return ()
    | some primitive =>
      match Node.ofPrim primitive with
      | .error e => Exec.throw (.err (.deserializeError e))
      | .ok leafNode => do
        let (pathNodes, sideNodes) ← pathSet B p leafNode
        deleteWithPathSet B p H leafNode pathNodes sideNodes

theorem rep_delete (p : Profile) (H : HashFn) (k : Bytes32) : Rep B (delete B p H k) (delete (tape cut) p H k) := by
  refine RunReplays.get (a := split S) (b := split (Tape Bytes32 Prim E)) (deleteAt B p H k) (deleteAt (tape cut) p H k) fun m => ?_
  unfold deleteAt
  split
  · exact RunReplays.pure _
  · refine RunReplays.bind (rep_get B cut k) fun q => ?_
    cases q with
    | none => exact RunReplays.pure _
    | some q =>
      simp only
      cases Node.ofPrim q with
      | error e => exact RunReplays.throw _
      | ok n => exact RunReplays.bind (rep_pathSet B cut p n) fun r => rep_deleteWithPathSet B cut p H n r.1 r.2

/-- The end of `update` after the memory was read. -/
def updateAt (p : Profile) (H : HashFn) (leafNode root : Node) : TreeM S E Unit := do
  if root.isPlaceholder then setRootNode p leafNode
  else do
    let (pathNodes, sideNodes) ← pathSet B p leafNode
    updateWithPathSet B p H leafNode pathNodes sideNodes

theorem rep_update (p : Profile) (H : HashFn) (k : Bytes32) (d : Bytes) : Rep B (update B p H k d) (update (tape cut) p H k d) := by
  unfold update
  split
  · exact rep_delete B cut p H k
  · refine RunReplays.bind (rep_insert B cut _ _) fun _ => RunReplays.bind (RunReplays.lift _) fun k' => RunReplays.bind (rep_insert B cut _ _) fun _ => ?_
    refine RunReplays.get (a := split S) (b := split (Tape Bytes32 Prim E)) (updateAt B p H (Node.createLeaf H k d))
      (updateAt (tape cut) p H (Node.createLeaf H k d)) fun m => ?_
    unfold updateAt
    split
    · exact rep_setRootNode B p _
    · exact RunReplays.bind (rep_pathSet B cut p _) fun r => rep_updateWithPathSet B cut p H _ r.1 r.2

theorem rep_run (p : Profile) (H : HashFn) (op : Op) : Rep B (run B p H op) (run (tape cut) p H op) := by
  cases op with
  | update k d => exact rep_update B cut p H k d
  | delete k => exact rep_delete B cut p H k

/-! ### Requests -/

/-- A request as a function of the storage. -/
def handleRun {T : Type} (C : Backend T Bytes32 Prim E) (p : Profile) (H : HashFn) (r : Request) (m : Nat → Node) (s : T) : (Answer E × (Nat → Node)) × T :=
  let x := (⟨s, m⟩ : Bench T).handle C p H r
  ((x.1, x.2.node), x.2.storage)

/-- The end of a `load`. -/
def loaded (i : Nat) (root : Bytes32) (m : Nat → Node) (r : Except E (Option Prim)) : Answer E × (Nat → Node) :=
  match r with
  | .error e => (.done (.error (.err (.storageError e))), m)
  | .ok none => (.done (.error (.err (.loadError root))), m)
  | .ok (some q) =>
    match Node.ofPrim q with
    | .error e => (.done (.error (.err (.deserializeError e))), m)
    | .ok n => (.done (.ok ()), fun j => if j = i then n else m j)

/-- The end of a call. -/
def called (i : Nat) (m : Nat → Node) (r : Except (Fail (Error E)) Unit × Node) : Answer E × (Nat → Node) :=
  (.done r.1, fun j => if j = i then r.2 else m j)

theorem rep_handle (p : Profile) (H : HashFn) (r : Request) (m : Nat → Node) : Replays B (handleRun B p H r m) (handleRun (tape cut) p H r m) := by
  cases r with
  | new i => exact (Replays.pure (R := Answer E × (Nat → Node)) (.done (.ok ()), fun j => if j = i then Node.createPlaceholder else m j)).of_eq (fun _ => rfl) (fun _ => rfl)
  | load i root =>
    have key : ∀ {T : Type} (C : Backend T Bytes32 Prim E) (s : T), handleRun C p H (.load i root) m s = (loaded i root m (C.get root s).1, (C.get root s).2) := by
      intro T C s
      simp only [handleRun, Bench.handle, Tree.load]
      rcases C.get root s with ⟨e | _ | q, s'⟩
      · rfl
      · rfl
      · simp only [loaded]
        cases Node.ofPrim q <;> rfl
    exact ((Replays.call (B := B) cut (.get root)).map (loaded i root m)).of_eq (key B) (key (tape cut))
  | call i op => exact ((rep_run B cut p H op (m i)).map (called i m)).of_eq (fun _ => rfl) (fun _ => rfl)
  | root i => exact (Replays.pure (R := Answer E × (Nat → Node)) (.root ((⟨m i, ()⟩ : Tree Unit).root H), m)).of_eq (fun _ => rfl) (fun _ => rfl)

/-- Requests as a function of the storage. -/
def requestRun {T : Type} (C : Backend T Bytes32 Prim E) (p : Profile) (H : HashFn) (rs : List Request) (m : Nat → Node) (s : T) : (List (Answer E) × (Nat → Node)) × T :=
  let x := (⟨s, m⟩ : Bench T).handleAll C p H rs
  ((x.1, x.2.node), x.2.storage)

/-- What comes after a request. -/
def handled {T : Type} (C : Backend T Bytes32 Prim E) (p : Profile) (H : HashFn) (rs : List Request) (r : Answer E × (Nat → Node)) (s : T) :
    (List (Answer E) × (Nat → Node)) × T :=
  let q := requestRun C p H rs r.2 s
  ((r.1 :: q.1.1, q.1.2), q.2)

theorem rep_requests (p : Profile) (H : HashFn) : ∀ (rs : List Request) (m : Nat → Node), Replays B (requestRun B p H rs m) (requestRun (tape cut) p H rs m)
  | [], m => (Replays.pure (R := List (Answer E) × (Nat → Node)) ([], m)).of_eq (fun _ => rfl) (fun _ => rfl)
  | r :: rs, m => by
    refine (Replays.bind (F' := handled B p H rs) (G' := handled (tape cut) p H rs) (rep_handle B cut p H r m) fun r => ?_).of_eq (fun _ => rfl) (fun _ => rfl)
    exact (rep_requests p H rs r.2).map (fun q => (r.1 :: q.1, q.2))

end FuelMerkle.Sparse.Any
