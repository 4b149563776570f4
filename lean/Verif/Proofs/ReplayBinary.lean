import Verif.Proofs.Replay

/-
The binary tree on the tape of its calls.
-/
namespace FuelMerkle.Binary.Any
open Spec
variable {S E : Type} (B : Backend S Nat Prim E) (cut : E)

/-- A tree is a storage, nodes and a count. -/
def split (S : Type) : Split (Tree S) S (List Node × Nat) where
  join s m := ⟨s, m.1, m.2⟩
  mem t := (t.head, t.leavesCount)
  sto t := t.storage
  eta _ := rfl
  mem_join _ _ := rfl
  sto_join _ _ := rfl

/-- The computation on the storage is the one on the tape. -/
abbrev Rep {α : Type} (x : TreeM S E α) (y : TreeM (Tape Nat Prim E) E α) : Prop := RunReplays B (split S) (split (Tape Nat Prim E)) x y

theorem rep_get (k : Nat) : Rep B (onStorage (B.get k)) (onStorage ((tape cut).get k)) := by
  refine RunReplays.storage cut (.get k) (fun e => .err (.storageError e)) _ _ (fun s m => ?_) (fun t m => ?_)
  · simp only [onStorage, split, Backend.perform]
    rcases B.get k s with ⟨e | v, s'⟩ <;> rfl
  · simp only [onStorage, split, tape]
    rcases t.ask cut (.get k) with ⟨e | v, s'⟩ <;> rfl

theorem rep_insert (k : Nat) (v : Prim) : Rep B (onStorage (B.insert k v)) (onStorage ((tape cut).insert k v)) := by
  refine RunReplays.storage cut (.insert k v) (fun e => .err (.storageError e)) _ _ (fun s m => ?_) (fun t m => ?_)
  · simp only [onStorage, split, Backend.perform]
    rcases B.insert k v s with ⟨e | v, s'⟩ <;> rfl
  · simp only [onStorage, split, tape]
    rcases t.ask cut (.insert k v) with ⟨e | v, s'⟩ <;> rfl

theorem rep_buildLoop : ∀ (ps : List Position) (hd : List Node), Rep B (buildLoop B ps hd) (buildLoop (tape cut) ps hd)
  | [], hd => RunReplays.pure hd
  | x :: ps, hd => by
    refine RunReplays.bind (rep_get B cut _) fun q => ?_
    cases q with
    | none => exact RunReplays.throw _
    | some q => exact rep_buildLoop ps _

theorem rep_build (p : Profile) : Rep B (build B p) (build (tape cut) p) := by
  refine RunReplays.get (a := split S) (b := split (Tape Nat Prim E))
    (fun m => do
      let peaks ← Exec.liftRes (peakPositions p m.2)
      let head ← buildLoop B peaks []
      Exec.modify fun t => { t with head := head })
    (fun m => do
      let peaks ← Exec.liftRes (peakPositions p m.2)
      let head ← buildLoop (tape cut) peaks []
      Exec.modify fun t => { t with head := head }) fun m => ?_
  refine RunReplays.bind (RunReplays.lift _) fun ps => RunReplays.bind (rep_buildLoop B cut ps []) fun hd => ?_
  exact RunReplays.modify _ _ (fun m => (hd, m.2)) (fun _ _ => rfl) (fun _ _ => rfl)

theorem rep_proveSides (scratch : Scratch) : ∀ ps : List Position, Rep B (proveSides B scratch ps) (proveSides (tape cut) scratch ps)
  | [] => RunReplays.pure []
  | x :: ps => by
    refine RunReplays.bind (rep_get B cut _) fun q => ?_
    cases (scratch x.inOrderIndex).or q with
    | none => exact RunReplays.throw _
    | some q => exact RunReplays.bind (rep_proveSides scratch ps) fun _ => RunReplays.pure _

/-- `prove` after the memory was read. -/
def proveAt (p : Profile) (H : HashFn) (proofIndex : Nat) (m : List Node × Nat) : TreeM S E (Bytes32 × List Bytes32) := do
  let next ← Exec.liftRes (u64Add p proofIndex 1)
  if next > m.2 then
    Exec.throw (.err (.invalidProofIndex proofIndex))
  else do
    let rootPosition ← Exec.liftRes (rootPosition p m.2)
    let leafPosition ← Exec.liftRes (Position.fromLeafIndex p proofIndex)
    match ← onStorage (B.get leafPosition.inOrderIndex) with
    | none => Exec.throw (.err (.loadError proofIndex))
    | some primitive => do
      let leafNode := Node.ofPrim primitive
      let items ← Exec.liftRes (rootPosition.pathList p leafPosition m.2)
      let sidePositions := (items.map Prod.snd).reverse.dropLast
      let (rootNode, scratch) ← Exec.liftRes (rootNode p H m.1 (fun _ => none))
      let rootNode ← Exec.liftRes (runwrap rootNode)
      let sides ← proveSides B scratch sidePositions
      return (rootNode.hash, leafNode.hash :: sides)

theorem rep_prove (p : Profile) (H : HashFn) (k : Nat) : Rep B (prove B p H k) (prove (tape cut) p H k) := by
  refine RunReplays.get (a := split S) (b := split (Tape Nat Prim E)) (proveAt B p H k) (proveAt (tape cut) p H k) fun m => ?_
  refine RunReplays.bind (RunReplays.lift _) fun n => ?_
  split
  · exact RunReplays.throw _
  · refine RunReplays.bind (RunReplays.lift _) fun r => RunReplays.bind (RunReplays.lift _) fun l => RunReplays.bind (rep_get B cut _) fun q => ?_
    cases q with
    | none => exact RunReplays.throw _
    | some q =>
      refine RunReplays.bind (RunReplays.lift _) fun i => RunReplays.bind (RunReplays.lift _) fun rs => ?_
      obtain ⟨r, s⟩ := rs
      exact RunReplays.bind (RunReplays.lift _) fun n => RunReplays.bind (rep_proveSides B cut _ _) fun _ => RunReplays.pure _

theorem rep_joinAllLoop (p : Profile) (H : HashFn) : ∀ (rest : List Node) (x : Node), Rep B (joinAllLoop B p H x rest) (joinAllLoop (tape cut) p H x rest)
  | [], x => RunReplays.pure ()
  | y :: rest, x => by
    rw [joinAllLoop, joinAllLoop]
    split
    · refine RunReplays.bind (RunReplays.modify _ _ (fun m => ([], m.2)) (fun _ _ => rfl) (fun _ _ => rfl)) fun _ => ?_
      refine RunReplays.bind (RunReplays.lift _) fun j => RunReplays.bind (rep_insert B cut _ _) fun _ => ?_
      refine RunReplays.bind (RunReplays.modify _ _ (fun m => (j :: rest, m.2)) (fun _ _ => rfl) (fun _ _ => rfl)) fun _ => ?_
      exact rep_joinAllLoop p H rest j
    · exact RunReplays.pure ()

/-- `join_all_subtrees` after the memory was read. -/
def joinAt (p : Profile) (H : HashFn) (m : List Node × Nat) : TreeM S E Unit :=
  match m.1 with
  | [] => Exec.throw (.panic .unwrapNone)
  | current :: rest => joinAllLoop B p H current rest

theorem rep_joinAllSubtrees (p : Profile) (H : HashFn) : Rep B (joinAllSubtrees B p H) (joinAllSubtrees (tape cut) p H) := by
  refine RunReplays.get (a := split S) (b := split (Tape Nat Prim E)) (joinAt B p H) (joinAt (tape cut) p H) fun m => ?_
  unfold joinAt
  split
  · exact RunReplays.throw _
  · exact rep_joinAllLoop B cut p H _ _

/-- The end of `push` after the memory was read. -/
def countAt (S E : Type) (p : Profile) (m : List Node × Nat) : TreeM S E Unit := do
  let n ← Exec.liftRes (u64Add p m.2 1)
  Exec.modify fun t => { t with leavesCount := n }

/-- `push` after the memory was read. -/
def pushAt (p : Profile) (H : HashFn) (data : Bytes) (m : List Node × Nat) : TreeM S E Unit := do
  let node ← Exec.liftRes (Node.createLeaf p H m.2 data)
  let _ ← onStorage (B.insert node.key node.toPrim)
  Exec.modify fun t => { t with head := node :: t.head }
  joinAllSubtrees B p H
  let t ← Exec.get
  let n ← Exec.liftRes (u64Add p t.leavesCount 1)
  Exec.modify fun t => { t with leavesCount := n }

theorem rep_push (p : Profile) (H : HashFn) (d : Bytes) : Rep B (push B p H d) (push (tape cut) p H d) := by
  refine RunReplays.get (a := split S) (b := split (Tape Nat Prim E)) (pushAt B p H d) (pushAt (tape cut) p H d) fun m => ?_
  refine RunReplays.bind (RunReplays.lift _) fun n => RunReplays.bind (rep_insert B cut _ _) fun _ => ?_
  refine RunReplays.bind (RunReplays.modify _ _ (fun m => (n :: m.1, m.2)) (fun _ _ => rfl) (fun _ _ => rfl)) fun _ => ?_
  refine RunReplays.bind (rep_joinAllSubtrees B cut p H) fun _ => ?_
  refine RunReplays.get (a := split S) (b := split (Tape Nat Prim E)) (countAt S E p) (countAt _ E p) fun m => ?_
  exact RunReplays.bind (RunReplays.lift _) fun n => RunReplays.modify _ _ (fun m => (m.1, n)) (fun _ _ => rfl) (fun _ _ => rfl)

/-! ### Wishes -/

/-- What is in memory of all trees, with the counts expected. -/
abbrev Desk := (Nat → List Node) × (Nat → Nat) × (Nat → Option Nat)

/-- The watch made of a storage and the rest. -/
def Desk.on {T : Type} (m : Desk) (s : T) : Watch T := ⟨⟨s, m.1, m.2.1⟩, m.2.2⟩

/-- All but the storage. -/
def desk {T : Type} (c : Watch T) : Desk := (c.bench.head, c.bench.count, c.count)

/-- An action as a function of the storage. -/
def actRun {T : Type} (C : Backend T Nat Prim E) (p : Profile) (H : HashFn) (a : Action) (m : Desk) (s : T) : (Reply E × (Nat → List Node) × (Nat → Nat)) × T :=
  let r := (m.on s).bench.act C p H a
  ((r.1, r.2.head, r.2.count), r.2.storage)

/-- The end of a `load`. -/
def loaded (i : Nat) (m : Desk) (r : Except (Fail (Error E)) Unit × List Node × Nat) : Reply E × (Nat → List Node) × (Nat → Nat) :=
  match r with
  | (.ok _, hd, k) => (.load (.ok ()), (fun j => if j = i then hd else m.1 j), fun j => if j = i then k else m.2.1 j)
  | (.error e, _) => (.load (.error e), m.1, m.2.1)

/-- The end of a call. -/
def called {α : Type} (out : Except (Fail (Error E)) α → Out E) (i : Nat) (m : Desk) (r : Except (Fail (Error E)) α × List Node × Nat) :
    Reply E × (Nat → List Node) × (Nat → Nat) :=
  (.call (out r.1), (fun j => if j = i then r.2.1 else m.1 j), fun j => if j = i then r.2.2 else m.2.1 j)

theorem rep_act (p : Profile) (H : HashFn) (a : Action) (m : Desk) : Replays B (actRun B p H a m) (actRun (tape cut) p H a m) := by
  cases a with
  | new i =>
    exact (Replays.pure (R := Reply E × (Nat → List Node) × (Nat → Nat))
      (.new, (fun j => if j = i then [] else m.1 j), fun j => if j = i then 0 else m.2.1 j)).of_eq (fun _ => rfl) (fun _ => rfl)
  | load i n =>
    have key : ∀ {T : Type} (C : Backend T Nat Prim E) (s : T), actRun C p H (.load i n) m s =
        (loaded i m ((split T).run (build C p) ([], n) s).1, ((split T).run (build C p) ([], n) s).2) := by
      intro T C s
      simp only [actRun, Bench.act, Tree.load, Desk.on, Split.run, split]
      rcases hb : build C p ⟨s, [], n⟩ with ⟨e | u, t⟩ <;> simp only [loaded]
    exact ((rep_build B cut p ([], n)).map (loaded i m)).of_eq (key B) (key (tape cut))
  | call i op =>
    cases op with
    | push d => exact ((rep_push B cut p H d (m.1 i, m.2.1 i)).map (called .push i m)).of_eq (fun _ => rfl) (fun _ => rfl)
    | root =>
      exact (Replays.pure (R := Reply E × (Nat → List Node) × (Nat → Nat))
        (.call (.root ((⟨(), m.1 i, m.2.1 i⟩ : Tree Unit).root p H)), (fun j => if j = i then m.1 i else m.1 j), fun j => if j = i then m.2.1 i else m.2.1 j)).of_eq
        (fun _ => rfl) (fun _ => rfl)
    | prove k => exact ((rep_prove B cut p H k (m.1 i, m.2.1 i)).map (called .prove i m)).of_eq (fun _ => rfl) (fun _ => rfl)

/-- A sequence of wishes as a function of the storage: what was done, and what is left in memory. -/
def wishRun {T : Type} (C : Backend T Nat Prim E) (p : Profile) (H : HashFn) (L : List Bytes) (ws : List Wish) (m : Desk) (s : T) :
    (List (Action × Reply E) × Desk) × T :=
  (((m.on s).log C p H L ws, desk ((m.on s).after C p H L ws)), ((m.on s).after C p H L ws).bench.storage)

/-- What comes after an action. -/
def granted {T : Type} (C : Backend T Nat Prim E) (p : Profile) (H : HashFn) (L : List Bytes) (ws : List Wish) (m : Desk) (a : Action)
    (r : Reply E × (Nat → List Node) × (Nat → Nat)) (s : T) : (List (Action × Reply E) × Desk) × T :=
  let q := wishRun C p H L ws (r.2.1, r.2.2, (m.on (T := Unit) ()).expect a r.1) s
  (((a, r.1) :: q.1.1, q.1.2), q.2)

theorem rep_wishes (p : Profile) (H : HashFn) (L : List Bytes) : ∀ (ws : List Wish) (m : Desk), Replays B (wishRun B p H L ws m) (wishRun (tape cut) p H L ws m)
  | [], m => (Replays.pure (R := List (Action × Reply E) × Desk) ([], m)).of_eq (fun _ => rfl) (fun _ => rfl)
  | w :: ws, m => by
    have hask : ∀ {T T' : Type} (s : T) (s' : T'), (m.on s).asked L w = (m.on s').asked L w := by
      intro T T' s s'
      cases w <;> rfl
    have hexp : ∀ {T T' : Type} (s : T) (s' : T') (a : Action) (o : Reply E), (m.on s).expect a o = (m.on s').expect a o := by
      intro T T' s s' a o
      unfold Watch.expect
      rfl
    cases ha : (m.on (T := Unit) ()).asked L w with
    | none =>
      have key : ∀ {T : Type} (C : Backend T Nat Prim E) (s : T), wishRun C p H L (w :: ws) m s = wishRun C p H L ws m s := by
        intro T C s
        have hg : (m.on s).grant C p H L w = (none, m.on s) := by
          unfold Watch.grant
          rw [hask s (), ha]
        simp only [wishRun, Watch.log, Watch.after, hg, Option.toList, List.nil_append]
      exact (rep_wishes p H L ws m).of_eq (key B) (key (tape cut))
    | some a =>
      have key : ∀ {T : Type} (C : Backend T Nat Prim E) (s : T), wishRun C p H L (w :: ws) m s =
          granted C p H L ws m a (actRun C p H a m s).1 (actRun C p H a m s).2 := by
        intro T C s
        have hg : (m.on s).grant C p H L w = (some (a, ((m.on s).bench.act C p H a).1),
            ⟨((m.on s).bench.act C p H a).2, (m.on (T := Unit) ()).expect a ((m.on s).bench.act C p H a).1⟩) := by
          unfold Watch.grant
          rw [hask s (), ha]
          simp only
          rw [hexp s ()]
        simp only [wishRun, Watch.log, Watch.after, hg, Option.toList, List.singleton_append, granted, actRun]
        rfl
      refine (Replays.bind (F' := granted B p H L ws m a) (G' := granted (tape cut) p H L ws m a) (rep_act B cut p H a m) fun r => ?_).of_eq (key B) (key (tape cut))
      exact (rep_wishes p H L ws (r.2.1, r.2.2, (m.on (T := Unit) ()).expect a r.1)).map (fun q => ((a, r.1) :: q.1, q.2))

end FuelMerkle.Binary.Any
