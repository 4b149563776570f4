import Verif.Spec.AnyStorageStale
import Verif.Proofs.SparseMany

/-
Sparse trees on storage that never makes things up.
-/
namespace FuelMerkle
namespace Sparse.Any
open Spec T Sparse
variable {S E : Type} {B : Backend S Bytes32 Prim E} {seen : S → Bytes32 → Prim → Prop} {H : HashFn} {M : Bytes → Prop} {U : Bytes32 → Prop}

/-- All records that can come back are those of nodes or user keys. -/
def Pure (H : HashFn) (M : Bytes → Prop) (U : Bytes32 → Prop) (seen : S → Bytes32 → Prim → Prop) (s : S) : Prop :=
  ∀ m : Bytes32 → Option Prim, (∀ x q, m x = some q → seen s x q) → Valid H M U m

theorem Pure.one {s : S} (h : Pure H M U seen s) {x : Bytes32} {q : Prim} (hx : seen s x q) :
    Valid H M U (Store.upd (fun _ => none) x (some q)) := h _ (by
  intro y q' hy
  by_cases e : y = x
  · subst e; simp at hy; rw [← hy]; exact hx
  · rw [Store.upd_of_ne _ _ e] at hy; cases hy)

theorem Pure.get (env : Env H M U) {s : S} (h : Pure H M U seen s) {t : T} {d : Nat} (w : WF d t) (hin : In H M t) (h0 : t ≠ .empty)
    {q : Prim} (hx : seen s (t.hash H) q) : q = (toNode H d t).toPrim :=
  (h.one hx).get env w hin h0 (by simp)

theorem Pure.user (env : Env H M U) {s : S} (h : Pure H M U seen s) {k : Bytes32} (hu : U k) {q : Prim} (hx : seen s k q) :
    ∃ v, q = leafPrim k v := (h.one hx).user_rec env hu (by simp)

theorem Pure.less {s s' : S} (h : Pure H M U seen s) (hs : ∀ x q, seen s' x q → seen s x q) : Pure H M U seen s' :=
  fun m hm => h m fun x q e => hs x q (hm x q e)

theorem Pure.more {s s' : S} (h : Pure H M U seen s) {k : Bytes32} {v : Prim} (hs : ∀ x q, seen s' x q → seen s x q ∨ (x = k ∧ q = v))
    (hv : Good H M k v ∨ (U k ∧ ∃ y, v = leafPrim k y)) : Pure H M U seen s' := by
  intro m hm x q hq
  rcases hs x q (hm x q hq) with h' | ⟨rfl, rfl⟩
  · exact h.one h' x q (by simp)
  · rcases hv with hv | hv
    · exact .inl hv
    · exact .inr (.inl hv)

/-! ### Reading the path -/

/-- Same root node, and no more records can come back. -/
structure Kept (seen : S → Bytes32 → Prim → Prop) (st st' : Tree S) : Prop where
  root : st'.rootNode = st.rootNode
  less : ∀ x q, seen st'.storage x q → seen st.storage x q

theorem Kept.refl (st : Tree S) : Kept seen st st := ⟨rfl, fun _ _ => id⟩
theorem Kept.trans {st st' st'' : Tree S} (h : Kept seen st st') (h' : Kept seen st' st'') : Kept seen st st'' :=
  ⟨h'.root.trans h.root, fun x q e => h.less x q (h'.less x q e)⟩
theorem Kept.pure {st st' : Tree S} (h : Kept seen st st') (hp : Pure H M U seen st.storage) : Pure H M U seen st'.storage :=
  hp.less h.less

/-- The result of reading the child `c` at depth `d`. -/
def ReadOut (H : HashFn) (d : Nat) (c : T) (r : Except (CErr E) Node) : Prop :=
  r = .ok (toNode H d c) ∨ ∃ e, r = .error e ∧ (Error.childError e).FromStorage

theorem childByKey_spec (hB : NoInvention B seen) (env : Env H M U) {c : T} {d : Nat} (w : WF d c) (hin : In H M c) (st : Tree S)
    (hv : Pure H M U seen st.storage) :
    ∃ r st', childByKey B (c.hash H) st = (.ok r, st') ∧ Kept seen st st' ∧ ReadOut H d c r := by
  unfold childByKey
  by_cases h0 : c = .empty
  · subst h0
    rw [if_pos (show T.hash H .empty = zeroSum from zeroSum_eq.symm)]
    exact ⟨_, st, rfl, .refl st, .inl rfl⟩
  · rw [if_neg (hin.hash_ne env h0)]
    have hts : tryStorage (B.get (c.hash H)) st =
      (.ok (B.get (c.hash H) st.storage).1, { st with storage := (B.get (c.hash H) st.storage).2 }) := rfl
    rw [Exec.bind_ok hts]
    have hk : Kept seen st { st with storage := (B.get (c.hash H) st.storage).2 } := ⟨rfl, fun _ _ => hB.get⟩
    rcases hg : B.get (c.hash H) st.storage with ⟨e | _ | q, s'⟩ <;> rw [hg] at hk
    · exact ⟨_, _, rfl, hk, .inr ⟨_, rfl, trivial⟩⟩
    · exact ⟨_, _, rfl, hk, .inr ⟨_, rfl, trivial⟩⟩
    · have := hv.get env w hin h0 (hB.found hg)
      subst this
      simp only [ofPrim_toPrim]
      exact ⟨_, _, rfl, hk, .inl rfl⟩

theorem child_read (hB : NoInvention B seen) (env : Env H M U) {l r : T} {d : Nat} (w : WF d (node l r)) (hin : In H M (node l r)) (st : Tree S)
    (hv : Pure H M U seen st.storage) :
    (∃ x st', leftChild B (toNode H d (node l r)) st = (.ok x, st') ∧ Kept seen st st' ∧ ReadOut H (d + 1) l x) ∧
    (∃ x st', rightChild B (toNode H d (node l r)) st = (.ok x, st') ∧ Kept seen st st' ∧ ReadOut H (d + 1) r x) := by
  have hl : ¬ (toNode H d (node l r)).isLeaf = true := fun h => (isLeaf_toNode env w hin).1 h l r rfl
  have k1 : (toNode H d (node l r)).leftChildKey = .ok (l.hash H) := rfl
  have k2 : (toNode H d (node l r)).rightChildKey = .ok (r.hash H) := rfl
  unfold leftChild rightChild
  rw [if_neg hl, if_neg hl, k1, k2, Exec.liftRes_ok_bind, Exec.liftRes_ok_bind]
  exact ⟨childByKey_spec hB env w.2.1 hin.left st hv, childByKey_spec hB env w.2.2.1 hin.right st hv⟩

/-- One step of the iterator at an inner node. -/
theorem next_node (hB : NoInvention B seen) (env : Env H M U) {l r : T} {d : Nat} (w : WF d (node l r)) (hin : In H M (node l r)) (st : Tree S)
    (hv : Pure H M U seen st.storage) {leaf : Node} {k : Bytes32} (hk : HasKey leaf k) (sd : Except (CErr E) Node) :
    ∃ rc rs st', PathIter.next (storageNode B) ⟨leaf, some (.ok (toNode H d (node l r)), sd), d⟩ st =
        (.ok (some (.ok (toNode H d (node l r)), sd), ⟨leaf, some (rc, rs), d + 1⟩), st') ∧
      Kept seen st st' ∧ ReadOut H (d + 1) (onPath k d l r) rc ∧ ReadOut H (d + 1) (offPath k d l r) rs := by
  unfold PathIter.next
  simp only []
  have hn : (storageNode B).isNode (toNode H d (node l r)) = true := rfl
  rw [if_pos hn]
  have hk' : (storageNode B).leafKey leaf st = (.ok k.val, st) := by
    show (Exec.liftRes leaf.leafKey >>= fun k => pure k.val) st = _
    rw [show leaf.leafKey = .ok k from hk, Exec.liftRes_ok_bind]; rfl
  rw [Exec.bind_ok hk', getInstruction_eq k w.1]
  unfold onPath offPath
  cases hb : keyBit k d
  · simp only [Bool.false_eq_true, if_false]
    obtain ⟨x, st1, h1, h2, h3⟩ := (child_read hB env w hin st hv).1
    obtain ⟨y, st2, g1, g2, g3⟩ := (child_read hB env w hin st1 (h2.pure hv)).2
    refine ⟨x, y, st2, ?_, h2.trans g2, h3, g3⟩
    show (leftChild B (toNode H d (node l r)) >>= fun a => rightChild B (toNode H d (node l r)) >>= fun b => _) st = _
    rw [Exec.bind_ok h1, Exec.bind_ok g1]; rfl
  · simp only [if_true]
    obtain ⟨x, st1, h1, h2, h3⟩ := (child_read hB env w hin st hv).2
    obtain ⟨y, st2, g1, g2, g3⟩ := (child_read hB env w hin st1 (h2.pure hv)).1
    refine ⟨x, y, st2, ?_, h2.trans g2, h3, g3⟩
    show (rightChild B (toNode H d (node l r)) >>= fun a => leftChild B (toNode H d (node l r)) >>= fun b => _) st = _
    rw [Exec.bind_ok h1, Exec.bind_ok g1]; rfl

/-- One step of the iterator at the end of the path. -/
theorem next_end {t : T} (ht : ∀ l r, t ≠ node l r) (d off : Nat) (st : Tree S) (leaf : Node)
    (sd : Except (CErr E) Node) :
    PathIter.next (storageNode B) ⟨leaf, some (.ok (toNode H d t), sd), off⟩ st =
      (.ok (some (.ok (toNode H d t), sd), ⟨leaf, none, off⟩), st) := by
  unfold PathIter.next
  simp only []
  have hn : ¬ (storageNode B).isNode (toNode H d t) = true := fun h => by
    obtain ⟨l, r, e⟩ := (isNode_toNode H t d).1 h
    exact ht l r e
  rw [if_neg hn]; rfl

theorem next_error (leaf : Node) (e : CErr E) (sd : Except (CErr E) Node) (off : Nat) (st : Tree S) :
    PathIter.next (storageNode B) ⟨leaf, some (.error e, sd), off⟩ st =
      (.ok (some (.error e, sd), ⟨leaf, none, off⟩), st) := rfl

theorem next_none (leaf : Node) (off : Nat) (st : Tree S) :
    PathIter.next (storageNode B) ⟨leaf, (none : Option (Except (CErr E) Node × Except (CErr E) Node)), off⟩ st =
      (.ok (none, ⟨leaf, none, off⟩), st) := rfl

theorem collectPath_spec (hB : NoInvention B seen) (env : Env H M U) {leaf : Node} {k : Bytes32} (hk : HasKey leaf k) : ∀ (t : T) (d off fuel : Nat)
    (st : Tree S) (sn : Node), WF d t → In H M t → Pure H M U seen st.storage → ((∃ l r, t = node l r) → off = d) →
    d ≤ 256 → 258 ≤ fuel + d →
    ∃ st', Kept seen st st' ∧
      (collectPath B fuel ⟨leaf, some (.ok (toNode H d t), .ok sn), off⟩ st =
          (.ok ((toNode H d t, sn) :: tailItems H k d t), st') ∨
        (∃ e, collectPath B fuel ⟨leaf, some (.ok (toNode H d t), .ok sn), off⟩ st =
          (.error (.err (.childError e)), st') ∧ (Error.childError e).FromStorage)) := by
  have ending : ∀ (t : T) (d off fuel : Nat) (st : Tree S) (sn : Node), (∀ l r, t ≠ node l r) → 2 ≤ fuel →
      collectPath B fuel ⟨leaf, some (.ok (toNode H d t), .ok sn), off⟩ st = (.ok [(toNode H d t, sn)], st) := by
    intro t d off fuel st sn ht hf
    obtain ⟨f, rfl⟩ : ∃ f, fuel = f + 2 := ⟨fuel - 2, by omega⟩
    rw [collectPath, Exec.bind_ok (next_end ht d off st leaf _)]
    simp only []
    have : collectPath B (f + 1) ⟨leaf, (none : Option (Except (CErr E) Node × Except (CErr E) Node)), off⟩ st = (.ok [], st) := by
      rw [collectPath, Exec.bind_ok (next_none leaf off st)]; rfl
    rw [Exec.bind_ok this]; rfl
  intro t
  induction t with
  | empty =>
    intro d off fuel st sn _ _ _ _ _ hf
    exact ⟨st, .refl st, .inl (ending _ d off fuel st sn (by simp) (by omega))⟩
  | leaf k' v' =>
    intro d off fuel st sn _ _ _ _ _ hf
    exact ⟨st, .refl st, .inl (ending _ d off fuel st sn (by simp) (by omega))⟩
  | node l r ihl ihr =>
    intro d off fuel st sn w hin hv hoff hd hf
    have := hoff ⟨l, r, rfl⟩
    subst this
    have ih : ∀ (fuel : Nat) (st : Tree S) (sn : Node), Pure H M U seen st.storage → 258 ≤ fuel + (off + 1) →
        ∃ st', Kept seen st st' ∧
          (collectPath B fuel ⟨leaf, some (.ok (toNode H (off + 1) (onPath k off l r)), .ok sn), off + 1⟩ st =
              (.ok ((toNode H (off + 1) (onPath k off l r), sn) :: tailItems H k (off + 1) (onPath k off l r)), st') ∨
            (∃ e, collectPath B fuel ⟨leaf, some (.ok (toNode H (off + 1) (onPath k off l r)), .ok sn), off + 1⟩ st =
              (.error (.err (.childError e)), st') ∧ (Error.childError e).FromStorage)) := by
      intro fuel st sn hv hf
      have hd' : off + 1 ≤ 256 := w.1
      unfold onPath
      cases keyBit k off
      · exact ihl (off + 1) (off + 1) fuel st sn w.2.1 hin.left hv (fun _ => rfl) hd' hf
      · exact ihr (off + 1) (off + 1) fuel st sn w.2.2.1 hin.right hv (fun _ => rfl) hd' hf
    obtain ⟨f, rfl⟩ : ∃ f, fuel = f + 2 := ⟨fuel - 2, by have := w.1; omega⟩
    obtain ⟨rc, rs, st1, h1, h2, h3, h4⟩ := next_node hB env w hin st hv hk (.ok sn)
    have hw : WF (off + 1) (onPath k off l r) ∧ In H M (onPath k off l r) := by
      unfold onPath
      cases keyBit k off
      · exact ⟨w.2.1, hin.left⟩
      · exact ⟨w.2.2.1, hin.right⟩
    have hcont : ∀ (x : Except (Fail (Error E)) (List (Node × Node))) (st' : Tree S),
        collectPath B (f + 1) ⟨leaf, some (rc, rs), off + 1⟩ st1 = (x, st') →
        collectPath B (f + 2) ⟨leaf, some (.ok (toNode H off (node l r)), .ok sn), off⟩ st =
          (x.map ((toNode H off (node l r), sn) :: ·), st') := by
      intro x st' hx
      rw [collectPath, Exec.bind_ok h1]
      simp only []
      cases x with
      | ok x => rw [Exec.bind_ok hx]; rfl
      | error e => rw [Exec.bind_error hx]; rfl
    have hv1 : Pure H M U seen st1.storage := h2.pure hv
    rcases h3 with rfl | ⟨e, rfl, he⟩
    · rcases h4 with rfl | ⟨e, rfl, he⟩
      · obtain ⟨st2, g1, g2⟩ := ih (f + 1) st1 (toNode H (off + 1) (offPath k off l r)) hv1 (by omega)
        refine ⟨st2, h2.trans g1, ?_⟩
        rcases g2 with g2 | ⟨e, g2, he⟩
        · left
          rw [hcont _ _ g2]
          unfold onPath offPath
          rw [tailItems]
          cases keyBit k off <;> rfl
        · exact .inr ⟨e, by rw [hcont _ _ g2]; rfl, he⟩
      · -- the side node could not be read
        have hx : ∃ st2, Kept seen st1 st2 ∧ collectPath B (f + 1)
            ⟨leaf, some (.ok (toNode H (off + 1) (onPath k off l r)), .error e), off + 1⟩ st1 =
              (.error (.err (.childError e)), st2) := by
          by_cases hn : ∃ l' r', onPath k off l r = node l' r'
          · obtain ⟨l', r', hn⟩ := hn
            rw [hn] at hw ⊢
            obtain ⟨rc', rs', st2, j1, j2, _, _⟩ := next_node hB env hw.1 hw.2 st1 hv1 hk (.error e)
            exact ⟨st2, j2, by rw [collectPath, Exec.bind_ok j1]; rfl⟩
          · exact ⟨st1, .refl _, by
              rw [collectPath, Exec.bind_ok (next_end (fun l' r' h => hn ⟨l', r', h⟩) _ _ st1 leaf _)]; rfl⟩
        obtain ⟨st2, j1, j2⟩ := hx
        exact ⟨st2, h2.trans j1, .inr ⟨e, by rw [hcont _ _ j2]; rfl, he⟩⟩
    · -- the path node could not be read
      have hx : collectPath B (f + 1) ⟨leaf, some (.error e, rs), off + 1⟩ st1 = (.error (.err (.childError e)), st1) := by
        rw [collectPath, Exec.bind_ok (next_error leaf e rs _ st1)]; rfl
      exact ⟨st1, h2, .inr ⟨e, by rw [hcont _ _ hx]; rfl, he⟩⟩

theorem pathSet_spec (hB : NoInvention B seen) (p : Profile) (env : Env H M U) {leaf : Node} {k : Bytes32} (hk : HasKey leaf k) {t : T} (st : Tree S)
    (hroot : st.rootNode = toNode H 0 t) (w : WF 0 t) (hin : In H M t) (hv : Pure H M U seen st.storage) :
    ∃ st', Kept seen st st' ∧
      (pathSet B p leaf st = (.ok (pathNodes H k 0 t, sideNodes H k 0 t), st') ∨
        (∃ e, pathSet B p leaf st = (.error (.err (.childError e)), st') ∧ (Error.childError e).FromStorage)) := by
  unfold pathSet
  rw [Exec.get_bind, hroot]
  obtain ⟨off, ho, hoff⟩ : ∃ off, (PathIter.new (storageNode B) p (toNode H 0 t) leaf : TreeM S E _) st =
      (.ok ⟨leaf, some (.ok (toNode H 0 t), .ok (toNode H 0 t)), off⟩, st) ∧ ((∃ l r, t = node l r) → off = 0) := by
    refine ⟨256 - (toNode H 0 t).height, ?_, ?_⟩
    · unfold PathIter.new
      have hh : (toNode H 0 t).height ≤ 256 := by cases t <;> simp [toNode, Node.createPlaceholder]
      have : (storageNode B).lift (usizeSub p (storageNode B).keySizeInBits
          ((storageNode B).height (toNode H 0 t))) st = (.ok (256 - (toNode H 0 t).height), st) := by
        show Exec.liftRes (usizeSub p 256 (toNode H 0 t).height) st = _
        unfold usizeSub
        rw [if_pos hh]; rfl
      rw [Exec.bind_ok this]; rfl
    · rintro ⟨l, r, rfl⟩; rfl
  rw [Exec.bind_ok ho]
  obtain ⟨st', h1, h2⟩ := collectPath_spec hB env hk t 0 off 258 st (toNode H 0 t) w hin hv hoff (by omega) (by omega)
  refine ⟨st', h1, ?_⟩
  have hfuel : PathIter.fuel (storageNode B) = 258 := rfl
  rw [hfuel]
  rcases h2 with h2 | ⟨e, h2, he⟩
  · left
    rw [Exec.bind_ok h2]
    rw [(items_path k t 0 _).1, (items_path k t 0 _).2]
    rfl
  · exact .inr ⟨e, by rw [Exec.bind_error h2], he⟩

/-! ### Writing the path -/

/-- The writes of a computation that only writes, and its result. -/
inductive Writes (α : Type) where
  | done (r : Res α)
  | write (x : Bytes32) (q : Prim) (next : Writes α)

variable {α β : Type}

def Writes.bind (w : Writes α) (f : α → Writes β) : Writes β :=
  match w with
  | .done (.ok a) => f a
  | .done (.error e) => .done (.error e)
  | .write x q next => .write x q (next.bind f)

instance : Monad Writes where
  pure a := .done (.ok a)
  bind := Writes.bind

/-- The computation on an arbitrary storage. -/
def Writes.onAny (B : Backend S Bytes32 Prim E) : Writes α → TreeM S E α
  | .done r => Exec.liftRes r
  | .write x q next => onStorage (B.insert x q) >>= fun _ => next.onAny B

/-- The computation on a map with failures. -/
def Writes.onStore : Writes α → Sparse.TreeM E α
  | .done r => Exec.liftRes r
  | .write x q next => Sparse.onStorage (Store.insert x q) >>= fun _ => next.onStore

theorem liftRes_bind {σ ε : Type} (r : Res α) (f : α → Exec σ (Fail ε) β) :
    (Exec.liftRes r >>= f) = match r with
      | .ok a => f a
      | .error e => Exec.liftRes (.error e) := by
  funext s
  cases r <;> rfl

theorem Writes.onAny_bind (w : Writes α) (f : α → Writes β) : (w >>= f).onAny B = (w.onAny B >>= fun a => (f a).onAny B) := by
  show (w.bind f).onAny B = _
  induction w with
  | done r => cases r <;> (funext s; rfl)
  | write x q next ih => simp only [Writes.bind, Writes.onAny, ih, Exec.bind_assoc]

theorem Writes.onStore_bind (w : Writes α) (f : α → Writes β) : ((w >>= f).onStore : Sparse.TreeM E β) = (w.onStore >>= fun a => (f a).onStore) := by
  show (w.bind f).onStore = _
  induction w with
  | done r => cases r <;> (funext s; rfl)
  | write x q next ih => simp only [Writes.bind, Writes.onStore, ih, Exec.bind_assoc]

theorem Writes.onAny_pure (a : α) : (pure a : Writes α).onAny B = pure a := rfl
theorem Writes.onStore_pure (a : α) : ((pure a : Writes α).onStore : Sparse.TreeM E α) = pure a := rfl

def mergeNodeW (p : Profile) (H : HashFn) (path : Bytes) (current side : Node) : Writes Node := do
  let current ← Writes.done (Node.createNodeOnPath p H path current side)
  Writes.write (current.hash H) current.toPrim (pure current)

def mergeNodesW (p : Profile) (H : HashFn) (path : Bytes) : Node → List Node → Writes Node
  | current, [] => pure current
  | current, side :: sides => do
    let current ← mergeNodeW p H path current side
    mergeNodesW p H path current sides

theorem mergeNodeW_any (p : Profile) (path : Bytes) (c s : Node) : (mergeNodeW p H path c s).onAny B = mergeNode B p H path c s := by
  unfold mergeNodeW mergeNode
  rw [Writes.onAny_bind]; rfl

theorem mergeNodeW_store (p : Profile) (path : Bytes) (c s : Node) : ((mergeNodeW p H path c s).onStore : Sparse.TreeM E Node) = Sparse.mergeNode p H path c s := by
  unfold mergeNodeW Sparse.mergeNode
  rw [Writes.onStore_bind]; rfl

theorem mergeNodesW_any (p : Profile) (path : Bytes) : ∀ (ss : List Node) (c : Node), (mergeNodesW p H path c ss).onAny B = mergeNodes B p H path c ss := by
  intro ss
  induction ss with
  | nil => intro c; rfl
  | cons s ss ih =>
    intro c
    rw [mergeNodesW, mergeNodes, Writes.onAny_bind, mergeNodeW_any]
    simp only [ih]

theorem mergeNodesW_store (p : Profile) (path : Bytes) : ∀ (ss : List Node) (c : Node),
    ((mergeNodesW p H path c ss).onStore : Sparse.TreeM E Node) = Sparse.mergeNodes p H path c ss := by
  intro ss
  induction ss with
  | nil => intro c; rfl
  | cons s ss ih =>
    intro c
    rw [mergeNodesW, Sparse.mergeNodes, Writes.onStore_bind, mergeNodeW_store]
    simp only [ih]

def updateW (p : Profile) (H : HashFn) (requested : Node) (pathNodes sideNodes : List Node) : Writes Node := do
  let path ← Writes.done requested.leafKey
  match pathNodes with
  | [] => Writes.done (.error .indexOutOfBounds)
  | actual :: _ => do
    let requestedKey ← Writes.done requested.leafKey
    let actualKey ← Writes.done actual.leafKey
    let current ←
      (if requestedKey ≠ actualKey then do
        let current ←
          (if actual.isPlaceholder then pure requested
           else mergeNodeW p H path.val requested actual)
        let ancestorDepth ← Writes.done (requested.commonPathLength p actual)
        let staleDepth := max sideNodes.length ancestorDepth
        let placeholdersCount := staleDepth - sideNodes.length
        mergeNodesW p H path.val current (List.replicate placeholdersCount Node.createPlaceholder)
      else pure requested)
    mergeNodesW p H path.val current sideNodes

theorem onAny_ite (c : Prop) [Decidable c] (a b : Writes α) : (if c then a else b).onAny B = if c then a.onAny B else b.onAny B := by
  split <;> rfl
theorem onStore_ite (c : Prop) [Decidable c] (a b : Writes α) : ((if c then a else b).onStore : Sparse.TreeM E α) = if c then a.onStore else b.onStore := by
  split <;> rfl
theorem onAny_done (r : Res α) : (Writes.done r).onAny B = Exec.liftRes r := rfl
theorem onStore_done (r : Res α) : ((Writes.done r).onStore : Sparse.TreeM E α) = Exec.liftRes r := rfl

theorem updateW_any (p : Profile) (requested : Node) (ps ss : List Node) :
    updateWithPathSet B p H requested ps ss = ((updateW p H requested ps ss).onAny B >>= fun c => setRootNode p c) := by
  unfold updateW updateWithPathSet
  cases ps with
  | nil =>
    simp only [Writes.onAny_bind, onAny_done, Exec.bind_assoc]
    congr 1
  | cons a as =>
    simp only [Writes.onAny_bind, onAny_done, Exec.bind_assoc, onAny_ite, mergeNodesW_any, mergeNodeW_any, Writes.onAny_pure]

theorem updateW_store (p : Profile) (requested : Node) (ps ss : List Node) :
    (Sparse.updateWithPathSet p H requested ps ss : Sparse.TreeM E Unit) = ((updateW p H requested ps ss).onStore >>= fun c => Sparse.setRootNode p c) := by
  unfold updateW Sparse.updateWithPathSet
  cases ps with
  | nil =>
    simp only [Writes.onStore_bind, onStore_done, Exec.bind_assoc]
    congr 1
  | cons a as =>
    simp only [Writes.onStore_bind, onStore_done, Exec.bind_assoc, onStore_ite, mergeNodesW_store, mergeNodeW_store, Writes.onStore_pure]

def rebuildW (p : Profile) (H : HashFn) (path : Bytes) (sides : List Node) : Writes Node := do
  let (current, rest) ←
    (match sides with
    | [] => pure (Node.createPlaceholder, [])
    | first :: others =>
      if first.isLeaf then
        match findNonPlaceholder others with
        | (some sideNode, rest) => do
          let current ← mergeNodeW p H path first sideNode
          pure (current, rest)
        | (none, rest) => pure (first, rest)
      else pure (Node.createPlaceholder, first :: others))
  mergeNodesW p H path current rest

theorem rebuildW_store (p : Profile) (path : Bytes) (ss : List Node) :
    ((rebuildW p H path ss).onStore : Sparse.TreeM E Node) = rebuild p H path ss := by
  unfold rebuildW rebuild
  cases ss with
  | nil => simp only [Writes.onStore_bind, mergeNodesW_store, Writes.onStore_pure]
  | cons a as =>
    simp only [Writes.onStore_bind, mergeNodesW_store]
    congr 1
    split
    · rcases findNonPlaceholder as with ⟨_ | n, rest⟩
      · rfl
      · simp only [Writes.onStore_bind, mergeNodeW_store]; rfl
    · rfl

theorem deleteWithPathSet_eq (p : Profile) {requested : Node} {k : Bytes32} (hk : HasKey requested k) (ps ss : List Node) (st : Tree S) :
    deleteWithPathSet B p H requested ps ss st =
      (removeAll B H ps >>= fun _ => (rebuildW p H k.val ss).onAny B >>= fun c => setRootNode p c) st := by
  unfold deleteWithPathSet rebuildW
  rw [show requested.leafKey = .ok k from hk]
  cases ss with
  | nil => simp only [Writes.onAny_bind, mergeNodesW_any, Writes.onAny_pure, Exec.bind_assoc]; rfl
  | cons a as =>
    simp only [Writes.onAny_bind, mergeNodesW_any, Exec.bind_assoc]
    have : ∀ (c : Node) (f : Node × List Node → TreeM S E Unit) (b : Bool), 
      ((if b then match findNonPlaceholder as with
          | (some sideNode, rest) => (do let current ← mergeNodeW p H k.val a sideNode; pure (current, rest) : Writes (Node × List Node))
          | (none, rest) => pure (a, rest)
        else pure (c, a :: as)).onAny B >>= f) = 
      ((if b then match findNonPlaceholder as with
          | (some sideNode, rest) => (do let current ← mergeNode B p H k.val a sideNode; pure (current, rest))
          | (none, rest) => pure (a, rest)
        else pure (c, a :: as)) >>= f) := by
      intro c f b
      cases b
      · rfl
      · simp only [if_true]
        rcases findNonPlaceholder as with ⟨_ | n, rest⟩
        · rfl
        · simp only [Writes.onAny_bind, mergeNodeW_any]; rfl
    rw [this]
    rfl

/-- All records written are those of nodes, and the result is `N`. -/
def Writes.Leads (H : HashFn) (M : Bytes → Prop) (N : α) : Writes α → Prop
  | .done r => r = .ok N
  | .write x q next => Good H M x q ∧ next.Leads H M N

/-- A storage whose call number `n` fails, after having done its work. -/
def failsAt (m : Bytes32 → Option Prim) (c : Nat) (n : Option Nat) : SpStore Unit :=
  ⟨m, fun i => if some i = n then some ⟨(), true⟩ else none, c⟩

/-- What is known of a computation on all storages of this kind tells its writes. -/
theorem Writes.leads_of (p : Profile) {N : Node} : ∀ (w : Writes Node) (m : Bytes32 → Option Prim) (c : Nat) (root : Node),
    (∀ n, (∀ i, n = some i → c ≤ i) → ∀ x q, ((w.onStore >>= fun a => Sparse.setRootNode p a : Sparse.TreeM Unit Unit) ⟨root, failsAt m c n⟩).2.storage.map x = some q → Good H M x q) →
    (∃ st, (w.onStore >>= fun a => Sparse.setRootNode p a : Sparse.TreeM Unit Unit) ⟨root, failsAt m c none⟩ = (.ok (), st) ∧ st.rootNode = N) →
    w.Leads H M N := by
  intro w
  induction w with
  | done r =>
    rintro m c root _ ⟨st, h1, h2⟩
    cases r with
    | error e => cases h1
    | ok a =>
      change Sparse.setRootNode p a _ = _ at h1
      unfold Sparse.setRootNode at h1
      rw [liftRes_bind] at h1
      revert h1
      cases rdebugAssert p (a.isLeaf || decide (a.height = Node.maxHeight)) with
      | error e => intro h1; cases h1
      | ok u => intro h1; cases h1; cases h2; rfl
  | write x q next ih =>
    intro m c root hm hr
    have hok : ∀ n, n ≠ some c → (Sparse.onStorage (Store.insert x q) : Sparse.TreeM Unit _) ⟨root, failsAt m c n⟩ =
        (.ok (m x), ⟨root, failsAt (Store.upd m x (some q)) (c + 1) n⟩) := by
      intro n hn
      have : (failsAt m c n).sched (failsAt m c n).clock = none := by
        show (if some c = n then _ else none) = none
        rw [if_neg (fun e => hn e.symm)]
      unfold Sparse.onStorage
      rw [Store.insert_none _ _ this]
      rfl
    have hgood : Good H M x q := by
      have h := hm (some c) (fun i e => by cases e; exact Nat.le_refl _) x q
      have : (failsAt m c (some c)).sched (failsAt m c (some c)).clock = some ⟨(), true⟩ := by
        show (if some c = some c then _ else none) = _
        rw [if_pos rfl]
      have hi : (Sparse.onStorage (Store.insert x q) : Sparse.TreeM Unit _) ⟨root, failsAt m c (some c)⟩ =
          (.error (.err (.storageError ())), ⟨root, { failsAt m c (some c) with map := Store.upd m x (some q), clock := c + 1 }⟩) := by
        unfold Sparse.onStorage
        rw [Store.insert_fault _ _ this]
        rfl
      rw [Writes.onStore, Exec.bind_assoc, Exec.bind_error hi] at h
      exact h (by simp)
    refine ⟨hgood, ih (Store.upd m x (some q)) (c + 1) root (fun n hn y z h => ?_) ?_⟩
    · refine hm n (fun i e => Nat.le_of_succ_le (hn i e)) y z ?_
      rw [Writes.onStore, Exec.bind_assoc, Exec.bind_ok (hok n (fun e => absurd (hn c e) (by omega)))]
      exact h
    · obtain ⟨st, h1, h2⟩ := hr
      refine ⟨st, ?_, h2⟩
      rw [Writes.onStore, Exec.bind_assoc, Exec.bind_ok (hok none (by simp))] at h1
      exact h1

theorem Writes.leads_of_grow (p : Profile) {N : Node} {w : Writes Node} (h : ∀ st : Sparse.Tree Unit, ∃ st1, Grow H M st st1 ∧
    ((w.onStore >>= fun a => Sparse.setRootNode p a : Sparse.TreeM Unit Unit) st = (.ok (), { st1 with rootNode := N }) ∨
      (∃ e, (w.onStore >>= fun a => Sparse.setRootNode p a : Sparse.TreeM Unit Unit) st = (.error (.err e), st1)) ∧ ¬ st.storage.Reliable)) :
    w.Leads H M N := by
  refine w.leads_of p (fun _ => none) 0 Node.createPlaceholder (fun n _ x q hq => ?_) ?_
  · obtain ⟨st1, g, h1⟩ := h ⟨Node.createPlaceholder, failsAt (fun _ => none) 0 n⟩
    have hst : st1.storage.map x = some q := by
      rcases h1 with h1 | ⟨⟨e, h1⟩, _⟩ <;> (rw [h1] at hq; exact hq)
    rcases g.map x with e | ⟨q', e, hg⟩
    · rw [e] at hst; cases hst
    · rw [hst] at e; cases e; exact hg
  · obtain ⟨st1, g, h1⟩ := h ⟨Node.createPlaceholder, failsAt (fun _ => none) 0 none⟩
    rcases h1 with h1 | ⟨_, h2⟩
    · exact ⟨_, h1, rfl⟩
    · exact absurd (fun n => by simp [failsAt]) h2

theorem updateW_leads (p : Profile) (env : Env H M U) {k v : Bytes32} {t : T} (w : WF 0 t) (hin : In H M t) (hin' : In H M (ins k v 0 t)) :
    (updateW p H (toNode H 0 (leaf k v)) (pathNodes H k 0 t) (sideNodes H k 0 t)).Leads H M (toNode H 0 (ins k v 0 t)) := by
  refine Writes.leads_of_grow p fun st => ?_
  rw [← updateW_store]
  obtain ⟨st1, g, h⟩ := updateWithPathSet_spec p env w hin hin' st
  exact ⟨st1, g, h.imp And.left id⟩

theorem rebuildW_leads (p : Profile) (env : Env H M U) {k : Bytes32} {t : T} (w : WF 0 t) (hin' : In H M (del k 0 t)) :
    (rebuildW p H k.val (sideNodes H k 0 t)).Leads H M (toNode H 0 (del k 0 t)) := by
  refine Writes.leads_of_grow p fun st => ?_
  rw [rebuildW_store]
  obtain ⟨st1, g, h⟩ := (rebuild_spec p env w hin').2 st
  refine ⟨st1, g, ?_⟩
  rcases h with ⟨h, _⟩ | ⟨⟨e, h⟩, hr⟩
  · left; rw [Exec.bind_ok h, Sparse.setRootNode_spec p env (del_spec w).1 hin']
  · right; exact ⟨⟨e, by rw [Exec.bind_error h]⟩, hr⟩

/-- Same root node, and what can come back is fine. -/
structure Fine (H : HashFn) (M : Bytes → Prop) (U : Bytes32 → Prop) (seen : S → Bytes32 → Prim → Prop) (st st' : Tree S) : Prop where
  root : st'.rootNode = st.rootNode
  pure : Pure H M U seen st'.storage

theorem insert_fine (hB : NoInvention B seen) {x : Bytes32} {q : Prim} (hg : Good H M x q ∨ (U x ∧ ∃ y, q = leafPrim x y)) (st : Tree S)
    (hv : Pure H M U seen st.storage) :
    ∃ st', Fine H M U seen st st' ∧ ((∃ v, onStorage (B.insert x q) st = (.ok v, st')) ∨
      ∃ e, onStorage (B.insert x q) st = (.error (.err (.storageError e)), st')) := by
  have h : Pure H M U seen (B.insert x q st.storage).2 := hv.more (fun _ _ => hB.insert) hg
  unfold onStorage
  rcases hi : B.insert x q st.storage with ⟨e | v, s⟩ <;> rw [hi] at h
  · exact ⟨{ st with storage := s }, ⟨rfl, h⟩, .inr ⟨e, rfl⟩⟩
  · exact ⟨{ st with storage := s }, ⟨rfl, h⟩, .inl ⟨v, rfl⟩⟩

theorem Writes.Leads.onAny (hB : NoInvention B seen) {N : α} : ∀ {w : Writes α}, w.Leads H M N → ∀ (st : Tree S), Pure H M U seen st.storage →
    ∃ st', Fine H M U seen st st' ∧ (w.onAny B st = (.ok N, st') ∨ ∃ e, w.onAny B st = (.error (.err (.storageError e)), st')) := by
  intro w
  induction w with
  | done r => intro h st hv; cases h; exact ⟨st, ⟨rfl, hv⟩, .inl rfl⟩
  | write x q next ih =>
    intro h st hv
    obtain ⟨st1, f1, h1⟩ := insert_fine hB (.inl h.1) st hv
    rw [Writes.onAny]
    rcases h1 with ⟨v, h1⟩ | ⟨e, h1⟩
    · obtain ⟨st2, f2, h2⟩ := ih h.2 st1 f1.pure
      rw [Exec.bind_ok h1]
      exact ⟨st2, ⟨f2.root.trans f1.root, f2.pure⟩, h2⟩
    · rw [Exec.bind_error h1]
      exact ⟨st1, f1, .inr ⟨e, rfl⟩⟩

theorem setRootNode_spec (p : Profile) (env : Env H M U) {t : T} (w : WF 0 t) (hin : In H M t) (st : Tree S) :
    (setRootNode p (toNode H 0 t) : TreeM S E Unit) st = (.ok (), { st with rootNode := toNode H 0 t }) := by
  have : ((toNode H 0 t).isLeaf || decide ((toNode H 0 t).height = Node.maxHeight)) = true := by
    cases t with
    | empty => rw [(isLeaf_toNode env w hin).2 (by simp)]; rfl
    | leaf k v => rw [(isLeaf_toNode env w hin).2 (by simp)]; rfl
    | node l r => simp [toNode, Node.maxHeight]
  unfold setRootNode
  rw [this, rdebugAssert_true, Exec.liftRes_ok_bind]
  rfl

theorem removeAll_spec (hB : NoInvention B seen) : ∀ (ns : List Node) (st : Tree S),
    ∃ st', Kept seen st st' ∧ (removeAll B H ns st = (.ok (), st') ∨ ∃ e, removeAll B H ns st = (.error (.err (.storageError e)), st')) := by
  intro ns
  induction ns with
  | nil => intro st; exact ⟨st, .refl st, .inl rfl⟩
  | cons n ns ih =>
    intro st
    have hk : ∀ x q, seen (B.remove (n.hash H) st.storage).2 x q → seen st.storage x q := fun _ _ => hB.remove
    rw [removeAll]
    rcases hi : B.remove (n.hash H) st.storage with ⟨e | v, s⟩ <;> rw [hi] at hk
    · have : onStorage (B.remove (n.hash H)) st = (.error (.err (.storageError e)), { st with storage := s }) := by
        unfold onStorage; rw [hi]
      rw [Exec.bind_error this]
      exact ⟨{ st with storage := s }, ⟨rfl, hk⟩, .inr ⟨e, rfl⟩⟩
    · have : onStorage (B.remove (n.hash H)) st = (.ok v, { st with storage := s }) := by
        unfold onStorage; rw [hi]
      rw [Exec.bind_ok this]
      obtain ⟨st2, k2, h2⟩ := ih { st with storage := s }
      exact ⟨st2, Kept.trans (st' := { st with storage := s }) ⟨rfl, hk⟩ k2, h2⟩

/-! ### Whole calls -/

/-- The call gave the tree `t'`, or an error from the storage and the old tree. -/
def Outcome (H : HashFn) (M : Bytes → Prop) (U : Bytes32 → Prop) (seen : S → Bytes32 → Prim → Prop) (r : Except (Fail (Error E)) Unit × Tree S)
    (st : Tree S) (t' : T) : Prop :=
  Pure H M U seen r.2.storage ∧ ((r.1 = .ok () ∧ r.2.rootNode = toNode H 0 t') ∨ (∃ e, r.1 = .error (.err e) ∧ e.FromStorage) ∧ r.2.rootNode = st.rootNode)

theorem update_spec (hB : NoInvention B seen) (p : Profile) (env : Env H M U) {k : Bytes32} {data : Bytes} (hdata : data.isEmpty = false) (hu : U k) {t : T}
    (w : WF 0 t) (hin : In H M t) (hin' : In H M (ins k (H data) 0 t)) (st : Tree S) (hroot : st.rootNode = toNode H 0 t)
    (hv : Pure H M U seen st.storage) : Outcome H M U seen (update B p H k data st) st (ins k (H data) 0 t) := by
  have is := ins_spec (k := k) (v := H data) w (Ag.zero k t) (by omega)
  have hl : In H M (leaf k (H data)) := hin'.leaf_of_mem ((is.2.1 (k, H data)).2 (.inl rfl))
  have hleaf : Node.createLeaf H k data = toNode H 0 (leaf k (H data)) := rfl
  have hprim : (toNode H 0 (leaf k (H data))).toPrim = leafPrim k (H data) := rfl
  have hg : Good H M ((leaf k (H data)).hash H) (toNode H 0 (leaf k (H data))).toPrim :=
    ⟨leaf k (H data), 0, trivial, hl, by simp, rfl, rfl⟩
  unfold update Outcome
  rw [hdata]
  simp only [Bool.false_eq_true, if_false]
  rw [hleaf, hash_toNode env (t := leaf k (H data)) (d := 0) trivial hl]
  obtain ⟨st1, f1, h1⟩ := insert_fine hB (.inl hg) st hv
  rcases h1 with ⟨v1, h1⟩ | ⟨e, h1⟩
  · rw [Exec.bind_ok h1, leafKey_leaf, Exec.liftRes_ok_bind, hprim]
    obtain ⟨st2, f2, h2⟩ := insert_fine hB (x := k) (.inr ⟨hu, H data, rfl⟩) st1 f1.pure
    rcases h2 with ⟨v2, h2⟩ | ⟨e, h2⟩
    · rw [Exec.bind_ok h2, Exec.get_bind, f2.root, f1.root, hroot]
      by_cases ht : t = .empty
      · subst ht
        rw [if_pos ((isPlaceholder_toNode env w hin).2 rfl)]
        rw [setRootNode_spec p env (t := leaf k (H data)) trivial hl]
        exact ⟨f2.pure, .inl ⟨rfl, rfl⟩⟩
      · rw [if_neg (fun h => ht ((isPlaceholder_toNode env w hin).1 h))]
        obtain ⟨st3, k3, h3⟩ := pathSet_spec hB p env (HasKey.leaf H 0 k (H data)) st2 (by rw [f2.root, f1.root, hroot]) w hin f2.pure
        have r3 : st3.rootNode = toNode H 0 t := by rw [k3.root, f2.root, f1.root, hroot]
        rcases h3 with h3 | ⟨e, h3, he⟩
        · rw [Exec.bind_ok h3]
          simp only []
          rw [updateW_any]
          obtain ⟨st4, f4, h4⟩ := (updateW_leads p env w hin hin').onAny hB st3 (k3.pure f2.pure)
          rcases h4 with h4 | ⟨e, h4⟩
          · rw [Exec.bind_ok h4, setRootNode_spec p env is.1 hin']
            exact ⟨f4.pure, .inl ⟨rfl, rfl⟩⟩
          · rw [Exec.bind_error h4]
            exact ⟨f4.pure, .inr ⟨⟨_, rfl, trivial⟩, by rw [f4.root, r3]⟩⟩
        · rw [Exec.bind_error h3]
          exact ⟨k3.pure f2.pure, .inr ⟨⟨_, rfl, he⟩, r3⟩⟩
    · rw [Exec.bind_error h2]
      exact ⟨f2.pure, .inr ⟨⟨_, rfl, trivial⟩, by rw [f2.root, f1.root, hroot]⟩⟩
  · rw [Exec.bind_error h1]
    exact ⟨f1.pure, .inr ⟨⟨_, rfl, trivial⟩, f1.root⟩⟩

theorem root_toNode (env : Env H M U) {t : T} (w : WF 0 t) (hin : In H M t) {st : Tree S} (hroot : st.rootNode = toNode H 0 t) :
    st.root H = t.hash H := by
  unfold Tree.root
  rw [hroot, hash_toNode env w hin]

theorem delete_nothing (p : Profile) (env : Env H M U) {k : Bytes32} {t : T} (w : WF 0 t) (hin : In H M t) (h0 : t = .empty) (st : Tree S)
    (hroot : st.rootNode = toNode H 0 t) : delete B p H k st = (.ok (), st) := by
  unfold delete
  rw [Exec.get_bind, root_toNode env w hin hroot, h0, if_pos (show T.hash H .empty = zeroSum from rfl)]
  rfl

theorem delete_spec (hB : NoInvention B seen) (p : Profile) (env : Env H M U) {k : Bytes32} (hu : U k) {t : T}
    (w : WF 0 t) (hin : In H M t) (h0 : t ≠ .empty) (st : Tree S) (hin' : B.has k st.storage = true → In H M (del k 0 t))
    (hroot : st.rootNode = toNode H 0 t) (hv : Pure H M U seen st.storage) :
    Outcome H M U seen (delete B p H k st) st (if B.has k st.storage then del k 0 t else t) := by
  have hz : st.root H ≠ zeroSum := by
    rw [root_toNode env w hin hroot]
    exact fun h => h0 ((hin.hash_zero env).1 h)
  unfold delete Outcome
  rw [Exec.get_bind, if_neg hz]
  unfold Backend.has at hin' ⊢
  have hless : ∀ x q, seen (B.get k st.storage).2 x q → seen st.storage x q := fun _ _ => hB.get
  have hfound := @hB.found k st.storage
  rcases hg : B.get k st.storage with ⟨e | q, s⟩ <;> rw [hg] at hin' hless hfound
  · have e1 : onStorage (B.get k) st = (.error (.err (.storageError e)), { st with storage := s }) := by
      unfold onStorage; rw [hg]
    rw [Exec.bind_error e1]
    exact ⟨hv.less hless, .inr ⟨⟨_, rfl, trivial⟩, rfl⟩⟩
  · have e1 : onStorage (B.get k) st = (.ok q, { st with storage := s }) := by
      unfold onStorage; rw [hg]
    rw [Exec.bind_ok e1]
    cases q with
    | none => exact ⟨hv.less hless, .inl ⟨rfl, hroot⟩⟩
    | some q =>
      obtain ⟨v, rfl⟩ := hv.user env hu (hfound rfl)
      have hk : HasKey (toNode H 0 (leaf k v)) k := HasKey.leaf H 0 k v
      have hof : Node.ofPrim (leafPrim k v) = .ok (toNode H 0 (leaf k v)) := ofPrim_toPrim _
      simp only [hof]
      obtain ⟨st1, k1, h1⟩ := pathSet_spec hB p env hk { st with storage := s } hroot w hin (hv.less hless)
      have p1 : Pure H M U seen st1.storage := k1.pure (hv.less hless)
      have r1 : st1.rootNode = st.rootNode := k1.root
      rcases h1 with h1 | ⟨e, h1, he⟩
      · rw [Exec.bind_ok h1]
        simp only []
        rw [deleteWithPathSet_eq p hk]
        obtain ⟨st2, k2, h2⟩ := removeAll_spec (H := H) hB (pathNodes H k 0 t) st1
        rcases h2 with h2 | ⟨e, h2⟩
        · rw [Exec.bind_ok h2]
          obtain ⟨st3, f3, h3⟩ := (rebuildW_leads p env w (hin' rfl)).onAny hB st2 (k2.pure p1)
          rcases h3 with h3 | ⟨e, h3⟩
          · rw [Exec.bind_ok h3, setRootNode_spec p env (del_spec w).1 (hin' rfl)]
            exact ⟨f3.pure, .inl ⟨rfl, rfl⟩⟩
          · rw [Exec.bind_error h3]
            exact ⟨f3.pure, .inr ⟨⟨_, rfl, trivial⟩, by rw [f3.root, k2.root, r1]⟩⟩
        · rw [Exec.bind_error h2]
          exact ⟨k2.pure p1, .inr ⟨⟨_, rfl, trivial⟩, by rw [k2.root, r1]⟩⟩
      · rw [Exec.bind_error h1]
        exact ⟨p1, .inr ⟨⟨_, rfl, he⟩, r1⟩⟩

/-! ### The invariant -/

/-- The root node `n` is that of the tree of the map. -/
def Has (H : HashFn) (M : Bytes → Prop) (n : Node) (kv : Entries Bytes) : Prop :=
  ∃ t, WF 0 t ∧ In H M t ∧ Ent H t kv ∧ n = toNode H 0 t

theorem Has.new : Has H M Node.createPlaceholder [] := ⟨.empty, trivial, In.empty, Ent.empty H, rfl⟩

theorem Has.root_eq (env : Env H M U) {n : Node} {kv : Entries Bytes} (h : Has H M n kv) (s : S) : (⟨n, s⟩ : Tree S).root H = rootOf H kv := by
  obtain ⟨t, w, hin, he, rfl⟩ := h
  rw [root_toNode env w hin rfl, he.root w]

theorem Outcome.settle {r : Except (Fail (Error E)) Unit × Tree S} {st : Tree S} {t' : T} {kv : Entries Bytes} {op : Op} {b : Bool}
    (h : Outcome H M U seen r st t') (ho : Has H M st.rootNode kv)
    (hn : Has H M (toNode H 0 t') ((⟨op, b, .ok ()⟩ : Event E).attempt kv)) :
    Pure H M U seen r.2.storage ∧ Has H M r.2.rootNode ((⟨op, b, r.1⟩ : Event E).effect kv) ∧ (Answer.done r.1).Fair := by
  obtain ⟨hp, ⟨h1, h2⟩ | ⟨⟨e, h1, he⟩, h2⟩⟩ := h
  · refine ⟨hp, ?_, ?_⟩
    · rw [h2, h1]; exact hn
    · rw [h1]; trivial
  · refine ⟨hp, ?_, ?_⟩
    · rw [h2, h1]; exact ho
    · rw [h1]; exact he

theorem run_step (hB : NoInvention B seen) (p : Profile) (env : Env H M U) (op : Op) (hu : U op.key) (st : Tree S) {kv : Entries Bytes}
    (hv : Pure H M U seen st.storage) (h : Has H M st.rootNode kv)
    (hf : Fits H M ((⟨op, B.has op.key st.storage, .ok ()⟩ : Event E).attempt kv)) :
    Pure H M U seen (run B p H op st).2.storage ∧
      Has H M (run B p H op st).2.rootNode ((⟨op, B.has op.key st.storage, (run B p H op st).1⟩ : Event E).effect kv) ∧
      (Answer.done (run B p H op st).1).Fair := by
  have ho := h
  obtain ⟨t, w, hin, he, hroot⟩ := h
  have hdel : ∀ k, op.data = none → op.key = k → Pure H M U seen (delete B p H k st).2.storage ∧
      Has H M (delete B p H k st).2.rootNode ((⟨op, B.has op.key st.storage, (delete B p H k st).1⟩ : Event E).effect kv) ∧
      (Answer.done (delete B p H k st).1).Fair := by
    rintro k hd rfl
    by_cases h0 : t = .empty
    · rw [delete_nothing p env w hin h0 st hroot]
      refine ⟨hv, ?_, trivial⟩
      have hkv := (he.nil w).1 h0
      subst hkv
      have : (⟨op, B.has op.key st.storage, .ok ()⟩ : Event E).effect [] = [] := by
        unfold Event.effect Event.attempt
        simp only [hd]
        have : met op.key ([] : Entries Bytes) = none := rfl
        rw [this]; split <;> rfl
      rw [this]
      exact ho
    · have hatt : (⟨op, B.has op.key st.storage, .ok ()⟩ : Event E).attempt kv = if B.has op.key st.storage then eraseMet kv op.key else kv := by
        unfold Event.attempt eraseMet
        simp only [hd]
        split <;> rfl
      rw [hatt] at hf
      have ed := he.del w op.key
      have wd := (del_spec (k := op.key) w).1
      have := delete_spec hB p env hu w hin h0 st (fun hb => ed.inn wd (by rw [if_pos hb] at hf; exact hf)) hroot hv
      refine this.settle ho ?_
      rw [hatt]
      split
      · rename_i hb
        exact ⟨_, wd, ed.inn wd (by rw [if_pos hb] at hf; exact hf), ed, rfl⟩
      · exact ⟨t, w, hin, he, rfl⟩
  cases op with
  | delete k => exact hdel k rfl rfl
  | update k d =>
    by_cases hd : d = []
    · have h1 : (Op.update k d).data = none := by simp [Op.data, hd]
      have h2 : update B p H k d = delete B p H k := by unfold update; rw [hd]; rfl
      simp only [run, h2]
      exact hdel k h1 rfl
    · have hdata : (Op.update k d).data = some d := by simp [Op.data, hd]
      have hemp : d.isEmpty = false := by cases d <;> simp_all
      have hatt : (⟨.update k d, B.has k st.storage, .ok ()⟩ : Event E).attempt kv = Entries.put kv k d := by
        unfold Event.attempt
        simp only [hdata]
        rfl
      have wi := (ins_spec (k := k) (v := H d) w (Ag.zero k t) (by omega)).1
      have ei := he.put w k d
      have ini := ei.inn wi (by rw [← hatt]; exact hf)
      refine (update_spec hB p env hemp hu w hin ini st hroot hv).settle ho ?_
      show Has H M _ ((⟨.update k d, B.has k st.storage, .ok ()⟩ : Event E).attempt kv)
      rw [hatt]
      exact ⟨_, wi, ini, ei, rfl⟩

/-- What is known of the trees and the storage. -/
structure Watched (H : HashFn) (M : Bytes → Prop) (U : Bytes32 → Prop) (seen : S → Bytes32 → Prim → Prop) (c : Watch S) : Prop where
  pure : Pure H M U seen c.bench.storage
  has : ∀ i, Has H M (c.bench.node i) (c.kv i)

theorem Watched.start {s : S} (h : Pure H M U seen s) : Watched H M U seen (Watch.start s) := ⟨h, fun _ => Has.new⟩

theorem handle_watched (hB : NoInvention B seen) (p : Profile) (env : Env H M U) (r : Sparse.Request) {c : Watch S} (h : Watched H M U seen c)
    (hu : ∀ i op, r = .call i op → U op.key) (hf : ∀ kv ∈ c.aim B r, Fits H M kv)
    (hl : ∀ i kv, r = .load i kv → kv ≠ [] ∧ (keysOf kv).Nodup) :
    c.Right H r (c.handle B p H r).1 ∧ Watched H M U seen (c.handle B p H r).2 := by
  cases r with
  | new i =>
    refine ⟨⟨trivial, by simp⟩, h.pure, fun j => ?_⟩
    simp only [Watch.handle, Sparse.Request.asked, Bench.handle, Watch.expect]
    split
    · exact Has.new
    · exact h.has j
  | root i =>
    refine ⟨⟨trivial, fun j e => ?_⟩, h⟩
    cases e
    exact congrArg Answer.root ((h.has i).root_eq env _)
  | load i kv =>
    obtain ⟨hne, hn⟩ := hl i kv rfl
    obtain ⟨t, w, he⟩ := exists_tree H kv hn
    have hin := he.inn w (hf kv (by simp [Watch.aim]))
    have h0 : t ≠ .empty := fun e => hne ((he.nil w).1 e)
    have hless : ∀ x q, seen (B.get (rootOf H kv) c.bench.storage).2 x q → seen c.bench.storage x q := fun _ _ => hB.get
    have hfound := @hB.found (rootOf H kv) c.bench.storage
    simp only [Watch.handle, Sparse.Request.asked, Bench.handle, Tree.load]
    rcases hg : B.get (rootOf H kv) c.bench.storage with ⟨e | _ | q, s⟩ <;> rw [hg] at hless hfound
    · exact ⟨⟨trivial, by simp⟩, h.pure.less hless, h.has⟩
    · exact ⟨⟨trivial, by simp⟩, h.pure.less hless, h.has⟩
    · have hq : q = (toNode H 0 t).toPrim := h.pure.get env w hin h0 (by rw [he.root w]; exact hfound rfl)
      subst hq
      simp only [ofPrim_toPrim]
      refine ⟨⟨trivial, by simp⟩, h.pure.less hless, fun j => ?_⟩
      simp only [Watch.expect]
      split
      · exact ⟨t, w, hin, he, rfl⟩
      · exact h.has j
  | call i op =>
    obtain ⟨h1, h2, h3⟩ := run_step hB p env op (hu i op rfl) ⟨c.bench.node i, c.bench.storage⟩ h.pure (h.has i) (hf _ (by simp [Watch.aim]))
    refine ⟨⟨h3, by simp⟩, h1, fun j => ?_⟩
    simp only [Watch.handle, Sparse.Request.asked, Bench.handle, Watch.expect]
    split
    · exact h2
    · exact h.has j

theorem handleAll_watched (hB : NoInvention B seen) (p : Profile) (env : Env H M U) : ∀ (rs : List Sparse.Request) {c : Watch S}, Watched H M U seen c →
    (∀ op ∈ callsOf rs, U op.key) → (∀ kv ∈ c.aims B p H rs, Fits H M kv) → LoadsOk H rs →
    c.AllRight B p H rs ∧ Watched H M U seen (c.handleAll B p H rs).2 := by
  intro rs
  induction rs with
  | nil => intro c h _ _ _; exact ⟨trivial, h⟩
  | cons r rs ih =>
    intro c h hu hf hl
    obtain ⟨h1, h2⟩ := handle_watched hB p env r h (fun i op e => hu op (callsOf_mem (i := i) (by simp [e])))
      (fun kv hkv => hf kv (by simp [Watch.aims, hkv])) (fun i kv e => ⟨(hl i kv (by simp [e])).1, (hl i kv (by simp [e])).2.1⟩)
    obtain ⟨h3, h4⟩ := ih h2 (fun op ho => hu op (by
        obtain ⟨x, hx, e⟩ := List.mem_filterMap.1 ho
        exact List.mem_filterMap.2 ⟨x, by simp [hx], e⟩))
      (fun kv hkv => hf kv (by simp [Watch.aims, hkv])) (fun i kv e => hl i kv (by simp [e]))
    exact ⟨⟨h1, h3⟩, h4⟩

theorem watch_kv (p : Profile) (r : Sparse.Request) (c : Watch S) (i : Nat) : ((c.handle B p H r).2.kv i = c.kv i) ∨ (c.handle B p H r).2.kv i = [] ∨
    (∃ kv, r = .load i kv ∧ (c.handle B p H r).2.kv i = kv) ∨
    ∃ op out, r = .call i op ∧ (c.handle B p H r).2.kv i = (⟨op, B.has op.key c.bench.storage, out⟩ : Event E).effect (c.kv i) := by
  simp only [Watch.handle]
  generalize (c.bench.handle B p H (r.asked H)).1 = o
  cases r with
  | new j =>
    by_cases e : i = j
    · exact .inr (.inl (by simp [Watch.expect, e]))
    · exact .inl (by simp [Watch.expect, e])
  | root j => exact .inl rfl
  | load j kv =>
    rcases o with (_ | _) | _
    · exact .inl rfl
    · by_cases e : i = j
      · subst e; exact .inr (.inr (.inl ⟨kv, rfl, by simp [Watch.expect]⟩))
      · exact .inl (by simp [Watch.expect, e])
    · exact .inl rfl
  | call j op =>
    rcases o with out | _
    · by_cases e : i = j
      · subst e; exact .inr (.inr (.inr ⟨op, out, rfl, by simp [Watch.expect]⟩))
      · exact .inl (by simp [Watch.expect, e])
    · exact .inl rfl

theorem watch_solid (p : Profile) : ∀ (rs : List Sparse.Request) (c : Watch S), (∀ i, (keysOf (c.kv i)).Nodup ∧ Solid H (c.kv i)) → NoPhantom H (callsOf rs) →
    LoadsOk H rs → ∀ x ∈ c.aims B p H rs, (keysOf x).Nodup ∧ Solid H x := by
  intro rs
  induction rs with
  | nil => intro d _ _ _ x hx; cases hx
  | cons r rs ih =>
    intro d hd hp hl x hx
    rw [Watch.aims, List.mem_append] at hx
    rcases hx with hx | hx
    · cases r with
      | new i => cases hx
      | root i => cases hx
      | load i kv => cases List.mem_singleton.1 hx; exact (hl i x (by simp)).2
      | call i op =>
        have h1 := hp op (callsOf_mem (i := i) (by simp))
        rw [List.mem_singleton.1 hx]
        exact ⟨Event.attempt_nodup _ (hd i).1, Event.attempt_solid _ (hd i).2 h1⟩
    · refine ih _ (fun i => ?_) (fun op ho => hp op (by
          obtain ⟨y, hy, e⟩ := List.mem_filterMap.1 ho
          exact List.mem_filterMap.2 ⟨y, by simp [hy], e⟩)) (fun i kv e => hl i kv (by simp [e])) x hx
      rcases watch_kv (B := B) (H := H) p r d i with e | e | ⟨kv, e, e'⟩ | ⟨op, out, e, e'⟩
      · rw [e]; exact hd i
      · rw [e]; exact ⟨by simp [keysOf], Solid.nil H⟩
      · rw [e']; exact (hl i kv (by simp [e])).2
      · rw [e']
        exact ⟨Event.effect_nodup _ (hd i).1, Event.effect_solid _ (hd i).2 (hp op (callsOf_mem (i := i) (by simp [e])))⟩

end Sparse.Any
end FuelMerkle
