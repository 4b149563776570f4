import Verif.Proofs.SparseUpdate

/-
Removing the path of a key: `delete`.
-/
namespace FuelMerkle
namespace Sparse
open Spec T
variable {E : Type} {H : HashFn} {M : Bytes → Prop} {U : Bytes32 → Prop}

/-! ### The nodes of the path are not used by the rest of the tree -/

/-- Trees on the path, the last one first. -/
def pathTrees (k : Bytes32) : Nat → T → List T
  | d, .node l r => (if keyBit k d then pathTrees k (d + 1) r else pathTrees k (d + 1) l) ++ [node l r]
  | _, t => [t]

/-- Trees beside the path, the last one first. -/
def sideTrees (k : Bytes32) : Nat → T → List T
  | d, .node l r => if keyBit k d then sideTrees k (d + 1) r ++ [l] else sideTrees k (d + 1) l ++ [r]
  | _, _ => []

theorem pathTrees_node (k : Bytes32) (d : Nat) (l r : T) :
    pathTrees k d (node l r) = pathTrees k (d + 1) (if keyBit k d then r else l) ++ [node l r] := by
  rw [pathTrees]; cases keyBit k d <;> rfl
theorem sideTrees_node (k : Bytes32) (d : Nat) (l r : T) :
    sideTrees k d (node l r) = sideTrees k (d + 1) (if keyBit k d then r else l) ++ [if keyBit k d then l else r] := by
  rw [sideTrees]; cases keyBit k d <;> rfl

theorem pathTrees_in (k : Bytes32) : ∀ {t : T} {d : Nat}, WF d t → In H M t → ∀ q ∈ pathTrees k d t,
    (∃ e, WF e q) ∧ In H M q ∧ (∀ x ∈ q.entries, x ∈ t.entries) := by
  intro t
  induction t with
  | empty => intro d w hin q hq; simp only [pathTrees, List.mem_singleton] at hq; subst hq; exact ⟨⟨d, w⟩, hin, fun _ => id⟩
  | leaf k' v' => intro d w hin q hq; simp only [pathTrees, List.mem_singleton] at hq; subst hq; exact ⟨⟨d, w⟩, hin, fun _ => id⟩
  | node l r ihl ihr =>
    intro d w hin q hq
    rw [pathTrees_node, List.mem_append, List.mem_singleton] at hq
    rcases hq with hq | rfl
    · revert hq
      cases keyBit k d
      · intro hq
        obtain ⟨a, b, c⟩ := ihl w.2.1 hin.left q hq
        exact ⟨a, b, fun x hx => by rw [entries, List.mem_append]; exact .inl (c x hx)⟩
      · intro hq
        obtain ⟨a, b, c⟩ := ihr w.2.2.1 hin.right q hq
        exact ⟨a, b, fun x hx => by rw [entries, List.mem_append]; exact .inr (c x hx)⟩
    · exact ⟨⟨d, w⟩, hin, fun _ => id⟩

theorem pathNodes_hash (env : Env H M U) (k : Bytes32) : ∀ {t : T} {d : Nat}, WF d t → In H M t →
    (pathNodes H k d t).map (·.hash H) = (pathTrees k d t).map (·.hash H) := by
  intro t
  induction t with
  | empty => intro d w hin; rfl
  | leaf k' v' =>
    intro d w hin
    simp only [pathNodes, pathTrees, List.map_cons, List.map_nil]
    rw [hash_toNode env w hin]
  | node l r ihl ihr =>
    intro d w hin
    rw [pathNodes_node, pathTrees_node, List.map_append, List.map_append]
    simp only [List.map_cons, List.map_nil]
    rw [hash_toNode env w hin]
    congr 1
    cases keyBit k d
    · exact ihl w.2.1 hin.left
    · exact ihr w.2.2.1 hin.right

/-- Subtree. -/
inductive Sub : T → T → Prop
  | refl (t : T) : Sub t t
  | left {q l r : T} : Sub q l → Sub q (node l r)
  | right {q l r : T} : Sub q r → Sub q (node l r)

theorem Sub.size {q t : T} (h : Sub q t) : q.size ≤ t.size := by
  induction h with
  | refl => exact Nat.le_refl _
  | left _ ih => rw [T.size]; omega
  | right _ ih => rw [T.size]; omega

theorem Sub.entries {q t : T} (h : Sub q t) : ∀ x ∈ q.entries, x ∈ t.entries := by
  induction h with
  | refl => exact fun _ => id
  | left _ ih => intro x hx; rw [T.entries, List.mem_append]; exact .inl (ih x hx)
  | right _ ih => intro x hx; rw [T.entries, List.mem_append]; exact .inr (ih x hx)

theorem Sub.wf {q t : T} (h : Sub q t) : ∀ {d : Nat}, WF d t → ∃ e, WF e q := by
  induction h with
  | refl => exact fun w => ⟨_, w⟩
  | left _ ih => exact fun w => ih w.2.1
  | right _ ih => exact fun w => ih w.2.2.1

theorem Sub.inn {q t : T} (h : Sub q t) : In H M t → In H M q := by
  induction h with
  | refl => exact id
  | left _ ih => exact fun hin => ih hin.left
  | right _ ih => exact fun hin => ih hin.right

theorem size_parts (b : Bool) (l r : T) : (if b then r else l).size < (node l r).size ∧
    (if b then l else r).size < (node l r).size := by
  cases b
  · simp only [Bool.false_eq_true, if_false, size]; omega
  · simp only [if_true, size]; omega

theorem sideTrees_size (k : Bytes32) : ∀ {t : T} {d : Nat}, ∀ s ∈ sideTrees k d t, s.size < t.size := by
  intro t
  induction t with
  | empty => intro d s hs; simp [sideTrees] at hs
  | leaf k' v' => intro d s hs; simp [sideTrees] at hs
  | node l r ihl ihr =>
    intro d s hs
    rw [sideTrees_node, List.mem_append, List.mem_singleton] at hs
    have := size_parts (keyBit k d) l r
    rcases hs with hs | rfl
    · revert hs this
      cases keyBit k d
      · intro h hs; exact Nat.lt_trans (ihl s hs) h.1
      · intro h hs; exact Nat.lt_trans (ihr s hs) h.1
    · exact this.2

/-- No nonempty subtree of a tree beside the path is on the path. -/
theorem sides_disjoint (k : Bytes32) : ∀ {t : T} {d : Nat}, WF d t → In H M t → ∀ s ∈ sideTrees k d t, ∀ q, Sub q s → q ≠ .empty →
    q ∉ pathTrees k d t := by
  intro t
  induction t with
  | empty => intro d w hin s hs; simp [sideTrees] at hs
  | leaf k' v' => intro d w hin s hs; simp [sideTrees] at hs
  | node l r ihl ihr =>
    intro d w hin s hs q hq hne hmem
    rw [sideTrees_node, List.mem_append, List.mem_singleton] at hs
    rw [pathTrees_node, List.mem_append, List.mem_singleton] at hmem
    have hsz := size_parts (keyBit k d) l r
    rcases hmem with hmem | rfl
    · rcases hs with hs | rfl
      · revert hs hmem
        cases keyBit k d
        · intro hmem hs; exact ihl w.2.1 hin.left s hs q hq hne hmem
        · intro hmem hs; exact ihr w.2.2.1 hin.right s hs q hq hne hmem
      · have hwf : ∃ e, WF e q := by
          exact hq.wf (node_parts k w).2
        obtain ⟨e, we⟩ := hwf
        have hent : q.entries ≠ [] := fun h => hne ((entries_nil we).1 h)
        obtain ⟨x, xs, hx⟩ := List.exists_cons_of_ne_nil hent
        have hxq : x ∈ q.entries := by rw [hx]; simp
        have h1 := hq.entries x hxq
        have h2 : x ∈ (if keyBit k d then r else l).entries :=
          (pathTrees_in k (node_parts k w).1 (In.parts k hin).1 q hmem).2.2 x hxq
        revert h1 h2
        cases keyBit k d
        · intro h1 h2
          have a := w.2.2.2.1 x h2
          have b := w.2.2.2.2.1 x h1
          rw [a] at b; cases b
        · intro h1 h2
          have a := w.2.2.2.1 x h1
          have b := w.2.2.2.2.1 x h2
          rw [a] at b; cases b
    · have h1 := hq.size
      rcases hs with hs | rfl
      · revert hs hsz
        cases keyBit k d
        · intro hsz hs
          have := sideTrees_size k s hs
          have := hsz.1
          simp only [Bool.false_eq_true, if_false] at *
          omega
        · intro hsz hs
          have := sideTrees_size k s hs
          have := hsz.1
          simp only [if_true] at *
          omega
      · omega

/-- All trees beside the path are stored. -/
def SidesStored (H : HashFn) (m : Bytes32 → Option Prim) (k : Bytes32) : Nat → T → Prop
  | d, .node l r => if keyBit k d then SidesStored H m k (d + 1) r ∧ Stored H m (d + 1) l
    else SidesStored H m k (d + 1) l ∧ Stored H m (d + 1) r
  | _, _ => True

theorem SidesStored_node (m : Bytes32 → Option Prim) (k : Bytes32) (d : Nat) (l r : T) :
    SidesStored H m k d (node l r) ↔ SidesStored H m k (d + 1) (if keyBit k d then r else l) ∧
      Stored H m (d + 1) (if keyBit k d then l else r) := by
  rw [SidesStored]; cases keyBit k d <;> simp

theorem Stored.sides {m : Bytes32 → Option Prim} (k : Bytes32) : ∀ {t : T} {d : Nat}, Stored H m d t → SidesStored H m k d t := by
  intro t
  induction t with
  | empty => intros; trivial
  | leaf k v => intros; trivial
  | node l r ihl ihr =>
    intro d h
    rw [SidesStored_node]
    cases keyBit k d
    · exact ⟨ihl h.2.1, h.2.2⟩
    · exact ⟨ihr h.2.2, h.2.1⟩

theorem Stored.congr {m m' : Bytes32 → Option Prim} : ∀ {t : T} {d : Nat}, (∀ q, Sub q t → q ≠ .empty → m' (q.hash H) = m (q.hash H)) →
    Stored H m d t → Stored H m' d t := by
  intro t
  induction t with
  | empty => intros; trivial
  | leaf k v => intro d h hs; exact (h _ (.refl _) (by simp)).trans hs
  | node l r ihl ihr =>
    intro d h hs
    exact ⟨(h _ (.refl _) (by simp)).trans hs.1, ihl (fun q hq => h q (.left hq)) hs.2.1, ihr (fun q hq => h q (.right hq)) hs.2.2⟩

theorem SidesStored.congr {m m' : Bytes32 → Option Prim} (k : Bytes32) : ∀ {t : T} {d : Nat},
    (∀ s ∈ sideTrees k d t, ∀ q, Sub q s → q ≠ .empty → m' (q.hash H) = m (q.hash H)) →
    SidesStored H m k d t → SidesStored H m' k d t := by
  intro t
  induction t with
  | empty => intros; trivial
  | leaf k v => intros; trivial
  | node l r ihl ihr =>
    intro d h hs
    rw [SidesStored_node] at hs ⊢
    rw [sideTrees_node] at h
    refine ⟨?_, Stored.congr (h _ (by simp)) hs.2⟩
    have h1 := fun s hs => h s (List.mem_append.2 (.inl hs))
    revert h1 hs
    cases keyBit k d
    · intro hs h1; exact ihl h1 hs.1
    · intro hs h1; exact ihr h1 hs.1

theorem SidesStored.grow (env : Env H M U) (k : Bytes32) {st st' : Tree E} (g : Grow H M st st') : ∀ {t : T} {d : Nat}, WF d t → In H M t →
    SidesStored H st.storage.map k d t → SidesStored H st'.storage.map k d t := by
  intro t
  induction t with
  | empty => intros; trivial
  | leaf k v => intros; trivial
  | node l r ihl ihr =>
    intro d w hin hs
    rw [SidesStored_node] at hs ⊢
    refine ⟨?_, g.stored env (node_parts k w).2 (In.parts k hin).2 hs.2⟩
    revert hs
    cases keyBit k d
    · intro hs; exact ihl w.2.1 hin.left hs.1
    · intro hs; exact ihr w.2.2.1 hin.right hs.1

/-! ### Removing the path -/

theorem remove_any (x : Bytes32) (st : Tree E) :
    ∃ st', st'.rootNode = st.rootNode ∧ st'.storage.sched = st.storage.sched ∧
      ((onStorage (Store.remove x) st = (.ok (st.storage.map x), st') ∧ st'.storage.map = Store.upd st.storage.map x none) ∨
       ((∃ e, onStorage (Store.remove x) st = (.error (.err e), st')) ∧ ¬ st.storage.Reliable ∧
          (st'.storage.map = st.storage.map ∨ st'.storage.map = Store.upd st.storage.map x none))) := by
  cases hs : st.storage.sched st.storage.clock with
  | none =>
    refine ⟨{ st with storage := { st.storage with clock := st.storage.clock + 1, map := Store.upd st.storage.map x none } },
      rfl, rfl, .inl ⟨?_, rfl⟩⟩
    unfold onStorage
    rw [Store.remove_none _ hs]
  | some f =>
    refine ⟨{ st with storage := { st.storage with clock := st.storage.clock + 1, map := if f.applied then Store.upd st.storage.map x none else st.storage.map } }, rfl, rfl, .inr ⟨⟨.storageError f.err, ?_⟩, fun h => ?_, ?_⟩⟩
    · unfold onStorage
      rw [Store.remove_fault _ hs]
    · rw [h] at hs; cases hs
    · cases f.applied
      · exact .inl rfl
      · exact .inr rfl

/-- Some of the records `xs` were removed. -/
structure Shrink (xs : List Bytes32) (st st' : Tree E) : Prop where
  root : st'.rootNode = st.rootNode
  sched : st'.storage.sched = st.storage.sched
  map : ∀ x, st'.storage.map x = st.storage.map x ∨ (x ∈ xs ∧ st'.storage.map x = none)

theorem removeAll_spec : ∀ (ns : List Node) (st : Tree E),
    ∃ st', Shrink (ns.map (·.hash H)) st st' ∧
      ((removeAll H ns st = (.ok (), st') ∧ ∀ x ∈ ns.map (·.hash H), st'.storage.map x = none) ∨
       ((∃ e, removeAll H ns st = (.error (.err e), st')) ∧ ¬ st.storage.Reliable)) := by
  intro ns
  induction ns with
  | nil => intro st; exact ⟨st, ⟨rfl, rfl, fun _ => .inl rfl⟩, .inl ⟨rfl, by simp⟩⟩
  | cons n ns ih =>
    intro st
    rw [removeAll]
    obtain ⟨st1, r1, s1, h1⟩ := remove_any (n.hash H) st
    have hstep : ∀ x, (st1.storage.map = st.storage.map ∨ st1.storage.map = Store.upd st.storage.map (n.hash H) none) →
        st1.storage.map x = st.storage.map x ∨ (x = n.hash H ∧ st1.storage.map x = none) := by
      rintro x (h | h)
      · exact .inl (by rw [h])
      · rw [h]
        by_cases hx : x = n.hash H
        · exact .inr ⟨hx, by rw [hx]; simp⟩
        · exact .inl (Store.upd_of_ne _ _ hx)
    rcases h1 with ⟨h1, m1⟩ | ⟨⟨e, h1⟩, hr, m1⟩
    · obtain ⟨st2, g2, h2⟩ := ih st1
      rw [Exec.bind_ok h1]
      refine ⟨st2, ⟨g2.root.trans r1, g2.sched.trans s1, fun x => ?_⟩, ?_⟩
      · rw [List.map_cons, List.mem_cons]
        rcases g2.map x with e | ⟨a, b⟩
        · rcases hstep x (.inr m1) with e' | ⟨a, b⟩
          · exact .inl (e.trans e')
          · exact .inr ⟨.inl a, by rw [e, b]⟩
        · exact .inr ⟨.inr a, b⟩
      · rcases h2 with ⟨h2, k2⟩ | ⟨⟨e, h2⟩, hr⟩
        · refine .inl ⟨h2, fun x hx => ?_⟩
          rw [List.map_cons, List.mem_cons] at hx
          rcases hx with rfl | hx
          · rcases g2.map (n.hash H) with e | ⟨_, b⟩
            · rw [e, m1]; simp
            · exact b
          · exact k2 x hx
        · exact .inr ⟨⟨e, h2⟩, fun h => hr (fun n => by rw [s1]; exact h n)⟩
    · rw [Exec.bind_error h1]
      refine ⟨st1, ⟨r1, s1, fun x => ?_⟩, .inr ⟨⟨e, rfl⟩, hr⟩⟩
      rw [List.map_cons, List.mem_cons]
      rcases hstep x m1 with h | ⟨a, b⟩
      · exact .inl h
      · exact .inr ⟨.inl a, b⟩

/-! ### Rebuilding the path -/

/-- The second part of `delete_with_path_set`, before setting the root. -/
def rebuild (p : Profile) (H : HashFn) (path : Bytes) (sides : List Node) : TreeM E Node := do
  let (current, rest) ←
    (match sides with
    | [] => pure (Node.createPlaceholder, [])
    | first :: others =>
      if first.isLeaf then
        match findNonPlaceholder others with
        | (some sideNode, rest) => do
          let current ← mergeNode p H path first sideNode
          pure (current, rest)
        | (none, rest) => pure (first, rest)
      else pure (Node.createPlaceholder, first :: others))
  mergeNodes p H path current rest

theorem deleteWithPathSet_eq (p : Profile) {requested : Node} {k : Bytes32} (hk : HasKey requested k) (ps ss : List Node) (st : Tree E) :
    deleteWithPathSet p H requested ps ss st =
      (removeAll H ps >>= fun _ => rebuild p H k.val ss >>= fun c => setRootNode p c) st := by
  unfold deleteWithPathSet rebuild
  rw [show requested.leafKey = .ok k from hk]
  simp only [Exec.bind_assoc]
  rfl

theorem find_append_some {xs ys rest : List Node} {n : Node} (h : findNonPlaceholder xs = (some n, rest)) :
    findNonPlaceholder (xs ++ ys) = (some n, rest ++ ys) := by
  induction xs with
  | nil => cases h
  | cons x xs ih =>
    rw [findNonPlaceholder] at h
    rw [List.cons_append, findNonPlaceholder]
    split at h
    · rename_i hx; rw [if_pos hx]; exact ih h
    · rename_i hx; rw [if_neg hx]; cases h; rfl

theorem find_append_none {xs ys rest : List Node} (h : findNonPlaceholder xs = (none, rest)) :
    findNonPlaceholder (xs ++ ys) = findNonPlaceholder ys := by
  induction xs with
  | nil => rfl
  | cons x xs ih =>
    rw [findNonPlaceholder] at h
    rw [List.cons_append, findNonPlaceholder]
    split at h
    · rename_i hx; rw [if_pos hx]; exact ih h
    · cases h

/-- The three ways the rebuilt path can look. -/
inductive Kind (H : HashFn) (k : Bytes32) (d : Nat) (t : T) : Prop
  | stop (h1 : sideNodes H k d t = []) (h2 : del k d t = .empty) (h3 : ∀ l r, t ≠ node l r)
  | single (a b : Bytes32) (others : List Node) (h1 : sideNodes H k d t = toNode H d (leaf a b) :: others)
      (h2 : findNonPlaceholder others = (none, [])) (h3 : del k d t = leaf a b)
      (h4 : ∀ m, SidesStored H m k d t → Stored H m d (leaf a b))
  | inner (l r : T) (h1 : del k d t = node l r)
      (h2 : ∀ (E : Type) (p : Profile) (ys : List Node), (rebuild p H k.val (sideNodes H k d t ++ ys) : TreeM E Node) =
        (rebuild p H k.val (sideNodes H k d t) >>= fun c => mergeNodes p H k.val c ys))

theorem mkOn_node (b : Bool) (l r s : T) : mkOn b (node l r) s = nodeOn b (node l r) s := by
  cases b
  · rfl
  · cases s <;> rfl

theorem mkOn_leaf {b : Bool} {x y : Bytes32} {s : T} (hs : s ≠ .empty) : mkOn b (leaf x y) s = nodeOn b (leaf x y) s := by
  cases b
  · cases s <;> first | rfl | exact absurd rfl hs
  · cases s <;> first | rfl | exact absurd rfl hs

theorem mkOn_empty_node (b : Bool) (l r : T) : mkOn b .empty (node l r) = nodeOn b .empty (node l r) := by
  cases b <;> rfl
theorem mkOn_empty_left (b : Bool) {s : T} (hs : ∀ l r, s ≠ node l r) : mkOn b .empty s = s := by
  cases s with
  | empty => cases b <;> rfl
  | leaf k v => cases b <;> rfl
  | node l r => exact absurd rfl (hs l r)
theorem mkOn_empty_right (b : Bool) (x y : Bytes32) : mkOn b (leaf x y) .empty = leaf x y := by
  cases b <;> rfl

theorem rebuild_nil (p : Profile) (k : Bytes) : (rebuild p H k [] : TreeM E Node) = pure Node.createPlaceholder := rfl

theorem rebuild_leaf_none (p : Profile) (k : Bytes) {first : Node} {others : List Node} (h : first.isLeaf = true)
    (h' : findNonPlaceholder others = (none, [])) : (rebuild p H k (first :: others) : TreeM E Node) = pure first := by
  unfold rebuild
  simp only [h, if_true, h']
  rfl

theorem rebuild_leaf_some (p : Profile) (k : Bytes) {first n : Node} {others rest : List Node} (h : first.isLeaf = true)
    (h' : findNonPlaceholder others = (some n, rest)) : (rebuild p H k (first :: others) : TreeM E Node) =
      (mergeNode p H k first n >>= fun c => mergeNodes p H k c rest) := by
  unfold rebuild
  simp only [h, if_true, h']
  rw [Exec.bind_assoc]
  rfl

theorem rebuild_node (p : Profile) (k : Bytes) {first : Node} {others : List Node} (h : first.isLeaf = false) :
    (rebuild p H k (first :: others) : TreeM E Node) = mergeNodes p H k Node.createPlaceholder (first :: others) := by
  unfold rebuild
  simp only [h, Bool.false_eq_true, if_false]
  rfl

theorem sideNodes_last (k : Bytes32) : ∀ {t : T} {d : Nat}, sideNodes H k d t = [] → ∀ l r, t ≠ node l r := by
  intro t d h l r e
  subst e
  rw [sideNodes_node] at h
  simp at h

theorem findNonPlaceholder_none_rest {xs rest : List Node} (h : findNonPlaceholder xs = (none, rest)) : rest = [] := by
  induction xs with
  | nil => cases h; rfl
  | cons x xs ih =>
    rw [findNonPlaceholder] at h
    split at h
    · exact ih h
    · cases h

/-- `inner` from the shape of the first side node. -/
theorem rebuild_append {first : Node} {others : List Node}
    (h : first.isLeaf = false ∨ ∃ n rest, findNonPlaceholder others = (some n, rest)) (E : Type) (p : Profile) (k : Bytes) (ys : List Node) :
    (rebuild p H k (first :: others ++ ys) : TreeM E Node) =
      (rebuild p H k (first :: others) >>= fun c => mergeNodes p H k c ys) := by
  rw [List.cons_append]
  cases hl : first.isLeaf with
  | false =>
    rw [rebuild_node p k hl, rebuild_node p k hl, ← List.cons_append, mergeNodes_append]
  | true =>
    rcases h with h | ⟨n, rest, h⟩
    · rw [hl] at h; cases h
    · rw [rebuild_leaf_some p k hl h, rebuild_leaf_some p k hl (find_append_some h), Exec.bind_assoc]
      congr 1
      funext c
      rw [mergeNodes_append]

/-- What the rebuilt path looks like, and the outcome of rebuilding it. -/
theorem rebuild_spec (p : Profile) (env : Env H M U) {k : Bytes32} : ∀ {t : T} {d : Nat}, WF d t → In H M (del k d t) →
    Kind H k d t ∧ ∀ (st : Tree E), Out H M (rebuild p H k.val (sideNodes H k d t)) st d (del k d t)
      (SidesStored H st.storage.map k d t) := by
  have node_case : ∀ (b : Bool) (a s : T) (d : Nat), keyBit k d = b → WF d (nodeOn b a s) →
      WF d (mkOn b (del k (d + 1) a) s) →
      In H M (mkOn b (del k (d + 1) a) s) →
      (Kind H k (d + 1) a ∧ ∀ (st : Tree E), Out H M (rebuild p H k.val (sideNodes H k (d + 1) a)) st (d + 1) (del k (d + 1) a)
        (SidesStored H st.storage.map k (d + 1) a)) →
      ∀ (t : T), sideNodes H k d t = sideNodes H k (d + 1) a ++ [toNode H (d + 1) s] → del k d t = mkOn b (del k (d + 1) a) s →
      (∀ m, SidesStored H m k d t ↔ SidesStored H m k (d + 1) a ∧ Stored H m (d + 1) s) →
      Kind H k d t ∧ ∀ (st : Tree E), Out H M (rebuild p H k.val (sideNodes H k d t)) st d (del k d t)
        (SidesStored H st.storage.map k d t) := by
    intro b a s d hb w wd hind ih t e1 e2 e3
    subst hb
    obtain ⟨w1, w2, w3, w4, w5, w6, w7⟩ := WF_nodeOn.1 w
    have hins := hind.mkOn.2
    obtain ⟨kind, ih⟩ := ih
    rw [e1, e2]
    cases kind with
    | stop h1 h2 h3 =>
      rw [h1, List.nil_append]
      rw [h2] at wd hind e2 ⊢
      have hse : s ≠ .empty := by
        rintro rfl
        cases a with
        | empty => simp [entries] at w7
        | leaf x y => simp [entries] at w7
        | node l r => exact h3 l r rfl
      by_cases hs : ∀ l r, s ≠ node l r
      · obtain ⟨x, y, rfl⟩ : ∃ x y, s = leaf x y := by
          cases s with
          | empty => exact absurd rfl hse
          | leaf x y => exact ⟨x, y, rfl⟩
          | node l r => exact absurd rfl (hs l r)
        rw [mkOn_empty_left _ hs] at e2 hind ⊢
        have hl : (toNode H (d + 1) (leaf x y)).isLeaf = true := (isLeaf_toNode env w3 hins).2 hs
        refine ⟨.single x y [] (by rw [e1, h1]; rfl) rfl e2 fun m h => ((e3 m).1 h).2, fun st => ?_⟩
        rw [rebuild_leaf_none p _ hl rfl]
        exact (Out.pure st d (leaf x y)).mono fun h => ((e3 _).1 h).2
      · obtain ⟨l, r, rfl⟩ : ∃ l r, s = node l r := by
          by_contra hc
          exact hs fun l r e => hc ⟨l, r, e⟩
        have hl : (toNode H (d + 1) (node l r)).isLeaf = false := by
          rw [Bool.eq_false_iff]
          intro h
          exact (isLeaf_toNode env w3 hins).1 h l r rfl
        rw [mkOn_empty_node] at e2 hind wd ⊢
        refine ⟨?_, fun st => ?_⟩
        · have e1' : sideNodes H k d t = [toNode H (d + 1) (node l r)] := by rw [e1, h1]; rfl
          have happ := fun E p ys => rebuild_append (H := H) (first := toNode H (d + 1) (node l r)) (others := []) (.inl hl) E p k.val ys
          revert e2
          cases keyBit k d
          · intro e2; exact .inner _ _ e2 (by rw [e1']; exact happ)
          · intro e2; exact .inner _ _ e2 (by rw [e1']; exact happ)
        · rw [rebuild_node p _ hl, mergeNodes_one]
          exact (mergeNode_spec p env wd hind st).mono fun h => ⟨trivial, ((e3 _).1 h).2⟩
    | single x y others h1 h2 h3 h4 =>
      rw [h1, List.cons_append]
      rw [h3] at wd hind e2 ⊢
      have hl : (toNode H (d + 1) (leaf x y)).isLeaf = true := by simp [toNode, Node.isLeaf]
      by_cases hs : s = .empty
      · subst hs
        rw [mkOn_empty_right] at e2 ⊢
        have hf : findNonPlaceholder (others ++ [toNode H (d + 1) .empty]) = (none, []) := by
          rw [find_append_none h2]; rfl
        refine ⟨.single x y _ (by rw [e1, h1]; rfl) hf e2 fun m h => h4 m ((e3 m).1 h).1, fun st => ?_⟩
        rw [rebuild_leaf_none p _ hl hf]
        exact (Out.pure st d (leaf x y)).mono fun h => h4 _ ((e3 _).1 h).1
      · have hp : ¬ (toNode H (d + 1) s).isPlaceholder = true := fun h => hs ((isPlaceholder_toNode env w3 hins).1 h)
        have hf : findNonPlaceholder (others ++ [toNode H (d + 1) s]) = (some (toNode H (d + 1) s), []) := by
          rw [find_append_none h2, findNonPlaceholder, if_neg hp]
        rw [mkOn_leaf hs] at e2 hind wd ⊢
        refine ⟨?_, fun st => ?_⟩
        · have e1' : sideNodes H k d t = toNode H (d + 1) (leaf x y) :: (others ++ [toNode H (d + 1) s]) := by rw [e1, h1]; rfl
          have happ := fun E p ys => rebuild_append (H := H) (first := toNode H (d + 1) (leaf x y)) (.inr ⟨_, _, hf⟩) E p k.val ys
          revert e2
          cases keyBit k d
          · intro e2; exact .inner _ _ e2 (by rw [e1']; exact happ)
          · intro e2; exact .inner _ _ e2 (by rw [e1']; exact happ)
        · rw [rebuild_leaf_some p _ hl hf]
          have := mergeNode_spec p env wd hind st
          have h' : (mergeNode p H k.val (toNode H (d + 1) (leaf x y)) (toNode H (d + 1) s) >>= fun c =>
              mergeNodes p H k.val c []) = (mergeNode p H k.val (toNode H (d + 1) (leaf x y)) (toNode H (d + 1) s) : TreeM E Node) :=
            bind_pure' _
          rw [h']
          exact this.mono fun h => ⟨h4 _ ((e3 _).1 h).1, ((e3 _).1 h).2⟩
    | inner l r h1 h2 =>
      rw [h2 E p]
      have hind' := hind
      have wd' := wd
      rw [h1, mkOn_node] at hind' wd'
      rw [h1, mkOn_node] at e2
      refine ⟨?_, fun st => ?_⟩
      · have happ : ∀ (E : Type) (p : Profile) (ys : List Node), (rebuild p H k.val (sideNodes H k d t ++ ys) : TreeM E Node) =
            (rebuild p H k.val (sideNodes H k d t) >>= fun c => mergeNodes p H k.val c ys) := by
          intro E p ys
          rw [e1, List.append_assoc, h2, h2, Exec.bind_assoc]
          congr 1
          funext c
          exact mergeNodes_append p k.val [toNode H (d + 1) s] ys c
        revert e2
        cases keyBit k d
        · intro e2; exact .inner _ _ e2 happ
        · intro e2; exact .inner _ _ e2 happ
      · refine (ih st).bind ?_
        intro st' g hst
        rw [h1, mkOn_node] 
        have hm := mergeNode_spec p env wd' hind' st'
        rw [← mergeNodes_one] at hm
        refine ⟨_, hm, fun h => ⟨?_, g.stored env w3 hins ((e3 _).1 h).2⟩⟩
        rw [← h1]
        exact hst ((e3 _).1 h).1
  intro t
  induction t with
  | empty =>
    intro d w hin'
    exact ⟨.stop rfl rfl (by simp), fun st => (Out.pure st d .empty).mono fun _ => trivial⟩
  | leaf k' v' =>
    intro d w hin'
    exact ⟨.stop rfl rfl (by simp), fun st => (Out.pure st d .empty).mono fun _ => trivial⟩
  | node l r ihl ihr =>
    intro d w hin'
    have wd := (del_spec (k := k) w).1
    have ew : node l r = nodeOn (keyBit k d) (if keyBit k d then r else l) (if keyBit k d then l else r) := node_eq_nodeOn _ l r
    rw [del_node] at hin' wd
    refine node_case (keyBit k d) (if keyBit k d then r else l) (if keyBit k d then l else r) d rfl (ew ▸ w) wd hin' ?_ (node l r)
      (sideNodes_node k d l r) (del_node k d l r) (fun m => SidesStored_node m k d l r)
    revert hin'
    cases keyBit k d
    · intro hin'; exact ihl w.2.1 hin'.mkOn.1
    · intro hin'; exact ihr w.2.2.1 hin'.mkOn.1

/-! ### The whole call -/

theorem empty_on_path (k : Bytes32) : ∀ {t : T} {d : Nat}, T.empty ∈ pathTrees k d t ↔ victim k d t = none := by
  intro t
  induction t with
  | empty => intro d; simp [pathTrees, victim]
  | leaf k' v' => intro d; simp [pathTrees, victim]
  | node l r ihl ihr =>
    intro d
    rw [pathTrees_node, victim_node, List.mem_append, List.mem_singleton]
    cases keyBit k d
    · simpa using ihl
    · simpa using ihr

/-- Which user records the removal of a path can touch. -/
theorem path_user (env : Env H M U) (k : Bytes32) {t : T} (w : WF 0 t) (hin : In H M t) {y : Bytes32}
    (hy : y ∈ (pathNodes H k 0 t).map (·.hash H)) (hu : U y ∨ y = zeroSum) : y = zeroSum ∧ victim k 0 t = none := by
  rw [pathNodes_hash env k w hin, List.mem_map] at hy
  obtain ⟨q, hq, rfl⟩ := hy
  obtain ⟨_, hinq, _⟩ := pathTrees_in k w hin q hq
  have h0 : q = .empty := by
    by_contra h0
    rcases hu with hu | hu
    · exact hinq.hash_user env h0 hu
    · exact hinq.hash_ne env h0 hu
  subst h0
  exact ⟨rfl, (empty_on_path k).1 hq⟩

/-- Records after a removal: nodes may have appeared, nodes of the path may have gone, and
with them the record of the zero key if the path ends at an empty place. -/
structure DGrow (H : HashFn) (M : Bytes → Prop) (k : Bytes32) (t : T) (st st' : Tree E) : Prop where
  sched : st'.storage.sched = st.storage.sched
  map : ∀ x, st'.storage.map x = st.storage.map x ∨ (∃ q, st'.storage.map x = some q ∧ Good H M x q) ∨
    (x ∈ (pathNodes H k 0 t).map (·.hash H) ∧ st'.storage.map x = none)

theorem DGrow.valid {k : Bytes32} {t : T} {st st' : Tree E} (h : DGrow H M k t st st') (hv : Valid H M U st.storage.map) :
    Valid H M U st'.storage.map := by
  intro x q hq
  rcases h.map x with e | ⟨q', e, hg⟩ | ⟨_, e⟩
  · exact hv x q (by rw [← e, hq])
  · rw [hq] at e; cases e; exact .inl hg
  · rw [hq] at e; cases e

theorem DGrow.user (env : Env H M U) {k : Bytes32} {t : T} (w : WF 0 t) (hin : In H M t) {st st' : Tree E} (h : DGrow H M k t st st')
    {x : Bytes32} (hx : U x) : st'.storage.map x = st.storage.map x ∨
      (x = zeroSum ∧ victim k 0 t = none ∧ st'.storage.map x = none) := by
  rcases h.map x with e | ⟨q', e, hg⟩ | ⟨hm, e⟩
  · exact .inl e
  · exact absurd hx (hg.not_user env)
  · obtain ⟨a, b⟩ := path_user env k w hin hm (.inl hx)
    exact .inr ⟨a, b, e⟩

/-- `path_set` and `delete_with_path_set` along the path of `k`. -/
theorem deleteFound_spec (p : Profile) (env : Env H M U) {k : Bytes32} {leaf : Node} (hk : HasKey leaf k) {t : T}
    (w : WF 0 t) (hin : In H M t) (hin' : In H M (del k 0 t)) (st : Tree E) (hroot : st.rootNode = toNode H 0 t)
    (hv : Valid H M U st.storage.map) :
    ∃ st', DGrow H M k t st st' ∧
      (((pathSet p leaf >>= fun x => deleteWithPathSet p H leaf x.1 x.2) st = (.ok (), st') ∧
          st'.rootNode = toNode H 0 (del k 0 t) ∧ (victim k 0 t = none → st'.storage.map zeroSum = none) ∧
          (Stored H st.storage.map 0 t → Stored H st'.storage.map 0 (del k 0 t))) ∨
        ((∃ e, (pathSet p leaf >>= fun x => deleteWithPathSet p H leaf x.1 x.2) st = (.error (.err e), st')) ∧
          st'.rootNode = st.rootNode ∧ ¬ (st.storage.Reliable ∧ Stored H st.storage.map 0 t))) := by
  obtain ⟨st1, s1, h1⟩ := pathSet_spec p env hk st hroot w hin hv
  rcases h1 with h1 | ⟨⟨e, h1⟩, r1⟩
  · rw [Exec.bind_ok h1]
    simp only []
    rw [deleteWithPathSet_eq p hk]
    obtain ⟨st2, s2, h2⟩ := removeAll_spec (H := H) (pathNodes H k 0 t) st1
    have g2 : DGrow H M k t st st2 := ⟨s2.sched.trans s1.sched, fun x => by
      rcases s2.map x with e | e
      · exact .inl (by rw [e, s1.map])
      · exact .inr (.inr e)⟩
    rcases h2 with ⟨h2, z2⟩ | ⟨⟨e, h2⟩, r2⟩
    · rw [Exec.bind_ok h2]
      obtain ⟨st3, g3, h3⟩ := (rebuild_spec (E := E) p env w hin').2 st2
      have g : DGrow H M k t st st3 := ⟨g3.sched.trans g2.sched, fun x => by
        rcases g3.map x with e | e
        · rw [e]; exact g2.map x
        · exact .inr (.inl e)⟩
      rcases h3 with ⟨h3, i3⟩ | ⟨⟨e, h3⟩, r3⟩
      · rw [Exec.bind_ok h3, setRootNode_spec p env (del_spec w).1 hin']
        refine ⟨{ st3 with rootNode := toNode H 0 (del k 0 t) }, ⟨g.sched, g.map⟩, .inl ⟨rfl, rfl, fun hvic => ?_, fun hs => i3 ?_⟩⟩
        · have hz : zeroSum ∈ (pathNodes H k 0 t).map (·.hash H) := by
            rw [pathNodes_hash env k w hin, List.mem_map]
            exact ⟨.empty, (empty_on_path k).2 hvic, rfl⟩
          show st3.storage.map zeroSum = none
          rcases g3.map zeroSum with e | ⟨q, e, hg⟩
          · rw [e, z2 _ hz]
          · exact absurd rfl (hg.ne_zero env)
        · refine SidesStored.congr k ?_ (hs.sides k)
          intro s hsm q hq h0
          rcases s2.map (q.hash H) with e | ⟨hm, _⟩
          · rw [e, s1.map]
          · exfalso
            rw [pathNodes_hash env k w hin, List.mem_map] at hm
            obtain ⟨q', hq', e⟩ := hm
            have hinq' := (pathTrees_in k w hin q' hq').2.1
            have hinq : In H M q := by
              have : ∀ {t : T} {d : Nat}, In H M t → ∀ s ∈ sideTrees k d t, In H M s := by
                intro t
                induction t with
                | empty => intro d _ s hs; simp [sideTrees] at hs
                | leaf => intro d _ s hs; simp [sideTrees] at hs
                | node l r ihl ihr =>
                  intro d hin s hs
                  rw [sideTrees_node, List.mem_append, List.mem_singleton] at hs
                  rcases hs with hs | rfl
                  · revert hs
                    cases keyBit k d
                    · exact ihl hin.left s
                    · exact ihr hin.right s
                  · exact (In.parts k hin).2
              exact hq.inn (this hin s hsm)
            have := hash_inj env hinq' hinq e
            subst this
            exact sides_disjoint k w hin s hsm _ hq h0 hq'
      · refine ⟨st3, g, .inr ⟨⟨e, by rw [Exec.bind_error h3]⟩, ?_, fun ⟨hr, _⟩ => r3 (fun n => by rw [g2.sched]; exact hr n)⟩⟩
        rw [g3.root, s2.root, s1.root]
    · refine ⟨st2, g2, .inr ⟨⟨e, by rw [Exec.bind_error h2]⟩, ?_, fun ⟨hr, _⟩ => r2 (s1.reliable hr)⟩⟩
      rw [s2.root, s1.root]
  · refine ⟨st1, ⟨s1.sched, fun x => .inl (by rw [s1.map])⟩, .inr ⟨⟨.childError e, by rw [Exec.bind_error h1]⟩, s1.root, ?_⟩⟩
    rintro ⟨hr, hs⟩
    exact r1 ⟨hr, hs.path k⟩

theorem root_toNode (env : Env H M U) {t : T} (w : WF 0 t) (hin : In H M t) {st : Tree E} (hroot : st.rootNode = toNode H 0 t) :
    st.root H = t.hash H := by
  unfold Tree.root
  rw [hroot, hash_toNode env w hin]

theorem get_any (x : Bytes32) (st : Tree E) :
    ∃ st', Same st st' ∧ (onStorage (Store.get x) st = (.ok (st.storage.map x), st') ∨
      ((∃ e, onStorage (Store.get x) st = (.error (.err e), st')) ∧ ¬ st.storage.Reliable)) := by
  refine ⟨{ st with storage := { st.storage with clock := st.storage.clock + 1 } }, ⟨rfl, rfl, rfl⟩, ?_⟩
  cases hs : st.storage.sched st.storage.clock with
  | none => left; unfold onStorage; rw [Store.get_none _ hs]
  | some f => right; refine ⟨⟨.storageError f.err, by unfold onStorage; rw [Store.get_fault _ hs]⟩, fun h => by rw [h] at hs; cases hs⟩

/-- `delete` of a key for which there is a record with leaf key `k`. -/
theorem delete_leaf (p : Profile) (env : Env H M U) {x k : Bytes32} {q : Prim} {leaf : Node} {t : T}
    (w : WF 0 t) (hin : In H M t) (h0 : t ≠ .empty) (hin' : In H M (del k 0 t)) (st : Tree E) (hroot : st.rootNode = toNode H 0 t)
    (hv : Valid H M U st.storage.map) (hx : st.storage.map x = some q) (hq : Node.ofPrim q = .ok leaf) (hk : HasKey leaf k) :
    ∃ st', DGrow H M k t st st' ∧
      ((delete p H x st = (.ok (), st') ∧ st'.rootNode = toNode H 0 (del k 0 t) ∧
          (victim k 0 t = none → st'.storage.map zeroSum = none) ∧
          (Stored H st.storage.map 0 t → Stored H st'.storage.map 0 (del k 0 t))) ∨
        ((∃ e, delete p H x st = (.error (.err e), st')) ∧ st'.rootNode = st.rootNode ∧
          ¬ (st.storage.Reliable ∧ Stored H st.storage.map 0 t))) := by
  unfold delete
  rw [Exec.get_bind, if_neg (by rw [root_toNode env w hin hroot]; exact hin.hash_ne env h0)]
  obtain ⟨st1, s1, h1⟩ := get_any x st
  rcases h1 with h1 | ⟨⟨e, h1⟩, r1⟩
  · rw [Exec.bind_ok h1, hx]
    simp only [hq]
    obtain ⟨st2, g2, h2⟩ := deleteFound_spec p env hk w hin hin' st1 (by rw [s1.root, hroot]) (by rw [s1.map]; exact hv)
    refine ⟨st2, ⟨g2.sched.trans s1.sched, fun x => by rw [← s1.map]; exact g2.map x⟩, ?_⟩
    rcases h2 with ⟨a, b, c, d⟩ | ⟨a, b, c⟩
    · exact .inl ⟨a, b, c, fun h => d (by rw [s1.map]; exact h)⟩
    · exact .inr ⟨a, by rw [b, s1.root], fun ⟨hr, hs⟩ => c ⟨s1.reliable hr, by rw [s1.map]; exact hs⟩⟩
  · exact ⟨st1, ⟨s1.sched, fun x => .inl (by rw [s1.map])⟩, .inr ⟨⟨e, by rw [Exec.bind_error h1]⟩, s1.root, fun ⟨hr, _⟩ => r1 hr⟩⟩

/-- `delete` when the tree is empty or there is no record for the key. -/
theorem delete_nothing (p : Profile) (env : Env H M U) {x : Bytes32} {t : T} (w : WF 0 t) (hin : In H M t) (st : Tree E)
    (hroot : st.rootNode = toNode H 0 t) (hx : t = .empty ∨ st.storage.map x = none) :
    ∃ st', Same st st' ∧ (delete p H x st = (.ok (), st') ∨
      ((∃ e, delete p H x st = (.error (.err e), st')) ∧ ¬ st.storage.Reliable)) := by
  unfold delete
  rw [Exec.get_bind, root_toNode env w hin hroot]
  by_cases h0 : t = .empty
  · rw [if_pos ((hin.hash_zero env).2 h0)]
    exact ⟨st, .refl st, .inl rfl⟩
  · rw [if_neg (hin.hash_ne env h0)]
    have hx := hx.resolve_left h0
    obtain ⟨st1, s1, h1⟩ := get_any x st
    refine ⟨st1, s1, ?_⟩
    rcases h1 with h1 | ⟨⟨e, h1⟩, r1⟩
    · left; rw [Exec.bind_ok h1, hx]; rfl
    · right; exact ⟨⟨e, by rw [Exec.bind_error h1]⟩, r1⟩

end Sparse
end FuelMerkle
