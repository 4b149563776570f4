import Verif.Proofs.SparseContents
import Verif.Spec.SparseMachine

/-
The calls of the sparse tree as sequences of storage calls.
-/
namespace FuelMerkle
namespace Sparse
open Spec T
variable {E : Type} {H : HashFn} {M : Bytes → Prop} {U : Bytes32 → Prop}

/-! ### Writing -/

/-- Write nodes under their hashes. -/
def writeNodes (H : HashFn) : List Node → TreeM E Unit
  | [] => pure ()
  | n :: ns => do
    let _ ← onStorage (Store.insert (n.hash H) n.toPrim)
    writeNodes H ns

theorem writeNodes_append (xs ys : List Node) :
    (writeNodes H (xs ++ ys) : TreeM E Unit) = (writeNodes H xs >>= fun _ => writeNodes H ys) := by
  induction xs with
  | nil => rfl
  | cons x xs ih =>
    rw [List.cons_append, writeNodes, writeNodes, Exec.bind_assoc]
    congr 1
    funext c
    exact ih

/-- The inner nodes on the path of `k`, the last one first. -/
def innerNodes (H : HashFn) (k : Bytes32) : Nat → T → List Node
  | d, .node l r => (if keyBit k d then innerNodes H k (d + 1) r else innerNodes H k (d + 1) l) ++ [toNode H d (node l r)]
  | _, _ => []

theorem innerNodes_nodeOn (k : Bytes32) (d : Nat) (a s : T) :
    innerNodes H k d (nodeOn (keyBit k d) a s) = innerNodes H k (d + 1) a ++ [toNode H d (nodeOn (keyBit k d) a s)] := by
  cases h : keyBit k d
  · show innerNodes H k d (node a s) = _
    rw [innerNodes, h]; rfl
  · show innerNodes H k d (node s a) = _
    rw [innerNodes, h]; rfl

/-- Writing the path of `k` in the tree and giving back its node. -/
def writePath (H : HashFn) (k : Bytes32) (d : Nat) (t : T) : TreeM E Node :=
  writeNodes H (innerNodes H k d t) >>= fun _ => pure (toNode H d t)

theorem liftRes_bind {σ ε α β : Type} (a : α) (f : α → Exec σ (Fail ε) β) : (Exec.liftRes (.ok a) >>= f) = f a := rfl

theorem mergeNode_eq (p : Profile) (env : Env H M U) {k : Bytes32} {a s : T} {d : Nat}
    (w : WF d (nodeOn (keyBit k d) a s)) (h : In H M (nodeOn (keyBit k d) a s)) :
    (mergeNode p H k.val (toNode H (d + 1) a) (toNode H (d + 1) s) : TreeM E Node) =
      (writeNodes H [toNode H d (nodeOn (keyBit k d) a s)] >>= fun _ => pure (toNode H d (nodeOn (keyBit k d) a s))) := by
  unfold mergeNode
  rw [createNodeOnPath_spec p env w h, liftRes_bind, writeNodes, Exec.bind_assoc]
  rfl

/-- Adding one more node above. -/
theorem writePath_step (p : Profile) (env : Env H M U) {k : Bytes32} {a s : T} {d : Nat}
    (w : WF d (nodeOn (keyBit k d) a s)) (h : In H M (nodeOn (keyBit k d) a s)) :
    ((writePath H k (d + 1) a >>= fun c => mergeNode p H k.val c (toNode H (d + 1) s)) : TreeM E Node) =
      writePath H k d (nodeOn (keyBit k d) a s) := by
  unfold writePath
  rw [Exec.bind_assoc, innerNodes_nodeOn, writeNodes_append, Exec.bind_assoc]
  congr 1
  funext _
  rw [Exec.pure_bind, mergeNode_eq p env w h]

theorem merge_sides_eq (p : Profile) (env : Env H M U) {k v : Bytes32} : ∀ {t : T} {d : Nat}, WF d t → Ag d k t → d ≤ 256 →
    In H M (ins k v d t) →
    ((writePath H k (endDepth k d t) (ins k v (endDepth k d t) (endTree k d t)) >>= fun c =>
      mergeNodes p H k.val c (sideNodes H k d t)) : TreeM E Node) = writePath H k d (ins k v d t) := by
  intro t
  induction t with
  | empty => intro d _ _ _ _; exact bind_pure' _
  | leaf k' v' => intro d _ _ _ _; exact bind_pure' _
  | node l r ihl ihr =>
    intro d w ag hd hin'
    have ih : ∀ {d : Nat}, WF d (if keyBit k (d - 1) then r else l) → Ag d k (if keyBit k (d - 1) then r else l) → d ≤ 256 →
        In H M (ins k v d (if keyBit k (d - 1) then r else l)) →
        ((writePath H k (endDepth k d (if keyBit k (d - 1) then r else l))
            (ins k v (endDepth k d (if keyBit k (d - 1) then r else l)) (endTree k d (if keyBit k (d - 1) then r else l))) >>= fun c =>
          mergeNodes p H k.val c (sideNodes H k d (if keyBit k (d - 1) then r else l))) : TreeM E Node) =
          writePath H k d (ins k v d (if keyBit k (d - 1) then r else l)) := by
      intro d
      cases keyBit k (d - 1)
      · exact ihl
      · exact ihr
    have wi := (ins_spec (v := v) w ag hd).1
    rw [ins_node] at hin' wi
    have ih := ih (d := d + 1) (node_parts k w).1 (Ag.part ag w) w.1 hin'.nodeOn.1
    rw [Nat.add_sub_cancel] at ih
    rw [endTree_node, endDepth_node, sideNodes_node, ins_node, ← writePath_step p env wi hin', ← ih, Exec.bind_assoc]
    congr 1
    funext c
    rw [mergeNodes_append]
    congr 1
    funext c'
    exact mergeNodes_one p k.val c' _

theorem merge_placeholders_eq (p : Profile) (env : Env H M U) {k v k' v' : Bytes32} (hne : k ≠ k') : ∀ (n fuel d : Nat),
    fuel + (d + n) = 256 → agree (d + n) k k' → In H M (fork k v k' v' (fuel + n) d) →
    In H M (fork k v k' v' fuel (d + n)) ∧
    ((writePath H k (d + n) (fork k v k' v' fuel (d + n)) >>= fun c =>
      mergeNodes p H k.val c (List.replicate n Node.createPlaceholder)) : TreeM E Node) = writePath H k d (fork k v k' v' (fuel + n) d) := by
  intro n
  induction n with
  | zero => intro fuel d _ _ hin; exact ⟨hin, bind_pure' _⟩
  | succ n ih =>
    intro fuel d hf hag hin
    have e1 : fuel + (n + 1) = (fuel + 1) + n := by omega
    have e2 : d + (n + 1) = d + n + 1 := by omega
    rw [e1] at hin ⊢
    rw [e2] at hag ⊢
    obtain ⟨hin1, ih'⟩ := ih (fuel + 1) d (by omega) (hag.mono (by omega)) hin
    have hb : keyBit k (d + n) = keyBit k' (d + n) := hag (d + n) (by omega)
    have hs : fork k v k' v' (fuel + 1) (d + n) = nodeOn (keyBit k (d + n)) (fork k v k' v' fuel (d + n + 1)) .empty :=
      fork_succ hb
    have w1 := (fork_spec (v := v) (v' := v') hne (fuel + 1) (d + n) (by omega) (hag.mono (by omega))).1
    rw [hs] at hin1 w1 ih'
    refine ⟨hin1.nodeOn.1, ?_⟩
    rw [← ih', ← writePath_step p env w1 hin1, Exec.bind_assoc]
    rfl

theorem updateEnd_eq (p : Profile) (env : Env H M U) {k v : Bytes32} {t : T} {d : Nat} (ht : ∀ l r, t ≠ node l r)
    (ag : Ag d k t) (hd : d ≤ 256) (hin' : In H M (ins k v d t)) (hl : In H M (leaf k v)) {n : Nat} (hn : n = d) :
    ((do
      let actualKey ← Exec.liftRes (toNode H d t).leafKey
      if k ≠ actualKey then do
        let current ←
          (if (toNode H d t).isPlaceholder then pure (toNode H d (leaf k v))
           else mergeNode p H k.val (toNode H d (leaf k v)) (toNode H d t))
        let ancestorDepth ← Exec.liftRes ((toNode H d (leaf k v)).commonPathLength p (toNode H d t))
        let staleDepth := max n ancestorDepth
        let placeholdersCount := staleDepth - n
        mergeNodes p H k.val current (List.replicate placeholdersCount Node.createPlaceholder)
      else pure (toNode H d (leaf k v))) : TreeM E Node) = writePath H k d (ins k v d t) := by
  subst hn
  cases t with
  | node l r => exact absurd rfl (ht l r)
  | empty =>
    have hk : (toNode H n .empty).leafKey = .ok zeroSum := rfl
    have hp : (toNode H n .empty).isPlaceholder = true := rfl
    have hc : (toNode H n (leaf k v)).commonPathLength p (toNode H n .empty) = .ok 0 := by
      have hl' : (toNode H n (leaf k v)).isLeaf = true := by simp [toNode, Node.isLeaf]
      unfold Node.commonPathLength
      rw [hl', rdebugAssert_true, hp]
      have : (toNode H n .empty).isLeaf = true := rfl
      rw [this, rdebugAssert_true]
      simp
    rw [hk, liftRes_bind]
    by_cases hz : k ≠ zeroSum
    · rw [if_pos hz, hp, if_pos rfl, Exec.pure_bind, hc, liftRes_bind]
      simp only [Nat.max_zero, Nat.sub_self, List.replicate_zero]
      rfl
    · rw [if_neg hz]
      rfl
  | leaf k' v' =>
    rw [leafKey_leaf, liftRes_bind]
    by_cases hk : k = k'
    · rw [if_neg (by simpa using hk)]
      have : ins k v n (leaf k' v') = leaf k v := by rw [ins, if_pos hk]
      rw [this]
      rfl
    · have hfork : ins k v n (leaf k' v') = fork k v k' v' (256 - n) n := by rw [ins, if_neg hk]
      have hin : In H M (leaf k' v') := by
        have hf := (fork_spec (v := v) (v' := v') hk (256 - n) n (by omega) (ag (k', v') (by simp [entries])).symm).2.1 (k', v')
        rw [hfork] at hin'
        exact hin'.leaf_of_mem (hf.2 (.inr rfl))
      have hp : ¬ (toNode H n (leaf k' v')).isPlaceholder = true := fun h => by
        have := (isPlaceholder_toNode env (t := leaf k' v') (d := n) trivial hin).1 h
        cases this
      rw [if_pos hk, if_neg hp, commonPathLength_leaves p env _ _ hl hin]
      rw [hfork] at hin' ⊢
      obtain ⟨g1, g2, g3, g4⟩ := common_ge hk (ag (k', v') (by simp [entries])).symm
      obtain ⟨m, hm⟩ : ∃ m, common k k' = n + m := ⟨common k k' - n, by omega⟩
      rw [hm] at g2 g3 g4 ⊢
      have e1 : 256 - n = (256 - (n + m)) + m := by omega
      rw [e1] at hin' ⊢
      obtain ⟨hinb, key⟩ := merge_placeholders_eq (E := E) (v := v) (v' := v') p env hk m (256 - (n + m)) n (by omega) g3 hin'
      have hbase : fork k v k' v' (256 - (n + m)) (n + m) = nodeOn (keyBit k (n + m)) (leaf k v) (leaf k' v') := by
        obtain ⟨f, hf⟩ : ∃ f, 256 - (n + m) = f + 1 := ⟨256 - (n + m) - 1, by omega⟩
        rw [hf, fork, if_neg g4]
      have wb := (fork_spec (v := v) (v' := v') hk (256 - (n + m)) (n + m) (by omega) g3).1
      rw [hbase] at wb hinb key
      have hmax : max n (n + m) - n = m := by omega
      rw [← key, ← writePath_step p env wb hinb, Exec.bind_assoc]
      show (mergeNode p H k.val (toNode H (n + m + 1) (leaf k v)) (toNode H (n + m + 1) (leaf k' v')) >>= fun current =>
        mergeNodes p H k.val current (List.replicate (max n (n + m) - n) Node.createPlaceholder)) = _
      rw [hmax]
      rfl

theorem updateWithPathSet_eq (p : Profile) (env : Env H M U) {k v : Bytes32} {t : T} (w : WF 0 t)
    (hin' : In H M (ins k v 0 t)) (st : Tree E) :
    updateWithPathSet p H (toNode H 0 (leaf k v)) (pathNodes H k 0 t) (sideNodes H k 0 t) st =
      (writeNodes H (innerNodes H k 0 (ins k v 0 t)) >>= fun _ => setRootNode p (toNode H 0 (ins k v 0 t))) st := by
  have is := ins_spec (k := k) (v := v) w (Ag.zero k t) (by omega)
  have hl : In H M (leaf k v) := hin'.leaf_of_mem ((is.2.1 (k, v)).2 (.inl rfl))
  obtain ⟨h1, h2, h3, h4, h5, ⟨rest, h6⟩, h7, h8⟩ := end_spec (H := H) (M := M) k w (Ag.zero k t) (by omega)
  rw [updateWithPathSet_unfold p h6, updateEnd_eq (E := E) p env h1 h3 h4 (ins_end_in hin') hl (n := (sideNodes H k 0 t).length) (by omega)]
  have := merge_sides_eq (E := E) p env w (Ag.zero k t) (by omega) hin'
  rw [show ((writePath H k (endDepth k 0 t) (ins k v (endDepth k 0 t) (endTree k 0 t)) >>= fun current =>
      mergeNodes p H k.val current (sideNodes H k 0 t)) : TreeM E Node) = writePath H k 0 (ins k v 0 t) from this]
  unfold writePath
  rw [Exec.bind_assoc]
  rfl

/-! ### Rebuilding -/

theorem rebuild_eq (p : Profile) (env : Env H M U) {k : Bytes32} : ∀ {t : T} {d : Nat}, WF d t → In H M (del k d t) →
    (rebuild p H k.val (sideNodes H k d t) : TreeM E Node) = writePath H k d (del k d t) := by
  have node_case : ∀ (b : Bool) (a s : T) (d : Nat), keyBit k d = b → WF d (nodeOn b a s) →
      WF d (mkOn b (del k (d + 1) a) s) →
      In H M (mkOn b (del k (d + 1) a) s) → Kind H k (d + 1) a →
      (rebuild p H k.val (sideNodes H k (d + 1) a) : TreeM E Node) = writePath H k (d + 1) (del k (d + 1) a) →
      (rebuild p H k.val (sideNodes H k (d + 1) a ++ [toNode H (d + 1) s]) : TreeM E Node) =
        writePath H k d (mkOn b (del k (d + 1) a) s) := by
    intro b a s d hb w wd hind kind ih
    subst hb
    obtain ⟨w1, w2, w3, w4, w5, w6, w7⟩ := WF_nodeOn.1 w
    have hins := hind.mkOn.2
    cases kind with
    | stop h1 h2 h3 =>
      rw [h1, List.nil_append]
      rw [h2] at wd hind ⊢
      have hse : s ≠ .empty := by
        rintro rfl
        cases a with
        | empty => simp [entries] at w7
        | leaf x y => simp [entries] at w7
        | node l r => exact h3 l r rfl
      by_cases hs : ∀ l r, s ≠ node l r
      · obtain ⟨x, y, rfl⟩ : ∃ x y, s = leaf x y := by
          cases s with
          | empty => exact absurd rfl hse
          | leaf x y => exact ⟨x, y, rfl⟩
          | node l r => exact absurd rfl (hs l r)
        rw [mkOn_empty_left _ hs]
        have hl : (toNode H (d + 1) (leaf x y)).isLeaf = true := (isLeaf_toNode env w3 hins).2 hs
        rw [rebuild_leaf_none p _ hl rfl]
        rfl
      · obtain ⟨l, r, rfl⟩ : ∃ l r, s = node l r := by
          by_contra hc
          exact hs fun l r e => hc ⟨l, r, e⟩
        have hl : (toNode H (d + 1) (node l r)).isLeaf = false := by
          rw [Bool.eq_false_iff]
          intro h
          exact (isLeaf_toNode env w3 hins).1 h l r rfl
        rw [mkOn_empty_node] at hind wd ⊢
        rw [rebuild_node p _ hl, mergeNodes_one, ← writePath_step p env wd hind]
        rfl
    | single x y others h1 h2 h3 h4 =>
      rw [h1, List.cons_append]
      rw [h3] at wd hind ⊢
      have hl : (toNode H (d + 1) (leaf x y)).isLeaf = true := by simp [toNode, Node.isLeaf]
      by_cases hs : s = .empty
      · subst hs
        rw [mkOn_empty_right]
        have hf : findNonPlaceholder (others ++ [toNode H (d + 1) .empty]) = (none, []) := by
          rw [find_append_none h2]; rfl
        rw [rebuild_leaf_none p _ hl hf]
        rfl
      · have hp : ¬ (toNode H (d + 1) s).isPlaceholder = true := fun h => hs ((isPlaceholder_toNode env w3 hins).1 h)
        have hf : findNonPlaceholder (others ++ [toNode H (d + 1) s]) = (some (toNode H (d + 1) s), []) := by
          rw [find_append_none h2, findNonPlaceholder, if_neg hp]
        rw [mkOn_leaf hs] at hind wd ⊢
        rw [rebuild_leaf_some p _ hl hf, ← writePath_step p env wd hind]
        have h' : (mergeNode p H k.val (toNode H (d + 1) (leaf x y)) (toNode H (d + 1) s) >>= fun c =>
            mergeNodes p H k.val c []) = (mergeNode p H k.val (toNode H (d + 1) (leaf x y)) (toNode H (d + 1) s) : TreeM E Node) :=
          bind_pure' _
        rw [h']
        rfl
    | inner l r h1 h2 =>
      rw [h2 E p, ih]
      rw [h1, mkOn_node] at hind wd ⊢
      rw [← writePath_step p env wd hind]
      congr 1
      funext c
      exact mergeNodes_one p k.val c _
  intro t
  induction t with
  | empty => intro d w hin'; rfl
  | leaf k' v' => intro d w hin'; rfl
  | node l r ihl ihr =>
    intro d w hin'
    have wd := (del_spec (k := k) w).1
    have ew : node l r = nodeOn (keyBit k d) (if keyBit k d then r else l) (if keyBit k d then l else r) := node_eq_nodeOn _ l r
    rw [del_node] at hin' wd ⊢
    rw [sideNodes_node]
    have hk : Kind H k (d + 1) (if keyBit k d then r else l) :=
      (rebuild_spec (E := E) p env (node_parts k w).1 hin'.mkOn.1).1
    refine node_case (keyBit k d) (if keyBit k d then r else l) (if keyBit k d then l else r) d rfl (ew ▸ w) wd hin' hk ?_
    have h1 := hin'.mkOn.1
    have h2 := (node_parts k w).1
    revert h1 h2
    cases keyBit k d
    · intro h1 h2; exact ihl h2 h1
    · intro h1 h2; exact ihr h2 h1

/-! ### The storage calls -/

/-- The outcome of storage calls that stop at the first failure. -/
def called (st : Tree E) (x : Option E × SpStore E) : Except (Fail (Error E)) Unit × Tree E :=
  (match x.1 with
    | some e => .error (.err (.storageError e))
    | none => .ok (), { st with storage := x.2 })

theorem writeNodes_calls : ∀ (ns : List Node) (st : Tree E),
    writeNodes H ns st = called st (putAll (ns.map fun n => (n.hash H, n.toPrim)) st.storage) := by
  intro ns
  induction ns with
  | nil => intro st; rfl
  | cons n ns ih =>
    intro st
    rw [writeNodes, List.map_cons, putAll, Exec.bind_apply]
    unfold onStorage
    rcases h : Store.insert (n.hash H) n.toPrim st.storage with ⟨e | a, s⟩
    · rfl
    · simp only []
      rw [ih]
      rfl

theorem removeAll_calls : ∀ (ns : List Node) (st : Tree E),
    removeAll H ns st = called st (dropAll (ns.map (·.hash H)) st.storage) := by
  intro ns
  induction ns with
  | nil => intro st; rfl
  | cons n ns ih =>
    intro st
    rw [removeAll, List.map_cons, dropAll, Exec.bind_apply]
    unfold onStorage
    rcases h : Store.remove (n.hash H) st.storage with ⟨e | a, s⟩
    · rfl
    · simp only []
      rw [ih]
      rfl

/-! ### Reading -/

theorem get_keeps (x : Bytes32) (s : SpStore E) : (Store.get x s).2.map = s.map ∧ (Store.get x s).2.sched = s.sched := by
  unfold Store.get
  split <;> exact ⟨rfl, rfl⟩

theorem seek_keeps (x : Bytes32) (s : SpStore E) : (seek x s).2.map = s.map := by
  unfold seek
  split
  · rfl
  · have := (get_keeps x s).1
    rcases h : Store.get x s with ⟨e | _ | q, s'⟩ <;> rw [h] at this <;> exact this

theorem seekBoth_keeps (x : Bytes32 × Bytes32) (s : SpStore E) : (seekBoth x s).2.map = s.map := by
  unfold seekBoth
  rw [seek_keeps, seek_keeps]

theorem seekAll_keeps : ∀ (xs : List (Bytes32 × Bytes32)) (s : SpStore E), (seekAll xs s).2.map = s.map := by
  intro xs
  induction xs with
  | nil => intro s; rfl
  | cons x xs ih =>
    intro s
    have h := seekBoth_keeps x s
    rw [seekAll]
    rcases hq : seekBoth x s with ⟨⟨a, b⟩, s'⟩
    rw [hq] at h
    cases a with
    | some e => exact h
    | none =>
      cases b with
      | some e =>
        cases xs with
        | nil => exact h
        | cons y ys => exact (seekBoth_keeps y s').trans h
      | none => exact (ih s').trans h

/-- What a child read is: its node, or the error. -/
def readResult (H : HashFn) (d : Nat) (c : T) : Option (CErr E) → Except (CErr E) Node
  | none => .ok (toNode H d c)
  | some e => .error e

theorem childByKey_seek (env : Env H M U) {c : T} {d : Nat} (w : WF d c) (hin : In H M c) (st : Tree E)
    (hv : Valid H M U st.storage.map) :
    childByKey (c.hash H) st =
      (.ok (readResult H d c (seek (c.hash H) st.storage).1), { st with storage := (seek (c.hash H) st.storage).2 }) := by
  unfold childByKey seek
  by_cases h0 : c = .empty
  · subst h0
    rw [if_pos (show T.hash H .empty = zeroSum from zeroSum_eq.symm), if_pos (show T.hash H .empty = zero32 from rfl)]
    rfl
  · rw [if_neg (hin.hash_ne env h0), if_neg (show c.hash H ≠ zero32 from hin.hash_ne env h0), Exec.bind_apply]
    unfold tryStorage
    rcases h : Store.get (c.hash H) st.storage with ⟨e | _ | q, s'⟩
    · rfl
    · rfl
    · have hm : st.storage.map (c.hash H) = some q := by
        unfold Store.get at h
        split at h
        · cases h
        · simp only [Prod.mk.injEq, Except.ok.injEq] at h
          exact h.1
      have := hv.get env w hin h0 hm
      subst this
      simp only [ofPrim_toPrim]
      rfl

/-- The pairs of hashes read on the path of `k`. -/
def pairHashes (H : HashFn) (k : Bytes32) : Nat → T → List (Bytes32 × Bytes32)
  | d, .node l r =>
    if keyBit k d then (r.hash H, l.hash H) :: pairHashes H k (d + 1) r
    else (l.hash H, r.hash H) :: pairHashes H k (d + 1) l
  | _, _ => []

theorem pairHashes_node (k : Bytes32) (d : Nat) (l r : T) : pairHashes H k d (node l r) =
    ((onPath k d l r).hash H, (offPath k d l r).hash H) :: pairHashes H k (d + 1) (onPath k d l r) := by
  rw [pairHashes]
  unfold onPath offPath
  cases keyBit k d <;> rfl

theorem tailItems_node (k : Bytes32) (d : Nat) (l r : T) : tailItems H k d (node l r) =
    (toNode H (d + 1) (onPath k d l r), toNode H (d + 1) (offPath k d l r)) :: tailItems H k (d + 1) (onPath k d l r) := by
  rw [tailItems]
  unfold onPath offPath
  cases keyBit k d <;> rfl

theorem onPath_parts (k : Bytes32) {d : Nat} {l r : T} (w : WF d (node l r)) (hin : In H M (node l r)) :
    (WF (d + 1) (onPath k d l r) ∧ In H M (onPath k d l r)) ∧ (WF (d + 1) (offPath k d l r) ∧ In H M (offPath k d l r)) :=
  ⟨⟨(node_parts k w).1, (In.parts k hin).1⟩, ⟨(node_parts k w).2, (In.parts k hin).2⟩⟩

theorem next_node_eq (env : Env H M U) {l r : T} {d : Nat} (w : WF d (node l r)) (hin : In H M (node l r)) (st : Tree E)
    (hv : Valid H M U st.storage.map) {leaf : Node} {k : Bytes32} (hk : HasKey leaf k) (sd : Except (CErr E) Node) :
    PathIter.next storageNode ⟨leaf, some (.ok (toNode H d (node l r)), sd), d⟩ st =
      (.ok (some (.ok (toNode H d (node l r)), sd), ⟨leaf, some
        (readResult H (d + 1) (onPath k d l r) (seekBoth ((onPath k d l r).hash H, (offPath k d l r).hash H) st.storage).1.1,
         readResult H (d + 1) (offPath k d l r) (seekBoth ((onPath k d l r).hash H, (offPath k d l r).hash H) st.storage).1.2), d + 1⟩),
       { st with storage := (seekBoth ((onPath k d l r).hash H, (offPath k d l r).hash H) st.storage).2 }) := by
  have hl : ¬ (toNode H d (node l r)).isLeaf = true := fun h => (isLeaf_toNode env w hin).1 h l r rfl
  have k1 : (toNode H d (node l r)).leftChildKey = .ok (l.hash H) := rfl
  have k2 : (toNode H d (node l r)).rightChildKey = .ok (r.hash H) := rfl
  have e1 : (leftChild (toNode H d (node l r)) : TreeM E _) = childByKey (l.hash H) := by
    unfold leftChild; rw [if_neg hl, k1]; rfl
  have e2 : (rightChild (toNode H d (node l r)) : TreeM E _) = childByKey (r.hash H) := by
    unfold rightChild; rw [if_neg hl, k2]; rfl
  unfold PathIter.next
  simp only []
  have hn : (storageNode (E := E)).isNode (toNode H d (node l r)) = true := rfl
  rw [if_pos hn]
  have hk' : (storageNode (E := E)).leafKey leaf st = (.ok k.val, st) := by
    show (Exec.liftRes leaf.leafKey >>= fun k => pure k.val) st = _
    rw [show leaf.leafKey = .ok k from hk, Exec.liftRes_ok_bind]; rfl
  rw [Exec.bind_ok hk', getInstruction_eq k w.1]
  unfold onPath offPath seekBoth
  cases hb : keyBit k d
  · simp only [Bool.false_eq_true, if_false]
    show (leftChild (toNode H d (node l r)) >>= fun a => rightChild (toNode H d (node l r)) >>= fun b => _) st = _
    rw [e1, e2, Exec.bind_ok (childByKey_seek env w.2.1 hin.left st hv),
      Exec.bind_ok (childByKey_seek env w.2.2.1 hin.right _ (by show Valid H M U (seek _ _).2.map; rw [seek_keeps]; exact hv))]
    rfl
  · simp only [if_true]
    show (rightChild (toNode H d (node l r)) >>= fun a => leftChild (toNode H d (node l r)) >>= fun b => _) st = _
    rw [e1, e2, Exec.bind_ok (childByKey_seek env w.2.2.1 hin.right st hv),
      Exec.bind_ok (childByKey_seek env w.2.1 hin.left _ (by show Valid H M U (seek _ _).2.map; rw [seek_keeps]; exact hv))]
    rfl

theorem collectPath_eq (env : Env H M U) {leaf : Node} {k : Bytes32} (hk : HasKey leaf k) : ∀ (t : T) (d off fuel : Nat)
    (st : Tree E) (sn : Node), WF d t → In H M t → Valid H M U st.storage.map → ((∃ l r, t = node l r) → off = d) →
    d ≤ 256 → 258 ≤ fuel + d →
    collectPath fuel ⟨leaf, some (.ok (toNode H d t), .ok sn), off⟩ st =
      (match (seekAll (pairHashes H k d t) st.storage).1 with
        | none => .ok ((toNode H d t, sn) :: tailItems H k d t)
        | some e => .error (.err (.childError e)), { st with storage := (seekAll (pairHashes H k d t) st.storage).2 }) := by
  have ending : ∀ (t : T) (d off fuel : Nat) (st : Tree E) (sn : Node), (∀ l r, t ≠ node l r) → 2 ≤ fuel →
      collectPath fuel ⟨leaf, some (.ok (toNode H d t), .ok sn), off⟩ st = (.ok [(toNode H d t, sn)], st) := by
    intro t d off fuel st sn ht hf
    obtain ⟨f, rfl⟩ : ∃ f, fuel = f + 2 := ⟨fuel - 2, by omega⟩
    rw [collectPath, Exec.bind_ok (next_end ht d off st leaf _)]
    simp only []
    have : collectPath (f + 1) ⟨leaf, (none : Option (Except (CErr E) Node × Except (CErr E) Node)), off⟩ st = (.ok [], st) := by
      rw [collectPath, Exec.bind_ok (next_none leaf off st)]; rfl
    rw [Exec.bind_ok this]; rfl
  intro t
  induction t with
  | empty =>
    intro d off fuel st sn _ _ _ _ _ hf
    exact ending _ d off fuel st sn (by simp) (by omega)
  | leaf k' v' =>
    intro d off fuel st sn _ _ _ _ _ hf
    exact ending _ d off fuel st sn (by simp) (by omega)
  | node l r ihl ihr =>
    intro d off fuel st sn w hin hv hoff hd hf
    have := hoff ⟨l, r, rfl⟩
    subst this
    have ih : ∀ (fuel : Nat) (st : Tree E) (sn : Node), Valid H M U st.storage.map → 258 ≤ fuel + (off + 1) →
        collectPath fuel ⟨leaf, some (.ok (toNode H (off + 1) (onPath k off l r)), .ok sn), off + 1⟩ st =
          (match (seekAll (pairHashes H k (off + 1) (onPath k off l r)) st.storage).1 with
            | none => .ok ((toNode H (off + 1) (onPath k off l r), sn) :: tailItems H k (off + 1) (onPath k off l r))
            | some e => .error (.err (.childError e)),
            { st with storage := (seekAll (pairHashes H k (off + 1) (onPath k off l r)) st.storage).2 }) := by
      intro fuel st sn hv hf
      have hd' : off + 1 ≤ 256 := w.1
      unfold onPath
      cases keyBit k off
      · exact ihl (off + 1) (off + 1) fuel st sn w.2.1 hin.left hv (fun _ => rfl) hd' hf
      · exact ihr (off + 1) (off + 1) fuel st sn w.2.2.1 hin.right hv (fun _ => rfl) hd' hf
    obtain ⟨f, rfl⟩ : ∃ f, fuel = f + 2 := ⟨fuel - 2, by have := w.1; omega⟩
    obtain ⟨⟨wc, hc⟩, _⟩ := onPath_parts k w hin
    have h1 := next_node_eq env w hin st hv hk (.ok sn)
    have hv1 := hv
    rw [← seekBoth_keeps ((onPath k off l r).hash H, (offPath k off l r).hash H)] at hv1
    rw [collectPath, Exec.bind_ok h1, pairHashes_node, tailItems_node, seekAll]
    simp only []
    rcases hq : seekBoth ((onPath k off l r).hash H, (offPath k off l r).hash H) st.storage with ⟨⟨a, b⟩, s'⟩
    rw [hq] at hv1
    simp only []
    cases a with
    | some e =>
      rw [show readResult H (off + 1) (onPath k off l r) (some e) = .error e from rfl]
      rw [Exec.bind_error (show collectPath (f + 1) ⟨leaf, some (.error e, readResult H (off + 1) (offPath k off l r) b), off + 1⟩
        { st with storage := s' } = (.error (.err (.childError e)), { st with storage := s' }) from by
          rw [collectPath, Exec.bind_ok (next_error leaf e _ _ _)]; rfl)]
    | none =>
      cases b with
      | none =>
        simp only [readResult]
        have hx := ih (f + 1) { st with storage := s' } (toNode H (off + 1) (offPath k off l r)) hv1 (by omega)
        rcases hs : seekAll (pairHashes H k (off + 1) (onPath k off l r)) s' with ⟨_ | e, s''⟩
        · simp only [hs] at hx
          rw [Exec.bind_ok hx]
          rfl
        · simp only [hs] at hx
          rw [Exec.bind_error hx]
      | some e =>
        simp only [readResult]
        by_cases hn : ∃ l' r', onPath k off l r = node l' r'
        · obtain ⟨l', r', hn⟩ := hn
          rw [hn] at wc hc ⊢
          have j := next_node_eq env wc hc { st with storage := s' } hv1 hk (.error e)
          rw [pairHashes_node]
          simp only []
          rw [Exec.bind_error (show collectPath (f + 1) ⟨leaf, some (.ok (toNode H (off + 1) (node l' r')), .error e), off + 1⟩
            { st with storage := s' } = (.error (.err (.childError e)), { st with storage := (seekBoth ((onPath k (off + 1) l' r').hash H,
              (offPath k (off + 1) l' r').hash H) s').2 }) from by rw [collectPath, Exec.bind_ok j]; rfl)]
        · have hn' : ∀ l' r', onPath k off l r ≠ node l' r' := fun l' r' h => hn ⟨l', r', h⟩
          have hp : pairHashes H k (off + 1) (onPath k off l r) = [] := by
            cases hc : onPath k off l r with
            | empty => rfl
            | leaf a b => rfl
            | node a b => exact absurd hc (hn' a b)
          rw [hp]
          simp only []
          rw [Exec.bind_error (show collectPath (f + 1) ⟨leaf, some (.ok (toNode H (off + 1) (onPath k off l r)), .error e), off + 1⟩
            { st with storage := s' } = (.error (.err (.childError e)), { st with storage := s' }) from by
              rw [collectPath, Exec.bind_ok (next_end hn' _ _ _ leaf _)]; rfl)]

theorem pathSet_eq (p : Profile) (env : Env H M U) {leaf : Node} {k : Bytes32} (hk : HasKey leaf k) {t : T} (st : Tree E)
    (hroot : st.rootNode = toNode H 0 t) (w : WF 0 t) (hin : In H M t) (hv : Valid H M U st.storage.map) :
    pathSet p leaf st = (match (seekAll (pairHashes H k 0 t) st.storage).1 with
        | none => .ok (pathNodes H k 0 t, sideNodes H k 0 t)
        | some e => .error (.err (.childError e)), { st with storage := (seekAll (pairHashes H k 0 t) st.storage).2 }) := by
  unfold pathSet
  rw [Exec.get_bind, hroot]
  obtain ⟨off, ho, hoff⟩ : ∃ off, (PathIter.new storageNode p (toNode H 0 t) leaf : TreeM E _) st =
      (.ok ⟨leaf, some (.ok (toNode H 0 t), .ok (toNode H 0 t)), off⟩, st) ∧ ((∃ l r, t = node l r) → off = 0) := by
    refine ⟨256 - (toNode H 0 t).height, ?_, ?_⟩
    · unfold PathIter.new
      have hh : (toNode H 0 t).height ≤ 256 := by cases t <;> simp [toNode, Node.createPlaceholder]
      have : (storageNode (E := E)).lift (usizeSub p (storageNode (E := E)).keySizeInBits
          ((storageNode (E := E)).height (toNode H 0 t))) st = (.ok (256 - (toNode H 0 t).height), st) := by
        show Exec.liftRes (usizeSub p 256 (toNode H 0 t).height) st = _
        unfold usizeSub
        rw [if_pos hh]; rfl
      rw [Exec.bind_ok this]; rfl
    · rintro ⟨l, r, rfl⟩; rfl
  rw [Exec.bind_ok ho]
  have h2 := collectPath_eq env hk t 0 off 258 st (toNode H 0 t) w hin hv hoff (by omega) (by omega)
  have hfuel : PathIter.fuel (storageNode (E := E)) = 258 := rfl
  rw [hfuel]
  rcases hs : seekAll (pairHashes H k 0 t) st.storage with ⟨_ | e, s''⟩
  · simp only [hs] at h2
    rw [Exec.bind_ok h2, (items_path k t 0 _).1, (items_path k t 0 _).2, hroot]
    rfl
  · simp only [hs] at h2
    rw [Exec.bind_error h2, hroot]

/-! ### The way down, computed from the entries -/

/-- What the entries say about the way down. -/
structure Way (H : HashFn) (k : Bytes32) (d : Nat) (t : T) (ls : List (Nat × Entries Bytes32)) : Prop where
  hashes : (pathTrees k d t).map (·.hash H) = (ls.map fun x => hashAt H x.1 x.2).reverse
  pairs : pairHashes H k d t = (ls.filter fun x => 2 ≤ x.2.length).map fun x =>
    (hashAt H (x.1 + 1) (x.2.filter fun y => keyBit y.1 x.1 == keyBit k x.1), hashAt H (x.1 + 1) (x.2.filter fun y => keyBit y.1 x.1 != keyBit k x.1))
  records : (innerNodes H k d t).map (fun n => (n.hash H, n.toPrim)) = ((ls.filter fun x => 2 ≤ x.2.length).map fun x =>
    (hashAt H x.1 x.2, ((256 - x.1, 0x01, hashAt H (x.1 + 1) (x.2.filter fun y => !keyBit y.1 x.1), hashAt H (x.1 + 1) (x.2.filter fun y => keyBit y.1 x.1)) : Prim))).reverse

theorem innerNodes_node (k : Bytes32) (d : Nat) (l r : T) :
    innerNodes H k d (node l r) = innerNodes H k (d + 1) (onPath k d l r) ++ [toNode H d (node l r)] := by
  rw [innerNodes]; unfold onPath; cases keyBit k d <;> rfl

theorem levelsFrom_short (k : Bytes32) {V : Type} (fuel d : Nat) {es : Entries V} (h : es.length ≤ 1) : levelsFrom k fuel d es = [(d, es)] := by
  cases fuel with
  | zero => rfl
  | succ fuel => rw [levelsFrom, if_pos h]

theorem way_spec (env : Env H M U) (k : Bytes32) : ∀ {t : T} {d fuel : Nat} {es : Entries Bytes32}, WF d t → In H M t → fuel + d = 256 →
    (es.map Prod.fst).Nodup → (∀ x, x ∈ t.entries ↔ x ∈ es) → Way H k d t (levelsFrom k fuel d es) := by
  intro t
  induction t with
  | empty =>
    intro d fuel es w hin hf hnd h
    have : es = [] := eq_nil_of_mem (fun x hx => by simpa [entries] using (h x).2 hx)
    subst this
    rw [levelsFrom_short k fuel d (by simp)]
    exact ⟨by simp [pathTrees, hashAt, smt, T.hash]; rfl, by simp [pairHashes], by simp [innerNodes]⟩
  | leaf k' v' =>
    intro d fuel es w hin hf hnd h
    have : es = [(k', v')] := by
      have hall : ∀ x ∈ es, x = (k', v') := fun x hx => by simpa [entries] using (h x).2 hx
      have hmem : (k', v') ∈ es := (h _).1 (by simp [entries])
      match es, hmem, hnd, hall with
      | [x], _, _, hall => rw [hall x (by simp)]
      | x :: y :: ys, _, hnd, hall =>
        rw [hall x (by simp), hall y (by simp)] at hnd
        simp at hnd
    subst this
    rw [levelsFrom_short k fuel d (by simp)]
    exact ⟨by simp [pathTrees, hashAt, smt, T.hash], by simp [pairHashes], by simp [innerNodes]⟩
  | node l r ihl ihr =>
    intro d fuel es w hin hf hnd h
    have w' := w
    obtain ⟨w1, w2, w3, w4, w5, w6, w7⟩ := w
    obtain ⟨fuel, rfl⟩ : ∃ f, fuel = f + 1 := ⟨fuel - 1, by omega⟩
    have hnd' : ∀ q : Bytes32 × Bytes32 → Bool, ((es.filter q).map Prod.fst).Nodup := fun q =>
      hnd.sublist (List.filter_sublist.map _)
    have hlen : 2 ≤ es.length := by
      have hn1 : (l.entries ++ r.entries).Nodup := List.Nodup.of_map _ (nodup (t := node l r) (d := d) ⟨w1, w2, w3, w4, w5, w6, w7⟩)
      have hsub : l.entries ++ r.entries ⊆ es := fun x hx => (h x).1 (by simpa [entries] using hx)
      have := (List.subperm_of_subset hn1 hsub).length_le
      rw [List.length_append] at this
      omega
    have hl : ∀ z, z ∈ l.entries ↔ z ∈ es.filter fun x => !keyBit x.1 d := by
      intro z
      rw [List.mem_filter, ← h, entries, List.mem_append]
      constructor
      · intro hz; exact ⟨.inl hz, by rw [w4 z hz]; rfl⟩
      · rintro ⟨hz | hz, hb⟩
        · exact hz
        · rw [w5 z hz] at hb; cases hb
    have hr : ∀ z, z ∈ r.entries ↔ z ∈ es.filter fun x => keyBit x.1 d := by
      intro z
      rw [List.mem_filter, ← h, entries, List.mem_append]
      constructor
      · intro hz; exact ⟨.inr hz, by rw [w5 z hz]⟩
      · rintro ⟨hz | hz, hb⟩
        · rw [w4 z hz] at hb; cases hb
        · exact hz
    have hd : 256 - (d + 1) = fuel := by omega
    have l1 : l.hash H = hashAt H (d + 1) (es.filter fun x => !keyBit x.1 d) := by
      unfold hashAt; rw [hd]; exact (smt_spec H zero32 (fuel := fuel) w2 (by omega) (hnd' _) hl).1
    have r1 : r.hash H = hashAt H (d + 1) (es.filter fun x => keyBit x.1 d) := by
      unfold hashAt; rw [hd]; exact (smt_spec H zero32 (fuel := fuel) w3 (by omega) (hnd' _) hr).1
    have t1 : (node l r).hash H = hashAt H d es := by
      unfold hashAt; rw [show 256 - d = fuel + 1 by omega]
      exact (smt_spec H zero32 (fuel := fuel + 1) w' (by omega) hnd h).1
    have on : (∀ z, z ∈ (onPath k d l r).entries ↔ z ∈ es.filter fun x => keyBit x.1 d == keyBit k d) ∧
        (onPath k d l r).hash H = hashAt H (d + 1) (es.filter fun x => keyBit x.1 d == keyBit k d) ∧
        (offPath k d l r).hash H = hashAt H (d + 1) (es.filter fun x => keyBit x.1 d != keyBit k d) := by
      unfold onPath offPath
      cases keyBit k d
      · have e1 : (es.filter fun x => keyBit x.1 d == false) = es.filter fun x => !keyBit x.1 d := by
          congr 1; funext x; cases keyBit x.1 d <;> rfl
        have e2 : (es.filter fun x => keyBit x.1 d != false) = es.filter fun x => keyBit x.1 d := by
          congr 1; funext x; cases keyBit x.1 d <;> rfl
        rw [e1, e2]
        exact ⟨hl, l1, r1⟩
      · have e1 : (es.filter fun x => keyBit x.1 d == true) = es.filter fun x => keyBit x.1 d := by
          congr 1; funext x; cases keyBit x.1 d <;> rfl
        have e2 : (es.filter fun x => keyBit x.1 d != true) = es.filter fun x => !keyBit x.1 d := by
          congr 1; funext x; cases keyBit x.1 d <;> rfl
        rw [e1, e2]
        exact ⟨hr, r1, l1⟩
    have ih : Way H k (d + 1) (onPath k d l r) (levelsFrom k fuel (d + 1) (es.filter fun x => keyBit x.1 d == keyBit k d)) := by
      have ho := on.1
      have hp := (onPath_parts k w' hin).1
      revert ho hp
      unfold onPath
      cases keyBit k d
      · intro ho hp; exact ihl hp.1 hp.2 (by omega) (hnd' _) ho
      · intro ho hp; exact ihr hp.1 hp.2 (by omega) (hnd' _) ho
    rw [levelsFrom, if_neg (by omega)]
    have hfil : ∀ ls : List (Nat × Entries Bytes32), (((d, es) :: ls).filter fun x => decide (2 ≤ x.2.length)) =
        (d, es) :: ls.filter fun x => decide (2 ≤ x.2.length) := fun ls => by
      rw [List.filter_cons_of_pos]; simpa using hlen
    refine ⟨?_, ?_, ?_⟩
    · rw [pathTrees_node, List.map_append]
      simp only [List.map_cons, List.map_nil, List.reverse_cons]
      rw [t1, ← ih.hashes]; rfl
    · rw [pairHashes_node, hfil, List.map_cons, ih.pairs, on.2.1, on.2.2]
    · rw [innerNodes_node, List.map_append, ih.records, hfil]
      simp only [List.map_cons, List.map_nil, List.reverse_cons]
      rw [hash_toNode env w' hin, t1, ← l1, ← r1]
      rfl

theorem Ent.way (env : Env H M U) (k : Bytes32) {t : T} {kv : Entries Bytes} (h : Ent H t kv) (w : WF 0 t) (hin : In H M t) :
    (pathTrees k 0 t).map (·.hash H) = (wayHashes H k kv).reverse ∧ pairHashes H k 0 t = wayPairs H k kv ∧
      (innerNodes H k 0 t).map (fun n => (n.hash H, n.toPrim)) = (wayRecords H k kv).reverse := by
  have := way_spec env k (fuel := 256) w hin rfl (es := digests H kv) (by
    show (keysOf (digests H kv)).Nodup
    rw [keysOf_digests]; exact h.nodup) h.mem
  exact ⟨this.hashes, this.pairs, this.records⟩

/-! ### One call -/

/-- Same outcome and same storage. -/
def Agrees (x : Except (Fail (Error E)) Unit × Tree E) (y : Except (Fail (Error E)) Unit × Machine E) : Prop :=
  x.1 = y.1 ∧ x.2.storage = y.2.storage

theorem finish_eq (p : Profile) (env : Env H M U) (k : Bytes32) {t : T} {kv : Entries Bytes} (h : Ent H t kv) (w : WF 0 t) (hin : In H M t)
    (old : Entries Bytes) (st : Tree E) :
    Agrees ((writeNodes H (innerNodes H k 0 t) >>= fun _ => setRootNode p (toNode H 0 t)) st) (finish H k old kv st.storage) := by
  unfold finish
  rw [← (h.way env k w hin).2.2]
  have hw := writeNodes_calls (H := H) (innerNodes H k 0 t) st
  rcases hq : putAll ((innerNodes H k 0 t).map fun n => (n.hash H, n.toPrim)) st.storage with ⟨_ | e, s⟩
  · rw [hq] at hw
    rw [Exec.bind_ok hw, setRootNode_spec p env w hin, hq]
    exact ⟨rfl, rfl⟩
  · rw [hq] at hw
    rw [Exec.bind_error hw, hq]
    exact ⟨rfl, rfl⟩

theorem onStorage_ok {α : Type} {f : SpStore E → Except E α × SpStore E} {st : Tree E} {a : α} {s : SpStore E} (h : f st.storage = (.ok a, s)) :
    onStorage f st = (.ok a, { st with storage := s }) := by
  unfold onStorage; rw [h]

theorem onStorage_error {α : Type} {f : SpStore E → Except E α × SpStore E} {st : Tree E} {e : E} {s : SpStore E} (h : f st.storage = (.error e, s)) :
    onStorage f st = (.error (.err (.storageError e)), { st with storage := s }) := by
  unfold onStorage; rw [h]

theorem get_some {x : Bytes32} {s s' : SpStore E} {q : Option Prim} (h : Store.get x s = (.ok q, s')) : s.map x = q := by
  unfold Store.get at h
  split at h
  · cases h
  · simp only [Prod.mk.injEq, Except.ok.injEq] at h
    exact h.1

theorem update_agrees (p : Profile) (env : Env H M U) {k : Bytes32} (hu : U k) {d : Bytes} (hd0 : d ≠ []) {st : Tree E} {t : T} {kv : Entries Bytes}
    (h : Rep H M U st t kv) (hf : Fits H M (Entries.put kv k d)) :
    Agrees (update p H k d st) ((Op.update k d).onMachine H ⟨kv, st.storage⟩) := by
  have hdata : (Op.update k d).data = some d := by simp [Op.data, hd0]
  have hemp : d.isEmpty = false := by cases d <;> simp_all
  have wi := (ins_spec (k := k) (v := H d) h.wf (Ag.zero k t) (by omega)).1
  have ei := h.ent.put h.wf k d
  have ini := ei.inn wi hf
  have is := ins_spec (k := k) (v := H d) h.wf (Ag.zero k t) (by omega)
  have hl : In H M (leaf k (H d)) := ini.leaf_of_mem ((is.2.1 (k, H d)).2 (.inl rfl))
  have hleaf : Node.createLeaf H k d = toNode H 0 (leaf k (H d)) := rfl
  have hprim : (toNode H 0 (leaf k (H d))).toPrim = ((0, 0x00, k, H d) : Prim) := rfl
  have hhash : (toNode H 0 (leaf k (H d))).hash H = H (smtLeafMsg k (H d)) := hash_toNode env (t := leaf k (H d)) (d := 0) trivial hl
  have htarget : (Op.update k d).target (⟨kv, st.storage⟩ : Machine E) = Entries.put kv k d := by
    unfold Op.target; simp only [hdata]; rfl
  have hg : Good H M (H (smtLeafMsg k (H d))) (0, 0x00, k, H d) := ⟨leaf k (H d), 0, trivial, hl, by simp, rfl, rfl⟩
  unfold update Op.onMachine
  rw [hemp, htarget]
  simp only [hdata, Bool.false_eq_true, if_false]
  rw [hleaf, hhash, hprim, leafKey_leaf]
  simp only [putAll, Op.key]
  have hvalid : ∀ {x : Bytes32} {q : Prim} {s s' : SpStore E} {r : Except E (Option Prim)}, (Good H M x q ∨ (U x ∧ ∃ v, q = leafPrim x v)) →
      Store.insert x q s = (r, s') → Valid H M U s.map → Valid H M U s'.map := by
    intro x q s s' r hq hi hv y q' hy
    have : s'.map y = s.map y ∨ (y = x ∧ s'.map y = some q) := by
      cases hs : s.sched s.clock with
      | none =>
        rw [Store.insert_none _ _ hs] at hi
        simp only [Prod.mk.injEq] at hi
        rw [← hi.2]
        by_cases hx : y = x
        · exact .inr ⟨hx, by rw [hx]; simp⟩
        · exact .inl (Store.upd_of_ne _ _ hx)
      | some f =>
        rw [Store.insert_fault _ _ hs] at hi
        simp only [Prod.mk.injEq] at hi
        rw [← hi.2]
        cases f.applied
        · exact .inl rfl
        · by_cases hx : y = x
          · exact .inr ⟨hx, by rw [hx]; simp⟩
          · exact .inl (Store.upd_of_ne _ _ hx)
    rcases this with e | ⟨rfl, e⟩
    · exact hv y q' (by rw [← e]; exact hy)
    · rw [hy] at e; cases e
      rcases hq with hq | hq
      · exact .inl hq
      · exact .inr (.inl hq)
  rcases h1 : Store.insert (H (smtLeafMsg k (H d))) (0, 0x00, k, H d) st.storage with ⟨e | a, s1⟩
  · rw [Exec.bind_error (onStorage_error h1)]
    exact ⟨rfl, rfl⟩
  · have hv1 := hvalid (.inl hg) h1 h.valid
    rw [Exec.bind_ok (onStorage_ok h1), Exec.liftRes_ok_bind]
    simp only []
    rcases h2 : Store.insert k (0, 0x00, k, H d) s1 with ⟨e | a, s2⟩
    · rw [Exec.bind_error (onStorage_error (st := { st with storage := s1 }) h2)]
      exact ⟨rfl, rfl⟩
    · have hv2 := hvalid (.inr ⟨hu, H d, rfl⟩) h2 hv1
      rw [Exec.bind_ok (onStorage_ok (st := { st with storage := s1 }) h2), Exec.get_bind]
      simp only [h.root]
      by_cases ht : t = .empty
      · subst ht
        have hk := (h.ent.nil h.wf).1 rfl
        subst hk
        rw [if_pos ((isPlaceholder_toNode env h.wf h.inn).2 rfl)]
        have hpairs : wayPairs H k [] = [] := rfl
        rw [hpairs]
        exact finish_eq p env k ei wi ini [] ⟨_, s2⟩
      · rw [if_neg (fun h' => ht ((isPlaceholder_toNode env h.wf h.inn).1 h'))]
        have hps := pathSet_eq p env (HasKey.leaf H 0 k (H d)) { st with storage := s2 } h.root h.wf h.inn hv2
        simp only [h.root] at hps
        rw [(h.ent.way env k h.wf h.inn).2.1] at hps
        rcases hq : seekAll (wayPairs H k kv) s2 with ⟨_ | e, s3⟩
        · simp only [hq] at hps
          rw [Exec.bind_ok hps]
          simp only []
          rw [updateWithPathSet_eq p env h.wf ini]
          exact finish_eq p env k ei wi ini kv ⟨_, s3⟩
        · simp only [hq] at hps
          rw [Exec.bind_error hps]
          exact ⟨rfl, rfl⟩

theorem delete_agrees (p : Profile) (env : Env H M U) {k : Bytes32} (hu : U k) {st : Tree E} {t : T} {kv : Entries Bytes}
    (h : Rep H M U st t kv) (hf : (st.storage.map k).isSome → Fits H M (eraseMet kv k)) (op : Op) (hop : op.data = none) (hkey : op.key = k) :
    Agrees (delete p H k st) (op.onMachine H ⟨kv, st.storage⟩) := by
  subst hkey
  unfold delete Op.onMachine
  simp only [hop]
  rw [Exec.get_bind, root_toNode env h.wf h.inn h.root]
  by_cases h0 : t = .empty
  · rw [if_pos ((h.inn.hash_zero env).2 h0), if_pos ((h.ent.nil h.wf).1 h0)]
    exact ⟨rfl, rfl⟩
  · rw [if_neg (h.inn.hash_ne env h0), if_neg (fun e => h0 ((h.ent.nil h.wf).2 e))]
    have hkeep := (get_keeps op.key st.storage).1
    rcases hget : Store.get op.key st.storage with ⟨e | _ | q, s1⟩
    · rw [Exec.bind_error (onStorage_error hget)]
      exact ⟨rfl, rfl⟩
    · rw [Exec.bind_ok (onStorage_ok hget)]
      exact ⟨rfl, rfl⟩
    · rw [Exec.bind_ok (onStorage_ok hget)]
      rw [hget] at hkeep
      have hq := get_some hget
      obtain ⟨v, rfl⟩ := h.valid.user_rec env hu hq
      have hrec : (st.storage.map op.key).isSome = true := by rw [hq]; rfl
      have htarget : op.target (⟨kv, st.storage⟩ : Machine E) = eraseMet kv op.key := by
        unfold Op.target eraseMet; simp only [hop, hrec, if_true]; rfl
      have wd := (del_spec (k := op.key) h.wf).1
      have ed := h.ent.del h.wf op.key
      have ind := ed.inn wd (hf hrec)
      have hkey : HasKey (toNode (fun _ => zeroSum) 0 (leaf op.key v)) op.key := HasKey.leaf (fun _ => zeroSum) 0 op.key v
      have hof : Node.ofPrim (leafPrim op.key v) = .ok (toNode (fun _ => zeroSum) 0 (leaf op.key v)) := ofPrim_toPrim _
      simp only [hof]
      rw [htarget]
      have hps := pathSet_eq p env hkey { st with storage := s1 } h.root h.wf h.inn (by show Valid H M U s1.map; rw [hkeep]; exact h.valid)
      rw [(h.ent.way env op.key h.wf h.inn).2.1] at hps
      rcases hs : seekAll (wayPairs H op.key kv) s1 with ⟨_ | e, s2⟩
      · simp only [hs] at hps
        rw [Exec.bind_ok hps]
        simp only []
        rw [deleteWithPathSet_eq p hkey]
        have hr := removeAll_calls (H := H) (pathNodes H op.key 0 t) { st with storage := s2 }
        rw [pathNodes_hash env op.key h.wf h.inn, (h.ent.way env op.key h.wf h.inn).1] at hr
        rw [rebuild_eq p env h.wf ind]
        rcases hd : dropAll (wayHashes H op.key kv).reverse s2 with ⟨_ | e, s3⟩
        · simp only [hd] at hr
          rw [Exec.bind_ok hr]
          have : ((writePath H op.key 0 (del op.key 0 t) >>= fun c => setRootNode p c) : TreeM E Unit) =
              (writeNodes H (innerNodes H op.key 0 (del op.key 0 t)) >>= fun _ => setRootNode p (toNode H 0 (del op.key 0 t))) := by
            unfold writePath
            rw [Exec.bind_assoc]
            rfl
          rw [this]
          exact finish_eq p env op.key ed wd ind kv ⟨_, s3⟩
        · simp only [hd] at hr
          rw [Exec.bind_error hr]
          exact ⟨rfl, rfl⟩
      · simp only [hs] at hps
        rw [Exec.bind_error hps]
        exact ⟨rfl, rfl⟩

/-- The map after a call. -/
theorem onMachine_kv (op : Op) (m : Machine E) : (op.onMachine H m).2.kv = (⟨op, (m.storage.map op.key).isSome, (op.onMachine H m).1⟩ : Event E).effect m.kv := by
  have hfin : ∀ (k : Bytes32) (old new : Entries Bytes) (s : SpStore E), (finish H k old new s).2.kv =
      match (finish H k old new s).1 with | .ok _ => new | .error _ => old := by
    intro k old new s
    unfold finish
    rcases putAll (wayRecords H k new).reverse s with ⟨_ | e, s'⟩ <;> rfl
  have hatt : ∀ out : Except (Fail (Error E)) Unit, (⟨op, (m.storage.map op.key).isSome, out⟩ : Event E).effect m.kv =
      match out with | .ok _ => op.target m | .error _ => m.kv := by
    intro out
    unfold Event.effect Event.attempt Op.target
    cases out <;> rfl
  rw [hatt]
  unfold Op.onMachine
  cases hd : op.data with
  | some d =>
    simp only []
    rcases putAll [(H (smtLeafMsg op.key (H d)), ((0, 0x00, op.key, H d) : Prim)), (op.key, (0, 0x00, op.key, H d))] m.storage with ⟨_ | e, s⟩
    · simp only []
      rcases seekAll (wayPairs H op.key m.kv) s with ⟨_ | e, s⟩
      · exact hfin _ _ _ _
      · rfl
    · rfl
  | none =>
    simp only []
    by_cases h0 : m.kv = []
    · rw [if_pos h0]
      simp only []
      unfold Op.target
      simp only [hd, h0]
      split
      · rfl
      · rfl
    · rw [if_neg h0]
      rcases hg : Store.get op.key m.storage with ⟨e | _ | q, s⟩
      · rfl
      · simp only []
        unfold Op.target
        simp only [hd, get_some hg]
        rfl
      · simp only []
        rcases seekAll (wayPairs H op.key m.kv) s with ⟨_ | e, s⟩
        · simp only []
          rcases dropAll (wayHashes H op.key m.kv).reverse s with ⟨_ | e, s⟩
          · exact hfin _ _ _ _
          · rfl
        · rfl

/-- One call of the tree is one call of the machine. -/
theorem op_agrees (p : Profile) (env : Env H M U) (op : Op) (hu : U op.key) {st : Tree E} {t : T} {kv : Entries Bytes}
    (h : Rep H M U st t kv) (hf : Fits H M (op.target (⟨kv, st.storage⟩ : Machine E))) :
    Agrees (op.run p H st) (op.onMachine H ⟨kv, st.storage⟩) ∧ ∃ t', Rep H M U (op.run p H st).2 t' (op.onMachine H ⟨kv, st.storage⟩).2.kv := by
  have hdel : op.data = none → (st.storage.map op.key).isSome → Fits H M (eraseMet kv op.key) := by
    intro hop hr
    unfold Op.target at hf
    simp only [hop, hr, if_true] at hf
    exact hf
  have ha : Agrees (op.run p H st) (op.onMachine H ⟨kv, st.storage⟩) := by
    cases op with
    | delete k => exact delete_agrees p env hu h (hdel rfl) (.delete k) rfl rfl
    | update k d =>
      by_cases hd : d = []
      · subst hd
        exact delete_agrees p env hu h (hdel rfl) (.update k []) rfl rfl
      · refine update_agrees p env hu hd h ?_
        unfold Op.target at hf
        have : (Op.update k d).data = some d := by simp [Op.data, hd]
        simp only [this] at hf
        exact hf
  refine ⟨ha, ?_⟩
  obtain ⟨t', hs⟩ := op_step p env op hu h hf
  refine ⟨t', ?_⟩
  rw [onMachine_kv, ← ha.1]
  exact hs.rep

/-- A history of calls. -/
theorem run_agrees (p : Profile) (env : Env H M U) : ∀ (ops : List Op) {st : Tree E} {t : T} {kv : Entries Bytes}, Rep H M U st t kv →
    (∀ op ∈ ops, U op.key) → (∀ x ∈ triedMaps H ops (⟨kv, st.storage⟩ : Machine E), Fits H M x) →
    (run p H ops st).1.map (·.out) = (runMachine H ops ⟨kv, st.storage⟩).1 ∧
      (run p H ops st).2.storage = (runMachine H ops ⟨kv, st.storage⟩).2.storage ∧
      ∃ t', Rep H M U (run p H ops st).2 t' (runMachine H ops ⟨kv, st.storage⟩).2.kv := by
  intro ops
  induction ops with
  | nil => intro st t kv h _ _; exact ⟨rfl, rfl, t, h⟩
  | cons op ops ih =>
    intro st t kv h hu hf
    obtain ⟨⟨a1, a2⟩, t1, h1⟩ := op_agrees p env op (hu op (by simp)) h (hf _ (by simp [triedMaps]))
    have e : (op.onMachine H ⟨kv, st.storage⟩).2 = ⟨(op.onMachine H ⟨kv, st.storage⟩).2.kv, (op.run p H st).2.storage⟩ := by rw [a2]
    obtain ⟨b1, b2, b3⟩ := ih h1 (fun o ho => hu o (by simp [ho])) (fun x hx => hf x (by
      rw [triedMaps, e]
      simp [hx]))
    rw [run, runMachine, e]
    refine ⟨?_, b2, b3⟩
    rw [List.map_cons, b1, a1]

theorem triedMaps_solid : ∀ (ops : List Op) (m : Machine E), (keysOf m.kv).Nodup → Solid H m.kv → NoPhantom H ops →
    ∀ x ∈ triedMaps H ops m, (keysOf x).Nodup ∧ Solid H x := by
  intro ops
  induction ops with
  | nil =>
    intro m hn hs _ x hx
    simp only [triedMaps, List.mem_singleton] at hx
    subst hx; exact ⟨hn, hs⟩
  | cons op ops ih =>
    intro m hn hs hp x hx
    have h1 := hp op (by simp)
    have htar : op.target m = (⟨op, (m.storage.map op.key).isSome, .ok ()⟩ : Event E).attempt m.kv := rfl
    rw [triedMaps, List.mem_cons, List.mem_cons] at hx
    rcases hx with rfl | rfl | hx
    · exact ⟨hn, hs⟩
    · rw [htar]; exact ⟨Event.attempt_nodup _ hn, Event.attempt_solid _ hs h1⟩
    · refine ih _ ?_ ?_ (fun o ho => hp o (by simp [ho])) x hx
      · rw [onMachine_kv]; exact Event.effect_nodup _ hn
      · rw [onMachine_kv]; exact Event.effect_solid _ hs h1

end Sparse
end FuelMerkle
