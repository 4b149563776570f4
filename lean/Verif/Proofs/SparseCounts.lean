import Verif.Proofs.SparseRun
import Verif.Spec.SparseCounts

/-
Numbers of storage calls of the sparse tree.
-/
namespace FuelMerkle
namespace Sparse
open Spec T
variable {E : Type} {H : HashFn} {M : Bytes → Prop} {U : Bytes32 → Prop}

/-! ### Calls that succeed -/

theorem sbind_inv {σ ε α β : Type} {m : Exec σ ε α} {f : α → Exec σ ε β} {s s' : σ} {b : β} (h : (m >>= f) s = (.ok b, s')) :
    ∃ a s1, m s = (.ok a, s1) ∧ f a s1 = (.ok b, s') := by
  rw [Exec.bind_apply] at h
  rcases hm : m s with ⟨e | a, s1⟩
  · rw [hm] at h; cases h
  · rw [hm] at h; exact ⟨a, s1, rfl, h⟩

theorem slift_inv {σ ε α β : Type} {r : Res α} {f : α → Exec σ (Fail ε) β} {s s' : σ} {b : β}
    (h : (Exec.liftRes r >>= f) s = (.ok b, s')) : ∃ a, r = .ok a ∧ f a s = (.ok b, s') := by
  cases r with
  | error q => cases h
  | ok a => exact ⟨a, rfl, h⟩

theorem sget_clock (key : Bytes32) {t t' : Tree E} {q : Option Prim} (h : onStorage (Store.get key) t = (.ok q, t')) :
    t'.storage.clock = t.storage.clock + 1 := by
  unfold onStorage Store.get at h
  cases hs : t.storage.sched t.storage.clock <;> simp only [hs, Prod.mk.injEq] at h
  · rw [← h.2]
  · cases h.1

theorem sinsert_clock (key : Bytes32) (x : Prim) {t t' : Tree E} {q : Option Prim}
    (h : onStorage (Store.insert key x) t = (.ok q, t')) : t'.storage.clock = t.storage.clock + 1 := by
  unfold onStorage Store.insert at h
  cases hs : t.storage.sched t.storage.clock <;> simp only [hs, Prod.mk.injEq] at h
  · rw [← h.2]
  · cases h.1

theorem sremove_clock (key : Bytes32) {t t' : Tree E} {q : Option Prim}
    (h : onStorage (Store.remove key) t = (.ok q, t')) : t'.storage.clock = t.storage.clock + 1 := by
  unfold onStorage Store.remove at h
  cases hs : t.storage.sched t.storage.clock <;> simp only [hs, Prod.mk.injEq] at h
  · rw [← h.2]
  · cases h.1

theorem mergeNode_clock (p : Profile) (path : Bytes) (c s : Node) {t t' : Tree E} {n : Node}
    (h : mergeNode p H path c s t = (.ok n, t')) : t'.storage.clock = t.storage.clock + 1 := by
  unfold mergeNode at h
  obtain ⟨_, -, h⟩ := slift_inv h
  obtain ⟨_, t1, h1, h⟩ := sbind_inv h
  have := sinsert_clock _ _ h1
  cases h
  exact this

theorem mergeNodes_clock (p : Profile) (path : Bytes) (ss : List Node) : ∀ (c : Node) {t t' : Tree E} {n : Node},
    mergeNodes p H path c ss t = (.ok n, t') → t'.storage.clock = t.storage.clock + ss.length := by
  induction ss with
  | nil => intro c t t' n h; cases h; rfl
  | cons s ss ih =>
    intro c t t' n h
    rw [mergeNodes] at h
    obtain ⟨_, t1, h1, h⟩ := sbind_inv h
    rw [ih _ h, mergeNode_clock p path c s h1, List.length_cons]
    omega

theorem removeAll_clock (ps : List Node) : ∀ {t t' : Tree E} {u : Unit},
    removeAll H ps t = (.ok u, t') → t'.storage.clock = t.storage.clock + ps.length := by
  induction ps with
  | nil => intro t t' n h; cases h; rfl
  | cons s ss ih =>
    intro t t' n h
    rw [removeAll] at h
    obtain ⟨_, t1, h1, h⟩ := sbind_inv h
    rw [ih h, sremove_clock _ h1, List.length_cons]
    omega

theorem setRootNode_clock (p : Profile) (n : Node) {t t' : Tree E} {u : Unit}
    (h : setRootNode p n t = (.ok u, t')) : t'.storage.clock = t.storage.clock := by
  unfold setRootNode at h
  obtain ⟨_, -, h⟩ := slift_inv h
  cases h
  rfl

/-- The number of merges when a path is rebuilt. -/
def rebuildCount : List Node → Nat
  | [] => 0
  | first :: others =>
    if first.isLeaf then
      match findNonPlaceholder others with
      | (some _, rest) => 1 + rest.length
      | (none, _) => 0
    else 1 + others.length

theorem rebuild_clock (p : Profile) (path : Bytes) (ss : List Node) {t t' : Tree E} {n : Node}
    (h : rebuild p H path ss t = (.ok n, t')) : t'.storage.clock = t.storage.clock + rebuildCount ss := by
  cases ss with
  | nil => cases h; rfl
  | cons first others =>
    cases hl : first.isLeaf with
    | false =>
      rw [rebuild_node p path hl] at h
      rw [mergeNodes_clock p path _ _ h]
      simp only [rebuildCount, hl, Bool.false_eq_true, if_false, List.length_cons]
      omega
    | true =>
      rcases hf : findNonPlaceholder others with ⟨_ | s, rest⟩
      · have := findNonPlaceholder_none_rest hf
        subst this
        rw [rebuild_leaf_none p path hl hf] at h
        cases h
        simp only [rebuildCount, hl, if_true, hf, Nat.add_zero]
      · rw [rebuild_leaf_some p path hl hf] at h
        obtain ⟨_, t1, h1, h⟩ := sbind_inv h
        rw [mergeNodes_clock p path _ _ h, mergeNode_clock p path _ _ h1]
        simp only [rebuildCount, hl, if_true, hf]
        omega

/-! ### Reading a path -/

/-- The number of reads for the children of a node. -/
def readCost (n : Node) : Nat :=
  if n.isNode then (if n.bytesLo = zeroSum then 0 else 1) + (if n.bytesHi = zeroSum then 0 else 1) else 0

theorem childByKey_clock (key : Bytes32) {t t' : Tree E} {r : Except (CErr E) Node}
    (h : childByKey key t = (.ok r, t')) : t'.storage.clock = t.storage.clock + if key = zeroSum then 0 else 1 := by
  unfold childByKey at h
  by_cases hz : key = zeroSum
  · rw [if_pos hz] at h ⊢
    cases h; rfl
  · rw [if_neg hz] at h ⊢
    obtain ⟨x, t1, h1, h⟩ := sbind_inv h
    have c1 : t1.storage.clock = t.storage.clock + 1 := by
      unfold tryStorage at h1
      simp only [Prod.mk.injEq] at h1
      rw [← h1.2]
      show (Store.get key t.storage).2.clock = _
      unfold Store.get
      cases t.storage.sched t.storage.clock <;> rfl
    have : t' = t1 := by
      rcases x with e | _ | q
      · cases h; rfl
      · cases h; rfl
      · simp only [] at h
        cases hq : Node.ofPrim q <;> (rw [hq] at h; cases h; rfl)
    rw [this, c1]

theorem leftChild_clock {n : Node} (hn : n.isNode = true) {t t' : Tree E} {r : Except (CErr E) Node}
    (h : leftChild n t = (.ok r, t')) : t'.storage.clock = t.storage.clock + if n.bytesLo = zeroSum then 0 else 1 := by
  unfold leftChild at h
  by_cases hl : n.isLeaf = true
  · rw [if_pos hl] at h
    have hlo : n.bytesLo = zeroSum := by
      simp only [Node.isLeaf, Node.isNode, Bool.or_eq_true, decide_eq_true_eq] at hl hn
      rcases hl with hl | hl
      · rw [hn] at hl; cases hl
      · simp only [Node.isPlaceholder, Bool.and_eq_true, decide_eq_true_eq] at hl; exact hl.1
    rw [if_pos hlo]
    cases h; rfl
  · rw [if_neg hl] at h
    obtain ⟨k, hk, h⟩ := slift_inv h
    have : k = n.bytesLo := by
      unfold Node.leftChildKey rassert at hk
      rw [if_pos hn] at hk
      exact (Except.ok.inj hk).symm
    rw [childByKey_clock k h, this]

theorem rightChild_clock {n : Node} (hn : n.isNode = true) {t t' : Tree E} {r : Except (CErr E) Node}
    (h : rightChild n t = (.ok r, t')) : t'.storage.clock = t.storage.clock + if n.bytesHi = zeroSum then 0 else 1 := by
  unfold rightChild at h
  by_cases hl : n.isLeaf = true
  · rw [if_pos hl] at h
    have hlo : n.bytesHi = zeroSum := by
      simp only [Node.isLeaf, Node.isNode, Bool.or_eq_true, decide_eq_true_eq] at hl hn
      rcases hl with hl | hl
      · rw [hn] at hl; cases hl
      · simp only [Node.isPlaceholder, Bool.and_eq_true, decide_eq_true_eq] at hl; exact hl.2
    rw [if_pos hlo]
    cases h; rfl
  · rw [if_neg hl] at h
    obtain ⟨k, hk, h⟩ := slift_inv h
    have : k = n.bytesHi := by
      unfold Node.rightChildKey rassert at hk
      rw [if_pos hn] at hk
      exact (Except.ok.inj hk).symm
    rw [childByKey_clock k h, this]

/-- The reads of a list of path nodes. -/
def readsOf (ns : List Node) : Nat := (ns.map readCost).sum

/-- One step of the iterator. -/
theorem next_clock {it it' : PathIter Node (CErr E)} {c : Node} {sd : Except (CErr E) Node} (hc : it.current = some (.ok c, sd))
    {t t' : Tree E} {v : Option (Except (CErr E) Node × Except (CErr E) Node)}
    (h : it.next storageNode t = (.ok (v, it'), t')) :
    v = it.current ∧
      ((it'.currentOffset = it.currentOffset + 1 ∧ t'.storage.clock = t.storage.clock + readCost c ∧ c.isNode = true) ∨
        (it'.current = none ∧ t'.storage.clock = t.storage.clock ∧ (c.isNode = true → 256 ≤ it.currentOffset))) := by
  unfold PathIter.next at h
  rw [hc] at h
  simp only at h
  have hsn : (storageNode (E := E)).isNode c = c.isNode := rfl
  rw [hsn] at h
  by_cases hn : c.isNode = true
  · rw [if_pos hn] at h
    obtain ⟨path, t1, h1, h⟩ := sbind_inv h
    obtain ⟨k, hk, h1⟩ := slift_inv (show (Exec.liftRes it.leaf.leafKey >>= fun k => pure k.val) t = _ from h1)
    cases h1
    have hcost : readCost c = (if c.bytesLo = zeroSum then 0 else 1) + (if c.bytesHi = zeroSum then 0 else 1) := by
      rw [readCost, if_pos hn]
    by_cases ho : it.currentOffset < 256
    · rw [getInstruction_eq k ho] at h
      cases hb : keyBit k it.currentOffset
      · rw [hb] at h
        simp only [Bool.false_eq_true, if_false] at h
        obtain ⟨l, t2, h2, h⟩ := sbind_inv (show (leftChild c >>= fun l => rightChild c >>= fun r => pure _) t = _ from h)
        obtain ⟨r, t3, h3, h⟩ := sbind_inv h
        cases h
        refine ⟨hc.symm, .inl ⟨rfl, ?_, hn⟩⟩
        rw [rightChild_clock hn h3, leftChild_clock hn h2, hcost]; omega
      · rw [hb] at h
        simp only [if_true] at h
        obtain ⟨l, t2, h2, h⟩ := sbind_inv (show (rightChild c >>= fun r => leftChild c >>= fun l => pure _) t = _ from h)
        obtain ⟨r, t3, h3, h⟩ := sbind_inv h
        cases h
        refine ⟨hc.symm, .inl ⟨rfl, ?_, hn⟩⟩
        rw [leftChild_clock hn h3, rightChild_clock hn h2, hcost]; omega
    · have : getInstruction k.val it.currentOffset = none := by
        unfold getInstruction
        rw [getBitAtIndexFromMsb_eq, List.getElem?_eq_none (by rw [bitsOf_length, k.property]; omega)]
        rfl
      rw [this] at h
      cases h
      exact ⟨hc.symm, .inr ⟨rfl, rfl, fun _ => by omega⟩⟩
  · rw [if_neg hn] at h
    cases h
    exact ⟨hc.symm, .inr ⟨rfl, rfl, fun h => absurd h hn⟩⟩

theorem collectPath_clock : ∀ (fuel : Nat) (it : PathIter Node (CErr E)) {t t' : Tree E} {items : List (Node × Node)},
    collectPath fuel it t = (.ok items, t') →
    t'.storage.clock = t.storage.clock + readsOf ((items.map Prod.fst).take (256 - it.currentOffset)) := by
  intro fuel
  induction fuel with
  | zero => intro it t t' items h; cases h
  | succ fuel ih =>
    intro it t t' items h
    rw [collectPath] at h
    obtain ⟨⟨v, it'⟩, t1, h1, h3⟩ := sbind_inv h
    clear h
    have h := h3
    clear h3
    simp only at h
    rcases hcur : it.current with _ | ⟨e | c, sd⟩
    · have : v = none ∧ t1 = t := by
        unfold PathIter.next at h1
        rw [hcur] at h1
        cases h1; exact ⟨rfl, rfl⟩
      obtain ⟨rfl, rfl⟩ := this
      cases h
      simp [readsOf]
    · have : v = some (.error e, sd) := by
        unfold PathIter.next at h1
        rw [hcur] at h1
        cases h1; rfl
      subst this
      cases h
    · obtain ⟨hv, hstep⟩ := next_clock hcur h1
      rw [hcur] at hv
      subst hv
      cases sd with
      | error e => cases h
      | ok b =>
        simp only at h
        obtain ⟨rest, t2, h2, h3⟩ := sbind_inv h
        clear h
        cases h3
        rcases hstep with ⟨a1, a2, a3⟩ | ⟨a1, a2, a3⟩
        · have := ih it' h2
          rw [this, a2, a1]
          by_cases ho : it.currentOffset < 256
          · rw [show 256 - it.currentOffset = (256 - (it.currentOffset + 1)) + 1 by omega]
            simp only [List.map_cons, List.take_succ_cons, readsOf, List.map_cons, List.sum_cons]
            omega
          · exfalso
            -- beyond the last bit the iterator stops
            unfold PathIter.next at h1
            rw [hcur] at h1
            simp only at h1
            rw [if_pos (show (storageNode (E := E)).isNode c = true from a3)] at h1
            obtain ⟨path, t1', g1, h1⟩ := sbind_inv h1
            obtain ⟨k, hk, g1⟩ := slift_inv (show (Exec.liftRes it.leaf.leafKey >>= fun k => pure k.val) t = _ from g1)
            cases g1
            have : getInstruction k.val it.currentOffset = none := by
              unfold getInstruction
              rw [getBitAtIndexFromMsb_eq, List.getElem?_eq_none (by rw [bitsOf_length, k.property]; omega)]
              rfl
            rw [this] at h1
            cases h1
            simp at a1
        · have hrest : rest = [] ∧ t' = t1 := by
            cases fuel with
            | zero => cases h2
            | succ fuel =>
              rw [collectPath] at h2
              have e : it'.next storageNode t1 = (.ok (none, it'), t1) := by
                unfold PathIter.next
                rw [a1]; rfl
              rw [Exec.bind_ok e] at h2
              cases h2; exact ⟨rfl, rfl⟩
          obtain ⟨rfl, hrest⟩ := hrest
          rw [hrest]
          rw [a2]
          by_cases hn : c.isNode = true
          · have := a3 hn
            rw [show 256 - it.currentOffset = 0 by omega]
            simp [readsOf]
          · rcases Nat.eq_zero_or_pos (256 - it.currentOffset) with h0 | h0
            · rw [h0]; simp [readsOf]
            · obtain ⟨m, hm⟩ : ∃ m, 256 - it.currentOffset = m + 1 := ⟨256 - it.currentOffset - 1, by omega⟩
              rw [hm]
              simp [readsOf, readCost, hn]

/-! ### The abstract tree -/

deriving instance DecidableEq for T

/-- The nodes read on the path of `k`. -/
def readsT (k : Bytes32) : Nat → T → Nat
  | d, .node l r => (if l = .empty then 0 else 1) + (if r = .empty then 0 else 1) +
    (if keyBit k d then readsT k (d + 1) r else readsT k (d + 1) l)
  | _, _ => 0

theorem readsT_node (k : Bytes32) (d : Nat) (l r : T) :
    readsT k d (node l r) = (if l = .empty then 0 else 1) + (if r = .empty then 0 else 1) +
      readsT k (d + 1) (if keyBit k d then r else l) := by
  rw [readsT]; cases keyBit k d <;> rfl

theorem readsOf_append (a b : List Node) : readsOf (a ++ b) = readsOf a + readsOf b := by
  simp [readsOf]

theorem readsOf_path (env : Env H M U) (k : Bytes32) : ∀ {t : T} {d : Nat}, In H M t →
    readsOf (pathNodes H k d t) = readsT k d t := by
  intro t
  induction t with
  | empty => intro d _; rfl
  | leaf k' v' => intro d _; rfl
  | node l r ihl ihr =>
    intro d hin
    rw [pathNodes_node, readsOf_append, readsT_node]
    have hcost : readsOf [toNode H d (node l r)] = (if l = .empty then 0 else 1) + (if r = .empty then 0 else 1) := by
      have e : readsOf [toNode H d (node l r)] =
          (if l.hash H = zeroSum then 0 else 1) + (if r.hash H = zeroSum then 0 else 1) := rfl
      rw [e]
      simp only [hin.left.hash_zero env, hin.right.hash_zero env]
    rw [hcost, Nat.add_comm]
    congr 1
    cases keyBit k d
    · exact ihl hin.left
    · exact ihr hin.right

theorem pathNodes_length (k : Bytes32) : ∀ {t : T} {d : Nat}, (pathNodes H k d t).length + d = endDepth k d t + 1 := by
  intro t
  induction t with
  | empty => intro d; simp [pathNodes, endDepth]; omega
  | leaf k' v' => intro d; simp [pathNodes, endDepth]; omega
  | node l r ihl ihr =>
    intro d
    rw [pathNodes_node, endDepth_node, List.length_append]
    cases keyBit k d
    · have := ihl (d := d + 1); simp only [Bool.false_eq_true, if_false, List.length_singleton]; omega
    · have := ihr (d := d + 1); simp only [if_true, List.length_singleton]; omega

theorem readCost_end {t : T} (ht : ∀ l r, t ≠ node l r) (d : Nat) : readCost (toNode H d t) = 0 := by
  cases t with
  | empty => rfl
  | leaf k v => rfl
  | node l r => exact absurd rfl (ht l r)

theorem readsOf_reverse (l : List Node) : readsOf l.reverse = readsOf l := by
  simp [readsOf, List.sum_reverse]

theorem pathSet_clock (p : Profile) (env : Env H M U) {leaf : Node} {k : Bytes32} {t : T} {st st' : Tree E}
    (hroot : st.rootNode = toNode H 0 t) (w : WF 0 t) (hin : In H M t) {ss : List Node}
    (h : pathSet p leaf st = (.ok (pathNodes H k 0 t, ss), st')) :
    st'.storage.clock = st.storage.clock + readsT k 0 t := by
  unfold pathSet at h
  rw [Exec.get_bind, hroot] at h
  obtain ⟨it, t1, h1, h⟩ := sbind_inv h
  obtain ⟨items, t2, h2, h⟩ := sbind_inv h
  simp only [Exec.pure_apply, Prod.mk.injEq, Except.ok.injEq] at h
  obtain ⟨⟨h3, -⟩, rfl⟩ := h
  have hit : t1 = st ∧ it.currentOffset = 256 - (toNode H 0 t).height := by
    unfold PathIter.new at h1
    have hh : (toNode H 0 t).height ≤ 256 := by cases t <;> simp [toNode, Node.createPlaceholder]
    have : (storageNode (E := E)).lift (usizeSub p (storageNode (E := E)).keySizeInBits
        ((storageNode (E := E)).height (toNode H 0 t))) st = (.ok (256 - (toNode H 0 t).height), st) := by
      show Exec.liftRes (usizeSub p 256 (toNode H 0 t).height) st = _
      unfold usizeSub
      rw [if_pos hh]; rfl
    rw [Exec.bind_ok this] at h1
    cases h1
    exact ⟨rfl, rfl⟩
  obtain ⟨rfl, ho⟩ := hit
  have hfst : items.map Prod.fst = (pathNodes H k 0 t).reverse := by rw [← h3, List.reverse_reverse]
  rw [collectPath_clock _ _ h2, hfst, ho, ← readsOf_path env k hin (d := 0)]
  congr 1
  obtain ⟨e1, -, -, e4, -, ⟨rest, e6⟩, -, -⟩ := end_spec (H := H) (M := M) k w (Ag.zero k t) (by omega)
  have hlen := pathNodes_length (H := H) k (t := t) (d := 0)
  rw [e6] at hlen ⊢
  rw [List.length_cons] at hlen
  have hz : readsOf [toNode H (endDepth k 0 t) (endTree k 0 t)] = 0 := by
    simp [readsOf, readCost_end e1]
  have hgoal : readsOf (toNode H (endDepth k 0 t) (endTree k 0 t) :: rest) = readsOf rest := by
    rw [← List.singleton_append, readsOf_append, hz, Nat.zero_add]
  rw [hgoal]
  cases t with
  | node l r =>
    have : 256 - (256 - (toNode H 0 (node l r)).height) = 256 := rfl
    rw [this, List.reverse_cons, List.take_append, readsOf_append, List.take_of_length_le (by rw [List.length_reverse]; omega),
      readsOf_reverse]
    have : readsOf (List.take (256 - rest.reverse.length) [toNode H (endDepth k 0 (node l r)) (endTree k 0 (node l r))]) = 0 := by
      rcases Nat.eq_zero_or_pos (256 - rest.reverse.length) with h0 | h0
      · rw [h0]; rfl
      · rw [List.take_of_length_le (by rw [List.length_singleton]; exact h0)]; exact hz
    omega
  | empty =>
    have : rest = [] := List.length_eq_zero_iff.1 (by simp [endDepth] at hlen; simpa using hlen)
    subst this
    rfl
  | leaf k' v' =>
    have : rest = [] := List.length_eq_zero_iff.1 (by simp [endDepth] at hlen; simpa using hlen)
    subst this
    rfl

/-! ### Path lengths -/

theorem endDepth_nodeOn (k : Bytes32) (d : Nat) (a s : T) : endDepth k d (nodeOn (keyBit k d) a s) = endDepth k (d + 1) a := by
  unfold nodeOn
  cases hb : keyBit k d
  · simp only [Bool.false_eq_true, if_false, endDepth, hb]
  · simp only [if_true, endDepth, hb]

theorem endDepth_ge (k : Bytes32) : ∀ {t : T} {d : Nat}, d ≤ endDepth k d t := by
  intro t
  induction t with
  | empty => intro d; exact Nat.le_refl _
  | leaf _ _ => intro d; exact Nat.le_refl _
  | node l r ihl ihr =>
    intro d
    rw [endDepth_node]
    cases keyBit k d
    · have := ihl (d := d + 1); simp only [Bool.false_eq_true, if_false]; omega
    · have := ihr (d := d + 1); simp only [if_true]; omega

theorem endDepth_ins (k v : Bytes32) : ∀ {t : T} {d : Nat},
    endDepth k d (ins k v d t) = endDepth k (endDepth k d t) (ins k v (endDepth k d t) (endTree k d t)) := by
  intro t
  induction t with
  | empty => intro d; rfl
  | leaf _ _ => intro d; rfl
  | node l r ihl ihr =>
    intro d
    rw [ins_node, endDepth_nodeOn, endDepth_node, endTree_node]
    cases keyBit k d
    · exact ihl
    · exact ihr

theorem endDepth_fork {k v k' v' : Bytes32} (hne : k ≠ k') : ∀ (fuel d : Nat), fuel + d = 256 → agree d k k' →
    endDepth k d (fork k v k' v' fuel d) = common k k' + 1 := by
  intro fuel
  induction fuel with
  | zero => intro d hd hag; exact absurd (eq_of_agree hag (by omega)) hne
  | succ fuel ih =>
    intro d hd hag
    obtain ⟨g1, g2, g3, g4⟩ := common_ge hne hag
    unfold fork
    by_cases hb : keyBit k d = keyBit k' d
    · rw [if_pos hb, endDepth_nodeOn]
      exact ih (d + 1) (by omega) (hag.succ hb)
    · rw [if_neg hb, endDepth_nodeOn]
      have : common k k' = d := by
        by_contra hc
        exact hb (g3 d (by omega))
      rw [this]; rfl

/-- The merges of an update. -/
theorem updateWithPathSet_clock (p : Profile) (env : Env H M U) {k v : Bytes32} {t : T} (w : WF 0 t) (hin : In H M t)
    (hl : In H M (leaf k v)) {st st' : Tree E} {u : Unit}
    (h : updateWithPathSet p H (toNode H 0 (leaf k v)) (pathNodes H k 0 t) (sideNodes H k 0 t) st = (.ok u, st')) :
    st'.storage.clock = st.storage.clock + endDepth k 0 (ins k v 0 t) := by
  obtain ⟨h1, h2, h3, h4, h5, ⟨rest, h6⟩, h7, h8⟩ := end_spec (H := H) (M := M) k w (Ag.zero k t) (by omega)
  rw [endDepth_ins]
  rw [Nat.add_zero] at h5
  unfold updateWithPathSet at h
  rw [leafKey_leaf, Exec.liftRes_ok_bind, h6] at h
  simp only [] at h
  rw [Exec.liftRes_ok_bind] at h
  obtain ⟨ak, hak, h⟩ := slift_inv h
  obtain ⟨c, t1, g1, h⟩ := sbind_inv h
  obtain ⟨c', t2, g2, h⟩ := sbind_inv h
  rw [setRootNode_clock p c' h, mergeNodes_clock p _ _ _ g2, h5]
  have hin' := h7 hin
  revert hak g1 h1 h3 hin'
  generalize endTree k 0 t = et
  generalize endDepth k 0 t = e at h4 h5
  intro h1 h3 hak g1 hin'
  cases et with
  | node l r => exact absurd rfl (h1 l r)
  | empty =>
    have hc : (toNode H 0 (leaf k v)).commonPathLength p (toNode H e .empty) = .ok 0 := by
      have hl' : (toNode H 0 (leaf k v)).isLeaf = true := by simp [toNode, Node.isLeaf]
      have hp : (toNode H e .empty).isPlaceholder = true := rfl
      unfold Node.commonPathLength
      rw [hl', rdebugAssert_true, hp]
      have : (toNode H e .empty).isLeaf = true := rfl
      rw [this, rdebugAssert_true]
      simp
    have hins : endDepth k e (ins k v e .empty) = e := rfl
    rw [hins]
    by_cases hne : k ≠ ak
    · rw [if_pos hne] at g1
      have hp : (toNode H e .empty).isPlaceholder = true := rfl
      rw [if_pos hp, Exec.pure_bind, hc, Exec.liftRes_ok_bind] at g1
      rw [mergeNodes_clock p _ _ _ g1]
      simp
    · rw [if_neg hne] at g1
      cases g1; rfl
  | leaf k' v' =>
    rw [leafKey_leaf] at hak
    obtain rfl : ak = k' := (Except.ok.inj hak).symm
    rename' ak => k'
    by_cases hk : k = k'
    · rw [if_neg (by simpa using hk)] at g1
      have : ins k v e (leaf k' v') = leaf k v := by rw [ins, if_pos hk]
      rw [this]
      cases g1; rfl
    · have hp : ¬ (toNode H e (leaf k' v')).isPlaceholder = true := fun h => by
        have := (isPlaceholder_toNode env (t := leaf k' v') (d := e) trivial hin').1 h
        cases this
      have hag := (h3 (k', v') (by simp [entries])).symm
      have hfork : ins k v e (leaf k' v') = fork k v k' v' (256 - e) e := by rw [ins, if_neg hk]
      rw [hfork, endDepth_fork hk _ _ (by omega) hag]
      obtain ⟨c1, c2, c3, c4⟩ := common_ge hk hag
      rw [if_pos hk, if_neg hp] at g1
      obtain ⟨n, t3, g3, g1⟩ := sbind_inv g1
      rw [commonPathLength_leaves p env _ _ hl hin', Exec.liftRes_ok_bind] at g1
      rw [mergeNodes_clock p _ _ _ g1, mergeNode_clock p _ _ _ g3, List.length_replicate, h5]
      omega

/-- The merges of a removal. -/
theorem rebuildCount_spec (env : Env H M U) (k : Bytes32) : ∀ {t : T} {d : Nat}, WF d t → In H M t →
    (sideNodes H k d t = [] ∧ del k d t = .empty ∧ ∀ l r, t ≠ node l r) ∨
    (∃ a b others, sideNodes H k d t = toNode H d (leaf a b) :: others ∧ findNonPlaceholder others = (none, []) ∧
      del k d t = leaf a b) ∨
    (∃ l r, del k d t = node l r ∧ (∀ ys, rebuildCount (sideNodes H k d t ++ ys) = rebuildCount (sideNodes H k d t) + ys.length) ∧
      rebuildCount (sideNodes H k d t) + d = endDepth k d (del k d t)) := by
  intro t
  induction t with
  | empty => intro d _ _; exact .inl ⟨rfl, rfl, by simp⟩
  | leaf k' v' => intro d _ _; exact .inl ⟨rfl, rfl, by simp⟩
  | node l r ihl ihr =>
    intro d w hin
    have ew : node l r = nodeOn (keyBit k d) (if keyBit k d then r else l) (if keyBit k d then l else r) := node_eq_nodeOn _ l r
    have hww := w
    rw [ew] at hww
    have ih : (sideNodes H k (d + 1) (if keyBit k d then r else l) = [] ∧ del k (d + 1) (if keyBit k d then r else l) = .empty ∧
            ∀ l' r', (if keyBit k d then r else l) ≠ node l' r') ∨
        (∃ a c others, sideNodes H k (d + 1) (if keyBit k d then r else l) = toNode H (d + 1) (leaf a c) :: others ∧
          findNonPlaceholder others = (none, []) ∧ del k (d + 1) (if keyBit k d then r else l) = leaf a c) ∨
        (∃ l' r', del k (d + 1) (if keyBit k d then r else l) = node l' r' ∧
          (∀ ys, rebuildCount (sideNodes H k (d + 1) (if keyBit k d then r else l) ++ ys) =
            rebuildCount (sideNodes H k (d + 1) (if keyBit k d then r else l)) + ys.length) ∧
          rebuildCount (sideNodes H k (d + 1) (if keyBit k d then r else l)) + (d + 1) =
            endDepth k (d + 1) (del k (d + 1) (if keyBit k d then r else l))) := by
      have h1 := (WF_nodeOn.1 hww).2.1
      have h2 := (hin.parts (d := d) k).1
      cases hb : keyBit k d
      · rw [hb] at h1 h2; exact ihl h1 h2
      · rw [hb] at h1 h2; exact ihr h1 h2
    have hins := (hin.parts (d := d) k).2
    rw [sideNodes_node, del_node]
    obtain ⟨w1, w2, w3, w4, w5, w6, w7⟩ := WF_nodeOn.1 hww
    revert ih hins w7 w2 w3
    generalize (if keyBit k d then r else l) = a
    generalize (if keyBit k d then l else r) = s
    intro ih hins w2 w3 w7
    have hend : ∀ x y, endDepth k d (nodeOn (keyBit k d) x y) = endDepth k (d + 1) x := endDepth_nodeOn k d
    have hnode : ∀ (x y : T), ∃ l r, nodeOn (keyBit k d) x y = node l r := by
      intro x y; unfold nodeOn; cases keyBit k d <;> exact ⟨_, _, rfl⟩
    rcases ih with ⟨i1, i2, i3⟩ | ⟨x, y, others, i1, i2, i3⟩ | ⟨l', r', i1, i2, i3⟩
    · rw [i1, i2, List.nil_append]
      have hse : s ≠ .empty := by
        rintro rfl
        cases a with
        | empty => simp [entries] at w7
        | leaf x y => simp [entries] at w7
        | node l r => exact i3 l r rfl
      cases s with
      | empty => exact absurd rfl hse
      | leaf x y => exact .inr (.inl ⟨x, y, [], rfl, rfl, mkOn_empty_left _ (by simp)⟩)
      | node l' r' =>
        have hl : (toNode H (d + 1) (node l' r')).isLeaf = false := by
          rw [Bool.eq_false_iff]
          intro h
          exact (isLeaf_toNode env w3 hins).1 h l' r' rfl
        rw [mkOn_empty_node]
        obtain ⟨l2, r2, e2⟩ := hnode .empty (node l' r')
        refine .inr (.inr ⟨l2, r2, e2, fun ys => ?_, ?_⟩)
        · simp [rebuildCount, hl]
        · rw [hend]
          simp [rebuildCount, hl, endDepth]; omega
    · rw [i1, i3, List.cons_append]
      have hl : (toNode H (d + 1) (leaf x y)).isLeaf = true := by simp [toNode, Node.isLeaf]
      by_cases hs : s = .empty
      · subst hs
        exact .inr (.inl ⟨x, y, _, rfl, by rw [find_append_none i2]; rfl, mkOn_empty_right _ _ _⟩)
      · have hp : ¬ (toNode H (d + 1) s).isPlaceholder = true := fun h => hs ((isPlaceholder_toNode env w3 hins).1 h)
        have hf : findNonPlaceholder (others ++ [toNode H (d + 1) s]) = (some (toNode H (d + 1) s), []) := by
          rw [find_append_none i2, findNonPlaceholder, if_neg hp]
        rw [mkOn_leaf hs]
        obtain ⟨l2, r2, e2⟩ := hnode (leaf x y) s
        refine .inr (.inr ⟨l2, r2, e2, fun ys => ?_, ?_⟩)
        · rw [List.cons_append]
          simp only [rebuildCount, hl, if_true, hf, find_append_some hf]
          simp
        · rw [hend]
          simp only [rebuildCount, hl, if_true, hf, List.length_nil, endDepth]; omega
    · rw [i1, mkOn_node]
      obtain ⟨l2, r2, e2⟩ := hnode (node l' r') s
      refine .inr (.inr ⟨l2, r2, e2, fun ys => ?_, ?_⟩)
      · rw [List.append_assoc, i2, i2]
        simp; omega
      · rw [hend, ← i1, ← i3, i2]
        simp; omega

theorem rebuildCount_eq (env : Env H M U) (k : Bytes32) {t : T} (w : WF 0 t) (hin : In H M t) :
    rebuildCount (sideNodes H k 0 t) = endDepth k 0 (del k 0 t) := by
  rcases rebuildCount_spec env k w hin with ⟨h1, h2, _⟩ | ⟨a, b, others, h1, h2, h3⟩ | ⟨l, r, _, _, h3⟩
  · rw [h1, h2]; rfl
  · rw [h1, h3]
    have hl : (toNode H 0 (leaf a b)).isLeaf = true := by simp [toNode, Node.isLeaf]
    simp only [rebuildCount, hl, if_true, h2, endDepth]
  · omega

/-! ### The specification over key lists -/

theorem path_counts (k : Bytes32) : ∀ {t : T} {d fuel : Nat} {ks : List Bytes32}, WF d t → fuel + d = 256 → ks.Nodup →
    (∀ x, x ∈ ks ↔ ∃ v, (x, v) ∈ t.entries) →
    endDepth k d t = d + pathLenFrom k fuel d ks ∧ readsT k d t = pathReadsFrom k fuel d ks := by
  intro t
  have short : ∀ (ks : List Bytes32) (d fuel : Nat), ks.length ≤ 1 → pathLenFrom k fuel d ks = 0 ∧ pathReadsFrom k fuel d ks = 0 := by
    intro ks d fuel h
    cases fuel with
    | zero => exact ⟨rfl, rfl⟩
    | succ fuel => exact ⟨by rw [pathLenFrom, if_pos h], by rw [pathReadsFrom, if_pos h]⟩
  induction t with
  | empty =>
    intro d fuel ks _ _ _ h
    have : ks = [] := eq_nil_of_mem (fun x hx => by simpa [entries] using (h x).1 hx)
    subst this
    obtain ⟨a, b⟩ := short [] d fuel (by simp)
    rw [a, b]; exact ⟨rfl, rfl⟩
  | leaf k' v' =>
    intro d fuel ks _ _ hnd h
    have : ks.length ≤ 1 := by
      have hall : ∀ x ∈ ks, x = k' := fun x hx => by
        obtain ⟨v, hv⟩ := (h x).1 hx
        simp only [entries, List.mem_singleton, Prod.mk.injEq] at hv
        exact hv.1
      match ks, hnd, hall with
      | [], _, _ => simp
      | [_], _, _ => simp
      | x :: y :: ys, hnd, hall =>
        rw [hall x (by simp), hall y (by simp)] at hnd
        simp at hnd
    obtain ⟨a, b⟩ := short ks d fuel this
    rw [a, b]; exact ⟨rfl, rfl⟩
  | node l r ihl ihr =>
    intro d fuel ks w hf hnd h
    obtain ⟨w1, w2, w3, w4, w5, w6, w7⟩ := w
    obtain ⟨fuel, rfl⟩ : ∃ f, fuel = f + 1 := ⟨fuel - 1, by omega⟩
    have hlen : ¬ ks.length ≤ 1 := by
      have hn1 : ((node l r).entries.map Prod.fst).Nodup := nodup (t := node l r) (d := d) ⟨w1, w2, w3, w4, w5, w6, w7⟩
      have hsub : (node l r).entries.map Prod.fst ⊆ ks := fun x hx => by
        obtain ⟨y, hy, rfl⟩ := List.mem_map.1 hx
        exact (h y.1).2 ⟨y.2, hy⟩
      have := (List.subperm_of_subset hn1 hsub).length_le
      rw [List.length_map, entries, List.length_append] at this
      omega
    have hl : ∀ z, (∃ v, (z, v) ∈ l.entries) ↔ z ∈ ks ∧ keyBit z d = false := by
      intro z
      rw [h]
      constructor
      · rintro ⟨v, hv⟩; exact ⟨⟨v, by simp [entries, hv]⟩, w4 _ hv⟩
      · rintro ⟨⟨v, hv⟩, hb⟩
        rw [entries, List.mem_append] at hv
        rcases hv with hv | hv
        · exact ⟨v, hv⟩
        · have := w5 _ hv; rw [hb] at this; cases this
    have hr : ∀ z, (∃ v, (z, v) ∈ r.entries) ↔ z ∈ ks ∧ keyBit z d = true := by
      intro z
      rw [h]
      constructor
      · rintro ⟨v, hv⟩; exact ⟨⟨v, by simp [entries, hv]⟩, w5 _ hv⟩
      · rintro ⟨⟨v, hv⟩, hb⟩
        rw [entries, List.mem_append] at hv
        rcases hv with hv | hv
        · have := w4 _ hv; rw [hb] at this; cases this
        · exact ⟨v, hv⟩
    have hemp : ∀ {c : T} {d : Nat}, WF d c → (∀ z, ¬ ∃ v, (z, v) ∈ c.entries) → c = .empty := by
      intro c d wc hz
      exact (entries_nil wc).1 (eq_nil_of_mem fun x hx => hz x.1 ⟨x.2, hx⟩)
    have key : ∀ (ks' : List Bytes32) {c : T} {d : Nat}, WF d c → (∀ z, z ∈ ks' ↔ ∃ v, (z, v) ∈ c.entries) →
        ((if c = .empty then 0 else 1) = (if ks' = [] then 0 else 1 : Nat)) := by
      intro ks' c d wc hz
      by_cases hc : c = .empty
      · subst hc
        have : ks' = [] := eq_nil_of_mem fun x hx => by simpa [entries] using (hz x).1 hx
        rw [if_pos rfl, if_pos this]
      · rw [if_neg hc, if_neg]
        rintro rfl
        exact hc (hemp wc fun z hv => by simpa using (hz z).2 hv)
    have hmw : ∀ z, z ∈ withBit k d ks ↔ z ∈ ks ∧ keyBit z d = keyBit k d := by
      intro z; simp [withBit]
    have hmo : ∀ z, z ∈ withoutBit k d ks ↔ z ∈ ks ∧ keyBit z d ≠ keyBit k d := by
      intro z; simp [withoutBit]
    have hndw : (withBit k d ks).Nodup := hnd.filter _
    rw [endDepth_node, readsT_node, pathLenFrom, if_neg hlen, pathReadsFrom, if_neg hlen]
    cases hb : keyBit k d
    · simp only [Bool.false_eq_true, if_false]
      have hw' : ∀ z, z ∈ withBit k d ks ↔ ∃ v, (z, v) ∈ l.entries := fun z => by rw [hmw, hl, hb]
      have ho' : ∀ z, z ∈ withoutBit k d ks ↔ ∃ v, (z, v) ∈ r.entries := fun z => by rw [hmo, hr, hb]; simp
      obtain ⟨a, b⟩ := ihl (fuel := fuel) w2 (by omega) hndw hw'
      rw [a, b, key _ w2 hw', key _ w3 ho']
      exact ⟨by omega, rfl⟩
    · simp only [if_true]
      have hw' : ∀ z, z ∈ withBit k d ks ↔ ∃ v, (z, v) ∈ r.entries := fun z => by rw [hmw, hr, hb]
      have ho' : ∀ z, z ∈ withoutBit k d ks ↔ ∃ v, (z, v) ∈ l.entries := fun z => by rw [hmo, hl, hb]; simp
      obtain ⟨a, b⟩ := ihr (fuel := fuel) w3 (by omega) hndw hw'
      rw [a, b, key _ w3 hw', key _ w2 ho']
      exact ⟨by omega, by omega⟩

theorem Ent.counts {t : T} {kv : Entries Bytes} (h : Ent H t kv) (w : WF 0 t) (k : Bytes32) :
    endDepth k 0 t = pathLen k (keysOf kv) ∧ readsT k 0 t = pathReads k (keysOf kv) := by
  have := path_counts k (fuel := 256) w rfl h.nodup (fun x => by
    rw [mem_keysOf]
    constructor
    · rintro ⟨d, hd⟩; exact ⟨H d, (h.mem _).2 (mem_digests.2 ⟨d, hd, rfl⟩)⟩
    · rintro ⟨v, hv⟩
      obtain ⟨d, hd, _⟩ := mem_digests.1 ((h.mem _).1 hv)
      exact ⟨d, hd⟩)
  rw [Nat.zero_add] at this
  exact this

/-! ### The calls -/

theorem update_clock (p : Profile) (env : Env H M U) {k : Bytes32} {d : Bytes} (hd : d ≠ []) {st st' : Tree E} {t : T}
    {kv : Entries Bytes} (h : Rep H M U st t kv) (hu : U k) (hf : Fits H M (Entries.put kv k d)) {u : Unit}
    (hr : update p H k d st = (.ok u, st')) :
    st'.storage.clock = st.storage.clock + (2 + pathReads k (keysOf kv) + pathLen k (keysOf (Entries.put kv k d))) := by
  have wi := (ins_spec (k := k) (v := H d) h.wf (Ag.zero k t) (by omega)).1
  have ei := h.ent.put h.wf k d
  have ini := ei.inn wi hf
  have is := ins_spec (k := k) (v := H d) h.wf (Ag.zero k t) (by omega)
  have hl : In H M (leaf k (H d)) := ini.leaf_of_mem ((is.2.1 (k, H d)).2 (.inl rfl))
  rw [← (h.ent.counts h.wf k).2, ← (ei.counts wi k).1]
  have hemp : ¬ d.isEmpty = true := by cases d <;> simp_all
  unfold update at hr
  rw [if_neg hemp] at hr
  simp only [] at hr
  obtain ⟨q1, st1, h1, hr⟩ := sbind_inv hr
  obtain ⟨lk, hlk, hr⟩ := slift_inv hr
  obtain ⟨q2, st2, h2, hr⟩ := sbind_inv hr
  rw [Exec.get_bind] at hr
  have c1 := sinsert_clock _ _ h1
  have c2 := sinsert_clock _ _ h2
  have hleaf : Node.createLeaf H k d = toNode H 0 (leaf k (H d)) := rfl
  have e1 : lk = k := by
    rw [hleaf, leafKey_leaf] at hlk
    exact (Except.ok.inj hlk).symm
  subst e1
  -- the state after the two writes
  have hg : Good H M ((Node.createLeaf H lk d).hash H) (Node.createLeaf H lk d).toPrim :=
    ⟨leaf lk (H d), 0, trivial, hl, by simp, hash_toNode (d := 0) (e := 0) (t := leaf lk (H d)) env trivial hl, rfl⟩
  have v1 : Valid H M U st1.storage.map ∧ st1.rootNode = st.rootNode := by
    obtain ⟨s1, g1, i1⟩ := insert_good hg st
    rcases i1 with ⟨i1, -⟩ | ⟨⟨e, i1⟩, -⟩
    · rw [h1] at i1; cases i1; exact ⟨g1.valid h.valid, g1.root⟩
    · rw [h1] at i1; cases i1
  have v2 : Valid H M U st2.storage.map ∧ st2.rootNode = st.rootNode := by
    obtain ⟨s2, r2, _, i2⟩ := insert_any lk (Node.createLeaf H lk d).toPrim st1
    rcases i2 with ⟨i2, m2⟩ | ⟨⟨e, i2⟩, -⟩
    · rw [h2] at i2; cases i2
      refine ⟨fun x q hq => ?_, r2.trans v1.2⟩
      rw [m2] at hq
      by_cases hx : x = lk
      · subst hx
        rw [Store.upd, if_pos rfl] at hq
        cases hq
        exact .inr (.inl ⟨hu, H d, rfl⟩)
      · rw [Store.upd, if_neg hx] at hq
        exact v1.1 x q hq
    · rw [h2] at i2; cases i2
  have hroot : st2.rootNode = toNode H 0 t := by rw [v2.2, h.root]
  by_cases hp : st2.rootNode.isPlaceholder = true
  · rw [if_pos hp] at hr
    have h0 : t = .empty := by
      rw [hroot] at hp
      exact (isPlaceholder_toNode env h.wf h.inn).1 hp
    subst h0
    rw [setRootNode_clock p _ hr, c2, c1]
    rfl
  · rw [if_neg hp] at hr
    obtain ⟨⟨ps, ss⟩, st3, h3, hr⟩ := sbind_inv hr
    simp only [] at hr
    have hk : HasKey (Node.createLeaf H lk d) lk := HasKey.leaf H 0 lk (H d)
    obtain ⟨s3, _, i3⟩ := pathSet_spec p env hk st2 hroot h.wf h.inn v2.1
    rcases i3 with i3 | ⟨⟨e, i3⟩, -⟩
    · rw [h3] at i3
      cases i3
      rw [updateWithPathSet_clock p env h.wf h.inn hl hr, pathSet_clock p env hroot h.wf h.inn h3, c2, c1]
      omega
    · rw [h3] at i3; cases i3

theorem delete_clock (p : Profile) (env : Env H M U) {k : Bytes32} {st st' : Tree E} {t : T}
    {kv : Entries Bytes} (h : Rep H M U st t kv) (hu : U k) {u : Unit} (hr : delete p H k st = (.ok u, st')) :
    st'.storage.clock = st.storage.clock + (if kv = [] then 0 else if st.storage.map k = none then 1 else
      1 + pathReads k (keysOf kv) + (pathLen k (keysOf kv) + 1) + pathLen k (keysOf (eraseMet kv k))) := by
  have wd := (del_spec (k := k) h.wf).1
  have ed := h.ent.del h.wf k
  rw [← (h.ent.counts h.wf k).2, ← (h.ent.counts h.wf k).1, ← (ed.counts wd k).1]
  unfold delete at hr
  rw [Exec.get_bind, root_toNode env h.wf h.inn h.root] at hr
  by_cases h0 : t = .empty
  · rw [if_pos ((h.inn.hash_zero env).2 h0)] at hr
    rw [if_pos ((h.ent.nil h.wf).1 h0)]
    cases hr; rfl
  · rw [if_neg (h.inn.hash_ne env h0)] at hr
    rw [if_neg (fun e => h0 ((h.ent.nil h.wf).2 e))]
    obtain ⟨q, st1, h1, hr⟩ := sbind_inv hr
    have c1 := sget_clock k h1
    have hq : q = st.storage.map k ∧ Same st st1 := by
      obtain ⟨s1, g1, i1⟩ := get_any k st
      rcases i1 with i1 | ⟨⟨e, i1⟩, -⟩
      · rw [h1] at i1; cases i1; exact ⟨rfl, g1⟩
      · rw [h1] at i1; cases i1
    obtain ⟨hq, g1⟩ := hq
    cases q with
    | none =>
      rw [if_pos hq.symm]
      cases hr; exact c1
    | some q =>
      rw [if_neg (by rw [← hq]; simp)]
      obtain ⟨v, rfl⟩ := h.valid.user_rec env hu hq.symm
      simp only [show Node.ofPrim (leafPrim k v) = .ok (toNode (fun _ => zeroSum) 0 (leaf k v)) from ofPrim_toPrim _] at hr
      obtain ⟨⟨ps, ss⟩, st2, h2, hr⟩ := sbind_inv hr
      simp only [] at hr
      have hk : HasKey (toNode (fun _ => zeroSum) 0 (leaf k v)) k := HasKey.leaf _ 0 k v
      have hroot : st1.rootNode = toNode H 0 t := by rw [g1.root, h.root]
      obtain ⟨s2, _, i2⟩ := pathSet_spec p env hk st1 hroot h.wf h.inn (by rw [g1.map]; exact h.valid)
      rcases i2 with i2 | ⟨⟨e, i2⟩, -⟩
      · rw [h2] at i2
        cases i2
        rw [deleteWithPathSet_eq p hk] at hr
        obtain ⟨_, st3, h3, hr⟩ := sbind_inv hr
        obtain ⟨c, st4, h4, hr⟩ := sbind_inv hr
        rw [setRootNode_clock p _ hr, rebuild_clock p _ _ h4, removeAll_clock _ h3, pathSet_clock p env hroot h.wf h.inn h2, c1,
          rebuildCount_eq env k h.wf h.inn]
        have := pathNodes_length (H := H) k (t := t) (d := 0)
        omega
      · rw [h2] at i2; cases i2

/-- The storage calls of one call in a history on reliable storage. -/
theorem op_clock (p : Profile) (env : Env H M U) (op : Op) (hu : U op.key) {st st' : Tree E} {s : State} {t : T} (h : Full H M U st s t)
    (hf : Fits H M (op.onState s).kv) {u : Unit} (hr : op.run p H st = (.ok u, st')) :
    st'.storage.clock = st.storage.clock + op.calls s := by
  have hdel : ∀ k, op.key = k → op.data = none → delete p H k st = (.ok u, st') →
      st'.storage.clock = st.storage.clock + op.calls s := by
    rintro k rfl hop hr
    rw [delete_clock p env h.rep hu hr]
    unfold Op.calls Op.onState
    simp only [hop]
    by_cases h0 : s.kv = []
    · rw [if_pos h0, if_pos h0]
    · rw [if_neg h0, if_neg h0]
      have hrec := h.recs op.key hu
      by_cases hm : st.storage.map op.key = none
      · have : op.key ∉ s.recs := fun hc => by have := hrec.2 hc; rw [hm] at this; cases this
        rw [if_pos hm, if_pos this]
      · have : op.key ∈ s.recs := hrec.1 (Option.isSome_iff_ne_none.2 hm)
        rw [if_neg hm, if_neg (not_not_intro this), if_neg (by simp [h0, this])]
        have e : ∀ o : Option Bytes32, met op.key s.kv = o → eraseMet s.kv op.key =
            (match o with | some k' => (⟨Entries.erase s.kv k', s.recs⟩ : State) | none => ⟨s.kv, s.recs.filter (· ≠ zero32)⟩).kv := by
          rintro o rfl
          unfold eraseMet
          cases met op.key s.kv <;> rfl
        rw [e _ rfl]
        rfl
  cases op with
  | delete k => exact hdel k rfl rfl hr
  | update k d =>
    by_cases hd : d = []
    · subst hd
      exact hdel k rfl rfl hr
    · have hdat : (Op.update k d).data = some d := by simp [Op.data, hd]
      have hst : ((Op.update k d).onState s).kv = Entries.put s.kv k d := by simp only [Op.onState, hdat]; rfl
      rw [hst] at hf
      rw [update_clock p env hd h.rep hu hf hr]
      unfold Op.calls
      simp only [hdat, hst]
      rfl

end Sparse
end FuelMerkle

namespace FuelMerkle
namespace Sparse
open Spec T
variable {E : Type} {H : HashFn} {M : Bytes → Prop} {U : Bytes32 → Prop}

theorem full_clock (p : Profile) (env : Env H M U) : ∀ (ops : List Op) {st st' : Tree E} {s : State} {t : T}, Full H M U st s t →
    (∀ op ∈ ops, U op.key) → (∀ m ∈ msgsFrom H s ops, M m) → NoPhantom H ops → runAll p H ops st = (.ok (), st') →
    st'.storage.clock = st.storage.clock + callsFrom s ops := by
  intro ops
  induction ops with
  | nil => intro st st' s t _ _ _ _ hr; cases hr; rfl
  | cons op ops ih =>
    intro st st' s t h hu hm hnp hr
    have hnp1 := hnp op (by simp)
    rw [msgsFrom] at hm
    simp only [List.mem_append] at hm
    have hf : Fits H M (op.onState s).kv := ⟨fun m h => hm m (.inr (msgsFrom_head _ _ m h)), onState_solid op h.solid hnp1⟩
    obtain ⟨st1, t1, h1, f1, _, _⟩ := full_step p env op (hu op (by simp)) h hf
    rw [runAll, Exec.bind_ok h1] at hr
    rw [ih f1 (fun o ho => hu o (by simp [ho])) (fun m h => hm m (.inr h)) (fun o ho => hnp o (by simp [ho])) hr,
      op_clock p env op (hu op (by simp)) h hf h1, callsFrom]
    omega

theorem pathLenFrom_le {k : Bytes32} {b : Nat} : ∀ (fuel d : Nat) {ks : List Bytes32}, ks.Nodup → (∀ x ∈ ks, agree d x k) →
    (∀ x ∈ ks, x ≠ k → ¬ agree b x k) → pathLenFrom k fuel d ks ≤ b - d := by
  intro fuel
  induction fuel with
  | zero => intro d ks _ _ _; exact Nat.zero_le _
  | succ fuel ih =>
    intro d ks hnd hd hb
    rw [pathLenFrom]
    split
    · exact Nat.zero_le _
    · rename_i hl
      have hdb : d < b := by
        by_contra hc
        apply hl
        have hall : ∀ x ∈ ks, x = k := fun x hx => by
          by_contra hne
          exact hb x hx hne fun i hi => hd x hx i (by omega)
        match ks, hnd, hall with
        | [], _, _ => simp
        | [_], _, _ => simp
        | x :: y :: ys, hnd, hall =>
          rw [hall x (by simp), hall y (by simp)] at hnd
          simp at hnd
      have := ih (d + 1) (ks := withBit k d ks) (hnd.filter _)
        (fun x hx => by
          simp only [withBit, List.mem_filter, beq_iff_eq] at hx
          exact (hd x hx.1).succ hx.2)
        (fun x hx => hb x (by simp only [withBit, List.mem_filter] at hx; exact hx.1))
      omega

theorem pathReadsFrom_le (k : Bytes32) : ∀ (fuel d : Nat) (ks : List Bytes32), pathReadsFrom k fuel d ks ≤ 2 * pathLenFrom k fuel d ks := by
  intro fuel
  induction fuel with
  | zero => intro d ks; exact Nat.zero_le _
  | succ fuel ih =>
    intro d ks
    rw [pathReadsFrom, pathLenFrom]
    split
    · exact Nat.zero_le _
    · have := ih (d + 1) (withBit k d ks)
      split <;> split <;> omega

end Sparse
end FuelMerkle
