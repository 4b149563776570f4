import Verif.Proofs.SparseTree

/-
Canonical trees as nodes of the model, their storage records, and the creation of nodes.
-/
namespace FuelMerkle
namespace Sparse
open Spec

/-- `H` has no collision on the messages `M`, none of them hashes to zero, and none to a
user key. -/
structure Env (H : HashFn) (M : Bytes → Prop) (U : Bytes32 → Prop) : Prop where
  inj : ∀ a b, M a → M b → H a = H b → a = b
  nz : ∀ a, M a → H a ≠ zeroSum
  sep : ∀ a k, M a → U k → H a ≠ k

namespace T

/-- All messages of the tree are in `M`, and no leaf looks like a placeholder. -/
def In (H : HashFn) (M : Bytes → Prop) (t : T) : Prop :=
  (∀ m ∈ t.msgs H, M m) ∧ (zeroSum, zeroSum) ∉ t.entries

variable {H : HashFn} {M : Bytes → Prop} {U : Bytes32 → Prop}

theorem In.empty : In H M .empty := ⟨by simp [msgs], by simp [entries]⟩

theorem In.left {l r : T} (h : In H M (node l r)) : In H M l :=
  ⟨fun m hm => h.1 m (by simp [msgs, hm]), fun hm => h.2 (by simp [entries, hm])⟩

theorem In.right {l r : T} (h : In H M (node l r)) : In H M r :=
  ⟨fun m hm => h.1 m (by simp [msgs, hm]), fun hm => h.2 (by simp [entries, hm])⟩

theorem In.nodeOn {b : Bool} {a s : T} (h : In H M (nodeOn b a s)) : In H M a ∧ In H M s := by
  cases b
  · exact ⟨h.left, h.right⟩
  · exact ⟨h.right, h.left⟩

theorem msgs_mk (l r : T) : ∀ m, m ∈ l.msgs H ∨ m ∈ r.msgs H → m ∈ (mk l r).msgs H := by
  intro m hm
  rcases mk_cases l r with ⟨h, _⟩ | ⟨h1, h2, _⟩ | ⟨h1, h2, _⟩
  · rw [h]; simp only [msgs, List.mem_cons, List.mem_append]; exact .inr hm
  · rw [h2]; subst h1; simpa [msgs] using hm
  · rw [h2]; subst h1; simpa [msgs] using hm

theorem In.mkOn {b : Bool} {a s : T} (h : In H M (mkOn b a s)) : In H M a ∧ In H M s := by
  have hz := h.2
  rw [mem_mkOn] at hz
  have hm : ∀ m, m ∈ a.msgs H ∨ m ∈ s.msgs H → M m := by
    intro m hm
    cases b
    · exact h.1 m (msgs_mk a s m hm)
    · exact h.1 m (msgs_mk s a m hm.symm)
  exact ⟨⟨fun m h => hm m (.inl h), fun h => hz (.inl h)⟩, ⟨fun m h => hm m (.inr h), fun h => hz (.inr h)⟩⟩

/-- The hash of a nonempty tree is the hash of one of its messages. -/
theorem In.hash_msg {t : T} (h : In H M t) (h0 : t ≠ .empty) : ∃ m, M m ∧ t.hash H = H m := by
  cases t with
  | empty => exact absurd rfl h0
  | leaf k v => exact ⟨_, h.1 _ (by simp [msgs]), rfl⟩
  | node l r => exact ⟨_, h.1 _ (by simp [msgs]), rfl⟩

theorem In.hash_ne {t : T} (h : In H M t) (env : Env H M U) (h0 : t ≠ .empty) : t.hash H ≠ zeroSum := by
  obtain ⟨m, h1, h2⟩ := h.hash_msg h0
  rw [h2]; exact env.nz m h1

theorem In.hash_user {t : T} (h : In H M t) (env : Env H M U) (h0 : t ≠ .empty) : ¬ U (t.hash H) := by
  obtain ⟨m, h1, h2⟩ := h.hash_msg h0
  rw [h2]; exact fun hu => env.sep m _ h1 hu rfl

theorem In.hash_zero {t : T} (h : In H M t) (env : Env H M U) : t.hash H = zeroSum ↔ t = .empty := by
  constructor
  · intro hz
    by_contra h0
    exact h.hash_ne env h0 hz
  · rintro rfl; rfl

theorem leafMsg_inj {k v k' v' : Bytes32} (h : smtLeafMsg k v = smtLeafMsg k' v') : k = k' ∧ v = v' := by
  unfold smtLeafMsg at h
  rw [List.append_assoc, List.append_assoc] at h
  have h := List.append_cancel_left h
  obtain ⟨h1, h2⟩ := List.append_inj h (by rw [k.property, k'.property])
  exact ⟨Subtype.ext h1, Subtype.ext h2⟩

theorem nodeMsg_inj {k v k' v' : Bytes32} (h : smtNodeMsg k v = smtNodeMsg k' v') : k = k' ∧ v = v' := by
  unfold smtNodeMsg at h
  rw [List.append_assoc, List.append_assoc] at h
  have h := List.append_cancel_left h
  obtain ⟨h1, h2⟩ := List.append_inj h (by rw [k.property, k'.property])
  exact ⟨Subtype.ext h1, Subtype.ext h2⟩

theorem leaf_ne_node (k v l r : Bytes32) : smtLeafMsg k v ≠ smtNodeMsg l r := by
  intro h
  simp [smtLeafMsg, smtNodeMsg] at h

/-- Trees with equal hashes are equal. -/
theorem hash_inj (env : Env H M U) : ∀ {t t' : T}, In H M t → In H M t' → t.hash H = t'.hash H → t = t' := by
  intro t
  induction t with
  | empty => intro t' _ h' e; exact ((h'.hash_zero env).1 e.symm).symm
  | leaf k v =>
    intro t' h h' e
    cases t' with
    | empty => exact (h.hash_zero env).1 e
    | leaf k' v' =>
      obtain ⟨e1, e2⟩ := leafMsg_inj (env.inj _ _ (h.1 _ (by simp [msgs])) (h'.1 _ (by simp [msgs])) e)
      rw [e1, e2]
    | node l r => exact absurd (env.inj _ _ (h.1 _ (by simp [msgs])) (h'.1 _ (by simp [msgs])) e) (leaf_ne_node _ _ _ _)
  | node l r ihl ihr =>
    intro t' h h' e
    cases t' with
    | empty => exact (h.hash_zero env).1 e
    | leaf k' v' =>
      exact absurd (env.inj _ _ (h.1 _ (by simp [msgs])) (h'.1 _ (by simp [msgs])) e).symm (leaf_ne_node _ _ _ _)
    | node l' r' =>
      obtain ⟨e1, e2⟩ := nodeMsg_inj (env.inj _ _ (h.1 _ (by simp [msgs])) (h'.1 _ (by simp [msgs])) e)
      rw [ihl h.left h'.left e1, ihr h.right h'.right e2]

/-- The node of the model for a tree at depth `d`. -/
def toNode (H : HashFn) (d : Nat) : T → Node
  | empty => Node.createPlaceholder
  | leaf k v => { height := 0, pfx := .leaf, bytesLo := k, bytesHi := v }
  | node l r => { height := 256 - d, pfx := .node, bytesLo := l.hash H, bytesHi := r.hash H }

theorem node_nonempty {l r : T} {d : Nat} (w : WF d (node l r)) : l ≠ .empty ∨ r ≠ .empty := by
  by_contra hc
  simp only [not_or, ne_eq, not_not] at hc
  have := w.2.2.2.2.2.2
  rw [hc.1, hc.2] at this
  simp [entries] at this

theorem isPlaceholder_toNode (env : Env H M U) {t : T} {d e : Nat} (w : WF d t) (h : In H M t) :
    (toNode H e t).isPlaceholder = true ↔ t = .empty := by
  cases t with
  | empty => simp [toNode, Node.isPlaceholder, Node.createPlaceholder]
  | leaf k v =>
    simp only [toNode, Node.isPlaceholder, Bool.and_eq_true, reduceCtorEq, iff_false]
    rintro ⟨h1, h2⟩
    exact h.2 (by rw [of_decide_eq_true h1, of_decide_eq_true h2]; simp [entries])
  | node l r =>
    simp only [toNode, Node.isPlaceholder, Bool.and_eq_true, reduceCtorEq, iff_false]
    rintro ⟨h1, h2⟩
    rcases node_nonempty w with h0 | h0
    · exact h.left.hash_ne env h0 (of_decide_eq_true h1)
    · exact h.right.hash_ne env h0 (of_decide_eq_true h2)

theorem isLeaf_toNode (env : Env H M U) {t : T} {d e : Nat} (w : WF d t) (h : In H M t) :
    (toNode H e t).isLeaf = true ↔ ∀ l r, t ≠ node l r := by
  unfold Node.isLeaf
  rw [Bool.or_eq_true, isPlaceholder_toNode env w h]
  cases t with
  | empty => simp
  | leaf k v => simp [toNode]
  | node l r => simp [toNode]

theorem isNode_toNode (H : HashFn) (t : T) (e : Nat) : (toNode H e t).isNode = true ↔ ∃ l r, t = node l r := by
  cases t <;> simp [toNode, Node.isNode, Node.createPlaceholder, Prefix.default]

theorem hash_toNode (env : Env H M U) {t : T} {d e : Nat} (w : WF d t) (h : In H M t) :
    (toNode H e t).hash H = t.hash H := by
  unfold Node.hash
  by_cases h0 : t = .empty
  · rw [if_pos ((isPlaceholder_toNode env w h).2 h0), h0]; rfl
  · rw [if_neg (fun hc => h0 ((isPlaceholder_toNode env w h).1 hc))]
    cases t with
    | empty => exact absurd rfl h0
    | leaf k v => simp [toNode, sumAll, hash, smtLeafMsg, Prefix.bytes]
    | node l r => simp [toNode, sumAll, hash, smtNodeMsg, Prefix.bytes]

end T

open T
variable {H : HashFn} {M : Bytes → Prop} {U : Bytes32 → Prop}

theorem ofPrim_toPrim (n : Node) : Node.ofPrim n.toPrim = .ok n := by
  obtain ⟨h, p, a, b⟩ := n
  cases p <;> rfl

/-- A record of a node of some canonical tree. -/
def Good (H : HashFn) (M : Bytes → Prop) (x : Bytes32) (q : Prim) : Prop :=
  ∃ t d, WF d t ∧ In H M t ∧ t ≠ .empty ∧ x = t.hash H ∧ q = (toNode H d t).toPrim

theorem Good.unique (env : Env H M U) {x : Bytes32} {q : Prim} (h : Good H M x q) {t : T} {d : Nat} (w : WF d t)
    (hin : In H M t) (hx : x = t.hash H) : q = (toNode H d t).toPrim := by
  obtain ⟨t', d', w', hin', _, hx', rfl⟩ := h
  have := hash_inj env hin hin' (by rw [← hx, hx'])
  subst this
  cases t with
  | empty => rfl
  | leaf k v => rfl
  | node l r => rw [depth_unique w w']

/-- The record of a user key. -/
def leafPrim (k v : Bytes32) : Prim := (toNode (fun _ => zeroSum) 0 (leaf k v)).toPrim

/-- A place no call looks at: neither a user key nor the hash of a message. -/
structure Stray (H : HashFn) (M : Bytes → Prop) (U : Bytes32 → Prop) (x : Bytes32) : Prop where
  user : ¬ U x
  hash : ∀ a, M a → H a ≠ x

/-- Every record is the record of a node or of a user key, or in a place no call looks at. -/
def Valid (H : HashFn) (M : Bytes → Prop) (U : Bytes32 → Prop) (m : Bytes32 → Option Prim) : Prop :=
  ∀ x q, m x = some q → Good H M x q ∨ (U x ∧ ∃ v, q = leafPrim x v) ∨ Stray H M U x

/-- All nodes of the tree are stored. -/
def Stored (H : HashFn) (m : Bytes32 → Option Prim) : Nat → T → Prop
  | _, .empty => True
  | d, .leaf k v => m ((leaf k v).hash H) = some (toNode H d (leaf k v)).toPrim
  | d, .node l r => m ((node l r).hash H) = some (toNode H d (node l r)).toPrim ∧ Stored H m (d + 1) l ∧
      Stored H m (d + 1) r

theorem Stored.get {m : Bytes32 → Option Prim} {t : T} {d : Nat} (h : Stored H m d t) (h0 : t ≠ .empty) :
    m (t.hash H) = some (toNode H d t).toPrim := by
  cases t with
  | empty => exact absurd rfl h0
  | leaf k v => exact h
  | node l r => exact h.1

theorem Valid.get (env : Env H M U) {m : Bytes32 → Option Prim} (hv : Valid H M U m) {t : T} {d : Nat} (w : WF d t)
    (hin : In H M t) (h0 : t ≠ .empty) {q : Prim} (h : m (t.hash H) = some q) : q = (toNode H d t).toPrim := by
  rcases hv _ _ h with hg | ⟨hu, _⟩ | hs
  · exact hg.unique env w hin rfl
  · exact absurd hu (hin.hash_user env h0)
  · obtain ⟨a, h1, h2⟩ := hin.hash_msg h0
    exact absurd h2.symm (hs.hash a h1)

/-! ### Bits -/

theorem getInstruction_eq (k : Bytes32) {d : Nat} (hd : d < 256) :
    getInstruction k.val d = some (if keyBit k d then .right else .left) := by
  unfold getInstruction keyBit
  have : d < (bitsOf k.val).length := by rw [bitsOf_length, k.property]; omega
  rw [getBitAtIndexFromMsb_eq, List.getElem?_eq_getElem this]
  simp only [Option.map_some, Option.getD_some]
  cases (bitsOf k.val)[d] <;> rfl

/-- Number of leading bits two keys have in common. -/
def common (k k' : Bytes32) : Nat := lcp (bitsOf k.val) (bitsOf k'.val)

theorem common_eq (k k' : Bytes32) : commonPathLength k.val k'.val = .ok (common k k') := by
  unfold FuelMerkle.commonPathLength common
  rw [commonPrefixCount_eq _ _ (by rw [k.property, k'.property])]

theorem keyBit_get (k : Bytes32) {j : Nat} (hj : j < 256) : (bitsOf k.val)[j]? = some (keyBit k j) := by
  unfold keyBit
  have : j < (bitsOf k.val).length := by rw [bitsOf_length, k.property]; omega
  rw [List.getElem?_eq_getElem this]; rfl

theorem common_of {k k' : Bytes32} {d : Nat} (hd : d < 256) (h : agree d k k') (hb : keyBit k d ≠ keyBit k' d) :
    common k k' = d := by
  refine lcp_eq_of _ _ (by rw [bitsOf_length, k.property]; omega) ?_ ?_
  · intro i hi
    rw [keyBit_get k (by omega), keyBit_get k' (by omega), h i hi]
  · rw [keyBit_get k hd, keyBit_get k' hd]
    simpa using hb

/-! ### Creating a node on a path -/

theorem commonPathLength_leaves (p : Profile) (env : Env H M U) {k v k' v' : Bytes32} (e e' : Nat)
    (h : In H M (leaf k v)) (h' : In H M (leaf k' v')) :
    Node.commonPathLength p (toNode H e (leaf k v)) (toNode H e' (leaf k' v')) = .ok (common k k') := by
  have hl : (toNode H e (leaf k v)).isLeaf = true := by simp [toNode, Node.isLeaf]
  have hl' : (toNode H e' (leaf k' v')).isLeaf = true := by simp [toNode, Node.isLeaf]
  have hp : (toNode H e (leaf k v)).isPlaceholder = false := by
    have := isPlaceholder_toNode env (t := leaf k v) (e := e) (d := 0) trivial h
    simpa using this
  have hp' : (toNode H e' (leaf k' v')).isPlaceholder = false := by
    have := isPlaceholder_toNode env (t := leaf k' v') (e := e') (d := 0) trivial h'
    simpa using this
  unfold Node.commonPathLength
  rw [hl, hl', hp, hp']
  have hd : rdebugAssert p true = .ok () := by unfold rdebugAssert; cases p.debugAssertions <;> rfl
  rw [hd]
  simp only [Res.ok_bind, Bool.or_self, Bool.false_eq_true, if_false]
  unfold Node.leafKey
  rw [hl, hl']
  simp only [rassert, Res.ok_bind, if_true, Res.pure_eq]
  exact common_eq k k'

theorem createNodeOnPath_spec (p : Profile) (env : Env H M U) {k : Bytes32} {a s : T} {d : Nat}
    (w : WF d (nodeOn (keyBit k d) a s)) (h : In H M (nodeOn (keyBit k d) a s)) :
    Node.createNodeOnPath p H k.val (toNode H (d + 1) a) (toNode H (d + 1) s) =
      .ok (toNode H d (nodeOn (keyBit k d) a s)) := by
  obtain ⟨w1, w2, w3, w4, w5, w6, w7⟩ := WF_nodeOn.1 w
  obtain ⟨ha, hs⟩ := h.nodeOn
  have hcreate : ∀ b : Bool, keyBit k d = b → (match (if b then Instruction.right else .left) with
      | .left => (pure (Node.createNode H (toNode H (d + 1) a) (toNode H (d + 1) s) (256 - d)) : Res Node)
      | .right => pure (Node.createNode H (toNode H (d + 1) s) (toNode H (d + 1) a) (256 - d))) =
      .ok (toNode H d (nodeOn b a s)) := by
    intro b hb
    cases b
    · simp only [Node.createNode, hash_toNode env w2 ha, hash_toNode env w3 hs, nodeOn]; rfl
    · simp only [Node.createNode, hash_toNode env w2 ha, hash_toNode env w3 hs, nodeOn]; rfl
  unfold Node.createNodeOnPath
  by_cases hleaf : (∀ l r, a ≠ node l r) ∧ (∀ l r, s ≠ node l r)
  · -- two leaves
    rw [(isLeaf_toNode env w2 ha).2 hleaf.1, (isLeaf_toNode env w3 hs).2 hleaf.2]
    obtain ⟨ka, va, rfl⟩ : ∃ ka va, a = leaf ka va := by
      cases a with
      | empty =>
        cases s with
        | empty => simp [entries] at w7
        | leaf k v => simp [entries] at w7
        | node l r => exact absurd rfl (hleaf.2 l r)
      | leaf k v => exact ⟨k, v, rfl⟩
      | node l r => exact absurd rfl (hleaf.1 l r)
    obtain ⟨ks, vs, rfl⟩ : ∃ ks vs, s = leaf ks vs := by
      cases s with
      | empty => simp [entries] at w7
      | leaf k v => exact ⟨k, v, rfl⟩
      | node l r => exact absurd rfl (hleaf.2 l r)
    have ea := w4 (ka, va) (by simp [entries])
    have es := w5 (ks, vs) (by simp [entries])
    have hc : common ka ks = d := by
      refine common_of w1 (w6 (ka, va) (.inl (by simp [entries])) (ks, vs) (.inr (by simp [entries]))) ?_
      simp only [] at ea es
      rw [ea, es]; cases keyBit k d <;> decide
    simp only [Bool.and_self, if_true]
    rw [commonPathLength_leaves p env _ _ ha hs, hc, Res.ok_bind]
    have : usizeSub p Node.maxHeight d = .ok (256 - d) := by
      unfold usizeSub Node.maxHeight; rw [if_pos (by omega)]
    rw [this, Res.ok_bind, getInstruction_eq k w1]
    simp only [runwrap, Res.ok_bind]
    exact hcreate _ rfl
  · have hand : ((toNode H (d + 1) a).isLeaf && (toNode H (d + 1) s).isLeaf) = false := by
      rw [Bool.and_eq_false_iff]
      by_contra hc
      simp only [not_or, Bool.not_eq_false] at hc
      exact hleaf ⟨(isLeaf_toNode env w2 ha).1 hc.1, (isLeaf_toNode env w3 hs).1 hc.2⟩
    rw [hand]
    simp only [Bool.false_eq_true, if_false]
    have hheight : max (toNode H (d + 1) a).height (toNode H (d + 1) s).height = 256 - (d + 1) := by
      have hle : ∀ t : T, (toNode H (d + 1) t).height ≤ 256 - (d + 1) := by
        intro t; cases t <;> simp [toNode, Node.createPlaceholder]
      have := hle a
      have := hle s
      by_cases h1 : ∃ l r, a = node l r
      · obtain ⟨l, r, rfl⟩ := h1
        simp only [toNode] at *; omega
      · by_cases h2 : ∃ l r, s = node l r
        · obtain ⟨l, r, rfl⟩ := h2
          simp only [toNode] at *; omega
        · exact absurd ⟨fun l r e => h1 ⟨l, r, e⟩, fun l r e => h2 ⟨l, r, e⟩⟩ hleaf
    have e1 : u32Add p (max (toNode H (d + 1) a).height (toNode H (d + 1) s).height) 1 = .ok (256 - d) := by
      unfold u32Add
      rw [hheight, if_pos (by omega)]
      congr 1; omega
    have e2 : usizeSub p Node.maxHeight (256 - d) = .ok d := by
      unfold usizeSub Node.maxHeight; rw [if_pos (by omega)]
      congr 1; omega
    rw [e1, Res.ok_bind, e2, Res.ok_bind, getInstruction_eq k w1]
    simp only [runwrap, Res.ok_bind]
    exact hcreate _ rfl

end Sparse
end FuelMerkle
