import Verif.Proofs.SparseNode

/-
Reading the path of a key from storage.
-/
namespace FuelMerkle
namespace Sparse
open Spec T
variable {E : Type} {H : HashFn} {M : Bytes → Prop} {U : Bytes32 → Prop}

/-- Same tree, same records, same fate of future calls; only the clock may differ. -/
structure Same (t t' : Tree E) : Prop where
  root : t'.rootNode = t.rootNode
  map : t'.storage.map = t.storage.map
  sched : t'.storage.sched = t.storage.sched

theorem Same.refl (t : Tree E) : Same t t := ⟨rfl, rfl, rfl⟩
theorem Same.trans {t t' t'' : Tree E} (h : Same t t') (h' : Same t' t'') : Same t t'' :=
  ⟨h'.root.trans h.root, h'.map.trans h.map, h'.sched.trans h.sched⟩

theorem Same.reliable {t t' : Tree E} (h : Same t t') (hr : t.storage.Reliable) : t'.storage.Reliable := fun n => by
  rw [h.sched]; exact hr n

/-- The result of reading the child `c` at depth `d`: its node, or an error, which needs a
failing storage call or a missing record. -/
def ReadOut (H : HashFn) (st : Tree E) (d : Nat) (c : T) (r : Except (CErr E) Node) : Prop :=
  r = .ok (toNode H d c) ∨ (∃ e, r = .error e) ∧ ¬ (st.storage.Reliable ∧ Stored H st.storage.map d c)

theorem ReadOut.same {st st' : Tree E} (h : Same st st') {d : Nat} {c : T} {r : Except (CErr E) Node}
    (hr : ReadOut H st' d c r) : ReadOut H st d c r := by
  rcases hr with hr | ⟨hr, hn⟩
  · exact .inl hr
  · exact .inr ⟨hr, fun ⟨h1, h2⟩ => hn ⟨h.reliable h1, by rw [h.map]; exact h2⟩⟩

theorem childByKey_spec (env : Env H M U) {c : T} {d : Nat} (w : WF d c) (hin : In H M c) (st : Tree E)
    (hv : Valid H M U st.storage.map) :
    ∃ r st', childByKey (c.hash H) st = (.ok r, st') ∧ Same st st' ∧ ReadOut H st d c r := by
  unfold childByKey
  by_cases h0 : c = .empty
  · subst h0
    rw [if_pos (show T.hash H .empty = zeroSum from zeroSum_eq.symm)]
    exact ⟨_, st, rfl, .refl st, .inl rfl⟩
  · rw [if_neg (hin.hash_ne env h0)]
    have hts : tryStorage (Store.get (c.hash H)) st =
      (.ok (Store.get (c.hash H) st.storage).1, { st with storage := (Store.get (c.hash H) st.storage).2 }) := rfl
    rw [Exec.bind_ok hts]
    cases hs : st.storage.sched st.storage.clock with
    | some f =>
      rw [Store.get_fault _ hs]
      refine ⟨_, _, rfl, ⟨rfl, rfl, rfl⟩, .inr ⟨⟨_, rfl⟩, fun ⟨h1, _⟩ => ?_⟩⟩
      rw [h1] at hs; cases hs
    | none =>
      rw [Store.get_none _ hs]
      cases hm : st.storage.map (c.hash H) with
      | none =>
        refine ⟨_, _, rfl, ⟨rfl, rfl, rfl⟩, .inr ⟨⟨_, rfl⟩, fun ⟨_, h2⟩ => ?_⟩⟩
        rw [h2.get h0] at hm; cases hm
      | some q =>
        have := hv.get env w hin h0 hm
        subst this
        simp only [ofPrim_toPrim]
        exact ⟨_, _, rfl, ⟨rfl, rfl, rfl⟩, .inl rfl⟩

/-- The leaf node given to the iterator has key `k`. -/
def HasKey (n : Node) (k : Bytes32) : Prop := n.leafKey = .ok k

theorem HasKey.leaf (H : HashFn) (d : Nat) (k v : Bytes32) : HasKey (toNode H d (leaf k v)) k := by
  simp [HasKey, Node.leafKey, toNode, Node.isLeaf, rassert]

theorem child_read (env : Env H M U) {l r : T} {d : Nat} (w : WF d (node l r)) (hin : In H M (node l r)) (st : Tree E)
    (hv : Valid H M U st.storage.map) :
    (∃ x st', leftChild (toNode H d (node l r)) st = (.ok x, st') ∧ Same st st' ∧ ReadOut H st (d + 1) l x) ∧
    (∃ x st', rightChild (toNode H d (node l r)) st = (.ok x, st') ∧ Same st st' ∧ ReadOut H st (d + 1) r x) := by
  have hl : ¬ (toNode H d (node l r)).isLeaf = true := fun h => (isLeaf_toNode env w hin).1 h l r rfl
  have k1 : (toNode H d (node l r)).leftChildKey = .ok (l.hash H) := rfl
  have k2 : (toNode H d (node l r)).rightChildKey = .ok (r.hash H) := rfl
  unfold leftChild rightChild
  rw [if_neg hl, if_neg hl, k1, k2, Exec.liftRes_ok_bind, Exec.liftRes_ok_bind]
  exact ⟨childByKey_spec env w.2.1 hin.left st hv, childByKey_spec env w.2.2.1 hin.right st hv⟩

/-- The child of `node l r` on the path of `k`, and the other one. -/
def onPath (k : Bytes32) (d : Nat) (l r : T) : T := if keyBit k d then r else l
def offPath (k : Bytes32) (d : Nat) (l r : T) : T := if keyBit k d then l else r

/-- One step of the iterator at an inner node. -/
theorem next_node (env : Env H M U) {l r : T} {d : Nat} (w : WF d (node l r)) (hin : In H M (node l r)) (st : Tree E)
    (hv : Valid H M U st.storage.map) {leaf : Node} {k : Bytes32} (hk : HasKey leaf k) (sd : Except (CErr E) Node) :
    ∃ rc rs st', PathIter.next storageNode ⟨leaf, some (.ok (toNode H d (node l r)), sd), d⟩ st =
        (.ok (some (.ok (toNode H d (node l r)), sd), ⟨leaf, some (rc, rs), d + 1⟩), st') ∧
      Same st st' ∧ ReadOut H st (d + 1) (onPath k d l r) rc ∧ ReadOut H st (d + 1) (offPath k d l r) rs := by
  unfold PathIter.next
  simp only []
  have hn : (storageNode (E := E)).isNode (toNode H d (node l r)) = true := rfl
  rw [if_pos hn]
  have hk' : (storageNode (E := E)).leafKey leaf st = (.ok k.val, st) := by
    show (Exec.liftRes leaf.leafKey >>= fun k => pure k.val) st = _
    rw [show leaf.leafKey = .ok k from hk, Exec.liftRes_ok_bind]; rfl
  rw [Exec.bind_ok hk', getInstruction_eq k w.1]
  unfold onPath offPath
  cases hb : keyBit k d
  · simp only [Bool.false_eq_true, if_false]
    obtain ⟨x, st1, h1, h2, h3⟩ := (child_read env w hin st hv).1
    obtain ⟨y, st2, g1, g2, g3⟩ := (child_read env w hin st1 (by rw [h2.map]; exact hv)).2
    refine ⟨x, y, st2, ?_, h2.trans g2, h3, g3.same h2⟩
    show (leftChild (toNode H d (node l r)) >>= fun a => rightChild (toNode H d (node l r)) >>= fun b => _) st = _
    rw [Exec.bind_ok h1, Exec.bind_ok g1]; rfl
  · simp only [if_true]
    obtain ⟨x, st1, h1, h2, h3⟩ := (child_read env w hin st hv).2
    obtain ⟨y, st2, g1, g2, g3⟩ := (child_read env w hin st1 (by rw [h2.map]; exact hv)).1
    refine ⟨x, y, st2, ?_, h2.trans g2, h3, g3.same h2⟩
    show (rightChild (toNode H d (node l r)) >>= fun a => leftChild (toNode H d (node l r)) >>= fun b => _) st = _
    rw [Exec.bind_ok h1, Exec.bind_ok g1]; rfl

/-- One step of the iterator at the end of the path. -/
theorem next_end {t : T} (ht : ∀ l r, t ≠ node l r) (d off : Nat) (st : Tree E) (leaf : Node)
    (sd : Except (CErr E) Node) :
    PathIter.next storageNode ⟨leaf, some (.ok (toNode H d t), sd), off⟩ st =
      (.ok (some (.ok (toNode H d t), sd), ⟨leaf, none, off⟩), st) := by
  unfold PathIter.next
  simp only []
  have hn : ¬ (storageNode (E := E)).isNode (toNode H d t) = true := fun h => by
    obtain ⟨l, r, e⟩ := (isNode_toNode H t d).1 h
    exact ht l r e
  rw [if_neg hn]; rfl

theorem next_error (leaf : Node) (e : CErr E) (sd : Except (CErr E) Node) (off : Nat) (st : Tree E) :
    PathIter.next storageNode ⟨leaf, some (.error e, sd), off⟩ st =
      (.ok (some (.error e, sd), ⟨leaf, none, off⟩), st) := rfl

theorem next_none (leaf : Node) (off : Nat) (st : Tree E) :
    PathIter.next storageNode ⟨leaf, (none : Option (Except (CErr E) Node × Except (CErr E) Node)), off⟩ st =
      (.ok (none, ⟨leaf, none, off⟩), st) := rfl

/-- The items after the first one. -/
def tailItems (H : HashFn) (k : Bytes32) : Nat → T → List (Node × Node)
  | d, .node l r =>
    if keyBit k d then (toNode H (d + 1) r, toNode H (d + 1) l) :: tailItems H k (d + 1) r
    else (toNode H (d + 1) l, toNode H (d + 1) r) :: tailItems H k (d + 1) l
  | _, _ => []

/-- All nodes read on the path of `k` are stored. -/
def PathStored (H : HashFn) (m : Bytes32 → Option Prim) (k : Bytes32) : Nat → T → Prop
  | d, .node l r => (Stored H m (d + 1) l ∧ Stored H m (d + 1) r) ∧
    (if keyBit k d then PathStored H m k (d + 1) r else PathStored H m k (d + 1) l)
  | _, _ => True

theorem Stored.path {m : Bytes32 → Option Prim} (k : Bytes32) : ∀ {t : T} {d : Nat}, Stored H m d t →
    PathStored H m k d t := by
  intro t
  induction t with
  | empty => intro d _; trivial
  | leaf k v => intro d _; trivial
  | node l r ihl ihr =>
    intro d h
    refine ⟨h.2, ?_⟩
    cases keyBit k d
    · simpa using ihl h.2.1
    · simpa using ihr h.2.2

theorem collectPath_spec (env : Env H M U) {leaf : Node} {k : Bytes32} (hk : HasKey leaf k) : ∀ (t : T) (d off fuel : Nat)
    (st : Tree E) (sn : Node), WF d t → In H M t → Valid H M U st.storage.map → ((∃ l r, t = node l r) → off = d) →
    d ≤ 256 → 258 ≤ fuel + d →
    ∃ st', Same st st' ∧
      (collectPath fuel ⟨leaf, some (.ok (toNode H d t), .ok sn), off⟩ st =
          (.ok ((toNode H d t, sn) :: tailItems H k d t), st') ∨
        (∃ e, collectPath fuel ⟨leaf, some (.ok (toNode H d t), .ok sn), off⟩ st =
          (.error (.err (.childError e)), st')) ∧
          ¬ (st.storage.Reliable ∧ PathStored H st.storage.map k d t)) := by
  have ending : ∀ (t : T) (d off fuel : Nat) (st : Tree E) (sn : Node), (∀ l r, t ≠ node l r) → 2 ≤ fuel →
      collectPath fuel ⟨leaf, some (.ok (toNode H d t), .ok sn), off⟩ st = (.ok [(toNode H d t, sn)], st) := by
    intro t d off fuel st sn ht hf
    obtain ⟨f, rfl⟩ : ∃ f, fuel = f + 2 := ⟨fuel - 2, by omega⟩
    rw [collectPath, Exec.bind_ok (next_end ht d off st leaf _)]
    simp only []
    have : collectPath (f + 1) ⟨leaf, (none : Option (Except (CErr E) Node × Except (CErr E) Node)), off⟩ st = (.ok [], st) := by
      rw [collectPath, Exec.bind_ok (next_none leaf off st)]; rfl
    rw [Exec.bind_ok this]; rfl
  intro t
  induction t with
  | empty =>
    intro d off fuel st sn _ _ _ _ _ hf
    exact ⟨st, .refl st, .inl (ending _ d off fuel st sn (by simp) (by omega))⟩
  | leaf k' v' =>
    intro d off fuel st sn _ _ _ _ _ hf
    exact ⟨st, .refl st, .inl (ending _ d off fuel st sn (by simp) (by omega))⟩
  | node l r ihl ihr =>
    intro d off fuel st sn w hin hv hoff hd hf
    have := hoff ⟨l, r, rfl⟩
    subst this
    have ih : ∀ (fuel : Nat) (st : Tree E) (sn : Node), Valid H M U st.storage.map → 258 ≤ fuel + (off + 1) →
        ∃ st', Same st st' ∧
          (collectPath fuel ⟨leaf, some (.ok (toNode H (off + 1) (onPath k off l r)), .ok sn), off + 1⟩ st =
              (.ok ((toNode H (off + 1) (onPath k off l r), sn) :: tailItems H k (off + 1) (onPath k off l r)), st') ∨
            (∃ e, collectPath fuel ⟨leaf, some (.ok (toNode H (off + 1) (onPath k off l r)), .ok sn), off + 1⟩ st =
              (.error (.err (.childError e)), st')) ∧
              ¬ (st.storage.Reliable ∧ PathStored H st.storage.map k (off + 1) (onPath k off l r))) := by
      intro fuel st sn hv hf
      have hd' : off + 1 ≤ 256 := w.1
      unfold onPath
      cases keyBit k off
      · exact ihl (off + 1) (off + 1) fuel st sn w.2.1 hin.left hv (fun _ => rfl) hd' hf
      · exact ihr (off + 1) (off + 1) fuel st sn w.2.2.1 hin.right hv (fun _ => rfl) hd' hf
    have hPS : ∀ m, PathStored H m k off (node l r) → Stored H m (off + 1) (onPath k off l r) ∧
        Stored H m (off + 1) (offPath k off l r) ∧ PathStored H m k (off + 1) (onPath k off l r) := by
      intro m h
      unfold PathStored at h
      unfold onPath offPath
      revert h
      cases keyBit k off
      · simp only [Bool.false_eq_true, if_false]; exact fun h => ⟨h.1.1, h.1.2, h.2⟩
      · simp only [if_true]; exact fun h => ⟨h.1.2, h.1.1, h.2⟩
    obtain ⟨f, rfl⟩ : ∃ f, fuel = f + 2 := ⟨fuel - 2, by have := w.1; omega⟩
    obtain ⟨rc, rs, st1, h1, h2, h3, h4⟩ := next_node env w hin st hv hk (.ok sn)
    have hw : WF (off + 1) (onPath k off l r) ∧ In H M (onPath k off l r) := by
      unfold onPath
      cases keyBit k off
      · exact ⟨w.2.1, hin.left⟩
      · exact ⟨w.2.2.1, hin.right⟩
    have hcont : ∀ (x : Except (Fail (Error E)) (List (Node × Node))) (st' : Tree E),
        collectPath (f + 1) ⟨leaf, some (rc, rs), off + 1⟩ st1 = (x, st') →
        collectPath (f + 2) ⟨leaf, some (.ok (toNode H off (node l r)), .ok sn), off⟩ st =
          (x.map ((toNode H off (node l r), sn) :: ·), st') := by
      intro x st' hx
      rw [collectPath, Exec.bind_ok h1]
      simp only []
      cases x with
      | ok x => rw [Exec.bind_ok hx]; rfl
      | error e => rw [Exec.bind_error hx]; rfl
    have hv1 : Valid H M U st1.storage.map := by rw [h2.map]; exact hv
    have hfail : ∀ (P : Prop), ¬ (st.storage.Reliable ∧ P) → (PathStored H st.storage.map k off (node l r) → P) →
        ¬ (st.storage.Reliable ∧ PathStored H st.storage.map k off (node l r)) :=
      fun P h h' ⟨a, b⟩ => h ⟨a, h' b⟩
    rcases h3 with rfl | ⟨⟨e, rfl⟩, hne⟩
    · rcases h4 with rfl | ⟨⟨e, rfl⟩, hne⟩
      · obtain ⟨st2, g1, g2⟩ := ih (f + 1) st1 (toNode H (off + 1) (offPath k off l r)) hv1 (by omega)
        refine ⟨st2, h2.trans g1, ?_⟩
        rcases g2 with g2 | ⟨⟨e, g2⟩, hne⟩
        · left
          rw [hcont _ _ g2]
          unfold onPath offPath
          rw [tailItems]
          cases keyBit k off <;> rfl
        · right
          refine ⟨⟨e, by rw [hcont _ _ g2]; rfl⟩, hfail _ (fun ⟨a, b⟩ => hne ⟨h2.reliable a, by rw [h2.map]; exact b⟩)
            (fun h => (hPS _ h).2.2)⟩
      · -- the side node could not be read
        have hx : ∃ st2, Same st1 st2 ∧ collectPath (f + 1)
            ⟨leaf, some (.ok (toNode H (off + 1) (onPath k off l r)), .error e), off + 1⟩ st1 =
              (.error (.err (.childError e)), st2) := by
          by_cases hn : ∃ l' r', onPath k off l r = node l' r'
          · obtain ⟨l', r', hn⟩ := hn
            rw [hn] at hw ⊢
            obtain ⟨rc', rs', st2, j1, j2, _, _⟩ := next_node env hw.1 hw.2 st1 hv1 hk (.error e)
            exact ⟨st2, j2, by rw [collectPath, Exec.bind_ok j1]; rfl⟩
          · exact ⟨st1, .refl _, by
              rw [collectPath, Exec.bind_ok (next_end (fun l' r' h => hn ⟨l', r', h⟩) _ _ st1 leaf _)]; rfl⟩
        obtain ⟨st2, j1, j2⟩ := hx
        exact ⟨st2, h2.trans j1, .inr ⟨⟨e, by rw [hcont _ _ j2]; rfl⟩, hfail _ hne (fun h => (hPS _ h).2.1)⟩⟩
    · -- the path node could not be read
      have hx : collectPath (f + 1) ⟨leaf, some (.error e, rs), off + 1⟩ st1 = (.error (.err (.childError e)), st1) := by
        rw [collectPath, Exec.bind_ok (next_error leaf e rs _ st1)]; rfl
      exact ⟨st1, h2, .inr ⟨⟨e, by rw [hcont _ _ hx]; rfl⟩, hfail _ hne (fun h => (hPS _ h).1)⟩⟩

/-- Nodes on the path, last one first. -/
def pathNodes (H : HashFn) (k : Bytes32) : Nat → T → List Node
  | d, .node l r => (if keyBit k d then pathNodes H k (d + 1) r else pathNodes H k (d + 1) l) ++ [toNode H d (node l r)]
  | d, .leaf k' v' => [toNode H d (leaf k' v')]
  | d, .empty => [toNode H d .empty]

/-- Nodes beside the path, last one first. -/
def sideNodes (H : HashFn) (k : Bytes32) : Nat → T → List Node
  | d, .node l r => if keyBit k d then sideNodes H k (d + 1) r ++ [toNode H (d + 1) l]
    else sideNodes H k (d + 1) l ++ [toNode H (d + 1) r]
  | _, _ => []

theorem items_path (k : Bytes32) : ∀ (t : T) (d : Nat) (sn : Node),
    (((toNode H d t, sn) :: tailItems H k d t).map Prod.fst).reverse = pathNodes H k d t ∧
    (((toNode H d t, sn) :: tailItems H k d t).map Prod.snd).reverse.dropLast = sideNodes H k d t := by
  have key : ∀ (t : T) (d : Nat) (sn : Node),
      (((toNode H d t, sn) :: tailItems H k d t).map Prod.fst).reverse = pathNodes H k d t ∧
      (((toNode H d t, sn) :: tailItems H k d t).map Prod.snd).reverse = sideNodes H k d t ++ [sn] := by
    intro t
    induction t with
    | empty => intro d sn; exact ⟨rfl, rfl⟩
    | leaf k v => intro d sn; exact ⟨rfl, rfl⟩
    | node l r ihl ihr =>
      intro d sn
      rw [tailItems, pathNodes, sideNodes]
      cases keyBit k d
      · simp only [Bool.false_eq_true, if_false]
        obtain ⟨h1, h2⟩ := ihl (d + 1) (toNode H (d + 1) r)
        rw [List.map_cons, List.reverse_cons, h1, List.map_cons, List.reverse_cons, h2]
        exact ⟨rfl, rfl⟩
      · simp only [if_true]
        obtain ⟨h1, h2⟩ := ihr (d + 1) (toNode H (d + 1) l)
        rw [List.map_cons, List.reverse_cons, h1, List.map_cons, List.reverse_cons, h2]
        exact ⟨rfl, rfl⟩
  intro t d sn
  obtain ⟨h1, h2⟩ := key t d sn
  exact ⟨h1, by rw [h2, List.dropLast_concat]⟩

theorem pathSet_spec (p : Profile) (env : Env H M U) {leaf : Node} {k : Bytes32} (hk : HasKey leaf k) {t : T} (st : Tree E)
    (hroot : st.rootNode = toNode H 0 t) (w : WF 0 t) (hin : In H M t) (hv : Valid H M U st.storage.map) :
    ∃ st', Same st st' ∧
      (pathSet p leaf st = (.ok (pathNodes H k 0 t, sideNodes H k 0 t), st') ∨
        (∃ e, pathSet p leaf st = (.error (.err (.childError e)), st')) ∧
          ¬ (st.storage.Reliable ∧ PathStored H st.storage.map k 0 t)) := by
  unfold pathSet
  rw [Exec.get_bind, hroot]
  obtain ⟨off, ho, hoff⟩ : ∃ off, (PathIter.new storageNode p (toNode H 0 t) leaf : TreeM E _) st =
      (.ok ⟨leaf, some (.ok (toNode H 0 t), .ok (toNode H 0 t)), off⟩, st) ∧ ((∃ l r, t = node l r) → off = 0) := by
    refine ⟨256 - (toNode H 0 t).height, ?_, ?_⟩
    · unfold PathIter.new
      have hh : (toNode H 0 t).height ≤ 256 := by cases t <;> simp [toNode, Node.createPlaceholder]
      have : (storageNode (E := E)).lift (usizeSub p (storageNode (E := E)).keySizeInBits
          ((storageNode (E := E)).height (toNode H 0 t))) st = (.ok (256 - (toNode H 0 t).height), st) := by
        show Exec.liftRes (usizeSub p 256 (toNode H 0 t).height) st = _
        unfold usizeSub
        rw [if_pos hh]; rfl
      rw [Exec.bind_ok this]; rfl
    · rintro ⟨l, r, rfl⟩; rfl
  rw [Exec.bind_ok ho]
  obtain ⟨st', h1, h2⟩ := collectPath_spec env hk t 0 off 258 st (toNode H 0 t) w hin hv hoff (by omega) (by omega)
  refine ⟨st', h1, ?_⟩
  have hfuel : PathIter.fuel (storageNode (E := E)) = 258 := rfl
  rw [hfuel]
  rcases h2 with h2 | ⟨⟨e, h2⟩, hn⟩
  · left
    rw [Exec.bind_ok h2]
    rw [(items_path k t 0 _).1, (items_path k t 0 _).2]
    rfl
  · right
    exact ⟨⟨e, by rw [Exec.bind_error h2]⟩, hn⟩

end Sparse
end FuelMerkle
