import Verif.Spec.ConcurrentSparseLive
import Verif.Proofs.ConcurrentSparse
import Verif.Proofs.SparseLinked
import Verif.Proofs.TapeLive

/-
Processes with sparse trees that share a storage that works and only store: nobody fails.
-/
namespace FuelMerkle
namespace Sparse.Any
open Spec T Sparse
variable {S E : Type} {B : Backend S Bytes32 Prim E} {seen : S → Bytes32 → Prim → Prop} {H : HashFn} {M : Bytes → Prop} {U : Bytes32 → Prop}

/-! ### The records of a tree -/

/-- The keys of the records of a tree. -/
def recKeys (H : HashFn) : T → List Bytes32
  | .empty => []
  | .leaf k v => [(leaf k v).hash H]
  | .node l r => (node l r).hash H :: (recKeys H l ++ recKeys H r)

theorem mem_recKeys {t : T} (h0 : t ≠ .empty) : t.hash H ∈ recKeys H t := by
  cases t <;> simp [recKeys] at h0 ⊢

/-- The record of `y` belongs to a tree with the root `x`. -/
def Below (H : HashFn) (M : Bytes → Prop) (x y : Bytes32) : Prop :=
  ∃ t d, WF d t ∧ In H M t ∧ x = t.hash H ∧ y ∈ recKeys H t

theorem below_iff (env : Env H M U) {t : T} {d : Nat} (w : WF d t) (hin : In H M t) {y : Bytes32} : Below H M (t.hash H) y ↔ y ∈ recKeys H t := by
  constructor
  · rintro ⟨t', d', w', hin', e, hy⟩
    rw [hash_inj env hin hin' e]
    exact hy
  · exact fun hy => ⟨t, d, w, hin, rfl, hy⟩

theorem Stored.recKeys {m : Bytes32 → Option Prim} : ∀ {t : T} {d : Nat}, Stored H m d t → ∀ y ∈ recKeys H t, m y ≠ none
  | .empty, _, _, _, hy => by cases hy
  | .leaf _ _, _, h, y, hy => by
    rw [List.mem_singleton.1 hy, h]; simp
  | .node l r, _, h, y, hy => by
    rcases List.mem_cons.1 hy with rfl | hy
    · rw [h.1]; simp
    · rcases List.mem_append.1 hy with hy | hy
      · exact Stored.recKeys h.2.1 y hy
      · exact Stored.recKeys h.2.2 y hy

/-- With a root all records of the tree are there. -/
theorem below_there (env : Env H M U) {m : Bytes32 → Option Prim} (hl : Linked m) (hv : Valid H M U m) {x y : Bytes32} (hx : m x ≠ none)
    (hb : Below H M x y) : m y ≠ none := by
  obtain ⟨t, d, w, hin, rfl, hy⟩ := hb
  exact Stored.recKeys (hl.stored env hv w hin fun _ => hx) y hy

/-! ### Storage that keeps what it has -/

/-- The children of a record are there, or the record is its own child. -/
def Supplied (has : Bytes32 → Prop) (x : Bytes32) (q : Prim) : Prop :=
  q.2.1 = 0x01 → (q.2.2.1 ≠ zero32 → q.2.2.1 = x ∨ has q.2.2.1) ∧ (q.2.2.2 ≠ zero32 → q.2.2.2 = x ∨ has q.2.2.2)

/-- Storage on which a process finds what it `held`; `halted`: the request cannot go on. -/
structure Steady (B : Backend S Bytes32 Prim E) (H : HashFn) (M : Bytes → Prop) (held : S → Bytes32 → Prop) (halted proper : S → Prop) : Prop where
  get_proper : ∀ {x s}, proper s → proper (B.get x s).2
  get_keep : ∀ {x s y}, held s y → held (B.get x s).2 y
  get_halted : ∀ {x s}, halted s → halted (B.get x s).2
  get_result : ∀ {x s}, proper s → ¬ halted (B.get x s).2 → ∃ r, (B.get x s).1 = .ok r ∧ (held s x → r ≠ none)
  get_found : ∀ {x s q y}, proper s → (B.get x s).1 = .ok (some q) → Below H M x y → held (B.get x s).2 y
  insert_proper : ∀ {x v s}, proper s → Supplied (held s) x v → proper (B.insert x v s).2
  insert_keep : ∀ {x v s y}, held s y → held (B.insert x v s).2 y
  insert_halted : ∀ {x v s}, halted s → halted (B.insert x v s).2
  insert_result : ∀ {x v s}, proper s → ¬ halted (B.insert x v s).2 → ∃ r, (B.insert x v s).1 = .ok r
  insert_found : ∀ {x v s r y}, proper s → (B.insert x v s).1 = .ok r → Below H M x y → held (B.insert x v s).2 y

variable {held : S → Bytes32 → Prop} {halted proper : S → Prop}

/-- All records of the tree are held. -/
def HeldT (H : HashFn) (held : S → Bytes32 → Prop) (s : S) (t : T) : Prop := ∀ y ∈ recKeys H t, held s y

/-- Same root node, nothing held is lost. -/
structure Moved (H : HashFn) (M : Bytes → Prop) (U : Bytes32 → Prop) (seen : S → Bytes32 → Prim → Prop) (held : S → Bytes32 → Prop) (halted proper : S → Prop)
    (st st' : Tree S) : Prop where
  root : st'.rootNode = st.rootNode
  pure : Pure H M U seen st'.storage
  proper : proper st'.storage
  keep : ∀ y, held st.storage y → held st'.storage y
  mono : halted st.storage → halted st'.storage

theorem Moved.refl {st : Tree S} (hv : Pure H M U seen st.storage) (hp : proper st.storage) : Moved H M U seen held halted proper st st :=
  ⟨rfl, hv, hp, fun _ h => h, id⟩

theorem Moved.trans {st st' st'' : Tree S} (h : Moved H M U seen held halted proper st st') (h' : Moved H M U seen held halted proper st' st'') :
    Moved H M U seen held halted proper st st'' :=
  ⟨h'.root.trans h.root, h'.pure, h'.proper, fun y hy => h'.keep y (h.keep y hy), fun x => h'.mono (h.mono x)⟩

theorem Moved.tree {st st' : Tree S} (h : Moved H M U seen held halted proper st st') {t : T} (ht : HeldT H held st.storage t) :
    HeldT H held st'.storage t := fun y hy => h.keep y (ht y hy)

/-! ### Reading the path -/

/-- The child `c` was read, or the request cannot go on. -/
def ReadSure (H : HashFn) (halted : S → Prop) (d : Nat) (c : T) (st : Tree S) (r : Except (CErr E) Node) : Prop :=
  r = .ok (toNode H d c) ∨ (∃ e, r = .error e) ∧ halted st.storage

theorem ReadSure.later {d : Nat} {c : T} {st st' : Tree S} {r : Except (CErr E) Node} (h : ReadSure H halted d c st r)
    (hm : Moved H M U seen held halted proper st st') : ReadSure H halted d c st' r := h.imp_right fun h => ⟨h.1, hm.mono h.2⟩

theorem childByKey_sure (hN : NoInvention B seen) (hB : Steady B H M held halted proper) (env : Env H M U) {c : T} {d : Nat} (w : WF d c) (hin : In H M c) (st : Tree S)
    (hv : Pure H M U seen st.storage) (hp : proper st.storage) (ha : HeldT H held st.storage c) :
    ∃ r st', childByKey B (c.hash H) st = (.ok r, st') ∧ Moved H M U seen held halted proper st st' ∧ ReadSure H halted d c st' r := by
  unfold childByKey
  by_cases h0 : c = .empty
  · subst h0
    rw [if_pos (show T.hash H .empty = zeroSum from zeroSum_eq.symm)]
    exact ⟨_, st, rfl, .refl hv hp, .inl rfl⟩
  · rw [if_neg (hin.hash_ne env h0)]
    have hts : tryStorage (B.get (c.hash H)) st =
      (.ok (B.get (c.hash H) st.storage).1, { st with storage := (B.get (c.hash H) st.storage).2 }) := rfl
    rw [Exec.bind_ok hts]
    have hk : Moved H M U seen held halted proper st { st with storage := (B.get (c.hash H) st.storage).2 } :=
      ⟨rfl, hv.less fun _ _ => hN.get, hB.get_proper hp, fun _ => hB.get_keep, hB.get_halted⟩
    have hres := hB.get_result (x := c.hash H) hp
    have hthere := ha _ (mem_recKeys h0)
    rcases hg : B.get (c.hash H) st.storage with ⟨e | _ | q, s'⟩ <;> rw [hg] at hk hres
    · refine ⟨_, _, rfl, hk, .inr ⟨⟨_, rfl⟩, ?_⟩⟩
      by_contra hh
      obtain ⟨r, h1, _⟩ := hres hh
      cases h1
    · refine ⟨_, _, rfl, hk, .inr ⟨⟨_, rfl⟩, ?_⟩⟩
      by_contra hh
      obtain ⟨r, h1, h2⟩ := hres hh
      cases h1
      exact h2 hthere rfl
    · have := hv.get env w hin h0 (hN.found hg)
      subst this
      simp only [ofPrim_toPrim]
      exact ⟨_, _, rfl, hk, .inl rfl⟩

theorem HeldT.left {s : S} {l r : T} (h : HeldT H held s (node l r)) : HeldT H held s l := fun y hy => h y (by simp [recKeys, hy])
theorem HeldT.right {s : S} {l r : T} (h : HeldT H held s (node l r)) : HeldT H held s r := fun y hy => h y (by simp [recKeys, hy])

theorem child_sure (hN : NoInvention B seen) (hB : Steady B H M held halted proper) (env : Env H M U) {l r : T} {d : Nat} (w : WF d (node l r)) (hin : In H M (node l r)) (st : Tree S)
    (hv : Pure H M U seen st.storage) (hp : proper st.storage) (ha : HeldT H held st.storage (node l r)) :
    (∃ x st', leftChild B (toNode H d (node l r)) st = (.ok x, st') ∧ Moved H M U seen held halted proper st st' ∧ ReadSure H halted (d + 1) l st' x) ∧
    (∃ x st', rightChild B (toNode H d (node l r)) st = (.ok x, st') ∧ Moved H M U seen held halted proper st st' ∧ ReadSure H halted (d + 1) r st' x) := by
  have hl : ¬ (toNode H d (node l r)).isLeaf = true := fun h => (isLeaf_toNode env w hin).1 h l r rfl
  have k1 : (toNode H d (node l r)).leftChildKey = .ok (l.hash H) := rfl
  have k2 : (toNode H d (node l r)).rightChildKey = .ok (r.hash H) := rfl
  unfold leftChild rightChild
  rw [if_neg hl, if_neg hl, k1, k2, Exec.liftRes_ok_bind, Exec.liftRes_ok_bind]
  exact ⟨childByKey_sure hN hB env w.2.1 hin.left st hv hp ha.left, childByKey_sure hN hB env w.2.2.1 hin.right st hv hp ha.right⟩

/-- One step of the iterator at an inner node. -/
theorem next_sure (hN : NoInvention B seen) (hB : Steady B H M held halted proper) (env : Env H M U) {l r : T} {d : Nat} (w : WF d (node l r)) (hin : In H M (node l r)) (st : Tree S)
    (hv : Pure H M U seen st.storage) (hp : proper st.storage) (ha : HeldT H held st.storage (node l r)) {leaf : Node} {k : Bytes32} (hk : HasKey leaf k)
    (sd : Except (CErr E) Node) :
    ∃ rc rs st', PathIter.next (storageNode B) ⟨leaf, some (.ok (toNode H d (node l r)), sd), d⟩ st =
        (.ok (some (.ok (toNode H d (node l r)), sd), ⟨leaf, some (rc, rs), d + 1⟩), st') ∧
      Moved H M U seen held halted proper st st' ∧ ReadSure H halted (d + 1) (onPath k d l r) st' rc ∧ ReadSure H halted (d + 1) (offPath k d l r) st' rs := by
  unfold PathIter.next
  simp only []
  have hn : (storageNode B).isNode (toNode H d (node l r)) = true := rfl
  rw [if_pos hn]
  have hk' : (storageNode B).leafKey leaf st = (.ok k.val, st) := by
    show (Exec.liftRes leaf.leafKey >>= fun k => pure k.val) st = _
    rw [show leaf.leafKey = .ok k from hk, Exec.liftRes_ok_bind]; rfl
  rw [Exec.bind_ok hk', getInstruction_eq k w.1]
  unfold onPath offPath
  cases hb : keyBit k d
  · simp only [Bool.false_eq_true, if_false]
    obtain ⟨x, st1, h1, h2, h3⟩ := (child_sure hN hB env w hin st hv hp ha).1
    obtain ⟨y, st2, g1, g2, g3⟩ := (child_sure hN hB env w hin st1 h2.pure h2.proper (h2.tree ha)).2
    refine ⟨x, y, st2, ?_, h2.trans g2, h3.later g2, g3⟩
    show (leftChild B (toNode H d (node l r)) >>= fun a => rightChild B (toNode H d (node l r)) >>= fun b => _) st = _
    rw [Exec.bind_ok h1, Exec.bind_ok g1]; rfl
  · simp only [if_true]
    obtain ⟨x, st1, h1, h2, h3⟩ := (child_sure hN hB env w hin st hv hp ha).2
    obtain ⟨y, st2, g1, g2, g3⟩ := (child_sure hN hB env w hin st1 h2.pure h2.proper (h2.tree ha)).1
    refine ⟨x, y, st2, ?_, h2.trans g2, h3.later g2, g3⟩
    show (rightChild B (toNode H d (node l r)) >>= fun a => leftChild B (toNode H d (node l r)) >>= fun b => _) st = _
    rw [Exec.bind_ok h1, Exec.bind_ok g1]; rfl

theorem collectPath_sure (hN : NoInvention B seen) (hB : Steady B H M held halted proper) (env : Env H M U) {leaf : Node} {k : Bytes32} (hk : HasKey leaf k) : ∀ (t : T) (d off fuel : Nat)
    (st : Tree S) (sn : Node), WF d t → In H M t → Pure H M U seen st.storage → proper st.storage → HeldT H held st.storage t → ((∃ l r, t = node l r) → off = d) →
    d ≤ 256 → 258 ≤ fuel + d →
    ∃ st', Moved H M U seen held halted proper st st' ∧
      (collectPath B fuel ⟨leaf, some (.ok (toNode H d t), .ok sn), off⟩ st =
          (.ok ((toNode H d t, sn) :: tailItems H k d t), st') ∨
        (∃ e, collectPath B fuel ⟨leaf, some (.ok (toNode H d t), .ok sn), off⟩ st = (.error e, st')) ∧ halted st'.storage) := by
  have ending : ∀ (t : T) (d off fuel : Nat) (st : Tree S) (sn : Node), (∀ l r, t ≠ node l r) → 2 ≤ fuel →
      collectPath B fuel ⟨leaf, some (.ok (toNode H d t), .ok sn), off⟩ st = (.ok [(toNode H d t, sn)], st) := by
    intro t d off fuel st sn ht hf
    obtain ⟨f, rfl⟩ : ∃ f, fuel = f + 2 := ⟨fuel - 2, by omega⟩
    rw [collectPath, Exec.bind_ok (next_end ht d off st leaf _)]
    simp only []
    have : collectPath B (f + 1) ⟨leaf, (none : Option (Except (CErr E) Node × Except (CErr E) Node)), off⟩ st = (.ok [], st) := by
      rw [collectPath, Exec.bind_ok (next_none leaf off st)]; rfl
    rw [Exec.bind_ok this]; rfl
  intro t
  induction t with
  | empty =>
    intro d off fuel st sn _ _ hv hp _ _ _ hf
    exact ⟨st, .refl hv hp, .inl (ending _ d off fuel st sn (by simp) (by omega))⟩
  | leaf k' v' =>
    intro d off fuel st sn _ _ hv hp _ _ _ hf
    exact ⟨st, .refl hv hp, .inl (ending _ d off fuel st sn (by simp) (by omega))⟩
  | node l r ihl ihr =>
    intro d off fuel st sn w hin hv hp ha hoff hd hf
    have := hoff ⟨l, r, rfl⟩
    subst this
    have ih : ∀ (fuel : Nat) (st : Tree S) (sn : Node), Pure H M U seen st.storage → proper st.storage → HeldT H held st.storage (onPath k off l r) → 258 ≤ fuel + (off + 1) →
        ∃ st', Moved H M U seen held halted proper st st' ∧
          (collectPath B fuel ⟨leaf, some (.ok (toNode H (off + 1) (onPath k off l r)), .ok sn), off + 1⟩ st =
              (.ok ((toNode H (off + 1) (onPath k off l r), sn) :: tailItems H k (off + 1) (onPath k off l r)), st') ∨
            (∃ e, collectPath B fuel ⟨leaf, some (.ok (toNode H (off + 1) (onPath k off l r)), .ok sn), off + 1⟩ st =
              (.error e, st')) ∧ halted st'.storage) := by
      have hd' : off + 1 ≤ 256 := w.1
      unfold onPath
      intro fuel st sn hv hp ha hf
      revert ha
      cases keyBit k off
      · exact fun ha => ihl (off + 1) (off + 1) fuel st sn w.2.1 hin.left hv hp ha (fun _ => rfl) hd' hf
      · exact fun ha => ihr (off + 1) (off + 1) fuel st sn w.2.2.1 hin.right hv hp ha (fun _ => rfl) hd' hf
    obtain ⟨f, rfl⟩ : ∃ f, fuel = f + 2 := ⟨fuel - 2, by have := w.1; omega⟩
    obtain ⟨rc, rs, st1, h1, h2, h3, h4⟩ := next_sure hN hB env w hin st hv hp ha hk (.ok sn)
    have hw : WF (off + 1) (onPath k off l r) ∧ In H M (onPath k off l r) ∧ HeldT H held st1.storage (onPath k off l r) := by
      unfold onPath
      cases keyBit k off
      · exact ⟨w.2.1, hin.left, h2.tree ha.left⟩
      · exact ⟨w.2.2.1, hin.right, h2.tree ha.right⟩
    have hcont : ∀ (x : Except (Fail (Error E)) (List (Node × Node))) (st' : Tree S),
        collectPath B (f + 1) ⟨leaf, some (rc, rs), off + 1⟩ st1 = (x, st') →
        collectPath B (f + 2) ⟨leaf, some (.ok (toNode H off (node l r)), .ok sn), off⟩ st =
          (x.map ((toNode H off (node l r), sn) :: ·), st') := by
      intro x st' hx
      rw [collectPath, Exec.bind_ok h1]
      simp only []
      cases x with
      | ok x => rw [Exec.bind_ok hx]; rfl
      | error e => rw [Exec.bind_error hx]; rfl
    rcases h3 with rfl | ⟨⟨e, rfl⟩, hh⟩
    · rcases h4 with rfl | ⟨⟨e, rfl⟩, hh⟩
      · obtain ⟨st2, g1, g2⟩ := ih (f + 1) st1 (toNode H (off + 1) (offPath k off l r)) h2.pure h2.proper hw.2.2 (by omega)
        refine ⟨st2, h2.trans g1, ?_⟩
        rcases g2 with g2 | ⟨⟨e, g2⟩, he⟩
        · left
          rw [hcont _ _ g2]
          unfold onPath offPath
          rw [tailItems]
          cases keyBit k off <;> rfl
        · exact .inr ⟨⟨e, by rw [hcont _ _ g2]; rfl⟩, he⟩
      · -- the side node could not be read
        have hx : ∃ st2, Moved H M U seen held halted proper st1 st2 ∧ collectPath B (f + 1)
            ⟨leaf, some (.ok (toNode H (off + 1) (onPath k off l r)), .error e), off + 1⟩ st1 =
              (.error (.err (.childError e)), st2) := by
          by_cases hn : ∃ l' r', onPath k off l r = node l' r'
          · obtain ⟨l', r', hn⟩ := hn
            rw [hn] at hw ⊢
            obtain ⟨rc', rs', st2, j1, j2, _, _⟩ := next_sure hN hB env hw.1 hw.2.1 st1 h2.pure h2.proper hw.2.2 hk (.error e)
            exact ⟨st2, j2, by rw [collectPath, Exec.bind_ok j1]; rfl⟩
          · exact ⟨st1, .refl h2.pure h2.proper, by
              rw [collectPath, Exec.bind_ok (next_end (fun l' r' h => hn ⟨l', r', h⟩) _ _ st1 leaf _)]; rfl⟩
        obtain ⟨st2, j1, j2⟩ := hx
        exact ⟨st2, h2.trans j1, .inr ⟨⟨_, by rw [hcont _ _ j2]; rfl⟩, j1.mono hh⟩⟩
    · -- the path node could not be read
      have hx : collectPath B (f + 1) ⟨leaf, some (.error e, rs), off + 1⟩ st1 = (.error (.err (.childError e)), st1) := by
        rw [collectPath, Exec.bind_ok (next_error leaf e rs _ st1)]; rfl
      exact ⟨st1, h2, .inr ⟨⟨_, by rw [hcont _ _ hx]; rfl⟩, hh⟩⟩

theorem pathSet_sure (hN : NoInvention B seen) (hB : Steady B H M held halted proper) (p : Profile) (env : Env H M U) {leaf : Node} {k : Bytes32} (hk : HasKey leaf k) {t : T} (st : Tree S)
    (hroot : st.rootNode = toNode H 0 t) (w : WF 0 t) (hin : In H M t) (hv : Pure H M U seen st.storage) (hp : proper st.storage) (ha : HeldT H held st.storage t) :
    ∃ st', Moved H M U seen held halted proper st st' ∧
      (pathSet B p leaf st = (.ok (pathNodes H k 0 t, sideNodes H k 0 t), st') ∨
        (∃ e, pathSet B p leaf st = (.error e, st')) ∧ halted st'.storage) := by
  unfold pathSet
  rw [Exec.get_bind, hroot]
  obtain ⟨off, ho, hoff⟩ : ∃ off, (PathIter.new (storageNode B) p (toNode H 0 t) leaf : TreeM S E _) st =
      (.ok ⟨leaf, some (.ok (toNode H 0 t), .ok (toNode H 0 t)), off⟩, st) ∧ ((∃ l r, t = node l r) → off = 0) := by
    refine ⟨256 - (toNode H 0 t).height, ?_, ?_⟩
    · unfold PathIter.new
      have hh : (toNode H 0 t).height ≤ 256 := by cases t <;> simp [toNode, Node.createPlaceholder]
      have : (storageNode B).lift (usizeSub p (storageNode B).keySizeInBits
          ((storageNode B).height (toNode H 0 t))) st = (.ok (256 - (toNode H 0 t).height), st) := by
        show Exec.liftRes (usizeSub p 256 (toNode H 0 t).height) st = _
        unfold usizeSub
        rw [if_pos hh]; rfl
      rw [Exec.bind_ok this]; rfl
    · rintro ⟨l, r, rfl⟩; rfl
  rw [Exec.bind_ok ho]
  obtain ⟨st', h1, h2⟩ := collectPath_sure hN hB env hk t 0 off 258 st (toNode H 0 t) w hin hv hp ha hoff (by omega) (by omega)
  refine ⟨st', h1, ?_⟩
  have hfuel : PathIter.fuel (storageNode B) = 258 := rfl
  rw [hfuel]
  rcases h2 with h2 | ⟨⟨e, h2⟩, he⟩
  · left
    rw [Exec.bind_ok h2]
    rw [(items_path k t 0 _).1, (items_path k t 0 _).2]
    rfl
  · exact .inr ⟨⟨e, by rw [Exec.bind_error h2]⟩, he⟩

/-! ### Writing the path -/

/-- Held, with all records of the tree that has it as its root. -/
def Full (H : HashFn) (M : Bytes → Prop) (held : S → Bytes32 → Prop) (s : S) (x : Bytes32) : Prop := held s x ∧ ∀ y, Below H M x y → held s y

theorem Moved.full {st st' : Tree S} (h : Moved H M U seen held halted proper st st') {x : Bytes32} (hx : Full H M held st.storage x) :
    Full H M held st'.storage x := ⟨h.keep x hx.1, fun y hy => h.keep y (hx.2 y hy)⟩

theorem HeldT.full (env : Env H M U) {t : T} {d : Nat} (w : WF d t) (hin : In H M t) {s : S} (h : HeldT H held s t) (h0 : t.hash H ≠ zero32) :
    Full H M held s (t.hash H) := by
  have hne : t ≠ .empty := by rintro rfl; exact h0 rfl
  exact ⟨h _ (mem_recKeys hne), fun y hy => h y ((below_iff env w hin).1 hy)⟩

theorem insert_sure (hN : NoInvention B seen) (hB : Steady B H M held halted proper) {x : Bytes32} {q : Prim} (hg : Good H M x q ∨ (U x ∧ ∃ y, q = leafPrim x y))
    {st : Tree S} (hs : Supplied (held st.storage) x q) (hv : Pure H M U seen st.storage) (hp : proper st.storage) :
    ∃ st', Moved H M U seen held halted proper st st' ∧ ((∃ v, onStorage (B.insert x q) st = (.ok v, st') ∧ ∀ y, Below H M x y → held st'.storage y) ∨
      (∃ e, onStorage (B.insert x q) st = (.error e, st')) ∧ halted st'.storage) := by
  have h : Moved H M U seen held halted proper st { st with storage := (B.insert x q st.storage).2 } :=
    ⟨rfl, hv.more (fun _ _ => hN.insert) hg, hB.insert_proper hp hs, fun _ => hB.insert_keep, hB.insert_halted⟩
  have hres := hB.insert_result (x := x) (v := q) hp
  have hf := @Steady.insert_found _ _ _ _ _ _ _ _ hB x q st.storage
  unfold onStorage
  rcases hi : B.insert x q st.storage with ⟨e | v, s⟩ <;> rw [hi] at h hres hf
  · refine ⟨{ st with storage := s }, h, .inr ⟨⟨_, rfl⟩, ?_⟩⟩
    by_contra hh
    obtain ⟨r, h1⟩ := hres hh
    cases h1
  · exact ⟨{ st with storage := s }, h, .inl ⟨v, rfl, fun y hy => hf hp rfl hy⟩⟩

/-- Children are written before their parents, and `z` is there in the end. -/
def Writes.Ordered {α : Type} (z : Bytes32) (known : Bytes32 → Prop) : Writes α → Prop
  | .done _ => z ≠ zero32 → known z
  | .write x q next => Supplied known x q ∧ next.Ordered z fun y => known y ∨ y = x

theorem Writes.Ordered.onAny {α : Type} (hN : NoInvention B seen) (hB : Steady B H M held halted proper) {N : α} {z : Bytes32} : ∀ {w : Writes α} {known : Bytes32 → Prop},
    w.Leads H M N → w.Ordered z known → ∀ (st : Tree S), (∀ y, known y → Full H M held st.storage y) → Pure H M U seen st.storage → proper st.storage →
    ∃ st', Moved H M U seen held halted proper st st' ∧ ((w.onAny B st = (.ok N, st') ∧ (z ≠ zero32 → Full H M held st'.storage z)) ∨
      (∃ e, w.onAny B st = (.error e, st')) ∧ halted st'.storage) := by
  intro w
  induction w with
  | done r => intro known h ho st hk hv hp; cases h; exact ⟨st, .refl hv hp, .inl ⟨rfl, fun h0 => hk z (ho h0)⟩⟩
  | write x q next ih =>
    intro known h ho st hk hv hp
    have hsup : Supplied (held st.storage) x q := fun ht => ⟨fun h0 => (((ho.1 ht).1 h0).imp_right fun h => (hk _ h).1), fun h0 => (((ho.1 ht).2 h0).imp_right fun h => (hk _ h).1)⟩
    obtain ⟨st1, f1, h1⟩ := insert_sure hN hB (.inl h.1) hsup hv hp
    rw [Writes.onAny]
    rcases h1 with ⟨v, h1, hx⟩ | ⟨⟨e, h1⟩, hh⟩
    · have hfull : Full H M held st1.storage x := by
        obtain ⟨t, d, w, hin, h0, rfl, _⟩ := h.1
        exact ⟨hx _ ⟨t, d, w, hin, rfl, mem_recKeys h0⟩, hx⟩
      obtain ⟨st2, f2, h2⟩ := ih h.2 ho.2 st1 (fun y hy => by
        rcases hy with hy | rfl
        · exact f1.full (hk y hy)
        · exact hfull) f1.pure f1.proper
      rw [Exec.bind_ok h1]
      exact ⟨st2, f1.trans f2, h2⟩
    · rw [Exec.bind_error h1]
      exact ⟨st1, f1, .inr ⟨⟨e, rfl⟩, hh⟩⟩

theorem Writes.Ordered.mono {α : Type} {z : Bytes32} : ∀ {w : Writes α} {known known' : Bytes32 → Prop}, w.Ordered z known → (∀ y, known y → known' y) →
    w.Ordered z known'
  | .done _, _, _, h, hk => fun h0 => hk z (h h0)
  | .write x q next, _, _, h, hk => ⟨fun ht => ⟨fun h0 => ((h.1 ht).1 h0).imp_right (hk _), fun h0 => ((h.1 ht).2 h0).imp_right (hk _)⟩,
      Writes.Ordered.mono h.2 fun y hy => hy.imp_left (hk y)⟩

/-- What is known of a computation on all storages tells the order of its writes. -/
theorem Writes.ordered_of (p : Profile) {z : Bytes32} : ∀ (w : Writes Node) (m : Bytes32 → Option Prim) (c : Nat) (root : Node),
    (∀ n, (∀ i, n = some i → c ≤ i) → Linked ((w.onStore >>= fun a => Sparse.setRootNode p a : Sparse.TreeM Unit Unit) ⟨root, failsAt m c n⟩).2.storage.map) →
    Held ((w.onStore >>= fun a => Sparse.setRootNode p a : Sparse.TreeM Unit Unit) ⟨root, failsAt m c none⟩).2.storage.map z →
    w.Ordered z fun y => m y ≠ none := by
  intro w
  induction w with
  | done r =>
    intro m c root _ h
    have hm : (((Writes.done r : Writes Node).onStore >>= fun a => Sparse.setRootNode p a : Sparse.TreeM Unit Unit) ⟨root, failsAt m c none⟩).2.storage.map = m := by
      rw [Writes.onStore, liftRes_bind]
      cases r with
      | error e => rfl
      | ok a =>
        simp only
        unfold Sparse.setRootNode
        rw [liftRes_bind]
        cases rdebugAssert p (a.isLeaf || decide (a.height = Node.maxHeight)) <;> rfl
    rw [hm] at h
    exact h
  | write x q next ih =>
    intro m c root hm hr
    have hok : ∀ n, n ≠ some c → (Sparse.onStorage (Store.insert x q) : Sparse.TreeM Unit _) ⟨root, failsAt m c n⟩ =
        (.ok (m x), ⟨root, failsAt (Store.upd m x (some q)) (c + 1) n⟩) := by
      intro n hn
      have : (failsAt m c n).sched (failsAt m c n).clock = none := by
        show (if some c = n then _ else none) = none
        rw [if_neg (fun e => hn e.symm)]
      unfold Sparse.onStorage
      rw [Store.insert_none _ _ this]
      rfl
    have hlink : Linked (Store.upd m x (some q)) := by
      have h := hm (some c) (fun i e => by cases e; exact Nat.le_refl _)
      have : (failsAt m c (some c)).sched (failsAt m c (some c)).clock = some ⟨(), true⟩ := by
        show (if some c = some c then _ else none) = _
        rw [if_pos rfl]
      have hi : (Sparse.onStorage (Store.insert x q) : Sparse.TreeM Unit _) ⟨root, failsAt m c (some c)⟩ =
          (.error (.err (.storageError ())), ⟨root, { failsAt m c (some c) with map := Store.upd m x (some q), clock := c + 1 }⟩) := by
        unfold Sparse.onStorage
        rw [Store.insert_fault _ _ this]
        rfl
      rw [Writes.onStore, Exec.bind_assoc, Exec.bind_error hi] at h
      exact h
    have hup : ∀ y, Store.upd m x (some q) y ≠ none → y = x ∨ m y ≠ none := by
      intro y hy
      by_cases e : y = x
      · exact .inl e
      · rw [Store.upd_of_ne _ _ e] at hy
        exact .inr hy
    refine ⟨fun ht => ?_, ?_⟩
    · obtain ⟨h, tag, l, r⟩ := q
      cases ht
      obtain ⟨h1, h2⟩ := hlink x h l r (by simp)
      exact ⟨fun h0 => hup _ (h1 h0), fun h0 => hup _ (h2 h0)⟩
    · have := ih (Store.upd m x (some q)) (c + 1) root (fun n hn => by
          have := hm n (fun i e => Nat.le_of_succ_le (hn i e))
          rw [Writes.onStore, Exec.bind_assoc, Exec.bind_ok (hok n (fun e => absurd (hn c e) (by omega)))] at this
          exact this) (by
          rw [Writes.onStore, Exec.bind_assoc, Exec.bind_ok (hok none (by simp))] at hr
          exact hr)
      refine this.mono fun y hy => (hup y hy).symm

/-- The hashes beside the path are roots within the tree. -/
theorem pairHashes_within (k : Bytes32) : ∀ (t : T) (d : Nat), WF d t → In H M t → ∀ x ∈ pairHashes H k d t,
    (∃ a e, WF e a ∧ In H M a ∧ x.1 = a.hash H ∧ ∀ y ∈ recKeys H a, y ∈ recKeys H t) ∧
      ∃ a e, WF e a ∧ In H M a ∧ x.2 = a.hash H ∧ ∀ y ∈ recKeys H a, y ∈ recKeys H t := by
  intro t
  induction t with
  | empty => intro d _ _ x hx; cases hx
  | leaf k' v' => intro d _ _ x hx; cases hx
  | node l r ihl ihr =>
    intro d w hin x hx
    have hl : ∃ a e, WF e a ∧ In H M a ∧ l.hash H = a.hash H ∧ ∀ y ∈ recKeys H a, y ∈ recKeys H (node l r) :=
      ⟨l, d + 1, w.2.1, hin.left, rfl, fun y hy => by simp [recKeys, hy]⟩
    have hr : ∃ a e, WF e a ∧ In H M a ∧ r.hash H = a.hash H ∧ ∀ y ∈ recKeys H a, y ∈ recKeys H (node l r) :=
      ⟨r, d + 1, w.2.2.1, hin.right, rfl, fun y hy => by simp [recKeys, hy]⟩
    rw [pairHashes] at hx
    split at hx
    · rcases List.mem_cons.1 hx with rfl | hx
      · exact ⟨hr, hl⟩
      · obtain ⟨⟨a, e, h1, h2, h3, h4⟩, b, f, g1, g2, g3, g4⟩ := ihr (d + 1) w.2.2.1 hin.right x hx
        exact ⟨⟨a, e, h1, h2, h3, fun y hy => by simp [recKeys, h4 y hy]⟩, b, f, g1, g2, g3, fun y hy => by simp [recKeys, g4 y hy]⟩
    · rcases List.mem_cons.1 hx with rfl | hx
      · exact ⟨hl, hr⟩
      · obtain ⟨⟨a, e, h1, h2, h3, h4⟩, b, f, g1, g2, g3, g4⟩ := ihl (d + 1) w.2.1 hin.left x hx
        exact ⟨⟨a, e, h1, h2, h3, fun y hy => by simp [recKeys, h4 y hy]⟩, b, f, g1, g2, g3, fun y hy => by simp [recKeys, g4 y hy]⟩

open Classical in
theorem updateW_ordered (p : Profile) (env : Env H M U) {k v : Bytes32} {t : T} (w : WF 0 t) (hin : In H M t) (hin' : In H M (ins k v 0 t)) {s : S}
    (hl : Full H M held s ((leaf k v).hash H)) (ht : HeldT H held s t) :
    (updateW p H (toNode H 0 (leaf k v)) (pathNodes H k 0 t) (sideNodes H k 0 t)).Ordered ((ins k v 0 t).hash H) (Full H M held s) := by
  let m : Bytes32 → Option Prim := fun y => if Full H M held s y then some (0, 0x00, zero32, zero32) else none
  have hm : ∀ y, m y ≠ none ↔ Full H M held s y := by
    intro y
    by_cases h : Full H M held s y <;> simp [m, h]
  have hlink : Linked m := by
    intro x h l r hx
    simp only [m] at hx
    split at hx
    · cases hx
    · cases hx
  have hheld : ∀ (a : T) (e : Nat), WF e a → In H M a → (∀ y ∈ recKeys H a, y ∈ recKeys H t) → Held m (a.hash H) := by
    intro a e wa ia hs h0
    exact (hm _).2 (HeldT.full env wa ia (fun y hy => ht y (hs y hy)) h0)
  have key : ∀ n : Option Nat, Wrote m (putAll (wayPuts H k 0 (ins k v 0 t)) (failsAt m 0 n)).2.map ∧
      ((putAll (wayPuts H k 0 (ins k v 0 t)) (failsAt m 0 n)).1 = none →
        Held (putAll (wayPuts H k 0 (ins k v 0 t)) (failsAt m 0 n)).2.map ((ins k v 0 t).hash H)) := by
    intro n
    refine wrote_ins env (failsAt m 0 n) hlink (fun _ => (hm _).2 hl) t 0 w (Ag.zero k t) (by omega) hin' (hheld t 0 w hin fun _ h => h) ?_
    intro x hx
    obtain ⟨⟨a, e, h1, h2, h3, h4⟩, b, f, g1, g2, g3, g4⟩ := pairHashes_within (H := H) k t 0 w hin x hx
    rw [h3, g3]
    exact ⟨hheld a e h1 h2 h4, hheld b f g1 g2 g4⟩
  have wi := (ins_spec (k := k) (v := v) w (Ag.zero k t) (by omega)).1
  have hrun : ∀ n : Option Nat, (((updateW p H (toNode H 0 (leaf k v)) (pathNodes H k 0 t) (sideNodes H k 0 t)).onStore >>= fun a => Sparse.setRootNode p a : Sparse.TreeM Unit Unit)
      ⟨Node.createPlaceholder, failsAt m 0 n⟩).2.storage = (putAll (wayPuts H k 0 (ins k v 0 t)) (failsAt m 0 n)).2 := by
    intro n
    rw [← updateW_store, updateWithPathSet_eq p env w hin']
    have hw := writeNodes_calls (H := H) (innerNodes H k 0 (ins k v 0 t)) (⟨Node.createPlaceholder, failsAt m 0 n⟩ : Sparse.Tree Unit)
    unfold wayPuts
    rcases hq : putAll ((innerNodes H k 0 (ins k v 0 t)).map fun n => (n.hash H, n.toPrim)) (failsAt m 0 n) with ⟨_ | e, s⟩
    · simp only [hq] at hw
      rw [Exec.bind_ok hw, Sparse.setRootNode_spec p env wi hin', hq]
    · simp only [hq] at hw
      rw [Exec.bind_error hw, hq]
  have hnone : (putAll (wayPuts H k 0 (ins k v 0 t)) (failsAt m 0 none)).1 = none :=
    (putAll_works _ (s := failsAt m 0 none) (fun i => by simp [failsAt])).1
  refine (Writes.ordered_of p _ m 0 Node.createPlaceholder (fun n _ => ?_) ?_).mono fun y hy => (hm y).1 hy
  · rw [hrun]; exact (key n).1.linked
  · rw [hrun]; exact (key none).2 hnone

/-- An update. -/
theorem update_sure (hN : NoInvention B seen) (hB : Steady B H M held halted proper) (p : Profile) (env : Env H M U) {k : Bytes32} {data : Bytes} (hdata : data.isEmpty = false) (hu : U k) {t : T}
    (w : WF 0 t) (hin : In H M t) (hin' : In H M (ins k (H data) 0 t)) (st : Tree S) (hroot : st.rootNode = toNode H 0 t)
    (hv : Pure H M U seen st.storage) (hp : proper st.storage) (ha : HeldT H held st.storage t) :
    ∃ r st', update B p H k data st = (r, st') ∧ proper st'.storage ∧ (∀ y, held st.storage y → held st'.storage y) ∧
      ((r = .ok () ∧ st'.rootNode = toNode H 0 (ins k (H data) 0 t) ∧ HeldT H held st'.storage (ins k (H data) 0 t)) ∨
        (∃ e, r = .error e) ∧ st'.rootNode = st.rootNode ∧ halted st'.storage) := by
  have is := ins_spec (k := k) (v := H data) w (Ag.zero k t) (by omega)
  have hl : In H M (leaf k (H data)) := hin'.leaf_of_mem ((is.2.1 (k, H data)).2 (.inl rfl))
  have hleaf : Node.createLeaf H k data = toNode H 0 (leaf k (H data)) := rfl
  have hprim : (toNode H 0 (leaf k (H data))).toPrim = leafPrim k (H data) := rfl
  have hg : Good H M ((leaf k (H data)).hash H) (toNode H 0 (leaf k (H data))).toPrim :=
    ⟨leaf k (H data), 0, trivial, hl, by simp, rfl, rfl⟩
  unfold update
  rw [hdata]
  simp only [Bool.false_eq_true, if_false]
  rw [hleaf, hash_toNode env (t := leaf k (H data)) (d := 0) trivial hl]
  obtain ⟨st1, f1, h1⟩ := insert_sure hN hB (.inl hg) (st := st) (by intro h; cases h) hv hp
  rcases h1 with ⟨v1, h1, b1⟩ | ⟨⟨e, h1⟩, hh⟩
  · have full1 : Full H M held st1.storage ((leaf k (H data)).hash H) :=
      ⟨b1 _ ⟨leaf k (H data), 0, trivial, hl, rfl, mem_recKeys (by simp)⟩, b1⟩
    rw [Exec.bind_ok h1, leafKey_leaf, Exec.liftRes_ok_bind, hprim]
    obtain ⟨st2, f2, h2⟩ := insert_sure hN hB (x := k) (.inr ⟨hu, H data, rfl⟩) (st := st1) (by intro h; cases h) f1.pure f1.proper
    rcases h2 with ⟨v2, h2, _⟩ | ⟨⟨e, h2⟩, hh⟩
    · rw [Exec.bind_ok h2, Exec.get_bind, f2.root, f1.root, hroot]
      by_cases ht : t = .empty
      · subst ht
        rw [if_pos ((isPlaceholder_toNode env w hin).2 rfl)]
        rw [setRootNode_spec p env (t := leaf k (H data)) trivial hl]
        refine ⟨_, _, rfl, f2.proper, (f1.trans f2).keep, .inl ⟨rfl, rfl, ?_⟩⟩
        intro y hy
        exact f2.keep y (b1 y ⟨leaf k (H data), 0, trivial, hl, rfl, hy⟩)
      · rw [if_neg (fun h => ht ((isPlaceholder_toNode env w hin).1 h))]
        obtain ⟨st3, f3, h3⟩ := pathSet_sure hN hB p env (HasKey.leaf H 0 k (H data)) st2 (by rw [f2.root, f1.root, hroot]) w hin f2.pure f2.proper ((f1.trans f2).tree ha)
        have f := (f1.trans f2).trans f3
        rcases h3 with h3 | ⟨⟨e, h3⟩, hh⟩
        · rw [Exec.bind_ok h3]
          simp only []
          rw [updateW_any]
          obtain ⟨st4, f4, h4⟩ := (updateW_ordered p env w hin hin' (f3.full (f2.full full1)) (f.tree ha)).onAny hN hB (updateW_leads p env w hin hin') st3 (fun _ h => h) f3.pure f3.proper
          rcases h4 with ⟨h4, hz⟩ | ⟨⟨e, h4⟩, hh⟩
          · rw [Exec.bind_ok h4, setRootNode_spec p env is.1 hin']
            refine ⟨_, _, rfl, f4.proper, (f.trans f4).keep, .inl ⟨rfl, rfl, ?_⟩⟩
            intro y hy
            have hne : ins k (H data) 0 t ≠ .empty := by rintro h; rw [h] at hy; cases hy
            exact (hz (hin'.hash_ne env hne)).2 y ⟨_, 0, is.1, hin', rfl, hy⟩
          · rw [Exec.bind_error h4]
            exact ⟨_, _, rfl, f4.proper, (f.trans f4).keep, .inr ⟨⟨_, rfl⟩, (f.trans f4).root.trans hroot, hh⟩⟩
        · rw [Exec.bind_error h3]
          exact ⟨_, _, rfl, f3.proper, f.keep, .inr ⟨⟨_, rfl⟩, f.root.trans hroot, hh⟩⟩
    · rw [Exec.bind_error h2]
      exact ⟨_, _, rfl, f2.proper, (f1.trans f2).keep, .inr ⟨⟨_, rfl⟩, (f1.trans f2).root, hh⟩⟩
  · rw [Exec.bind_error h1]
    exact ⟨_, _, rfl, f1.proper, f1.keep, .inr ⟨⟨_, rfl⟩, f1.root, hh⟩⟩

/-! ### Requests -/

/-- All records of the trees are held. -/
structure Safe (H : HashFn) (M : Bytes → Prop) (U : Bytes32 → Prop) (seen : S → Bytes32 → Prim → Prop) (held : S → Bytes32 → Prop) (proper : S → Prop)
    (c : Watch S) : Prop where
  watched : Watched H M U seen c
  proper : proper c.bench.storage
  all : ∀ i t, WF 0 t → In H M t → c.bench.node i = toNode H 0 t → HeldT H held c.bench.storage t

theorem toNode_inj (env : Env H M U) {t t' : T} (w : WF 0 t) (w' : WF 0 t') (hin : In H M t) (hin' : In H M t') (h : toNode H 0 t = toNode H 0 t') : t = t' := by
  refine hash_inj env hin hin' ?_
  rw [← hash_toNode env (e := 0) w hin, h, hash_toNode env w' hin']

theorem handle_sure (hN : NoInvention B seen) (hB : Steady B H M held halted proper) (p : Profile) (env : Env H M U) (r : Sparse.Request) {c : Watch S}
    (h : Safe H M U seen held proper c) (hu : ∀ i op, r = .call i op → U op.key) (hd : ∀ i op, r = .call i op → op.data ≠ none)
    (hf : ∀ kv ∈ c.aim B r, Fits H M kv) (hl : ∀ i kv, r = .load i kv → kv ≠ [] ∧ (keysOf kv).Nodup) {there : Entries Bytes → Prop}
    (hth : ∀ kv, there kv → ∀ y, Below H M (rootOf H kv) y → held c.bench.storage y) :
    Safe H M U seen held proper (c.handle B p H r).2 ∧ (∀ y, held c.bench.storage y → held (c.handle B p H r).2.bench.storage y) ∧
      (¬ halted (c.handle B p H r).2.bench.storage → r.Met there (c.handle B p H r).1) := by
  have hw := (handle_watched hN p env r h.watched hu hf hl).2
  suffices hh : proper (c.handle B p H r).2.bench.storage ∧
      (∀ i t, WF 0 t → In H M t → (c.handle B p H r).2.bench.node i = toNode H 0 t → HeldT H held (c.handle B p H r).2.bench.storage t) ∧
      (∀ y, held c.bench.storage y → held (c.handle B p H r).2.bench.storage y) ∧
      (¬ halted (c.handle B p H r).2.bench.storage → r.Met there (c.handle B p H r).1) from ⟨⟨hw, hh.1, hh.2.1⟩, hh.2.2⟩
  clear hw
  cases r with
  | new i =>
    simp only [Watch.handle, Sparse.Request.asked, Bench.handle]
    refine ⟨h.proper, fun j t w hin e => ?_, fun _ hy => hy, fun _ => trivial⟩
    split at e
    · rw [← toNode_inj env (t := .empty) trivial w In.empty hin e]
      intro y hy; cases hy
    · exact h.all j t w hin e
  | root i =>
    exact ⟨h.proper, h.all, fun _ hy => hy, fun _ => trivial⟩
  | load i kv =>
    obtain ⟨hne, hn⟩ := hl i kv rfl
    obtain ⟨t, w, he⟩ := exists_tree H kv hn
    have hin := he.inn w (hf kv (by simp [Watch.aim]))
    have h0 : t ≠ .empty := fun e => hne ((he.nil w).1 e)
    have hroot : rootOf H kv = t.hash H := (he.root w).symm
    have hfound := @hN.found (rootOf H kv) c.bench.storage
    have hp := hB.get_proper (x := rootOf H kv) h.proper
    have hk := fun y => @Steady.get_keep _ _ _ _ _ _ _ _ hB (rootOf H kv) c.bench.storage y
    have hres := hB.get_result (x := rootOf H kv) h.proper
    have hbel := fun q y => @Steady.get_found _ _ _ _ _ _ _ _ hB (rootOf H kv) c.bench.storage q y h.proper
    have hself : there kv → held c.bench.storage (rootOf H kv) := fun ht => hth kv ht _ ⟨t, 0, w, hin, hroot, by rw [hroot]; exact mem_recKeys h0⟩
    simp only [Watch.handle, Sparse.Request.asked, Bench.handle, Tree.load]
    rcases hg : B.get (rootOf H kv) c.bench.storage with ⟨e | _ | q, s⟩ <;> rw [hg] at hp hk hres hbel hfound
    · refine ⟨hp, fun j t w hin e y hy => hk y (h.all j t w hin e y hy), hk, fun hh => ?_⟩
      obtain ⟨r, h1, _⟩ := hres hh
      cases h1
    · refine ⟨hp, fun j t w hin e y hy => hk y (h.all j t w hin e y hy), hk, fun hh ht => ?_⟩
      obtain ⟨r, h1, h2⟩ := hres hh
      cases h1
      exact absurd rfl (h2 (hself ht))
    · have hq : q = (toNode H 0 t).toPrim := h.watched.pure.get env w hin h0 (by rw [he.root w]; exact hfound rfl)
      subst hq
      simp only [ofPrim_toPrim]
      refine ⟨hp, fun j t' w' hin' e => ?_, hk, fun _ _ => rfl⟩
      split at e
      · rw [← toNode_inj env w w' hin hin' e]
        intro y hy
        exact hbel _ y rfl (by rw [hroot]; exact ⟨t, 0, w, hin, rfl, hy⟩)
      · exact fun y hy => hk y (h.all j t' w' hin' e y hy)
  | call i op =>
    have hfit := hf _ (List.mem_singleton_self _)
    have hd' := hd i op rfl
    have hu' := hu i op rfl
    cases op with
    | delete k => exact absurd rfl hd'
    | update k d =>
      have hd0 : d ≠ [] := by rintro rfl; exact hd' rfl
      have hdata : (Op.update k d).data = some d := by simp [Op.data, hd0]
      have hemp : d.isEmpty = false := by cases d <;> simp_all
      obtain ⟨t, w, hin, he, hroot⟩ := h.watched.has i
      have hatt : (⟨.update k d, B.has k c.bench.storage, .ok ()⟩ : Event E).attempt (c.kv i) = Entries.put (c.kv i) k d := by
        unfold Event.attempt
        simp only [hdata]
        rfl
      have wi := (ins_spec (k := k) (v := H d) w (Ag.zero k t) (by omega)).1
      have ei := he.put w k d
      have ini := ei.inn wi (by rw [← hatt]; exact hfit)
      obtain ⟨r, st', h1, h2, h3, h4⟩ := update_sure hN hB p env hemp hu' w hin ini ⟨c.bench.node i, c.bench.storage⟩ hroot h.watched.pure h.proper (h.all i t w hin hroot)
      have hr : r = (update B p H k d ⟨c.bench.node i, c.bench.storage⟩).1 := (congrArg Prod.fst h1).symm
      have hst : st' = (update B p H k d ⟨c.bench.node i, c.bench.storage⟩).2 := (congrArg Prod.snd h1).symm
      clear h1
      subst hr hst
      simp only [Watch.handle, Sparse.Request.asked, Bench.handle, run]
      refine ⟨h2, fun j t' w' hin' e => ?_, h3, fun hh => ?_⟩
      · split at e
        · rename_i hij
          rcases h4 with ⟨_, h5, h6⟩ | ⟨_, h5, _⟩
          · rw [← toNode_inj env wi w' ini hin' (h5.symm.trans e)]
            exact h6
          · exact fun y hy => h3 y (h.all i t' w' hin' (h5.symm.trans e) y hy)
        · exact fun y hy => h3 y (h.all j t' w' hin' e y hy)
      · rcases h4 with ⟨h5, _⟩ | ⟨_, _, h5⟩
        · exact congrArg Answer.done h5
        · exact absurd h5 hh

/-! ### What a process sees of a storage that works -/

/-- After these answers it is sure that there is a record with this key. -/
def Known (H : HashFn) (M : Bytes → Prop) (first : Nat → Bytes32 → Prop) (l : List (Answered Bytes32 Prim E)) (y : Bytes32) : Prop :=
  (∃ n ≤ l.length, first n y) ∨ (∃ x v r, (MethodCall.insert x v, Except.ok r) ∈ l ∧ Below H M x y) ∨ ∃ x q, (MethodCall.get x, Except.ok (some q)) ∈ l ∧ Below H M x y

theorem Known.more {first : Nat → Bytes32 → Prop} {l l' : List (Answered Bytes32 Prim E)} {y : Bytes32} (h : Known H M first l y) : Known H M first (l ++ l') y := by
  rcases h with ⟨n, hn, h⟩ | ⟨x, v, r, h, hb⟩ | ⟨x, q, h, hb⟩
  · exact .inl ⟨n, by rw [List.length_append]; omega, h⟩
  · exact .inr (.inl ⟨x, v, r, List.mem_append_left _ h, hb⟩)
  · exact .inr (.inr ⟨x, q, List.mem_append_left _ h, hb⟩)

/-- Answers of a storage that keeps its records. -/
def Sane (H : HashFn) (M : Bytes → Prop) (first : Nat → Bytes32 → Prop) (l : List (Answered Bytes32 Prim E)) : Prop :=
  ∀ pre x a post, l = pre ++ (.get x, a) :: post → Known H M first pre x → a ≠ .ok none

/-- The process is at a place of its answers. -/
def At (H : HashFn) (M : Bytes → Prop) (A : List (Answered Bytes32 Prim E)) (first : Nat → Bytes32 → Prop) (t : Tape Bytes32 Prim E) (y : Bytes32) : Prop :=
  ∃ pre, A = pre ++ t.answered ∧ Known H M first pre y

/-- The call that the process waits for is a proper one. -/
structure Proper (H : HashFn) (M : Bytes → Prop) (A : List (Answered Bytes32 Prim E)) (first : Nat → Bytes32 → Prop) (t : Tape Bytes32 Prim E) : Prop where
  place : ∃ pre, A = pre ++ t.answered
  write : ∀ x v, t.waiting = some (.insert x v) → Supplied (Known H M first A) x v
  never : ∀ x, t.waiting ≠ some (.remove x)

section
variable {A : List (Answered Bytes32 Prim E)} {first : Nat → Bytes32 → Prop}

theorem ask_keep (cut : E) (c : MethodCall Bytes32 Prim) {t : Tape Bytes32 Prim E} {y : Bytes32} (h : At H M A first t y) : At H M A first (t.ask cut c).2 y := by
  rcases Tape.ask_cases cut c t with ⟨hw, e⟩ | ⟨hw, a, rest, ha, e⟩ | ⟨hw, e⟩ <;> rw [e]
  · exact h
  · obtain ⟨pre, h1, h2⟩ := h
    exact ⟨pre ++ [(c, a)], by rw [h1, ha]; simp, h2.more⟩
  · exact h

theorem Supplied.mono {P Q : Bytes32 → Prop} {x : Bytes32} {q : Prim} (h : Supplied P x q) (hp : ∀ y, P y → Q y) : Supplied Q x q :=
  fun ht => ⟨fun h0 => ((h ht).1 h0).imp_right (hp _), fun h0 => ((h ht).2 h0).imp_right (hp _)⟩

theorem ask_proper (cut : E) (c : MethodCall Bytes32 Prim) {t : Tape Bytes32 Prim E} (h : Proper H M A first t)
    (hw : ∀ x v, c = .insert x v → Supplied (At H M A first t) x v) (hr : ∀ x, c ≠ .remove x) : Proper H M A first (t.ask cut c).2 := by
  rcases Tape.ask_cases cut c t with ⟨_, e⟩ | ⟨hn, a, rest, ha, e⟩ | ⟨hn, e⟩ <;> rw [e]
  · exact h
  · obtain ⟨pre, hpre⟩ := h.place
    refine ⟨⟨pre ++ [(c, a)], by rw [hpre, ha]; simp⟩, fun x v hx => ?_, fun x hx => ?_⟩
    · rw [hn] at hx; cases hx
    · rw [hn] at hx; cases hx
  · refine ⟨h.place, fun x v hx => ?_, fun x hx => hr x (Option.some.inj hx)⟩
    refine (hw x v (Option.some.inj hx)).mono ?_
    rintro y ⟨pre, h1, h2⟩
    rw [h1]; exact h2.more

/-- The process is at a place after the answers `N`. -/
def ProperFrom (N : List (Answered Bytes32 Prim E)) (H : HashFn) (M : Bytes → Prop) (A : List (Answered Bytes32 Prim E)) (first : Nat → Bytes32 → Prop)
    (t : Tape Bytes32 Prim E) : Prop :=
  Proper H M A first t ∧ ∃ mid, A = N ++ (mid ++ t.answered)

theorem tape_steady (cut : E) (N : List (Answered Bytes32 Prim E)) (hA : Sane H M first A) :
    Steady (tape cut) H M (At H M A first) (Trouble A N) (ProperFrom N H M A first) where
  get_proper h := ⟨ask_proper cut _ h.1 (fun x v hx => by cases hx) (fun x hx => by cases hx), ask_after cut _ h.2⟩
  get_keep h := ask_keep cut _ h
  get_halted h := ask_trouble cut _ h
  get_result := by
    intro x t h ht
    simp only [tape] at ht ⊢
    rcases ask_result cut (.get x) h.2 (fun h => ht (ask_trouble cut _ h)) with ⟨r, rest, ha, e, h1⟩ | ⟨e, _, h1⟩
    · refine ⟨r, by rw [e], ?_⟩
      rintro ⟨pre, hpre, hk⟩ rfl
      exact hA pre x _ rest (by rw [hpre, ha]) hk rfl
    · exact absurd h1 ht
  get_found := by
    intro x t q y h hq hb
    simp only [tape] at hq ⊢
    rcases Tape.ask_cases cut (.get x) t with ⟨hw, e⟩ | ⟨hn, a, rest, ha, e⟩ | ⟨hn, e⟩ <;> rw [e] at hq ⊢
    · cases hq
    · obtain ⟨pre, hpre⟩ := h.1.place
      refine ⟨pre ++ [(.get x, a)], by rw [hpre, ha]; simp, .inr (.inr ⟨x, q, ?_, hb⟩)⟩
      simp only at hq
      rw [hq]
      simp
    · cases hq
  insert_proper h hy := ⟨ask_proper cut _ h.1 (fun x v hx => by cases hx; exact hy) (fun x hx => by cases hx), ask_after cut _ h.2⟩
  insert_keep h := ask_keep cut _ h
  insert_halted h := ask_trouble cut _ h
  insert_result := by
    intro x v t h ht
    simp only [tape] at ht ⊢
    rcases ask_result cut (.insert x v) h.2 (fun h => ht (ask_trouble cut _ h)) with ⟨r, rest, ha, e, h1⟩ | ⟨e, _, h1⟩
    · exact ⟨r, by rw [e]⟩
    · exact absurd h1 ht
  insert_found := by
    intro x v t r y h hq hb
    simp only [tape] at hq ⊢
    rcases Tape.ask_cases cut (.insert x v) t with ⟨hw, e⟩ | ⟨hn, a, rest, ha, e⟩ | ⟨hn, e⟩ <;> rw [e] at hq ⊢
    · cases hq
    · obtain ⟨pre, hpre⟩ := h.1.place
      refine ⟨pre ++ [(.insert x v, a)], by rw [hpre, ha]; simp, .inr (.inl ⟨x, v, r, ?_, hb⟩)⟩
      simp only at hq
      rw [hq]
      simp
    · cases hq

theorem waiting_requests (cut : E) (p : Profile) (there : Entries Bytes → Prop) : ∀ (rs : List Sparse.Request) (c : Watch (Tape Bytes32 Prim E)), c.bench.storage.waiting ≠ none →
    c.AllSucceed cut p H there rs ∧ c.FailsOnlyWithStorage cut p H there rs
  | [], _, _ => ⟨trivial, trivial⟩
  | r :: rs, c, h => by
    have e := waits (H := H) cut p [r] c h
    simp only [Watch.handleAll] at e
    have h' : (c.handle (tape cut) p H r).2.bench.storage.waiting ≠ none := by rw [e]; exact h
    obtain ⟨h1, h2⟩ := waiting_requests cut p there rs _ h'
    exact ⟨⟨fun hw => absurd hw h', h1⟩, ⟨fun hw => absurd hw h', h2⟩⟩

/-- All requests of a process. -/
theorem allSucceed (cut : E) (env : Env H M U) (hA : Sane H M first A) (p : Profile) {there : Entries Bytes → Prop} :
    ∀ (rs : List Sparse.Request) (c : Watch (Tape Bytes32 Prim E)), (∀ kv, there kv → ∀ y, Below H M (rootOf H kv) y → At H M A first c.bench.storage y) → (∀ op ∈ callsOf rs, U op.key ∧ op.data ≠ none) → (∀ kv ∈ c.aims (tape cut) p H rs, Fits H M kv) →
      LoadsOk H rs → Safe H M U Tape.shows (At H M A first) (Proper H M A first) c → c.bench.storage.waiting = none →
      c.FailsOnlyWithStorage cut p H there rs ∧ ((∀ c e, (c, Except.error e) ∉ A) → c.AllSucceed cut p H there rs) ∧
        Proper H M A first (c.handleAll (tape cut) p H rs).2.bench.storage ∧
        ((c.handleAll (tape cut) p H rs).2.bench.storage.waiting = none →
          Safe H M U Tape.shows (At H M A first) (Proper H M A first) (c.handleAll (tape cut) p H rs).2)
  | [], _, _, _, _, _, hc, _ => ⟨trivial, fun _ => trivial, hc.proper, fun _ => hc⟩
  | r :: rs, c, hth, hu, hf, hl, hc, hs => by
    obtain ⟨N, hN⟩ := hc.proper.place
    obtain ⟨h1, h2, h3⟩ := handle_sure (tape_noInvention cut) (tape_steady cut N hA) p env r (c := c) ⟨hc.watched, ⟨hc.proper, [], hN⟩, hc.all⟩
      (fun i op e => (hu op (callsOf_mem (i := i) (by simp [e]))).1) (fun i op e => (hu op (callsOf_mem (i := i) (by simp [e]))).2)
      (fun kv hkv => hf kv (by simp [Watch.aims, hkv])) (fun i kv e => ⟨(hl i kv (by simp [e])).1, (hl i kv (by simp [e])).2.1⟩)
      (there := there) hth
    have h1' : Safe H M U Tape.shows (At H M A first) (Proper H M A first) (c.handle (tape cut) p H r).2 := ⟨h1.watched, h1.proper.1, h1.all⟩
    have h3' : (c.handle (tape cut) p H r).2.bench.storage.waiting = none →
        Tape.Unharmed c.bench.storage (c.handle (tape cut) p H r).2.bench.storage → r.Met there (c.handle (tape cut) p H r).1 := by
      intro hw' hun
      refine h3 ?_
      rintro (h4 | ⟨mid, h4, x, e, h5⟩)
      · exact h4 hw'
      · rw [hN] at h4
        exact hun mid (List.append_cancel_left h4) x e h5
    have hun : (∀ c e, (c, Except.error e) ∉ A) → Tape.Unharmed c.bench.storage (c.handle (tape cut) p H r).2.bench.storage := by
      intro hno used hus x e hx
      apply hno x e
      rw [hN, hus]
      simp [hx]
    by_cases hw' : (c.handle (tape cut) p H r).2.bench.storage.waiting = none
    · obtain ⟨h4, h5, h6⟩ := allSucceed cut env hA p rs (c.handle (tape cut) p H r).2 (fun kv ht y hb => h2 y (hth kv ht y hb)) (fun op ho => hu op (by
          obtain ⟨x, hx, e⟩ := List.mem_filterMap.1 ho
          exact List.mem_filterMap.2 ⟨x, by simp [hx], e⟩))
        (fun kv hkv => hf kv (by simp [Watch.aims, hkv])) (fun i kv e => hl i kv (by simp [e])) h1' hw'
      exact ⟨⟨h3', h4⟩, fun hno => ⟨fun hw' => h3' hw' (hun hno), h5 hno⟩, h6⟩
    · obtain ⟨h4, h5⟩ := waiting_requests (H := H) cut p there rs _ hw'
      have e : (c.handleAll (tape cut) p H (r :: rs)).2.bench.storage = (c.handle (tape cut) p H r).2.bench.storage := waits cut p rs _ hw'
      refine ⟨⟨h3', h5⟩, fun hno => ⟨fun hw' => h3' hw' (hun hno), h4⟩, ?_, fun h => ?_⟩
      · rw [e]; exact h1'.proper
      · rw [e] at h; exact absurd h hw'

end

/-! ### All processes -/

/-- Nothing that a process relies on is lost. -/
structure Alive (H : HashFn) (M : Bytes → Prop) (first : Nat → Nat → Bytes32 → Prop) (ok : S → Prop) (view : S → Bytes32 → Option Prim)
    (o : Office S Bytes32 Prim E) : Prop where
  fit : ok o.storage
  linked : Linked (view o.storage)
  known : ∀ i y, Known H M (first i) (o.answered i) y → view o.storage y ≠ none
  sane : ∀ i, Sane H M (first i) (o.answered i)
  come : ∀ i n y, first i n y → n ≤ (o.answered i).length

theorem Sane.snoc {first : Nat → Bytes32 → Prop} {l : List (Answered Bytes32 Prim E)} (h : Sane H M first l) {c : MethodCall Bytes32 Prim} {a : Except E (Option Prim)}
    (h2 : ∀ x, c = .get x → Known H M first l x → a ≠ .ok none) : Sane H M first (l ++ [(c, a)]) := by
  intro pre x a' post e
  rcases List.eq_nil_or_concat post with rfl | ⟨post', z, rfl⟩
  · obtain ⟨rfl, e2⟩ := List.append_inj' e rfl
    cases e2
    exact h2 x rfl
  · have e : l ++ [(c, a)] = (pre ++ (.get x, a') :: post') ++ [z] := by rw [e]; simp
    obtain ⟨e1, _⟩ := List.append_inj' e rfl
    exact h pre x a' post' e1

theorem Known.snoc {first : Nat → Bytes32 → Prop} {l : List (Answered Bytes32 Prim E)} {c : MethodCall Bytes32 Prim} {a : Except E (Option Prim)} {y : Bytes32}
    (h : Known H M first (l ++ [(c, a)]) y) (hc : ∀ n, first n y → n ≤ l.length) :
    Known H M first l y ∨ (∃ x v r, c = .insert x v ∧ a = .ok r ∧ Below H M x y) ∨ ∃ x q, c = .get x ∧ a = .ok (some q) ∧ Below H M x y := by
  rcases h with ⟨n, _, h⟩ | ⟨x, v, r, h, hb⟩ | ⟨x, q, h, hb⟩
  · exact .inl (.inl ⟨n, hc n h, h⟩)
  · rcases List.mem_append.1 h with h | h
    · exact .inl (.inr (.inl ⟨x, v, r, h, hb⟩))
    · simp only [List.mem_singleton, Prod.mk.injEq] at h
      exact .inr (.inl ⟨x, v, r, h.1.symm, h.2.symm, hb⟩)
  · rcases List.mem_append.1 h with h | h
    · exact .inl (.inr (.inr ⟨x, q, h, hb⟩))
    · simp only [List.mem_singleton, Prod.mk.injEq] at h
      exact .inr (.inr ⟨x, q, h.1.symm, h.2.symm, hb⟩)

theorem Alive.turn {ok : S → Prop} {view : S → Bytes32 → Option Prim} (hB : MapLike B ok view) (env : Env H M U) {first : Nat → Nat → Bytes32 → Prop}
    {process : Nat → Tape Bytes32 Prim E → Tape Bytes32 Prim E} (i : Nat) {o : Office S Bytes32 Prim E} (h : Alive H M first ok view o)
    (hp : Proper H M (o.answered i) (first i) (process i ⟨o.answered i, none⟩)) (hv : Valid H M U (view o.storage))
    (hv' : Valid H M U (view (o.turn B process i).storage)) : Alive H M first ok view (o.turn B process i) := by
  unfold Office.turn at hv' ⊢
  cases hc : nextCall (process i) (o.answered i) with
  | none => exact h
  | some c =>
    rw [hc] at hv'
    simp only at hv' ⊢
    have hcome : ∀ (c : MethodCall Bytes32 Prim) (a : Except E (Option Prim)) (j n : Nat) (y : Bytes32), first j n y →
        n ≤ (if j = i then o.answered i ++ [(c, a)] else o.answered j).length := by
      intro c a j n y hy
      have := h.come j n y hy
      split
      · rename_i hij
        subst hij
        rw [List.length_append]; omega
      · exact this
    cases c with
    | remove x => exact absurd hc (hp.never x)
    | get x =>
      simp only [Backend.perform]
      rcases hx : B.get x o.storage with ⟨e | r, s⟩
      · obtain ⟨k1, k3⟩ := hB.get_error h.fit hx
        refine ⟨k1, by simp only [k3]; exact h.linked, fun j y hy => ?_, fun j => ?_, hcome _ _⟩
        · simp only [k3] at hy ⊢
          split at hy
          · rename_i hij
            subst hij
            rcases hy.snoc (fun n => h.come j n y) with hy | ⟨z, v, r, h1, _⟩ | ⟨z, q, _, h1, _⟩
            · exact h.known j y hy
            · cases h1
            · cases h1
          · exact h.known j y hy
        · simp only
          split
          · rename_i hij
            subst hij
            exact (h.sane j).snoc fun z _ _ h1 => by cases h1
          · exact h.sane j
      · obtain ⟨k1, k2, k3⟩ := hB.get_ok h.fit hx
        refine ⟨k1, by simp only [k3]; exact h.linked, fun j y hy => ?_, fun j => ?_, hcome _ _⟩
        · simp only [k3] at hy ⊢
          split at hy
          · rename_i hij
            subst hij
            rcases hy.snoc (fun n => h.come j n y) with hy | ⟨z, v, r, h1, _⟩ | ⟨z, q, h1, h2, hb⟩
            · exact h.known j y hy
            · cases h1
            · cases h1
              refine below_there env h.linked hv (x := x) ?_ hb
              rw [← k2, Except.ok.inj h2]
              simp
          · exact h.known j y hy
        · simp only
          split
          · rename_i hij
            subst hij
            refine (h.sane j).snoc fun z hz hk hr => ?_
            cases hz
            have := h.known j x hk
            rw [← k2] at this
            exact this (Except.ok.inj hr)
          · exact h.sane j
    | insert x v =>
      simp only [Backend.perform] at hv' ⊢
      rcases hx : B.insert x v o.storage with ⟨a, s⟩
      rw [hx] at hv'
      simp only at hv'
      have hs : ok s ∧ ((∃ e, a = .error e) ∧ view s = view o.storage ∨ ∀ y, view s y = if y = x then some v else view o.storage y) := by
        cases a with
        | error e =>
          obtain ⟨k1, k2⟩ := hB.insert_error h.fit hx
          exact ⟨k1, k2.imp_left fun k2 => ⟨⟨e, rfl⟩, k2⟩⟩
        | ok r =>
          obtain ⟨k1, k2⟩ := hB.insert_ok h.fit hx
          exact ⟨k1, .inr k2⟩
      obtain ⟨k1, k2⟩ := hs
      have hsane : ∀ j, Sane H M (first j) (if j = i then o.answered i ++ [(MethodCall.insert x v, a)] else o.answered j) := by
        intro j
        split
        · rename_i hij
          subst hij
          exact (h.sane j).snoc fun z hz => by cases hz
        · exact h.sane j
      rcases k2 with ⟨⟨e, rfl⟩, k2⟩ | k2
      · refine ⟨k1, by simp only [k2]; exact h.linked, fun j y hy => ?_, hsane, hcome _ _⟩
        simp only [k2] at hy ⊢
        split at hy
        · rename_i hij
          subst hij
          rcases hy.snoc (fun n => h.come j n y) with hy | ⟨z, v, r, _, h1, _⟩ | ⟨z, q, h1, _⟩
          · exact h.known j y hy
          · cases h1
          · cases h1
        · exact h.known j y hy
      · have hmono : ∀ y, view o.storage y ≠ none → view s y ≠ none := by
          intro y hy
          rw [k2]
          split
          · simp
          · exact hy
        have hself : view s x ≠ none := by rw [k2, if_pos rfl]; simp
        have hlink : Linked (view s) := by
          intro z hh l r hz
          rw [k2] at hz
          split at hz
          · rename_i hzx
            cases hz
            obtain ⟨h1, h2⟩ := hp.write x _ hc rfl
            have key : ∀ c, (c = x ∨ Known H M (first i) (o.answered i) c) → view s c ≠ none := by
              rintro c (rfl | hk)
              · exact hself
              · exact hmono c (h.known i c hk)
            exact ⟨fun h0 => key _ (h1 h0), fun h0 => key _ (h2 h0)⟩
          · obtain ⟨h1, h2⟩ := h.linked z hh l r hz
            exact ⟨fun h0 => hmono _ (h1 h0), fun h0 => hmono _ (h2 h0)⟩
        refine ⟨k1, hlink, fun j y hy => ?_, hsane, hcome _ _⟩
        simp only at hy ⊢
        split at hy
        · rename_i hij
          subst hij
          rcases hy.snoc (fun n => h.come j n y) with hy | ⟨z, v', r', h1, _, hb⟩ | ⟨z, q, h1, _⟩
          · exact hmono y (h.known j y hy)
          · cases h1
            exact below_there env hlink hv' hself hb
          · cases h1
        · exact hmono y (h.known j y hy)

/-- From now on a process may rely on what is there now. -/
theorem Alive.begin {ok : S → Prop} {view : S → Bytes32 → Option Prim} {o : Office S Bytes32 Prim E} {first : Nat → Nat → Bytes32 → Prop} (i : Nat)
    {more : Bytes32 → Prop} (h : Alive H M first ok view o) (hm : ∀ y, more y → view o.storage y ≠ none) :
    Alive H M (fun j n y => first j n y ∨ (j = i ∧ n = (o.answered i).length ∧ more y)) ok view o := by
  refine ⟨h.fit, h.linked, fun j y hy => ?_, fun j pre x a post e hk => ?_, fun j n y hy => ?_⟩
  · rcases hy with ⟨n, hn, hy | ⟨_, _, hy⟩⟩ | hy
    · exact h.known j y (.inl ⟨n, hn, hy⟩)
    · exact hm y hy
    · exact h.known j y (.inr hy)
  · rcases hk with ⟨n, hn, hy | ⟨rfl, rfl, _⟩⟩ | hy
    · exact h.sane j pre x a post e (.inl ⟨n, hn, hy⟩)
    · rw [e, List.length_append, List.length_cons] at hn; omega
    · exact h.sane j pre x a post e (.inr hy)
  · rcases hy with hy | ⟨rfl, rfl, _⟩
    · exact h.come j n y hy
    · exact Nat.le_refl _

end Sparse.Any
end FuelMerkle
