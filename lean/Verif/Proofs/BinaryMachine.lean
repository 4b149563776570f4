import Verif.Proofs.BinaryRun
import Verif.Proofs.Reference
import Verif.Proofs.Stretches
import Verif.Spec.BinaryMachine

/-
The binary tree is the machine of `Spec/BinaryMachine.lean`.
-/
namespace FuelMerkle
namespace Binary
open Spec
variable {E : Type}

/-- The node of the tree over these leaves, the first of which is leaf `i`. -/
def treeNode (H : HashFn) (i : Nat) (a : List Bytes) : Node := { position := ⟨keyOf i a.length⟩, hash := mth H a }

theorem treeNode_pos (H : HashFn) (i : Nat) (a : List Bytes) :
    (treeNode H i a).position = posOf (ceilLog2 a.length) (i / 2 ^ ceilLog2 a.length) := rfl

theorem anc_bound {i g : Nat} (hb : i + 2 ^ g ≤ 2 ^ 63) : ioIndex g (i / 2 ^ g) < 2 ^ 64 := by
  refine (pos_bound (h := g) (k := i / 2 ^ g) ?_).2
  have h1 : i / 2 ^ g * 2 ^ g ≤ i := Nat.div_mul_le_self _ _
  rw [Nat.add_mul, Nat.one_mul]; omega

theorem treeNode_height (H : HashFn) {i g : Nat} {a : List Bytes} (ha : a.length = 2 ^ g) (hb : i + a.length ≤ 2 ^ 63) :
    (treeNode H i a).position.height = g := by
  rw [treeNode_pos, ha, ceilLog2_two_pow]
  exact height_posOf (anc_bound (by omega))

theorem joinNodes_exact (p : Profile) (H : HashFn) {i j g : Nat} {a b : List Bytes} (ha : a.length = 2 ^ g) (hb : 0 < b.length) (hb' : b.length ≤ 2 ^ g)
    (hn : i + (a ++ b).length ≤ p.leafLimit) :
    joinNodes p H (treeNode H i a) (treeNode H j b) = .ok (treeNode H i (a ++ b)) := by
  rw [List.length_append] at hn
  have hlim := p.leafLimit_le
  have hg : g < p.topHeight := by
    have : 2 ^ g < p.leafLimit := by omega
    rw [p.leafLimit_eq] at this
    exact (Nat.pow_lt_pow_iff_right (a := 2) (by omega)).1 this
  have hc : ceilLog2 (a ++ b).length = g + 1 := ceilLog2_eq (by rw [List.length_append]; omega) (by rw [List.length_append, Nat.pow_succ]; omega)
  unfold joinNodes Node.createNode
  rw [treeNode_pos, ha, ceilLog2_two_pow, (parent_top p (anc_bound (by omega)) hg).1, Nat.div_div_eq_div_mul, ← Nat.pow_succ]
  simp only [Res.ok_bind, Res.pure_eq]
  congr 1
  unfold treeNode
  simp only
  rw [Reference.mth_append H ⟨hb, g, ha, hb'⟩]
  congr 1
  unfold posOf keyOf ioIndex
  rw [hc]

/-- The list of subtrees, the first of which begins with leaf `o`. -/
def nodes (H : HashFn) (o : Nat) : List (List Bytes) → List Node
  | [] => []
  | a :: l => treeNode H (o + (inOrder l).length) a :: nodes H o l

/-- The keys and hashes of the subtrees joined from the right. -/
def made (H : HashFn) (o : Nat) : List Bytes → List (List Bytes) → List (Nat × Bytes32)
  | _, [] => []
  | b, a :: l => (keyOf (o + (inOrder l).length) (a ++ b).length, mth H (a ++ b)) :: made H o (a ++ b) l

/-- The same, as long as they are equally long. -/
def completed (H : HashFn) (o : Nat) : List Bytes → List (List Bytes) → List (Nat × Bytes32)
  | _, [] => []
  | b, a :: l =>
    if a.length = b.length then (keyOf (o + (inOrder l).length) (a ++ b).length, mth H (a ++ b)) :: completed H o (a ++ b) l else []

theorem treeOf_right (H : HashFn) (o : Nat) (a b : List Bytes) :
    treeOf H (o + (a ++ b).length) (a ++ b) b.length = (keyOf (o + a.length) b.length, mth H b) := by
  unfold treeOf
  rw [lastOf_right, List.length_append, ← Nat.add_assoc, Nat.add_sub_cancel]

theorem made_eq (H : HashFn) (o : Nat) : ∀ (l : List (List Bytes)) (b : List Bytes),
    made H o b l = (joinLens b.length (l.map List.length)).map (treeOf H (o + (inOrder l ++ b).length) (inOrder l ++ b)) := by
  intro l
  induction l with
  | nil => intro b; rfl
  | cons a l ih =>
    intro b
    rw [made, ih, List.map_cons, joinLens, List.map_cons, inOrder_cons, List.append_assoc, ← List.length_append, treeOf_right]

theorem completed_eq (H : HashFn) (o : Nat) : ∀ (l : List (List Bytes)) (b : List Bytes),
    completed H o b l = (blockLens b.length (l.map List.length)).map (treeOf H (o + (inOrder l ++ b).length) (inOrder l ++ b)) := by
  intro l
  induction l with
  | nil => intro b; rfl
  | cons a l ih =>
    intro b
    rw [completed, List.map_cons, blockLens]
    split
    · rw [ih, List.map_cons, inOrder_cons, List.append_assoc, ← List.length_append, treeOf_right]
    · rfl

/-! ### Scratch storage -/

/-- Put these records into the scratch storage. -/
def updAll (S : Scratch) (recs : List (Nat × Bytes32)) : Scratch := recs.foldl (fun S x => Store.upd S x.1 (some x)) S

theorem updAll_apply : ∀ (recs : List (Nat × Bytes32)) (S : Scratch) (k : Nat),
    updAll S recs k = match recs.reverse.lookup k with | some h => some (k, h) | none => S k := by
  intro recs
  induction recs with
  | nil => intro S k; rfl
  | cons x recs ih =>
    intro S k
    show updAll (Store.upd S x.1 (some x)) recs k = _
    rw [ih, List.reverse_cons, List.lookup_append]
    cases hq : recs.reverse.lookup k with
    | some h => rfl
    | none =>
      obtain ⟨k', h⟩ := x
      by_cases hk : k = k'
      · subst hk; simp [Store.upd]
      · have : (k == k') = false := by simpa using hk
        simp [Store.upd, hk, List.lookup, this]

theorem buildRoot_exact (p : Profile) (H : HashFn) (o : Nat) : ∀ (l : List (List Bytes)) (b : List Bytes) (k : Nat) (S : Scratch),
    0 < b.length → b.length ≤ 2 ^ k → Lens k (l.map List.length) → o + (inOrder l ++ b).length ≤ p.leafLimit →
    buildRootNode p H (treeNode H (o + (inOrder l).length) b) (nodes H o l) S = .ok (treeNode H o (inOrder l ++ b), updAll S (made H o b l)) := by
  intro l
  induction l with
  | nil => intro b k S _ _ _ _; rfl
  | cons a l ih =>
    intro b k S hb hk hl hn
    obtain ⟨g, h1, h2, h3⟩ := hl
    rw [inOrder_cons, List.append_assoc] at hn ⊢
    have hle : 2 ^ k ≤ 2 ^ g := Nat.pow_le_pow_right (by omega) h1
    have hlen := List.length_append (as := inOrder l) (bs := a ++ b)
    rw [nodes, buildRootNode, joinNodes_exact p H h2 hb (by omega) (by omega), Res.ok_bind,
      ih (a ++ b) (g + 1) _ (by rw [List.length_append]; omega) (by rw [List.length_append, Nat.pow_succ]; omega) h3 hn]
    rfl

/-- The tree works with these leaves, and has counted `n`. -/
def Holds (H : HashFn) (head : List Node) (n : Nat) (ds : List Bytes) : Prop :=
  ∃ (l : List (List Bytes)) (o : Nat), head = nodes H o l ∧ ds = inOrder l ∧ n = o + ds.length ∧ Lens 0 (l.map List.length)

theorem rootNode_exact (p : Profile) (H : HashFn) {head : List Node} {n : Nat} {ds : List Bytes} (h : Holds H head n ds) (hn : n ≤ p.leafLimit) :
    rootNode p H head (fun _ => none) = .ok (if ds = [] then none else some (treeNode H (n - ds.length) ds),
      updAll (fun _ => none) ((rootSizes ds.length).map (treeOf H n ds))) := by
  obtain ⟨l, o, rfl, rfl, rfl, h3⟩ := h
  have hlim := p.leafLimit_le
  rw [inOrder_length] at hn
  have hr := rootSizes_eq h3 (by omega)
  cases l with
  | nil => rfl
  | cons a l =>
    obtain ⟨g, h4, h5, h6⟩ := h3
    have hpos := Nat.two_pow_pos g
    have hne : inOrder (a :: l) ≠ [] := fun e => by
      have := congrArg List.length e
      rw [inOrder_cons, List.length_append, List.length_nil] at this; omega
    rw [← inOrder_length] at hn hr
    rw [if_neg hne, hr, Nat.add_sub_cancel]
    simp only [List.map_cons]
    rw [inOrder_cons] at hn ⊢
    rw [nodes, rootNode, buildRoot_exact p H o l a (g + 1) _ (by omega) (by rw [h5, Nat.pow_succ]; omega) h6 hn, made_eq]
    rfl

/-! ### Writes -/

theorem onStorage_insertNode (x : Node) (t : Tree E) :
    (match writeTrees [(x.key, x.hash)] t.storage with
    | (.ok (), s) => ∃ v, onStorage (Store.insert x.key x.toPrim) t = (.ok v, { t with storage := s })
    | (.error e, s) => onStorage (Store.insert x.key x.toPrim) t = (.error e, { t with storage := s })) := by
  simp only [writeTrees]
  cases hs : t.storage.sched t.storage.clock with
  | none => exact ⟨_, onStorage_ok (Store.insert_none x.key x.toPrim hs)⟩
  | some f =>
    simp only
    rw [onStorage_error (Store.insert_fault x.key x.toPrim hs)]
    obtain ⟨e, ap⟩ := f
    cases ap <;> rfl

theorem writeTrees_cons (x : Nat × Bytes32) (rest : List (Nat × Bytes32)) (s : BStore E) :
    writeTrees (x :: rest) s = match writeTrees [x] s with
      | (.ok (), s') => writeTrees rest s'
      | (.error e, s') => (.error e, s') := by
  simp only [writeTrees]
  cases s.sched s.clock <;> rfl

theorem joinAll_exact (p : Profile) (H : HashFn) (o : Nat) : ∀ (l : List (List Bytes)) (b : List Bytes) (k : Nat) (t : Tree E),
    t.head = treeNode H (o + (inOrder l).length) b :: nodes H o l → b.length = 2 ^ k → Lens k (l.map List.length) →
    o + (inOrder l ++ b).length ≤ p.leafLimit →
    (match writeTrees (completed H o b l) t.storage with
    | (.ok (), s) => joinAllLoop p H (treeNode H (o + (inOrder l).length) b) (nodes H o l) t = (.ok (), ⟨s, nodes H o (merged b l), t.leavesCount⟩) ∧
        Lens k ((merged b l).map List.length)
    | (.error e, s) => joinAllLoop p H (treeNode H (o + (inOrder l).length) b) (nodes H o l) t = (.error e, ⟨s, [], t.leavesCount⟩)) := by
  intro l
  induction l with
  | nil =>
    intro b k t ht hb _ _
    obtain ⟨s, hd, n⟩ := t
    simp only at ht
    subst ht
    exact ⟨rfl, k, Nat.le_refl _, hb, trivial⟩
  | cons a l ih =>
    intro b k t ht hb hl hn
    have hlim := p.leafLimit_le
    obtain ⟨g, h1, h2, h3⟩ := hl
    have hpos := Nat.two_pow_pos k
    rw [inOrder_cons, List.append_assoc] at hn
    have hlen := List.length_append (as := inOrder l) (bs := a ++ b)
    have hlen2 := List.length_append (as := a) (bs := b)
    have hha := treeNode_height H (i := o + (inOrder l).length) h2 (by omega)
    have hhb := treeNode_height H (i := o + (inOrder (a :: l)).length) hb (by rw [inOrder_cons, List.length_append]; omega)
    by_cases hg : a.length = b.length
    · have hgk : g = k := Nat.pow_right_injective (Nat.le_refl 2) (show 2 ^ g = 2 ^ k by rw [← h2, ← hb, hg])
      subst hgk
      have hj := joinNodes_exact p H (i := o + (inOrder l).length) (j := o + (inOrder (a :: l)).length) h2 (by omega) (by omega : b.length ≤ 2 ^ g) (by omega)
      have hunf : joinAllLoop p H (treeNode H (o + (inOrder (a :: l)).length) b) (nodes H o (a :: l)) t =
          (onStorage (Store.insert (treeNode H (o + (inOrder l).length) (a ++ b)).key (treeNode H (o + (inOrder l).length) (a ++ b)).toPrim) >>= fun _ => do
            Exec.modify fun t => { t with head := treeNode H (o + (inOrder l).length) (a ++ b) :: nodes H o l }
            joinAllLoop p H (treeNode H (o + (inOrder l).length) (a ++ b)) (nodes H o l)) { t with head := [] } := by
        rw [nodes, joinAllLoop, if_pos (by rw [hha, hhb]), Exec.modify_bind, hj, Exec.liftRes_ok_bind]
      rw [hunf, completed, if_pos hg, merged, if_pos hg, writeTrees_cons]
      have hins := onStorage_insertNode (treeNode H (o + (inOrder l).length) (a ++ b)) { t with head := [] }
      simp only at hins
      have hrec : ((treeNode H (o + (inOrder l).length) (a ++ b)).key, (treeNode H (o + (inOrder l).length) (a ++ b)).hash) =
          (keyOf (o + (inOrder l).length) (a ++ b).length, mth H (a ++ b)) := rfl
      rw [hrec] at hins
      cases hw : writeTrees [(keyOf (o + (inOrder l).length) (a ++ b).length, mth H (a ++ b))] t.storage with
      | mk r s =>
        rw [hw] at hins
        cases r with
        | error e =>
          simp only at hins ⊢
          rw [Exec.bind_error hins]
        | ok u =>
          obtain ⟨v, hins⟩ := hins
          simp only
          rw [Exec.bind_ok hins, Exec.modify_bind]
          have := ih (a ++ b) (g + 1) ⟨s, treeNode H (o + (inOrder l).length) (a ++ b) :: nodes H o l, t.leavesCount⟩ rfl
            (by rw [List.length_append, h2, hb, Nat.pow_succ]; omega) h3 hn
          simp only at this
          cases hw2 : writeTrees (completed H o (a ++ b) l) s with
          | mk r2 s2 =>
            rw [hw2] at this
            cases r2 with
            | error e => exact this
            | ok u2 => exact ⟨this.1, this.2.mono (by omega)⟩
    · have hgk : g ≠ k := fun e => hg (by rw [h2, hb, e])
      rw [completed, if_neg hg, merged, if_neg hg]
      obtain ⟨s, hd, n⟩ := t
      simp only at ht
      subst ht
      refine ⟨?_, k, Nat.le_refl _, hb, g, by omega, h2, h3⟩
      rw [nodes, joinAllLoop, if_neg (by rw [hha, hhb]; exact fun e => hgk e.symm)]
      rfl

/-! ### Calls -/

theorem push_exact (p : Profile) (H : HashFn) (d : Bytes) (t : Tree E) {ds : List Bytes} (h : Holds H t.head t.leavesCount ds)
    (hn : t.leavesCount < p.leafLimit) :
    (.push (push p H d t).1, (push p H d t).2.storage, (push p H d t).2.leavesCount) =
      (((⟨t.leavesCount, ds, t.storage⟩ : Machine E).step H (.push d)).1, ((⟨t.leavesCount, ds, t.storage⟩ : Machine E).step H (.push d)).2.storage,
        ((⟨t.leavesCount, ds, t.storage⟩ : Machine E).step H (.push d)).2.count) ∧
    Holds H (push p H d t).2.head (push p H d t).2.leavesCount ((⟨t.leavesCount, ds, t.storage⟩ : Machine E).step H (.push d)).2.leaves := by
  have h' := h
  have hlim := p.leafLimit_le
  obtain ⟨l, o, h1, rfl, h2, h3⟩ := h
  have hleaf : Node.createLeaf p H t.leavesCount d = .ok (treeNode H t.leavesCount [d]) := by
    unfold Node.createLeaf
    rw [fromLeafIndex_ok p (by omega)]
    simp only [Res.ok_bind, Res.pure_eq]
    unfold treeNode
    rw [mth_single]
    congr 2
    simp [posOf, keyOf, ioIndex, ceilLog2]
  have hunf : push p H d t = (onStorage (Store.insert (treeNode H t.leavesCount [d]).key (treeNode H t.leavesCount [d]).toPrim) >>=
      fun _ => do
        Exec.modify fun t' => { t' with head := treeNode H t.leavesCount [d] :: t'.head }
        joinAllSubtrees p H
        let t ← Exec.get
        let n ← Exec.liftRes (u64Add p t.leavesCount 1)
        Exec.modify fun t => { t with leavesCount := n }) t := by
    unfold push
    rw [Exec.get_bind, hleaf, Exec.liftRes_ok_bind]
  have hsz : (pushSizes (inOrder l ++ [d]).length).map (treeOf H (t.leavesCount + 1) (inOrder l ++ [d])) =
      (keyOf t.leavesCount 1, mth H [d]) :: completed H o [d] l := by
    rw [List.length_append, inOrder_length, List.length_singleton, pushSizes_eq h3 (by rw [← inOrder_length]; omega), List.map_cons, completed_eq]
    have e : t.leavesCount + 1 = o + (inOrder l ++ [d]).length := by rw [List.length_append, List.length_singleton]; omega
    rw [e]
    congr 1
    have := treeOf_right H o (inOrder l) [d]
    rw [List.length_singleton] at this
    rw [this, h2]
  have hins := onStorage_insertNode (treeNode H t.leavesCount [d]) t
  have hrec : ((treeNode H t.leavesCount [d]).key, (treeNode H t.leavesCount [d]).hash) = (keyOf t.leavesCount 1, mth H [d]) := rfl
  rw [hrec] at hins
  unfold Machine.step
  simp only
  rw [hsz, writeTrees_cons, hunf]
  cases hsch : t.storage.sched t.storage.clock with
  | some f =>
    have hw : ∃ s, writeTrees [(keyOf t.leavesCount 1, mth H [d])] t.storage = (.error (.err (.storageError f.err)), s) := by
      simp only [writeTrees, hsch]
      exact ⟨_, rfl⟩
    obtain ⟨s, hw⟩ := hw
    rw [hw] at hins
    simp only at hins
    rw [hw, Exec.bind_error hins]
    exact ⟨rfl, h'⟩
  | none =>
    have hw : ∃ s, writeTrees [(keyOf t.leavesCount 1, mth H [d])] t.storage = (.ok (), s) := by
      simp only [writeTrees, hsch]
      exact ⟨_, rfl⟩
    obtain ⟨s, hw⟩ := hw
    rw [hw] at hins
    obtain ⟨v, hins⟩ := hins
    rw [hw, Exec.bind_ok hins, Exec.modify_bind]
    have hj := joinAll_exact p H o l [d] 0 ⟨s, treeNode H t.leavesCount [d] :: t.head, t.leavesCount⟩ (by rw [h1, h2]) rfl h3
      (by rw [List.length_append, List.length_singleton]; omega)
    have hall : joinAllSubtrees p H (⟨s, treeNode H t.leavesCount [d] :: t.head, t.leavesCount⟩ : Tree E) =
        joinAllLoop p H (treeNode H (o + (inOrder l).length) [d]) (nodes H o l) ⟨s, treeNode H t.leavesCount [d] :: t.head, t.leavesCount⟩ := by
      rw [← h1, ← h2]; rfl
    simp only at hj ⊢
    rw [Exec.bind_apply, hall]
    cases hw2 : writeTrees (completed H o [d] l) s with
    | mk r s2 =>
      rw [hw2] at hj
      cases r with
      | ok u =>
        simp only at hj ⊢
        rw [hj.1]
        simp only
        rw [Exec.get_bind, u64Add, if_pos (by simp only; omega), Exec.liftRes_ok_bind]
        refine ⟨rfl, merged [d] l, o, rfl, (merged_inOrder l _).symm, ?_, hj.2⟩
        show t.leavesCount + 1 = _
        rw [List.length_append, List.length_singleton]; omega
      | error e =>
        simp only at hj ⊢
        rw [hj]
        exact ⟨rfl, [], t.leavesCount, rfl, rfl, rfl, trivial⟩

theorem root_exact (p : Profile) (H : HashFn) (t : Tree E) {ds : List Bytes} (h : Holds H t.head t.leavesCount ds) (hn : t.leavesCount ≤ p.leafLimit) :
    t.root p H = .ok (if ds = [] then emptySum else mth H ds) := by
  unfold Tree.root
  rw [rootNode_exact p H h hn, Res.ok_bind]
  by_cases hd : ds = []
  · simp only [if_pos hd]; rfl
  · simp only [if_neg hd]; rfl

theorem proveSides_exact (hand : List (Nat × Bytes32)) (S : Scratch) (hS : ∀ k, S k = (hand.lookup k).map fun h => (k, h)) :
    ∀ (ps : List Position) (t : Tree E),
    proveSides S ps t = match readHashes hand (ps.map Position.index) t.storage with
      | (r, s) => (r, { t with storage := s }) := by
  intro ps
  induction ps with
  | nil => intro t; rfl
  | cons x ps ih =>
    intro t
    rw [proveSides]
    simp only [Position.inOrderIndex, List.map_cons, readHashes]
    cases hs : t.storage.sched t.storage.clock with
    | some f =>
      rw [Exec.bind_error (onStorage_error (Store.get_fault x.index hs))]
    | none =>
      rw [Exec.bind_ok (onStorage_ok (Store.get_none x.index hs)), hS]
      cases hl : hand.lookup x.index with
      | some h =>
        simp only [Option.map_some, Option.some_or]
        rw [Exec.bind_apply, ih]
        simp only
        rcases readHashes hand (ps.map Position.index) { t.storage with clock := t.storage.clock + 1 } with ⟨_ | hs, s⟩ <;> rfl
      | none =>
        simp only [Option.map_none, Option.none_or]
        cases hm : t.storage.map x.index with
        | none => rfl
        | some q =>
          simp only [Option.map_some]
          rw [Exec.bind_apply, ih]
          simp only
          rcases readHashes hand (ps.map Position.index) { t.storage with clock := t.storage.clock + 1 } with ⟨_ | hs, s⟩ <;> rfl

theorem prove_exact (p : Profile) (H : HashFn) (i : Nat) (hi : i + 1 < 2 ^ 64) (t : Tree E) {ds : List Bytes} (h : Holds H t.head t.leavesCount ds)
    (hn : t.leavesCount < p.leafLimit) :
    ∃ s, (prove p H i t).2 = { t with storage := s } ∧
    (⟨t.leavesCount, ds, t.storage⟩ : Machine E).step H (.prove i) = (.prove (prove p H i t).1, ⟨t.leavesCount, ds, s⟩) := by
  have hlim := p.leafLimit_le
  unfold Machine.step
  simp only
  rcases Nat.lt_or_ge i t.leavesCount with hlt | hge
  · rw [if_neg (by omega)]
    unfold prove
    rw [Exec.get_bind, u64Add, if_pos hi, Exec.liftRes_ok_bind, if_neg (by omega),
      rootPosition_spec p (by omega), Exec.liftRes_ok_bind, fromLeafIndex_ok p (by omega),
      Exec.liftRes_ok_bind]
    have hidx : (posOf 0 i).inOrderIndex = 2 * i := ioIndex_zero_left i
    rw [hidx]
    cases hs : t.storage.sched t.storage.clock with
    | some f =>
      rw [Exec.bind_error (onStorage_error (Store.get_fault (2 * i) hs))]
      exact ⟨_, rfl, rfl⟩
    | none =>
      rw [Exec.bind_ok (onStorage_ok (Store.get_none (2 * i) hs))]
      cases hm : t.storage.map (2 * i) with
      | none => exact ⟨_, rfl, rfl⟩
      | some q =>
        simp only
        rw [pathList_eq p (ceilLog2_top p hn) (by omega) hlt (by
          have := (ceilLog2_le_iff (t.leavesCount + 1) _).1 (Nat.le_refl _); omega), Exec.liftRes_ok_bind,
          rootNode_exact p H h (by omega), Exec.liftRes_ok_bind]
        by_cases hd : ds = []
        · simp only [if_pos hd]
          exact ⟨_, rfl, rfl⟩
        · simp only [if_neg hd]
          rw [runwrap, Exec.liftRes_ok_bind, Exec.bind_apply]
          have hsides : ((rangesToPos (shapePath 0 t.leavesCount i (0, t.leavesCount))).map Prod.snd).reverse.dropLast.map Position.index =
              sideKeys t.leavesCount i := by
            unfold sideKeys rangesToPos
            simp only [List.map_map, List.map_dropLast, List.map_reverse]
            rfl
          rw [proveSides_exact ((rootSizes ds.length).map (treeOf H t.leavesCount ds)).reverse _ (fun k => by
            rw [updAll_apply]; cases ((rootSizes ds.length).map (treeOf H t.leavesCount ds)).reverse.lookup k <;> rfl), hsides]
          simp only
          rcases readHashes ((rootSizes ds.length).map (treeOf H t.leavesCount ds)).reverse (sideKeys t.leavesCount i)
            { t.storage with clock := t.storage.clock + 1 } with ⟨_ | hs, s⟩
          · exact ⟨_, rfl, rfl⟩
          · exact ⟨_, rfl, rfl⟩
  · rw [if_pos hge, prove_out_of_range p H t hi hge]
    exact ⟨_, rfl, rfl⟩

theorem run_exact (p : Profile) (H : HashFn) : ∀ (ops : List Op) (t : Tree E) (ds : List Bytes), Holds H t.head t.leavesCount ds →
    t.leavesCount + pushCount ops < p.leafLimit → indicesOk ops →
    ((run p H ops t).1, (run p H ops t).2.storage, (run p H ops t).2.leavesCount) =
      ((Machine.run H ops ⟨t.leavesCount, ds, t.storage⟩).1, (Machine.run H ops ⟨t.leavesCount, ds, t.storage⟩).2.storage,
        (Machine.run H ops ⟨t.leavesCount, ds, t.storage⟩).2.count) ∧
    Holds H (run p H ops t).2.head (run p H ops t).2.leavesCount (Machine.run H ops ⟨t.leavesCount, ds, t.storage⟩).2.leaves := by
  intro ops
  induction ops with
  | nil => intro t ds h _ _; exact ⟨rfl, h⟩
  | cons op ops ih =>
    intro t ds h hn hi
    have key : ∀ c' : Machine E, (⟨t.leavesCount, ds, t.storage⟩ : Machine E).step H op = ((step p H op t).1, c') →
        c'.storage = (step p H op t).2.storage → c'.count = (step p H op t).2.leavesCount →
        Holds H (step p H op t).2.head (step p H op t).2.leavesCount c'.leaves → (step p H op t).2.leavesCount + pushCount ops < p.leafLimit → indicesOk ops →
        ((run p H (op :: ops) t).1, (run p H (op :: ops) t).2.storage, (run p H (op :: ops) t).2.leavesCount) =
          ((Machine.run H (op :: ops) ⟨t.leavesCount, ds, t.storage⟩).1, (Machine.run H (op :: ops) ⟨t.leavesCount, ds, t.storage⟩).2.storage,
            (Machine.run H (op :: ops) ⟨t.leavesCount, ds, t.storage⟩).2.count) ∧
        Holds H (run p H (op :: ops) t).2.head (run p H (op :: ops) t).2.leavesCount (Machine.run H (op :: ops) ⟨t.leavesCount, ds, t.storage⟩).2.leaves := by
      intro c' h1 h2 h3 h4 h5 h6
      obtain ⟨g1, g2⟩ := ih (step p H op t).2 c'.leaves h4 h5 h6
      have hc : (⟨(step p H op t).2.leavesCount, c'.leaves, (step p H op t).2.storage⟩ : Machine E) = c' := by
        rw [← h2, ← h3]
      rw [hc] at g1 g2
      obtain ⟨e1, e2⟩ := Prod.mk.inj g1
      simp only [run, Machine.run, h1]
      exact ⟨Prod.ext (by simp only; rw [e1]) e2, g2⟩
    cases op with
    | push d =>
      rw [pushCount] at hn
      obtain ⟨h1, h2⟩ := push_exact p H d t h (by omega)
      obtain ⟨e1, e2⟩ := Prod.mk.inj h1
      obtain ⟨e2, e3⟩ := Prod.mk.inj e2
      have hle : ((⟨t.leavesCount, ds, t.storage⟩ : Machine E).step H (.push d)).2.count ≤ t.leavesCount + 1 := by
        unfold Machine.step
        simp only
        split <;> simp only <;> omega
      refine key _ (Prod.ext e1.symm rfl) e2.symm e3.symm h2 ?_ hi
      have : (push p H d t).2.leavesCount ≤ t.leavesCount + 1 := by rw [e3]; exact hle
      show (push p H d t).2.leavesCount + _ < _
      omega
    | root =>
      simp only [pushCount] at hn
      refine key ⟨t.leavesCount, ds, t.storage⟩ ?_ rfl rfl h hn hi
      show _ = (Out.root (t.root p H), _)
      rw [root_exact p H t h (by omega)]
      rfl
    | prove i =>
      simp only [pushCount] at hn
      obtain ⟨s, h1, h2⟩ := prove_exact p H i hi.1 t h (by omega)
      have hst : (step p H (.prove i) t) = (.prove (prove p H i t).1, { t with storage := s }) := Prod.ext rfl h1
      refine key ⟨t.leavesCount, ds, s⟩ (by rw [hst]; exact h2) (by rw [hst]) (by rw [hst]) (by rw [hst]; exact h) (by rw [hst]; exact hn) hi.2

/-! ### The storage after a history -/

theorem writeTrees_origin : ∀ (recs : List (Nat × Bytes32)) (s : BStore E) k,
    (writeTrees recs s).2.map k = s.map k ∨ ∃ x ∈ recs, x.1 = k ∧ (writeTrees recs s).2.map k = some x := by
  intro recs
  induction recs with
  | nil => intro s k; exact .inl rfl
  | cons x rest ih =>
    intro s k
    simp only [writeTrees]
    have hw : Store.upd s.map x.1 (some x) k = s.map k ∨ x.1 = k ∧ Store.upd s.map x.1 (some x) k = some x := by
      by_cases hk : x.1 = k
      · exact .inr ⟨hk, by simp [Store.upd, hk]⟩
      · exact .inl (by simp [Store.upd, Ne.symm hk])
    cases hs : s.sched s.clock with
    | none =>
      simp only
      rcases ih { s with clock := s.clock + 1, map := Store.upd s.map x.1 (some x) } k with h | ⟨y, hy, h1, h2⟩
      · rw [h]
        rcases hw with h | ⟨h1, h2⟩
        · exact .inl h
        · exact .inr ⟨x, List.mem_cons_self .., h1, h2⟩
      · exact .inr ⟨y, List.mem_cons_of_mem _ hy, h1, h2⟩
    | some f =>
      obtain ⟨e, ap⟩ := f
      cases ap with
      | false => exact .inl rfl
      | true =>
        rcases hw with h | ⟨h1, h2⟩
        · exact .inl h
        · exact .inr ⟨x, List.mem_cons_self .., h1, h2⟩

theorem readHashes_map (hand : List (Nat × Bytes32)) : ∀ (ks : List Nat) (s : BStore E), (readHashes hand ks s).2.map = s.map := by
  intro ks
  induction ks with
  | nil => intro s; rfl
  | cons k ks ih =>
    intro s
    simp only [readHashes]
    cases hs : s.sched s.clock with
    | some f => rfl
    | none =>
      simp only
      cases (hand.lookup k).or ((s.map k).map Prod.snd) with
      | none => rfl
      | some h =>
        simp only
        have := ih { s with clock := s.clock + 1 }
        rcases hq : readHashes hand ks { s with clock := s.clock + 1 } with ⟨_ | hs, s'⟩ <;> rw [hq] at this <;> exact this

theorem prove_step_map (H : HashFn) (i : Nat) (c : Machine E) : (c.step H (.prove i)).2.storage.map = c.storage.map ∧
    (c.step H (.prove i)).2.leaves = c.leaves := by
  unfold Machine.step
  simp only
  split
  · exact ⟨rfl, rfl⟩
  · cases c.storage.sched c.storage.clock with
    | some f => exact ⟨rfl, rfl⟩
    | none =>
      simp only
      cases c.storage.map (2 * i) with
      | none => exact ⟨rfl, rfl⟩
      | some q =>
        simp only
        split
        · exact ⟨rfl, rfl⟩
        · have := readHashes_map ((rootSizes c.leaves.length).map (treeOf H c.count c.leaves)).reverse (sideKeys c.count i)
            { c.storage with clock := c.storage.clock + 1 }
          rcases hq : readHashes ((rootSizes c.leaves.length).map (treeOf H c.count c.leaves)).reverse (sideKeys c.count i)
            { c.storage with clock := c.storage.clock + 1 } with ⟨_ | hs, s'⟩ <;> rw [hq] at this <;> exact ⟨this, rfl⟩

theorem machine_origin (H : HashFn) : ∀ (ops : List Op) (c : Machine E) k,
    (Machine.run H ops c).2.storage.map k = c.storage.map k ∨
    ∃ ds, ds.Sublist (c.leaves ++ pushes ops) ∧ (Machine.run H ops c).2.storage.map k = some (k, mth H ds) := by
  intro ops
  induction ops with
  | nil => intro c k; exact .inl rfl
  | cons op ops ih =>
    intro c k
    have hstep : ((c.step H op).2.storage.map k = c.storage.map k ∨
        ∃ ds, ds.Sublist (c.leaves ++ pushes (op :: ops)) ∧ (c.step H op).2.storage.map k = some (k, mth H ds)) ∧
        ((c.step H op).2.leaves ++ pushes ops).Sublist (c.leaves ++ pushes (op :: ops)) := by
      cases op with
      | push d =>
        have e : c.leaves ++ pushes (.push d :: ops) = (c.leaves ++ [d]) ++ pushes ops := by simp [pushes]
        rw [e]
        have ho := writeTrees_origin ((pushSizes (c.leaves ++ [d]).length).map (treeOf H (c.count + 1) (c.leaves ++ [d]))) c.storage k
        have ho' : (writeTrees ((pushSizes (c.leaves ++ [d]).length).map (treeOf H (c.count + 1) (c.leaves ++ [d]))) c.storage).2.map k =
              c.storage.map k ∨
            ∃ ds, ds.Sublist ((c.leaves ++ [d]) ++ pushes ops) ∧
              (writeTrees ((pushSizes (c.leaves ++ [d]).length).map (treeOf H (c.count + 1) (c.leaves ++ [d]))) c.storage).2.map k = some (k, mth H ds) := by
          rcases ho with h | ⟨x, h1, h2, h3⟩
          · exact .inl h
          · obtain ⟨n, _, rfl⟩ := List.mem_map.1 h1
            refine .inr ⟨lastOf (c.leaves ++ [d]) n, (List.drop_sublist _ _).trans (List.sublist_append_left ..), ?_⟩
            rw [h3, ← h2]; rfl
        unfold Machine.step
        simp only
        cases hw : writeTrees ((pushSizes (c.leaves ++ [d]).length).map (treeOf H (c.count + 1) (c.leaves ++ [d]))) c.storage with
        | mk r s' =>
          rw [hw] at ho'
          cases r with
          | ok u => exact ⟨ho', .refl _⟩
          | error e =>
            refine ⟨ho', ?_⟩
            simp only
            refine List.Sublist.append ?_ (.refl _)
            split
            · exact List.nil_sublist _
            · exact List.sublist_append_left ..
      | root => exact ⟨.inl rfl, .refl _⟩
      | prove i =>
        obtain ⟨h1, h2⟩ := prove_step_map H i c
        rw [h1, h2]
        exact ⟨.inl rfl, .refl _⟩
    obtain ⟨h1, h2⟩ := hstep
    simp only [Machine.run]
    rcases ih (c.step H op).2 k with h | ⟨ds, g1, g2⟩
    · rw [h]; exact h1
    · exact .inr ⟨ds, g1.trans h2, g2⟩

end Binary
end FuelMerkle
