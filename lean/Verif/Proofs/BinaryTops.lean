import Verif.Proofs.BinaryLoaded
import Verif.Proofs.BinaryDesk
import Verif.Spec.BinaryTops
import Verif.Spec.Corrupt

/-
Binary trees on one storage with any contents are the machine of `Spec/BinaryTops.lean`.
-/
namespace FuelMerkle
namespace Binary
open Spec
variable {E : Type}

/-- The node of a subtree, the first leaf of which is leaf `i`. -/
def topNode (i : Nat) (x : Nat × Bytes32) : Node := { position := ⟨keyOf i x.1⟩, hash := x.2 }

/-- The number of leaves. -/
def total (l : List (Nat × Bytes32)) : Nat := (l.map Prod.fst).sum

theorem total_cons (x : Nat × Bytes32) (l : List (Nat × Bytes32)) : total (x :: l) = x.1 + total l := by
  simp [total]

theorem topNode_height {i g : Nat} {x : Nat × Bytes32} (hx : x.1 = 2 ^ g) (hb : i + x.1 ≤ 2 ^ 63) :
    (topNode i x).position.height = g := by
  have : (topNode i x).position = posOf (ceilLog2 x.1) (i / 2 ^ ceilLog2 x.1) := rfl
  rw [this, hx, ceilLog2_two_pow]
  exact height_posOf (anc_bound (by omega))

theorem joinNodes_top (p : Profile) (H : HashFn) {i j g : Nat} {x y : Nat × Bytes32} (hx : x.1 = 2 ^ g) (hy : 0 < y.1) (hy' : y.1 ≤ 2 ^ g)
    (hn : i + (x.1 + y.1) ≤ p.leafLimit) :
    joinNodes p H (topNode i x) (topNode j y) = .ok (topNode i (beside H x y)) := by
  have hlim := p.leafLimit_le
  have hg : g < p.topHeight := by
    have : 2 ^ g < p.leafLimit := by omega
    rw [p.leafLimit_eq] at this
    exact (Nat.pow_lt_pow_iff_right (a := 2) (by omega)).1 this
  have hc : ceilLog2 (x.1 + y.1) = g + 1 := ceilLog2_eq (by omega) (by rw [Nat.pow_succ]; omega)
  have hpos : (topNode i x).position = posOf g (i / 2 ^ g) := by
    have : (topNode i x).position = posOf (ceilLog2 x.1) (i / 2 ^ ceilLog2 x.1) := rfl
    rw [this, hx, ceilLog2_two_pow]
  unfold joinNodes Node.createNode
  rw [hpos, (parent_top p (anc_bound (by omega)) hg).1, Nat.div_div_eq_div_mul, ← Nat.pow_succ]
  simp only [Res.ok_bind, Res.pure_eq]
  congr 1
  unfold topNode beside
  simp only
  congr 1
  unfold posOf keyOf ioIndex
  rw [hc]

/-- The list of subtrees, the first of which begins with leaf `o`. -/
def topNodes (o : Nat) : List (Nat × Bytes32) → List Node
  | [] => []
  | x :: l => topNode (o + total l) x :: topNodes o l

theorem keyed_right (o : Nat) (l : List (Nat × Bytes32)) (x : Nat × Bytes32) :
    keyed (o + total l + x.1) x = (keyOf (o + total l) x.1, x.2) := by
  unfold keyed
  rw [Nat.add_sub_cancel]

theorem buildRoot_top (p : Profile) (H : HashFn) (o : Nat) : ∀ (l : List (Nat × Bytes32)) (x : Nat × Bytes32) (k : Nat) (S : Scratch),
    0 < x.1 → x.1 ≤ 2 ^ k → Lens k (l.map Prod.fst) → o + total l + x.1 ≤ p.leafLimit →
    buildRootNode p H (topNode (o + total l) x) (topNodes o l) S =
      .ok (topNode o ((joined H x l).getLast?.getD x), updAll S ((joined H x l).map (keyed (o + total l + x.1)))) := by
  intro l
  induction l with
  | nil => intro x k S _ _ _ _; rfl
  | cons y l ih =>
    intro x k S hx hk hl hn
    obtain ⟨g, h1, h2, h3⟩ := hl
    rw [total_cons] at hn ⊢
    have hle : 2 ^ k ≤ 2 ^ g := Nat.pow_le_pow_right (by omega) h1
    have hb : (beside H y x).1 = y.1 + x.1 := rfl
    rw [topNodes, buildRootNode, joinNodes_top p H h2 hx (by omega) (by omega), Res.ok_bind,
      ih (beside H y x) (g + 1) _ (by omega) (by rw [hb, h2, Nat.pow_succ]; omega) h3 (by omega)]
    have e : o + (y.1 + total l) + x.1 = o + total l + (beside H y x).1 := by omega
    rw [joined, List.map_cons, e, keyed_right]
    congr 1
    refine Prod.ext ?_ rfl
    simp only [List.getLast?_cons, Option.getD_some]

/-- The tree works with these subtrees, and has counted `n`. -/
def HoldsTops (head : List Node) (n : Nat) (l : List (Nat × Bytes32)) : Prop :=
  ∃ o : Nat, head = topNodes o l ∧ n = o + total l ∧ Lens 0 (l.map Prod.fst)

theorem rootNode_top (p : Profile) (H : HashFn) {head : List Node} {n : Nat} {l : List (Nat × Bytes32)} (h : HoldsTops head n l)
    (hn : n ≤ p.leafLimit) :
    ∃ r : Option Node, rootNode p H head (fun _ => none) = .ok (r, updAll (fun _ => none) ((madeTops H l).map (keyed n))) ∧
      (l = [] → r = none) ∧ (l ≠ [] → ∃ x, r = some x ∧ x.hash = topHash H l) := by
  obtain ⟨o, rfl, rfl, h3⟩ := h
  cases l with
  | nil => exact ⟨none, rfl, fun _ => rfl, fun h => absurd rfl h⟩
  | cons x l =>
    obtain ⟨g, h4, h5, h6⟩ := h3
    have hpos := Nat.two_pow_pos g
    rw [total_cons] at hn
    rw [topNodes, rootNode, buildRoot_top p H o l x (g + 1) _ (by omega) (by rw [h5, Nat.pow_succ]; omega) h6 (by omega)]
    refine ⟨some (topNode o ((joined H x l).getLast?.getD x)), ?_, (fun h => by cases h), fun _ => ⟨_, rfl, rfl⟩⟩
    rw [total_cons, Nat.add_comm x.1, ← Nat.add_assoc]
    rfl

theorem root_top (p : Profile) (H : HashFn) (t : Tree E) {l : List (Nat × Bytes32)} (h : HoldsTops t.head t.leavesCount l)
    (hn : t.leavesCount ≤ p.leafLimit) : t.root p H = .ok (topHash H l) := by
  obtain ⟨r, h1, h2, h3⟩ := rootNode_top p H h hn
  unfold Tree.root
  rw [h1, Res.ok_bind]
  by_cases hl : l = []
  · rw [h2 hl, hl]; rfl
  · obtain ⟨x, rfl, hx⟩ := h3 hl
    rw [← hx]; rfl

/-! ### Pushes -/

theorem joinAll_top (p : Profile) (H : HashFn) (o : Nat) : ∀ (l : List (Nat × Bytes32)) (x : Nat × Bytes32) (k : Nat) (t : Tree E),
    t.head = topNode (o + total l) x :: topNodes o l → x.1 = 2 ^ k → Lens k (l.map Prod.fst) → o + total l + x.1 ≤ p.leafLimit →
    (match writeTrees ((grown H x l).tail.map (keyed (o + total l + x.1))) t.storage with
    | (.ok (), s) => joinAllLoop p H (topNode (o + total l) x) (topNodes o l) t = (.ok (), ⟨s, topNodes o (grownTops H x l), t.leavesCount⟩) ∧
        Lens k ((grownTops H x l).map Prod.fst) ∧ total (grownTops H x l) = x.1 + total l
    | (.error e, s) => joinAllLoop p H (topNode (o + total l) x) (topNodes o l) t = (.error e, ⟨s, [], t.leavesCount⟩)) := by
  intro l
  induction l with
  | nil =>
    intro x k t ht hx _ _
    obtain ⟨s, hd, n⟩ := t
    simp only at ht
    subst ht
    exact ⟨rfl, ⟨k, Nat.le_refl _, hx, trivial⟩, total_cons _ _⟩
  | cons y l ih =>
    intro x k t ht hx hl hn
    have hlim := p.leafLimit_le
    obtain ⟨g, h1, h2, h3⟩ := hl
    have hpos := Nat.two_pow_pos k
    rw [total_cons] at hn
    have hha := topNode_height (i := o + total l) h2 (by omega)
    have hhb := topNode_height (i := o + total (y :: l)) hx (by rw [total_cons]; omega)
    by_cases hg : y.1 = x.1
    · have hgk : g = k := Nat.pow_right_injective (Nat.le_refl 2) (show 2 ^ g = 2 ^ k by rw [← h2, ← hx, hg])
      subst hgk
      have hj := joinNodes_top p H (i := o + total l) (j := o + total (y :: l)) h2 (by omega) (by omega : x.1 ≤ 2 ^ g) (by omega)
      have hunf : joinAllLoop p H (topNode (o + total (y :: l)) x) (topNodes o (y :: l)) t =
          (onStorage (Store.insert (topNode (o + total l) (beside H y x)).key (topNode (o + total l) (beside H y x)).toPrim) >>= fun _ => do
            Exec.modify fun t => { t with head := topNode (o + total l) (beside H y x) :: topNodes o l }
            joinAllLoop p H (topNode (o + total l) (beside H y x)) (topNodes o l)) { t with head := [] } := by
        rw [topNodes, joinAllLoop, if_pos (by rw [hha, hhb]), Exec.modify_bind, hj, Exec.liftRes_ok_bind]
      have e : o + total (y :: l) + x.1 = o + total l + (beside H y x).1 := by
        rw [total_cons]; show _ = _ + (y.1 + x.1); omega
      have hgr : (grown H x (y :: l)).tail = beside H y x :: (grown H (beside H y x) l).tail := by
        rw [grown, if_pos hg, List.tail_cons]
        cases l with
        | nil => rfl
        | cons z l => rw [grown]; split <;> rfl
      rw [hunf, hgr, grownTops, if_pos hg, List.map_cons, writeTrees_cons, e, keyed_right]
      have hins := onStorage_insertNode (topNode (o + total l) (beside H y x)) { t with head := [] }
      simp only at hins
      have hrec : ((topNode (o + total l) (beside H y x)).key, (topNode (o + total l) (beside H y x)).hash) =
          (keyOf (o + total l) (beside H y x).1, (beside H y x).2) := rfl
      rw [hrec] at hins
      cases hw : writeTrees [(keyOf (o + total l) (beside H y x).1, (beside H y x).2)] t.storage with
      | mk r s =>
        rw [hw] at hins
        cases r with
        | error e =>
          simp only at hins ⊢
          rw [Exec.bind_error hins]
        | ok u =>
          obtain ⟨v, hins⟩ := hins
          simp only
          rw [Exec.bind_ok hins, Exec.modify_bind]
          have := ih (beside H y x) (g + 1) ⟨s, topNode (o + total l) (beside H y x) :: topNodes o l, t.leavesCount⟩ rfl
            (by show y.1 + x.1 = _; rw [h2, hx, Nat.pow_succ]; omega) h3 (by show o + total l + (y.1 + x.1) ≤ _; omega)
          simp only at this
          cases hw2 : writeTrees ((grown H (beside H y x) l).tail.map (keyed (o + total l + (beside H y x).1))) s with
          | mk r2 s2 =>
            rw [hw2] at this
            cases r2 with
            | error e => exact this
            | ok u2 =>
              refine ⟨this.1, this.2.1.mono (by omega), ?_⟩
              rw [this.2.2, total_cons]
              show y.1 + x.1 + _ = _
              omega
    · have hgk : g ≠ k := fun e => hg (by rw [h2, hx, e])
      rw [grown, if_neg hg, grownTops, if_neg hg]
      obtain ⟨s, hd, n⟩ := t
      simp only at ht
      subst ht
      refine ⟨?_, ⟨k, Nat.le_refl _, hx, g, by omega, h2, h3⟩, total_cons _ _⟩
      rw [topNodes, joinAllLoop, if_neg (by rw [hha, hhb]; exact fun e => hgk e.symm)]
      rfl

theorem push_top (p : Profile) (H : HashFn) (d : Bytes) (t : Tree E) {l : List (Nat × Bytes32)} (h : HoldsTops t.head t.leavesCount l)
    (hn : t.leavesCount < p.leafLimit) :
    (match writeTrees ((grown H (1, H ([0x00] ++ d)) l).map (keyed (t.leavesCount + 1))) t.storage with
    | (.ok (), s) => (push p H d t).1 = .ok () ∧ (push p H d t).2.storage = s ∧ (push p H d t).2.leavesCount = t.leavesCount + 1 ∧
        HoldsTops (push p H d t).2.head (t.leavesCount + 1) (grownTops H (1, H ([0x00] ++ d)) l)
    | (.error e, s) => (push p H d t).1 = .error e ∧ (push p H d t).2.storage = s ∧ (push p H d t).2.leavesCount = t.leavesCount ∧
        HoldsTops (push p H d t).2.head t.leavesCount (if t.storage.sched t.storage.clock = none then [] else l)) := by
  have h' := h
  have hlim := p.leafLimit_le
  obtain ⟨o, h1, h2, h3⟩ := h
  have hleaf : Node.createLeaf p H t.leavesCount d = .ok (topNode t.leavesCount (1, H ([0x00] ++ d))) := by
    unfold Node.createLeaf
    rw [fromLeafIndex_ok p (by omega)]
    simp only [Res.ok_bind, Res.pure_eq]
    unfold topNode
    congr 2
    simp [posOf, keyOf, ioIndex, ceilLog2]
  have hunf : push p H d t = (onStorage (Store.insert (topNode t.leavesCount (1, H ([0x00] ++ d))).key (topNode t.leavesCount (1, H ([0x00] ++ d))).toPrim) >>=
      fun _ => do
        Exec.modify fun t' => { t' with head := topNode t.leavesCount (1, H ([0x00] ++ d)) :: t'.head }
        joinAllSubtrees p H
        let t ← Exec.get
        let n ← Exec.liftRes (u64Add p t.leavesCount 1)
        Exec.modify fun t => { t with leavesCount := n }) t := by
    unfold push
    rw [Exec.get_bind, hleaf, Exec.liftRes_ok_bind]
  have hgr : grown H (1, H ([0x00] ++ d)) l = (1, H ([0x00] ++ d)) :: (grown H (1, H ([0x00] ++ d)) l).tail := by
    cases l with
    | nil => rfl
    | cons z l => rw [grown]; split <;> rfl
  have hn1 : t.leavesCount + 1 = o + total l + (1, H ([0x00] ++ d)).1 := by rw [← h2]
  generalize hx : ((1 : Nat), H ([0x00] ++ d)) = x at *
  have hx1 : x.1 = 1 := by rw [← hx]
  rw [hgr, List.map_cons, hn1, keyed_right, writeTrees_cons, hunf]
  have hins := onStorage_insertNode (topNode t.leavesCount x) t
  have hrec : ((topNode t.leavesCount x).key, (topNode t.leavesCount x).hash) = (keyOf (o + total l) x.1, x.2) := by rw [← h2]; rfl
  rw [hrec] at hins
  cases hsch : t.storage.sched t.storage.clock with
  | some f =>
    have hw : ∃ s, writeTrees [(keyOf (o + total l) x.1, x.2)] t.storage = (.error (.err (.storageError f.err)), s) := by
      simp only [writeTrees, hsch]
      exact ⟨_, rfl⟩
    obtain ⟨s, hw⟩ := hw
    rw [hw] at hins
    simp only at hins
    rw [hw, Exec.bind_error hins]
    exact ⟨rfl, rfl, rfl, h'⟩
  | none =>
    have hw : ∃ s, writeTrees [(keyOf (o + total l) x.1, x.2)] t.storage = (.ok (), s) := by
      simp only [writeTrees, hsch]
      exact ⟨_, rfl⟩
    obtain ⟨s, hw⟩ := hw
    rw [hw] at hins
    obtain ⟨v, hins⟩ := hins
    rw [hw, Exec.bind_ok hins, Exec.modify_bind]
    have hj := joinAll_top p H o l x 0 ⟨s, topNode t.leavesCount x :: t.head, t.leavesCount⟩ (by rw [h1, h2]) hx1 h3
      (by omega)
    have hall : joinAllSubtrees p H (⟨s, topNode t.leavesCount x :: t.head, t.leavesCount⟩ : Tree E) =
        joinAllLoop p H (topNode (o + total l) x) (topNodes o l) ⟨s, topNode t.leavesCount x :: t.head, t.leavesCount⟩ := by
      rw [← h1, ← h2]; rfl
    simp only at hj ⊢
    rw [Exec.bind_apply, hall]
    cases hw2 : writeTrees ((grown H x l).tail.map (keyed (o + total l + x.1))) s with
    | mk r s2 =>
      rw [hw2] at hj
      cases r with
      | ok u =>
        simp only at hj ⊢
        rw [hj.1]
        simp only
        rw [Exec.get_bind, u64Add, if_pos (by simp only; omega), Exec.liftRes_ok_bind]
        refine ⟨rfl, rfl, by simp only [Exec.modify_apply]; omega, o, rfl, ?_, hj.2.1⟩
        rw [hj.2.2]; omega
      | error e =>
        simp only at hj ⊢
        rw [hj]
        exact ⟨rfl, rfl, rfl, t.leavesCount, rfl, rfl, trivial⟩

/-! ### Proofs -/

theorem prove_top (p : Profile) (H : HashFn) (i k : Nat) (hk : k + 1 < 2 ^ 64) (t : Tree E) (c : Tops E)
    (h : HoldsTops t.head t.leavesCount (c.tops i)) (hc : t.leavesCount = c.count i) (hs : t.storage = c.storage) (hn : t.leavesCount < p.leafLimit) :
    ∃ s, (prove p H k t).2 = { t with storage := s } ∧
    c.act H (.call i (.prove k)) = (.call (.prove (prove p H k t).1), { c with storage := s }) := by
  have hlim := p.leafLimit_le
  unfold Tops.act
  simp only
  rw [← hc, ← hs]
  rcases Nat.lt_or_ge k t.leavesCount with hlt | hge
  · rw [if_neg (by omega)]
    unfold prove
    rw [Exec.get_bind, u64Add, if_pos hk, Exec.liftRes_ok_bind, if_neg (by omega),
      rootPosition_spec p (by omega), Exec.liftRes_ok_bind, fromLeafIndex_ok p (by omega),
      Exec.liftRes_ok_bind]
    have hidx : (posOf 0 k).inOrderIndex = 2 * k := ioIndex_zero_left k
    rw [hidx]
    cases hs : t.storage.sched t.storage.clock with
    | some f =>
      rw [Exec.bind_error (onStorage_error (Store.get_fault (2 * k) hs))]
      exact ⟨_, rfl, rfl⟩
    | none =>
      rw [Exec.bind_ok (onStorage_ok (Store.get_none (2 * k) hs))]
      cases hm : t.storage.map (2 * k) with
      | none => exact ⟨_, rfl, rfl⟩
      | some q =>
        obtain ⟨r, h1, h2, h3⟩ := rootNode_top p H h (by omega)
        simp only
        rw [pathList_eq p (ceilLog2_top p hn) (by omega) hlt (by
          have := (ceilLog2_le_iff (t.leavesCount + 1) _).1 (Nat.le_refl _); omega), Exec.liftRes_ok_bind,
          h1, Exec.liftRes_ok_bind]
        by_cases hd : c.tops i = []
        · simp only [if_pos hd, h2 hd]
          exact ⟨_, rfl, rfl⟩
        · obtain ⟨x, rfl, hx⟩ := h3 hd
          simp only [if_neg hd]
          rw [runwrap, Exec.liftRes_ok_bind, Exec.bind_apply]
          have hsides : ((rangesToPos (shapePath 0 t.leavesCount k (0, t.leavesCount))).map Prod.snd).reverse.dropLast.map Position.index =
              sideKeys t.leavesCount k := by
            unfold sideKeys rangesToPos
            simp only [List.map_map, List.map_dropLast, List.map_reverse]
            rfl
          rw [proveSides_exact ((madeTops H (c.tops i)).map (keyed t.leavesCount)).reverse _ (fun k => by
            rw [updAll_apply]; cases ((madeTops H (c.tops i)).map (keyed t.leavesCount)).reverse.lookup k <;> rfl), hsides]
          simp only
          rcases readHashes ((madeTops H (c.tops i)).map (keyed t.leavesCount)).reverse (sideKeys t.leavesCount k)
            { t.storage with clock := t.storage.clock + 1 } with ⟨_ | hs, s⟩
          · exact ⟨_, rfl, rfl⟩
          · refine ⟨_, rfl, ?_⟩
            rw [← hx]; rfl
  · rw [if_pos hge, prove_out_of_range p H t hk hge]
    exact ⟨_, rfl, by rw [hs]⟩

/-! ### Loading -/

theorem topNodes_append (o : Nat) (m : List (Nat × Bytes32)) : ∀ l : List (Nat × Bytes32),
    topNodes o (l ++ m) = topNodes (o + total m) l ++ topNodes o m := by
  intro l
  induction l with
  | nil => rfl
  | cons x l ih =>
    rw [List.cons_append, topNodes, topNodes, ih, total, List.map_append, List.sum_append]
    simp only [List.cons_append]
    congr 2
    unfold total
    omega

/-- The largest complete subtrees with any hashes, and their nodes. -/
theorem peaks_tops (n : Nat) : ∀ (b a : Nat) (hs : List Bytes32), 2 ^ b ∣ a → hs.length = (peaks b a n).length →
    total (((peaks b a n).map Prod.snd).zip hs).reverse = n % 2 ^ b ∧
    Lens 0 ((((peaks b a n).map Prod.snd).zip hs).reverse.map Prod.fst) ∧
    (∀ x ∈ (((peaks b a n).map Prod.snd).zip hs).reverse.map Prod.fst, x < 2 ^ b) ∧
    topNodes a (((peaks b a n).map Prod.snd).zip hs).reverse =
      (((peaks b a n).zip hs).map fun x => ({ position := ⟨topKey x.1⟩, hash := x.2 } : Node)).reverse := by
  intro b
  induction b with
  | zero => intro a hs _ _; simp [peaks, Lens, topNodes, total, Nat.mod_one]
  | succ b ih =>
    intro a hs ha hn
    have h2 : 2 ^ (b + 1) = 2 * 2 ^ b := by rw [Nat.pow_succ]; omega
    have hpos := Nat.two_pow_pos b
    have e : n % 2 ^ (b + 1) = 2 ^ b * (n / 2 ^ b % 2) + n % 2 ^ b := by
      rw [Nat.pow_succ, Nat.mod_mul]; omega
    have ha' : 2 ^ b ∣ a := Nat.dvd_trans (Nat.pow_dvd_pow 2 (by omega)) ha
    rw [peaks, Nat.testBit_eq_decide_div_mod_eq] at hn ⊢
    by_cases hc : n / 2 ^ b % 2 = 1
    · rw [hc, Nat.mul_one] at e
      simp only [hc, decide_true, if_true, List.length_cons] at hn ⊢
      cases hs with
      | nil => simp at hn
      | cons h hs =>
        obtain ⟨g1, g2, g3, g4⟩ := ih (a + 2 ^ b) hs (Nat.dvd_add ha' (Nat.dvd_refl _)) (by simpa using hn)
        simp only [List.map_cons, List.zip_cons_cons, List.reverse_cons, List.map_append, List.map_nil]
        refine ⟨?_, Lens.snoc g2 g3 (by omega), ?_, ?_⟩
        · rw [total, List.map_append, List.sum_append, e]
          unfold total at g1
          rw [g1]
          simp [Nat.add_comm]
        · intro x hx
          rcases List.mem_append.1 hx with hx | hx
          · have := g3 x hx; omega
          · simp only [List.mem_singleton] at hx; omega
        · rw [topNodes_append]
          have hin : total [((2 : Nat) ^ b, h)] = 2 ^ b := by simp [total]
          rw [hin, g4]
          congr 1
          simp only [topNodes, topNode, total, List.map_nil, List.sum_nil, Nat.add_zero]
          rw [keyOf_top ha']
    · have hz : n / 2 ^ b % 2 = 0 := by omega
      rw [hz, Nat.mul_zero, Nat.zero_add] at e
      simp only [hc, decide_false, Bool.false_eq_true, if_false] at hn ⊢
      obtain ⟨g1, g2, g3, g4⟩ := ih a hs ha' hn
      exact ⟨by rw [g1, e], g2, fun x hx => by have := g3 x hx; omega, g4⟩

theorem buildLoop_top : ∀ (xs : List (Nat × Nat)) (hd : List Node) (t : Tree E), Filed t.storage.map →
    (match readHashes [] (xs.map topKey) t.storage with
    | (.ok hs, s) => hs.length = xs.length ∧ s.map = t.storage.map ∧ buildLoop (xs.map fun x => ⟨topKey x⟩) hd t =
        (.ok (((xs.zip hs).map fun x => ({ position := ⟨topKey x.1⟩, hash := x.2 } : Node)).reverse ++ hd), { t with storage := s })
    | (.error e, s) => s.map = t.storage.map ∧ buildLoop (xs.map fun x => ⟨topKey x⟩) hd t = (.error e, { t with storage := s })) := by
  intro xs
  induction xs with
  | nil => intro hd t _; exact ⟨rfl, rfl, rfl⟩
  | cons x xs ih =>
    intro hd t hb
    simp only [List.map_cons, readHashes, buildLoop, Position.inOrderIndex]
    cases hs : t.storage.sched t.storage.clock with
    | some f =>
      simp only
      rw [Exec.bind_error (onStorage_error (Store.get_fault (topKey x) hs))]
      exact ⟨trivial, rfl⟩
    | none =>
      simp only [List.lookup_nil, Option.none_or]
      rw [Exec.bind_ok (onStorage_ok (Store.get_none (topKey x) hs))]
      cases hm : t.storage.map (topKey x) with
      | none => simp only [Option.map_none]; exact ⟨trivial, rfl⟩
      | some q =>
        simp only [Option.map_some]
        have := ih (Node.ofPrim q :: hd) { t with storage := { t.storage with clock := t.storage.clock + 1 } } hb
        simp only at this
        rcases hq : readHashes [] (xs.map topKey) { t.storage with clock := t.storage.clock + 1 } with ⟨_ | v, s⟩
        · rw [hq] at this
          exact this
        · rw [hq] at this
          simp only at this ⊢
          refine ⟨by rw [List.length_cons, List.length_cons, this.1], this.2.1, ?_⟩
          rw [this.2.2, List.zip_cons_cons, List.map_cons, List.reverse_cons, List.append_assoc]
          have hfile := hb _ _ hm
          have : Node.ofPrim q = { position := ⟨topKey x⟩, hash := q.2 } := by
            unfold Node.ofPrim Position.fromInOrderIndex; rw [hfile]
          rw [this]
          rfl

theorem load_top (p : Profile) (n : Nat) (s : BStore E) (hn : n < p.leafLimit) (hf : Filed s.map) :
    match readHashes [] ((peaks 64 0 n).map topKey) s with
    | (.ok hs, s') => s'.map = s.map ∧ ∃ t, Tree.load p s n = (.ok t, s') ∧ t.leavesCount = n ∧
        HoldsTops t.head n (((peaks 64 0 n).map Prod.snd).zip hs).reverse
    | (.error e, s') => s'.map = s.map ∧ Tree.load p s n = (.error e, s') := by
  have hlim := p.leafLimit_le
  have hpos : peakPositions p n = .ok ((peaks 64 0 n).map fun x => ⟨topKey x⟩) := peakPositions_top p hn
  have hl := buildLoop_top (peaks 64 0 n) [] ⟨s, [], n⟩ hf
  unfold Tree.load build
  simp only
  rw [Exec.get_bind, hpos, Exec.liftRes_ok_bind]
  simp only at hl
  rcases hq : readHashes [] ((peaks 64 0 n).map topKey) s with ⟨e | v, s'⟩
  · rw [hq] at hl
    simp only at hl ⊢
    rw [Exec.bind_error hl.2]
    exact ⟨hl.1, rfl⟩
  · rw [hq] at hl
    simp only at hl ⊢
    obtain ⟨h1, h2, h3⟩ := hl
    rw [Exec.bind_ok h3]
    refine ⟨h2, _, rfl, rfl, ?_⟩
    rw [List.append_nil]
    obtain ⟨g1, g2, _, g4⟩ := peaks_tops n 64 0 v (Nat.dvd_zero _) h1
    exact ⟨0, g4.symm, by rw [g1, Nat.mod_eq_of_lt (by omega)]; omega, g2⟩

/-! ### Sequences of actions -/

theorem writeTrees_filed : ∀ (xs : List (Nat × Bytes32)) (s : BStore E), Filed s.map → Filed (writeTrees xs s).2.map := by
  intro xs
  induction xs with
  | nil => intro s h; exact h
  | cons x xs ih =>
    intro s h
    have hu : Filed (Store.upd s.map x.1 (some x)) := by
      intro k q hq
      rw [Store.upd_apply] at hq
      split at hq
      · next e => cases hq; exact e.symm
      · exact h k q hq
    simp only [writeTrees]
    cases s.sched s.clock with
    | none => exact ih _ hu
    | some f =>
      simp only
      split
      · exact hu
      · exact h

theorem prove_act_map (H : HashFn) (i k : Nat) (c : Tops E) : (c.act H (.call i (.prove k))).2.storage.map = c.storage.map := by
  simp only [Tops.act]
  split
  · rfl
  · split
    · rfl
    · split
      · rfl
      · split
        · rfl
        · have := readHashes_map ((madeTops H (c.tops i)).map (keyed (c.count i))).reverse (sideKeys (c.count i) k) { c.storage with clock := c.storage.clock + 1 }
          split <;> next hq => rw [hq] at this; exact this

/-- The trees and the machine agree. -/
structure Tied (c : Bench E) (m : Tops E) : Prop where
  storage : c.storage = m.storage
  count : c.count = m.count
  holds : ∀ j, HoldsTops (c.head j) (c.count j) (m.tops j)
  filed : Filed m.storage.map

theorem holdsTops_new : HoldsTops [] 0 [] := ⟨0, rfl, rfl, trivial⟩

theorem act_exact (p : Profile) (H : HashFn) (a : Action) (as : List Action) (c : Bench E) (m : Tops E) (h : Tied c m)
    (hn : ∀ j, c.count j + pushesIn (a :: as) < p.leafLimit) (ha : actsOk p (a :: as)) :
    (c.act p H a).1 = (m.act H a).1 ∧ Tied (c.act p H a).2 (m.act H a).2 ∧
      (∀ j, (c.act p H a).2.count j + pushesIn as < p.leafLimit) ∧ actsOk p as := by
  have hs := h.storage
  have hc := h.count
  cases a with
  | new i =>
    refine ⟨rfl, ⟨hs, ?_, ?_, h.filed⟩, ?_, ha⟩
    · funext j
      show (if j = i then 0 else c.count j) = if j = i then 0 else m.count j
      rw [hc]
    · intro j
      show HoldsTops (if j = i then [] else c.head j) (if j = i then 0 else c.count j) (if j = i then [] else m.tops j)
      split
      · exact holdsTops_new
      · exact h.holds j
    · intro j
      show (if j = i then 0 else c.count j) + _ < _
      have := hn j
      simp only [pushesIn] at this
      split <;> omega
  | load i n =>
    obtain ⟨ha1, ha2⟩ := ha
    have hl := load_top p n c.storage (by omega) (by rw [hs]; exact h.filed)
    simp only [Bench.act, Tops.act]
    rw [← hs]
    rcases hq : readHashes [] ((peaks 64 0 n).map topKey) c.storage with ⟨e | v, s'⟩
    · rw [hq] at hl
      simp only at hl
      rw [hl.2]
      exact ⟨rfl, ⟨rfl, hc, h.holds, by show Filed s'.map; rw [hl.1, hs]; exact h.filed⟩, fun j => by
        have := hn j; simp only [pushesIn] at this; exact this, ha2⟩
    · rw [hq] at hl
      simp only at hl
      obtain ⟨h1, t, h2, h3, h4⟩ := hl
      rw [h2]
      refine ⟨rfl, ⟨rfl, ?_, ?_, by show Filed s'.map; rw [h1, hs]; exact h.filed⟩, ?_, ha2⟩
      · funext j
        show (if j = i then t.leavesCount else c.count j) = if j = i then n else m.count j
        rw [hc, h3]
      · intro j
        show HoldsTops (if j = i then t.head else c.head j) (if j = i then t.leavesCount else c.count j)
          (if j = i then _ else m.tops j)
        split
        · rw [h3]; exact h4
        · exact h.holds j
      · intro j
        show (if j = i then t.leavesCount else c.count j) + _ < _
        have := hn j
        simp only [pushesIn] at this
        split <;> omega
  | call i op =>
    have hh := h.holds i
    have hni := hn i
    cases op with
    | push d =>
      simp only [pushesIn] at hni hn
      have hp := push_top p H d ⟨c.storage, c.head i, c.count i⟩ hh (by simp only; omega)
      simp only [Bench.act, Bench.step, Binary.step, Tops.act]
      rw [← hs, ← hc]
      simp only at hp
      have hf := writeTrees_filed ((grown H (1, H ([0x00] ++ d)) (m.tops i)).map (keyed (c.count i + 1))) c.storage (by rw [hs]; exact h.filed)
      rcases hq : writeTrees ((grown H (1, H ([0x00] ++ d)) (m.tops i)).map (keyed (c.count i + 1))) c.storage with ⟨e | v, s'⟩
      · rw [hq] at hp hf
        simp only at hp hf ⊢
        obtain ⟨g1, g2, g3, g4⟩ := hp
        refine ⟨by rw [g1], ⟨g2, ?_, ?_, hf⟩, ?_, ha⟩
        · funext j
          simp only [Tops.set]
          rw [g3, hc]
        · intro j
          simp only [Tops.set]
          split
          · rw [g3]; exact g4
          · exact h.holds j
        · intro j
          have := hn j
          show (if j = i then _ else c.count j) + _ < _
          split
          · rw [g3]; omega
          · omega
      · rw [hq] at hp hf
        simp only at hp hf ⊢
        obtain ⟨g1, g2, g3, g4⟩ := hp
        refine ⟨by rw [g1], ⟨g2, ?_, ?_, hf⟩, ?_, ha⟩
        · funext j
          simp only [Tops.set]
          rw [g3, hc]
        · intro j
          simp only [Tops.set]
          split
          · rw [g3]; exact g4
          · exact h.holds j
        · intro j
          have := hn j
          show (if j = i then _ else c.count j) + _ < _
          split
          · rw [g3]; omega
          · omega
    | root =>
      simp only [pushesIn] at hni hn
      have hr := root_top p H ⟨c.storage, c.head i, c.count i⟩ hh (by simp only; omega)
      simp only [Bench.act, Bench.step, Binary.step, Tops.act]
      rw [hr]
      have e1 : (fun j => if j = i then c.head i else c.head j) = c.head := by funext j; split <;> simp_all
      have e2 : (fun j => if j = i then c.count i else c.count j) = c.count := by funext j; split <;> simp_all
      simp only [e1]
      refine ⟨trivial, ⟨hs, by rw [← hc]; exact e2, fun j => ?_, h.filed⟩, fun j => ?_, ha⟩
      · have := congrFun e2 j
        simp only at this ⊢
        rw [this]; exact h.holds j
      · have : _ = c.count j := congrFun e2 j
        show (if j = i then c.count i else c.count j) + _ < _
        rw [this]; exact hn j
    | prove k =>
      simp only [pushesIn] at hni hn
      obtain ⟨ha1, ha2⟩ := ha
      obtain ⟨s, g1, g2⟩ := prove_top p H i k ha1 ⟨c.storage, c.head i, c.count i⟩ m hh (by rw [hc]) hs (by simp only; omega)
      have hmap := prove_act_map H i k m
      rw [g2] at hmap ⊢
      simp only [Bench.act, Bench.step, Binary.step]
      rw [g1]
      have e1 : (fun j => if j = i then c.head i else c.head j) = c.head := by funext j; split <;> simp_all
      have e2 : (fun j => if j = i then c.count i else c.count j) = c.count := by funext j; split <;> simp_all
      simp only [e1]
      refine ⟨trivial, ⟨rfl, by rw [← hc]; exact e2, fun j => ?_, by intro x y; rw [hmap]; exact h.filed x y⟩, fun j => ?_, ha2⟩
      · have := congrFun e2 j
        simp only at this ⊢
        rw [this]; exact h.holds j
      · have : _ = c.count j := congrFun e2 j
        show (if j = i then c.count i else c.count j) + _ < _
        rw [this]; exact hn j

theorem acts_exact (p : Profile) (H : HashFn) (bs : List Action) : ∀ (as : List Action) (c : Bench E) (m : Tops E), Tied c m →
    (∀ j, c.count j + pushesIn (as ++ bs) < p.leafLimit) → actsOk p (as ++ bs) →
    (c.acts p H as).1 = (m.acts H as).1 ∧ Tied (c.acts p H as).2 (m.acts H as).2 ∧
      (∀ j, (c.acts p H as).2.count j + pushesIn bs < p.leafLimit) ∧ actsOk p bs := by
  intro as
  induction as with
  | nil => intro c m h hn ha; exact ⟨rfl, h, hn, ha⟩
  | cons a as ih =>
    intro c m h hn ha
    obtain ⟨h1, h2, h3, h4⟩ := act_exact p H a (as ++ bs) c m h hn ha
    obtain ⟨g1, g2⟩ := ih _ _ h2 h3 h4
    simp only [Bench.acts, Tops.acts]
    exact ⟨by rw [h1, g1], g2⟩

/-! ### What can go wrong -/

theorem writeTrees_error : ∀ (xs : List (Nat × Bytes32)) (s : BStore E) e, (writeTrees xs s).1 = .error e → ∃ x, e = .err (.storageError x) := by
  intro xs
  induction xs with
  | nil => intro s e h; cases h
  | cons x xs ih =>
    intro s e h
    simp only [writeTrees] at h
    cases hs : s.sched s.clock with
    | none => rw [hs] at h; exact ih _ e h
    | some f => rw [hs] at h; cases h; exact ⟨_, rfl⟩

theorem readHashes_error (hand : List (Nat × Bytes32)) : ∀ (ks : List Nat) (s : BStore E) e, (readHashes hand ks s).1 = .error e →
    (∃ x, e = .err (.storageError x) ∧ ∃ n, s.sched n ≠ none) ∨ ∃ k, e = .err (.loadError k) := by
  intro ks
  induction ks with
  | nil => intro s e h; cases h
  | cons k ks ih =>
    intro s e h
    simp only [readHashes] at h
    cases hs : s.sched s.clock with
    | some f => rw [hs] at h; cases h; exact .inl ⟨_, rfl, _, by rw [hs]; simp⟩
    | none =>
      rw [hs] at h
      simp only at h
      cases hl : (hand.lookup k).or ((s.map k).map Prod.snd) with
      | none => rw [hl] at h; cases h; exact .inr ⟨_, rfl⟩
      | some v =>
        rw [hl] at h
        simp only at h
        have := ih { s with clock := s.clock + 1 }
        rcases hq : readHashes hand ks { s with clock := s.clock + 1 } with ⟨e' | v', s'⟩
        · rw [hq] at this h
          cases h
          exact this e rfl
        · rw [hq] at h; cases h

theorem readHashes_length (hand : List (Nat × Bytes32)) : ∀ (ks : List Nat) (s : BStore E) hs, (readHashes hand ks s).1 = .ok hs → hs.length = ks.length := by
  intro ks
  induction ks with
  | nil => intro s hs h; cases h; rfl
  | cons k ks ih =>
    intro s hs h
    simp only [readHashes] at h
    cases hsc : s.sched s.clock with
    | some f => rw [hsc] at h; cases h
    | none =>
      rw [hsc] at h
      simp only at h
      cases hl : (hand.lookup k).or ((s.map k).map Prod.snd) with
      | none => rw [hl] at h; cases h
      | some v =>
        rw [hl] at h
        simp only at h
        have := ih { s with clock := s.clock + 1 }
        rcases hq : readHashes hand ks { s with clock := s.clock + 1 } with ⟨e' | v', s'⟩
        · rw [hq] at h; cases h
        · rw [hq] at this h
          cases h
          rw [List.length_cons, List.length_cons, this v' rfl]

theorem grownTops_ne (H : HashFn) : ∀ (l : List (Nat × Bytes32)) (x : Nat × Bytes32), grownTops H x l ≠ [] := by
  intro l
  induction l with
  | nil => intro x h; cases h
  | cons y l ih =>
    intro x
    rw [grownTops]
    split
    · exact ih _
    · simp

theorem loaded_ne {n : Nat} (hn : n < 2 ^ 64) (hs : List Bytes32) (hl : hs.length = (peaks 64 0 n).length)
    (h : (((peaks 64 0 n).map Prod.snd).zip hs).reverse = []) : n = 0 := by
  obtain ⟨g, _⟩ := peaks_tops n 64 0 hs (Nat.dvd_zero _) hl
  rw [h, Nat.mod_eq_of_lt hn] at g
  exact g.symm

/-- A tree without subtrees has no leaves, or its last push failed. -/
theorem act_lost (p : Profile) (H : HashFn) (a : Action) (as : List Action) (m : Tops E) (ha : actsOk p (a :: as)) (b : Nat → Bool)
    (h : ∀ i, m.tops i = [] → m.count i = 0 ∨ b i = true) (i : Nat) (hi : (m.act H a).2.tops i = []) :
    (m.act H a).2.count i = 0 ∨ pushFailed i (b i) [(a, (m.act H a).1)] = true := by
  have hlim := p.leafLimit_le
  cases a with
  | new j =>
    simp only [Tops.act, Tops.set, pushFailed] at hi ⊢
    by_cases e : i = j
    · left; rw [if_pos e]
    · rw [if_neg e] at hi ⊢
      rw [if_neg (fun h => e h.symm)]
      exact h i hi
  | load j n =>
    obtain ⟨ha1, _⟩ := ha
    simp only [Tops.act] at hi ⊢
    have hlen := readHashes_length [] ((peaks 64 0 n).map topKey) m.storage
    rcases hq : readHashes [] ((peaks 64 0 n).map topKey) m.storage with ⟨e | v, s'⟩
    · rw [hq] at hi
      simp only [pushFailed] at hi ⊢
      exact h i hi
    · rw [hq] at hi hlen
      simp only [Tops.set, pushFailed] at hi ⊢
      by_cases e : i = j
      · rw [if_pos e] at hi ⊢
        left
        exact loaded_ne (by omega) v (by rw [hlen v rfl, List.length_map]) hi
      · rw [if_neg e] at hi ⊢
        rw [if_neg (fun h => e h.symm)]
        exact h i hi
  | call j op =>
    cases op with
    | push d =>
      simp only [Tops.act] at hi ⊢
      rcases hq : writeTrees ((grown H (1, H ([0x00] ++ d)) (m.tops j)).map (keyed (m.count j + 1))) m.storage with ⟨e | v, s'⟩
      · rw [hq] at hi
        simp only [Tops.set, pushFailed] at hi ⊢
        by_cases e : i = j
        · right; rw [if_pos e.symm]
        · rw [if_neg e] at hi ⊢
          rw [if_neg (fun h => e h.symm)]
          exact h i hi
      · rw [hq] at hi
        simp only [Tops.set, pushFailed] at hi ⊢
        by_cases e : i = j
        · rw [if_pos e] at hi
          exact absurd hi (grownTops_ne H _ _)
        · rw [if_neg e] at hi ⊢
          rw [if_neg (fun h => e h.symm)]
          exact h i hi
    | root =>
      simp only [Tops.act, pushFailed] at hi ⊢
      exact h i hi
    | prove k =>
      have h1 : (m.act H (.call j (.prove k))).2.tops = m.tops ∧ (m.act H (.call j (.prove k))).2.count = m.count := by
        simp only [Tops.act]
        repeat' split
        all_goals exact ⟨rfl, rfl⟩
      rw [h1.1] at hi
      rw [h1.2]
      have h2 : ∀ r : Reply E, pushFailed i (b i) [(.call j (.prove k), r)] = b i := fun r => by simp [pushFailed]
      rw [h2]
      exact h i hi

theorem pushFailed_cons (i : Nat) (x : Action × Reply E) (xs : List (Action × Reply E)) (b : Bool) :
    pushFailed i b (x :: xs) = pushFailed i (pushFailed i b [x]) xs := by
  rcases x with ⟨j | ⟨j, n⟩ | ⟨j, d | _ | k⟩, _ | (_ | _) | ((_ | _) | (_ | _) | (_ | _))⟩ <;> rfl

theorem actsOk_tail {p : Profile} {a : Action} {as : List Action} (h : actsOk p (a :: as)) : actsOk p as := by
  cases a with
  | new i => exact h
  | load i n => exact h.2
  | call i op => cases op with
    | push d => exact h
    | root => exact h
    | prove k => exact h.2

theorem acts_lost (p : Profile) (H : HashFn) (bs : List Action) : ∀ (as : List Action) (m : Tops E) (b : Nat → Bool), actsOk p (as ++ bs) →
    (∀ i, m.tops i = [] → m.count i = 0 ∨ b i = true) → ∀ i, (m.acts H as).2.tops i = [] →
    (m.acts H as).2.count i = 0 ∨ pushFailed i (b i) (as.zip (m.acts H as).1) = true := by
  intro as
  induction as with
  | nil => intro m b _ h i hi; exact h i hi
  | cons a as ih =>
    intro m b ha h i hi
    simp only [Tops.acts] at hi ⊢
    rw [List.zip_cons_cons, pushFailed_cons]
    exact ih (m.act H a).2 (fun i => pushFailed i (b i) [(a, (m.act H a).1)]) (actsOk_tail ha) (act_lost p H a (as ++ bs) m ha b h) i hi

theorem act_panics (H : HashFn) (a : Action) (m : Tops E) (h : (m.act H a).1.Panics) :
    ∃ i k, a = .call i (.prove k) ∧ k < m.count i ∧ m.tops i = [] := by
  cases a with
  | new i => exact h.elim
  | load i n =>
    simp only [Tops.act] at h
    have he := readHashes_error [] ((peaks 64 0 n).map topKey) m.storage
    rcases hq : readHashes [] ((peaks 64 0 n).map topKey) m.storage with ⟨e | v, s'⟩
    · rw [hq] at h he
      obtain ⟨q, hq⟩ := h
      cases hq
      rcases he _ rfl with ⟨x, h, _⟩ | ⟨k, h⟩ <;> cases h
    · rw [hq] at h
      obtain ⟨q, hq⟩ := h
      cases hq
  | call i op =>
    cases op with
    | push d =>
      simp only [Tops.act] at h
      have he := writeTrees_error ((grown H (1, H ([0x00] ++ d)) (m.tops i)).map (keyed (m.count i + 1))) m.storage
      rcases hq : writeTrees ((grown H (1, H ([0x00] ++ d)) (m.tops i)).map (keyed (m.count i + 1))) m.storage with ⟨e | v, s'⟩
      · rw [hq] at h he
        obtain ⟨q, hq⟩ := h
        cases hq
        obtain ⟨x, h⟩ := he _ rfl
        cases h
      · rw [hq] at h
        obtain ⟨q, hq⟩ := h
        cases hq
    | root =>
      obtain ⟨q, hq⟩ := h
      cases hq
    | prove k =>
      refine ⟨i, k, rfl, ?_⟩
      simp only [Tops.act] at h
      by_cases hk : m.count i ≤ k
      · rw [if_pos hk] at h
        obtain ⟨q, hq⟩ := h
        cases hq
      · rw [if_neg hk] at h
        refine ⟨by omega, ?_⟩
        split at h
        · obtain ⟨q, hq⟩ := h
          cases hq
        · split at h
          · obtain ⟨q, hq⟩ := h
            cases hq
          · split at h
            · next ht => exact ht
            · have he := readHashes_error ((madeTops H (m.tops i)).map (keyed (m.count i))).reverse (sideKeys (m.count i) k)
                { m.storage with clock := m.storage.clock + 1 }
              split at h
              · obtain ⟨q, hq⟩ := h
                cases hq
              · next hq2 =>
                rw [hq2] at he
                obtain ⟨q, hq⟩ := h
                cases hq
                rcases he _ rfl with ⟨x, h, _⟩ | ⟨k, h⟩ <;> cases h

theorem act_sched (H : HashFn) (a : Action) (m : Tops E) (hr : m.storage.Reliable) : (m.act H a).2.storage.Reliable := by
  cases a with
  | new i => exact hr
  | load i n =>
    simp only [Tops.act]
    have := readHashes_sched [] ((peaks 64 0 n).map topKey) m.storage
    rcases hq : readHashes [] ((peaks 64 0 n).map topKey) m.storage with ⟨e | v, s'⟩ <;>
    · rw [hq] at this
      intro t
      exact (congrFun this t).trans (hr t)
  | call i op =>
    cases op with
    | push d =>
      simp only [Tops.act]
      have := (writeTrees_reliable ((grown H (1, H ([0x00] ++ d)) (m.tops i)).map (keyed (m.count i + 1))) m.storage hr).2.1
      rcases hq : writeTrees ((grown H (1, H ([0x00] ++ d)) (m.tops i)).map (keyed (m.count i + 1))) m.storage with ⟨e | v, s'⟩ <;>
      · rw [hq] at this
        intro t
        exact (congrFun this t).trans (hr t)
    | root => exact hr
    | prove k =>
      simp only [Tops.act]
      split
      · exact hr
      · split
        · exact hr
        · split
          · exact hr
          · split
            · exact hr
            · have := readHashes_sched ((madeTops H (m.tops i)).map (keyed (m.count i))).reverse (sideKeys (m.count i) k)
                { m.storage with clock := m.storage.clock + 1 }
              split <;>
              · next hq =>
                rw [hq] at this
                intro t
                exact (congrFun this t).trans (hr t)

theorem act_fair (H : HashFn) (a : Action) (m : Tops E) (hr : m.storage.Reliable) (h : ∀ i, m.tops i = [] → m.count i = 0) :
    (m.act H a).1.Fair := by
  cases a with
  | new i => trivial
  | load i n =>
    simp only [Tops.act]
    have he := readHashes_error [] ((peaks 64 0 n).map topKey) m.storage
    rcases hq : readHashes [] ((peaks 64 0 n).map topKey) m.storage with ⟨e | v, s'⟩
    · rw [hq] at he
      rcases he e rfl with ⟨_, _, n, hn⟩ | ⟨k, rfl⟩
      · exact absurd (hr n) hn
      · exact .inr ⟨k, rfl⟩
    · exact .inl rfl
  | call i op =>
    cases op with
    | push d =>
      simp only [Tops.act]
      have := (writeTrees_reliable ((grown H (1, H ([0x00] ++ d)) (m.tops i)).map (keyed (m.count i + 1))) m.storage hr).1
      rcases hq : writeTrees ((grown H (1, H ([0x00] ++ d)) (m.tops i)).map (keyed (m.count i + 1))) m.storage with ⟨e | v, s'⟩
      · rw [hq] at this; cases this
      · exact rfl
    | root => exact ⟨_, rfl⟩
    | prove k =>
      simp only [Tops.act]
      split
      · exact .inr (.inr ⟨_, rfl⟩)
      · split
        · next f hf => exact absurd (hr _) (by rw [hf]; simp)
        · split
          · exact .inr (.inl ⟨_, rfl⟩)
          · split
            · next hk _ _ _ _ ht => have := h i ht; omega
            · have he := readHashes_error ((madeTops H (m.tops i)).map (keyed (m.count i))).reverse (sideKeys (m.count i) k)
                { m.storage with clock := m.storage.clock + 1 }
              split
              · exact .inl ⟨_, rfl⟩
              · next hq =>
                rw [hq] at he
                rcases he _ rfl with ⟨_, _, n, hn⟩ | ⟨k, rfl⟩
                · exact absurd (hr n) hn
                · exact .inr (.inl ⟨_, rfl⟩)

theorem fair_pushFailed (i : Nat) (a : Action) (r : Reply E) (h : r.Fair) : pushFailed i false [(a, r)] = false := by
  rcases a with j | ⟨j, n⟩ | ⟨j, d | _ | k⟩ <;> rcases r with _ | (_ | _) | ((_ | _) | (_ | _) | (_ | _)) <;> try rfl
  all_goals first | (cases h; done) | (simp [pushFailed]; done)

theorem acts_fair (p : Profile) (H : HashFn) : ∀ (as : List Action) (m : Tops E), actsOk p as → m.storage.Reliable →
    (∀ i, m.tops i = [] → m.count i = 0) → ∀ r ∈ (m.acts H as).1, r.Fair := by
  intro as
  induction as with
  | nil => intro m _ _ _ r hr; cases hr
  | cons a as ih =>
    intro m ha hr h r hx
    have hf := act_fair H a m hr h
    simp only [Tops.acts] at hx
    rcases List.mem_cons.1 hx with rfl | hx
    · exact hf
    · refine ih (m.act H a).2 (actsOk_tail ha) (act_sched H a m hr) (fun i hi => ?_) r hx
      rcases act_lost p H a as m ha (fun _ => false) (fun i hi => .inl (h i hi)) i hi with h1 | h1
      · exact h1
      · rw [fair_pushFailed i a _ hf] at h1; cases h1

end Binary
end FuelMerkle
