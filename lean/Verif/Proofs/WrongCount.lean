import Verif.Proofs.BinaryRun
import Verif.Proofs.PathAny

/-
Leaf counts of `2^63` and more: what `load`, `push` and `prove` compute from them.
-/
namespace FuelMerkle
open Spec

/-! ### The path from the position of height 64 -/

/-- The position that `root_position` computes for `2^63 ≤ n < 2^64 - 1` without overflow
checks. Both its "children" are the position of height 63. -/
theorem child_64 (p : Profile) (hp : p.overflowChecks = false) :
    (⟨2 ^ 64 - 1⟩ : Position).leftChild p = .ok (posOf 63 0) ∧
      (⟨2 ^ 64 - 1⟩ : Position).rightChild p = .ok (posOf 63 0) := by
  obtain ⟨a, b, w⟩ := p
  simp only at hp
  subst hp
  cases b <;> cases w <;> exact ⟨by decide +kernel, by decide +kernel⟩

theorem pnext_64 (p : Profile) (hp : p.overflowChecks = false) {i : Nat} (hi : i < 2 ^ 63) (s : Position) :
    (pstate i 64 (some (⟨2 ^ 64 - 1⟩, s))).next (positionNode p) =
      .ok (some (.ok ⟨2 ^ 64 - 1⟩, .ok s), pstate i 63 (some (posOf 63 0, posOf 63 0))) := by
  unfold PathIter.next pstate
  simp only [Option.map_some]
  have h1 : (positionNode p).isNode ⟨2 ^ 64 - 1⟩ = true := by
    simp only [positionNode]; decide +kernel
  have h2 : (positionNode p).leafKey (posOf 0 i) = .ok (u64ToBeBytes i) := by
    simp [positionNode, leafIndex_posOf]
  have h3 : (positionNode p).leftChild ⟨2 ^ 64 - 1⟩ = .ok (.ok (posOf 63 0)) := by
    simp only [positionNode, (child_64 p hp).1]; rfl
  have h4 : (positionNode p).rightChild ⟨2 ^ 64 - 1⟩ = .ok (.ok (posOf 63 0)) := by
    simp only [positionNode, (child_64 p hp).2]; rfl
  rw [h1, h2, h3, h4]
  simp only [if_true, Res.ok_bind, Res.pure_eq]
  rw [getBit_u64 (by omega) (by omega)]
  cases i.testBit (63 - (64 - 64)) <;> simp

theorem descendLeft_64 (p : Profile) (hp : p.overflowChecks = false) {n f : Nat} (hn : 1 ≤ n) (hn2 : n ≤ 2 ^ 63)
    (hf : 63 < f) :
    PositionPathIter.descendLeft p (posOf 0 (n - 1)) (f + 1) ⟨2 ^ 64 - 1⟩ = .ok (rangePos 0 n) := by
  rw [PositionPathIter.descendLeft, if_pos, (child_64 p hp).1, Res.ok_bind,
    descendLeft_eq p hf (by simp [Profile.topHeight, hp]) (by omega) (mul_two_pow_lt (by omega) (by omega))]
  · rw [Nat.zero_mul, Nat.sub_zero, Nat.min_eq_right hn2]
  · simp only [Position.inOrderIndex, posOf, ioIndex_zero_left]; omega

theorem qcollect_skip (p : Profile) {n i g : Nat} (hg : g = 63) (top : Position) (hn : n ≤ 2 ^ g) (hi : i < n) (htop : p.topHeight = g)
    (hgt : 2 * (n - 1) < top.index)
    (hnext : (pstate i 64 (some (top, top))).next (positionNode p) =
      .ok (some (.ok top, .ok top), pstate i g (some (posOf g 0, posOf g 0))))
    (hdl : PositionPathIter.descendLeft p (posOf 0 (n - 1)) 66 top = .ok (rangePos 0 n)) :
    PositionPathIter.collect p (PathIter.fuel (positionNode p))
      { rightmostPosition := posOf 0 (n - 1), currentSideNode := none, pathIter := pstate i 64 (some (top, top)) } =
    .ok (rangesToPos (shapePath 0 n i (0, n))) := by
  have hmin : min (2 ^ g) (n - 0 * 2 ^ g) = n := by omega
  have hn' : n ≤ 2 ^ 63 := hg ▸ hn
  have hfuel : PathIter.fuel (positionNode p) = 65 + 1 := rfl
  rw [hfuel]
  -- the first step is skipped
  have hskip : PositionPathIter.next p (65 + 1)
      { rightmostPosition := posOf 0 (n - 1), currentSideNode := none, pathIter := pstate i 64 (some (top, top)) } =
      PositionPathIter.next p 65
      { rightmostPosition := posOf 0 (n - 1), currentSideNode := some top,
        pathIter := pstate i g (some (posOf g 0, posOf g 0)) } := by
    rw [PositionPathIter.next, hnext]
    simp only [Res.ok_bind]
    rw [if_neg]
    · rfl
    · simp only [Position.inOrderIndex, posOf, ioIndex_zero_left]; omega
  have hd : PositionPathIter.descendLeft p (posOf 0 (n - 1)) 66 ((some top : Option Position).getD (posOf g 0)) =
      .ok (rangePos 0 n) := hdl
  have h1 : ∀ f, g < f → _ := fun f hf =>
    qnext p (n := n) (i := i) (g := g) (k := 0) (f := f) (posOf g 0) (some top) (rangePos 0 n) hf
      (by omega) hn' (by omega) (by rw [hmin]; omega) hd
  have hc := qcollect p (n := n) (i := i) (g := g) (k := 0) (f := 65 + 1) (posOf g 0) (some top) (0, n)
    (by omega) (by omega) hn' (by omega) (by rw [hmin]; omega) hd
  rw [hmin, Nat.zero_mul] at hc
  rw [← hc, PositionPathIter.collect, PositionPathIter.collect, hfuel, hskip, h1 65 (by omega), h1 (65 + 1) (by omega)]

theorem pathList_64 (p : Profile) (hp : p.overflowChecks = false) {n i : Nat} (hn : n ≤ 2 ^ 63) (hi : i < n) :
    (⟨2 ^ 64 - 1⟩ : Position).pathList p (posOf 0 i) n = .ok (rangesToPos (shapePath 0 n i (0, n))) := by
  have hh : (⟨2 ^ 64 - 1⟩ : Position).height = 64 := by decide +kernel
  have htop : p.topHeight = 63 := by unfold Profile.topHeight; rw [hp]; rfl
  have h1 := pnext_64 p hp (i := i) (by omega) ⟨2 ^ 64 - 1⟩
  have h2 := descendLeft_64 p hp (n := n) (f := 65) (by omega) hn (by omega)
  have h3 : (⟨2 ^ 64 - 1⟩ : Position).index = 2 ^ 64 - 1 := rfl
  generalize (⟨2 ^ 64 - 1⟩ : Position) = top at *
  have key := qcollect_skip p rfl top hn hi htop (by omega) h1 h2
  unfold Position.pathList PositionPathIter.new PathIter.new
  rw [new_lift, hh]
  simp only [u64Sub, if_pos (show 1 ≤ n by omega), Res.ok_bind]
  rw [fromLeafIndex_ok p (by omega)]
  simp only [Res.ok_bind, Res.pure_eq]
  exact key

theorem fromLeafIndex_wrap (p : Profile) (hp : p.overflowChecks = false) {l M : Nat} (hM : M = 2 ^ 63)
    (h1 : l < M) : Position.fromLeafIndex p (l + M) = .ok (posOf 0 l) := by
  simp only [Position.fromLeafIndex, u64Mul]
  rw [if_neg (by omega), hp]
  simp only [Bool.false_eq_true, if_false, Res.ok_bind, posOf, ioIndex_zero_left, Res.pure_eq]
  have : (l + M) * 2 % 2 ^ 64 = 2 * l := by omega
  rw [this]

theorem pathList_wrap (p : Profile) (hp : p.overflowChecks = false) (root leaf : Position) {n M : Nat}
    (hM : M = 2 ^ 63) (h1 : 1 ≤ n) (h2 : n ≤ M) : root.pathList p leaf (n + M) = root.pathList p leaf n := by
  unfold Position.pathList PositionPathIter.new u64Sub
  rw [if_pos (show 1 ≤ n + M by omega), if_pos h1]
  simp only [Res.ok_bind]
  have e : n + M - 1 = n - 1 + M := by omega
  rw [e, fromLeafIndex_wrap p hp hM (by omega), fromLeafIndex_ok p (by omega)]

namespace Binary
variable {E : Type}

theorem rootPosition_wrap (p : Profile) (hp : p.overflowChecks = false) {n M : Nat} (hM : M = 2 ^ 63)
    (hn : n + 1 < M) : rootPosition p (n + M) = .ok ⟨2 ^ 64 - 1⟩ := by
  have hl : Nat.log2 (n + M) = 63 := by
    rw [Nat.log2_eq_iff (by omega)]
    omega
  unfold rootPosition u64NextPowerOfTwo
  rw [u64Add, if_pos (by omega), Res.ok_bind]
  dsimp only
  rw [if_neg (by omega), Nat.add_sub_cancel, hl, u64Add, if_neg (by omega), hp]
  simp only [Bool.false_eq_true, if_false, Res.ok_bind, u64Sub]
  have e : (2 ^ (63 + 1) - 1 + 1) % 2 ^ 64 = 0 := by decide
  rw [e, if_neg (by omega), hp]
  simp only [Bool.false_eq_true, if_false, Res.ok_bind, Res.pure_eq, Position.fromInOrderIndex, Nat.zero_add]

theorem peakPositions_wrap (p : Profile) (hp : p.overflowChecks = false) {n M : Nat} (hM : M = 2 ^ 63)
    (hn : n + 1 < M) : peakPositions p (n + M) = peakPositions p n := by
  have hlim : p.leafLimit = 2 ^ 63 := by unfold Profile.leafLimit; rw [hp]; rfl
  rw [peakPositions_spec p (n := n) (by omega)]
  unfold peakPositions
  have e : n + M + 1 = n + 1 + M := by omega
  rw [u64Add, if_pos (by omega), Res.ok_bind, u64Sub, if_pos (by omega), Res.ok_bind, Nat.add_sub_cancel,
    fromLeafIndex_wrap p hp hM (by omega), Res.ok_bind, rootPosition_wrap p hp hM hn, Res.ok_bind,
    e, pathList_wrap p hp _ _ hM (by omega) (by omega), pathList_64 p hp (by omega) (by omega)]
  simp [rangesToPos, peakRanges, Function.comp_def]

theorem peakPositions_max (p : Profile) (hp : p.overflowChecks = false) : peakPositions p (2 ^ 64 - 1) = .ok [] := by
  obtain ⟨a, b, w⟩ := p
  simp only at hp
  subst hp
  cases b <;> cases w <;> decide +kernel

theorem peakPositions_zero (p : Profile) : peakPositions p 0 = .ok [] := by
  rw [peakPositions_spec p (p.lt_leafLimit (by decide)), peakRanges_one]
  rfl

theorem peakPositions_checked (p : Profile) (hp : p.overflowChecks = true) {n : Nat} (h1 : 2 ^ 62 ≤ n) :
    peakPositions p n = .error .overflow := by
  unfold peakPositions
  rcases Nat.lt_or_ge n (2 ^ 63) with h2 | h2
  · have hc : ceilLog2 (n + 1) = 63 := ceilLog2_eq (g := 62) (by omega) (by omega)
    rw [u64Add, if_pos (by omega), Res.ok_bind, u64Sub, if_pos (by omega), Res.ok_bind,
      fromLeafIndex_ok p (by omega), Res.ok_bind, rootPosition_spec p (by omega), Res.ok_bind, hc,
      pathList_panic p hp (by omega) (by omega) (by omega)]
    rfl
  · unfold u64Add
    rw [hp]
    split
    · rw [Res.ok_bind, u64Sub, if_pos (by omega), Res.ok_bind]
      unfold Position.fromLeafIndex u64Mul
      rw [if_neg (by omega), hp]
      rfl
    · rfl

/-! ### A tree whose count is `2^63` too large -/

/-- The same tree with another leaf count. -/
def Tree.counting (n : Nat) (t : Tree E) : Tree E := { t with leavesCount := n }

/-- The computation does not see the leaf count. -/
def Blind {α : Type} (f : TreeM E α) : Prop :=
  ∀ (t : Tree E) (n : Nat), f (t.counting n) = ((f t).1, (f t).2.counting n)

namespace Blind
variable {α β : Type}

theorem pure (a : α) : Blind (E := E) (Pure.pure a) := fun _ _ => rfl
theorem throw (e : Fail (Error E)) : Blind (α := α) (Exec.throw e) := fun _ _ => rfl
theorem liftRes (x : Res α) : Blind (E := E) (Exec.liftRes x) := by
  cases x <;> exact fun _ _ => rfl
theorem onStorage (f : BStore E → Except E α × BStore E) : Blind (Binary.onStorage f) := by
  intro t n
  unfold Binary.onStorage Tree.counting
  dsimp only
  cases f t.storage with
  | mk r s => cases r <;> rfl
theorem setHead (f : Tree E → List Node) (hf : ∀ t n, f (t.counting n) = f t) :
    Blind (Exec.modify fun t : Tree E => { t with head := f t }) := by
  intro t n
  simp only [Exec.modify_apply, hf]
  rfl
theorem bind {x : TreeM E α} {f : α → TreeM E β} (hx : Blind x) (hf : ∀ a, Blind (f a)) : Blind (x >>= f) := by
  intro t n
  simp only [Exec.bind_apply]
  rw [hx]
  cases x t with
  | mk r t' =>
    cases r with
    | error e => rfl
    | ok a => exact hf a t' n
end Blind

theorem joinAllLoop_blind (p : Profile) (H : HashFn) (rest : List Node) :
    ∀ current, Blind (E := E) (joinAllLoop p H current rest) := by
  induction rest with
  | nil => intro current; exact .pure ()
  | cons next rest ih =>
    intro current
    rw [joinAllLoop]
    split
    · refine (Blind.setHead (fun _ => []) fun _ _ => rfl).bind fun _ => (Blind.liftRes _).bind fun joined =>
        (Blind.onStorage _).bind fun _ => (Blind.setHead (fun _ => joined :: rest) fun _ _ => rfl).bind fun _ => ih joined
    · exact .pure ()

theorem joinAllSubtrees_blind (p : Profile) (H : HashFn) : Blind (E := E) (joinAllSubtrees p H) := by
  intro t n
  unfold joinAllSubtrees
  obtain ⟨st, hd, c⟩ := t
  rw [Exec.get_bind, Exec.get_bind]
  cases hd with
  | nil => rfl
  | cons current rest => exact joinAllLoop_blind p H rest current _ n

theorem buildLoop_blind (ps : List Position) : ∀ hd, Blind (E := E) (buildLoop ps hd) := by
  induction ps with
  | nil => intro hd; exact .pure hd
  | cons x ps ih =>
    intro hd
    rw [buildLoop]
    refine (Blind.onStorage _).bind fun v => ?_
    cases v with
    | none => exact .throw _
    | some q => exact ih _

theorem proveSides_blind (S : Scratch) (ps : List Position) : Blind (E := E) (proveSides S ps) := by
  induction ps with
  | nil => exact .pure []
  | cons x ps ih =>
    rw [proveSides]
    refine (Blind.onStorage _).bind fun v => ?_
    cases (S x.inOrderIndex).or v with
    | none => exact .throw _
    | some q => exact ih.bind fun _ => .pure _

theorem load_counting (p : Profile) (s : BStore E) {n m : Nat} (h : peakPositions p n = peakPositions p m) :
    Tree.load p s n = ((Tree.load p s m).1.map (Tree.counting n), (Tree.load p s m).2) := by
  unfold Tree.load build
  dsimp only
  rw [Exec.get_bind, Exec.get_bind]
  dsimp only
  rw [h]
  cases peakPositions p m with
  | error e => rfl
  | ok ps =>
    rw [Exec.liftRes_ok_bind, Exec.liftRes_ok_bind]
    have hb := buildLoop_blind ps [] ({ storage := s, head := [], leavesCount := m } : Tree E) n
    unfold Tree.counting at hb
    dsimp only at hb
    rw [Exec.bind_apply, Exec.bind_apply, hb]
    cases buildLoop ps [] ({ storage := s, head := [], leavesCount := m } : Tree E) with
    | mk r t => cases r <;> rfl

theorem push_counting (p : Profile) (hp : p.overflowChecks = false) (H : HashFn) (d : Bytes) (t : Tree E) {n M : Nat}
    (hM : M = 2 ^ 63) (hc : t.leavesCount = n) (hn : n + 1 < M) (t' : Tree E) (h : push p H d t = (.ok (), t')) :
    push p H d (t.counting (n + M)) = (.ok (), t'.counting (t'.leavesCount + M)) := by
  have hl : ∀ x, x < M → Node.createLeaf p H (x + M) d = Node.createLeaf p H x d := by
    intro x hx
    unfold Node.createLeaf
    rw [fromLeafIndex_wrap p hp hM hx, fromLeafIndex_ok p (by omega)]
  unfold push at h ⊢
  rw [Exec.get_bind] at h ⊢
  have e : (t.counting (n + M)).leavesCount = n + M := rfl
  rw [e, hl n (by omega)]
  rw [hc] at h
  cases hcl : Node.createLeaf p H n d with
  | error e => rw [hcl] at h; cases h
  | ok node =>
    rw [hcl, Exec.liftRes_ok_bind] at h
    rw [Exec.liftRes_ok_bind]
    have hb1 : Blind (E := E) (do
        let _ ← onStorage (Store.insert node.key node.toPrim)
        Exec.modify fun t => { t with head := node :: t.head }
        joinAllSubtrees p H) :=
      (Blind.onStorage _).bind fun _ => (Blind.setHead (fun t => node :: t.head) fun _ _ => rfl).bind fun _ =>
        joinAllSubtrees_blind p H
    have hassoc : ∀ k : Unit → TreeM E Unit, (do
        let _ ← onStorage (Store.insert node.key node.toPrim)
        Exec.modify fun t => { t with head := node :: t.head }
        joinAllSubtrees p H
        k ()) = ((do
        let _ ← onStorage (Store.insert node.key node.toPrim)
        Exec.modify fun t => { t with head := node :: t.head }
        joinAllSubtrees p H) >>= k) := by
      intro k
      rw [Exec.bind_assoc]
      congr 1
    have hk := hassoc fun _ => (do
      let t ← Exec.get
      let n ← Exec.liftRes (u64Add p t.leavesCount 1)
      Exec.modify fun t => { t with leavesCount := n })
    have h := (congrFun hk t).symm.trans h
    refine (congrFun hk _).trans ?_
    clear hk hassoc
    generalize (do
        let _ ← onStorage (Store.insert node.key node.toPrim)
        Exec.modify fun t => { t with head := node :: t.head }
        joinAllSubtrees p H : TreeM E Unit) = x at *
    rw [Exec.bind_apply] at h ⊢
    have hcount := hb1 t t.leavesCount
    rw [hb1 t (n + M)]
    change x t = _ at hcount
    cases hx : x t with
    | mk r t1 =>
      rw [hx] at h hcount
      have hcount2 : t1.leavesCount = t.leavesCount := congrArg (fun q => q.2.leavesCount) hcount
      cases r with
      | error e => cases h
      | ok u =>
        dsimp only at h ⊢
        rw [Exec.get_bind] at h ⊢
        have e1 : (t1.counting (n + M)).leavesCount = n + M := rfl
        rw [hcount2, hc, u64Add, if_pos (by omega), Exec.liftRes_ok_bind, Exec.modify_apply] at h
        rw [e1, u64Add, if_pos (by omega), Exec.liftRes_ok_bind, Exec.modify_apply]
        have h := (Prod.mk.inj h).2
        subst h
        unfold Tree.counting
        dsimp only
        rw [show n + M + 1 = n + 1 + M by omega]

theorem prove_counting (p : Profile) (hp : p.overflowChecks = false) (H : HashFn) (t : Tree E) {i n M : Nat}
    (hM : M = 2 ^ 63) (hc : t.leavesCount = n) (hn : n + 1 < M) (hi : i < n) :
    prove p H i (t.counting (n + M)) = ((prove p H i t).1, (prove p H i t).2.counting (n + M)) := by
  have hlim : p.leafLimit = 2 ^ 63 := by unfold Profile.leafLimit; rw [hp]; rfl
  unfold prove
  rw [Exec.get_bind, Exec.get_bind]
  have e : (t.counting (n + M)).leavesCount = n + M := rfl
  have e2 : (t.counting (n + M)).head = t.head := rfl
  rw [e, e2, hc, u64Add, if_pos (by omega), Exec.liftRes_ok_bind, Exec.liftRes_ok_bind, if_neg (by omega),
    if_neg (by omega), rootPosition_wrap p hp hM hn, rootPosition_spec p (by omega), Exec.liftRes_ok_bind,
    Exec.liftRes_ok_bind, fromLeafIndex_ok p (by omega), Exec.liftRes_ok_bind, Exec.liftRes_ok_bind]
  have hpath : (⟨2 ^ 64 - 1⟩ : Position).pathList p (posOf 0 i) (n + M) =
      (posOf (ceilLog2 (n + 1)) 0).pathList p (posOf 0 i) n := by
    rw [pathList_wrap p hp _ _ hM (by omega) (by omega), pathList_64 p hp (by omega) hi,
      pathList_eq p (ceilLog2_top p (by omega)) (by omega) hi]
    have := (ceilLog2_le_iff (n + 1) _).1 (Nat.le_refl _)
    omega
  rw [hpath]
  generalize (posOf (ceilLog2 (n + 1)) 0).pathList p (posOf 0 i) n = x
  refine ((Blind.onStorage _).bind fun v => ?_) t (n + M)
  cases v with
  | none => exact .throw _
  | some q =>
    refine (Blind.liftRes _).bind fun items => (Blind.liftRes _).bind fun y => ?_
    obtain ⟨r, S⟩ := y
    exact (Blind.liftRes _).bind fun _ => (proveSides_blind _ _).bind fun _ => .pure _

theorem root_counting (p : Profile) (H : HashFn) (t : Tree E) (n : Nat) : (t.counting n).root p H = t.root p H := rfl

end Binary
end FuelMerkle
