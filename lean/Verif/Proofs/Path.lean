import Verif.Model.PathIter
import Verif.Proofs.Position
import Verif.Proofs.Msb
import Verif.Spec.Rfc6962

/-
Path iteration over positions.
-/
namespace FuelMerkle
open Spec

theorem ceilLog2_le_iff (r c : Nat) : ceilLog2 r ≤ c ↔ r ≤ 2 ^ c := by
  have := Nat.two_pow_pos c
  unfold ceilLog2
  split
  · simp; omega
  · have h := Nat.log2_lt (k := c) (n := r - 1) (by omega)
    omega

theorem lt_ceilLog2_iff (r c : Nat) : c < ceilLog2 r ↔ 2 ^ c < r := by
  have := ceilLog2_le_iff r c
  omega

theorem ceilLog2_eq {r g : Nat} (h1 : 2 ^ g < r) (h2 : r ≤ 2 ^ (g + 1)) : ceilLog2 r = g + 1 := by
  have := (lt_ceilLog2_iff r g).2 h1
  have := (ceilLog2_le_iff r (g + 1)).2 h2
  omega

theorem ceilLog2_zero_iff (r : Nat) : ceilLog2 r = 0 ↔ r ≤ 1 := by
  have := ceilLog2_le_iff r 0
  omega

theorem ceilLog2_two_pow (g : Nat) : ceilLog2 (2 ^ g) = g := by
  have h1 := (ceilLog2_le_iff (2 ^ g) g).2 (Nat.le_refl _)
  cases g with
  | zero => omega
  | succ g =>
    have := (lt_ceilLog2_iff (2 ^ (g + 1)) g).2 (Nat.pow_lt_pow_right (by omega) (by omega))
    omega

theorem split_eq {r : Nat} (h : 1 < r) : split r = 2 ^ (ceilLog2 r - 1) := by
  unfold split ceilLog2
  rw [if_neg (by omega), Nat.add_sub_cancel]

/-- The position of the subtree over `r` leaves starting at leaf `a`. -/
def rangePos (a r : Nat) : Position := ⟨rangeIndex (a, r)⟩

theorem rangePos_eq {a r k : Nat} (h : a = k * 2 ^ ceilLog2 r) :
    rangePos a r = posOf (ceilLog2 r) k := by
  unfold rangePos posOf rangeIndex ioIndex
  simp only [h]
  rw [Nat.pow_succ]
  congr 2
  ring

/-! ### The plain path iterator -/

/-- State of the path iterator at height `g`. -/
def pstate (i g : Nat) (cur : Option (Position × Position)) : PathIter Position Empty :=
  { leaf := posOf 0 i, current := cur.map fun c => (.ok c.1, .ok c.2), currentOffset := 64 - g }

theorem mul_two_pow_lt {h k N : Nat} (hN : h < N) (hk : k < 2 ^ (N - 1 - h)) :
    ioIndex h k < 2 ^ N := (ioIndex_lt_iff k hN).2 hk

theorem pnext_node (p : Profile) {i g k : Nat} (s : Position) (hi : i < 2 ^ 63) (hg : g < p.topHeight)
    (hb : ioIndex (g + 1) k < 2 ^ 64) :
    (pstate i (g + 1) (some (posOf (g + 1) k, s))).next (positionNode p) =
      .ok (some (.ok (posOf (g + 1) k), .ok s),
        pstate i g (some (if i.testBit g then (posOf g (2 * k + 1), posOf g (2 * k))
          else (posOf g (2 * k), posOf g (2 * k + 1))))) := by
  have htop := p.topHeight_le
  unfold PathIter.next pstate
  simp only [Option.map_some]
  have h1 : (positionNode p).isNode (posOf (g + 1) k) = true := by
    simp [positionNode, isNode_posOf]
  have h2 : (positionNode p).leafKey (posOf 0 i) = .ok (u64ToBeBytes i) := by
    simp [positionNode, leafIndex_posOf]
  have h3 : (positionNode p).leftChild (posOf (g + 1) k) = .ok (.ok (posOf g (2 * k))) := by
    simp [positionNode, (child_top p hb hg).1]
  have h4 : (positionNode p).rightChild (posOf (g + 1) k) = .ok (.ok (posOf g (2 * k + 1))) := by
    simp [positionNode, (child_top p hb hg).2]
  rw [h1, h2, h3, h4]
  simp only [if_true, Res.ok_bind, Res.pure_eq]
  rw [getBit_u64 (by omega) (by omega)]
  rw [show 63 - (64 - (g + 1)) = g by omega]
  have e : 63 - g + 1 = 64 - g := by omega
  cases i.testBit g <;> simp [e]

theorem pnext_leaf (p : Profile) {i k : Nat} (s : Position) :
    (pstate i 0 (some (posOf 0 k, s))).next (positionNode p) =
      .ok (some (.ok (posOf 0 k), .ok s), pstate i 0 none) := by
  unfold PathIter.next pstate
  simp [positionNode, isNode_posOf]

theorem pnext_none (p : Profile) (i g : Nat) :
    (pstate i g none).next (positionNode p) = .ok (none, pstate i g none) := by
  unfold PathIter.next pstate
  simp

/-! ### Descending to the leftmost existing node -/

theorem descendLeft_eq (p : Profile) {n g k f : Nat} (hf : g < f) (hg : g ≤ p.topHeight)
    (hn : k * 2 ^ g < n) (hb : ioIndex g k < 2 ^ 64) :
    PositionPathIter.descendLeft p (posOf 0 (n - 1)) f (posOf g k) =
      .ok (rangePos (k * 2 ^ g) (min (2 ^ g) (n - k * 2 ^ g))) := by
  have htop := p.topHeight_le
  induction g generalizing k f with
  | zero =>
    cases f with
    | zero => omega
    | succ f =>
      rw [PositionPathIter.descendLeft]
      have e : min (2 ^ 0) (n - k * 2 ^ 0) = 1 := by simp at *; omega
      rw [if_neg, e, rangePos_eq (k := k) (by simp [ceilLog2])]
      · simp [ceilLog2]
      · simp only [Position.inOrderIndex, posOf, ioIndex_zero_left]; simp at hn; omega
  | succ g ih =>
    cases f with
    | zero => omega
    | succ f =>
      rw [PositionPathIter.descendLeft]
      have hs := ioIndex_succ (g + 1) k
      have hpos := Nat.two_pow_pos g
      have e1 : 2 ^ (g + 1) * (2 * k + 1) = 2 * (k * 2 ^ (g + 1)) + 2 * 2 ^ g := by ring
      by_cases hv : 2 ^ g < n - k * 2 ^ (g + 1)
      · rw [if_neg]
        · have : ceilLog2 (min (2 ^ (g + 1)) (n - k * 2 ^ (g + 1))) = g + 1 := by
            apply ceilLog2_eq
            · generalize k * 2 ^ (g + 1) = A at *
              rw [Nat.pow_succ]; omega
            · omega
          rw [rangePos_eq (k := k) (by rw [this]), this]; rfl
        · simp only [Position.inOrderIndex, posOf, ioIndex_zero_left]; omega
      · rw [if_pos]
        · rw [(child_top p hb (by omega)).1]
          simp only [Res.ok_bind]
          have e2 : k * 2 ^ (g + 1) = (2 * k) * 2 ^ g := by ring
          have hb' : ioIndex g (2 * k) < 2 ^ 64 := by
            have := ioIndex_succ g (2 * k)
            have : 2 ^ g * (2 * (2 * k) + 1) + 2 ^ g = 2 ^ (g + 1) * (2 * k + 1) := by ring
            omega
          rw [ih (by omega) (by omega) (by rw [← e2]; exact hn) hb', ← e2]
          congr 2
          generalize k * 2 ^ (g + 1) = A at *
          rw [Nat.pow_succ]; omega
        · simp only [Position.inOrderIndex, posOf, ioIndex_zero_left]; omega

/-! ### The position path iterator -/

/-- State after the item of the subtree `(c, i / 2 ^ c)` has been produced. -/
def afterState (i : Nat) : Nat → PathIter Position Empty
  | 0 => pstate i 0 none
  | c + 1 => pstate i c (some (posOf c (i / 2 ^ c), posOf c (sibIdx (i / 2 ^ c))))

theorem child_choice (i g k : Nat) (hk : k = i / 2 ^ (g + 1)) :
    (if i.testBit g then (posOf g (2 * k + 1), posOf g (2 * k))
      else (posOf g (2 * k), posOf g (2 * k + 1))) =
      (posOf g (i / 2 ^ g), posOf g (sibIdx (i / 2 ^ g))) := by
  have e : i / 2 ^ (g + 1) = i / 2 ^ g / 2 := by
    rw [Nat.pow_succ, Nat.div_div_eq_div_mul]
  rw [Nat.testBit_eq_decide_div_mod_eq]
  unfold sibIdx
  by_cases hb : i / 2 ^ g % 2 = 1
  · rw [if_pos (by simpa using hb), if_neg (by omega)]
    congr 2 <;> omega
  · rw [if_neg (by simpa using hb), if_pos (by omega)]
    congr 2 <;> omega

theorem div_of_range {i k g r : Nat} (h1 : k * 2 ^ g ≤ i) (h2 : i < k * 2 ^ g + r) (hr : r ≤ 2 ^ g) :
    i / 2 ^ g = k := by
  have : i / 2 ^ g = k := by
    apply Nat.div_eq_of_lt_le
    · exact h1
    · rw [Nat.succ_mul]; omega
  exact this

theorem qnext (p : Profile) {n i g k f : Nat} (s : Position) (cs : Option Position) (sp : Position)
    (hf : g < f) (hg : g ≤ p.topHeight) (hn : n ≤ 2 ^ 63)
    (h1 : k * 2 ^ g ≤ i) (h2 : i < k * 2 ^ g + min (2 ^ g) (n - k * 2 ^ g))
    (hd : PositionPathIter.descendLeft p (posOf 0 (n - 1)) 66 (cs.getD s) = .ok sp) :
    PositionPathIter.next p f
      { rightmostPosition := posOf 0 (n - 1), currentSideNode := cs,
        pathIter := pstate i g (some (posOf g k, s)) } =
    .ok (some (rangePos (k * 2 ^ g) (min (2 ^ g) (n - k * 2 ^ g)), sp),
      { rightmostPosition := posOf 0 (n - 1), currentSideNode := none,
        pathIter := afterState i (ceilLog2 (min (2 ^ g) (n - k * 2 ^ g))) }) := by
  have htop := p.topHeight_le
  induction g generalizing k f s cs with
  | zero =>
    cases f with
    | zero => omega
    | succ f =>
      have e : min (2 ^ 0) (n - k * 2 ^ 0) = 1 := by simp at *; omega
      rw [PositionPathIter.next, pnext_leaf]
      simp only [Res.ok_bind]
      rw [if_pos]
      · rw [show PositionPathIter.descendLeft p (posOf 0 (n - 1)) 66 _ = .ok sp by
          cases cs <;> exact hd]
        simp only [Res.ok_bind, Res.pure_eq, e]
        rw [rangePos_eq (k := k) (by simp [ceilLog2])]
        simp [ceilLog2, afterState]
      · simp only [Position.inOrderIndex, posOf, ioIndex_zero_left]; simp at *; omega
  | succ g ih =>
    cases f with
    | zero => omega
    | succ f =>
      have hi : i < 2 ^ 63 := by omega
      have hpos := Nat.two_pow_pos g
      have hk : k < 2 ^ (62 - g) := by
        have hx : k * 2 ^ (g + 1) < 2 ^ (62 - g) * 2 ^ (g + 1) := by
          rw [← Nat.pow_add, show 62 - g + (g + 1) = 63 by omega]
          omega
        exact Nat.lt_of_mul_lt_mul_right hx
      have hb : ioIndex (g + 1) k < 2 ^ 64 := by
        apply mul_two_pow_lt (by omega)
        rw [show 64 - 1 - (g + 1) = 62 - g by omega]; exact hk
      have hs := ioIndex_succ (g + 1) k
      have e1 : 2 ^ (g + 1) * (2 * k + 1) = 2 * (k * 2 ^ (g + 1)) + 2 * 2 ^ g := by ring
      have hkdiv : k = i / 2 ^ (g + 1) := (div_of_range h1 h2 (by omega)).symm
      rw [PositionPathIter.next, pnext_node p s (by omega) (by omega) hb,
        child_choice i g k hkdiv]
      simp only [Res.ok_bind]
      by_cases hv : 2 ^ g < n - k * 2 ^ (g + 1)
      · rw [if_pos]
        · rw [show PositionPathIter.descendLeft p (posOf 0 (n - 1)) 66 _ = .ok sp by
            cases cs <;> exact hd]
          simp only [Res.ok_bind, Res.pure_eq]
          have : ceilLog2 (min (2 ^ (g + 1)) (n - k * 2 ^ (g + 1))) = g + 1 := by
            apply ceilLog2_eq
            · generalize k * 2 ^ (g + 1) = A at *
              rw [Nat.pow_succ]; omega
            · omega
          rw [rangePos_eq (k := k) (by rw [this]), this]
          rfl
        · simp only [Position.inOrderIndex, posOf, ioIndex_zero_left]; omega
      · rw [if_neg]
        · have e2 : k * 2 ^ (g + 1) = (2 * k) * 2 ^ g := by ring
          have e3 : min (2 ^ (g + 1)) (n - k * 2 ^ (g + 1)) = min (2 ^ g) (n - k * 2 ^ (g + 1)) := by
            clear e2 e1 hs hd h2 h1
            generalize k * 2 ^ (g + 1) = A at *
            rw [Nat.pow_succ]; omega
          have hki : i / 2 ^ g = 2 * k := by
            apply div_of_range (r := min (2 ^ g) (n - k * 2 ^ (g + 1)))
            · rw [← e2]; exact h1
            · rw [← e2, ← e3]; exact h2
            · omega
          have hcs : (if cs.isNone = true then
              ({ rightmostPosition := posOf 0 (n - 1), currentSideNode := some s,
                 pathIter := pstate i g (some (posOf g (i / 2 ^ g), posOf g (sibIdx (i / 2 ^ g)))) } : PositionPathIter)
              else { rightmostPosition := posOf 0 (n - 1), currentSideNode := cs,
                     pathIter := pstate i g (some (posOf g (i / 2 ^ g), posOf g (sibIdx (i / 2 ^ g)))) }) =
              { rightmostPosition := posOf 0 (n - 1), currentSideNode := some (cs.getD s),
                pathIter := pstate i g (some (posOf g (i / 2 ^ g), posOf g (sibIdx (i / 2 ^ g)))) } := by
            cases cs <;> rfl
          simp only [hcs]
          rw [hki]
          rw [e3, e2]
          apply ih
          · omega
          · omega
          · rw [← e2]; exact h1
          · rw [← e2, ← e3]; exact h2
          · simpa using hd
        · simp only [Position.inOrderIndex, posOf, ioIndex_zero_left]; omega

/-- Subtrees as positions. -/
def rangesToPos (l : List ((Nat × Nat) × (Nat × Nat))) : List (Position × Position) :=
  l.map fun x => (rangePos x.1.1 x.1.2, rangePos x.2.1 x.2.2)

theorem qcollect_none (p : Profile) {n i g f : Nat} :
    PositionPathIter.collect p (f + 1)
      { rightmostPosition := posOf 0 (n - 1), currentSideNode := none, pathIter := pstate i g none } =
    .ok [] := by
  rw [PositionPathIter.collect]
  simp only [PathIter.fuel]
  rw [PositionPathIter.next, pnext_none]
  rfl

theorem qcollect (p : Profile) {n i g k f : Nat} (s : Position) (cs : Option Position) (sr : Nat × Nat)
    (hf : g + 1 < f) (hg : g ≤ p.topHeight) (hn : n ≤ 2 ^ 63)
    (h1 : k * 2 ^ g ≤ i) (h2 : i < k * 2 ^ g + min (2 ^ g) (n - k * 2 ^ g))
    (hd : PositionPathIter.descendLeft p (posOf 0 (n - 1)) 66 (cs.getD s) = .ok (rangePos sr.1 sr.2)) :
    PositionPathIter.collect p f
      { rightmostPosition := posOf 0 (n - 1), currentSideNode := cs,
        pathIter := pstate i g (some (posOf g k, s)) } =
    .ok (rangesToPos (shapePath (k * 2 ^ g) (min (2 ^ g) (n - k * 2 ^ g)) i sr)) := by
  have htop := p.topHeight_le
  induction g using Nat.strongRecOn generalizing k f s cs sr with
  | _ g ih =>
    obtain ⟨f, rfl⟩ : ∃ f', f = f' + 1 := ⟨f - 1, by omega⟩
    rw [PositionPathIter.collect, qnext p s cs _ (by simp [PathIter.fuel, positionNode]; omega) hg hn h1 h2 hd]
    simp only [Res.ok_bind]
    have hrpos : 0 < min (2 ^ g) (n - k * 2 ^ g) := by omega
    generalize hr : min (2 ^ g) (n - k * 2 ^ g) = r at *
    have hcg : ceilLog2 r ≤ g := (ceilLog2_le_iff r g).2 (by omega)
    rcases Nat.eq_zero_or_pos (ceilLog2 r) with hc | hc
    · obtain ⟨f, rfl⟩ : ∃ f', f = f' + 1 := ⟨f - 1, by omega⟩
      rw [hc, afterState, qcollect_none]
      have hr1 := (ceilLog2_zero_iff r).1 hc
      rw [shapePath, dif_neg (by omega)]
      rfl
    · obtain ⟨c, hc'⟩ : ∃ c, ceilLog2 r = c + 1 := ⟨ceilLog2 r - 1, by omega⟩
      have hrc1 : 2 ^ c < r := (lt_ceilLog2_iff r c).1 (by omega)
      have hrc2 : r ≤ 2 ^ (c + 1) := (ceilLog2_le_iff r (c + 1)).1 (by omega)
      have hcpos := Nat.two_pow_pos c
      have hsplit : split r = 2 ^ c := by rw [split_eq (by omega), hc', Nat.add_sub_cancel]
      rw [hc', afterState, shapePath, dif_pos (by omega)]
      dsimp only
      simp only [hsplit]
      obtain ⟨m, hm⟩ : ∃ m, k * 2 ^ g = m * 2 ^ (c + 1) := by
        obtain ⟨e, he⟩ := Nat.exists_eq_add_of_le hcg
        rw [hc'] at he
        exact ⟨k * 2 ^ e, by rw [he, Nat.pow_add]; ring⟩
      have hrr : r - 2 ^ c = min (2 ^ c) (n - (k * 2 ^ g + 2 ^ c)) := by
        rcases Nat.lt_or_ge (n - k * 2 ^ g) (2 ^ g) with hlt | hge
        · rw [Nat.pow_succ] at hrc2; omega
        · have : r = 2 ^ g := by omega
          have : c + 1 = g := by rw [← hc', this, ceilLog2_two_pow]
          subst this
          rw [Nat.pow_succ] at *; omega
      have hm0 : m * 2 ^ (c + 1) = (2 * m) * 2 ^ c := by ring
      have hm1 : m * 2 ^ (c + 1) + 2 ^ c = (2 * m + 1) * 2 ^ c := by ring
      have hrn : r ≤ n - k * 2 ^ g := by omega
      have hmb : ∀ j, j ≤ 2 * m + 1 → ioIndex c j < 2 ^ 64 := by
        intro j hj
        rw [ioIndex_lt_iff _ (by omega)]
        have h3 : (2 * m + 1) * 2 ^ c < 2 ^ (64 - 1 - c) * 2 ^ c := by
          rw [← Nat.pow_add, show 64 - 1 - c + c = 63 by omega]
          omega
        have := Nat.lt_of_mul_lt_mul_right h3
        omega
      simp only [rangesToPos, List.map_cons]
      by_cases hlr : i < k * 2 ^ g + 2 ^ c
      · have hk' : i / 2 ^ c = 2 * m := by
          apply div_of_range (r := 2 ^ c) <;> omega
        have hs' : sibIdx (2 * m) = 2 * m + 1 := by unfold sibIdx; rw [if_pos (by omega)]
        rw [if_pos hlr, hk', hs']
        have hmin : min (2 ^ c) (n - 2 * m * 2 ^ c) = 2 ^ c := by omega
        have := ih c (by omega) (k := 2 * m) (f := f) (posOf c (2 * m + 1)) none
          (k * 2 ^ g + 2 ^ c, r - 2 ^ c) (by omega) (by omega) (by omega)
          (by rw [hmin]; omega) (by
            simp only [Option.getD_none]
            rw [descendLeft_eq p (by omega) (by omega) (by omega) (hmb _ (by omega))]
            rw [hrr, ← hm1, ← hm])
        rw [this, hmin, ← hm0, ← hm]
        rfl
      · have hk' : i / 2 ^ c = 2 * m + 1 := by
          apply div_of_range (r := r - 2 ^ c) <;> omega
        have hs' : sibIdx (2 * m + 1) = 2 * m := by unfold sibIdx; rw [if_neg (by omega)]; omega
        rw [if_neg hlr, hk', hs']
        have := ih c (by omega) (k := 2 * m + 1) (f := f) (posOf c (2 * m)) none
          (k * 2 ^ g, 2 ^ c) (by omega) (by omega) (by omega)
          (by rw [← hm1, ← hm, ← hrr]; omega) (by
            simp only [Option.getD_none]
            rw [descendLeft_eq p (by omega) (by omega) (by omega) (hmb _ (by omega))]
            rw [← hm0, ← hm]
            congr 2; omega)
        rw [this, ← hm1, ← hm, ← hrr]
        rfl

/-- The whole iterator, started at any node of height `g` that lies above the tree over `n`
leaves (or is its root). -/
theorem pathList_eq (p : Profile) {n i g : Nat} (hg : g ≤ p.topHeight) (hn : n ≤ 2 ^ 63) (hin : i < n)
    (hng : n ≤ 2 ^ g) :
    (posOf g 0).pathList p (posOf 0 i) n = .ok (rangesToPos (shapePath 0 n i (0, n))) := by
  have htop := p.topHeight_le
  have hb : ioIndex g 0 < 2 ^ 64 := mul_two_pow_lt (by omega) (Nat.two_pow_pos _)
  have hmin : min (2 ^ g) (n - 0 * 2 ^ g) = n := by omega
  unfold Position.pathList PositionPathIter.new
  simp only [u64Sub, if_pos (show 1 ≤ n by omega), Res.ok_bind]
  rw [fromLeafIndex_ok p (by omega)]
  simp only [Res.ok_bind, PathIter.new]
  have : (positionNode p).lift (usizeSub p (positionNode p).keySizeInBits
      ((positionNode p).height (posOf g 0))) = .ok (64 - g) := by
    simp only [positionNode, height_posOf hb, usizeSub, if_pos (show g ≤ 64 by omega)]
  rw [this]
  simp only [Res.ok_bind, Res.pure_eq]
  have h := qcollect p (n := n) (i := i) (g := g) (k := 0) (f := PathIter.fuel (positionNode p))
    (posOf g 0) none (0, n) (by simp [PathIter.fuel, positionNode]; omega) hg hn (by omega)
    (by rw [hmin]; omega) (by
      simp only [Option.getD_none]
      rw [descendLeft_eq p (by omega) hg (by omega) hb, hmin]
      simp)
  rw [hmin] at h
  simpa [pstate] using h

end FuelMerkle
