import Verif.Proofs.Path
import Verif.Proofs.Profiles
import Verif.Spec.BlockPath

/-
Path iteration over positions for any root, leaf position and leaf count.
-/
namespace FuelMerkle
open Spec

/-! ### Only the bits of the leaf below the root matter -/

/-- The iterator with another leaf. -/
def PathIter.withLeaf (it : PathIter Position Empty) (l : Position) : PathIter Position Empty :=
  { it with leaf := l }

/-- Two leaves whose numbers agree on the bits that remain to be read. -/
def SameBits (i j o : Nat) : Prop := ∀ b, o ≤ 63 - b → b < 64 → i.testBit b = j.testBit b

theorem SameBits.mono {i j o o' : Nat} (h : SameBits i j o) (ho : o ≤ o') : SameBits i j o' :=
  fun b hb hb' => h b (by omega) hb'

theorem getInstruction_congr {i j o : Nat} (hi : i < 2 ^ 64) (hj : j < 2 ^ 64) (h : SameBits i j o) :
    getInstruction (u64ToBeBytes i) o = getInstruction (u64ToBeBytes j) o := by
  rcases Nat.lt_or_ge o 64 with ho | ho
  · rw [getBit_u64 hi ho, getBit_u64 hj ho, h (63 - o) (by omega) (by omega)]
  · have : ∀ x, getInstruction (u64ToBeBytes x) o = none := by
      intro x
      unfold getInstruction
      rw [getBitAtIndexFromMsb_eq, List.getElem?_eq_none (by rw [bitsOf_length, u64ToBeBytes_length]; omega)]
      rfl
    rw [this, this]

/-- One step with two leaves that agree: same item, next states that agree. -/
theorem pnext_withLeaf (p : Profile) {i j : Nat} (hi : i < 2 ^ 64) (hj : j < 2 ^ 64)
    (it : PathIter Position Empty) (h : SameBits i j it.currentOffset) :
    ((it.withLeaf (posOf 0 j)).next (positionNode p) =
      ((it.withLeaf (posOf 0 i)).next (positionNode p) >>= fun x => .ok (x.1, x.2.withLeaf (posOf 0 j)))) ∧
    ∀ v it', (it.withLeaf (posOf 0 i)).next (positionNode p) = .ok (v, it') →
      it' = it'.withLeaf (posOf 0 i) ∧ it.currentOffset ≤ it'.currentOffset := by
  obtain ⟨l, cur, o⟩ := it
  unfold PathIter.next PathIter.withLeaf
  dsimp only at h ⊢
  rcases cur with _ | ⟨⟨⟨⟩⟩ | a, b⟩
  · exact ⟨rfl, by rintro v it' h; cases h; exact ⟨rfl, Nat.le_refl _⟩⟩
  · dsimp only
    by_cases hn : (positionNode p).isNode a = true
    · rw [if_pos hn, if_pos hn]
      have h2 : ∀ i, (positionNode p).leafKey (posOf 0 i) = .ok (u64ToBeBytes i) := by
        intro i; simp [positionNode, leafIndex_posOf]
      rw [h2, h2]
      simp only [Res.ok_bind]
      rw [getInstruction_congr hi hj h]
      cases getInstruction (u64ToBeBytes j) o with
      | none => exact ⟨rfl, by rintro v it' h; cases h; exact ⟨rfl, Nat.le_refl _⟩⟩
      | some b =>
        cases b <;> dsimp only <;>
          cases (positionNode p).leftChild a <;> cases (positionNode p).rightChild a <;>
          refine ⟨rfl, ?_⟩ <;> rintro v it' h <;> cases h <;> exact ⟨rfl, Nat.le_succ _⟩
    · rw [if_neg hn, if_neg hn]
      exact ⟨rfl, by rintro v it' h; cases h; exact ⟨rfl, Nat.le_refl _⟩⟩

theorem collect_withLeaf (p : Profile) {i j : Nat} (hi : i < 2 ^ 64) (hj : j < 2 ^ 64) (f : Nat) :
    ∀ it : PathIter Position Empty, SameBits i j it.currentOffset →
      (it.withLeaf (posOf 0 j)).collectPositions p f = (it.withLeaf (posOf 0 i)).collectPositions p f := by
  induction f with
  | zero => intro it _; rfl
  | succ f ih =>
    intro it h
    obtain ⟨h1, h2⟩ := pnext_withLeaf p hi hj it h
    rw [PathIter.collectPositions, PathIter.collectPositions, h1]
    cases hn : (it.withLeaf (posOf 0 i)).next (positionNode p) with
    | error e => rfl
    | ok x =>
      obtain ⟨v, it'⟩ := x
      obtain ⟨e, ho⟩ := h2 v it' hn
      simp only [Res.ok_bind]
      rcases v with _ | ⟨⟨⟨⟩⟩ | a, ⟨⟨⟩⟩ | b⟩
      · rfl
      · dsimp only
        rw [ih it' (h.mono ho), ← e]

/-- The position path iterator with another leaf. -/
def PositionPathIter.withLeaf (st : PositionPathIter) (l : Position) : PositionPathIter :=
  { st with pathIter := st.pathIter.withLeaf l }

theorem qnext_withLeaf (p : Profile) {i j : Nat} (hi : i < 2 ^ 64) (hj : j < 2 ^ 64) (f : Nat) :
    ∀ st : PositionPathIter, SameBits i j st.pathIter.currentOffset →
      ((st.withLeaf (posOf 0 j)).next p f =
        ((st.withLeaf (posOf 0 i)).next p f >>= fun x => .ok (x.1, x.2.withLeaf (posOf 0 j)))) ∧
      ∀ v st', (st.withLeaf (posOf 0 i)).next p f = .ok (v, st') →
        st' = st'.withLeaf (posOf 0 i) ∧ st.pathIter.currentOffset ≤ st'.pathIter.currentOffset := by
  induction f with
  | zero => intro st _; exact ⟨rfl, by intro v st' h; cases h⟩
  | succ f ih =>
    intro st h
    obtain ⟨h1, h2⟩ := pnext_withLeaf p hi hj st.pathIter h
    obtain ⟨R, cs, it⟩ := st
    dsimp only at h h1 h2
    rw [PositionPathIter.next, PositionPathIter.next]
    unfold PositionPathIter.withLeaf
    dsimp only
    rw [h1]
    cases hn : (it.withLeaf (posOf 0 i)).next (positionNode p) with
    | error e => exact ⟨rfl, by intro v st' h; cases h⟩
    | ok x =>
      obtain ⟨v, it'⟩ := x
      obtain ⟨e, ho⟩ := h2 v it' hn
      simp only [Res.ok_bind]
      rcases v with _ | ⟨⟨⟨⟩⟩ | a, ⟨⟨⟩⟩ | b⟩
      · exact ⟨rfl, by intro v st' h; cases h; exact ⟨by rw [← e], ho⟩⟩
      · dsimp only
        by_cases hv : a.inOrderIndex ≤ R.inOrderIndex
        · rw [if_pos hv, if_pos hv]
          generalize PositionPathIter.descendLeft p R 66 _ = d
          cases d with
          | error e => exact ⟨rfl, by intro v st' h; cases h⟩
          | ok d => exact ⟨rfl, by intro v st' h; cases h; exact ⟨by rw [← e], ho⟩⟩
        · rw [if_neg hv, if_neg hv]
          cases cs with
          | none =>
            have := ih ⟨R, some b, it'⟩ (h.mono ho)
            unfold PositionPathIter.withLeaf at this
            rw [← e] at this
            exact ⟨this.1, fun v st' h => ⟨(this.2 v st' h).1, Nat.le_trans ho (this.2 v st' h).2⟩⟩
          | some c =>
            have := ih ⟨R, some c, it'⟩ (h.mono ho)
            unfold PositionPathIter.withLeaf at this
            rw [← e] at this
            exact ⟨this.1, fun v st' h => ⟨(this.2 v st' h).1, Nat.le_trans ho (this.2 v st' h).2⟩⟩

theorem qcollect_withLeaf (p : Profile) {i j : Nat} (hi : i < 2 ^ 64) (hj : j < 2 ^ 64) (f : Nat) :
    ∀ st : PositionPathIter, SameBits i j st.pathIter.currentOffset →
      (st.withLeaf (posOf 0 j)).collect p f = (st.withLeaf (posOf 0 i)).collect p f := by
  induction f with
  | zero => intro st _; rfl
  | succ f ih =>
    intro st h
    obtain ⟨h1, h2⟩ := qnext_withLeaf p hi hj (PathIter.fuel (positionNode p)) st h
    rw [PositionPathIter.collect, PositionPathIter.collect, h1]
    cases hn : (st.withLeaf (posOf 0 i)).next p (PathIter.fuel (positionNode p)) with
    | error e => rfl
    | ok x =>
      obtain ⟨v, st'⟩ := x
      obtain ⟨e, ho⟩ := h2 v st' hn
      simp only [Res.ok_bind]
      cases v with
      | none => rfl
      | some x =>
        dsimp only
        rw [ih st' (h.mono ho), ← e]

theorem sameBits_of_mod {i j h : Nat} (hh : h ≤ 64) (e : i % 2 ^ h = j % 2 ^ h) : SameBits i j (64 - h) := by
  intro b hb hb'
  have h1 := Nat.testBit_mod_two_pow i h b
  have h2 := Nat.testBit_mod_two_pow j h b
  rw [e, h2] at h1
  simpa [show b < h by omega] using h1.symm

theorem new_lift (p : Profile) (x : Position) :
    (positionNode p).lift (usizeSub p (positionNode p).keySizeInBits ((positionNode p).height x)) =
      .ok (64 - x.height) := by
  have : x.height ≤ 64 := height_le x
  show usizeSub p 64 x.height = _
  unfold usizeSub
  rw [if_pos this]

theorem asPathIterList_mod (p : Profile) (root : Position) {i j : Nat} (hi : i < 2 ^ 64) (hj : j < 2 ^ 64)
    (e : i % 2 ^ root.height = j % 2 ^ root.height) :
    asPathIterList p root (posOf 0 i) = asPathIterList p root (posOf 0 j) := by
  unfold asPathIterList PathIter.new
  rw [new_lift]
  simp only [Res.ok_bind]
  exact (collect_withLeaf p hi hj _ ⟨posOf 0 i, _, _⟩ (sameBits_of_mod (height_le root) e)).symm

theorem pathList_mod (p : Profile) (root : Position) {i j : Nat} (hi : i < 2 ^ 64) (hj : j < 2 ^ 64)
    (e : i % 2 ^ root.height = j % 2 ^ root.height) (n : Nat) :
    root.pathList p (posOf 0 i) n = root.pathList p (posOf 0 j) n := by
  unfold Position.pathList PositionPathIter.new PathIter.new
  rw [new_lift]
  simp only [Res.ok_bind]
  cases u64Sub p n 1 with
  | error e => rfl
  | ok l =>
    simp only [Res.ok_bind]
    cases Position.fromLeafIndex p l with
    | error e => rfl
    | ok R =>
      simp only [Res.ok_bind]
      exact (qcollect_withLeaf p hi hj _ ⟨R, none, ⟨posOf 0 i, _, _⟩⟩ (sameBits_of_mod (height_le root) e)).symm

/-! ### The position path for any root and leaf -/

theorem blockSize_le {r g : Nat} (h : r ≤ 2 ^ g) : blockSize r ≤ 2 ^ g := by
  unfold blockSize
  split
  · omega
  · exact Nat.pow_le_pow_right (by omega) ((ceilLog2_le_iff r g).2 h)

theorem blockSize_eq {r : Nat} (h : 0 < r) : blockSize r = 2 ^ ceilLog2 r := by
  unfold blockSize; rw [if_neg (by omega)]

theorem blockSize_pos {r : Nat} (h : 0 < blockSize r) : 0 < r := by
  unfold blockSize at h
  split at h <;> omega

theorem le_blockSize (r : Nat) : r ≤ blockSize r := by
  unfold blockSize
  split
  · omega
  · exact (ceilLog2_le_iff r _).1 (Nat.le_refl _)

theorem index_bound {i g : Nat} (hi : i < 2 ^ 63) (hg : g ≤ 63) : ioIndex g (i / 2 ^ g) < 2 ^ 64 := by
  rw [ioIndex_lt_iff _ (by omega)]
  apply Nat.div_lt_of_lt_mul
  rw [← Nat.pow_add, show g + (64 - 1 - g) = 63 by omega]
  exact hi

theorem qnext_any (p : Profile) {n i g k f : Nat} (s : Position) (cs : Option Position) (sp : Position)
    (hf : g < f) (hg : g ≤ p.topHeight) (hi : i < 2 ^ 63)
    (h1 : k * 2 ^ g ≤ i) (h2 : i < k * 2 ^ g + blockSize (min (2 ^ g) (n - k * 2 ^ g)))
    (hd : PositionPathIter.descendLeft p (posOf 0 (n - 1)) 66 (cs.getD s) = .ok sp) :
    PositionPathIter.next p f
      { rightmostPosition := posOf 0 (n - 1), currentSideNode := cs,
        pathIter := pstate i g (some (posOf g k, s)) } =
    .ok (some (rangePos (k * 2 ^ g) (min (2 ^ g) (n - k * 2 ^ g)), sp),
      { rightmostPosition := posOf 0 (n - 1), currentSideNode := none,
        pathIter := afterState i (ceilLog2 (min (2 ^ g) (n - k * 2 ^ g))) }) := by
  have htop := p.topHeight_le
  induction g generalizing k f s cs with
  | zero =>
    cases f with
    | zero => omega
    | succ f =>
      have h0 : 0 < min (2 ^ 0) (n - k * 2 ^ 0) := blockSize_pos (by omega)
      have e : min (2 ^ 0) (n - k * 2 ^ 0) = 1 := by simp at *; omega
      rw [PositionPathIter.next, pnext_leaf]
      simp only [Res.ok_bind]
      rw [if_pos]
      · rw [show PositionPathIter.descendLeft p (posOf 0 (n - 1)) 66 _ = .ok sp by
          cases cs <;> exact hd]
        simp only [Res.ok_bind, Res.pure_eq, e]
        rw [rangePos_eq (k := k) (by simp [ceilLog2])]
        simp [ceilLog2, afterState]
      · simp only [Position.inOrderIndex, posOf, ioIndex_zero_left]; simp at *; omega
  | succ g ih =>
    cases f with
    | zero => omega
    | succ f =>
      have hpos := Nat.two_pow_pos g
      have hk : k < 2 ^ (62 - g) := by
        have hx : k * 2 ^ (g + 1) < 2 ^ (62 - g) * 2 ^ (g + 1) := by
          rw [← Nat.pow_add, show 62 - g + (g + 1) = 63 by omega]
          omega
        exact Nat.lt_of_mul_lt_mul_right hx
      have hb : ioIndex (g + 1) k < 2 ^ 64 := by
        apply mul_two_pow_lt (by omega)
        rw [show 64 - 1 - (g + 1) = 62 - g by omega]; exact hk
      have hs := ioIndex_succ (g + 1) k
      have e1 : 2 ^ (g + 1) * (2 * k + 1) = 2 * (k * 2 ^ (g + 1)) + 2 * 2 ^ g := by ring
      have hkdiv : k = i / 2 ^ (g + 1) := (div_of_range h1 h2 (blockSize_le (by omega))).symm
      rw [PositionPathIter.next, pnext_node p s (by omega) (by omega) hb,
        child_choice i g k hkdiv]
      simp only [Res.ok_bind]
      by_cases hv : 2 ^ g < n - k * 2 ^ (g + 1)
      · rw [if_pos]
        · rw [show PositionPathIter.descendLeft p (posOf 0 (n - 1)) 66 _ = .ok sp by
            cases cs <;> exact hd]
          simp only [Res.ok_bind, Res.pure_eq]
          have : ceilLog2 (min (2 ^ (g + 1)) (n - k * 2 ^ (g + 1))) = g + 1 := by
            apply ceilLog2_eq
            · generalize k * 2 ^ (g + 1) = A at *
              rw [Nat.pow_succ]; omega
            · omega
          rw [rangePos_eq (k := k) (by rw [this]), this]
          rfl
        · simp only [Position.inOrderIndex, posOf, ioIndex_zero_left]; omega
      · rw [if_neg]
        · have e2 : k * 2 ^ (g + 1) = (2 * k) * 2 ^ g := by ring
          have e3 : min (2 ^ (g + 1)) (n - k * 2 ^ (g + 1)) = min (2 ^ g) (n - k * 2 ^ (g + 1)) := by
            clear e2 e1 hs hd h2 h1
            generalize k * 2 ^ (g + 1) = A at *
            rw [Nat.pow_succ]; omega
          have hki : i / 2 ^ g = 2 * k := by
            apply div_of_range (r := blockSize (min (2 ^ g) (n - k * 2 ^ (g + 1))))
            · rw [← e2]; exact h1
            · rw [← e2, ← e3]; exact h2
            · exact blockSize_le (by omega)
          have hcs : (if cs.isNone = true then
              ({ rightmostPosition := posOf 0 (n - 1), currentSideNode := some s,
                 pathIter := pstate i g (some (posOf g (i / 2 ^ g), posOf g (sibIdx (i / 2 ^ g)))) } : PositionPathIter)
              else { rightmostPosition := posOf 0 (n - 1), currentSideNode := cs,
                     pathIter := pstate i g (some (posOf g (i / 2 ^ g), posOf g (sibIdx (i / 2 ^ g)))) }) =
              { rightmostPosition := posOf 0 (n - 1), currentSideNode := some (cs.getD s),
                pathIter := pstate i g (some (posOf g (i / 2 ^ g), posOf g (sibIdx (i / 2 ^ g)))) } := by
            cases cs <;> rfl
          simp only [hcs]
          rw [hki]
          rw [e3, e2]
          apply ih
          · omega
          · omega
          · rw [← e2]; exact h1
          · rw [← e2, ← e3]; exact h2
          · simpa using hd
        · simp only [Position.inOrderIndex, posOf, ioIndex_zero_left]; omega

/-- The iterator ends when the leaf number is not below any existing node. -/
theorem qnext_end (p : Profile) {n i g f : Nat} (s : Position) (cs : Option Position)
    (hf : g + 1 < f) (hg : g ≤ p.topHeight) (hi : i < 2 ^ 63) (hn : 1 ≤ n)
    (h2 : i / 2 ^ g * 2 ^ g + blockSize (min (2 ^ g) (n - i / 2 ^ g * 2 ^ g)) ≤ i) :
    ∃ st', PositionPathIter.next p f
      { rightmostPosition := posOf 0 (n - 1), currentSideNode := cs,
        pathIter := pstate i g (some (posOf g (i / 2 ^ g), s)) } = .ok (none, st') := by
  have htop := p.topHeight_le
  induction g generalizing f s cs with
  | zero =>
    obtain ⟨f, rfl⟩ : ∃ f', f = f' + 2 := ⟨f - 2, by omega⟩
    have h3 := le_blockSize (min (2 ^ 0) (n - i / 2 ^ 0 * 2 ^ 0))
    simp only [Nat.pow_zero, Nat.div_one, Nat.mul_one] at h2 h3 ⊢
    rw [PositionPathIter.next, pnext_leaf]
    simp only [Res.ok_bind]
    rw [if_neg]
    · rw [PositionPathIter.next]
      cases cs <;> simp only [Option.isNone_none, Option.isNone_some, if_true, Bool.false_eq_true,
        if_false, pnext_none, Res.ok_bind] <;> exact ⟨_, rfl⟩
    · simp only [Position.inOrderIndex, posOf, ioIndex_zero_left]; omega
  | succ g ih =>
    obtain ⟨f, rfl⟩ : ∃ f', f = f' + 1 := ⟨f - 1, by omega⟩
    have hpos := Nat.two_pow_pos g
    have hb := index_bound hi (show g + 1 ≤ 63 by omega)
    generalize hk : i / 2 ^ (g + 1) = k at *
    have hs := ioIndex_succ (g + 1) k
    have e1 : 2 ^ (g + 1) * (2 * k + 1) = 2 * (k * 2 ^ (g + 1)) + 2 * 2 ^ g := by ring
    have hik : i < k * 2 ^ (g + 1) + 2 ^ (g + 1) := by
      have := Nat.lt_div_mul_add (a := i) (Nat.two_pow_pos (g + 1))
      rwa [hk] at this
    have hv : ¬ 2 ^ g < n - k * 2 ^ (g + 1) := by
      intro hv
      have : ceilLog2 (min (2 ^ (g + 1)) (n - k * 2 ^ (g + 1))) = g + 1 := by
        apply ceilLog2_eq
        · generalize k * 2 ^ (g + 1) = A at *
          rw [Nat.pow_succ]; omega
        · omega
      rw [blockSize_eq (by rw [Nat.pow_succ] at *; omega), this] at h2
      omega
    rw [PositionPathIter.next, pnext_node p s hi (by omega) hb, child_choice i g k hk.symm]
    simp only [Res.ok_bind]
    rw [if_neg (by simp only [Position.inOrderIndex, posOf, ioIndex_zero_left]; omega)]
    have hk2 : i / 2 ^ g / 2 = k := by rw [← hk, Nat.pow_succ, Nat.div_div_eq_div_mul]
    have h2' : i / 2 ^ g * 2 ^ g + blockSize (min (2 ^ g) (n - i / 2 ^ g * 2 ^ g)) ≤ i := by
      rcases Nat.mod_two_eq_zero_or_one (i / 2 ^ g) with hm | hm
      · have e : i / 2 ^ g = 2 * k := by omega
        have e2 : 2 * k * 2 ^ g = k * 2 ^ (g + 1) := by ring
        rw [e, e2]
        have e3 : min (2 ^ g) (n - k * 2 ^ (g + 1)) = min (2 ^ (g + 1)) (n - k * 2 ^ (g + 1)) := by
          clear e2 e1 hs h2
          generalize k * 2 ^ (g + 1) = A at *
          rw [Nat.pow_succ]; omega
        rw [e3]; exact h2
      · have e : i / 2 ^ g = 2 * k + 1 := by omega
        have hle := Nat.div_mul_le_self i (2 ^ g)
        rw [e] at hle ⊢
        have e2 : (2 * k + 1) * 2 ^ g = k * 2 ^ (g + 1) + 2 ^ g := by ring
        have e3 : min (2 ^ g) (n - (2 * k + 1) * 2 ^ g) = 0 := by rw [e2]; omega
        rw [e3]
        exact hle
    cases cs with
    | none =>
      simp only [Option.isNone_none, if_true]
      exact ih _ _ (by omega) (by omega) h2'
    | some c =>
      simp only [Option.isNone_some, Bool.false_eq_true, if_false]
      exact ih _ _ (by omega) (by omega) h2'

theorem qcollect_any (p : Profile) {n i g f : Nat} (s : Position) (cs : Option Position) (sr : Nat × Nat)
    (hf : g + 1 < f) (hg : g ≤ p.topHeight) (hi : i < 2 ^ 63) (hn : 1 ≤ n)
    (hd : PositionPathIter.descendLeft p (posOf 0 (n - 1)) 66 (cs.getD s) = .ok (rangePos sr.1 sr.2)) :
    PositionPathIter.collect p f
      { rightmostPosition := posOf 0 (n - 1), currentSideNode := cs,
        pathIter := pstate i g (some (posOf g (i / 2 ^ g), s)) } =
    .ok (rangesToPos (blockPath (i / 2 ^ g * 2 ^ g) (min (2 ^ g) (n - i / 2 ^ g * 2 ^ g)) i sr)) := by
  have htop := p.topHeight_le
  induction g using Nat.strongRecOn generalizing f s cs sr with
  | _ g ih =>
    obtain ⟨f, rfl⟩ : ∃ f', f = f' + 1 := ⟨f - 1, by omega⟩
    have h1 := Nat.div_mul_le_self i (2 ^ g)
    by_cases h2 : i / 2 ^ g * 2 ^ g + blockSize (min (2 ^ g) (n - i / 2 ^ g * 2 ^ g)) ≤ i
    · obtain ⟨st', e⟩ := qnext_end p s cs (f := PathIter.fuel (positionNode p))
        (by simp [PathIter.fuel, positionNode]; omega) hg hi hn h2
      rw [PositionPathIter.collect, e, blockPath, if_pos h2]
      rfl
    rw [Nat.not_le] at h2
    rw [PositionPathIter.collect, qnext_any p s cs _ (by simp [PathIter.fuel, positionNode]; omega) hg hi h1 h2 hd]
    simp only [Res.ok_bind]
    rw [blockPath, if_neg (by omega)]
    have hrpos : 0 < min (2 ^ g) (n - i / 2 ^ g * 2 ^ g) := blockSize_pos (by omega)
    generalize hk : i / 2 ^ g = k at *
    generalize hr : min (2 ^ g) (n - k * 2 ^ g) = r at *
    have hcg : ceilLog2 r ≤ g := (ceilLog2_le_iff r g).2 (by omega)
    rcases Nat.eq_zero_or_pos (ceilLog2 r) with hc | hc
    · obtain ⟨f, rfl⟩ : ∃ f', f = f' + 1 := ⟨f - 1, by omega⟩
      rw [hc, afterState, qcollect_none]
      have hr1 := (ceilLog2_zero_iff r).1 hc
      rw [dif_neg (by omega)]
      rfl
    · obtain ⟨c, hc'⟩ : ∃ c, ceilLog2 r = c + 1 := ⟨ceilLog2 r - 1, by omega⟩
      have hrc1 : 2 ^ c < r := (lt_ceilLog2_iff r c).1 (by omega)
      have hrc2 : r ≤ 2 ^ (c + 1) := (ceilLog2_le_iff r (c + 1)).1 (by omega)
      have hcpos := Nat.two_pow_pos c
      have hsplit : split r = 2 ^ c := by rw [split_eq (by omega), hc', Nat.add_sub_cancel]
      rw [blockSize_eq hrpos, hc'] at h2
      rw [hc', afterState, dif_pos (by omega)]
      dsimp only
      simp only [hsplit]
      obtain ⟨m, hm⟩ : ∃ m, k * 2 ^ g = m * 2 ^ (c + 1) := by
        obtain ⟨e, he⟩ := Nat.exists_eq_add_of_le hcg
        rw [hc'] at he
        exact ⟨k * 2 ^ e, by rw [he, Nat.pow_add]; ring⟩
      have hrr : r - 2 ^ c = min (2 ^ c) (n - (k * 2 ^ g + 2 ^ c)) := by
        rcases Nat.lt_or_ge (n - k * 2 ^ g) (2 ^ g) with hlt | hge
        · rw [Nat.pow_succ] at hrc2; omega
        · have : r = 2 ^ g := by omega
          have : c + 1 = g := by rw [← hc', this, ceilLog2_two_pow]
          subst this
          rw [Nat.pow_succ] at *; omega
      have hm0 : m * 2 ^ (c + 1) = (2 * m) * 2 ^ c := by ring
      have hm1 : m * 2 ^ (c + 1) + 2 ^ c = (2 * m + 1) * 2 ^ c := by ring
      have hrn : r ≤ n - k * 2 ^ g := by omega
      have hmi : i / 2 ^ (c + 1) = m := div_of_range (r := 2 ^ (c + 1)) (by omega) (by omega) (Nat.le_refl _)
      have hmb : ∀ j, j ≤ 2 * m + 1 → ioIndex c j < 2 ^ 64 := by
        intro j hj
        rw [ioIndex_lt_iff _ (by omega)]
        have h3 : m < 2 ^ (62 - c) := by
          rw [← hmi]
          apply Nat.div_lt_of_lt_mul
          rw [← Nat.pow_add, show c + 1 + (62 - c) = 63 by omega]
          exact hi
        rw [show 64 - 1 - c = 62 - c + 1 by omega, Nat.pow_succ]
        omega
      simp only [rangesToPos, List.map_cons]
      by_cases hlr : i < k * 2 ^ g + 2 ^ c
      · have hk' : i / 2 ^ c = 2 * m := by
          apply div_of_range (r := 2 ^ c) <;> omega
        have hs' : sibIdx (2 * m) = 2 * m + 1 := by unfold sibIdx; rw [if_pos (by omega)]
        rw [if_pos hlr, hk', hs']
        have hmin : min (2 ^ c) (n - 2 * m * 2 ^ c) = 2 ^ c := by omega
        have := ih c (by omega) (f := f) (posOf c (2 * m + 1)) none
          (k * 2 ^ g + 2 ^ c, r - 2 ^ c) (by omega) (by omega) (by
            simp only [Option.getD_none]
            rw [descendLeft_eq p (by omega) (by omega) (by omega) (hmb _ (by omega))]
            rw [hrr, ← hm1, ← hm])
        rw [hk'] at this
        rw [this, hmin, ← hm0, ← hm]
        rfl
      · have hk' : i / 2 ^ c = 2 * m + 1 := by
          apply div_of_range (r := 2 ^ c) <;> rw [Nat.pow_succ] at * <;> omega
        have hs' : sibIdx (2 * m + 1) = 2 * m := by unfold sibIdx; rw [if_neg (by omega)]; omega
        rw [if_neg hlr, hk', hs']
        have := ih c (by omega) (f := f) (posOf c (2 * m)) none
          (k * 2 ^ g, 2 ^ c) (by omega) (by omega) (by
            simp only [Option.getD_none]
            rw [descendLeft_eq p (by omega) (by omega) (by omega) (hmb _ (by omega))]
            rw [← hm0, ← hm]
            congr 2; omega)
        rw [hk'] at this
        rw [this, ← hm1, ← hm, ← hrr]
        rfl

/-- The position path from any position of height at most 62 towards any leaf number below
it, for any leaf count that `PositionPathIter::new` accepts. -/
theorem pathList_any (p : Profile) {n i g : Nat} (hg : g ≤ p.topHeight) (hi : i < 2 ^ 63) (hn : 1 ≤ n)
    (hn2 : n ≤ 2 ^ 63) :
    (posOf g (i / 2 ^ g)).pathList p (posOf 0 i) n =
      .ok (rangesToPos (blockPath (i / 2 ^ g * 2 ^ g) (min (2 ^ g) (n - i / 2 ^ g * 2 ^ g)) i
        (i / 2 ^ g * 2 ^ g, min (2 ^ g) (n - i / 2 ^ g * 2 ^ g)))) := by
  have htop := p.topHeight_le
  have hb := index_bound hi (show g ≤ 63 by omega)
  unfold Position.pathList PositionPathIter.new PathIter.new
  rw [new_lift, height_posOf hb]
  simp only [u64Sub, if_pos hn, Res.ok_bind]
  rw [fromLeafIndex_ok p (by omega)]
  simp only [Res.ok_bind, Res.pure_eq]
  change PositionPathIter.collect p _ ⟨posOf 0 (n - 1), none,
    pstate i g (some (posOf g (i / 2 ^ g), posOf g (i / 2 ^ g)))⟩ = _
  by_cases h0 : i / 2 ^ g * 2 ^ g < n
  · refine qcollect_any p _ none _ ?_ hg hi hn ?_
    · simp [PathIter.fuel, positionNode]; omega
    · simp only [Option.getD_none]
      rw [descendLeft_eq p (by omega) hg h0 hb]
  · have hz : min (2 ^ g) (n - i / 2 ^ g * 2 ^ g) = 0 := by
      rw [Nat.sub_eq_zero_of_le (by omega), Nat.min_zero]
    have h1 := Nat.div_mul_le_self i (2 ^ g)
    have h2 : i / 2 ^ g * 2 ^ g + blockSize (min (2 ^ g) (n - i / 2 ^ g * 2 ^ g)) ≤ i := by
      rw [hz]; exact h1
    obtain ⟨st', e⟩ := qnext_end p (posOf g (i / 2 ^ g)) none (f := PathIter.fuel (positionNode p))
      (by simp [PathIter.fuel, positionNode]; omega) hg hi hn h2
    rw [PathIter.fuel, PositionPathIter.collect, e, blockPath, if_pos h2]
    rfl

end FuelMerkle
