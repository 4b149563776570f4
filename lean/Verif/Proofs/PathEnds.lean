import Verif.Proofs.PathAny

/-
Path iteration over positions ends for any root, leaf position and leaf count.
-/
namespace FuelMerkle

/-- The call returns or panics: it does not run for ever. -/
def Ends {α : Type} (r : Res α) : Prop := r ≠ .error .diverges

theorem Ends.bind {α β : Type} {r : Res α} {f : α → Res β} (h : Ends r)
    (hf : ∀ a, r = .ok a → Ends (f a)) : Ends (r >>= f) := by
  cases r with
  | error e => exact fun h' => h (by cases h'; rfl)
  | ok a => exact hf a rfl

theorem Ends.pure {α : Type} (a : α) : Ends (.ok a) := fun h => by cases h

theorem rassert_ends (b : Bool) : Ends (rassert b) := by
  unfold rassert; split <;> exact fun h => by cases h

theorem i64Check_ends (p : Profile) (x : Int) : Ends (i64Check p x) := by
  unfold i64Check
  split
  · exact fun h => by cases h
  · split <;> exact fun h => by cases h

theorem i64Shl1_ends (p : Profile) (x : Nat) : Ends (i64Shl1 p x) := by
  unfold i64Shl1 shiftAmount
  refine Ends.bind ?_ fun _ _ => Ends.pure _
  split
  · exact fun h => by cases h
  · split <;> exact fun h => by cases h

theorem child_ends (p : Profile) (x : Position) (d : Int) : Ends (x.child p d) := by
  unfold Position.child
  refine (rassert_ends _).bind fun _ _ => ?_
  refine (i64Shl1_ends p _).bind fun _ _ => ?_
  refine (i64Check_ends p _).bind fun _ _ => ?_
  exact (i64Check_ends p _).bind fun _ _ => Ends.pure _

theorem leafIndex_ends (x : Position) : Ends x.leafIndex :=
  (rassert_ends _).bind fun _ _ => Ends.pure _

theorem u64Mul_ends (p : Profile) (a b : Nat) : Ends (u64Mul p a b) := by
  unfold u64Mul
  split
  · exact fun h => by cases h
  · split <;> exact fun h => by cases h

theorem u64Sub_ends (p : Profile) (a b : Nat) : Ends (u64Sub p a b) := by
  unfold u64Sub
  split
  · exact fun h => by cases h
  · split <;> exact fun h => by cases h

theorem fromLeafIndex_ends (p : Profile) (i : Nat) : Ends (Position.fromLeafIndex p i) :=
  (u64Mul_ends p _ _).bind fun _ _ => Ends.pure _

theorem child_bound (p : Profile) (x y : Position) (d : Int) (h : x.child p d = .ok y) : y.index < 2 ^ 64 := by
  unfold Position.child at h
  cases h1 : rassert x.isNode with
  | error e => rw [h1] at h; cases h
  | ok _ =>
    rw [h1, Res.ok_bind] at h
    cases h2 : i64Shl1 p (x.height - 1) with
    | error e => rw [h2] at h; cases h
    | ok s =>
      rw [h2, Res.ok_bind] at h
      cases h3 : i64Mul p s d with
      | error e => rw [h3] at h; cases h
      | ok t =>
        rw [h3, Res.ok_bind] at h
        cases h4 : i64Add p (asI64 x.inOrderIndex) t with
        | error e => rw [h4] at h; cases h
        | ok u =>
          rw [h4, Res.ok_bind] at h
          cases h
          show asU64 u < 2 ^ 64
          unfold asU64
          have := Int.emod_lt_of_pos u (show (0 : Int) < 2 ^ 64 by decide)
          omega

/-- A child, when computed at all, is lower than its parent: also at the two top nodes, where
unchecked arithmetic wraps. -/
theorem child_lower (p : Profile) (x y : Position) (hx : x.index < 2 ^ 64)
    (h : x.leftChild p = .ok y ∨ x.rightChild p = .ok y) : y.height < x.height := by
  obtain ⟨g, k, e⟩ := ioIndex_surjective x.index
  have hx' : x = posOf g k := by cases x; simp only at e; rw [e]; rfl
  have hb : ioIndex g k < 2 ^ 64 := e ▸ hx
  subst hx'
  rw [height_posOf hb]
  cases g with
  | zero =>
    have hn : (posOf 0 k).isNode = false := by simp [isNode_posOf]
    have hc : ∀ d, (posOf 0 k).child p d = .error .assertion := by
      intro d; unfold Position.child; rw [hn]; rfl
    rcases h with h | h
    · rw [Position.leftChild, hc] at h; cases h
    · rw [Position.rightChild, hc] at h; cases h
  | succ g =>
    rcases Nat.lt_or_ge 61 g with hg | hg
    · have hs := ioIndex_succ (g + 1) k
      have hcases : g = 62 ∨ g = 63 := by
        have hle : 2 ^ (g + 1) ≤ 2 ^ 64 := by
          have : 2 ^ (g + 1) * 1 ≤ 2 ^ (g + 1) * (2 * k + 1) := Nat.mul_le_mul_left _ (by omega)
          omega
        have := (Nat.pow_le_pow_iff_right (a := 2) (by omega)).1 hle
        omega
      have hk : k = 0 := by
        by_contra hk
        have h1 : 2 ^ (g + 1) * 3 ≤ 2 ^ (g + 1) * (2 * k + 1) := Nat.mul_le_mul_left _ (by omega)
        rcases hcases with rfl | rfl <;> omega
      subst hk
      obtain ⟨a, b, w⟩ := p
      have key : ∀ (z : Res Position) (t : Nat), z = .ok y → (match z with | .ok y => decide (y.height < t) | .error _ => true) = true →
          y.height < t := by
        rintro _ t rfl h; simpa using h
      rcases hcases with rfl | rfl
      · rcases h with h | h <;> refine key _ _ h ?_ <;> clear h <;> revert a b w <;> decide +kernel
      · rcases h with h | h <;> refine key _ _ h ?_ <;> clear h <;> revert a b w <;> decide +kernel
    · have hb' : ∀ j, j / 2 = k → ioIndex g j < 2 ^ 64 := by
        intro j hj
        have h1 := ioIndex_child_div g k j hj
        rw [ioIndex_lt_iff _ (by omega)] at hb ⊢
        rw [show 64 - 1 - g = 64 - 1 - (g + 1) + 1 by omega, Nat.pow_succ]
        omega
      rcases h with h | h
      · rw [leftChild_posOf p hb hg] at h
        cases h
        rw [height_posOf (hb' _ (by omega))]; omega
      · rw [rightChild_posOf p hb hg] at h
        cases h
        rw [height_posOf (hb' _ (by omega))]; omega

theorem descendLeft_ends (p : Profile) (R : Position) (f : Nat) : ∀ x : Position, x.index < 2 ^ 64 →
    x.height < f → Ends (PositionPathIter.descendLeft p R f x) := by
  induction f with
  | zero => intro x _ h; omega
  | succ f ih =>
    intro x hx hh
    rw [PositionPathIter.descendLeft]
    split
    · refine (child_ends p x _).bind fun y hy => ih y (child_bound p x y _ hy) ?_
      have := child_lower p x y hx (.inl hy)
      omega
    · exact Ends.pure _

/-! ### The plain iterator -/

/-- Number of items still to come, at most. -/
def PathIter.remaining (it : PathIter Position Empty) : Nat :=
  match it.current with
  | none => 0
  | some _ => 65 - it.currentOffset

/-- The positions held by the iterator are `u64` values. -/
def PathIter.Bounded (it : PathIter Position Empty) : Prop :=
  ∀ a b, it.current = some (.ok a, .ok b) → a.index < 2 ^ 64 ∧ b.index < 2 ^ 64

theorem pnext_ends (p : Profile) (it : PathIter Position Empty) (hb : it.Bounded) (ho : it.currentOffset ≤ 64) :
    Ends (it.next (positionNode p)) ∧ ∀ v it', it.next (positionNode p) = .ok (v, it') →
      v = it.current ∧ it'.Bounded ∧ it'.currentOffset ≤ 64 ∧ it'.remaining ≤ it.remaining - 1 := by
  obtain ⟨l, cur, o⟩ := it
  have hnone : (⟨l, none, o⟩ : PathIter Position Empty).Bounded := fun a b h => by cases h
  unfold PathIter.next
  dsimp only at ho ⊢
  rcases cur with _ | ⟨⟨⟨⟩⟩ | a, ⟨⟨⟩⟩ | b⟩
  · exact ⟨Ends.pure _, by rintro v it' h; cases h; exact ⟨rfl, hnone, ho, Nat.zero_le _⟩⟩
  · dsimp only
    split
    · have hk : Ends ((positionNode p).leafKey l) := (leafIndex_ends l).bind fun _ _ => Ends.pure _
      cases hlk : (positionNode p).leafKey l with
      | error e =>
        rw [hlk] at hk
        exact ⟨fun h => hk (by cases h; rfl), fun v it' h => by cases h⟩
      | ok path =>
        have hlen : path.length = 8 := by
          simp only [positionNode] at hlk
          cases hli : l.leafIndex with
          | error e => rw [hli] at hlk; cases hlk
          | ok i => rw [hli] at hlk; cases hlk; exact u64ToBeBytes_length _
        simp only [Res.ok_bind]
        have hend : 64 ≤ o → getInstruction path o = none := by
          intro h
          unfold getInstruction
          rw [getBitAtIndexFromMsb_eq, List.getElem?_eq_none (by rw [bitsOf_length, hlen]; omega)]
          rfl
        have hl : Ends ((positionNode p).leftChild a) := (child_ends p a _).bind fun _ _ => Ends.pure _
        have hr : Ends ((positionNode p).rightChild a) := (child_ends p a _).bind fun _ _ => Ends.pure _
        have hlb : ∀ c, (positionNode p).leftChild a = .ok (.ok c) → c.index < 2 ^ 64 := by
          intro c hc
          simp only [positionNode] at hc
          cases hx : a.leftChild p with
          | error e => rw [hx] at hc; cases hc
          | ok c' => rw [hx] at hc; cases hc; exact child_bound p a c _ hx
        have hrb : ∀ c, (positionNode p).rightChild a = .ok (.ok c) → c.index < 2 ^ 64 := by
          intro c hc
          simp only [positionNode] at hc
          cases hx : a.rightChild p with
          | error e => rw [hx] at hc; cases hc
          | ok c' => rw [hx] at hc; cases hc; exact child_bound p a c _ hx
        cases hi : getInstruction path o with
        | none => exact ⟨Ends.pure _, by rintro v it' h; cases h; exact ⟨rfl, hnone, ho, Nat.zero_le _⟩⟩
        | some s =>
          have ho' : o < 64 := by
            by_contra hc
            rw [hend (by omega)] at hi; cases hi
          cases s with
          | left =>
            refine ⟨hl.bind fun _ _ => hr.bind fun _ _ => Ends.pure _, ?_⟩
            intro v it' h
            dsimp only at h
            cases hL : (positionNode p).leftChild a with
            | error e => rw [hL] at h; cases h
            | ok L =>
              cases hR : (positionNode p).rightChild a with
              | error e => rw [hL, hR] at h; cases h
              | ok R =>
                rw [hL, hR] at h; cases h
                refine ⟨rfl, fun x y hxy => ?_, ?_, ?_⟩
                · cases hxy; exact ⟨hlb _ hL, hrb _ hR⟩
                · show o + 1 ≤ 64; omega
                · show 65 - (o + 1) ≤ 65 - o - 1; omega
          | right =>
            refine ⟨hr.bind fun _ _ => hl.bind fun _ _ => Ends.pure _, ?_⟩
            intro v it' h
            dsimp only at h
            cases hL : (positionNode p).leftChild a with
            | error e =>
              cases hR : (positionNode p).rightChild a with
              | error e => rw [hR] at h; cases h
              | ok R => rw [hL, hR] at h; cases h
            | ok L =>
              cases hR : (positionNode p).rightChild a with
              | error e => rw [hR] at h; cases h
              | ok R =>
                rw [hL, hR] at h; cases h
                refine ⟨rfl, fun x y hxy => ?_, ?_, ?_⟩
                · cases hxy; exact ⟨hrb _ hR, hlb _ hL⟩
                · show o + 1 ≤ 64; omega
                · show 65 - (o + 1) ≤ 65 - o - 1; omega
    · exact ⟨Ends.pure _, by rintro v it' h; cases h; exact ⟨rfl, hnone, ho, Nat.zero_le _⟩⟩

theorem collectPositions_ends (p : Profile) (f : Nat) : ∀ it : PathIter Position Empty, it.Bounded →
    it.currentOffset ≤ 64 → it.remaining < f → Ends (it.collectPositions p f) := by
  induction f with
  | zero => intro it _ _ h; omega
  | succ f ih =>
    intro it hb ho hf
    obtain ⟨h1, h2⟩ := pnext_ends p it hb ho
    rw [PathIter.collectPositions]
    refine h1.bind fun x hx => ?_
    obtain ⟨v, it'⟩ := x
    obtain ⟨e, hb', ho', hr⟩ := h2 v it' hx
    rcases v with _ | ⟨⟨⟨⟩⟩ | a, ⟨⟨⟩⟩ | b⟩
    · exact Ends.pure _
    · refine Ends.bind (ih it' hb' ho' ?_) fun _ _ => Ends.pure _
      have : 0 < it.remaining := by
        unfold PathIter.remaining; rw [← e]; dsimp only; omega
      omega

theorem asPathIterList_ends (p : Profile) (root leaf : Position) (hr : root.index < 2 ^ 64) :
    Ends (asPathIterList p root leaf) := by
  unfold asPathIterList PathIter.new
  rw [new_lift]
  simp only [Res.ok_bind]
  refine collectPositions_ends p _ _ ?_ ?_ ?_
  · intro a b h; cases h; exact ⟨hr, hr⟩
  · show 64 - root.height ≤ 64; omega
  · show 65 - (64 - root.height) < 64 + 2; omega

/-! ### The position path iterator -/

/-- The stored side node is a `u64` value. -/
def PositionPathIter.Bounded (st : PositionPathIter) : Prop :=
  st.pathIter.Bounded ∧ st.pathIter.currentOffset ≤ 64 ∧
    ∀ c, st.currentSideNode = some c → c.index < 2 ^ 64

theorem qnext_ends (p : Profile) (f : Nat) : ∀ st : PositionPathIter, st.Bounded →
    st.pathIter.remaining < f → Ends (st.next p f) ∧ ∀ v st', st.next p f = .ok (v, st') →
      st'.Bounded ∧ (v ≠ none → st'.pathIter.remaining < st.pathIter.remaining) := by
  induction f with
  | zero => intro st _ h; omega
  | succ f ih =>
    intro st hb hf
    obtain ⟨h1, h2⟩ := pnext_ends p st.pathIter hb.1 hb.2.1
    obtain ⟨R, cs, it⟩ := st
    obtain ⟨hb1, hb2, hb3⟩ := hb
    dsimp only at h1 h2 hb1 hb2 hb3 hf
    rw [PositionPathIter.next]
    cases hx : it.next (positionNode p) with
    | error e =>
      rw [hx] at h1
      exact ⟨fun h => h1 (by cases h; rfl), fun v st' h => by cases h⟩
    | ok x =>
      obtain ⟨v, it'⟩ := x
      obtain ⟨e, hb', ho', hr⟩ := h2 v it' hx
      simp only [Res.ok_bind]
      rcases v with _ | ⟨⟨⟨⟩⟩ | a, ⟨⟨⟩⟩ | b⟩
      · exact ⟨Ends.pure _, by
          intro v st' h; cases h
          exact ⟨⟨hb', ho', hb3⟩, fun h => absurd rfl h⟩⟩
      · have hpos : 0 < it.remaining := by
          unfold PathIter.remaining; rw [← e]; dsimp only; omega
        have hbb := (hb1 a b e.symm).2
        dsimp only
        split
        · have hd : ∀ c : Position, c.index < 2 ^ 64 → Ends (PositionPathIter.descendLeft p R 66 c) := by
            intro c hc
            have := height_le c
            exact descendLeft_ends p R 66 c hc (by omega)
          have key : ∀ c : Position, c.index < 2 ^ 64 →
              Ends (PositionPathIter.descendLeft p R 66 c >>= fun side' =>
                (.ok (some (a, side'), ⟨R, none, it'⟩) : Res (Option (Position × Position) × PositionPathIter))) ∧
              ∀ v st', (PositionPathIter.descendLeft p R 66 c >>= fun side' =>
                (.ok (some (a, side'), ⟨R, none, it'⟩) : Res (Option (Position × Position) × PositionPathIter))) =
                .ok (v, st') → st'.Bounded ∧ (v ≠ none → st'.pathIter.remaining < it.remaining) := by
            intro c hcb
            refine ⟨(hd c hcb).bind fun _ _ => Ends.pure _, ?_⟩
            intro v st' h
            cases hdc : PositionPathIter.descendLeft p R 66 c with
            | error e => rw [hdc] at h; cases h
            | ok d =>
              rw [hdc] at h
              cases h
              exact ⟨⟨hb', ho', fun c h => by cases h⟩, fun _ => by dsimp only; omega⟩
          cases cs with
          | none => exact key b hbb
          | some c => exact key c (hb3 c rfl)
        · cases cs with
          | none =>
            have := ih ⟨R, some b, it'⟩ ⟨hb', ho', fun c h => by cases h; exact hbb⟩ (by dsimp only; omega)
            exact ⟨this.1, fun v st' h => ⟨(this.2 v st' h).1, fun hv => by
              have := (this.2 v st' h).2 hv
              dsimp only at this ⊢; omega⟩⟩
          | some c =>
            have := ih ⟨R, some c, it'⟩ ⟨hb', ho', hb3⟩ (by dsimp only; omega)
            exact ⟨this.1, fun v st' h => ⟨(this.2 v st' h).1, fun hv => by
              have := (this.2 v st' h).2 hv
              dsimp only at this ⊢; omega⟩⟩

theorem remaining_le (it : PathIter Position Empty) : it.remaining < 66 := by
  unfold PathIter.remaining; split <;> omega

theorem qcollect_ends (p : Profile) (f : Nat) : ∀ st : PositionPathIter, st.Bounded →
    st.pathIter.remaining < f → Ends (st.collect p f) := by
  induction f with
  | zero => intro st _ h; omega
  | succ f ih =>
    intro st hb hf
    obtain ⟨h1, h2⟩ := qnext_ends p (PathIter.fuel (positionNode p)) st hb (remaining_le _)
    rw [PositionPathIter.collect]
    refine h1.bind fun x hx => ?_
    obtain ⟨v, st'⟩ := x
    obtain ⟨hb', hr⟩ := h2 v st' hx
    cases v with
    | none => exact Ends.pure _
    | some v =>
      refine Ends.bind (ih st' hb' ?_) fun _ _ => Ends.pure _
      have := hr (by simp)
      omega

theorem pathList_ends (p : Profile) (root leaf : Position) (n : Nat) (hr : root.index < 2 ^ 64) :
    Ends (root.pathList p leaf n) := by
  unfold Position.pathList PositionPathIter.new PathIter.new
  rw [new_lift]
  refine Ends.bind ?_ fun st hst => ?_
  · refine (u64Sub_ends p _ _).bind fun _ _ => (fromLeafIndex_ends p _).bind fun _ _ => ?_
    exact Ends.pure _
  · cases h1 : u64Sub p n 1 with
    | error e => rw [h1] at hst; cases hst
    | ok l =>
      rw [h1, Res.ok_bind] at hst
      cases h2 : Position.fromLeafIndex p l with
      | error e => rw [h2] at hst; cases hst
      | ok R =>
        rw [h2] at hst
        cases hst
        refine qcollect_ends p _ _ ⟨?_, ?_, ?_⟩ (remaining_le _)
        · intro a b h; cases h; exact ⟨hr, hr⟩
        · show 64 - root.height ≤ 64; omega
        · intro c h; cases h

end FuelMerkle
