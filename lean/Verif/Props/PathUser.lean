import Verif.Spec.PathUser
import Verif.Proofs.Msb

/-
Property C62: paths over any type of nodes.
-/
namespace FuelMerkle
namespace Props
open Spec
variable {T C : Type}

/-- The path, computed. -/
def walk (u : UserNode T C) : List Bool → Except C T × Except C T → List (Except C T × Except C T)
  | b :: bs, (.ok n, s) =>
    if u.isNode n then (.ok n, s) :: walk u bs (if b then (u.rightChild n, u.leftChild n) else (u.leftChild n, u.rightChild n)) else [(.ok n, s)]
  | _, x => [x]

theorem walk_ne (u : UserNode T C) (bs : List Bool) (x : Except C T × Except C T) : ∃ tl, walk u bs x = x :: tl := by
  unfold walk
  split
  · split <;> exact ⟨_, rfl⟩
  · exact ⟨_, rfl⟩

theorem walk_isPath (u : UserNode T C) : ∀ (bs : List Bool) (x : Except C T × Except C T),
    (∀ i y, (walk u bs x)[i + 1]? = some y → ∃ n s b, (walk u bs x)[i]? = some (.ok n, s) ∧ u.isNode n = true ∧ bs[i]? = some b ∧
      y = if b then (u.rightChild n, u.leftChild n) else (u.leftChild n, u.rightChild n)) ∧
    (∀ y, (walk u bs x)[(walk u bs x).length - 1]? = some y → (∃ e s, y = (.error e, s)) ∨
      ∃ n s, y = (.ok n, s) ∧ (u.isNode n = false ∨ bs[(walk u bs x).length - 1]? = none)) ∧ (walk u bs x).length ≤ bs.length + 1 := by
  intro bs
  induction bs with
  | nil =>
    rintro ⟨a, s⟩
    simp only [walk]
    refine ⟨by simp, ?_, by simp⟩
    intro y hy
    simp at hy
    subst hy
    cases a with
    | error e => exact .inl ⟨e, s, rfl⟩
    | ok n => exact .inr ⟨n, s, rfl, by simp⟩
  | cons b bs ih =>
    rintro ⟨a, s⟩
    cases a with
    | error e =>
      simp only [walk]
      refine ⟨by simp, ?_, by simp⟩
      intro y hy
      simp at hy
      exact .inl ⟨e, s, hy.symm⟩
    | ok n =>
      by_cases hn : u.isNode n = true
      · rw [walk, if_pos hn]
        obtain ⟨h1, h2, h3⟩ := ih (if b then (u.rightChild n, u.leftChild n) else (u.leftChild n, u.rightChild n))
        obtain ⟨tl, htl⟩ := walk_ne u bs (if b then (u.rightChild n, u.leftChild n) else (u.leftChild n, u.rightChild n))
        refine ⟨?_, ?_, by simpa using h3⟩
        · intro i y hy
          cases i with
          | zero =>
            rw [htl] at hy
            simp at hy
            exact ⟨n, s, b, rfl, hn, rfl, hy.symm⟩
          | succ i =>
            simp only [List.getElem?_cons_succ] at hy ⊢
            exact h1 i y hy
        · intro y hy
          have hlen : 0 < (walk u bs (if b then (u.rightChild n, u.leftChild n) else (u.leftChild n, u.rightChild n))).length := by
            rw [htl]; simp
          generalize hw : walk u bs (if b then (u.rightChild n, u.leftChild n) else (u.leftChild n, u.rightChild n)) = w at *
          obtain ⟨m, hm⟩ : ∃ m, w.length = m + 1 := ⟨w.length - 1, by omega⟩
          rw [List.length_cons, hm] at hy ⊢
          rw [hm] at h2
          simp only [Nat.add_sub_cancel, List.getElem?_cons_succ] at hy h2 ⊢
          exact h2 y hy
      · rw [walk, if_neg hn]
        refine ⟨by simp, ?_, by simp⟩
        intro y hy
        simp at hy
        exact .inr ⟨n, s, hy.symm, .inl (by simpa using hn)⟩

theorem instruction_eq (key : Bytes) (i : Nat) :
    getInstruction key i = ((bitsOf key)[i]?).map fun b => if b then .right else .left := by
  unfold getInstruction
  rw [getBitAtIndexFromMsb_eq]
  cases (bitsOf key)[i]? with
  | none => rfl
  | some b => cases b <;> rfl

/-- After the end, `None` for ever. -/
theorem answers_none (u : UserNode T C) (leaf : T) (off : Nat) : ∀ n, PathIter.answers u n ⟨leaf, none, off⟩ = .ok (List.replicate n none, ⟨leaf, none, off⟩) := by
  intro n
  induction n with
  | zero => rfl
  | succ n ih =>
    rw [PathIter.answers]
    show (PathIter.answers u n ⟨leaf, none, off⟩ >>= _) = _
    rw [ih]
    rfl

theorem take_more {α : Type} (a : α) (xs : List α) (n : Nat) : (xs ++ List.replicate (n + 1) a).take n = (xs ++ List.replicate n a).take n := by
  rw [List.replicate_succ', ← List.append_assoc, List.take_append_of_le_length (by simp)]

theorem answers_eq (u : UserNode T C) (leaf : T) : ∀ (bs : List Bool) (n : Nat) (off : Nat) (x : Except C T × Except C T),
    (bitsOf (u.leafKey leaf)).drop off = bs →
    ∃ it, PathIter.answers u n ⟨leaf, some x, off⟩ = .ok (((walk u bs x).map some ++ List.replicate n none).take n, it) := by
  intro bs
  induction bs with
  | nil =>
    intro n off x hb
    have hi : getInstruction (u.leafKey leaf) off = none := by
      rw [instruction_eq, List.getElem?_eq_none (List.drop_eq_nil_iff.1 hb)]; rfl
    cases n with
    | zero => exact ⟨_, rfl⟩
    | succ n =>
      obtain ⟨a, s⟩ := x
      have : ∃ off', (PathIter.next u.ops ⟨leaf, some (a, s), off⟩ : Res _) = .ok (some (a, s), ⟨leaf, none, off'⟩) := by
        unfold PathIter.next
        cases a with
        | error e => exact ⟨_, rfl⟩
        | ok m =>
          simp only
          by_cases hm : u.ops.isNode m = true
          · rw [if_pos hm]
            simp only [show u.ops.leafKey leaf = .ok (u.leafKey leaf) from rfl, Bind.bind, Except.bind, hi]
            exact ⟨_, rfl⟩
          · rw [if_neg hm]; exact ⟨_, rfl⟩
      obtain ⟨off', h⟩ := this
      rw [PathIter.answers, h]
      show ∃ it, (PathIter.answers u n ⟨leaf, none, off'⟩ >>= _) = _
      rw [answers_none]
      refine ⟨⟨leaf, none, off'⟩, ?_⟩
      simp [walk, Bind.bind, Except.bind, Pure.pure, Except.pure, List.take_replicate]
  | cons b bs ih =>
    intro n off x hb
    have hlt : off < (bitsOf (u.leafKey leaf)).length := by
      apply Classical.byContradiction; intro h
      rw [List.drop_eq_nil_of_le (by omega)] at hb; cases hb
    have hb' : (bitsOf (u.leafKey leaf))[off]? = some b := by
      have : ((bitsOf (u.leafKey leaf)).drop off)[0]? = some b := by rw [hb]; rfl
      simpa using this
    have hb2 : (bitsOf (u.leafKey leaf)).drop (off + 1) = bs := by
      rw [← List.drop_drop, hb]; rfl
    have hi : getInstruction (u.leafKey leaf) off = some (if b then .right else .left) := by
      rw [instruction_eq, hb']; rfl
    cases n with
    | zero => exact ⟨_, rfl⟩
    | succ n =>
      obtain ⟨a, s⟩ := x
      cases a with
      | error e =>
        rw [PathIter.answers]
        show ∃ it, (PathIter.answers u n ⟨leaf, none, off⟩ >>= _) = _
        rw [answers_none]
        refine ⟨⟨leaf, none, off⟩, ?_⟩
        simp [walk, Bind.bind, Except.bind, Pure.pure, Except.pure, List.take_replicate]
      | ok m =>
        by_cases hm : u.isNode m = true
        · obtain ⟨it, h⟩ := ih n (off + 1) (if b then (u.rightChild m, u.leftChild m) else (u.leftChild m, u.rightChild m)) hb2
          have hnext : (PathIter.next u.ops ⟨leaf, some (.ok m, s), off⟩ : Res _) = .ok (some (.ok m, s),
              ⟨leaf, some (if b then (u.rightChild m, u.leftChild m) else (u.leftChild m, u.rightChild m)), off + 1⟩) := by
            unfold PathIter.next
            simp only
            rw [if_pos (show u.ops.isNode m = true from hm)]
            simp only [show u.ops.leafKey leaf = .ok (u.leafKey leaf) from rfl, Bind.bind, Except.bind, hi]
            cases b <;> rfl
          rw [PathIter.answers, hnext]
          show ∃ it, (PathIter.answers u n ⟨leaf, some _, off + 1⟩ >>= _) = _
          rw [h]
          refine ⟨it, ?_⟩
          rw [walk, if_pos hm]
          simp only [Bind.bind, Except.bind, Pure.pure, Except.pure, List.map_cons, List.cons_append, List.take_succ_cons]
          rw [take_more]
        · have hnext : (PathIter.next u.ops ⟨leaf, some (.ok m, s), off⟩ : Res _) = .ok (some (.ok m, s), ⟨leaf, none, off⟩) := by
            unfold PathIter.next
            simp only
            rw [if_neg (show ¬ u.ops.isNode m = true from hm)]
            rfl
          rw [PathIter.answers, hnext]
          show ∃ it, (PathIter.answers u n ⟨leaf, none, off⟩ >>= _) = _
          rw [answers_none]
          refine ⟨⟨leaf, none, off⟩, ?_⟩
          rw [walk, if_neg hm]
          simp [Bind.bind, Except.bind, Pure.pure, Except.pure, List.take_replicate]

/-- **C62**. For every type of nodes, `root.as_path_iter(leaf)` yields the path from the root in the
directions of the leaf's key, whose first `keySizeInBits - height` bits are skipped, each item with
its sibling; it has at most one item more than the bits read; then it yields `None` for ever. This
holds whatever the children are, also if they form no tree, and it never panics, if the root is no
higher than the key is long. -/
theorem C62_path (u : UserNode T C) (p : Profile) (root leaf : T) (hh : u.height root ≤ u.keySizeInBits) :
    ∃ xs, IsPath u root (fun i => (bitsOf (u.leafKey leaf))[u.keySizeInBits - u.height root + i]?) xs ∧
      xs.length ≤ 8 * (u.leafKey leaf).length - (u.keySizeInBits - u.height root) + 1 ∧
      ∀ calls, u.path p root leaf calls = .ok ((xs.map some ++ List.replicate calls none).take calls) := by
  obtain ⟨h1, h2, h3⟩ := walk_isPath u ((bitsOf (u.leafKey leaf)).drop (u.keySizeInBits - u.height root)) (.ok root, .ok root)
  refine ⟨walk u ((bitsOf (u.leafKey leaf)).drop (u.keySizeInBits - u.height root)) (.ok root, .ok root), ⟨?_, ?_, ?_⟩, ?_, ?_⟩
  · obtain ⟨tl, h⟩ := walk_ne u ((bitsOf (u.leafKey leaf)).drop (u.keySizeInBits - u.height root)) (.ok root, .ok root)
    rw [h]; rfl
  · intro i x hx
    obtain ⟨n, s, b, a1, a2, a3, a4⟩ := h1 i x hx
    exact ⟨n, s, b, a1, a2, by rw [List.getElem?_drop] at a3; exact a3, a4⟩
  · intro x hx
    rcases h2 x hx with h | ⟨n, s, a1, a2⟩
    · exact .inl h
    · exact .inr ⟨n, s, a1, a2.imp id fun a => by rw [List.getElem?_drop] at a; exact a⟩
  · rw [List.length_drop, bitsOf_length] at h3; exact h3
  · intro calls
    unfold UserNode.path PathIter.new
    have : usizeSub p u.keySizeInBits (u.height root) = .ok (u.keySizeInBits - u.height root) := by
      unfold usizeSub; rw [if_pos hh]
    obtain ⟨it, h⟩ := answers_eq u leaf _ calls (u.keySizeInBits - u.height root) (.ok root, .ok root) rfl
    simp only [show u.ops.lift (usizeSub p u.ops.keySizeInBits (u.ops.height root)) = .ok (u.keySizeInBits - u.height root) from this,
      Bind.bind, Except.bind, Pure.pure, Except.pure, h]

/-- **C62**. A root that is higher than the key is long: with overflow checks the call panics;
without them only the root is yielded. The key must not be longer than `usize` can count: it is
enough that it has the length its type says. -/
theorem C62_too_high (u : UserNode T C) (p : Profile) (root leaf : T) (hh : u.keySizeInBits < u.height root) (hu : u.height root < 2 ^ 32)
    (hl : 8 * (u.leafKey leaf).length + u.height root ≤ u.keySizeInBits + 2 ^ p.pointers.bits) (calls : Nat) :
    u.path p root leaf calls =
      if p.overflowChecks then .error .overflow
      else .ok (([some (Except.ok root, Except.ok root)] ++ List.replicate calls none).take calls) := by
  unfold UserNode.path PathIter.new
  by_cases hp : p.overflowChecks = true
  · rw [if_pos hp]
    have : usizeSub p u.keySizeInBits (u.height root) = .error .overflow := by
      unfold usizeSub; rw [if_neg (by omega), if_pos hp]
    simp only [show u.ops.lift (usizeSub p u.ops.keySizeInBits (u.ops.height root)) = .error .overflow from this, Bind.bind, Except.bind]
  · rw [if_neg hp]
    have : usizeSub p u.keySizeInBits (u.height root) = .ok (u.keySizeInBits + 2 ^ p.pointers.bits - u.height root) := by
      have hw : 2 ^ 32 ≤ 2 ^ p.pointers.bits := Nat.pow_le_pow_right (by omega) (by cases p.pointers <;> decide)
      unfold usizeSub; rw [if_neg (by omega), if_neg hp, Nat.mod_eq_of_lt (by omega)]
    obtain ⟨it, h⟩ := answers_eq u leaf [] calls (u.keySizeInBits + 2 ^ p.pointers.bits - u.height root) (.ok root, .ok root)
      (List.drop_eq_nil_of_le (by rw [bitsOf_length]; omega))
    simp only [show u.ops.lift (usizeSub p u.ops.keySizeInBits (u.ops.height root)) = .ok (u.keySizeInBits + 2 ^ p.pointers.bits - u.height root) from this,
      Bind.bind, Except.bind, Pure.pure, Except.pure, h]
    simp [walk]

/-- A node type that is no tree: the nodes are numbers with 8-bit keys, the left child is half of
the number, the right child is missing for multiples of four, and nothing is a leaf. -/
def oddNodes : UserNode Nat String where
  keySizeInBits := 8
  height := fun n => n % 9
  leafKey := fun n => [UInt8.ofNat n]
  isNode := fun _ => true
  leftChild := fun n => .ok (n / 2)
  rightChild := fun n => if n % 4 = 0 then .error "missing" else .ok (n + 1)

example : oddNodes.height 5 ≤ oddNodes.keySizeInBits ∧
    (oddNodes.path ⟨true, true, .w64⟩ 5 14 7).toOption.map (·.map (·.map fun x => (x.1.toOption, x.2.toOption))) =
      some [some (some 5, some 5), some (some 2, some 6), some (some 3, some 1), some (some 4, some 1), some (none, some 2), none, none] := by
  decide +kernel

/-- **C62**. The path is determined: there is only one list that is the path from a root in given
directions. -/
theorem C62_unique (u : UserNode T C) (root : T) (bit : Nat → Option Bool) (xs ys : List (Except C T × Except C T))
    (hx : IsPath u root bit xs) (hy : IsPath u root bit ys) : xs = ys := by
  have agree : ∀ (i : Nat) x y, xs[i]? = some x → ys[i]? = some y → x = y := by
    intro i
    induction i with
    | zero => intro x y h1 h2; rw [hx.first] at h1; rw [hy.first] at h2; cases h1; cases h2; rfl
    | succ i ih =>
      intro x y h1 h2
      obtain ⟨n, s, b, a1, _, a3, a4⟩ := hx.step i x h1
      obtain ⟨n', s', b', b1, _, b3, b4⟩ := hy.step i y h2
      have := ih _ _ a1 b1
      rw [a3] at b3
      cases this; cases b3
      rw [a4, b4]
  have ends : ∀ (xs ys : List (Except C T × Except C T)), IsPath u root bit xs → IsPath u root bit ys →
      (∀ (i : Nat) x y, xs[i]? = some x → ys[i]? = some y → x = y) → ys.length ≤ xs.length := by
    intro xs ys hx hy agree
    apply Classical.byContradiction
    intro hlt
    have h0 : 0 < xs.length := by
      have := hx.first
      cases xs with
      | nil => cases this
      | cons => simp
    have h1 : xs[xs.length - 1]? = some (xs[xs.length - 1]'(by omega)) := List.getElem?_eq_getElem _
    have h2 : ys[xs.length - 1 + 1]? = some (ys[xs.length - 1 + 1]'(by omega)) := List.getElem?_eq_getElem _
    obtain ⟨n, s, b, b1, b2, b3, _⟩ := hy.step _ _ h2
    have := agree _ _ _ h1 b1
    rcases hx.last _ h1 with ⟨e, s', h⟩ | ⟨n', s', h, h'⟩
    · rw [h] at this; cases this
    · rw [h] at this
      cases this
      rcases h' with h' | h'
      · rw [h'] at b2; cases b2
      · rw [h'] at b3; cases b3
  have hlen := Nat.le_antisymm (ends ys xs hy hx fun i x y h1 h2 => (agree i y x h2 h1).symm) (ends xs ys hx hy agree)
  refine List.ext_getElem hlen fun i h1 h2 => ?_
  exact agree i _ _ (List.getElem?_eq_getElem h1) (List.getElem?_eq_getElem h2)

example : ∃ xs, IsPath oddNodes 5 (fun i => (bitsOf [14])[3 + i]?) xs :=
  (C62_path oddNodes ⟨true, true, .w64⟩ 5 14 (by decide)).imp fun _ h => h.1

end Props
end FuelMerkle
