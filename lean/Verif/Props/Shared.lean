import Verif.Spec.Shared
import Verif.Props.Verify
import Verif.Props.Sum
import Verif.Tests.ToyHash

/-
Property C68: several open trees on one storage.
-/
namespace FuelMerkle
namespace Props
open Spec
variable {E : Type}

set_option maxRecDepth 100000

/-! ### Binary trees -/

section
open Binary

theorem Agree.of_append {H : HashFn} {ds es : List Bytes} {m : Nat → Option Prim} (h : Agree H (ds ++ es) m) : Agree H ds m := by
  intro a k hk
  rw [h a k (by rw [List.length_append]; omega), nodeAt_append hk]

theorem Agree.prefix {H : HashFn} {ds es : List Bytes} {m : Nat → Option Prim} (h : Agree H es m) (hp : ds <+: es) : Agree H ds m := by
  obtain ⟨r, rfl⟩ := hp
  exact Agree.of_append h

theorem nodeAt_prefix {H : HashFn} {ds es : List Bytes} (hp : ds <+: es) {h k : Nat} (hk : (k + 1) * 2 ^ h ≤ ds.length) :
    nodeAt H es h k = nodeAt H ds h k := by
  obtain ⟨r, rfl⟩ := hp
  exact nodeAt_append hk

/-- Writing nodes of another beginning of the same list does no harm. -/
theorem Agree.wr_prefix {H : HashFn} {es ds : List Bytes} {d : Bytes} {m : Nat → Option Prim} (h : Agree H es m)
    (hp : (ds ++ [d]) <+: es) {c j c' : Nat} (hd : ds.length + 1 = (j + 1) * 2 ^ c) (hc' : c' ≤ c + 1) :
    Agree H es (wr H (ds ++ [d]) m c') := by
  intro a k hk
  rw [wr_apply H _ m (c := c) (j := j) (by simpa using hd) hc']
  split
  · next h1 =>
    rw [nodeAt_prefix hp (by rw [h1.2])]
  · exact h a k hk

/-- What holds of the storage and the open trees. -/
structure DeskInv (H : HashFn) (L : List Bytes) (c : Binary.Desk E) : Prop where
  top : c.top ≤ L.length
  agree : Agree H (L.take c.top) c.storage.map
  open_ : ∀ i t, c.handle i = some t → t.leavesCount = (c.list i).length ∧ Peaks H (c.list i) (c.list i).length t.head ∧
    c.list i <+: L ∧ (c.list i).length ≤ c.top

theorem DeskInv.start (H : HashFn) (L : List Bytes) (s : BStore E) : DeskInv H L (Binary.Desk.start s) :=
  ⟨Nat.zero_le _, by intro h k hk; simp [Binary.Desk.start] at hk, by intro i t h; cases h⟩

theorem DeskInv.list_prefix {H : HashFn} {L : List Bytes} {c : Binary.Desk E} (h : DeskInv H L c) {i : Nat} {t : Tree E}
    (ht : c.handle i = some t) : c.list i <+: L.take c.top := by
  obtain ⟨_, _, h3, h4⟩ := h.open_ i t ht
  rw [List.prefix_take_iff]
  exact ⟨h3, h4⟩

theorem DeskInv.inv {H : HashFn} {L : List Bytes} {c : Binary.Desk E} (h : DeskInv H L c) {i : Nat} {t : Tree E}
    (ht : c.handle i = some t) : Inv H (c.list i) (c.at t) := by
  obtain ⟨h1, h2, _, _⟩ := h.open_ i t ht
  exact ⟨h1, h2, Agree.prefix h.agree (h.list_prefix ht)⟩

theorem DeskInv.step (p : Profile) {H : HashFn} {L : List Bytes} (hL : L.length < p.leafLimit) {c : Binary.Desk E} (h : DeskInv H L c)
    (a : Act) (ha : c.Legal L a) : DeskInv H L (c.step p H L a) := by
  have hlim := p.leafLimit_le
  cases a with
  | new i =>
    refine ⟨h.top, h.agree, ?_⟩
    intro j t hj
    simp only [Binary.Desk.step] at hj ⊢
    by_cases e : j = i
    · rw [if_pos e] at hj ⊢
      obtain rfl := Option.some.inj hj
      exact ⟨rfl, .nil, by simp, by simp⟩
    · rw [if_neg e] at hj ⊢
      exact h.open_ j t hj
  | load i m =>
    have ha : m ≤ c.top := ha
    have htop := h.top
    have hlen : (L.take c.top).length = c.top := by simp; omega
    obtain ⟨x, _, ⟨l, hl, e⟩ | ⟨er, _, e⟩⟩ := load_agree p c.storage h.agree (n := m) (by omega) (by omega)
    · simp only [Binary.Desk.step, e]
      refine ⟨h.top, h.agree, ?_⟩
      intro j t hj
      simp only at hj ⊢
      by_cases ej : j = i
      · rw [if_pos ej] at hj ⊢
        obtain rfl := Option.some.inj hj
        rw [List.take_take, Nat.min_eq_left ha] at hl
        have e1 : (L.take m).length = m := by simp; omega
        rw [e1]
        exact ⟨rfl, hl, List.take_prefix _ _, ha⟩
      · rw [if_neg ej] at hj ⊢
        exact h.open_ j t hj
    · simp only [Binary.Desk.step, e]
      refine ⟨h.top, h.agree, ?_⟩
      intro j t hj
      simp only at hj ⊢
      by_cases ej : j = i
      · rw [if_pos ej] at hj; cases hj
      · rw [if_neg ej] at hj
        exact h.open_ j t hj
  | close i =>
    refine ⟨h.top, h.agree, ?_⟩
    intro j t hj
    simp only [Binary.Desk.step] at hj ⊢
    by_cases ej : j = i
    · rw [if_pos ej] at hj; cases hj
    · rw [if_neg ej] at hj
      exact h.open_ j t hj
  | root i => exact h
  | prove i k =>
    simp only [Binary.Desk.step]
    cases hh : c.handle i with
    | none => exact h
    | some t =>
      have hs := prove_readOnly p H k (c.at t)
      dsimp only
      generalize (Binary.prove p H k (c.at t)).2 = t' at hs
      refine ⟨h.top, ?_, ?_⟩
      · show Agree H (L.take c.top) t'.storage.map
        rw [hs.map]; exact h.agree
      · intro j t2 hj
        simp only at hj ⊢
        by_cases ej : j = i
        · rw [if_pos ej] at hj
          obtain rfl := Option.some.inj hj
          subst ej
          rw [hs.count, hs.head]
          exact h.open_ j t hh
        · rw [if_neg ej] at hj
          exact h.open_ j t2 hj
  | push i d =>
    simp only [Binary.Desk.step]
    cases hh : c.handle i with
    | none => exact h
    | some t =>
      have hleg : (c.list i ++ [d]) <+: L := ha (by rw [hh]; simp)
      have hlen1 : (c.list i).length + 1 ≤ L.length := by simpa using hleg.length_le
      obtain ⟨o1, o2, o3, o4⟩ := h.open_ i t hh
      have htop := h.top
      have htake : c.list i = L.take (c.list i).length := List.prefix_iff_eq_take.1 o3
      have hpre : ∀ n, (c.list i).length + 1 ≤ n → (c.list i ++ [d]) <+: L.take n := by
        intro n hn
        rw [List.prefix_take_iff]
        exact ⟨hleg, by simpa using hn⟩
      have hi := h.inv hh
      have keep : ∀ j t2, j ≠ i → c.handle j = some t2 → t2.leavesCount = (c.list j).length ∧
          Peaks H (c.list j) (c.list j).length t2.head ∧ c.list j <+: L ∧ (c.list j).length ≤ c.top :=
        fun j t2 _ hj => h.open_ j t2 hj
      rcases push_spec p H (c.list i) d (c.at t) (by omega) o1 o2 with
        ⟨t2, x, k, q1, q2, q3, q4, q5, q6, q7, q8⟩ | ⟨t2, x, k, f, q1, q2, q3, q4, q5, q6, q7, q8⟩
      · have e0 := q1
        dsimp only
        simp only [e0]
        refine ⟨by simp only; omega, ?_, ?_⟩
        · show Agree H (L.take (max c.top ((c.list i).length + 1))) t2.storage.map
          rw [q7]
          by_cases hcase : (c.list i).length + 1 ≤ c.top
          · rw [Nat.max_eq_left hcase]
            exact Agree.wr_prefix h.agree (hpre _ hcase) (j := 2 * k) q4 (Nat.le_refl _)
          · rw [Nat.max_eq_right (by omega)]
            have : L.take ((c.list i).length + 1) = c.list i ++ [d] := by
              have := List.prefix_iff_eq_take.1 hleg
              rw [List.length_append, List.length_singleton] at this
              exact this.symm
            rw [this]
            exact hi.agree.wr_all q4
        · intro j t3 hj
          simp only at hj ⊢
          by_cases ej : j = i
          · rw [if_pos ej] at hj ⊢
            obtain rfl := Option.some.inj hj
            rw [List.length_append, List.length_singleton]
            exact ⟨q2, q8, hleg, Nat.le_max_right _ _⟩
          · rw [if_neg ej] at hj ⊢
            obtain ⟨k1, k2, k3, k4⟩ := keep j t3 ej hj
            exact ⟨k1, k2, k3, by omega⟩
      · have e0 := q1
        dsimp only
        simp only [e0]
        refine ⟨h.top, ?_, ?_⟩
        · show Agree H (L.take c.top) t2.storage.map
          rw [q7]
          have hx : (if f.applied = true then x + 1 else x) ≤ x + 1 := by split <;> omega
          by_cases hcase : (c.list i).length + 1 ≤ c.top
          · exact Agree.wr_prefix h.agree (hpre _ hcase) (j := k) q4 hx
          · have : L.take c.top = c.list i := by rw [show c.top = (c.list i).length by omega]; exact htake.symm
            rw [this]
            exact hi.agree.wr q4 hx
        · intro j t3 hj
          simp only at hj ⊢
          by_cases ej : j = i
          · rw [if_pos ej] at hj; cases hj
          · rw [if_neg ej] at hj
            exact keep j t3 ej hj

theorem DeskInv.run (p : Profile) {H : HashFn} {L : List Bytes} (hL : L.length < p.leafLimit) (as : List Act) : ∀ {c : Binary.Desk E},
    DeskInv H L c → Binary.Desk.LegalRun p H L as c → DeskInv H L (c.run p H L as) := by
  have hlim := p.leafLimit_le
  induction as with
  | nil => intro c h _; exact h
  | cons a as ih => intro c h hl; exact ih (h.step p hL a hl.1) hl.2

/-- Clients that agree on one list `L` can use any number of trees on one storage: trees they
create, load, push onto, query and close in any order, with a storage that fails as it likes.
Every open tree reports the root of its own list; every proof is the one of its own list, or the
storage failed; and the trees never lose what has been acknowledged: once the storage works, a
tree loaded with any acknowledged number of leaves behaves as the beginning of `L`. -/
theorem C68_agreeing_trees (p : Profile) (H : HashFn) (s : BStore E) (L : List Bytes) (hL : L.length < p.leafLimit) (as : List Act)
    (hleg : Binary.Desk.LegalRun p H L as (Binary.Desk.start s)) (c : Binary.Desk E)
    (hc : c = (Binary.Desk.start s).run p H L as) :
    (∀ i t, c.handle i = some t → c.list i <+: L ∧
      (c.at t).root p H = .ok (if c.list i = [] then emptySum else mth H (c.list i)) ∧
      ∀ (k : Nat) d, (c.list i)[k]? = some d →
        (prove p H k (c.at t)).1 = .ok (mth H (c.list i), H ([0x00] ++ d) :: auditPath H k (c.list i)) ∨
        ∃ e, (prove p H k (c.at t)).1 = .error (.err (.storageError e)) ∧ ∃ n f, c.storage.sched n = some f ∧ f.err = e) ∧
    ∀ m, m ≤ c.top → ∃ t s', Tree.load p (healed c.storage) m = (.ok t, s') ∧
      ∀ ops, m + pushCount ops < p.leafLimit → indicesOk ops → (run p H ops t).1 = (specRun H ops (L.take m)).1 := by
  have hlim := p.leafLimit_le
  subst hc
  have hI := (DeskInv.start H L s).run p hL as hleg
  generalize (Binary.Desk.start s).run p H L as = c at hI
  refine ⟨?_, ?_⟩
  · intro i t ht
    obtain ⟨o1, o2, o3, o4⟩ := hI.open_ i t ht
    have hle := o3.length_le
    refine ⟨o3, root_spec p H _ (by omega) _ o2, ?_⟩
    intro k d hk
    obtain ⟨hlt, rfl⟩ := List.getElem?_eq_some_iff.1 hk
    obtain ⟨t', _, h4 | ⟨e, ⟨n, f, _, hf, he⟩, h5⟩⟩ := prove_spec p H _ (c.at t) (hI.inv ht) (by omega) hlt
    · left; rw [h4]; rfl
    · right; exact ⟨e, by rw [h5], n, f, hf, he⟩
  · intro m hm
    have htop := hI.top
    obtain ⟨x, _, ⟨l, hl, e⟩ | ⟨er, ⟨_, f, _, hf, _⟩, _⟩⟩ :=
      load_agree p (healed c.storage) hI.agree (n := m) (by omega) (by simp; omega)
    · refine ⟨_, _, e, ?_⟩
      intro ops h1 h2
      rw [List.take_take, Nat.min_eq_left hm] at hl
      have e1 : (L.take m).length = m := by simp; omega
      refine (run_refines p H ops (ds := L.take m) ⟨by simp; omega, by rw [e1]; exact hl, ?_⟩ (by omega) h2 (fun _ => rfl)).1
      refine Agree.prefix hI.agree ?_
      rw [List.prefix_take_iff]
      exact ⟨List.take_prefix _ _, by omega⟩
    · cases hf

end

/-! ### Sum trees -/

section
open FuelMerkle.Sum SumTree

theorem leavesOf_push_same (i fee : Nat) (d : Bytes) (xs : List (Nat × Op)) :
    leavesOf i ((i, .push fee d) :: xs) = (fee, d) :: leavesOf i xs := by simp [leavesOf, callsOn, pushed]

theorem leavesOf_root (i j : Nat) (xs : List (Nat × Op)) : leavesOf i ((j, .root) :: xs) = leavesOf i xs := by
  by_cases h : j = i <;> simp [leavesOf, callsOn, pushed, h]

theorem leavesOf_other {i j : Nat} (h : i ≠ j) (op : Op) (xs : List (Nat × Op)) : leavesOf i ((j, op) :: xs) = leavesOf i xs := by
  have : ¬ j = i := fun e => h e.symm
  simp [leavesOf, callsOn, this]

theorem leavesOf_append (i : Nat) (xs ys : List (Nat × Op)) : leavesOf i (xs ++ ys) = leavesOf i xs ++ leavesOf i ys := by
  have hp : ∀ a b : List Op, pushed (a ++ b) = pushed a ++ pushed b := by
    intro a b
    induction a with
    | nil => rfl
    | cons o a ih => cases o <;> simp [pushed, ih]
  simp [leavesOf, callsOn, hp]

/-- Calls on several sum trees on reliable storage. `D i` is the final list of tree `i`. -/
theorem desk_spec (p : Profile) (H : HashFn) (M : List Bytes) (D : Nat → List Item) :
    ∀ (xs : List (Nat × Op)) (ls : Nat → List Item) (c : Sum.Desk E),
    (∀ i, Head p H M c.storage.map (c.head i) (ls i)) → (∀ i, D i = ls i ++ leavesOf i xs) → (∀ i, (D i).length < 2 ^ 64) →
    (∀ i, ∀ x ∈ D i, x.1 < 2 ^ 64) → (p.overflowChecks = true → ∀ i, total (D i) < 2 ^ 64) → c.storage.Reliable →
    (∀ x ∈ xs, ∀ y ∈ prefixMsgs H (D x.1), y ∈ M) →
    (Sum.Desk.run p H xs c).1 = deskSpec H xs ls ∧
    (∀ i, Head p H M (Sum.Desk.run p H xs c).2.storage.map ((Sum.Desk.run p H xs c).2.head i) (D i)) ∧
    (Sum.Desk.run p H xs c).2.storage.Reliable ∧
    Keeps p H M c.storage.map (Sum.Desk.run p H xs c).2.storage.map ∧
    ∀ before i after, xs = before ++ (i, Op.root) :: after → ls i ++ leavesOf i before ≠ [] →
      Good p H M (Sum.Desk.run p H xs c).2.storage.map (ls i ++ leavesOf i before) := by
  intro xs
  induction xs with
  | nil =>
    intro ls c h hD _ _ _ hr _
    refine ⟨rfl, ?_, hr, .refl _, ?_⟩
    · intro i
      rw [hD i]
      simpa [leavesOf, callsOn, pushed, Sum.Desk.run] using h i
    · intro before i after he
      cases before <;> cases he
  | cons x xs ih =>
    intro ls c h hD hn hf ht hr hM
    obtain ⟨j, op⟩ := x
    have hwhy : ∀ (ds' more : List Item) e, D j = ds' ++ more → ¬ Why p c.storage ds' e := by
      rintro ds' more e hm (⟨k, f, _, h1, _⟩ | ⟨h1, h2, _⟩)
      · rw [hr] at h1; cases h1
      · have := ht h1 j
        rw [hm, total_append] at this; omega
    have hMj := hM (j, op) (by simp)
    have hM' : ∀ x ∈ xs, ∀ y ∈ prefixMsgs H (D x.1), y ∈ M := fun x hx => hM x (by simp [hx])
    cases op with
    | push fee d =>
      have hDj : D j = (ls j ++ [(fee, d)]) ++ leavesOf j xs := by
        rw [hD j, leavesOf_push_same]; simp
      have hl : (ls j ++ [(fee, d)]).length < 2 ^ 64 := by
        have h1 := congrArg List.length hDj
        have h2 := hn j
        rw [List.length_append] at h1; omega
      obtain ⟨r, t', q1, q2, q3, q4, q5⟩ := push_keeps p H M (ls j) (fee, d) ⟨c.storage, c.head j⟩ (h j) hl
        (hf j _ (by rw [hDj]; simp)) (fun y hy => hMj y (mem_prefixMsgs H _ _ _ hDj y hy))
      have hr' : t'.storage.Reliable := by intro k; rw [q2]; exact hr k
      rcases q5 with ⟨rfl, q5⟩ | ⟨f, q5, _⟩ | ⟨e, _, _, _, q5⟩
      · have hst : c.step p H (j, .push fee d) = (.push (.ok ()),
            ⟨t'.storage, fun k => if k = j then t'.head else c.head k⟩) := by
          simp only [Sum.Desk.step, Sum.step, q1]
        obtain ⟨i1, i2, i3, i4, i5⟩ := ih (fun k => if k = j then ls j ++ [(fee, d)] else ls k)
          ⟨t'.storage, fun k => if k = j then t'.head else c.head k⟩
          (by
            intro k
            by_cases hk : k = j
            · simp only [if_pos hk]; exact q5
            · simp only [if_neg hk]; exact (h k).keeps q4)
          (by
            intro k
            by_cases hk : k = j
            · simp only [if_pos hk]; rw [hk]; exact hDj
            · simp only [if_neg hk]; rw [hD k, leavesOf_other hk])
          hn hf ht hr' hM'
        simp only [Sum.Desk.run, hst, deskSpec, specStep]
        refine ⟨by rw [i1], i2, i3, q4.trans i4, ?_⟩
        intro before i after he hne
        cases before with
        | nil => cases he
        | cons y before =>
          obtain ⟨rfl, he'⟩ := List.cons.inj he
          have e2 : ls i ++ leavesOf i ((j, Op.push fee d) :: before) =
              (if i = j then ls j ++ [(fee, d)] else ls i) ++ leavesOf i before := by
            by_cases hk : i = j
            · rw [if_pos hk, hk, leavesOf_push_same]; simp
            · rw [if_neg hk, leavesOf_other hk]
          rw [e2] at hne ⊢
          exact i5 before i after he' hne
      · rw [hr] at q5; cases q5
      · exact absurd q5 (hwhy _ _ _ hDj)
    | root =>
      have hDj : D j = ls j ++ leavesOf j xs := by rw [hD j, leavesOf_root]
      have hl : (ls j).length < 2 ^ 64 := by
        have := congrArg List.length hDj
        have := hn j
        rw [List.length_append] at *; omega
      obtain ⟨r, t', q1, q2, q3, q4, q5, q6⟩ := root_keeps p H M (ls j) ⟨c.storage, c.head j⟩ (h j) hl
        (fun y hy => hMj y (mem_prefixMsgs H _ _ _ hDj y hy))
      have hr' : t'.storage.Reliable := by intro k; rw [q3]; exact hr k
      rcases q6 with ⟨rfl, _, q7⟩ | ⟨e, _, q7⟩
      · have hst : c.step p H (j, .root) =
            (.root (.ok (total (ls j) % 2 ^ 64, if ls j = [] then emptySum else sumHash H (ls j))),
              ⟨t'.storage, fun k => if k = j then t'.head else c.head k⟩) := by
          simp only [Sum.Desk.step, Sum.step, q1]
        obtain ⟨i1, i2, i3, i4, i5⟩ := ih (fun k => if k = j then ls j else ls k)
          ⟨t'.storage, fun k => if k = j then t'.head else c.head k⟩
          (by
            intro k
            by_cases hk : k = j
            · simp only [if_pos hk]; rw [q2]; exact (h j).keeps q5
            · simp only [if_neg hk]; exact (h k).keeps q5)
          (by
            intro k
            by_cases hk : k = j
            · simp only [if_pos hk]; rw [hk]; exact hDj
            · simp only [if_neg hk]; rw [hD k, leavesOf_other hk])
          hn hf ht hr' hM'
        simp only [Sum.Desk.run, hst, deskSpec, specStep]
        refine ⟨by rw [i1], i2, i3, q5.trans i4, ?_⟩
        intro before i after he hne
        cases before with
        | nil =>
          obtain ⟨h1, _⟩ := List.cons.inj he
          obtain rfl : j = i := (Prod.mk.inj h1).1
          have e2 : ls j ++ leavesOf j [] = ls j := by simp [leavesOf, callsOn, pushed]
          rw [e2] at hne ⊢
          exact i4 _ (q7 hne)
        | cons y before =>
          obtain ⟨rfl, he'⟩ := List.cons.inj he
          have e2 : ls i ++ leavesOf i ((j, Op.root) :: before) =
              (if i = j then ls j else ls i) ++ leavesOf i before := by
            rw [leavesOf_root]
            by_cases hk : i = j
            · rw [if_pos hk, hk]
            · rw [if_neg hk]
          rw [e2] at hne ⊢
          exact i5 before i after he' hne
      · exact absurd q7 (hwhy _ _ _ hDj)

theorem mem_deskMsgs (H : HashFn) (xs : List (Nat × Op)) : ∀ x ∈ xs, ∀ y ∈ prefixMsgs H (leavesOf x.1 xs), y ∈ deskMsgs H xs := by
  intro x hx y hy
  unfold deskMsgs
  rw [List.mem_flatMap]
  exact ⟨x.1, List.mem_map_of_mem hx, hy⟩

/-- Any number of sum trees on one storage do not disturb each other: whatever the storage held
before and in whatever order the calls come, every call returns what it would return if each
tree were a list of its own. -/
theorem C68_sum_trees_independent (p : Profile) (H : HashFn) (s : SStore E) (hs : s.Reliable) (xs : List (Nat × Op))
    (hn : ∀ i, (leavesOf i xs).length < 2 ^ 64) (hf : ∀ i, ∀ x ∈ leavesOf i xs, x.1 < 2 ^ 64)
    (ht : p.overflowChecks = true → ∀ i, total (leavesOf i xs) < 2 ^ 64) :
    (Sum.Desk.run p H xs (Sum.Desk.start s)).1 = deskSpec H xs (fun _ => []) :=
  (desk_spec p H (deskMsgs H xs) (fun i => leavesOf i xs) xs (fun _ => []) (Sum.Desk.start s) (fun _ => .nil)
    (fun _ => rfl) hn hf ht hs (mem_deskMsgs H xs)).1

/-- And no tree destroys what another (or the same) tree has stored: at the end, every digest
ever reported by a `root` call of any of the trees can still be followed through the storage to
the leaves that tree had at that moment (unless two of the messages hashed collide). -/
theorem C68_sum_trees_keep_records (p : Profile) (H : HashFn) (s : SStore E) (hs : s.Reliable) (xs : List (Nat × Op))
    (hn : ∀ i, (leavesOf i xs).length < 2 ^ 64) (hf : ∀ i, ∀ x ∈ leavesOf i xs, x.1 < 2 ^ 64)
    (ht : p.overflowChecks = true → ∀ i, total (leavesOf i xs) < 2 ^ 64)
    (hc : ¬ Collide H (deskMsgs H xs) (deskMsgs H xs)) (before after : List (Nat × Op)) (i : Nat)
    (hx : xs = before ++ (i, .root) :: after) (h0 : leavesOf i before ≠ []) :
    (∃ fee, (Sum.Desk.step p H (i, .root) (Sum.Desk.run p H before (Sum.Desk.start s)).2).1 =
      .root (.ok (fee, sumHash H (leavesOf i before)))) ∧
    walk (Sum.Desk.run p H xs (Sum.Desk.start s)).2.storage.map (leavesOf i before).length (sumHash H (leavesOf i before)) =
      some ((leavesOf i before).map fun x => (x.1, H ([0x00] ++ be64 x.1 ++ x.2))) := by
  have hsub : ∀ k, ∃ more, leavesOf k xs = leavesOf k before ++ more := fun k =>
    ⟨leavesOf k ((i, .root) :: after), by rw [hx, leavesOf_append]⟩
  constructor
  · have hn' : ∀ k, (leavesOf k before).length < 2 ^ 64 := by
      intro k
      obtain ⟨m, hm⟩ := hsub k
      have := hn k
      rw [hm, List.length_append] at this; omega
    have hf' : ∀ k, ∀ x ∈ leavesOf k before, x.1 < 2 ^ 64 := by
      intro k x hx
      obtain ⟨m, hm⟩ := hsub k
      exact hf k x (by rw [hm]; simp [hx])
    have ht' : p.overflowChecks = true → ∀ k, total (leavesOf k before) < 2 ^ 64 := by
      intro hp k
      obtain ⟨m, hm⟩ := hsub k
      have := ht hp k
      rw [hm, total_append] at this; omega
    obtain ⟨_, i2, i3, _, _⟩ := desk_spec p H (deskMsgs H before ++ prefixMsgs H (leavesOf i before))
      (fun k => leavesOf k before) before (fun _ => []) (Sum.Desk.start s)
      (fun _ => .nil) (fun _ => rfl) hn' hf' ht' hs (fun x hx y hy => List.mem_append_left _ (mem_deskMsgs H before x hx y hy))
    generalize (Sum.Desk.run p H before (Sum.Desk.start s)).2 = c at i2 i3
    obtain ⟨r, t', q1, _, _, _, _, q6⟩ := root_keeps p H _ _ ⟨c.storage, c.head i⟩ (i2 i) (hn' i)
      (fun y hy => List.mem_append_right _ (mem_prefixMsgs H _ _ [] (by simp) y hy))
    rcases q6 with ⟨rfl, _, _⟩ | ⟨e, _, ⟨k, f, _, h4, _⟩ | ⟨h4, h5, _⟩⟩
    · rw [if_neg h0] at q1
      exact ⟨total (leavesOf i before) % 2 ^ 64, by simp only [Sum.Desk.step, Sum.step]; rw [q1]⟩
    · rw [i3] at h4; cases h4
    · have := ht' h4 i; omega
  · obtain ⟨_, _, _, _, i5⟩ := desk_spec p H (deskMsgs H xs) (fun i => leavesOf i xs) xs (fun _ => []) (Sum.Desk.start s)
      (fun _ => .nil) (fun _ => rfl) hn hf ht hs (mem_deskMsgs H xs)
    have hg := i5 before i after hx (by simpa using h0)
    simp only [List.nil_append] at hg
    exact stored_walk (hg.2.2 hc) hg.1 _ (Nat.le_refl _)

end

/-! ### Examples -/

section
open Binary

/-- Two trees on one storage for lists that differ in the second leaf. -/
def clash : Binary.Desk Unit :=
  (Binary.Desk.start Store.empty).run ⟨true, true, .w64⟩ Sha256.sha256 []
    [.new 0, .new 1, .push 0 [1], .push 0 [2], .push 1 [1], .push 1 [3]]

/-- All that is said about `clash` below, as one computation. -/
def clashStory : Bool :=
  match clash.handle 0 with
  | none => false
  | some t =>
    clash.list 0 = [[1], [2]] && clash.list 1 = [[1], [3]] &&
    ((clash.at t).root ⟨true, true, .w64⟩ Sha256.sha256).toOption = some (mth Sha256.sha256 [[1], [2]]) &&
    match (prove ⟨true, true, .w64⟩ Sha256.sha256 0 (clash.at t)).1 with
    | .ok (r, ps) => r = mth Sha256.sha256 [[1], [2]] && (Verify.verify ⟨true, true, .w64⟩ Sha256.sha256 r ps 0 2).toOption = some false
    | .error _ => false

/-- The agreement is needed: two trees for different lists of two leaves, on one storage without
any failure. All pushes succeed and the first tree still reports its own root, but its `prove`
returns without an error a proof that does not verify against that root. -/
theorem C68_disagreeing_trees : ∃ t, clash.handle 0 = some t ∧ clash.list 0 = [[1], [2]] ∧ clash.list 1 = [[1], [3]] ∧
    (clash.at t).root ⟨true, true, .w64⟩ Sha256.sha256 = .ok (mth Sha256.sha256 [[1], [2]]) ∧
    ∃ ps, (prove ⟨true, true, .w64⟩ Sha256.sha256 0 (clash.at t)).1 = .ok (mth Sha256.sha256 [[1], [2]], ps) ∧
      Verify.verify ⟨true, true, .w64⟩ Sha256.sha256 (mth Sha256.sha256 [[1], [2]]) ps 0 2 = .ok false := by
  have h : clashStory = true := by decide +kernel
  unfold clashStory at h
  have opt : ∀ {α β : Type} {x : Except α β} {y : β}, x.toOption = some y → x = .ok y := by
    intro α β x y h
    cases x with
    | error e => cases h
    | ok z => cases h; rfl
  split at h
  · cases h
  · next t ht =>
    simp only [Bool.and_eq_true, decide_eq_true_eq] at h
    obtain ⟨⟨⟨h1, h2⟩, h3⟩, h4⟩ := h
    refine ⟨t, ht, h1, h2, opt h3, ?_⟩
    split at h4
    · next r ps hp =>
      simp only [Bool.and_eq_true, decide_eq_true_eq] at h4
      obtain ⟨rfl, h5⟩ := h4
      exact ⟨ps, hp, opt h5⟩
    · cases h4

/-- Actions of two clients that agree, one of whose trees fails, is dropped and loaded again. -/
def sampleActs : List Act :=
  [.new 0, .push 0 [1], .push 0 [2], .new 1, .push 1 [1], .load 2 2, .push 2 [3], .push 1 [2], .prove 0 1, .close 0, .load 0 3]

/-- The storage fails at its ninth call. -/
def sampleStore : BStore Unit := ⟨fun _ => none, fun n => if n = 8 then some ⟨(), true⟩ else none, 0⟩

example : Binary.Desk.LegalRun ⟨true, true, .w64⟩ Tests.toyHash [[1], [2], [3]] sampleActs (Binary.Desk.start sampleStore) := by
  refine ⟨?_, ?_, ?_, ?_, ?_, ?_, ?_, ?_, ?_, ?_, ?_, ?_⟩ <;> first | trivial | (intro _; decide +kernel) | (show _ ≤ _; decide +kernel)

example : (((Binary.Desk.start sampleStore).run ⟨true, true, .w64⟩ Tests.toyHash [[1], [2], [3]] sampleActs).top = 3) ∧
    ((Binary.Desk.start sampleStore).run ⟨true, true, .w64⟩ Tests.toyHash [[1], [2], [3]] sampleActs).list 0 = [[1], [2], [3]] := by
  decide +kernel

end

/-- Calls on two sum trees. -/
def sampleCalls : List (Nat × Sum.Op) :=
  [(0, .push 1 [1]), (1, .push 2 [2]), (0, .push 2 [2]), (0, .root), (1, .root), (1, .push 1 [1]), (1, .root)]

example : Sum.leavesOf 0 sampleCalls = [(1, [1]), (2, [2])] ∧ Sum.leavesOf 1 sampleCalls = [(2, [2]), (1, [1])] := by decide

example : ¬ Collide Sha256.sha256 (Sum.deskMsgs Sha256.sha256 sampleCalls) (Sum.deskMsgs Sha256.sha256 sampleCalls) := by
  have h : ∀ x ∈ (Sum.deskMsgs Sha256.sha256 sampleCalls).eraseDups, ∀ y ∈ (Sum.deskMsgs Sha256.sha256 sampleCalls).eraseDups,
      Sha256.sha256 x = Sha256.sha256 y → x = y := by decide +kernel
  rintro ⟨x, hx, y, hy, h1, h2⟩
  exact h1 (h x (List.mem_eraseDups.2 hx) y (List.mem_eraseDups.2 hy) h2)

end Props
end FuelMerkle
