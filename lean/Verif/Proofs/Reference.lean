import Verif.Spec.ReferenceApi
import Verif.Proofs.Rfc6962

/-
Invariants of the reference tree of the test helpers.
-/
namespace FuelMerkle
namespace Reference
open Spec

/-- `a` and `b` are the two halves of the tree over `a ++ b`. -/
def IsSplit (a b : List Bytes) : Prop := 0 < b.length ∧ ∃ c, a.length = 2 ^ c ∧ b.length ≤ 2 ^ c

theorem IsSplit.split_eq {a b : List Bytes} (h : IsSplit a b) :
    1 < (a ++ b).length ∧ split (a ++ b).length = a.length := by
  obtain ⟨h0, c, h1, h2⟩ := h
  have := Nat.two_pow_pos c
  refine ⟨by rw [List.length_append]; omega, ?_⟩
  rw [h1]
  exact split_pow (by rw [List.length_append]; omega) (by rw [List.length_append, Nat.pow_succ]; omega)

theorem mth_append (H : HashFn) {a b : List Bytes} (h : IsSplit a b) :
    mth H (a ++ b) = Binary.nodeSum H (mth H a).val (mth H b).val := by
  obtain ⟨h1, h2⟩ := h.split_eq
  rw [mth_split H h1, h2, List.take_left, List.drop_left]

theorem auditPath_append_left (H : HashFn) {a b : List Bytes} (h : IsSplit a b) {j : Nat} (hj : j < a.length) :
    auditPath H j (a ++ b) = auditPath H j a ++ [mth H b] := by
  obtain ⟨h1, h2⟩ := h.split_eq
  rw [auditPath_split H j h1, h2, List.take_left, List.drop_left, if_pos hj]

theorem auditPath_append_right (H : HashFn) {a b : List Bytes} (h : IsSplit a b) (j : Nat) :
    auditPath H (a.length + j) (a ++ b) = auditPath H j b ++ [mth H a] := by
  obtain ⟨h1, h2⟩ := h.split_eq
  rw [auditPath_split H _ h1, h2, List.take_left, List.drop_left, if_neg (by omega), Nat.add_sub_cancel_left]

theorem auditPath_length (H : HashFn) (h : Nat) : ∀ (a : List Bytes) (j : Nat), a.length = 2 ^ h → j < a.length →
    (auditPath H j a).length = h := by
  induction h with
  | zero => intro a j ha _; rw [auditPath_short H j (by omega)]; rfl
  | succ h ih =>
    intro a j ha hj
    have hp := Nat.two_pow_pos h
    rw [Nat.pow_succ] at ha
    have e : a = a.take (2 ^ h) ++ a.drop (2 ^ h) := (List.take_append_drop _ _).symm
    have l1 : (a.take (2 ^ h)).length = 2 ^ h := by rw [List.length_take]; omega
    have l2 : (a.drop (2 ^ h)).length = 2 ^ h := by rw [List.length_drop]; omega
    have hs : IsSplit (a.take (2 ^ h)) (a.drop (2 ^ h)) := ⟨by omega, h, l1, by omega⟩
    rw [e]
    by_cases hlt : j < 2 ^ h
    · rw [auditPath_append_left H hs (by omega), List.length_append, ih _ _ l1 (by omega)]; rfl
    · obtain ⟨j', rfl⟩ : ∃ j', j = (a.take (2 ^ h)).length + j' := ⟨j - 2 ^ h, by omega⟩
      rw [auditPath_append_right H hs, List.length_append, ih _ _ l2 (by omega)]; rfl

/-- The proof so far for leaf number `j` of the complete subtree over `c`. -/
def pset (H : HashFn) (j : Nat) (c : List Bytes) : List Bytes32 :=
  Binary.leafSum H (c[j]?.getD []) :: auditPath H j c

/-- `n` is the node over `suf`, lower than all of `rest`. -/
def NodeOk (H : HashFn) (n : RNode) (rest : List RNode) (suf : List Bytes) : Prop :=
  suf.length = 2 ^ n.height ∧ n.data = mth H suf ∧ ∀ k ∈ rest, n.height < k.height

/-- The list of subtrees over a list of leaves, and the proof set for leaf `i` so far. -/
inductive RHead (H : HashFn) (i : Nat) : List RNode → List Bytes → List Bytes32 → Prop where
  | nil : RHead H i [] [] []
  | old (n : RNode) (rest pre suf ps) : RHead H i rest pre ps → NodeOk H n rest suf → i < pre.length →
      RHead H i (n :: rest) (pre ++ suf) ps
  | here (n : RNode) (rest pre suf) : RHead H i rest pre [] → NodeOk H n rest suf → pre.length ≤ i →
      i < pre.length + suf.length → RHead H i (n :: rest) (pre ++ suf) (pset H (i - pre.length) suf)
  | future (n : RNode) (rest pre suf) : RHead H i rest pre [] → NodeOk H n rest suf →
      pre.length + suf.length ≤ i → RHead H i (n :: rest) (pre ++ suf) []

/-- Common part of the three cases. -/
theorem RHead.inv {H : HashFn} {i : Nat} {n : RNode} {rest : List RNode} {ds : List Bytes} {ps : List Bytes32}
    (h : RHead H i (n :: rest) ds ps) : ∃ pre suf ps', ds = pre ++ suf ∧ RHead H i rest pre ps' ∧ NodeOk H n rest suf ∧
      (pre.length ≤ i → ps' = []) ∧
      ps = (if i < pre.length then ps' else if i < pre.length + suf.length then pset H (i - pre.length) suf else []) := by
  cases h with
  | old _ _ pre suf ps h1 h2 h3 => exact ⟨pre, suf, ps, rfl, h1, h2, fun h => by omega, by rw [if_pos h3]⟩
  | here _ _ pre suf h1 h2 h3 h4 =>
    exact ⟨pre, suf, [], rfl, h1, h2, fun _ => rfl, by rw [if_neg (by omega), if_pos h4]⟩
  | future _ _ pre suf h1 h2 h3 =>
    exact ⟨pre, suf, [], rfl, h1, h2, fun _ => rfl, by rw [if_neg (by omega), if_neg (by omega)]⟩

theorem RHead.mk {H : HashFn} {i : Nat} {n : RNode} {rest : List RNode} {pre suf : List Bytes} {ps : List Bytes32}
    (h1 : RHead H i rest pre ps) (h2 : NodeOk H n rest suf) (h3 : pre.length ≤ i → ps = []) :
    RHead H i (n :: rest) (pre ++ suf)
      (if i < pre.length then ps else if i < pre.length + suf.length then pset H (i - pre.length) suf else []) := by
  split
  · exact .old _ _ _ _ _ h1 h2 (by omega)
  · rw [h3 (by omega)] at h1
    split
    · exact .here _ _ _ _ h1 h2 (by omega) (by omega)
    · exact .future _ _ _ _ h1 h2 (by omega)

theorem RHead.empty_iff {H : HashFn} {i : Nat} {l : List RNode} {ds : List Bytes} {ps : List Bytes32}
    (h : RHead H i l ds ps) : l = [] ↔ ds = [] := by
  cases l with
  | nil => cases h; simp
  | cons n rest =>
    obtain ⟨pre, suf, _, rfl, _, ⟨h1, _⟩, _⟩ := h.inv
    have := Nat.two_pow_pos n.height
    constructor
    · intro h; cases h
    · intro h
      have := congrArg List.length h
      rw [List.length_append, List.length_nil] at this; omega

theorem RHead.none {H : HashFn} {i : Nat} {l : List RNode} {ds : List Bytes} {ps : List Bytes32}
    (h : RHead H i l ds ps) (hi : ds.length ≤ i) : ps = [] := by
  cases h with
  | nil => rfl
  | old _ _ pre suf ps h1 h2 h3 => rw [List.length_append] at hi; omega
  | here _ _ pre suf h1 h2 h3 h4 => rw [List.length_append] at hi; omega
  | future => rfl

/-- The proof set is longer than the height of any lower subtree. -/
theorem RHead.len {H : HashFn} {i : Nat} {l : List RNode} {ds : List Bytes} {ps : List Bytes32}
    (h : RHead H i l ds ps) (hi : i < ds.length) {b : Nat} (hb : ∀ k ∈ l, b < k.height) : b + 1 < ps.length := by
  induction h with
  | nil => simp at hi
  | old n rest pre suf ps h1 h2 h3 ih => exact ih h3 (fun k hk => hb k (by simp [hk]))
  | here n rest pre suf h1 h2 h3 h4 ih =>
    have := hb n (by simp)
    rw [pset, List.length_cons, auditPath_length H n.height suf _ h2.1 (by omega)]
    omega
  | future n rest pre suf h1 h2 h3 => rw [List.length_append] at hi; omega

theorem RHead.dvd {H : HashFn} {i : Nat} {l : List RNode} {ds : List Bytes} {ps : List Bytes32}
    (h : RHead H i l ds ps) {b : Nat} (hb : ∀ k ∈ l, b ≤ k.height) : 2 ^ b ∣ ds.length := by
  have step : ∀ (n : RNode) (rest : List RNode) (pre suf : List Bytes), (∀ k ∈ n :: rest, b ≤ k.height) →
      NodeOk H n rest suf → 2 ^ b ∣ pre.length → 2 ^ b ∣ (pre ++ suf).length := by
    intro n rest pre suf hb h1 h2
    rw [List.length_append, h1.1]
    exact Nat.dvd_add h2 (Nat.pow_dvd_pow 2 (hb n (by simp)))
  induction h with
  | nil => simp
  | old n rest pre suf ps h1 h2 h3 ih => exact step n rest pre suf hb h2 (ih fun k hk => hb k (by simp [hk]))
  | here n rest pre suf h1 h2 h3 h4 ih => exact step n rest pre suf hb h2 (ih fun k hk => hb k (by simp [hk]))
  | future n rest pre suf h1 h2 h3 ih => exact step n rest pre suf hb h2 (ih fun k hk => hb k (by simp [hk]))

theorem join_ok (p : Profile) (H : HashFn) {a b : RNode} (h : a.height < 64) :
    join p H a b = .ok ⟨a.height + 1, Binary.nodeSum H a.data.val b.data.val⟩ := by
  unfold join u32Add
  rw [if_pos (by omega)]; rfl

theorem pow_lt {h n : Nat} (hn : 2 ^ h ≤ n) (hb : n < 2 ^ 64) : h < 64 := by
  by_contra hc
  have : 2 ^ 64 ≤ 2 ^ h := Nat.pow_le_pow_right (by omega) (by omega)
  omega

theorem joinAll_spec (p : Profile) (H : HashFn) (n i : Nat) (hn : n < 2 ^ 63) : ∀ (rest : List RNode)
    (cur : RNode) (pre b : List Bytes) (ps : List Bytes32), RHead H i rest pre ps → b.length = 2 ^ cur.height →
    cur.data = mth H b → (∀ k ∈ rest, cur.height ≤ k.height) → pre.length + b.length = n + 1 →
    ∃ l' ps', joinAll p H n i cur rest
      (if i < pre.length then ps else if i < pre.length + b.length then pset H (i - pre.length) b else []) =
        .ok (l', ps') ∧ RHead H i l' (pre ++ b) ps' := by
  intro rest
  induction rest with
  | nil =>
    intro cur pre b ps h1 h2 h3 h4 h5
    refine ⟨_, _, rfl, h1.mk ⟨h2, h3, by simp⟩ h1.none⟩
  | cons k rest ih =>
    intro cur pre b ps h1 h2 h3 h4 h5
    by_cases hk : cur.height = k.height
    · have hcur : cur.height < 64 := pow_lt (n := n + 1) (by omega) (by omega)
      obtain ⟨pre', a, ps', rfl, g1, ⟨g2, g3, g4⟩, g5, g6⟩ := h1.inv
      have hs : IsSplit a b := ⟨by rw [h2]; exact Nat.two_pow_pos _, cur.height, by rw [g2, hk], by omega⟩
      have hla : a.length = b.length := by rw [g2, h2, hk]
      have hpb : 0 < b.length := hs.1
      rw [List.length_append] at h5 ⊢
      have hdvd : 2 ^ cur.height ∣ pre'.length := g1.dvd (fun k' hk' => by have := g4 k' hk'; omega)
      have hmid : n / 2 ^ cur.height * 2 ^ cur.height = pre'.length + a.length := by
        obtain ⟨q, hq⟩ := hdvd
        have hpos := Nat.two_pow_pos cur.height
        have : n / 2 ^ cur.height = q + 1 := by
          apply Nat.div_eq_of_lt_le
          · rw [Nat.add_mul, Nat.mul_comm q]; omega
          · rw [Nat.succ_mul, Nat.add_mul, Nat.mul_comm q]; omega
        rw [this, Nat.add_mul, Nat.mul_comm q]; omega
      have hlt : ∀ j, (pset H j a).length = (auditPath H j a).length + 1 := fun j => rfl
      have hstep : ∀ psc psn : List Bytes32,
          ((if cur.height + 1 = psc.length then do
              let headLeavesCount ← u64Shl1 p cur.height
              let mid ← u64Mul p (n / headLeavesCount) headLeavesCount
              if i < mid then return psc ++ [cur.data] else return psc ++ [k.data]
            else return psc) : Res (List Bytes32)) = .ok psn →
          psn = (if i < pre'.length then ps' else if i < pre'.length + (a ++ b).length
            then pset H (i - pre'.length) (a ++ b) else []) →
          ∃ l' ps'', joinAll p H n i cur (k :: rest) psc = .ok (l', ps'') ∧ RHead H i l' (pre' ++ a ++ b) ps'' := by
        intro psc psn e1 e2
        obtain ⟨l', ps'', i1, i2⟩ := ih ⟨k.height + 1, Binary.nodeSum H k.data.val cur.data.val⟩ pre' (a ++ b) ps' g1
          (by rw [List.length_append, ← hla, g2, Nat.pow_succ]; omega)
          (by rw [mth_append H hs, g3, h3]) (fun k' hk' => g4 k' hk')
          (by rw [List.length_append]; omega)
        refine ⟨l', ps'', ?_, by rw [List.append_assoc]; exact i2⟩
        rw [joinAll, if_pos hk]
        have e3 : u32Add p cur.height 1 = .ok (cur.height + 1) := by unfold u32Add; rw [if_pos (by omega)]
        rw [e3, Res.ok_bind, e1, Res.ok_bind, join_ok p H (by omega), Res.ok_bind, e2]
        exact i1
      have hfull : ((do
              let headLeavesCount ← u64Shl1 p cur.height
              let mid ← u64Mul p (n / headLeavesCount) headLeavesCount
              return mid) : Res Nat) = .ok (pre'.length + a.length) := by
        unfold u64Shl1 shiftAmount u64Mul
        rw [if_pos hcur]
        simp only [Res.ok_bind, Res.pure_eq]
        rw [hmid, if_pos (by omega)]
      have hfull' : ∀ x y : List Bytes32, ((do
              let headLeavesCount ← u64Shl1 p cur.height
              let mid ← u64Mul p (n / headLeavesCount) headLeavesCount
              if i < mid then return x else return y) : Res (List Bytes32)) =
            .ok (if i < pre'.length + a.length then x else y) := by
        intro x y
        unfold u64Shl1 shiftAmount u64Mul
        rw [if_pos hcur]
        simp only [Res.ok_bind, Res.pure_eq]
        rw [hmid, if_pos (by omega)]
        simp only [Res.ok_bind]
        split <;> rfl
      rcases Nat.lt_or_ge i pre'.length with hi | hi
      · -- an older subtree contains the leaf
        rw [if_pos (by omega)]
        rw [if_pos hi] at g6
        subst g6
        have hlen := g1.len hi (b := cur.height) (fun k' hk' => by have := g4 k' hk'; omega)
        exact hstep _ _ (by rw [if_neg (by omega)]; rfl) (by rw [if_pos hi])
      rcases Nat.lt_or_ge i (pre'.length + a.length) with hi2 | hi2
      · -- the left one contains the leaf
        rw [if_pos (by omega)]
        rw [if_neg (by omega), if_pos hi2] at g6
        subst g6
        have hal := auditPath_length H k.height a (i - pre'.length) g2 (by omega)
        refine hstep _ _ (by rw [if_pos (by rw [hlt, hal, hk]), hfull', if_pos hi2]) ?_
        rw [if_neg (by omega), if_pos (by rw [List.length_append]; omega)]
        unfold pset
        rw [auditPath_append_left H hs (by omega), List.getElem?_append_left (by omega), h3]
        rfl
      rcases Nat.lt_or_ge i (pre'.length + a.length + b.length) with hi3 | hi3
      · -- the new one contains the leaf
        rw [if_neg (by omega), if_pos hi3]
        have hal := auditPath_length H cur.height b (i - (pre'.length + a.length)) h2 (by omega)
        refine hstep _ _ (by rw [if_pos (by rw [pset, List.length_cons, hal]), hfull', if_neg (by omega)]) ?_
        rw [if_neg (by omega), if_pos (by rw [List.length_append]; omega)]
        unfold pset
        rw [show i - pre'.length = a.length + (i - (pre'.length + a.length)) by omega, auditPath_append_right H hs,
          List.getElem?_append_right (by omega), Nat.add_sub_cancel_left, g3]
        rfl
      · rw [if_neg (by omega), if_neg (by omega)]
        refine hstep _ _ (by rw [if_neg (by simp)]; rfl) ?_
        rw [if_neg (by omega), if_neg (by rw [List.length_append]; omega)]
    · refine ⟨_, _, by rw [joinAll, if_neg hk]; rfl, h1.mk ⟨h2, h3, ?_⟩ h1.none⟩
      obtain ⟨_, _, _, _, _, ⟨_, _, g4⟩, _⟩ := h1.inv
      have hlt : cur.height < k.height := by have := h4 k (by simp); omega
      intro k' hk'
      rcases List.mem_cons.1 hk' with rfl | hk'
      · exact hlt
      · have := g4 k' hk'; omega

/-- State of a reference tree holding the leaves `ds`. -/
def Inv (H : HashFn) (i : Nat) (t : Tree) (ds : List Bytes) : Prop :=
  RHead H i t.head ds t.proofSet ∧ t.leavesCount = ds.length ∧ t.proofIndex = i

theorem push_spec (p : Profile) (H : HashFn) {i : Nat} {t : Tree} {ds : List Bytes} (h : Inv H i t ds) (d : Bytes)
    (hn : ds.length < 2 ^ 63) : ∃ t', t.push p H d = .ok t' ∧ Inv H i t' (ds ++ [d]) := by
  obtain ⟨h1, h2, h3⟩ := h
  obtain ⟨l', ps', e1, e2⟩ := joinAll_spec p H ds.length i hn t.head ⟨0, Binary.leafSum H d⟩ ds [d] t.proofSet h1 rfl
    (mth_single H d).symm (fun _ _ => Nat.zero_le _) rfl
  refine ⟨{ t with head := l', proofSet := ps', leavesCount := ds.length + 1 }, ?_, e2, by simp, h3⟩
  unfold Tree.push
  have e3 : (if t.leavesCount = t.proofIndex then t.proofSet ++ [Binary.leafSum H d] else t.proofSet) =
      (if i < ds.length then t.proofSet else if i < ds.length + [d].length then pset H (i - ds.length) [d] else []) := by
    rw [h2, h3]
    by_cases hi : i < ds.length
    · rw [if_neg (by omega), if_pos hi]
    · rw [if_neg hi, h1.none (by omega)]
      by_cases he : ds.length = i
      · rw [if_pos he, if_pos (by simp; omega)]
        subst he
        simp [pset, auditPath_short]
      · rw [if_neg he, if_neg (by simp; omega)]
  simp only []
  rw [e3, h2, h3, e1]
  simp only [Res.ok_bind]
  unfold u64Add
  rw [if_pos (by omega)]
  rfl

theorem pushAll_spec (p : Profile) (H : HashFn) {i : Nat} : ∀ (es : List Bytes) {t : Tree} {ds : List Bytes},
    Inv H i t ds → ds.length + es.length ≤ 2 ^ 63 → ∃ t', pushAll p H es t = .ok t' ∧ Inv H i t' (ds ++ es) := by
  intro es
  induction es with
  | nil => intro t ds h _; exact ⟨t, rfl, by simpa using h⟩
  | cons d es ih =>
    intro t ds h hn
    rw [List.length_cons] at hn
    obtain ⟨t1, h1, h2⟩ := push_spec p H h d (by omega)
    obtain ⟨t2, h3, h4⟩ := ih h2 (by rw [List.length_append]; simp; omega)
    exact ⟨t2, by rw [pushAll, h1, Res.ok_bind, h3], by simpa using h4⟩

theorem RHead.height_lt {H : HashFn} {i : Nat} {l : List RNode} {ds : List Bytes} {ps : List Bytes32}
    (h : RHead H i l ds ps) (hn : ds.length < 2 ^ 64) : ∀ k ∈ l, k.height < 64 := by
  induction l generalizing ds ps with
  | nil => simp
  | cons n rest ih =>
    obtain ⟨pre, suf, ps', rfl, g1, ⟨g2, g3, g4⟩, _⟩ := h.inv
    rw [List.length_append] at hn
    intro k hk
    rcases List.mem_cons.1 hk with rfl | hk
    · exact pow_lt (n := suf.length) (by omega) (by omega)
    · exact ih g1 (by omega) k hk

theorem rootLoop_spec (p : Profile) (H : HashFn) {i : Nat} : ∀ (rest : List RNode) (cur : RNode) (pre b : List Bytes)
    (ps : List Bytes32), RHead H i rest pre ps → pre.length < 2 ^ 64 → cur.data = mth H b → 0 < b.length →
    (∀ k ∈ rest, b.length ≤ 2 ^ k.height) →
    ∃ n, rootLoop p H cur rest = .ok n ∧ n.data = mth H (pre ++ b) := by
  intro rest
  induction rest with
  | nil =>
    intro cur pre b ps h1 _ h2 h3 h4
    have := h1.empty_iff.1 rfl
    subst this
    exact ⟨cur, rfl, h2⟩
  | cons k rest ih =>
    intro cur pre b ps h1 hn h2 h3 h4
    have hkh := h1.height_lt hn k (by simp)
    obtain ⟨pre', a, ps', rfl, g1, ⟨g2, g3, g4⟩, _⟩ := h1.inv
    have hs : IsSplit a b := ⟨h3, k.height, g2, h4 k (by simp)⟩
    have hb := h4 k (by simp)
    rw [List.length_append] at hn
    obtain ⟨n, e1, e2⟩ := ih ⟨k.height + 1, Binary.nodeSum H k.data.val cur.data.val⟩ pre' (a ++ b) ps' g1 (by omega)
      (by rw [mth_append H hs, g3, h2]) (by rw [List.length_append]; omega)
      (fun k' hk' => by
        have : 2 ^ (k.height + 1) ≤ 2 ^ k'.height := Nat.pow_le_pow_right (by omega) (g4 k' hk')
        rw [Nat.pow_succ] at this
        rw [List.length_append]; omega)
    exact ⟨n, by rw [rootLoop, join_ok p H hkh, Res.ok_bind, e1], by rw [List.append_assoc]; exact e2⟩

theorem root_spec (p : Profile) (H : HashFn) {i : Nat} {t : Tree} {ds : List Bytes} (h : Inv H i t ds)
    (hn : ds.length < 2 ^ 64) : t.root p H = .ok (if ds = [] then Binary.emptySum else mth H ds) := by
  obtain ⟨h1, _, _⟩ := h
  unfold Tree.root
  cases hl : t.head with
  | nil =>
    rw [hl] at h1
    rw [if_pos (h1.empty_iff.1 rfl)]; rfl
  | cons k rest =>
    rw [hl] at h1
    rw [if_neg (fun h => by have := h1.empty_iff.2 h; cases this)]
    obtain ⟨pre', a, ps', rfl, g1, ⟨g2, g3, g4⟩, _⟩ := h1.inv
    rw [List.length_append] at hn
    obtain ⟨n, e1, e2⟩ := rootLoop_spec p H rest k pre' a ps' g1 (by omega) g3 (by rw [g2]; exact Nat.two_pow_pos _)
      (fun k' hk' => by rw [g2]; exact Nat.pow_le_pow_right (by omega) (by have := g4 k' hk'; omega))
    simp only []
    rw [e1, Res.ok_bind, e2]; rfl

/-- Along the right edge the audit path consists of the remaining subtrees. -/
theorem spine {H : HashFn} {i : Nat} : ∀ (rest : List RNode) (pre b : List Bytes) (ps : List Bytes32) (j : Nat),
    RHead H i rest pre ps → j < b.length → (∀ k ∈ rest, b.length ≤ 2 ^ k.height) →
    auditPath H (pre.length + j) (pre ++ b) = auditPath H j b ++ rest.map RNode.data := by
  intro rest
  induction rest with
  | nil =>
    intro pre b ps j h1 h2 h3
    have := h1.empty_iff.1 rfl
    subst this
    simp
  | cons k rest ih =>
    intro pre b ps j h1 h2 h3
    obtain ⟨pre', a, ps', rfl, g1, ⟨g2, g3, g4⟩, _⟩ := h1.inv
    have hb := h3 k (by simp)
    have hs : IsSplit a b := ⟨by omega, k.height, g2, hb⟩
    rw [List.append_assoc, List.length_append, Nat.add_assoc, ih pre' (a ++ b) ps' (a.length + j) g1
      (by rw [List.length_append]; omega)
      (fun k' hk' => by
        have : 2 ^ (k.height + 1) ≤ 2 ^ k'.height := Nat.pow_le_pow_right (by omega) (g4 k' hk')
        rw [Nat.pow_succ] at this
        rw [List.length_append]; omega), auditPath_append_right H hs, List.map_cons, g3, List.append_assoc]
    rfl

/-- What `prove` appends after the first loop. -/
def finish (ps : List Bytes32) (limit : Nat) (current : RNode) (rest : List RNode) : List Bytes32 :=
  match rest with
  | [] => ps
  | next :: rest' =>
    if next.height = limit then ps ++ [current.data] ++ rest'.map RNode.data
    else ps ++ (next :: rest').map RNode.data

theorem proveJoin_spec (p : Profile) (H : HashFn) {i : Nat} {rest : List RNode} {pre : List Bytes} {ps : List Bytes32}
    (h : RHead H i rest pre ps) (hn : pre.length < 2 ^ 64) : ∀ (cur : RNode) (b : List Bytes), i < pre.length →
    cur.data = mth H b → 0 < b.length → (∀ k ∈ rest, b.length ≤ 2 ^ k.height) →
    ∃ cur' rest', proveJoin p H (ps.length - 1) cur rest = .ok (cur', rest') ∧
      finish ps (ps.length - 1) cur' rest' =
        Binary.leafSum H ((pre ++ b)[i]?.getD []) :: auditPath H i (pre ++ b) := by
  have hh := h.height_lt hn
  induction h with
  | nil => intro cur b hi; simp at hi
  | old n rest pre suf ps h1 h2 h3 ih =>
    intro cur b hi hc h0 hb
    rw [List.length_append] at hn
    have hbn := hb n (by simp)
    have hs : IsSplit suf b := ⟨h0, n.height, h2.1, hbn⟩
    have hlen := h1.len h3 h2.2.2
    obtain ⟨cur', rest', e1, e2⟩ := ih (by omega) (fun k hk => hh k (by simp [hk]))
      ⟨n.height + 1, Binary.nodeSum H n.data.val cur.data.val⟩ (suf ++ b) h3
      (by rw [mth_append H hs, h2.2.1, hc]) (by rw [List.length_append]; omega)
      (fun k' hk' => by
        have : 2 ^ (n.height + 1) ≤ 2 ^ k'.height := Nat.pow_le_pow_right (by omega) (h2.2.2 k' hk')
        have h2' := h2.1
        rw [Nat.pow_succ] at this
        rw [List.length_append]; omega)
    refine ⟨cur', rest', ?_, by rw [List.append_assoc]; exact e2⟩
    rw [proveJoin, if_pos (by omega), join_ok p H (hh n (by simp)), Res.ok_bind, e1]
  | here n rest pre suf h1 h2 h3 h4 ih =>
    intro cur b hi hc h0 hb
    have hbn := hb n (by simp)
    have hs : IsSplit suf b := ⟨h0, n.height, h2.1, hbn⟩
    have hal := auditPath_length H n.height suf (i - pre.length) h2.1 (by omega)
    have hlim : (pset H (i - pre.length) suf).length - 1 = n.height := by
      rw [pset, List.length_cons, hal, Nat.add_sub_cancel]
    refine ⟨cur, n :: rest, by rw [proveJoin, if_neg (by omega)]; rfl, ?_⟩
    unfold finish
    simp only []
    rw [if_pos hlim.symm, hc]
    have hsp := spine rest pre (suf ++ b) [] (i - pre.length) h1 (by rw [List.length_append]; omega)
      (fun k' hk' => by
        have : 2 ^ (n.height + 1) ≤ 2 ^ k'.height := Nat.pow_le_pow_right (by omega) (h2.2.2 k' hk')
        have h2' := h2.1
        rw [Nat.pow_succ] at this
        rw [List.length_append]; omega)
    rw [show pre.length + (i - pre.length) = i by omega] at hsp
    rw [List.append_assoc, List.append_assoc pre, hsp, auditPath_append_left H hs (by omega), List.getElem?_append_right (by omega),
      List.getElem?_append_left (by omega)]
    simp [pset]
  | future n rest pre suf h1 h2 h3 =>
    intro cur b hi
    rw [List.length_append] at hi; omega

/-- `prove` on a tree that contains the requested leaf. -/
theorem prove_spec (p : Profile) (H : HashFn) {i : Nat} {t : Tree} {ds : List Bytes} (h : Inv H i t ds)
    (hn : ds.length < 2 ^ 64) (hi : i < ds.length) :
    t.prove p H = .ok (mth H ds, Binary.leafSum H ds[i] :: auditPath H i ds) := by
  have hroot := root_spec p H h hn
  have hne : ds ≠ [] := by intro h; subst h; simp at hi
  rw [if_neg hne] at hroot
  obtain ⟨h1, _, _⟩ := h
  unfold Tree.prove
  rw [hroot, Res.ok_bind]
  cases hl : t.head with
  | nil => rw [hl] at h1; exact absurd (h1.empty_iff.1 rfl) hne
  | cons k rest =>
    rw [hl] at h1
    have hgoal : ∀ (ps : List Bytes32) (f : Bytes32) (fs : List Bytes32), ps = f :: fs → ∀ cur' rest',
        proveJoin p H (ps.length - 1) k rest = .ok (cur', rest') →
        finish ps (ps.length - 1) cur' rest' = Binary.leafSum H ds[i] :: auditPath H i ds →
        (match k :: rest, ps with
          | [], proofSet => (pure (mth H ds, proofSet) : Res (Bytes32 × List Bytes32))
          | _, [] => return (mth H ds, [])
          | h :: rest, f :: fs => do
            let proofSet := f :: fs
            let limit := proofSet.length - 1
            let (current, rest) ← proveJoin p H limit h rest
            let proofSet' :=
              match rest with
              | [] => proofSet
              | next :: rest' =>
                if next.height = limit then proofSet ++ [current.data] ++ rest'.map RNode.data
                else proofSet ++ (next :: rest').map RNode.data
            return (mth H ds, proofSet')) =
        .ok (mth H ds, Binary.leafSum H ds[i] :: auditPath H i ds) := by
      intro ps f fs hps cur' rest' e1 e2
      subst hps
      simp only []
      rw [e1, Res.ok_bind]
      simp only [Res.pure_eq]
      rw [← e2]
      rfl
    have hget : ∀ j : List Bytes, j = ds → Binary.leafSum H (j[i]?.getD []) = Binary.leafSum H ds[i] := by
      intro j hj; subst hj; rw [List.getElem?_eq_getElem hi]; rfl
    generalize hpe : t.proofSet = pp at h1 ⊢
    cases h1 with
    | old _ _ pre suf _ g1 g2 g3 =>
      obtain ⟨cur', rest', e1, e2⟩ := proveJoin_spec p H g1 (by rw [List.length_append] at hn; omega) k suf g3 g2.2.1
        (by rw [g2.1]; exact Nat.two_pow_pos _)
        (fun k' hk' => by rw [g2.1]; exact Nat.pow_le_pow_right (by omega) (by have := g2.2.2 k' hk'; omega))
      have hlen := g1.len g3 g2.2.2
      rw [hget _ rfl] at e2
      cases pp with
      | nil => simp at hlen
      | cons f fs =>
        exact hgoal (f :: fs) f fs rfl cur' rest' e1 e2
    | here _ _ pre suf g1 g2 g3 g4 =>
      have hal := auditPath_length H k.height suf (i - pre.length) g2.1 (by omega)
      have hlim : (pset H (i - pre.length) suf).length - 1 = k.height := by
        rw [pset, List.length_cons, hal, Nat.add_sub_cancel]
      have hsp := spine rest pre suf [] (i - pre.length) g1 (by omega)
        (fun k' hk' => by rw [g2.1]; exact Nat.pow_le_pow_right (by omega) (by have := g2.2.2 k' hk'; omega))
      rw [show pre.length + (i - pre.length) = i by omega] at hsp
      have hleaf := hget _ rfl
      rw [List.getElem?_append_right (by omega)] at hleaf
      refine hgoal _ _ _ rfl k rest ?_ ?_
      · show proveJoin p H ((pset H (i - pre.length) suf).length - 1) k rest = _
        rw [hlim]
        cases rest with
        | nil => rfl
        | cons k' rest' =>
          have := g2.2.2 k' (by simp)
          rw [proveJoin, if_neg (by omega)]; rfl
      · show finish (pset H (i - pre.length) suf) ((pset H (i - pre.length) suf).length - 1) k rest = _
        rw [hlim, ← hleaf, hsp]
        unfold finish
        cases rest with
        | nil => simp [pset]
        | cons k' rest' =>
          have := g2.2.2 k' (by simp)
          simp only []
          rw [if_neg (by omega)]
          rfl
    | future _ _ pre suf g1 g2 g3 => rw [List.length_append] at hi; omega

/-- `prove` on a tree that does not contain the requested leaf. -/
theorem prove_missing (p : Profile) (H : HashFn) {i : Nat} {t : Tree} {ds : List Bytes} (h : Inv H i t ds)
    (hn : ds.length < 2 ^ 64) (hi : ds.length ≤ i) :
    t.prove p H = .ok (if ds = [] then Binary.emptySum else mth H ds, []) := by
  have hroot := root_spec p H h hn
  obtain ⟨h1, _, _⟩ := h
  have hps := h1.none hi
  unfold Tree.prove
  rw [hroot, Res.ok_bind, hps]
  cases t.head <;> rfl

end Reference
end FuelMerkle
