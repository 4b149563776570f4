import Verif.Model.Sparse
import Verif.Spec.SparseTree
import Verif.Proofs.Msb
import Mathlib.Data.List.Nodup
import Mathlib.Data.List.Perm.Subperm

/-
Canonical sparse trees as an inductive type: insertion, deletion along a path, hashing.
-/
namespace FuelMerkle
namespace Sparse
open Spec

theorem zeroSum_eq : zeroSum = zero32 := rfl

/-- A sparse tree. -/
inductive T where
  | empty
  | leaf (k v : Bytes32)
  | node (l r : T)

namespace T

def entries : T → List (Bytes32 × Bytes32)
  | empty => []
  | leaf k v => [(k, v)]
  | node l r => l.entries ++ r.entries

def hash (H : HashFn) : T → Bytes32
  | empty => zeroSum
  | leaf k v => H (smtLeafMsg k v)
  | node l r => H (smtNodeMsg (l.hash H) (r.hash H))

def msgs (H : HashFn) : T → List Bytes
  | empty => []
  | leaf k v => [smtLeafMsg k v]
  | node l r => smtNodeMsg (l.hash H) (r.hash H) :: (l.msgs H ++ r.msgs H)

def size : T → Nat
  | empty => 0
  | leaf _ _ => 1
  | node l r => l.size + r.size + 1

end T

/-- The keys agree on their first `d` bits. -/
def agree (d : Nat) (k k' : Bytes32) : Prop := ∀ j, j < d → keyBit k j = keyBit k' j

theorem agree.symm {d : Nat} {k k' : Bytes32} (h : agree d k k') : agree d k' k := fun j hj => (h j hj).symm
theorem agree.trans {d : Nat} {k k' k'' : Bytes32} (h : agree d k k') (h' : agree d k' k'') : agree d k k'' :=
  fun j hj => (h j hj).trans (h' j hj)
theorem agree.mono {d d' : Nat} {k k' : Bytes32} (h : agree d k k') (hd : d' ≤ d) : agree d' k k' :=
  fun j hj => h j (by omega)
theorem agree.succ {d : Nat} {k k' : Bytes32} (h : agree d k k') (hb : keyBit k d = keyBit k' d) :
    agree (d + 1) k k' := fun j hj => by
  by_cases h' : j < d
  · exact h j h'
  · have : j = d := by omega
    rw [this, hb]
theorem agree.zero (k k' : Bytes32) : agree 0 k k' := fun j hj => by omega

theorem bitsOf_inj : ∀ {a b : List UInt8}, bitsOf a = bitsOf b → a = b := by
  have value : ∀ m, m < 256 → (bitsOfByte (UInt8.ofNat m)).foldl (fun a b => 2 * a + b.toNat) 0 = m := by
    decide +kernel
  have byte : ∀ m, m < 256 → ∀ n, n < 256 → bitsOfByte (UInt8.ofNat m) = bitsOfByte (UInt8.ofNat n) → m = n := by
    intro m hm n hn h
    rw [← value m hm, h, value n hn]
  intro a
  induction a with
  | nil =>
    intro b h
    cases b with
    | nil => rfl
    | cons y ys => simp [bitsOf, bitsOfByte] at h
  | cons x xs ih =>
    intro b h
    cases b with
    | nil => simp [bitsOf, bitsOfByte] at h
    | cons y ys =>
      simp only [bitsOf, List.flatMap_cons] at h
      obtain ⟨h1, h2⟩ := List.append_inj h rfl
      have := byte x.toNat x.toNat_lt y.toNat y.toNat_lt (by simpa using h1)
      rw [UInt8.toNat_inj.1 this, ih h2]

/-- Keys that agree on all 256 bits are equal. -/
theorem eq_of_agree {d : Nat} {k k' : Bytes32} (h : agree d k k') (hd : 256 ≤ d) : k = k' := by
  apply Subtype.ext
  apply bitsOf_inj
  have l1 : (bitsOf k.val).length = 256 := by rw [bitsOf_length, k.property]
  have l2 : (bitsOf k'.val).length = 256 := by rw [bitsOf_length, k'.property]
  apply List.ext_getElem (by rw [l1, l2])
  intro i h1 h2
  have := h i (by omega)
  unfold keyBit at this
  rwa [List.getElem?_eq_getElem h1, List.getElem?_eq_getElem h2] at this

namespace T

/-- Canonical tree rooted at depth `d`: keys are on the side given by their bit, agree above,
and an inner node has at least two leaves below. -/
def WF : Nat → T → Prop
  | _, empty => True
  | _, leaf _ _ => True
  | d, node l r => d < 256 ∧ WF (d + 1) l ∧ WF (d + 1) r ∧ (∀ x ∈ l.entries, keyBit x.1 d = false) ∧
      (∀ x ∈ r.entries, keyBit x.1 d = true) ∧
      (∀ x ∈ l.entries ++ r.entries, ∀ y ∈ l.entries ++ r.entries, agree d x.1 y.1) ∧
      2 ≤ l.entries.length + r.entries.length

/-- All keys agree with `k` on their first `d` bits. -/
def Ag (d : Nat) (k : Bytes32) (t : T) : Prop := ∀ x ∈ t.entries, agree d x.1 k

theorem Ag.zero (k : Bytes32) (t : T) : Ag 0 k t := fun x _ => agree.zero _ _

theorem Ag.left {d : Nat} {k : Bytes32} {l r : T} (h : Ag d k (node l r)) (w : WF d (node l r))
    (hb : keyBit k d = false) : Ag (d + 1) k l := fun x hx =>
  (h x (by simp [entries, hx])).succ (by rw [w.2.2.2.1 x hx, hb])

theorem Ag.right {d : Nat} {k : Bytes32} {l r : T} (h : Ag d k (node l r)) (w : WF d (node l r))
    (hb : keyBit k d = true) : Ag (d + 1) k r := fun x hx =>
  (h x (by simp [entries, hx])).succ (by rw [w.2.2.2.2.1 x hx, hb])

theorem entries_nil {t : T} {d : Nat} (w : WF d t) : t.entries = [] ↔ t = empty := by
  cases t with
  | empty => simp [entries]
  | leaf k v => simp [entries]
  | node l r =>
    constructor
    · intro h
      have := congrArg List.length h
      have := w.2.2.2.2.2.2
      simp only [entries, List.length_append, List.length_nil] at *
      omega
    · intro h; cases h

/-- Keys of a canonical tree are distinct. -/
theorem nodup : ∀ {t : T} {d : Nat}, WF d t → (t.entries.map Prod.fst).Nodup := by
  intro t
  induction t with
  | empty => intro d _; simp [entries]
  | leaf k v => intro d _; simp [entries]
  | node l r ihl ihr =>
    intro d w
    rw [entries, List.map_append, List.nodup_append]
    refine ⟨ihl w.2.1, ihr w.2.2.1, ?_⟩
    intro a ha b hb hab
    obtain ⟨x, hx, rfl⟩ := List.mem_map.1 ha
    obtain ⟨y, hy, rfl⟩ := List.mem_map.1 hb
    have h1 := w.2.2.2.1 x hx
    have h2 := w.2.2.2.2.1 y hy
    rw [hab, h2] at h1
    cases h1

/-- The depth of an inner node is determined by its contents. -/
theorem depth_unique : ∀ {l r : T} {d d' : Nat}, WF d (node l r) → WF d' (node l r) → d = d' := by
  have key : ∀ (t : T) (d d' : Nat), WF d t → WF d' t → (∃ l r, t = node l r) → d = d' := by
    intro t
    induction t with
    | empty => rintro d d' _ _ ⟨_, _, h⟩; cases h
    | leaf k v => rintro d d' _ _ ⟨_, _, h⟩; cases h
    | node l r ihl ihr =>
      intro d d' w w' _
      have two : ∀ (t : T) (e : Nat), WF e t → 2 ≤ t.entries.length → ∃ l r, t = node l r := by
        intro t e _ h
        cases t with
        | empty => simp [entries] at h
        | leaf k v => simp [entries] at h
        | node l r => exact ⟨l, r, rfl⟩
      have hc := w.2.2.2.2.2.2
      cases hl : l.entries with
      | nil =>
        rw [hl] at hc
        have := ihr _ _ w.2.2.1 w'.2.2.1 (two r _ w.2.2.1 (by simpa using hc))
        omega
      | cons x xs =>
        cases hr : r.entries with
        | nil =>
          rw [hr] at hc
          have := ihl _ _ w.2.1 w'.2.1 (two l _ w.2.1 (by simpa using hc))
          omega
        | cons y ys =>
          have hx : x ∈ l.entries := by simp [hl]
          have hy : y ∈ r.entries := by simp [hr]
          have diff : ∀ e, WF e (node l r) → keyBit x.1 e ≠ keyBit y.1 e := by
            intro e w
            rw [w.2.2.2.1 x hx, w.2.2.2.2.1 y hy]; decide
          have ag : ∀ e, WF e (node l r) → agree e x.1 y.1 := fun e w =>
            w.2.2.2.2.2.1 x (by simp [hx]) y (by simp [hy])
          rcases Nat.lt_trichotomy d d' with h | h | h
          · exact absurd (ag d' w' d h) (diff d w)
          · exact h
          · exact absurd (ag d w d' h) (diff d' w')
  intro l r d d' w w'
  exact key _ d d' w w' ⟨l, r, rfl⟩

/-! ### Insertion -/

/-- The node with `a` on the side of bit `b` and `s` on the other side. -/
def nodeOn (b : Bool) (a s : T) : T := if b then node s a else node a s

theorem mem_nodeOn {b : Bool} {a s : T} {x : Bytes32 × Bytes32} :
    x ∈ (nodeOn b a s).entries ↔ x ∈ a.entries ∨ x ∈ s.entries := by
  cases b
  · simp [nodeOn, entries]
  · simp [nodeOn, entries, or_comm]

theorem length_nodeOn (b : Bool) (a s : T) : (nodeOn b a s).entries.length = a.entries.length + s.entries.length := by
  cases b
  · simp [nodeOn, entries]
  · simp [nodeOn, entries]; omega

/-- Well-formedness of a node in terms of the path side and the other side. -/
theorem WF_nodeOn {b : Bool} {a s : T} {d : Nat} : WF d (nodeOn b a s) ↔
    d < 256 ∧ WF (d + 1) a ∧ WF (d + 1) s ∧ (∀ x ∈ a.entries, keyBit x.1 d = b) ∧
      (∀ x ∈ s.entries, keyBit x.1 d = !b) ∧
      (∀ x, x ∈ a.entries ∨ x ∈ s.entries → ∀ y, y ∈ a.entries ∨ y ∈ s.entries → agree d x.1 y.1) ∧
      2 ≤ a.entries.length + s.entries.length := by
  cases b
  · simp [nodeOn, WF, List.mem_append]
  · simp only [nodeOn, WF, List.mem_append, if_true]
    constructor
    · rintro ⟨h1, h2, h3, h4, h5, h6, h7⟩
      exact ⟨h1, h3, h2, h5, h4, fun x hx y hy => h6 x hx.symm y hy.symm, by omega⟩
    · rintro ⟨h1, h2, h3, h4, h5, h6, h7⟩
      exact ⟨h1, h3, h2, h5, h4, fun x hx y hy => h6 x hx.symm y hy.symm, by omega⟩

/-- Two leaves below depth `d`, with a chain of nodes down to where their keys differ. -/
def fork (k v k' v' : Bytes32) : (fuel d : Nat) → T
  | 0, _ => empty
  | fuel + 1, d =>
    if keyBit k d = keyBit k' d then nodeOn (keyBit k d) (fork k v k' v' fuel (d + 1)) empty
    else nodeOn (keyBit k d) (leaf k v) (leaf k' v')

/-- Insert or overwrite. -/
def ins (k v : Bytes32) : Nat → T → T
  | _, empty => leaf k v
  | d, leaf k' v' => if k = k' then leaf k v else fork k v k' v' (256 - d) d
  | d, node l r => if keyBit k d then nodeOn true (ins k v (d + 1) r) l else nodeOn false (ins k v (d + 1) l) r

theorem fork_spec {k v k' v' : Bytes32} (hne : k ≠ k') : ∀ (fuel d : Nat), fuel + d = 256 → agree d k k' →
    WF d (fork k v k' v' fuel d) ∧
    (∀ x, x ∈ (fork k v k' v' fuel d).entries ↔ x = (k, v) ∨ x = (k', v')) ∧
    2 ≤ (fork k v k' v' fuel d).entries.length := by
  intro fuel
  induction fuel with
  | zero =>
    intro d hd hag
    exact absurd (eq_of_agree hag (by omega)) hne
  | succ fuel ih =>
    intro d hd hag
    unfold fork
    split
    · rename_i hb
      obtain ⟨h1, h2, h3⟩ := ih (d + 1) (by omega) (hag.succ hb)
      refine ⟨WF_nodeOn.2 ⟨by omega, h1, trivial, ?_, by simp [entries], ?_, by simpa [entries] using h3⟩, ?_, ?_⟩
      · intro x hx
        rcases (h2 x).1 hx with rfl | rfl
        · rfl
        · exact hb.symm
      · have : ∀ x, x ∈ (fork k v k' v' fuel (d + 1)).entries ∨ x ∈ empty.entries → agree d x.1 k := by
          rintro x (hx | hx)
          · rcases (h2 x).1 hx with rfl | rfl
            · exact fun _ _ => rfl
            · exact hag.symm
          · simp [entries] at hx
        exact fun x hx y hy => (this x hx).trans (this y hy).symm
      · intro x; rw [mem_nodeOn, h2]; simp [entries]
      · rw [length_nodeOn]; omega
    · rename_i hb
      refine ⟨WF_nodeOn.2 ⟨by omega, trivial, trivial, by simp [entries], ?_, ?_, by simp [entries]⟩, ?_, ?_⟩
      · intro x hx
        simp only [entries, List.mem_singleton] at hx
        subst hx
        revert hb
        cases keyBit k d <;> cases keyBit k' d <;> simp
      · have : ∀ x, x ∈ (leaf k v).entries ∨ x ∈ (leaf k' v').entries → agree d x.1 k := by
          intro x hx
          simp only [entries, List.mem_singleton] at hx
          rcases hx with rfl | rfl
          · exact fun _ _ => rfl
          · exact hag.symm
        exact fun x hx y hy => (this x hx).trans (this y hy).symm
      · intro x; rw [mem_nodeOn]; simp [entries]
      · rw [length_nodeOn]; simp [entries]

theorem node_eq_nodeOn (b : Bool) (l r : T) :
    node l r = nodeOn b (if b then r else l) (if b then l else r) := by cases b <;> rfl

theorem ins_node (k v : Bytes32) (d : Nat) (l r : T) : ins k v d (node l r) =
    nodeOn (keyBit k d) (ins k v (d + 1) (if keyBit k d then r else l)) (if keyBit k d then l else r) := by
  rw [ins]; cases keyBit k d <;> rfl

theorem ins_spec {k v : Bytes32} : ∀ {t : T} {d : Nat}, WF d t → Ag d k t → d ≤ 256 →
    WF d (ins k v d t) ∧ (∀ x, x ∈ (ins k v d t).entries ↔ x = (k, v) ∨ (x ∈ t.entries ∧ x.1 ≠ k)) ∧
    t.entries.length ≤ (ins k v d t).entries.length := by
  have node_case : ∀ (b : Bool) (a s : T) (d : Nat), WF d (nodeOn b a s) → Ag d k (nodeOn b a s) → keyBit k d = b →
      (WF (d + 1) a → Ag (d + 1) k a → d + 1 ≤ 256 → WF (d + 1) (ins k v (d + 1) a) ∧
        (∀ x, x ∈ (ins k v (d + 1) a).entries ↔ x = (k, v) ∨ (x ∈ a.entries ∧ x.1 ≠ k)) ∧
        a.entries.length ≤ (ins k v (d + 1) a).entries.length) →
      WF d (nodeOn b (ins k v (d + 1) a) s) ∧
      (∀ x, x ∈ (nodeOn b (ins k v (d + 1) a) s).entries ↔ x = (k, v) ∨ (x ∈ (nodeOn b a s).entries ∧ x.1 ≠ k)) ∧
      (nodeOn b a s).entries.length ≤ (nodeOn b (ins k v (d + 1) a) s).entries.length := by
    intro b a s d w hag hb ih
    obtain ⟨w1, w2, w3, w4, w5, w6, w7⟩ := WF_nodeOn.1 w
    obtain ⟨h1, h2, h3⟩ := ih w2 (fun x hx => (hag x (mem_nodeOn.2 (.inl hx))).succ (by rw [w4 x hx, hb])) (by omega)
    have hs : ∀ x ∈ s.entries, x.1 ≠ k := by
      intro x hx he
      have := w5 x hx
      rw [he, hb] at this
      cases b <;> cases this
    refine ⟨WF_nodeOn.2 ⟨w1, h1, w3, ?_, w5, ?_, by omega⟩, ?_, by rw [length_nodeOn, length_nodeOn]; omega⟩
    · intro x hx
      rcases (h2 x).1 hx with rfl | ⟨hx, _⟩
      · exact hb
      · exact w4 x hx
    · have : ∀ x, x ∈ (ins k v (d + 1) a).entries ∨ x ∈ s.entries → agree d x.1 k := by
        rintro x (hx | hx)
        · rcases (h2 x).1 hx with rfl | ⟨hx, _⟩
          · exact fun _ _ => rfl
          · exact hag x (mem_nodeOn.2 (.inl hx))
        · exact hag x (mem_nodeOn.2 (.inr hx))
      exact fun x hx y hy => (this x hx).trans (this y hy).symm
    · intro x
      rw [mem_nodeOn, mem_nodeOn, h2]
      constructor
      · rintro ((h | h) | h)
        · exact .inl h
        · exact .inr ⟨.inl h.1, h.2⟩
        · exact .inr ⟨.inr h, hs x h⟩
      · rintro (h | ⟨h | h, h'⟩)
        · exact .inl (.inl h)
        · exact .inl (.inr ⟨h, h'⟩)
        · exact .inr h
  intro t
  induction t with
  | empty => intro d _ _ _; refine ⟨trivial, by simp [ins, entries], by simp [entries]⟩
  | leaf k' v' =>
    intro d _ hag hd
    rw [ins]
    split
    · rename_i h; subst h
      refine ⟨trivial, ?_, by simp [entries]⟩
      intro x
      simp only [entries, List.mem_singleton]
      constructor
      · exact .inl
      · rintro (h | ⟨h, h'⟩)
        · exact h
        · subst h; exact absurd rfl h'
    · rename_i h
      obtain ⟨h1, h2, h3⟩ := fork_spec (v := v) (v' := v') h (256 - d) d (by omega) (hag (k', v') (by simp [entries])).symm
      refine ⟨h1, ?_, by simp only [entries, List.length_singleton]; omega⟩
      intro x
      rw [h2]
      simp only [entries, List.mem_singleton]
      constructor
      · rintro (h' | rfl)
        · exact .inl h'
        · exact .inr ⟨rfl, fun e => h e.symm⟩
      · rintro (h' | ⟨h', _⟩)
        · exact .inl h'
        · exact .inr h'
  | node l r ihl ihr =>
    intro d w hag hd
    rw [ins_node]
    have e := node_eq_nodeOn (keyBit k d) l r
    rw [e] at w hag ⊢
    refine node_case _ _ _ d w hag rfl ?_
    cases keyBit k d
    · exact ihl
    · exact ihr

/-! ### Deletion along a path -/

/-- A node after one of its subtrees has shrunk: a lone leaf moves up. -/
def mk : T → T → T
  | empty, empty => empty
  | empty, leaf k v => leaf k v
  | leaf k v, empty => leaf k v
  | l, r => node l r

def mkOn (b : Bool) (a s : T) : T := if b then mk s a else mk a s

/-- Delete the leaf at the end of the path of `k`, whatever its key. -/
def del (k : Bytes32) : Nat → T → T
  | _, empty => empty
  | _, leaf _ _ => empty
  | d, node l r => if keyBit k d then mkOn true (del k (d + 1) r) l else mkOn false (del k (d + 1) l) r

/-- Key of the leaf at the end of the path of `k`. -/
def victim (k : Bytes32) : Nat → T → Option Bytes32
  | _, empty => none
  | _, leaf k' _ => some k'
  | d, node l r => if keyBit k d then victim k (d + 1) r else victim k (d + 1) l

theorem del_node (k : Bytes32) (d : Nat) (l r : T) : del k d (node l r) =
    mkOn (keyBit k d) (del k (d + 1) (if keyBit k d then r else l)) (if keyBit k d then l else r) := by
  rw [del]; cases keyBit k d <;> rfl

theorem victim_node (k : Bytes32) (d : Nat) (l r : T) : victim k d (node l r) =
    victim k (d + 1) (if keyBit k d then r else l) := by
  rw [victim]; cases keyBit k d <;> rfl

theorem mk_cases (l r : T) : (mk l r = node l r ∧ ¬ (l.entries.length + r.entries.length < 2 ∧ (∀ a b, l ≠ node a b) ∧
      ∀ a b, r ≠ node a b)) ∨
    (l = empty ∧ mk l r = r ∧ ∀ a b, r ≠ node a b) ∨ (r = empty ∧ mk l r = l ∧ ∀ a b, l ≠ node a b) := by
  cases l with
  | empty =>
    cases r with
    | empty => exact .inr (.inl ⟨rfl, rfl, by simp⟩)
    | leaf k v => exact .inr (.inl ⟨rfl, rfl, by simp⟩)
    | node a b => exact .inl ⟨rfl, fun h => h.2.2 a b rfl⟩
  | leaf k v =>
    cases r with
    | empty => exact .inr (.inr ⟨rfl, rfl, by simp⟩)
    | leaf k v => exact .inl ⟨rfl, fun h => by simp [entries] at h⟩
    | node a b => exact .inl ⟨rfl, fun h => h.2.2 a b rfl⟩
  | node a b => exact .inl ⟨by cases r <;> rfl, fun h => h.2.1 a b rfl⟩

theorem two_le_of_node {t : T} {d : Nat} (w : WF d t) {a b : T} (h : t = node a b) : 2 ≤ t.entries.length := by
  subst h
  rw [entries, List.length_append]
  exact w.2.2.2.2.2.2

theorem mk_entries (l r : T) : (mk l r).entries = l.entries ++ r.entries := by
  rcases mk_cases l r with ⟨h, _⟩ | ⟨h1, h2, _⟩ | ⟨h1, h2, _⟩
  · rw [h]; rfl
  · rw [h2, h1]; rfl
  · rw [h2, h1]; simp [entries]

theorem mem_mkOn {b : Bool} {a s : T} {x : Bytes32 × Bytes32} :
    x ∈ (mkOn b a s).entries ↔ x ∈ a.entries ∨ x ∈ s.entries := by
  cases b
  · simp [mkOn, mk_entries]
  · simp [mkOn, mk_entries, or_comm]

theorem mk_WF {l r : T} {d : Nat} (h1 : d < 256) (h2 : WF (d + 1) l) (h3 : WF (d + 1) r)
    (h4 : ∀ x ∈ l.entries, keyBit x.1 d = false) (h5 : ∀ x ∈ r.entries, keyBit x.1 d = true)
    (h6 : ∀ x ∈ l.entries ++ r.entries, ∀ y ∈ l.entries ++ r.entries, agree d x.1 y.1) : WF d (mk l r) := by
  rcases mk_cases l r with ⟨h, h'⟩ | ⟨_, h, h'⟩ | ⟨_, h, h'⟩
  · rw [h]
    refine ⟨h1, h2, h3, h4, h5, h6, ?_⟩
    by_contra hc
    refine h' ⟨by omega, fun a b e => ?_, fun a b e => ?_⟩
    · have := two_le_of_node h2 e; omega
    · have := two_le_of_node h3 e; omega
  · rw [h]
    cases r with
    | empty => trivial
    | leaf k v => trivial
    | node a b => exact absurd rfl (h' a b)
  · rw [h]
    cases l with
    | empty => trivial
    | leaf k v => trivial
    | node a b => exact absurd rfl (h' a b)

theorem mkOn_WF {b : Bool} {a s : T} {d : Nat} (h1 : d < 256) (h2 : WF (d + 1) a) (h3 : WF (d + 1) s)
    (h4 : ∀ x ∈ a.entries, keyBit x.1 d = b) (h5 : ∀ x ∈ s.entries, keyBit x.1 d = !b)
    (h6 : ∀ x, x ∈ a.entries ∨ x ∈ s.entries → ∀ y, y ∈ a.entries ∨ y ∈ s.entries → agree d x.1 y.1) :
    WF d (mkOn b a s) := by
  cases b
  · exact mk_WF h1 h2 h3 h4 h5 (fun x hx y hy => h6 x (by simpa using hx) y (by simpa using hy))
  · exact mk_WF h1 h3 h2 h5 h4 (fun x hx y hy => h6 x (by simpa [or_comm] using hx) y (by simpa [or_comm] using hy))

theorem del_spec {k : Bytes32} : ∀ {t : T} {d : Nat}, WF d t →
    WF d (del k d t) ∧ (∀ x, x ∈ (del k d t).entries ↔ x ∈ t.entries ∧ some x.1 ≠ victim k d t) ∧
    (∀ k', victim k d t = some k' → ∃ v, (k', v) ∈ t.entries) := by
  have node_case : ∀ (b : Bool) (a s : T) (d : Nat), WF d (nodeOn b a s) → keyBit k d = b →
      (WF (d + 1) a → WF (d + 1) (del k (d + 1) a) ∧
        (∀ x, x ∈ (del k (d + 1) a).entries ↔ x ∈ a.entries ∧ some x.1 ≠ victim k (d + 1) a) ∧
        (∀ k', victim k (d + 1) a = some k' → ∃ v, (k', v) ∈ a.entries)) →
      WF d (mkOn b (del k (d + 1) a) s) ∧
      (∀ x, x ∈ (mkOn b (del k (d + 1) a) s).entries ↔ x ∈ (nodeOn b a s).entries ∧ some x.1 ≠ victim k (d + 1) a) ∧
      (∀ k', victim k (d + 1) a = some k' → ∃ v, (k', v) ∈ (nodeOn b a s).entries) := by
    intro b a s d w hb ih
    obtain ⟨w1, w2, w3, w4, w5, w6, w7⟩ := WF_nodeOn.1 w
    obtain ⟨h1, h2, h3⟩ := ih w2
    have hsub : ∀ x ∈ (del k (d + 1) a).entries, x ∈ a.entries := fun x hx => ((h2 x).1 hx).1
    refine ⟨mkOn_WF w1 h1 w3 (fun x hx => w4 x (hsub x hx)) w5
      (fun x hx y hy => w6 x (hx.imp_left (hsub x)) y (hy.imp_left (hsub y))), ?_, ?_⟩
    · intro x
      rw [mem_mkOn, mem_nodeOn, h2]
      constructor
      · rintro (h | h)
        · exact ⟨.inl h.1, h.2⟩
        · refine ⟨.inr h, fun he => ?_⟩
          obtain ⟨v, hv⟩ := h3 x.1 he.symm
          have e1 := w4 _ hv
          have e2 := w5 x h
          rw [e1] at e2
          cases b <;> cases e2
      · rintro ⟨h | h, h'⟩
        · exact .inl ⟨h, h'⟩
        · exact .inr h
    · intro k' hk'
      obtain ⟨v, hv⟩ := h3 k' hk'
      exact ⟨v, mem_nodeOn.2 (.inl hv)⟩
  intro t
  induction t with
  | empty => intro d _; refine ⟨trivial, by simp [del, entries], by simp [victim]⟩
  | leaf k' v' =>
    intro d _
    refine ⟨trivial, ?_, ?_⟩
    · intro x
      simp only [del, entries, victim, List.not_mem_nil, List.mem_singleton, false_iff, not_and, Decidable.not_not]
      rintro rfl; rfl
    · intro k hk
      simp only [victim, Option.some.injEq] at hk
      subst hk
      exact ⟨v', by simp [entries]⟩
  | node l r ihl ihr =>
    intro d w
    rw [del_node, victim_node]
    have e := node_eq_nodeOn (keyBit k d) l r
    rw [e] at w ⊢
    refine node_case _ _ _ d w rfl ?_
    cases keyBit k d
    · exact ihl
    · exact ihr

/-- The path of a present key ends in its own leaf. -/
theorem victim_present {k v : Bytes32} : ∀ {t : T} {d : Nat}, WF d t → (k, v) ∈ t.entries →
    victim k d t = some k := by
  intro t
  induction t with
  | empty => intro d _ h; simp [entries] at h
  | leaf k' v' =>
    intro d _ h
    simp only [entries, List.mem_singleton, Prod.mk.injEq] at h
    rw [victim, h.1]
  | node l r ihl ihr =>
    intro d w h
    rw [victim]
    rw [entries, List.mem_append] at h
    rcases h with h | h
    · rw [w.2.2.2.1 _ h]; exact ihl w.2.1 h
    · rw [w.2.2.2.2.1 _ h]; exact ihr w.2.2.1 h

/-- Nothing is deleted when the path ends at a placeholder. -/
theorem del_none {k : Bytes32} : ∀ {t : T} {d : Nat}, WF d t → victim k d t = none → del k d t = t := by
  intro t
  induction t with
  | empty => intro d _ _; rfl
  | leaf k' v' => intro d _ h; simp [victim] at h
  | node l r ihl ihr =>
    intro d w h
    rw [victim] at h
    rw [del]
    have hmk : mk l r = node l r := by
      rcases mk_cases l r with ⟨h, _⟩ | ⟨e1, _, h⟩ | ⟨e1, _, h⟩
      · exact h
      · have := w.2.2.2.2.2.2
        rw [e1] at this
        cases r with
        | empty => simp [entries] at this
        | leaf k v => simp [entries] at this
        | node a b => exact absurd rfl (h a b)
      · have := w.2.2.2.2.2.2
        rw [e1] at this
        cases l with
        | empty => simp [entries] at this
        | leaf k v => simp [entries] at this
        | node a b => exact absurd rfl (h a b)
    cases hb : keyBit k d
    · simp only [hb, Bool.false_eq_true, if_false] at h ⊢
      rw [ihl w.2.1 h]; exact hmk
    · simp only [hb, if_true] at h ⊢
      rw [ihr w.2.2.1 h]; exact hmk

/-! ### The specification over entry lists -/

theorem eq_nil_of_mem {α : Type} {es : List α} (h : ∀ x, ¬ x ∈ es) : es = [] := by
  cases es with
  | nil => rfl
  | cons a as => exact absurd (by simp) (h a)

/-- The tree computes the specification of any list with the same entries. -/
theorem smt_spec (H : HashFn) (k : Bytes32) : ∀ {t : T} {d fuel : Nat} {es : Entries Bytes32}, WF d t → fuel + d = 256 →
    (es.map Prod.fst).Nodup → (∀ x, x ∈ t.entries ↔ x ∈ es) →
    t.hash H = smt H fuel d es ∧ t.msgs H = smtMsgsFrom H fuel d es ∧ (victim k d t = metFrom k fuel d es) := by
  intro t
  induction t with
  | empty =>
    intro d fuel es _ _ _ h
    have : es = [] := eq_nil_of_mem (fun x hx => by simpa [entries] using (h x).2 hx)
    subst this
    exact ⟨by rw [smt]; rfl, by rw [smtMsgsFrom]; rfl, by rw [metFrom]; rfl⟩
  | leaf k' v' =>
    intro d fuel es _ _ hnd h
    have : es = [(k', v')] := by
      have hall : ∀ x ∈ es, x = (k', v') := fun x hx => by simpa [entries] using (h x).2 hx
      have hmem : (k', v') ∈ es := (h _).1 (by simp [entries])
      match es, hmem, hnd, hall with
      | [x], _, _, hall => rw [hall x (by simp)]
      | x :: y :: ys, _, hnd, hall =>
        rw [hall x (by simp), hall y (by simp)] at hnd
        simp at hnd
    subst this
    exact ⟨by rw [smt]; rfl, by rw [smtMsgsFrom]; rfl, by rw [metFrom]; rfl⟩
  | node l r ihl ihr =>
    intro d fuel es w hf hnd h
    obtain ⟨w1, w2, w3, w4, w5, w6, w7⟩ := w
    obtain ⟨fuel, rfl⟩ : ∃ f, fuel = f + 1 := ⟨fuel - 1, by omega⟩
    have hnd' : ∀ q : Bytes32 × Bytes32 → Bool, ((es.filter q).map Prod.fst).Nodup := fun q =>
      hnd.sublist (List.filter_sublist.map _)
    have hlen : 2 ≤ es.length := by
      have hn1 : (l.entries ++ r.entries).Nodup := List.Nodup.of_map _ (nodup (t := node l r) (d := d) ⟨w1, w2, w3, w4, w5, w6, w7⟩)
      have hsub : l.entries ++ r.entries ⊆ es := fun x hx => (h x).1 (by simpa [entries] using hx)
      have := (List.subperm_of_subset hn1 hsub).length_le
      rw [List.length_append] at this
      omega
    obtain ⟨x, y, ys, hes⟩ : ∃ x y ys, es = x :: y :: ys := by
      match es, hlen with
      | x :: y :: ys, _ => exact ⟨x, y, ys, rfl⟩
    have hl : ∀ z, z ∈ l.entries ↔ z ∈ es.filter fun x => !keyBit x.1 d := by
      intro z
      rw [List.mem_filter, ← h, entries, List.mem_append]
      constructor
      · intro hz; exact ⟨.inl hz, by rw [w4 z hz]; rfl⟩
      · rintro ⟨hz | hz, hb⟩
        · exact hz
        · rw [w5 z hz] at hb; cases hb
    have hr : ∀ z, z ∈ r.entries ↔ z ∈ es.filter fun x => keyBit x.1 d := by
      intro z
      rw [List.mem_filter, ← h, entries, List.mem_append]
      constructor
      · intro hz; exact ⟨.inr hz, by rw [w5 z hz]⟩
      · rintro ⟨hz | hz, hb⟩
        · rw [w4 z hz] at hb; cases hb
        · exact hz
    obtain ⟨l1, l2, l3⟩ := ihl (fuel := fuel) w2 (by omega) (hnd' _) hl
    obtain ⟨r1, r2, r3⟩ := ihr (fuel := fuel) w3 (by omega) (hnd' _) hr
    have e1 : smt H (fuel + 1) d es = H (smtNodeMsg (smt H fuel (d + 1) (es.filter fun x => !keyBit x.1 d))
      (smt H fuel (d + 1) (es.filter fun x => keyBit x.1 d))) := by rw [hes, smt] <;> simp
    have e2 : smtMsgsFrom H (fuel + 1) d es = smtNodeMsg (smt H fuel (d + 1) (es.filter fun x => !keyBit x.1 d))
        (smt H fuel (d + 1) (es.filter fun x => keyBit x.1 d)) ::
      (smtMsgsFrom H fuel (d + 1) (es.filter fun x => !keyBit x.1 d) ++
        smtMsgsFrom H fuel (d + 1) (es.filter fun x => keyBit x.1 d)) := by rw [hes, smtMsgsFrom] <;> simp
    have e3 : metFrom k (fuel + 1) d es = metFrom k fuel (d + 1) (es.filter fun x => keyBit x.1 d == keyBit k d) := by
      rw [hes, metFrom] <;> simp
    rw [e1, e2, e3, ← l1, ← r1, ← l2, ← r2, victim]
    refine ⟨rfl, rfl, ?_⟩
    cases hb : keyBit k d
    · have : (fun x : Bytes32 × Bytes32 => keyBit x.1 d == false) = fun x => !keyBit x.1 d := by
        funext x; cases keyBit x.1 d <;> rfl
      rw [this]; simpa using l3
    · have : (fun x : Bytes32 × Bytes32 => keyBit x.1 d == true) = fun x => keyBit x.1 d := by
        funext x; cases keyBit x.1 d <;> rfl
      rw [this]; simpa using r3

end T
end Sparse
end FuelMerkle
