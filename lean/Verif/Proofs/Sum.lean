import Verif.Model.Sum
import Verif.Spec.SumTree
import Verif.Proofs.Exec
import Verif.Proofs.Rfc6962
import Verif.Proofs.VerifySound
import Verif.Proofs.Msb

/-
Invariants of the sum tree.
-/
namespace FuelMerkle
namespace Spec

/-- `a` and `b` are the two halves of the tree over `a ++ b`. -/
def IsSplit (a b : List Item) : Prop := 0 < b.length ∧ ∃ c, a.length = 2 ^ c ∧ b.length ≤ 2 ^ c

theorem IsSplit.split_eq {a b : List Item} (h : IsSplit a b) :
    1 < (a ++ b).length ∧ split (a ++ b).length = a.length := by
  obtain ⟨h0, c, h1, h2⟩ := h
  have := Nat.two_pow_pos c
  refine ⟨by rw [List.length_append]; omega, ?_⟩
  rw [h1]
  exact split_pow (by rw [List.length_append]; omega) (by rw [List.length_append, Nat.pow_succ]; omega)

theorem isSplit_of {D : List Item} (h : 1 < D.length) :
    ∃ a b, D = a ++ b ∧ IsSplit a b ∧ a = D.take (split D.length) ∧ b = D.drop (split D.length) := by
  obtain ⟨⟨e, he⟩, h2, h3⟩ := split_spec h
  refine ⟨_, _, (List.take_append_drop (split D.length) D).symm, ⟨?_, e, ?_, ?_⟩, rfl, rfl⟩
  · rw [List.length_drop]; omega
  · rw [List.length_take]; omega
  · rw [List.length_drop]; omega

/-- The message of the node with halves `a` and `b`. -/
def sumNodeMsg (H : HashFn) (a b : List Item) : Bytes :=
  [0x01] ++ be64 (total a) ++ (sumHash H a).val ++ be64 (total b) ++ (sumHash H b).val

theorem sumHash_append (H : HashFn) {a b : List Item} (h : IsSplit a b) :
    sumHash H (a ++ b) = H (sumNodeMsg H a b) := by
  obtain ⟨h1, h2⟩ := h.split_eq
  generalize hD : a ++ b = D at *
  match D, h1 with
  | x :: y :: ds, _ =>
    rw [sumHash]
    simp only [sumNodeMsg]
    rw [h2, ← hD, List.take_left, List.drop_left]

theorem sumMsgs_append (H : HashFn) {a b : List Item} (h : IsSplit a b) :
    sumMsgs H (a ++ b) = sumNodeMsg H a b :: (sumMsgs H a ++ sumMsgs H b) := by
  obtain ⟨h1, h2⟩ := h.split_eq
  generalize hD : a ++ b = D at *
  match D, h1 with
  | x :: y :: ds, _ =>
    rw [sumMsgs]
    simp only [sumNodeMsg]
    rw [h2, ← hD, List.take_left, List.drop_left]

theorem sumHash_single (H : HashFn) (x : Item) : sumHash H [x] = H ([0x00] ++ be64 x.1 ++ x.2) := by
  rw [sumHash]

theorem sumMsgs_single (H : HashFn) (x : Item) : sumMsgs H [x] = [[0x00] ++ be64 x.1 ++ x.2] := by
  rw [sumMsgs]

theorem be64_length (n : Nat) : (be64 n).length = 8 := by simp [be64]

theorem be64_eq (n : Nat) : be64 n = u64ToBeBytes n := rfl

theorem be64_mod (n : Nat) : be64 (n % 2 ^ 64) = be64 n := by
  unfold be64
  apply List.map_congr_left
  intro j hj
  have hj : j < 8 := by simpa using hj
  apply UInt8.toNat_inj.1
  simp only [UInt8.toNat_ofNat']
  have : (2 : Nat) ^ 64 = 256 ^ (7 - j) * (256 * 256 ^ j) := by
    rw [Nat.mul_left_comm, ← Nat.pow_add, show 7 - j + j = 7 by omega]
    decide
  rw [this, Nat.mod_mul_right_div_self, Nat.mod_mul_right_mod]

theorem sumNodeMsg_inj {H : HashFn} {a b a' b' : List Item} (h : sumNodeMsg H a b = sumNodeMsg H a' b') :
    sumHash H a = sumHash H a' ∧ sumHash H b = sumHash H b' := by
  unfold sumNodeMsg at h
  obtain ⟨h1, h2⟩ := List.append_inj' h (by rw [(sumHash H b).property, (sumHash H b').property])
  obtain ⟨h3, _⟩ := List.append_inj' h1 (by rw [be64_length, be64_length])
  obtain ⟨_, h5⟩ := List.append_inj' h3 (by rw [(sumHash H a).property, (sumHash H a').property])
  exact ⟨Subtype.ext h5, Subtype.ext h2⟩

theorem total_append (a b : List Item) : total (a ++ b) = total a + total b := by
  simp [total]

/-- Equal sum-tree hashes: equal lists or a collision. -/
theorem sum_commits (H : HashFn) (n : Nat) : ∀ D D' : List Item, D.length = n →
    (∀ x ∈ D, x.1 < 2 ^ 64) → (∀ x ∈ D', x.1 < 2 ^ 64) → sumHash H D = sumHash H D' →
    D = D' ∨ Collide H (sumMsgs H D) (sumMsgs H D') := by
  induction n using Nat.strongRecOn with
  | _ n ih =>
    intro D D' hD hf hf' h
    have cases3 : ∀ D : List Item, D = [] ∨ (∃ x, D = [x]) ∨ ∃ a b, D = a ++ b ∧ IsSplit a b := by
      intro D
      match D with
      | [] => exact Or.inl rfl
      | [x] => exact Or.inr (Or.inl ⟨x, rfl⟩)
      | x :: y :: ds =>
        obtain ⟨a, b, h1, h2, _⟩ := isSplit_of (D := x :: y :: ds) (by simp)
        exact Or.inr (Or.inr ⟨a, b, h1, h2⟩)
    have he0 : sumHash H [] = H [] := by rw [sumHash]
    have hm0 : sumMsgs H [] = [[]] := by rw [sumMsgs]
    rcases cases3 D with rfl | ⟨x, rfl⟩ | ⟨a, b, rfl, hs⟩ <;>
      rcases cases3 D' with rfl | ⟨x', rfl⟩ | ⟨a', b', rfl, hs'⟩
    · exact Or.inl rfl
    · right
      rw [he0, sumHash_single] at h
      exact ⟨[], by rw [hm0]; simp, _, by rw [sumMsgs_single]; exact List.mem_singleton.2 rfl, by simp, h⟩
    · right
      rw [he0, sumHash_append H hs'] at h
      exact ⟨[], by rw [hm0]; simp, _, by rw [sumMsgs_append H hs']; exact List.mem_cons_self,
        by simp [sumNodeMsg], h⟩
    · right
      rw [he0, sumHash_single] at h
      exact ⟨_, by rw [sumMsgs_single]; exact List.mem_singleton.2 rfl, [], by rw [hm0]; simp, by simp, h⟩
    · rw [sumHash_single, sumHash_single] at h
      by_cases he : x = x'
      · left; rw [he]
      · right
        refine ⟨_, by rw [sumMsgs_single]; exact List.mem_singleton.2 rfl, _,
          by rw [sumMsgs_single]; exact List.mem_singleton.2 rfl, ?_, h⟩
        intro hc
        apply he
        rw [List.append_assoc, List.append_assoc] at hc
        obtain ⟨h1, h2⟩ := List.append_inj (List.append_cancel_left hc) (by rw [be64_length, be64_length])
        exact Prod.ext (u64ToBeBytes_injective (hf x (by simp)) (hf' x' (by simp)) h1) h2
    · right
      rw [sumHash_single, sumHash_append H hs'] at h
      exact ⟨_, by rw [sumMsgs_single]; exact List.mem_singleton.2 rfl, _,
        by rw [sumMsgs_append H hs']; exact List.mem_cons_self, by simp [sumNodeMsg], h⟩
    · right
      rw [he0, sumHash_append H hs] at h
      exact ⟨_, by rw [sumMsgs_append H hs]; exact List.mem_cons_self, [], by rw [hm0]; simp,
        by simp [sumNodeMsg], h⟩
    · right
      rw [sumHash_single, sumHash_append H hs] at h
      exact ⟨_, by rw [sumMsgs_append H hs]; exact List.mem_cons_self, _,
        by rw [sumMsgs_single]; exact List.mem_singleton.2 rfl, by simp [sumNodeMsg], h⟩
    · rw [sumHash_append H hs, sumHash_append H hs'] at h
      by_cases he : sumNodeMsg H a b = sumNodeMsg H a' b'
      · obtain ⟨h1, h2⟩ := sumNodeMsg_inj he
        have hla : 0 < a.length ∧ 0 < b.length := by
          obtain ⟨h0, c, hc, _⟩ := hs
          have := Nat.two_pow_pos c
          omega
        rw [List.length_append] at hD
        rw [sumMsgs_append H hs, sumMsgs_append H hs']
        rcases ih a.length (by omega) a a' rfl (fun x hx => hf x (by simp [hx])) (fun x hx => hf' x (by simp [hx])) h1
          with rfl | hc
        · rcases ih b.length (by omega) b b' rfl (fun x hx => hf x (by simp [hx])) (fun x hx => hf' x (by simp [hx])) h2
            with rfl | hc
          · exact Or.inl rfl
          · exact Or.inr (collide_mono hc (fun x hx => by simp [hx]) (fun x hx => by simp [hx]))
        · exact Or.inr (collide_mono hc (fun x hx => by simp [hx]) (fun x hx => by simp [hx]))
      · right
        exact ⟨_, by rw [sumMsgs_append H hs]; exact List.mem_cons_self, _,
          by rw [sumMsgs_append H hs']; exact List.mem_cons_self, he, h⟩

end Spec

namespace Sum
open Spec
variable {E : Type}

/-- `n` is the node of the tree over `ds`. -/
structure IsNode (p : Profile) (H : HashFn) (n : Node) (ds : List Item) : Prop where
  hash : n.hash = sumHash H ds
  fee : n.fee = total ds % 2 ^ 64
  fits : p.overflowChecks = true → total ds < 2 ^ 64
  leaf : ds.length = 1 → n.leftChildKey = none ∧ n.rightChildKey = none
  node : ∀ a b, ds = a ++ b → IsSplit a b →
    n.leftChildKey = some (sumHash H a) ∧ n.rightChildKey = some (sumHash H b)

/-- All nodes of the tree over `ds` are in the map. -/
inductive Stored (p : Profile) (H : HashFn) (m : Bytes32 → Option Node) : List Item → Prop where
  | leaf (x : Item) (n : Node) : m (sumHash H [x]) = some n → IsNode p H n [x] → Stored p H m [x]
  | node (a b : List Item) (n : Node) : IsSplit a b → m (sumHash H (a ++ b)) = some n →
      IsNode p H n (a ++ b) → Stored p H m a → Stored p H m b → Stored p H m (a ++ b)

theorem split_unique {a b a' b' : List Item} (h : a ++ b = a' ++ b') (hs : IsSplit a b) (hs' : IsSplit a' b') :
    a = a' ∧ b = b' := by
  have h1 := hs.split_eq.2
  have h2 := hs'.split_eq.2
  rw [h] at h1
  exact List.append_inj h (by omega)

theorem isNode_leaf (p : Profile) (H : HashFn) (x : Item) (hx : x.1 < 2 ^ 64) :
    IsNode p H (Node.createLeaf H x.1 x.2) [x] := by
  refine ⟨?_, ?_, ?_, fun _ => ⟨rfl, rfl⟩, ?_⟩
  · rw [sumHash_single]; rfl
  · simp only [Node.createLeaf, total, List.map_cons, List.map_nil, List.sum_cons, List.sum_nil]; omega
  · intro _; simp only [total, List.map_cons, List.map_nil, List.sum_cons, List.sum_nil]; omega
  · intro a b h hs
    have := hs.split_eq.1
    rw [← h] at this; simp at this

/-- Storing the node of another list of the collision-free family keeps a stored tree. -/
theorem Stored.upd {p : Profile} {H : HashFn} {m : Bytes32 → Option Node} {ds ds' : List Item} {n : Node}
    (h : Stored p H m ds) (hf : ∀ x ∈ ds, x.1 < 2 ^ 64) (hf' : ∀ x ∈ ds', x.1 < 2 ^ 64)
    (hn : IsNode p H n ds') (hc : ¬ Collide H (sumMsgs H ds) (sumMsgs H ds')) :
    Stored p H (Store.upd m n.hash (some n)) ds := by
  have key : ∀ (D : List Item) (k : Node), (∀ x ∈ D, x.1 < 2 ^ 64) → m (sumHash H D) = some k → IsNode p H k D →
      ¬ Collide H (sumMsgs H D) (sumMsgs H ds') →
      ∃ k', Store.upd m n.hash (some n) (sumHash H D) = some k' ∧ IsNode p H k' D := by
    intro D k hD h1 h2 h3
    rw [Store.upd_apply]
    split
    · next he =>
      rw [hn.hash] at he
      rcases sum_commits H _ D ds' rfl hD hf' he with rfl | hc'
      · exact ⟨n, rfl, hn⟩
      · exact absurd hc' h3
    · exact ⟨k, h1, h2⟩
  induction h with
  | leaf x k h1 h2 =>
    obtain ⟨k', h3, h4⟩ := key _ k hf h1 h2 hc
    exact .leaf x k' h3 h4
  | node a b k hs h1 h2 _ _ iha ihb =>
    obtain ⟨k', h3, h4⟩ := key _ k hf h1 h2 hc
    rw [sumMsgs_append H hs] at hc
    exact .node a b k' hs h3 h4
      (iha (fun x hx => hf x (by simp [hx])) (fun h => hc (collide_mono h (fun x hx => by simp [hx]) (fun _ h => h))))
      (ihb (fun x hx => hf x (by simp [hx])) (fun h => hc (collide_mono h (fun x hx => by simp [hx]) (fun _ h => h))))

/-- Goodness of a subtree with respect to a map: if no two messages of `M` collide then the
subtree is stored. -/
def Good (p : Profile) (H : HashFn) (M : List Bytes) (m : Bytes32 → Option Node) (ds : List Item) : Prop :=
  (∀ x ∈ ds, x.1 < 2 ^ 64) ∧ (∀ x ∈ sumMsgs H ds, x ∈ M) ∧ (¬ Collide H M M → Stored p H m ds)

theorem Good.upd {p : Profile} {H : HashFn} {M : List Bytes} {m : Bytes32 → Option Node} {ds ds' : List Item} {n : Node}
    (h : Good p H M m ds) (hf' : ∀ x ∈ ds', x.1 < 2 ^ 64) (hn : IsNode p H n ds')
    (hM : ∀ x ∈ sumMsgs H ds', x ∈ M) : Good p H M (Store.upd m n.hash (some n)) ds := by
  obtain ⟨h1, h2, h3⟩ := h
  exact ⟨h1, h2, fun hc => (h3 hc).upd h1 hf' hn (fun h => hc (collide_mono h h2 hM))⟩

/-- The list of subtrees: complete subtrees of strictly increasing height. -/
inductive Head (p : Profile) (H : HashFn) (M : List Bytes) (m : Bytes32 → Option Node) :
    List Node → List Item → Prop where
  | nil : Head p H M m [] []
  | cons (n : Node) (rest : List Node) (pre suf : List Item) : Head p H M m rest pre → IsNode p H n suf →
      suf.length = 2 ^ n.height → Good p H M m suf → (∀ k ∈ rest, n.height < k.height) →
      Head p H M m (n :: rest) (pre ++ suf)

theorem Head.upd {p : Profile} {H : HashFn} {M : List Bytes} {m : Bytes32 → Option Node} {l : List Node}
    {ds ds' : List Item} {n : Node} (h : Head p H M m l ds) (hf' : ∀ x ∈ ds', x.1 < 2 ^ 64)
    (hn : IsNode p H n ds') (hM : ∀ x ∈ sumMsgs H ds', x ∈ M) :
    Head p H M (Store.upd m n.hash (some n)) l ds := by
  induction h with
  | nil => exact .nil
  | cons k rest pre suf _ h2 h3 h4 h5 ih => exact .cons k rest pre suf ih h2 h3 (h4.upd hf' hn hM) h5

theorem Head.fees {p : Profile} {H : HashFn} {M : List Bytes} {m : Bytes32 → Option Node} {l : List Node}
    {ds : List Item} (h : Head p H M m l ds) : ∀ x ∈ ds, x.1 < 2 ^ 64 := by
  induction h with
  | nil => simp
  | cons k rest pre suf _ h2 h3 h4 h5 ih =>
    intro x hx
    rcases List.mem_append.1 hx with h | h
    · exact ih x h
    · exact h4.1 x h

theorem Head.empty_iff {p : Profile} {H : HashFn} {M : List Bytes} {m : Bytes32 → Option Node} {l : List Node}
    {ds : List Item} (h : Head p H M m l ds) : l = [] ↔ ds = [] := by
  cases h with
  | nil => simp
  | cons k rest pre suf _ h2 h3 h4 h5 =>
    have := Nat.two_pow_pos k.height
    constructor
    · intro h; cases h
    · intro h
      have := congrArg List.length h
      rw [List.length_append, List.length_nil] at this; omega

/-- Messages of a suffix of the tree are messages of the tree. -/
theorem Head.suffix_msgs {p : Profile} {H : HashFn} {M : List Bytes} {m : Bytes32 → Option Node} {l : List Node}
    {ds : List Item} (h : Head p H M m l ds) : ∀ b : List Item, 0 < b.length → (∀ k ∈ l, b.length ≤ 2 ^ k.height) →
    ∀ x ∈ sumMsgs H b, x ∈ sumMsgs H (ds ++ b) := by
  induction h with
  | nil => intro b _ _ x hx; exact hx
  | cons k rest pre suf _ h2 h3 h4 h5 ih =>
    intro b h0 hb x hx
    have hk := hb k (by simp)
    have hs : IsSplit suf b := ⟨h0, k.height, h3, hk⟩
    rw [List.append_assoc]
    apply ih (suf ++ b) (by rw [List.length_append]; omega)
    · intro k' hk'
      have h6 := h5 k' hk'
      have : 2 ^ (k.height + 1) ≤ 2 ^ k'.height := Nat.pow_le_pow_right (by omega) h6
      rw [Nat.pow_succ] at this
      rw [List.length_append]; omega
    · rw [sumMsgs_append H hs]
      simp [hx]

theorem Head.height_lt {p : Profile} {H : HashFn} {M : List Bytes} {m : Bytes32 → Option Node} {l : List Node}
    {ds : List Item} (h : Head p H M m l ds) (hn : ds.length < 2 ^ 64) : ∀ k ∈ l, k.height < 64 := by
  induction h with
  | nil => simp
  | cons k rest pre suf _ h2 h3 h4 h5 ih =>
    rw [List.length_append] at hn
    intro k' hk'
    rcases List.mem_cons.1 hk' with rfl | hk'
    · have : 2 ^ k'.height < 2 ^ 64 := by omega
      exact (Nat.pow_lt_pow_iff_right (by omega)).1 this
    · exact ih (by omega) k' hk'

/-- The storage state after a write attempt that may fail. -/
def wrote (s : SStore E) (n : Node) : SStore E :=
  { s with
    clock := s.clock + 1
    map := match s.sched s.clock with
      | none => Store.upd s.map n.hash (some n)
      | some f => if f.applied then Store.upd s.map n.hash (some n) else s.map }

theorem onStorage_insert (n : Node) (t : Tree E) :
    onStorage (Store.insert n.hash n) t =
      (match t.storage.sched t.storage.clock with
        | none => .ok (t.storage.map n.hash)
        | some f => .error (.err f.err), { t with storage := wrote t.storage n }) := by
  unfold onStorage wrote
  cases h : t.storage.sched t.storage.clock with
  | none => rw [Store.insert_none _ _ h]
  | some f => rw [Store.insert_fault _ _ h]

theorem Head.wrote {p : Profile} {H : HashFn} {M : List Bytes} {s : SStore E} {l : List Node}
    {ds ds' : List Item} {n : Node} (h : Head p H M s.map l ds) (hf' : ∀ x ∈ ds', x.1 < 2 ^ 64)
    (hn : IsNode p H n ds') (hM : ∀ x ∈ sumMsgs H ds', x ∈ M) :
    Head p H M (wrote s n).map l ds := by
  unfold Sum.wrote
  simp only
  split
  · exact h.upd hf' hn hM
  · split
    · exact h.upd hf' hn hM
    · exact h

theorem Good.wrote {p : Profile} {H : HashFn} {M : List Bytes} {s : SStore E}
    {ds ds' : List Item} {n : Node} (h : Good p H M s.map ds) (hf' : ∀ x ∈ ds', x.1 < 2 ^ 64)
    (hn : IsNode p H n ds') (hM : ∀ x ∈ sumMsgs H ds', x ∈ M) :
    Good p H M (wrote s n).map ds := by
  unfold Sum.wrote
  simp only
  split
  · exact h.upd hf' hn hM
  · split
    · exact h.upd hf' hn hM
    · exact h

/-- Joining two adjacent subtrees. -/
theorem joinSubtrees_spec (p : Profile) (H : HashFn) (l r : Node) (a b : List Item) (t : Tree E)
    (hl : IsNode p H l a) (hr : IsNode p H r b) (hs : IsSplit a b) (hh : l.height < 64) :
    (p.overflowChecks = true ∧ 2 ^ 64 ≤ total (a ++ b) ∧ joinSubtrees p H l r t = (.error (.panic .overflow), t)) ∨
    ∃ n, IsNode p H n (a ++ b) ∧ n.height = l.height + 1 ∧
      joinSubtrees p H l r t = (match t.storage.sched t.storage.clock with
        | none => .ok n
        | some f => .error (.err f.err), { t with storage := wrote t.storage n }) := by
  have e1 : u32Add p l.height 1 = .ok (l.height + 1) := by
    unfold u32Add; rw [if_pos (by omega)]
  have ehash : nodeSum H l.fee l.hash.val r.fee r.hash.val = sumHash H (a ++ b) := by
    rw [sumHash_append H hs, hl.fee, hr.fee, hl.hash, hr.hash]
    unfold nodeSum sumNodeMsg
    rw [← be64_eq, ← be64_eq, be64_mod, be64_mod]
    rfl
  have hfee := hl.fee
  have hfee' := hr.fee
  rw [total_append]
  by_cases hov : l.fee + r.fee < 2 ^ 64
  · right
    let n : Node := ⟨l.height + 1, nodeSum H l.fee l.hash.val r.fee r.hash.val, l.fee + r.fee, some l.hash, some r.hash⟩
    have hn : IsNode p H n (a ++ b) := by
      refine ⟨ehash, ?_, ?_, ?_, ?_⟩
      · rw [total_append]; show l.fee + r.fee = _; omega
      · intro hp
        have := hl.fits hp
        have := hr.fits hp
        rw [total_append]; omega
      · intro h; have := hs.split_eq.1; omega
      · intro a' b' h hs'
        obtain ⟨rfl, rfl⟩ := split_unique h hs hs'
        exact ⟨by show some l.hash = _; rw [hl.hash], by show some r.hash = _; rw [hr.hash]⟩
    refine ⟨n, hn, rfl, ?_⟩
    unfold joinSubtrees
    rw [e1, Exec.liftRes_ok_bind]
    have e2 : Node.createNode p H (l.height + 1) l.fee l.hash r.fee r.hash = .ok n := by
      unfold Node.createNode u64Add
      rw [if_pos hov]; rfl
    rw [e2, Exec.liftRes_ok_bind, Exec.bind_apply, onStorage_insert]
    cases t.storage.sched t.storage.clock <;> rfl
  · by_cases hp : p.overflowChecks = true
    · left
      have := hl.fits hp
      have := hr.fits hp
      refine ⟨hp, by omega, ?_⟩
      unfold joinSubtrees
      rw [e1, Exec.liftRes_ok_bind]
      have e2 : Node.createNode p H (l.height + 1) l.fee l.hash r.fee r.hash = .error .overflow := by
        unfold Node.createNode u64Add
        rw [if_neg hov, if_pos hp]; rfl
      rw [e2]; rfl
    · right
      let n : Node := ⟨l.height + 1, nodeSum H l.fee l.hash.val r.fee r.hash.val, (l.fee + r.fee) % 2 ^ 64,
        some l.hash, some r.hash⟩
      have hn : IsNode p H n (a ++ b) := by
        refine ⟨ehash, ?_, fun h => absurd h hp, ?_, ?_⟩
        · rw [total_append]; show (l.fee + r.fee) % 2 ^ 64 = _; omega
        · intro h; have := hs.split_eq.1; omega
        · intro a' b' h hs'
          obtain ⟨rfl, rfl⟩ := split_unique h hs hs'
          exact ⟨by show some l.hash = _; rw [hl.hash], by show some r.hash = _; rw [hr.hash]⟩
      refine ⟨n, hn, rfl, ?_⟩
      unfold joinSubtrees
      rw [e1, Exec.liftRes_ok_bind]
      have e2 : Node.createNode p H (l.height + 1) l.fee l.hash r.fee r.hash = .ok n := by
        unfold Node.createNode u64Add
        rw [if_neg hov, if_neg hp]; rfl
      rw [e2, Exec.liftRes_ok_bind, Exec.bind_apply, onStorage_insert]
      cases t.storage.sched t.storage.clock <;> rfl

/-- After a successful write, the joined tree is good. -/
theorem Good.join {p : Profile} {H : HashFn} {M : List Bytes} {s : SStore E} {a b : List Item} {n : Node}
    (ha : Good p H M s.map a) (hb : Good p H M s.map b) (hs : IsSplit a b) (hn : IsNode p H n (a ++ b))
    (hM : ∀ x ∈ sumMsgs H (a ++ b), x ∈ M) (hok : s.sched s.clock = none) :
    Good p H M (Sum.wrote s n).map (a ++ b) := by
  have hf : ∀ x ∈ a ++ b, x.1 < 2 ^ 64 := by
    intro x hx
    rcases List.mem_append.1 hx with h | h
    · exact ha.1 x h
    · exact hb.1 x h
  refine ⟨hf, hM, fun hc => ?_⟩
  have h1 := (ha.wrote hf hn hM).2.2 hc
  have h2 := (hb.wrote hf hn hM).2.2 hc
  refine .node a b n hs ?_ hn h1 h2
  unfold Sum.wrote
  simp only [hok]
  rw [hn.hash, Store.upd_same]

/-- Why an operation failed: a storage fault that is due, or a fee overflow. -/
def Why (p : Profile) (s : SStore E) (ds : List Item) (e : Fail E) : Prop :=
  (∃ c f, s.clock ≤ c ∧ s.sched c = some f ∧ e = .err f.err) ∨
  (p.overflowChecks = true ∧ 2 ^ 64 ≤ total ds ∧ e = .panic .overflow)

/-- Everything good in the first map is good in the second. -/
def Keeps (p : Profile) (H : HashFn) (M : List Bytes) (m m' : Bytes32 → Option Node) : Prop :=
  ∀ D, Good p H M m D → Good p H M m' D

theorem Keeps.refl {p : Profile} {H : HashFn} {M : List Bytes} (m : Bytes32 → Option Node) : Keeps p H M m m := fun _ h => h

theorem Keeps.trans {p : Profile} {H : HashFn} {M : List Bytes} {m m' m'' : Bytes32 → Option Node}
    (h : Keeps p H M m m') (h' : Keeps p H M m' m'') : Keeps p H M m m'' := fun D hD => h' D (h D hD)

theorem Keeps.wrote {p : Profile} {H : HashFn} {M : List Bytes} (s : SStore E) {ds' : List Item} {n : Node}
    (hf' : ∀ x ∈ ds', x.1 < 2 ^ 64) (hn : IsNode p H n ds') (hM : ∀ x ∈ sumMsgs H ds', x ∈ M) :
    Keeps p H M s.map (Sum.wrote s n).map := fun _ h => h.wrote hf' hn hM

theorem Head.keeps {p : Profile} {H : HashFn} {M : List Bytes} {m m' : Bytes32 → Option Node} {l : List Node} {ds : List Item}
    (h : Head p H M m l ds) (hk : Keeps p H M m m') : Head p H M m' l ds := by
  induction h with
  | nil => exact .nil
  | cons k rest pre suf _ h2 h3 h4 h5 ih => exact .cons k rest pre suf ih h2 h3 (hk _ h4) h5

theorem rootLoop_spec (p : Profile) (H : HashFn) (M : List Bytes) : ∀ (rest : List Node) (pre : List Item)
    (cur : Node) (b : List Item) (t : Tree E),
    Head p H M t.storage.map rest pre → IsNode p H cur b → Good p H M t.storage.map b → 0 < b.length →
    (∀ k ∈ rest, b.length ≤ 2 ^ k.height) → (pre ++ b).length < 2 ^ 64 →
    (∀ x ∈ sumMsgs H (pre ++ b), x ∈ M) →
    ∃ r t', rootLoop p H cur rest t = (r, t') ∧ t'.head = t.head ∧ t'.storage.sched = t.storage.sched ∧
      t.storage.clock ≤ t'.storage.clock ∧ Keeps p H M t.storage.map t'.storage.map ∧
      ((∃ n, r = .ok n ∧ IsNode p H n (pre ++ b) ∧ Good p H M t'.storage.map (pre ++ b)) ∨
       ∃ e, r = .error e ∧ Why p t.storage (pre ++ b) e) := by
  intro rest
  induction rest with
  | nil =>
    intro pre cur b t h1 h2 h3 h4 h5 h6 h7
    have := h1.empty_iff.1 rfl
    subst this
    exact ⟨_, _, rfl, rfl, rfl, Nat.le_refl _, .refl _, Or.inl ⟨cur, rfl, h2, h3⟩⟩
  | cons k rest ih =>
    intro pre cur b t h1 h2 h3 h4 h5 h6 h7
    have hkh := h1.height_lt (by rw [List.length_append] at h6; omega) k (by simp)
    have hsuf := h1.suffix_msgs b h4 h5
    cases h1 with
    | cons _ _ pre a g1 g2 g3 g4 g5 =>
      have hs : IsSplit a b := ⟨h4, k.height, g3, h5 k (by simp)⟩
      rw [List.append_assoc] at h6 h7 ⊢
      have hlen : ∀ k' ∈ rest, (a ++ b).length ≤ 2 ^ k'.height := by
        intro k' hk'
        have h6 := g5 k' hk'
        have : 2 ^ (k.height + 1) ≤ 2 ^ k'.height := Nat.pow_le_pow_right (by omega) h6
        have := h5 k (by simp)
        rw [List.length_append]; omega
      have hM : ∀ x ∈ sumMsgs H (a ++ b), x ∈ M := fun x hx =>
        h7 x (g1.suffix_msgs (a ++ b) (by rw [List.length_append]; omega) hlen x hx)
      rcases joinSubtrees_spec p H k cur a b t g2 h2 hs hkh with ⟨hp, hov, e⟩ | ⟨n, hn, hnh, e⟩
      · refine ⟨_, _, by rw [rootLoop, Exec.bind_error e], rfl, rfl, Nat.le_refl _, .refl _, Or.inr ⟨_, rfl, Or.inr ⟨hp, ?_, rfl⟩⟩⟩
        rw [total_append]; omega
      · have hf : ∀ x ∈ a ++ b, x.1 < 2 ^ 64 := by
          intro x hx
          rcases List.mem_append.1 hx with h | h
          · exact g4.1 x h
          · exact h3.1 x h
        cases hsch : t.storage.sched t.storage.clock with
        | some f =>
          rw [hsch] at e
          exact ⟨_, { t with storage := wrote t.storage n }, by rw [rootLoop, Exec.bind_error e], rfl, rfl,
            Nat.le_succ _, .wrote _ hf hn hM, Or.inr ⟨_, rfl, Or.inl ⟨_, f, Nat.le_refl _, hsch, rfl⟩⟩⟩
        | none =>
          rw [hsch] at e
          obtain ⟨r, t', q1, q2, q3, q4, q5, q6⟩ := ih pre n (a ++ b) { t with storage := wrote t.storage n }
            (g1.wrote hf hn hM) hn (g4.join h3 hs hn hM hsch) (by rw [List.length_append]; omega) hlen h6 h7
          have q4 : t.storage.clock + 1 ≤ t'.storage.clock := q4
          refine ⟨r, t', by rw [rootLoop, Exec.bind_ok e, q1], q2, q3, by omega, (Keeps.wrote t.storage hf hn hM).trans q5, ?_⟩
          rcases q6 with q6 | ⟨er, q6, ⟨c, f, q7, q8⟩ | q7⟩
          · exact Or.inl q6
          · have q7 : t.storage.clock + 1 ≤ c := q7
            exact Or.inr ⟨er, q6, Or.inl ⟨c, f, by omega, q8⟩⟩
          · exact Or.inr ⟨er, q6, Or.inr q7⟩

/-- Outcome of `root`. -/
theorem root_keeps (p : Profile) (H : HashFn) (M : List Bytes) (ds : List Item) (t : Tree E)
    (h : Head p H M t.storage.map t.head ds) (hn : ds.length < 2 ^ 64) (hM : ∀ x ∈ sumMsgs H ds, x ∈ M) :
    ∃ r t', root p H t = (r, t') ∧ t'.head = t.head ∧ t'.storage.sched = t.storage.sched ∧
      t.storage.clock ≤ t'.storage.clock ∧ Keeps p H M t.storage.map t'.storage.map ∧
      ((r = .ok (total ds % 2 ^ 64, if ds = [] then emptySum else sumHash H ds) ∧
          (p.overflowChecks = true → total ds < 2 ^ 64) ∧ (ds ≠ [] → Good p H M t'.storage.map ds)) ∨
       ∃ e, r = .error e ∧ Why p t.storage ds e) := by
  obtain ⟨s, hd⟩ := t
  simp only at h
  cases hd with
  | nil =>
    have := h.empty_iff.1 rfl
    subst this
    exact ⟨_, _, rfl, rfl, rfl, Nat.le_refl _, .refl _,
      Or.inl ⟨by rw [if_pos rfl]; rfl, fun _ => by decide, fun h => absurd rfl h⟩⟩
  | cons k rest =>
    have hne : ds ≠ [] := fun hc => by have := h.empty_iff.2 hc; cases this
    cases h with
    | cons _ _ pre b g1 g2 g3 g4 g5 =>
      have hb : 0 < b.length := by rw [g3]; exact Nat.two_pow_pos _
      obtain ⟨r, t', q1, q2, q3, q4, q5, q6⟩ := rootLoop_spec p H M rest pre k b ⟨s, k :: rest⟩
        g1 g2 g4 hb (by
          intro k' hk'
          rw [g3]
          exact Nat.pow_le_pow_right (by omega) (by have := g5 k' hk'; omega)) hn hM
      have hroot : root p H ⟨s, k :: rest⟩ =
          (r.map fun n => (n.fee, n.hash), t') := by
        have hrn : rootNode p H ⟨s, k :: rest⟩ = (r.map some, t') := by
          show (rootLoop p H k rest >>= fun n => (pure (some n) : TreeM E (Option Node))) ⟨s, k :: rest⟩ = _
          cases hr : r with
          | ok n => rw [hr] at q1; rw [Exec.bind_ok q1]; rfl
          | error e => rw [hr] at q1; rw [Exec.bind_error q1]; rfl
        unfold root
        cases hr : r with
        | ok n => rw [hr] at hrn; rw [Exec.bind_ok hrn]; rfl
        | error e => rw [hr] at hrn; rw [Exec.bind_error hrn]; rfl
      refine ⟨_, t', hroot, q2, q3, q4, q5, ?_⟩
      rcases q6 with ⟨n, rfl, q7, q8⟩ | ⟨e, rfl, q7⟩
      · left
        rw [if_neg hne]
        refine ⟨?_, q7.fits, fun _ => q8⟩
        simp only [Except.map]
        rw [q7.fee, q7.hash]
      · exact Or.inr ⟨e, rfl, q7⟩

/-- Outcome of `root`. -/
theorem root_spec (p : Profile) (H : HashFn) (M : List Bytes) (ds : List Item) (t : Tree E)
    (h : Head p H M t.storage.map t.head ds) (hn : ds.length < 2 ^ 64) (hM : ∀ x ∈ sumMsgs H ds, x ∈ M) :
    ∃ r t', root p H t = (r, t') ∧ t'.head = t.head ∧ t'.storage.sched = t.storage.sched ∧
      t.storage.clock ≤ t'.storage.clock ∧ Head p H M t'.storage.map t'.head ds ∧
      ((r = .ok (total ds % 2 ^ 64, if ds = [] then emptySum else sumHash H ds) ∧
          (p.overflowChecks = true → total ds < 2 ^ 64) ∧ (ds ≠ [] → Good p H M t'.storage.map ds)) ∨
       ∃ e, r = .error e ∧ Why p t.storage ds e) := by
  obtain ⟨r, t', q1, q2, q3, q4, q5, q6⟩ := root_keeps p H M ds t h hn hM
  exact ⟨r, t', q1, q2, q3, q4, by rw [q2]; exact h.keeps q5, q6⟩

theorem joinAllLoop_spec (p : Profile) (H : HashFn) (M : List Bytes) : ∀ (rest : List Node) (pre : List Item)
    (cur : Node) (b : List Item) (t : Tree E), t.head = cur :: rest →
    Head p H M t.storage.map rest pre → IsNode p H cur b → Good p H M t.storage.map b →
    b.length = 2 ^ cur.height → (∀ k ∈ rest, cur.height ≤ k.height) → (pre ++ b).length < 2 ^ 64 →
    (∀ x ∈ sumMsgs H (pre ++ b), x ∈ M) →
    ∃ r t', joinAllLoop p H cur rest t = (r, t') ∧ t'.storage.sched = t.storage.sched ∧
      t.storage.clock ≤ t'.storage.clock ∧ Keeps p H M t.storage.map t'.storage.map ∧
      ((r = .ok () ∧ Head p H M t'.storage.map t'.head (pre ++ b)) ∨
       ∃ e, r = .error e ∧ t'.head = [] ∧ Why p t.storage (pre ++ b) e) := by
  intro rest
  induction rest with
  | nil =>
    intro pre cur b t h0 h1 h2 h3 h4 h5 h6 h7
    exact ⟨_, _, rfl, rfl, Nat.le_refl _, .refl _, Or.inl ⟨rfl, by rw [h0]; exact .cons _ _ _ _ h1 h2 h4 h3 (by simp)⟩⟩
  | cons k rest ih =>
    intro pre cur b t h0 h1 h2 h3 h4 h5 h6 h7
    by_cases hk : cur.height = k.height
    · have hkh := h1.height_lt (by rw [List.length_append] at h6; omega) k (by simp)
      have hpos : 0 < b.length := by rw [h4]; exact Nat.two_pow_pos _
      cases h1 with
      | cons _ _ pre a g1 g2 g3 g4 g5 =>
        have hs : IsSplit a b := ⟨hpos, k.height, g3, by rw [h4, hk]⟩
        rw [List.append_assoc] at h6 h7 ⊢
        have hlen : ∀ k' ∈ rest, (a ++ b).length ≤ 2 ^ k'.height := by
          intro k' hk'
          have h6 := g5 k' hk'
          have : 2 ^ (k.height + 1) ≤ 2 ^ k'.height := Nat.pow_le_pow_right (by omega) h6
          rw [Nat.pow_succ] at this
          rw [List.length_append, g3, h4, hk, ← Nat.two_mul, Nat.mul_comm]; exact this
        have hM : ∀ x ∈ sumMsgs H (a ++ b), x ∈ M := fun x hx =>
          h7 x (g1.suffix_msgs (a ++ b) (by rw [List.length_append]; omega) hlen x hx)
        have hunf : joinAllLoop p H cur (k :: rest) t =
            (joinSubtrees p H k cur >>= fun joined => do
              Exec.modify fun t => { t with head := joined :: rest }
              joinAllLoop p H joined rest) { t with head := [] } := by
          rw [joinAllLoop, if_pos hk]; rfl
        rcases joinSubtrees_spec p H k cur a b { t with head := [] } g2 h2 hs hkh with ⟨hp, hov, e⟩ | ⟨n, hn, hnh, e⟩
        · refine ⟨_, { t with head := [] }, by rw [hunf, Exec.bind_error e], rfl, Nat.le_refl _, .refl _,
            Or.inr ⟨_, rfl, rfl, Or.inr ⟨hp, ?_, rfl⟩⟩⟩
          rw [total_append]; omega
        · have hf : ∀ x ∈ a ++ b, x.1 < 2 ^ 64 := by
            intro x hx
            rcases List.mem_append.1 hx with h | h
            · exact g4.1 x h
            · exact h3.1 x h
          cases hsch : t.storage.sched t.storage.clock with
          | some f =>
            simp only [hsch] at e
            exact ⟨_, ⟨wrote t.storage n, []⟩, by rw [hunf, Exec.bind_error e], rfl, Nat.le_succ _, .wrote t.storage hf hn hM,
              Or.inr ⟨_, rfl, rfl, Or.inl ⟨_, f, Nat.le_refl _, hsch, rfl⟩⟩⟩
          | none =>
            simp only [hsch] at e
            obtain ⟨r, t', q1, q3, q4, q5, q6⟩ := ih pre n (a ++ b) ⟨wrote t.storage n, n :: rest⟩ rfl
              (g1.wrote hf hn hM) hn (g4.join h3 hs hn hM hsch)
              (by rw [List.length_append, g3, h4, hk, hnh, Nat.pow_succ]; omega)
              (by intro k' hk'; rw [hnh]; exact g5 k' hk') h6 h7
            have q4 : t.storage.clock + 1 ≤ t'.storage.clock := q4
            refine ⟨r, t', by rw [hunf, Exec.bind_ok e, Exec.modify_bind]; exact q1, q3, by omega, (Keeps.wrote t.storage hf hn hM).trans q5, ?_⟩
            rcases q6 with q6 | ⟨er, q6, q9, ⟨c, f, q7, q8⟩ | q7⟩
            · exact Or.inl q6
            · have q7 : t.storage.clock + 1 ≤ c := q7
              exact Or.inr ⟨er, q6, q9, Or.inl ⟨c, f, by omega, q8⟩⟩
            · exact Or.inr ⟨er, q6, q9, Or.inr q7⟩
    · refine ⟨_, _, by rw [joinAllLoop, if_neg hk]; rfl, rfl, Nat.le_refl _, .refl _, Or.inl ⟨rfl, ?_⟩⟩
      rw [h0]
      refine .cons _ _ _ _ h1 h2 h4 h3 ?_
      have hlt : cur.height < k.height := by have := h5 k (by simp); omega
      intro k' hk'
      rcases List.mem_cons.1 hk' with rfl | hk'
      · exact hlt
      · cases h1 with
        | cons _ _ pre a g1 g2 g3 g4 g5 => have := g5 k' hk'; omega

/-- Outcome of `push`. -/
theorem push_keeps (p : Profile) (H : HashFn) (M : List Bytes) (ds : List Item) (x : Item) (t : Tree E)
    (h : Head p H M t.storage.map t.head ds) (hn : (ds ++ [x]).length < 2 ^ 64) (hx : x.1 < 2 ^ 64)
    (hM : ∀ y ∈ sumMsgs H (ds ++ [x]), y ∈ M) :
    ∃ r t', push p H x.1 x.2 t = (r, t') ∧ t'.storage.sched = t.storage.sched ∧
      t.storage.clock + 1 ≤ t'.storage.clock ∧ Keeps p H M t.storage.map t'.storage.map ∧
      ((r = .ok () ∧ Head p H M t'.storage.map t'.head (ds ++ [x])) ∨
       (∃ f, t.storage.sched t.storage.clock = some f ∧ r = .error (.err f.err) ∧ t'.head = t.head ∧
          Head p H M t'.storage.map t'.head ds) ∨
       ∃ e, t.storage.sched t.storage.clock = none ∧ r = .error e ∧ t'.head = [] ∧ Why p t.storage (ds ++ [x]) e) := by
  have hleaf := isNode_leaf p H x hx
  have hf : ∀ y ∈ [x], y.1 < 2 ^ 64 := by intro y hy; rw [List.mem_singleton.1 hy]; exact hx
  have hMx : ∀ y ∈ sumMsgs H [x], y ∈ M := fun y hy =>
    hM y (h.suffix_msgs [x] (by simp) (fun k _ => Nat.two_pow_pos _) y hy)
  have hins := onStorage_insert (Node.createLeaf H x.1 x.2) t
  have hunf : push p H x.1 x.2 t = (onStorage (Store.insert (Node.createLeaf H x.1 x.2).hash (Node.createLeaf H x.1 x.2)) >>=
      fun _ => do
        Exec.modify fun t => { t with head := Node.createLeaf H x.1 x.2 :: t.head }
        joinAllSubtrees p H) t := rfl
  cases hsch : t.storage.sched t.storage.clock with
  | some f =>
    simp only [hsch] at hins
    refine ⟨_, { t with storage := wrote t.storage (Node.createLeaf H x.1 x.2) },
      by rw [hunf, Exec.bind_error hins], rfl, Nat.le_refl _, .wrote t.storage hf hleaf hMx, Or.inr (Or.inl ⟨f, rfl, rfl, rfl, ?_⟩)⟩
    exact h.wrote hf hleaf hMx
  | none =>
    simp only [hsch] at hins
    obtain ⟨r, t', q1, q3, q4, q5, q6⟩ := joinAllLoop_spec p H M t.head ds (Node.createLeaf H x.1 x.2) [x]
      ⟨wrote t.storage (Node.createLeaf H x.1 x.2), Node.createLeaf H x.1 x.2 :: t.head⟩ rfl
      (h.wrote hf hleaf hMx) hleaf
      ⟨hf, hMx, fun _ => .leaf x _ (by
        unfold wrote
        simp only [hsch]
        rw [← hleaf.hash, Store.upd_same]) hleaf⟩ rfl (fun k _ => Nat.zero_le _) hn hM
    refine ⟨r, t', by rw [hunf, Exec.bind_ok hins, Exec.modify_bind]; exact q1, q3, q4, (Keeps.wrote t.storage hf hleaf hMx).trans q5, ?_⟩
    rcases q6 with q6 | ⟨er, q6, q9, ⟨c, f, q7, q8⟩ | q7⟩
    · exact Or.inl q6
    · have q7 : t.storage.clock + 1 ≤ c := q7
      exact Or.inr (Or.inr ⟨er, rfl, q6, q9, Or.inl ⟨c, f, by omega, q8⟩⟩)
    · exact Or.inr (Or.inr ⟨er, rfl, q6, q9, Or.inr q7⟩)

/-- Outcome of `push`. -/
theorem push_spec (p : Profile) (H : HashFn) (M : List Bytes) (ds : List Item) (x : Item) (t : Tree E)
    (h : Head p H M t.storage.map t.head ds) (hn : (ds ++ [x]).length < 2 ^ 64) (hx : x.1 < 2 ^ 64)
    (hM : ∀ y ∈ sumMsgs H (ds ++ [x]), y ∈ M) :
    ∃ r t', push p H x.1 x.2 t = (r, t') ∧ t'.storage.sched = t.storage.sched ∧
      t.storage.clock + 1 ≤ t'.storage.clock ∧
      ((r = .ok () ∧ Head p H M t'.storage.map t'.head (ds ++ [x])) ∨
       (∃ f, t.storage.sched t.storage.clock = some f ∧ r = .error (.err f.err) ∧ t'.head = t.head ∧
          Head p H M t'.storage.map t'.head ds) ∨
       ∃ e, t.storage.sched t.storage.clock = none ∧ r = .error e ∧ t'.head = [] ∧ Why p t.storage (ds ++ [x]) e) := by
  obtain ⟨r, t', q1, q2, q3, _, q4⟩ := push_keeps p H M ds x t h hn hx hM
  exact ⟨r, t', q1, q2, q3, q4⟩

end Sum
end FuelMerkle
