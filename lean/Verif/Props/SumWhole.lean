import Verif.Proofs.SumWhole
import Verif.Tests.ToyHash
import Verif.Spec.Sha256

/-
Property C89: the storage of sum trees is whole.

`Spec/SumWhole.lean` defines `Linked` and `lives`.
-/
namespace FuelMerkle.Props
open FuelMerkle.Spec
open FuelMerkle.Sum
variable {E : Type}

set_option maxRecDepth 100000

/-- **C89**, no dangling child. Trees are started one after the other on one storage, with any calls,
any failing writes (with or without effect), any panics by a fee that does not fit: no node ever
misses a child, and no key loses its record. Nothing is assumed of the hash function, the fees or the
numbers of leaves. -/
theorem C89_linked (p : Profile) (H : HashFn) (zs : List (List Op)) (s : SStore E) (hs : Linked s.map) :
    Linked (lives p H zs s).map ∧ ∀ k, s.map k ≠ none → (lives p H zs s).map k ≠ none :=
  ⟨(lives_step p H zs s).linked hs, (lives_step p H zs s).keeps⟩

/-- **C89**, roots. When `root` succeeds, the root it returns is that of the empty tree, or it has a
record in storage. -/
theorem C89_root_stored (p : Profile) (H : HashFn) (s : SStore E) (ops : List Op) {fee : Nat} {k : Bytes32}
    (h : (root p H (run p H ops (Tree.new s)).2).1 = .ok (fee, k)) :
    (fee = 0 ∧ k = emptySum) ∨ (root p H (run p H ops (Tree.new s)).2).2.storage.map k ≠ none :=
  (root_step p H _ (run_step p H ops (Tree.new s) (fun x hx => by cases hx)).2).2.2 fee k h

/-- **C89**, found trees. After any trees on an empty storage: if there is a record under the root of
some leaves, then it is the correct record, following its children gives exactly these leaves, and
these leaves were pushed, in this order, on one of the trees. Or else the digests of these leaves and
of some of the pushed ones contain a collision of the hash function. -/
theorem C89_found (p : Profile) (H : HashFn) (zs : List (List Op)) (s : SStore E) (hs : s.map = fun _ => none)
    (hz : ∀ z ∈ zs, (pushed z).length < 2 ^ 64 ∧ ∀ x ∈ pushed z, x.1 < 2 ^ 64)
    (ds : List Item) (hne : ds ≠ []) (hf : ∀ x ∈ ds, x.1 < 2 ^ 64)
    (hc : ∀ z ∈ zs, ∀ ds', ds'.Sublist (pushed z) → ¬ Collide H (sumMsgs H ds) (sumMsgs H ds'))
    (hk : (lives p H zs s).map (sumHash H ds) ≠ none) :
    (lives p H zs s).map (sumHash H ds) = some (recordOf H ds) ∧
    walk (lives p H zs s).map ds.length (sumHash H ds) = some (ds.map fun x => (x.1, H ([0x00] ++ be64 x.1 ++ x.2))) ∧
    ∃ z ∈ zs, ds.Sublist (pushed z) := by
  have hl := (C89_linked p H zs s (by rw [hs]; intro k n h; cases h)).1
  obtain ⟨h1, h2, h3⟩ := found_whole H _ (fun ds => ∃ z ∈ zs, ds.Sublist (pushed z))
    (fun ds ⟨z, h, g⟩ x hx => (hz z h).2 x (g.subset hx))
    (fun k => by
      rcases lives_origin p H zs s hz k with h | ⟨z, h1, ds, h2, h3, h4⟩
      · exact .inl (by rw [h, hs])
      · exact .inr ⟨ds, ⟨z, h1, h2⟩, h3, h4⟩) hl ds.length ds (Nat.le_refl _) hne hf (fun ds' ⟨z, h, g⟩ => hc z h ds' g) hk
  exact ⟨h2, h3, h1⟩

/-- **C89**, returned roots. Trees `before` ran on an empty storage; a tree is used by `ops` and its
`root` returns `(fee, k)`; then other trees, `after`, run on the storage. Whatever fails before, in
`ops` or after: the root is that of the empty tree, or the root of leaves pushed in `ops`, and the
storage still has all of the tree over these leaves. -/
theorem C89_returned (p : Profile) (H : HashFn) (before after : List (List Op)) (ops : List Op) (s : SStore E)
    (hs : s.map = fun _ => none) (hz : ∀ z ∈ before ++ ops :: after, (pushed z).length < 2 ^ 64 ∧ ∀ x ∈ pushed z, x.1 < 2 ^ 64)
    (hc : ∀ ds, ds.Sublist (pushed ops) → ∀ z ∈ before ++ ops :: after, ∀ ds', ds'.Sublist (pushed z) → ¬ Collide H (sumMsgs H ds) (sumMsgs H ds'))
    {fee : Nat} {k : Bytes32} {t : Tree E} (h : root p H (run p H ops (Tree.new (lives p H before s))).2 = (.ok (fee, k), t)) :
    (fee = 0 ∧ k = emptySum) ∨
    ∃ ds, ds ≠ [] ∧ ds.Sublist (pushed ops) ∧ fee = total ds % 2 ^ 64 ∧ k = sumHash H ds ∧
      walk (lives p H after t.storage).map ds.length k = some (ds.map fun x => (x.1, H ([0x00] ++ be64 x.1 ++ x.2))) := by
  have h0 : (root p H (run p H ops (Tree.new (lives p H before s))).2).1 = .ok (fee, k) := by rw [h]
  have ho := hz ops (by simp)
  obtain ⟨ds, h1, h2, h3⟩ := root_value p H ops _ ho.1 ho.2 h0
  by_cases hne : ds = []
  · subst hne
    exact .inl ⟨by rw [h2]; rfl, by rw [h3, if_pos rfl]⟩
  rw [if_neg hne] at h3
  rcases C89_root_stored p H _ ops h0 with h4 | h4
  · exact .inl h4
  refine .inr ⟨ds, hne, h1, h2, h3, ?_⟩
  have e : lives p H after t.storage = lives p H (before ++ (ops ++ [.root]) :: after) s := by
    unfold lives
    rw [List.foldl_append, List.foldl_cons]
    have := run_snoc_root p H ops (Tree.new (lives p H before s))
    rw [h] at this
    exact congrArg (fun x : Tree E => List.foldl (fun s ops => (run p H ops (Tree.new s)).2.storage) x.storage after) this.symm
  have hk : (lives p H after t.storage).map (sumHash H ds) ≠ none := by
    rw [← h3]
    rw [h] at h4
    exact (lives_step p H after t.storage).keeps k h4
  have hmem : ∀ z ∈ before ++ (ops ++ [Op.root]) :: after, ∃ w ∈ before ++ ops :: after, pushed z = pushed w := by
    intro z hz
    simp only [List.mem_append, List.mem_cons] at hz
    rcases hz with hz | rfl | hz
    · exact ⟨z, by simp [hz], rfl⟩
    · exact ⟨ops, by simp, pushed_snoc_root ops⟩
    · exact ⟨z, by simp [hz], rfl⟩
  rw [e] at hk ⊢
  rw [h3]
  exact (C89_found p H _ s hs (fun z hm => by obtain ⟨w, hw, e⟩ := hmem z hm; rw [e]; exact hz w hw) ds hne
    (fun x hx => ho.2 x (h1.subset hx))
    (fun z hm ds' hd => by obtain ⟨w, hw, e⟩ := hmem z hm; rw [e] at hd; exact hc ds h1 w hw ds' hd) hk).2.1

/-! ### The hypotheses can be met -/

namespace SumWhole

/-- Its third write fails with effect, its seventh without. -/
def store : SStore Unit where
  map := fun _ => none
  sched := fun c => if c = 2 then some ⟨(), true⟩ else if c = 6 then some ⟨(), false⟩ else none
  clock := 0

/-- The first tree fails in its second push, after the inner node was written. -/
def first : List Op := [.push 1 [1], .push 2 [2]]

/-- The second has two other leaves and a root. -/
def second : List Op := [.push 1 [1], .push 5 [5], .root]

/-- After the first tree, its node over two leaves is found, although neither push nor root reported it. -/
example : (match (run ⟨true, true, .w64⟩ Tests.toyHash first (Tree.new store)).1 with | [.push (.ok _), .push (.error _)] => true | _ => false) = true ∧
    ((lives ⟨true, true, .w64⟩ Tests.toyHash [first] store).map (sumHash Tests.toyHash [(1, [1]), (2, [2])])).isSome = true ∧
    ((lives ⟨true, true, .w64⟩ Tests.toyHash [first] store).map (sumHash Tests.toyHash [(1, [1]), (5, [5])])).isSome = false := by
  decide +kernel

/-- With the second tree after it, a root is returned. -/
example : (root ⟨true, true, .w64⟩ Tests.toyHash (run ⟨true, true, .w64⟩ Tests.toyHash second
      (Tree.new (lives ⟨true, true, .w64⟩ Tests.toyHash [first] store))).2).1.toOption =
    some (6, sumHash Tests.toyHash [(1, [1]), (5, [5])]) := by decide +kernel

example : store.map = (fun _ => none) ∧ (∀ z ∈ [first] ++ second :: [first], (pushed z).length < 2 ^ 64 ∧ ∀ x ∈ pushed z, x.1 < 2 ^ 64) :=
  ⟨rfl, by decide⟩

example : Linked store.map := fun k n h => by cases h

/-- The sublists of a list. -/
def subs : List Item → List (List Item)
  | [] => [[]]
  | a :: l => subs l ++ (subs l).map (a :: ·)

theorem mem_subs {l l' : List Item} (h : l'.Sublist l) : l' ∈ subs l := by
  induction h with
  | slnil => simp [subs]
  | cons a _ ih => simp [subs, ih]
  | cons_cons a _ ih => simp [subs, ih]

set_option synthInstance.maxHeartbeats 400000 in
set_option synthInstance.maxSize 2000 in
/-- There is no collision among their messages. -/
example : ∀ ds, ds.Sublist (pushed second) → ∀ z ∈ [first] ++ second :: [first], ∀ ds', ds'.Sublist (pushed z) →
    ¬ Collide Sha256.sha256 (sumMsgs Sha256.sha256 ds) (sumMsgs Sha256.sha256 ds') := by
  have h : ∀ ds ∈ subs (pushed second), ∀ z ∈ [first] ++ second :: [first], ∀ ds' ∈ subs (pushed z),
      ∀ x ∈ sumMsgs Sha256.sha256 ds, ∀ y ∈ sumMsgs Sha256.sha256 ds', Sha256.sha256 x = Sha256.sha256 y → x = y := by decide +kernel
  rintro ds hd z hz ds' hd' ⟨x, hx, y, hy, h1, h2⟩
  exact h1 (h ds (mem_subs hd) z hz ds' (mem_subs hd') x hx y hy h2)

end SumWhole
end FuelMerkle.Props
