import Verif.Proofs.SumDesk
import Verif.Props.SumWhole
import Verif.Props.SumMachine

/-
Property C90: several sum trees open on one storage that fails.

`Spec/SumDesk.lean` defines `Lists`; `Spec/Shared.lean` defines `Desk` for sum trees.
-/
namespace FuelMerkle.Props
open FuelMerkle.Spec
open FuelMerkle.Sum
variable {E : Type}

set_option maxRecDepth 100000

/-- **C90**, call by call. For every build profile, hash function, storage (with any content and any
pattern of failing writes) and sequence of calls on any number of trees: every call returns exactly
what the lists say, and the storage at the end is exactly the one they say. -/
theorem C90_exact (p : Profile) (H : HashFn) (s : SStore E) (xs : List (Nat × Op)) (hn : ∀ i, (leavesOf i xs).length < 2 ^ 64)
    (hf : ∀ i, ∀ x ∈ leavesOf i xs, x.1 < 2 ^ 64) :
    (Sum.Desk.run p H xs (Sum.Desk.start s)).1 = (Lists.run p H xs ⟨s, fun _ => []⟩).1 ∧
    (Sum.Desk.run p H xs (Sum.Desk.start s)).2.storage = (Lists.run p H xs ⟨s, fun _ => []⟩).2.storage := by
  obtain ⟨h1, h2, _⟩ := desk_exact p H xs (Sum.Desk.start s) (fun _ => [])
    (fun _ => ⟨[], rfl, rfl, trivial, fun a ha => by cases ha⟩) (by simpa using hn) hf
  exact ⟨h1, h2⟩

/-- **C90**, no dangling child: with no assumption at all. -/
theorem C90_linked (p : Profile) (H : HashFn) (s : SStore E) (xs : List (Nat × Op)) (hs : Linked s.map) :
    Linked (Sum.Desk.run p H xs (Sum.Desk.start s)).2.storage.map ∧
    ∀ k, s.map k ≠ none → (Sum.Desk.run p H xs (Sum.Desk.start s)).2.storage.map k ≠ none := by
  have h := (desk_whole p H xs (Sum.Desk.start s) (fun i x hx => by cases hx)).1
  exact ⟨h.linked hs, h.keeps⟩

/-- **C90**, found trees. If the storage, empty at first, has a record under the root of some leaves,
it is the correct record, following the children from it gives exactly these leaves, and these leaves
were pushed, in this order, on one of the trees (unless messages collide). -/
theorem C90_found (p : Profile) (H : HashFn) (s : SStore E) (hs : s.map = fun _ => none) (xs : List (Nat × Op))
    (hn : ∀ i, (leavesOf i xs).length < 2 ^ 64) (hf : ∀ i, ∀ x ∈ leavesOf i xs, x.1 < 2 ^ 64)
    (ds : List Item) (hne : ds ≠ []) (hfd : ∀ x ∈ ds, x.1 < 2 ^ 64)
    (hc : ∀ i ds', ds'.Sublist (leavesOf i xs) → ¬ Collide H (sumMsgs H ds) (sumMsgs H ds'))
    (hk : (Sum.Desk.run p H xs (Sum.Desk.start s)).2.storage.map (sumHash H ds) ≠ none) :
    (Sum.Desk.run p H xs (Sum.Desk.start s)).2.storage.map (sumHash H ds) = some (recordOf H ds) ∧
    walk (Sum.Desk.run p H xs (Sum.Desk.start s)).2.storage.map ds.length (sumHash H ds) =
      some (ds.map fun x => (x.1, H ([0x00] ++ be64 x.1 ++ x.2))) ∧
    ∃ i, ds.Sublist (leavesOf i xs) := by
  have hl := (C90_linked p H s xs (by rw [hs]; intro k n h; cases h)).1
  obtain ⟨h1, h2, h3⟩ := found_whole H _ (fun ds => ∃ i, ds.Sublist (leavesOf i xs))
    (fun ds ⟨i, g⟩ x hx => hf i x (g.subset hx))
    (fun k => by
      rw [(C90_exact p H s xs hn hf).2]
      rcases lists_origin p H xs ⟨s, fun _ => []⟩ k with h | ⟨i, ds, h2, h3, h4⟩
      · exact .inl (by rw [h, hs])
      · exact .inr ⟨ds, ⟨i, by simpa using h2⟩, h3, h4⟩) hl ds.length ds (Nat.le_refl _) hne hfd (fun ds' ⟨i, g⟩ => hc i ds' g) hk
  exact ⟨h2, h3, h1⟩

/-- **C90**, returned roots. If a `root` call on the tree `i` succeeded, the root is that of the empty
tree, or that of leaves pushed before on this very tree; and at the end, whatever any tree did and
whatever failed before or after, the storage still has all of the tree over these leaves. -/
theorem C90_returned (p : Profile) (H : HashFn) (s : SStore E) (hs : s.map = fun _ => none) (before after : List (Nat × Op)) (i : Nat)
    (xs : List (Nat × Op)) (hx : xs = before ++ (i, .root) :: after)
    (hn : ∀ i, (leavesOf i xs).length < 2 ^ 64) (hf : ∀ i, ∀ x ∈ leavesOf i xs, x.1 < 2 ^ 64)
    (hc : ∀ ds, ds.Sublist (leavesOf i before) → ∀ j ds', ds'.Sublist (leavesOf j xs) → ¬ Collide H (sumMsgs H ds) (sumMsgs H ds'))
    {fee : Nat} {k : Bytes32}
    (h : (Sum.Desk.step p H (i, .root) (Sum.Desk.run p H before (Sum.Desk.start s)).2).1 = .root (.ok (fee, k))) :
    (fee = 0 ∧ k = emptySum) ∨
    ∃ ds, ds ≠ [] ∧ ds.Sublist (leavesOf i before) ∧ fee = total ds % 2 ^ 64 ∧ k = sumHash H ds ∧
      walk (Sum.Desk.run p H xs (Sum.Desk.start s)).2.storage.map ds.length k =
        some (ds.map fun x => (x.1, H ([0x00] ++ be64 x.1 ++ x.2))) := by
  have happ : ∀ j, leavesOf j xs = leavesOf j before ++ leavesOf j ((i, .root) :: after) := by
    intro j
    have hp : ∀ a b : List Op, pushed (a ++ b) = pushed a ++ pushed b := by
      intro a b
      induction a with
      | nil => rfl
      | cons o a ih => cases o <;> simp [pushed, ih]
    rw [hx]
    simp only [leavesOf, callsOn, List.filter_append, List.map_append, hp]
  have hnb : ∀ j, (leavesOf j before).length < 2 ^ 64 := fun j => by
    have := hn j
    rw [happ, List.length_append] at this; omega
  have hfb : ∀ j, ∀ x ∈ leavesOf j before, x.1 < 2 ^ 64 := fun j x hm => hf j x (by rw [happ]; simp [hm])
  obtain ⟨_, _, hh⟩ := desk_exact p H before (Sum.Desk.start s) (fun _ => [])
    (fun _ => ⟨[], rfl, rfl, trivial, fun a ha => by cases ha⟩) (by simpa using hnb) hfb
  have hst := (desk_whole p H before (Sum.Desk.start s) (fun i x hx => by cases hx)).2
  have hsub := lists_leaves p H before ⟨s, fun _ => []⟩ i
  rw [List.nil_append] at hsub
  have hend : (Sum.Desk.run p H xs (Sum.Desk.start s)).2 = (Sum.Desk.run p H after
      (Sum.Desk.step p H (i, .root) (Sum.Desk.run p H before (Sum.Desk.start s)).2).2).2 := by
    rw [hx, desk_run_append]; rfl
  have hstep := (desk_whole p H after (Sum.Desk.step p H (i, .root) (Sum.Desk.run p H before (Sum.Desk.start s)).2).2
    ((desk_whole p H [(i, .root)] _ hst).2)).1
  have hh : Holds p H ((Sum.Desk.run p H before (Sum.Desk.start s)).2.head i) ((Lists.run p H before ⟨s, fun _ => []⟩).2.leaves i) := hh i
  generalize hL : (Lists.run p H before ⟨s, fun _ => []⟩).2.leaves i = ds at hsub hh
  generalize hD : (Sum.Desk.run p H before (Sum.Desk.start s)).2 = c at h hst hend hstep hh
  have h0 : (root p H ⟨c.storage, c.head i⟩).1 = .ok (fee, k) := by
    simp only [Sum.Desk.step, Sum.step] at h
    exact Out.root.inj h
  have hr := (Prod.mk.inj (root_exact p H ⟨c.storage, c.head i⟩ hh (Nat.lt_of_le_of_lt hsub.length_le (hnb i))).1).1
  rw [h0] at hr
  unfold Machine.step at hr
  simp only at hr
  have hv : fee = total ds % 2 ^ 64 ∧ k = if ds = [] then emptySum else sumHash H ds := by
    split at hr
    · cases hr; exact ⟨rfl, rfl⟩
    · cases hr
  by_cases hne : ds = []
  · subst hne
    exact .inl ⟨by rw [hv.1]; rfl, by rw [hv.2, if_pos rfl]⟩
  rw [if_neg hne] at hv
  rcases (root_step p H ⟨c.storage, c.head i⟩ (hst i)).2.2 fee k h0 with h4 | h4
  · exact .inl h4
  refine .inr ⟨ds, hne, hsub, hv.1, hv.2, ?_⟩
  have hk : (Sum.Desk.run p H xs (Sum.Desk.start s)).2.storage.map (sumHash H ds) ≠ none := by
    rw [hend, ← hv.2]
    exact hstep.keeps k h4
  rw [hv.2]
  exact (C90_found p H s hs xs hn hf ds hne (fun x hm => hfb i x (hsub.subset hm)) (fun j ds' hd => hc ds hsub j ds' hd) hk).2.1

/-! ### The hypotheses can be met -/

namespace SumDesk

/-- Two trees, used alternately. -/
def calls : List (Nat × Op) :=
  [(0, .push 1 [1]), (1, .push 2 [2]), (0, .push 3 [3]), (1, .push 4 [4]), (1, .root), (0, .push 5 []), (0, .root), (1, .push 6 [6]), (1, .root)]

/-- The sixth write (a node of the second tree) fails with effect, the eighth without. -/
def store : SStore Unit where
  map := fun _ => none
  sched := fun c => if c = 5 then some ⟨(), true⟩ else if c = 7 then some ⟨(), false⟩ else none
  clock := 0

example : store.map = (fun _ => none) := rfl

/-- The leaves pushed on the trees. -/
theorem leaves_calls (i : Nat) : leavesOf i calls =
    if i = 0 then [(1, [1]), (3, [3]), (5, [])] else if i = 1 then [(2, [2]), (4, [4]), (6, [6])] else [] := by
  match i with
  | 0 => rfl
  | 1 => rfl
  | i + 2 => simp [leavesOf, callsOn, calls, pushed]

example : (∀ i, (leavesOf i calls).length < 2 ^ 64) ∧ ∀ i, ∀ x ∈ leavesOf i calls, x.1 < 2 ^ 64 := by
  constructor
  · intro i
    rw [leaves_calls]
    split
    · decide
    · split <;> decide
  · intro i
    rw [leaves_calls]
    split
    · decide
    · split
      · decide
      · intro x hx; cases hx

/-- What the calls return: the second tree loses its leaves in its second push and has an empty root
afterwards; the first tree is not affected; the failing write of its own root does not hurt it. -/
example : (Sum.Desk.run ⟨true, true, .w64⟩ Tests.toyHash calls (Sum.Desk.start store)).1.map SumMachine.failedCall =
      [false, false, false, true, false, false, true, false, false] ∧
    (Sum.Desk.run ⟨true, true, .w64⟩ Tests.toyHash calls (Sum.Desk.start store)).1.getLast?.map (fun o => match o with
      | .root (.ok r) => some r
      | _ => none) = some (some (6, sumHash Tests.toyHash [(6, [6])])) := by decide +kernel

/-- No two messages of sublists of the leaves collide (SHA-256). -/
example : ∀ ds, ds.Sublist (leavesOf 1 calls) → ∀ j ds', ds'.Sublist (leavesOf j calls) →
    ¬ Collide Sha256.sha256 (sumMsgs Sha256.sha256 ds) (sumMsgs Sha256.sha256 ds') := by
  have h : ∀ x ∈ ((SumWhole.subs (leavesOf 1 calls)).flatMap (sumMsgs Sha256.sha256)).eraseDups,
      ∀ y ∈ ((SumWhole.subs (leavesOf 0 calls) ++ SumWhole.subs (leavesOf 1 calls)).flatMap (sumMsgs Sha256.sha256)).eraseDups,
      Sha256.sha256 x = Sha256.sha256 y → x = y := by decide +kernel
  rintro ds hd j ds' hd' ⟨x, hx, y, hy, h1, h2⟩
  refine h1 (h x (List.mem_eraseDups.2 (List.mem_flatMap.2 ⟨ds, SumWhole.mem_subs hd, hx⟩)) y (List.mem_eraseDups.2 (List.mem_flatMap.2 ⟨ds', ?_, hy⟩)) h2)
  rw [List.mem_append]
  match j with
  | 0 => exact .inl (SumWhole.mem_subs hd')
  | 1 => exact .inr (SumWhole.mem_subs hd')
  | j + 2 =>
    rw [leaves_calls, if_neg (by omega), if_neg (by omega)] at hd'
    obtain rfl := List.sublist_nil.1 hd'
    exact .inl (SumWhole.mem_subs (List.nil_sublist _))

end SumDesk
end FuelMerkle.Props
