import Verif.Proofs.ConcurrentSum
import Verif.Props.SumDesk
import Verif.Props.Shared
import Verif.Props.AnyStorageStale

/-
C102: processes that work on one storage at the same time, each with its own sum trees.
-/
namespace FuelMerkle.Props
open FuelMerkle Spec Sum Sum.Any
variable {S E : Type}

set_option maxRecDepth 100000

/-- **C102**, what a process is told. Any number of processes work on one storage at the same time, their storage calls
mixed in any order; each has its own sum trees. At every moment, whatever the storage does and whatever the others do, all
that the calls of a process have returned is what the machine of C90 returns on a map of its own, in which exactly those
writes fail that failed for this process. So the others can be noticed in nothing but in failing writes. -/
theorem C102_own (B : Backend S Bytes32 Sum.Node E) (cut : E) (p : Profile) (H : HashFn) (s : S) (xs : Nat → List (Nat × Op)) (schedule : List Nat) (i : Nat)
    (hn : ∀ j, (leavesOf j (xs i)).length < 2 ^ 64) (hf : ∀ j, ∀ x ∈ leavesOf j (xs i), x.1 < 2 ^ 64) :
    let answered := (crew B cut p H s xs schedule).answered i
    told cut p H (xs i) answered = ((Lists.run p H (xs i) ⟨fate answered, fun _ => []⟩).1).take (told cut p H (xs i) answered).length := by
  intro answered
  rw [← (C90_exact p H (fate answered) (xs i) hn hf).1]
  exact told_own cut p H (xs i) (.start ⟨answered, none⟩) (.start (fate answered)) fares_start rfl

/-- **C102**, nothing goes wrong. If no write of a process has failed, all that its calls have returned is what the lists
of leaves of its trees say: pushes succeed, and roots are those of the leaves pushed on that tree before. -/
theorem C102_right (B : Backend S Bytes32 Sum.Node E) (cut : E) (p : Profile) (H : HashFn) (s : S) (xs : Nat → List (Nat × Op)) (schedule : List Nat) (i : Nat)
    (hn : ∀ j, (leavesOf j (xs i)).length < 2 ^ 64) (hf : ∀ j, ∀ x ∈ leavesOf j (xs i), x.1 < 2 ^ 64)
    (ht : p.overflowChecks = true → ∀ j, total (leavesOf j (xs i)) < 2 ^ 64)
    (hw : ∀ c e, (c, .error e) ∉ (crew B cut p H s xs schedule).answered i) :
    let answered := (crew B cut p H s xs schedule).answered i
    told cut p H (xs i) answered = (deskSpec H (xs i) fun _ => []).take (told cut p H (xs i) answered).length := by
  intro answered
  have hr : (fate answered).Reliable := by
    intro n
    simp only [fate]
    split
    · rename_i c e h
      exact absurd (List.mem_of_getElem? h) (hw c e)
    · rfl
  rw [← C68_sum_trees_independent p H (fate answered) hr (xs i) hn hf ht]
  exact told_own cut p H (xs i) (.start ⟨answered, none⟩) (.start (fate answered)) fares_start rfl

/-- On a storage that never fails no write fails. -/
theorem C102_working {B : Backend S Bytes32 Sum.Node E} {ok : S → Prop} {view : S → Bytes32 → Option Sum.Node} (hB : MapLike B ok view) (hw : NeverFails B ok)
    (cut : E) (p : Profile) (H : HashFn) (s : S) (hs : ok s) (xs : Nat → List (Nat × Op)) (schedule : List Nat) (i : Nat) :
    ∀ c e, (c, .error e) ∉ (crew B cut p H s xs schedule).answered i :=
  no_failure hB hw _ schedule (.start s) hs (fun _ _ _ h => by cases h) i

/-- **C102**, the end: a process that makes no more calls was told what all its calls return. -/
theorem C102_end (cut : E) (p : Profile) (H : HashFn) (xs : List (Nat × Op)) (answered : List (Answered Bytes32 Sum.Node E))
    (h : nextCall (worker cut p H xs) answered = none) : (told cut p H xs answered).length = xs.length := by
  unfold told
  rw [told_all (A := answered) cut p H xs _ h]
  generalize (Desk.start (⟨answered, none⟩ : Tape Bytes32 Sum.Node E)) = c
  induction xs generalizing c with
  | nil => rfl
  | cons x xs ih =>
    show ((c.step (tape cut) p H x).1 :: (Sum.Any.Desk.run (tape cut) p H xs (c.step (tape cut) p H x).2).1).length = _
    rw [List.length_cons, List.length_cons]
    congr 1
    generalize (c.step (tape cut) p H x).2 = c'
    clear h ih
    induction xs generalizing c' with
    | nil => rfl
    | cons x xs ih => exact congrArg (· + 1) (ih _)

/-- **C102**, no dangling child: at every moment, with no assumption but that the storage is a map, some of whose calls
fail, no record misses a child, and no record is lost. -/
theorem C102_linked {B : Backend S Bytes32 Sum.Node E} {ok : S → Prop} {view : S → Bytes32 → Option Sum.Node} (hB : MapLike B ok view) (cut : E) (p : Profile) (H : HashFn)
    (s : S) (hs : ok s) (xs : Nat → List (Nat × Op)) (schedule : List Nat) (hl : Linked (view s)) :
    Linked (view (crew B cut p H s xs schedule).storage) ∧ ∀ k, view s k ≠ none → view (crew B cut p H s xs schedule).storage k ≠ none :=
  have h := crew_sound hB cut p H xs s hs schedule
  ⟨h.linked hl, h.keeps⟩

/-- **C102**, found trees. At every moment: if the storage, empty at first, has a record under the root of some leaves, it
is the correct record, following the children from it gives exactly these leaves, and they were given, in this order, to
one tree of one process (unless messages collide). -/
theorem C102_found {B : Backend S Bytes32 Sum.Node E} {ok : S → Prop} {view : S → Bytes32 → Option Sum.Node} (hB : MapLike B ok view) (cut : E) (p : Profile) (H : HashFn)
    (s : S) (hs : ok s) (xs : Nat → List (Nat × Op)) (schedule : List Nat) (he : view s = fun _ => none)
    (hn : ∀ i j, (leavesOf j (xs i)).length < 2 ^ 64) (hf : ∀ i j, ∀ x ∈ leavesOf j (xs i), x.1 < 2 ^ 64)
    (ds : List Item) (hne : ds ≠ []) (hfd : ∀ x ∈ ds, x.1 < 2 ^ 64)
    (hc : ∀ i j ds', ds'.Sublist (leavesOf j (xs i)) → ¬ Collide H (sumMsgs H ds) (sumMsgs H ds'))
    (hk : view (crew B cut p H s xs schedule).storage (sumHash H ds) ≠ none) :
    view (crew B cut p H s xs schedule).storage (sumHash H ds) = some (recordOf H ds) ∧
    walk (view (crew B cut p H s xs schedule).storage) ds.length (sumHash H ds) = some (ds.map fun x => (x.1, H ([0x00] ++ be64 x.1 ++ x.2))) ∧
    ∃ i j, ds.Sublist (leavesOf j (xs i)) := by
  have h := crew_sound hB cut p H xs s hs schedule
  have hl := h.linked (by rw [he]; intro k n h; cases h)
  obtain ⟨h1, h2, h3⟩ := found_whole H _ (fun ds => ∃ i j, ds.Sublist (leavesOf j (xs i))) (fun ds ⟨i, j, g⟩ x hx => hf i j x (g.subset hx))
    (fun k => by
      rcases h.origin hn hf k with h | ⟨i, j, ds, h2, h3, h4⟩
      · exact .inl (by rw [h, he])
      · exact .inr ⟨ds, ⟨i, j, h2⟩, h3, h4⟩) hl ds.length ds (Nat.le_refl _) hne hfd (fun ds' ⟨i, j, g⟩ => hc i j ds' g) hk
  exact ⟨h2, h3, h1⟩

theorem answered_stays (B : Backend S Bytes32 Sum.Node E) (process : Nat → Tape Bytes32 Sum.Node E → Tape Bytes32 Sum.Node E) (i : Nat) (x : Answered Bytes32 Sum.Node E) :
    ∀ (is : List Nat) (o : Office S Bytes32 Sum.Node E), x ∈ o.answered i → x ∈ (o.turns B process is).answered i
  | [], _, h => h
  | j :: is, o, h => by
    refine answered_stays B process i x is _ ?_
    unfold Office.turn
    split
    · exact h
    · simp only
      split
      · rename_i e
        exact List.mem_append_left _ (e ▸ h)
      · exact h

theorem desk_reply (p : Profile) (H : HashFn) (x : Nat × Op) (ys : List (Nat × Op)) : ∀ (zs : List (Nat × Op)) (c : Sum.Desk E),
    (Sum.Desk.run p H (zs ++ x :: ys) c).1[zs.length]? = some ((Sum.Desk.run p H zs c).2.step p H x).1
  | [], _ => rfl
  | _ :: zs, c => by
    simp only [List.cons_append, List.length_cons, Sum.Desk.run]
    rw [List.getElem?_cons_succ]
    exact desk_reply p H x ys zs _

/-- **C102**, returned roots. If a `root` call of process `i` on its tree `j` has succeeded, the root is that of the empty
tree, or that of leaves pushed before on this very tree; and from then on, at every moment, whatever any process does and
whatever fails, the storage has all of the tree over these leaves. -/
theorem C102_returned {B : Backend S Bytes32 Sum.Node E} {ok : S → Prop} {view : S → Bytes32 → Option Sum.Node} (hB : MapLike B ok view) (cut : E) (p : Profile) (H : HashFn)
    (s : S) (hs : ok s) (xs : Nat → List (Nat × Op)) (schedule later : List Nat) (he : view s = fun _ => none)
    (hn : ∀ i j, (leavesOf j (xs i)).length < 2 ^ 64) (hf : ∀ i j, ∀ x ∈ leavesOf j (xs i), x.1 < 2 ^ 64)
    (i j : Nat) (before after : List (Nat × Op)) (hx : xs i = before ++ (j, .root) :: after)
    (hc : ∀ ds, ds.Sublist (leavesOf j before) → ∀ i j ds', ds'.Sublist (leavesOf j (xs i)) → ¬ Collide H (sumMsgs H ds) (sumMsgs H ds'))
    {fee : Nat} {k : Bytes32}
    (h : (told cut p H (xs i) ((crew B cut p H s xs schedule).answered i))[before.length]? = some (.root (.ok (fee, k)))) :
    (fee = 0 ∧ k = emptySum) ∨
    ∃ ds, ds ≠ [] ∧ ds.Sublist (leavesOf j before) ∧ fee = total ds % 2 ^ 64 ∧ k = sumHash H ds ∧
      walk (view (crew B cut p H s xs (schedule ++ later)).storage) ds.length k = some (ds.map fun x => (x.1, H ([0x00] ++ be64 x.1 ++ x.2))) := by
  have happ : ∀ j', leavesOf j' (xs i) = leavesOf j' before ++ leavesOf j' ((j, .root) :: after) := by
    intro j'
    have hp : ∀ a b : List Op, pushed (a ++ b) = pushed a ++ pushed b := by
      intro a b
      induction a with
      | nil => rfl
      | cons o a ih => cases o <;> simp [pushed, ih]
    rw [hx]
    simp only [leavesOf, callsOn, List.filter_append, List.map_append, hp]
  have hnb : ∀ j', (leavesOf j' before).length < 2 ^ 64 := fun j' => by
    have := hn i j'
    rw [happ, List.length_append] at this; omega
  have hfb : ∀ j', ∀ x ∈ leavesOf j' before, x.1 < 2 ^ 64 := fun j' x hm => hf i j' x (by rw [happ]; simp [hm])
  generalize hA : (crew B cut p H s xs schedule).answered i = A at h
  have hlen : before.length < (told cut p H (xs i) A).length := (List.getElem?_eq_some_iff.1 h).1
  have hreply : ((Sum.Desk.run p H before (Sum.Desk.start (fate A))).2.step p H (j, .root)).1 = .root (.ok (fee, k)) := by
    have e := told_own (A := A) cut p H (xs i) (.start ⟨A, none⟩) (.start (fate A)) fares_start rfl
    unfold told at h hlen
    rw [e, List.getElem?_take_of_lt hlen, hx, desk_reply] at h
    exact Option.some.inj h
  have hstand := told_stand (A := A) cut p H (xs i) before.length (.start ⟨A, none⟩) (.start (fate A)) fares_start rfl hlen
  rw [hx, List.take_append, List.take_of_length_le (by omega)] at hstand
  simp only [Nat.add_sub_cancel_left, List.take_succ_cons, List.take_zero] at hstand
  rw [desk_run_append] at hstand
  obtain ⟨_, _, hh⟩ := desk_exact p H before (Sum.Desk.start (fate A)) (fun _ => [])
    (fun _ => ⟨[], rfl, rfl, trivial, fun a ha => by cases ha⟩) (by simpa using hnb) hfb
  have hst := (desk_whole p H before (Sum.Desk.start (fate A)) (fun i x hx => by cases hx)).2
  have hsub := lists_leaves p H before ⟨fate A, fun _ => []⟩ j
  rw [List.nil_append] at hsub
  have hh : Holds p H ((Sum.Desk.run p H before (Sum.Desk.start (fate A))).2.head j) ((Lists.run p H before ⟨fate A, fun _ => []⟩).2.leaves j) := hh j
  generalize hL : (Lists.run p H before ⟨fate A, fun _ => []⟩).2.leaves j = ds at hsub hh
  generalize hD : (Sum.Desk.run p H before (Sum.Desk.start (fate A))).2 = c at hreply hstand hst hh
  have h0 : (Sum.root p H ⟨c.storage, c.head j⟩).1 = .ok (fee, k) := by
    simp only [Sum.Desk.step, Sum.step] at hreply
    exact Out.root.inj hreply
  have hr := (Prod.mk.inj (root_exact p H ⟨c.storage, c.head j⟩ hh (Nat.lt_of_le_of_lt hsub.length_le (hnb j))).1).1
  rw [h0] at hr
  unfold Machine.step at hr
  simp only at hr
  have hv : fee = total ds % 2 ^ 64 ∧ k = if ds = [] then emptySum else sumHash H ds := by
    split at hr
    · cases hr; exact ⟨rfl, rfl⟩
    · cases hr
  by_cases hne : ds = []
  · subst hne
    exact .inl ⟨by rw [hv.1]; rfl, by rw [hv.2, if_pos rfl]⟩
  rw [if_neg hne] at hv
  rcases (root_step p H ⟨c.storage, c.head j⟩ (hst j)).2.2 fee k h0 with h4 | h4
  · exact .inl h4
  refine .inr ⟨ds, hne, hsub, hv.1, hv.2, ?_⟩
  obtain ⟨v, h5⟩ := Option.ne_none_iff_exists'.1 h4
  obtain ⟨r, hmem⟩ := hstand k v h5
  have hk : view (crew B cut p H s xs (schedule ++ later)).storage (sumHash H ds) ≠ none := by
    rw [← hv.2]
    refine (crew_sound hB cut p H xs s hs (schedule ++ later)).written i k v r ?_
    have e : crew B cut p H s xs (schedule ++ later) = (crew B cut p H s xs schedule).turns B (fun i => worker cut p H (xs i)) later := by
      unfold crew
      generalize Office.start s = o
      clear hA h hlen hreply hstand hst hh h0 hr hv hne hsub hL hD h4 h5 hmem
      induction schedule generalizing o with
      | nil => rfl
      | cons a l ih => exact ih _
    rw [e]
    exact answered_stays B _ i _ later _ (by rw [hA]; exact hmem)
  rw [hv.2]
  exact (C102_found hB cut p H s hs xs (schedule ++ later) he hn hf ds hne (fun x hm => hfb j x (hsub.subset hm)) (fun i' j' ds' hd => hc ds hsub i' j' ds' hd) hk).2.1

/-- **C102**, what the turns mean: a process that starts now, on any storage, and gets all turns until its end does to the
storage what its program does to it, call by call, and is told the same. -/
theorem C102_alone (B : Backend S Bytes32 Sum.Node E) (cut : E) (p : Profile) (H : HashFn) (xs : Nat → List (Nat × Op)) (i : Nat)
    (o : Office S Bytes32 Sum.Node E) (ho : o.answered i = []) :
    ∃ n, let o' := o.turns B (fun i => worker cut p H (xs i)) (List.replicate n i)
      o'.storage = (Sum.Any.Desk.run B p H (xs i) (.start o.storage)).2.storage ∧
      nextCall (worker cut p H (xs i)) (o'.answered i) = none ∧
      told cut p H (xs i) (o'.answered i) = (Sum.Any.Desk.run B p H (xs i) (.start o.storage)).1 := by
  obtain ⟨n, h1, h2, h3⟩ := (rep_calls B cut p H (xs i) (fun _ => [])).alone i (fun i => worker cut p H (xs i)) (fun t => rfl) o ho
  refine ⟨n, h1, h2, ?_⟩
  unfold told
  rw [told_all (A := []) cut p H (xs i) _ h2]
  exact congrArg (fun x => x.1.1) h3

namespace ConcurrentSum
open AnyStorage (Journal journal journal_mapLike journal_neverFails blank blank_fresh Fresh held)
open AnyStorageStale (build)

/-! ### The hypotheses can be met -/

/-- Two processes; the second one has two trees, one of them with the leaves of the first process. -/
def jobs : Nat → List (Nat × Op)
  | 0 => [(0, .push 1 [1]), (0, .push 2 [2]), (0, .push 3 [3]), (0, .root)]
  | 1 => [(0, .push 1 [1]), (1, .push 4 [4]), (0, .push 2 [2]), (1, .root), (0, .root)]
  | _ => []

/-- Turns in the middle of the pushes, and later ones. -/
def schedule : List Nat := [0, 1, 0, 1, 1, 0, 0, 0]
def later : List Nat := [1, 1, 0, 1]

/-- After some turns; the storage may fail at the write with the number `slow`. -/
def after (is : List Nat) (slow : Option Nat := none) : Office (Journal Bytes32 Sum.Node) Bytes32 Sum.Node String :=
  crew (journal none slow) "cut" build Tests.toyHash blank jobs is

/-- How the calls of a process that have returned ended. -/
def endings (i : Nat) (o : Office (Journal Bytes32 Sum.Node) Bytes32 Sum.Node String) : List Bool :=
  (told "cut" build Tests.toyHash (jobs i) (o.answered i)).map SumMachine.failedCall

theorem jobs_leaves (i j : Nat) : leavesOf j (jobs i) =
    if i = 0 ∧ j = 0 then [(1, [1]), (2, [2]), (3, [3])] else if i = 1 ∧ j = 0 then [(1, [1]), (2, [2])] else if i = 1 ∧ j = 1 then [(4, [4])] else [] := by
  match i, j with
  | 0, 0 => rfl
  | 0, j + 1 => simp [leavesOf, callsOn, jobs, pushed]
  | 1, 0 => rfl
  | 1, 1 => rfl
  | 1, j + 2 => simp [leavesOf, callsOn, jobs, pushed]
  | i + 2, j => simp [leavesOf, callsOn, jobs, pushed]

theorem jobs_all (P : List Item → Prop) (h1 : P [(1, [1]), (2, [2]), (3, [3])]) (h2 : P [(1, [1]), (2, [2])]) (h3 : P [(4, [4])]) (h4 : P []) :
    ∀ i j, P (leavesOf j (jobs i)) := by
  intro i j
  rw [jobs_leaves]
  split
  · exact h1
  · split
    · exact h2
    · split
      · exact h3
      · exact h4

/-- The hypotheses of the theorems are met, also by a storage that reports a timeout at its fifth write. -/
example : (∀ slow, MapLike (journal (K := Bytes32) (V := Sum.Node) none slow) Fresh held) ∧ Fresh (blank : Journal Bytes32 Sum.Node) ∧
    held (blank : Journal Bytes32 Sum.Node) = (fun _ => none) ∧ (∀ i j, (leavesOf j (jobs i)).length < 2 ^ 64) ∧
    (∀ i j, ∀ x ∈ leavesOf j (jobs i), x.1 < 2 ^ 64) ∧ (∀ i j, total (leavesOf j (jobs i)) < 2 ^ 64) ∧
    NeverFails (journal (K := Bytes32) (V := Sum.Node) none none) Fresh ∧
    jobs 0 = [(0, .push 1 [1]), (0, .push 2 [2]), (0, .push 3 [3])] ++ (0, .root) :: [] :=
  ⟨fun _ => journal_mapLike _ _, blank_fresh, rfl, jobs_all (fun l => l.length < 2 ^ 64) (by decide) (by decide) (by decide) (by decide),
    jobs_all (fun l => ∀ x ∈ l, x.1 < 2 ^ 64) (by decide) (by decide) (by decide) (by simp),
    jobs_all (fun l => total l < 2 ^ 64) (by decide) (by decide) (by decide) (by decide), journal_neverFails, rfl⟩

/-- No two messages of sublists of the leaves collide (SHA-256). -/
example : ∀ ds, ds.Sublist (leavesOf 0 [(0, .push 1 [1]), (0, .push 2 [2]), (0, .push 3 [3])]) → ∀ i j ds', ds'.Sublist (leavesOf j (jobs i)) →
    ¬ Collide Sha256.sha256 (sumMsgs Sha256.sha256 ds) (sumMsgs Sha256.sha256 ds') := by
  have h : ∀ x ∈ ((SumWhole.subs [(1, [1]), (2, [2]), (3, [3])]).flatMap (sumMsgs Sha256.sha256)).eraseDups,
      ∀ y ∈ ((SumWhole.subs [(1, [1]), (2, [2]), (3, [3])] ++ SumWhole.subs [(4, [4])]).flatMap (sumMsgs Sha256.sha256)).eraseDups,
      Sha256.sha256 x = Sha256.sha256 y → x = y := by decide +kernel
  rintro ds hd i j ds' hd' ⟨x, hx, y, hy, h1, h2⟩
  refine h1 (h x (List.mem_eraseDups.2 (List.mem_flatMap.2 ⟨ds, SumWhole.mem_subs hd, hx⟩)) y (List.mem_eraseDups.2 (List.mem_flatMap.2 ⟨ds', ?_, hy⟩)) h2)
  rw [List.mem_append]
  have key : ∀ i j, ∀ ds' : List Item, ds'.Sublist (leavesOf j (jobs i)) →
      ds' ∈ SumWhole.subs [(1, [1]), (2, [2]), (3, [3])] ∨ ds' ∈ SumWhole.subs [(4, [4])] :=
    jobs_all (fun l => ∀ ds' : List Item, ds'.Sublist l → ds' ∈ SumWhole.subs [(1, [1]), (2, [2]), (3, [3])] ∨ ds' ∈ SumWhole.subs [(4, [4])])
      (fun _ h => .inl (SumWhole.mem_subs h)) (fun _ h => .inl (SumWhole.mem_subs (h.trans (by decide)))) (fun _ h => .inr (SumWhole.mem_subs h))
      (fun _ h => .inl (SumWhole.mem_subs (h.trans (List.nil_sublist _))))
  exact key i j ds' hd'

/-- After the first turns the first process is through, and the second one waits in its third call. In the end both are
through. -/
example : endings 0 (after schedule) = [false, false, false, false] ∧ endings 1 (after schedule) = [false, false] ∧
    nextCall (worker "cut" build Tests.toyHash (jobs 1)) ((after schedule).answered 1) ≠ none ∧
    endings 0 (after (schedule ++ later)) = [false, false, false, false] ∧ endings 1 (after (schedule ++ later)) = [false, false, false, false, false] := by
  decide +kernel

/-- If the fifth write fails, the third call of the second process fails; the first one does not notice. -/
example : endings 0 (after (schedule ++ later) (some 4)) = [false, false, false, false] ∧
    endings 1 (after (schedule ++ later) (some 4)) = [false, false, true, false, false] := by
  decide +kernel

end ConcurrentSum
end FuelMerkle.Props
