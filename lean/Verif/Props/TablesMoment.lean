import Verif.Proofs.TablesMoment
import Verif.Props.Tables

/-
C108, at any moment: processes that are still in the middle of their calls.
-/
namespace FuelMerkle.Props
open FuelMerkle Spec
variable {S E : Type}

set_option maxRecDepth 100000

/-- **C108**, one user, at any moment: a process has the table for itself, and is through with the first `j` of its calls.
These have returned exactly what they return on a plain map that holds the same as the table at the start, whatever the
process does after them and whatever else happens to the storage. -/
theorem C108_so_far (k : Kind) {B : Backend S k.Key k.Record E} {ok : S → Prop} {view : S → k.Key → Option k.Record} (hB : MapLike B ok view) (cut : E) (p : Profile)
    (H : HashFn) (calls : List k.Call) (s : S) (hs : ok s) (es : List (Event S)) (hes : ∀ f, Event.meanwhile f ∈ es → Aside ok view f) (i : Nat)
    (hi : ∀ j ∈ turnsOf es, j = i) (j : Nat) :
    let o := (Office.start s).events B (fun _ => k.process cut p H calls) es
    nextCall (k.process cut p H (calls.take j)) (o.answered i) = none →
    ∃ m : Store k.Key k.Record E, m.map = view s ∧ (NeverFails B ok → m.Reliable) ∧
      k.replies cut p H (calls.take j) (o.answered i) = (k.serveMap p H (calls.take j) m).1 := by
  intro o hn
  have hp : ∀ t, (k.process cut p H (calls.take j) t).waiting ≠ none → k.process cut p H calls t = k.process cut p H (calls.take j) t := by
    intro t ht
    have := k.process_waits cut p H (calls.take j) (calls.drop j) t ht
    rwa [List.take_append_drop] at this
  cases k with
  | binary =>
    obtain ⟨script, h1, h2⟩ := (Binary.Any.rep_acts B.alone cut p H (calls.take j) (fun _ => [], fun _ => 0)).aside_moment i
      (fun _ => Kind.binary.process cut p H calls) hp s es hes hi hn
    obtain ⟨m, g1, g2, g3, _⟩ := C94_binary (alone_mapLike hB) p H (calls.take j) (s, script) ⟨hs, h1⟩
    exact ⟨m, g1, fun hf => g2 (alone_neverFails hf), (congrArg Prod.fst h2).trans g3⟩
  | sum =>
    obtain ⟨script, h1, h2⟩ := (Sum.Any.rep_calls B.alone cut p H (calls.take j) (fun _ => [])).aside_moment i
      (fun _ => Kind.sum.process cut p H calls) hp s es hes hi hn
    obtain ⟨m, g1, g2, g3, _⟩ := C94_sum (alone_mapLike hB) p H (calls.take j) (s, script) ⟨hs, h1⟩
    exact ⟨m, g1, fun hf => g2 (alone_neverFails hf), (congrArg Prod.fst h2).trans g3⟩
  | sparse =>
    obtain ⟨script, h1, h2⟩ := (Sparse.Any.rep_requests B.alone cut p H (calls.take j) (fun _ => Sparse.Node.createPlaceholder)).aside_moment i
      (fun _ => Kind.sparse.process cut p H calls) hp s es hes hi hn
    obtain ⟨m, g1, g2, g3, _⟩ := C94_sparse (alone_mapLike hB) p H (calls.take j) (s, script) ⟨hs, h1⟩
    exact ⟨m, g1, fun hf => g2 (alone_neverFails hf), (congrArg Prod.fst h2).trans g3⟩

/-- **C108**, users with a table each, at any moment: the calls that a process is through with have returned what they
return on a plain map of its own. -/
theorem C108_each_so_far (layout : Nat → Kind) {B : ∀ t, Backend S (layout t).Key (layout t).Record E} {ok : S → Prop}
    {view : ∀ t, S → (layout t).Key → Option (layout t).Record} (hB : SeparateTables B ok view) (cut : E) (p : Profile) (H : HashFn)
    (calls : ∀ t, List (layout t).Call) (s : S) (hs : ok s) (schedule : List Nat) (t j : Nat) :
    let x := (Offices.start s).turns B (fun t _ => (layout t).process cut p H (calls t)) (schedule.map fun t => (t, 0))
    nextCall ((layout t).process cut p H ((calls t).take j)) (x.answered t 0) = none →
    ∃ m : Store (layout t).Key (layout t).Record E, m.map = view t s ∧ (NeverFails (B t) ok → m.Reliable) ∧
      (layout t).replies cut p H ((calls t).take j) (x.answered t 0) = ((layout t).serveMap p H ((calls t).take j) m).1 := by
  intro x hn
  obtain ⟨es, h1, h2, h3⟩ := C108_tables hB (fun t _ => (layout t).process cut p H (calls t)) (schedule.map fun t => (t, 0)) s t
  have e : x.at t = _ := h3
  have ha : x.answered t = ((Office.start s).events (B t) (fun _ => (layout t).process cut p H (calls t)) es).answered := congrArg Office.answered e
  obtain ⟨m, g1, g2, g3⟩ := C108_so_far (layout t) (hB.mapLike t) cut p H (calls t) s hs es h2 0 (fun j hj => by
    rw [h1] at hj
    simp only [turnsAt, List.mem_map, List.mem_filter] at hj
    obtain ⟨y, ⟨⟨_, _, rfl⟩, _⟩, rfl⟩ := hj
    rfl) j (by rw [← ha]; exact hn)
  exact ⟨m, g1, g2, by rw [ha]; exact g3⟩

/-- **C108**, nobody waits: whatever else happens to the storage between the storage calls, and whoever else uses the table,
a process makes a bounded number of storage calls, and after that many turns of its own it is through. -/
theorem C108_through (k : Kind) (B : Backend S k.Key k.Record E) (cut : E) (p : Profile) (H : HashFn) (calls : List k.Call) (hc : calls.length < 2 ^ 64)
    (process : Nat → Tape k.Key k.Record E → Tape k.Key k.Record E) (i : Nat) (hi : process i = k.process cut p H calls) (s : S) (es : List (Event S)) :
    let o := (Office.start s).events B process es
    (o.answered i).length ≤ k.most * calls.length ∧
      (k.most * calls.length ≤ (turnsOf es).count i → nextCall (k.process cut p H calls) (o.answered i) = none) := by
  intro o
  obtain ⟨script, last, s', _, _, h3, _⟩ := events_alone B process (fun _ => True) trivial (fun _ _ _ _ => trivial) (.start s) es (fun _ _ => trivial)
  have h3 := h3 []
  rw [List.append_nil] at h3
  have e : ((Office.start (s, script)).turns B.alone process (turnsOf es)).answered i = o.answered i := congrFun (congrArg Office.answered h3) i
  rw [← e, ← hi]
  cases k with
  | binary =>
    exact Office.progress B.alone process (s, script) (turnsOf es) i (Binary.Any.rep_acts scripted.counted cut p H calls (fun _ => [], fun _ => 0))
      (fun t => by rw [hi]; rfl) _ fun s => Binary.Any.acts_within (counted_counts scripted) p H calls (.start s) 0 TotalAtMost.zero
  | sum =>
    exact Office.progress B.alone process (s, script) (turnsOf es) i (Sum.Any.rep_calls scripted.counted cut p H calls (fun _ => []))
      (fun t => by rw [hi]; rfl) _ fun s => Sum.Any.run_within (counted_counts scripted) p H calls (.start s) 0 0 (by rw [Nat.zero_add]; exact hc) (fun _ => ⟨List.Pairwise.nil, Nat.le_refl _⟩) TotalAtMost.zero
  | sparse =>
    exact Office.progress B.alone process (s, script) (turnsOf es) i (Sparse.Any.rep_requests scripted.counted cut p H calls fun _ => Sparse.Node.createPlaceholder)
      (fun t => by rw [hi]; rfl) _ fun s => Sparse.Any.requests_calls (counted_counts _) p H calls ⟨s, _⟩

/-- **C108**, users with a table each: a user who has had that many turns is through, however the turns of the others are
mixed in between, and everything was answered as on a plain map of that user's own, which holds what the table holds. -/
theorem C108_each_done (layout : Nat → Kind) {B : ∀ t, Backend S (layout t).Key (layout t).Record E} {ok : S → Prop}
    {view : ∀ t, S → (layout t).Key → Option (layout t).Record} (hB : SeparateTables B ok view) (cut : E) (p : Profile) (H : HashFn)
    (calls : ∀ t, List (layout t).Call) (s : S) (hs : ok s) (schedule : List Nat) (t : Nat) (hc : (calls t).length < 2 ^ 64)
    (ht : (layout t).most * (calls t).length ≤ schedule.count t) :
    let x := (Offices.start s).turns B (fun t _ => (layout t).process cut p H (calls t)) (schedule.map fun t => (t, 0))
    nextCall ((layout t).process cut p H (calls t)) (x.answered t 0) = none ∧
    ∃ m : Store (layout t).Key (layout t).Record E, m.map = view t s ∧ (NeverFails (B t) ok → m.Reliable) ∧
      (layout t).replies cut p H (calls t) (x.answered t 0) = ((layout t).serveMap p H (calls t) m).1 ∧
      view t x.storage = ((layout t).serveMap p H (calls t) m).2.map := by
  intro x
  obtain ⟨es, h1, h2, h3⟩ := C108_tables hB (fun t _ => (layout t).process cut p H (calls t)) (schedule.map fun t => (t, 0)) s t
  have e : x.at t = _ := h3
  have ha : x.answered t = ((Office.start s).events (B t) (fun _ => (layout t).process cut p H (calls t)) es).answered := congrArg Office.answered e
  have hcount : (turnsOf es).count 0 = schedule.count t := by
    rw [h1]
    clear h1 e ha h3 x ht
    induction schedule with
    | nil => rfl
    | cons u schedule ih =>
      by_cases hu : u = t
      · subst hu
        simp only [turnsAt, List.map_cons, List.filter_cons, decide_true, if_true, List.count_cons_self] at ih ⊢
        rw [ih]
      · simp only [turnsAt, List.map_cons, List.filter_cons, hu, decide_false, Bool.false_eq_true, if_false] at ih ⊢
        rw [ih, List.count_cons_of_ne hu]
  have hn : nextCall ((layout t).process cut p H (calls t)) (x.answered t 0) = none := by
    rw [ha]
    exact (C108_through (layout t) (B t) cut p H (calls t) hc _ 0 rfl s es).2 (by rw [hcount]; exact ht)
  exact ⟨hn, C108_each layout hB cut p H calls s hs schedule t hn⟩

namespace Tables
open AnyStorageStale (build)

/-! ### The hypotheses can be met -/

/-- After 16 turns, four for each of the four users of the example, they are through with three, all three, one and two of
their calls, and `C108_each_so_far` speaks of these; all but the second are in the middle of the next call. -/
example : ∀ x ∈ [(0, 3), (1, 3), (2, 1), (3, 2)],
    nextCall ((layout x.1).process "cut" build Tests.toyHash ((calls x.1).take x.2)) ((after 16).answered x.1 0) = none ∧
    (x.1 ≠ 1 → (nextCall ((layout x.1).process "cut" build Tests.toyHash ((calls x.1).take (x.2 + 1))) ((after 16).answered x.1 0)).isSome) := by
  decide +kernel

/-- With so many turns for each of them, all are through, by `C108_each_done`. -/
example : ∀ t < 4, (calls t).length < 2 ^ 64 ∧
    (layout t).most * (calls t).length ≤ ((List.replicate 4104 [0, 1, 2, 3]).flatten).count t := by
  intro t ht
  have h : ((List.replicate 4104 [0, 1, 2, 3]).flatten).count t = 4104 * [0, 1, 2, 3].count t := by
    rw [List.count_flatten, List.map_replicate, List.sum_replicate_nat]
  rw [h]
  revert t
  decide

end Tables
end FuelMerkle.Props
