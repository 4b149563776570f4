import Verif.Proofs.Tables
import Verif.Proofs.Progress
import Verif.Props.AnyStorage
import Verif.Props.ConcurrentLive

/-
A process in the middle of its calls: what it has been answered so far.
-/
namespace FuelMerkle
variable {S K V E : Type} [DecidableEq K] [DecidableEq V] {R : Type}

/-- A process that works alone begins with a program. When that is through, it has returned what it returns on the
storage, whatever the process did afterwards. -/
theorem Replays.moment {B : Backend S K V E} {F : S → R × S} {G : Tape K V E → R × Tape K V E} (h : Replays B F G) (i n : Nat) (process : Nat → Tape K V E → Tape K V E)
    (hp : ∀ t, (G t).2.waiting ≠ none → process i t = (G t).2) (s : S)
    (hn : (G ⟨((Office.start s).turns B process (List.replicate n i)).answered i, none⟩).2.waiting = none) :
    (G ⟨((Office.start s).turns B process (List.replicate n i)).answered i, none⟩).1 = (F s).1 := by
  obtain ⟨l, h1, h2, h3⟩ := h.2 s
  have key : ∀ (n : Nat) (o : Office S K V E),
      ((∃ post, l = o.answered i ++ post ∧ Performed B post o.storage (F s).2) ∨ ∃ rest, o.answered i = l ++ rest) →
      let o' := o.turns B process (List.replicate n i)
      (∃ post, l = o'.answered i ++ post ∧ Performed B post o'.storage (F s).2) ∨ ∃ rest, o'.answered i = l ++ rest := by
    intro n
    induction n with
    | zero => exact fun o ho => ho
    | succ n ih =>
      intro o ho
      rw [List.replicate_succ, Office.turns]
      refine ih _ ?_
      have later : ∀ rest, o.answered i = l ++ rest → ∃ rest, (o.turn B process i).answered i = l ++ rest := by
        intro rest hr
        cases hc : nextCall (process i) (o.answered i) with
        | none => exact ⟨rest, by simp only [Office.turn, hc]; exact hr⟩
        | some c =>
          have e : (o.turn B process i).answered i = o.answered i ++ [(c, (B.perform c o.storage).1)] := by simp only [Office.turn, hc, if_true]
          exact ⟨rest ++ [(c, (B.perform c o.storage).1)], by rw [e, hr, List.append_assoc]⟩
      rcases ho with ⟨post, hl, hP⟩ | ⟨rest, hr⟩
      · cases post with
        | nil => exact .inr (later [] (by rw [hl]; simp))
        | cons y post =>
          obtain ⟨c, x⟩ := y
          have hc : nextCall (process i) (o.answered i) = some c := by
            unfold nextCall
            rw [hp _ (by rw [h3 _ c x post hl]; simp), h3 _ c x post hl]
          refine .inl ⟨post, ?_, ?_⟩
          · simp only [Office.turn, hc, if_true, hP.1, List.append_assoc, List.singleton_append]
            exact hl
          · simp only [Office.turn, hc]
            exact hP.2
      · exact .inr (later rest hr)
  rcases key n (Office.start s) (.inl ⟨l, rfl, h1⟩) with ⟨post, hl, hP⟩ | ⟨rest, hr⟩
  · cases post with
    | nil =>
      rw [List.append_nil] at hl
      rw [← hl]
      have := h2 []
      rw [List.append_nil] at this
      rw [this]
    | cons y post =>
      obtain ⟨c, x⟩ := y
      rw [h3 _ c x post hl] at hn
      cases hn
  · rw [hr, h2]

/-- The same, with other things happening. -/
theorem Replays.aside_moment {B : Backend S K V E} {F : S × List (S → S) → R × (S × List (S → S))} {G : Tape K V E → R × Tape K V E} (h : Replays B.alone F G)
    {ok : S → Prop} {view : S → K → Option V} (i : Nat) (process : Nat → Tape K V E → Tape K V E) (hp : ∀ t, (G t).2.waiting ≠ none → process i t = (G t).2) (s : S)
    (es : List (Event S)) (hes : ∀ f, Event.meanwhile f ∈ es → Aside ok view f) (hi : ∀ j ∈ turnsOf es, j = i)
    (hn : (G ⟨((Office.start s).events B process es).answered i, none⟩).2.waiting = none) :
    ∃ script, (∀ f ∈ script, Aside ok view f) ∧ (G ⟨((Office.start s).events B process es).answered i, none⟩).1 = (F (s, script)).1 := by
  obtain ⟨script, last, s', h1, _, h3, _⟩ := events_alone B process (Aside ok view) aside_id (fun _ _ => aside_comp) (.start s) es hes
  have h3 := h3 []
  rw [List.append_nil, (List.eq_replicate_iff (n := (turnsOf es).length) (a := i) (l := turnsOf es)).2 ⟨rfl, hi⟩] at h3
  have g := h.moment i (turnsOf es).length process hp (s, script) (by
    unfold Office.start at h3 hn ⊢
    rw [h3]
    exact hn)
  unfold Office.start at h3 g ⊢
  rw [h3] at g
  exact ⟨script, h1, g⟩

namespace Kind

/-- A process that waits in one of its first calls does not go on to the others. -/
theorem process_waits (k : Kind) (cut : E) (p : Profile) (H : HashFn) (cs ds : List k.Call) (t : Tape k.Key k.Record E)
    (hw : (k.process cut p H cs t).waiting ≠ none) : k.process cut p H (cs ++ ds) t = k.process cut p H cs t := by
  cases k with
  | binary =>
    have key : ∀ (cs ds : List Binary.Action) (c : Binary.Any.Bench (Tape Nat Binary.Prim E)),
        (Binary.Any.Bench.acts (tape cut) p H (cs ++ ds) c).2 = (Binary.Any.Bench.acts (tape cut) p H ds (Binary.Any.Bench.acts (tape cut) p H cs c).2).2 := by
      intro cs
      induction cs with
      | nil => exact fun _ _ => rfl
      | cons a cs ih => exact fun ds c => ih ds _
    have h := (Binary.Any.rep_acts (B := tape cut) cut p H ds ((Binary.Any.Bench.acts (tape cut) p H cs (.start t)).2.head, (Binary.Any.Bench.acts (tape cut) p H cs (.start t)).2.count)).1
      (Binary.Any.Bench.acts (tape cut) p H cs (.start t)).2.storage hw
    exact (congrArg Binary.Any.Bench.storage (key cs ds (.start t))).trans h
  | sum =>
    have h := (Sum.Any.rep_calls (B := tape cut) cut p H ds (Sum.Any.Desk.run (tape cut) p H cs (.start t)).2.head).1
      (Sum.Any.Desk.run (tape cut) p H cs (.start t)).2.storage hw
    have key : ∀ (cs ds : List (Nat × Sum.Op)) (c : Sum.Any.Desk (Tape Bytes32 Sum.Node E)),
        (Sum.Any.Desk.run (tape cut) p H (cs ++ ds) c).2 = (Sum.Any.Desk.run (tape cut) p H ds (Sum.Any.Desk.run (tape cut) p H cs c).2).2 := by
      intro cs
      induction cs with
      | nil => exact fun _ _ => rfl
      | cons a cs ih => exact fun ds c => ih ds _
    exact (congrArg Sum.Any.Desk.storage (key cs ds (.start t))).trans h
  | sparse =>
    have h := (Sparse.Any.rep_requests (B := tape cut) cut p H ds (Sparse.Any.Bench.handleAll (tape cut) p H cs (.start t)).2.node).1
      (Sparse.Any.Bench.handleAll (tape cut) p H cs (.start t)).2.storage hw
    have key : ∀ (cs ds : List Sparse.Any.Request) (c : Sparse.Any.Bench (Tape Bytes32 Sparse.Prim E)),
        (Sparse.Any.Bench.handleAll (tape cut) p H (cs ++ ds) c).2 = (Sparse.Any.Bench.handleAll (tape cut) p H ds (Sparse.Any.Bench.handleAll (tape cut) p H cs c).2).2 := by
      intro cs
      induction cs with
      | nil => exact fun _ _ => rfl
      | cons a cs ih => exact fun ds c => ih ds _
    exact (congrArg Sparse.Any.Bench.storage (key cs ds (.start t))).trans h

end Kind
end FuelMerkle

namespace FuelMerkle.Binary.Any
variable {S E : Type} {calls : S → Nat} {B : Backend S Nat Prim E}

theorem acts_within (hC : CountsCalls B calls) (p : Profile) (H : HashFn) : ∀ (as : List Action) (c : Bench S) (n : Nat), c.Kept n →
    calls (Bench.acts B p H as c).2.storage ≤ calls c.storage + n + 128 * as.length
  | [], c, n, _ => by show calls c.storage ≤ _; omega
  | a :: as, c, n, hk => by
    obtain ⟨_, n', h1, h2⟩ := act_within hC p H a c n hk
    have := acts_within hC p H as _ n' h1
    rw [List.length_cons]
    show calls (Bench.acts B p H as (c.act B p H a).2).2.storage ≤ _
    omega

end FuelMerkle.Binary.Any
