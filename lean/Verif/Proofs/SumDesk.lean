import Verif.Proofs.SumWhole
import Verif.Spec.SumDesk

/-
Several sum trees on one storage that fails.
-/
namespace FuelMerkle
namespace Sum
open Spec
variable {E : Type}

theorem pushed_cons (op : Op) (ops : List Op) : pushed (op :: ops) = pushed [op] ++ pushed ops := by
  cases op <;> simp [pushed]

theorem leavesOf_cons (j i : Nat) (op : Op) (xs : List (Nat × Op)) :
    leavesOf j ((i, op) :: xs) = (if j = i then pushed [op] else []) ++ leavesOf j xs := by
  unfold leavesOf callsOn
  by_cases h : i = j
  · subst h
    simp only [List.filter_cons, if_true, decide_true, List.map_cons]
    exact pushed_cons _ _
  · have h' : ¬ j = i := fun e => h e.symm
    simp [h, h']

/-! ### No dangling child -/

theorem desk_whole (p : Profile) (H : HashFn) : ∀ (xs : List (Nat × Op)) (c : Desk E), (∀ i, HeadStored ⟨c.storage, c.head i⟩) →
    Step c.storage.map (Desk.run p H xs c).2.storage.map ∧ ∀ i, HeadStored ⟨(Desk.run p H xs c).2.storage, (Desk.run p H xs c).2.head i⟩ := by
  intro xs
  induction xs with
  | nil => intro c h; exact ⟨.refl _, h⟩
  | cons x xs ih =>
    intro c h
    obtain ⟨h1, h2⟩ := run_step p H [x.2] ⟨c.storage, c.head x.1⟩ (h x.1)
    have h1 : Step c.storage.map (c.step p H x).2.storage.map := h1
    obtain ⟨g1, g2⟩ := ih (c.step p H x).2 (fun i => by
      intro n hn
      simp only [Desk.step] at hn ⊢
      split at hn
      · exact h2 n hn
      · exact h1.keeps _ (h i n hn))
    exact ⟨h1.trans g1, g2⟩

/-! ### Call by call -/

theorem desk_exact (p : Profile) (H : HashFn) : ∀ (xs : List (Nat × Op)) (c : Desk E) (ls : Nat → List Item),
    (∀ j, Holds p H (c.head j) (ls j)) → (∀ j, (ls j ++ leavesOf j xs).length < 2 ^ 64) → (∀ j, ∀ x ∈ leavesOf j xs, x.1 < 2 ^ 64) →
    (Desk.run p H xs c).1 = (Lists.run p H xs ⟨c.storage, ls⟩).1 ∧
    (Desk.run p H xs c).2.storage = (Lists.run p H xs ⟨c.storage, ls⟩).2.storage ∧
    ∀ j, Holds p H ((Desk.run p H xs c).2.head j) ((Lists.run p H xs ⟨c.storage, ls⟩).2.leaves j) := by
  intro xs
  induction xs with
  | nil => intro c ls h _ _; exact ⟨rfl, rfl, h⟩
  | cons x xs ih =>
    obtain ⟨i, op⟩ := x
    intro c ls h hn hf
    have hni := hn i
    have hfi := hf i
    rw [leavesOf_cons, if_pos rfl] at hni hfi
    have hsub := machine_leaves p H [op] ⟨ls i, c.storage⟩
    obtain ⟨e, h2⟩ := run_exact p H [op] ⟨c.storage, c.head i⟩ (ls i) (h i)
      (by rw [← List.append_assoc, List.length_append] at hni; omega) (fun x hx => hfi x (by simp [hx]))
    obtain ⟨e1, e2⟩ := Prod.mk.inj e
    have e1 : (step p H op ⟨c.storage, c.head i⟩).1 = (Machine.step p H op ⟨ls i, c.storage⟩).1 := (List.cons.inj e1).1
    have e2 : (step p H op ⟨c.storage, c.head i⟩).2.storage = (Machine.step p H op ⟨ls i, c.storage⟩).2.storage := e2
    have h2 : Holds p H (step p H op ⟨c.storage, c.head i⟩).2.head (Machine.step p H op ⟨ls i, c.storage⟩).2.leaves := h2
    have hsub : (Machine.step p H op ⟨ls i, c.storage⟩).2.leaves.Sublist (ls i ++ pushed [op]) := hsub
    have hl : ((Lists.step p H (i, op) ⟨c.storage, ls⟩).2 : Lists E) = ⟨(c.step p H (i, op)).2.storage, (Lists.step p H (i, op) ⟨c.storage, ls⟩).2.leaves⟩ := by
      simp only [Desk.step, Lists.step]
      rw [e2]
    obtain ⟨g1, g2, g3⟩ := ih (c.step p H (i, op)).2 (Lists.step p H (i, op) ⟨c.storage, ls⟩).2.leaves
      (fun j => by
        simp only [Desk.step, Lists.step]
        split
        · exact h2
        · exact h j)
      (fun j => by
        have hj := hn j
        rw [leavesOf_cons, ← List.append_assoc, List.length_append] at hj
        rw [List.length_append]
        refine Nat.lt_of_le_of_lt (Nat.add_le_add_right ?_ _) hj
        simp only [Lists.step]
        split
        · next e => subst e; exact hsub.length_le
        · simp)
      (fun j x hx => hf j x (by rw [leavesOf_cons]; simp [hx]))
    simp only [Desk.run, Lists.run]
    rw [hl]
    refine ⟨?_, g2, g3⟩
    rw [g1]
    exact congrArg (· :: _) e1

theorem lists_leaves (p : Profile) (H : HashFn) : ∀ (xs : List (Nat × Op)) (c : Lists E) j,
    ((Lists.run p H xs c).2.leaves j).Sublist (c.leaves j ++ leavesOf j xs) := by
  intro xs
  induction xs with
  | nil => intro c j; simp [Lists.run, leavesOf, callsOn, pushed]
  | cons x xs ih =>
    obtain ⟨i, op⟩ := x
    intro c j
    refine (ih (c.step p H (i, op)).2 j).trans ?_
    rw [leavesOf_cons, ← List.append_assoc]
    refine List.Sublist.append_right ?_ _
    simp only [Lists.step]
    split
    · next e => subst e; exact machine_leaves p H [op] ⟨c.leaves j, c.storage⟩
    · simp

theorem lists_origin (p : Profile) (H : HashFn) : ∀ (xs : List (Nat × Op)) (c : Lists E) k,
    (Lists.run p H xs c).2.storage.map k = c.storage.map k ∨
    ∃ i ds, ds.Sublist (c.leaves i ++ leavesOf i xs) ∧ sumHash H ds = k ∧ (Lists.run p H xs c).2.storage.map k = some (recordOf H ds) := by
  intro xs
  induction xs with
  | nil => intro c k; exact .inl rfl
  | cons x xs ih =>
    obtain ⟨i, op⟩ := x
    intro c k
    have hle : ∀ j, ((c.step p H (i, op)).2.leaves j ++ leavesOf j xs).Sublist (c.leaves j ++ leavesOf j ((i, op) :: xs)) := by
      intro j
      rw [leavesOf_cons, ← List.append_assoc]
      refine List.Sublist.append_right ?_ _
      simp only [Lists.step]
      split
      · next e => subst e; exact machine_leaves p H [op] ⟨c.leaves j, c.storage⟩
      · simp
    rcases ih (c.step p H (i, op)).2 k with h | ⟨j, ds, h1, h2, h3⟩
    · have h : (Lists.run p H ((i, op) :: xs) c).2.storage.map k = (c.step p H (i, op)).2.storage.map k := h
      rw [h]
      rcases machine_origin p H [op] ⟨c.leaves i, c.storage⟩ k with g | ⟨ds, g1, g2, g3⟩
      · exact .inl g
      · refine .inr ⟨i, ds, g1.trans ?_, g2, g3⟩
        rw [leavesOf_cons, if_pos rfl, ← List.append_assoc]
        exact List.sublist_append_left ..
    · exact .inr ⟨j, ds, h1.trans (hle j), h2, h3⟩

theorem desk_run_append (p : Profile) (H : HashFn) : ∀ (xs ys : List (Nat × Op)) (c : Desk E),
    (Desk.run p H (xs ++ ys) c).2 = (Desk.run p H ys (Desk.run p H xs c).2).2 := by
  intro xs
  induction xs with
  | nil => intro ys c; rfl
  | cons x xs ih => intro ys c; exact ih ys _

end Sum
end FuelMerkle
