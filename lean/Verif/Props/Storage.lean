import Verif.Spec.MapApi

/-
Property C51: `StorageMap` is a map.
-/
namespace FuelMerkle.Props
open FuelMerkle.Spec
variable {K V E : Type} [DecidableEq K]

theorem mapRun_append (xs ys : List (MapOp K V)) : ∀ s : Store K V E, mapRun (xs ++ ys) s = mapRun ys (mapRun xs s) := by
  induction xs with
  | nil => intro s; rfl
  | cons x xs ih => intro s; exact ih _

theorem mapRun_state (hist : List (MapOp K V)) :
    (mapRun hist (Store.empty : Store K V E)).Reliable ∧
    ∀ k, (mapRun hist (Store.empty : Store K V E)).map k = latest k hist.reverse := by
  have key : ∀ hist : List (MapOp K V), (mapRun hist.reverse (Store.empty : Store K V E)).Reliable ∧
      ∀ k, (mapRun hist.reverse (Store.empty : Store K V E)).map k = latest k hist := by
    intro hist
    induction hist with
    | nil => exact ⟨fun _ => rfl, fun _ => rfl⟩
    | cons op hist ih =>
      rw [List.reverse_cons, mapRun_append]
      generalize mapRun hist.reverse (Store.empty : Store K V E) = s at ih
      obtain ⟨h1, h2⟩ := ih
      cases op with
      | insert k v =>
        simp only [mapRun, mapStep, Store.insert, h1 s.clock]
        refine ⟨h1, fun k' => ?_⟩
        simp only [Store.upd, latest]
        by_cases hk : k' = k
        · rw [if_pos hk, if_pos hk.symm]
        · rw [if_neg hk, if_neg hk, if_neg (Ne.symm hk), h2]
      | remove k =>
        simp only [mapRun, mapStep, Store.remove, h1 s.clock]
        refine ⟨h1, fun k' => ?_⟩
        simp only [Store.upd, latest]
        by_cases hk : k' = k
        · rw [if_pos hk, if_pos hk.symm]
        · rw [if_neg hk, if_neg (Ne.symm hk), h2]
      | get k =>
        simp only [mapRun, mapStep, Store.get, h1 s.clock]
        exact ⟨h1, h2⟩
      | containsKey k =>
        simp only [mapRun, mapStep, Store.containsKey, h1 s.clock]
        exact ⟨h1, h2⟩
  have := key hist.reverse
  rwa [List.reverse_reverse] at this

/-- After every history, every call on a `StorageMap` that was created empty returns what
the history says: `insert` and `remove` the previous value, `get` the current one,
`contains_key` whether there is one; and no call ever fails. -/
theorem C51_map_laws (hist : List (MapOp K V)) (op : MapOp K V) :
    (mapStep op (mapRun hist (Store.empty : Store K V E))).1 = mapExpect hist.reverse op := by
  obtain ⟨h1, h2⟩ := mapRun_state (E := E) hist
  generalize mapRun hist (Store.empty : Store K V E) = s at h1 h2
  cases op <;> simp only [mapStep, mapExpect, Store.insert, Store.remove, Store.get, Store.containsKey, h1 s.clock, h2]

/-- Two calls whose keys differ do not affect each other: the value of every other key is the
same before and after a call. -/
theorem C51_frame (hist : List (MapOp K V)) (k k' : K) (h : k' ≠ k) (v : V) :
    (mapStep (.get k') (mapRun (hist ++ [.insert k v]) (Store.empty : Store K V E))).1 =
      (mapStep (.get k') (mapRun hist (Store.empty : Store K V E))).1 ∧
    (mapStep (.get k') (mapRun (hist ++ [.remove k]) (Store.empty : Store K V E))).1 =
      (mapStep (.get k') (mapRun hist (Store.empty : Store K V E))).1 := by
  rw [C51_map_laws, C51_map_laws, C51_map_laws]
  simp only [List.reverse_append, List.reverse_cons, List.reverse_nil, List.nil_append, List.singleton_append, mapExpect,
    latest, if_neg (Ne.symm h), and_self]

-- insert 1, insert 2, overwrite 1, remove 2: the laws give the expected answers
example : let hist : List (MapOp Nat String) := [.insert 1 "a", .insert 2 "b", .insert 1 "c", .remove 2]
    latest 1 hist.reverse = some "c" ∧ latest 2 hist.reverse = none ∧ latest 2 hist.tail.tail.tail = none ∧
    latest 2 (hist.take 3).reverse = some "b" := by decide

end FuelMerkle.Props
