import Verif.Proofs.Tables
import Verif.Props.AnyStorage
import Verif.Props.ConcurrentLive

/-
C108: processes at work on one table of a storage, while other things happen to the storage.
-/
namespace FuelMerkle.Props
open FuelMerkle Spec
variable {S K V E : Type}

set_option maxRecDepth 100000

/-- **C108**. Any processes work on one table of a storage that behaves like a map; between their storage calls anything
else happens to the storage that leaves this table as it is. Then all answers are those of a storage of their own, one
that behaves like a map and holds the same at the start, with the same turns and nothing else happening; and the table
ends up with what that storage holds. -/
theorem C108_own [DecidableEq K] {B : Backend S K V E} {ok : S → Prop} {view : S → K → Option V} (hB : MapLike B ok view)
    (process : Nat → Tape K V E → Tape K V E) (s : S) (hs : ok s) (es : List (Event S)) (hes : ∀ f, Event.meanwhile f ∈ es → Aside ok view f) :
    ∃ (T : Type) (C : Backend T K V E) (fit : T → Prop) (show' : T → K → Option V) (s' : T),
      MapLike C fit show' ∧ (NeverFails B ok → NeverFails C fit) ∧ fit s' ∧ show' s' = view s ∧
      let o := (Office.start s).events B process es
      let o' := (Office.start s').turns C process (turnsOf es)
      o.answered = o'.answered ∧ ok o.storage ∧ fit o'.storage ∧ view o.storage = show' o'.storage := by
  obtain ⟨script, last, t, h1, h2, h3, h4⟩ := events_alone B process (Aside ok view) aside_id (fun _ _ => aside_comp) (.start s) es hes
  have h3 := h3 []
  rw [List.append_nil] at h3
  have hC := alone_mapLike hB
  refine ⟨_, B.alone, _, _, (s, script), hC, alone_neverFails, ⟨hs, h1⟩, rfl, ?_⟩
  intro o o'
  have e : o' = ⟨(t, []), o.answered⟩ := h3
  have hfit := hC.fit_turns process (turnsOf es) (o := (Office.start (s, script) : Office _ K V E)) ⟨hs, h1⟩
  have hfit : ok o'.storage.1 ∧ ∀ f ∈ o'.storage.2, Aside ok view f := hfit
  rw [e] at hfit
  obtain ⟨g1, g2⟩ := h2 t hfit.1
  refine ⟨by rw [e], ?_, ?_, ?_⟩
  · show ok (Office.events B process es (Office.start s)).storage
    rw [h4]; exact g1
  · rw [e]; exact hfit
  · show view (Office.events B process es (Office.start s)).storage = view o'.storage.1
    rw [h4, e]; exact g2

/-- **C108**, storages that only never make up a record: the same, if what else happens to the storage brings up no
record either; it may take records away, also those of this table. -/
theorem C108_trusted {B : Backend S K V E} {seen : S → K → V → Prop} (hB : NoInvention B seen)
    (process : Nat → Tape K V E → Tape K V E) (s : S) (es : List (Event S)) (hes : ∀ f, Event.meanwhile f ∈ es → Modest seen f) :
    ∃ (T : Type) (C : Backend T K V E) (seen' : T → K → V → Prop) (s' : T),
      NoInvention C seen' ∧ (∀ k v, seen' s' k v → seen s k v) ∧
      let o := (Office.start s).events B process es
      let o' := (Office.start s').turns C process (turnsOf es)
      o.answered = o'.answered ∧ ∀ k v, seen o.storage k v → seen' o'.storage k v := by
  obtain ⟨script, last, t, h1, h2, h3, h4⟩ := events_alone B process (Modest seen) (fun _ _ _ h => h) (fun _ _ hf hg _ _ _ h => hf _ _ _ (hg _ _ _ h)) (.start s) es hes
  have h3 := h3 []
  rw [List.append_nil] at h3
  refine ⟨_, B.alone, _, (s, script), alone_noInvention hB, fun k v h => h h1, ?_⟩
  intro o o'
  have e : o' = ⟨(t, []), o.answered⟩ := h3
  refine ⟨by rw [e], fun k v h _ => ?_⟩
  rw [e]
  exact h2 _ _ _ (by rw [← h4]; exact h)

/-- **C108**, one user: a process that has the table for itself, with any number of trees of one kind, is answered exactly
what it is answered on a plain map that holds the same as the table at the start (no call of which fails if the storage
never fails), whatever else happens to the storage between any two storage calls, as long as it leaves this table as it
is. And the table ends up with what that map holds. -/
theorem C108_alone (k : Kind) {B : Backend S k.Key k.Record E} {ok : S → Prop} {view : S → k.Key → Option k.Record} (hB : MapLike B ok view) (cut : E) (p : Profile)
    (H : HashFn) (calls : List k.Call) (s : S) (hs : ok s) (es : List (Event S)) (hes : ∀ f, Event.meanwhile f ∈ es → Aside ok view f) (i : Nat)
    (hi : ∀ j ∈ turnsOf es, j = i) :
    let o := (Office.start s).events B (fun _ => k.process cut p H calls) es
    nextCall (k.process cut p H calls) (o.answered i) = none →
    ∃ m : Store k.Key k.Record E, m.map = view s ∧ (NeverFails B ok → m.Reliable) ∧
      k.replies cut p H calls (o.answered i) = (k.serveMap p H calls m).1 ∧ ok o.storage ∧ view o.storage = (k.serveMap p H calls m).2.map := by
  intro o hn
  cases k with
  | binary =>
    obtain ⟨script, last, h1, h2, h3, h4, h5⟩ := (Binary.Any.rep_acts B.alone cut p H calls (fun _ => [], fun _ => 0)).aside i
      (fun _ => Kind.binary.process cut p H calls) (fun _ => rfl) s es hes hi hn
    obtain ⟨m, g1, g2, g3, _, _, g4, g5⟩ := C94_binary (alone_mapLike hB) p H calls (s, script) ⟨hs, h1⟩
    obtain ⟨a1, a2⟩ := h2 _ g4.1
    refine ⟨m, g1, fun hf => g2 (alone_neverFails hf), (congrArg Prod.fst h5).trans g3, ?_, ?_⟩
    · exact (congrArg ok h3).mpr a1
    · exact (congrArg view h3).trans (a2.trans g5)
  | sum =>
    obtain ⟨script, last, h1, h2, h3, h4, h5⟩ := (Sum.Any.rep_calls B.alone cut p H calls (fun _ => [])).aside i
      (fun _ => Kind.sum.process cut p H calls) (fun _ => rfl) s es hes hi hn
    obtain ⟨m, g1, g2, g3, _, g4, g5⟩ := C94_sum (alone_mapLike hB) p H calls (s, script) ⟨hs, h1⟩
    obtain ⟨a1, a2⟩ := h2 _ g4.1
    refine ⟨m, g1, fun hf => g2 (alone_neverFails hf), (congrArg Prod.fst h5).trans g3, ?_, ?_⟩
    · exact (congrArg ok h3).mpr a1
    · exact (congrArg view h3).trans (a2.trans g5)
  | sparse =>
    obtain ⟨script, last, h1, h2, h3, h4, h5⟩ := (Sparse.Any.rep_requests B.alone cut p H calls (fun _ => Sparse.Node.createPlaceholder)).aside i
      (fun _ => Kind.sparse.process cut p H calls) (fun _ => rfl) s es hes hi hn
    obtain ⟨m, g1, g2, g3, _, g4, g5⟩ := C94_sparse (alone_mapLike hB) p H calls (s, script) ⟨hs, h1⟩
    obtain ⟨a1, a2⟩ := h2 _ g4.1
    refine ⟨m, g1, fun hf => g2 (alone_neverFails hf), (congrArg Prod.fst h5).trans g3, ?_, ?_⟩
    · exact (congrArg ok h3).mpr a1
    · exact (congrArg view h3).trans (a2.trans g5)

/-- **C108**, processes that share the table, with binary trees over one list of leaves: as in C100, everything that a process
was wished and that is not under way came true, unless one of the storage calls made for that very wish failed, whatever
else happens to the storage as long as it leaves this table as it is. -/
theorem C108_shared {B : Backend S Nat Binary.Prim E} {ok : S → Prop} {view : S → Nat → Option Binary.Prim} (cut : E) (p : Profile) (H : HashFn) (L : List Bytes) (n : Nat)
    (s : S) (ws : Nat → List Binary.Any.Wish) (es : List (Event S)) (hB : MapLike B ok view) (hes : ∀ f, Event.meanwhile f ∈ es → Aside ok view f)
    (hL : L.length < p.leafLimit) (hw : ∀ i, ∀ w ∈ ws i, w.InRange L) (hs : ok s) (ht : Binary.Any.Trusted H L (fun s k v => view s k = some v) s)
    (hh : Binary.Any.Held n (view s)) (hc : Binary.Any.Whole L.length (view s)) :
    let o := (Office.start s).events B (fun i => Binary.Any.worker cut p H L (ws i)) es
    (∀ i, (Binary.Any.Watch.start (⟨o.answered i, none⟩ : Tape Nat Binary.Prim E)).FailsOnlyWithStorage cut p H L n (ws i)) ∧
      ok o.storage ∧ Binary.Any.Trusted H L (fun s k v => view s k = some v) o.storage ∧ Binary.Any.Held n (view o.storage) ∧ Binary.Any.Whole L.length (view o.storage) := by
  intro o
  obtain ⟨T, C, fit, show', s', hC, _, hfit, hsh, h1, h2, _, h3⟩ := C108_own hB (fun i => Binary.Any.worker cut p H L (ws i)) s hs es hes
  obtain ⟨g1, _, g2, g3, g4⟩ := C100_succeeds cut p H L n s' ws (turnsOf es) hC hL hw hfit
    (Binary.Any.trusted_pure.2 fun x q q' hx hq => Binary.Any.trusted_pure.1 ht x q q' (by rw [← hsh]; exact hx) hq) (by rw [hsh]; exact hh) (by rw [hsh]; exact hc)
  rw [← h1] at g1
  rw [← h3] at g3 g4
  exact ⟨g1, h2, Binary.Any.trusted_pure.2 fun x q q' hx hq => Binary.Any.trusted_pure.1 g2 x q q' (by rw [← h3]; exact hx) hq, g3, g4⟩

/-- **C108**, the same on a storage that only never makes up a record, while other things happen that bring up no record but
may remove records: everything that every process is answered is right, as in C98, and no record in the table is wrong. -/
theorem C108_right {B : Backend S Nat Binary.Prim E} {seen : S → Nat → Binary.Prim → Prop} (cut : E) (p : Profile) (H : HashFn) (L : List Bytes)
    (s : S) (ws : Nat → List Binary.Any.Wish) (es : List (Event S)) (hB : NoInvention B seen) (hes : ∀ f, Event.meanwhile f ∈ es → Modest seen f)
    (hL : L.length < p.leafLimit) (hw : ∀ i, ∀ w ∈ ws i, w.InRange L) (ht : Binary.Any.Trusted H L seen s) :
    let o := (Office.start s).events B (fun i => Binary.Any.worker cut p H L (ws i)) es
    (∀ i, (Binary.Any.Watch.start (⟨o.answered i, none⟩ : Tape Nat Binary.Prim E)).AllRight (tape cut) p H L (ws i)) ∧
      Binary.Any.Trusted H L seen o.storage := by
  intro o
  obtain ⟨T, C, seen', s', hC, hsh, h1, h2⟩ := C108_trusted hB (fun i => Binary.Any.worker cut p H L (ws i)) s es hes
  obtain ⟨g1, g2⟩ := C98_right cut p H L s' ws (turnsOf es) hC hL hw
    (Binary.Any.trusted_pure.2 fun x q q' hx hq => Binary.Any.trusted_pure.1 ht x q q' (hsh _ _ hx) hq)
  rw [← h1] at g1
  exact ⟨g1, Binary.Any.trusted_pure.2 fun x q q' hx hq => Binary.Any.trusted_pure.1 g2 x q q' (h2 _ _ hx) hq⟩

section
variable {Ks Vs : Nat → Type} [∀ t, DecidableEq (Ks t)]

/-- **C108**, several tables: for the processes of one table, what the processes of the other tables do is something
that happens to the storage and leaves their table as it is. -/
theorem C108_tables {B : ∀ t, Backend S (Ks t) (Vs t) E} {ok : S → Prop} {view : ∀ t, S → Ks t → Option (Vs t)} (hB : SeparateTables B ok view)
    (process : ∀ t, Nat → Tape (Ks t) (Vs t) E → Tape (Ks t) (Vs t) E) (schedule : List (Nat × Nat)) (s : S) (t : Nat) :
    ∃ es : List (Event S), turnsOf es = turnsAt t schedule ∧ (∀ f, Event.meanwhile f ∈ es → Aside ok (view t) f) ∧
      ((Offices.start s).turns B process schedule).at t = (Office.start s).events (B t) (process t) es := by
  have key : ∀ (schedule : List (Nat × Nat)) (x : Offices S Ks Vs E), ∃ es : List (Event S), turnsOf es = turnsAt t schedule ∧
      (∀ f, Event.meanwhile f ∈ es → Aside ok (view t) f) ∧ (x.turns B process schedule).at t = (x.at t).events (B t) (process t) es := by
    intro schedule
    induction schedule with
    | nil => exact fun x => ⟨[], rfl, (fun _ h => by cases h), rfl⟩
    | cons y schedule ih =>
      obtain ⟨u, i⟩ := y
      intro x
      obtain ⟨es, h1, h2, h3⟩ := ih (x.turn B process u i)
      by_cases hu : u = t
      · subst hu
        refine ⟨.turn i :: es, ?_, fun f hf => h2 f (by simpa using hf), ?_⟩
        · simp only [turnsOf, List.filterMap_cons, turnsAt, List.filter_cons, decide_true, if_true, List.map_cons] at h1 ⊢
          rw [h1]
        · refine h3.trans ?_
          have : (x.turn B process u i).at u = (x.at u).turn (B u) (process u) i := by
            simp only [Offices.turn, Offices.at, Function.update_self]
          rw [this]
          rfl
      · have hat : turnsAt t ((u, i) :: schedule) = turnsAt t schedule := by
          simp only [turnsAt, List.filter_cons, hu, decide_false, if_false, Bool.false_eq_true]
        have hne : (x.turn B process u i).at t = ⟨((x.at u).turn (B u) (process u) i).storage, x.answered t⟩ := by
          simp only [Offices.turn, Offices.at]
          rw [Function.update_of_ne (fun h => hu h.symm)]
        cases hc : nextCall (process u i) (x.answered u i) with
        | none =>
          refine ⟨es, h1.trans hat.symm, h2, h3.trans ?_⟩
          have : (x.turn B process u i).at t = x.at t := by
            rw [hne]
            simp only [Office.turn, Offices.at, hc]
          rw [this]
        | some c =>
          refine ⟨.meanwhile (fun s => ((B u).perform c s).2) :: es, ?_, fun f hf => ?_, h3.trans ?_⟩
          · rw [hat, ← h1]
            rfl
          · rcases List.mem_cons.1 hf with hf | hf
            · cases hf
              exact fun s hs => ⟨(hB.mapLike u).fit_perform c hs, hB.apart (fun h => hu h.symm) c s hs⟩
            · exact h2 f hf
          · have : (x.turn B process u i).at t = ⟨((B u).perform c x.storage).2, x.answered t⟩ := by
              rw [hne]
              simp only [Office.turn, Offices.at, hc]
            rw [this]
            rfl
  exact key schedule (.start s)
end

/-- **C108**, users with a table each: a storage has any number of tables, for trees of any of the three kinds, and there
is one process for each table; their storage calls are mixed in any order. Then every process is answered what it is
answered on a plain map of its own. -/
theorem C108_each (layout : Nat → Kind) {B : ∀ t, Backend S (layout t).Key (layout t).Record E} {ok : S → Prop}
    {view : ∀ t, S → (layout t).Key → Option (layout t).Record} (hB : SeparateTables B ok view) (cut : E) (p : Profile) (H : HashFn)
    (calls : ∀ t, List (layout t).Call) (s : S) (hs : ok s) (schedule : List Nat) (t : Nat) :
    let x := (Offices.start s).turns B (fun t _ => (layout t).process cut p H (calls t)) (schedule.map fun t => (t, 0))
    nextCall ((layout t).process cut p H (calls t)) (x.answered t 0) = none →
    ∃ m : Store (layout t).Key (layout t).Record E, m.map = view t s ∧ (NeverFails (B t) ok → m.Reliable) ∧
      (layout t).replies cut p H (calls t) (x.answered t 0) = ((layout t).serveMap p H (calls t) m).1 ∧
      view t x.storage = ((layout t).serveMap p H (calls t) m).2.map := by
  intro x hn
  obtain ⟨es, h1, h2, h3⟩ := C108_tables hB (fun t _ => (layout t).process cut p H (calls t)) (schedule.map fun t => (t, 0)) s t
  have e : x.at t = _ := h3
  have ha : x.answered t = ((Office.start s).events (B t) (fun _ => (layout t).process cut p H (calls t)) es).answered := congrArg Office.answered e
  have hst : x.storage = ((Office.start s).events (B t) (fun _ => (layout t).process cut p H (calls t)) es).storage := congrArg Office.storage e
  obtain ⟨m, g1, g2, g3, _, g5⟩ := C108_alone (layout t) (hB.mapLike t) cut p H (calls t) s hs es h2 0 (fun j hj => by
    rw [h1] at hj
    simp only [turnsAt, List.mem_map, List.mem_filter] at hj
    obtain ⟨y, ⟨⟨_, _, rfl⟩, _⟩, rfl⟩ := hj
    rfl) (by rw [← ha]; exact hn)
  exact ⟨m, g1, g2, by rw [ha]; exact g3, by rw [hst]; exact g5⟩

namespace Tables
open AnyStorageStale (build)

/-! ### The hypotheses can be met -/

/-- A table for binary trees, one for sum trees, one for sparse trees, and further ones for binary trees. -/
def layout : Nat → Kind
  | 0 => .binary
  | 1 => .sum
  | 2 => .sparse
  | _ + 3 => .binary

/-- A storage with these tables: maps. -/
abbrev Maps := ∀ t, (layout t).Key → Option (layout t).Record

/-- The methods for table `t`. -/
def maps (t : Nat) : Backend Maps (layout t).Key (layout t).Record String where
  get k s := (.ok (s t k), s)
  insert k v s := (.ok (s t k), Function.update s t fun x => if x = k then some v else s t x)
  remove k s := (.ok (s t k), Function.update s t fun x => if x = k then none else s t x)

theorem maps_separate : SeparateTables maps (fun _ => True) (fun t s => s t) where
  mapLike t := by
    constructor <;> intros <;> rename_i h <;> simp only [maps, Prod.mk.injEq, Except.ok.injEq, reduceCtorEq, false_and] at h
    · obtain ⟨rfl, rfl⟩ := h; exact ⟨trivial, rfl, rfl⟩
    · obtain ⟨rfl, rfl⟩ := h; exact ⟨trivial, fun x => by rw [Function.update_self]⟩
    · obtain ⟨rfl, rfl⟩ := h; exact ⟨trivial, fun x => by rw [Function.update_self]⟩
  apart h c s _ := by
    cases c with
    | get k => rfl
    | insert k v => exact Function.update_of_ne h _ _
    | remove k => exact Function.update_of_ne h _ _

theorem maps_neverFails (t : Nat) : NeverFails (maps t) (fun _ => True) :=
  fun _ _ => ⟨fun _ _ _ h => (by cases h), fun _ _ _ _ h => (by cases h), fun _ _ _ h => by cases h⟩

/-- What the users of the tables do. Tables 0 and 3 have binary trees over different leaves. -/
def calls : ∀ t, List (layout t).Call
  | 0 => ([.call 0 (.push [1]), .call 0 (.push [2]), .call 0 (.push [3]), .load 1 2, .call 1 .root, .call 0 (.prove 1)] : List Binary.Action)
  | 1 => ([(0, .push 1 [1]), (0, .push 2 [2]), (0, .root)] : List (Nat × Sum.Op))
  | 2 => ([.call 0 (.update ⟨List.replicate 32 0x80, rfl⟩ [1]), .call 0 (.update ⟨List.replicate 32 0x00, rfl⟩ [2]), .call 0 (.delete ⟨List.replicate 32 0x80, rfl⟩), .root 0] :
      List Sparse.Any.Request)
  | 3 => ([.call 0 (.push [9]), .call 0 (.push [8]), .call 0 (.prove 0)] : List Binary.Action)
  | _ + 4 => ([] : List Binary.Action)

/-- They take turns. -/
def schedule : List Nat := (List.replicate 16 [0, 1, 2, 3]).flatten

/-- After these turns. -/
def after (n : Nat) : Offices Maps (fun t => (layout t).Key) (fun t => (layout t).Record) String :=
  (Offices.start fun _ _ => none).turns maps (fun t _ => (layout t).process "cut" build Tests.toyHash (calls t)) ((schedule.take n).map fun t => (t, 0))

/-- After 8 turns all are in the middle of their calls; in the end all are through, and `C108_each` speaks of all of them. -/
example : (∀ t < 4, (nextCall ((layout t).process "cut" build Tests.toyHash (calls t)) ((after 8).answered t 0)).isSome) ∧
    (∀ t < 4, (nextCall ((layout t).process "cut" build Tests.toyHash (calls t)) ((after 64).answered t 0)).isNone) ∧
    ((List.range 4).map fun t => ((after 64).answered t 0).length) = [8, 3, 10, 5] := by
  decide +kernel

/-- Three things that may happen meanwhile: table 3 gets a record, the tables other than 0 are emptied, table 0 is emptied. -/
def other : Maps → Maps := fun s => (maps 3).insert (0 : Nat) (((0 : Nat), ⟨List.replicate 32 7, rfl⟩) : Binary.Prim) s |>.2
def others : Maps → Maps := fun s t => if t = 0 then s t else fun _ => none
def emptied : Maps → Maps := fun s => Function.update s 0 fun _ => none

/-- The first two leave table 0 as it is. The last does not, but it brings up no record in it. -/
example : Aside (fun _ => True) (fun s : Maps => s 0) other ∧ Aside (fun _ => True) (fun s : Maps => s 0) others ∧
    ¬ Aside (fun _ => True) (fun s : Maps => s 0) emptied ∧ Modest (fun (s : Maps) k v => s 0 k = some v) emptied := by
  refine ⟨fun s _ => ⟨trivial, by
    simp [other, maps]⟩, fun s _ => ⟨trivial, rfl⟩, fun h => ?_, fun s k v h => ?_⟩
  · have h1 := (h (fun t => match t with | 0 => fun _ => some ((0, ⟨List.replicate 32 7, rfl⟩) : Binary.Prim) | _ + 1 => fun _ => none) trivial).2
    have h2 := congrFun h1 (0 : Nat)
    simp [emptied] at h2
  · simp [emptied] at h

end Tables
end FuelMerkle.Props
