import Verif.Proofs.AnyStorage
import Verif.Props.Binary
import Verif.Props.Sum
import Verif.Tests.ToyHash
import Verif.Props.SparseRoot

/-
C94: trees on any storage implementation that behaves like a map.

`Model/AnyStorage.lean` defines the trees over any implementation of the storage traits;
`Spec/AnyStorage.lean` says what it means to behave like a map.
-/
namespace FuelMerkle.Props
open FuelMerkle Spec
variable {S E : Type}

set_option maxRecDepth 100000

/-! ### Binary trees -/

/-- **C94**, binary trees. Whatever a client does with any number of trees on a storage implementation that
behaves like a map, all replies, and what the trees hold in memory, are those of the same trees on a map that
holds the same at the start and whose calls fail or succeed in some pattern; the implementation ends up holding
what the map holds. If the implementation never fails, no call of the map does. -/
theorem C94_binary {B : Backend S Nat Binary.Prim E} {ok : S → Prop} {view : S → Nat → Option Binary.Prim} (hB : MapLike B ok view)
    (p : Profile) (H : HashFn) (as : List Binary.Action) (s : S) (hs : ok s) :
    ∃ m : Binary.BStore E, m.map = view s ∧ (NeverFails B ok → m.Reliable) ∧
      let x := Binary.Any.Bench.acts B p H as (.start s)
      let y := Binary.Bench.acts p H as (.start m)
      x.1 = y.1 ∧ x.2.head = y.2.head ∧ x.2.count = y.2.count ∧ ok x.2.storage ∧ view x.2.storage = y.2.storage.map := by
  obtain ⟨sched, hn, h⟩ := (Binary.Any.covers_acts hB p H as (.start s)).elim
  obtain ⟨h1, h2⟩ := h (.start ⟨view s, sched, 0⟩) ⟨⟨hs, rfl⟩, rfl, rfl⟩ rfl rfl
  exact ⟨⟨view s, sched, 0⟩, rfl, fun h => hn h, h1.symm, h2.2.1.symm, h2.2.2.symm, h2.1.1, h2.1.2.symm⟩

/-- **C94**, binary roots. On an implementation that behaves like a map and does not fail, any list of leaves
can be pushed, and the root is the RFC 6962 root. -/
theorem C94_binary_root {B : Backend S Nat Binary.Prim E} {ok : S → Prop} {view : S → Nat → Option Binary.Prim} (hB : MapLike B ok view)
    (hf : NeverFails B ok) (p : Profile) (H : HashFn) (s : S) (hs : ok s) (ds : List Bytes) (hn : ds.length ≤ 2 ^ 63) (h0 : ds ≠ []) :
    ∃ t, Binary.Any.pushAll B p H ds (.new s) = (.ok (), t) ∧ t.root p H = .ok (mth H ds) := by
  obtain ⟨sched, hr, h⟩ := (Binary.Any.covers_pushAll hB.inserts p H ds (.new s)).elimExec
  obtain ⟨h1, h2⟩ := h (.new ⟨view s, sched, 0⟩) ⟨⟨hs, rfl⟩, rfl, rfl⟩ rfl rfl
  obtain ⟨t, g1, g2⟩ := C01_binary_root p H ⟨view s, sched, 0⟩ (hr hf) ds hn h0
  rw [g1] at h1 h2
  refine ⟨_, Prod.ext h1.symm rfl, ?_⟩
  rw [← g2, Binary.Any.Tree.root, Binary.Tree.root, ← h2.2.1]
  rfl

/-- **C94**, binary proofs. On such an implementation, `prove` returns the root and the leaf hash followed by
the RFC 6962 audit path. -/
theorem C94_binary_proof {B : Backend S Nat Binary.Prim E} {ok : S → Prop} {view : S → Nat → Option Binary.Prim} (hB : MapLike B ok view)
    (hf : NeverFails B ok) (p : Profile) (H : HashFn) (s : S) (hs : ok s) (ds : List Bytes) (hn : ds.length < p.leafLimit)
    (i : Nat) (hi : i < ds.length) :
    ∃ t t', Binary.Any.pushAll B p H ds (.new s) = (.ok (), t) ∧
      Binary.Any.prove B p H i t = (.ok (mth H ds, H ([0x00] ++ ds[i]) :: auditPath H i ds), t') := by
  obtain ⟨sched, hr, h⟩ := ((Binary.Any.covers_pushAll hB.inserts p H ds (.new s)).bind
    fun _ t _ => Binary.Any.covers_prove hB.gets p H i t).elimExec
  obtain ⟨h1, _⟩ := h (.new ⟨view s, sched, 0⟩) ⟨⟨hs, rfl⟩, rfl, rfl⟩ rfl rfl
  obtain ⟨t, t', g1, _, g3⟩ := C03_binary_proof p H ⟨view s, sched, 0⟩ (hr hf) ds hn i hi
  rw [Exec.bind_ok g1, g3] at h1
  rcases hx : Binary.Any.pushAll B p H ds (.new s) with ⟨e | u, u1⟩
  · rw [Exec.bind_error hx] at h1; cases h1
  · rw [Exec.bind_ok hx] at h1
    exact ⟨u1, _, rfl, Prod.ext h1.symm rfl⟩

/-! ### Sum trees -/

/-- **C94**, sum trees: as for binary trees. -/
theorem C94_sum {B : Backend S Bytes32 Sum.Node E} {ok : S → Prop} {view : S → Bytes32 → Option Sum.Node} (hB : MapLike B ok view)
    (p : Profile) (H : HashFn) (xs : List (Nat × Sum.Op)) (s : S) (hs : ok s) :
    ∃ m : Sum.SStore E, m.map = view s ∧ (NeverFails B ok → m.Reliable) ∧
      let x := Sum.Any.Desk.run B p H xs (.start s)
      let y := Sum.Desk.run p H xs (.start m)
      x.1 = y.1 ∧ x.2.head = y.2.head ∧ ok x.2.storage ∧ view x.2.storage = y.2.storage.map := by
  obtain ⟨sched, hn, h⟩ := (Sum.Any.covers_run hB p H xs (.start s)).elim
  obtain ⟨h1, h2⟩ := h (.start ⟨view s, sched, 0⟩) ⟨⟨hs, rfl⟩, rfl⟩ rfl rfl
  exact ⟨⟨view s, sched, 0⟩, rfl, fun h => hn h, h1.symm, h2.2.symm, h2.1.1, h2.1.2.symm⟩

/-- **C94**, sum roots. -/
theorem C94_sum_root {B : Backend S Bytes32 Sum.Node E} {ok : S → Prop} {view : S → Bytes32 → Option Sum.Node} (hB : MapLike B ok view)
    (hf : NeverFails B ok) (p : Profile) (H : HashFn) (s : S) (hs : ok s) (ds : List Item) (hn : ds.length < 2 ^ 64) (h0 : ds ≠ [])
    (ht : total ds < 2 ^ 64) :
    ∃ t, Sum.Any.pushAll B p H ds (.new s) = (.ok (), t) ∧ (Sum.Any.root B p H t).1 = .ok (total ds, sumHash H ds) := by
  obtain ⟨sched, hr, h⟩ := ((Sum.Any.covers_pushAll hB.inserts p H ds (.new s)).bind
    fun _ t _ => Sum.Any.covers_root hB.inserts p H t).elimExec
  obtain ⟨h1, _⟩ := h (.new ⟨view s, sched, 0⟩) ⟨⟨hs, rfl⟩, rfl⟩ rfl rfl
  obtain ⟨t, g1, g2⟩ := C45_sum_root p H ⟨view s, sched, 0⟩ (hr hf) ds hn h0 ht
  rw [Exec.bind_ok g1, g2] at h1
  rcases hx : Sum.Any.pushAll B p H ds (.new s) with ⟨e | u, u1⟩
  · rw [Exec.bind_error hx] at h1; cases h1
  · rw [Exec.bind_ok hx] at h1
    exact ⟨u1, rfl, h1.symm⟩

/-! ### Sparse trees -/

/-- **C94**, sparse trees: as for binary trees; trees can be loaded at any root. -/
theorem C94_sparse {B : Backend S Bytes32 Sparse.Prim E} {ok : S → Prop} {view : S → Bytes32 → Option Sparse.Prim} (hB : MapLike B ok view)
    (p : Profile) (H : HashFn) (rs : List Sparse.Any.Request) (s : S) (hs : ok s) :
    ∃ m : Sparse.SpStore E, m.map = view s ∧ (NeverFails B ok → m.Reliable) ∧
      let x := Sparse.Any.Bench.handleAll B p H rs (.start s)
      let y := Sparse.Bench.serveAll p H rs (.start m)
      x.1 = y.1 ∧ x.2.node = y.2.node ∧ ok x.2.storage ∧ view x.2.storage = y.2.storage.map := by
  obtain ⟨sched, hn, h⟩ := (Sparse.Any.covers_handleAll hB p H rs (.start s)).elim
  obtain ⟨h1, h2⟩ := h (.start ⟨view s, sched, 0⟩) ⟨⟨hs, rfl⟩, rfl⟩ rfl rfl
  exact ⟨⟨view s, sched, 0⟩, rfl, fun h => hn h, h1.symm, h2.2.symm, h2.1.1, h2.1.2.symm⟩

/-- **C94**, sparse roots. On an implementation that behaves like a map, holds nothing and does not fail, every
call of a history without stale deletes succeeds, and the root is the canonical root of the map it denotes. -/
theorem C94_sparse_root {B : Backend S Bytes32 Sparse.Prim E} {ok : S → Prop} {view : S → Bytes32 → Option Sparse.Prim}
    (hB : MapLike B ok view) (hf : NeverFails B ok) (p : Profile) (H : HashFn) (s : S) (hs : ok s) (he : ∀ k, view s k = none)
    (ops : List Sparse.Op) (hi : Sparse.IdealFor H ops) (hc : Sparse.Clean ops) :
    ∃ t, Sparse.Any.runAll B p H ops (.new s) = (.ok (), t) ∧ t.root H = Sparse.rootOf H (Sparse.mapOf ops) := by
  obtain ⟨sched, hr, h⟩ := (Sparse.Any.covers_runAll hB p H ops (.new s)).elimExec
  obtain ⟨h1, h2⟩ := h (.new ⟨view s, sched, 0⟩) ⟨⟨hs, rfl⟩, rfl⟩ rfl rfl
  obtain ⟨t, g1, g2⟩ := C28_root_canonical p H ops hi hc ⟨view s, sched, 0⟩ he (hr hf)
  rw [g1] at h1 h2
  refine ⟨_, Prod.ext h1.symm rfl, ?_⟩
  rw [← g2, Sparse.Any.Tree.root, Sparse.Tree.root, h2.2]

/-! ### The hypotheses can be met -/

namespace AnyStorage
variable {K V : Type} [DecidableEq K]

/-- A journal of writes, newest first, and the last answer of `get`. -/
structure Journal (K V : Type) where
  log : List (K × Option V)
  cache : Option (K × Option V)

/-- What the newest entry for a key says. -/
def find (k : K) : List (K × Option V) → Option V
  | [] => none
  | (k', v) :: l => if k' = k then v else find k l

/-- Add an entry. With `full` entries, nothing is written any more; the entry number `slow` is written, but the
client hears of a timeout. -/
def append (full slow : Option Nat) (k : K) (v : Option V) (s : Journal K V) : Except String (Option V) × Journal K V :=
  if full = some s.log.length then (.error "full", s)
  else if slow = some s.log.length then (.error "timeout", ⟨(k, v) :: s.log, none⟩)
  else (.ok (find k s.log), ⟨(k, v) :: s.log, some (k, v)⟩)

/-- Answered from the cache if possible; the answer is kept. -/
def lookup (k : K) (s : Journal K V) : Except String (Option V) × Journal K V :=
  match s.cache with
  | some (k', v) => if k' = k then (.ok v, s) else (.ok (find k s.log), ⟨s.log, some (k, find k s.log)⟩)
  | none => (.ok (find k s.log), ⟨s.log, some (k, find k s.log)⟩)

/-- A storage implementation: an append-only file with a cache. -/
def journal (full slow : Option Nat) : Backend (Journal K V) K V String where
  get := lookup
  insert k v := append full slow k (some v)
  remove k := append full slow k none

/-- The cache is right. -/
def Fresh (s : Journal K V) : Prop := ∀ k v, s.cache = some (k, v) → find k s.log = v

/-- What the journal holds. -/
def held (s : Journal K V) (k : K) : Option V := find k s.log

theorem append_cases {full slow : Option Nat} {k : K} {v : Option V} {s s' : Journal K V} {r} (hs : Fresh s)
    (h : append full slow k v s = (r, s')) :
    Fresh s' ∧ ((∃ e, r = .error e ∧ held s' = held s) ∨ ∀ x, held s' x = if x = k then v else held s x) := by
  have hw : ∀ c : Option (K × Option V), ∀ x, held (⟨(k, v) :: s.log, c⟩ : Journal K V) x = if x = k then v else held s x := by
    intro c x
    show (if k = x then v else _) = _
    simp only [eq_comm (a := k)]
    rfl
  unfold append at h
  split at h
  · cases h; exact ⟨hs, .inl ⟨_, rfl, rfl⟩⟩
  · split at h
    · cases h; exact ⟨(fun _ _ h => by cases h), .inr (hw _)⟩
    · cases h
      refine ⟨fun k' v' h => ?_, .inr (hw _)⟩
      cases h
      exact if_pos rfl

theorem lookup_cases {k : K} {s s' : Journal K V} {r} (hs : Fresh s) (h : lookup k s = (r, s')) :
    Fresh s' ∧ r = .ok (held s k) ∧ held s' = held s := by
  have hn : Fresh (⟨s.log, some (k, find k s.log)⟩ : Journal K V) := fun k' v' h => by cases h; rfl
  unfold lookup at h
  split at h
  · rename_i k' v hc
    split at h
    · cases h
      subst ‹k' = k›
      exact ⟨hs, by rw [held, hs _ _ hc], rfl⟩
    · cases h; exact ⟨hn, rfl, rfl⟩
  · cases h; exact ⟨hn, rfl, rfl⟩

/-- The journal behaves like a map, even when it fails. -/
theorem journal_mapLike (full slow : Option Nat) : MapLike (journal (K := K) (V := V) full slow) Fresh held where
  get_ok hs h := by
    obtain ⟨h1, h2, h3⟩ := lookup_cases hs h
    exact ⟨h1, Except.ok.inj h2, h3⟩
  get_error hs h := by cases (lookup_cases hs h).2.1
  insert_ok hs h := by
    obtain ⟨h1, ⟨e, h2, _⟩ | h2⟩ := append_cases hs h
    · cases h2
    · exact ⟨h1, h2⟩
  insert_error hs h := by
    obtain ⟨h1, ⟨e, _, h2⟩ | h2⟩ := append_cases hs h
    · exact ⟨h1, .inl h2⟩
    · exact ⟨h1, .inr h2⟩
  remove_ok hs h := by
    obtain ⟨h1, ⟨e, h2, _⟩ | h2⟩ := append_cases hs h
    · cases h2
    · exact ⟨h1, h2⟩
  remove_error hs h := by
    obtain ⟨h1, ⟨e, _, h2⟩ | h2⟩ := append_cases hs h
    · exact ⟨h1, .inl h2⟩
    · exact ⟨h1, .inr h2⟩

/-- Without limits it never fails. -/
theorem journal_neverFails : NeverFails (journal (K := K) (V := V) none none) Fresh := by
  intro s hs
  refine ⟨fun k e s' h => (by cases (lookup_cases hs h).2.1), fun k v e s' h => ?_, fun k e s' h => ?_⟩ <;> cases h

/-- An empty journal. -/
def blank : Journal K V := ⟨[], none⟩

theorem blank_fresh : Fresh (blank : Journal K V) := fun _ _ h => by cases h

/-- The theorems apply to the journal: roots of three leaves, of five items with fees, and of a history with two
keys and a deletion. -/
example (p : Profile) :
    (∃ t, Binary.Any.pushAll (journal none none) p Sha256.sha256 sampleLeaves (.new blank) = (.ok (), t) ∧
      t.root p Sha256.sha256 = .ok (mth Sha256.sha256 sampleLeaves)) ∧
    (∃ t, Sum.Any.pushAll (journal none none) p Sha256.sha256 SumTree.sampleItems (.new blank) = (.ok (), t) ∧
      (Sum.Any.root (journal none none) p Sha256.sha256 t).1 = .ok (total SumTree.sampleItems, sumHash Sha256.sha256 SumTree.sampleItems)) ∧
    ∃ t, Sparse.Any.runAll (journal none none) p Sha256.sha256 cleanOps (.new blank) = (.ok (), t) ∧
      t.root Sha256.sha256 = Sparse.rootOf Sha256.sha256 (Sparse.mapOf cleanOps) :=
  ⟨C94_binary_root (journal_mapLike _ _) journal_neverFails p _ _ blank_fresh _ (by decide) (by decide),
    C94_sum_root (journal_mapLike _ _) journal_neverFails p _ _ blank_fresh SumTree.sampleItems (by decide) (by decide) (by decide),
    C94_sparse_root (journal_mapLike _ _) journal_neverFails p _ _ blank_fresh (fun _ => rfl) _ cleanOps_ideal cleanOps_clean⟩

/-- How a push went. -/
def wentWell : Binary.Reply String → Bool
  | .call (.push (.ok _)) => true
  | _ => false

/-- A journal that times out at its third entry and is full after five: which pushes succeed. -/
example : (Binary.Any.Bench.acts (journal (some 5) (some 2)) ⟨true, true, .w64⟩ Tests.toyHash
    [.call 0 (.push [1]), .call 0 (.push [2]), .call 0 (.push [3]), .call 0 (.push [4])] (.start blank)).1.map wentWell =
    [true, false, true, false] := by
  decide +kernel

end AnyStorage
end FuelMerkle.Props
