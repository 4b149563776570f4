import Verif.Proofs.ConcurrentSparse
import Verif.Props.AnyStorageStale

/-
C99: processes that work on one storage at the same time, each with its own sparse trees.
-/
namespace FuelMerkle.Props
open FuelMerkle Spec Sparse Sparse.Any
variable {S E : Type}

set_option maxRecDepth 100000

/-- The storage never makes up a record; `keys` are the keys of all calls of all processes; `maps` are maps, among them
those that what was begun at any moment leads to or tries to lead to; the hash function behaves on all that; the maps
loaded are maps; and no record that can come back from before the start is wrong for all these maps and keys. -/
structure Crew (B : Backend S Bytes32 Prim E) (seen : S → Bytes32 → Prim → Prop) (cut : E) (p : Profile) (H : HashFn) (s : S)
    (rs : Nat → List Sparse.Request) (schedule : List Nat) (maps : List (Entries Bytes)) (keys : List Bytes32) : Prop where
  backend : NoInvention B seen
  calls : ∀ i, ∀ op ∈ callsOf (rs i), op.key ∈ keys
  loads : ∀ i, LoadsOk H (rs i)
  aims : ∀ n i, ∀ kv ∈ crewAims B cut p H s rs (schedule.take n) i, kv ∈ maps
  solid : ∀ kv ∈ maps, (keysOf kv).Nodup ∧ (zero32, zero32) ∉ digests H kv
  ideal : Ideal H (maps.flatMap (msgsOf H)) keys
  sound : ∀ m : Bytes32 → Option Prim, (∀ x q, m x = some q → seen s x q) → Sound H m maps keys

section
variable {B : Backend S Bytes32 Prim E} {seen : S → Bytes32 → Prim → Prop} {cut : E} {p : Profile} {H : HashFn} {s : S} {rs : Nat → List Sparse.Request}
  {schedule : List Nat} {maps : List (Entries Bytes)} {keys : List Bytes32}

theorem Crew.env (h : Crew B seen cut p H s rs schedule maps keys) : Env H (fun a => ∃ kv ∈ maps, a ∈ msgsOf H kv) (· ∈ keys) :=
  ⟨fun a b ha hb => h.ideal.distinct a (List.mem_flatMap.2 ha) b (List.mem_flatMap.2 hb), fun a ha => h.ideal.nonzero a (List.mem_flatMap.2 ha),
    fun a k ha => h.ideal.apart a (List.mem_flatMap.2 ha) k⟩

/-- What one process has begun. -/
theorem Crew.process (h : Crew B seen cut p H s rs schedule maps keys) (n i : Nat)
    (hf : (crew B cut p H s rs (schedule.take n)).Fine seen (Allowed H (fun a => ∃ kv ∈ maps, a ∈ msgsOf H kv) (· ∈ keys))) :
    let c := Watch.given ((crew B cut p H s rs (schedule.take n)).answered i)
    c.AllRight (tape cut) p H (c.begun cut p H (rs i)) ∧
      Watched H (fun a => ∃ kv ∈ maps, a ∈ msgsOf H kv) (· ∈ keys) Tape.shows (c.handleAll (tape cut) p H (c.begun cut p H (rs i))).2 := by
  intro c
  have hsub := begun_sub (H := H) cut p (rs i) c
  refine handleAll_watched (tape_noInvention cut) p h.env _ (Watched.start (pure_allowed.2 fun x q hx => ?_)) (fun op ho => h.calls i op ?_)
    (fun kv hkv => ⟨fun a ha => ⟨kv, h.aims n i kv hkv, ha⟩, (h.solid kv (h.aims n i kv hkv)).2⟩) (fun j kv hm => h.loads i j kv (hsub _ hm))
  · rcases hx with hx | hx
    · exact hf.answered i x q hx
    · cases hx
  · obtain ⟨x, hx, e⟩ := List.mem_filterMap.1 ho
    exact List.mem_filterMap.2 ⟨x, hsub x hx, e⟩

theorem Crew.fine (h : Crew B seen cut p H s rs schedule maps keys) (n : Nat) :
    (crew B cut p H s rs (schedule.take n)).Fine seen (Allowed H (fun a => ∃ kv ∈ maps, a ∈ msgsOf H kv) (· ∈ keys)) := by
  induction n with
  | zero => exact ⟨fun x q hx => pure_allowed.1 (fun m hm => (h.sound m hm).valid h.solid) x q hx, fun i x q hx => by cases hx⟩
  | succ n ih =>
    rw [List.take_add_one]
    cases hn : schedule[n]? with
    | none => rw [show (none : Option Nat).toList = [] from rfl, List.append_nil]; exact ih
    | some i =>
      unfold crew
      rw [Office.turns_append]
      show (Office.turn B (fun i => worker cut p H ((rs i).map (Sparse.Request.asked H))) i (crew B cut p H s rs (schedule.take n))).Fine seen _
      refine ih.turn h.backend i fun x q hc => ?_
      obtain ⟨_, h2⟩ := h.process n i ih
      have h3 := pure_allowed.1 h2.pure x q
      rw [begun_storage] at h3
      refine h3 (.inr ?_)
      rw [nextCall, worker_eq] at hc
      exact hc

end

/-- **C99**. Any number of processes work on one storage at the same time; each has its own sparse trees. Their storage
calls are mixed in any order: the schedule says whose turn it is, and a turn is one storage call. A process that gets
no more turns has crashed. The storage never makes up a record, but may fail, lose records, and return older ones; the
processes remove each other's records and overwrite each other's records of keys. Then, at every moment, everything
every process was answered is right in the sense of C96: every root is the root of the map of the tree; errors say that
a storage call failed or that a record was not there, never that a record was bad; nothing panics. And no record in the
storage is wrong. -/
theorem C99_right {B : Backend S Bytes32 Prim E} {seen : S → Bytes32 → Prim → Prop} (cut : E) (p : Profile) (H : HashFn) (s : S)
    (rs : Nat → List Sparse.Request) (schedule : List Nat) (maps : List (Entries Bytes)) (keys : List Bytes32)
    (h : Crew B seen cut p H s rs schedule maps keys) :
    let o := crew B cut p H s rs schedule
    (∀ i, (Watch.given (o.answered i)).AllRight (tape cut) p H ((Watch.given (o.answered i)).begun cut p H (rs i))) ∧
      ∀ m : Bytes32 → Option Prim, (∀ x q, m x = some q → seen o.storage x q) → Sound H m maps keys := by
  have hf := h.fine schedule.length
  have hp := fun i => (h.process schedule.length i hf).1
  rw [List.take_length] at hf hp
  refine ⟨hp, fun m hm => Valid.sound h.env ?_ h.solid⟩
  exact pure_allowed.2 (fun x q hx => hf.storage x q hx) m hm

/-- **C99**, what the turns mean: a process that starts now, on any storage, and gets all turns until its end does to the
storage what its program does to it, call by call, and gives the same answers. -/
theorem C99_alone (B : Backend S Bytes32 Prim E) (cut : E) (p : Profile) (H : HashFn) (rs : Nat → List Any.Request) (i : Nat)
    (o : Office S Bytes32 Prim E) (ho : o.answered i = []) :
    ∃ n, let o' := o.turns B (fun i => worker cut p H (rs i)) (List.replicate n i)
      o'.storage = ((Any.Bench.start o.storage).handleAll B p H (rs i)).2.storage ∧
      nextCall (worker cut p H (rs i)) (o'.answered i) = none ∧
      ((Any.Bench.start (⟨o'.answered i, none⟩ : Tape Bytes32 Prim E)).handleAll (tape cut) p H (rs i)).1 =
        ((Any.Bench.start o.storage).handleAll B p H (rs i)).1 ∧
      ((Any.Bench.start (⟨o'.answered i, none⟩ : Tape Bytes32 Prim E)).handleAll (tape cut) p H (rs i)).2.node =
        ((Any.Bench.start o.storage).handleAll B p H (rs i)).2.node := by
  obtain ⟨n, h1, h2, h3⟩ := (rep_requests B cut p H (rs i) (fun _ => Node.createPlaceholder)).alone i (fun i => worker cut p H (rs i)) (fun t => rfl) o ho
  exact ⟨n, h1, h2, congrArg (fun x => x.1.1) h3, congrArg (fun x => x.1.2) h3⟩

/-- **C99**, requests that have begun: a process that has come to its end has begun all its requests. -/
theorem C99_all (cut : E) (p : Profile) (H : HashFn) (rs : List Sparse.Request) (answered : List (Answered Bytes32 Prim E))
    (h : nextCall (worker cut p H (rs.map (Sparse.Request.asked H))) answered = none) :
    (Watch.given answered).begun cut p H rs = rs := by
  have key : ∀ (rs : List Sparse.Request) (c : Watch (Tape Bytes32 Prim E)), (c.handleAll (tape cut) p H rs).2.bench.storage.waiting = none →
      c.begun cut p H rs = rs := by
    intro rs
    induction rs with
    | nil => intro c _; rfl
    | cons r rs ih =>
      intro c h
      have hc : c.bench.storage.waiting = none := by
        apply Classical.byContradiction
        intro hc
        rw [waits cut p _ c hc] at h
        exact hc h
      unfold Watch.begun
      rw [if_pos hc, ih (c.handle (tape cut) p H r).2 h]
  rw [nextCall, worker_eq] at h
  exact key rs _ h

namespace ConcurrentSparse
open AnyStorageStale (Moody moody moody_noInvention build)
open SparseMany (ending)

/-! ### The hypotheses can be met -/

/-- One process makes two updates and removes a key. Another one writes a record of the same key, for a tree of its
own; it loads the tree that the first one makes, if need be at the second attempt, and removes the other key. -/
def jobs : Nat → List Sparse.Request
  | 0 => [.call 0 (.update (keyAt 0x00) [1]), .call 0 (.update (keyAt 0x80) [2]), .root 0, .call 0 (.delete (keyAt 0x80)), .root 0]
  | 1 => [.call 0 (.update (keyAt 0x80) [3]), .load 1 [(keyAt 0x80, [2]), (keyAt 0x00, [1])], .load 1 [(keyAt 0x80, [2]), (keyAt 0x00, [1])],
      .call 1 (.delete (keyAt 0x00)), .root 1, .root 0]
  | _ => []

/-- They take turns, in the middle of their calls. -/
def turnsTaken : List Nat := [0, 1, 0, 0, 1, 1, 0, 0, 0, 0, 1, 0, 1, 0, 1, 0, 0, 1, 0, 1, 0, 1]

/-- An empty storage. -/
def sampleStorage : Moody Bytes32 Prim := ⟨[], []⟩

/-- The maps they lead to. -/
def sampleMaps : List (Entries Bytes) :=
  [[(keyAt 0x00, [1])], [(keyAt 0x80, [3])], [(keyAt 0x80, [2]), (keyAt 0x00, [1])], [(keyAt 0x80, [2])]]

/-- The hypotheses of the theorems are met. -/
theorem sample_crew : Crew moody (fun s k v => (k, v) ∈ s.past) "cut" build Tests.toyHash sampleStorage jobs turnsTaken sampleMaps [keyAt 0x00, keyAt 0x80] := by
  refine ⟨moody_noInvention, fun i => ?_, fun i => ?_, fun n i => ?_, by decide +kernel, ⟨by decide +kernel, by decide +kernel, by decide +kernel⟩, fun m hm => ?_⟩
  · match i with
    | 0 => decide +kernel
    | 1 => decide +kernel
    | _ + 2 => intro op h; cases h
  · have h : ∀ kv ∈ (jobs 1).flatMap (fun r => match r with | .load _ kv => [kv] | _ => []),
        kv ≠ [] ∧ (keysOf kv).Nodup ∧ (zero32, zero32) ∉ digests Tests.toyHash kv := by decide +kernel
    match i with
    | 0 => intro j kv hm; simp [jobs] at hm
    | 1 => exact fun j kv hm => h kv (List.mem_flatMap.2 ⟨_, hm, by simp⟩)
    | _ + 2 => intro j kv hm; cases hm
  · have h : ∀ x ∈ (List.range 23).flatMap fun n => (List.range 2).flatMap fun i =>
        crewAims moody "cut" build Tests.toyHash sampleStorage jobs (turnsTaken.take n) i, x ∈ sampleMaps := by decide +kernel
    have h : ∀ n < 23, ∀ i < 2, ∀ kv ∈ crewAims moody "cut" build Tests.toyHash sampleStorage jobs (turnsTaken.take n) i, kv ∈ sampleMaps :=
      fun n hn i hi kv hkv => h kv (List.mem_flatMap.2 ⟨n, List.mem_range.2 hn, List.mem_flatMap.2 ⟨i, List.mem_range.2 hi, hkv⟩⟩)
    have h' : ∀ i, ∀ n < 23, ∀ kv ∈ crewAims moody "cut" build Tests.toyHash sampleStorage jobs (turnsTaken.take n) i, kv ∈ sampleMaps := by
      intro i n hn
      match i with
      | 0 => exact h n hn 0 (by omega)
      | 1 => exact h n hn 1 (by omega)
      | _ + 2 => intro kv hkv; cases hkv
    by_cases hn : n < 23
    · exact h' i n hn
    · rw [List.take_of_length_le (show turnsTaken.length ≤ n by simp [turnsTaken]; omega)]
      exact h' i 22 (by omega)
  · have : m = fun _ => none := by
      funext x
      cases hx : m x with
      | none => rfl
      | some q => exact absurd (hm x q hx) (by simp [sampleStorage])
    rw [this]
    exact sound_new _ _ _

/-- After some turns. -/
def after (n : Nat) : Office (Moody Bytes32 Prim) Bytes32 Prim String :=
  crew moody "cut" build Tests.toyHash sampleStorage jobs (turnsTaken.take n)

/-- The answers to the requests a process has begun after some turns. -/
def answers (n i : Nat) : List Nat :=
  let c := Watch.given ((after n).answered i)
  (c.handleAll (tape "cut") build Tests.toyHash (c.begun "cut" build Tests.toyHash (jobs i))).1.map ending

/-- After seven turns the first process is in its second update, the second one at its first `load`; that finds nothing, the next one
succeeds. The removal of the first process finds the record that the second one wrote for the key. -/
example : ((Watch.given ((after 7).answered 0)).begun "cut" build Tests.toyHash (jobs 0)).length = 2 ∧
    ((Watch.given ((after 7).answered 1)).begun "cut" build Tests.toyHash (jobs 1)).length = 3 ∧
    answers 22 0 = [0, 0, 5, 0, 5] ∧ answers 22 1 = [0, 2, 0, 0, 5, 5] ∧
    nextCall (worker "cut" build Tests.toyHash ((jobs 0).map (Sparse.Request.asked Tests.toyHash))) ((after 22).answered 0) = none ∧
    nextCall (worker "cut" build Tests.toyHash ((jobs 1).map (Sparse.Request.asked Tests.toyHash))) ((after 22).answered 1) = none := by
  decide +kernel

end ConcurrentSparse
end FuelMerkle.Props
