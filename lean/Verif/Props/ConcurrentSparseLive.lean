import Verif.Proofs.ConcurrentSparseLive
import Verif.Props.ConcurrentSparse

/-
C101: processes that work on one storage, each with its own sparse trees, which only grow: nobody fails but for a failure
of the storage.
-/
namespace FuelMerkle.Props
open FuelMerkle Spec Sparse Sparse.Any
variable {S E : Type}

set_option maxRecDepth 100000

section
variable {B : Backend S Bytes32 Prim E} {ok : S → Prop} {view : S → Bytes32 → Option Prim} {cut : E} {p : Profile} {H : HashFn} {s : S} {rs : Nat → List Sparse.Request}
  {schedule : List Nat} {maps : List (Entries Bytes)} {keys : List Bytes32}

/-- The messages that are hashed for some maps. -/
abbrev msgsFor (H : HashFn) (maps : List (Entries Bytes)) (a : Bytes) : Prop := ∃ kv ∈ maps, a ∈ msgsOf H kv

theorem begun_take (cut : E) (p : Profile) (H : HashFn) : ∀ (rs : List Sparse.Request) (k : Nat) (c : Watch (Tape Bytes32 Prim E)),
    c.begun cut p H (rs.take k) = (c.begun cut p H rs).take k
  | [], _, _ => by simp [Watch.begun]
  | _ :: _, 0, _ => rfl
  | r :: rs, k + 1, c => by
    simp only [List.take_succ_cons, Watch.begun]
    split
    · rw [List.take_succ_cons, begun_take cut p H rs k]
    · rfl

theorem aims_take {B : Backend S Bytes32 Prim E} (p : Profile) (H : HashFn) : ∀ (rs : List Sparse.Request) (k : Nat) (c : Watch S) (kv : Entries Bytes),
    kv ∈ c.aims B p H (rs.take k) → kv ∈ c.aims B p H rs
  | [], _, _, _, h => by simpa using h
  | _ :: _, 0, _, _, h => by simp [Watch.aims] at h
  | r :: rs, k + 1, c, kv, h => by
    simp only [List.take_succ_cons, Watch.aims, List.mem_append] at h ⊢
    exact h.imp_right (aims_take p H rs k _ kv)

/-- What has not begun does not matter. -/
theorem begun_succeed (cut : E) (p : Profile) (there : Entries Bytes → Prop) : ∀ (rs : List Sparse.Request) (c : Watch (Tape Bytes32 Prim E)),
    (c.FailsOnlyWithStorage cut p H there (c.begun cut p H rs) → c.FailsOnlyWithStorage cut p H there rs) ∧
      (c.AllSucceed cut p H there (c.begun cut p H rs) → c.AllSucceed cut p H there rs)
  | [], _ => ⟨fun h => h, fun h => h⟩
  | r :: rs, c => by
    by_cases hw : c.bench.storage.waiting = none
    · simp only [Watch.begun, hw, if_true]
      exact ⟨fun h => ⟨h.1, (begun_succeed cut p there rs _).1 h.2⟩, fun h => ⟨h.1, (begun_succeed cut p there rs _).2 h.2⟩⟩
    · have := waiting_requests (H := H) cut p there (r :: rs) c hw
      exact ⟨fun _ => this.2, fun _ => this.1⟩

/-- One process. -/
theorem Crew.live_process (h : Crew B (fun s k v => ok s → view s k = some v) cut p H s rs schedule maps keys)
    (hd : ∀ i, ∀ op ∈ callsOf (rs i), op.data ≠ none) (n i k : Nat) {first : Nat → Nat → Bytes32 → Prop} {there : Entries Bytes → Prop}
    (ha : Alive H (msgsFor H maps) first ok view (crew B cut p H s rs (schedule.take n)))
    (hth : ∀ kv, there kv → ∀ y, Below H (msgsFor H maps) (rootOf H kv) y → first i 0 y) :
    let A := (crew B cut p H s rs (schedule.take n)).answered i
    let c := Watch.given A
    let d := (c.handleAll (tape cut) p H ((rs i).take k)).2
    c.FailsOnlyWithStorage cut p H there ((rs i).take k) ∧ ((∀ c e, (c, Except.error e) ∉ A) → c.AllSucceed cut p H there ((rs i).take k)) ∧
      Any.Proper H (msgsFor H maps) A (first i) d.bench.storage ∧
      (d.bench.storage.waiting = none →
        Safe H (msgsFor H maps) (· ∈ keys) Tape.shows (At H (msgsFor H maps) A (first i)) (Any.Proper H (msgsFor H maps) A (first i)) d) := by
  intro A c d
  have hf := h.fine n
  have hsub := begun_sub (H := H) cut p ((rs i).take k) c
  have hsub' : ∀ r ∈ c.begun cut p H ((rs i).take k), r ∈ rs i := fun r hr => List.mem_of_mem_take (hsub r hr)
  have hstart : Safe H (msgsFor H maps) (· ∈ keys) Tape.shows (At H (msgsFor H maps) A (first i)) (Any.Proper H (msgsFor H maps) A (first i)) c := by
    refine ⟨Watched.start (pure_allowed.2 fun x q hx => ?_), ⟨⟨[], rfl⟩, fun x v hx => (by cases hx), fun x hx => (by cases hx)⟩, fun j t w hin e => ?_⟩
    · rcases hx with hx | hx
      · exact hf.answered i x q hx
      · cases hx
    · rw [← toNode_inj h.env (t := .empty) trivial w T.In.empty hin e]
      intro y hy; cases hy
  obtain ⟨h1, h2, h3, h4⟩ := allSucceed cut h.env (ha.sane i) p (c.begun cut p H ((rs i).take k)) c
    (fun kv ht y hb => ⟨[], rfl, .inl ⟨0, Nat.zero_le _, hth kv ht y hb⟩⟩) (fun op ho => by
      obtain ⟨x, hx, e⟩ := List.mem_filterMap.1 ho
      have ho' : op ∈ callsOf (rs i) := List.mem_filterMap.2 ⟨x, hsub' x hx, e⟩
      exact ⟨h.calls i op ho', hd i op ho'⟩)
    (fun kv hkv => by
      rw [begun_take] at hkv
      have := h.aims n i kv (aims_take p H _ k c kv hkv)
      exact ⟨fun a ha => ⟨kv, this, ha⟩, (h.solid kv this).2⟩)
    (fun j kv hm => h.loads i j kv (hsub' _ hm))
    hstart rfl
  refine ⟨(begun_succeed cut p there _ c).1 h1, fun hno => (begun_succeed cut p there _ c).2 (h2 hno), ?_, fun hw => ?_⟩
  · rw [begun_storage] at h3
    exact h3
  · have e : c.begun cut p H ((rs i).take k) = (rs i).take k := by
      refine C99_all cut p H _ A ?_
      rw [nextCall, worker_eq]
      exact hw
    rw [e] at h4
    exact h4 hw

theorem aims_rest (cut : E) (p : Profile) (H : HashFn) : ∀ (rs qs : List Sparse.Request) (c : Watch (Tape Bytes32 Prim E)) (kv : Entries Bytes),
    let d := (c.handleAll (tape cut) p H rs).2
    d.bench.storage.waiting = none → kv ∈ d.aims (tape cut) p H (d.begun cut p H qs) → kv ∈ c.aims (tape cut) p H (c.begun cut p H (rs ++ qs))
  | [], _, _, _ => fun _ h => h
  | r :: rs, qs, c, kv => by
    intro d hw h
    have hc : c.bench.storage.waiting = none := by
      by_cases hc : c.bench.storage.waiting = none
      · exact hc
      · have e := waits (H := H) cut p (r :: rs) c hc
        exact absurd (by rw [← e]; exact hw) hc
    simp only [List.cons_append, Watch.begun, hc, if_true, Watch.aims, List.mem_append]
    exact .inr (aims_rest cut p H rs qs (c.handle (tape cut) p H r).2 kv hw h)

/-- One process from some request on. -/
theorem Crew.live_after (h : Crew B (fun s k v => ok s → view s k = some v) cut p H s rs schedule maps keys)
    (hd : ∀ i, ∀ op ∈ callsOf (rs i), op.data ≠ none) (n i k : Nat) {first : Nat → Nat → Bytes32 → Prop} {there : Entries Bytes → Prop}
    (ha : Alive H (msgsFor H maps) first ok view (crew B cut p H s rs (schedule.take n))) :
    let A := (crew B cut p H s rs (schedule.take n)).answered i
    let d := ((Watch.given A).handleAll (tape cut) p H ((rs i).take k)).2
    (∀ kv, there kv → ∀ y, Below H (msgsFor H maps) (rootOf H kv) y → ∃ m, m + d.bench.storage.answered.length ≤ A.length ∧ first i m y) →
    d.FailsOnlyWithStorage cut p H there ((rs i).drop k) ∧ ((∀ c e, (c, Except.error e) ∉ A) → d.AllSucceed cut p H there ((rs i).drop k)) := by
  intro A d hth
  by_cases hw : d.bench.storage.waiting = none
  · obtain ⟨_, _, hplace, hsafe⟩ := h.live_process hd n i k (there := fun _ => False) ha (fun _ hf => hf.elim)
    have hsafe := hsafe hw
    obtain ⟨pre, hpre⟩ := hplace.place
    have hsub : ∀ r ∈ d.begun cut p H ((rs i).drop k), r ∈ rs i := fun r hr => List.mem_of_mem_drop (begun_sub (H := H) cut p _ d r hr)
    obtain ⟨h1, h2, _⟩ := allSucceed cut h.env (ha.sane i) p (there := there) (d.begun cut p H ((rs i).drop k)) d
      (fun kv ht y hb => by
        obtain ⟨m, hm, hf⟩ := hth kv ht y hb
        refine ⟨pre, hpre, .inl ⟨m, ?_, hf⟩⟩
        have : A.length = pre.length + d.bench.storage.answered.length := by rw [← List.length_append]; exact congrArg List.length hpre
        omega)
      (fun op ho => by
        obtain ⟨x, hx, e⟩ := List.mem_filterMap.1 ho
        have ho' : op ∈ callsOf (rs i) := List.mem_filterMap.2 ⟨x, hsub x hx, e⟩
        exact ⟨h.calls i op ho', hd i op ho'⟩)
      (fun kv hkv => by
        have := aims_rest cut p H _ _ _ kv hw hkv
        rw [List.take_append_drop] at this
        have := h.aims n i kv this
        exact ⟨fun a ha => ⟨kv, this, ha⟩, (h.solid kv this).2⟩)
      (fun j kv hm => h.loads i j kv (hsub _ hm))
      hsafe hw
    exact ⟨(begun_succeed cut p there _ d).1 h1, fun hno => (begun_succeed cut p there _ d).2 (h2 hno)⟩
  · have := waiting_requests (H := H) cut p there ((rs i).drop k) d hw
    exact ⟨this.2, fun _ => this.1⟩

/-- No record is wrong. -/
theorem Crew.live_valid (h : Crew B (fun s k v => ok s → view s k = some v) cut p H s rs schedule maps keys) (n : Nat) :
    Valid H (msgsFor H maps) (· ∈ keys) (view (crew B cut p H s rs (schedule.take n)).storage) :=
  (pure_allowed (look := fun s k v => ok s → view s k = some v)).2 (h.fine n).storage _ fun _ _ hx _ => hx

/-- All processes. -/
theorem Crew.live (hB : MapLike B ok view) (h : Crew B (fun s k v => ok s → view s k = some v) cut p H s rs schedule maps keys)
    (hd : ∀ i, ∀ op ∈ callsOf (rs i), op.data ≠ none) {first : Nat → Nat → Bytes32 → Prop} (n : Nat)
    (ha : Alive H (msgsFor H maps) first ok view (crew B cut p H s rs (schedule.take n))) (m : Nat) :
    Alive H (msgsFor H maps) first ok view (crew B cut p H s rs (schedule.take (n + m))) := by
  induction m with
  | zero => exact ha
  | succ m ih =>
    have hv := h.live_valid (n + m)
    have hv' := h.live_valid (n + m + 1)
    rw [← Nat.add_assoc]
    rw [List.take_add_one] at hv' ⊢
    cases hn : schedule[n + m]? with
    | none => rw [show (none : Option Nat).toList = [] from rfl, List.append_nil]; exact ih
    | some i =>
      rw [hn] at hv'
      unfold crew at hv' ⊢
      rw [Office.turns_append] at hv' ⊢
      refine ih.turn hB h.env i ?_ hv hv'
      have := (h.live_process hd (n + m) i (rs i).length (there := fun _ => False) ih (fun _ hf => hf.elim)).2.2.1
      rw [List.take_length] at this
      rw [worker_eq]
      exact this

theorem Crew.live_start (_ : Crew B (fun s k v => ok s → view s k = some v) cut p H s rs schedule maps keys) (hs : ok s) (hl : Linked (view s)) :
    Alive H (msgsFor H maps) (fun _ n y => n = 0 ∧ view s y ≠ none) ok view (crew B cut p H s rs (schedule.take 0)) := by
  refine ⟨hs, hl, ?_, fun i pre c a post e => ?_, fun i n y hn => by rw [hn.1]; exact Nat.zero_le _⟩
  · rintro i y (⟨_, _, _, hy⟩ | ⟨x, v, r, hy, _⟩ | ⟨x, q, hy, _⟩)
    · exact hy
    · cases hy
    · cases hy
  · cases pre <;> cases e

end

/-- **C101**. As in C99, any number of processes work at the same time on one storage, each with its own sparse trees, their
calls mixed in any order; but now the storage behaves like a map, and no call removes a key or writes empty data.
Calls of the storage may fail, and a write that fails may still have been done. At the start every record that a record
names as a child is there. Then, at every moment, everything that a process asked for and that is not under way came
true, unless one of the storage calls made for that very request failed: every update, and every `load` of a map whose
root was there at the start. So the processes are not in each other's way, wherever they are stopped and whoever meets a
failure, although they write records with the same keys. And the storage is as good as at the start, and has lost nothing. -/
theorem C101_succeeds {B : Backend S Bytes32 Prim E} {ok : S → Prop} {view : S → Bytes32 → Option Prim} (cut : E) (p : Profile) (H : HashFn) (s : S)
    (rs : Nat → List Sparse.Request) (schedule : List Nat) (maps : List (Entries Bytes)) (keys : List Bytes32) (hB : MapLike B ok view)
    (h : Crew B (fun s k v => ok s → view s k = some v) cut p H s rs schedule maps keys) (hd : ∀ i, ∀ op ∈ callsOf (rs i), op.data ≠ none)
    (hs : ok s) (hl : Linked (view s)) :
    let o := crew B cut p H s rs schedule
    (∀ i, (Watch.given (o.answered i)).FailsOnlyWithStorage cut p H (fun kv => view s (rootOf H kv) ≠ none) (rs i)) ∧
      ok o.storage ∧ Linked (view o.storage) ∧ Sound H (view o.storage) maps keys ∧ ∀ x, view s x ≠ none → view o.storage x ≠ none := by
  have ha := h.live hB hd 0 (h.live_start hs hl) schedule.length
  have hp := fun i => (h.live_process hd (0 + schedule.length) i (rs i).length (there := fun kv => view s (rootOf H kv) ≠ none) ha fun kv ht y hb =>
    ⟨rfl, below_there h.env hl (h.live_valid 0) ht hb⟩).1
  have hv := h.live_valid schedule.length
  simp only [Nat.zero_add, List.take_length] at ha hp hv
  exact ⟨hp, ha.fit, ha.linked, Valid.sound h.env hv h.solid, fun x hx => ha.known 0 x (.inl ⟨0, Nat.zero_le _, rfl, hx⟩)⟩

/-- **C101**, storage that works: if its calls do not fail, everything that is not under way came true. -/
theorem C101_working {B : Backend S Bytes32 Prim E} {ok : S → Prop} {view : S → Bytes32 → Option Prim} (cut : E) (p : Profile) (H : HashFn) (s : S)
    (rs : Nat → List Sparse.Request) (schedule : List Nat) (maps : List (Entries Bytes)) (keys : List Bytes32) (hB : MapLike B ok view) (hok : NeverFails B ok)
    (h : Crew B (fun s k v => ok s → view s k = some v) cut p H s rs schedule maps keys) (hd : ∀ i, ∀ op ∈ callsOf (rs i), op.data ≠ none)
    (hs : ok s) (hl : Linked (view s)) (i : Nat) :
    (Watch.given ((crew B cut p H s rs schedule).answered i)).AllSucceed cut p H (fun kv => view s (rootOf H kv) ≠ none) (rs i) := by
  have ha := h.live hB hd 0 (h.live_start hs hl) schedule.length
  have hp := (h.live_process hd (0 + schedule.length) i (rs i).length (there := fun kv => view s (rootOf H kv) ≠ none) ha fun kv ht y hb =>
    ⟨rfl, below_there h.env hl (h.live_valid 0) ht hb⟩).2.1
  simp only [Nat.zero_add, List.take_length] at hp
  exact hp (no_failure hB hok _ schedule _ hs (fun _ _ _ h => by cases h) i)

/-- **C101**, what others see: once a process `i` has a tree for a map, after some of its requests, its root is in the
storage; and a process that begins later can `load` every map whose root is there, and go on with it, whatever any
process does in the meantime. -/
theorem C101_visible {B : Backend S Bytes32 Prim E} {ok : S → Prop} {view : S → Bytes32 → Option Prim} (cut : E) (p : Profile) (H : HashFn) (s : S)
    (rs : Nat → List Sparse.Request) (schedule later : List Nat) (maps : List (Entries Bytes)) (keys : List Bytes32) (hB : MapLike B ok view)
    (h : Crew B (fun s k v => ok s → view s k = some v) cut p H s rs (schedule ++ later) maps keys) (hd : ∀ i, ∀ op ∈ callsOf (rs i), op.data ≠ none)
    (hs : ok s) (hl : Linked (view s)) :
    let o := crew B cut p H s rs schedule
    (∀ i j k, let done := ((Watch.given (o.answered i)).handleAll (tape cut) p H ((rs i).take k)).2
      done.bench.storage.waiting = none → done.kv j ≠ [] → view o.storage (rootOf H (done.kv j)) ≠ none) ∧
      ∀ i, o.answered i = [] → (Watch.given ((crew B cut p H s rs (schedule ++ later)).answered i)).FailsOnlyWithStorage cut p H
        (fun kv => view o.storage (rootOf H kv) ≠ none) (rs i) := by
  intro o
  have ha := h.live hB hd 0 (h.live_start hs hl) schedule.length
  rw [Nat.zero_add] at ha
  have hv := h.live_valid schedule.length
  have ho : crew B cut p H s rs ((schedule ++ later).take schedule.length) = o := by rw [List.take_left']; rfl
  refine ⟨fun i j k hw hne => ?_, fun i hi => ?_⟩
  · have hsafe := (h.live_process hd schedule.length i k (there := fun _ => False) ha (fun _ hf => hf.elim)).2.2.2
    rw [ho] at hsafe ha
    have hsafe := hsafe hw
    obtain ⟨t, w, hin, he, hroot⟩ := hsafe.watched.has j
    have h0 : t ≠ .empty := fun e => hne ((he.nil w).1 e)
    obtain ⟨pre, h1, h2⟩ := hsafe.all j t w hin hroot _ (mem_recKeys h0)
    rw [← he.root w]
    refine ha.known i _ ?_
    rw [h1]
    exact h2.more
  · rw [ho] at hv
    have hb := ha.begin i (more := fun y => view o.storage y ≠ none) (fun y hy => by rw [ho]; exact hy)
    have ha' := h.live hB hd schedule.length hb later.length
    have := (h.live_process hd (schedule.length + later.length) i (rs i).length (there := fun kv => view o.storage (rootOf H kv) ≠ none) ha' fun kv ht y hy => by
      have hlink := ha.linked
      rw [ho] at hlink
      exact .inr ⟨rfl, by rw [ho, hi]; rfl, below_there h.env hlink hv ht hy⟩).1
    rw [List.take_length, List.take_of_length_le (by simp)] at this
    exact this

/-- **C101**, what is handed over between running processes: from any moment on, every process, whatever it has done
before and whatever others do in the meantime, can `load` every map whose root is in the storage at that moment, and go
on with it. The first `k` requests of the process come before; the answers used for the others were given after that
moment. -/
theorem C101_handover {B : Backend S Bytes32 Prim E} {ok : S → Prop} {view : S → Bytes32 → Option Prim} (cut : E) (p : Profile) (H : HashFn) (s : S)
    (rs : Nat → List Sparse.Request) (schedule later : List Nat) (maps : List (Entries Bytes)) (keys : List Bytes32) (hB : MapLike B ok view)
    (h : Crew B (fun s k v => ok s → view s k = some v) cut p H s rs (schedule ++ later) maps keys) (hd : ∀ i, ∀ op ∈ callsOf (rs i), op.data ≠ none)
    (hs : ok s) (hl : Linked (view s)) (i k : Nat) :
    let o := crew B cut p H s rs schedule
    let o' := crew B cut p H s rs (schedule ++ later)
    let c := ((Watch.given (o'.answered i)).handleAll (tape cut) p H ((rs i).take k)).2
    (o.answered i).length + c.bench.storage.answered.length ≤ (o'.answered i).length →
    let there := fun kv => view o.storage (rootOf H kv) ≠ none
    c.FailsOnlyWithStorage cut p H there ((rs i).drop k) ∧
      ((∀ c e, (c, Except.error e) ∉ o'.answered i) → c.AllSucceed cut p H there ((rs i).drop k)) := by
  intro o o' c hlen there
  have ha := h.live hB hd 0 (h.live_start hs hl) schedule.length
  rw [Nat.zero_add] at ha
  have hv := h.live_valid schedule.length
  have ho : crew B cut p H s rs ((schedule ++ later).take schedule.length) = o := by rw [List.take_left']; rfl
  have hb := ha.begin i (more := fun y => view o.storage y ≠ none) (fun y hy => by rw [ho]; exact hy)
  have ha' := h.live hB hd schedule.length hb later.length
  have hlink := ha.linked
  rw [ho] at hlink hv
  have ho' : (schedule ++ later).take (schedule.length + later.length) = schedule ++ later := List.take_of_length_le (by simp)
  have hlast := h.live_after hd (schedule.length + later.length) i k (there := there) ha'
  rw [ho'] at hlast
  exact hlast fun kv ht y hy => ⟨(o.answered i).length, hlen, .inr ⟨rfl, by rw [ho], below_there h.env hlink hv ht hy⟩⟩

/-- **C101**, a fresh start: an empty storage is a good one. -/
theorem C101_fresh (H : HashFn) {ok : S → Prop} {view : S → Bytes32 → Option Prim} (s : S) (maps : List (Entries Bytes)) (keys : List Bytes32)
    (ho : ok s) (hs : ∀ x, view s x = none) :
    Linked (view s) ∧ ∀ m : Bytes32 → Option Prim, (∀ x q, m x = some q → ok s → view s x = some q) → Sound H m maps keys := by
  refine ⟨fun x h l r hx => (by rw [hs] at hx; cases hx), fun m hm => ?_⟩
  have : m = fun _ => none := by
    funext x
    cases hx : m x with
    | none => rfl
    | some q => exact absurd (hm x q hx ho) (by simp [hs])
  rw [this]
  exact sound_new _ _ _

namespace ConcurrentSparseLive
open AnyStorage (journal journal_mapLike journal_neverFails Journal Fresh held blank blank_fresh)
open AnyStorageStale (build)
open SparseMany (ending)

/-! ### The hypotheses can be met -/

/-- The first process writes two keys; the second one writes the same keys at the same time, one of them with other
data; the third one loads the map of the first one, and writes one of the keys. The fourth one writes a key, and loads the map of
the first one after that. -/
def jobs : Nat → List Sparse.Request
  | 0 => [.call 0 (.update (keyAt 0x00) [1]), .call 0 (.update (keyAt 0x80) [2]), .root 0]
  | 1 => [.call 0 (.update (keyAt 0x80) [3]), .call 0 (.update (keyAt 0x00) [1]), .root 0]
  | 2 => [.load 1 [(keyAt 0x80, [2]), (keyAt 0x00, [1])], .call 1 (.update (keyAt 0x80) [3]), .root 1]
  | 3 => [.call 0 (.update (keyAt 0x80) [3]), .load 1 [(keyAt 0x80, [2]), (keyAt 0x00, [1])], .root 1]
  | _ => []

/-- The first two and the fourth take turns; the second one is in the middle of its second update when the first one is through. Then
the third one begins. -/
def schedule : List Nat := [0, 1, 1, 3, 0, 0, 3, 1, 0, 0, 1]
def later : List Nat := [2, 1, 2, 3, 2, 2, 2, 2]

/-- The maps they lead to. -/
def sampleMaps : List (Entries Bytes) :=
  [[(keyAt 0x00, [1])], [(keyAt 0x80, [3])], [(keyAt 0x80, [2]), (keyAt 0x00, [1])], [(keyAt 0x00, [1]), (keyAt 0x80, [3])],
    [(keyAt 0x80, [3]), (keyAt 0x00, [1])]]

theorem crew_of (slow : Option Nat)
    (h : ∀ x ∈ (List.range 20).flatMap fun n => (List.range 4).flatMap fun i =>
      crewAims (journal none slow) "cut" build Tests.toyHash blank jobs ((schedule ++ later).take n) i, x ∈ sampleMaps) :
    Crew (journal none slow) (fun s k v => Fresh s → held s k = some v) "cut" build Tests.toyHash blank jobs (schedule ++ later) sampleMaps
      [keyAt 0x00, keyAt 0x80] := by
  refine ⟨C96_mapLike (journal_mapLike _ _), fun i => ?_, fun i => ?_, fun n i => ?_, by decide +kernel, ⟨by decide +kernel, by decide +kernel, by decide +kernel⟩,
    (C101_fresh _ _ _ _ blank_fresh fun _ => rfl).2⟩
  · match i with
    | 0 => decide +kernel
    | 1 => decide +kernel
    | 2 => decide +kernel
    | 3 => decide +kernel
    | _ + 4 => intro op h; cases h
  · have h : ∀ kv ∈ (jobs 2 ++ jobs 3).flatMap (fun r => match r with | .load _ kv => [kv] | _ => []),
        kv ≠ [] ∧ (keysOf kv).Nodup ∧ (zero32, zero32) ∉ digests Tests.toyHash kv := by decide +kernel
    match i with
    | 0 => intro j kv hm; simp [jobs] at hm
    | 1 => intro j kv hm; simp [jobs] at hm
    | 2 => exact fun j kv hm => h kv (List.mem_flatMap.2 ⟨_, List.mem_append_left _ hm, by simp⟩)
    | 3 => exact fun j kv hm => h kv (List.mem_flatMap.2 ⟨_, List.mem_append_right _ hm, by simp⟩)
    | _ + 4 => intro j kv hm; cases hm
  · have h : ∀ n < 20, ∀ i < 4, ∀ kv ∈ crewAims (journal none slow) "cut" build Tests.toyHash blank jobs ((schedule ++ later).take n) i, kv ∈ sampleMaps :=
      fun n hn i hi kv hkv => h kv (List.mem_flatMap.2 ⟨n, List.mem_range.2 hn, List.mem_flatMap.2 ⟨i, List.mem_range.2 hi, hkv⟩⟩)
    have h' : ∀ i, ∀ n < 20, ∀ kv ∈ crewAims (journal none slow) "cut" build Tests.toyHash blank jobs ((schedule ++ later).take n) i, kv ∈ sampleMaps := by
      intro i n hn
      match i with
      | 0 => exact h n hn 0 (by omega)
      | 1 => exact h n hn 1 (by omega)
      | 2 => exact h n hn 2 (by omega)
      | 3 => exact h n hn 3 (by omega)
      | _ + 4 => intro kv hkv; cases hkv
    by_cases hn : n < 20
    · exact h' i n hn
    · rw [List.take_of_length_le (show (schedule ++ later).length ≤ n by simp [schedule, later]; omega)]
      exact h' i 19 (by omega)

theorem sample_crew : Crew (journal none none) (fun s k v => Fresh s → held s k = some v) "cut" build Tests.toyHash blank jobs (schedule ++ later) sampleMaps
    [keyAt 0x00, keyAt 0x80] := crew_of _ (by decide +kernel)

/-- Also with a storage that reports a timeout at its second write, which it has done. -/
theorem sample_crew_failure : Crew (journal none (some 1)) (fun s k v => Fresh s → held s k = some v) "cut" build Tests.toyHash blank jobs (schedule ++ later) sampleMaps
    [keyAt 0x00, keyAt 0x80] := crew_of _ (by decide +kernel)

/-- The other hypotheses of the theorems are met. -/
example : MapLike (journal (K := Bytes32) (V := Prim) none none) Fresh held ∧ MapLike (journal (K := Bytes32) (V := Prim) none (some 1)) Fresh held ∧
    NeverFails (journal (K := Bytes32) (V := Prim) none none) Fresh ∧ (∀ i, ∀ op ∈ callsOf (jobs i), op.data ≠ none) ∧ Fresh (blank : Journal Bytes32 Prim) ∧
    Linked (held (blank : Journal Bytes32 Prim)) := by
  refine ⟨journal_mapLike _ _, journal_mapLike _ _, journal_neverFails, fun i => ?_, blank_fresh, fun _ _ _ _ h => by cases h⟩
  match i with
  | 0 => decide +kernel
  | 1 => decide +kernel
  | 2 => decide +kernel
  | 3 => decide +kernel
  | _ + 4 => intro op h; cases h

/-- After some turns. -/
def after (is : List Nat) (slow : Option Nat := none) : Office (Journal Bytes32 Prim) Bytes32 Prim String :=
  crew (journal none slow) "cut" build Tests.toyHash blank jobs is

/-- How the requests of a process ended, and whether the process waits for the storage. -/
def endings : List Sparse.Request → Watch (Tape Bytes32 Prim String) → List (Nat × Bool)
  | [], _ => []
  | r :: rs, c =>
    let d := c.handle (tape "cut") build Tests.toyHash r
    (ending d.1, d.2.bench.storage.waiting.isSome) :: endings rs d.2

/-- After the first turns the first process is through, and the second one waits in the middle of an update; the third one
has not begun. -/
example : endings (jobs 0) (Watch.given ((after schedule).answered 0)) = [(0, false), (0, false), (5, false)] ∧
    endings (jobs 1) (Watch.given ((after schedule).answered 1)) = [(0, false), (1, true), (5, true)] ∧
    (after schedule).answered 2 = [] ∧
    (((Watch.given ((after schedule).answered 0)).handleAll (tape "cut") build Tests.toyHash ((jobs 0).take 2)).2.kv 0) = [(keyAt 0x80, [2]), (keyAt 0x00, [1])] := by
  decide +kernel

/-- In the end all are through. -/
example : ∀ i < 4, endings (jobs i) (Watch.given ((after (schedule ++ later)).answered i)) = [(0, false), (0, false), (5, false)] := by
  decide +kernel

/-- `C101_handover` speaks of the fourth process: it had made calls before the map of the first one was there, and its `load`
came after that. -/
example : let c := ((Watch.given ((after (schedule ++ later)).answered 3)).handleAll (tape "cut") build Tests.toyHash ((jobs 3).take 1)).2
    (after schedule).answered 3 ≠ [] ∧
      ((after schedule).answered 3).length + c.bench.storage.answered.length ≤ ((after (schedule ++ later)).answered 3).length ∧
      held (blank : Journal Bytes32 Prim) (rootOf Tests.toyHash [(keyAt 0x80, [2]), (keyAt 0x00, [1])]) = none ∧
      held (after schedule).storage (rootOf Tests.toyHash [(keyAt 0x80, [2]), (keyAt 0x00, [1])]) ≠ none := by
  decide +kernel

/-- With the failure, the first update of the second process fails, and nothing else does. -/
example : endings (jobs 1) (Watch.given ((after (schedule ++ later) (some 1)).answered 1)) = [(1, false), (0, false), (5, false)] ∧
    endings (jobs 0) (Watch.given ((after (schedule ++ later) (some 1)).answered 0)) = [(0, false), (0, false), (5, false)] ∧
    endings (jobs 2) (Watch.given ((after (schedule ++ later) (some 1)).answered 2)) = [(0, false), (0, false), (5, false)] := by
  decide +kernel

end ConcurrentSparseLive
end FuelMerkle.Props
