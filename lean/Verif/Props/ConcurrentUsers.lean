import Verif.Proofs.ConcurrentUsersTrees
import Verif.Props.ConcurrentSparseLive
import Verif.Props.ConcurrentLive
import Verif.Props.ConcurrentBinary
import Verif.Props.ConcurrentSum

/-
C106: processes that share a storage and are given their requests one by one, at any moment, by users who react to what
any process has answered.
-/
namespace FuelMerkle.Props
open FuelMerkle Spec
variable {S E : Type}

set_option maxRecDepth 100000

/-! ### It does not matter when the requests come -/

/-- **C106**, sparse trees: whatever happens, requests given at any moment and turns in any order, the storage and what
every process was answered are the same as if every process had had all its requests from the start, and only those
turns had been given that were used. -/
theorem C106_sparse_fixed (B : Backend S Bytes32 Sparse.Prim E) (cut : E) (p : Profile) (H : HashFn) (s : S) (hs : List (Happening Sparse.Request)) :
    let x := Sparse.Any.hall B cut p H s hs
    ∃ schedule, schedule.Sublist (turnsIn hs) ∧ x.office = Sparse.Any.crew B cut p H s x.requests schedule := by
  obtain ⟨schedule, h1, h2⟩ := Hall.fixed B (Sparse.Any.queues cut p H) hs (.start s)
  exact ⟨schedule, h1, h2 _ fun _ => List.prefix_rfl⟩

/-- **C106**, binary trees over one list of leaves. -/
theorem C106_binary_fixed (B : Backend S Nat Binary.Prim E) (cut : E) (p : Profile) (H : HashFn) (L : List Bytes) (s : S) (hs : List (Happening Binary.Any.Wish)) :
    let x := Binary.Any.hall B cut p H L s hs
    ∃ schedule, schedule.Sublist (turnsIn hs) ∧ x.office = (Office.start s).turns B (fun i => Binary.Any.worker cut p H L (x.requests i)) schedule := by
  obtain ⟨schedule, h1, h2⟩ := Hall.fixed B (Binary.Any.queues cut p H L) hs (.start s)
  exact ⟨schedule, h1, h2 _ fun _ => List.prefix_rfl⟩

/-- **C106**, binary trees over any lists. -/
theorem C106_calls_fixed (B : Backend S Nat Binary.Prim E) (cut : E) (p : Profile) (H : HashFn) (s : S) (hs : List (Happening (Nat × Binary.Op))) :
    let x := Binary.Any.callHall B cut p H s hs
    ∃ schedule, schedule.Sublist (turnsIn hs) ∧ x.office = Binary.Any.crowd B cut p H s x.requests schedule := by
  obtain ⟨schedule, h1, h2⟩ := Hall.fixed B (Binary.Any.queues_calls cut p H) hs (.start s)
  exact ⟨schedule, h1, h2 _ fun _ => List.prefix_rfl⟩

/-- **C106**, sum trees. -/
theorem C106_sum_fixed (B : Backend S Bytes32 Sum.Node E) (cut : E) (p : Profile) (H : HashFn) (s : S) (hs : List (Happening (Nat × Sum.Op))) :
    let x := Sum.Any.hall B cut p H s hs
    ∃ schedule, schedule.Sublist (turnsIn hs) ∧ x.office = Sum.Any.crew B cut p H s x.requests schedule := by
  obtain ⟨schedule, h1, h2⟩ := Hall.fixed B (Sum.Any.queues cut p H) hs (.start s)
  exact ⟨schedule, h1, h2 _ fun _ => List.prefix_rfl⟩

/-! ### What was answered stays answered -/

/-- **C106**, sparse trees: what a process has answered at some moment are the first of the answers it has given at any
later moment, whatever happens in between. So somebody who reacts to an answer reacts to one that stays. -/
theorem C106_sparse_stays (B : Backend S Bytes32 Sparse.Prim E) (cut : E) (p : Profile) (H : HashFn) (s : S) (hs later : List (Happening Sparse.Request)) (i : Nat) :
    let x := Sparse.Any.hall B cut p H s hs
    let y := Sparse.Any.hall B cut p H s (hs ++ later)
    (Sparse.Any.Watch.given (x.office.answered i)).told cut p H (x.requests i) <+:
      (Sparse.Any.Watch.given (y.office.answered i)).told cut p H (y.requests i) := by
  intro x y
  have e : y = x.after B _ later := Hall.after_append B _ hs later _
  obtain ⟨qs, hq⟩ := Hall.requests_grow B (fun rs => Sparse.Any.worker cut p H (rs.map (Sparse.Request.asked H))) i later x
  obtain ⟨as, ha⟩ := Hall.answered_grow B (fun rs => Sparse.Any.worker cut p H (rs.map (Sparse.Request.asked H))) i later x
  rw [e, ← hq, ← ha]
  exact Sparse.Any.told_more cut p _ _ _ _

/-- **C106**, the same for binary trees over one list of leaves. -/
theorem C106_binary_stays (B : Backend S Nat Binary.Prim E) (cut : E) (p : Profile) (H : HashFn) (L : List Bytes) (s : S) (hs later : List (Happening Binary.Any.Wish)) (i : Nat) :
    let x := Binary.Any.hall B cut p H L s hs
    let y := Binary.Any.hall B cut p H L s (hs ++ later)
    (Binary.Any.Watch.start (⟨x.office.answered i, none⟩ : Tape Nat Binary.Prim E)).told cut p H L (x.requests i) <+:
      (Binary.Any.Watch.start (⟨y.office.answered i, none⟩ : Tape Nat Binary.Prim E)).told cut p H L (y.requests i) := by
  intro x y
  have e : y = x.after B _ later := Hall.after_append B _ hs later _
  obtain ⟨qs, hq⟩ := Hall.requests_grow B (Binary.Any.worker cut p H L) i later x
  obtain ⟨as, ha⟩ := Hall.answered_grow B (Binary.Any.worker cut p H L) i later x
  rw [e, ← hq, ← ha]
  exact Binary.Any.wishes_more cut p L _ _ _ _

/-- **C106**, the same for binary trees over any lists. -/
theorem C106_calls_stay (B : Backend S Nat Binary.Prim E) (cut : E) (p : Profile) (H : HashFn) (s : S) (hs later : List (Happening (Nat × Binary.Op))) (i : Nat) :
    let x := Binary.Any.callHall B cut p H s hs
    let y := Binary.Any.callHall B cut p H s (hs ++ later)
    Binary.Any.told cut p H (x.requests i) (x.office.answered i) <+: Binary.Any.told cut p H (y.requests i) (y.office.answered i) := by
  intro x y
  have e : y = x.after B _ later := Hall.after_append B _ hs later _
  obtain ⟨qs, hq⟩ := Hall.requests_grow B (Binary.Any.caller cut p H) i later x
  obtain ⟨as, ha⟩ := Hall.answered_grow B (Binary.Any.caller cut p H) i later x
  rw [e, ← hq, ← ha]
  exact Binary.Any.calls_more cut p _ _ _ _

/-- **C106**, the same for sum trees. -/
theorem C106_sum_stays (B : Backend S Bytes32 Sum.Node E) (cut : E) (p : Profile) (H : HashFn) (s : S) (hs later : List (Happening (Nat × Sum.Op))) (i : Nat) :
    let x := Sum.Any.hall B cut p H s hs
    let y := Sum.Any.hall B cut p H s (hs ++ later)
    Sum.Any.told cut p H (x.requests i) (x.office.answered i) <+: Sum.Any.told cut p H (y.requests i) (y.office.answered i) := by
  intro x y
  have e : y = x.after B _ later := Hall.after_append B _ hs later _
  obtain ⟨qs, hq⟩ := Hall.requests_grow B (Sum.Any.worker cut p H) i later x
  obtain ⟨as, ha⟩ := Hall.answered_grow B (Sum.Any.worker cut p H) i later x
  rw [e, ← hq, ← ha]
  exact Sum.Any.calls_more cut p _ _ _ _

/-! ### Everything is right -/

/-- **C106**, binary trees over one list of leaves: with requests that come at any moment, everything every process was
answered is right, as in C98, and no record in the storage is wrong. -/
theorem C106_binary_right {B : Backend S Nat Binary.Prim E} {seen : S → Nat → Binary.Prim → Prop} (cut : E) (p : Profile) (H : HashFn) (L : List Bytes) (s : S)
    (hs : List (Happening Binary.Any.Wish)) (hB : NoInvention B seen) (hL : L.length < p.leafLimit)
    (hw : ∀ i w, Happening.request i w ∈ hs → w.InRange L) (ht : Binary.Any.Trusted H L seen s) :
    let x := Binary.Any.hall B cut p H L s hs
    (∀ i, (Binary.Any.Watch.start (⟨x.office.answered i, none⟩ : Tape Nat Binary.Prim E)).AllRight (tape cut) p H L (x.requests i)) ∧
      Binary.Any.Trusted H L seen x.office.storage := by
  intro x
  obtain ⟨schedule, _, h⟩ := C106_binary_fixed B cut p H L s hs
  have := C98_right cut p H L s x.requests schedule hB hL (fun i w hm => hw i w (Hall.requested B _ hs i w hm)) ht
  rw [← h] at this
  exact this

/-- **C106**, binary trees over one list of leaves, on a storage that behaves like a map: everything that is not under way
came true, as in C100, unless a storage call made for that very wish failed. -/
theorem C106_binary_succeeds {B : Backend S Nat Binary.Prim E} {ok : S → Prop} {view : S → Nat → Option Binary.Prim} (cut : E) (p : Profile) (H : HashFn) (L : List Bytes)
    (n : Nat) (s : S) (hs : List (Happening Binary.Any.Wish)) (hB : MapLike B ok view) (hL : L.length < p.leafLimit)
    (hw : ∀ i w, Happening.request i w ∈ hs → w.InRange L) (hok : ok s) (ht : Binary.Any.Trusted H L (fun s k v => view s k = some v) s)
    (hh : Binary.Any.Held n (view s)) (hc : Binary.Any.Whole L.length (view s)) (i : Nat) :
    let x := Binary.Any.hall B cut p H L s hs
    (Binary.Any.Watch.start (⟨x.office.answered i, none⟩ : Tape Nat Binary.Prim E)).FailsOnlyWithStorage cut p H L n (x.requests i) := by
  intro x
  obtain ⟨schedule, _, h⟩ := C106_binary_fixed B cut p H L s hs
  have := (C100_succeeds cut p H L n s x.requests schedule hB hL (fun i w hm => hw i w (Hall.requested B _ hs i w hm)) hok ht hh hc).1 i
  rw [← h] at this
  exact this

/-- **C106**, binary trees over one list of leaves, handing over: at some moment all records of the first `m` leaves are in
the storage, which behaves like a map; from then on any process, new or in the middle of its work, can be told to `load`
them, and it will, unless a storage call made for that fails. The same for every push, and every proof of a leaf its tree has. -/
theorem C106_binary_handover {B : Backend S Nat Binary.Prim E} {ok : S → Prop} {view : S → Nat → Option Binary.Prim} (cut : E) (p : Profile) (H : HashFn) (L : List Bytes)
    (s : S) (hs later : List (Happening Binary.Any.Wish)) (hB : MapLike B ok view) (hL : L.length < p.leafLimit)
    (hw : ∀ i w, Happening.request i w ∈ hs ++ later → w.InRange L) (hok : ok s) (ht : Binary.Any.Trusted H L (fun s k v => view s k = some v) s)
    (hc : Binary.Any.Whole L.length (view s)) (i m : Nat) :
    let x := Binary.Any.hall B cut p H L s hs
    let y := Binary.Any.hall B cut p H L s (hs ++ later)
    let c := (Binary.Any.Watch.start (⟨y.office.answered i, none⟩ : Tape Nat Binary.Prim E)).after (tape cut) p H L (x.requests i)
    Binary.Any.Held m (view x.office.storage) → c.FailsOnlyWithStorage cut p H L m ((y.requests i).drop (x.requests i).length) := by
  intro x y c hm
  have ey : y = x.after B _ later := Hall.after_append B _ hs later _
  obtain ⟨sch, _, h1⟩ := Hall.fixed B (Binary.Any.queues cut p H L) hs (.start s)
  obtain ⟨sch', _, h2⟩ := Hall.fixed B (Binary.Any.queues cut p H L) later x
  have hgrow : ∀ i, x.requests i <+: y.requests i := fun i => by rw [ey]; exact Hall.requests_grow B _ i later x
  have e1 : x.office = (Office.start s).turns B (fun i => Binary.Any.worker cut p H L (y.requests i)) sch := h1 y.requests hgrow
  have e2 : y.office = (Office.start s).turns B (fun i => Binary.Any.worker cut p H L (y.requests i)) (sch ++ sch') := by
    have := h2 y.requests fun i => by rw [ey]; exact List.prefix_rfl
    rw [← ey, e1] at this
    rw [Office.turns_append]
    exact this
  have e0 : x.office = (Office.start s).turns B (fun i => Binary.Any.worker cut p H L (x.requests i)) sch := h1 x.requests fun _ => List.prefix_rfl
  have htake : (y.requests i).take (x.requests i).length = x.requests i := by
    obtain ⟨qs, hq⟩ := hgrow i
    rw [← hq]
    exact List.take_left
  have hlast := C100_handover cut p H L s y.requests sch sch' hB hL (fun i w hm => hw i w (Hall.requested B _ _ i w hm)) hok ht hc i (x.requests i).length m
  rw [← e1, ← e2, htake] at hlast
  refine (hlast hm ?_).1
  exact Binary.Any.consumed cut p L (y.requests i) (x.requests i) (hgrow i)
    (by rw [e0]; exact Office.follows B (fun i => Binary.Any.worker cut p H L (x.requests i)) sch (Office.start s) (fun _ pre c a post he => by simp [Office.start] at he) i)
    (by rw [e2]; exact Office.follows B (fun i => Binary.Any.worker cut p H L (y.requests i)) (sch ++ sch') (Office.start s) (fun _ pre c a post he => by simp [Office.start] at he) i)
    (by rw [ey]; exact Hall.answered_grow B _ i later x)

/-- **C106**, binary trees over any lists: what a call returned is what the leaves of its tree say, as in C103, or a storage
call of this process is to blame. -/
theorem C106_calls_fair (B : Backend S Nat Binary.Prim E) (cut : E) (p : Profile) (H : HashFn) (s : S) (hs : List (Happening (Nat × Binary.Op))) (i : Nat) :
    let x := Binary.Any.callHall B cut p H s hs
    let answered := x.office.answered i
    (∀ j, (Binary.leavesTo j (x.requests i)).length < p.leafLimit) → (∀ y ∈ x.requests i, Binary.indicesOk [y.2]) →
    ∀ (n j : Nat) (op : Binary.Op) (o : Binary.Out E), (x.requests i)[n]? = some (j, op) →
    (Binary.Any.told cut p H (x.requests i) answered)[n]? = some o →
    (∀ m < n, ∀ d, (x.requests i)[m]? = some (j, .push d) → (Binary.Any.told cut p H (x.requests i) answered)[m]? = some (.push (.ok ()))) →
    Binary.Any.Fair H answered (Binary.leavesTo j ((x.requests i).take n)) op o := by
  intro x answered hn hi n j op o hx ho hb
  obtain ⟨schedule, _, h⟩ := C106_calls_fixed B cut p H s hs
  have := C103_fair B cut p H s x.requests schedule i hn hi n j op o hx
  rw [← h] at this
  exact this ho hb

/-- **C106**, sum trees: all that the calls of a process have returned is what the machine of C90 returns on a map of its
own, in which exactly those writes fail that failed for this process, as in C102. -/
theorem C106_sum_own (B : Backend S Bytes32 Sum.Node E) (cut : E) (p : Profile) (H : HashFn) (s : S) (hs : List (Happening (Nat × Sum.Op))) (i : Nat) :
    let x := Sum.Any.hall B cut p H s hs
    let answered := x.office.answered i
    (∀ j, (Sum.leavesOf j (x.requests i)).length < 2 ^ 64) → (∀ j, ∀ y ∈ Sum.leavesOf j (x.requests i), y.1 < 2 ^ 64) →
    Sum.Any.told cut p H (x.requests i) answered =
      ((Sum.Lists.run p H (x.requests i) ⟨Sum.Any.fate answered, fun _ => []⟩).1).take (Sum.Any.told cut p H (x.requests i) answered).length := by
  intro x answered hn hf
  obtain ⟨schedule, _, h⟩ := C106_sum_fixed B cut p H s hs
  have := C102_own B cut p H s x.requests schedule i hn hf
  rw [← h] at this
  exact this

/-! ### Sparse trees -/

section
open Sparse Sparse.Any

/-- As `Crew` of C99, with requests that come one by one: the storage never makes up a record; `keys` are the keys of all
calls; `maps` are maps, among them those that what was begun at any moment leads to or tries to lead to; the hash function
behaves on all that; the maps loaded are maps; and no record that can come back from before the start is wrong for all
these maps and keys. -/
structure Users (B : Backend S Bytes32 Prim E) (seen : S → Bytes32 → Prim → Prop) (cut : E) (p : Profile) (H : HashFn) (s : S)
    (hs : List (Happening Sparse.Request)) (maps : List (Entries Bytes)) (keys : List Bytes32) : Prop where
  backend : NoInvention B seen
  calls : ∀ i j op, Happening.request i (.call j op) ∈ hs → op.key ∈ keys
  loads : ∀ i j kv, Happening.request i (.load j kv) ∈ hs → kv ≠ [] ∧ (keysOf kv).Nodup ∧ (zero32, zero32) ∉ digests H kv
  aims : ∀ n i, ∀ kv ∈ hallAims B cut p H s (hs.take n) i, kv ∈ maps
  solid : ∀ kv ∈ maps, (keysOf kv).Nodup ∧ (zero32, zero32) ∉ digests H kv
  ideal : Ideal H (maps.flatMap (msgsOf H)) keys
  sound : ∀ m : Bytes32 → Option Prim, (∀ x q, m x = some q → seen s x q) → Sound H m maps keys

variable {B : Backend S Bytes32 Prim E} {seen : S → Bytes32 → Prim → Prop} {cut : E} {p : Profile} {H : HashFn} {s : S} {hs : List (Happening Sparse.Request)}
  {maps : List (Entries Bytes)} {keys : List Bytes32}

theorem mem_callsOf {rs : List Sparse.Request} {op : Sparse.Op} (h : op ∈ callsOf rs) : ∃ j, Sparse.Request.call j op ∈ rs := by
  obtain ⟨x, hx, e⟩ := List.mem_filterMap.1 h
  cases x <;> cases e
  exact ⟨_, hx⟩

theorem Users.env (h : Users B seen cut p H s hs maps keys) : Env H (fun a => ∃ kv ∈ maps, a ∈ msgsOf H kv) (· ∈ keys) :=
  ⟨fun a b ha hb => h.ideal.distinct a (List.mem_flatMap.2 ha) b (List.mem_flatMap.2 hb), fun a ha => h.ideal.nonzero a (List.mem_flatMap.2 ha),
    fun a k ha => h.ideal.apart a (List.mem_flatMap.2 ha) k⟩

/-- What one process has begun. -/
theorem Users.process (h : Users B seen cut p H s hs maps keys) (n i : Nat)
    (hf : (hall B cut p H s (hs.take n)).office.Fine seen (Allowed H (fun a => ∃ kv ∈ maps, a ∈ msgsOf H kv) (· ∈ keys))) :
    let x := hall B cut p H s (hs.take n)
    let c := Watch.given (x.office.answered i)
    c.AllRight (tape cut) p H (c.begun cut p H (x.requests i)) ∧
      Watched H (fun a => ∃ kv ∈ maps, a ∈ msgsOf H kv) (· ∈ keys) Tape.shows (c.handleAll (tape cut) p H (c.begun cut p H (x.requests i))).2 := by
  intro x c
  have hsub : ∀ r ∈ c.begun cut p H (x.requests i), Happening.request i r ∈ hs := fun r hr =>
    List.mem_of_mem_take (Hall.requested B _ _ i r (begun_sub (H := H) cut p _ c r hr))
  refine handleAll_watched (tape_noInvention cut) p h.env _ (Watched.start (pure_allowed.2 fun y q hx => ?_))
    (fun op ho => by obtain ⟨j, hj⟩ := mem_callsOf ho; exact h.calls i j op (hsub _ hj))
    (fun kv hkv => ⟨fun a ha => ⟨kv, h.aims n i kv hkv, ha⟩, (h.solid kv (h.aims n i kv hkv)).2⟩) (fun j kv hm => h.loads i j kv (hsub _ hm))
  rcases hx with hx | hx
  · exact hf.answered i y q hx
  · cases hx

theorem Users.fine (h : Users B seen cut p H s hs maps keys) (n : Nat) :
    (hall B cut p H s (hs.take n)).office.Fine seen (Allowed H (fun a => ∃ kv ∈ maps, a ∈ msgsOf H kv) (· ∈ keys)) := by
  induction n with
  | zero => exact ⟨fun x q hx => pure_allowed.1 (fun m hm => (h.sound m hm).valid h.solid) x q hx, fun i x q hx => by cases hx⟩
  | succ n ih =>
    rw [List.take_add_one]
    cases hn : hs[n]? with
    | none => rw [show (none : Option (Happening Sparse.Request)).toList = [] from rfl, List.append_nil]; exact ih
    | some y =>
      unfold hall
      rw [Hall.after_append]
      cases y with
      | request i r => exact ih
      | turn i =>
        show (Office.turn B (fun j => worker cut p H (((hall B cut p H s (hs.take n)).requests j).map (Sparse.Request.asked H))) i
          (hall B cut p H s (hs.take n)).office).Fine seen _
        refine ih.turn h.backend i fun x q hc => ?_
        obtain ⟨_, h2⟩ := h.process n i ih
        have h3 := pure_allowed.1 h2.pure x q
        rw [begun_storage] at h3
        refine h3 (.inr ?_)
        rw [nextCall, worker_eq] at hc
        exact hc

/-- **C106**, sparse trees: with requests that come at any moment, everything every process was answered is right, as in
C99, and no record in the storage is wrong. -/
theorem C106_sparse_right {B : Backend S Bytes32 Prim E} {seen : S → Bytes32 → Prim → Prop} (cut : E) (p : Profile) (H : HashFn) (s : S)
    (hs : List (Happening Sparse.Request)) (maps : List (Entries Bytes)) (keys : List Bytes32) (h : Users B seen cut p H s hs maps keys) :
    let x := hall B cut p H s hs
    (∀ i, (Watch.given (x.office.answered i)).AllRight (tape cut) p H ((Watch.given (x.office.answered i)).begun cut p H (x.requests i))) ∧
      ∀ m : Bytes32 → Option Prim, (∀ k q, m k = some q → seen x.office.storage k q) → Sound H m maps keys := by
  have hf := h.fine hs.length
  have hp := fun i => (h.process hs.length i hf).1
  rw [List.take_length] at hf hp
  refine ⟨hp, fun m hm => Valid.sound h.env ?_ h.solid⟩
  exact pure_allowed.2 (fun x q hx => hf.storage x q hx) m hm

/-- All processes could have had their requests from the start. -/
theorem Users.crew (h : Users B seen cut p H s hs maps keys)
    (hd : ∀ i j op, Happening.request i (.call j op) ∈ hs → op.data ≠ none) (schedule : List Nat)
    (hx : (hall B cut p H s hs).office = Sparse.Any.crew B cut p H s (hall B cut p H s hs).requests schedule) :
    Crew B seen cut p H s (hall B cut p H s hs).requests schedule maps keys := by
  have hreq : ∀ i r, r ∈ (hall B cut p H s hs).requests i → Happening.request i r ∈ hs := fun i r hr => Hall.requested B _ _ i r hr
  refine ⟨h.backend, fun i op ho => ?_, fun i j kv hm => h.loads i j kv (hreq i _ hm), fun n i kv hkv => ?_, h.solid, h.ideal, h.sound⟩
  · obtain ⟨j, hj⟩ := mem_callsOf ho
    exact h.calls i j op (hreq i _ hj)
  · have hl := h.aims hs.length i kv
    rw [List.take_length] at hl
    refine hl ?_
    simp only [hallAims]
    rw [hx]
    have hpre : (Sparse.Any.crew B cut p H s (hall B cut p H s hs).requests (schedule.take n)).answered i <+:
        (Sparse.Any.crew B cut p H s (hall B cut p H s hs).requests schedule).answered i := by
      conv => rhs; rw [← List.take_append_drop n schedule]
      unfold Sparse.Any.crew
      rw [Office.turns_append]
      exact Office.answered_turns B _ i _ _
    obtain ⟨as, has⟩ := hpre
    rw [← has]
    exact aims_more cut p _ as (Watch.given ((Sparse.Any.crew B cut p H s (hall B cut p H s hs).requests (schedule.take n)).answered i))
      (Watch.given ((Sparse.Any.crew B cut p H s (hall B cut p H s hs).requests (schedule.take n)).answered i ++ as)) rfl rfl rfl rfl (fun op ho => by obtain ⟨j, hj⟩ := mem_callsOf ho; exact hd i j op (hreq i _ hj)) kv hkv

/-- **C106**, handing over: at some moment the root of a map is in the storage, which behaves like a map; from then on any
process, new or in the middle of its work, can be told to `load` it, and it will, unless a storage call made for that
fails. The same for every update. (No process removes a key or writes empty data.) -/
theorem C106_sparse_handover {B : Backend S Bytes32 Prim E} {ok : S → Prop} {view : S → Bytes32 → Option Prim} (cut : E) (p : Profile) (H : HashFn) (s : S)
    (hs later : List (Happening Sparse.Request)) (maps : List (Entries Bytes)) (keys : List Bytes32) (hB : MapLike B ok view)
    (h : Users B (fun s k v => ok s → view s k = some v) cut p H s (hs ++ later) maps keys)
    (hd : ∀ i j op, Happening.request i (.call j op) ∈ hs ++ later → op.data ≠ none) (hok : ok s) (hl : Linked (view s)) (i : Nat) :
    let x := hall B cut p H s hs
    let y := hall B cut p H s (hs ++ later)
    let k := (x.requests i).length
    let c := ((Watch.given (y.office.answered i)).handleAll (tape cut) p H (x.requests i)).2
    c.FailsOnlyWithStorage cut p H (fun kv => view x.office.storage (rootOf H kv) ≠ none) ((y.requests i).drop k) := by
  intro x y k c
  have ey : y = x.after B _ later := Hall.after_append B _ hs later _
  obtain ⟨sch, _, h1⟩ := Hall.fixed B (queues cut p H) hs (.start s)
  obtain ⟨sch', _, h2⟩ := Hall.fixed B (queues cut p H) later x
  have hgrow : ∀ i, x.requests i <+: y.requests i := fun i => by rw [ey]; exact Hall.requests_grow B _ i later x
  have e1 : x.office = Sparse.Any.crew B cut p H s y.requests sch := h1 y.requests hgrow
  have e2 : y.office = Sparse.Any.crew B cut p H s y.requests (sch ++ sch') := by
    have := h2 y.requests fun i => by rw [ey]; exact List.prefix_rfl
    rw [← ey, e1] at this
    unfold Sparse.Any.crew at this ⊢
    rw [Office.turns_append]
    exact this
  have hc := h.crew hd (sch ++ sch') e2
  have e0 : x.office = Sparse.Any.crew B cut p H s x.requests sch := h1 x.requests fun _ => List.prefix_rfl
  have htake : (y.requests i).take k = x.requests i := by
    obtain ⟨qs, hq⟩ := hgrow i
    rw [← hq]
    exact List.take_left
  have hlast := (C101_handover cut p H s y.requests sch sch' maps keys hB hc
    (fun i op ho => by obtain ⟨j, hj⟩ := mem_callsOf ho; exact hd i j op (Hall.requested B _ _ i _ hj)) hok hl i k)
  rw [← e1, ← e2, htake] at hlast
  refine (hlast ?_).1
  exact consumed cut p (y.requests i) (x.requests i) (hgrow i) (by rw [e0]; exact crew_attends B cut p H s x.requests sch i)
    (by rw [e2]; exact crew_attends B cut p H s y.requests (sch ++ sch') i) (by rw [ey]; exact Hall.answered_grow B _ i later x)

end

namespace ConcurrentUsers
open Sparse Sparse.Any
open AnyStorage (journal journal_mapLike journal_neverFails Journal Fresh held blank blank_fresh)
open AnyStorageStale (build)
open SparseMany (ending)

/-! ### The hypotheses can be met -/

/-- A user has process 0 write a key; when that is done, another one; in the meantime somebody else has process 1 write
the second key. Process 0 is given a turn too many. -/
def first : List (Happening Sparse.Request) :=
  [.request 0 (.call 0 (.update (keyAt 0x00) [1])), .turn 0, .turn 0, .turn 0, .request 1 (.call 0 (.update (keyAt 0x80) [3])), .turn 1,
    .request 0 (.call 0 (.update (keyAt 0x80) [2])), .turn 0, .turn 0, .turn 0, .turn 0, .turn 0, .request 0 (.root 0), .turn 1]

/-- Then process 1, which was told the root that process 0 answered, is asked to load that map, and to write the second key in it. -/
def second : List (Happening Sparse.Request) :=
  [.request 1 (.load 1 [(keyAt 0x80, [2]), (keyAt 0x00, [1])]), .turn 1, .turn 1, .request 1 (.call 1 (.update (keyAt 0x80) [3])), .turn 1, .turn 1, .turn 1, .turn 1, .turn 1,
    .turn 1, .request 1 (.root 1)]

/-- The maps they lead to. -/
def sampleMaps : List (Entries Bytes) :=
  [[(keyAt 0x00, [1])], [(keyAt 0x80, [3])], [(keyAt 0x80, [2]), (keyAt 0x00, [1])], [(keyAt 0x80, [3]), (keyAt 0x00, [1])]]

theorem idle (hs : List (Happening Sparse.Request)) (h : ∀ y ∈ hs, match y with | .request i _ => i < 2 | .turn _ => True) (i : Nat) (hi : 2 ≤ i) :
    (hall (journal none none) "cut" build Tests.toyHash blank hs).requests i = [] := by
  rw [List.eq_nil_iff_forall_not_mem]
  intro r hr
  have := h _ (Hall.requested _ _ _ i r hr)
  simp only at this
  omega

theorem sample_users : Users (journal none none) (fun s k v => Fresh s → held s k = some v) "cut" build Tests.toyHash blank (first ++ second) sampleMaps
    [keyAt 0x00, keyAt 0x80] := by
  refine ⟨C96_mapLike (journal_mapLike _ _), fun i j op hm => ?_, fun i j kv hm => ?_, fun n i => ?_, by decide +kernel,
    ⟨by decide +kernel, by decide +kernel, by decide +kernel⟩, (C101_fresh _ _ _ _ blank_fresh fun _ => rfl).2⟩
  · have h : ∀ y ∈ first ++ second, (match y with | .request _ (.call _ op) => decide (op.key ∈ [keyAt 0x00, keyAt 0x80]) | _ => true) = true := by decide +kernel
    simpa using h _ hm
  · have h : ∀ y ∈ first ++ second, (match y with
        | .request _ (.load _ kv) => decide (kv ≠ [] ∧ (keysOf kv).Nodup ∧ (zero32, zero32) ∉ digests Tests.toyHash kv) | _ => true) = true := by decide +kernel
    simpa using h _ hm
  · have h : ∀ x ∈ (List.range 26).flatMap fun n => (List.range 2).flatMap fun i =>
        hallAims (journal none none) "cut" build Tests.toyHash blank ((first ++ second).take n) i, x ∈ sampleMaps := by decide +kernel
    have h' : ∀ i, ∀ n < 26, ∀ kv ∈ hallAims (journal none none) "cut" build Tests.toyHash blank ((first ++ second).take n) i, kv ∈ sampleMaps := by
      intro i n hn kv hkv
      by_cases hi : i < 2
      · exact h kv (List.mem_flatMap.2 ⟨n, List.mem_range.2 hn, List.mem_flatMap.2 ⟨i, List.mem_range.2 hi, hkv⟩⟩)
      · simp only [hallAims] at hkv
        rw [idle _ (fun y hy => (show ∀ y ∈ first ++ second, match y with | .request i _ => i < 2 | .turn _ => True by simp [first, second]) y (List.mem_of_mem_take hy)) i
          (by omega)] at hkv
        cases hkv
    by_cases hn : n < 26
    · exact h' i n hn
    · rw [List.take_of_length_le (show (first ++ second).length ≤ n by simp [first, second]; omega)]
      exact h' i 25 (by omega)

/-- The other hypotheses of the theorems are met. -/
example : MapLike (journal (K := Bytes32) (V := Prim) none none) Fresh held ∧ Fresh (blank : Journal Bytes32 Prim) ∧ Linked (held (blank : Journal Bytes32 Prim)) ∧
    ∀ i j op, Happening.request i (.call j op) ∈ first ++ second → op.data ≠ none := by
  refine ⟨journal_mapLike _ _, blank_fresh, (fun _ _ _ _ h => by cases h), fun i j op hm => ?_⟩
  have h : ∀ y ∈ first ++ second, (match y with | .request _ (.call _ op) => op.data.isSome | _ => true) = true := by decide +kernel
  have h' : op.data.isSome = true := h _ hm
  intro e
  rw [e] at h'
  cases h'

/-- What a process has answered, by number. -/
def heard (hs : List (Happening Sparse.Request)) (i : Nat) : List Nat :=
  let x := hall (journal none none) "cut" build Tests.toyHash blank hs
  ((Watch.given (x.office.answered i)).told "cut" build Tests.toyHash (x.requests i)).map ending

/-- Process 0 has answered everything when process 1 is asked to load the map; its root is there then, not before. In the end process 1 has
answered everything as well; not all turns were used. -/
example : heard (first.take 6) 0 = [0] ∧ heard (first.take 9) 0 = [0] ∧ heard first 0 = [0, 0, 5] ∧ heard first 1 = [0] ∧ heard (first ++ second.take 1) 1 = [0] ∧
    heard (first ++ second) 1 = [0, 0, 0, 5] ∧
    held (hall (journal none none) "cut" build Tests.toyHash blank (first.take 9)).office.storage (rootOf Tests.toyHash [(keyAt 0x80, [2]), (keyAt 0x00, [1])]) = none ∧
    held (hall (journal none none) "cut" build Tests.toyHash blank first).office.storage (rootOf Tests.toyHash [(keyAt 0x80, [2]), (keyAt 0x00, [1])]) ≠ none ∧
    ((hall (journal none none) "cut" build Tests.toyHash blank first).office.answered 0).length < (turnsIn first).count 0 := by
  decide +kernel

/-- Binary trees: process 0 pushes a leaf; when that is done, another one; process 1 is then asked to load both, and to prove one. -/
def wishes : List (Happening Binary.Any.Wish) :=
  [.request 0 (.push 0), .turn 0, .turn 0, .request 0 (.push 0), .turn 0, .turn 0, .request 1 (.load 3 2), .turn 1, .request 1 (.prove 3 1), .turn 1, .turn 1]

/-- The hypotheses of `C106_binary_right` and `C106_binary_succeeds` are met. -/
example : NoInvention (journal (K := Nat) (V := Binary.Prim) none none) (fun s k v => Fresh s → held s k = some v) ∧
    MapLike (journal (K := Nat) (V := Binary.Prim) none none) Fresh held ∧ AnyStorageAppend.leaves.length < build.leafLimit ∧
    (∀ i w, Happening.request i w ∈ wishes → w.InRange AnyStorageAppend.leaves) ∧ Fresh (blank : Journal Nat Binary.Prim) ∧
    Binary.Any.Trusted Tests.toyHash AnyStorageAppend.leaves (fun s k v => held s k = some v) blank ∧ Binary.Any.Held 0 (held (blank : Journal Nat Binary.Prim)) ∧
    Binary.Any.Whole AnyStorageAppend.leaves.length (held (blank : Journal Nat Binary.Prim)) := by
  refine ⟨C96_mapLike (journal_mapLike _ _), journal_mapLike _ _, by decide, ?_, blank_fresh, C100_fresh _ _ _ fun _ => rfl⟩
  intro i w h
  simp only [wishes, List.mem_cons, Happening.request.injEq, reduceCtorEq, false_or, List.not_mem_nil, or_false] at h
  rcases h with ⟨_, rfl⟩ | ⟨_, rfl⟩ | ⟨_, rfl⟩ | ⟨_, rfl⟩ <;> simp [Binary.Any.Wish.InRange, AnyStorageAppend.leaves]

/-- What a process has answered, by number. -/
def granted (hs : List (Happening Binary.Any.Wish)) (i : Nat) : List Nat :=
  let x := Binary.Any.hall (journal none none) "cut" build Tests.toyHash AnyStorageAppend.leaves blank hs
  ((Binary.Any.Watch.start (⟨x.office.answered i, none⟩ : Tape Nat Binary.Prim String)).told "cut" build Tests.toyHash AnyStorageAppend.leaves (x.requests i)).map
    AnyStorageAppend.ending

/-- And that of `C106_binary_handover`: when both pushes have been answered, the records of both leaves are there. -/
example : Binary.Any.Held 2 (held (Binary.Any.hall (journal none none) "cut" build Tests.toyHash AnyStorageAppend.leaves blank (wishes.take 6)).office.storage) := by
  intro h k hk
  have h1 : h < 2 := by
    by_contra hn
    have := Nat.pow_le_pow_right (show 2 > 0 by decide) (show 2 ≤ h by omega)
    have := Nat.le_mul_of_pos_left (2 ^ h) (show 0 < k + 1 by omega)
    omega
  have h2 : k < 2 := by
    have := Nat.le_mul_of_pos_right (k + 1) (Nat.two_pow_pos h)
    omega
  have h3 : ∀ h < 2, ∀ k < 2, (k + 1) * 2 ^ h ≤ 2 →
      held (Binary.Any.hall (journal none none) "cut" build Tests.toyHash AnyStorageAppend.leaves blank (wishes.take 6)).office.storage (Binary.subtreeKey h k) ≠ none := by
    decide +kernel
  exact h3 h h1 k h2 hk

example : granted (wishes.take 4) 0 = [1] ∧ granted wishes 0 = [1, 1] ∧ granted (wishes.take 9) 1 = [1] ∧ granted wishes 1 = [1, 1] := by decide +kernel

/-- Trees over different lists: the leaf of process 1 goes where that of process 0 was. -/
def calls : List (Happening (Nat × Binary.Op)) :=
  [.request 0 (0, .push [1]), .turn 0, .turn 0, .request 1 (2, .push [9]), .turn 1, .request 0 (0, .push [2]), .turn 0, .turn 0, .request 0 (0, .root), .request 0 (0, .prove 0), .turn 0, .turn 0, .turn 0]

/-- The hypotheses of `C106_calls_fair` are met. -/
example : let x := Binary.Any.callHall (journal none none) "cut" build Tests.toyHash blank calls
    (∀ j, (Binary.leavesTo j (x.requests 0)).length < build.leafLimit) ∧ (∀ y ∈ x.requests 0, Binary.indicesOk [y.2]) ∧
    (Binary.Any.told "cut" build Tests.toyHash (x.requests 0) (x.office.answered 0)).length = 4 := by
  have e : (Binary.Any.callHall (journal (K := Nat) (V := Binary.Prim) none none) "cut" build Tests.toyHash blank calls).requests 0 =
    [(0, .push [1]), (0, .push [2]), (0, .root), (0, .prove 0)] := by decide +kernel
  refine ⟨fun j => ?_, ?_, by decide +kernel⟩
  · rw [e]
    have h3 : 2 < build.leafLimit := by decide
    by_cases hj : 0 = j
    · subst hj
      exact h3
    · simp only [Binary.leavesTo, Binary.callsTo, List.filter, hj, decide_false, List.map_nil, Binary.pushes, List.length_nil]
      omega
  · rw [e]
    simp [Binary.indicesOk]

/-- Sum trees: process 0 asks for its root, sees it, and pushes another leaf. -/
def sums : List (Happening (Nat × Sum.Op)) :=
  [.request 0 (0, .push 1 [1]), .turn 0, .request 1 (0, .push 7 [7]), .request 0 (0, .root), .turn 1, .request 0 (0, .push 2 [2]), .turn 0, .turn 0, .request 0 (0, .root)]

/-- The hypotheses of `C106_sum_own` are met. -/
example : let x := Sum.Any.hall (journal none none) "cut" build Tests.toyHash blank sums
    (∀ j, (Sum.leavesOf j (x.requests 0)).length < 2 ^ 64) ∧ (∀ j, ∀ y ∈ Sum.leavesOf j (x.requests 0), y.1 < 2 ^ 64) ∧
    (Sum.Any.told "cut" build Tests.toyHash (x.requests 0) (x.office.answered 0)).length = 4 := by
  have e : (Sum.Any.hall (journal (K := Bytes32) (V := Sum.Node) none none) "cut" build Tests.toyHash blank sums).requests 0 =
    [(0, .push 1 [1]), (0, .root), (0, .push 2 [2]), (0, .root)] := by decide +kernel
  refine ⟨fun j => ?_, fun j y hy => ?_, by decide +kernel⟩
  · rw [e]
    by_cases hj : 0 = j
    · subst hj
      decide +kernel
    · simp only [Sum.leavesOf, Sum.callsOn, List.filter, hj, decide_false, List.map_nil, Sum.pushed, List.length_nil]
      decide +kernel
  · rw [e] at hy
    by_cases hj : 0 = j
    · subst hj
      revert y
      decide +kernel
    · simp only [Sum.leavesOf, Sum.callsOn, List.filter, hj, decide_false, List.map_nil, Sum.pushed] at hy
      cases hy

end ConcurrentUsers
end FuelMerkle.Props
