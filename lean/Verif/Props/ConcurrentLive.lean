import Verif.Proofs.ConcurrentLive
import Verif.Proofs.ConcurrentSparse
import Verif.Props.Concurrent

/-
C100: processes that work on one storage, each with its own binary trees over one list of leaves: nobody fails but for
a failure of the storage.
-/
namespace FuelMerkle.Props
open FuelMerkle Spec Binary Binary.Any
variable {S E : Type}

set_option maxRecDepth 100000

/-- A good start. -/
theorem live_start {ok : S → Prop} {view : S → Nat → Option Prim} {H : HashFn} {L : List Bytes} {n : Nat} {s : S}
    (hs : ok s) (ht : Trusted H L (fun s k v => view s k = some v) s) (hh : Held n (view s)) (hc : Whole L.length (view s)) :
    (Office.start s : Office S Nat Prim E).Fine (fun s k v => ok s → view s k = some v) (Fits H L) ∧
      Alive L.length (fun _ m y => m = 0 ∧ First n y) ok view (Office.start s : Office S Nat Prim E) := by
  refine ⟨⟨fun x q hx q' hc => trusted_pure.1 ht x q q' (hx hs) hc, fun i x q hx => by cases hx⟩, hs, ?_, ?_, ?_, fun i m y hm => by rw [hm.1]; exact Nat.zero_le _⟩
  · rintro x y hx ⟨h, k, h', k', rfl, rfl, b0, b1, b2⟩
    have := hc h k h' k' b0
    rw [subtreeKey_eq, subtreeKey_eq] at this
    exact this hx b1 b2
  · rintro i y (⟨_, _, _, h, k, rfl, hb⟩ | ⟨v, r, hy⟩ | ⟨x, q, hy, _⟩)
    · have := hh h k hb
      rw [subtreeKey_eq] at this
      exact this
    · cases hy
    · cases hy
  · intro i pre c a post e
    cases pre <;> cases e

/-- **C100**. As in C98, any number of processes work at the same time on one storage, with binary trees over the same
list of leaves, their calls mixed in any order; but now the storage behaves like a map. Its calls may fail, and a write
that fails may still have been done. At the start it has right records only, it has those of the first `n` leaves, and
with the record of a subtree it has those of all subtrees within. Then, at every moment, everything that a process was
wished and that is not under way came true, unless one of the storage calls made for that very wish failed: every push
and every proof of a leaf that its tree has, and every `load` of at most `n` leaves. So the processes are not in each
other's way, wherever they are stopped and whoever meets a failure. And the storage is as good as at the start. -/
theorem C100_succeeds {B : Backend S Nat Prim E} {ok : S → Prop} {view : S → Nat → Option Prim} (cut : E) (p : Profile) (H : HashFn) (L : List Bytes) (n : Nat)
    (s : S) (ws : Nat → List Wish) (schedule : List Nat) (hB : MapLike B ok view) (hL : L.length < p.leafLimit)
    (hw : ∀ i, ∀ w ∈ ws i, w.InRange L) (hs : ok s) (ht : Trusted H L (fun s k v => view s k = some v) s) (hh : Held n (view s)) (hc : Whole L.length (view s)) :
    let o := (Office.start s).turns B (fun i => worker cut p H L (ws i)) schedule
    (∀ i, (Watch.start (⟨o.answered i, none⟩ : Tape Nat Prim E)).FailsOnlyWithStorage cut p H L n (ws i)) ∧
      ok o.storage ∧ Trusted H L (fun s k v => view s k = some v) o.storage ∧ Held n (view o.storage) ∧ Whole L.length (view o.storage) := by
  obtain ⟨h0, h1⟩ := live_start (E := E) hs ht hh hc
  obtain ⟨hf, ha⟩ := alive_turns (C96_mapLike hB) hB cut p hL ws hw schedule h0 h1
  refine ⟨fun i => (alive_process cut p hL (ws i) (hw i) hf ha i fun y hy => ⟨rfl, hy⟩).1, ha.fit, ?_, ?_, ?_⟩
  · exact trusted_pure.2 fun x q q' hx hc => hf.storage x q (fun _ => hx) q' hc
  · intro h k hb
    rw [subtreeKey_eq]
    exact ha.known 0 _ (.inl ⟨0, Nat.zero_le _, rfl, h, k, rfl, hb⟩)
  · intro h k h' k' b0 hx b1 b2
    rw [subtreeKey_eq] at hx ⊢
    exact ha.closed _ _ hx ⟨h, k, h', k', rfl, rfl, b0, b1, b2⟩

/-- **C100**, storage that works: if its calls do not fail, everything that is not under way came true. -/
theorem C100_working {B : Backend S Nat Prim E} {ok : S → Prop} {view : S → Nat → Option Prim} (cut : E) (p : Profile) (H : HashFn) (L : List Bytes) (n : Nat)
    (s : S) (ws : Nat → List Wish) (schedule : List Nat) (hB : MapLike B ok view) (hok : NeverFails B ok) (hL : L.length < p.leafLimit)
    (hw : ∀ i, ∀ w ∈ ws i, w.InRange L) (hs : ok s) (ht : Trusted H L (fun s k v => view s k = some v) s) (hh : Held n (view s)) (hc : Whole L.length (view s)) (i : Nat) :
    let o := (Office.start s).turns B (fun i => worker cut p H L (ws i)) schedule
    (Watch.start (⟨o.answered i, none⟩ : Tape Nat Prim E)).AllSucceed cut p H L n (ws i) := by
  obtain ⟨h0, h1⟩ := live_start (E := E) hs ht hh hc
  obtain ⟨hf, ha⟩ := alive_turns (C96_mapLike hB) hB cut p hL ws hw schedule h0 h1
  exact (alive_process cut p hL (ws i) (hw i) hf ha i fun y hy => ⟨rfl, hy⟩).2.1 (no_failure hB hok _ schedule _ hs (fun _ _ _ h => by cases h) i)

/-- **C100**, what others see: once a process `i` has a tree with `m` leaves, after some of its wishes, a process that begins
later can `load` it, whatever any process does in the meantime. -/
theorem C100_visible {B : Backend S Nat Prim E} {ok : S → Prop} {view : S → Nat → Option Prim} (cut : E) (p : Profile) (H : HashFn) (L : List Bytes)
    (s : S) (ws : Nat → List Wish) (schedule later : List Nat) (hB : MapLike B ok view) (hL : L.length < p.leafLimit)
    (hw : ∀ i, ∀ w ∈ ws i, w.InRange L) (hs : ok s) (ht : Trusted H L (fun s k v => view s k = some v) s) (hc : Whole L.length (view s)) (i j k m : Nat) :
    let o := (Office.start s).turns B (fun i => worker cut p H L (ws i)) schedule
    let done := (Watch.start (⟨o.answered i, none⟩ : Tape Nat Prim E)).after (tape cut) p H L ((ws i).take k)
    done.bench.storage.waiting = none → done.count j = some m →
      Held m (view o.storage) ∧
      ∀ i', o.answered i' = [] →
        let o' := o.turns B (fun i => worker cut p H L (ws i)) later
        (Watch.start (⟨o'.answered i', none⟩ : Tape Nat Prim E)).FailsOnlyWithStorage cut p H L m (ws i') := by
  intro o done hr hm
  obtain ⟨h0, h1⟩ := live_start (E := E) (n := 0) hs ht (fun h k hb => by
    have := Nat.two_pow_pos h
    have e : (k + 1) * 2 ^ h = k * 2 ^ h + 2 ^ h := by ring
    omega) hc
  obtain ⟨hf, ha⟩ := alive_turns (C96_mapLike hB) hB cut p hL ws hw schedule h0 h1
  have hheld : Held m (view o.storage) :=
    alive_held cut p hL ((ws i).take k) (fun w h => hw i w (List.mem_of_mem_take h)) hf ha i j m hr hm
  refine ⟨hheld, fun i' hi' => ?_⟩
  obtain ⟨hf', ha'⟩ := alive_turns (C96_mapLike hB) hB cut p hL ws hw later hf (ha.begin i' hheld)
  exact (alive_process cut p hL (ws i') (hw i') hf' ha' i' fun y hy => .inr ⟨rfl, by rw [hi']; rfl, hy⟩).1

/-- **C100**, what is handed over between running processes: from any moment on, every process, whatever it has done
before and whatever others do in the meantime, can `load` every number of leaves that were all in the storage at that
moment. The first `k` wishes of the process come before; the answers used for the others were given after that
moment. -/
theorem C100_handover {B : Backend S Nat Prim E} {ok : S → Prop} {view : S → Nat → Option Prim} (cut : E) (p : Profile) (H : HashFn) (L : List Bytes)
    (s : S) (ws : Nat → List Wish) (schedule later : List Nat) (hB : MapLike B ok view) (hL : L.length < p.leafLimit)
    (hw : ∀ i, ∀ w ∈ ws i, w.InRange L) (hs : ok s) (ht : Trusted H L (fun s k v => view s k = some v) s) (hc : Whole L.length (view s)) (i k m : Nat) :
    let o := (Office.start s).turns B (fun i => worker cut p H L (ws i)) schedule
    let o' := (Office.start s).turns B (fun i => worker cut p H L (ws i)) (schedule ++ later)
    let c := (Watch.start (⟨o'.answered i, none⟩ : Tape Nat Prim E)).after (tape cut) p H L ((ws i).take k)
    Held m (view o.storage) → (o.answered i).length + c.bench.storage.answered.length ≤ (o'.answered i).length →
      c.FailsOnlyWithStorage cut p H L m ((ws i).drop k) ∧
        ((∀ c e, (c, Except.error e) ∉ o'.answered i) → c.AllSucceed cut p H L m ((ws i).drop k)) := by
  intro o o' c hm hlen
  obtain ⟨h0, h1⟩ := live_start (E := E) (n := 0) hs ht (fun h k hb => (not_first ⟨h, k, rfl, hb⟩).elim) hc
  obtain ⟨hf, ha⟩ := alive_turns (C96_mapLike hB) hB cut p hL ws hw schedule h0 h1
  obtain ⟨hf', ha'⟩ := alive_turns (C96_mapLike hB) hB cut p hL ws hw later hf (ha.begin i hm)
  have := alive_after (n := m) cut p hL (ws i) (hw i) hf' ha' i k
  rw [← Office.turns_append] at this
  exact this fun y hy => ⟨(o.answered i).length, hlen, .inr ⟨rfl, rfl, hy⟩⟩

/-- **C100**, a fresh start: an empty storage is a good one. -/
theorem C100_fresh (H : HashFn) (L : List Bytes) {view : S → Nat → Option Prim} (s : S) (hs : ∀ x, view s x = none) :
    Trusted H L (fun s k v => view s k = some v) s ∧ Held 0 (view s) ∧ Whole L.length (view s) := by
  refine ⟨fun _ _ _ q hq => ?_, fun h k hk => ?_, fun h k h' k' _ hx => absurd (hs _) hx⟩
  · simp only [hs] at hq; cases hq
  · have := Nat.two_pow_pos h
    have e : (k + 1) * 2 ^ h = k * 2 ^ h + 2 ^ h := by ring
    omega

namespace ConcurrentLive
open AnyStorage (journal journal_mapLike journal_neverFails Journal Fresh held blank blank_fresh)
open AnyStorageStale (build)
open AnyStorageAppend (leaves ending)

/-! ### The hypotheses can be met -/

/-- The first process pushes four leaves and asks for a proof; the second one pushes five leaves at the same time; the
third one loads a tree with four leaves, goes on to five, and asks for a proof. The fourth
one pushes a leaf, and loads a tree with four leaves after that. -/
def jobs : Nat → List Wish
  | 0 => [.push 0, .push 0, .push 0, .push 0, .prove 0 2]
  | 1 => [.push 3, .push 3, .push 3, .push 3, .push 3, .prove 3 1]
  | 2 => [.load 1 4, .push 1, .prove 1 4]
  | 3 => [.push 0, .load 1 4, .prove 1 3]
  | _ => []

/-- The first two and the fourth take turns; the second one is in the middle of its fourth push when the first one has its four
leaves. Then the third one begins. -/
def schedule : List Nat := [0, 1, 1, 0, 0, 1, 3, 0, 0, 0, 0, 1]
def later : List Nat := [2, 1, 2, 1, 3, 2, 0, 1, 2, 0, 1, 2, 3, 0, 3, 3]

/-- After some turns; the storage may fail at the write with the number `slow`. -/
def after (is : List Nat) (slow : Option Nat := none) : Office (Journal Nat Prim) Nat Prim String :=
  (Office.start blank).turns (journal none slow) (fun i => worker "cut" build Tests.toyHash leaves (jobs i)) is

/-- How the wishes of a process ended, and whether the process waits for the storage. -/
def endings : List Wish → Watch (Tape Nat Prim String) → List (Nat × Bool)
  | [], _ => []
  | w :: ws, c =>
    let d := c.grant (tape "cut") build Tests.toyHash leaves w
    (ending d.1, d.2.bench.storage.waiting.isSome) :: endings ws d.2

theorem jobs_inRange : ∀ i, ∀ w ∈ jobs i, w.InRange leaves := by
  intro i
  match i with
  | 0 => simp [jobs, Wish.InRange]
  | 1 => simp [jobs, Wish.InRange]
  | 2 => simp [jobs, Wish.InRange, leaves]
  | 3 => simp [jobs, Wish.InRange, leaves]
  | _ + 4 => simp [jobs]

/-- The hypotheses of the theorems are met. -/
example : MapLike (journal (K := Nat) (V := Prim) none none) Fresh held ∧ NeverFails (journal (K := Nat) (V := Prim) none none) Fresh ∧
    leaves.length < build.leafLimit ∧ (∀ i, ∀ w ∈ jobs i, w.InRange leaves) ∧ Fresh (blank : Journal Nat Prim) ∧
    Trusted Tests.toyHash leaves (fun s k v => held s k = some v) blank ∧ Held 0 (held (blank : Journal Nat Prim)) ∧
    Whole leaves.length (held (blank : Journal Nat Prim)) :=
  ⟨journal_mapLike _ _, journal_neverFails, by decide, jobs_inRange, blank_fresh, C100_fresh _ _ _ fun _ => rfl⟩

/-- After the first turns the first process has a tree with four leaves, and the second one waits in the middle of a
push; the third one has not begun. -/
example : ((Watch.start (⟨(after schedule).answered 0, none⟩ : Tape Nat Prim String)).after (tape "cut") build Tests.toyHash leaves ((jobs 0).take 4)).count 0 = some 4 ∧
    ((Watch.start (⟨(after schedule).answered 0, none⟩ : Tape Nat Prim String)).after (tape "cut") build Tests.toyHash leaves ((jobs 0).take 4)).bench.storage.waiting.isSome = false ∧
    endings (jobs 0) (.start ⟨(after schedule).answered 0, none⟩) = [(1, false), (1, false), (1, false), (1, false), (2, true)] ∧
    (endings (jobs 1) (.start ⟨(after schedule).answered 1, none⟩)).take 4 = [(1, false), (1, false), (1, false), (2, true)] ∧
    (after schedule).answered 2 = [] := by
  decide +kernel

/-- In the end the first process and the third one are through; the second one has stopped again in the middle of a
request. -/
example : endings (jobs 0) (.start ⟨(after (schedule ++ later)).answered 0, none⟩) = [(1, false), (1, false), (1, false), (1, false), (1, false)] ∧
    (endings (jobs 1) (.start ⟨(after (schedule ++ later)).answered 1, none⟩)).take 6 = [(1, false), (1, false), (1, false), (1, false), (1, false), (2, true)] ∧
    endings (jobs 2) (.start ⟨(after (schedule ++ later)).answered 2, none⟩) = [(1, false), (1, false), (1, false)] := by
  decide +kernel

/-- `C100_handover` speaks of the fourth process: it had pushed a leaf before the four leaves were there, and its `load`
came after that. -/
example : let c := (Watch.start (⟨(after (schedule ++ later)).answered 3, none⟩ : Tape Nat Prim String)).after (tape "cut") build Tests.toyHash leaves ((jobs 3).take 1)
    (after schedule).answered 3 ≠ [] ∧
      ((after schedule).answered 3).length + c.bench.storage.answered.length ≤ ((after (schedule ++ later)).answered 3).length ∧
      endings (jobs 3) (.start ⟨(after (schedule ++ later)).answered 3, none⟩) = [(1, false), (1, false), (1, false)] := by
  decide +kernel

/-- The hypotheses are also met by a storage that reports a timeout at its sixth write, which it has done. -/
example : MapLike (journal (K := Nat) (V := Prim) none (some 5)) Fresh held := journal_mapLike _ _

/-- Then the second push of the second process fails, and it gives up its tree; the others are through in the end. -/
example : endings (jobs 0) (.start ⟨(after (schedule ++ later) (some 5)).answered 0, none⟩) = [(1, false), (1, false), (1, false), (1, false), (1, false)] ∧
    endings (jobs 1) (.start ⟨(after (schedule ++ later) (some 5)).answered 1, none⟩) = [(1, false), (2, false), (0, false), (0, false), (0, false), (0, false)] ∧
    endings (jobs 2) (.start ⟨(after (schedule ++ later) (some 5)).answered 2, none⟩) = [(1, false), (1, false), (1, false)] := by
  decide +kernel

end ConcurrentLive
end FuelMerkle.Props
