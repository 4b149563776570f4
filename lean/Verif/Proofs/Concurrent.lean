import Verif.Spec.Concurrent
import Verif.Proofs.AnyStorageAppend

/-
Processes that share a storage.
-/
namespace FuelMerkle
variable {S K V E : Type} [DecidableEq K] [DecidableEq V]

omit [DecidableEq K] [DecidableEq V] in
/-- The records in what a process sees: found, or about to be written. -/
def Tape.shows (t : Tape K V E) (x : K) (q : V) : Prop :=
  (MethodCall.get x, Except.ok (some q)) ∈ t.answered ∨ t.waiting = some (.insert x q)

theorem Tape.ask_shows (cut : E) (c : MethodCall K V) (t : Tape K V E) {x : K} {q : V} (h : (t.ask cut c).2.shows x q) :
    t.shows x q ∨ c = .insert x q := by
  unfold Tape.ask at h
  split at h
  · exact .inl h
  · rcases h with h | h
    · exact .inl (.inl h)
    · exact .inr (Option.some.inj h)
  · rename_i hw ha
    split at h
    · rcases h with h | h
      · refine .inl (.inl ?_)
        rw [ha]
        exact List.mem_cons_of_mem _ h
      · exact .inl (.inr h)
    · rcases h with h | h
      · exact .inl (.inl h)
      · exact .inr (Option.some.inj h)

theorem tape_noInvention (cut : E) : NoInvention (tape (K := K) (V := V) cut) Tape.shows where
  found := by
    intro k t v t' h
    simp only [tape, Tape.ask] at h
    split at h
    · cases h
    · cases h
    · rename_i ha
      split at h
      · rename_i hc
        cases h
        refine .inl ?_
        rw [ha, hc]
        exact List.mem_cons_self
      · cases h
  get := by
    intro k t x v h
    rcases t.ask_shows cut _ h with h | h
    · exact h
    · cases h
  insert := by
    intro k w t x v h
    rcases t.ask_shows cut _ h with h | h
    · exact .inl h
    · cases h; exact .inr ⟨rfl, rfl⟩
  remove := by
    intro k t x v h
    rcases t.ask_shows cut _ h with h | h
    · exact h
    · cases h

/-- Records that all processes agree on: what is in the storage and what was found is in `ok`. -/
structure Office.Fine (seen : S → K → V → Prop) (ok : K → V → Prop) (o : Office S K V E) : Prop where
  storage : ∀ x q, seen o.storage x q → ok x q
  answered : ∀ i x q, (MethodCall.get x, Except.ok (some q)) ∈ o.answered i → ok x q

omit [DecidableEq K] [DecidableEq V] in
theorem Office.Fine.turn {B : Backend S K V E} {seen : S → K → V → Prop} (hB : NoInvention B seen) {ok : K → V → Prop} {process : Nat → Tape K V E → Tape K V E}
    (i : Nat) {o : Office S K V E} (h : o.Fine seen ok)
    (hp : ∀ x q, nextCall (process i) (o.answered i) = some (.insert x q) → ok x q) : (o.turn B process i).Fine seen ok := by
  unfold Office.turn
  cases hc : nextCall (process i) (o.answered i) with
  | none => exact h
  | some c =>
    simp only
    constructor
    · intro x q hx
      cases c with
      | get k => exact h.storage x q (hB.get hx)
      | insert k v =>
        rcases hB.insert hx with hx | ⟨rfl, rfl⟩
        · exact h.storage x q hx
        · exact hp _ _ hc
      | remove k => exact h.storage x q (hB.remove hx)
    · intro j x q hx
      simp only at hx
      split at hx
      · rcases List.mem_append.1 hx with hx | hx
        · exact h.answered i x q hx
        · have hx := List.mem_singleton.1 hx
          obtain ⟨rfl, ha⟩ := Prod.ext_iff.1 hx
          exact h.storage x q (hB.found (s' := (B.get x o.storage).2) (Prod.ext ha.symm rfl))
      · exact h.answered j x q hx

namespace Binary.Any
open Spec

variable {B : Backend S Nat Prim E} {seen : S → Nat → Prim → Prop} {H : HashFn} {L : List Bytes}

/-- The record is not wrong for the list. -/
def Fits (H : HashFn) (L : List Bytes) (x : Nat) (q : Prim) : Prop := ∀ q', canon H L x = some q' → q = q'

theorem fine_tape {o : Office S Nat Prim E} (h : o.Fine seen (Fits H L)) (i : Nat) :
    Trusted H L Tape.shows (⟨o.answered i, none⟩ : Tape Nat Prim E) := by
  refine trusted_pure.2 fun x q q' hx hc => ?_
  rcases hx with hx | hx
  · exact h.answered i x q hx q' hc
  · cases hx

theorem fine_turn (hB : NoInvention B seen) (cut : E) (p : Profile) (hL : L.length < p.leafLimit) (ws : Nat → List Wish)
    (hw : ∀ i, ∀ w ∈ ws i, w.InRange L) (i : Nat) {o : Office S Nat Prim E} (h : o.Fine seen (Fits H L)) :
    (o.turn B (fun j => worker cut p H L (ws j)) i).Fine seen (Fits H L) := by
  refine h.turn hB i fun x q hn q' hc => ?_
  exact (allRight (tape_noInvention cut) p hL (ws i) _ (hw i) (good_start (fine_tape h i))).2.pure x q q' (.inr hn) hc

theorem fine_turns (hB : NoInvention B seen) (cut : E) (p : Profile) (hL : L.length < p.leafLimit) (ws : Nat → List Wish)
    (hw : ∀ i, ∀ w ∈ ws i, w.InRange L) : ∀ (is : List Nat) {o : Office S Nat Prim E}, o.Fine seen (Fits H L) →
    (o.turns B (fun j => worker cut p H L (ws j)) is).Fine seen (Fits H L)
  | [], _, h => h
  | i :: is, _, h => fine_turns hB cut p hL ws hw is (fine_turn hB cut p hL ws hw i h)

end Binary.Any
end FuelMerkle
