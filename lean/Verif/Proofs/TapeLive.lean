import Verif.Spec.ConcurrentLive
import Verif.Proofs.Concurrent

/-
What a process sees of a storage, whatever its keys and records.
-/
namespace FuelMerkle
variable {S K V E : Type} [DecidableEq K] [DecidableEq V]

/-- The process waits, or it was told of a failure after the answers `M`. -/
def Trouble (A M : List (Answered K V E)) (t : Tape K V E) : Prop :=
  t.waiting ≠ none ∨ ∃ mid, A = M ++ (mid ++ t.answered) ∧ ∃ c e, (c, .error e) ∈ mid

/-- What a call comes to. -/
theorem Tape.ask_cases (cut : E) (c : MethodCall K V) (t : Tape K V E) :
    (t.waiting ≠ none ∧ t.ask cut c = (.error cut, t)) ∨
      (t.waiting = none ∧ ∃ a rest, t.answered = (c, a) :: rest ∧ t.ask cut c = (a, { t with answered := rest })) ∨
      (t.waiting = none ∧ t.ask cut c = (.error cut, { t with waiting := some c })) := by
  unfold Tape.ask
  split
  · rename_i hw
    exact .inl ⟨by rw [hw]; simp, rfl⟩
  · rename_i hw _
    exact .inr (.inr ⟨hw, rfl⟩)
  · rename_i c' a rest hw ha
    split
    · rename_i hc
      subst hc
      exact .inr (.inl ⟨hw, a, rest, ha, rfl⟩)
    · exact .inr (.inr ⟨hw, rfl⟩)

theorem ask_after {A M : List (Answered K V E)} (cut : E) (c : MethodCall K V) {t : Tape K V E}
    (h : ∃ mid, A = M ++ (mid ++ t.answered)) : ∃ mid, A = M ++ (mid ++ (t.ask cut c).2.answered) := by
  obtain ⟨mid, h⟩ := h
  rcases Tape.ask_cases cut c t with ⟨_, e⟩ | ⟨hn, a, rest, ha, e⟩ | ⟨hn, e⟩ <;> rw [e]
  · exact ⟨mid, h⟩
  · exact ⟨mid ++ [(c, a)], by rw [h, ha]; simp⟩
  · exact ⟨mid, h⟩

/-- A call works and the process goes on, or it fails and the process does not. -/
theorem ask_result {A M : List (Answered K V E)} (cut : E) (c : MethodCall K V) {t : Tape K V E}
    (h : ∃ mid, A = M ++ (mid ++ t.answered)) (ht : ¬ Trouble A M t) :
    (∃ r rest, t.answered = (c, .ok r) :: rest ∧ t.ask cut c = (.ok r, { t with answered := rest }) ∧ ¬ Trouble A M (t.ask cut c).2) ∨
      ∃ e, (t.ask cut c).1 = .error e ∧ Trouble A M (t.ask cut c).2 := by
  obtain ⟨mid, h⟩ := h
  rcases Tape.ask_cases cut c t with ⟨hw, e⟩ | ⟨hn, a, rest, ha, e⟩ | ⟨hn, e⟩
  · exact absurd (.inl hw) ht
  · cases a with
    | ok r =>
      refine .inl ⟨r, rest, ha, e, ?_⟩
      rw [e]
      rintro (h1 | ⟨mid', h1, c', e', h2⟩)
      · exact h1 hn
      · apply ht
        refine .inr ⟨mid, h, c', e', ?_⟩
        have h3 : mid' ++ rest = (mid ++ [(c, .ok r)]) ++ rest := by
          apply List.append_cancel_left (as := M)
          rw [← h1, h, ha]
          simp
        have h3 := List.append_cancel_right h3
        rw [h3] at h2
        rcases List.mem_append.1 h2 with h2 | h2
        · exact h2
        · simp at h2
    | error f =>
      refine .inr ⟨f, by rw [e], ?_⟩
      rw [e]
      exact .inr ⟨mid ++ [(c, .error f)], by rw [h, ha]; simp, c, f, by simp⟩
  · refine .inr ⟨cut, by rw [e], ?_⟩
    rw [e]
    exact .inl (by simp)

/-- What has gone wrong stays so. -/
theorem ask_trouble {A M : List (Answered K V E)} (cut : E) (c : MethodCall K V) {t : Tape K V E} (h : Trouble A M t) : Trouble A M (t.ask cut c).2 := by
  rcases Tape.ask_cases cut c t with ⟨_, e⟩ | ⟨hn, a, rest, ha, e⟩ | ⟨_, e⟩ <;> rw [e]
  · exact h
  · rcases h with h | ⟨mid, h, x, f, hm⟩
    · exact absurd hn h
    · exact .inr ⟨mid ++ [(c, a)], by rw [h, ha]; simp, x, f, by simp [hm]⟩
  · exact .inl (by simp)

/-- Storage that never fails: no call failed. -/
theorem no_failure {B : Backend S K V E} {ok : S → Prop} {view : S → K → Option V} (hB : MapLike B ok view) (hok : NeverFails B ok) (process : Nat → Tape K V E → Tape K V E) :
    ∀ (is : List Nat) (o : Office S K V E), ok o.storage → (∀ i c e, (c, Except.error e) ∉ o.answered i) →
      ∀ i c e, (c, Except.error e) ∉ (o.turns B process is).answered i
  | [], _, _, h => h
  | i :: is, o, hs, h => by
    have key : ok (o.turn B process i).storage ∧ ∀ j c e, (c, Except.error e) ∉ (o.turn B process i).answered j := by
      unfold Office.turn
      cases hc : nextCall (process i) (o.answered i) with
      | none => exact ⟨hs, h⟩
      | some c =>
        obtain ⟨f1, f2, f3⟩ := hok o.storage hs
        have hr : ∃ r s, B.perform c o.storage = (.ok r, s) ∧ ok s := by
          cases c with
          | get x =>
            rcases hx : B.get x o.storage with ⟨e | r, s⟩
            · exact absurd hx (f1 x e s)
            · exact ⟨r, s, hx, (hB.get_ok hs hx).1⟩
          | insert x v =>
            rcases hx : B.insert x v o.storage with ⟨e | r, s⟩
            · exact absurd hx (f2 x v e s)
            · exact ⟨r, s, hx, (hB.insert_ok hs hx).1⟩
          | remove x =>
            rcases hx : B.remove x o.storage with ⟨e | r, s⟩
            · exact absurd hx (f3 x e s)
            · exact ⟨r, s, hx, (hB.remove_ok hs hx).1⟩
        obtain ⟨r, s, hx, h1⟩ := hr
        simp only [hx]
        refine ⟨h1, fun j c' e => ?_⟩
        split
        · intro hm
          rcases List.mem_append.1 hm with hm | hm
          · exact h i c' e hm
          · simp at hm
        · exact h j c' e
    exact no_failure hB hok process is _ key.1 key.2

end FuelMerkle
