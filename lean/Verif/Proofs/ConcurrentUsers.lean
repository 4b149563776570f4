import Verif.Spec.ConcurrentUsers
import Verif.Proofs.Progress
import Verif.Proofs.ConcurrentSparse

/-
Processes that share a storage and are given their requests one by one.
-/
namespace FuelMerkle
variable {S K V E R A M : Type}

/-! ### Requests that come one by one -/

/-- A process that waits for the storage is not changed by further requests. -/
def Queues (process : List R → Tape K V E → Tape K V E) : Prop :=
  ∀ rs qs as c, nextCall (process rs) as = some c → nextCall (process (rs ++ qs)) as = some c

theorem Hall.after_append (B : Backend S K V E) (process : List R → Tape K V E → Tape K V E) (hs hs' : List (Happening R)) (x : Hall S K V E R) :
    x.after B process (hs ++ hs') = (x.after B process hs).after B process hs' :=
  List.foldl_append

theorem Hall.requests_grow (B : Backend S K V E) (process : List R → Tape K V E → Tape K V E) (i : Nat) : ∀ (hs : List (Happening R)) (x : Hall S K V E R),
    x.requests i <+: (x.after B process hs).requests i
  | [], _ => List.prefix_rfl
  | .turn j :: hs, x => Hall.requests_grow B process i hs (x.next B process (.turn j))
  | .request j r :: hs, x => by
    refine .trans ?_ (Hall.requests_grow B process i hs (x.next B process (.request j r)))
    show x.requests i <+: if i = j then x.requests j ++ [r] else x.requests i
    split
    · rename_i h
      rw [h]
      exact List.prefix_append _ _
    · exact List.prefix_rfl

/-- A process has no other requests than those it was given. -/
theorem Hall.requested (B : Backend S K V E) (process : List R → Tape K V E → Tape K V E) {s : S} (hs : List (Happening R)) (i : Nat) (r : R)
    (h : r ∈ ((Hall.start s : Hall S K V E R).after B process hs).requests i) : Happening.request i r ∈ hs := by
  have key : ∀ (hs : List (Happening R)) (x : Hall S K V E R), r ∈ (x.after B process hs).requests i → r ∈ x.requests i ∨ Happening.request i r ∈ hs := by
    intro hs
    induction hs with
    | nil => intro x h; exact .inl h
    | cons y hs ih =>
      intro x h
      rcases ih (x.next B process y) h with h | h
      · cases y with
        | turn j => exact .inl h
        | request j q =>
          simp only [Hall.next] at h
          split at h
          · rename_i e
            subst e
            rcases List.mem_append.1 h with h | h
            · exact .inl h
            · rw [List.mem_singleton.1 h]
              exact .inr List.mem_cons_self
          · exact .inl h
      · exact .inr (List.mem_cons_of_mem _ h)
  rcases key hs _ h with h | h
  · cases h
  · exact h

theorem Office.answered_turn (B : Backend S K V E) (process : Nat → Tape K V E → Tape K V E) (i j : Nat) (o : Office S K V E) :
    o.answered i <+: (o.turn B process j).answered i := by
  unfold Office.turn
  split
  · exact List.prefix_rfl
  · simp only
    split
    · rename_i h
      rw [h]
      exact List.prefix_append _ _
    · exact List.prefix_rfl

theorem Office.answered_turns (B : Backend S K V E) (process : Nat → Tape K V E → Tape K V E) (i : Nat) : ∀ (is : List Nat) (o : Office S K V E),
    o.answered i <+: (o.turns B process is).answered i
  | [], _ => List.prefix_rfl
  | j :: is, o => (o.answered_turn B process i j).trans (Office.answered_turns B process i is (o.turn B process j))

theorem Hall.answered_grow (B : Backend S K V E) (process : List R → Tape K V E → Tape K V E) (i : Nat) : ∀ (hs : List (Happening R)) (x : Hall S K V E R),
    x.office.answered i <+: (x.after B process hs).office.answered i
  | [], _ => List.prefix_rfl
  | .request j r :: hs, x => Hall.answered_grow B process i hs (x.next B process (.request j r))
  | .turn j :: hs, x => (x.office.answered_turn B _ i j).trans (Hall.answered_grow B process i hs (x.next B process (.turn j)))

/-- It does not matter when a process was given its requests: the same happens if it has them all from the start, and
gets only those turns that were used. -/
theorem Hall.fixed (B : Backend S K V E) {process : List R → Tape K V E → Tape K V E} (hq : Queues process) : ∀ (hs : List (Happening R)) (x : Hall S K V E R),
    ∃ schedule, schedule.Sublist (turnsIn hs) ∧ ∀ rs : Nat → List R, (∀ i, (x.after B process hs).requests i <+: rs i) →
      (x.after B process hs).office = x.office.turns B (fun i => process (rs i)) schedule
  | [], x => ⟨[], List.Sublist.slnil, fun _ _ => rfl⟩
  | .request j r :: hs, x => by
    obtain ⟨schedule, h1, h2⟩ := Hall.fixed B hq hs (x.next B process (.request j r))
    exact ⟨schedule, h1, h2⟩
  | .turn j :: hs, x => by
    obtain ⟨schedule, h1, h2⟩ := Hall.fixed B hq hs (x.next B process (.turn j))
    cases hc : nextCall (process (x.requests j)) (x.office.answered j) with
    | none =>
      have e : (x.next B process (.turn j)).office = x.office := by simp only [Hall.next, Office.turn, hc]
      refine ⟨schedule, h1.trans (List.sublist_cons_self _ _), fun rs hr => ?_⟩
      have := h2 rs hr
      rw [e] at this
      exact this
    | some c =>
      refine ⟨j :: schedule, h1.cons_cons j, fun rs hr => ?_⟩
      have := h2 rs hr
      have e : (x.next B process (.turn j)).office = x.office.turn B (fun i => process (rs i)) j := by
        obtain ⟨qs, hqs⟩ := (Hall.requests_grow B process j (.turn j :: hs) x).trans (hr j)
        have hc' := hq _ qs _ _ hc
        rw [hqs] at hc'
        simp only [Hall.next, Office.turn, hc, hc']
      rw [e] at this
      exact this

/-! ### What was answered stays answered -/

variable [DecidableEq K] [DecidableEq V]

theorem Tape.ask_waits (cut : E) (c : MethodCall K V) (t : Tape K V E) (h : t.waiting ≠ none) : t.ask cut c = (.error cut, t) := by
  unfold Tape.ask
  split
  · rfl
  · rename_i h' _; exact absurd h' h
  · rename_i h' _; exact absurd h' h

theorem tape_perform (cut : E) (c : MethodCall K V) (t : Tape K V E) : (tape cut).perform c t = t.ask cut c := by
  cases c <;> rfl

theorem performed_waits (cut : E) : ∀ (l : List (Answered K V E)) (t t' : Tape K V E), Performed (tape cut) l t t' → t.waiting ≠ none → t' = t
  | [], _, _, h, _ => h
  | (c, a) :: l, t, t', h, hw => by
    have h2 := h.2
    rw [tape_perform, Tape.ask_waits cut c t hw] at h2
    exact performed_waits cut l t t' h2 hw

theorem performed_tape (cut : E) : ∀ (l : List (Answered K V E)) (t t' : Tape K V E), Performed (tape cut) l t t' → t'.waiting = none →
    t.waiting = none ∧ t.answered = l ++ t'.answered
  | [], t, t', h, hw => by cases h; exact ⟨hw, rfl⟩
  | (c, a) :: l, t, t', h, hw => by
    have h1 := h.1
    have h2 := h.2
    rw [tape_perform] at h1 h2
    have hw' : (t.ask cut c).2.waiting = none := by
      apply Classical.byContradiction
      intro hn
      have := performed_waits cut l _ _ h2 hn
      rw [this] at hw
      exact hn hw
    have ih := performed_tape cut l _ _ h2 hw
    unfold Tape.ask at hw' ih h1
    split at hw'
    · rename_i h'; rw [h'] at hw'; cases hw'
    · cases hw'
    · rename_i hn ha
      split at hw'
      · rename_i hc
        simp only [hn, ha, hc, if_true] at ih h1
        exact ⟨hn, by rw [ha, hc, h1, ih.2]; rfl⟩
      · cases hw'

/-- A program that does not wait does the same if more was answered. -/
theorem Replays.more {cut : E} {G : Tape K V E → A × Tape K V E} (h : Replays (tape cut) G G) (l x : List (Answered K V E))
    (hw : (G ⟨l, none⟩).2.waiting = none) : G ⟨l ++ x, none⟩ = ((G ⟨l, none⟩).1, ⟨(G ⟨l, none⟩).2.answered ++ x, none⟩) := by
  obtain ⟨m, h1, h2, _⟩ := h.2 ⟨l, none⟩
  have h3 := (performed_tape cut m _ _ h1 hw).2
  simp only at h3
  rw [show l ++ x = m ++ ((G ⟨l, none⟩).2.answered ++ x) by rw [← List.append_assoc, ← h3], h2]

/-- The answers to the requests of a program, as far as it does not wait. -/
def toldRun (run : R → M → Tape K V E → (A × M) × Tape K V E) : List R → M → Tape K V E → List A
  | [], _, _ => []
  | r :: rs, m, t =>
    if (run r m t).2.waiting = none then (run r m t).1.1 :: toldRun run rs (run r m t).1.2 (run r m t).2 else []

theorem toldRun_more {cut : E} {run : R → M → Tape K V E → (A × M) × Tape K V E} (h : ∀ r m, Replays (tape cut) (run r m) (run r m)) (qs : List R)
    (x : List (Answered K V E)) : ∀ (rs : List R) (m : M) (l : List (Answered K V E)),
    toldRun run rs m ⟨l, none⟩ <+: toldRun run (rs ++ qs) m ⟨l ++ x, none⟩
  | [], _, _ => List.nil_prefix
  | r :: rs, m, l => by
    simp only [toldRun, List.cons_append]
    by_cases hw : (run r m ⟨l, none⟩).2.waiting = none
    · rw [if_pos hw, (h r m).more l x hw]
      simp only [if_true]
      refine List.cons_prefix_cons.2 ⟨rfl, ?_⟩
      have e : (run r m ⟨l, none⟩).2 = ⟨(run r m ⟨l, none⟩).2.answered, none⟩ := by
        generalize (run r m ⟨l, none⟩).2 = t at hw
        cases t
        cases hw
        rfl
      have := toldRun_more h qs x rs (run r m ⟨l, none⟩).1.2 (run r m ⟨l, none⟩).2.answered
      rw [← e] at this
      exact this
    · rw [if_neg hw]
      exact List.nil_prefix

/-- Everything that was answered was used. -/
theorem Attends.used {F : List (Except E (Option V)) × Nat → A × (List (Except E (Option V)) × Nat)} {G : Tape K V E → A × Tape K V E}
    (hr : Replays scripted.counted F G) {as : List (Answered K V E)} (h : Attends (fun t => (G t).2) as) : (G ⟨as, none⟩).2.answered = [] := by
  obtain ⟨l, h1, h2, h3⟩ := hr.2 (as.map Prod.snd, 0)
  obtain ⟨post, hl⟩ := h.along h1 h2 h3
  cases post with
  | nil =>
    have := h2 []
    rw [List.append_nil] at hl this
    rw [← hl, this]
  | cons y post => rw [h3 as y.1 y.2 post hl]

end FuelMerkle
