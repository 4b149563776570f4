import Verif.Proofs.ConcurrentUsers

/-
Trees of processes that are given their requests one by one.
-/
namespace FuelMerkle
variable {S E : Type}

namespace Sparse.Any
open Spec
variable {H : HashFn}

theorem handleAll_append {T : Type} (C : Backend T Bytes32 Prim E) (p : Profile) : ∀ (rs qs : List Sparse.Request) (c : Watch T),
    (c.handleAll C p H (rs ++ qs)).2 = ((c.handleAll C p H rs).2.handleAll C p H qs).2
  | [], _, _ => rfl
  | r :: rs, qs, c => handleAll_append C p rs qs (c.handle C p H r).2

theorem queues (cut : E) (p : Profile) (H : HashFn) : Queues (fun rs => worker cut p H (rs.map (Sparse.Request.asked H))) := by
  intro rs qs as c h
  unfold nextCall at h ⊢
  beta_reduce at h ⊢
  rw [worker_eq] at h ⊢
  rw [handleAll_append, waits cut p qs _ (by rw [h]; simp)]
  exact h

theorem told_run (cut : E) (p : Profile) : ∀ (rs : List Sparse.Request) (c : Watch (Tape Bytes32 Prim E)),
    c.told cut p H rs = toldRun (fun r m t => handleRun (tape cut) p H (Sparse.Request.asked H r) m t) rs c.bench.node c.bench.storage
  | [], _ => rfl
  | r :: rs, c => by
    unfold Watch.told toldRun
    rw [told_run cut p rs]
    rfl

theorem told_more (cut : E) (p : Profile) (rs qs : List Sparse.Request) (l x : List (Answered Bytes32 Prim E)) :
    (Watch.given l).told cut p H rs <+: (Watch.given (l ++ x)).told cut p H (rs ++ qs) := by
  rw [told_run, told_run]
  exact toldRun_more (cut := cut) (fun r m => rep_handle (tape cut) cut p H _ m) qs x rs _ l

/-- Growing trees: what has begun leads to the same maps when more was answered. -/
theorem aims_more (cut : E) (p : Profile) : ∀ (rs : List Sparse.Request) (x : List (Answered Bytes32 Prim E)) (c d : Watch (Tape Bytes32 Prim E)),
    c.bench.storage.waiting = none → c.bench.node = d.bench.node → c.kv = d.kv → (⟨c.bench.storage.answered ++ x, none⟩ : Tape Bytes32 Prim E) = d.bench.storage →
    (∀ op ∈ callsOf rs, op.data ≠ none) → ∀ kv ∈ c.aims (tape cut) p H (c.begun cut p H rs), kv ∈ d.aims (tape cut) p H (d.begun cut p H rs)
  | [], _, _, _, _, _, _, _, _, _, h => h
  | r :: rs, x, c, d, hw, hn, hk, hs, hd, kv, h => by
    have hw' : d.bench.storage.waiting = none := by rw [← hs]
    have ec : c = ⟨⟨⟨c.bench.storage.answered, none⟩, c.bench.node⟩, c.kv⟩ := by
      obtain ⟨⟨⟨as, w⟩, node⟩, kvs⟩ := c
      cases hw
      rfl
    have ed : d = ⟨⟨⟨c.bench.storage.answered ++ x, none⟩, c.bench.node⟩, c.kv⟩ := by
      rw [hs, hn, hk]
    generalize c.bench.storage.answered = l at ec ed
    generalize c.bench.node = node at ec ed
    generalize c.kv = kvs at ec ed
    subst ec ed
    have hd' : ∀ j op, r = .call j op → ∃ v, op.data = some v := by
      intro j op e
      have := hd op (by rw [e]; simp [callsOf])
      cases ho : op.data with
      | none => exact absurd ho this
      | some v => exact ⟨v, rfl⟩
    have haim : ∀ t t' : Tape Bytes32 Prim E, (⟨⟨t, node⟩, kvs⟩ : Watch _).aim (tape cut) r = (⟨⟨t', node⟩, kvs⟩ : Watch _).aim (tape cut) r := by
      intro t t'
      cases r with
      | call j op =>
        obtain ⟨v, hv⟩ := hd' j op rfl
        simp only [Watch.aim, Event.attempt, hv]
      | _ => rfl
    have hexp : ∀ (t t' : Tape Bytes32 Prim E) (o : Answer E), (⟨⟨t, node⟩, kvs⟩ : Watch _).expect (tape cut) r o = (⟨⟨t', node⟩, kvs⟩ : Watch _).expect (tape cut) r o := by
      intro t t' o
      cases r with
      | call j op =>
        obtain ⟨v, hv⟩ := hd' j op rfl
        cases o with
        | done q => simp only [Watch.expect, Event.effect, Event.attempt, hv]
        | root _ => rfl
      | new j => rfl
      | load j kv' => cases o with
        | done q => cases q <;> rfl
        | root _ => rfl
      | root j => cases o <;> rfl
    simp only [Watch.begun, if_true, Watch.aims, List.mem_append] at h ⊢
    rcases h with h | h
    · exact .inl (by rw [haim _ ⟨l, none⟩]; exact h)
    · refine .inr ?_
      have hm := fun hw => (rep_handle (tape cut) cut p H (r.asked H) node).more l x hw
      by_cases hww : ((⟨⟨⟨l, none⟩, node⟩, kvs⟩ : Watch (Tape Bytes32 Prim E)).handle (tape cut) p H r).2.bench.storage.waiting = none
      · have hm := hm hww
        refine aims_more cut p rs x _ _ hww ?_ ?_ ?_ (fun op ho => hd op ?_) kv h
        · exact (congrArg (fun z => z.1.2) hm).symm
        · have e : (((⟨⟨⟨l ++ x, none⟩, node⟩, kvs⟩ : Watch (Tape Bytes32 Prim E)).handle (tape cut) p H r).1) =
              ((⟨⟨⟨l, none⟩, node⟩, kvs⟩ : Watch (Tape Bytes32 Prim E)).handle (tape cut) p H r).1 := congrArg (fun z => z.1.1) hm
          show (⟨⟨⟨l, none⟩, node⟩, kvs⟩ : Watch (Tape Bytes32 Prim E)).expect (tape cut) r
              ((⟨⟨⟨l, none⟩, node⟩, kvs⟩ : Watch (Tape Bytes32 Prim E)).handle (tape cut) p H r).1 =
            (⟨⟨⟨l ++ x, none⟩, node⟩, kvs⟩ : Watch (Tape Bytes32 Prim E)).expect (tape cut) r
              ((⟨⟨⟨l ++ x, none⟩, node⟩, kvs⟩ : Watch (Tape Bytes32 Prim E)).handle (tape cut) p H r).1
          rw [e]
          exact hexp _ _ _
        · exact (congrArg (fun z => z.2) hm).symm
        · obtain ⟨y, hy, e⟩ := List.mem_filterMap.1 ho
          exact List.mem_filterMap.2 ⟨y, List.mem_cons_of_mem _ hy, e⟩
      · exfalso
        cases rs with
        | nil => cases h
        | cons r' rs =>
          rw [Watch.begun, if_neg hww] at h
          cases h

/-- The answered calls are those the process made. -/
theorem crew_attends (B : Backend S Bytes32 Prim E) (cut : E) (p : Profile) (H : HashFn) (s : S) (rs : Nat → List Sparse.Request) (schedule : List Nat) (i : Nat) :
    Attends (worker cut p H ((rs i).map (Sparse.Request.asked H))) ((crew B cut p H s rs schedule).answered i) :=
  Office.follows B (fun i => worker cut p H ((rs i).map (Sparse.Request.asked H))) schedule (Office.start s) (fun _ pre c a post he => by simp [Office.start] at he) i

/-- What was answered before a process was given further requests was used for the earlier ones. -/
theorem consumed (cut : E) (p : Profile) (rs qs : List Sparse.Request) (hq : qs <+: rs) {as bs : List (Answered Bytes32 Prim E)}
    (ha : Attends (worker cut p H (qs.map (Sparse.Request.asked H))) as) (hb : Attends (worker cut p H (rs.map (Sparse.Request.asked H))) bs) (hab : as <+: bs) :
    as.length + ((Watch.given bs).handleAll (tape cut) p H qs).2.bench.storage.answered.length ≤ bs.length := by
  have rep : ∀ rs : List Sparse.Request, Replays scripted.counted _ _ := fun rs => rep_requests (scripted.counted (E := E)) cut p H (rs.map (Sparse.Request.asked H)) (fun _ => Node.createPlaceholder)
  have ua : ((Watch.given as).handleAll (tape cut) p H qs).2.bench.storage.answered = [] := by
    have := Attends.used (rep qs) ha
    show ((Watch.start (⟨as, none⟩ : Tape Bytes32 Prim E)).handleAll (tape cut) p H qs).2.bench.storage.answered = []
    rw [← worker_eq]
    exact this
  have ub : ((Watch.given bs).handleAll (tape cut) p H rs).2.bench.storage.answered = [] := by
    have := Attends.used (rep rs) hb
    show ((Watch.start (⟨bs, none⟩ : Tape Bytes32 Prim E)).handleAll (tape cut) p H rs).2.bench.storage.answered = []
    rw [← worker_eq]
    exact this
  obtain ⟨x, rfl⟩ := hab
  obtain ⟨ys, rfl⟩ := hq
  have hrep := rep_requests (tape (K := Bytes32) (V := Prim) cut) cut p H (qs.map (Sparse.Request.asked H)) (fun _ => Node.createPlaceholder)
  have hg : ∀ l, (requestRun (tape cut) p H (qs.map (Sparse.Request.asked H)) (fun _ => Node.createPlaceholder) ⟨l, none⟩).2 =
      ((Watch.given l).handleAll (tape cut) p H qs).2.bench.storage := fun l => worker_eq cut p qs ⟨l, none⟩
  by_cases hw : ((Watch.given as).handleAll (tape cut) p H qs).2.bench.storage.waiting = none
  · have := hrep.more as x (by rw [hg]; exact hw)
    rw [← hg, this, hg, ua]
    simp
  · by_cases hw' : ((Watch.given (as ++ x)).handleAll (tape cut) p H qs).2.bench.storage.waiting = none
    · obtain ⟨m, h1, h2, _⟩ := hrep.2 ⟨as ++ x, none⟩
      have h3 := (performed_tape cut m _ _ h1 (by rw [hg]; exact hw')).2
      rw [hg] at h3
      simp only at h3
      by_cases hlen : as.length ≤ m.length
      · have := congrArg List.length h3
        rw [List.length_append (as := m)] at this
        omega
      · exfalso
        obtain ⟨z, rfl⟩ : m <+: as := by
          have : m <+: as ++ x := ⟨_, h3.symm⟩
          exact List.prefix_of_prefix_length_le this (List.prefix_append _ _) (by omega)
        apply hw
        rw [← hg, h2]
    · rw [handleAll_append, waits cut p ys _ hw'] at ub
      rw [ub]
      simp

end Sparse.Any

namespace Binary.Any
open Spec
variable {H : HashFn}

theorem after_append {T : Type} (C : Backend T Nat Prim E) (p : Profile) (L : List Bytes) : ∀ (ws vs : List Wish) (c : Watch T),
    c.after C p H L (ws ++ vs) = (c.after C p H L ws).after C p H L vs
  | [], _, _ => rfl
  | w :: ws, vs, c => after_append C p L ws vs (c.grant C p H L w).2

theorem after_waits (cut : E) (p : Profile) (L : List Bytes) (ws : List Wish) (c : Watch (Tape Nat Prim E)) (h : c.bench.storage.waiting ≠ none) :
    (c.after (tape cut) p H L ws).bench.storage = c.bench.storage :=
  (rep_wishes (tape cut) cut p H L ws (desk c)).1 c.bench.storage h

theorem queues (cut : E) (p : Profile) (H : HashFn) (L : List Bytes) : Queues (worker cut p H L) := by
  intro rs qs as c h
  unfold nextCall worker at h ⊢
  rw [after_append, after_waits cut p L qs _ (by rw [h]; simp)]
  exact h

/-- What is done for one wish, as a function of the storage. -/
def grantRun {T : Type} (C : Backend T Nat Prim E) (p : Profile) (H : HashFn) (L : List Bytes) (w : Wish) (m : Desk) (s : T) :
    (Option (Action × Reply E) × Desk) × T :=
  let r := (m.on s).grant C p H L w
  ((r.1, desk r.2), r.2.bench.storage)

theorem rep_grant (B : Backend S Nat Prim E) (cut : E) (p : Profile) (L : List Bytes) (w : Wish) (m : Desk) :
    Replays B (grantRun B p H L w m) (grantRun (tape cut) p H L w m) := by
  have key : ∀ {T : Type} (C : Backend T Nat Prim E) (s : T), grantRun C p H L w m s =
      (((wishRun C p H L [w] m s).1.1.head?, (wishRun C p H L [w] m s).1.2), (wishRun C p H L [w] m s).2) := by
    intro T C s
    simp only [grantRun, wishRun, Watch.log, Watch.after, List.append_nil]
    cases ((m.on s).grant C p H L w).1 <;> rfl
  exact ((rep_wishes B cut p H L [w] m).map (fun r => (r.1.head?, r.2))).of_eq (key B) (key (tape cut))

theorem wishes_run (cut : E) (p : Profile) (L : List Bytes) : ∀ (ws : List Wish) (c : Watch (Tape Nat Prim E)),
    c.told cut p H L ws = toldRun (grantRun (tape cut) p H L) ws (desk c) c.bench.storage
  | [], _ => rfl
  | w :: ws, c => by
    unfold Watch.told toldRun
    rw [wishes_run cut p L ws]
    rfl

theorem wishes_more (cut : E) (p : Profile) (L : List Bytes) (rs qs : List Wish) (l x : List (Answered Nat Prim E)) :
    (Watch.start (⟨l, none⟩ : Tape Nat Prim E)).told cut p H L rs <+: (Watch.start (⟨l ++ x, none⟩ : Tape Nat Prim E)).told cut p H L (rs ++ qs) := by
  rw [wishes_run, wishes_run]
  exact toldRun_more (cut := cut) (fun r m => rep_grant (tape cut) cut p L r m) qs x rs _ l

/-- What was answered before a process was given further wishes was used for the earlier ones. -/
theorem consumed (cut : E) (p : Profile) (L : List Bytes) (rs qs : List Wish) (hq : qs <+: rs) {as bs : List (Answered Nat Prim E)}
    (ha : Attends (worker cut p H L qs) as) (hb : Attends (worker cut p H L rs) bs) (hab : as <+: bs) :
    as.length + ((Watch.start (⟨bs, none⟩ : Tape Nat Prim E)).after (tape cut) p H L qs).bench.storage.answered.length ≤ bs.length := by
  have rep : ∀ rs : List Wish, Replays scripted.counted _ _ := fun rs => rep_wishes (scripted.counted (E := E)) cut p H L rs (desk (Watch.start (⟨[], none⟩ : Tape Nat Prim E)))
  have ua : ((Watch.start (⟨as, none⟩ : Tape Nat Prim E)).after (tape cut) p H L qs).bench.storage.answered = [] := Attends.used (rep qs) ha
  have ub : ((Watch.start (⟨bs, none⟩ : Tape Nat Prim E)).after (tape cut) p H L rs).bench.storage.answered = [] := Attends.used (rep rs) hb
  obtain ⟨x, rfl⟩ := hab
  obtain ⟨ys, rfl⟩ := hq
  have hrep := rep_wishes (tape (K := Nat) (V := Prim) cut) cut p H L qs (desk (Watch.start (⟨[], none⟩ : Tape Nat Prim E)))
  have hg : ∀ l, (wishRun (tape cut) p H L qs (desk (Watch.start (⟨[], none⟩ : Tape Nat Prim E))) ⟨l, none⟩).2 =
      ((Watch.start (⟨l, none⟩ : Tape Nat Prim E)).after (tape cut) p H L qs).bench.storage := fun l => rfl
  by_cases hw : ((Watch.start (⟨as, none⟩ : Tape Nat Prim E)).after (tape cut) p H L qs).bench.storage.waiting = none
  · have := hrep.more as x (by rw [hg]; exact hw)
    rw [← hg, this, hg, ua]
    simp
  · by_cases hw' : ((Watch.start (⟨as ++ x, none⟩ : Tape Nat Prim E)).after (tape cut) p H L qs).bench.storage.waiting = none
    · obtain ⟨m, h1, h2, _⟩ := hrep.2 ⟨as ++ x, none⟩
      have h3 := (performed_tape cut m _ _ h1 (by rw [hg]; exact hw')).2
      rw [hg] at h3
      simp only at h3
      by_cases hlen : as.length ≤ m.length
      · have := congrArg List.length h3
        rw [List.length_append (as := m)] at this
        omega
      · exfalso
        obtain ⟨z, rfl⟩ : m <+: as := by
          have : m <+: as ++ x := ⟨_, h3.symm⟩
          exact List.prefix_of_prefix_length_le this (List.prefix_append _ _) (by omega)
        apply hw
        rw [← hg, h2]
    · rw [after_append, after_waits cut p L ys _ hw'] at ub
      rw [ub]
      simp

theorem calls_append {T : Type} (C : Backend T Nat Prim E) (p : Profile) : ∀ (xs ys : List (Nat × Op)) (c : Bench T),
    (c.calls C p H (xs ++ ys)).2 = ((c.calls C p H xs).2.calls C p H ys).2
  | [], _, _ => rfl
  | x :: xs, ys, c => calls_append C p xs ys (c.call C p H x).2

theorem queues_calls (cut : E) (p : Profile) (H : HashFn) : Queues (caller cut p H) := by
  intro rs qs as c h
  unfold nextCall caller at h ⊢
  rw [calls_append]
  generalize (Bench.calls (tape cut) p H rs (.start ⟨as, none⟩)).2 = b at h ⊢
  rw [← h]
  exact congrArg Tape.waiting ((rep_calls cut p H (tape cut) qs (b.head, b.count)).1 b.storage (by rw [h]; simp))

theorem calls_run (cut : E) (p : Profile) : ∀ (xs : List (Nat × Op)) (c : Bench (Tape Nat Prim E)),
    c.told cut p H xs = toldRun (callRun p H (tape cut)) xs (c.head, c.count) c.storage
  | [], _ => rfl
  | x :: xs, c => by
    unfold Bench.told toldRun
    rw [calls_run cut p xs]
    rfl

theorem calls_more (cut : E) (p : Profile) (rs qs : List (Nat × Op)) (l x : List (Answered Nat Prim E)) :
    told cut p H rs l <+: told cut p H (rs ++ qs) (l ++ x) := by
  unfold told
  rw [calls_run, calls_run]
  exact toldRun_more (cut := cut) (fun r m => rep_call cut p H (tape cut) r m) qs x rs _ l

end Binary.Any

namespace Sum.Any
open Spec
variable {H : HashFn}

theorem run_append {T : Type} (C : Backend T Bytes32 Node E) (p : Profile) : ∀ (xs ys : List (Nat × Op)) (c : Desk T),
    (c.run C p H (xs ++ ys)).2 = ((c.run C p H xs).2.run C p H ys).2
  | [], _, _ => rfl
  | x :: xs, ys, c => run_append C p xs ys (c.step C p H x).2

theorem queues (cut : E) (p : Profile) (H : HashFn) : Queues (worker cut p H) := by
  intro rs qs as c h
  unfold nextCall worker at h ⊢
  rw [run_append]
  generalize (Desk.run (tape cut) p H rs (.start ⟨as, none⟩)).2 = b at h ⊢
  rw [← h]
  exact congrArg Tape.waiting ((rep_calls (tape cut) cut p H qs b.head).1 b.storage (by rw [h]; simp))

theorem calls_run (cut : E) (p : Profile) : ∀ (xs : List (Nat × Op)) (c : Desk (Tape Bytes32 Node E)),
    c.told cut p H xs = toldRun (callRun p H (tape cut)) xs c.head c.storage
  | [], _ => rfl
  | x :: xs, c => by
    unfold Desk.told toldRun
    rw [calls_run cut p xs]
    rfl

theorem calls_more (cut : E) (p : Profile) (rs qs : List (Nat × Op)) (l x : List (Answered Bytes32 Node E)) :
    told cut p H rs l <+: told cut p H (rs ++ qs) (l ++ x) := by
  unfold told
  rw [calls_run, calls_run]
  exact toldRun_more (cut := cut) (fun r m => rep_step (tape cut) cut p H r m) qs x rs _ l

end Sum.Any
end FuelMerkle
