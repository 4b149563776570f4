import Mathlib.Data.List.Induction
import Verif.Spec.Tables
import Verif.Proofs.ConcurrentSparse
import Verif.Proofs.ReplayBinary
import Verif.Proofs.ReplaySparse
import Verif.Proofs.ConcurrentSum

/-
Processes at work on one table of a storage, while other things happen to the storage.
-/
namespace FuelMerkle
variable {S K V E : Type}

theorem events_append (B : Backend S K V E) (process : Nat → Tape K V E → Tape K V E) : ∀ (es es' : List (Event S)) (o : Office S K V E),
    o.events B process (es ++ es') = (o.events B process es).events B process es'
  | [], _, _ => rfl
  | .turn i :: es, es', o => events_append B process es es' (o.turn B process i)
  | .meanwhile f :: es, es', o => events_append B process es es' { o with storage := f o.storage }

theorem alone_perform (B : Backend S K V E) (c : MethodCall K V) (x : S × List (S → S)) :
    B.alone.perform c x = ((B.perform c (x.2.headD id x.1)).1, (B.perform c (x.2.headD id x.1)).2, x.2.tail) := by
  cases c <;> rfl

/-- What happens, with the other things put before the calls. -/
theorem events_alone (B : Backend S K V E) (process : Nat → Tape K V E → Tape K V E) (good : (S → S) → Prop) (hid : good id)
    (hcomp : ∀ f g, good f → good g → good (fun s => g (f s))) (o : Office S K V E) (es : List (Event S)) (hes : ∀ f, Event.meanwhile f ∈ es → good f) :
    ∃ script last s', (∀ f ∈ script, good f) ∧ good last ∧
      (∀ rest, (⟨(o.storage, script ++ rest), o.answered⟩ : Office _ K V E).turns B.alone process (turnsOf es) =
        ⟨(s', rest), (o.events B process es).answered⟩) ∧
      (o.events B process es).storage = last s' := by
  induction es using List.reverseRecOn with
  | nil => exact ⟨[], id, o.storage, (fun _ h => by cases h), hid, fun rest => rfl, rfl⟩
  | append_singleton es e ih =>
    obtain ⟨script, last, s', h1, h2, h3, h4⟩ := ih fun f hf => hes f (List.mem_append_left _ hf)
    rw [events_append]
    have ht : turnsOf (es ++ [e]) = turnsOf es ++ turnsOf [e] := List.filterMap_append
    cases e with
    | meanwhile f =>
      refine ⟨script, fun s => f (last s), s', h1, hcomp _ _ h2 (hes f (by simp)), fun rest => ?_, ?_⟩
      · rw [ht]
        show Office.turns B.alone process (turnsOf es ++ []) _ = _
        rw [List.append_nil, h3]
        rfl
      · show f (o.events B process es).storage = _
        rw [h4]
    | turn i =>
      have he : (o.events B process es).events B process [.turn i] = (o.events B process es).turn B process i := rfl
      rw [he]
      cases hn : nextCall (process i) ((o.events B process es).answered i) with
      | none =>
        have e1 : (o.events B process es).turn B process i = o.events B process es := by simp only [Office.turn, hn]
        rw [e1]
        refine ⟨script, last, s', h1, h2, fun rest => ?_, h4⟩
        rw [ht, Office.turns_append, h3]
        show Office.turn B.alone process i _ = _
        simp only [Office.turn, hn]
      | some c =>
        refine ⟨script ++ [last], id, (B.perform c (last s')).2, fun f hf => ?_, hid, fun rest => ?_, ?_⟩
        · rcases List.mem_append.1 hf with hf | hf
          · exact h1 f hf
          · rw [List.mem_singleton.1 hf]; exact h2
        · rw [ht, Office.turns_append, List.append_assoc, h3]
          show Office.turn B.alone process i _ = _
          simp only [Office.turn, hn, alone_perform, List.singleton_append, List.headD_cons, List.tail_cons, h4]
        · simp only [Office.turn, hn, h4, id]

theorem aside_id {ok : S → Prop} {view : S → K → Option V} : Aside ok view id := fun _ h => ⟨h, rfl⟩

theorem aside_comp {ok : S → Prop} {view : S → K → Option V} {f g : S → S} (hf : Aside ok view f) (hg : Aside ok view g) : Aside ok view (fun s => g (f s)) :=
  fun s h => ⟨(hg _ (hf s h).1).1, (hg _ (hf s h).1).2.trans (hf s h).2⟩

theorem aside_head {ok : S → Prop} {view : S → K → Option V} {x : S × List (S → S)} (h : ∀ f ∈ x.2, Aside ok view f) : Aside ok view (x.2.headD id) := by
  obtain ⟨s, fs⟩ := x
  cases fs with
  | nil => exact aside_id
  | cons f fs => exact h f List.mem_cons_self

/-- A storage that behaves like a map, to which other things happen that leave the table as it is, behaves like a map. -/
theorem alone_mapLike [DecidableEq K] {B : Backend S K V E} {ok : S → Prop} {view : S → K → Option V} (hB : MapLike B ok view) :
    MapLike B.alone (fun x => ok x.1 ∧ ∀ f ∈ x.2, Aside ok view f) (fun x => view x.1) where
  get_ok := by
    rintro k x v x' ⟨h1, h2⟩ h
    obtain ⟨a1, a2⟩ := aside_head h2 x.1 h1
    obtain ⟨e1, rfl⟩ := Prod.ext_iff.1 h
    obtain ⟨b1, b2, b3⟩ := hB.get_ok a1 (Prod.ext e1 rfl)
    exact ⟨⟨b1, fun f hf => h2 f (List.mem_of_mem_tail hf)⟩, by rw [b2, a2], by rw [← a2]; exact b3⟩
  get_error := by
    rintro k x v x' ⟨h1, h2⟩ h
    obtain ⟨a1, a2⟩ := aside_head h2 x.1 h1
    obtain ⟨e1, rfl⟩ := Prod.ext_iff.1 h
    obtain ⟨b1, b3⟩ := hB.get_error a1 (Prod.ext e1 rfl)
    exact ⟨⟨b1, fun f hf => h2 f (List.mem_of_mem_tail hf)⟩, by rw [← a2]; exact b3⟩
  insert_ok := by
    rintro k w x v x' ⟨h1, h2⟩ h
    obtain ⟨a1, a2⟩ := aside_head h2 x.1 h1
    obtain ⟨e1, rfl⟩ := Prod.ext_iff.1 h
    obtain ⟨b1, b3⟩ := hB.insert_ok a1 (Prod.ext e1 rfl)
    exact ⟨⟨b1, fun f hf => h2 f (List.mem_of_mem_tail hf)⟩, by rw [← a2]; exact b3⟩
  insert_error := by
    rintro k w x v x' ⟨h1, h2⟩ h
    obtain ⟨a1, a2⟩ := aside_head h2 x.1 h1
    obtain ⟨e1, rfl⟩ := Prod.ext_iff.1 h
    obtain ⟨b1, b3⟩ := hB.insert_error a1 (Prod.ext e1 rfl)
    exact ⟨⟨b1, fun f hf => h2 f (List.mem_of_mem_tail hf)⟩, by rw [← a2]; exact b3⟩
  remove_ok := by
    rintro k x v x' ⟨h1, h2⟩ h
    obtain ⟨a1, a2⟩ := aside_head h2 x.1 h1
    obtain ⟨e1, rfl⟩ := Prod.ext_iff.1 h
    obtain ⟨b1, b3⟩ := hB.remove_ok a1 (Prod.ext e1 rfl)
    exact ⟨⟨b1, fun f hf => h2 f (List.mem_of_mem_tail hf)⟩, by rw [← a2]; exact b3⟩
  remove_error := by
    rintro k x v x' ⟨h1, h2⟩ h
    obtain ⟨a1, a2⟩ := aside_head h2 x.1 h1
    obtain ⟨e1, rfl⟩ := Prod.ext_iff.1 h
    obtain ⟨b1, b3⟩ := hB.remove_error a1 (Prod.ext e1 rfl)
    exact ⟨⟨b1, fun f hf => h2 f (List.mem_of_mem_tail hf)⟩, by rw [← a2]; exact b3⟩

theorem alone_neverFails {B : Backend S K V E} {ok : S → Prop} {view : S → K → Option V} (hB : NeverFails B ok) :
    NeverFails B.alone (fun x => ok x.1 ∧ ∀ f ∈ x.2, Aside ok view f) := by
  rintro x ⟨h1, h2⟩
  obtain ⟨b1, b2, b3⟩ := hB _ (aside_head h2 x.1 h1).1
  exact ⟨fun k e s' h => b1 k e _ (Prod.ext (Prod.ext_iff.1 h).1 rfl), fun k v e s' h => b2 k v e _ (Prod.ext (Prod.ext_iff.1 h).1 rfl),
    fun k e s' h => b3 k e _ (Prod.ext (Prod.ext_iff.1 h).1 rfl)⟩

theorem MapLike.fit_perform [DecidableEq K] {B : Backend S K V E} {ok : S → Prop} {view : S → K → Option V} (hB : MapLike B ok view) (c : MethodCall K V) {s : S} (hs : ok s) :
    ok (B.perform c s).2 := by
  cases c with
  | get k =>
    rcases h : B.get k s with ⟨e | v, s'⟩
    · have := (hB.get_error hs h).1
      simpa only [Backend.perform, h] using this
    · have := (hB.get_ok hs h).1
      simpa only [Backend.perform, h] using this
  | insert k v =>
    rcases h : B.insert k v s with ⟨e | v, s'⟩
    · have := (hB.insert_error hs h).1
      simpa only [Backend.perform, h] using this
    · have := (hB.insert_ok hs h).1
      simpa only [Backend.perform, h] using this
  | remove k =>
    rcases h : B.remove k s with ⟨e | v, s'⟩
    · have := (hB.remove_error hs h).1
      simpa only [Backend.perform, h] using this
    · have := (hB.remove_ok hs h).1
      simpa only [Backend.perform, h] using this

theorem MapLike.fit_turns [DecidableEq K] {B : Backend S K V E} {ok : S → Prop} {view : S → K → Option V} (hB : MapLike B ok view) (process : Nat → Tape K V E → Tape K V E) :
    ∀ (is : List Nat) {o : Office S K V E}, ok o.storage → ok (o.turns B process is).storage
  | [], _, h => h
  | i :: is, o, h => by
    refine hB.fit_turns process is ?_
    unfold Office.turn
    split
    · exact h
    · exact hB.fit_perform _ h

theorem modest_head {seen : S → K → V → Prop} {x : S × List (S → S)} (h : ∀ f ∈ x.2, Modest seen f) : Modest seen (x.2.headD id) := by
  obtain ⟨s, fs⟩ := x
  cases fs with
  | nil => exact fun _ _ _ h => h
  | cons f fs => exact h f List.mem_cons_self

/-- A storage that makes up nothing, to which things happen that make up nothing, makes up nothing. -/
theorem alone_noInvention {B : Backend S K V E} {seen : S → K → V → Prop} (hB : NoInvention B seen) :
    NoInvention B.alone (fun x k v => (∀ f ∈ x.2, Modest seen f) → seen x.1 k v) where
  found := by
    intro k x v x' h hx
    exact modest_head hx _ _ _ (hB.found (s' := (B.get k (x.2.headD id x.1)).2) (Prod.ext (Prod.ext_iff.1 h).1 rfl))
  get := fun h hx => modest_head hx _ _ _ (hB.get (h fun f hf => hx f (List.mem_of_mem_tail hf)))
  insert := by
    intro k w x y v h
    by_cases hx : ∀ f ∈ x.2, Modest seen f
    · rcases hB.insert (h fun f hf => hx f (List.mem_of_mem_tail hf)) with h | h
      · exact .inl fun _ => modest_head hx _ _ _ h
      · exact .inr h
    · exact .inl fun hx' => absurd hx' hx
  remove := fun h hx => modest_head hx _ _ _ (hB.remove (h fun f hf => hx f (List.mem_of_mem_tail hf)))

/-! ### Working alone -/

theorem turns_idle (B : Backend S K V E) (process : Nat → Tape K V E → Tape K V E) (i : Nat) : ∀ (n : Nat) (o : Office S K V E),
    nextCall (process i) (o.answered i) = none → o.turns B process (List.replicate n i) = o
  | 0, _, _ => rfl
  | n + 1, o, h => by
    have e : o.turn B process i = o := by simp only [Office.turn, h]
    rw [List.replicate_succ, Office.turns, e]
    exact turns_idle B process i n o h

variable [DecidableEq K] [DecidableEq V] {R : Type}

/-- A process that works alone and has come to its end has done what its program does. -/
theorem Replays.finished {B : Backend S K V E} {F : S → R × S} {G : Tape K V E → R × Tape K V E} (h : Replays B F G) (i n : Nat) (process : Nat → Tape K V E → Tape K V E)
    (hp : ∀ t, process i t = (G t).2) (s : S)
    (hn : nextCall (process i) (((Office.start s).turns B process (List.replicate n i)).answered i) = none) :
    ((Office.start s).turns B process (List.replicate n i)).storage = (F s).2 ∧
      (G ⟨((Office.start s).turns B process (List.replicate n i)).answered i, none⟩).1 = (F s).1 := by
  obtain ⟨m, h1, h2, h3⟩ := h.alone i process hp (Office.start s) rfl
  have e : (Office.start s).turns B process (List.replicate n i) = (Office.start s).turns B process (List.replicate m i) := by
    rcases Nat.le_total n m with hle | hle
    · obtain ⟨k, rfl⟩ := Nat.exists_eq_add_of_le hle
      rw [← List.replicate_append_replicate, Office.turns_append, turns_idle B process i k _ hn]
    · obtain ⟨k, rfl⟩ := Nat.exists_eq_add_of_le hle
      rw [← List.replicate_append_replicate, Office.turns_append, turns_idle B process i k _ h2]
  rw [e]
  exact ⟨h1, by rw [h3]; rfl⟩

/-- The same, with other things happening. -/
theorem Replays.aside {B : Backend S K V E} {F : S × List (S → S) → R × (S × List (S → S))} {G : Tape K V E → R × Tape K V E} (h : Replays B.alone F G)
    {ok : S → Prop} {view : S → K → Option V} (i : Nat) (process : Nat → Tape K V E → Tape K V E) (hp : ∀ t, process i t = (G t).2) (s : S) (es : List (Event S))
    (hes : ∀ f, Event.meanwhile f ∈ es → Aside ok view f) (hi : ∀ j ∈ turnsOf es, j = i)
    (hn : nextCall (process i) (((Office.start s).events B process es).answered i) = none) :
    ∃ script last, (∀ f ∈ script, Aside ok view f) ∧ Aside ok view last ∧
      ((Office.start s).events B process es).storage = last (F (s, script)).2.1 ∧ (F (s, script)).2.2 = [] ∧
      (G ⟨((Office.start s).events B process es).answered i, none⟩).1 = (F (s, script)).1 := by
  obtain ⟨script, last, s', h1, h2, h3, h4⟩ := events_alone B process (Aside ok view) aside_id (fun _ _ => aside_comp) (.start s) es hes
  have h3 := h3 []
  rw [List.append_nil, (List.eq_replicate_iff (n := (turnsOf es).length) (a := i) (l := turnsOf es)).2 ⟨rfl, hi⟩] at h3
  obtain ⟨g1, g2⟩ := h.finished i (turnsOf es).length process hp (s, script) (by
    unfold Office.start at h3 ⊢
    rw [h3]
    exact hn)
  unfold Office.start at h3 g1 g2 ⊢
  rw [h3] at g1 g2
  refine ⟨script, last, h1, h2, ?_, ?_, g2⟩
  · rw [← g1]; exact h4
  · rw [← g1]

end FuelMerkle

namespace FuelMerkle.Binary.Any
variable {S E : Type}

/-- A sequence of actions as a function of the storage. -/
def actsRun {T : Type} (C : Backend T Nat Prim E) (p : Profile) (H : HashFn) (as : List Action) (m : (Nat → List Node) × (Nat → Nat)) (s : T) :
    (List (Reply E) × (Nat → List Node) × (Nat → Nat)) × T :=
  let y := Bench.acts C p H as ⟨s, m.1, m.2⟩
  ((y.1, y.2.head, y.2.count), y.2.storage)

/-- What comes after an action. -/
def actAfter {T : Type} (C : Backend T Nat Prim E) (p : Profile) (H : HashFn) (as : List Action) (r : Reply E × (Nat → List Node) × (Nat → Nat)) (s : T) :
    (List (Reply E) × (Nat → List Node) × (Nat → Nat)) × T :=
  let q := actsRun C p H as r.2 s
  ((r.1 :: q.1.1, q.1.2), q.2)

theorem rep_acts (B : Backend S Nat Prim E) (cut : E) (p : Profile) (H : HashFn) : ∀ (as : List Action) (m : (Nat → List Node) × (Nat → Nat)),
    Replays B (actsRun B p H as m) (actsRun (tape cut) p H as m)
  | [], m => (Replays.pure (R := List (Reply E) × (Nat → List Node) × (Nat → Nat)) ([], m)).of_eq (fun _ => rfl) (fun _ => rfl)
  | a :: as, m => by
    refine (Replays.bind (F' := actAfter B p H as) (G' := actAfter (tape cut) p H as) (rep_act B cut p H a (m.1, m.2, fun _ => none)) fun r => ?_).of_eq
      (fun _ => rfl) (fun _ => rfl)
    exact (rep_acts B cut p H as r.2).map (fun q => (r.1 :: q.1, q.2))

end FuelMerkle.Binary.Any
