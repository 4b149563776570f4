import Verif.Proofs.ReplayBinary
import Verif.Proofs.ReplaySparse
import Verif.Proofs.ConcurrentBinary
import Verif.Proofs.ConcurrentSum
import Verif.Proofs.AnyStorageWild
import Verif.Proofs.PathEnds
import Verif.Spec.Progress

/-
No process has to wait for another one: how many storage calls a process makes at most, whatever the storage and the
other processes do.
-/
namespace FuelMerkle
variable {S K V E : Type} {R : Type}

/-- A storage that gives the answers of a script, one after the other. -/
def nextAnswer (s : List (Except E (Option V))) : Except E (Option V) × List (Except E (Option V)) :=
  match s with
  | [] => (.ok none, [])
  | a :: s => (a, s)

/-- The same as an implementation. -/
def scripted : Backend (List (Except E (Option V))) K V E where
  get _ := nextAnswer
  insert _ _ := nextAnswer
  remove _ := nextAnswer

theorem scripted_perform (c : MethodCall K V) (s : List (Except E (Option V))) (n : Nat) :
    (scripted (K := K) (V := V) (E := E)).counted.perform c (s, n) = ((nextAnswer s).1, (nextAnswer s).2, n + 1) := by
  cases c <;> rfl

theorem performed_script : ∀ (l : List (Answered K V E)) (r : List (Except E (Option V))) (n : Nat) (s' : List (Except E (Option V)) × Nat),
    Performed scripted.counted l (l.map Prod.snd ++ r, n) s' → s' = (r, n + l.length)
  | [], r, n, s', h => h
  | (c, a) :: l, r, n, s', h => by
    have h2 := h.2
    rw [scripted_perform] at h2
    have := performed_script l r (n + 1) s' h2
    rw [this, List.length_cons]
    congr 1
    omega

theorem performed_count : ∀ (l : List (Answered K V E)) (s s' : List (Except E (Option V)) × Nat),
    Performed scripted.counted l s s' → s'.2 = s.2 + l.length
  | [], s, s', h => by cases h; rfl
  | (c, a) :: l, (s, n), s', h => by
    have := performed_count l _ s' h.2
    rw [this, scripted_perform, List.length_cons]
    simp only
    omega

/-- The answered calls are those the process makes. -/
def Attends (process : Tape K V E → Tape K V E) (as : List (Answered K V E)) : Prop :=
  ∀ pre c a post, as = pre ++ (c, a) :: post → nextCall process pre = some c

/-- On a storage that gives these answers, the process makes these calls. -/
theorem Attends.along [DecidableEq K] [DecidableEq V] {r : R} {s' : List (Except E (Option V)) × Nat} {G : Tape K V E → R × Tape K V E} {as l : List (Answered K V E)}
    (h : Attends (fun t => (G t).2) as) (h1 : Performed scripted.counted l (as.map Prod.snd, 0) s') (h2 : ∀ rest, G ⟨l ++ rest, none⟩ = (r, ⟨rest, none⟩))
    (h3 : ∀ pre c a post, l = pre ++ (c, a) :: post → (G ⟨pre, none⟩).2 = ⟨[], some c⟩) : ∃ post, l = as ++ post := by
  have key : ∀ (n : Nat) (pre post : List (Answered K V E)), pre.length = n → as = pre ++ post → ∃ post', l = pre ++ post' := by
    intro n
    induction n with
    | zero =>
      intro pre post hn _
      cases List.eq_nil_of_length_eq_zero hn
      exact ⟨l, rfl⟩
    | succ n ih =>
      intro pre post hn he
      obtain ⟨init, ⟨c, a⟩, rfl⟩ : ∃ init x, pre = init ++ [x] := by
        rcases List.eq_nil_or_concat pre with h | ⟨i, x, h⟩
        · rw [h] at hn; cases hn
        · exact ⟨i, x, by rw [h, List.concat_eq_append]⟩
      rw [List.length_append, List.length_singleton] at hn
      rw [List.append_assoc, List.singleton_append] at he
      obtain ⟨post', hl⟩ := ih init _ (by omega) he
      have hc := h init c a post he
      cases post' with
      | nil =>
        rw [List.append_nil] at hl
        have := h2 []
        rw [List.append_nil, hl] at this
        rw [nextCall, this] at hc
        cases hc
      | cons x post' =>
        obtain ⟨c', a'⟩ := x
        have h4 := h3 init c' a' post' hl
        rw [nextCall, h4] at hc
        cases hc
        obtain ⟨s1, g1, g2, _⟩ := h1.split init c a' post' hl
        rw [he, List.map_append, List.map_cons] at g1
        rw [performed_script init _ 0 s1 g1, scripted_perform] at g2
        cases g2
        exact ⟨post', by rw [hl]; simp [nextAnswer]⟩
  exact key as.length as [] rfl (List.append_nil _).symm

theorem Attends.length [DecidableEq K] [DecidableEq V] {F : List (Except E (Option V)) × Nat → R × (List (Except E (Option V)) × Nat)} {G : Tape K V E → R × Tape K V E}
    (hr : Replays scripted.counted F G) {process : Tape K V E → Tape K V E} (hG : ∀ t, process t = (G t).2) {as : List (Answered K V E)}
    (h : Attends process as) : as.length ≤ (F (as.map Prod.snd, 0)).2.2 := by
  obtain ⟨l, h1, h2, h3⟩ := hr.2 (as.map Prod.snd, 0)
  obtain ⟨post', hl⟩ := Attends.along (by rw [← funext hG]; exact h) h1 h2 h3
  have := performed_count l _ _ h1
  rw [this, hl, List.length_append]
  omega

theorem Attends.snoc {process : Tape K V E → Tape K V E} {as : List (Answered K V E)} (h : Attends process as) {c : MethodCall K V}
    (hc : nextCall process as = some c) (a : Except E (Option V)) : Attends process (as ++ [(c, a)]) := by
  intro pre c' a' post he
  rcases List.eq_nil_or_concat post with rfl | ⟨post', x, rfl⟩
  · have := List.append_inj' he rfl
    cases this.2
    rw [← this.1]
    exact hc
  · rw [List.concat_eq_append, ← List.cons_append, ← List.append_assoc] at he
    exact h pre c' a' post' (List.append_inj' he rfl).1

theorem Office.follows (B : Backend S K V E) (process : Nat → Tape K V E → Tape K V E) : ∀ (is : List Nat) (o : Office S K V E),
    (∀ i, Attends (process i) (o.answered i)) → ∀ i, Attends (process i) ((o.turns B process is).answered i)
  | [], o, h, i => h i
  | j :: is, o, h, i => by
    refine Office.follows B process is _ (fun k => ?_) i
    unfold Office.turn
    cases hc : nextCall (process j) (o.answered j) with
    | none => exact h k
    | some c =>
      simp only
      split
      · rename_i hk
        rw [hk]
        exact (h j).snoc hc _
      · exact h k

theorem Office.turns_none (B : Backend S K V E) (process : Nat → Tape K V E → Tape K V E) (i : Nat) : ∀ (is : List Nat) (o : Office S K V E),
    nextCall (process i) (o.answered i) = none → nextCall (process i) ((o.turns B process is).answered i) = none
  | [], o, h => h
  | j :: is, o, h => by
    refine Office.turns_none B process i is _ ?_
    unfold Office.turn
    cases hc : nextCall (process j) (o.answered j) with
    | none => exact h
    | some c =>
      simp only
      split
      · rename_i hk
        rw [hk, hc] at h
        cases h
      · exact h

theorem Office.turns_length (B : Backend S K V E) (process : Nat → Tape K V E → Tape K V E) (i : Nat) : ∀ (is : List Nat) (o : Office S K V E),
    nextCall (process i) ((o.turns B process is).answered i) = none ∨
      ((o.turns B process is).answered i).length = (o.answered i).length + is.count i
  | [], o => .inr rfl
  | j :: is, o => by
    show nextCall (process i) (((o.turn B process j).turns B process is).answered i) = none ∨
      (((o.turn B process j).turns B process is).answered i).length = _
    rcases Office.turns_length B process i is (o.turn B process j) with h | h
    · exact .inl h
    · cases hc : nextCall (process j) (o.answered j) with
      | none =>
        by_cases hj : j = i
        · subst hj
          refine .inl (Office.turns_none B process j is _ ?_)
          unfold Office.turn
          rw [hc]
          exact hc
        · refine .inr ?_
          rw [h, List.count_cons_of_ne (by simpa using hj)]
          unfold Office.turn
          rw [hc]
      | some c =>
        refine .inr ?_
        rw [h]
        unfold Office.turn
        rw [hc]
        simp only
        by_cases hj : j = i
        · subst hj
          rw [List.count_cons_self, if_pos rfl, List.length_append, List.length_singleton]
          omega
        · rw [List.count_cons_of_ne (by simpa using hj), if_neg (by simpa using Ne.symm hj)]

/-- A process whose program makes at most `n` storage calls on every storage. -/
theorem Office.progress [DecidableEq K] [DecidableEq V] (B : Backend S K V E) (process : Nat → Tape K V E → Tape K V E) (s : S) (schedule : List Nat) (i : Nat)
    {F : List (Except E (Option V)) × Nat → R × (List (Except E (Option V)) × Nat)} {G : Tape K V E → R × Tape K V E}
    (hr : Replays scripted.counted F G) (hG : ∀ t, process i t = (G t).2) (n : Nat) (hn : ∀ s, (F s).2.2 ≤ s.2 + n) :
    (((Office.start s).turns B process schedule).answered i).length ≤ n ∧
    (n ≤ schedule.count i → nextCall (process i) (((Office.start s).turns B process schedule).answered i) = none) := by
  have hf := Office.follows B process schedule (Office.start s) (fun j pre c a post he => by simp [Office.start] at he) i
  have hle : ∀ as : List (Answered K V E), Attends (process i) as → as.length ≤ n := fun as h => by
    have h1 := h.length hr hG
    have h2 := hn (as.map Prod.snd, 0)
    simp only at h2
    omega
  refine ⟨hle _ hf, fun hc => ?_⟩
  rcases Office.turns_length B process i schedule (Office.start s) with h | h
  · exact h
  · cases hx : nextCall (process i) (((Office.start s).turns B process schedule).answered i) with
    | none => rfl
    | some c =>
      have := hle _ (hf.snoc hx (.ok none))
      rw [List.length_append, List.length_singleton, h] at this
      simp only [Office.start, List.length_nil] at this
      omega

/-! ### Lengths of paths -/

theorem collect_length (p : Profile) : ∀ (f : Nat) (st : PositionPathIter) (l : List (Position × Position)),
    st.collect p f = .ok l → l.length < f
  | 0, st, l, h => by cases h
  | f + 1, st, l, h => by
    unfold PositionPathIter.collect at h
    rcases hn : st.next p (PathIter.fuel (positionNode p)) with e | ⟨v, st'⟩
    · rw [hn] at h; cases h
    · rw [hn] at h
      cases v with
      | none => cases h; simp
      | some x =>
        change (do let rest ← st'.collect p f; return x :: rest : Res _) = .ok l at h
        rcases hc : st'.collect p f with e | rest
        · rw [hc] at h; cases h
        · rw [hc] at h
          cases h
          have := collect_length p f st' rest hc
          simp only [List.length_cons]
          omega

theorem pathList_length (p : Profile) (root leaf : Position) (n : Nat) (l : List (Position × Position)) (h : root.pathList p leaf n = .ok l) :
    l.length ≤ 65 := by
  unfold Position.pathList at h
  rcases hn : PositionPathIter.new p root leaf n with e | it
  · rw [hn] at h; cases h
  · rw [hn] at h
    have := collect_length p _ it l h
    have e : PathIter.fuel (positionNode p) = 66 := rfl
    omega

theorem res_bind_ok {α β : Type} {r : Res α} {f : α → Res β} {b : β} (h : (r >>= f) = .ok b) : ∃ a, r = .ok a ∧ f a = .ok b := by
  cases r with
  | error e => cases h
  | ok a => exact ⟨a, rfl, h⟩

theorem peaks_atMost (p : Profile) (n : Nat) (l : List Position) (h : Binary.peakPositions p n = .ok l) : l.length ≤ 64 := by
  obtain ⟨m, _, h⟩ := res_bind_ok h
  obtain ⟨i, _, h⟩ := res_bind_ok h
  obtain ⟨q, _, h⟩ := res_bind_ok h
  obtain ⟨r, _, h⟩ := res_bind_ok h
  obtain ⟨items, hp, h⟩ := res_bind_ok h
  cases h
  have := pathList_length p _ _ _ _ hp
  simp only [List.length_map, List.length_drop]
  omega

/-! ### Nothing runs forever -/

theorem u64Add_ends (p : Profile) (a b : Nat) : Ends (u64Add p a b) := by
  unfold u64Add
  split
  · exact Ends.pure _
  · split <;> exact fun h => by cases h

theorem u64Add_small {p : Profile} {a b c : Nat} (h : u64Add p a b = .ok c) : c < 2 ^ 64 := by
  unfold u64Add at h
  split at h
  · cases h; assumption
  · split at h
    · cases h
    · cases h; exact Nat.mod_lt _ (by decide)

theorem rootPosition_ends (p : Profile) (n : Nat) : Ends (Binary.rootPosition p n) :=
  (u64Add_ends p _ _).bind fun _ _ => Ends.bind (u64Add_ends p _ _) fun _ _ => Ends.bind (u64Sub_ends p _ _) fun _ _ => Ends.pure _

theorem rootPosition_small {p : Profile} {n : Nat} {x : Position} (h : Binary.rootPosition p n = .ok x) : x.index < 2 ^ 64 := by
  obtain ⟨m, _, h⟩ := res_bind_ok h
  obtain ⟨w, hw, h⟩ := res_bind_ok h
  obtain ⟨r, hu, h⟩ := res_bind_ok h
  cases h
  have hs : w < 2 ^ 64 := u64Add_small hw
  show r < 2 ^ 64
  unfold u64Sub at hu
  split at hu
  · cases hu; omega
  · split at hu
    · cases hu
    · cases hu; omega

theorem peaks_end (p : Profile) (n : Nat) : Ends (Binary.peakPositions p n) := by
  refine (u64Add_ends p _ _).bind fun _ _ => Ends.bind (u64Sub_ends p _ _) fun _ _ => Ends.bind (fromLeafIndex_ends p _) fun _ _ => ?_
  exact Ends.bind (rootPosition_ends p n) fun r hr => Ends.bind (pathList_ends p r _ _ (rootPosition_small hr)) fun _ _ => Ends.pure _

theorem direction_ends (p : Profile) (x : Position) : Ends (x.direction p) := by
  unfold Position.direction Position.orientation u64Shl1 shiftAmount
  refine Ends.bind (Ends.bind (Ends.bind ?_ fun _ _ => Ends.pure _) fun _ _ => Ends.pure _) fun _ _ => Ends.pure _
  split
  · exact fun h => by cases h
  · split <;> exact fun h => by cases h

theorem parent_ends (p : Profile) (x : Position) : Ends (x.parent p) :=
  (i64Shl1_ends p _).bind fun _ _ => Ends.bind (direction_ends p x) fun _ _ => Ends.bind (i64Check_ends p _) fun _ _ =>
    Ends.bind (i64Check_ends p _) fun _ _ => Ends.pure _

theorem joinNodes_ends (p : Profile) (H : HashFn) (a b : Binary.Node) : Ends (Binary.joinNodes p H a b) :=
  (parent_ends p _).bind fun _ _ => Ends.pure _

theorem buildRoot_ends (p : Profile) (H : HashFn) : ∀ (l : List Binary.Node) (a : Binary.Node) (sc : Binary.Scratch), Ends (Binary.buildRootNode p H a l sc)
  | [], _, _ => Ends.pure _
  | _ :: l, _, _ => Ends.bind (joinNodes_ends p H _ _) fun _ _ => buildRoot_ends p H l _ _

theorem rootNode_ends (p : Profile) (H : HashFn) (l : List Binary.Node) (sc : Binary.Scratch) : Ends (Binary.rootNode p H l sc) := by
  cases l with
  | nil => exact Ends.pure _
  | cons a l => exact Ends.bind (buildRoot_ends p H l a sc) fun _ _ => Ends.pure _

/-! ### Many trees -/

/-- The total of a quantity over all trees is at most `n`. -/
def TotalAtMost (f : Nat → Nat) (n : Nat) : Prop := ∀ l : List Nat, l.Nodup → (l.map f).sum ≤ n

theorem TotalAtMost.zero : TotalAtMost (fun _ => 0) 0 := by
  intro l _
  induction l with
  | nil => exact Nat.le_refl _
  | cons a l ih => simpa using ih

theorem TotalAtMost.le {f : Nat → Nat} {n : Nat} (h : TotalAtMost f n) (i : Nat) : f i ≤ n := by
  have := h [i] (by simp)
  simpa using this

theorem TotalAtMost.set {f g : Nat → Nat} {n : Nat} (h : TotalAtMost f n) (i : Nat) (hg : ∀ j, j ≠ i → g j = f j) :
    TotalAtMost g (n - f i + g i) := by
  have hout : ∀ l : List Nat, i ∉ l → l.map g = l.map f := by
    intro l hl
    refine List.map_congr_left fun j hj => hg j fun e => ?_
    rw [e] at hj
    exact hl hj
  have h1 : ∀ l : List Nat, l.Nodup → i ∉ l → (l.map g).sum + f i ≤ n := by
    intro l hl hi
    rw [hout l hi]
    have := h (i :: l) (List.nodup_cons.2 ⟨hi, hl⟩)
    simp only [List.map_cons, List.sum_cons] at this
    omega
  intro l hl
  by_cases hi : i ∈ l
  · have hp := List.perm_cons_erase hi
    have hn : (l.erase i).Nodup := hl.erase i
    have hni : i ∉ l.erase i := by
      have := hp.nodup_iff.1 hl
      exact (List.nodup_cons.1 this).1
    have h2 := h1 _ hn hni
    have h3 : (l.map g).sum = g i + ((l.erase i).map g).sum := by
      have := (hp.map g).sum_nat
      rw [this, List.map_cons, List.sum_cons]
    omega
  · have := h1 l hl hi
    omega

end FuelMerkle

namespace FuelMerkle.Binary.Any
variable {S E α β : Type} {calls : S → Nat}

/-- The computation ends, with at most `n` storage calls up to then and subtrees in memory, counted together. -/
structure Within (calls : S → Nat) (n : Nat) (m : TreeM S E α) (t : Tree S) : Prop where
  cost : calls (m t).2.storage + (m t).2.head.length ≤ n
  ends : (m t).1 ≠ .error (.panic .diverges)

theorem Within.mono {m : TreeM S E α} {t : Tree S} {n n' : Nat} (h : Within calls n m t) (hn : n ≤ n') : Within calls n' m t :=
  ⟨Nat.le_trans h.1 hn, h.2⟩

theorem Within.pure {a : α} {t : Tree S} {n : Nat} (h : calls t.storage + t.head.length ≤ n) : Within calls n (Pure.pure a : TreeM S E α) t :=
  ⟨h, fun h => by cases h⟩

theorem Within.throw {e : Fail (Error E)} {t : Tree S} {n : Nat} (h : calls t.storage + t.head.length ≤ n) (he : e ≠ .panic .diverges) :
    Within calls n (Exec.throw e : TreeM S E α) t :=
  ⟨h, fun h => by cases h; exact he rfl⟩

theorem Within.bind {m : TreeM S E α} {f : α → TreeM S E β} {t : Tree S} {n n' : Nat} (h : Within calls n' m t) (hn : n' ≤ n)
    (hf : ∀ a, (m t).1 = .ok a → Within calls n (f a) (m t).2) : Within calls n (m >>= f) t := by
  rcases hm : m t with ⟨e | a, t'⟩
  · have h1 := h.1
    have h2 := h.2
    rw [hm] at h1 h2
    constructor
    · rw [Exec.bind_error hm]
      exact Nat.le_trans h1 hn
    · rw [Exec.bind_error hm]
      intro h3
      cases h3
      exact h2 rfl
  · have := hf a (by rw [hm])
    rw [hm] at this
    exact ⟨by rw [Exec.bind_ok hm]; exact this.1, by rw [Exec.bind_ok hm]; exact this.2⟩

theorem Within.get {f : Tree S → TreeM S E α} {t : Tree S} {n : Nat} (h : Within calls n (f t) t) : Within calls n (Exec.get >>= f) t := ⟨h.1, h.2⟩

theorem Within.modify {f : Unit → TreeM S E α} {g : Tree S → Tree S} {t : Tree S} {n : Nat} (h : Within calls n (f ()) (g t)) :
    Within calls n (Exec.modify g >>= f) t := ⟨h.1, h.2⟩

theorem Within.lift {r : Res α} {f : α → TreeM S E β} {t : Tree S} {n : Nat} (hr : Ends r) (h : calls t.storage + t.head.length ≤ n)
    (hf : ∀ a, r = .ok a → Within calls n (f a) t) : Within calls n (Exec.liftRes r >>= f) t := by
  cases r with
  | error e => exact ⟨h, fun h => by cases h; exact hr rfl⟩
  | ok a => exact hf a rfl

theorem Within.storage {g : S → Except E α × S} {f : α → TreeM S E β} {t : Tree S} {n : Nat} (hg : ∀ s, calls (g s).2 = calls s + 1)
    (h : calls t.storage + t.head.length + 1 ≤ n)
    (hf : ∀ a s, calls s = calls t.storage + 1 → Within calls n (f a) { t with storage := s }) : Within calls n (onStorage g >>= f) t := by
  have hc := hg t.storage
  rcases hs : g t.storage with ⟨e | a, s⟩
  · have hm : (onStorage g : TreeM S E α) t = (.error (.err (.storageError e)), { t with storage := s }) := by simp only [onStorage, hs]
    rw [hs] at hc
    constructor
    · rw [Exec.bind_error hm]
      simp only at hc ⊢
      omega
    · rw [Exec.bind_error hm]
      intro h
      cases h
  · have hm : (onStorage g : TreeM S E α) t = (.ok a, { t with storage := s }) := by simp only [onStorage, hs]
    rw [hs] at hc
    have := hf a s hc
    exact ⟨by rw [Exec.bind_ok hm]; exact this.1, by rw [Exec.bind_ok hm]; exact this.2⟩

variable {B : Backend S Nat Prim E}

theorem joinAllLoop_within (hC : CountsCalls B calls) (p : Profile) (H : HashFn) : ∀ (rest : List Node) (current : Node) (t : Tree S),
    1 + rest.length ≤ t.head.length → Within calls (calls t.storage + t.head.length) (joinAllLoop B p H current rest) t
  | [], _, t, _ => Within.pure (Nat.le_refl _)
  | next :: rest, current, t, h => by
    rw [List.length_cons] at h
    unfold joinAllLoop
    split
    · refine Within.modify (Within.lift (joinNodes_ends p H _ _) (by simp) fun joined _ => ?_)
      refine Within.storage (hC.insert _ _) (by show calls t.storage + 0 + 1 ≤ _; omega) fun _ s hs => ?_
      change calls s = calls t.storage + 1 at hs
      refine Within.modify ((joinAllLoop_within hC p H rest joined _ ?_).mono ?_)
      · simp only [List.length_cons]; omega
      · simp only [List.length_cons]; omega
    · exact Within.pure (Nat.le_refl _)

theorem push_within (hC : CountsCalls B calls) (p : Profile) (H : HashFn) (d : Bytes) (t : Tree S) :
    Within calls (calls t.storage + t.head.length + 2) (push B p H d) t := by
  unfold push
  refine Within.get (Within.lift ((fromLeafIndex_ends p _).bind fun _ _ => Ends.pure _) (by omega) fun node _ => ?_)
  refine Within.storage (hC.insert _ _) (by omega) fun _ s hs => ?_
  refine Within.modify (Within.bind (n' := calls t.storage + t.head.length + 2) ?_ (Nat.le_refl _) fun _ _ => ?_)
  · unfold joinAllSubtrees
    refine Within.get ?_
    simp only
    refine (joinAllLoop_within hC p H _ _ _ ?_).mono ?_
    · simp only [List.length_cons]; omega
    · simp only [List.length_cons]; omega
  · have hj : Within calls (calls t.storage + t.head.length + 2) (joinAllSubtrees B p H) { t with storage := s, head := node :: t.head } := by
      unfold joinAllSubtrees
      refine Within.get ?_
      simp only
      refine (joinAllLoop_within hC p H _ _ _ ?_).mono ?_
      · simp only [List.length_cons]; omega
      · simp only [List.length_cons]; omega
    have hc := hj.cost
    refine Within.get (Within.lift (u64Add_ends p _ _) hc fun _ _ => ?_)
    exact ⟨hc, fun h => by cases h⟩

theorem buildLoop_within (hC : CountsCalls B calls) : ∀ (l : List Position) (hd : List Node) (t : Tree S),
    Within calls (calls t.storage + t.head.length + l.length) (buildLoop B l hd) t ∧
      ∀ hd', (buildLoop B l hd t).1 = .ok hd' → hd'.length = hd.length + l.length
  | [], hd, t => ⟨Within.pure (by omega), fun hd' h => by cases h; rfl⟩
  | q :: l, hd, t => by
    rw [List.length_cons]
    constructor
    · unfold buildLoop
      refine Within.storage (hC.get _) (by omega) fun a s hs => ?_
      cases a with
      | none => exact Within.throw (by simp only; omega) (fun h => by cases h)
      | some a => exact ((buildLoop_within hC l _ _).1).mono (by simp only; omega)
    · intro hd' h
      unfold buildLoop at h
      rcases hg : B.get q.inOrderIndex t.storage with ⟨e | _ | a, s⟩
      · have hm : (onStorage (B.get q.inOrderIndex) : TreeM S E _) t = (.error (.err (.storageError e)), { t with storage := s }) := by simp only [onStorage, hg]
        rw [Exec.bind_error hm] at h
        cases h
      · have hm : (onStorage (B.get q.inOrderIndex) : TreeM S E _) t = (.ok none, { t with storage := s }) := by simp only [onStorage, hg]
        rw [Exec.bind_ok hm] at h
        cases h
      · have hm : (onStorage (B.get q.inOrderIndex) : TreeM S E _) t = (.ok (some a), { t with storage := s }) := by simp only [onStorage, hg]
        rw [Exec.bind_ok hm] at h
        have := (buildLoop_within hC l _ _).2 hd' h
        rw [this, List.length_cons]
        omega

theorem build_within (hC : CountsCalls B calls) (p : Profile) (t : Tree S) (ht : t.head = []) : Within calls (calls t.storage + 128) (build B p) t := by
  unfold build
  refine Within.get (Within.lift (peaks_end p _) (by rw [ht]; simp) fun peaks hp => ?_)
  have hl := peaks_atMost p _ _ hp
  obtain ⟨h1, h2⟩ := buildLoop_within hC peaks [] t
  refine Within.bind h1 (by rw [ht]; simp only [List.length_nil]; omega) fun hd hh => ?_
  have hd' := h2 hd hh
  have hc := h1.cost
  refine ⟨?_, fun h => by cases h⟩
  show calls (buildLoop B peaks [] t).2.storage + hd.length ≤ _
  rw [hd']
  rw [ht] at hc
  simp only [List.length_nil] at hc ⊢
  omega

theorem proveSides_within (hC : CountsCalls B calls) (sc : Scratch) : ∀ (l : List Position) (t : Tree S),
    Within calls (calls t.storage + t.head.length + l.length) (proveSides B sc l) t
  | [], t => Within.pure (by omega)
  | q :: l, t => by
    rw [List.length_cons]
    unfold proveSides
    refine Within.storage (hC.get _) (by omega) fun a s hs => ?_
    split
    · exact Within.throw (by simp only; omega) (fun h => by cases h)
    · have h := proveSides_within hC sc l { t with storage := s }
      refine Within.bind h (by simp only; omega) fun _ _ => Within.pure ?_
      have := h.cost
      simp only at this ⊢
      omega

theorem prove_within (hC : CountsCalls B calls) (p : Profile) (H : HashFn) (i : Nat) (t : Tree S) :
    Within calls (calls t.storage + t.head.length + 65) (prove B p H i) t := by
  unfold prove
  refine Within.get (Within.lift (u64Add_ends p _ _) (by omega) fun next _ => ?_)
  split
  · exact Within.throw (by omega) (fun h => by cases h)
  refine Within.lift (rootPosition_ends p _) (by omega) fun rp hrp => ?_
  refine Within.lift (fromLeafIndex_ends p _) (by omega) fun lp _ => ?_
  refine Within.storage (hC.get _) (by omega) fun a s hs => ?_
  cases a with
  | none => exact Within.throw (by simp only; omega) (fun h => by cases h)
  | some a =>
    refine Within.lift (pathList_ends p _ _ _ (rootPosition_small hrp)) (by simp only; omega) fun items hi => ?_
    have hl := pathList_length p _ _ _ _ hi
    refine Within.lift (rootNode_ends p H _ _) (by simp only; omega) fun r _ => ?_
    obtain ⟨r, sc⟩ := r
    refine Within.lift (r := runwrap r) (by unfold Ends; cases r <;> exact fun h => by cases h) (by simp only; omega) fun r _ => ?_
    have h := proveSides_within hC sc ((items.map Prod.snd).reverse.dropLast) { t with storage := s }
    have hn : ((items.map Prod.snd).reverse.dropLast).length ≤ 64 := by
      simp only [List.length_dropLast, List.length_reverse, List.length_map]
      omega
    refine Within.bind h (by simp only; omega) fun _ _ => Within.pure ?_
    have := h.cost
    simp only at this ⊢
    omega

theorem step_within (hC : CountsCalls B calls) (p : Profile) (H : HashFn) (op : Op) (t : Tree S) :
    (step B p H op t).1.Returns ∧ calls (step B p H op t).2.storage + (step B p H op t).2.head.length ≤ calls t.storage + t.head.length + 65 := by
  cases op with
  | push d =>
    have h := push_within hC p H d t
    exact ⟨h.ends, Nat.le_trans h.cost (by omega)⟩
  | root =>
    refine ⟨?_, by show calls t.storage + t.head.length ≤ _; omega⟩
    exact Ends.bind (rootNode_ends p H _ _) fun _ _ => Ends.pure _
  | prove i =>
    have h := prove_within hC p H i t
    exact ⟨h.ends, h.cost⟩

/-- The subtrees in memory, all trees together. -/
abbrev Bench.Kept (c : Bench S) (n : Nat) : Prop := TotalAtMost (fun j => (c.head j).length) n

theorem act_within (hC : CountsCalls B calls) (p : Profile) (H : HashFn) (a : Action) (c : Bench S) (n : Nat) (hk : c.Kept n) :
    (c.act B p H a).1.Returns ∧ ∃ n', (c.act B p H a).2.Kept n' ∧ calls (c.act B p H a).2.storage + n' ≤ calls c.storage + n + 128 := by
  cases a with
  | new i =>
    refine ⟨trivial, _, TotalAtMost.set hk i (fun j hj => ?_), ?_⟩
    · simp only [Bench.act, if_neg hj]
    · simp only [Bench.act, Tree.new, if_pos, List.length_nil]
      omega
  | load i m =>
    have h := build_within (t := { storage := c.storage, head := [], leavesCount := m }) hC p rfl
    rcases hb : build B p { storage := c.storage, head := [], leavesCount := m } with ⟨e | u, t⟩
    · have h1 := h.1
      have h2 := h.2
      rw [hb] at h1 h2
      change calls t.storage + t.head.length ≤ calls c.storage + 128 at h1
      simp only [Bench.act, Tree.load, hb]
      exact ⟨fun h => h2 (congrArg Except.error (Except.error.inj h)), n, hk, by omega⟩
    · have h1 := h.1
      rw [hb] at h1
      simp only [Bench.act, Tree.load, hb]
      refine ⟨(fun h => by cases h), _, TotalAtMost.set hk i (fun j hj => by simp only [if_neg hj]), ?_⟩
      simp only [if_pos] at h1 ⊢
      omega
  | call i op =>
    obtain ⟨h1, h2⟩ := step_within hC p H op { storage := c.storage, head := c.head i, leavesCount := c.count i }
    simp only [Bench.act]
    refine ⟨h1, _, TotalAtMost.set hk i (fun j hj => by simp only [if_neg hj]), ?_⟩
    have := hk.le i
    simp only [if_pos] at h2 this ⊢
    omega

theorem act_returns (hC : CountsCalls B calls) (p : Profile) (H : HashFn) (a : Action) (c : Bench S) : (c.act B p H a).1.Returns := by
  cases a with
  | new i => trivial
  | load i m =>
    have h2 := (build_within (t := { storage := c.storage, head := [], leavesCount := m }) hC p rfl).ends
    rcases hb : build B p { storage := c.storage, head := [], leavesCount := m } with ⟨e | u, t⟩
    · rw [hb] at h2
      simp only [Bench.act, Tree.load, hb]
      exact fun h => h2 (congrArg Except.error (Except.error.inj h))
    · simp only [Bench.act, Tree.load, hb]
      exact fun h => by cases h
  | call i op => exact (step_within hC p H op { storage := c.storage, head := c.head i, leavesCount := c.count i }).1

theorem calls_length (p : Profile) (H : HashFn) : ∀ (xs : List (Nat × Op)) (c : Bench S), (Bench.calls B p H xs c).1.length = xs.length
  | [], _ => rfl
  | x :: xs, c => congrArg (· + 1) (calls_length p H xs (c.call B p H x).2)

theorem call_within (hC : CountsCalls B calls) (p : Profile) (H : HashFn) (x : Nat × Op) (c : Bench S) (n : Nat) (hk : c.Kept n) :
    (c.call B p H x).1.Returns ∧ ∃ n', (c.call B p H x).2.Kept n' ∧ calls (c.call B p H x).2.storage + n' ≤ calls c.storage + n + 65 := by
  obtain ⟨h1, h2⟩ := step_within hC p H x.2 { storage := c.storage, head := c.head x.1, leavesCount := c.count x.1 }
  simp only [Bench.call]
  refine ⟨h1, _, TotalAtMost.set hk x.1 (fun j hj => by simp only [if_neg hj]), ?_⟩
  have := hk.le x.1
  simp only [if_pos] at h2 this ⊢
  omega

theorem calls_within (hC : CountsCalls B calls) (p : Profile) (H : HashFn) : ∀ (xs : List (Nat × Op)) (c : Bench S) (n : Nat), c.Kept n →
    calls (Bench.calls B p H xs c).2.storage ≤ calls c.storage + n + 65 * xs.length
  | [], c, n, _ => by show calls c.storage ≤ _; omega
  | x :: xs, c, n, hk => by
    obtain ⟨_, n', h1, h2⟩ := call_within hC p H x c n hk
    have := calls_within hC p H xs _ n' h1
    rw [List.length_cons]
    show calls (Bench.calls B p H xs (c.call B p H x).2).2.storage ≤ _
    omega

theorem wishes_within (hC : CountsCalls B calls) (p : Profile) (H : HashFn) (L : List Bytes) : ∀ (ws : List Wish) (c : Watch S) (n : Nat), c.bench.Kept n →
    calls (c.after B p H L ws).bench.storage ≤ calls c.bench.storage + n + 128 * ws.length
  | [], c, n, _ => by show calls c.bench.storage ≤ _; omega
  | w :: ws, c, n, hk => by
    rw [List.length_cons]
    show calls (Watch.after B p H L ws (c.grant B p H L w).2).bench.storage ≤ _
    unfold Watch.grant
    cases c.asked L w with
    | none =>
      have := wishes_within hC p H L ws c n hk
      simp only
      omega
    | some a =>
      obtain ⟨_, n', h1, h2⟩ := act_within hC p H a c.bench n hk
      have := wishes_within hC p H L ws ⟨(c.bench.act B p H a).2, c.expect a (c.bench.act B p H a).1⟩ n' h1
      simp only at this ⊢
      omega

end FuelMerkle.Binary.Any

namespace FuelMerkle.Sum.Any
variable {S E α β : Type} {calls : S → Nat} {B : Backend S Bytes32 Node E}

/-- The number of leaves that subtrees of these heights have. -/
def weight (l : List Node) : Nat := (l.map fun n => 2 ^ n.height).sum

/-- Heights that grow. -/
def Ladder (l : List Node) : Prop := l.Pairwise fun a b => a.height < b.height

theorem ladder_length : ∀ (l : List Node) (b : Nat), Ladder l → (∀ x ∈ l, b ≤ x.height) → 2 ^ (b + l.length) ≤ weight l + 2 ^ b
  | [], b, _, _ => by simp [weight]
  | a :: l, b, h, hb => by
    have h1 := List.pairwise_cons.1 h
    have h2 := ladder_length l (a.height + 1) h1.2 (fun x hx => h1.1 x hx)
    have ha := hb a (by simp)
    obtain ⟨k, hk⟩ := Nat.exists_eq_add_of_le ha
    have e1 : weight (a :: l) = 2 ^ a.height + weight l := by simp [weight]
    have e2 : 2 ^ (a.height + 1 + l.length) = 2 ^ k * 2 ^ (b + (a :: l).length) := by
      rw [← Nat.pow_add, List.length_cons]
      congr 1
      omega
    have e3 : (2 : Nat) ^ (a.height + 1) = 2 ^ a.height + 2 ^ a.height := by rw [Nat.pow_succ]; omega
    have e4 : (2 : Nat) ^ a.height = 2 ^ k * 2 ^ b := by
      rw [← Nat.pow_add]
      congr 1
      omega
    rw [e2, e3, e4] at h2
    rw [e1, e4]
    have hp : 0 < 2 ^ k := Nat.two_pow_pos k
    generalize (2 : Nat) ^ k = K at *
    generalize (2 : Nat) ^ (b + (a :: l).length) = X at *
    generalize (2 : Nat) ^ b = Y at *
    generalize weight l = W at *
    by_cases hx : X ≤ 2 * Y
    · have : Y ≤ K * Y := Nat.le_mul_of_pos_left _ hp
      omega
    · have : K * X = K * (X - 2 * Y) + K * (2 * Y) := by
        rw [← Nat.mul_add]
        congr 1
        omega
      have h3 : X - 2 * Y ≤ K * (X - 2 * Y) := Nat.le_mul_of_pos_left _ hp
      have h4 : K * (2 * Y) = K * Y + K * Y := by
        rw [← Nat.mul_add]
        congr 1
        omega
      have h5 : Y ≤ K * Y := Nat.le_mul_of_pos_left _ hp
      omega

/-- What holds of the tree after a computation. -/
theorem after_bind {P : Tree S → Prop} {m : TreeM S E α} {f : α → TreeM S E β} {t : Tree S} (he : ∀ e t', m t = (.error e, t') → P t')
    (ho : ∀ a t', m t = (.ok a, t') → P (f a t').2) : P ((m >>= f) t).2 := by
  rcases hm : m t with ⟨e | a, t'⟩
  · rw [Exec.bind_error hm]
    exact he e t' hm
  · rw [Exec.bind_ok hm]
    exact ho a t' hm

theorem onStorage_run {f : S → Except E α × S} (hf : ∀ s, calls (f s).2 = calls s + 1) (t : Tree S) {r : Except (Fail E) α} {t' : Tree S}
    (h : (onStorage f : TreeM S E α) t = (r, t')) : t'.head = t.head ∧ calls t'.storage = calls t.storage + 1 := by
  have hc := hf t.storage
  rcases hs : f t.storage with ⟨e | a, s⟩ <;> rw [hs] at hc <;> simp only [onStorage, hs] at h <;> cases h <;> exact ⟨rfl, hc⟩

theorem join_run (hC : CountsCalls B calls) (p : Profile) (H : HashFn) (a b : Node) (t : Tree S) {r : Except (Fail E) Node} {t' : Tree S}
    (h : joinSubtrees B p H a b t = (r, t')) :
    t'.head = t.head ∧ calls t'.storage ≤ calls t.storage + 1 ∧
      ∀ j, r = .ok j → a.height < 64 → j.height = a.height + 1 := by
  unfold joinSubtrees at h
  rcases hu : u32Add p a.height 1 with e | k
  · rw [hu] at h
    cases h
    exact ⟨rfl, by omega, fun j hj => by cases hj⟩
  rw [hu] at h
  rcases hn : Node.createNode p H k a.fee a.hash b.fee b.hash with e | n
  · rw [Exec.liftRes_ok_bind, hn] at h
    cases h
    exact ⟨rfl, by omega, fun j hj => by cases hj⟩
  rw [Exec.liftRes_ok_bind, hn, Exec.liftRes_ok_bind] at h
  have hk : n.height = k := by
    obtain ⟨fee, _, h⟩ := res_bind_ok hn
    cases h
    rfl
  rcases hs : (onStorage (B.insert n.hash n) : TreeM S E _) t with ⟨e | x, t1⟩
  · rw [Exec.bind_error hs] at h
    cases h
    have := onStorage_run (hC.insert _ _) t hs
    exact ⟨this.1, by omega, fun j hj => by cases hj⟩
  · rw [Exec.bind_ok hs] at h
    cases h
    have := onStorage_run (hC.insert _ _) t hs
    refine ⟨this.1, by omega, fun j hj ha => ?_⟩
    cases hj
    rw [hk]
    unfold u32Add at hu
    rw [if_pos (by omega)] at hu
    cases hu
    rfl

/-- Subtrees of growing heights with at most `w` leaves; at most `n` storage calls and subtrees, counted together. -/
structure Good (calls : S → Nat) (n w : Nat) (t : Tree S) : Prop where
  ladder : Ladder t.head
  weight : weight t.head ≤ w
  cost : calls t.storage + t.head.length ≤ n

theorem weight_cons (a : Node) (l : List Node) : weight (a :: l) = 2 ^ a.height + weight l := by simp [weight]

theorem height_small {a : Node} {w : Nat} (h : 2 ^ a.height ≤ w) (hw : w < 2 ^ 64) : a.height < 64 :=
  (Nat.pow_lt_pow_iff_right (by decide)).1 (Nat.lt_of_le_of_lt h hw)

theorem Good.nil {n w : Nat} {t : Tree S} (h : t.head = []) (hc : calls t.storage ≤ n) : Good calls n w t :=
  ⟨by rw [h]; exact List.Pairwise.nil, by rw [h]; simp [Any.weight], by rw [h]; simpa using hc⟩

theorem joinAllLoop_good (hC : CountsCalls B calls) (p : Profile) (H : HashFn) (n w : Nat) (hw : w < 2 ^ 64) : ∀ (rest : List Node) (current : Node) (t : Tree S),
    t.head = current :: rest → Ladder rest → (∀ x ∈ rest, current.height ≤ x.height) → weight (current :: rest) ≤ w →
    calls t.storage + t.head.length ≤ n → Good calls n w (joinAllLoop B p H current rest t).2
  | [], c, t, ht, _, _, h4, h5 => ⟨by show Ladder t.head; rw [ht]; exact List.pairwise_singleton _ _, by show weight t.head ≤ w; rw [ht]; exact h4, h5⟩
  | x :: rest, c, t, ht, h2, h3, h4, h5 => by
    have h2' := List.pairwise_cons.1 h2
    have hx := h3 x (by simp)
    rw [weight_cons, weight_cons] at h4
    have hpos := Nat.two_pow_pos c.height
    have hlen : t.head.length = rest.length + 2 := by rw [ht]; simp
    unfold joinAllLoop
    split
    · rename_i he
      rw [Exec.modify_bind]
      refine after_bind (fun e t' hj => ?_) (fun j t' hj => ?_)
      · have := join_run hC p H _ _ _ hj
        refine Good.nil this.1 ?_
        have h6 := this.2.1
        simp only at h6
        omega
      · have := join_run hC p H _ _ _ hj
        have h6 := this.2.1
        have hjh := this.2.2 j rfl (height_small (w := w) (by omega) hw)
        simp only at h6
        rw [Exec.modify_bind]
        refine joinAllLoop_good hC p H n w hw rest j _ rfl h2'.2 (fun y hy => ?_) ?_ ?_
        · rw [hjh]; exact h2'.1 y hy
        · rw [weight_cons, hjh, Nat.pow_succ]
          rw [he] at h4
          omega
        · simp only [List.length_cons]; omega
    · rename_i he
      refine ⟨?_, ?_, h5⟩
      · show Ladder t.head
        rw [ht]
        refine List.pairwise_cons.2 ⟨fun y hy => ?_, h2⟩
        rcases List.mem_cons.1 hy with rfl | hy
        · omega
        · have := h2'.1 y hy
          omega
      · show weight t.head ≤ w
        rw [ht, weight_cons, weight_cons]
        exact h4

theorem push_good (hC : CountsCalls B calls) (p : Profile) (H : HashFn) (fee : Nat) (d : Bytes) (t : Tree S) (n w : Nat) (hw : w + 1 < 2 ^ 64)
    (ht : Good calls n w t) : Good calls (n + 2) (w + 1) (push B p H fee d t).2 := by
  have h1 := ht.ladder
  have h2 := ht.weight
  have h3 := ht.cost
  unfold push
  refine after_bind (fun e t' hs => ?_) (fun a t' hs => ?_)
  · have := onStorage_run (hC.insert _ _) t hs
    exact ⟨by rw [this.1]; exact h1, by rw [this.1]; omega, by rw [this.1]; omega⟩
  · have := onStorage_run (hC.insert _ _) t hs
    rw [Exec.modify_bind]
    unfold joinAllSubtrees
    rw [Exec.get_bind]
    simp only [this.1]
    refine joinAllLoop_good hC p H (n + 2) (w + 1) hw t.head _ _ rfl h1 (fun x _ => Nat.zero_le _) ?_ ?_
    · rw [weight_cons]
      show 2 ^ 0 + weight t.head ≤ w + 1
      omega
    · simp only [List.length_cons]; omega

theorem rootLoop_calls (hC : CountsCalls B calls) (p : Profile) (H : HashFn) : ∀ (rest : List Node) (current : Node) (t : Tree S),
    (rootLoop B p H current rest t).2.head = t.head ∧ calls (rootLoop B p H current rest t).2.storage ≤ calls t.storage + rest.length
  | [], _, t => ⟨rfl, by show calls t.storage ≤ _; omega⟩
  | x :: rest, c, t => by
    unfold rootLoop
    refine after_bind (P := fun t' => t'.head = t.head ∧ calls t'.storage ≤ calls t.storage + (x :: rest).length) (fun e t' hj => ?_) (fun j t' hj => ?_)
    · have := join_run hC p H _ _ _ hj
      exact ⟨this.1, by rw [List.length_cons]; omega⟩
    · have h1 := join_run hC p H _ _ _ hj
      have h2 := rootLoop_calls hC p H rest j t'
      exact ⟨by rw [h2.1, h1.1], by rw [List.length_cons]; omega⟩

theorem root_calls (hC : CountsCalls B calls) (p : Profile) (H : HashFn) (t : Tree S) :
    (root B p H t).2.head = t.head ∧ calls (root B p H t).2.storage ≤ calls t.storage + (t.head.length - 1) := by
  have key : (rootNode B p H t).2.head = t.head ∧ calls (rootNode B p H t).2.storage ≤ calls t.storage + (t.head.length - 1) := by
    unfold rootNode
    rw [Exec.get_bind]
    cases ht : t.head with
    | nil => exact ⟨ht, by show calls t.storage ≤ _; omega⟩
    | cons a l =>
      have := rootLoop_calls hC p H l a t
      simp only
      refine after_bind (P := fun t' => t'.head = a :: l ∧ calls t'.storage ≤ calls t.storage + ((a :: l).length - 1)) (fun e t' hj => ?_) (fun j t' hj => ?_)
      all_goals
        rw [hj, ht] at this
        exact ⟨this.1, by simpa using this.2⟩
  unfold root
  refine after_bind (P := fun t' => t'.head = t.head ∧ calls t'.storage ≤ calls t.storage + (t.head.length - 1)) (fun e t' hj => ?_) (fun j t' hj => ?_)
  · rw [hj] at key
    exact key
  · rw [hj] at key
    cases j <;> exact key

theorem run_length (p : Profile) (H : HashFn) : ∀ (xs : List (Nat × Op)) (c : Desk S), (Desk.run B p H xs c).1.length = xs.length
  | [], _ => rfl
  | x :: xs, c => congrArg (· + 1) (run_length p H xs (c.step B p H x).2)

theorem run_within (hC : CountsCalls B calls) (p : Profile) (H : HashFn) : ∀ (xs : List (Nat × Op)) (c : Desk S) (n w : Nat), w + xs.length < 2 ^ 64 →
    (∀ j, Ladder (c.head j) ∧ weight (c.head j) ≤ w) → TotalAtMost (fun j => (c.head j).length) n →
    calls (Desk.run B p H xs c).2.storage ≤ calls c.storage + n + 63 * xs.length
  | [], c, n, w, _, _, _ => by show calls c.storage ≤ _; omega
  | x :: xs, c, n, w, hw, hl, hk => by
    rw [List.length_cons] at hw ⊢
    show calls (Desk.run B p H xs (c.step B p H x).2).2.storage ≤ _
    obtain ⟨i, op⟩ := x
    have hi := hl i
    have hle := hk.le i
    have key : Ladder ((c.step B p H (i, op)).2.head i) ∧ weight ((c.step B p H (i, op)).2.head i) ≤ w + 1 ∧
        calls (c.step B p H (i, op)).2.storage + ((c.step B p H (i, op)).2.head i).length ≤ calls c.storage + (c.head i).length + 63 := by
      cases op with
      | push fee d =>
        have h := push_good hC p H fee d { storage := c.storage, head := c.head i } (calls c.storage + (c.head i).length) w (by omega) ⟨hi.1, hi.2, Nat.le_refl _⟩
        simp only [Desk.step, Any.step, if_pos]
        exact ⟨h.ladder, h.weight, Nat.le_trans h.cost (by omega)⟩
      | root =>
        have h := root_calls hC p H { storage := c.storage, head := c.head i }
        have h64 : (c.head i).length ≤ 64 := by
          have := ladder_length _ 0 hi.1 (fun x _ => Nat.zero_le _)
          rw [Nat.zero_add] at this
          exact (Nat.pow_le_pow_iff_right (a := 2) (by decide)).1 (by omega)
        simp only [Desk.step, Any.step, if_pos]
        rw [h.1]
        refine ⟨hi.1, by simp only; omega, ?_⟩
        have := h.2
        simp only at this ⊢
        omega
    have ho : ∀ j, j ≠ i → (c.step B p H (i, op)).2.head j = c.head j := fun j hj => by simp only [Desk.step, if_neg hj]
    have := run_within hC p H xs (c.step B p H (i, op)).2 _ (w + 1) (by omega) (fun j => ?_)
      (TotalAtMost.set (g := fun j => ((c.step B p H (i, op)).2.head j).length) hk i (fun j hj => by simp only [ho j hj]))
    · have h3 := key.2.2
      omega
    · by_cases hj : j = i
      · rw [hj]; exact ⟨key.1, key.2.1⟩
      · rw [ho j hj]; exact ⟨(hl j).1, Nat.le_trans (hl j).2 (by omega)⟩

end FuelMerkle.Sum.Any

namespace FuelMerkle.Sparse.Any
variable {S E : Type} {calls : S → Nat} {B : Backend S Bytes32 Prim E}

theorem requests_calls (hC : CountsCalls B calls) (p : Profile) (H : HashFn) : ∀ (rs : List Request) (c : Bench S),
    calls (c.handleAll B p H rs).2.storage ≤ calls c.storage + 1026 * rs.length
  | [], c => by show calls c.storage ≤ _; omega
  | r :: rs, c => by
    have h1 := (handle_calls (H := H) hC p r c).1
    have h2 := requests_calls hC p H rs (Bench.handle B p H r c).2
    rw [List.length_cons]
    show calls ((Bench.handle B p H r c).2.handleAll B p H rs).2.storage ≤ _
    omega

end FuelMerkle.Sparse.Any
