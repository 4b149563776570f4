import Verif.Proofs.Sum
import Verif.Spec.SumApi
import Verif.Spec.Sha256

/-
Properties C45–C50 (and the sum-tree part of C02): the binary Merkle sum tree.
-/
namespace FuelMerkle.Props
open FuelMerkle.Spec
namespace SumTree
open FuelMerkle.Sum
variable {E : Type}

/-- Leaves used in the examples. -/
def sampleItems : List Item := [(1, [10]), (2, [20]), (3, []), (2 ^ 63, [40, 41]), (5, [50])]

/-! ### Helper lemmas -/

theorem mem_prefixMsgs (H : HashFn) (D : List Item) (ds rest : List Item) (h : D = ds ++ rest) :
    ∀ x ∈ sumMsgs H ds, x ∈ prefixMsgs H D := by
  intro x hx
  unfold prefixMsgs
  rw [List.mem_flatMap]
  refine ⟨ds.length, ?_, ?_⟩
  · rw [h]; simp; omega
  · rw [h, List.take_left]; exact hx

/-- Running a history on reliable storage; the pushed leaves are `ds ++ pushed ops`. -/
theorem run_spec (p : Profile) (H : HashFn) (D : List Item) : ∀ (ops : List Op) (ds : List Item) (t : Tree E),
    Head p H (prefixMsgs H D) t.storage.map t.head ds → (∃ more, D = ds ++ (pushed ops ++ more)) → D.length < 2 ^ 64 →
    (∀ x ∈ D, x.1 < 2 ^ 64) → (p.overflowChecks = true → total D < 2 ^ 64) → t.storage.Reliable →
    (run p H ops t).1 = (specRun H ops ds).1 ∧
    Head p H (prefixMsgs H D) (run p H ops t).2.storage.map (run p H ops t).2.head (ds ++ pushed ops) ∧
    (run p H ops t).2.storage.Reliable := by
  intro ops
  induction ops with
  | nil => intro ds t h _ _ _ _ hr; exact ⟨rfl, by simpa [pushed, run] using h, hr⟩
  | cons op ops ih =>
    intro ds t h hD hn hf ht hr
    have hwhy : ∀ (ds' : List Item) e, (∃ more, D = ds' ++ more) → ¬ Why p t.storage ds' e := by
      rintro ds' e ⟨more, hm⟩ (⟨c, f, _, h1, _⟩ | ⟨h1, h2, _⟩)
      · rw [hr] at h1; cases h1
      · have := ht h1
        rw [hm, total_append] at this; omega
    cases op with
    | push fee d =>
      obtain ⟨more, hD⟩ := hD
      have hD' : D = (ds ++ [(fee, d)]) ++ (pushed ops ++ more) := by rw [hD]; simp [pushed]
      have hl : (ds ++ [(fee, d)]).length < 2 ^ 64 := by
        have := congrArg List.length hD'
        rw [List.length_append] at this; omega
      obtain ⟨r, t', q1, q2, q3, q4⟩ := push_spec p H (prefixMsgs H D) ds (fee, d) t h hl
        (hf _ (by rw [hD']; simp)) (mem_prefixMsgs H D _ _ hD')
      have hr' : t'.storage.Reliable := by intro c; rw [q2]; exact hr c
      rcases q4 with ⟨rfl, q5⟩ | ⟨f, q5, _⟩ | ⟨e, _, _, _, q5⟩
      · obtain ⟨i1, i2, i3⟩ := ih (ds ++ [(fee, d)]) t' q5 ⟨more, hD'⟩ hn hf ht hr'
        have hst : step p H (.push fee d) t = (.push (.ok ()), t') := by simp only [step, q1]
        simp only [run, hst, specRun, specStep, i1, pushed]
        refine ⟨trivial, ?_, i3⟩
        simpa using i2
      · rw [hr] at q5; cases q5
      · exact absurd q5 (hwhy _ _ ⟨_, hD'⟩)
    | root =>
      obtain ⟨more, hD⟩ := hD
      have hD : D = ds ++ (pushed ops ++ more) := hD
      have hl : ds.length < 2 ^ 64 := by
        have := congrArg List.length hD
        rw [List.length_append] at this; omega
      obtain ⟨r, t', q1, q2, q3, q4, q5, q6⟩ := root_spec p H (prefixMsgs H D) ds t h hl (mem_prefixMsgs H D _ _ hD)
      have hr' : t'.storage.Reliable := by intro c; rw [q3]; exact hr c
      rcases q6 with ⟨rfl, _, _⟩ | ⟨e, _, q7⟩
      · obtain ⟨i1, i2, i3⟩ := ih ds t' q5 ⟨more, hD⟩ hn hf ht hr'
        have hst : step p H .root t = (.root (.ok (total ds % 2 ^ 64, if ds = [] then emptySum else sumHash H ds)), t') := by
          simp only [step, q1]
        simp only [run, hst, specRun, specStep, i1, pushed]
        exact ⟨trivial, i2, i3⟩
      · exact absurd q7 (hwhy _ _ ⟨_, hD⟩)

/-- Successful pushes, whatever the storage does. -/
theorem pushAll_spec (p : Profile) (H : HashFn) (D : List Item) : ∀ (xs ds : List Item) (t : Tree E),
    Head p H (prefixMsgs H D) t.storage.map t.head ds → (∃ more, D = ds ++ (xs ++ more)) → D.length < 2 ^ 64 →
    (∀ x ∈ D, x.1 < 2 ^ 64) →
    ∃ r t', pushAll p H xs t = (r, t') ∧ t'.storage.sched = t.storage.sched ∧ t.storage.clock ≤ t'.storage.clock ∧
      ((r = .ok () ∧ Head p H (prefixMsgs H D) t'.storage.map t'.head (ds ++ xs)) ∨
       ∃ e, r = .error e ∧ Why p t.storage (ds ++ xs) e) := by
  intro xs
  induction xs with
  | nil => intro ds t h _ _ _; exact ⟨_, _, rfl, rfl, Nat.le_refl _, Or.inl ⟨rfl, by simpa using h⟩⟩
  | cons x xs ih =>
    intro ds t h ⟨more, hD⟩ hn hf
    have hD' : D = (ds ++ [x]) ++ (xs ++ more) := by rw [hD]; simp
    have hl : (ds ++ [x]).length < 2 ^ 64 := by
      have := congrArg List.length hD'
      rw [List.length_append] at this; omega
    obtain ⟨r, t', q1, q2, q3, q4⟩ := push_spec p H (prefixMsgs H D) ds x t h hl
      (hf _ (by rw [hD']; simp)) (mem_prefixMsgs H D _ _ hD')
    have happ : ds ++ x :: xs = (ds ++ [x]) ++ xs := by simp
    rcases q4 with ⟨rfl, q5⟩ | ⟨f, q5, rfl, _⟩ | ⟨e, _, rfl, _, q5⟩
    · obtain ⟨r2, t2, i1, i2, i3, i4⟩ := ih (ds ++ [x]) t' q5 ⟨more, hD'⟩ hn hf
      refine ⟨r2, t2, by rw [pushAll, Exec.bind_ok q1, i1], by rw [i2, q2], by omega, ?_⟩
      rw [happ]
      rcases i4 with i4 | ⟨e, i4, ⟨c, f, i5, i6, i7⟩ | i5⟩
      · exact Or.inl i4
      · exact Or.inr ⟨e, i4, Or.inl ⟨c, f, by omega, by rw [← q2]; exact i6, i7⟩⟩
      · exact Or.inr ⟨e, i4, Or.inr i5⟩
    · exact ⟨_, t', by rw [pushAll, Exec.bind_error q1], q2, by omega,
        Or.inr ⟨_, rfl, Or.inl ⟨_, f, Nat.le_refl _, q5, rfl⟩⟩⟩
    · refine ⟨_, t', by rw [pushAll, Exec.bind_error q1], q2, by omega, Or.inr ⟨_, rfl, ?_⟩⟩
      rcases q5 with ⟨c, f, h1⟩ | ⟨h1, h2, h3⟩
      · exact Or.inl ⟨c, f, h1⟩
      · exact Or.inr ⟨h1, by rw [happ, total_append]; omega, h3⟩

theorem item_le_total {D : List Item} {x : Item} (h : x ∈ D) : x.1 ≤ total D := by
  induction D with
  | nil => cases h
  | cons y D ih =>
    have e : total (y :: D) = y.1 + total D := by simp [total]
    rcases List.mem_cons.1 h with rfl | h
    · omega
    · have := ih h; omega

theorem stored_walk {p : Profile} {H : HashFn} {m : Bytes32 → Option Node} {ds : List Item} (h : Stored p H m ds)
    (hf : ∀ x ∈ ds, x.1 < 2 ^ 64) : ∀ f, ds.length ≤ f →
    walk m f (sumHash H ds) = some (ds.map fun x => (x.1, H ([0x00] ++ be64 x.1 ++ x.2))) := by
  induction h with
  | leaf x n h1 h2 =>
    intro f hfu
    obtain ⟨f, rfl⟩ : ∃ g, f = g + 1 := ⟨f - 1, by simp at hfu; omega⟩
    obtain ⟨h3, h4⟩ := h2.leaf rfl
    have h5 : n.fee = x.1 := by
      rw [h2.fee]
      have := hf x (by simp)
      simp only [total, List.map_cons, List.map_nil, List.sum_cons, List.sum_nil]; omega
    simp only [walk, h1, h3, h4, h5, h2.hash, List.map_cons, List.map_nil]
    rw [sumHash_single]
  | node a b n hs h1 h2 _ _ iha ihb =>
    intro f hfu
    have hpos : 0 < a.length ∧ 0 < b.length := by
      obtain ⟨h0, c, hc, _⟩ := hs
      have := Nat.two_pow_pos c
      omega
    rw [List.length_append] at hfu
    obtain ⟨f, rfl⟩ : ∃ g, f = g + 1 := ⟨f - 1, by omega⟩
    obtain ⟨h3, h4⟩ := h2.node a b rfl hs
    simp only [walk, h1, h3, h4, iha (fun x hx => hf x (by simp [hx])) f (by omega),
      ihb (fun x hx => hf x (by simp [hx])) f (by omega)]
    simp

end SumTree

open SumTree
variable {E : Type}

/-! ### C02 (sum tree) -/

/-- A sum tree without leaves reports fee 0 and the constant `empty_sum`, whatever the
storage holds and does; the constant is SHA-256 of the empty string. -/
theorem C02_sum_empty_root (p : Profile) (H : HashFn) (s : Sum.SStore E) :
    Sum.root p H (Sum.Tree.new s) = (.ok (0, Sum.emptySum), Sum.Tree.new s) ∧
    Sum.emptySum = Sha256.sha256 [] := ⟨rfl, by decide +kernel⟩

/-! ### C45 -/

/-- After pushing a nonempty list of (fee, data) whose fees sum up to less than `2^64`, every
push succeeds and `root()` is the total fee and the sum-tree hash. -/
theorem C45_sum_root (p : Profile) (H : HashFn) (s : Sum.SStore E) (hs : s.Reliable) (ds : List Item)
    (hn : ds.length < 2 ^ 64) (h0 : ds ≠ []) (ht : total ds < 2 ^ 64) :
    ∃ t, Sum.pushAll p H ds (Sum.Tree.new s) = (.ok (), t) ∧ (Sum.root p H t).1 = .ok (total ds, sumHash H ds) := by
  have hf : ∀ x ∈ ds, x.1 < 2 ^ 64 := by
    intro x hx
    have := item_le_total hx
    omega
  obtain ⟨r, t, q1, q2, q3, q4⟩ := pushAll_spec p H ds ds [] (Sum.Tree.new s) .nil ⟨[], by simp⟩ hn hf
  have hw : ∀ s' : Sum.SStore E, s'.sched = s.sched → ∀ e, ¬ Sum.Why p s' ds e := by
    rintro s' hs' e (⟨c, f, _, h1, _⟩ | ⟨_, h2, _⟩)
    · rw [hs', hs] at h1; cases h1
    · omega
  rcases q4 with ⟨rfl, q4⟩ | ⟨e, _, q5⟩
  · refine ⟨t, q1, ?_⟩
    obtain ⟨r, t', w1, _, _, _, _, w6⟩ := Sum.root_spec p H _ ds t q4 hn (mem_prefixMsgs H ds ds [] (by simp))
    rcases w6 with ⟨rfl, _⟩ | ⟨e, _, w7⟩
    · rw [w1, if_neg h0, Nat.mod_eq_of_lt ht]
    · exact absurd w7 (hw _ q2 e)
  · rw [List.nil_append] at q5; exact absurd q5 (hw _ rfl e)

theorem C45_sum_root_sha256 (p : Profile) (s : Sum.SStore E) (hs : s.Reliable) (ds : List Item)
    (hn : ds.length < 2 ^ 64) (ht : total ds < 2 ^ 64) :
    ∃ t, Sum.pushAll p Sha256.sha256 ds (Sum.Tree.new s) = (.ok (), t) ∧
      (Sum.root p Sha256.sha256 t).1 = .ok (total ds, sumHash Sha256.sha256 ds) := by
  by_cases h0 : ds = []
  · subst h0
    refine ⟨_, rfl, ?_⟩
    rw [(C02_sum_empty_root p Sha256.sha256 s).1, (C02_sum_empty_root p Sha256.sha256 s).2]
    rw [sumHash]; rfl
  · exact C45_sum_root p _ s hs ds hn h0 ht

example : (Store.empty : Sum.SStore Unit).Reliable ∧ sampleItems ≠ [] ∧ total sampleItems < 2 ^ 64 :=
  ⟨fun _ => rfl, by decide, by decide⟩

/-! ### C46 -/

/-- With overflow checks a total fee of `2^64` or more makes a push or the final `root()`
panic with an overflow. -/
theorem C46_overflow_panics (p : Profile) (hp : p.overflowChecks = true) (H : HashFn) (s : Sum.SStore E)
    (hs : s.Reliable) (ds : List Item) (hn : ds.length < 2 ^ 64) (hf : ∀ x ∈ ds, x.1 < 2 ^ 64)
    (ht : 2 ^ 64 ≤ total ds) :
    ((Sum.pushAll p H ds >>= fun _ => Sum.root p H) (Sum.Tree.new s)).1 = .error (.panic .overflow) := by
  obtain ⟨r, t, q1, q2, q3, q4⟩ := pushAll_spec p H ds ds [] (Sum.Tree.new s) .nil ⟨[], by simp⟩ hn hf
  rcases q4 with ⟨rfl, q4⟩ | ⟨e, rfl, ⟨c, f, _, h1, _⟩ | ⟨_, _, rfl⟩⟩
  · rw [Exec.bind_ok q1]
    obtain ⟨r, t', w1, _, w3, _, _, w6⟩ := Sum.root_spec p H _ ds t q4 hn (mem_prefixMsgs H ds ds [] (by simp))
    rcases w6 with ⟨_, w7, _⟩ | ⟨e, rfl, ⟨c, f, _, h1, _⟩ | ⟨_, _, rfl⟩⟩
    · have := w7 hp; omega
    · rw [q2] at h1
      have h2 : s.sched c = none := hs c
      rw [show (Sum.Tree.new s).storage.sched c = s.sched c from rfl, h2] at h1; cases h1
    · rw [w1]
  · have h2 : s.sched c = none := hs c
    rw [show (Sum.Tree.new s).storage.sched c = s.sched c from rfl, h2] at h1; cases h1
  · rw [Exec.bind_error q1]

/-- Without overflow checks the reported fee is the total modulo `2^64` (and the digest is
the sum-tree hash with fees written modulo `2^64`). -/
theorem C46_overflow_wraps (p : Profile) (hp : p.overflowChecks = false) (H : HashFn) (s : Sum.SStore E)
    (hs : s.Reliable) (ds : List Item) (hn : ds.length < 2 ^ 64) (hf : ∀ x ∈ ds, x.1 < 2 ^ 64) (h0 : ds ≠ []) :
    ((Sum.pushAll p H ds >>= fun _ => Sum.root p H) (Sum.Tree.new s)).1 =
      .ok (total ds % 2 ^ 64, sumHash H ds) := by
  have hw : ∀ s' : Sum.SStore E, s'.sched = s.sched → ∀ e, ¬ Sum.Why p s' ds e := by
    rintro s' hs' e (⟨c, f, _, h1, _⟩ | ⟨h1, _⟩)
    · rw [hs', hs] at h1; cases h1
    · rw [hp] at h1; cases h1
  obtain ⟨r, t, q1, q2, q3, q4⟩ := pushAll_spec p H ds ds [] (Sum.Tree.new s) .nil ⟨[], by simp⟩ hn hf
  rcases q4 with ⟨rfl, q4⟩ | ⟨e, _, q5⟩
  · rw [Exec.bind_ok q1]
    obtain ⟨r, t', w1, _, _, _, _, w6⟩ := Sum.root_spec p H _ ds t q4 hn (mem_prefixMsgs H ds ds [] (by simp))
    rcases w6 with ⟨rfl, _⟩ | ⟨e, _, w7⟩
    · rw [w1, if_neg h0]
    · exact absurd w7 (hw _ q2 e)
  · rw [List.nil_append] at q5; exact absurd q5 (hw _ rfl e)

example : 2 ^ 64 ≤ total [(2 ^ 63, []), (2 ^ 63, [1])] ∧ ∀ x ∈ [(2 ^ 63, []), (2 ^ 63, [1])], x.1 < 2 ^ 64 := by
  decide

/-! ### C47 -/

/-- Equal digests (of lists with `u64` fees): equal lists, or two different messages hashed
for the two lists collide. -/
theorem C47_sum_root_commits (H : HashFn) (D D' : List Item) (hf : ∀ x ∈ D, x.1 < 2 ^ 64)
    (hf' : ∀ x ∈ D', x.1 < 2 ^ 64) (h : sumHash H D = sumHash H D') :
    D = D' ∨ Collide H (sumMsgs H D) (sumMsgs H D') :=
  sum_commits H _ D D' rfl hf hf' h

/-- The same for the roots of two trees. -/
theorem C47_tree_roots_commit (p : Profile) (H : HashFn) (s s' : Sum.SStore E) (hs : s.Reliable) (hs' : s'.Reliable)
    (D D' : List Item) (h0 : D ≠ []) (h0' : D' ≠ []) (hn : D.length < 2 ^ 64) (hn' : D'.length < 2 ^ 64)
    (ht : total D < 2 ^ 64) (ht' : total D' < 2 ^ 64)
    (h : ((Sum.pushAll p H D >>= fun _ => Sum.root p H) (Sum.Tree.new s)).1 =
      ((Sum.pushAll p H D' >>= fun _ => Sum.root p H) (Sum.Tree.new s')).1) :
    D = D' ∨ Collide H (sumMsgs H D) (sumMsgs H D') := by
  obtain ⟨t, h1, h2⟩ := C45_sum_root p H s hs D hn h0 ht
  obtain ⟨t', h1', h2'⟩ := C45_sum_root p H s' hs' D' hn' h0' ht'
  rw [Exec.bind_ok h1, Exec.bind_ok h1', h2, h2'] at h
  injection h with h
  have bound : ∀ D : List Item, total D < 2 ^ 64 → ∀ x ∈ D, x.1 < 2 ^ 64 := by
    intro D hD x hx
    have := item_le_total hx
    omega
  exact C47_sum_root_commits H D D' (bound D ht) (bound D' ht') (Prod.mk.inj h).2

/-! ### C48 -/

/-- Every interleaving of `push` and `root` returns what the list machine returns: each
`root` reports the leaves pushed so far, however often it was called before. -/
theorem C48_histories (p : Profile) (H : HashFn) (s : Sum.SStore E) (hs : s.Reliable) (ops : List Sum.Op)
    (hn : (Sum.pushed ops).length < 2 ^ 64) (hf : ∀ x ∈ Sum.pushed ops, x.1 < 2 ^ 64)
    (ht : p.overflowChecks = true → total (Sum.pushed ops) < 2 ^ 64) :
    (Sum.run p H ops (Sum.Tree.new s)).1 = (Sum.specRun H ops []).1 :=
  (run_spec p H (Sum.pushed ops) ops [] (Sum.Tree.new s) .nil ⟨[], by simp⟩ hn hf ht hs).1

/-- `root()` never touches the list of subtrees that determines all later results, whatever
the storage does and also when it fails. -/
theorem C48_root_keeps_tree (p : Profile) (H : HashFn) (t : Sum.Tree E) :
    (Sum.root p H t).2.head = t.head := by
  have hjoin : ∀ l r (t : Sum.Tree E), (Sum.joinSubtrees p H l r t).2.head = t.head := by
    intro l r t
    unfold Sum.joinSubtrees
    cases u32Add p l.height 1 with
    | error e => rfl
    | ok h =>
      rw [Exec.liftRes_ok_bind]
      cases Sum.Node.createNode p H h l.fee l.hash r.fee r.hash with
      | error e => rfl
      | ok n =>
        rw [Exec.liftRes_ok_bind, Exec.bind_apply, Sum.onStorage_insert]
        cases t.storage.sched t.storage.clock <;> rfl
  have hloop : ∀ rest cur (t : Sum.Tree E), (Sum.rootLoop p H cur rest t).2.head = t.head := by
    intro rest
    induction rest with
    | nil => intro cur t; rfl
    | cons k rest ih =>
      intro cur t
      have h1 := hjoin k cur t
      rw [Sum.rootLoop]
      rcases hj : Sum.joinSubtrees p H k cur t with ⟨_ | n, t'⟩
      · rw [Exec.bind_error hj]; rw [hj] at h1; exact h1
      · rw [Exec.bind_ok hj, ih]; rw [hj] at h1; exact h1
  obtain ⟨s, hd⟩ := t
  cases hd with
  | nil => rfl
  | cons k rest =>
    have h1 := hloop rest k ⟨s, k :: rest⟩
    unfold Sum.root
    have hrn : (Sum.rootNode p H ⟨s, k :: rest⟩ : Except (Fail E) (Option Sum.Node) × Sum.Tree E) =
        ((Sum.rootLoop p H k rest ⟨s, k :: rest⟩).1.map some, (Sum.rootLoop p H k rest ⟨s, k :: rest⟩).2) := by
      show (Sum.rootLoop p H k rest >>= fun n => (pure (some n) : Sum.TreeM E (Option Sum.Node))) ⟨s, k :: rest⟩ = _
      rcases hr : Sum.rootLoop p H k rest ⟨s, k :: rest⟩ with ⟨_ | n, t'⟩
      · rw [Exec.bind_error hr]; rfl
      · rw [Exec.bind_ok hr]; rfl
    rcases hr : Sum.rootLoop p H k rest ⟨s, k :: rest⟩ with ⟨_ | n, t'⟩
    · rw [hr] at hrn h1; rw [Exec.bind_error hrn]; exact h1
    · rw [hr] at hrn h1; rw [Exec.bind_ok hrn]; exact h1

example : Sum.pushed [.push 1 [1], .root, .root, .push 2 [2], .root] = [(1, [1]), (2, [2])] := rfl

/-! ### C49 -/

/-- After a successful `root()` that follows any history of pushes and roots, walking the
storage from the root digest along the child keys reaches exactly the pushed leaves, in
order (unless two messages hashed for prefixes of the leaf list collide). The storage may
hold anything beforehand. -/
theorem C49_storage_walk (p : Profile) (H : HashFn) (s : Sum.SStore E) (hs : s.Reliable) (ops : List Sum.Op)
    (hn : (Sum.pushed ops).length < 2 ^ 64) (hf : ∀ x ∈ Sum.pushed ops, x.1 < 2 ^ 64)
    (ht : p.overflowChecks = true → total (Sum.pushed ops) < 2 ^ 64) (h0 : Sum.pushed ops ≠ [])
    (hc : ¬ Collide H (prefixMsgs H (Sum.pushed ops)) (prefixMsgs H (Sum.pushed ops))) :
    ∃ fee digest t, Sum.root p H (Sum.run p H ops (Sum.Tree.new s)).2 = (.ok (fee, digest), t) ∧
      Sum.walk t.storage.map (Sum.pushed ops).length digest =
        some ((Sum.pushed ops).map fun x => (x.1, H ([0x00] ++ be64 x.1 ++ x.2))) := by
  obtain ⟨_, h2, h3⟩ := run_spec p H (Sum.pushed ops) ops [] (Sum.Tree.new s) .nil ⟨[], by simp⟩ hn hf ht hs
  rw [List.nil_append] at h2
  obtain ⟨r, t', w1, _, _, _, _, w6⟩ := Sum.root_spec p H _ _ _ h2 hn (mem_prefixMsgs H _ _ [] (by simp))
  rcases w6 with ⟨rfl, _, w7⟩ | ⟨e, _, ⟨c, f, _, h4, _⟩ | ⟨h4, h5, _⟩⟩
  · rw [if_neg h0] at w1
    exact ⟨_, _, t', w1, stored_walk ((w7 h0).2.2 hc) hf _ (Nat.le_refl _)⟩
  · rw [h3] at h4; cases h4
  · have := ht h4; omega

/-- The collision hypothesis is met by SHA-256 on a concrete history. -/
example : ¬ Collide Sha256.sha256 (prefixMsgs Sha256.sha256 [(1, [1]), (2, [2]), (3, [3])])
    (prefixMsgs Sha256.sha256 [(1, [1]), (2, [2]), (3, [3])]) := by
  have h : ∀ x ∈ prefixMsgs Sha256.sha256 [(1, [1]), (2, [2]), (3, [3])],
      ∀ y ∈ prefixMsgs Sha256.sha256 [(1, [1]), (2, [2]), (3, [3])],
      Sha256.sha256 x = Sha256.sha256 y → x = y := by decide +kernel
  rintro ⟨x, hx, y, hy, h1, h2⟩
  exact h1 (h x hx y hy h2)

/-! ### C50 -/

/-- The exact effect of a push that does not succeed, on a tree built by successful pushes:
if the write of the leaf record failed the open tree is unchanged; otherwise (a later write
failed, or the fee addition overflowed) the open tree has lost all its subtrees, and `root()`
reports the empty tree. -/
theorem C50_failed_push (p : Profile) (H : HashFn) (s : Sum.SStore E) (ds : List Item)
    (hn : ds.length + 1 < 2 ^ 64) (hf : ∀ x ∈ ds, x.1 < 2 ^ 64) (t t' : Sum.Tree E) (fee : Nat) (hfee : fee < 2 ^ 64)
    (d : Bytes) (e : Fail E) (ht : Sum.pushAll p H ds (Sum.Tree.new s) = (.ok (), t))
    (he : Sum.push p H fee d t = (.error e, t')) :
    (t.storage.sched t.storage.clock ≠ none ∧ t'.head = t.head) ∨
    (t.storage.sched t.storage.clock = none ∧ t'.head = [] ∧ (Sum.root p H t').1 = .ok (0, Sum.emptySum)) := by
  obtain ⟨r, t1, q1, q2, q3, q4⟩ := pushAll_spec p H (ds ++ [(fee, d)]) ds [] (Sum.Tree.new s) .nil
    ⟨[(fee, d)], by simp⟩ (by rw [List.length_append]; simpa using hn) (by
      intro x hx
      rcases List.mem_append.1 hx with h | h
      · exact hf x h
      · rw [List.mem_singleton.1 h]; exact hfee)
  rw [ht] at q1
  obtain ⟨rfl, rfl⟩ := Prod.mk.inj q1
  rcases q4 with ⟨_, q4⟩ | ⟨e, h, _⟩
  · rw [List.nil_append] at q4
    obtain ⟨r, t2, w1, _, _, w4⟩ := Sum.push_spec p H _ ds (fee, d) t q4
      (by rw [List.length_append]; simpa using hn) hfee (mem_prefixMsgs H _ _ [] (by simp))
    rw [he] at w1
    obtain ⟨rfl, rfl⟩ := Prod.mk.inj w1
    rcases w4 with ⟨h, _⟩ | ⟨f, h1, _, h2, _⟩ | ⟨e', h1, _, h2, _⟩
    · cases h
    · exact Or.inl ⟨by rw [h1]; simp, h2⟩
    · right
      refine ⟨h1, h2, ?_⟩
      obtain ⟨s', hd⟩ := t'
      simp only at h2
      subst h2
      rfl
  · cases h

/-- The naive expectation fails: a tree with one leaf whose second push fails at its second
write reports the empty root afterwards. -/
theorem C50_failed_push_changes_root (p : Profile) (applied : Bool) :
    ∃ t t' : Sum.Tree Unit,
      Sum.pushAll p Sha256.sha256 [(7, [1])] (Sum.Tree.new ⟨fun _ => none,
        fun c => if c = 2 then some ⟨(), applied⟩ else none, 0⟩) = (.ok (), t) ∧
      Sum.push p Sha256.sha256 8 [2] t = (.error (.err ()), t') ∧
      (Sum.root p Sha256.sha256 t).1 = .ok (7, sumHash Sha256.sha256 [(7, [1])]) ∧
      (Sum.root p Sha256.sha256 t').1 = .ok (0, Sum.emptySum) := by
  obtain ⟨a, b, w⟩ := p
  cases a <;> cases b <;> cases applied <;> refine ⟨_, _, rfl, rfl, ?_, rfl⟩ <;>
    (rw [sumHash]; rfl)

end FuelMerkle.Props
