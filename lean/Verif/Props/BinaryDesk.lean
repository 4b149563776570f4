import Verif.Proofs.BinaryDesk
import Verif.Spec.Sha256
import Verif.Tests.ToyHash

/-
Property C91: several binary trees open on one storage, whatever their lists.

`Spec/BinaryDesk.lean` defines `Bench`, `Lists`, `benchWrites` and `lastAt`.
-/
namespace FuelMerkle.Props
open FuelMerkle.Spec
open FuelMerkle.Binary
variable {E : Type}

set_option maxRecDepth 100000

theorem holds_new (H : HashFn) : Holds H [] 0 [] := ⟨[], 0, rfl, rfl, rfl, trivial⟩

/-- **C91**, call by call. For every build profile, hash function, storage (with any content and any
pattern of failing calls) and sequence of calls on any number of trees with any leaves: every call
returns exactly what the lists say, and storage and leaf counts at the end are exactly those they say. -/
theorem C91_exact (p : Profile) (H : HashFn) (s : BStore E) (xs : List (Nat × Op)) (hn : ∀ i, (leavesTo i xs).length < p.leafLimit)
    (hi : ∀ x ∈ xs, indicesOk [x.2]) :
    (Bench.run p H xs (Bench.start s)).1 = (Lists.run H xs ⟨s, fun _ => [], fun _ => 0⟩).1 ∧
    (Bench.run p H xs (Bench.start s)).2.storage = (Lists.run H xs ⟨s, fun _ => [], fun _ => 0⟩).2.storage ∧
    (Bench.run p H xs (Bench.start s)).2.count = (Lists.run H xs ⟨s, fun _ => [], fun _ => 0⟩).2.count :=
  bench_exact p H xs (Bench.start s) (fun _ => []) (fun _ => holds_new H) (by simpa [Bench.start, Tree.new] using hn) hi

theorem bench_run_append (p : Profile) (H : HashFn) : ∀ (xs : List (Nat × Op)) (x : Nat × Op) (c : Bench E),
    (Bench.run p H (xs ++ [x]) c).1 = (Bench.run p H xs c).1 ++ [(Bench.step p H x (Bench.run p H xs c).2).1] := by
  intro xs
  induction xs with
  | nil => intro x c; rfl
  | cons y xs ih => intro x c; exact congrArg (_ :: ·) (ih x _)

theorem lists_run_append (H : HashFn) : ∀ (xs : List (Nat × Op)) (x : Nat × Op) (c : Lists E),
    (Lists.run H (xs ++ [x]) c).1 = (Lists.run H xs c).1 ++ [(Lists.step H x (Lists.run H xs c).2).1] := by
  intro xs
  induction xs with
  | nil => intro x c; rfl
  | cons y xs ih => intro x c; exact congrArg (_ :: ·) (ih x _)

theorem bench_next (p : Profile) (H : HashFn) (s : BStore E) (xs : List (Nat × Op)) (x : Nat × Op)
    (hn : ∀ i, (leavesTo i (xs ++ [x])).length < p.leafLimit) (hi : ∀ y ∈ xs ++ [x], indicesOk [y.2]) :
    (Bench.step p H x (Bench.run p H xs (Bench.start s)).2).1 = (Lists.step H x (Lists.run H xs ⟨s, fun _ => [], fun _ => 0⟩).2).1 := by
  have h := (C91_exact p H s (xs ++ [x]) hn hi).1
  rw [bench_run_append, lists_run_append] at h
  exact (List.append_inj_right' h rfl) |> List.cons.inj |>.1

theorem leavesTo_append (i : Nat) : ∀ (xs ys : List (Nat × Op)), leavesTo i (xs ++ ys) = leavesTo i xs ++ leavesTo i ys := by
  intro xs
  induction xs with
  | nil => intro ys; rfl
  | cons x xs ih => intro ys; rw [List.cons_append, leavesTo_cons, leavesTo_cons, ih, List.append_assoc]

/-- **C91**, roots. On working storage every `root` call on every tree returns the root of exactly the
leaves pushed on that tree, whatever the other trees do. -/
theorem C91_roots (p : Profile) (H : HashFn) (s : BStore E) (hs : s.Reliable) (xs : List (Nat × Op)) (hn : ∀ i, (leavesTo i xs).length < p.leafLimit)
    (hi : ∀ x ∈ xs, indicesOk [x.2]) (i : Nat) :
    (Bench.step p H (i, .root) (Bench.run p H xs (Bench.start s)).2).1 =
      .root (.ok (if leavesTo i xs = [] then emptySum else mth H (leavesTo i xs))) := by
  have hl : ∀ j, leavesTo j (xs ++ [(i, .root)]) = leavesTo j xs := fun j => by
    rw [leavesTo_append, leavesTo_cons]; simp [pushes, leavesTo, callsTo]
  rw [bench_next p H s xs (i, .root) (fun j => by rw [hl]; exact hn j) (fun y hy => by
    rcases List.mem_append.1 hy with h | h
    · exact hi y h
    · rw [List.mem_singleton.1 h]; trivial)]
  obtain ⟨g1, _, _, _⟩ := lists_reliable H xs (⟨s, fun _ => [], fun _ => 0⟩ : Lists E) hs (fun _ => rfl)
  simp only [Lists.step, Machine.step, g1 i, List.nil_append]

/-- **C91**, contents. On working storage every key holds, at the end, the last tree any of the trees
wrote there (and what it held before if there is none). -/
theorem C91_contents (p : Profile) (H : HashFn) (s : BStore E) (hs : s.Reliable) (xs : List (Nat × Op)) (hn : ∀ i, (leavesTo i xs).length < p.leafLimit)
    (hi : ∀ x ∈ xs, indicesOk [x.2]) (k : Nat) :
    (Bench.run p H xs (Bench.start s)).2.storage.map k =
      match (benchWrites H xs fun _ => []).reverse.find? fun x => decide (x.1 = k) with
      | some x => some x
      | none => s.map k := by
  rw [(C91_exact p H s xs hn hi).2.1]
  exact (lists_reliable H xs (⟨s, fun _ => [], fun _ => 0⟩ : Lists E) hs (fun _ => rfl)).2.2.2 k

/-- **C91**, proofs. On working storage `prove(k)` of a leaf the tree has always succeeds, with the
tree's own root. But its set starts with the leaf that was pushed last as number `k` on any of the trees, and
each other entry is the hash the tree itself has just made for the root, or else the one found in the common
storage. -/
theorem C91_prove (p : Profile) (H : HashFn) (s : BStore E) (hs : s.Reliable) (xs : List (Nat × Op)) (hn : ∀ i, (leavesTo i xs).length < p.leafLimit)
    (hi : ∀ x ∈ xs, indicesOk [x.2]) (i k : Nat) (hk : k < (leavesTo i xs).length) :
    ∃ d hashes, lastAt k xs (fun _ => 0) = some d ∧
      (Bench.step p H (i, .prove k) (Bench.run p H xs (Bench.start s)).2).1 =
        .prove (.ok (mth H (leavesTo i xs), H ([0x00] ++ d) :: hashes)) ∧
      hashes.map some = (sideKeys (leavesTo i xs).length k).map fun key =>
        (((rootSizes (leavesTo i xs).length).map (treeOf H (leavesTo i xs).length (leavesTo i xs))).reverse.lookup key).or
          (((Bench.run p H xs (Bench.start s)).2.storage.map key).map Prod.snd) := by
  have hl : ∀ j, leavesTo j (xs ++ [(i, .prove k)]) = leavesTo j xs := fun j => by
    rw [leavesTo_append, leavesTo_cons]; simp [pushes, leavesTo, callsTo]
  have hik : indicesOk [.prove k] := ⟨by have := hn i; have := p.leafLimit_le; omega, trivial⟩
  rw [bench_next p H s xs (i, .prove k) (fun j => by rw [hl]; exact hn j) (fun y hy => by
    rcases List.mem_append.1 hy with h | h
    · exact hi y h
    · rw [List.mem_singleton.1 h]; exact hik)]
  rw [(C91_exact p H s xs hn hi).2.1]
  obtain ⟨g1, g2, g3, g4⟩ := lists_reliable H xs (⟨s, fun _ => [], fun _ => 0⟩ : Lists E) hs (fun _ => rfl)
  have g1 := g1 i
  have g2 := g2 i
  rw [List.nil_append] at g1
  rw [g1] at g2
  -- the same calls on the tree alone
  have halone : ∃ r, (Machine.step H (.prove k) (Machine.run H (callsTo i xs) ⟨0, [], s⟩).2).1 = (.prove (.ok r) : Out E) := by
    have hio : ∀ ops : List Op, (∀ op ∈ ops, indicesOk [op]) → indicesOk ops := by
      intro ops h
      induction ops with
      | nil => trivial
      | cons op ops ih =>
        have h1 := h op (List.mem_cons_self ..)
        have h2 := ih fun o ho => h o (List.mem_cons_of_mem _ ho)
        cases op with
        | prove j => exact ⟨h1.1, h2⟩
        | push d => exact h2
        | root => exact h2
    have hio' : indicesOk (callsTo i xs ++ [.prove k]) := hio _ fun op ho => by
      rcases List.mem_append.1 ho with h | h
      · obtain ⟨x, hx, rfl⟩ := List.mem_map.1 h
        exact hi x (List.mem_filter.1 hx).1
      · rw [List.mem_singleton.1 h]; exact hik
    have hpc : pushCount (callsTo i xs ++ [.prove k]) = (leavesTo i xs).length := by
      have : ∀ a : List Op, pushes (a ++ [.prove k]) = pushes a := by
        intro a
        induction a with
        | nil => rfl
        | cons o a ih => rw [List.cons_append, pushes_cons, ih, ← pushes_cons]
      rw [pushCount_pushes, this]; rfl
    have hmach := (run_exact p H (callsTo i xs ++ [.prove k]) (Tree.new s) [] (holds_new H)
      (by rw [hpc]; have := hn i; simp [Tree.new]; omega) hio').1
    have hmach := (Prod.mk.inj hmach).1
    have href := (run_refines p H (callsTo i xs ++ [.prove k]) (Inv.new H s)
      (by rw [hpc, List.length_nil, Nat.zero_add]; exact hn i) hio' hs).1
    rw [href] at hmach
    have hspec : ∀ (a : List Op) (ds : List Bytes), k < (ds ++ pushes a).length →
        ∃ outs r, (specRun (E := E) H (a ++ [.prove k]) ds).1 = outs ++ [.prove (.ok r)] := by
      intro a
      induction a with
      | nil =>
        intro ds h
        simp only [pushes, List.append_nil] at h
        refine ⟨[], (mth H ds, leafSum H ds[k] :: auditPath H k ds), ?_⟩
        simp [specRun, specStep, List.getElem?_eq_getElem h]
      | cons o a ih =>
        intro ds h
        rw [pushes_cons, ← List.append_assoc] at h
        have hds : (specStep (E := E) H o ds).2 = ds ++ pushes [o] := by cases o <;> simp [specStep, pushes]
        obtain ⟨outs, r, e⟩ := ih (specStep (E := E) H o ds).2 (by rw [hds]; exact h)
        exact ⟨(specStep H o ds).1 :: outs, r, by
          show (specStep H o ds).1 :: (specRun (E := E) H (a ++ [.prove k]) (specStep (E := E) H o ds).2).1 = _
          rw [e]; rfl⟩
    obtain ⟨outs, r, e⟩ := hspec (callsTo i xs) [] (by simpa [leavesTo] using hk)
    have hmr : ∀ (a : List Op) (c : Machine E), (Machine.run H (a ++ [.prove k]) c).1 =
        (Machine.run H a c).1 ++ [(Machine.step H (.prove k) (Machine.run H a c).2).1] := by
      intro a
      induction a with
      | nil => intro c; rfl
      | cons o a ih => intro c; exact congrArg (_ :: ·) (ih _)
    have e' : outs ++ [.prove (.ok r)] = (Machine.run H (callsTo i xs) ⟨0, [], s⟩).1 ++
        [(Machine.step H (.prove k) (Machine.run H (callsTo i xs) ⟨0, [], s⟩).2).1] := by
      rw [← hmr, ← e]; exact hmach
    exact ⟨r, ((List.append_inj_right' e' rfl) |> List.cons.inj |>.1).symm⟩
  obtain ⟨r, hr⟩ := halone
  obtain ⟨a1, a2, a3⟩ := lists_alone H i (callsTo i xs) (⟨s, fun _ => [], fun _ => 0⟩ : Lists E)
  rw [callsTo_alone] at a1 a2 a3
  obtain ⟨b1, b2, b3, b4⟩ := lists_reliable H (xs.filter fun x => x.1 = i) (⟨s, fun _ => [], fun _ => 0⟩ : Lists E) hs (fun _ => rfl)
  have b1 := b1 i
  have b2 := b2 i
  have hlt : leavesTo i (xs.filter fun x => x.1 = i) = leavesTo i xs := by
    unfold leavesTo callsTo
    rw [List.filter_filter]
    simp
  rw [List.nil_append, hlt] at b1
  have hm : (Machine.run H (callsTo i xs) ⟨0, [], s⟩).2 = ⟨(leavesTo i xs).length, leavesTo i xs,
      (Lists.run H (xs.filter fun x => x.1 = i) (⟨s, fun _ => [], fun _ => 0⟩ : Lists E)).2.storage⟩ := by
    have c1 := a2.symm.trans b1
    have c2 := a3.symm.trans (b2.trans (congrArg List.length b1))
    rw [a1]
    generalize (Machine.run H (callsTo i xs) ⟨0, [], s⟩).2 = m at c1 c2
    obtain ⟨x, y, z⟩ := m
    simp only at c1 c2
    rw [c1, c2]
  rw [hm] at hr
  obtain ⟨f1, f2⟩ := prove_found H k _ _ b3 hk hr
  -- what is there alone is there with the others
  have hmore : ∀ key, ((Lists.run H (xs.filter fun x => x.1 = i) (⟨s, fun _ => [], fun _ => 0⟩ : Lists E)).2.storage.map key).isSome = true →
      ((Lists.run H xs (⟨s, fun _ => [], fun _ => 0⟩ : Lists E)).2.storage.map key).isSome = true := by
    intro key h
    rw [b4 key] at h
    rw [g4 key]
    cases hf : (benchWrites H (xs.filter fun x => x.1 = i) fun _ => []).reverse.find? fun x => decide (x.1 = key) with
    | some x =>
      have hx := List.mem_of_find?_eq_some hf
      have hx1 := List.find?_some hf
      have hx2 := benchWrites_alone H i xs (fun _ => []) (fun _ => []) rfl x (List.mem_reverse.1 hx)
      cases hg : (benchWrites H xs fun _ => []).reverse.find? fun x => decide (x.1 = key) with
      | some y => rfl
      | none => exact absurd hx1 (List.find?_eq_none.1 hg x (List.mem_reverse.2 hx2))
    | none =>
      simp only [hf] at h
      cases hg : (benchWrites H xs fun _ => []).reverse.find? fun x => decide (x.1 = key) with
      | some y => rfl
      | none => exact h
  obtain ⟨set, e1, e2⟩ := prove_reliable H k (leavesTo i xs) _ g3 hk (hmore _ f1) (fun key hm => by
    have := f2 key hm
    rw [Option.isSome_or, Bool.or_eq_true, Option.isSome_map] at this ⊢
    rcases this with h | h
    · exact .inl h
    · exact .inr (hmore key h))
  obtain ⟨d, hd⟩ := lastAt_some k xs (fun _ => 0) i (Nat.zero_le _) (by simpa using hk)
  have hleaf : (Lists.run H xs (⟨s, fun _ => [], fun _ => 0⟩ : Lists E)).2.storage.map (2 * k) = some (2 * k, leafSum H d) := by
    rw [g4, find_lastAt]
    simp only [List.length_nil]
    rw [hd]; rfl
  rw [hleaf] at e2
  cases set with
  | nil => cases e2
  | cons x hashes =>
    rw [List.map_cons] at e2
    obtain ⟨e3, e4⟩ := List.cons.inj e2
    simp only [Option.map_some, Option.some.injEq] at e3
    refine ⟨d, hashes, hd, ?_, e4⟩
    simp only [Lists.step]
    rw [g1, g2, e1, e3]; rfl

/-- So a proof for another leaf is returned, without an error, as soon as another tree has pushed a different
leaf under the same number later: the returned set is not for the tree's own leaf. -/
theorem C91_foreign_leaf (p : Profile) (H : HashFn) (s : BStore E) (hs : s.Reliable) (xs : List (Nat × Op)) (hn : ∀ i, (leavesTo i xs).length < p.leafLimit)
    (hi : ∀ x ∈ xs, indicesOk [x.2]) (i k : Nat) (d d' : Bytes) (hd : (leavesTo i xs)[k]? = some d) (hd' : lastAt k xs (fun _ => 0) = some d')
    (hne : H ([0x00] ++ d) ≠ H ([0x00] ++ d')) :
    ∃ set, (Bench.step p H (i, .prove k) (Bench.run p H xs (Bench.start s)).2).1 = .prove (.ok (mth H (leavesTo i xs), set)) ∧
      set ≠ H ([0x00] ++ d) :: auditPath H k (leavesTo i xs) := by
  obtain ⟨hk, _⟩ := List.getElem?_eq_some_iff.1 hd
  obtain ⟨e, hashes, h1, h2, _⟩ := C91_prove p H s hs xs hn hi i k hk
  rw [hd'] at h1
  cases h1
  refine ⟨_, h2, fun h => hne ?_⟩
  exact (List.cons.inj h).1.symm

/-! ### The hypotheses can be met -/

namespace BinaryDesk

/-- Two trees whose second leaves differ, used alternately. -/
def calls : List (Nat × Op) :=
  [(0, .push [1]), (1, .push [1]), (0, .push [2]), (1, .push [3]), (1, .push [4]), (0, .push [5]), (0, .prove 0), (1, .root)]

theorem leaves_calls (i : Nat) : leavesTo i calls =
    if i = 0 then [[1], [2], [5]] else if i = 1 then [[1], [3], [4]] else [] := by
  match i with
  | 0 => rfl
  | 1 => rfl
  | i + 2 => simp [leavesTo, callsTo, calls, pushes]

example (p : Profile) : (∀ i, (leavesTo i calls).length < p.leafLimit) ∧ (∀ x ∈ calls, indicesOk [x.2]) := by
  constructor
  · intro i
    rw [leaves_calls]
    refine p.lt_leafLimit ?_
    split
    · decide
    · split <;> decide
  · intro x hx
    simp only [calls, List.mem_cons, List.not_mem_nil, or_false] at hx
    rcases hx with rfl | rfl | rfl | rfl | rfl | rfl | rfl | rfl <;> simp [indicesOk]

/-- Leaf 1 was pushed last by the second tree, leaf 2 by the first. -/
example : lastAt 0 calls (fun _ => 0) = some [1] ∧ lastAt 1 calls (fun _ => 0) = some [3] ∧ lastAt 2 calls (fun _ => 0) = some [5] ∧
    (leavesTo 0 calls)[1]? = some [2] ∧ Sha256.sha256 ([0x00] ++ [2]) ≠ Sha256.sha256 ([0x00] ++ [3]) := by
  refine ⟨by decide, by decide, by decide, by decide, by decide +kernel⟩

/-- A storage with other content whose seventh call fails. -/
def store : BStore String where
  map := fun k => if k = 2 then some (7, ⟨List.replicate 32 7, rfl⟩) else none
  sched := fun c => if c = 6 then some ⟨"full", true⟩ else none
  clock := 0

/-- How a call ended: `0` well, `1` with an error, `2` with a panic. -/
def ending : Out String → Nat
  | .push (.ok _) | .root (.ok _) | .prove (.ok _) => 0
  | .push (.error (.err _)) | .prove (.error (.err _)) => 1
  | _ => 2

example : ((Bench.run ⟨true, true, .w64⟩ Tests.toyHash calls (Bench.start store)).1.map ending) = [0, 0, 0, 0, 1, 0, 0, 0] := by decide +kernel

end BinaryDesk
end FuelMerkle.Props
