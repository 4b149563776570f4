import Verif.Proofs.SparseLinked
import Verif.Props.SparseMachine

/-
C86: updates write children before parents, so a root found in storage is a whole tree.
-/
namespace FuelMerkle.Props
open FuelMerkle Spec Sparse
variable {E : Type}

set_option maxRecDepth 100000

/-- An open tree has its root record in storage. -/
theorem OpenAt.held {H : HashFn} {kv : Entries Bytes} {t : Tree E} (ho : OpenAt H kv t) : Held t.storage.map (rootOf H kv) := by
  obtain ⟨s, hm, ho⟩ := ho
  unfold Opens at ho
  split at ho
  · rename_i h
    subst h
    exact fun h0 => absurd (by simp [rootOf, smtRoot, digests, smt]) h0
  · obtain ⟨s', hl⟩ := ho
    intro _ hn
    rw [← hm] at hn
    unfold Tree.load at hl
    cases hs : s.sched s.clock with
    | some f => rw [Store.get_fault _ hs] at hl; cases hl
    | none =>
      rw [Store.get_none _ hs, hn] at hl
      cases hl

/-- **C86**. Take a tree open for a map, on storage in which no inner node misses a child, and any
history of updates (with data that is not empty), with storage calls failing in any way, and going on after
failures. Then no inner node in the storage misses a child; nothing that was stored before is gone; and the
root of every map the history went through is stored. -/
theorem C86_linked (p : Profile) (H : HashFn) (kv : Entries Bytes) (t : Tree E) (ho : OpenAt H kv t) (ops : List Op)
    (hup : ∀ op ∈ ops, op.data ≠ none) (hi : IdealMachine H ⟨kv, t.storage⟩ ops)
    (hs : Sound H t.storage.map (triedMaps H ops ⟨kv, t.storage⟩) (ops.map Op.key)) (hl : Linked t.storage.map) :
    Linked (run p H ops t).2.storage.map ∧ (∀ x, t.storage.map x ≠ none → (run p H ops t).2.storage.map x ≠ none) ∧
      ∀ n, (run p H (ops.take n) t).2.root H ≠ zero32 → (run p H ops t).2.storage.map ((run p H (ops.take n) t).2.root H) ≠ none := by
  have hheld := ho.held
  obtain ⟨s, hm, ho⟩ := ho
  have hv := hs.valid (triedMaps_solid _ _ hi.nodup hi.start hi.calls)
  have hfit := hi.fits kv (triedMaps_self H ops ⟨kv, t.storage⟩)
  obtain ⟨u, hrep⟩ := opens_rep hi.env hi.nodup hfit (s := s) (by rw [hm]; exact hv) ho
  have hu : ∀ op ∈ ops, op.key ∈ ops.map Op.key := fun op h => List.mem_map.2 ⟨op, h, rfl⟩
  obtain ⟨h1, h2⟩ := run_linked p hi.env ops hrep hu hup hi.fits hl hheld
  obtain ⟨_, e, _⟩ := run_agrees p hi.env ops hrep hu hi.fits
  rw [← e] at h1 h2
  refine ⟨h1.linked, h1.keeps, fun n => ?_⟩
  have hsub : ∀ x ∈ triedMaps H (ops.take n) (⟨kv, t.storage⟩ : Machine E), x ∈ triedMaps H ops ⟨kv, t.storage⟩ := triedMaps_take ops n _
  obtain ⟨_, _, _, h3⟩ := run_agrees p hi.env (ops.take n) hrep (fun op h => hu op (List.mem_of_mem_take h)) (fun x hx => hi.fits x (hsub x hx))
  rw [h3.root_eq hi.env]
  exact h2 n

/-- **C86**. After such a history, for every map it went through or tried to reach: if its root is
stored, all records of its tree are. -/
theorem C86_complete (p : Profile) (H : HashFn) (kv : Entries Bytes) (t : Tree E) (ho : OpenAt H kv t) (ops : List Op)
    (hup : ∀ op ∈ ops, op.data ≠ none) (hi : IdealMachine H ⟨kv, t.storage⟩ ops)
    (hs : Sound H t.storage.map (triedMaps H ops ⟨kv, t.storage⟩) (ops.map Op.key)) (hl : Linked t.storage.map)
    (x : Entries Bytes) (hx : x ∈ triedMaps H ops ⟨kv, t.storage⟩) (hroot : (run p H ops t).2.storage.map (rootOf H x) ≠ none) :
    Complete H ⟨x, (run p H ops t).2.storage.map⟩ := by
  have hl' := (C86_linked p H kv t ho ops hup hi hs hl).1
  obtain ⟨s, hm, ho⟩ := ho
  have hsol := triedMaps_solid ops (⟨kv, t.storage⟩ : Machine E) hi.nodup hi.start hi.calls
  have hv := hs.valid hsol
  obtain ⟨u, hrep⟩ := opens_rep hi.env hi.nodup (hi.fits kv (triedMaps_self H ops ⟨kv, t.storage⟩)) (s := s) (by rw [hm]; exact hv) ho
  obtain ⟨_, _, _, h3⟩ := run_agrees p hi.env ops hrep (fun op h => List.mem_map.2 ⟨op, h, rfl⟩) hi.fits
  obtain ⟨v, w, he⟩ := exists_tree H x (hsol x hx).1
  have hin := he.inn w (hi.fits x hx)
  have hst : Stored H (run p H ops t).2.storage.map 0 v := hl'.stored hi.env h3.valid w hin (fun _ => by rw [he.root w]; exact hroot)
  intro q hq
  rw [← he.records w] at hq
  exact hst.record q hq

/-- **C86**. When the storage works again, `load` at the root of a map the history went through or tried to
reach decides: it fails with `LoadError`, or it gives the whole tree, and any further calls succeed and have
the results and contents they have on a storage that never failed. -/
theorem C86_resume (p : Profile) (H : HashFn) (kv : Entries Bytes) (t : Tree E) (ho : OpenAt H kv t) (ops : List Op)
    (hup : ∀ op ∈ ops, op.data ≠ none) (hl : Linked t.storage.map) (x : Entries Bytes) (hx : x ∈ triedMaps H ops ⟨kv, t.storage⟩) (hne : x ≠ [])
    (s' : SpStore E) (hm' : s'.map = (run p H ops t).2.storage.map) (hr : s'.Reliable) (more : List Op)
    (hi : Ideal H ((triedMaps H ops ⟨kv, t.storage⟩ ++ mapsThrough H ⟨x, s'.map⟩ more).flatMap (msgsOf H)) ((ops ++ more).map Op.key))
    (hp : NoPhantom H (ops ++ more)) (hn : (keysOf kv).Nodup) (h0 : (zero32, zero32) ∉ digests H kv)
    (hs : Sound H t.storage.map (triedMaps H ops ⟨kv, t.storage⟩ ++ mapsThrough H ⟨x, s'.map⟩ more) ((ops ++ more).map Op.key)) :
    (s'.map (rootOf H x) = none ∧ ∃ s'', Tree.load s' (rootOf H x) = (.error (.err (.loadError (rootOf H x))), s'')) ∨
      ∃ u s'' t', Tree.load s' (rootOf H x) = (.ok u, s'') ∧ runAll p H more u = (.ok (), t') ∧
        t'.storage.map = (imageFrom H ⟨x, s'.map⟩ more).held ∧ t'.root H = rootOf H (imageFrom H ⟨x, s'.map⟩ more).kv := by
  have hheld := ho.held
  obtain ⟨s, hm, ho⟩ := ho
  have hp1 : NoPhantom H ops := fun op h => hp op (List.mem_append_left _ h)
  have hp2 : NoPhantom H more := fun op h => hp op (List.mem_append_right _ h)
  have hsol := triedMaps_solid ops (⟨kv, t.storage⟩ : Machine E) hn h0 hp1
  have hsol2 := mapsThrough_solid more ⟨x, s'.map⟩ (hsol x hx).1 (hsol x hx).2 hp2
  have hv := hs.valid (fun y hy => by
    rcases List.mem_append.1 hy with hy | hy
    · exact hsol y hy
    · exact hsol2 y hy)
  have env : Env H (fun a => ∃ y ∈ triedMaps H ops ⟨kv, t.storage⟩ ++ mapsThrough H ⟨x, s'.map⟩ more, a ∈ msgsOf H y) (· ∈ (ops ++ more).map Op.key) :=
    ⟨fun a b ha hb => hi.distinct a (List.mem_flatMap.2 ha) b (List.mem_flatMap.2 hb), fun a ha => hi.nonzero a (List.mem_flatMap.2 ha),
      fun a k ha => hi.apart a (List.mem_flatMap.2 ha) k⟩
  have fits1 : ∀ y ∈ triedMaps H ops ⟨kv, t.storage⟩, Fits H (fun a => ∃ y ∈ triedMaps H ops ⟨kv, t.storage⟩ ++ mapsThrough H ⟨x, s'.map⟩ more, a ∈ msgsOf H y) y :=
    fun y hy => ⟨fun _ h => ⟨y, List.mem_append_left _ hy, h⟩, (hsol y hy).2⟩
  have fits2 : ∀ y ∈ mapsThrough H ⟨x, s'.map⟩ more, Fits H (fun a => ∃ y ∈ triedMaps H ops ⟨kv, t.storage⟩ ++ mapsThrough H ⟨x, s'.map⟩ more, a ∈ msgsOf H y) y :=
    fun y hy => ⟨fun _ h => ⟨y, List.mem_append_right _ hy, h⟩, (hsol2 y hy).2⟩
  obtain ⟨u, hrep⟩ := opens_rep env hn (fits1 kv (triedMaps_self H ops ⟨kv, t.storage⟩)) (s := s) (by rw [hm]; exact hv) ho
  have hu : ∀ op ∈ ops, op.key ∈ (ops ++ more).map Op.key := fun op h => List.mem_map.2 ⟨op, List.mem_append_left _ h, rfl⟩
  obtain ⟨h1, _⟩ := run_linked p env ops hrep hu hup fits1 hl hheld
  obtain ⟨_, e, _, h3⟩ := run_agrees p env ops hrep hu fits1
  rw [← e] at h1
  cases hroot : s'.map (rootOf H x) with
  | none =>
    refine .inl ⟨rfl, ?_⟩
    unfold Tree.load
    rw [Store.get_none _ (hr _), hroot]
    exact ⟨_, rfl⟩
  | some q =>
    refine .inr ?_
    obtain ⟨v, w, he⟩ := exists_tree H x (hsol x hx).1
    have hin := he.inn w (fits1 x hx)
    have hst : Stored H s'.map 0 v := by
      rw [hm']
      refine h1.linked.stored env h3.valid w hin (fun _ => ?_)
      rw [he.root w, ← hm', hroot]; simp
    have hval := h3.valid
    rw [← hm'] at hval
    have hload := load_stored env w hin (fun e => hne ((he.nil w).1 e)) s' hst (hr _)
    rw [he.root w] at hload
    obtain ⟨t', u', a1, a2, a3, _⟩ := images_run p env more (st := ⟨T.toNode H 0 v, { s' with clock := s'.clock + 1 }⟩) (t := v) (kv := x)
      ⟨w, hin, he, rfl, hval⟩
      hst hr (fun op h => List.mem_map.2 ⟨op, List.mem_append_right _ h, rfl⟩) fits2
    exact ⟨_, _, t', hload, a1, a2, a3.root_eq env⟩

/-- **C86** for a new tree on empty storage. -/
theorem C86_new (p : Profile) (H : HashFn) (s : SpStore E) (he : ∀ k, s.map k = none) (ops : List Op) (hup : ∀ op ∈ ops, op.data ≠ none)
    (hi : IdealMachine H ⟨[], s⟩ ops) : Linked (run p H ops (Tree.new s)).2.storage.map ∧
      ∀ x ∈ triedMaps H ops ⟨[], s⟩, (run p H ops (Tree.new s)).2.storage.map (rootOf H x) ≠ none →
        Complete H ⟨x, (run p H ops (Tree.new s)).2.storage.map⟩ := by
  have ho : OpenAt H [] (Tree.new s) := ⟨s, rfl, by simp [Opens]⟩
  have hm : (Tree.new s).storage.map = fun _ => none := funext he
  have hs : Sound H (Tree.new s).storage.map (triedMaps H ops ⟨[], (Tree.new s).storage⟩) (ops.map Op.key) := by rw [hm]; exact sound_new H _ _
  have hl : Linked (Tree.new s).storage.map := by
    rw [hm]; intro x h l r e; cases e
  exact ⟨(C86_linked p H [] _ ho ops hup hi hs hl).1, fun x hx hr => C86_complete p H [] _ ho ops hup hi hs hl x hx hr⟩

namespace SparseLinked

/-! ### The hypotheses can be met -/

/-- Three updates on a storage whose call number `n` fails after its effect. -/
def threeOps : List Op := [.update (keyAt 0x00) [1], .update (keyAt 0x80) [2], .update (keyAt 0xc0) [3]]

def cutStore (n : Nat) : SpStore String := ⟨fun _ => none, fun c => if c = n then some ⟨"cut", true⟩ else none, 0⟩

def threeKeys : Entries Bytes := [(keyAt 0xc0, [3]), (keyAt 0x80, [2]), (keyAt 0x00, [1])]

/-- The last but one write of the third update fails, and so does this call; or the last write, that of
the root. -/
theorem cut_ideal : IdealMachine Tests.toyHash ⟨[], cutStore 9⟩ threeOps ∧ IdealMachine Tests.toyHash ⟨[], cutStore 10⟩ threeOps :=
  ⟨⟨⟨by decide +kernel, by decide +kernel, by decide +kernel⟩, noPhantom_of_keys (by decide), by decide, by decide⟩,
    ⟨⟨by decide +kernel, by decide +kernel, by decide +kernel⟩, noPhantom_of_keys (by decide), by decide, by decide⟩⟩

example : ∀ op ∈ threeOps, op.data ≠ none := by decide

/-- Both times the third call fails and the tree in memory stays with two keys. The tree with three keys
is whole in storage in the second case, and its root is not there in the first case. -/
example : [9, 10].map (fun n => ((run ⟨true, true, .w64⟩ Tests.toyHash threeOps (Tree.new (cutStore n))).1.map (fun e => SparseMachine.ending e.out),
      decide ((run ⟨true, true, .w64⟩ Tests.toyHash threeOps (Tree.new (cutStore n))).2.root Tests.toyHash = rootOf Tests.toyHash [(keyAt 0x80, [2]), (keyAt 0x00, [1])]),
      ((run ⟨true, true, .w64⟩ Tests.toyHash threeOps (Tree.new (cutStore n))).2.storage.map (rootOf Tests.toyHash threeKeys)).isSome)) =
    [([0, 0, 1], true, false), ([0, 0, 1], true, true)] := by
  decide +kernel

/-- The storage after the cut, working again. -/
def mendedStore (n : Nat) : SpStore String :=
  ⟨(run ⟨true, true, .w64⟩ Tests.toyHash threeOps (Tree.new (cutStore n))).2.storage.map, fun _ => none, 0⟩

/-- Going on from the tree with three keys with an update and a removal. -/
def moreOps : List Op := [.update (keyAt 0x40) [4], .delete (keyAt 0x80)]

example : threeKeys ∈ triedMaps Tests.toyHash threeOps ⟨[], cutStore 10⟩ ∧ threeKeys ≠ [] ∧ (mendedStore 10).Reliable ∧
    Ideal Tests.toyHash ((triedMaps Tests.toyHash threeOps ⟨[], cutStore 10⟩ ++ mapsThrough Tests.toyHash ⟨threeKeys, (mendedStore 10).map⟩ moreOps).flatMap
      (msgsOf Tests.toyHash)) ((threeOps ++ moreOps).map Op.key) ∧
    NoPhantom Tests.toyHash (threeOps ++ moreOps) :=
  ⟨by decide +kernel, by decide, fun _ => rfl, ⟨by decide +kernel, by decide +kernel, by decide +kernel⟩, noPhantom_of_keys (by decide)⟩

/-- Storage with other records in it: the two keys' tree, a leaf record under a key, an inner node with
one child, and a record of no kind. -/
def linkedRecords : List (Bytes32 × Prim) :=
  filedRecords Tests.toyHash twoKeys ++ [(keyAt 0x80, (0, 0x00, keyAt 0x80, keyA)), (keyA, (7, 0x01, zero32, keyB)), (keyB, (300, 0x05, keyA, keyA))]

example : Linked (listStore linkedRecords).map := by
  have h : ∀ e ∈ linkedRecords, e.2.2.1 = 0x01 → (e.2.2.2.1 ≠ zero32 → ((listStore linkedRecords).map e.2.2.2.1).isSome) ∧
      (e.2.2.2.2 ≠ zero32 → ((listStore linkedRecords).map e.2.2.2.2).isSome) := by decide +kernel
  intro x n l r hx
  obtain ⟨h1, h2⟩ := h _ (listStore_mem hx) rfl
  exact ⟨fun h0 => Option.isSome_iff_ne_none.1 (h1 h0), fun h0 => Option.isSome_iff_ne_none.1 (h2 h0)⟩

end SparseLinked
end FuelMerkle.Props
