import Verif.Proofs.Corrupt
import Verif.Proofs.Profiles
import Verif.Spec.Sha256
import Verif.Tests.ToyHash

/-
C77: binary trees opened on storage whose contents cannot be trusted.
-/
namespace FuelMerkle.Props
open FuelMerkle Spec Binary
variable {E : Type}

set_option maxRecDepth 100000

section

/-- Whatever is done with a tree, and however its storage fails, every record it writes names
the key it is written under. -/
theorem C77_writes_name_their_keys (p : Profile) (H : HashFn) (ops : List Op) (t : Tree E) (h : Filed t.storage.map) :
    Filed (run p H ops t).2.storage.map :=
  run_files p H ops t h

/-- On storage whose records name their keys but hold any hashes, a tree that loads reports the
root computed from the hashes found in its peaks; no other record matters and nothing panics. -/
theorem C77_loaded_root (p : Profile) (H : HashFn) (s s' : BStore E) (hm : Filed s.map) (n : Nat) (hn : n < p.leafLimit)
    (t : Tree E) (hl : Tree.load p s n = (.ok t, s')) :
    ∃ hs, PeaksHold s.map n hs ∧ t.root p H = .ok (if n = 0 then emptySum else bag H hs) := by
  have hlim := p.leafLimit_le
  obtain ⟨hs, h1, h2, h3, h4, h5, h6, h7⟩ := load_filed p hn hm hl
  refine ⟨hs, h1, ?_⟩
  rw [root_any p H t h7 (by omega), h5]
  congr 3
  rw [← List.map_reverse, List.reverse_reverse, List.map_map]
  generalize peakRanges 0 (n + 1) = l at h6
  clear h1 h5
  induction l generalizing hs with
  | nil => simp at h6; simp [h6]
  | cons x l ih =>
    cases hs with
    | nil => simp at h6
    | cons y hs =>
      simp only [List.zip_cons_cons, List.map_cons, Function.comp_apply]
      rw [ih hs (by simpa using h6)]

/-- Comparing the root after `load` with a trusted root is enough for all later roots: on
storage whose records name their keys and hold any hashes, if the loaded tree reports the root
of the list `ds` then, unless two messages collide, all later pushes and roots are those of
the tree over `ds`, and every proof is for the right root, has the right length, or is refused
because a record is missing. -/
theorem C77_checked_root (p : Profile) (H : HashFn) (s s' : BStore E) (hs : s.Reliable) (hm : Filed s.map)
    (ds : List Bytes) (h0 : ds ≠ []) (hn : ds.length < p.leafLimit) (t : Tree E)
    (hl : Tree.load p s ds.length = (.ok t, s')) (hr : t.root p H = .ok (mth H ds)) :
    ∃ hashes, PeaksHold s.map ds.length hashes ∧
      (Collide H (mthMsgs H ds) (bagMsgs H hashes) ∨
        ∀ ops, ds.length + pushCount ops < p.leafLimit → indicesOk ops →
          RightRoots (run p H ops t).1 (specRun H ops ds).1) := by
  have hlim := p.leafLimit_le
  have hpos : 0 < ds.length := List.length_pos_iff.2 h0
  obtain ⟨hashes, h1, h2, h3, h4, h5, h6, h7⟩ := load_filed p hn hm hl
  refine ⟨hashes, h1, ?_⟩
  have hmap : ∀ (l : List (Nat × Nat)) (hs : List Bytes32), hs.length = l.length →
      (((l.zip hs).map fun x => Node.mk ⟨rangeIndex x.1⟩ x.2).map Node.hash) = hs := by
    intro l
    induction l with
    | nil => intro hs h; simp at h; simp [h]
    | cons x l ih =>
      intro hs h
      cases hs with
      | nil => simp at h
      | cons y hs =>
        simp only [List.zip_cons_cons, List.map_cons]
        rw [ih hs (by simpa using h)]
  rw [root_any p H t h7 (by omega), h5, if_neg (by omega), ← List.map_reverse, List.reverse_reverse, hmap _ _ h6] at hr
  simp only [Except.ok.injEq] at hr
  rw [← subHash_all] at hr
  rcases bag_commits H ds ds.length 0 hashes hpos (by omega) h6 hr with e | c
  · right
    intro ops hops hi
    apply run_any p H ops h2 _ hops hi (by intro y; rw [h3]; exact hs y)
    have := peaks_of_ranges (H := H) (ds := ds) (ds.length + 1) 0 0 [] (by omega) (by simp) .nil
    simp only [Nat.zero_add, Nat.add_sub_cancel, List.append_nil] at this
    rw [h5, e]
    have hz : ∀ (l : List (Nat × Nat)), ((l.zip (l.map fun x => subHash H ds x.1 x.2)).map
        fun x => Node.mk ⟨rangeIndex x.1⟩ x.2) = l.map fun x => Node.mk ⟨rangeIndex x⟩ (subHash H ds x.1 x.2) := by
      intro l
      induction l with
      | nil => rfl
      | cons x l ih => simp only [List.map_cons, List.zip_cons_cons, ih]
    rw [hz]
    exact this
  · left
    rw [rng_all] at c
    exact c

/-- A storage with one record, for the leaf `[1]`, that claims to be at position 1. -/
def misfiled : BStore Unit :=
  ⟨fun k => if k = 0 then some (1, leafSum Sha256.sha256 [1]) else none, fun _ => none, 0⟩

/-- Load it and push two more leaves, with the roots after each step compared. -/
def misfiledStory : Bool :=
  match Tree.load ⟨true, true, .w64⟩ misfiled 1 with
  | (.ok t, _) =>
    match push ⟨true, true, .w64⟩ Sha256.sha256 [2] t with
    | (.ok _, t1) =>
      match push ⟨true, true, .w64⟩ Sha256.sha256 [3] t1 with
      | (.ok _, t2) =>
        decide ((t.root ⟨true, true, .w64⟩ Sha256.sha256).toOption = some (mth Sha256.sha256 [[1]])) &&
        decide ((t1.root ⟨true, true, .w64⟩ Sha256.sha256).toOption = some (mth Sha256.sha256 [[1], [2]])) &&
        (match t2.root ⟨true, true, .w64⟩ Sha256.sha256 with
          | .ok r => decide (r ≠ mth Sha256.sha256 [[1], [2], [3]])
          | .error _ => false)
      | _ => false
    | _ => false
  | _ => false

/-- The records have to name their keys, and `load` does not check it: a record for a single
leaf that claims another position loads, the root is the right one and still is after one more
push, but after two pushes, all of which succeed, the root is wrong. -/
theorem C77_positions_trusted (p : Profile) : ∃ t s' t1 t2 r,
    Tree.load p misfiled 1 = (.ok t, s') ∧ t.root p Sha256.sha256 = .ok (mth Sha256.sha256 [[1]]) ∧
    push p Sha256.sha256 [2] t = (.ok (), t1) ∧ t1.root p Sha256.sha256 = .ok (mth Sha256.sha256 [[1], [2]]) ∧
    push p Sha256.sha256 [3] t1 = (.ok (), t2) ∧ t2.root p Sha256.sha256 = .ok r ∧
    r ≠ mth Sha256.sha256 [[1], [2], [3]] := by
  have hp := debug_stricter p
  have h : misfiledStory = true := by decide +kernel
  have opt : ∀ {α β : Type} {x : Except α β} {y : β}, x.toOption = some y → x = .ok y := by
    intro α β x y h
    cases x with
    | error e => cases h
    | ok z => cases h; rfl
  unfold misfiledStory at h
  split at h
  · next t s' e1 =>
    split at h
    · next t1 e2 =>
      split at h
      · next t2 e3 =>
        simp only [Bool.and_eq_true, decide_eq_true_eq] at h
        obtain ⟨⟨h1, h2⟩, h3⟩ := h
        split at h3
        · next r e4 =>
          exact ⟨t, s', t1, t2, r, load_transfer hp e1, (root_safe hp _ _).eq_ok (opt h1),
            (push_safe hp _ _).transfer e2 (by simp), (root_safe hp _ _).eq_ok (opt h2),
            (push_safe hp _ _).transfer e3 (by simp), (root_safe hp _ _).eq_ok e4, by simpa using h3⟩
        · cases h3
      · cases h
    · cases h
  · cases h

/-- A storage with the peaks of a tree of three leaves, the first of which claims to be at
position `u64::MAX`. -/
def farAway (x y : Bytes32) : BStore Unit :=
  ⟨fun k => if k = 1 then some (2 ^ 64 - 1, x) else if k = 4 then some (4, y) else none, fun _ => none, 0⟩

/-- With overflow checks a claimed position can make `root` panic on a tree that loaded without
an error. -/
theorem C77_positions_panic (p : Profile) (hp : p.overflowChecks = true) (H : HashFn) (x y : Bytes32) :
    ∃ t s', Tree.load p (farAway x y) 3 = (.ok t, s') ∧ t.root p H = .error .overflow := by
  have hpar : (Position.mk (2 ^ 64 - 1)).parent p = .error .overflow := by
    obtain ⟨o, d, w⟩ := p
    cases hp
    have : (Position.mk (2 ^ 64 - 1)).height = 64 := by decide +kernel
    unfold Position.parent
    rw [this]
    rfl
  have hr : peakRanges 0 4 = [(0, 2), (2, 1)] := by
    rw [peakRanges_eq (n := 3) (by omega)]; decide +kernel
  obtain ⟨t', hs, ⟨qs, e1, e2⟩ | ⟨pre, z, post, e1, e2, e3, e4⟩ | ⟨e, ⟨_, _, _, e1, _⟩, _⟩⟩ :=
    load_spec p (farAway x y) (n := 3) (p.lt_leafLimit (by omega))
  · refine ⟨_, _, e2, ?_⟩
    have i1 : rangeIndex (0, 2) = 1 := by decide +kernel
    have i2 : rangeIndex (2, 1) = 4 := by decide +kernel
    rw [hr] at e1
    have hq : qs = [(2 ^ 64 - 1, x), (4, y)] := by
      simp only [List.map_cons, List.map_nil, i1, i2] at e1
      match qs, e1 with
      | [a, b], e1 =>
        simp only [farAway, List.map_cons, List.map_nil, List.cons.injEq, if_pos, and_true] at e1
        simp at e1
        simp [e1.1, e1.2]
    subst hq
    unfold Tree.root
    simp only [List.map_cons, List.map_nil, List.reverse_cons, List.reverse_nil, List.nil_append, List.singleton_append,
      Node.ofPrim, Position.fromInOrderIndex, rootNode, buildRootNode, joinNodes, Node.createNode]
    rw [hpar]
    rfl
  · exfalso
    have hz : z ∈ peakRanges 0 4 := by rw [e1]; simp
    rw [hr] at hz
    rcases List.mem_cons.1 hz with rfl | hz
    · revert e3
      have : rangeIndex (0, 2) = 1 := by decide +kernel
      rw [this]; simp [farAway]
    · rw [List.mem_singleton] at hz
      subst hz
      revert e3
      have : rangeIndex (2, 1) = 4 := by decide +kernel
      rw [this]; simp [farAway]
  · cases e1

/-! ### The hypotheses can be met -/

/-- The records of a tree of three leaves, with the record of leaf 1 replaced by other bytes
and the record of leaf 0 missing. -/
def damaged : BStore Unit :=
  ⟨fun k => if k = 1 then some (1, mth Tests.toyHash [[1], [2]]) else if k = 2 then some (2, zero32)
      else if k = 4 then some (4, mth Tests.toyHash [[3]]) else none, fun _ => none, 0⟩

theorem damaged_filed : Filed damaged.map := by
  intro k q h
  simp only [damaged] at h
  split at h
  · cases h; omega
  · split at h
    · cases h; omega
    · split at h
      · cases h; omega
      · cases h

/-- `damaged` loads with the right root, and its proofs are wrong or refused. -/
example : damaged.Reliable ∧ Filed damaged.map ∧ ∃ t s', Tree.load ⟨true, true, .w64⟩ damaged 3 = (.ok t, s') ∧
    t.root ⟨true, true, .w64⟩ Tests.toyHash = .ok (mth Tests.toyHash [[1], [2], [3]]) ∧
    (prove ⟨true, true, .w64⟩ Tests.toyHash 0 t).1 = .error (.err (.loadError 0)) ∧
    (prove ⟨true, true, .w64⟩ Tests.toyHash 2 t).1 = .ok (mth Tests.toyHash [[1], [2], [3]],
      [mth Tests.toyHash [[3]], mth Tests.toyHash [[1], [2]]]) := by
  refine ⟨fun _ => rfl, damaged_filed, _, _, rfl, ?_, ?_, ?_⟩ <;> decide +kernel

example : PeaksHold damaged.map 3 [mth Tests.toyHash [[1], [2]], mth Tests.toyHash [[3]]] := by
  unfold PeaksHold; decide +kernel

/-- Its peaks give the root of the list, so the theorem applies. -/
example : bag Tests.toyHash [mth Tests.toyHash [[1], [2]], mth Tests.toyHash [[3]]] =
    mth Tests.toyHash [[1], [2], [3]] := by
  decide +kernel

end
end FuelMerkle.Props
