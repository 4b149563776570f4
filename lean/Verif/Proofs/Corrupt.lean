import Verif.Proofs.BinaryRun
import Verif.Proofs.VerifySound
import Verif.Spec.Corrupt

/-
Binary trees on storage with arbitrary hashes.
-/
namespace FuelMerkle
namespace Binary
open Spec
variable {E : Type}

/-- The positions of the peaks of the tree over the first `e` leaves, with any hashes,
smallest (rightmost) first. -/
inductive AnyPeaks : Nat → List Node → Prop where
  | nil : AnyPeaks 0 []
  | cons (h k : Nat) (x : Bytes32) (rest : List Node) (e : Nat) : AnyPeaks (2 * k * 2 ^ h) rest →
      e = (2 * k + 1) * 2 ^ h → AnyPeaks e (⟨posOf h (2 * k), x⟩ :: rest)

/-- Reading the peaks from records that name their keys. -/
theorem anyPeaks_read {m : Nat → Option Prim} (hm : Filed m) (r : Nat) :
    ∀ (a k : Nat) (l : List Node) (qs : List Prim), 0 < r → a = k * 2 ^ ceilLog2 r →
      AnyPeaks a l → (peakRanges a r).map (fun x => m (rangeIndex x)) = qs.map some →
      AnyPeaks (a + r - 1) ((qs.map Node.ofPrim).reverse ++ l) := by
  induction r using Nat.strongRecOn with
  | _ r ih =>
    intro a k l qs h0 hk hp hq
    rcases Nat.eq_zero_or_pos (ceilLog2 r) with hc | hc
    · have := (ceilLog2_zero_iff r).1 hc
      have : r = 1 := by omega
      subst this
      rw [peakRanges_one] at hq
      have : qs = [] := by simpa using hq.symm
      subst this
      simpa using hp
    · obtain ⟨c, hc'⟩ : ∃ c, ceilLog2 r = c + 1 := ⟨ceilLog2 r - 1, by omega⟩
      have h1 : 2 ^ c < r := (lt_ceilLog2_iff r c).1 (by omega)
      have h2 : r ≤ 2 ^ (c + 1) := (ceilLog2_le_iff r (c + 1)).1 (by omega)
      have hpos := Nat.two_pow_pos c
      rw [hc'] at hk
      have e1 : k * 2 ^ (c + 1) = 2 * k * 2 ^ c := by ring
      have e2 : (2 * k + 1) * 2 ^ c = 2 * k * 2 ^ c + 2 ^ c := by ring
      rw [peakRanges_pow h1 h2] at hq
      cases qs with
      | nil => simp at hq
      | cons q qs =>
        simp only [List.map_cons, List.cons.injEq] at hq
        obtain ⟨hq1, hq2⟩ := hq
        have hi : rangeIndex (a, 2 ^ c) = ioIndex c (2 * k) := by
          rw [rangeIndex_eq (k := 2 * k) (by rw [ceilLog2_two_pow]; omega), ceilLog2_two_pow]
        have hnode : Node.ofPrim q = ⟨posOf c (2 * k), q.2⟩ := by
          unfold Node.ofPrim Position.fromInOrderIndex posOf
          rw [hm _ _ hq1, hi]
        have hcr : ceilLog2 (r - 2 ^ c) ≤ c := (ceilLog2_le_iff _ _).2 (by omega)
        obtain ⟨k', hk'⟩ := dvd_of_pow_le hcr (2 * k + 1)
        have := ih (r - 2 ^ c) (by omega) (a + 2 ^ c) k' (Node.ofPrim q :: l) qs (by omega) (by omega)
          (by rw [hnode]; exact .cons c k q.2 l _ (by rw [← e1, ← hk]; exact hp) (by omega)) hq2
        rw [show a + 2 ^ c + (r - 2 ^ c) - 1 = a + r - 1 by omega] at this
        simpa using this

theorem bag_cons (H : HashFn) (h : Bytes32) {l : List Bytes32} (hl : l ≠ []) :
    bag H (h :: l) = nodeSum H h.val (bag H l).val := by
  cases l with
  | nil => exact absurd rfl hl
  | cons h' hs => rw [bag]; rfl

theorem bag_append (H : HashFn) (l : List Bytes32) : ∀ (a b : Bytes32),
    bag H (l ++ [a, b]) = bag H (l ++ [nodeSum H a.val b.val]) := by
  induction l with
  | nil => intro a b; rfl
  | cons x l ih =>
    intro a b
    rw [List.cons_append, List.cons_append, bag_cons H x (by simp), bag_cons H x (by simp), ih]

/-- Joining peaks never panics and gives the bagged hash. -/
theorem buildRootNode_any (p : Profile) (H : HashFn) (rest : List Node) :
    ∀ (e : Nat) (cur : Node) (S : Scratch), AnyPeaks e rest → e < 2 ^ 63 →
      ∃ r S', buildRootNode p H cur rest S = .ok (r, S') ∧
        r.hash = bag H ((rest.map Node.hash).reverse ++ [cur.hash]) := by
  induction rest with
  | nil => intro e cur S _ _; exact ⟨cur, S, rfl, rfl⟩
  | cons y rest ih =>
    intro e cur S hp he
    cases hp with
    | cons h k x rest _ hr hek =>
      have e2 : (2 * k + 1) * 2 ^ h = 2 * k * 2 ^ h + 2 ^ h := by ring
      have hpos := Nat.two_pow_pos h
      have b := pos_bound (h := h) (k := 2 * k) (by omega)
      have hj : joinNodes p H ⟨posOf h (2 * k), x⟩ cur = .ok ⟨posOf (h + 1) k, nodeSum H x.val cur.hash.val⟩ := by
        unfold joinNodes Node.createNode
        simp only []
        rw [parent_posOf_even p b.2 (by
          rcases Nat.lt_or_ge h 63 with hlt | hge
          · omega
          · have := Nat.pow_le_pow_right (n := 2) (by omega) hge
            omega)]
        rfl
      rw [buildRootNode, hj, Res.ok_bind]
      obtain ⟨r, S', h1, h2⟩ := ih (2 * k * 2 ^ h) ⟨posOf (h + 1) k, nodeSum H x.val cur.hash.val⟩
        (Store.upd S (Node.key ⟨posOf (h + 1) k, nodeSum H x.val cur.hash.val⟩)
          (some (Node.toPrim ⟨posOf (h + 1) k, nodeSum H x.val cur.hash.val⟩))) hr (by omega)
      refine ⟨r, S', h1, ?_⟩
      rw [h2]
      simp only [List.map_cons, List.reverse_cons, List.append_assoc, List.singleton_append]
      rw [bag_append]

theorem root_any (p : Profile) (H : HashFn) {n : Nat} (t : Tree E) (hp : AnyPeaks n t.head) (hn : n < 2 ^ 63) :
    t.root p H = .ok (if n = 0 then emptySum else bag H (t.head.map Node.hash).reverse) := by
  unfold Tree.root
  generalize t.head = l at hp
  cases hp with
  | nil => rfl
  | cons h k x rest _ hr he =>
    have hpos := Nat.two_pow_pos h
    have e2 : (2 * k + 1) * 2 ^ h = 2 * k * 2 ^ h + 2 ^ h := by ring
    obtain ⟨r, S', h1, h2⟩ := buildRootNode_any p H rest (2 * k * 2 ^ h) ⟨posOf h (2 * k), x⟩ (fun _ => none) hr (by omega)
    rw [rootNode, h1, if_neg (by omega)]
    simp only [Res.ok_bind, Res.pure_eq, h2]
    simp

/-- Hashes of peaks that give the root of a list are the hashes of its subtrees. -/
theorem bag_commits (H : HashFn) (ds : List Bytes) (r : Nat) : ∀ (a : Nat) (l : List Bytes32), 0 < r → a + r ≤ ds.length →
    l.length = (peakRanges a (r + 1)).length → bag H l = subHash H ds a r →
    l = (peakRanges a (r + 1)).map (fun x => subHash H ds x.1 x.2) ∨
      Collide H (mthMsgs H (rng ds a r)) (bagMsgs H l) := by
  induction r using Nat.strongRecOn with
  | _ r ih =>
    intro a l h0 hle hl hb
    obtain ⟨c, hc1, hc2⟩ : ∃ c, 2 ^ c ≤ r ∧ r < 2 ^ (c + 1) :=
      ⟨Nat.log2 r, (Nat.le_log2 (by omega)).1 (Nat.le_refl _), (Nat.log2_lt (by omega)).1 (by omega)⟩
    have hpos := Nat.two_pow_pos c
    have hpr := peakRanges_pow (a := a) (r := r + 1) (c := c) (by omega) (by omega)
    rw [hpr] at hl ⊢
    rcases Nat.eq_or_lt_of_le hc1 with heq | hlt
    · rw [← heq, show 2 ^ c + 1 - 2 ^ c = 1 by omega, peakRanges_one] at hl ⊢
      match l, hl with
      | [x], _ =>
        left
        simp only [bag] at hb
        rw [hb, ← heq]; rfl
    · have h1r : r + 1 - 2 ^ c = (r - 2 ^ c) + 1 := by omega
      rw [h1r] at hl ⊢
      have hne : peakRanges (a + 2 ^ c) (r - 2 ^ c + 1) ≠ [] := by
        obtain ⟨c', hc1', hc2'⟩ : ∃ c', 2 ^ c' ≤ r - 2 ^ c ∧ r - 2 ^ c < 2 ^ (c' + 1) :=
          ⟨Nat.log2 (r - 2 ^ c), (Nat.le_log2 (by omega)).1 (Nat.le_refl _), (Nat.log2_lt (by omega)).1 (by omega)⟩
        rw [peakRanges_pow (c := c') (by omega) (by omega)]
        simp
      match l, hl with
      | x :: l, hl =>
        simp only [List.length_cons, Nat.add_right_cancel_iff] at hl
        have hlne : l ≠ [] := by
          intro h; rw [h] at hl
          exact hne (List.eq_nil_of_length_eq_zero hl.symm)
        obtain ⟨y, l', rfl⟩ : ∃ y l', l = y :: l' := List.exists_cons_of_ne_nil hlne
        have hlen : (rng ds a r).length = r := rng_length hle
        have hms : mthMsgs H (rng ds a r) = ([0x01] ++ (subHash H ds a (2 ^ c)).val ++
            (subHash H ds (a + 2 ^ c) (r - 2 ^ c)).val) ::
            (mthMsgs H (rng ds a (2 ^ c)) ++ mthMsgs H (rng ds (a + 2 ^ c) (r - 2 ^ c))) := by
          rw [mthMsgs_split H (by omega), hlen, split_pow hlt (by omega), rng_take (by omega), rng_drop]
          rfl
        rw [hms, bagMsgs]
        rw [bag, subHash_pow hlt (by omega) hle] at hb
        by_cases hm : [0x01] ++ (subHash H ds a (2 ^ c)).val ++ (subHash H ds (a + 2 ^ c) (r - 2 ^ c)).val =
            [0x01] ++ x.val ++ (bag H (y :: l')).val
        · simp only [List.append_assoc, List.append_cancel_left_eq] at hm
          obtain ⟨q1, q2⟩ := Bytes32.append_inj hm
          rcases ih (r - 2 ^ c) (by omega) (a + 2 ^ c) (y :: l') (by omega) (by omega) hl q2.symm with a1 | cl
          · left
            rw [a1, ← q1]; rfl
          · right
            exact collide_mono cl (by intro x hx; simp [hx]) (by intro x hx; simp [hx])
        · right
          exact ⟨_, List.mem_cons_self, _, List.mem_cons_self, hm, hb.symm⟩

/-- Peaks with the hashes of the subtrees of `ds` are its peaks. -/
theorem peaks_of_ranges {H : HashFn} {ds : List Bytes} (r : Nat) :
    ∀ (a k : Nat) (l : List Node), 0 < r → a = k * 2 ^ ceilLog2 r → Peaks H ds a l →
      Peaks H ds (a + r - 1)
        (((peakRanges a r).map fun x => Node.mk ⟨rangeIndex x⟩ (subHash H ds x.1 x.2)).reverse ++ l) := by
  induction r using Nat.strongRecOn with
  | _ r ih =>
    intro a k l h0 hk hp
    rcases Nat.eq_zero_or_pos (ceilLog2 r) with hc | hc
    · have := (ceilLog2_zero_iff r).1 hc
      have : r = 1 := by omega
      subst this
      rw [peakRanges_one]
      simpa using hp
    · obtain ⟨c, hc'⟩ : ∃ c, ceilLog2 r = c + 1 := ⟨ceilLog2 r - 1, by omega⟩
      have h1 : 2 ^ c < r := (lt_ceilLog2_iff r c).1 (by omega)
      have h2 : r ≤ 2 ^ (c + 1) := (ceilLog2_le_iff r (c + 1)).1 (by omega)
      have hpos := Nat.two_pow_pos c
      rw [hc'] at hk
      have e1 : k * 2 ^ (c + 1) = 2 * k * 2 ^ c := by ring
      have e2 : (2 * k + 1) * 2 ^ c = 2 * k * 2 ^ c + 2 ^ c := by ring
      rw [peakRanges_pow h1 h2]
      have hi : rangeIndex (a, 2 ^ c) = ioIndex c (2 * k) := by
        rw [rangeIndex_eq (k := 2 * k) (by rw [ceilLog2_two_pow]; omega), ceilLog2_two_pow]
      have hnode : Node.mk ⟨rangeIndex (a, 2 ^ c)⟩ (subHash H ds a (2 ^ c)) = nodeAt H ds c (2 * k) := by
        unfold nodeAt posOf
        rw [hi, hk, e1]
      have hcr : ceilLog2 (r - 2 ^ c) ≤ c := (ceilLog2_le_iff _ _).2 (by omega)
      obtain ⟨k', hk'⟩ := dvd_of_pow_le hcr (2 * k + 1)
      have := ih (r - 2 ^ c) (by omega) (a + 2 ^ c) k' (nodeAt H ds c (2 * k) :: l) (by omega) (by omega)
        (.cons c k l _ (by rw [← e1, ← hk]; exact hp) (by omega))
      rw [show a + 2 ^ c + (r - 2 ^ c) - 1 = a + r - 1 by omega, ← hnode] at this
      simpa using this

/-! ### Histories on arbitrary contents -/

theorem proveSides_any (S : Scratch) (ps : List Position) : ∀ (t : Tree E), t.storage.Reliable →
    ∃ t', Same t t' ∧ ((∃ ys, ys.length = ps.length ∧ proveSides S ps t = (.ok ys, t')) ∨
      ∃ k, proveSides S ps t = (.error (.err (.loadError k)), t')) := by
  induction ps with
  | nil => intro t _; exact ⟨t, .refl t, .inl ⟨[], rfl, rfl⟩⟩
  | cons x ps ih =>
    intro t hr
    rw [proveSides]
    simp only [Position.inOrderIndex]
    obtain ⟨t1, h1, ⟨hs, h2⟩ | ⟨fl, hs, h2⟩⟩ := onStorage_get x.index t
    · rw [Exec.bind_ok h2]
      cases hq : (S x.index).or (t.storage.map x.index) with
      | none => exact ⟨t1, h1, .inr ⟨x.index, rfl⟩⟩
      | some q =>
        simp only []
        obtain ⟨t2, h3, ⟨ys, h4, h5⟩ | ⟨k, h5⟩⟩ := ih t1 (by intro y; rw [h1.sched]; exact hr y)
        · refine ⟨t2, h1.trans h3, .inl ⟨_, ?_, by rw [Exec.bind_ok h5]; rfl⟩⟩
          simp [h4]
        · exact ⟨t2, h1.trans h3, .inr ⟨k, by rw [Exec.bind_error h5]⟩⟩
    · rw [hr] at hs; cases hs

theorem prove_any (p : Profile) (H : HashFn) (ds : List Bytes) (t : Tree E) (hc : t.leavesCount = ds.length)
    (hp : Peaks H ds ds.length t.head) (hn : ds.length < p.leafLimit) (hr : t.storage.Reliable) {i : Nat} (hi : i < ds.length) :
    ∃ t', Same t t' ∧
      ((∃ ys, ys.length = (auditPath H i ds).length + 1 ∧ prove p H i t = (.ok (mth H ds, ys), t')) ∨
        ∃ k, prove p H i t = (.error (.err (.loadError k)), t')) := by
  have hlim := p.leafLimit_le
  unfold prove
  rw [Exec.get_bind, u64Add, if_pos (by omega), Exec.liftRes_ok_bind, if_neg (by rw [hc]; omega),
    hc, rootPosition_spec p (by omega), Exec.liftRes_ok_bind, fromLeafIndex_ok p (by omega),
    Exec.liftRes_ok_bind]
  simp only [Position.inOrderIndex]
  obtain ⟨t1, h1, ⟨hs, h2⟩ | ⟨fl, hs, h2⟩⟩ := onStorage_get (posOf 0 i).index t
  · rw [Exec.bind_ok h2]
    cases hq : t.storage.map (posOf 0 i).index with
    | none => exact ⟨t1, h1, .inr ⟨i, rfl⟩⟩
    | some q =>
      simp only []
      rw [pathList_eq p (ceilLog2_top p hn) (by omega) hi (by
          have := (ceilLog2_le_iff (ds.length + 1) _).1 (Nat.le_refl _); omega), Exec.liftRes_ok_bind]
      obtain ⟨S, hr1, hr2⟩ := rootNode_spec p H ds (by omega) (by omega) t.head hp
      rw [hr1, Exec.liftRes_ok_bind]
      simp only []
      rw [runwrap, Exec.liftRes_ok_bind]
      obtain ⟨l, hl1, hl2, hl3⟩ := shapePath_sides (H := H) (ds := ds) rfl (0, ds.length)
        (TreeRange.root (n := ds.length) (by omega)) (Nat.zero_le i) (by omega)
      have hsides : ((rangesToPos (shapePath 0 ds.length i (0, ds.length))).map Prod.snd).reverse.dropLast =
          (l.map fun x => rangePos x.1 x.2).reverse := by
        have : (rangesToPos (shapePath 0 ds.length i (0, ds.length))).map Prod.snd =
            ((shapePath 0 ds.length i (0, ds.length)).map Prod.snd).map fun x => rangePos x.1 x.2 := by
          simp [rangesToPos, Function.comp_def]
        rw [this, hl1]; simp
      rw [hsides]
      obtain ⟨t2, h3, ⟨ys, h4, h5⟩ | ⟨k, h5⟩⟩ := proveSides_any S (l.map fun x => rangePos x.1 x.2).reverse t1
        (by intro y; rw [h1.sched]; exact hr y)
      · refine ⟨t2, h1.trans h3, .inl ⟨(Node.ofPrim q).hash :: ys, ?_, ?_⟩⟩
        · rw [Nat.sub_zero, rng_all] at hl3
          rw [← hl3]
          simp [h4]
        · rw [Exec.bind_ok h5]
          simp only [rangeNode, subHash_all]
          rfl
      · exact ⟨t2, h1.trans h3, .inr ⟨k, by rw [Exec.bind_error h5]⟩⟩
  · rw [hr] at hs; cases hs

/-- Histories on a tree with the right peaks over arbitrary contents. -/
theorem run_any (p : Profile) (H : HashFn) (ops : List Op) : ∀ {ds : List Bytes} {t : Tree E},
    t.leavesCount = ds.length → Peaks H ds ds.length t.head → ds.length + pushCount ops < p.leafLimit →
    indicesOk ops → t.storage.Reliable →
    RightRoots (run p H ops t).1 (specRun H ops ds).1 := by
  have hlim := p.leafLimit_le
  induction ops with
  | nil => intro ds t _ _ _ _ _; exact True.intro
  | cons op ops ih =>
    intro ds t hc ht hn hi hr
    cases op with
    | push d =>
      simp only [pushCount] at hn
      rcases push_spec p H ds d t (by omega) hc ht with
        ⟨t2, c, k, q1, q2, q3, q4, q5, q6, q7, q8⟩ | ⟨t2, c, k, f, q1, q2, q3, q4, q5, q6, q7, q8⟩
      · have := ih (ds := ds ++ [d]) (t := t2) (by simp [q2]) (by simpa using q8) (by simp; omega) hi
          (by intro y; rw [q3]; exact hr y)
        simp only [run, step, specRun, specStep, q1]
        exact ⟨.same _, this⟩
      · rw [hr] at q6; cases q6
    | root =>
      simp only [pushCount] at hn
      have := ih hc ht hn hi hr
      simp only [run, step, specRun, specStep, root_spec p H ds (by omega) t ht]
      exact ⟨.same _, this⟩
    | prove i =>
      simp only [pushCount] at hn
      obtain ⟨hi1, hi⟩ := hi
      rcases Nat.lt_or_ge i ds.length with hlt | hge
      · obtain ⟨t1, hs, hcase⟩ := prove_any p H ds t hc ht (by omega) hr hlt
        have := ih (t := t1) (by rw [hs.count]; exact hc) (by rw [hs.head]; exact ht) hn hi
          (by intro y; rw [hs.sched]; exact hr y)
        rcases hcase with ⟨ys, h1, h2⟩ | ⟨k, h2⟩
        · simp only [run, step, specRun, specStep, h2, List.getElem?_eq_getElem hlt]
          exact ⟨.other _ _ _ (by simp [h1]), this⟩
        · simp only [run, step, specRun, specStep, h2, List.getElem?_eq_getElem hlt]
          exact ⟨.missing _ _ _, this⟩
      · have h1 := prove_out_of_range p H t hi1 (by rw [hc]; exact hge)
        have := ih hc ht hn hi hr
        simp only [run, step, specRun, specStep, h1, List.getElem?_eq_none hge]
        exact ⟨.same _, this⟩

theorem peaks_index (b : Nat) : ∀ a n, ∀ x ∈ peaks b a n, rangeIndex x = 2 * x.1 + x.2 - 1 := by
  induction b with
  | zero => intro a n x hx; simp [peaks] at hx
  | succ b ih =>
    intro a n x hx
    rw [peaks] at hx
    split at hx
    · rcases List.mem_cons.1 hx with rfl | hx
      · simp [rangeIndex, ceilLog2_two_pow]
      · exact ih _ _ _ hx
    · exact ih _ _ _ hx

/-- What `load` finds when it succeeds on records that name their keys. -/
theorem load_filed (p : Profile) {s s' : BStore E} {t : Tree E} {n : Nat} (hn : n < p.leafLimit) (hm : Filed s.map)
    (hl : Tree.load p s n = (.ok t, s')) :
    ∃ hs, PeaksHold s.map n hs ∧ t.leavesCount = n ∧ t.storage.sched = s.sched ∧ t.storage.map = s.map ∧
      t.head = (((peakRanges 0 (n + 1)).zip hs).map fun x => Node.mk ⟨rangeIndex x.1⟩ x.2).reverse ∧
      hs.length = (peakRanges 0 (n + 1)).length ∧ AnyPeaks n t.head := by
  have hlim := p.leafLimit_le
  obtain ⟨t', hsame, hcase⟩ := load_spec p s hn
  rcases hcase with ⟨qs, e1, e2⟩ | ⟨pre, y, post, _, _, _, e4⟩ | ⟨e, _, e4⟩
  · rw [e2] at hl
    simp only [Prod.mk.injEq, Except.ok.injEq] at hl
    obtain ⟨rfl, _⟩ := hl
    have hany := anyPeaks_read hm (n + 1) 0 0 [] qs (by omega) (by simp) .nil e1
    simp only [Nat.zero_add, Nat.add_sub_cancel, List.append_nil] at hany
    refine ⟨qs.map Prod.snd, ?_, hsame.count, hsame.sched, hsame.map, ?_, ?_, hany⟩
    · unfold PeaksHold
      rw [peakRanges_eq (by omega)] at e1
      rw [List.map_map]
      have : (peaks 64 0 n).map (fun x => (s.map (2 * x.1 + x.2 - 1)).map Prod.snd) =
          ((peaks 64 0 n).map (fun x => s.map (rangeIndex x))).map (Option.map Prod.snd) := by
        rw [List.map_map]
        apply List.map_congr_left
        intro x hx
        simp only [Function.comp_apply]
        rw [peaks_index 64 0 n x hx]
      rw [this, e1, List.map_map]
      rfl
    · simp only []
      congr 1
      generalize peakRanges 0 (n + 1) = l at e1
      clear e2 hany
      induction l generalizing qs with
      | nil =>
        have : qs = [] := by simpa using e1.symm
        subst this; rfl
      | cons x l ih =>
        cases qs with
        | nil => simp at e1
        | cons q qs =>
          simp only [List.map_cons, List.cons.injEq] at e1
          simp only [List.map_cons, List.zip_cons_cons]
          rw [← ih qs e1.2]
          congr 1
          unfold Node.ofPrim Position.fromInOrderIndex
          rw [hm _ _ e1.1]
    · have := congrArg List.length e1
      simpa using this.symm
  · rw [e4] at hl; cases hl
  · rw [e4] at hl; cases hl

/-! ### What the tree writes -/

theorem filed_upd {m : Nat → Option Prim} (h : Filed m) (x : Node) : Filed (Store.upd m x.key (some x.toPrim)) := by
  intro k q hq
  rw [Store.upd_apply] at hq
  split at hq
  · next e => cases hq; exact e.symm
  · exact h k q hq

theorem onStorage_insert_filed (x : Node) (t : Tree E) (h : Filed t.storage.map) :
    Filed (onStorage (Store.insert x.key x.toPrim) t).2.storage.map := by
  cases hs : t.storage.sched t.storage.clock with
  | none =>
    rw [onStorage_ok (Store.insert_none x.key x.toPrim hs)]
    exact filed_upd h x
  | some f =>
    rw [onStorage_error (Store.insert_fault x.key x.toPrim hs)]
    simp only []
    split
    · exact filed_upd h x
    · exact h

/-- A computation keeps the records named by their keys. -/
def Files {α : Type} (x : TreeM E α) : Prop := ∀ t, Filed t.storage.map → Filed (x t).2.storage.map

namespace Files
variable {α β : Type}

theorem bind {x : TreeM E α} {f : α → TreeM E β} (hx : Files x) (hf : ∀ a, Files (f a)) : Files (x >>= f) := by
  intro t h
  have := hx t h
  rw [Exec.bind_apply]
  rcases hxt : x t with ⟨r, t'⟩
  rw [hxt] at this
  cases r with
  | error e => exact this
  | ok a => exact hf a t' this

theorem of_readOnly {x : TreeM E α} (h : ReadOnly x) : Files x := by
  intro t ht
  rw [(h t).map]; exact ht

theorem modify {f : Tree E → Tree E} (h : ∀ t, (f t).storage = t.storage) : Files (Exec.modify f) := by
  intro t ht
  rw [Exec.modify_apply, h]; exact ht

end Files

theorem joinAllLoop_files (p : Profile) (H : HashFn) (rest : List Node) : ∀ cur : Node,
    Files (E := E) (joinAllLoop p H cur rest) := by
  induction rest with
  | nil => intro cur; rw [joinAllLoop]; exact .of_readOnly (.pure _)
  | cons y rest ih =>
    intro cur
    rw [joinAllLoop]
    split
    · refine .bind (.modify fun _ => rfl) fun _ => .bind (.of_readOnly (.liftRes _)) fun j =>
        .bind (onStorage_insert_filed j) fun _ => .bind (.modify fun _ => rfl) fun _ => ih j
    · exact .of_readOnly (.pure _)

theorem push_files (p : Profile) (H : HashFn) (d : Bytes) : Files (E := E) (push p H d) := by
  unfold push
  refine .bind (.of_readOnly .get) fun t => .bind (.of_readOnly (.liftRes _)) fun x =>
    .bind (onStorage_insert_filed x) fun _ => .bind (.modify fun _ => rfl) fun _ => .bind ?_ fun _ =>
    .bind (.of_readOnly .get) fun _ => .bind (.of_readOnly (.liftRes _)) fun _ => .modify fun _ => rfl
  unfold joinAllSubtrees
  refine .bind (.of_readOnly .get) fun t => ?_
  split
  · exact .of_readOnly (.throw _)
  · exact joinAllLoop_files p H _ _

theorem run_files (p : Profile) (H : HashFn) (ops : List Op) : ∀ t : Tree E, Filed t.storage.map →
    Filed (run p H ops t).2.storage.map := by
  induction ops with
  | nil => intro t h; exact h
  | cons op ops ih =>
    intro t h
    cases op with
    | push d =>
      simp only [run, step]
      exact ih _ (push_files p H d t h)
    | root =>
      simp only [run, step]
      exact ih _ h
    | prove i =>
      simp only [run, step]
      exact ih _ (Files.of_readOnly (prove_readOnly p H i) t h)

end Binary
end FuelMerkle
