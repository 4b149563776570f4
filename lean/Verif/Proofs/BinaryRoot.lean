import Verif.Proofs.Binary

/-
`root`, `load` and `prove` of the binary Merkle tree.
-/
namespace FuelMerkle
namespace Binary
open Spec
variable {E : Type}

theorem rangeIndex_eq {a r k : Nat} (h : a = k * 2 ^ ceilLog2 r) :
    rangeIndex (a, r) = ioIndex (ceilLog2 r) k :=
  congrArg Position.index (rangePos_eq h)

/-- Different subtrees of a tree have different positions. -/
theorem TreeRange.index_inj {n a r a' r' : Nat} (h : TreeRange n a r) (h' : TreeRange n a' r')
    (e : rangeIndex (a, r) = rangeIndex (a', r')) : a = a' ∧ r = r' := by
  obtain ⟨h0, hle, ⟨k, hk⟩, hf⟩ := h
  obtain ⟨h0', hle', ⟨k', hk'⟩, hf'⟩ := h'
  rw [rangeIndex_eq hk, rangeIndex_eq hk'] at e
  obtain ⟨e1, rfl⟩ := ioIndex_injective e
  rw [e1] at hk hf
  have ha : a = a' := by omega
  refine ⟨ha, ?_⟩
  have b1 := (ceilLog2_le_iff r (ceilLog2 r)).1 (Nat.le_refl _)
  have b2 := (ceilLog2_le_iff r' (ceilLog2 r')).1 (Nat.le_refl _)
  rw [e1] at b1
  omega

/-- The node of a subtree. -/
def rangeNode (H : HashFn) (ds : List Bytes) (a r : Nat) : Node :=
  { position := rangePos a r, hash := subHash H ds a r }

/-- What the scratch storage contains when the suffix starting at leaf `e` has been joined. -/
structure ScratchOk (H : HashFn) (ds : List Bytes) (e : Nat) (S : Scratch) : Prop where
  complete : ∀ a r, TreeRange ds.length a r → a + r = ds.length → e ≤ a →
    r = 2 ^ ceilLog2 r ∨ S (rangeIndex (a, r)) = some (rangeNode H ds a r).toPrim
  sound : ∀ a r, TreeRange ds.length a r →
    S (rangeIndex (a, r)) = none ∨ S (rangeIndex (a, r)) = some (rangeNode H ds a r).toPrim

theorem dvd_of_pow_le {a b : Nat} (h : a ≤ b) (q : Nat) : ∃ q', q * 2 ^ b = q' * 2 ^ a := by
  obtain ⟨e, rfl⟩ := Nat.exists_eq_add_of_le h
  exact ⟨q * 2 ^ e, by rw [Nat.pow_add]; ring⟩

/-- A multiple of `b` strictly between two consecutive multiples does not exist. -/
theorem no_between {x q b : Nat} (h1 : q * b < x * b) (h2 : x * b < q * b + b) : False := by
  have h3 : q * b + b = (q + 1) * b := by ring
  rw [h3] at h2
  have := Nat.lt_of_mul_lt_mul_right h1
  have := Nat.lt_of_mul_lt_mul_right h2
  omega

theorem buildRootNode_spec (p : Profile) (H : HashFn) (ds : List Bytes) (hN : ds.length ≤ 2 ^ 63)
    (rest : List Node) : ∀ (e g q : Nat) (S : Scratch), Peaks H ds e rest → e < ds.length →
      e = q * 2 ^ (g + 1) → ds.length - e < 2 ^ (g + 1) → ScratchOk H ds e S →
      ∃ S', buildRootNode p H (rangeNode H ds e (ds.length - e)) rest S =
          .ok (rangeNode H ds 0 ds.length, S') ∧ ScratchOk H ds 0 S' := by
  induction rest with
  | nil =>
    intro e g q S hp he hq hg hS
    cases hp
    exact ⟨S, rfl, hS⟩
  | cons y rest ih =>
    intro e g q S hp he hq hg hS
    cases hp with
    | cons h k _ _ hr hek =>
      have hpos := Nat.two_pow_pos h
      have hgh : g + 1 ≤ h := by
        rcases Nat.lt_or_ge h (g + 1) with hlt | hge
        · exfalso
          obtain ⟨q', hq'⟩ := dvd_of_pow_le (show h + 1 ≤ g + 1 by omega) q
          have : (2 * k + 1) * 2 ^ h = (2 * q') * 2 ^ h := by
            rw [← hek, hq, hq']; ring
          have := Nat.eq_of_mul_eq_mul_right hpos this
          omega
        · exact hge
      have hlt : ds.length - e < 2 ^ h :=
        Nat.lt_of_lt_of_le hg (Nat.pow_le_pow_right (by omega) hgh)
      have e2 : (2 * k + 1) * 2 ^ h = 2 * k * 2 ^ h + 2 ^ h := by ring
      have e3 : (2 : Nat) ^ (h + 1) = 2 * 2 ^ h := by ring
      have e4 : k * 2 ^ (h + 1) = 2 * k * 2 ^ h := by ring
      generalize hE : 2 * k * 2 ^ h = e' at *
      have hr1 : 2 ^ h < ds.length - e' := by omega
      have hr2 : ds.length - e' ≤ 2 ^ (h + 1) := by omega
      have hc : ceilLog2 (ds.length - e') = h + 1 := ceilLog2_eq hr1 hr2
      have hT : TreeRange ds.length e' (ds.length - e') :=
        ⟨by omega, by omega, ⟨k, by rw [hc]; omega⟩, Or.inl (by omega)⟩
      have b := pos_bound (h := h) (k := 2 * k) (by omega)
      have hh : h ≤ 62 := by
        have : 2 ^ h < 2 ^ 63 := by omega
        have := (Nat.pow_lt_pow_iff_right (a := 2) (by omega)).1 this
        omega
      have hjoin : joinNodes p H (nodeAt H ds h (2 * k)) (rangeNode H ds e (ds.length - e)) =
          .ok (rangeNode H ds e' (ds.length - e')) := by
        unfold joinNodes Node.createNode nodeAt rangeNode
        simp only []
        rw [parent_posOf_even p b.2 hh]
        simp only [Res.ok_bind, Res.pure_eq]
        rw [rangePos_eq (k := k) (by rw [hc]; omega), hc]
        congr 2
        rw [subHash_pow hr1 hr2 (by omega), hE, show e' + 2 ^ h = e by omega]
        congr 3
        omega
      rw [buildRootNode, hjoin]
      simp only [Res.ok_bind]
      apply ih e' h k _ hr (by omega) (by omega) (by omega)
      have hkey : (rangeNode H ds e' (ds.length - e')).key = rangeIndex (e', ds.length - e') := rfl
      rw [hkey]
      constructor
      · intro a r hT' har hae
        rw [Store.upd_apply]
        by_cases hidx : rangeIndex (a, r) = rangeIndex (e', ds.length - e')
        · obtain ⟨rfl, rfl⟩ := TreeRange.index_inj hT' hT hidx
          right; rw [if_pos rfl]
        · rw [if_neg hidx]
          rcases Nat.lt_or_ge a e with hl | hge
          · exfalso
            have hne : a ≠ e' := by
              rintro rfl
              apply hidx
              rw [show r = ds.length - a by omega]
            obtain ⟨_, _, ⟨x, hx⟩, _⟩ := hT'
            have hrle := (ceilLog2_le_iff r (ceilLog2 r)).1 (Nat.le_refl _)
            have hc1 : ceilLog2 r ≤ h + 1 := (ceilLog2_le_iff r (h + 1)).2 (by omega)
            rcases Nat.lt_or_ge (ceilLog2 r) (h + 1) with hc2 | hc2
            · obtain ⟨y, hy⟩ := dvd_of_pow_le (show ceilLog2 r ≤ h by omega) (2 * k + 1)
              have : a + 2 ^ ceilLog2 r ≤ e := by
                have hey : e = y * 2 ^ ceilLog2 r := hek.trans hy
                have h1 : x * 2 ^ ceilLog2 r < y * 2 ^ ceilLog2 r := by omega
                have h1 := Nat.lt_of_mul_lt_mul_right h1
                have h2 : (x + 1) * 2 ^ ceilLog2 r ≤ y * 2 ^ ceilLog2 r := Nat.mul_le_mul_right _ h1
                rw [Nat.add_mul, Nat.one_mul] at h2
                omega
              omega
            · have hc3 : ceilLog2 r = h + 1 := by omega
              rw [hc3] at hx
              apply no_between (x := x) (q := k) (b := 2 ^ (h + 1)) <;> omega
          · exact hS.complete a r hT' har hge
      · intro a r hT'
        rw [Store.upd_apply]
        by_cases hidx : rangeIndex (a, r) = rangeIndex (e', ds.length - e')
        · obtain ⟨rfl, rfl⟩ := TreeRange.index_inj hT' hT hidx
          right; rw [if_pos rfl]
        · rw [if_neg hidx]; exact hS.sound a r hT'

/-- `root_node` on the peaks of `ds`. -/
theorem rootNode_spec (p : Profile) (H : HashFn) (ds : List Bytes) (hN : ds.length ≤ 2 ^ 63)
    (h0 : 0 < ds.length) (l : List Node) (hl : Peaks H ds ds.length l) :
    ∃ S, rootNode p H l (fun _ => none) = .ok (some (rangeNode H ds 0 ds.length), S) ∧
      ScratchOk H ds 0 S := by
  generalize hn : ds.length = n at hl
  cases hl with
  | nil => omega
  | cons h k rest _ hr he =>
    have hpos := Nat.two_pow_pos h
    have e2 : (2 * k + 1) * 2 ^ h = 2 * k * 2 ^ h + 2 ^ h := by ring
    have e3 : 2 * k * 2 ^ h = k * 2 ^ (h + 1) := by ring
    have e4 : (2 : Nat) ^ (h + 1) = 2 * 2 ^ h := by ring
    have hlen : ds.length - 2 * k * 2 ^ h = 2 ^ h := by omega
    have hnode : nodeAt H ds h (2 * k) = rangeNode H ds (2 * k * 2 ^ h) (ds.length - 2 * k * 2 ^ h) := by
      unfold nodeAt rangeNode
      rw [hlen, rangePos_eq (k := 2 * k) (by rw [ceilLog2_two_pow]), ceilLog2_two_pow]
    obtain ⟨S, h1, h2⟩ := buildRootNode_spec p H ds hN rest (2 * k * 2 ^ h) h k (fun _ => none) hr
      (by omega) (by omega) (by omega) ⟨by
        intro a r hT har hae
        left
        obtain ⟨_, _, ⟨x, hx⟩, _⟩ := hT
        have hrle := (ceilLog2_le_iff r (ceilLog2 r)).1 (Nat.le_refl _)
        have hch : ceilLog2 r ≤ h := (ceilLog2_le_iff r h).2 (by omega)
        obtain ⟨y, hy⟩ := dvd_of_pow_le hch (2 * k + 1)
        have h1 : x * 2 ^ ceilLog2 r < y * 2 ^ ceilLog2 r := by omega
        have h1 := Nat.lt_of_mul_lt_mul_right h1
        have h2 : (x + 1) * 2 ^ ceilLog2 r ≤ y * 2 ^ ceilLog2 r := Nat.mul_le_mul_right _ h1
        rw [Nat.add_mul, Nat.one_mul] at h2
        omega, by
        intro a r _; left; rfl⟩
    refine ⟨S, ?_, h2⟩
    rw [rootNode, hnode, h1, hn]; rfl

theorem root_spec (p : Profile) (H : HashFn) (ds : List Bytes) (hN : ds.length ≤ 2 ^ 63)
    (t : Tree E) (ht : Peaks H ds ds.length t.head) :
    t.root p H = .ok (if ds = [] then emptySum else mth H ds) := by
  unfold Tree.root
  rcases Nat.eq_zero_or_pos ds.length with h0 | h0
  · have : t.head = [] := by
      rw [h0] at ht
      exact ht.det .nil
    rw [this, if_pos (List.eq_nil_of_length_eq_zero h0)]
    rfl
  · obtain ⟨S, h1, _⟩ := rootNode_spec p H ds hN h0 t.head ht
    rw [h1, if_neg (by intro h; simp [h] at h0)]
    simp only [Res.ok_bind, Res.pure_eq, rangeNode, subHash_all]

/-! ### Positions consulted by `load` and `prove` -/

theorem rootPosition_spec (p : Profile) {n : Nat} (hn : n < 2 ^ 63) :
    rootPosition p n = .ok (posOf (ceilLog2 (n + 1)) 0) := by
  unfold rootPosition
  rw [u64Add, if_pos (by omega)]
  have hb : 2 ^ ceilLog2 (n + 1) ≤ 2 ^ 63 :=
    Nat.pow_le_pow_right (by omega) ((ceilLog2_le_iff _ _).2 (by omega))
  have hpos := Nat.two_pow_pos (ceilLog2 (n + 1))
  have hnp : u64NextPowerOfTwo p (n + 1) = .ok (2 ^ ceilLog2 (n + 1)) := by
    unfold u64NextPowerOfTwo
    unfold ceilLog2 at hb ⊢
    split
    · rename_i h
      simp [u64Add]
    · rename_i h
      rw [if_neg h] at hb
      have := Nat.two_pow_pos (Nat.log2 (n + 1 - 1) + 1)
      simp only [u64Add]
      rw [if_pos (by omega)]
      congr 1; omega
  simp only [Res.ok_bind, hnp]
  rw [u64Sub, if_pos (by omega)]
  simp [Position.fromInOrderIndex, posOf, ioIndex]

/-- Ranges of the peaks of the tree over `n` leaves, left to right. -/
def peakRanges (a r : Nat) : List (Nat × Nat) :=
  ((shapePath a r (a + r - 1) (a, r)).drop 1).map Prod.snd

theorem ceilLog2_top (p : Profile) {n : Nat} (hn : n < p.leafLimit) : ceilLog2 (n + 1) ≤ p.topHeight :=
  (ceilLog2_le_iff _ _).2 (by rw [← p.leafLimit_eq]; omega)

theorem peakPositions_spec (p : Profile) {n : Nat} (hn : n < p.leafLimit) :
    peakPositions p n = .ok ((peakRanges 0 (n + 1)).map fun x => rangePos x.1 x.2) := by
  have hlim := p.leafLimit_le
  unfold peakPositions
  rw [u64Add, if_pos (by omega), Res.ok_bind, u64Sub, if_pos (by omega), Res.ok_bind,
    fromLeafIndex_ok p (by omega), Res.ok_bind, rootPosition_spec p (by omega), Res.ok_bind]
  rw [pathList_eq p (ceilLog2_top p hn) (by omega) (by omega)
    ((ceilLog2_le_iff _ _).1 (Nat.le_refl _))]
  simp [rangesToPos, peakRanges, Function.comp_def]

theorem shapePath_head (a r i : Nat) (s : Nat × Nat) : ∃ l, shapePath a r i s = ((a, r), s) :: l := by
  rw [shapePath]; split
  · exact ⟨_, rfl⟩
  · exact ⟨_, rfl⟩

theorem shapePath_tail (a r i : Nat) (s s' : Nat × Nat) :
    (shapePath a r i s).drop 1 = (shapePath a r i s').drop 1 := by
  rw [shapePath]
  conv => rhs; rw [shapePath]
  split <;> rfl

theorem peakRanges_pow {a r c : Nat} (h1 : 2 ^ c < r) (h2 : r ≤ 2 ^ (c + 1)) :
    peakRanges a r = (a, 2 ^ c) :: peakRanges (a + 2 ^ c) (r - 2 ^ c) := by
  have hpos := Nat.two_pow_pos c
  unfold peakRanges
  rw [shapePath, dif_pos (by omega)]
  simp only [split_pow h1 h2]
  rw [if_neg (by omega)]
  have e : a + 2 ^ c + (r - 2 ^ c) - 1 = a + r - 1 := by omega
  rw [e]
  obtain ⟨l, hl⟩ := shapePath_head (a + 2 ^ c) (r - 2 ^ c) (a + r - 1) (a, 2 ^ c)
  rw [shapePath_tail (a + 2 ^ c) (r - 2 ^ c) (a + r - 1) (a + 2 ^ c, r - 2 ^ c) (a, 2 ^ c), hl]
  simp

theorem peakRanges_one (a : Nat) : peakRanges a 1 = [] := by
  unfold peakRanges
  rw [shapePath, dif_neg (by omega)]
  rfl

/-! ### Reads -/

/-- Reading leaves everything but the clock unchanged. -/
structure Same (t t' : Tree E) : Prop where
  map : t'.storage.map = t.storage.map
  sched : t'.storage.sched = t.storage.sched
  head : t'.head = t.head
  count : t'.leavesCount = t.leavesCount
  clock : t.storage.clock ≤ t'.storage.clock

theorem Same.refl (t : Tree E) : Same t t := ⟨rfl, rfl, rfl, rfl, Nat.le_refl _⟩

theorem Same.trans {t t' t'' : Tree E} (h : Same t t') (h' : Same t' t'') : Same t t'' :=
  ⟨h'.map.trans h.map, h'.sched.trans h.sched, h'.head.trans h.head, h'.count.trans h.count,
    Nat.le_trans h.clock h'.clock⟩

theorem onStorage_get (key : Nat) (t : Tree E) :
    ∃ t', Same t t' ∧
      ((t.storage.sched t.storage.clock = none ∧
          onStorage (Store.get key) t = (.ok (t.storage.map key), t')) ∨
        ∃ f, t.storage.sched t.storage.clock = some f ∧
          onStorage (Store.get key) t = (.error (.err (.storageError f.err)), t')) := by
  cases hs : t.storage.sched t.storage.clock with
  | none =>
    exact ⟨{ t with storage := { t.storage with clock := t.storage.clock + 1 } },
      ⟨rfl, rfl, rfl, rfl, by simp⟩, Or.inl ⟨rfl, onStorage_ok (Store.get_none key hs)⟩⟩
  | some f =>
    exact ⟨{ t with storage := { t.storage with clock := t.storage.clock + 1 } },
      ⟨rfl, rfl, rfl, rfl, by simp⟩, Or.inr ⟨f, rfl, onStorage_error (Store.get_fault key hs)⟩⟩

/-- The storage reported a failure at some call from `t` on. -/
def Faulted (t : Tree E) (e : E) : Prop :=
  ∃ x f, t.storage.clock ≤ x ∧ t.storage.sched x = some f ∧ f.err = e

theorem Faulted.mono {t t' : Tree E} {e : E} (h : Same t t') (hf : Faulted t' e) : Faulted t e := by
  obtain ⟨x, f, h1, h2, h3⟩ := hf
  exact ⟨x, f, Nat.le_trans h.clock h1, by rw [← h.sched]; exact h2, h3⟩

theorem Faulted.not_reliable {t : Tree E} {e : E} (h : Faulted t e) : ¬ t.storage.Reliable := by
  obtain ⟨x, f, _, h2, _⟩ := h
  intro hr
  rw [hr x] at h2
  cases h2

theorem buildLoop_spec (ps : List Position) : ∀ (cur : List Node) (t : Tree E),
    ∃ t', Same t t' ∧
      ((∃ qs : List Prim, ps.map (fun x => t.storage.map x.index) = qs.map some ∧
          buildLoop ps cur t = (.ok ((qs.map Node.ofPrim).reverse ++ cur), t')) ∨
        (∃ pre x post, ps = pre ++ x :: post ∧ (∀ y ∈ pre, t.storage.map y.index ≠ none) ∧
          t.storage.map x.index = none ∧
          buildLoop ps cur t = (.error (.err (.loadError x.index)), t')) ∨
        ∃ e, Faulted t e ∧ buildLoop ps cur t = (.error (.err (.storageError e)), t')) := by
  induction ps with
  | nil => intro cur t; exact ⟨t, .refl t, Or.inl ⟨[], rfl, rfl⟩⟩
  | cons x ps ih =>
    intro cur t
    rw [buildLoop]
    simp only [Position.inOrderIndex]
    obtain ⟨t1, h1, ⟨hs, h2⟩ | ⟨f, hs, h2⟩⟩ := onStorage_get x.index t
    · rw [Exec.bind_ok h2]
      cases hm : t.storage.map x.index with
      | none =>
        refine ⟨t1, h1, Or.inr (Or.inl ⟨[], x, ps, rfl, by simp, hm, rfl⟩)⟩
      | some q =>
        simp only []
        obtain ⟨t2, h3, hcase⟩ := ih (Node.ofPrim q :: cur) t1
        refine ⟨t2, h1.trans h3, ?_⟩
        rw [h1.map] at hcase
        rcases hcase with ⟨qs, e1, e2⟩ | ⟨pre, y, post, e1, e2, e3, e4⟩ | ⟨e, e1, e2⟩
        · left
          refine ⟨q :: qs, by simp [hm, e1], ?_⟩
          rw [e2]; simp
        · right; left
          refine ⟨x :: pre, y, post, by rw [e1]; rfl, ?_, e3, e4⟩
          intro z hz
          rcases List.mem_cons.1 hz with rfl | hz
          · simp [hm]
          · exact e2 z hz
        · right; right
          exact ⟨e, e1.mono h1, e2⟩
    · rw [Exec.bind_error h2]
      exact ⟨t1, h1, Or.inr (Or.inr ⟨f.err, ⟨_, f, Nat.le_refl _, hs, rfl⟩, rfl⟩)⟩

theorem ofPrim_toPrim (x : Node) : Node.ofPrim x.toPrim = x := rfl

/-- Reading the peaks of a prefix of the stored leaves gives the peaks. -/
theorem peaks_read {H : HashFn} {ds : List Bytes} {m : Nat → Option Prim} (hm : Agree H ds m)
    (r : Nat) : ∀ (a k : Nat) (l : List Node), 0 < r → a = k * 2 ^ ceilLog2 r →
      a + r - 1 ≤ ds.length → Peaks H ds a l →
      ∃ qs : List Prim, (peakRanges a r).map (fun x => m (rangeIndex x)) = qs.map some ∧
        Peaks H ds (a + r - 1) ((qs.map Node.ofPrim).reverse ++ l) := by
  induction r using Nat.strongRecOn with
  | _ r ih =>
    intro a k l h0 hk hle hp
    rcases Nat.eq_zero_or_pos (ceilLog2 r) with hc | hc
    · have := (ceilLog2_zero_iff r).1 hc
      have : r = 1 := by omega
      subst this
      rw [peakRanges_one]
      exact ⟨[], rfl, by simpa using hp⟩
    · obtain ⟨c, hc'⟩ : ∃ c, ceilLog2 r = c + 1 := ⟨ceilLog2 r - 1, by omega⟩
      have h1 : 2 ^ c < r := (lt_ceilLog2_iff r c).1 (by omega)
      have h2 : r ≤ 2 ^ (c + 1) := (ceilLog2_le_iff r (c + 1)).1 (by omega)
      have hpos := Nat.two_pow_pos c
      rw [hc'] at hk
      have e1 : k * 2 ^ (c + 1) = 2 * k * 2 ^ c := by ring
      have e2 : (2 * k + 1) * 2 ^ c = 2 * k * 2 ^ c + 2 ^ c := by ring
      have e3 : (2 : Nat) ^ (c + 1) = 2 * 2 ^ c := by ring
      rw [peakRanges_pow h1 h2]
      have hrd : m (rangeIndex (a, 2 ^ c)) = some (nodeAt H ds c (2 * k)).toPrim := by
        rw [rangeIndex_eq (k := 2 * k) (by rw [ceilLog2_two_pow]; omega), ceilLog2_two_pow]
        exact hm c (2 * k) (by omega)
      have hp' : Peaks H ds (a + 2 ^ c) (nodeAt H ds c (2 * k) :: l) :=
        .cons c k l _ (by rw [← e1, ← hk]; exact hp) (by omega)
      have hcr : ceilLog2 (r - 2 ^ c) ≤ c := (ceilLog2_le_iff _ _).2 (by omega)
      obtain ⟨k', hk'⟩ := dvd_of_pow_le hcr (2 * k + 1)
      obtain ⟨qs, e4, e5⟩ := ih (r - 2 ^ c) (by omega) (a + 2 ^ c) k' _ (by omega) (by omega) (by omega) hp'
      refine ⟨(nodeAt H ds c (2 * k)).toPrim :: qs, by simp [hrd, e4], ?_⟩
      rw [show a + 2 ^ c + (r - 2 ^ c) - 1 = a + r - 1 by omega] at e5
      simpa [ofPrim_toPrim] using e5

theorem Peaks.take {H : HashFn} {ds : List Bytes} {n e : Nat} {l : List Node} (hn : e ≤ n)
    (hl : n ≤ ds.length) (h : Peaks H ds e l) : Peaks H (ds.take n) e l := by
  induction h with
  | nil => exact .nil
  | cons h k rest e hr he ih =>
    have e1 : (2 * k + 1) * 2 ^ h = 2 * k * 2 ^ h + 2 ^ h := by ring
    have hpos := Nat.two_pow_pos h
    have : nodeAt H ds h (2 * k) = nodeAt H (ds.take n) h (2 * k) := by
      conv => lhs; rw [← List.take_append_drop n ds]
      apply nodeAt_append
      rw [List.length_take]; omega
    rw [this]
    exact .cons h k rest e (ih (by omega)) he

theorem Agree.take {H : HashFn} {ds : List Bytes} {m : Nat → Option Prim} (h : Agree H ds m) (n : Nat) :
    Agree H (ds.take n) m := by
  intro x k hk
  rw [List.length_take] at hk
  rw [h x k (by omega)]
  congr 2
  conv => lhs; rw [← List.take_append_drop n ds]
  apply nodeAt_append
  rw [List.length_take]; omega

/-- `load` over arbitrary storage contents. -/
theorem load_spec (p : Profile) (s : BStore E) {n : Nat} (hn : n < p.leafLimit) :
    ∃ t', Same { storage := s, head := [], leavesCount := n } t' ∧
      ((∃ qs : List Prim, (peakRanges 0 (n + 1)).map (fun x => s.map (rangeIndex x)) = qs.map some ∧
          Tree.load p s n =
            (.ok { t' with head := (qs.map Node.ofPrim).reverse }, t'.storage)) ∨
        (∃ pre x post, peakRanges 0 (n + 1) = pre ++ x :: post ∧
          (∀ y ∈ pre, s.map (rangeIndex y) ≠ none) ∧ s.map (rangeIndex x) = none ∧
          Tree.load p s n = (.error (.err (.loadError (rangeIndex x))), t'.storage)) ∨
        ∃ e, (∃ x f, s.clock ≤ x ∧ s.sched x = some f ∧ f.err = e) ∧
          Tree.load p s n = (.error (.err (.storageError e)), t'.storage)) := by
  obtain ⟨t', h1, hcase⟩ := buildLoop_spec ((peakRanges 0 (n + 1)).map fun x => rangePos x.1 x.2) []
    { storage := s, head := [], leavesCount := n }
  refine ⟨t', h1, ?_⟩
  unfold Tree.load build
  simp only []
  rw [Exec.get_bind, peakPositions_spec p hn, Exec.liftRes_ok_bind]
  rcases hcase with ⟨qs, e1, e2⟩ | ⟨pre, y, post, e1, e2, e3, e4⟩ | ⟨e, e1, e2⟩
  · left
    refine ⟨qs, by simpa [rangePos, Function.comp_def] using e1, ?_⟩
    rw [Exec.bind_ok e2]
    simp
  · right; left
    obtain ⟨pre', rest', e5, rfl, e6⟩ := List.map_eq_append_iff.1 e1
    obtain ⟨x, post', rfl, rfl, rfl⟩ := List.map_eq_cons_iff.1 e6
    refine ⟨pre', x, post', e5, ?_, e3, ?_⟩
    · intro z hz
      exact e2 (rangePos z.1 z.2) (List.mem_map.2 ⟨z, hz, rfl⟩)
    · rw [Exec.bind_error e4]; rfl
  · right; right
    refine ⟨e, e1, ?_⟩
    rw [Exec.bind_error e2]

/-- Loading any prefix of the stored leaves. -/
theorem load_agree (p : Profile) {H : HashFn} {ds : List Bytes} (s : BStore E) (hm : Agree H ds s.map)
    {n : Nat} (hn : n < p.leafLimit) (hle : n ≤ ds.length) :
    ∃ c, s.clock ≤ c ∧
      ((∃ l, Peaks H (ds.take n) n l ∧
        Tree.load p s n = (.ok { storage := { s with clock := c }, head := l, leavesCount := n },
          { s with clock := c })) ∨
      ∃ e, (∃ x f, s.clock ≤ x ∧ s.sched x = some f ∧ f.err = e) ∧
        Tree.load p s n = (.error (.err (.storageError e)), { s with clock := c })) := by
  obtain ⟨qs, e1, e2⟩ := peaks_read hm (n + 1) 0 0 [] (by omega) (by simp) (by omega) .nil
  obtain ⟨⟨⟨m', sc', c'⟩, hd', n'⟩, hs, hcase⟩ := load_spec p s hn
  obtain ⟨hs1, hs2, hs3, hs4, hc⟩ := hs
  simp only at hs1 hs2 hs3 hs4 hc
  subst hs1 hs2 hs3 hs4
  refine ⟨c', hc, ?_⟩
  rcases hcase with ⟨qs', e3, e4⟩ | ⟨pre, y, post, e3, e4, e5, e6⟩ | ⟨e, e3, e4⟩
  · left
    have : qs' = qs := by
      apply (List.map_inj_right (f := some) (by intro x y h; exact Option.some.inj h)).1
      rw [← e1, ← e3]
    subst this
    refine ⟨_, ?_, e4⟩
    simp only [Nat.zero_add, Nat.add_sub_cancel, List.append_nil] at e2
    exact e2.take (Nat.le_refl _) hle
  · exfalso
    rw [e3, List.map_append, List.map_cons, e5] at e1
    have : none ∈ qs.map some := by rw [← e1]; simp
    simp at this
  · right
    exact ⟨e, e3, e4⟩

/-! ### `prove` -/

theorem proveSides_spec (S : Scratch) (t0 : Tree E) (f : Position → Bytes32) (ps : List Position) :
    ∀ (t : Tree E), t.storage.map = t0.storage.map →
    (∀ x ∈ ps, (S x.index).or (t0.storage.map x.index) = some (x.index, f x)) →
    ∃ t', Same t t' ∧
      (proveSides S ps t = (.ok (ps.map f), t') ∨
        ∃ e, Faulted t e ∧ proveSides S ps t = (.error (.err (.storageError e)), t')) := by
  induction ps with
  | nil => intro t _ _; exact ⟨t, .refl t, Or.inl rfl⟩
  | cons x ps ih =>
    intro t hm hx
    rw [proveSides]
    simp only [Position.inOrderIndex]
    obtain ⟨t1, h1, ⟨hs, h2⟩ | ⟨fl, hs, h2⟩⟩ := onStorage_get x.index t
    · rw [Exec.bind_ok h2, hm, hx x (by simp)]
      simp only []
      obtain ⟨t2, h3, h4 | ⟨e, h4, h5⟩⟩ := ih t1 (h1.map.trans hm) (fun y hy => hx y (by simp [hy]))
      · refine ⟨t2, h1.trans h3, Or.inl ?_⟩
        rw [Exec.bind_ok h4]; rfl
      · refine ⟨t2, h1.trans h3, Or.inr ⟨e, h4.mono h1, ?_⟩⟩
        rw [Exec.bind_error h5]
    · rw [Exec.bind_error h2]
      exact ⟨t1, h1, Or.inr ⟨fl.err, ⟨_, fl, Nat.le_refl _, hs, rfl⟩, rfl⟩⟩

theorem prove_spec (p : Profile) (H : HashFn) (ds : List Bytes) (t : Tree E) (ht : Inv H ds t)
    (hn : ds.length < p.leafLimit) {i : Nat} (hi : i < ds.length) :
    ∃ t', Same t t' ∧
      (prove p H i t = (.ok (mth H ds, leafSum H ds[i] :: auditPath H i ds), t') ∨
        ∃ e, Faulted t e ∧ prove p H i t = (.error (.err (.storageError e)), t')) := by
  have hlim := p.leafLimit_le
  unfold prove
  rw [Exec.get_bind, u64Add, if_pos (by omega), Exec.liftRes_ok_bind, if_neg (by rw [ht.count]; omega),
    ht.count, rootPosition_spec p (by omega), Exec.liftRes_ok_bind, fromLeafIndex_ok p (by omega),
    Exec.liftRes_ok_bind]
  simp only [Position.inOrderIndex]
  obtain ⟨t1, h1, ⟨hs, h2⟩ | ⟨fl, hs, h2⟩⟩ := onStorage_get (posOf 0 i).index t
  · have hleaf : t.storage.map (posOf 0 i).index = some (nodeAt H ds 0 i).toPrim :=
      ht.agree 0 i (by simp; omega)
    rw [Exec.bind_ok h2, hleaf]
    simp only []
    rw [pathList_eq p (ceilLog2_top p hn) (by omega) hi (by
        have := (ceilLog2_le_iff (ds.length + 1) _).1 (Nat.le_refl _); omega), Exec.liftRes_ok_bind]
    obtain ⟨S, hr1, hr2⟩ := rootNode_spec p H ds (by omega) (by omega) t.head ht.peaks
    rw [hr1, Exec.liftRes_ok_bind]
    simp only []
    rw [runwrap, Exec.liftRes_ok_bind]
    obtain ⟨l, hl1, hl2, hl3⟩ := shapePath_sides (H := H) (ds := ds) rfl (0, ds.length)
      (TreeRange.root (n := ds.length) (by omega)) (Nat.zero_le i) (by omega)
    have hsides : ((rangesToPos (shapePath 0 ds.length i (0, ds.length))).map Prod.snd).reverse.dropLast =
        (l.map fun x => rangePos x.1 x.2).reverse := by
      have : (rangesToPos (shapePath 0 ds.length i (0, ds.length))).map Prod.snd =
          ((shapePath 0 ds.length i (0, ds.length)).map Prod.snd).map fun x => rangePos x.1 x.2 := by
        simp [rangesToPos, Function.comp_def]
      rw [this, hl1]; simp
    rw [hsides]
    -- read the hash of each side
    have hread : ∀ x ∈ l, (S (rangeIndex x)).or (t1.storage.map (rangeIndex x)) =
        some (rangeIndex x, subHash H ds x.1 x.2) := by
      intro x hx
      have hT := hl2 x hx
      rcases hr2.sound x.1 x.2 hT with hnone | hsome
      · rw [hnone, Option.none_or, h1.map]
        have hpow : x.2 = 2 ^ ceilLog2 x.2 := by
          rcases hT.full with hf | hf
          · rcases hr2.complete x.1 x.2 hT hf (Nat.zero_le _) with h | h
            · exact h
            · rw [hnone] at h; cases h
          · exact hf
        obtain ⟨k, hk⟩ := hT.aligned
        have hle := hT.le
        have e1 : (k + 1) * 2 ^ ceilLog2 x.2 = k * 2 ^ ceilLog2 x.2 + 2 ^ ceilLog2 x.2 := by ring
        have := ht.agree (ceilLog2 x.2) k (by omega)
        have hidx : rangeIndex x = ioIndex (ceilLog2 x.2) k := rangeIndex_eq hk
        rw [hidx, this]
        unfold nodeAt Node.toPrim
        simp only []
        rw [← hk, ← hpow]; rfl
      · rw [hsome]; rfl
    -- hashes as a function of positions
    have hinj : ∀ x ∈ l, ∀ y ∈ l, rangePos x.1 x.2 = rangePos y.1 y.2 → x = y := by
      intro x hx y hy hxy
      obtain ⟨h1, h2⟩ := TreeRange.index_inj (hl2 x hx) (hl2 y hy) (congrArg Position.index hxy)
      exact Prod.ext h1 h2
    obtain ⟨f, hf⟩ : ∃ f : Position → Bytes32, ∀ x ∈ l, f (rangePos x.1 x.2) = subHash H ds x.1 x.2 := by
      refine ⟨fun pos => ((S pos.index).or (t1.storage.map pos.index)).elim emptySum Prod.snd, ?_⟩
      intro x hx
      have := hread x hx
      simp only [rangePos]
      rw [show (x.1, x.2) = x from rfl, this]; rfl
    obtain ⟨t2, h3, h4 | ⟨e, h4, h5⟩⟩ := proveSides_spec S t1 f
      (l.map fun x => rangePos x.1 x.2).reverse t1 rfl (by
        intro pos hpos
        obtain ⟨x, hx, rfl⟩ := List.mem_map.1 (List.mem_reverse.1 hpos)
        rw [hf x hx]; exact hread x hx)
    · refine ⟨t2, h1.trans h3, Or.inl ?_⟩
      rw [Exec.bind_ok h4]
      have hlist : (l.map fun x => rangePos x.1 x.2).reverse.map f = auditPath H i ds := by
        rw [Nat.sub_zero, rng_all] at hl3
        rw [← hl3, List.map_reverse, List.map_map]
        congr 1
        apply List.map_congr_left
        intro x hx
        exact hf x hx
      rw [hlist]
      simp only [Exec.pure_apply, rangeNode, subHash_all, ofPrim_toPrim, nodeAt]
      rw [Nat.pow_zero, Nat.mul_one, subHash_leaf hi]
    · refine ⟨t2, h1.trans h3, Or.inr ⟨e, h4.mono h1, ?_⟩⟩
      rw [Exec.bind_error h5]
  · rw [Exec.bind_error h2]
    exact ⟨t1, h1, Or.inr ⟨fl.err, ⟨_, fl, Nat.le_refl _, hs, rfl⟩, rfl⟩⟩

end Binary
end FuelMerkle
