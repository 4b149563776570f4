import Verif.Proofs.BinaryWhole
import Verif.Proofs.BinaryLoaded
import Verif.Spec.Pruned

/-
Binary trees on storage from which everything but the peaks has been removed.
-/
namespace FuelMerkle
open Spec

/-- `shapePath_sides`, and the block of twice the size around a complete side ends behind the leaf. -/
theorem shapePath_sides' {H : HashFn} {ds : List Bytes} {n : Nat} (hn : n = ds.length) {a r i : Nat} (s : Nat × Nat)
    (h : TreeRange n a r) (h1 : a ≤ i) (h2 : i < a + r) :
    ∃ l, (shapePath a r i s).map Prod.snd = s :: l ∧ (∀ x ∈ l, TreeRange n x.1 x.2) ∧
      (l.map fun x => subHash H ds x.1 x.2).reverse = auditPath H (i - a) (rng ds a r) ∧
      (∀ x ∈ l, ∀ h k, x.2 = 2 ^ h → x.1 = k * 2 ^ h → i < (k / 2 + 1) * 2 ^ (h + 1)) := by
  induction r using Nat.strongRecOn generalizing a s with
  | _ r ih =>
    have hlen : (rng ds a r).length = r := rng_length (by have := h.le; omega)
    rw [shapePath]
    by_cases hr : 1 < r
    · have hs := split_spec hr
      have hch := h.children hr
      have hsp := hch.1.pos
      rw [dif_pos hr]
      simp only [List.map_cons]
      rw [auditPath_split H _ (by omega), hlen]
      by_cases hi : i < a + split r
      · rw [if_pos hi, if_pos (by omega)]
        obtain ⟨l, e1, e2, e3, e4⟩ := ih (split r) (by omega) (a + split r, r - split r) hch.1 h1 hi
        refine ⟨(a + split r, r - split r) :: l, by rw [e1], ?_, ?_, ?_⟩
        · intro x hx
          rcases List.mem_cons.1 hx with rfl | hx
          · exact hch.2
          · exact e2 x hx
        · simp only [List.map_cons, List.reverse_cons, e3]
          rw [rng_take (by omega), rng_drop]; rfl
        · intro x hx
          rcases List.mem_cons.1 hx with rfl | hx
          · intro h k _ hk
            simp only at hk
            have : k * 2 ^ h ≤ (2 * (k / 2 + 1)) * 2 ^ h := Nat.mul_le_mul_right _ (by omega)
            have e : (k / 2 + 1) * 2 ^ (h + 1) = (2 * (k / 2 + 1)) * 2 ^ h := by rw [Nat.pow_succ]; ring
            omega
          · exact e4 x hx
      · rw [if_neg hi, if_neg (by omega)]
        obtain ⟨l, e1, e2, e3, e4⟩ := ih (r - split r) (by omega) (a, split r) hch.2 (by omega) (by omega)
        refine ⟨(a, split r) :: l, by rw [e1], ?_, ?_, ?_⟩
        · intro x hx
          rcases List.mem_cons.1 hx with rfl | hx
          · exact hch.1
          · exact e2 x hx
        · simp only [List.map_cons, List.reverse_cons, e3]
          rw [rng_take (by omega), rng_drop, show i - (a + split r) = i - a - split r by omega]
          rfl
        · intro x hx
          rcases List.mem_cons.1 hx with rfl | hx
          · intro h' k hh hk
            simp only at hk hh
            obtain ⟨q, hq⟩ := h.aligned
            rw [split_eq hr] at hh
            have hz := ceilLog2_zero_iff r
            have hc : ceilLog2 r = h' + 1 := by
              have := Nat.pow_right_injective (Nat.le_refl 2) hh
              omega
            have hle := (ceilLog2_le_iff r _).1 (Nat.le_refl _)
            rw [hc] at hq hle
            have hk2 : k = 2 * q := by
              have : k * 2 ^ h' = (2 * q) * 2 ^ h' := by rw [← hk, hq, Nat.pow_succ]; ring
              exact Nat.eq_of_mul_eq_mul_right (Nat.two_pow_pos _) this
            rw [hk2, Nat.mul_div_cancel_left _ (by decide), Nat.add_mul, Nat.one_mul, ← hq]
            omega
          · exact e4 x hx
    · rw [dif_neg hr]
      exact ⟨[], rfl, by simp, by rw [auditPath_short H _ (by omega)]; rfl, by simp⟩


namespace Binary
variable {E : Type}

/-- `prove_spec` with only those records that the call reads. -/
theorem prove_needed (p : Profile) (H : HashFn) (ds : List Bytes) (t : Tree E) (hcount : t.leavesCount = ds.length)
    (hpeaks : Peaks H ds ds.length t.head) (hn : ds.length < p.leafLimit) {i : Nat} (hi : i < ds.length)
    (hneed : ∀ h k, (k + 1) * 2 ^ h ≤ ds.length → i < (k / 2 + 1) * 2 ^ (h + 1) →
      t.storage.map (ioIndex h k) = some (nodeAt H ds h k).toPrim) :
    ∃ t', Same t t' ∧
      (prove p H i t = (.ok (mth H ds, leafSum H ds[i] :: auditPath H i ds), t') ∨
        ∃ e, Faulted t e ∧ prove p H i t = (.error (.err (.storageError e)), t')) := by
  have hlim := p.leafLimit_le
  unfold prove
  rw [Exec.get_bind, u64Add, if_pos (by omega), Exec.liftRes_ok_bind, if_neg (by rw [hcount]; omega),
    hcount, rootPosition_spec p (by omega), Exec.liftRes_ok_bind, fromLeafIndex_ok p (by omega),
    Exec.liftRes_ok_bind]
  simp only [Position.inOrderIndex]
  obtain ⟨t1, h1, ⟨hs, h2⟩ | ⟨fl, hs, h2⟩⟩ := onStorage_get (posOf 0 i).index t
  · have hleaf : t.storage.map (posOf 0 i).index = some (nodeAt H ds 0 i).toPrim :=
      hneed 0 i (by simp; omega) (by simp; omega)
    rw [Exec.bind_ok h2, hleaf]
    simp only []
    rw [pathList_eq p (ceilLog2_top p hn) (by omega) hi (by
        have := (ceilLog2_le_iff (ds.length + 1) _).1 (Nat.le_refl _); omega), Exec.liftRes_ok_bind]
    obtain ⟨S, hr1, hr2⟩ := rootNode_spec p H ds (by omega) (by omega) t.head hpeaks
    rw [hr1, Exec.liftRes_ok_bind]
    simp only []
    rw [runwrap, Exec.liftRes_ok_bind]
    obtain ⟨l, hl1, hl2, hl3, hl4⟩ := shapePath_sides' (H := H) (ds := ds) rfl (0, ds.length)
      (TreeRange.root (n := ds.length) (by omega)) (Nat.zero_le i) (by omega)
    have hsides : ((rangesToPos (shapePath 0 ds.length i (0, ds.length))).map Prod.snd).reverse.dropLast =
        (l.map fun x => rangePos x.1 x.2).reverse := by
      have : (rangesToPos (shapePath 0 ds.length i (0, ds.length))).map Prod.snd =
          ((shapePath 0 ds.length i (0, ds.length)).map Prod.snd).map fun x => rangePos x.1 x.2 := by
        simp [rangesToPos, Function.comp_def]
      rw [this, hl1]; simp
    rw [hsides]
    -- read the hash of each side
    have hread : ∀ x ∈ l, (S (rangeIndex x)).or (t1.storage.map (rangeIndex x)) =
        some (rangeIndex x, subHash H ds x.1 x.2) := by
      intro x hx
      have hT := hl2 x hx
      rcases hr2.sound x.1 x.2 hT with hnone | hsome
      · rw [hnone, Option.none_or, h1.map]
        have hpow : x.2 = 2 ^ ceilLog2 x.2 := by
          rcases hT.full with hf | hf
          · rcases hr2.complete x.1 x.2 hT hf (Nat.zero_le _) with h | h
            · exact h
            · rw [hnone] at h; cases h
          · exact hf
        obtain ⟨k, hk⟩ := hT.aligned
        have hle := hT.le
        have e1 : (k + 1) * 2 ^ ceilLog2 x.2 = k * 2 ^ ceilLog2 x.2 + 2 ^ ceilLog2 x.2 := by ring
        have := hneed (ceilLog2 x.2) k (by omega) (hl4 x hx _ k hpow hk)
        have hidx : rangeIndex x = ioIndex (ceilLog2 x.2) k := rangeIndex_eq hk
        rw [hidx, this]
        unfold nodeAt Node.toPrim
        simp only []
        rw [← hk, ← hpow]; rfl
      · rw [hsome]; rfl
    -- hashes as a function of positions
    have hinj : ∀ x ∈ l, ∀ y ∈ l, rangePos x.1 x.2 = rangePos y.1 y.2 → x = y := by
      intro x hx y hy hxy
      obtain ⟨h1, h2⟩ := TreeRange.index_inj (hl2 x hx) (hl2 y hy) (congrArg Position.index hxy)
      exact Prod.ext h1 h2
    obtain ⟨f, hf⟩ : ∃ f : Position → Bytes32, ∀ x ∈ l, f (rangePos x.1 x.2) = subHash H ds x.1 x.2 := by
      refine ⟨fun pos => ((S pos.index).or (t1.storage.map pos.index)).elim emptySum Prod.snd, ?_⟩
      intro x hx
      have := hread x hx
      simp only [rangePos]
      rw [show (x.1, x.2) = x from rfl, this]; rfl
    obtain ⟨t2, h3, h4 | ⟨e, h4, h5⟩⟩ := proveSides_spec S t1 f
      (l.map fun x => rangePos x.1 x.2).reverse t1 rfl (by
        intro pos hpos
        obtain ⟨x, hx, rfl⟩ := List.mem_map.1 (List.mem_reverse.1 hpos)
        rw [hf x hx]; exact hread x hx)
    · refine ⟨t2, h1.trans h3, Or.inl ?_⟩
      rw [Exec.bind_ok h4]
      have hlist : (l.map fun x => rangePos x.1 x.2).reverse.map f = auditPath H i ds := by
        rw [Nat.sub_zero, rng_all] at hl3
        rw [← hl3, List.map_reverse, List.map_map]
        congr 1
        apply List.map_congr_left
        intro x hx
        exact hf x hx
      rw [hlist]
      simp only [Exec.pure_apply, rangeNode, subHash_all, ofPrim_toPrim, nodeAt]
      rw [Nat.pow_zero, Nat.mul_one, subHash_leaf hi]
    · refine ⟨t2, h1.trans h3, Or.inr ⟨e, h4.mono h1, ?_⟩⟩
      rw [Exec.bind_error h5]
  · rw [Exec.bind_error h2]
    exact ⟨t1, h1, Or.inr ⟨fl.err, ⟨_, fl, Nat.le_refl _, hs, rfl⟩, rfl⟩⟩


/-- Everything is stored that is not under a larger subtree that is complete with `n` leaves. -/
def Kept (H : HashFn) (n : Nat) (ds : List Bytes) (m : Nat → Option Prim) : Prop :=
  ∀ h k, (k + 1) * 2 ^ h ≤ ds.length → n < (k / 2 + 1) * 2 ^ (h + 1) → m (ioIndex h k) = some (nodeAt H ds h k).toPrim

theorem Kept.wr_all {H : HashFn} {n : Nat} {ds : List Bytes} {d : Bytes} {m : Nat → Option Prim}
    (hm : Kept H n ds m) {c j : Nat} (hd : ds.length + 1 = (2 * j + 1) * 2 ^ c) :
    Kept H n (ds ++ [d]) (Binary.wr H (ds ++ [d]) m (c + 1)) := by
  intro h k hk hnk
  rw [wr_apply H _ m (c := c) (j := 2 * j) (by simpa using hd) (Nat.le_refl _)]
  split
  · rfl
  · rename_i hn
    simp only [List.length_append, List.length_singleton] at hk hn
    rcases Nat.lt_or_ge ds.length ((k + 1) * 2 ^ h) with hlt | hge
    · exfalso
      apply hn
      refine ⟨?_, by omega⟩
      rcases Nat.lt_or_ge h (c + 1) with h1 | h1
      · exact h1
      · exfalso
        have e : (k + 1) * 2 ^ h = (2 * j + 1) * 2 ^ c := by omega
        obtain ⟨x, hx⟩ := Nat.exists_eq_add_of_le h1
        have : (k + 1) * 2 ^ h = ((k + 1) * 2 ^ x * 2) * 2 ^ c := by
          rw [hx, Nat.pow_add, Nat.pow_succ]; ring
        have : (k + 1) * 2 ^ x * 2 = 2 * j + 1 :=
          Nat.eq_of_mul_eq_mul_right (Nat.two_pow_pos c) (by omega)
        omega
    · rw [hm h k hge hnk, nodeAt_append hge]

/-- An open tree on such a storage; `old` is what the storage contained under keys of subtrees of the
first `n` leaves. -/
structure PInv (H : HashFn) (n : Nat) (old : Nat → Option Prim) (ds : List Bytes) (t : Tree E) : Prop where
  count : t.leavesCount = ds.length
  peaks : Peaks H ds ds.length t.head
  kept : Kept H n ds t.storage.map
  le : n ≤ ds.length
  old : ∀ h k, (k + 1) * 2 ^ h ≤ n → t.storage.map (ioIndex h k) = old (ioIndex h k)

theorem PInv.same {H : HashFn} {n : Nat} {old : Nat → Option Prim} {ds : List Bytes} {t t' : Tree E} (h : PInv H n old ds t)
    (hs : Same t t') : PInv H n old ds t' :=
  ⟨by rw [hs.count]; exact h.count, by rw [hs.head]; exact h.peaks, by rw [hs.map]; exact h.kept, h.le, by rw [hs.map]; exact h.old⟩

theorem push_ok_pinv (p : Profile) (H : HashFn) {n : Nat} {old : Nat → Option Prim} {ds : List Bytes} {d : Bytes} {t t' : Tree E}
    (ht : PInv H n old ds t) (hn : ds.length < 2 ^ 63) (hrun : push p H d t = (.ok (), t')) :
    PInv H n old (ds ++ [d]) t' ∧ t'.storage.sched = t.storage.sched := by
  have hle := ht.le
  rcases push_spec p H ds d t hn ht.count ht.peaks with
    ⟨t2, c, k, q1, q2, q3, q4, q5, q6, q7, q8⟩ | ⟨t2, c, k, f, q1, q2, q3, q4, q5, q6, q7, q8⟩
  · rw [q1] at hrun
    obtain rfl := (Prod.mk.inj hrun).2
    refine ⟨⟨by simp [q2], by simpa using q8, ?_, by simp; omega, ?_⟩, q3⟩
    · rw [q7]; exact ht.kept.wr_all q4
    · intro h' k' hk'
      rw [q7, wr_apply H _ _ (c := c) (j := 2 * k) (by simpa using q4) (Nat.le_refl _), if_neg]
      · exact ht.old h' k' hk'
      · rintro ⟨_, h2⟩
        simp at h2
        omega
  · rw [q1] at hrun
    simp at hrun

theorem pushAll_ok_pinv (p : Profile) (H : HashFn) {n : Nat} {old : Nat → Option Prim} (es : List Bytes) :
    ∀ {ds : List Bytes} {t t' : Tree E}, PInv H n old ds t → ds.length + es.length ≤ 2 ^ 63 → pushAll p H es t = (.ok (), t') →
    PInv H n old (ds ++ es) t' ∧ t'.storage.sched = t.storage.sched := by
  induction es with
  | nil =>
    intro ds t t' ht _ h
    simp only [pushAll, Exec.pure_apply, Prod.mk.injEq, true_and] at h
    subst h
    exact ⟨by simpa using ht, rfl⟩
  | cons d es ih =>
    intro ds t t' ht hn h
    simp only [List.length_cons] at hn
    rw [pushAll] at h
    rcases hq : push p H d t with ⟨e | v, t1⟩
    · rw [Exec.bind_error hq] at h
      simp at h
    · rw [Exec.bind_ok hq] at h
      obtain ⟨h1, h2⟩ := push_ok_pinv p H ht (by omega) hq
      obtain ⟨h3, h4⟩ := ih h1 (by simp; omega) h
      exact ⟨by simpa using h3, h4.trans h2⟩

theorem push_pinv (p : Profile) (H : HashFn) {n : Nat} {old : Nat → Option Prim} {ds : List Bytes} (d : Bytes) {t : Tree E}
    (ht : PInv H n old ds t) (hn : ds.length < 2 ^ 63) (hr : t.storage.Reliable) :
    ∃ t', push p H d t = (.ok (), t') ∧ PInv H n old (ds ++ [d]) t' ∧ t'.storage.Reliable := by
  rcases push_spec p H ds d t hn ht.count ht.peaks with
    ⟨t', c, k, q1, q2, q3, _⟩ | ⟨t', c, k, f, q1, q2, q3, q4, q5, q6, _⟩
  · exact ⟨t', q1, (push_ok_pinv p H ht hn q1).1, by intro x; rw [q3]; exact hr x⟩
  · rw [hr] at q6; cases q6

theorem pushAll_pinv (p : Profile) (H : HashFn) {n : Nat} {old : Nat → Option Prim} (es : List Bytes) : ∀ {ds : List Bytes} {t : Tree E},
    PInv H n old ds t → ds.length + es.length ≤ 2 ^ 63 → t.storage.Reliable →
    ∃ t', pushAll p H es t = (.ok (), t') ∧ PInv H n old (ds ++ es) t' ∧ t'.storage.Reliable := by
  induction es with
  | nil => intro ds t ht _ hr; exact ⟨t, rfl, by simpa using ht, hr⟩
  | cons d es ih =>
    intro ds t ht hn hr
    simp only [List.length_cons] at hn
    obtain ⟨t1, h1, h2, h3⟩ := push_pinv p H d ht (by omega) hr
    obtain ⟨t2, h4, h5, h6⟩ := ih h2 (by simp; omega) h3
    refine ⟨t2, ?_, by simpa using h5, h6⟩
    rw [pushAll, Exec.bind_ok h1]
    exact h4

/-- A complete subtree that is not under a larger one is a peak. -/
theorem mem_peakRanges {n h k : Nat} (h1 : (k + 1) * 2 ^ h ≤ n) (h2 : n < (k / 2 + 1) * 2 ^ (h + 1)) :
    (k * 2 ^ h, 2 ^ h) ∈ peakRanges 0 (n + 1) := by
  obtain ⟨e, g1, g2⟩ := peak_above (n + 1) 0 0 (by omega) (by simp) h k (by omega) (by omega)
  cases e with
  | zero => simpa using g1
  | succ e =>
    exfalso
    have e1 : k / 2 ^ (e + 1) = k / 2 / 2 ^ e := by rw [Nat.div_div_eq_div_mul, Nat.pow_succ, Nat.mul_comm]
    have e2 : k / 2 + 1 ≤ (k / 2 / 2 ^ e + 1) * 2 ^ e := by
      rw [Nat.mul_comm]; exact Nat.lt_mul_div_succ _ (Nat.two_pow_pos e)
    have e3 := Nat.mul_le_mul_right (2 ^ (h + 1)) e2
    rw [e1] at g2
    have e4 : (k / 2 / 2 ^ e + 1) * 2 ^ e * 2 ^ (h + 1) = (k / 2 / 2 ^ e + 1) * 2 ^ (h + (e + 1)) := by
      rw [Nat.pow_add, Nat.pow_add, Nat.pow_add]; ring
    omega

/-- Loading a storage that has the peaks. -/
theorem load_pruned (p : Profile) {H : HashFn} {ds : List Bytes} {m : Nat → Option Prim} (hm : Agree H ds m) {s : BStore E}
    (hn : ds.length < p.leafLimit) (hp : ∀ x ∈ peakRanges 0 (ds.length + 1), s.map (rangeIndex x) = m (rangeIndex x)) :
    (∃ t s', Tree.load p s ds.length = (.ok t, s') ∧ PInv H ds.length s.map ds t ∧ t.storage.sched = s.sched) ∨
      ∃ e s', (∃ x f, s.clock ≤ x ∧ s.sched x = some f ∧ f.err = e) ∧ Tree.load p s ds.length = (.error (.err (.storageError e)), s') := by
  obtain ⟨qs, r1, r2⟩ := peaks_read hm (ds.length + 1) 0 0 [] (by omega) (by simp) (by omega) Peaks.nil
  have hmap : (peakRanges 0 (ds.length + 1)).map (fun x => s.map (rangeIndex x)) = qs.map some := by
    rw [← r1]; exact List.map_congr_left hp
  obtain ⟨t', hs, ⟨qs', e1, e2⟩ | ⟨pre, x, post, e1, _, e3, _⟩ | ⟨e, he, e4⟩⟩ := load_spec p s hn
  · have hq : qs' = qs := by
      rw [hmap] at e1
      exact ((List.map_inj_right (fun _ _ => Option.some.inj)).1 e1).symm
    subst hq
    refine .inl ⟨_, _, e2, ⟨hs.count, by simpa using r2, ?_, Nat.le_refl _, fun h k _ => by simp only; rw [hs.map]⟩, ?_⟩
    · intro h k h1 h2
      have hx := mem_peakRanges h1 h2
      have := hp _ hx
      rw [rangeIndex_eq (k := k) (by rw [ceilLog2_two_pow]), ceilLog2_two_pow] at this
      simp only
      rw [hs.map]
      simp only
      rw [this]
      exact hm h k h1
    · simp only; rw [hs.sched]
  · exfalso
    have h1 : s.map (rangeIndex x) ∈ qs.map some := by
      rw [← hmap]
      exact List.mem_map_of_mem (f := fun x => s.map (rangeIndex x)) (by rw [e1]; simp)
    rw [e3] at h1
    simp at h1
  · exact .inr ⟨e, _, he, e4⟩

/-- A peak is a complete subtree that is not under a larger one. -/
theorem peaks_parent (n : Nat) : ∀ (b a : Nat), 2 ^ b ∣ a → ∀ x ∈ Spec.peaks b a n,
    ∃ h k, x = (k * 2 ^ h, 2 ^ h) ∧ (k + 1) * 2 ^ h ≤ a + n % 2 ^ b ∧ a + n % 2 ^ b < (k / 2 + 1) * 2 ^ (h + 1) := by
  intro b
  induction b with
  | zero => intro a _ x hx; simp [Spec.peaks] at hx
  | succ b ih =>
    intro a ha x hx
    have ha' : 2 ^ b ∣ a := Nat.dvd_trans (Nat.pow_dvd_pow 2 (by omega)) ha
    have e : n % 2 ^ (b + 1) = 2 ^ b * (n / 2 ^ b % 2) + n % 2 ^ b := by
      rw [Nat.pow_succ, Nat.mod_mul]; omega
    have hlt := Nat.mod_lt n (Nat.two_pow_pos (b + 1))
    rw [Spec.peaks, Nat.testBit_eq_decide_div_mod_eq] at hx
    by_cases hc : n / 2 ^ b % 2 = 1
    · rw [hc, Nat.mul_one] at e
      simp only [hc, decide_true, if_true] at hx
      rcases List.mem_cons.1 hx with rfl | hx
      · obtain ⟨c, rfl⟩ := ha
        refine ⟨b, 2 * c, by rw [Nat.pow_succ]; congr 1; ring, ?_, ?_⟩
        · have : (2 * c + 1) * 2 ^ b = 2 ^ (b + 1) * c + 2 ^ b := by rw [Nat.pow_succ]; ring
          omega
        · have : (c + 1) * 2 ^ (b + 1) = 2 ^ (b + 1) * c + 2 ^ (b + 1) := by ring
          rw [Nat.mul_div_cancel_left _ (by decide)]
          omega
      · obtain ⟨h, k, h1, h2, h3⟩ := ih (a + 2 ^ b) (Nat.dvd_add ha' (Nat.dvd_refl _)) x hx
        exact ⟨h, k, h1, by omega, by omega⟩
    · have hz : n / 2 ^ b % 2 = 0 := by omega
      rw [hz, Nat.mul_zero, Nat.zero_add] at e
      simp only [hc, decide_false, Bool.false_eq_true, if_false] at hx
      rw [e]
      exact ih a ha' x hx

theorem Kept.hasPeaks {H : HashFn} {n : Nat} {ds : List Bytes} {m : Nat → Option Prim} (h : Kept H n ds m) (hle : n ≤ ds.length)
    (hn : ds.length < 2 ^ 64) : HasPeaks H ds m := by
  intro x hx
  obtain ⟨g, k, rfl, h2, h3⟩ := peaks_parent ds.length 64 0 (Nat.dvd_zero _) x hx
  rw [Nat.mod_eq_of_lt hn, Nat.zero_add] at h2 h3
  rw [topKey_io]
  exact h g k h2 (by omega)

theorem Agree.kept {H : HashFn} {ds : List Bytes} {m : Nat → Option Prim} (h : Agree H ds m) (n : Nat) : Kept H n ds m :=
  fun g k hk _ => h g k hk

/-- Loading a storage that has the peaks. -/
theorem load_hasPeaks (p : Profile) {H : HashFn} {ds : List Bytes} {s : BStore E} (hn : ds.length < p.leafLimit)
    (hp : HasPeaks H ds s.map) :
    (∃ t s', Tree.load p s ds.length = (.ok t, s') ∧ PInv H ds.length s.map ds t ∧ t.storage.sched = s.sched) ∨
      ∃ e s', (∃ x f, s.clock ≤ x ∧ s.sched x = some f ∧ f.err = e) ∧ Tree.load p s ds.length = (.error (.err (.storageError e)), s') := by
  have hlim := p.leafLimit_le
  obtain ⟨t0, _, h0, _⟩ := pushAll_inv (E := Unit) p H ds (Inv.new H Store.empty) (by simp; omega) (fun _ => rfl)
  rw [List.nil_append] at h0
  refine load_pruned p h0.agree hn fun x hx => ?_
  rw [peakRanges_eq (by omega)] at hx
  have h1 := hp x hx
  have h2 := (h0.agree.kept 0).hasPeaks (Nat.zero_le _) (by omega) x hx
  obtain ⟨g, k, rfl, _⟩ := peaks_mem ds.length 64 0 (Nat.dvd_zero _) x hx
  rw [topKey_io] at h1 h2
  rw [rangeIndex_eq (k := k) (by rw [ceilLog2_two_pow]), ceilLog2_two_pow, h1, h2]

/-- A leaf whose record is not there. -/
theorem prove_missing (p : Profile) (H : HashFn) (ds : List Bytes) (t : Tree E) (hcount : t.leavesCount = ds.length)
    (hn : ds.length < p.leafLimit) {i : Nat} (hi : i < ds.length)
    (hm : t.storage.map (ioIndex 0 i) = none) : ∃ t', prove p H i t = (.error (.err (.loadError i)), t') ∨
      ∃ e, Faulted t e ∧ prove p H i t = (.error (.err (.storageError e)), t') := by
  have hlim := p.leafLimit_le
  unfold prove
  rw [Exec.get_bind, u64Add, if_pos (by omega), Exec.liftRes_ok_bind, if_neg (by rw [hcount]; omega),
    hcount, rootPosition_spec p (by omega), Exec.liftRes_ok_bind, fromLeafIndex_ok p (by omega),
    Exec.liftRes_ok_bind]
  simp only [Position.inOrderIndex]
  obtain ⟨t1, h1, ⟨hs, h2⟩ | ⟨fl, hs, h2⟩⟩ := onStorage_get (posOf 0 i).index t
  · rw [Exec.bind_ok h2, show t.storage.map (posOf 0 i).index = none from hm]
    exact ⟨t1, .inl rfl⟩
  · rw [Exec.bind_error h2]
    exact ⟨t1, .inr ⟨fl.err, ⟨_, fl, Nat.le_refl _, hs, rfl⟩, rfl⟩⟩

end Binary
end FuelMerkle
