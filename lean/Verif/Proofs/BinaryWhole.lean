import Verif.Proofs.BinaryRun
import Verif.Spec.BinaryWhole

/-
A push writes children before parents.
-/
namespace FuelMerkle
namespace Binary
open Spec
variable {E : Type}

/-- Where the storage has something of a complete subtree, it is right. -/
def Rightly (H : HashFn) (ds : List Bytes) (m : Nat → Option Prim) : Prop :=
  ∀ h k, (k + 1) * 2 ^ h ≤ ds.length → ∀ q, m (ioIndex h k) = some q → q = (nodeAt H ds h k).toPrim

/-- Where it has an inner node, it has its children. -/
def Wholly (n : Nat) (m : Nat → Option Prim) : Prop :=
  ∀ h k, (k + 1) * 2 ^ (h + 1) ≤ n → m (ioIndex (h + 1) k) ≠ none → m (ioIndex h (2 * k)) ≠ none ∧ m (ioIndex h (2 * k + 1)) ≠ none

theorem subtreeKey_eq (h k : Nat) : subtreeKey h k = ioIndex h k := by
  have := ioIndex_succ h k
  unfold subtreeKey
  omega

theorem intact_iff (H : HashFn) (ds : List Bytes) (m : Nat → Option Prim) : Intact H ds m ↔ Rightly H ds m ∧ Wholly ds.length m := by
  have e : ∀ h k, (nodeAt H ds h k).toPrim = (ioIndex h k, mth H ((ds.drop (k * 2 ^ h)).take (2 ^ h))) := fun h k => rfl
  constructor
  · rintro ⟨h1, h2⟩
    refine ⟨fun h k hk q hq => ?_, fun h k hk hq => ?_⟩
    · rw [e, ← subtreeKey_eq]
      exact h1 h k hk q (by rw [subtreeKey_eq]; exact hq)
    · have := h2 h k hk (by rw [subtreeKey_eq]; exact hq)
      rwa [subtreeKey_eq, subtreeKey_eq] at this
  · rintro ⟨h1, h2⟩
    refine ⟨fun h k hk q hq => ?_, fun h k hk hq => ?_⟩
    · rw [subtreeKey_eq] at hq ⊢
      rw [← e]
      exact h1 h k hk q hq
    · rw [subtreeKey_eq] at hq
      rw [subtreeKey_eq, subtreeKey_eq]
      exact h2 h k hk hq

/-- From a stored node down to any node below it. -/
theorem Wholly.down {n : Nat} {m : Nat → Option Prim} (hw : Wholly n m) : ∀ (e h k : Nat), (k / 2 ^ e + 1) * 2 ^ (h + e) ≤ n →
    m (ioIndex (h + e) (k / 2 ^ e)) ≠ none → m (ioIndex h k) ≠ none := by
  intro e
  induction e with
  | zero => intro h k _ hm; simpa using hm
  | succ e ih =>
    intro h k hk hm
    have e1 : k / 2 ^ (e + 1) = k / 2 ^ e / 2 := by rw [Nat.pow_succ, Nat.div_div_eq_div_mul]
    rw [e1] at hk hm
    obtain ⟨c1, c2⟩ := hw (h + e) (k / 2 ^ e / 2) hk hm
    have e2 : (k / 2 ^ e / 2 + 1) * 2 ^ (h + (e + 1)) = (2 * (k / 2 ^ e / 2) + 2) * 2 ^ (h + e) := by
      rw [← Nat.add_assoc, Nat.pow_succ]; ring
    refine ih h k ?_ ?_
    · rw [e2] at hk
      refine Nat.le_trans (Nat.mul_le_mul_right _ ?_) hk
      omega
    · rcases Nat.mod_two_eq_zero_or_one (k / 2 ^ e) with h0 | h0
      · rwa [show k / 2 ^ e = 2 * (k / 2 ^ e / 2) by omega]
      · rwa [show k / 2 ^ e = 2 * (k / 2 ^ e / 2) + 1 by omega]

/-- Every complete subtree lies under a peak. -/
theorem peak_above (r : Nat) : ∀ (a q : Nat), 0 < r → a = q * 2 ^ ceilLog2 r → ∀ h k, a ≤ k * 2 ^ h → (k + 1) * 2 ^ h ≤ a + r - 1 →
    ∃ e, ((k / 2 ^ e) * 2 ^ (h + e), 2 ^ (h + e)) ∈ peakRanges a r ∧ (k / 2 ^ e + 1) * 2 ^ (h + e) ≤ a + r - 1 := by
  induction r using Nat.strongRecOn with
  | _ r ih =>
    intro a q h0 hq h k hk1 hk2
    have hp := Nat.two_pow_pos h
    have ek : (k + 1) * 2 ^ h = k * 2 ^ h + 2 ^ h := by ring
    rcases Nat.eq_zero_or_pos (ceilLog2 r) with hc | hc
    · have := (ceilLog2_zero_iff r).1 hc
      omega
    · obtain ⟨c, hc'⟩ : ∃ c, ceilLog2 r = c + 1 := ⟨ceilLog2 r - 1, by omega⟩
      have h1 : 2 ^ c < r := (lt_ceilLog2_iff r c).1 (by omega)
      have h2 : r ≤ 2 ^ (c + 1) := (ceilLog2_le_iff r (c + 1)).1 (by omega)
      have hpos := Nat.two_pow_pos c
      rw [hc'] at hq
      have e3 : (2 : Nat) ^ (c + 1) = 2 * 2 ^ c := by ring
      have e1 : q * 2 ^ (c + 1) = 2 * q * 2 ^ c := by ring
      rw [peakRanges_pow h1 h2]
      rcases Nat.lt_or_ge (k * 2 ^ h) (a + 2 ^ c) with hlt | hge
      · have hhc : h ≤ c := by
          by_contra hcon
          have : 2 ^ (c + 1) ≤ 2 ^ h := Nat.pow_le_pow_right (by omega) (by omega)
          omega
        obtain ⟨e, rfl⟩ := Nat.exists_eq_add_of_le hhc
        have hdiv : k / 2 ^ e = 2 * q := by
          have e5 : (2 : Nat) ^ (h + e) = 2 ^ h * 2 ^ e := Nat.pow_add 2 h e
          have a1 : 2 * q * 2 ^ e ≤ k := by
            refine Nat.le_of_mul_le_mul_right ?_ hp
            calc 2 * q * 2 ^ e * 2 ^ h = 2 * q * (2 ^ h * 2 ^ e) := by ring
              _ = a := by rw [hq, e1, e5]
              _ ≤ k * 2 ^ h := hk1
          have a2 : k < (2 * q + 1) * 2 ^ e := by
            refine Nat.lt_of_mul_lt_mul_right (a := 2 ^ h) ?_
            calc k * 2 ^ h < a + 2 ^ (h + e) := hlt
              _ = (2 * q + 1) * 2 ^ e * 2 ^ h := by rw [hq, e1, e5]; ring
          exact (Nat.div_eq_iff (Nat.two_pow_pos e)).2 ⟨a1, by
            have : (2 * q + 1) * 2 ^ e = 2 * q * 2 ^ e + 2 ^ e := by ring
            omega⟩
        refine ⟨e, ?_, ?_⟩
        · rw [hdiv]
          refine List.mem_cons.2 (.inl ?_)
          rw [hq, e1]
        · rw [hdiv]
          have : (2 * q + 1) * 2 ^ (h + e) = 2 * q * 2 ^ (h + e) + 2 ^ (h + e) := by ring
          omega
      · have hcr : ceilLog2 (r - 2 ^ c) ≤ c := (ceilLog2_le_iff _ _).2 (by omega)
        obtain ⟨k', hk'⟩ := dvd_of_pow_le hcr (2 * q + 1)
        have e2 : (2 * q + 1) * 2 ^ c = 2 * q * 2 ^ c + 2 ^ c := by ring
        obtain ⟨e, m1, m2⟩ := ih (r - 2 ^ c) (by omega) (a + 2 ^ c) k' (by omega) (by omega) h k hge (by omega)
        exact ⟨e, List.mem_cons_of_mem _ m1, by omega⟩

/-- If all peaks are stored, everything is. -/
theorem agree_of_peaks {H : HashFn} {ds : List Bytes} {m : Nat → Option Prim} (hr : Rightly H ds m) (hw : Wholly ds.length m) {n : Nat}
    (hn : n ≤ ds.length) (hp : ∀ x ∈ peakRanges 0 (n + 1), m (rangeIndex x) ≠ none) : Agree H (ds.take n) m := by
  intro h k hk
  rw [List.length_take] at hk
  obtain ⟨e, h1, h2⟩ := peak_above (n + 1) 0 0 (by omega) (by simp) h k (by omega) (by omega)
  have h3 := hp _ h1
  rw [rangeIndex_eq (k := k / 2 ^ e) (by rw [ceilLog2_two_pow]), ceilLog2_two_pow] at h3
  have h4 := hw.down e h k (by omega) h3
  obtain ⟨q, hq⟩ := Option.ne_none_iff_exists'.1 h4
  rw [hq, hr h k (by omega) q hq]
  congr 2
  conv => lhs; rw [← List.take_append_drop n ds]
  apply nodeAt_append
  rw [List.length_take]; omega

/-- Loading a storage in which no inner node misses a child. -/
theorem load_whole (p : Profile) {H : HashFn} {ds : List Bytes} {s s' : BStore E} {t : Tree E} (hr : Rightly H ds s.map) (hw : Wholly ds.length s.map)
    {n : Nat} (hn : n < p.leafLimit) (hle : n ≤ ds.length) (hl : Tree.load p s n = (.ok t, s')) :
    Inv H (ds.take n) t ∧ t.storage.map = s.map ∧ t.storage.sched = s.sched := by
  obtain ⟨t', hs, hcase⟩ := load_spec p s hn
  rcases hcase with ⟨qs, e1, e2⟩ | ⟨pre, y, post, _, _, _, e4⟩ | ⟨e, _, e4⟩
  · have ha : Agree H (ds.take n) s.map := agree_of_peaks hr hw hle (by
      intro x hx hm
      have : none ∈ qs.map some := by rw [← e1, ← hm]; exact List.mem_map.2 ⟨x, hx, rfl⟩
      simp at this)
    obtain ⟨c, _, ⟨l, h1, h2⟩ | ⟨e, _, h2⟩⟩ := load_agree p s ha hn (by rw [List.length_take]; omega)
    · rw [hl] at h2
      simp only [Prod.mk.injEq, Except.ok.injEq] at h2
      obtain ⟨rfl, _⟩ := h2
      refine ⟨⟨by simp; omega, ?_, ha⟩, rfl, rfl⟩
      rw [List.take_take, Nat.min_self] at h1
      rw [List.length_take, Nat.min_eq_left hle]
      exact h1
    · rw [hl] at h2; simp at h2
  · rw [e4] at hl; simp at hl
  · rw [e4] at hl; simp at hl

/-- What the writes of a push keep. -/
theorem wr_whole {H : HashFn} {ds es : List Bytes} {d : Bytes} {m : Nat → Option Prim} (ha : Agree H ds m) (hr : Rightly H (ds ++ d :: es) m)
    (hw : Wholly (ds ++ d :: es).length m) {c j c' : Nat} (hd : ds.length + 1 = (j + 1) * 2 ^ c) (hc' : c' ≤ c + 1) :
    Rightly H (ds ++ d :: es) (wr H (ds ++ [d]) m c') ∧ Wholly (ds ++ d :: es).length (wr H (ds ++ [d]) m c') ∧
      ∀ x, m x ≠ none → wr H (ds ++ [d]) m c' x ≠ none := by
  have hlen : (ds ++ [d]).length = (j + 1) * 2 ^ c := by simpa using hd
  have happ := fun h k => wr_apply H (ds ++ [d]) m hlen hc' h k
  have hkeep : ∀ h k, m (ioIndex h k) ≠ none → wr H (ds ++ [d]) m c' (ioIndex h k) ≠ none := by
    intro h k hm
    rw [happ]
    split
    · simp
    · exact hm
  refine ⟨fun h k hk q hq => ?_, fun h k hk hm => ?_, fun x hx => ?_⟩
  · rw [happ] at hq
    split at hq
    · rename_i hcase
      simp only [Option.some.injEq] at hq
      subst hq
      rw [show ds ++ d :: es = (ds ++ [d]) ++ es by simp,
        nodeAt_append (ds := ds ++ [d]) (es := es) (Nat.le_of_eq hcase.2)]
    · exact hr h k hk q hq
  · rw [happ] at hm
    split at hm
    · rename_i hcase
      obtain ⟨g1, g2⟩ := hcase
      have e2 : (k + 1) * 2 ^ (h + 1) = (2 * k + 1 + 1) * 2 ^ h := by rw [Nat.pow_succ]; ring
      have e3 : (2 * k + 1 + 1) * 2 ^ h = (2 * k + 1) * 2 ^ h + 2 ^ h := by ring
      have hp := Nat.two_pow_pos h
      refine ⟨hkeep h (2 * k) ?_, ?_⟩
      · rw [ha h (2 * k) (by simp only [List.length_append, List.length_singleton] at g2; omega)]; simp
      · rw [happ, if_pos ⟨by omega, by omega⟩]; simp
    · obtain ⟨a, b⟩ := hw h k hk hm
      exact ⟨hkeep _ _ a, hkeep _ _ b⟩
  · clear happ hkeep hlen hc' hd ha hr hw
    induction c' with
    | zero => exact hx
    | succ x ih =>
      rw [wr]
      rw [Store.upd_apply]
      split
      · simp
      · exact ih

theorem push_whole (p : Profile) (H : HashFn) {ds es : List Bytes} {d : Bytes} {t : Tree E} (ht : Inv H ds t) (hn : ds.length < 2 ^ 63)
    (hr : Rightly H (ds ++ d :: es) t.storage.map) (hw : Wholly (ds ++ d :: es).length t.storage.map) :
    Rightly H (ds ++ d :: es) (push p H d t).2.storage.map ∧ Wholly (ds ++ d :: es).length (push p H d t).2.storage.map ∧
      (∀ x, t.storage.map x ≠ none → (push p H d t).2.storage.map x ≠ none) := by
  rcases push_spec p H ds d t hn ht.count ht.peaks with
    ⟨t', c, k, q1, q2, q3, q4, q5, q6, q7, q8⟩ | ⟨t', c, k, f, q1, q2, q3, q4, q5, q6, q7, q8⟩
  · rw [q1]
    simp only []
    rw [q7]
    exact wr_whole ht.agree hr hw q4 (Nat.le_refl _)
  · rw [q1]
    simp only []
    rw [q7]
    exact wr_whole ht.agree hr hw q4 (by split <;> omega)

theorem pushAll_whole (p : Profile) (H : HashFn) : ∀ (bs : List Bytes) {ds es : List Bytes} {t : Tree E}, Inv H ds t → ds.length + bs.length ≤ 2 ^ 63 →
    Rightly H (ds ++ bs ++ es) t.storage.map → Wholly (ds ++ bs ++ es).length t.storage.map →
    Rightly H (ds ++ bs ++ es) (pushAll p H bs t).2.storage.map ∧ Wholly (ds ++ bs ++ es).length (pushAll p H bs t).2.storage.map ∧
      (∀ x, t.storage.map x ≠ none → (pushAll p H bs t).2.storage.map x ≠ none) := by
  intro bs
  induction bs with
  | nil => intro ds es t _ _ hr hw; exact ⟨hr, hw, fun _ h => h⟩
  | cons d bs ih =>
    intro ds es t ht hn hr hw
    simp only [List.length_cons] at hn
    have e : ds ++ d :: bs ++ es = ds ++ d :: (bs ++ es) := by simp
    rw [e] at hr hw ⊢
    have h1 := push_whole p H ht (by omega) hr hw
    rw [pushAll, Exec.bind_apply]
    rcases hp : push p H d t with ⟨x | u, t1⟩
    · rw [hp] at h1
      exact h1
    · rw [hp] at h1
      obtain ⟨h2, _⟩ := push_ok_inv p H ht (by omega) hp
      have e' : ds ++ d :: (bs ++ es) = ds ++ [d] ++ bs ++ es := by simp
      rw [e'] at h1 ⊢
      obtain ⟨a, b, c⟩ := ih h2 (by simp; omega) h1.1 h1.2.1
      exact ⟨a, b, fun x hx => c x (h1.2.2 x hx)⟩

theorem visit_whole (p : Profile) (H : HashFn) {ds : List Bytes} (v : Visit) (s : BStore E) (hn : ds.length < p.leafLimit) (hv : v.count ≤ ds.length)
    (hr : Rightly H ds s.map) (hw : Wholly ds.length s.map) :
    Rightly H ds (v.run p H ds s).map ∧ Wholly ds.length (v.run p H ds s).map ∧ (∀ x, s.map x ≠ none → (v.run p H ds s).map x ≠ none) := by
  have hlim := p.leafLimit_le
  unfold Visit.run
  obtain ⟨t', hs, hcase⟩ := load_spec p s (show v.count < p.leafLimit by omega)
  rcases hl : Tree.load p s v.count with ⟨x | t, s'⟩
  · have hm : s'.map = s.map := by
      rcases hcase with ⟨qs, e1, e2⟩ | ⟨pre, y, post, _, _, _, e4⟩ | ⟨e, _, e4⟩
      · rw [e2] at hl; simp at hl
      · rw [e4] at hl; simp only [Prod.mk.injEq] at hl; rw [← hl.2]; exact hs.map
      · rw [e4] at hl; simp only [Prod.mk.injEq] at hl; rw [← hl.2]; exact hs.map
    simp only [hm]
    exact ⟨hr, hw, fun _ h => h⟩
  · obtain ⟨h1, h2, _⟩ := load_whole p hr hw (by omega) hv hl
    simp only []
    have e : ds = ds.take v.count ++ (ds.drop v.count).take v.pushes ++ (ds.drop v.count).drop v.pushes := by
      rw [List.append_assoc, List.take_append_drop, List.take_append_drop]
    have := pushAll_whole p H ((ds.drop v.count).take v.pushes) (es := (ds.drop v.count).drop v.pushes) h1 (by simp; omega)
      (by rw [← e, h2]; exact hr) (by rw [← e, h2]; exact hw)
    rw [← e, h2] at this
    exact this

end Binary
end FuelMerkle
