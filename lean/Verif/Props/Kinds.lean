import Verif.Props.Verify
import Verif.Props.Sum
import Verif.Props.SparseRoot
import Verif.Spec.Kinds

/-
Property C67: roots of trees of different kinds. All three kinds use the prefixes 0x00 and
0x01, so some roots of different kinds coincide, and these are all.
-/
namespace FuelMerkle.Props
open FuelMerkle.Spec
variable {E : Type}

set_option maxRecDepth 100000

/-! ### Sparse trees shaped like plain ones -/

theorem Shaped.unfold {V : Type} {fuel d : Nat} {es : Entries V} (h : 2 ≤ es.length) :
    Shaped (fuel + 1) d es ↔ (es.filter fun x => !keyBit x.1 d) = es.take (split es.length) ∧
      (es.filter fun x => keyBit x.1 d) = es.drop (split es.length) ∧
      Shaped fuel (d + 1) (es.take (split es.length)) ∧ Shaped fuel (d + 1) (es.drop (split es.length)) := by
  match es, h with
  | _ :: _ :: _, _ => rfl

theorem smt_unfold (H : HashFn) {fuel d : Nat} {es : Entries Bytes32} (h : 2 ≤ es.length) :
    smt H (fuel + 1) d es = H (smtNodeMsg (smt H fuel (d + 1) (es.filter fun x => !keyBit x.1 d))
      (smt H fuel (d + 1) (es.filter fun x => keyBit x.1 d))) := by
  match es, h with
  | _ :: _ :: _, _ => rfl

theorem smtMsgs_unfold (H : HashFn) {fuel d : Nat} {es : Entries Bytes32} (h : 2 ≤ es.length) :
    smtMsgsFrom H (fuel + 1) d es = smtNodeMsg (smt H fuel (d + 1) (es.filter fun x => !keyBit x.1 d))
      (smt H fuel (d + 1) (es.filter fun x => keyBit x.1 d)) ::
      (smtMsgsFrom H fuel (d + 1) (es.filter fun x => !keyBit x.1 d) ++
        smtMsgsFrom H fuel (d + 1) (es.filter fun x => keyBit x.1 d)) := by
  match es, h with
  | _ :: _ :: _, _ => rfl

theorem smt_single (H : HashFn) (fuel d : Nat) (x : Bytes32 × Bytes32) :
    smt H fuel d [x] = H ([0x00] ++ (x.1.val ++ x.2.val)) := by
  obtain ⟨k, v⟩ := x
  have : smt H fuel d [(k, v)] = H (smtLeafMsg k v) := by cases fuel <;> rfl
  rw [this]; simp [smtLeafMsg]

theorem smtMsgs_single (H : HashFn) (fuel d : Nat) (x : Bytes32 × Bytes32) :
    smtMsgsFrom H fuel d [x] = [[0x00] ++ (x.1.val ++ x.2.val)] := by
  obtain ⟨k, v⟩ := x
  have : smtMsgsFrom H fuel d [(k, v)] = [smtLeafMsg k v] := by cases fuel <;> rfl
  rw [this]; simp [smtLeafMsg]

/-- The bytes of the leaves. -/
def texts (es : Entries Bytes32) : List Bytes := es.map fun x => x.1.val ++ x.2.val

theorem texts_length (es : Entries Bytes32) : (texts es).length = es.length := by simp [texts]

theorem smt_shaped (H : HashFn) (fuel : Nat) : ∀ (d : Nat) (es : Entries Bytes32), Shaped fuel d es →
    smt H fuel d es = mth H (texts es) := by
  induction fuel with
  | zero =>
    intro d es h
    match es, h with
    | [x], _ => rw [smt_single]; simp [texts, mth]
  | succ fuel ih =>
    intro d es h
    by_cases hl : 2 ≤ es.length
    · obtain ⟨f0, f1, s0, s1⟩ := (Shaped.unfold hl).1 h
      rw [smt_unfold H hl, f0, f1, ih _ _ s0, ih _ _ s1, mth_split H (D := texts es) (by rw [texts_length]; omega), texts_length]
      simp only [texts, List.map_take, List.map_drop]
      rfl
    · match es, h, hl with
      | [x], _, _ => rw [smt_single]; simp [texts, mth]
      | _ :: _ :: _, _, hl => simp at hl

theorem full_shaped {V : Type} (e : Nat) : ∀ (fuel d : Nat) (es : Entries V), e ≤ fuel → es.length = 2 ^ e →
    (∀ (j : Nat) x, es[j]? = some x → ∀ b < e, keyBit x.1 (d + b) = j.testBit (e - 1 - b)) → Shaped fuel d es := by
  induction e with
  | zero =>
    intro fuel d es _ hl _
    match es, hl with
    | [x], _ => cases fuel <;> trivial
  | succ e ih =>
    intro fuel d es hf hl hb
    obtain ⟨fuel, rfl⟩ : ∃ f, fuel = f + 1 := ⟨fuel - 1, by omega⟩
    have hp := Nat.two_pow_pos e
    have hl2 : es.length = 2 ^ e + 2 ^ e := by rw [hl]; ring
    have hsp : split es.length = 2 ^ e := by apply split_pow <;> omega
    have hA : ∀ x ∈ es.take (2 ^ e), keyBit x.1 d = false := by
      intro x hx
      obtain ⟨j, hj⟩ := List.mem_iff_getElem?.1 hx
      rw [List.getElem?_take] at hj
      split at hj
      · next hlt =>
        have := hb j x hj 0 (by omega)
        rw [Nat.add_zero] at this
        rw [this]
        simp only [Nat.add_sub_cancel, Nat.sub_zero]
        exact Nat.testBit_lt_two_pow hlt
      · cases hj
    have hB : ∀ x ∈ es.drop (2 ^ e), keyBit x.1 d = true := by
      intro x hx
      obtain ⟨j, hj⟩ := List.mem_iff_getElem?.1 hx
      rw [List.getElem?_drop] at hj
      have hlt : 2 ^ e + j < es.length := (List.getElem?_eq_some_iff.1 hj).1
      have := hb _ x hj 0 (by omega)
      rw [Nat.add_zero] at this
      rw [this]
      simp only [Nat.add_sub_cancel, Nat.sub_zero]
      rw [Nat.testBit_two_pow_add_eq, Nat.testBit_lt_two_pow (by omega)]
      rfl
    rw [Shaped.unfold (by omega), hsp]
    refine ⟨?_, ?_, ?_, ?_⟩
    · conv => lhs; rw [← List.take_append_drop (2 ^ e) es]
      rw [List.filter_append, List.filter_eq_self.2 (by intro x hx; simp [hA x hx]),
        List.filter_eq_nil_iff.2 (by intro x hx; simp [hB x hx]), List.append_nil]
    · conv => lhs; rw [← List.take_append_drop (2 ^ e) es]
      rw [List.filter_append, List.filter_eq_nil_iff.2 (by intro x hx; simp [hA x hx]),
        List.filter_eq_self.2 (by intro x hx; simp [hB x hx]), List.nil_append]
    · refine ih fuel (d + 1) (es.take (2 ^ e)) (by omega) (by simp; omega) ?_
      intro j x hx b hbe
      rw [List.getElem?_take] at hx
      split at hx
      · have := hb j x hx (b + 1) (by omega)
        rw [show d + 1 + b = d + (b + 1) by omega, this]
        congr 1
        omega
      · cases hx
    · refine ih fuel (d + 1) (es.drop (2 ^ e)) (by omega) (by simp; omega) ?_
      intro j x hx b hbe
      rw [List.getElem?_drop] at hx
      have := hb _ x hx (b + 1) (by omega)
      rw [show d + 1 + b = d + (b + 1) by omega, this, show e + 1 - 1 - (b + 1) = e - 1 - b by omega]
      exact Nat.testBit_two_pow_add_gt (by omega) j

theorem Full_shaped {V : Type} {e : Nat} (he : e ≤ 256) {kv : Entries V} (h : Full e kv) : ListShaped kv :=
  full_shaped e 256 0 kv he h.1 (by simpa using h.2)

theorem shaped_map {V W : Type} (f : V → W) (fuel : Nat) : ∀ (d : Nat) (es : Entries V),
    Shaped fuel d es ↔ Shaped fuel d (es.map fun x => (x.1, f x.2)) := by
  induction fuel with
  | zero =>
    intro d es
    match es with
    | [] => simp [Shaped]
    | [x] => simp [Shaped]
    | _ :: _ :: _ => simp [Shaped]
  | succ fuel ih =>
    intro d es
    by_cases hl : 2 ≤ es.length
    · rw [Shaped.unfold hl, Shaped.unfold (by simpa using hl), List.length_map, ih (d + 1) (es.take _), ih (d + 1) (es.drop _),
        List.map_take, List.map_drop, List.filter_map, List.filter_map]
      constructor
      · rintro ⟨a, b, c⟩
        refine ⟨?_, ?_, c⟩
        · rw [← List.map_take, ← a]; rfl
        · rw [← List.map_drop, ← b]; rfl
      · rintro ⟨a, b, c⟩
        have hmem : ∀ x ∈ es.take (split es.length), keyBit x.1 d = false := by
          intro x hx
          have : (x.1, f x.2) ∈ (es.map fun x => (x.1, f x.2)).take (split es.length) := by
            rw [← List.map_take]; exact List.mem_map.2 ⟨x, hx, rfl⟩
          rw [← a] at this
          obtain ⟨y, hy, e⟩ := List.mem_map.1 this
          have h2 := (List.mem_filter.1 hy).2
          have e1 := (Prod.mk.inj e).1
          simp only [Function.comp] at h2
          rw [e1] at h2
          simpa using h2
        have hmem' : ∀ x ∈ es.drop (split es.length), keyBit x.1 d = true := by
          intro x hx
          have : (x.1, f x.2) ∈ (es.map fun x => (x.1, f x.2)).drop (split es.length) := by
            rw [← List.map_drop]; exact List.mem_map.2 ⟨x, hx, rfl⟩
          rw [← b] at this
          obtain ⟨y, hy, e⟩ := List.mem_map.1 this
          have h2 := (List.mem_filter.1 hy).2
          have e1 := (Prod.mk.inj e).1
          simp only [Function.comp] at h2
          rw [e1] at h2
          simpa using h2
        refine ⟨?_, ?_, c⟩
        · conv => lhs; rw [← List.take_append_drop (split es.length) es]
          rw [List.filter_append, List.filter_eq_self.2 (by intro x hx; simp [hmem x hx]),
            List.filter_eq_nil_iff.2 (by intro x hx; simp [hmem' x hx]), List.append_nil]
        · conv => lhs; rw [← List.take_append_drop (split es.length) es]
          rw [List.filter_append, List.filter_eq_nil_iff.2 (by intro x hx; simp [hmem x hx]),
            List.filter_eq_self.2 (by intro x hx; simp [hmem' x hx]), List.nil_append]
    · match es, hl with
      | [], _ => simp [Shaped]
      | [x], _ => simp [Shaped]
      | _ :: _ :: _, hl => simp at hl

theorem texts_digests (H : HashFn) (kv : Entries Bytes) : texts (digests H kv) = kv.map (leafText H) := by
  simp [texts, digests, leafText]

/-- The root of a sparse tree shaped like a plain one is the root of the plain one. -/
theorem rootOf_shaped (H : HashFn) {kv : Entries Bytes} (h : ListShaped kv) :
    Sparse.rootOf H kv = mth H (kv.map (leafText H)) := by
  unfold Sparse.rootOf smtRoot
  rw [← texts_digests]
  exact smt_shaped H 256 0 _ ((shaped_map H 256 0 kv).1 h)

/-! ### C67: coincidences -/

/-- A sum tree with one leaf has the digest of the plain binary tree whose only leaf is the
eight fee bytes followed by the data. -/
theorem C67_sum_leaf_is_binary_leaf (p p' : Profile) (H : HashFn) (s : Sum.SStore E) (hs : s.Reliable)
    (s' : Binary.BStore E) (hs' : s'.Reliable) (fee : Nat) (hf : fee < 2 ^ 64) (d : Bytes) :
    ∃ t t' root, Sum.pushAll p H [(fee, d)] (Sum.Tree.new s) = (.ok (), t) ∧
      (Sum.root p H t).1 = .ok (fee, root) ∧
      Binary.pushAll p' H [itemText (fee, d)] (Binary.Tree.new s') = (.ok (), t') ∧
      t'.root p' H = .ok root := by
  obtain ⟨t, h1, h2⟩ := C45_sum_root p H s hs [(fee, d)] (by simp) (by simp) (by simpa [total] using hf)
  obtain ⟨t', h1', h2'⟩ := C01_binary_root p' H s' hs' [itemText (fee, d)] (by simp) (by simp)
  refine ⟨t, t', _, h1, by simpa [total] using h2, h1', ?_⟩
  rw [h2']
  simp [sumHash, mth, itemText]

/-- A sparse tree whose keys divide the sorted list of entries as RFC 6962 divides a list has the
root of the plain binary tree whose leaves are key and value digest, in key order. -/
theorem C67_shaped_sparse_is_binary (p p' : Profile) (H : HashFn) (ops : List Sparse.Op) (hi : Sparse.IdealFor H ops)
    (hc : Sparse.Clean ops) (kv : Entries Bytes) (hkv : (Sparse.mapOf ops).Perm kv) (hsh : ListShaped kv)
    (hl : kv.length ≤ 2 ^ 63)
    (s : Sparse.SpStore E) (hemp : ∀ k, s.map k = none) (hs : s.Reliable) (s' : Binary.BStore E) (hs' : s'.Reliable) :
    ∃ t t' root, Sparse.runAll p H ops (Sparse.Tree.new s) = (.ok (), t) ∧ t.root H = root ∧
      Binary.pushAll p' H (kv.map (leafText H)) (Binary.Tree.new s') = (.ok (), t') ∧
      t'.root p' H = .ok root := by
  obtain ⟨t, h1, h2⟩ := C28_root_canonical p H ops hi hc s hemp hs
  have h0 : kv ≠ [] := by rintro rfl; exact hsh
  obtain ⟨t', h1', h2'⟩ := C01_binary_root p' H s' hs' (kv.map (leafText H)) (by simpa using hl) (by simpa using h0)
  refine ⟨t, t', _, h1, rfl, h1', ?_⟩
  have hn := Sparse.mapOf_nodup ops
  have hn' : (Sparse.keysOf kv).Nodup := (hkv.map Prod.fst).nodup_iff.1 hn
  rw [h2, h2', Sparse.rootOf_congr hn hn' (fun x => hkv.mem_iff), rootOf_shaped H hsh]

/-- Instances: one entry for every value of the first `e` key bits. With `e = 0` this is every
tree with one entry, with `e = 1` every tree with two entries whose keys start with different
bits. -/
theorem C67_full_is_shaped (e : Nat) (he : e ≤ 256) (kv : Entries Bytes) (h : Full e kv) : ListShaped kv := Full_shaped he h

/-! ### C67: and no others -/

theorem sumTop {H : HashFn} {D : List Item} (h : 2 ≤ D.length) :
    ∃ (f : Nat) (l : Bytes32) (g : Nat) (r : Bytes32),
      sumHash H D = H ([0x01] ++ be64 f ++ l.val ++ be64 g ++ r.val) ∧
      [0x01] ++ be64 f ++ l.val ++ be64 g ++ r.val ∈ sumMsgs H D := by
  match D, h with
  | x :: y :: ds, _ =>
    rw [sumHash, sumMsgs]
    exact ⟨_, _, _, _, rfl, by simp⟩

theorem mthTop {H : HashFn} {D : List Bytes} (h : 2 ≤ D.length) :
    ∃ l r : Bytes32, mth H D = H ([0x01] ++ l.val ++ r.val) ∧ [0x01] ++ l.val ++ r.val ∈ mthMsgs H D := by
  match D, h with
  | x :: y :: ds, _ =>
    rw [mth, mthMsgs]
    exact ⟨_, _, rfl, by simp⟩

theorem smtTop {H : HashFn} {es : Entries Bytes32} (h : 2 ≤ es.length) :
    ∃ l r : Bytes32, smtRoot H es = H ([0x01] ++ l.val ++ r.val) ∧ [0x01] ++ l.val ++ r.val ∈ smtMsgs H es := by
  match es, h with
  | x :: y :: ds, _ => exact ⟨_, _, rfl, by simp [smtMsgs, smtMsgsFrom, smtNodeMsg]⟩

theorem long_ne_short {a c : Nat} {l r l' r' : Bytes32} :
    [0x01] ++ be64 a ++ l.val ++ be64 c ++ r.val ≠ [0x01] ++ l'.val ++ r'.val := by
  intro h
  have := congrArg List.length h
  simp only [List.length_append, List.length_singleton, be64_length, l.property, r.property, l'.property, r'.property] at this
  omega

/-- A sum digest equals a plain binary root only if both trees are empty, or both have one leaf
with the same bytes; otherwise two hashed messages collide. -/
theorem C67_sum_binary (H : HashFn) (D : List Item) (ds : List Bytes) (h : sumHash H D = mth H ds) :
    (D = [] ∧ ds = []) ∨ (∃ x, D = [x] ∧ ds = [itemText x]) ∨ Collide H (sumMsgs H D) (mthMsgs H ds) := by
  match D, ds with
  | [], [] => exact .inl ⟨rfl, rfl⟩
  | [], [d] =>
    right; right
    rw [sumHash, mth] at h
    exact ⟨_, by rw [sumMsgs]; simp, _, by rw [mthMsgs]; simp, by simp, h⟩
  | [], d :: d' :: ds =>
    right; right
    obtain ⟨l, r, e, hm⟩ := mthTop (H := H) (D := d :: d' :: ds) (by simp)
    rw [sumHash, e] at h
    exact ⟨[], by rw [sumMsgs]; simp, _, hm, by simp, h⟩
  | [x], [] =>
    right; right
    rw [sumHash, mth] at h
    exact ⟨_, by rw [sumMsgs]; simp, _, by rw [mthMsgs]; simp, by simp, h⟩
  | [x], [d] =>
    right
    by_cases hd : d = itemText x
    · exact .inl ⟨x, rfl, by rw [hd]⟩
    · right
      rw [sumHash, mth] at h
      refine ⟨_, by rw [sumMsgs]; exact List.mem_singleton.2 rfl, _, by rw [mthMsgs]; exact List.mem_singleton.2 rfl, ?_, h⟩
      intro e
      exact hd (by simpa [itemText] using e.symm)
  | [x], d :: d' :: ds =>
    right; right
    obtain ⟨l, r, e, hm⟩ := mthTop (H := H) (D := d :: d' :: ds) (by simp)
    rw [sumHash, e] at h
    exact ⟨_, by rw [sumMsgs]; exact List.mem_singleton.2 rfl, _, hm, by simp, h⟩
  | x :: y :: D, [] =>
    right; right
    obtain ⟨f, l, g, r, e, hm⟩ := sumTop (H := H) (D := x :: y :: D) (by simp)
    rw [mth, e] at h
    exact ⟨_, hm, [], by rw [mthMsgs]; simp, by simp, h⟩
  | x :: y :: D, [d] =>
    right; right
    obtain ⟨f, l, g, r, e, hm⟩ := sumTop (H := H) (D := x :: y :: D) (by simp)
    rw [mth, e] at h
    exact ⟨_, hm, _, by rw [mthMsgs]; exact List.mem_singleton.2 rfl, by simp, h⟩
  | x :: y :: D, d :: d' :: ds =>
    right; right
    obtain ⟨f, l, g, r, e, hm⟩ := sumTop (H := H) (D := x :: y :: D) (by simp)
    obtain ⟨l', r', e', hm'⟩ := mthTop (H := H) (D := d :: d' :: ds) (by simp)
    rw [e, e'] at h
    exact ⟨_, hm, _, hm', long_ne_short, h⟩

/-- The same for the roots returned by a sum tree and a binary tree. -/
theorem C67_sum_binary_trees (p p' : Profile) (s : Sum.SStore E) (hs : s.Reliable) (s' : Binary.BStore E) (hs' : s'.Reliable)
    (D : List Item) (ds : List Bytes) (hn : D.length < 2 ^ 64) (ht : total D < 2 ^ 64) (hn' : ds.length ≤ 2 ^ 63)
    (fee : Nat) (root : Bytes32)
    (h : ((Sum.pushAll p Sha256.sha256 D >>= fun _ => Sum.root p Sha256.sha256) (Sum.Tree.new s)).1 = .ok (fee, root))
    (t' : Binary.Tree E) (h1 : Binary.pushAll p' Sha256.sha256 ds (Binary.Tree.new s') = (.ok (), t'))
    (h2 : t'.root p' Sha256.sha256 = .ok root) :
    (D = [] ∧ ds = []) ∨ (∃ x, D = [x] ∧ ds = [itemText x]) ∨
      Collide Sha256.sha256 (sumMsgs Sha256.sha256 D) (mthMsgs Sha256.sha256 ds) := by
  obtain ⟨t, k1, k2⟩ := C45_sum_root_sha256 p s hs D hn ht
  obtain ⟨t'', k1', k2'⟩ := C01_binary_root_sha256 p' s' hs' ds hn'
  rw [k1'] at h1
  obtain ⟨_, rfl⟩ := Prod.mk.inj h1
  rw [Exec.bind_ok k1, k2] at h
  rw [k2'] at h2
  have e1 := (Prod.mk.inj (Except.ok.inj h)).2
  have e2 := Except.ok.inj h2
  exact C67_sum_binary _ D ds (e1.trans e2.symm)

/-- A sum digest equals the root of a nonempty sparse tree only if the sum tree has one leaf, the
sparse tree one entry, and the bytes agree; otherwise two hashed messages collide. -/
theorem C67_sum_sparse (H : HashFn) (D : List Item) (kv : Entries Bytes) (h0 : kv ≠ [])
    (h : sumHash H D = Sparse.rootOf H kv) :
    (∃ x y, D = [x] ∧ kv = [y] ∧ itemText x = leafText H y) ∨ Collide H (sumMsgs H D) (Sparse.msgsOf H kv) := by
  unfold Sparse.rootOf at h
  unfold Sparse.msgsOf
  match D, kv, h0 with
  | [], [y], _ =>
    right
    rw [sumHash] at h
    exact ⟨[], by rw [sumMsgs]; simp, _, List.mem_singleton.2 rfl, by simp [smtLeafMsg], h⟩
  | [x], [y], _ =>
    by_cases hd : itemText x = leafText H y
    · exact .inl ⟨x, y, rfl, rfl, hd⟩
    · right
      rw [sumHash] at h
      refine ⟨_, by rw [sumMsgs]; exact List.mem_singleton.2 rfl, _, List.mem_singleton.2 rfl, ?_, h⟩
      intro e
      exact hd (by simpa [itemText, leafText, smtLeafMsg] using e)
  | x :: y :: D, [z], _ =>
    right
    obtain ⟨f, l, g, r, e, hm⟩ := sumTop (H := H) (D := x :: y :: D) (by simp)
    rw [e] at h
    exact ⟨_, hm, _, List.mem_singleton.2 rfl, by simp [smtLeafMsg], h⟩
  | [], y :: z :: kv, _ =>
    right
    obtain ⟨l, r, e, hm⟩ := smtTop (H := H) (es := digests H (y :: z :: kv)) (by simp [digests])
    rw [sumHash, e] at h
    exact ⟨[], by rw [sumMsgs]; simp, _, hm, by simp, h⟩
  | [x], y :: z :: kv, _ =>
    right
    obtain ⟨l, r, e, hm⟩ := smtTop (H := H) (es := digests H (y :: z :: kv)) (by simp [digests])
    rw [sumHash, e] at h
    exact ⟨_, by rw [sumMsgs]; exact List.mem_singleton.2 rfl, _, hm, by simp, h⟩
  | x :: x' :: D, y :: z :: kv, _ =>
    right
    obtain ⟨f, l, g, r, e, hm⟩ := sumTop (H := H) (D := x :: x' :: D) (by simp)
    obtain ⟨l', r', e', hm'⟩ := smtTop (H := H) (es := digests H (y :: z :: kv)) (by simp [digests])
    rw [e, e'] at h
    exact ⟨_, hm, _, hm', long_ne_short, h⟩

/-! #### Sparse and plain trees -/

theorem mth_is_hash (H : HashFn) (ds : List Bytes) : ∃ m ∈ mthMsgs H ds, mth H ds = H m := by
  match ds with
  | [] => exact ⟨[], by rw [mthMsgs]; simp, by rw [mth]⟩
  | [d] => exact ⟨_, by rw [mthMsgs]; exact List.mem_singleton.2 rfl, by rw [mth]⟩
  | d :: d' :: ds =>
    obtain ⟨l, r, e, hm⟩ := mthTop (H := H) (D := d :: d' :: ds) (by simp)
    exact ⟨_, hm, e⟩

theorem smt_binary (H : HashFn) (fuel : Nat) : ∀ (d : Nat) (es : Entries Bytes32) (ds : List Bytes), es ≠ [] →
    smt H fuel d es = mth H ds →
    (∃ es', es'.Perm es ∧ Shaped fuel d es' ∧ ds = texts es') ∨ Collide H (smtMsgsFrom H fuel d es) (mthMsgs H ds) ∨
      ∃ m ∈ mthMsgs H ds, H m = zero32 := by
  have single : ∀ (fuel d : Nat) (x : Bytes32 × Bytes32) (ds : List Bytes), smt H fuel d [x] = mth H ds →
      (∃ es', es'.Perm [x] ∧ Shaped fuel d es' ∧ ds = texts es') ∨ Collide H (smtMsgsFrom H fuel d [x]) (mthMsgs H ds) ∨
      ∃ m ∈ mthMsgs H ds, H m = zero32 := by
    intro fuel d x ds h
    rw [smt_single] at h
    rw [smtMsgs_single]
    match ds with
    | [] =>
      rw [mth] at h
      exact .inr (.inl ⟨_, List.mem_singleton.2 rfl, [], by rw [mthMsgs]; simp, by simp, h⟩)
    | [y] =>
      by_cases e : y = x.1.val ++ x.2.val
      · exact .inl ⟨[x], .refl _, by cases fuel <;> trivial, by simp [texts, e]⟩
      · rw [mth] at h
        refine .inr (.inl ⟨_, List.mem_singleton.2 rfl, _, by rw [mthMsgs]; exact List.mem_singleton.2 rfl, ?_, h⟩)
        intro e'
        exact e (List.append_cancel_left e').symm
    | y :: y' :: ds =>
      obtain ⟨l, r, e, hm⟩ := mthTop (H := H) (D := y :: y' :: ds) (by simp)
      rw [e] at h
      exact .inr (.inl ⟨_, List.mem_singleton.2 rfl, _, hm, by simp, h⟩)
  induction fuel with
  | zero =>
    intro d es ds h0 h
    match es, h0 with
    | [x], _ => exact single 0 d x ds h
    | _ :: _ :: _, _ =>
      obtain ⟨m, hm, e⟩ := mth_is_hash H ds
      exact .inr (.inr ⟨m, hm, by rw [← e, ← h]; rfl⟩)
  | succ fuel ih =>
    intro d es ds h0 h
    by_cases hl : 2 ≤ es.length
    swap
    · match es, h0, hl with
      | [x], _, _ => exact single _ d x ds h
      | _ :: _ :: _, _, hl => simp at hl
    rw [smt_unfold H hl] at h
    rw [smtMsgs_unfold H hl]
    generalize hA : (es.filter fun x => !keyBit x.1 d) = A at h ⊢
    generalize hB : (es.filter fun x => keyBit x.1 d) = B at h ⊢
    have hperm : (A ++ B).Perm es := by
      rw [← hA, ← hB]
      have := List.filter_append_perm (fun x : Bytes32 × Bytes32 => !keyBit x.1 d) es
      simpa using this
    by_cases hl2 : 2 ≤ ds.length
    swap
    · right; left
      match ds, hl2 with
      | [], _ =>
        rw [mth] at h
        exact ⟨_, List.mem_cons_self, [], by rw [mthMsgs]; simp, by simp [smtNodeMsg], h⟩
      | [y], _ =>
        rw [mth] at h
        exact ⟨_, List.mem_cons_self, _, by rw [mthMsgs]; exact List.mem_singleton.2 rfl, by simp [smtNodeMsg], h⟩
      | _ :: _ :: _, hl2 => simp at hl2
    rw [mth_split H (by omega)] at h
    rw [mthMsgs_split H (by omega)]
    generalize hk : split ds.length = k at h ⊢
    by_cases hmsg : smtNodeMsg (smt H fuel (d + 1) A) (smt H fuel (d + 1) B) =
        [0x01] ++ (mth H (ds.take k)).val ++ (mth H (ds.drop k)).val
    swap
    · exact .inr (.inl ⟨_, List.mem_cons_self, _, List.mem_cons_self, hmsg, h⟩)
    have hh : smt H fuel (d + 1) A = mth H (ds.take k) ∧ smt H fuel (d + 1) B = mth H (ds.drop k) := by
      rw [smtNodeMsg, List.append_assoc, List.append_assoc] at hmsg
      exact Bytes32.append_inj (List.append_cancel_left hmsg)
    have zeroA : A = [] → ∃ m ∈ mthMsgs H (ds.take k), H m = zero32 := by
      rintro rfl
      obtain ⟨m, hm, e⟩ := mth_is_hash H (ds.take k)
      refine ⟨m, hm, ?_⟩
      rw [← e, ← hh.1]; cases fuel <;> rfl
    have zeroB : B = [] → ∃ m ∈ mthMsgs H (ds.drop k), H m = zero32 := by
      rintro rfl
      obtain ⟨m, hm, e⟩ := mth_is_hash H (ds.drop k)
      refine ⟨m, hm, ?_⟩
      rw [← e, ← hh.2]; cases fuel <;> rfl
    by_cases a0 : A = []
    · obtain ⟨m, hm, e⟩ := zeroA a0
      exact .inr (.inr ⟨m, by simp [hm], e⟩)
    by_cases b0 : B = []
    · obtain ⟨m, hm, e⟩ := zeroB b0
      exact .inr (.inr ⟨m, by simp [hm], e⟩)
    rcases ih (d + 1) A _ a0 hh.1 with ⟨A', pA, sA, tA⟩ | ⟨m, hm, m', hm', hc⟩ | ⟨m, hm, e⟩
    rotate_left
    · exact .inr (.inl ⟨m, by simp [hm], m', by simp [hm'], hc⟩)
    · exact .inr (.inr ⟨m, by simp [hm], e⟩)
    rcases ih (d + 1) B _ b0 hh.2 with ⟨B', pB, sB, tB⟩ | ⟨m, hm, m', hm', hc⟩ | ⟨m, hm, e⟩
    rotate_left
    · exact .inr (.inl ⟨m, by simp [hm], m', by simp [hm'], hc⟩)
    · exact .inr (.inr ⟨m, by simp [hm], e⟩)
    left
    have hds : ds = texts (A' ++ B') := by
      rw [← List.take_append_drop k ds, tA, tB, texts, texts, texts, List.map_append]
    have hlen : ds.length = (A' ++ B').length := by rw [hds, texts_length]
    have hkA : k = A'.length := by
      have h1 := congrArg List.length tA
      rw [texts_length, List.length_take] at h1
      have h2 := split_spec (n := ds.length) (by omega)
      rw [hk] at h2
      obtain ⟨_, h3, _⟩ := h2
      omega
    refine ⟨A' ++ B', (pA.append pB).trans hperm, ?_, hds⟩
    have hA0 : ∀ x ∈ A', keyBit x.1 d = false := by
      intro x hx
      have := pA.mem_iff.1 hx
      rw [← hA] at this
      simpa using (List.mem_filter.1 this).2
    have hB1 : ∀ x ∈ B', keyBit x.1 d = true := by
      intro x hx
      have := pB.mem_iff.1 hx
      rw [← hB] at this
      exact (List.mem_filter.1 this).2
    rw [Shaped.unfold (by omega), ← hlen, hk, hkA, List.take_left, List.drop_left]
    refine ⟨?_, ?_, sA, sB⟩
    · rw [List.filter_append, List.filter_eq_self.2 (by intro x hx; simp [hA0 x hx]),
        List.filter_eq_nil_iff.2 (by intro x hx; simp [hB1 x hx]), List.append_nil]
    · rw [List.filter_append, List.filter_eq_nil_iff.2 (by intro x hx; simp [hA0 x hx]),
        List.filter_eq_self.2 (by intro x hx; simp [hB1 x hx]), List.nil_append]

theorem perm_map_inv {α β : Type} (f : α → β) : ∀ (l : List α) (m : List β), m.Perm (l.map f) → ∃ l' : List α, l'.Perm l ∧ m = l'.map f := by
  intro l m h
  have : ∀ {a b : List β}, a.Perm b → ∀ l, a = List.map f l → ∃ l' : List α, l'.Perm l ∧ b = l'.map f := by
    intro a b hp
    induction hp with
    | nil => intro l e; exact ⟨l, .refl _, e⟩
    | cons x _ ih =>
      intro l e
      match l, e with
      | y :: l, e =>
        rw [List.map_cons] at e
        obtain ⟨rfl, e2⟩ := List.cons.inj e
        obtain ⟨l', p, rfl⟩ := ih l e2
        exact ⟨y :: l', p.cons y, rfl⟩
    | swap x y l0 =>
      intro l e
      match l, e with
      | a :: b :: l, e =>
        simp only [List.map_cons] at e
        obtain ⟨rfl, e2⟩ := List.cons.inj e
        obtain ⟨rfl, rfl⟩ := List.cons.inj e2
        exact ⟨b :: a :: l, .swap _ _ _, rfl⟩
    | trans _ _ ih1 ih2 =>
      intro l e
      obtain ⟨l', p, rfl⟩ := ih1 l e
      obtain ⟨l'', p', e'⟩ := ih2 l' rfl
      exact ⟨l'', p'.trans p, e'⟩
  obtain ⟨l', p, e⟩ := this h.symm l rfl
  exact ⟨l', p, e⟩

/-- The root of a nonempty sparse tree equals a plain binary root only if the entries, in key
order, are divided by their key bits as RFC 6962 divides the list, and the leaves are those
entries; otherwise two hashed messages collide, or one hashed for the binary tree hashes to
zero. -/
theorem C67_sparse_binary (H : HashFn) (kv : Entries Bytes) (h0 : kv ≠ []) (ds : List Bytes)
    (h : Sparse.rootOf H kv = mth H ds) :
    (∃ kv', kv'.Perm kv ∧ ListShaped kv' ∧ ds = kv'.map (leafText H)) ∨
      Collide H (Sparse.msgsOf H kv) (mthMsgs H ds) ∨ ∃ m ∈ mthMsgs H ds, H m = zero32 := by
  rcases smt_binary H 256 0 (digests H kv) ds (by simpa [digests] using h0) h with ⟨es, hp, hs, e⟩ | hc | hz
  · left
    obtain ⟨kv', hp', rfl⟩ := perm_map_inv _ kv es hp
    exact ⟨kv', hp', (shaped_map H 256 0 kv').2 hs, by rw [e]; exact texts_digests H kv'⟩
  · exact .inr (.inl hc)
  · exact .inr (.inr hz)

/-! #### The hypotheses are met -/

/-- Two keys that start with different bits. -/
example : Sparse.IdealFor Sha256.sha256 orderOps ∧ Sparse.Clean orderOps ∧
    (Sparse.mapOf orderOps).Perm [(keyA, [3]), (keyB, [2])] ∧ ListShaped [(keyA, ([3] : Bytes)), (keyB, [2])] := by
  refine ⟨⟨⟨by decide +kernel, by decide +kernel, by decide +kernel⟩, noPhantom_of_keys (by decide +kernel)⟩,
    .of_updates (by decide +kernel), by decide +kernel, ?_⟩
  apply C67_full_is_shaped 1 (by decide)
  refine ⟨rfl, ?_⟩
  intro j x hx b hb
  obtain rfl : b = 0 := by omega
  match j, hx with
  | 0, hx => obtain rfl := Option.some.inj hx; decide +kernel
  | 1, hx => obtain rfl := Option.some.inj hx; decide +kernel

/-- Equal roots of different kinds. -/
example : sumHash Sha256.sha256 [(7, [1, 2])] = mth Sha256.sha256 [itemText (7, [1, 2])] ∧
    Sparse.rootOf Sha256.sha256 [(keyA, [3])] = mth Sha256.sha256 [leafText Sha256.sha256 (keyA, [3])] :=
  ⟨by simp [sumHash, mth, itemText], rootOf_shaped _ trivial⟩

end FuelMerkle.Props
