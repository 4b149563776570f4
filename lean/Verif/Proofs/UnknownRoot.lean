import Verif.Proofs.ProofSize

/-
Climbs to one root of which nothing is known: no tree with that root is assumed.
-/
namespace FuelMerkle
open Spec

theorem stepMsg_inj {s s' x x' : Bytes32} {b : Bool} (h : stepMsg s b x = stepMsg s' b x') : s = s' ∧ x = x' := by
  cases b
  · have := stepMsg_eq_both (a := s') (b := x') (onLeft := false) h
    simpa using this
  · have := stepMsg_eq_both (a := x') (b := s') (onLeft := true) h
    simpa using this

/-- Two climbs on the same sides that end in the same value are the same, or collide. -/
theorem climb_inj (H : HashFn) : ∀ (sides : List Bool) (x y : Bytes32) (r r' : List Bytes32),
    r.length = sides.length → r'.length = sides.length →
    climb H x (sides.zip r) = climb H y (sides.zip r') →
    (x = y ∧ r = r') ∨ Collide H (climbMsgs H x (sides.zip r)) (climbMsgs H y (sides.zip r')) := by
  intro sides
  induction sides with
  | nil =>
    intro x y r r' h h' he
    rw [List.eq_nil_of_length_eq_zero h, List.eq_nil_of_length_eq_zero h'] at *
    exact .inl ⟨he, rfl⟩
  | cons b sides ih =>
    intro x y r r' h h' he
    match r, r', h, h' with
    | a :: r, a' :: r', h, h' =>
      simp only [List.zip_cons_cons, climb, climbMsgs] at he ⊢
      rcases ih _ _ r r' (by simpa using h) (by simpa using h') he with ⟨h1, h2⟩ | hc
      · by_cases hm : stepMsg x b a = stepMsg y b a'
        · obtain ⟨h3, h4⟩ := stepMsg_inj hm
          exact .inl ⟨h3, by rw [h4, h2]⟩
        · exact .inr ⟨_, List.mem_cons_self, _, List.mem_cons_self, hm, h1⟩
      · exact .inr (collide_mono hc (fun _ h => List.mem_cons_of_mem _ h) (fun _ h => List.mem_cons_of_mem _ h))

/-- If from every leaf of a list a climb along directions that lead to this leaf ends in one and the
same value, it is the root of the list, or two of the climbs collide. -/
theorem climb_all (H : HashFn) (root : Bytes32) : ∀ (n : Nat) (D : List Bytes) (l : Nat → List (Bool × Bytes32)),
    D.length = n → D ≠ [] →
    (∀ i d, D[i]? = some d → leafAt ((l i).map Prod.fst) D.length = some i ∧ climb H (H ([0x00] ++ d)) (l i).reverse = root) →
    root = mth H D ∨ ∃ i j d e, D[i]? = some d ∧ D[j]? = some e ∧
      Collide H (climbMsgs H (H ([0x00] ++ d)) (l i).reverse) (climbMsgs H (H ([0x00] ++ e)) (l j).reverse) := by
  intro n
  induction n using Nat.strongRecOn generalizing root with
  | _ n ih =>
  intro D l hn h0 hall
  by_cases h1 : D.length = 1
  · match D, h1 with
    | [d], _ =>
      obtain ⟨ha, hb⟩ := hall 0 d rfl
      have : l 0 = [] := by
        cases hl : l 0 with
        | nil => rfl
        | cons a t => rw [hl, List.map_cons, leafAt, if_pos (by simp)] at ha; cases ha
      rw [this] at hb
      exact .inl (by rw [mth]; exact hb.symm)
  · have hlen : 1 < D.length := by
      have := List.length_pos_iff.2 h0
      omega
    have hsp := split_spec hlen
    -- every path has a top step
    have top : ∀ i d, D[i]? = some d → ∃ b x t, l i = (b, x) :: t ∧
        root = H (stepMsg (climb H (H ([0x00] ++ d)) t.reverse) b x) ∧
        stepMsg (climb H (H ([0x00] ++ d)) t.reverse) b x ∈ climbMsgs H (H ([0x00] ++ d)) (l i).reverse ∧
        (∀ m ∈ climbMsgs H (H ([0x00] ++ d)) t.reverse, m ∈ climbMsgs H (H ([0x00] ++ d)) (l i).reverse) ∧
        (i < split D.length → b = false ∧ leafAt (t.map Prod.fst) (split D.length) = some i) ∧
        (split D.length ≤ i → b = true ∧ leafAt (t.map Prod.fst) (D.length - split D.length) = some (i - split D.length)) := by
      intro i d hi
      obtain ⟨ha, hb⟩ := hall i d hi
      cases hl : l i with
      | nil => rw [hl, List.map_nil, leafAt, if_neg h1] at ha; cases ha
      | cons a t =>
        obtain ⟨b, x⟩ := a
        rw [hl, List.map_cons, leafAt, if_neg (by omega)] at ha
        rw [hl, List.reverse_cons, climb_append] at hb
        refine ⟨b, x, t, rfl, hb.symm, ?_, ?_, ?_⟩
        · rw [List.reverse_cons, climbMsgs_append]; simp [climbMsgs]
        · intro m hm
          rw [List.reverse_cons, climbMsgs_append]; exact List.mem_append_left _ hm
        · cases b
          · simp only [Bool.false_eq_true, if_false] at ha
            have := (leafAt_length ha).1
            exact ⟨fun _ => ⟨rfl, ha⟩, fun h => by omega⟩
          · simp only [if_true] at ha
            obtain ⟨j, hj, rfl⟩ := Option.map_eq_some_iff.1 ha
            exact ⟨fun h => by omega, fun _ => ⟨rfl, by rw [Nat.add_sub_cancel]; exact hj⟩⟩
    by_cases hc : ∃ i j d e, D[i]? = some d ∧ D[j]? = some e ∧
      Collide H (climbMsgs H (H ([0x00] ++ d)) (l i).reverse) (climbMsgs H (H ([0x00] ++ e)) (l j).reverse)
    · exact .inr hc
    refine .inl ?_
    obtain ⟨d0, hd0⟩ : ∃ d, D[0]? = some d := ⟨D[0], List.getElem?_eq_getElem (by omega)⟩
    obtain ⟨b0, x0, t0, _, hr0, hm0, _, hs0, _⟩ := top 0 d0 hd0
    obtain ⟨rfl, _⟩ := hs0 (by omega)
    have same : ∀ i d b x (t : List (Bool × Bytes32)), D[i]? = some d → root = H (stepMsg (climb H (H ([0x00] ++ d)) t.reverse) b x) →
        stepMsg (climb H (H ([0x00] ++ d)) t.reverse) b x ∈ climbMsgs H (H ([0x00] ++ d)) (l i).reverse →
        stepMsg (climb H (H ([0x00] ++ d)) t.reverse) b x =
          [0x01] ++ (climb H (H ([0x00] ++ d0)) t0.reverse).val ++ x0.val := by
      intro i d b x t hi hr hm
      by_cases he : stepMsg (climb H (H ([0x00] ++ d)) t.reverse) b x = stepMsg (climb H (H ([0x00] ++ d0)) t0.reverse) false x0
      · exact he
      · exact absurd ⟨i, 0, d, d0, hi, hd0, _, hm, _, hm0, he, by rw [← hr, ← hr0]⟩ hc
    have hlt : (D.take (split D.length)).length = split D.length := by rw [List.length_take]; omega
    have hld : (D.drop (split D.length)).length = D.length - split D.length := by rw [List.length_drop]
    have left : climb H (H ([0x00] ++ d0)) t0.reverse = mth H (D.take (split D.length)) := by
      have key : ∀ i d, (D.take (split D.length))[i]? = some d → leafAt (((l i).tail).map Prod.fst) (D.take (split D.length)).length = some i ∧
          climb H (H ([0x00] ++ d)) ((l i).tail).reverse = climb H (H ([0x00] ++ d0)) t0.reverse := by
        intro i d hi
        rw [List.getElem?_take] at hi
        split at hi
        · next hik =>
          obtain ⟨b, x, t, ht, hr, hm, _, hs, _⟩ := top i d hi
          obtain ⟨rfl, hleaf⟩ := hs hik
          have := stepMsg_eq_both (same i d false x t hi hr hm)
          simp only [Bool.false_eq_true, if_false] at this
          simp only [ht, List.tail_cons, hlt]
          exact ⟨hleaf, this.1⟩
        · cases hi
      rcases ih (split D.length) (by omega) (climb H (H ([0x00] ++ d0)) t0.reverse) (D.take (split D.length)) (fun i => (l i).tail) hlt
        (by intro h; rw [h, List.length_nil] at hlt; omega) key with h | ⟨i, j, d, e, hi, hj, hcol⟩
      · exact h
      · refine absurd ?_ hc
        have hi' : D[i]? = some d := by
          rw [List.getElem?_take] at hi; split at hi
          · exact hi
          · cases hi
        have hj' : D[j]? = some e := by
          rw [List.getElem?_take] at hj; split at hj
          · exact hj
          · cases hj
        obtain ⟨_, _, t, ht, _, _, q, _⟩ := top i d hi'
        obtain ⟨_, _, t', ht', _, _, q', _⟩ := top j e hj'
        refine ⟨i, j, d, e, hi', hj', collide_mono hcol ?_ ?_⟩
        · intro m hm; rw [ht, List.tail_cons] at hm; exact q m hm
        · intro m hm; rw [ht', List.tail_cons] at hm; exact q' m hm
    have right : x0 = mth H (D.drop (split D.length)) := by
      have key : ∀ i d, (D.drop (split D.length))[i]? = some d → leafAt (((l (i + split D.length)).tail).map Prod.fst) (D.drop (split D.length)).length = some i ∧
          climb H (H ([0x00] ++ d)) ((l (i + split D.length)).tail).reverse = x0 := by
        intro i d hi
        rw [List.getElem?_drop, Nat.add_comm] at hi
        obtain ⟨b, x, t, ht, hr, hm, _, _, hs⟩ := top _ d hi
        obtain ⟨rfl, hleaf⟩ := hs (by omega)
        have := stepMsg_eq_both (same _ d true x t hi hr hm)
        simp only [if_true] at this
        simp only [ht, List.tail_cons, hld]
        rw [Nat.add_sub_cancel] at hleaf
        exact ⟨hleaf, this.1⟩
      rcases ih (D.length - split D.length) (by omega) x0 (D.drop (split D.length)) (fun i => (l (i + split D.length)).tail) hld
        (by intro h; rw [h, List.length_nil] at hld; omega) key with h | ⟨i, j, d, e, hi, hj, hcol⟩
      · exact h
      · refine absurd ?_ hc
        rw [List.getElem?_drop, Nat.add_comm] at hi hj
        obtain ⟨_, _, t, ht, _, _, q, _⟩ := top _ d hi
        obtain ⟨_, _, t', ht', _, _, q', _⟩ := top _ e hj
        refine ⟨_, _, d, e, hi, hj, collide_mono hcol ?_ ?_⟩
        · intro m hm; rw [ht, List.tail_cons] at hm; exact q m hm
        · intro m hm; rw [ht', List.tail_cons] at hm; exact q' m hm
    rw [mth_split H hlen, ← left, ← right, hr0]
    rfl

end FuelMerkle
