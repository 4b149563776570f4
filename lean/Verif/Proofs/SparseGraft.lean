import Verif.Proofs.SparseInner
import Verif.Spec.SparseGraft

/-
Updates that fork a leaf in a tree opened at an inner node.
-/
namespace FuelMerkle
namespace Sparse
open Spec T
variable {E : Type} {H : HashFn} {M : Bytes → Prop} {U : Bytes32 → Prop}

/-- The tree such an update builds. -/
def graft (k v : Bytes32) (d : Nat) : Nat → T → T
  | j, .node l r => if keyBit k (j + d) then nodeOn (keyBit k j) (graft k v d (j + 1) r) l
      else nodeOn (keyBit k j) (graft k v d (j + 1) l) r
  | j, t => ins k v j t

theorem graft_node (k v : Bytes32) (d j : Nat) (l r : T) :
    graft k v d j (node l r) = nodeOn (keyBit k j) (graft k v d (j + 1) (if keyBit k (j + d) then r else l))
      (if keyBit k (j + d) then l else r) := by
  rw [graft]; cases keyBit k (j + d) <;> rfl

/-- An inner node that is not taken for a leaf or a placeholder. -/
def Inner (t : T) : Prop := ∃ l r, t = node l r ∧ (l ≠ .empty ∨ r ≠ .empty)

theorem Inner.nodeOn {b : Bool} {a s : T} (h : a ≠ .empty) : Inner (nodeOn b a s) := by
  cases b
  · exact ⟨a, s, rfl, .inl h⟩
  · exact ⟨s, a, rfl, .inr h⟩

theorem Inner.ne {t : T} (h : Inner t) : t ≠ .empty := by obtain ⟨l, r, rfl, _⟩ := h; simp

theorem Inner.of_WF {t : T} {d : Nat} (w : WF d t) (h : 2 ≤ t.entries.length) : Inner t := by
  cases t with
  | empty => simp [entries] at h
  | leaf k v => simp [entries] at h
  | node l r => exact ⟨l, r, rfl, node_nonempty w⟩

theorem Inner.facts (env : Env H M U) {t : T} (h : Inner t) (hin : In H M t) (e : Nat) :
    (toNode H e t).isPlaceholder = false ∧ (toNode H e t).isLeaf = false ∧ (toNode H e t).hash H = t.hash H := by
  obtain ⟨l, r, rfl, h⟩ := h
  have h1 : (toNode H e (node l r)).isPlaceholder = false := by
    rw [Bool.eq_false_iff]
    simp only [toNode, Node.isPlaceholder, ne_eq, Bool.and_eq_true]
    rintro ⟨h1, h2⟩
    rcases h with h0 | h0
    · exact hin.left.hash_ne env h0 (of_decide_eq_true h1)
    · exact hin.right.hash_ne env h0 (of_decide_eq_true h2)
  refine ⟨h1, ?_, ?_⟩
  · unfold Node.isLeaf; rw [h1]; simp [toNode]
  · unfold Node.hash
    rw [h1]
    simp [toNode, sumAll, T.hash, smtNodeMsg, Prefix.bytes]

theorem createNodeOnPath_graft (p : Profile) (env : Env H M U) {k : Bytes32} {a s : T} {j e : Nat} (hj : j < 256) (he : j ≤ e)
    (ha : Inner a) (w : WF (e + 1) s) (h : In H M (nodeOn (keyBit k j) a s)) :
    Node.createNodeOnPath p H k.val (toNode H (j + 1) a) (toNode H (e + 1) s) = .ok (toNode H j (nodeOn (keyBit k j) a s)) := by
  obtain ⟨h1, h2⟩ := h.nodeOn
  obtain ⟨f1, f2, f3⟩ := ha.facts env h1 (j + 1)
  unfold Node.createNodeOnPath
  rw [f2]
  simp only [Bool.false_and, Bool.false_eq_true, if_false]
  have hheight : max (toNode H (j + 1) a).height (toNode H (e + 1) s).height = 256 - (j + 1) := by
    have hle : (toNode H (e + 1) s).height ≤ 256 - (e + 1) := by cases s <;> simp [toNode, Node.createPlaceholder]
    obtain ⟨l, r, rfl, _⟩ := ha
    have : (toNode H (j + 1) (node l r)).height = 256 - (j + 1) := rfl
    omega
  have e1 : u32Add p (max (toNode H (j + 1) a).height (toNode H (e + 1) s).height) 1 = .ok (256 - j) := by
    unfold u32Add
    rw [hheight, if_pos (by omega)]
    congr 1; omega
  have e2 : usizeSub p Node.maxHeight (256 - j) = .ok j := by
    unfold usizeSub Node.maxHeight; rw [if_pos (by omega)]
    congr 1; omega
  rw [e1, Res.ok_bind, e2, Res.ok_bind, getInstruction_eq k hj]
  simp only [runwrap, Res.ok_bind]
  cases keyBit k j
  · simp only [Node.createNode, f3, hash_toNode env w h2, nodeOn]; rfl
  · simp only [Node.createNode, f3, hash_toNode env w h2, nodeOn]; rfl

theorem mergeNode_graft (p : Profile) (env : Env H M U) {k : Bytes32} {a s : T} {j e : Nat} (hj : j < 256) (he : j ≤ e)
    (ha : Inner a) (w : WF (e + 1) s) (h : In H M (nodeOn (keyBit k j) a s)) (st : Tree E) (hr : st.storage.Reliable) :
    ∃ st', st'.storage.Reliable ∧
      mergeNode p H k.val (toNode H (j + 1) a) (toNode H (e + 1) s) st = (.ok (toNode H j (nodeOn (keyBit k j) a s)), st') := by
  unfold mergeNode
  rw [createNodeOnPath_graft p env hj he ha w h, Exec.liftRes_ok_bind]
  obtain ⟨st', _, h2, h3⟩ := insert_any ((toNode H j (nodeOn (keyBit k j) a s)).hash H) (toNode H j (nodeOn (keyBit k j) a s)).toPrim st
  rcases h3 with ⟨h3, _⟩ | ⟨_, h3, _⟩
  · exact ⟨st', fun n => by rw [h2]; exact hr n, by rw [Exec.bind_ok h3]; rfl⟩
  · exact absurd hr h3

theorem ins_leaf_facts {k v k' v' : Bytes32} (hne : k ≠ k') {j : Nat} (hj : j ≤ 256) (ag : agree j k k') :
    WF j (ins k v j (leaf k' v')) ∧ (∀ x, x ∈ (ins k v j (leaf k' v')).entries ↔ x = (k, v) ∨ x = (k', v')) ∧
    Inner (ins k v j (leaf k' v')) := by
  rw [ins, if_neg hne]
  obtain ⟨h1, h2, h3⟩ := fork_spec (v := v) (v' := v') hne (256 - j) j (by omega) ag
  exact ⟨h1, h2, Inner.of_WF h1 h3⟩

theorem graft_inner {k v k' v' : Bytes32} (hne : k ≠ k') {d : Nat} : ∀ {t : T} {j : Nat}, WF (j + d) t → Ag (j + d) k t → j + d ≤ 256 →
    endTree k (j + d) t = leaf k' v' → Inner (graft k v d j t) := by
  intro t
  induction t with
  | empty => intro j _ _ _ h; cases h
  | leaf a b =>
    intro j w ag hd h
    rw [endTree] at h
    · cases h
      exact (ins_leaf_facts hne (by omega) ((ag (k', v') (by simp [entries])).symm.mono (by omega))).2.2
    · simp
  | node l r ihl ihr =>
    intro j w ag hd h
    rw [endTree_node] at h
    rw [graft_node]
    refine Inner.nodeOn (Inner.ne ?_)
    have w' := (node_parts k w).1
    have ag' := Ag.part ag w
    have e : j + d + 1 = j + 1 + d := by omega
    have := w.1
    rw [e] at w' ag' h
    revert w' ag' h
    cases keyBit k (j + d)
    · exact fun h w' ag' => ihl w' ag' (by omega) h
    · exact fun h w' ag' => ihr w' ag' (by omega) h

/-- Adding the side nodes. -/
theorem merge_graft (p : Profile) (env : Env H M U) {k v k' v' : Bytes32} (hne : k ≠ k') {d : Nat} : ∀ {t : T} {j : Nat},
    WF (j + d) t → Ag (j + d) k t → j + d ≤ 256 → endTree k (j + d) t = leaf k' v' → In H M (graft k v d j t) →
    ∀ (st : Tree E), st.storage.Reliable → ∃ st', st'.storage.Reliable ∧
      mergeNodes p H k.val (toNode H (endDepth k (j + d) t - d) (ins k v (endDepth k (j + d) t - d) (leaf k' v')))
        (sideNodes H k (j + d) t) st = (.ok (toNode H j (graft k v d j t)), st') := by
  intro t
  induction t with
  | empty => intro j _ _ _ h; cases h
  | leaf a b =>
    intro j w ag hd h _ st hr
    rw [endTree] at h
    · cases h
      refine ⟨st, hr, ?_⟩
      have : endDepth k (j + d) (leaf k' v') - d = j := by
        show j + d - d = j
        omega
      rw [this]; rfl
    · simp
  | node l r ihl ihr =>
    intro j w ag hd h hin st hr
    have hi := graft_inner (v := v) hne (j := j + 1) (t := if keyBit k (j + d) then r else l)
      (by have := (node_parts k w).1; rwa [show j + d + 1 = j + 1 + d by omega] at this)
      (by have := Ag.part ag w; rwa [show j + d + 1 = j + 1 + d by omega] at this) (by have := w.1; omega)
      (by rw [endTree_node] at h; rwa [show j + d + 1 = j + 1 + d by omega] at h)
    rw [endTree_node] at h
    rw [graft_node] at hin
    have ih : ∃ st', st'.storage.Reliable ∧
      mergeNodes p H k.val (toNode H (endDepth k (j + d + 1) (if keyBit k (j + d) then r else l) - d)
          (ins k v (endDepth k (j + d + 1) (if keyBit k (j + d) then r else l) - d) (leaf k' v')))
        (sideNodes H k (j + d + 1) (if keyBit k (j + d) then r else l)) st =
        (.ok (toNode H (j + 1) (graft k v d (j + 1) (if keyBit k (j + d) then r else l))), st') := by
      have w' := (node_parts k w).1
      have ag' := Ag.part ag w
      have hin' := hin.nodeOn.1
      have e : j + d + 1 = j + 1 + d := by omega
      have := w.1
      rw [e] at w' ag' h ⊢
      revert w' ag' h hin'
      cases keyBit k (j + d)
      · exact fun h w' ag' hin' => ihl w' ag' (by omega) h hin' st hr
      · exact fun h w' ag' hin' => ihr w' ag' (by omega) h hin' st hr
    obtain ⟨st1, r1, i1⟩ := ih
    rw [endDepth_node, sideNodes_node, mergeNodes_append, Exec.bind_ok i1, mergeNodes_one, graft_node]
    exact mergeNode_graft p env (by have := w.1; omega) (by omega) hi (node_parts k w).2 hin st1 r1

/-- Hash and messages of the tree. -/
theorem graft_spec (H : HashFn) {k v k' v' : Bytes32} (hne : k ≠ k') {d : Nat} : ∀ {t : T} {fuel j : Nat} {es : Entries Bytes32},
    WF (j + d) t → Ag (j + d) k t → fuel + (j + d) = 256 → endTree k (j + d) t = leaf k' v' →
    (es.map Prod.fst).Nodup → (∀ x, x ∈ t.entries ↔ x ∈ es) →
    (graft k v d j t).hash H = displaced H k v d fuel j es ∧
      (∀ m ∈ (graft k v d j t).msgs H, m ∈ t.msgs H ∨ m ∈ displacedMsgs H k v d fuel j es) ∧
      (∀ x ∈ (graft k v d j t).entries, x = (k, v) ∨ x ∈ t.entries) := by
  intro t
  induction t with
  | empty => intro _ j _ _ _ _ h; cases h
  | leaf a b =>
    intro fuel j es w ag hf h hnd hm
    rw [endTree] at h
    swap
    · simp
    cases h
    obtain ⟨f1, f2, f3⟩ := ins_leaf_facts (v := v) (v' := v') hne (j := j) (by omega)
      ((ag (k', v') (by simp [entries])).symm.mono (by omega))
    have hes : es = [(k', v')] := by
      have h1 : ∀ x ∈ es, x = (k', v') := fun x hx => by simpa [entries] using (hm x).2 hx
      have h2 : (k', v') ∈ es := (hm _).1 (by simp [entries])
      match es, h1, h2, hnd with
      | [x], h1, _, _ => rw [h1 x (by simp)]
      | x :: y :: ys, h1, _, hnd =>
        have := h1 x (by simp)
        have := h1 y (by simp)
        simp_all
    subst hes
    have := smt_spec H k (fuel := 256 - j) f1 (by omega) (es := [(k, v), (k', v')]) (by simpa using hne)
      (fun x => by rw [f2]; simp)
    rw [displaced, displacedMsgs]
    exact ⟨this.1, fun m hm => .inr (by rw [← this.2.1]; exact hm), fun x hx => by
      rcases (f2 x).1 hx with h | h
      · exact .inl h
      · exact .inr (by simp [entries, h])⟩
  | node l r ihl ihr =>
    intro fuel j es w ag hf h hnd hm
    have hw := w.1
    obtain ⟨fuel, rfl⟩ : ∃ f, fuel = f + 1 := ⟨fuel - 1, by omega⟩
    obtain ⟨x, y, ys, hes⟩ : ∃ x y ys, es = x :: y :: ys := by
      have hlen : 2 ≤ es.length := by
        have hsub : ((node l r).entries.map Prod.fst) ⊆ es.map Prod.fst := by
          intro a ha
          obtain ⟨z, hz, rfl⟩ := List.mem_map.1 ha
          exact List.mem_map.2 ⟨z, (hm z).1 hz, rfl⟩
        have := (List.subperm_of_subset (nodup w) hsub).length_le
        have h2 := w.2.2.2.2.2.2
        rw [List.length_map, List.length_map, entries, List.length_append] at this
        omega
      match es, hlen with
      | x :: y :: ys, _ => exact ⟨x, y, ys, rfl⟩
    have hd : ∀ es, es = x :: y :: ys → displaced H k v d (fuel + 1) j es =
        H (if keyBit k j then smtNodeMsg (smt H fuel (j + d + 1) (es.filter fun x => keyBit x.1 (j + d) != keyBit k (j + d)))
            (displaced H k v d fuel (j + 1) (es.filter fun x => keyBit x.1 (j + d) == keyBit k (j + d)))
          else smtNodeMsg (displaced H k v d fuel (j + 1) (es.filter fun x => keyBit x.1 (j + d) == keyBit k (j + d)))
            (smt H fuel (j + d + 1) (es.filter fun x => keyBit x.1 (j + d) != keyBit k (j + d)))) ∧
        displacedMsgs H k v d (fuel + 1) j es =
        (if keyBit k j then smtNodeMsg (smt H fuel (j + d + 1) (es.filter fun x => keyBit x.1 (j + d) != keyBit k (j + d)))
            (displaced H k v d fuel (j + 1) (es.filter fun x => keyBit x.1 (j + d) == keyBit k (j + d)))
          else smtNodeMsg (displaced H k v d fuel (j + 1) (es.filter fun x => keyBit x.1 (j + d) == keyBit k (j + d)))
            (smt H fuel (j + d + 1) (es.filter fun x => keyBit x.1 (j + d) != keyBit k (j + d)))) ::
          displacedMsgs H k v d fuel (j + 1) (es.filter fun x => keyBit x.1 (j + d) == keyBit k (j + d)) := by
      rintro _ rfl
      exact ⟨by rw [displaced] <;> simp, by rw [displacedMsgs] <;> simp⟩
    obtain ⟨hd1, hd2⟩ := hd es hes
    clear hes hd
    rw [endTree_node] at h
    have halong : ∀ z, z ∈ (if keyBit k (j + d) then r else l).entries ↔ z ∈ es.filter fun x => keyBit x.1 (j + d) == keyBit k (j + d) := by
      intro z
      rw [part_entries w, hm, List.mem_filter, beq_iff_eq]
    have hbeside : ∀ z, z ∈ (if keyBit k (j + d) then l else r).entries ↔ z ∈ es.filter fun x => keyBit x.1 (j + d) != keyBit k (j + d) := by
      intro z
      rw [List.mem_filter, ← hm, bne_iff_ne, entries, List.mem_append]
      have h4 := w.2.2.2.1 z
      have h5 := w.2.2.2.2.1 z
      cases keyBit k (j + d)
      · simp only [Bool.false_eq_true, if_false]
        constructor
        · intro h; exact ⟨.inr h, by rw [h5 h]; simp⟩
        · rintro ⟨h | h, e⟩
          · exact absurd (h4 h) e
          · exact h
      · simp only [if_true]
        constructor
        · intro h; exact ⟨.inl h, by rw [h4 h]; simp⟩
        · rintro ⟨h | h, e⟩
          · exact h
          · exact absurd (h5 h) e
    have hs := smt_spec H k (fuel := fuel) (node_parts k w).2 (by omega) (hnd.sublist (List.filter_sublist.map _)) hbeside
    have ih : (graft k v d (j + 1) (if keyBit k (j + d) then r else l)).hash H =
          displaced H k v d fuel (j + 1) (es.filter fun x => keyBit x.1 (j + d) == keyBit k (j + d)) ∧
        (∀ m ∈ (graft k v d (j + 1) (if keyBit k (j + d) then r else l)).msgs H, m ∈ (if keyBit k (j + d) then r else l).msgs H ∨
          m ∈ displacedMsgs H k v d fuel (j + 1) (es.filter fun x => keyBit x.1 (j + d) == keyBit k (j + d))) ∧
        (∀ x ∈ (graft k v d (j + 1) (if keyBit k (j + d) then r else l)).entries, x = (k, v) ∨
          x ∈ (if keyBit k (j + d) then r else l).entries) := by
      have w' := (node_parts k w).1
      have ag' := Ag.part ag w
      have hnd' := hnd.sublist ((List.filter_sublist (p := fun x => keyBit x.1 (j + d) == keyBit k (j + d)) (l := es)).map Prod.fst)
      have e : j + d + 1 = j + 1 + d := by omega
      rw [e] at w' ag' h
      clear hd1 hd2 hs hbeside
      revert w' ag' h halong hnd'
      generalize hq : (es.filter fun x => keyBit x.1 (j + d) == keyBit k (j + d)) = q
      clear hq
      cases keyBit k (j + d)
      · exact fun h halong w' ag' hnd' => ihl w' ag' (by omega) h hnd' halong
      · exact fun h halong w' ag' hnd' => ihr w' ag' (by omega) h hnd' halong
    obtain ⟨i1, i2, i3⟩ := ih
    have hmsgs : ∀ m, m ∈ (if keyBit k (j + d) then r else l).msgs H ∨ m ∈ (if keyBit k (j + d) then l else r).msgs H →
        m ∈ (node l r).msgs H := by
      intro m
      rw [msgs, List.mem_cons, List.mem_append]
      cases keyBit k (j + d)
      · exact fun h => .inr h
      · exact fun h => .inr h.symm
    have hents : ∀ m, m ∈ (if keyBit k (j + d) then r else l).entries ∨ m ∈ (if keyBit k (j + d) then l else r).entries →
        m ∈ (node l r).entries := by
      intro m
      rw [entries, List.mem_append]
      cases keyBit k (j + d)
      · exact fun h => h
      · exact fun h => h.symm
    rw [graft_node, hd1, hd2, ← i1, ← hs.1]
    generalize graft k v d (j + 1) (if keyBit k (j + d) then r else l) = g at *
    generalize (if keyBit k (j + d) then l else r) = b at *
    generalize (if keyBit k (j + d) then r else l) = c at *
    unfold nodeOn
    cases keyBit k j
    · refine ⟨rfl, fun m hm => ?_, fun x hx => ?_⟩
      · simp only [Bool.false_eq_true, if_false, msgs, List.mem_cons, List.mem_append] at hm ⊢
        rcases hm with hm | hm | hm
        · exact .inr (.inl hm)
        · rcases i2 m hm with h | h
          · have := hmsgs m (.inl h); simp only [msgs, List.mem_cons, List.mem_append] at this; exact .inl this
          · exact .inr (.inr h)
        · have := hmsgs m (.inr hm); simp only [msgs, List.mem_cons, List.mem_append] at this; exact .inl this
      · simp only [Bool.false_eq_true, if_false, entries, List.mem_append] at hx
        rcases hx with hx | hx
        · exact (i3 x hx).imp id fun h => hents x (.inl h)
        · exact .inr (hents x (.inr hx))
    · refine ⟨rfl, fun m hm => ?_, fun x hx => ?_⟩
      · simp only [if_true, msgs, List.mem_cons, List.mem_append] at hm ⊢
        rcases hm with hm | hm | hm
        · exact .inr (.inl hm)
        · have := hmsgs m (.inr hm); simp only [msgs, List.mem_cons, List.mem_append] at this; exact .inl this
        · rcases i2 m hm with h | h
          · have := hmsgs m (.inl h); simp only [msgs, List.mem_cons, List.mem_append] at this; exact .inl this
          · exact .inr (.inr h)
      · simp only [if_true, entries, List.mem_append] at hx
        rcases hx with hx | hx
        · exact .inr (hents x (.inr hx))
        · exact (i3 x hx).imp id fun h => hents x (.inl h)

/-- The tree is no tree of a map, at any depth. -/
theorem graft_not_WF {k v k' v' : Bytes32} (hne : k ≠ k') {d d' : Nat} (h0 : 0 < d) : ∀ {t : T} {j : Nat},
    WF (j + d) t → Ag (j + d) k t → j + d ≤ 256 → endTree k (j + d) t = leaf k' v' → (∃ l r, t = node l r) →
    ¬ WF (d' + j) (graft k v d j t) := by
  intro t
  induction t with
  | empty => rintro j _ _ _ _ ⟨_, _, h⟩; cases h
  | leaf a b => rintro j _ _ _ _ ⟨_, _, h⟩; cases h
  | node l r ihl ihr =>
    intro j w ag hd h _ hw
    rw [graft_node, endTree_node] at *
    have hlt := w.1
    by_cases hc : ∃ l' r', (if keyBit k (j + d) then r else l) = node l' r'
    · have w' := (node_parts k w).1
      have ag' := Ag.part ag w
      have e : j + d + 1 = j + 1 + d := by omega
      rw [e] at w' ag' h
      have hx : WF (d' + (j + 1)) (graft k v d (j + 1) (if keyBit k (j + d) then r else l)) := by
        cases hb : keyBit k j <;> rw [hb] at hw
        · exact hw.2.1
        · exact hw.2.2.1
      clear hw
      revert w' ag' h hc hx
      cases keyBit k (j + d)
      · exact fun h hc w' ag' hx => ihl w' ag' (by omega) h hc hx
      · exact fun h hc w' ag' hx => ihr w' ag' (by omega) h hc hx
    · have hleaf : (if keyBit k (j + d) then r else l) = leaf k' v' := by
        revert h hc
        generalize (if keyBit k (j + d) then r else l) = c
        intro h hc
        cases c with
        | empty => cases h
        | leaf a b => exact h
        | node l' r' => exact absurd ⟨l', r', rfl⟩ hc
      have ag' := Ag.part ag w
      rw [hleaf] at hw ag'
      obtain ⟨f1, f2, l', r', f3, _⟩ := ins_leaf_facts (v := v) (v' := v') hne (j := j + 1) (by omega)
        ((ag' (k', v') (by simp [entries])).symm.mono (by omega))
      obtain ⟨g1, g2, g3, g4, g5, g6, g7⟩ := WF_nodeOn.1 hw
      have hx : WF (d' + j + 1) (ins k v (j + 1) (leaf k' v')) := g2
      rw [f3] at f1 hx
      have hd' : d' = 0 := by have := depth_unique f1 hx; omega
      subst hd'
      rw [Nat.zero_add] at g5
      have hlen : 1 ≤ (if keyBit k (j + d) then l else r).entries.length := by
        have h2 := w.2.2.2.2.2.2
        have hone := congrArg (fun t : T => t.entries.length) hleaf
        simp only [entries, List.length_singleton] at hone
        revert hone
        cases keyBit k (j + d)
        · simp only [Bool.false_eq_true, if_false]; intro hone; omega
        · simp only [if_true]; intro hone; omega
      obtain ⟨y, hy⟩ := List.exists_mem_of_length_pos (by omega : 0 < (if keyBit k (j + d) then l else r).entries.length)
      have hy' : y ∈ (node l r).entries := by
        rw [entries, List.mem_append]
        revert hy
        cases keyBit k (j + d)
        · exact .inr
        · exact .inl
      have b1 := g5 y hy
      have b2 := ag y hy' j (by omega)
      rw [b2] at b1
      cases hb : keyBit k j <;> rw [hb] at b1 <;> cases b1

theorem graft_last {k v k' v' : Bytes32} {d : Nat} : ∀ {t : T} {j : Nat}, endTree k (j + d) t = leaf k' v' →
    In H M (graft k v d j t) → In H M (ins k v (endDepth k (j + d) t - d) (leaf k' v')) := by
  intro t
  induction t with
  | empty => intro j h; cases h
  | leaf a b =>
    intro j h hin
    rw [endTree] at h
    swap
    · simp
    cases h
    have : endDepth k (j + d) (leaf k' v') - d = j := by
      show j + d - d = j
      omega
    rw [this]; exact hin
  | node l r ihl ihr =>
    intro j h hin
    rw [graft_node] at hin
    rw [endTree_node] at h
    rw [endDepth_node]
    have hin' := hin.nodeOn.1
    clear hin
    have e : j + d + 1 = j + 1 + d := by omega
    rw [e] at h ⊢
    revert h hin'
    cases keyBit k (j + d)
    · exact fun h hin' => ihl h hin'
    · exact fun h hin' => ihr h hin'

/-- `update` of a tree opened at an inner node, when another key is met. -/
theorem update_graft (p : Profile) (env : Env H M U) {k : Bytes32} {data : Bytes} (hdata : data.isEmpty = false) (hu : U k)
    {k' v' : Bytes32} (hne : k ≠ k')
    {t : T} {d : Nat} (hnode : ∃ l r, t = node l r) (hd : d ≤ 256) (w : WF d t) (ag : Ag d k t) (hin : In H M t)
    (hend : endTree k d t = leaf k' v') (hin' : In H M (graft k (H data) d 0 t))
    (st : Tree E) (hroot : st.rootNode = toNode H d t) (hv : Valid H M U st.storage.map) (hs : Stored H st.storage.map d t)
    (hr : st.storage.Reliable) :
    ∃ st', st'.rootNode = toNode H 0 (graft k (H data) d 0 t) ∧ update p H k data st = (.ok (), st') := by
  obtain ⟨h1, h2, h3, h4, h5, ⟨rest, h6⟩, h7, h8⟩ := end_spec (H := H) (M := M) k w ag hd
  have hlast : In H M (ins k (H data) (endDepth k d t - d) (leaf k' v')) := by
    have := graft_last (d := d) (j := 0) (t := t) (by rwa [Nat.zero_add]) hin'
    rwa [Nat.zero_add] at this
  have agk : agree (endDepth k d t) k' k := h3 (k', v') (by rw [hend]; simp [entries])
  have hl : In H M (leaf k (H data)) := hlast.leaf_of_mem
    (((ins_leaf_facts hne (by omega) (agk.symm.mono (by omega))).2.1 (k, H data)).2 (.inl rfl))
  have hleaf : Node.createLeaf H k data = toNode H 0 (leaf k (H data)) := rfl
  have hprim : (toNode H 0 (leaf k (H data))).toPrim = leafPrim k (H data) := rfl
  have hg : Good H M ((leaf k (H data)).hash H) (toNode H 0 (leaf k (H data))).toPrim :=
    ⟨leaf k (H data), 0, trivial, hl, by simp, rfl, rfl⟩
  unfold update
  rw [hdata]
  simp only [Bool.false_eq_true, if_false]
  rw [hleaf, hash_toNode env (t := leaf k (H data)) (d := 0) trivial hl]
  obtain ⟨st1, g1, i1⟩ := insert_good hg st
  obtain ⟨i1, m1⟩ : onStorage (Store.insert ((leaf k (H data)).hash H) (toNode H 0 (leaf k (H data))).toPrim) st =
      (.ok (st.storage.map ((leaf k (H data)).hash H)), st1) ∧
      st1.storage.map ((leaf k (H data)).hash H) = some (toNode H 0 (leaf k (H data))).toPrim := by
    rcases i1 with i | ⟨_, i⟩
    · exact i
    · exact absurd hr i
  rw [Exec.bind_ok i1, leafKey_leaf, Exec.liftRes_ok_bind, hprim]
  obtain ⟨st2, rt2, sc2, i2⟩ := insert_any k (leafPrim k (H data)) st1
  obtain ⟨i2, m2⟩ : onStorage (Store.insert k (leafPrim k (H data))) st1 = (.ok (st1.storage.map k), st2) ∧
      st2.storage.map = Store.upd st1.storage.map k (some (leafPrim k (H data))) := by
    rcases i2 with i | ⟨_, i, _⟩
    · exact i
    · exact absurd (g1.reliable hr) i
  rw [Exec.bind_ok i2, Exec.get_bind, rt2, g1.root, hroot]
  have ug2 : UGrow H M k (H data) st st2 := by
    refine ⟨sc2.trans g1.sched, fun x => ?_⟩
    rw [m2]
    by_cases hx : x = k
    · exact .inr (.inr ⟨hx, by rw [hx]; simp⟩)
    · rw [Store.upd_of_ne _ _ hx]; exact (g1.map x).imp id .inl
  have hr2 : st2.storage.Reliable := fun n => by rw [ug2.sched]; exact hr n
  have hs2 := ug2.stored env hu w hin hs
  have hne0 : t ≠ .empty := by obtain ⟨l, r, rfl⟩ := hnode; simp
  rw [if_neg (fun h => hne0 ((isPlaceholder_toNode env w hin).1 h))]
  obtain ⟨st3, s3, i3⟩ : ∃ st3, Same st2 st3 ∧ pathSet p (toNode H 0 (leaf k (H data))) st2 =
      (.ok (pathNodes H k d t, sideNodes H k d t), st3) := by
    obtain ⟨l, r, rfl⟩ := hnode
    obtain ⟨st3, s3, i3⟩ := pathSet_inner p env (HasKey.leaf H 0 k (H data)) hd st2 (by rw [rt2, g1.root, hroot]) w hin (ug2.valid hu hv)
    rcases i3 with i3 | ⟨_, i3⟩
    · exact ⟨st3, s3, i3⟩
    · exact absurd ⟨hr2, hs2.path k⟩ i3
  rw [Exec.bind_ok i3]
  have hr3 : st3.storage.Reliable := s3.reliable hr2
  have hn : (sideNodes H k d t).length = endDepth k d t - d := by omega
  obtain ⟨st4, g4, i4⟩ := updateEnd_spec (E := E) (v := H data) (t := leaf k' v') (d := endDepth k d t - d) p env (by simp)
    (fun x hx => by
      simp only [entries, List.mem_singleton] at hx
      rw [hx]; exact agk.mono (by omega)) (by omega) hlast hl hn st3
  obtain ⟨i4, _⟩ := i4.resolve_right (fun h => h.2 hr3)
  obtain ⟨st5, r5, i5⟩ := merge_graft (E := E) (v := H data) (d := d) (j := 0) p env hne (by rwa [Nat.zero_add]) (by rwa [Nat.zero_add])
    (by omega) (by rwa [Nat.zero_add]) hin' st4 (g4.reliable hr3)
  rw [Nat.zero_add] at i5
  obtain ⟨l', r', hx, hx'⟩ := graft_inner (v := H data) (d := d) (j := 0) (t := t) hne (by rwa [Nat.zero_add]) (by rwa [Nat.zero_add])
    (by omega) (by rwa [Nat.zero_add])
  have hroot' : setRootNode p (toNode H 0 (graft k (H data) d 0 t)) st5 =
      (.ok (), { st5 with rootNode := toNode H 0 (graft k (H data) d 0 t) }) := by
    have : ((toNode H 0 (graft k (H data) d 0 t)).isLeaf || decide ((toNode H 0 (graft k (H data) d 0 t)).height = Node.maxHeight)) = true := by
      rw [hx]; simp [toNode, Node.maxHeight]
    unfold setRootNode
    rw [this, rdebugAssert_true, Exec.liftRes_ok_bind]
    rfl
  refine ⟨{ st5 with rootNode := toNode H 0 (graft k (H data) d 0 t) }, rfl, ?_⟩
  rw [← hroot']
  have hunf : updateWithPathSet p H (toNode H 0 (leaf k (H data))) (pathNodes H k d t) (sideNodes H k d t) st3 =
      (mergeNodes p H k.val (toNode H (endDepth k d t - d) (ins k (H data) (endDepth k d t - d) (leaf k' v'))) (sideNodes H k d t) >>=
        fun c => setRootNode p c) st4 := by
    rw [← Exec.bind_ok (f := fun current => mergeNodes p H k.val current (sideNodes H k d t) >>= fun c => setRootNode p c) i4]
    unfold updateWithPathSet
    rw [leafKey_leaf, Exec.liftRes_ok_bind, h6]
    simp only []
    rw [Exec.liftRes_ok_bind, hend]
    simp only [Exec.bind_assoc]
    rfl
  rw [hunf, Exec.bind_ok i5]

end Sparse
end FuelMerkle
