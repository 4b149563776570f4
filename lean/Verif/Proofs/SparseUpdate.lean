import Verif.Proofs.SparsePath
import Mathlib.Data.Nat.Find

/-
Writing the path of a key: `update`.
-/
namespace FuelMerkle
namespace Sparse
open Spec T
variable {E : Type} {H : HashFn} {M : Bytes → Prop} {U : Bytes32 → Prop}

/-- Only records of nodes were written. -/
structure Grow (H : HashFn) (M : Bytes → Prop) (st st' : Tree E) : Prop where
  root : st'.rootNode = st.rootNode
  sched : st'.storage.sched = st.storage.sched
  map : ∀ x, st'.storage.map x = st.storage.map x ∨ ∃ q, st'.storage.map x = some q ∧ Good H M x q

theorem Grow.refl (st : Tree E) : Grow H M st st := ⟨rfl, rfl, fun _ => .inl rfl⟩

theorem Grow.trans {st st' st'' : Tree E} (h : Grow H M st st') (h' : Grow H M st' st'') : Grow H M st st'' :=
  ⟨h'.root.trans h.root, h'.sched.trans h.sched, fun x => by
    rcases h'.map x with e | e
    · rw [e]; exact h.map x
    · exact .inr e⟩

theorem Same.grow {st st' : Tree E} (h : Same st st') : Grow H M st st' :=
  ⟨h.root, h.sched, fun x => .inl (by rw [h.map])⟩

theorem Grow.reliable {st st' : Tree E} (h : Grow H M st st') (hr : st.storage.Reliable) : st'.storage.Reliable :=
  fun n => by rw [h.sched]; exact hr n

theorem Good.not_user (env : Env H M U) {x : Bytes32} {q : Prim} (h : Good H M x q) : ¬ U x := by
  obtain ⟨t, d, _, hin, h0, rfl, _⟩ := h
  exact hin.hash_user env h0

theorem Good.ne_zero (env : Env H M U) {x : Bytes32} {q : Prim} (h : Good H M x q) : x ≠ zeroSum := by
  obtain ⟨t, d, _, hin, h0, rfl, _⟩ := h
  exact hin.hash_ne env h0

theorem Grow.user (env : Env H M U) {st st' : Tree E} (h : Grow H M st st') {x : Bytes32} (hx : U x) :
    st'.storage.map x = st.storage.map x := by
  rcases h.map x with e | ⟨q, _, hg⟩
  · exact e
  · exact absurd hx (hg.not_user env)

theorem Grow.valid {st st' : Tree E} (h : Grow H M st st') (hv : Valid H M U st.storage.map) :
    Valid H M U st'.storage.map := by
  intro x q hq
  rcases h.map x with e | ⟨q', e, hg⟩
  · exact hv x q (by rw [← e, hq])
  · rw [hq] at e; cases e; exact .inl hg

/-- Whether the trees stay stored depends only on the records of their nodes. -/
theorem Stored.of_map {m m' : Bytes32 → Option Prim} : ∀ {t : T} {d : Nat}, WF d t → In H M t →
    (∀ t' d', WF d' t' → In H M t' → t' ≠ .empty → m (t'.hash H) = some (toNode H d' t').toPrim →
      m' (t'.hash H) = some (toNode H d' t').toPrim) → Stored H m d t → Stored H m' d t := by
  intro t
  induction t with
  | empty => intros; trivial
  | leaf k v => intro d w hin h hs; exact h (leaf k v) d w hin (by simp) hs
  | node l r ihl ihr =>
    intro d w hin h hs
    exact ⟨h (node l r) d w hin (by simp) hs.1, ihl w.2.1 hin.left h hs.2.1, ihr w.2.2.1 hin.right h hs.2.2⟩

theorem Grow.stored (env : Env H M U) {st st' : Tree E} (h : Grow H M st st') {t : T} {d : Nat} (w : WF d t)
    (hin : In H M t) (hs : Stored H st.storage.map d t) : Stored H st'.storage.map d t := by
  refine hs.of_map w hin fun t' d' w' hin' _ e => ?_
  rcases h.map (t'.hash H) with e' | ⟨q, e', hg⟩
  · rw [e', e]
  · rw [e', hg.unique env w' hin' rfl]

theorem insert_good {x : Bytes32} {q : Prim} (hg : Good H M x q) (st : Tree E) :
    ∃ st', Grow H M st st' ∧
      ((onStorage (Store.insert x q) st = (.ok (st.storage.map x), st') ∧ st'.storage.map x = some q) ∨
       ((∃ e, onStorage (Store.insert x q) st = (.error (.err e), st')) ∧ ¬ st.storage.Reliable)) := by
  have hupd : ∀ (s : SpStore E), s.map = Store.upd st.storage.map x (some q) → s.sched = st.storage.sched →
      Grow H M st { st with storage := s } := by
    intro s hs hs'
    refine ⟨rfl, hs', fun y => ?_⟩
    show s.map y = _ ∨ ∃ q, s.map y = _ ∧ _
    rw [hs]
    by_cases hy : y = x
    · subst hy; exact .inr ⟨q, by simp, hg⟩
    · exact .inl (by rw [Store.upd_of_ne _ _ hy])
  cases hs : st.storage.sched st.storage.clock with
  | none =>
    refine ⟨_, hupd { st.storage with clock := st.storage.clock + 1, map := Store.upd st.storage.map x (some q) } rfl rfl,
      .inl ⟨?_, by simp⟩⟩
    unfold onStorage
    rw [Store.insert_none _ _ hs]
  | some f =>
    refine ⟨{ st with storage := { st.storage with clock := st.storage.clock + 1, map := if f.applied then Store.upd st.storage.map x (some q) else st.storage.map } },
      ?_, .inr ⟨⟨.storageError f.err, ?_⟩, fun h => ?_⟩⟩
    · cases hf : f.applied with
      | true => exact hupd _ rfl rfl
      | false => exact ⟨rfl, rfl, fun _ => .inl rfl⟩
    · unfold onStorage
      rw [Store.insert_fault _ _ hs]
    · rw [h] at hs; cases hs

/-- Outcome of a computation that writes nodes: the node of `t'`, or an error of a failing call. -/
def Out (H : HashFn) (M : Bytes → Prop) (m : TreeM E Node) (st : Tree E) (d : Nat) (t' : T) (P : Prop) : Prop :=
  ∃ st', Grow H M st st' ∧
    ((m st = (.ok (toNode H d t'), st') ∧ (P → Stored H st'.storage.map d t')) ∨
      ((∃ e, m st = (.error (.err e), st')) ∧ ¬ st.storage.Reliable))

theorem mergeNode_spec (p : Profile) (env : Env H M U) {k : Bytes32} {a s : T} {d : Nat}
    (w : WF d (nodeOn (keyBit k d) a s)) (h : In H M (nodeOn (keyBit k d) a s)) (st : Tree E) :
    Out H M (mergeNode p H k.val (toNode H (d + 1) a) (toNode H (d + 1) s)) st d (nodeOn (keyBit k d) a s)
      (Stored H st.storage.map (d + 1) a ∧ Stored H st.storage.map (d + 1) s) := by
  have hne : nodeOn (keyBit k d) a s ≠ .empty := by cases keyBit k d <;> simp [nodeOn]
  have hg : Good H M ((toNode H d (nodeOn (keyBit k d) a s)).hash H) (toNode H d (nodeOn (keyBit k d) a s)).toPrim :=
    ⟨_, d, w, h, hne, hash_toNode env w h, rfl⟩
  unfold Out mergeNode
  rw [createNodeOnPath_spec p env w h, Exec.liftRes_ok_bind]
  obtain ⟨st', h1, h2⟩ := insert_good hg st
  refine ⟨st', h1, ?_⟩
  rcases h2 with ⟨h2, h3⟩ | ⟨⟨e, h2⟩, h3⟩
  · left
    rw [Exec.bind_ok h2]
    refine ⟨rfl, fun ⟨p1, p2⟩ => ?_⟩
    obtain ⟨_, w2, w3, _⟩ := WF_nodeOn.1 w
    have q1 := h1.stored env w2 h.nodeOn.1 p1
    have q2 := h1.stored env w3 h.nodeOn.2 p2
    rw [hash_toNode env w h] at h3
    revert h3
    cases keyBit k d
    · exact fun h3 => ⟨h3, q1, q2⟩
    · exact fun h3 => ⟨h3, q2, q1⟩
  · right
    exact ⟨⟨e, by rw [Exec.bind_error h2]⟩, h3⟩

theorem Out.bind {m : TreeM E Node} {st : Tree E} {d d' : Nat} {t t' : T} {P P' : Prop} {f : Node → TreeM E Node}
    (h : Out H M m st d t P)
    (h' : ∀ st', Grow H M st st' → (P → Stored H st'.storage.map d t) → ∃ Q, Out H M (f (toNode H d t)) st' d' t' Q ∧ (P' → Q)) :
    Out H M (m >>= f) st d' t' P' := by
  obtain ⟨st1, g1, h1⟩ := h
  rcases h1 with ⟨h1, s1⟩ | ⟨⟨e, h1⟩, h2⟩
  · obtain ⟨Q, ⟨st2, g2, h2⟩, hQ⟩ := h' st1 g1 s1
    refine ⟨st2, g1.trans g2, ?_⟩
    rw [Exec.bind_ok h1]
    rcases h2 with ⟨h2, s2⟩ | ⟨h2, s2⟩
    · exact .inl ⟨h2, fun hp => s2 (hQ hp)⟩
    · exact .inr ⟨h2, fun hr => s2 (g1.reliable hr)⟩
  · exact ⟨st1, g1, .inr ⟨⟨e, by rw [Exec.bind_error h1]⟩, h2⟩⟩

theorem Out.pure (st : Tree E) (d : Nat) (t : T) : Out H M (pure (toNode H d t)) st d t (Stored H st.storage.map d t) :=
  ⟨st, .refl st, .inl ⟨rfl, id⟩⟩

theorem Out.mono {m : TreeM E Node} {st : Tree E} {d : Nat} {t : T} {P P' : Prop} (h : Out H M m st d t P) (hp : P' → P) :
    Out H M m st d t P' := by
  obtain ⟨st', g, h⟩ := h
  refine ⟨st', g, ?_⟩
  rcases h with ⟨h, s⟩ | h
  · exact .inl ⟨h, fun h' => s (hp h')⟩
  · exact .inr h

theorem mergeNodes_append (p : Profile) (k : Bytes) (xs ys : List Node) : ∀ (c : Node),
    (mergeNodes p H k c (xs ++ ys) : TreeM E Node) = (mergeNodes p H k c xs >>= fun c => mergeNodes p H k c ys) := by
  induction xs with
  | nil => intro c; rfl
  | cons x xs ih =>
    intro c
    rw [List.cons_append, mergeNodes, mergeNodes, Exec.bind_assoc]
    congr 1
    funext c'
    exact ih c'

theorem bind_pure' {σ ε α : Type} (x : Exec σ ε α) : (x >>= fun c => pure c) = x := by
  funext s
  rw [Exec.bind_apply]
  rcases h : x s with ⟨_ | _, _⟩ <;> rfl

theorem mergeNodes_one (p : Profile) (k : Bytes) (c y : Node) :
    (mergeNodes p H k c [y] : TreeM E Node) = mergeNode p H k c y := by
  rw [mergeNodes]
  exact bind_pure' _

/-- The last tree on the path of `k`, and its depth. -/
def endTree (k : Bytes32) : Nat → T → T
  | d, .node l r => if keyBit k d then endTree k (d + 1) r else endTree k (d + 1) l
  | _, t => t

def endDepth (k : Bytes32) : Nat → T → Nat
  | d, .node l r => if keyBit k d then endDepth k (d + 1) r else endDepth k (d + 1) l
  | d, _ => d

theorem endTree_node (k : Bytes32) (d : Nat) (l r : T) :
    endTree k d (node l r) = endTree k (d + 1) (if keyBit k d then r else l) := by
  rw [endTree]; cases keyBit k d <;> rfl
theorem endDepth_node (k : Bytes32) (d : Nat) (l r : T) :
    endDepth k d (node l r) = endDepth k (d + 1) (if keyBit k d then r else l) := by
  rw [endDepth]; cases keyBit k d <;> rfl
theorem sideNodes_node (k : Bytes32) (d : Nat) (l r : T) :
    sideNodes H k d (node l r) = sideNodes H k (d + 1) (if keyBit k d then r else l) ++
      [toNode H (d + 1) (if keyBit k d then l else r)] := by
  rw [sideNodes]; cases keyBit k d <;> rfl
theorem pathNodes_node (k : Bytes32) (d : Nat) (l r : T) :
    pathNodes H k d (node l r) = pathNodes H k (d + 1) (if keyBit k d then r else l) ++ [toNode H d (node l r)] := by
  rw [pathNodes]; cases keyBit k d <;> rfl

/-- Both children of a well-formed node, the one on the path first. -/
theorem node_parts (k : Bytes32) {d : Nat} {l r : T} (w : WF d (node l r)) :
    WF (d + 1) (if keyBit k d then r else l) ∧ WF (d + 1) (if keyBit k d then l else r) := by
  cases keyBit k d
  · exact ⟨w.2.1, w.2.2.1⟩
  · exact ⟨w.2.2.1, w.2.1⟩

theorem T.In.parts (k : Bytes32) {d : Nat} {l r : T} (h : In H M (node l r)) :
    In H M (if keyBit k d then r else l) ∧ In H M (if keyBit k d then l else r) := by
  cases keyBit k d
  · exact ⟨h.left, h.right⟩
  · exact ⟨h.right, h.left⟩

theorem Ag.part {k : Bytes32} {d : Nat} {l r : T} (h : Ag d k (node l r)) (w : WF d (node l r)) :
    Ag (d + 1) k (if keyBit k d then r else l) := by
  cases hb : keyBit k d
  · exact h.left w hb
  · exact h.right w hb

theorem Stored.parts {m : Bytes32 → Option Prim} (k : Bytes32) {d : Nat} {l r : T} (h : Stored H m d (node l r)) :
    Stored H m (d + 1) (if keyBit k d then r else l) ∧ Stored H m (d + 1) (if keyBit k d then l else r) := by
  cases keyBit k d
  · exact ⟨h.2.1, h.2.2⟩
  · exact ⟨h.2.2, h.2.1⟩

/-- Facts about the end of the path. -/
theorem end_spec (k : Bytes32) : ∀ {t : T} {d : Nat}, WF d t → Ag d k t → d ≤ 256 →
    (∀ l r, endTree k d t ≠ node l r) ∧ WF (endDepth k d t) (endTree k d t) ∧
    Ag (endDepth k d t) k (endTree k d t) ∧ endDepth k d t ≤ 256 ∧
    (sideNodes H k d t).length + d = endDepth k d t ∧
    (∃ rest, pathNodes H k d t = toNode H (endDepth k d t) (endTree k d t) :: rest) ∧
    (In H M t → In H M (endTree k d t)) ∧ (∀ m, Stored H m d t → Stored H m (endDepth k d t) (endTree k d t)) := by
  intro t
  have ind : ∀ {l r : T} {d : Nat}, WF d (node l r) → Ag d k (node l r) →
      ((WF (d + 1) (if keyBit k d then r else l) → Ag (d + 1) k (if keyBit k d then r else l) → d + 1 ≤ 256 →
        (∀ l' r', endTree k (d + 1) (if keyBit k d then r else l) ≠ node l' r') ∧
        WF (endDepth k (d + 1) (if keyBit k d then r else l)) (endTree k (d + 1) (if keyBit k d then r else l)) ∧
        Ag (endDepth k (d + 1) (if keyBit k d then r else l)) k (endTree k (d + 1) (if keyBit k d then r else l)) ∧
        endDepth k (d + 1) (if keyBit k d then r else l) ≤ 256 ∧
        (sideNodes H k (d + 1) (if keyBit k d then r else l)).length + (d + 1) =
          endDepth k (d + 1) (if keyBit k d then r else l) ∧
        (∃ rest, pathNodes H k (d + 1) (if keyBit k d then r else l) =
          toNode H (endDepth k (d + 1) (if keyBit k d then r else l))
            (endTree k (d + 1) (if keyBit k d then r else l)) :: rest) ∧
        (In H M (if keyBit k d then r else l) → In H M (endTree k (d + 1) (if keyBit k d then r else l))) ∧
        (∀ m, Stored H m (d + 1) (if keyBit k d then r else l) →
          Stored H m (endDepth k (d + 1) (if keyBit k d then r else l))
            (endTree k (d + 1) (if keyBit k d then r else l))))) →
      (∀ l' r', endTree k d (node l r) ≠ node l' r') ∧ WF (endDepth k d (node l r)) (endTree k d (node l r)) ∧
      Ag (endDepth k d (node l r)) k (endTree k d (node l r)) ∧ endDepth k d (node l r) ≤ 256 ∧
      (sideNodes H k d (node l r)).length + d = endDepth k d (node l r) ∧
      (∃ rest, pathNodes H k d (node l r) = toNode H (endDepth k d (node l r)) (endTree k d (node l r)) :: rest) ∧
      (In H M (node l r) → In H M (endTree k d (node l r))) ∧
      (∀ m, Stored H m d (node l r) → Stored H m (endDepth k d (node l r)) (endTree k d (node l r))) := by
    intro l r d w ag ih
    obtain ⟨h1, h2, h3, h4, h5, ⟨rest, h6⟩, h7, h8⟩ := ih (node_parts k w).1 (Ag.part ag w) w.1
    rw [endTree_node, endDepth_node, sideNodes_node, pathNodes_node]
    refine ⟨h1, h2, h3, h4, by rw [List.length_append, List.length_singleton]; omega, ⟨_, by rw [h6]; rfl⟩,
      fun h => h7 (In.parts k h).1, fun m h => h8 m (h.parts k).1⟩
  induction t with
  | empty => intro d w ag hd; exact ⟨by simp [endTree], w, ag, hd, by simp [sideNodes, endDepth], ⟨[], rfl⟩, id, fun _ => id⟩
  | leaf k' v' => intro d w ag hd; exact ⟨by simp [endTree], w, ag, hd, by simp [sideNodes, endDepth], ⟨[], rfl⟩, id, fun _ => id⟩
  | node l r ihl ihr =>
    intro d w ag hd
    refine ind w ag ?_
    cases keyBit k d
    · exact ihl
    · exact ihr

/-- Adding the side nodes to the new end of the path. -/
theorem merge_sides (p : Profile) (env : Env H M U) {k v : Bytes32} : ∀ {t : T} {d : Nat}, WF d t → Ag d k t → d ≤ 256 →
    In H M (ins k v d t) → ∀ (st : Tree E),
    Out H M (mergeNodes p H k.val (toNode H (endDepth k d t) (ins k v (endDepth k d t) (endTree k d t))) (sideNodes H k d t))
      st d (ins k v d t)
      (Stored H st.storage.map (endDepth k d t) (ins k v (endDepth k d t) (endTree k d t)) ∧ Stored H st.storage.map d t) := by
  intro t
  induction t with
  | empty => intro d _ _ _ _ st; exact (Out.pure st d _).mono And.left
  | leaf k' v' => intro d _ _ _ _ st; exact (Out.pure st d _).mono And.left
  | node l r ihl ihr =>
    intro d w ag hd hin' st
    have ih : ∀ {d : Nat}, WF d (if keyBit k (d - 1) then r else l) → Ag d k (if keyBit k (d - 1) then r else l) → d ≤ 256 →
        In H M (ins k v d (if keyBit k (d - 1) then r else l)) → ∀ (st : Tree E),
        Out H M (mergeNodes p H k.val (toNode H (endDepth k d (if keyBit k (d - 1) then r else l))
            (ins k v (endDepth k d (if keyBit k (d - 1) then r else l)) (endTree k d (if keyBit k (d - 1) then r else l))))
            (sideNodes H k d (if keyBit k (d - 1) then r else l)))
          st d (ins k v d (if keyBit k (d - 1) then r else l))
          (Stored H st.storage.map (endDepth k d (if keyBit k (d - 1) then r else l))
            (ins k v (endDepth k d (if keyBit k (d - 1) then r else l)) (endTree k d (if keyBit k (d - 1) then r else l))) ∧
            Stored H st.storage.map d (if keyBit k (d - 1) then r else l)) := by
      intro d
      cases keyBit k (d - 1)
      · exact ihl
      · exact ihr
    have wi := (ins_spec (v := v) w ag hd).1
    rw [ins_node] at hin' wi
    rw [endTree_node, endDepth_node, sideNodes_node, mergeNodes_append, ins_node]
    refine (ih (d := d + 1) (node_parts k w).1 (Ag.part ag w) w.1 hin'.nodeOn.1 st).bind ?_
    intro st' g hs
    have hm := mergeNode_spec p env wi hin' st'
    rw [← mergeNodes_one] at hm
    refine ⟨_, hm, ?_⟩
    · rintro ⟨h1, h2⟩
      exact ⟨hs ⟨h1, (h2.parts k).1⟩, g.stored env (node_parts k w).2 hin'.nodeOn.2 (h2.parts k).2⟩

theorem fork_succ {k v k' v' : Bytes32} {fuel d : Nat} (hb : keyBit k d = keyBit k' d) :
    fork k v k' v' (fuel + 1) d = nodeOn (keyBit k d) (fork k v k' v' fuel (d + 1)) .empty := by
  rw [fork, if_pos hb]

/-- Adding the placeholders above the new node. -/
theorem merge_placeholders (p : Profile) (env : Env H M U) {k v k' v' : Bytes32} (hne : k ≠ k') : ∀ (n fuel d : Nat),
    fuel + (d + n) = 256 → agree (d + n) k k' → In H M (fork k v k' v' (fuel + n) d) → ∀ (st : Tree E),
    In H M (fork k v k' v' fuel (d + n)) ∧
    Out H M (mergeNodes p H k.val (toNode H (d + n) (fork k v k' v' fuel (d + n))) (List.replicate n Node.createPlaceholder))
      st d (fork k v k' v' (fuel + n) d) (Stored H st.storage.map (d + n) (fork k v k' v' fuel (d + n))) := by
  intro n
  induction n with
  | zero => intro fuel d _ _ hin st; exact ⟨hin, Out.pure st d _⟩
  | succ n ih =>
    intro fuel d hf hag hin st
    have e1 : fuel + (n + 1) = (fuel + 1) + n := by omega
    have e2 : d + (n + 1) = d + n + 1 := by omega
    rw [e1] at hin ⊢
    rw [e2] at hag ⊢
    have ih' := fun st => ih (fuel + 1) d (by omega) (hag.mono (by omega)) hin st
    have hb : keyBit k (d + n) = keyBit k' (d + n) := hag (d + n) (by omega)
    have hs : fork k v k' v' (fuel + 1) (d + n) = nodeOn (keyBit k (d + n)) (fork k v k' v' fuel (d + n + 1)) .empty :=
      fork_succ hb
    have hin1 := (ih' st).1
    have w1 := (fork_spec (v := v) (v' := v') hne (fuel + 1) (d + n) (by omega) (hag.mono (by omega))).1
    rw [hs] at hin1 w1
    refine ⟨hin1.nodeOn.1, ?_⟩
    rw [List.replicate_succ, mergeNodes]
    refine (mergeNode_spec p env w1 hin1 st).bind ?_
    intro st' g hst
    have hm := (ih' st').2
    refine ⟨Stored H st'.storage.map (d + n) (fork k v k' v' (fuel + 1) (d + n)), ?_, ?_⟩
    · rw [← hs]
      exact hm
    · intro h
      rw [hs]
      exact hst ⟨h, trivial⟩

theorem mem_msgs {t : T} {k v : Bytes32} (h : (k, v) ∈ t.entries) : smtLeafMsg k v ∈ t.msgs H := by
  induction t with
  | empty => simp [entries] at h
  | leaf k' v' =>
    simp only [entries, List.mem_singleton, Prod.mk.injEq] at h
    simp [msgs, h.1, h.2]
  | node l r ihl ihr =>
    simp only [entries, List.mem_append] at h
    simp only [msgs, List.mem_cons, List.mem_append]
    exact .inr (h.imp ihl ihr)

theorem T.In.leaf_of_mem {t : T} {k v : Bytes32} (hin : In H M t) (h : (k, v) ∈ t.entries) : In H M (leaf k v) :=
  ⟨fun m hm => by
    simp only [msgs, List.mem_singleton] at hm
    subst hm
    exact hin.1 _ (mem_msgs h), fun hz => hin.2 (by
    simp only [entries, List.mem_singleton] at hz
    rw [hz]; exact h)⟩

theorem ins_end_in {k v : Bytes32} : ∀ {t : T} {d : Nat}, In H M (ins k v d t) →
    In H M (ins k v (endDepth k d t) (endTree k d t)) := by
  intro t
  induction t with
  | empty => intro d h; exact h
  | leaf k' v' => intro d h; exact h
  | node l r ihl ihr =>
    intro d h
    rw [ins_node] at h
    have h := h.nodeOn.1
    rw [endTree_node, endDepth_node]
    revert h
    cases keyBit k d
    · exact fun h => ihl h
    · exact fun h => ihr h

theorem common_ge {k k' : Bytes32} {d : Nat} (hne : k ≠ k') (h : agree d k k') :
    d ≤ common k k' ∧ common k k' < 256 ∧ agree (common k k') k k' ∧
      keyBit k (common k k') ≠ keyBit k' (common k k') := by
  classical
  have hex : ∃ j, keyBit k j ≠ keyBit k' j := by
    by_contra hc
    simp only [not_exists, ne_eq, not_not] at hc
    exact hne (eq_of_agree (d := 256) (fun j _ => hc j) (by omega))
  have h1 := Nat.find_spec hex
  have h2 : agree (Nat.find hex) k k' := fun j hj => by
    have := Nat.find_min hex hj
    simpa using this
  have h3 : Nat.find hex < 256 := by
    by_contra hc
    exact hne (eq_of_agree h2 (by omega))
  have h4 := common_of h3 h2 h1
  rw [h4]
  refine ⟨?_, h3, h2, h1⟩
  by_contra hc
  exact h1 (h _ (by omega))

theorem leafKey_leaf (e : Nat) (k v : Bytes32) : (toNode H e (leaf k v)).leafKey = .ok k := HasKey.leaf H e k v

theorem rdebugAssert_true (p : Profile) : rdebugAssert p true = .ok () := by
  unfold rdebugAssert; cases p.debugAssertions <;> rfl

theorem setRootNode_spec (p : Profile) (env : Env H M U) {t : T} (w : WF 0 t) (hin : In H M t) (st : Tree E) :
    setRootNode p (toNode H 0 t) st = (.ok (), { st with rootNode := toNode H 0 t }) := by
  have : ((toNode H 0 t).isLeaf || decide ((toNode H 0 t).height = Node.maxHeight)) = true := by
    cases t with
    | empty => rw [(isLeaf_toNode env w hin).2 (by simp)]; rfl
    | leaf k v => rw [(isLeaf_toNode env w hin).2 (by simp)]; rfl
    | node l r => simp [toNode, Node.maxHeight]
  unfold setRootNode
  rw [this, rdebugAssert_true, Exec.liftRes_ok_bind]
  rfl

/-- The first part of `update_with_path_set`. -/
theorem updateEnd_spec (p : Profile) (env : Env H M U) {k v : Bytes32} {t : T} {d : Nat} (ht : ∀ l r, t ≠ node l r)
    (ag : Ag d k t) (hd : d ≤ 256) (hin' : In H M (ins k v d t)) (hl : In H M (leaf k v)) {n : Nat} (hn : n = d) (st : Tree E) :
    Out H M (do
      let actualKey ← Exec.liftRes (toNode H d t).leafKey
      if k ≠ actualKey then do
        let current ←
          (if (toNode H d t).isPlaceholder then pure (toNode H d (leaf k v))
           else mergeNode p H k.val (toNode H d (leaf k v)) (toNode H d t))
        let ancestorDepth ← Exec.liftRes ((toNode H d (leaf k v)).commonPathLength p (toNode H d t))
        let staleDepth := max n ancestorDepth
        let placeholdersCount := staleDepth - n
        mergeNodes p H k.val current (List.replicate placeholdersCount Node.createPlaceholder)
      else pure (toNode H d (leaf k v))) st d (ins k v d t)
      (Stored H st.storage.map d t ∧ Stored H st.storage.map d (leaf k v)) := by
  subst hn
  cases t with
  | node l r => exact absurd rfl (ht l r)
  | empty =>
    have hk : (toNode H n .empty).leafKey = .ok zeroSum := rfl
    have hp : (toNode H n .empty).isPlaceholder = true := rfl
    have hc : (toNode H n (leaf k v)).commonPathLength p (toNode H n .empty) = .ok 0 := by
      have hl' : (toNode H n (leaf k v)).isLeaf = true := by simp [toNode, Node.isLeaf]
      unfold Node.commonPathLength
      rw [hl', rdebugAssert_true, hp]
      have : (toNode H n .empty).isLeaf = true := rfl
      rw [this, rdebugAssert_true]
      simp
    refine Out.mono ?_ And.right
    unfold Out
    rw [hk, Exec.liftRes_ok_bind]
    by_cases hz : k ≠ zeroSum
    · rw [if_pos hz, hp, if_pos rfl, Exec.pure_bind, hc, Exec.liftRes_ok_bind]
      simp only [Nat.max_zero, Nat.sub_self, List.replicate_zero]
      exact Out.pure st n (leaf k v)
    · rw [if_neg hz]
      exact Out.pure st n (leaf k v)
  | leaf k' v' =>
    unfold Out
    rw [leafKey_leaf, Exec.liftRes_ok_bind]
    by_cases hk : k = k'
    · rw [if_neg (by simpa using hk)]
      have : ins k v n (leaf k' v') = leaf k v := by rw [ins, if_pos hk]
      rw [this]
      exact (Out.pure st n (leaf k v)).mono And.right
    · have hfork : ins k v n (leaf k' v') = fork k v k' v' (256 - n) n := by rw [ins, if_neg hk]
      have hin : In H M (leaf k' v') := by
        have hf := (fork_spec (v := v) (v' := v') hk (256 - n) n (by omega) (ag (k', v') (by simp [entries])).symm).2.1 (k', v')
        rw [hfork] at hin'
        exact hin'.leaf_of_mem (hf.2 (.inr rfl))
      have hp : ¬ (toNode H n (leaf k' v')).isPlaceholder = true := fun h => by
        have := (isPlaceholder_toNode env (t := leaf k' v') (d := n) trivial hin).1 h
        cases this
      rw [if_pos hk, if_neg hp, commonPathLength_leaves p env _ _ hl hin]
      rw [hfork] at hin' ⊢
      obtain ⟨g1, g2, g3, g4⟩ := common_ge hk (ag (k', v') (by simp [entries])).symm
      obtain ⟨m, hm⟩ : ∃ m, common k k' = n + m := ⟨common k k' - n, by omega⟩
      rw [hm] at g2 g3 g4 ⊢
      have e1 : 256 - n = (256 - (n + m)) + m := by omega
      rw [e1] at hin' ⊢
      have key := fun st => merge_placeholders (E := E) (v := v) (v' := v') p env hk m (256 - (n + m)) n (by omega) g3 hin' st
      have hbase : fork k v k' v' (256 - (n + m)) (n + m) = nodeOn (keyBit k (n + m)) (leaf k v) (leaf k' v') := by
        obtain ⟨f, hf⟩ : ∃ f, 256 - (n + m) = f + 1 := ⟨256 - (n + m) - 1, by omega⟩
        rw [hf, fork, if_neg g4]
      have wb := (fork_spec (v := v) (v' := v') hk (256 - (n + m)) (n + m) (by omega) g3).1
      have hinb := (key st).1
      rw [hbase] at wb hinb
      have hmax : max n (n + m) - n = m := by omega
      refine (mergeNode_spec p env wb hinb st).bind ?_
      intro st' g hst
      refine ⟨Stored H st'.storage.map (n + m) (fork k v k' v' (256 - (n + m)) (n + m)), ?_, ?_⟩
      · rw [Out, Exec.liftRes_ok_bind]
        show Out H M (mergeNodes p H k.val _ (List.replicate (max n (n + m) - n) _)) st' n _ _
        rw [hmax, ← hbase]
        exact (key st').2
      · intro h
        rw [hbase]
        exact hst ⟨h.2, h.1⟩

theorem updateWithPathSet_unfold (p : Profile) {k v : Bytes32} {t : T} {rest : List Node}
    (h6 : pathNodes H k 0 t = toNode H (endDepth k 0 t) (endTree k 0 t) :: rest) (st : Tree E) :
    updateWithPathSet p H (toNode H 0 (leaf k v)) (pathNodes H k 0 t) (sideNodes H k 0 t) st = ((do
      let current ← (do
        let actualKey ← Exec.liftRes (toNode H (endDepth k 0 t) (endTree k 0 t)).leafKey
        if k ≠ actualKey then do
          let current ←
            (if (toNode H (endDepth k 0 t) (endTree k 0 t)).isPlaceholder then pure (toNode H (endDepth k 0 t) (leaf k v))
             else mergeNode p H k.val (toNode H (endDepth k 0 t) (leaf k v)) (toNode H (endDepth k 0 t) (endTree k 0 t)))
          let ancestorDepth ← Exec.liftRes ((toNode H (endDepth k 0 t) (leaf k v)).commonPathLength p (toNode H (endDepth k 0 t) (endTree k 0 t)))
          let staleDepth := max (sideNodes H k 0 t).length ancestorDepth
          let placeholdersCount := staleDepth - (sideNodes H k 0 t).length
          mergeNodes p H k.val current (List.replicate placeholdersCount Node.createPlaceholder)
        else pure (toNode H (endDepth k 0 t) (leaf k v)))
      mergeNodes p H k.val current (sideNodes H k 0 t) : TreeM E Node) >>= fun c => setRootNode p c) st := by
  unfold updateWithPathSet
  rw [leafKey_leaf, Exec.liftRes_ok_bind, h6]
  simp only []
  rw [Exec.liftRes_ok_bind]
  simp only [Exec.bind_assoc]
  rfl

/-- `update_with_path_set` along the path of the new leaf. -/
theorem updateWithPathSet_spec (p : Profile) (env : Env H M U) {k v : Bytes32} {t : T} (w : WF 0 t) (hin : In H M t)
    (hin' : In H M (ins k v 0 t)) (st : Tree E) :
    ∃ st1, Grow H M st st1 ∧
      ((updateWithPathSet p H (toNode H 0 (leaf k v)) (pathNodes H k 0 t) (sideNodes H k 0 t) st =
          (.ok (), { st1 with rootNode := toNode H 0 (ins k v 0 t) }) ∧
          (Stored H st.storage.map 0 t → Stored H st.storage.map 0 (leaf k v) →
            Stored H st1.storage.map 0 (ins k v 0 t))) ∨
        ((∃ e, updateWithPathSet p H (toNode H 0 (leaf k v)) (pathNodes H k 0 t) (sideNodes H k 0 t) st =
          (.error (.err e), st1)) ∧ ¬ st.storage.Reliable)) := by
  have is := ins_spec (k := k) (v := v) w (Ag.zero k t) (by omega)
  have hl : In H M (leaf k v) := hin'.leaf_of_mem ((is.2.1 (k, v)).2 (.inl rfl))
  obtain ⟨h1, h2, h3, h4, h5, ⟨rest, h6⟩, h7, h8⟩ := end_spec (H := H) (M := M) k w (Ag.zero k t) (by omega)
  have upd := fun st => updateEnd_spec (E := E) p env h1 h3 h4 (ins_end_in hin') hl (n := (sideNodes H k 0 t).length) (by omega) st
  have full : Out H M (do
      let current ← (do
        let actualKey ← Exec.liftRes (toNode H (endDepth k 0 t) (endTree k 0 t)).leafKey
        if k ≠ actualKey then do
          let current ←
            (if (toNode H (endDepth k 0 t) (endTree k 0 t)).isPlaceholder then pure (toNode H (endDepth k 0 t) (leaf k v))
             else mergeNode p H k.val (toNode H (endDepth k 0 t) (leaf k v)) (toNode H (endDepth k 0 t) (endTree k 0 t)))
          let ancestorDepth ← Exec.liftRes ((toNode H (endDepth k 0 t) (leaf k v)).commonPathLength p (toNode H (endDepth k 0 t) (endTree k 0 t)))
          let staleDepth := max (sideNodes H k 0 t).length ancestorDepth
          let placeholdersCount := staleDepth - (sideNodes H k 0 t).length
          mergeNodes p H k.val current (List.replicate placeholdersCount Node.createPlaceholder)
        else pure (toNode H (endDepth k 0 t) (leaf k v)))
      mergeNodes p H k.val current (sideNodes H k 0 t)) st 0 (ins k v 0 t)
      (Stored H st.storage.map 0 t ∧ Stored H st.storage.map 0 (leaf k v)) := by
    refine (upd st).bind ?_
    intro st' g hst
    refine ⟨_, merge_sides p env w (Ag.zero k t) (by omega) hin' st', ?_⟩
    rintro ⟨a, b⟩
    exact ⟨hst ⟨h8 _ a, b⟩, g.stored env w hin a⟩
  obtain ⟨st1, g, hf⟩ := full
  refine ⟨st1, g, ?_⟩
  rw [updateWithPathSet_unfold p h6]
  rcases hf with ⟨hf, hs⟩ | ⟨⟨e, hf⟩, hr⟩
  · left
    rw [Exec.bind_ok hf, setRootNode_spec p env is.1 hin']
    exact ⟨rfl, fun a b => hs ⟨a, b⟩⟩
  · right
    exact ⟨⟨e, by rw [Exec.bind_error hf]⟩, hr⟩

/-- Only records of nodes, and the leaf record of `k`, were written. -/
structure UGrow (H : HashFn) (M : Bytes → Prop) (k v : Bytes32) (st st' : Tree E) : Prop where
  sched : st'.storage.sched = st.storage.sched
  map : ∀ x, st'.storage.map x = st.storage.map x ∨ (∃ q, st'.storage.map x = some q ∧ Good H M x q) ∨
    (x = k ∧ st'.storage.map x = some (leafPrim k v))

theorem UGrow.valid {k v : Bytes32} (hu : U k) {st st' : Tree E} (h : UGrow H M k v st st') (hv : Valid H M U st.storage.map) :
    Valid H M U st'.storage.map := by
  intro x q hq
  rcases h.map x with e | ⟨q', e, hg⟩ | ⟨rfl, e⟩
  · exact hv x q (by rw [← e, hq])
  · rw [hq] at e; cases e; exact .inl hg
  · rw [hq] at e; cases e; exact .inr (.inl ⟨hu, v, rfl⟩)

theorem UGrow.stored (env : Env H M U) {k v : Bytes32} (hu : U k) {st st' : Tree E} (h : UGrow H M k v st st') {t : T} {d : Nat}
    (w : WF d t) (hin : In H M t) (hs : Stored H st.storage.map d t) : Stored H st'.storage.map d t := by
  refine hs.of_map w hin fun t' d' w' hin' h0 e => ?_
  rcases h.map (t'.hash H) with e' | ⟨q, e', hg⟩ | ⟨e', _⟩
  · rw [e', e]
  · rw [e', hg.unique env w' hin' rfl]
  · exact absurd (e' ▸ hu) (hin'.hash_user env h0)

theorem UGrow.user (env : Env H M U) {k v : Bytes32} {st st' : Tree E} (h : UGrow H M k v st st') {x : Bytes32}
    (hx : U x) (hne : x ≠ k) : st'.storage.map x = st.storage.map x := by
  rcases h.map x with e | ⟨q', e, hg⟩ | ⟨e, _⟩
  · exact e
  · exact absurd hx (hg.not_user env)
  · exact absurd e hne

theorem insert_any (x : Bytes32) (q : Prim) (st : Tree E) :
    ∃ st', st'.rootNode = st.rootNode ∧ st'.storage.sched = st.storage.sched ∧
      ((onStorage (Store.insert x q) st = (.ok (st.storage.map x), st') ∧ st'.storage.map = Store.upd st.storage.map x (some q)) ∨
       ((∃ e, onStorage (Store.insert x q) st = (.error (.err e), st')) ∧ ¬ st.storage.Reliable ∧
          (st'.storage.map = st.storage.map ∨ st'.storage.map = Store.upd st.storage.map x (some q)))) := by
  cases hs : st.storage.sched st.storage.clock with
  | none =>
    refine ⟨{ st with storage := { st.storage with clock := st.storage.clock + 1, map := Store.upd st.storage.map x (some q) } },
      rfl, rfl, .inl ⟨?_, rfl⟩⟩
    unfold onStorage
    rw [Store.insert_none _ _ hs]
  | some f =>
    refine ⟨{ st with storage := { st.storage with clock := st.storage.clock + 1, map := if f.applied then Store.upd st.storage.map x (some q) else st.storage.map } }, rfl, rfl, .inr ⟨⟨.storageError f.err, ?_⟩, fun h => ?_, ?_⟩⟩
    · unfold onStorage
      rw [Store.insert_fault _ _ hs]
    · rw [h] at hs; cases hs
    · cases f.applied
      · exact .inl rfl
      · exact .inr rfl

/-- `update` with nonempty data: the new tree and the record of the key, or an error and the
old tree. -/
theorem update_spec (p : Profile) (env : Env H M U) {k : Bytes32} {data : Bytes} (hdata : data.isEmpty = false) (hu : U k) {t : T}
    (w : WF 0 t) (hin : In H M t) (hin' : In H M (ins k (H data) 0 t)) (st : Tree E) (hroot : st.rootNode = toNode H 0 t)
    (hv : Valid H M U st.storage.map) :
    ∃ st', UGrow H M k (H data) st st' ∧
      ((update p H k data st = (.ok (), st') ∧ st'.rootNode = toNode H 0 (ins k (H data) 0 t) ∧
          st'.storage.map k = some (leafPrim k (H data)) ∧
          (Stored H st.storage.map 0 t → Stored H st'.storage.map 0 (ins k (H data) 0 t))) ∨
        ((∃ e, update p H k data st = (.error (.err e), st')) ∧ st'.rootNode = st.rootNode ∧
          ¬ (st.storage.Reliable ∧ Stored H st.storage.map 0 t))) := by
  have is := ins_spec (k := k) (v := H data) w (Ag.zero k t) (by omega)
  have hl : In H M (leaf k (H data)) := hin'.leaf_of_mem ((is.2.1 (k, H data)).2 (.inl rfl))
  have hleaf : Node.createLeaf H k data = toNode H 0 (leaf k (H data)) := rfl
  have hprim : (toNode H 0 (leaf k (H data))).toPrim = leafPrim k (H data) := rfl
  have hg : Good H M ((leaf k (H data)).hash H) (toNode H 0 (leaf k (H data))).toPrim :=
    ⟨leaf k (H data), 0, trivial, hl, by simp, rfl, rfl⟩
  unfold update
  rw [hdata]
  simp only [Bool.false_eq_true, if_false]
  rw [hleaf, hash_toNode env (t := leaf k (H data)) (d := 0) trivial hl]
  obtain ⟨st1, g1, h1⟩ := insert_good hg st
  rcases h1 with ⟨h1, m1⟩ | ⟨⟨e, h1⟩, r1⟩
  · rw [Exec.bind_ok h1, leafKey_leaf, Exec.liftRes_ok_bind, hprim]
    obtain ⟨st2, rt2, sc2, h2⟩ := insert_any k (leafPrim k (H data)) st1
    have hug : ∀ {s : Tree E}, s.storage.sched = st1.storage.sched → (s.storage.map = st1.storage.map ∨
        s.storage.map = Store.upd st1.storage.map k (some (leafPrim k (H data)))) → UGrow H M k (H data) st s := by
      intro s hs hm
      refine ⟨hs.trans g1.sched, fun x => ?_⟩
      rcases hm with hm | hm
      · rw [hm]; exact (g1.map x).imp id .inl
      · rw [hm]
        by_cases hx : x = k
        · exact .inr (.inr ⟨hx, by rw [hx]; simp⟩)
        · rw [Store.upd_of_ne _ _ hx]; exact (g1.map x).imp id .inl
    rcases h2 with ⟨h2, m2⟩ | ⟨⟨e, h2⟩, r2, m2⟩
    · rw [Exec.bind_ok h2, Exec.get_bind, rt2, g1.root, hroot]
      have ug2 := hug sc2 (.inr m2)
      have hv2 := ug2.valid hu hv
      have hk2 : st2.storage.map k = some (leafPrim k (H data)) := by rw [m2]; simp
      have hl2 : Stored H st2.storage.map 0 (leaf k (H data)) := by
        show st2.storage.map ((leaf k (H data)).hash H) = _
        rw [m2, Store.upd_of_ne]
        · exact m1
        · intro h; exact hl.hash_user env (by simp) (by rw [h]; exact hu)
      by_cases ht : t = .empty
      · subst ht
        rw [if_pos ((isPlaceholder_toNode env w hin).2 rfl)]
        rw [setRootNode_spec p env (t := leaf k (H data)) trivial hl]
        exact ⟨{ st2 with rootNode := toNode H 0 (leaf k (H data)) }, ⟨ug2.sched, ug2.map⟩,
          .inl ⟨rfl, rfl, hk2, fun _ => hl2⟩⟩
      · rw [if_neg (fun h => ht ((isPlaceholder_toNode env w hin).1 h))]
        obtain ⟨st3, s3, h3⟩ := pathSet_spec p env (HasKey.leaf H 0 k (H data)) st2 (by rw [rt2, g1.root, hroot]) w hin hv2
        have ug3 : UGrow H M k (H data) st st3 := hug (s3.sched.trans sc2) (.inr (s3.map.trans m2))
        rcases h3 with h3 | ⟨⟨e, h3⟩, r3⟩
        · rw [Exec.bind_ok h3]
          obtain ⟨st4, g4, h4⟩ := updateWithPathSet_spec p env w hin hin' st3
          have ug4 : ∀ x, st4.storage.map x = st.storage.map x ∨ (∃ q, st4.storage.map x = some q ∧ Good H M x q) ∨
              (x = k ∧ st4.storage.map x = some (leafPrim k (H data))) := by
            intro x
            rcases g4.map x with e | e
            · rw [e]; exact ug3.map x
            · exact .inr (.inl e)
          rcases h4 with ⟨h4, s4⟩ | ⟨⟨e, h4⟩, r4⟩
          · refine ⟨{ st4 with rootNode := toNode H 0 (ins k (H data) 0 t) }, ⟨g4.sched.trans ug3.sched, ug4⟩,
              .inl ⟨h4, rfl, ?_, ?_⟩⟩
            · show st4.storage.map k = _
              rw [g4.user env hu, s3.map, hk2]
            · intro h
              refine s4 ?_ ?_
              · exact ug3.stored env hu w hin h
              · rw [s3.map]; exact hl2
          · refine ⟨st4, ⟨g4.sched.trans ug3.sched, ug4⟩, .inr ⟨⟨e, h4⟩, ?_, ?_⟩⟩
            · rw [g4.root, s3.root, rt2, g1.root, hroot]
            · rintro ⟨hr, _⟩
              exact r4 (fun n => by rw [ug3.sched]; exact hr n)
        · refine ⟨st3, ug3, .inr ⟨⟨.childError e, by rw [Exec.bind_error h3]⟩, ?_, ?_⟩⟩
          · rw [s3.root, rt2, g1.root, hroot]
          · rintro ⟨hr, hs⟩
            refine r3 ⟨fun n => by rw [ug2.sched]; exact hr n, ?_⟩
            exact (ug2.stored env hu w hin hs).path k
    · exact ⟨st2, hug sc2 m2, .inr ⟨⟨e, by rw [Exec.bind_error h2]⟩, by rw [rt2, g1.root],
        fun ⟨hr, _⟩ => r2 (g1.reliable hr)⟩⟩
  · exact ⟨st1, ⟨g1.sched, fun x => (g1.map x).imp id .inl⟩, .inr ⟨⟨e, by rw [Exec.bind_error h1]⟩, g1.root, fun ⟨hr, _⟩ => r1 hr⟩⟩

end Sparse
end FuelMerkle
