import Verif.Model.Print
import Verif.Proofs.Sum
import Verif.Spec.SumApi

/-
Printed texts can be read back: the pieces of a text are determined by the text.
-/
namespace FuelMerkle
namespace Print

theorem dec_inj {n m : Nat} (h : dec n = dec m) : n = m := by
  have h1 := @Nat.ofDigitChars_ten_toDigits n
  have h2 := @Nat.ofDigitChars_ten_toDigits m
  unfold dec at h
  rw [h] at h1
  exact h1.symm.trans h2

theorem dec_digit {n : Nat} {c : Char} (h : c ∈ dec n) : c.isDigit = true :=
  Nat.isDigit_of_mem_toDigits (by omega) (by omega) h

/-- A list of digits followed by something else. -/
theorem digits_split : ∀ {a b x y : Text} {c d : Char}, (∀ k ∈ a, k.isDigit = true) → (∀ k ∈ b, k.isDigit = true) →
    c.isDigit = false → d.isDigit = false → a ++ c :: x = b ++ d :: y → a = b ∧ c = d ∧ x = y
  | [], [], x, y, c, d, _, _, _, _, h => by simp at h; exact ⟨rfl, h⟩
  | [], k :: b, x, y, c, d, _, hb, hc, _, h => by
    simp at h
    have := hb k (by simp)
    rw [← h.1, hc] at this; cases this
  | k :: a, [], x, y, c, d, ha, _, _, hd, h => by
    simp at h
    have := ha k (by simp)
    rw [h.1, hd] at this; cases this
  | k :: a, l :: b, x, y, c, d, ha, hb, hc, hd, h => by
    simp only [List.cons_append, List.cons.injEq] at h
    obtain ⟨h1, h2, h3⟩ := digits_split (fun k hk => ha k (by simp [hk])) (fun k hk => hb k (by simp [hk])) hc hd h.2
    exact ⟨by rw [h.1, h1], h2, h3⟩

/-- A number followed by something that is not a digit. -/
theorem dec_split {n m : Nat} {x y : Text} {c d : Char} (hc : c.isDigit = false) (hd : d.isDigit = false)
    (h : dec n ++ c :: x = dec m ++ d :: y) : n = m ∧ c = d ∧ x = y := by
  obtain ⟨h1, h2, h3⟩ := digits_split (fun k hk => dec_digit hk) (fun k hk => dec_digit hk) hc hd h
  exact ⟨dec_inj h1, h2, h3⟩

/-- A number in a fixed text. -/
theorem message_inj {pre post : Text} {c : Char} {x : Text} {n m : Nat} (hp : post = c :: x) (hc : c.isDigit = false)
    (h : pre ++ dec n ++ post = pre ++ dec m ++ post) : n = m := by
  subst hp
  simp only [List.append_assoc, List.append_cancel_left_eq] at h
  exact (dec_split hc hc h).1

theorem message_ne {pre post pre' post' : Text} {c d : Char} {x y : Text} {n m : Nat} (hp : pre = c :: x) (hp' : pre' = d :: y)
    (hc : c ≠ d) : pre ++ dec n ++ post ≠ pre' ++ dec m ++ post' := by
  subst hp hp'
  simp [hc]

theorem digitChar_inj {a b : Nat} (ha : a < 16) (hb : b < 16) (h : Nat.digitChar a = Nat.digitChar b) : a = b := by
  have key : ∀ a : Fin 16, ∀ b : Fin 16, Nat.digitChar a = Nat.digitChar b → a = b := by decide +kernel
  have := key ⟨a, ha⟩ ⟨b, hb⟩ h
  exact congrArg Fin.val this

theorem hexByte_inj {a b : UInt8} (h : hexByte a = hexByte b) : a = b := by
  have h1 := a.toNat_lt
  have h2 := b.toNat_lt
  simp only [hexByte, List.cons.injEq, and_true] at h
  have e1 := digitChar_inj (by omega) (by omega) h.1
  have e2 := digitChar_inj (by omega) (by omega) h.2
  exact UInt8.toNat_inj.1 (by omega)

theorem hexEncode_cons (b : UInt8) (bs : Bytes) : hexEncode (b :: bs) = hexByte b ++ hexEncode bs := rfl

/-- Hexadecimal texts of equally many bytes, followed by anything. -/
theorem hex_split : ∀ {a b : Bytes} {x y : Text}, a.length = b.length → hexEncode a ++ x = hexEncode b ++ y → a = b ∧ x = y
  | [], [], _, _, _, h => ⟨rfl, h⟩
  | [], _ :: _, _, _, hl, _ => by simp at hl
  | _ :: _, [], _, _, hl, _ => by simp at hl
  | k :: a, l :: b, x, y, hl, h => by
    rw [hexEncode_cons, hexEncode_cons, List.append_assoc, List.append_assoc] at h
    obtain ⟨h1, h2⟩ := List.append_inj h (by simp [hexByte])
    obtain ⟨h3, h4⟩ := hex_split (by simpa using hl) h2
    exact ⟨by rw [hexByte_inj h1, h3], h4⟩

theorem hex32_split {a b : Bytes32} {x y : Text} (h : hexEncode a.val ++ x = hexEncode b.val ++ y) : a = b ∧ x = y := by
  obtain ⟨h1, h2⟩ := hex_split (by rw [a.2, b.2]) h
  exact ⟨Subtype.ext h1, h2⟩

theorem arrayTail_cons (n m : Nat) (l : List Nat) : arrayTail (n :: m :: l) = dec n ++ ", ".toList ++ arrayTail (m :: l) := rfl

theorem arrayTail_cons_inj : ∀ (a b : List Nat) (n m : Nat) (x y : Text), a.length = b.length →
    arrayTail (n :: a) ++ x = arrayTail (m :: b) ++ y → n :: a = m :: b ∧ x = y := by
  have hs : ", ".toList = [',', ' '] := by decide
  intro a
  induction a with
  | nil =>
    intro b n m x y hl h
    cases b with
    | cons _ _ => simp at hl
    | nil =>
      simp only [arrayTail, List.append_assoc, List.cons_append, List.nil_append] at h
      obtain ⟨h1, -, h2⟩ := dec_split (by decide) (by decide) h
      exact ⟨by rw [h1], h2⟩
  | cons n' a ih =>
    intro b n m x y hl h
    cases b with
    | nil => simp at hl
    | cons m' b =>
      rw [arrayTail_cons, arrayTail_cons] at h
      simp only [hs, List.append_assoc, List.cons_append, List.nil_append] at h
      obtain ⟨h1, -, h2⟩ := dec_split (by decide) (by decide) h
      simp only [List.cons.injEq, true_and] at h2
      obtain ⟨h3, h4⟩ := ih b n' m' x y (by simpa using hl) h2
      exact ⟨by rw [h1, h3], h4⟩

theorem hex_message_inj {pre post : Text} {a b : Bytes32} (h : pre ++ hexEncode a.val ++ post = pre ++ hexEncode b.val ++ post) : a = b := by
  simp only [List.append_assoc, List.append_cancel_left_eq] at h
  exact (hex32_split h).1

/-- The elements of a printed array, followed by anything. -/
theorem arrayTail_inj {a b : List Nat} {x y : Text} (hl : a.length = b.length) (h : arrayTail a ++ x = arrayTail b ++ y) :
    a = b ∧ x = y := by
  cases a with
  | nil =>
    cases b with
    | nil => simp [arrayTail] at h; exact ⟨rfl, h⟩
    | cons _ _ => simp at hl
  | cons n a =>
    cases b with
    | nil => simp at hl
    | cons m b => exact arrayTail_cons_inj a b n m x y (by simpa using hl) h

end Print
open Print

theorem Position.debug_split {a b : Position} {x y : Text} (h : a.debug ++ x = b.debug ++ y) : a = b ∧ x = y := by
  unfold Position.debug at h
  generalize "Position(".toList = pre at h
  simp only [List.append_assoc, List.append_cancel_left_eq, List.cons_append, List.nil_append] at h
  obtain ⟨h1, -, h2⟩ := dec_split (by decide) (by decide) h
  obtain ⟨i⟩ := a
  obtain ⟨j⟩ := b
  simp only [Position.inOrderIndex] at h1
  exact ⟨by rw [h1], h2⟩

theorem Binary.Node.debug_inj {a b : Binary.Node} (h : a.debug = b.debug) : a = b := by
  simp only [Binary.Node.debug, debugStruct, fields, List.append_assoc, List.append_cancel_left_eq] at h
  obtain ⟨h1, h2⟩ := Position.debug_split h
  simp only [debugArray, List.append_cancel_left_eq, List.cons_append, List.cons.injEq, true_and] at h2
  obtain ⟨h3, -⟩ := arrayTail_inj (by rw [List.length_map, List.length_map, a.hash.2, b.hash.2]) h2
  have h4 : a.hash.val = b.hash.val := by
    apply List.map_inj_right (f := UInt8.toNat) (fun x y hxy => UInt8.toNat_inj.1 hxy) |>.1 h3
  cases a; cases b
  simp only at h1 h4
  rw [h1, Subtype.ext h4]

namespace Sparse

theorem Node.debugAs_node (name : Text) (H : HashFn) (n : Node) (h : n.pfx = .node) :
    n.debugAs name H = .ok (debugStruct (name ++ " (Internal)".toList)
      [("Height".toList, dec n.height), ("Hash".toList, quoted (hexEncode (n.hash H).val)),
        ("Left child key".toList, quoted (hexEncode n.bytesLo.val)), ("Right child key".toList, quoted (hexEncode n.bytesHi.val))]) := by
  have hn : n.isNode = true := by simp [isNode, h]
  simp only [debugAs, hn, if_true, leftChildKey, rightChildKey, rassert]
  rfl

theorem Node.debugAs_leaf (name : Text) (H : HashFn) (n : Node) (h : n.pfx = .leaf) :
    n.debugAs name H = .ok (debugStruct (name ++ " (Leaf)".toList)
      [("Height".toList, dec n.height), ("Hash".toList, quoted (hexEncode (n.hash H).val)),
        ("Leaf key".toList, quoted (hexEncode n.bytesLo.val)), ("Leaf data".toList, quoted (hexEncode n.bytesHi.val))]) := by
  have hn : n.isNode = false := by simp [isNode, h]
  have hl : n.isLeaf = true := by simp [isLeaf, h]
  simp only [debugAs, hn, hl, leafKey, leafData, rassert]
  rfl

theorem Node.debugAs_inj {name : Text} {H : HashFn} {a b : Node} (h : a.debugAs name H = b.debugAs name H) : a = b := by
  have e1 : " (Internal)".toList = " (I".toList ++ "nternal)".toList := by decide
  have e2 : " (Leaf)".toList = " (L".toList ++ "eaf)".toList := by decide
  have hs : ", ".toList = [',', ' '] := by decide
  obtain ⟨ha, pa, la, ra⟩ := a
  obtain ⟨hb, pb, lb, rb⟩ := b
  cases pa <;> cases pb
  · rw [debugAs_node _ _ _ rfl, debugAs_node _ _ _ rfl] at h
    injection h with h
    simp only [debugStruct, fields, quoted, hs, List.append_assoc, List.append_cancel_left_eq, List.cons_append, List.nil_append] at h
    obtain ⟨h1, -, h⟩ := dec_split (by decide) (by decide) h
    simp only [List.append_cancel_left_eq, List.cons.injEq, true_and] at h
    obtain ⟨-, h⟩ := hex32_split h
    simp only [List.append_cancel_left_eq, List.cons.injEq, true_and] at h
    obtain ⟨h2, h⟩ := hex32_split h
    simp only [List.append_cancel_left_eq, List.cons.injEq, true_and] at h
    obtain ⟨h3, h⟩ := hex32_split h
    rw [h1, h2, h3]
  · rw [debugAs_node _ _ _ rfl, debugAs_leaf _ _ _ rfl] at h
    injection h with h
    simp only [debugStruct, e1, e2, List.append_assoc, List.append_cancel_left_eq] at h
    have := (List.append_inj h (by decide)).1
    exact absurd this (by decide)
  · rw [debugAs_leaf _ _ _ rfl, debugAs_node _ _ _ rfl] at h
    injection h with h
    simp only [debugStruct, e1, e2, List.append_assoc, List.append_cancel_left_eq] at h
    have := (List.append_inj h (by decide)).1
    exact absurd this (by decide)
  · rw [debugAs_leaf _ _ _ rfl, debugAs_leaf _ _ _ rfl] at h
    injection h with h
    simp only [debugStruct, fields, quoted, hs, List.append_assoc, List.append_cancel_left_eq, List.cons_append, List.nil_append] at h
    obtain ⟨h1, -, h⟩ := dec_split (by decide) (by decide) h
    simp only [List.append_cancel_left_eq, List.cons.injEq, true_and] at h
    obtain ⟨-, h⟩ := hex32_split h
    simp only [List.append_cancel_left_eq, List.cons.injEq, true_and] at h
    obtain ⟨h2, h⟩ := hex32_split h
    simp only [List.append_cancel_left_eq, List.cons.injEq, true_and] at h
    obtain ⟨h3, h⟩ := hex32_split h
    rw [h1, h2, h3]

end Sparse

namespace Sum
variable {E : Type}

/-- Nodes that can be printed. -/
def Node.Printable (n : Node) : Prop := n.height = 0 ∨ n.leftChildKey ≠ none ∧ n.rightChildKey ≠ none

theorem Node.debug_ok_iff (n : Node) : (∃ x, n.debug = .ok x) ↔ n.Printable := by
  obtain ⟨h, d, f, l, r⟩ := n
  unfold Node.debug Node.Printable
  by_cases h0 : h = 0
  · simp [h0]
  · cases l <;> cases r <;> simp [h0, runwrap]

theorem Node.debug_panic (n : Node) (hn : ¬ n.Printable) : n.debug = .error .unwrapNone := by
  obtain ⟨g, d, f, l, r⟩ := n
  unfold Node.Printable at hn
  unfold Node.debug
  by_cases h0 : g = 0
  · simp [h0] at hn
  · cases l <;> cases r <;> simp_all [runwrap]

theorem Node.debug_leaf (n : Node) (h : n.height = 0) : n.debug = .ok (debugStruct "Node (Leaf)".toList
      [("Hash".toList, quoted (hexEncode n.hash.val)), ("Fee".toList, dec n.fee),
        ("Key".toList, quoted (hexEncode n.hash.val))]) := by
  simp [Node.debug, h]

theorem Node.debug_node (n : Node) (h : n.height ≠ 0) {l r : Bytes32} (hl : n.leftChildKey = some l)
    (hr : n.rightChildKey = some r) : n.debug = .ok (debugStruct "Node (Internal)".toList
      [("Hash".toList, quoted (hexEncode n.hash.val)), ("Fee".toList, dec n.fee),
        ("Left child key".toList, quoted (hexEncode l.val)), ("Right child key".toList, quoted (hexEncode r.val))]) := by
  simp [Node.debug, h, hl, hr, runwrap]

theorem Node.printable_cases {n : Node} (h : n.Printable) : n.height = 0 ∨ n.height ≠ 0 ∧ ∃ l r, n.leftChildKey = some l ∧ n.rightChildKey = some r := by
  rcases h with h | ⟨h1, h2⟩
  · exact .inl h
  · by_cases h0 : n.height = 0
    · exact .inl h0
    · obtain ⟨l, hl⟩ := Option.ne_none_iff_exists'.1 h1
      obtain ⟨r, hr⟩ := Option.ne_none_iff_exists'.1 h2
      exact .inr ⟨h0, l, r, hl, hr⟩

theorem Node.debug_inj {a b : Node} (ha : a.Printable) (hb : b.Printable) (h : a.debug = b.debug) :
    a.hash = b.hash ∧ a.fee = b.fee ∧ (a.height = 0 ↔ b.height = 0) ∧
      (a.height ≠ 0 → a.leftChildKey = b.leftChildKey ∧ a.rightChildKey = b.rightChildKey) := by
  have e1 : "Node (Internal)".toList = "Node (I".toList ++ "nternal)".toList := by decide
  have e2 : "Node (Leaf)".toList = "Node (L".toList ++ "eaf)".toList := by decide
  have hs : ", ".toList = [',', ' '] := by decide
  have he : " }".toList = [' ', '}'] := by decide
  rcases Node.printable_cases ha with ha0 | ⟨ha0, la, ra, hla, hra⟩ <;>
    rcases Node.printable_cases hb with hb0 | ⟨hb0, lb, rb, hlb, hrb⟩
  · rw [Node.debug_leaf _ ha0, Node.debug_leaf _ hb0] at h
    injection h with h
    simp only [debugStruct, fields, quoted, hs, List.append_assoc, List.append_cancel_left_eq, List.cons_append, List.nil_append,
      List.cons.injEq, true_and] at h
    obtain ⟨h1, h⟩ := hex32_split h
    simp only [List.append_cancel_left_eq, List.cons.injEq, true_and] at h
    obtain ⟨h2, -, h⟩ := dec_split (by decide) (by decide) h
    exact ⟨h1, h2, by simp [ha0, hb0], fun h => absurd ha0 h⟩
  · rw [Node.debug_leaf _ ha0, Node.debug_node _ hb0 hlb hrb] at h
    injection h with h
    simp only [debugStruct, e1, e2, List.append_assoc] at h
    have := (List.append_inj h (by decide)).1
    exact absurd this (by decide)
  · rw [Node.debug_leaf _ hb0, Node.debug_node _ ha0 hla hra] at h
    injection h with h
    simp only [debugStruct, e1, e2, List.append_assoc] at h
    have := (List.append_inj h (by decide)).1
    exact absurd this (by decide)
  · rw [Node.debug_node _ ha0 hla hra, Node.debug_node _ hb0 hlb hrb] at h
    injection h with h
    simp only [debugStruct, fields, quoted, hs, List.append_assoc, List.append_cancel_left_eq, List.cons_append, List.nil_append,
      List.cons.injEq, true_and] at h
    obtain ⟨h1, h⟩ := hex32_split h
    simp only [List.append_cancel_left_eq, List.cons.injEq, true_and] at h
    obtain ⟨h2, -, h⟩ := dec_split (by decide) (by decide) h
    simp only [List.append_cancel_left_eq, List.cons.injEq, true_and] at h
    obtain ⟨h3, h⟩ := hex32_split h
    simp only [List.append_cancel_left_eq, List.cons.injEq, true_and] at h
    obtain ⟨h4, h⟩ := hex32_split h
    refine ⟨h1, h2, by simp [ha0, hb0], fun _ => ⟨?_, ?_⟩⟩
    · rw [hla, hlb, h3]
    · rw [hra, hrb, h4]

/-- All nodes of the tree and of its storage can be printed. -/
def Tree.Printable (t : Tree E) : Prop :=
  (∀ n ∈ t.head, n.Printable) ∧ ∀ k n, t.storage.map k = some n → n.Printable

/-- A computation keeps trees printable and returns only values with `Q`. -/
def Prints {α : Type} (m : TreeM E α) (Q : α → Prop) : Prop :=
  ∀ t : Tree E, t.Printable → (m t).2.Printable ∧ ∀ a, (m t).1 = .ok a → Q a

theorem Prints.bind {α β : Type} {m : TreeM E α} {f : α → TreeM E β} {Q : α → Prop} {R : β → Prop}
    (hm : Prints m Q) (hf : ∀ a, Q a → Prints (f a) R) : Prints (m >>= f) R := by
  intro t ht
  obtain ⟨h1, h2⟩ := hm t ht
  rcases h : m t with ⟨r, t'⟩
  rw [h] at h1 h2
  cases r with
  | ok a =>
    rw [Exec.bind_ok h]
    exact hf a (h2 a rfl) t' h1
  | error e =>
    rw [Exec.bind_error h]
    exact ⟨h1, fun a ha => by cases ha⟩

theorem Prints.pure {α : Type} {a : α} {Q : α → Prop} (h : Q a) : Prints (E := E) (Pure.pure a : TreeM E α) Q :=
  fun _ ht => ⟨ht, fun b hb => by cases hb; exact h⟩

theorem Prints.liftRes {α : Type} {r : Res α} {Q : α → Prop} (h : ∀ a, r = .ok a → Q a) :
    Prints (E := E) (Exec.liftRes r) Q := by
  intro t ht
  cases r with
  | ok a => exact ⟨ht, fun b hb => by cases hb; exact h _ rfl⟩
  | error q => exact ⟨ht, fun b hb => by cases hb⟩

theorem Prints.insert {n : Node} (hn : n.Printable) : Prints (E := E) (onStorage (Store.insert n.hash n)) fun _ => True := by
  intro t ht
  rw [onStorage_insert]
  refine ⟨⟨ht.1, ?_⟩, fun _ _ => trivial⟩
  intro k m hm
  have hu : Store.upd t.storage.map n.hash (some n) k = some m → m.Printable := by
    intro h
    rw [Store.upd_apply] at h
    split at h
    · cases h; exact hn
    · exact ht.2 k m h
  cases hs : t.storage.sched t.storage.clock with
  | none => simp only [Sum.wrote, hs] at hm; exact hu hm
  | some f =>
    simp only [Sum.wrote, hs] at hm
    by_cases hf : f.applied = true
    · rw [if_pos hf] at hm; exact hu hm
    · rw [if_neg hf] at hm; exact ht.2 k m hm

theorem createNode_printable {p : Profile} {H : HashFn} {g lf rf : Nat} {lk rk : Bytes32} {n : Node}
    (h : Node.createNode p H g lf lk rf rk = .ok n) : n.Printable := by
  unfold Node.createNode at h
  cases hu : u64Add p lf rf with
  | error q => rw [hu] at h; cases h
  | ok v =>
    rw [hu] at h
    injection h with h
    subst h
    exact .inr ⟨by simp, by simp⟩

theorem Prints.join (p : Profile) (H : HashFn) (l r : Node) : Prints (E := E) (joinSubtrees p H l r) Node.Printable :=
  .bind (Q := fun _ => True) (.liftRes fun _ _ => trivial) fun _ _ =>
    .bind (.liftRes fun _ h => createNode_printable h) fun _ hn =>
      .bind (.insert hn) fun _ _ => .pure hn

theorem Prints.rootLoop (p : Profile) (H : HashFn) : ∀ (l : List Node) (n : Node), n.Printable →
    Prints (E := E) (rootLoop p H n l) Node.Printable
  | [], _, hn => .pure hn
  | m :: l, n, _ => .bind (.join p H m n) fun j hj => Prints.rootLoop p H l j hj

theorem Prints.root (p : Profile) (H : HashFn) : Prints (E := E) (root p H) fun _ => True := by
  refine .bind (Q := fun _ => True) ?_ fun o _ => ?_
  · intro t ht
    unfold rootNode
    rw [Exec.get_bind]
    rcases h : t.head with _ | ⟨n, l⟩
    · exact ⟨ht, fun _ _ => trivial⟩
    · have hn : n.Printable := ht.1 n (by rw [h]; simp)
      exact Prints.bind (Prints.rootLoop p H l n hn) (fun _ _ => Prints.pure (Q := fun _ => True) trivial) t ht
  · cases o <;> exact .pure trivial

theorem Prints.setHead {l : List Node} (h : ∀ n ∈ l, n.Printable) :
    Prints (E := E) (Exec.modify fun t => { t with head := l }) fun _ => True :=
  fun _ ht => ⟨⟨h, ht.2⟩, fun _ _ => trivial⟩

theorem Prints.joinAllLoop (p : Profile) (H : HashFn) : ∀ (l : List Node) (n : Node), (∀ m ∈ l, m.Printable) →
    Prints (E := E) (joinAllLoop p H n l) fun _ => True
  | [], _, _ => .pure trivial
  | m :: l, n, h => by
    unfold Sum.joinAllLoop
    split
    · exact .bind (.setHead (by simp)) fun _ _ => .bind (.join p H m n) fun j hj =>
        .bind (.setHead (by
          intro k hk
          rcases List.mem_cons.1 hk with rfl | hk
          · exact hj
          · exact h k (by simp [hk]))) fun _ _ => Prints.joinAllLoop p H l j fun k hk => h k (by simp [hk])
    · exact .pure trivial

theorem Prints.push (p : Profile) (H : HashFn) (fee : Nat) (d : Bytes) : Prints (E := E) (push p H fee d) fun _ => True := by
  have hn : (Node.createLeaf H fee d).Printable := .inl rfl
  refine .bind (.insert hn) fun _ _ => .bind (Q := fun _ => True) ?_ fun _ _ => ?_
  · intro t ht
    refine ⟨⟨?_, ht.2⟩, fun _ _ => trivial⟩
    intro m hm
    rcases List.mem_cons.1 hm with rfl | hm
    · exact hn
    · exact ht.1 m hm
  · intro t ht
    unfold joinAllSubtrees
    rw [Exec.get_bind]
    rcases h : t.head with _ | ⟨n, l⟩
    · exact ⟨ht, fun _ _ => trivial⟩
    · exact Prints.joinAllLoop p H l n (fun m hm => ht.1 m (by rw [h]; simp [hm])) t ht

theorem run_printable (p : Profile) (H : HashFn) : ∀ (ops : List Op) (t : Tree E), t.Printable → (run p H ops t).2.Printable
  | [], _, ht => ht
  | .push fee d :: ops, t, ht => run_printable p H ops _ ((Prints.push p H fee d) t ht).1
  | .root :: ops, t, ht => run_printable p H ops _ ((Prints.root p H) t ht).1

end Sum
end FuelMerkle
