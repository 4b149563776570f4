import Verif.Proofs.Print
import Verif.Spec.Text

/-
The model's hexadecimal and decimal texts are the ones of the specification.
-/
namespace FuelMerkle
namespace Print
open Spec

theorem digitChar_spec : ∀ d, d < 16 → digits.idxOf (Nat.digitChar d) = d ∧ Nat.digitChar d ∈ digits ∧
    (d < 10 → Nat.digitChar d ∈ digits.take 10) ∧ (Nat.digitChar d = '0' → d = 0) := by decide

theorem valueIn_append (b : Nat) (s t : Text) : valueIn b (s ++ t) = valueIn b s * b ^ t.length + valueIn b t := by
  unfold valueIn
  rw [List.foldl_append]
  generalize s.foldl _ 0 = v
  induction t generalizing v with
  | nil => simp
  | cons c t ih =>
    rw [List.foldl_cons, List.foldl_cons, ih, ih (0 * b + _), List.length_cons, Nat.pow_succ]
    grind

theorem isHex_hexByte (b : UInt8) : IsHex (hexByte b) [b] := by
  have hb := b.toNat_lt
  have h1 := digitChar_spec (b.toNat / 16) (by omega)
  have h2 := digitChar_spec (b.toNat % 16) (by omega)
  refine ⟨rfl, ?_, ?_⟩
  · intro c hc
    simp only [hexByte, List.mem_cons, List.not_mem_nil, or_false] at hc
    rcases hc with rfl | rfl
    · exact h1.2.1
    · exact h2.2.1
  · simp only [valueIn, hexByte, List.foldl_cons, List.foldl_nil, beNat, h1.1, h2.1]
    simp
    omega

theorem isHex_hexEncode : ∀ bs : Bytes, IsHex (hexEncode bs) bs
  | [] => ⟨rfl, by simp [hexEncode], rfl⟩
  | b :: bs => by
    obtain ⟨h1, h2, h3⟩ := isHex_hexEncode bs
    obtain ⟨g1, g2, g3⟩ := isHex_hexByte b
    rw [hexEncode_cons]
    refine ⟨by simp only [List.length_append, List.length_cons, h1, g1, List.length_nil]; omega, ?_, ?_⟩
    · intro c hc
      rcases List.mem_append.1 hc with h | h
      · exact g2 c h
      · exact h2 c h
    · rw [valueIn_append, h3, g3, h1, Nat.pow_mul]
      simp [beNat]

theorem isDecimal_dec (n : Nat) : IsDecimal (dec n) n := by
  unfold dec
  induction n using Nat.strongRecOn with
  | _ n ih =>
    by_cases h : n < 10
    · have hd := digitChar_spec n (by omega)
      rw [Nat.toDigits_of_lt_base h]
      refine ⟨by simp, ?_, ?_, ?_⟩
      · intro c hc
        rw [List.mem_singleton.1 hc]
        exact hd.2.2.1 h
      · simp [valueIn, hd.1]
      · intro hc
        simp only [List.head?_cons, Option.some.injEq] at hc
        rw [hc]
    · have hd := digitChar_spec (n % 10) (by omega)
      obtain ⟨h1, h2, h3, h4⟩ := ih (n / 10) (by omega)
      rw [Nat.toDigits_of_base_le (by omega) (by omega)]
      refine ⟨by simp, ?_, ?_, ?_⟩
      · intro c hc
        rcases List.mem_append.1 hc with h | h
        · exact h2 c h
        · rw [List.mem_singleton.1 h]
          exact hd.2.2.1 (by omega)
      · rw [valueIn_append, h3]
        simp only [valueIn, List.length_singleton, List.foldl_cons, List.foldl_nil, hd.1]
        omega
      · intro hc
        have := h4 (by
          cases hq : Nat.toDigits 10 (n / 10) with
          | nil => exact absurd hq h1
          | cons c t => rw [hq] at hc; exact hc)
        rw [this] at h3
        exfalso
        have : valueIn 10 ['0'] = 0 := by decide
        omega

theorem arrayTail_eq : ∀ ns : List Nat, arrayTail ns = List.intercalate ", ".toList (ns.map dec) ++ [']']
  | [] => rfl
  | [n] => by simp [arrayTail, List.intercalate]
  | n :: m :: ns => by
    rw [arrayTail_cons, arrayTail_eq (m :: ns)]
    simp [List.intercalate]

theorem isArray_debugArray (ns : List Nat) : IsArray (debugArray ns) ns := by
  refine ⟨ns.map dec, by simp, ?_, by rw [debugArray, arrayTail_eq]; simp⟩
  intro i t n ht hn
  simp only [List.getElem?_map] at ht
  rw [hn] at ht
  simp only [Option.map_some, Option.some.injEq] at ht
  rw [← ht]
  exact isDecimal_dec n

end Print
open Print

theorem Binary.Node.debug_text (n : Binary.Node) : n.debug = "Node { position: Position(".toList ++ dec n.position.inOrderIndex ++
    "), hash: ".toList ++ debugArray (n.hash.val.map UInt8.toNat) ++ " }".toList := by
  unfold Binary.Node.debug Position.debug debugStruct fields
  generalize dec n.position.inOrderIndex = a
  generalize debugArray (n.hash.val.map UInt8.toNat) = b
  simp only [fields]
  simp

end FuelMerkle
