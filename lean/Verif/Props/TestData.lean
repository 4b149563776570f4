import Verif.Spec.TestData
import Verif.Props.InMemory
import Verif.Props.Verify

/-
Property C69: the data-driven tests report what the trees do.
-/
namespace FuelMerkle
namespace Props
open Spec TestData

/-! ### Values -/

theorem means_iff (C : Codecs) (v : EncodedValue) (b : Bytes) : v.Means C b ↔ v.intoBytes C = .ok b := by
  obtain ⟨s, e⟩ := v
  cases e <;> simp only [EncodedValue.Means, EncodedValue.intoBytes]
  · cases C.base64Decode s <;> simp
  · cases C.hexDecode s <;> simp
  · simp

theorem intoBytes_error (C : Codecs) (v : EncodedValue) (e : TestError) (h : v.intoBytes C = .error e) : e = .decodingError := by
  obtain ⟨s, c⟩ := v
  cases c <;> simp only [EncodedValue.intoBytes] at h
  · cases hd : C.base64Decode s <;> rw [hd] at h <;> cases h; rfl
  · cases hd : C.hexDecode s <;> rw [hd] at h <;> cases h; rfl
  · cases h

theorem utf8Bytes_inj {s t : String} (h : utf8Bytes s = utf8Bytes t) : s = t := by
  rw [← String.toByteArray_inj]
  unfold utf8Bytes at h
  have := Array.toList_inj.1 h
  cases hs : s.toByteArray; cases ht : t.toByteArray
  rw [hs, ht] at this
  simpa using this

/-- What is written in hexadecimal or base64 is read back. What is written as text is read back
exactly if it is UTF-8. -/
theorem C69_values_round_trip (C : Codecs) (hC : C.Lawful) (b : Bytes) :
    (EncodedValue.fromRaw C b .hex).intoBytes C = .ok b ∧
    (EncodedValue.fromRaw C b .base64).intoBytes C = .ok b ∧
    ((EncodedValue.fromRaw C b .utf8).intoBytes C = .ok b ↔ ∃ s, utf8Bytes s = b) := by
  refine ⟨by simp [EncodedValue.fromRaw, EncodedValue.intoBytes, hC.hex],
    by simp [EncodedValue.fromRaw, EncodedValue.intoBytes, hC.base64], ?_⟩
  simp only [EncodedValue.fromRaw, EncodedValue.intoBytes]
  constructor
  · intro h; exact ⟨_, Except.ok.inj h⟩
  · rintro ⟨s, rfl⟩; rw [hC.utf8]

theorem u8_eq {n : Nat} {a : UInt8} (h : n = a.toNat) : UInt8.ofNat n = a := by subst h; simp

theorem hex_chars : ∀ bs, hexDecodeChars (hexEncodeChars bs) = some bs := by
  have h1 : ∀ n, n < 16 → hexVal (hexChar n) = some n := by decide
  intro bs
  induction bs with
  | nil => rfl
  | cons b bs ih =>
    have hb := b.toNat_lt
    have e1 : UInt8.ofNat (16 * (b.toNat / 16) + b.toNat % 16) = b := u8_eq (by omega)
    simp only [hexEncodeChars, hexDecodeChars, h1 _ (show b.toNat / 16 < 16 by omega), h1 _ (show b.toNat % 16 < 16 by omega), ih]
    simp only [Option.bind_eq_bind, Option.bind_some, e1]; rfl

theorem b64_val : ∀ n, n < 64 → b64Val (b64Char n) = some n := by decide +kernel

theorem b64_ne : ∀ n, n < 64 → b64Char n ≠ '=' := by decide +kernel

theorem b64_chars : ∀ bs, b64DecodeChars (b64EncodeChars bs) = some bs := by
  intro bs
  induction bs using b64EncodeChars.induct with
  | case1 => rfl
  | case2 a =>
    have ha := a.toNat_lt
    have e1 : UInt8.ofNat (a.toNat / 4 * 4 + a.toNat % 4 * 16 / 16) = a := u8_eq (by omega)
    simp only [b64EncodeChars, b64DecodeChars, b64_val _ (show a.toNat / 4 < 64 by omega),
      b64_val _ (show a.toNat % 4 * 16 < 64 by omega), Option.bind_eq_bind, Option.bind_some, e1]
    simp
  | case3 a b =>
    have ha := a.toNat_lt
    have hb := b.toNat_lt
    have e1 : UInt8.ofNat (a.toNat / 4 * 4 + (a.toNat % 4 * 16 + b.toNat / 16) / 16) = a := u8_eq (by omega)
    have e2 : UInt8.ofNat ((a.toNat % 4 * 16 + b.toNat / 16) % 16 * 16 + b.toNat % 16 * 4 / 4) = b := u8_eq (by omega)
    simp only [b64EncodeChars, b64DecodeChars, b64_val _ (show a.toNat / 4 < 64 by omega),
      b64_val _ (show a.toNat % 4 * 16 + b.toNat / 16 < 64 by omega), b64_val _ (show b.toNat % 16 * 4 < 64 by omega),
      Option.bind_eq_bind, Option.bind_some, e1, e2, b64_ne _ (show b.toNat % 16 * 4 < 64 by omega)]
    simp
  | case4 a b c bs ih =>
    have ha := a.toNat_lt
    have hb := b.toNat_lt
    have hc := c.toNat_lt
    have e1 : UInt8.ofNat (a.toNat / 4 * 4 + (a.toNat % 4 * 16 + b.toNat / 16) / 16) = a := u8_eq (by omega)
    have e2 : UInt8.ofNat ((a.toNat % 4 * 16 + b.toNat / 16) % 16 * 16 + (b.toNat % 16 * 4 + c.toNat / 64) / 4) = b := u8_eq (by omega)
    have e3 : UInt8.ofNat ((b.toNat % 16 * 4 + c.toNat / 64) % 4 * 64 + c.toNat % 64) = c := u8_eq (by omega)
    simp only [b64EncodeChars, b64DecodeChars, b64_val _ (show a.toNat / 4 < 64 by omega),
      b64_val _ (show a.toNat % 4 * 16 + b.toNat / 16 < 64 by omega),
      b64_val _ (show b.toNat % 16 * 4 + c.toNat / 64 < 64 by omega), b64_val _ (show c.toNat % 64 < 64 by omega), ih,
      Option.bind_eq_bind, Option.bind_some, e1, e2, e3, b64_ne _ (show c.toNat % 64 < 64 by omega)]
    simp

/-- The hypotheses about the codecs are met by hexadecimal and RFC 4648 base64. -/
theorem C69_standard_codecs : standard.Lawful where
  base64 b := by simp [standard, String.toList_ofList, b64_chars]
  hex b := by simp [standard, String.toList_ofList, hex_chars]
  utf8 s := by
    simp only [standard, utf8Bytes, Array.toArray_toList, String.fromUTF8?]
    have h : (⟨s.toByteArray.data⟩ : ByteArray) = s.toByteArray := rfl
    rw [dif_pos (by rw [h]; exact s.isValidUTF8)]
    rfl

/-! ### Binary proof tests -/

theorem toArray32_val (b : Bytes32) : toArray32 b.val = .ok b := by
  unfold toArray32; rw [dif_pos b.2]

theorem toArray32_ok {b : Bytes} {x : Bytes32} (h : toArray32 b = .ok x) : x.val = b := by
  unfold toArray32 at h
  split at h
  · cases h; rfl
  · cases h

theorem unwrapBytes32_ok (C : Codecs) (v : EncodedValue) (x : Bytes32) : unwrapBytes32 C v = .ok x ↔ v.Means C x.val := by
  rw [means_iff]
  unfold unwrapBytes32
  constructor
  · intro h
    split at h
    · next b hb => rw [hb, ← toArray32_ok h]
    · cases h
  · intro h; rw [h]; exact toArray32_val x

theorem ok_bind {ε α β : Type} (a : α) (f : α → Except ε β) : ((.ok a : Except ε α) >>= f) = f a := rfl

theorem error_bind {ε α β : Type} (e : ε) (f : α → Except ε β) : ((.error e : Except ε α) >>= f) = .error e := rfl

theorem lift_error {α : Type} (q : Panic) : (TestData.lift (.error q) : Outcome α) = .error (.panic q) := rfl

theorem ask_error {α : Type} (e : TestError) : (ask (.error e) : Outcome α) = .error (.err e) := rfl

theorem unwrapAll_ok (C : Codecs) : ∀ (vs : List EncodedValue) (xs : List Bytes32), unwrapAll C vs = .ok xs ↔ Reads C vs xs := by
  intro vs
  induction vs with
  | nil =>
    intro xs
    cases xs with
    | nil => exact ⟨fun _ => trivial, fun _ => rfl⟩
    | cons x xs => exact ⟨nofun, nofun⟩
  | cons v vs ih =>
    intro xs
    rw [unwrapAll]
    constructor
    · intro h
      cases hv : unwrapBytes32 C v with
      | error e => rw [hv, error_bind] at h; cases h
      | ok b =>
        rw [hv, ok_bind] at h
        cases hvs : unwrapAll C vs with
        | error e => rw [hvs, error_bind] at h; cases h
        | ok bs =>
          rw [hvs, ok_bind] at h
          cases h
          exact ⟨(unwrapBytes32_ok C v b).1 hv, (ih bs).1 hvs⟩
    · intro h
      cases xs with
      | nil => exact h.elim
      | cons x xs =>
        rw [(unwrapBytes32_ok C v _).2 h.1, ok_bind, (ih _).2 h.2]; rfl

theorem ask_ok {α : Type} (a : α) : ask (.ok a) = .ok a := rfl

theorem lift_ok {α : Type} (a : α) : TestData.lift (.ok a) = .ok a := rfl

/-- A test whose values mean a root and a proof set. -/
theorem proofTest_eq (C : Codecs) (p : Profile) (H : HashFn) (t : ProofTest) (r : Bytes32) (ps : List Bytes32)
    (hr : t.root.Means C r.val) (hps : Reads C t.proofSet ps) :
    t.execute C p H = (TestData.lift (Verify.verify p H r ps t.proofIndex t.numLeaves) >>= fun b =>
      if b = t.expectedVerification then .ok () else .error (.err (.failed t.name))) := by
  unfold ProofTest.execute
  rw [(means_iff C _ _).1 hr, (unwrapAll_ok C _ _).2 hps]
  simp only [ask_ok, lift_ok, ok_bind, toArray32_val]

/-- A proof test passes exactly if its values are readable, have 32 bytes, and the verifier gives
the expected answer for them; it reports `Failed` with its name exactly if the verifier gives the
other answer; it reports `DecodingError` exactly if its root is not readable. -/
theorem C69_proof_test_verdict (C : Codecs) (p : Profile) (H : HashFn) (t : ProofTest) :
    (t.execute C p H = .ok () ↔ ∃ r : Bytes32, ∃ ps : List Bytes32, t.root.Means C r.val ∧
      Reads C t.proofSet ps ∧
      Verify.verify p H r ps t.proofIndex t.numLeaves = .ok t.expectedVerification) ∧
    (∀ n, t.execute C p H = .error (.err (.failed n)) ↔ n = t.name ∧ ∃ r : Bytes32, ∃ ps : List Bytes32, t.root.Means C r.val ∧
      Reads C t.proofSet ps ∧
      Verify.verify p H r ps t.proofIndex t.numLeaves = .ok (!t.expectedVerification)) ∧
    (t.execute C p H = .error (.err .decodingError) ↔ ∀ b, ¬ t.root.Means C b) := by
  -- the values that are not as they should be
  cases hr : t.root.intoBytes C with
  | error e =>
    have hno : ∀ b, ¬ t.root.Means C b := by intro b h; rw [means_iff, hr] at h; cases h
    have he : t.execute C p H = .error (.err .decodingError) := by
      unfold ProofTest.execute; rw [hr, intoBytes_error C _ _ hr]; rfl
    rw [he]
    refine ⟨⟨nofun, ?_⟩, fun n => ⟨nofun, ?_⟩, ⟨fun _ => hno, fun _ => rfl⟩⟩
    · rintro ⟨r, _, h, _⟩; exact absurd h (hno _)
    · rintro ⟨_, r, _, h, _⟩; exact absurd h (hno _)
  | ok b =>
    have hb : t.root.Means C b := (means_iff C _ _).2 hr
    have huniq : ∀ b', t.root.Means C b' → b' = b := by
      intro b' h; rw [means_iff, hr] at h; exact (Except.ok.inj h).symm
    by_cases h32 : b.length = 32
    · cases hps : unwrapAll C t.proofSet with
      | error q =>
        have he : t.execute C p H = .error (.panic q) := by
          unfold ProofTest.execute; rw [hr, hps]
          simp only [ask_ok, toArray32, dif_pos h32, lift_ok, ok_bind, lift_error, error_bind]
        rw [he]
        have hno : ∀ ps, ¬ Reads C t.proofSet ps := by
          intro ps h; rw [(unwrapAll_ok C _ _).2 h] at hps; cases hps
        refine ⟨⟨nofun, ?_⟩, fun n => ⟨nofun, ?_⟩, ⟨nofun, fun h => absurd hb (h b)⟩⟩
        · rintro ⟨_, ps, _, h, _⟩; exact absurd h (hno _)
        · rintro ⟨_, _, ps, _, h, _⟩; exact absurd h (hno _)
      | ok ps =>
        have hps' := (unwrapAll_ok C _ _).1 hps
        have huniq' : ∀ qs, Reads C t.proofSet qs → qs = ps := by
          intro qs h; rw [(unwrapAll_ok C _ _).2 h] at hps; exact Except.ok.inj hps
        rw [proofTest_eq C p H t ⟨b, h32⟩ ps hb hps']
        have key : ∀ x, (∃ r : Bytes32, ∃ ps : List Bytes32, t.root.Means C r.val ∧
            Reads C t.proofSet ps ∧
            Verify.verify p H r ps t.proofIndex t.numLeaves = .ok x) ↔
            Verify.verify p H ⟨b, h32⟩ ps t.proofIndex t.numLeaves = .ok x := by
          intro x
          constructor
          · rintro ⟨r, qs, h1, h2, h3⟩
            obtain rfl := huniq' qs h2
            obtain rfl : r = ⟨b, h32⟩ := Subtype.ext (huniq _ h1)
            exact h3
          · intro h; exact ⟨_, ps, hb, hps', h⟩
        rw [key]
        simp only [key]
        cases hv : Verify.verify p H ⟨b, h32⟩ ps t.proofIndex t.numLeaves with
        | error q =>
          exact ⟨⟨nofun, nofun⟩, fun n => ⟨nofun, (by rintro ⟨_, h⟩; cases h)⟩,
            ⟨nofun, fun h => absurd hb (h b)⟩⟩
        | ok v =>
          have hstep : (TestData.lift (.ok v) >>= fun b =>
              if b = t.expectedVerification then (.ok () : Outcome Unit) else .error (.err (.failed t.name))) =
              if v = t.expectedVerification then .ok () else .error (.err (.failed t.name)) := rfl
          rw [hstep]
          by_cases hx : v = t.expectedVerification
          · rw [if_pos hx, hx]
            refine ⟨⟨fun _ => rfl, fun _ => rfl⟩, fun n => ⟨nofun, ?_⟩, ⟨nofun, fun h => absurd hb (h b)⟩⟩
            rintro ⟨_, h⟩
            have := Except.ok.inj h
            cases hq : t.expectedVerification <;> rw [hq] at this <;> cases this
          · rw [if_neg hx]
            have hx' : v = !t.expectedVerification := by
              cases v <;> cases hq : t.expectedVerification <;> simp_all
            refine ⟨⟨nofun, ?_⟩, fun n => ⟨?_, ?_⟩, ⟨nofun, fun h => absurd hb (h b)⟩⟩
            · intro h; exact absurd (Except.ok.inj h) hx
            · intro h; cases h; exact ⟨rfl, by rw [hx']⟩
            · rintro ⟨rfl, _⟩; rfl
    · have he : t.execute C p H = .error (.panic .unwrapNone) := by
        unfold ProofTest.execute; rw [hr]
        simp only [ask_ok, toArray32, dif_neg h32, ok_bind, lift_error, error_bind]
      rw [he]
      have hno : ∀ r : Bytes32, ¬ t.root.Means C r.val := by
        intro r h; apply h32; rw [← huniq _ h]; exact r.2
      refine ⟨⟨nofun, ?_⟩, fun n => ⟨nofun, ?_⟩, ⟨nofun, fun h => absurd hb (h b)⟩⟩
      · rintro ⟨r, _, h, _⟩; exact absurd h (hno _)
      · rintro ⟨_, r, _, h, _⟩; exact absurd h (hno _)

/-! ### The written proof tests -/

theorem pushSamples_eq (p : Profile) (H : HashFn) : ∀ (ds : List Bytes32) (t : Binary.InMemory.T),
    pushSamples p H ds t = Binary.InMemory.pushAll p H t (ds.map Subtype.val) := by
  intro ds
  induction ds with
  | nil => intro t; rfl
  | cons d ds ih =>
    intro t
    simp only [pushSamples, List.map_cons, Binary.InMemory.pushAll, ih]

theorem generateTest_eq (C : Codecs) (p : Profile) (H : HashFn) (n f d : String) (ds : List Bytes32) (hn : ds.length < p.leafLimit)
    (i : Nat) (hi : i < ds.length) :
    generateTest C p H n f d ds i = .ok ⟨n, f, d, .fromRaw C (mth H (ds.map Subtype.val)).val .hex,
      (H ([0x00] ++ ds[i].val) :: auditPath H i (ds.map Subtype.val)).map fun v => .fromRaw C v.val .hex, i, ds.length, true⟩ := by
  have hlim := p.leafLimit_le
  obtain ⟨t, h1, h2, _⟩ := C53_binary_in_memory_prove p H (ds.map Subtype.val) (by simpa using hn)
  have h3 := h2 i (by simpa using hi)
  rw [List.getElem_map] at h3
  unfold generateTest
  rw [pushSamples_eq, h1, ok_bind, h3, ok_bind]
  rfl

theorem reads_fromRaw (C : Codecs) (hC : C.Lawful) : ∀ xs : List Bytes32, Reads C (xs.map fun v => .fromRaw C v.val .hex) xs := by
  intro xs
  induction xs with
  | nil => trivial
  | cons x xs ih => exact ⟨(means_iff C _ _).2 (C69_values_round_trip C hC x.val).1, ih⟩

theorem audit_verify (p : Profile) (H : HashFn) (ds : List Bytes32) (hn : ds.length < p.leafLimit) (i : Nat) (hi : i < ds.length) (r : Bytes32) :
    Verify.verify p H r (H ([0x00] ++ ds[i].val) :: auditPath H i (ds.map Subtype.val)) i ds.length =
      .ok (decide (mth H (ds.map Subtype.val) = r)) := by
  have hlim := p.leafLimit_le
  obtain ⟨b, hb, hiff⟩ := Verify.verify_eq p H r (H ([0x00] ++ ds[i].val)) (auditPath H i (ds.map Subtype.val)) (i := i)
    (n := ds.length) (by omega)
  obtain ⟨a1, a2⟩ := auditPath_climb H ds.length (ds.map Subtype.val) i (by simp) (by simp; omega) (by simpa using hi)
  rw [List.getElem_map] at a2
  rw [hb]
  congr 1
  rw [show H ([0x00] ++ ds[i].val) = Binary.leafSum H ds[i].val from rfl, a2] at hiff
  by_cases h : mth H (ds.map Subtype.val) = r
  · rw [hiff.2 ⟨hi, a1, h⟩]; simp only [h, decide_true]
  · simp only [h, decide_false]
    cases b with
    | false => rfl
    | true => exact absurd (hiff.1 rfl).2.2 h

/-- The test written for any samples and any index among them passes; in particular the tests for
10, 1, 100 and 1024 leaves, whatever samples are drawn. -/
theorem C69_written_tests_pass (C : Codecs) (hC : C.Lawful) (p : Profile) (H : HashFn) (name fn desc : String) (ds : List Bytes32)
    (hn : ds.length < p.leafLimit) (i : Nat) (hi : i < ds.length) :
    ∃ t, generateTest C p H name fn desc ds i = .ok t ∧ t.execute C p H = .ok () := by
  have hlim := p.leafLimit_le
  refine ⟨_, generateTest_eq C p H name fn desc ds hn i hi, ?_⟩
  rw [(C69_proof_test_verdict C p H _).1]
  refine ⟨_, _, (means_iff C _ _).2 (C69_values_round_trip C hC _).1, reads_fromRaw C hC _, ?_⟩
  rw [audit_verify p H ds hn i hi]
  simp

/-- The tests written to be rejected by the verifier also pass (the verifier rejects them): no
leaves, index out of range, and the invalid root unless "invalid" collides with the root message. -/
theorem C69_written_negative_tests_pass (C : Codecs) (hC : C.Lawful) (p : Profile) (H : HashFn) (name fn desc : String) :
    (∀ d, ∃ t, generateNoLeaves C p H name fn desc [d] = .ok t ∧ t.execute C p H = .ok ()) ∧
    (∀ d, ∃ t, generateInvalidIndex C p H name fn desc [d] = .ok t ∧ t.execute C p H = .ok ()) ∧
    (∀ (ds : List Bytes32) i, i < ds.length → ds.length < p.leafLimit →
      (∃ t, generateInvalidRoot C p H name fn desc ds i = .ok t ∧ t.execute C p H = .ok ()) ∨
      Collide H (mthMsgs H (ds.map Subtype.val)) [utf8Bytes "invalid"]) := by
  have hlim := p.leafLimit_le
  refine ⟨?_, ?_, ?_⟩
  · intro d
    unfold generateNoLeaves
    rw [generateTest_eq C p H name fn desc [d] (p.lt_leafLimit (by simp)) 0 (by simp), ok_bind]
    refine ⟨_, rfl, ?_⟩
    rw [(C69_proof_test_verdict C p H _).1]
    exact ⟨_, _, (means_iff C _ _).2 (C69_values_round_trip C hC _).1, reads_fromRaw C hC _, rfl⟩
  · intro d
    unfold generateInvalidIndex
    rw [generateTest_eq C p H name fn desc [d] (p.lt_leafLimit (by simp)) 0 (by simp), ok_bind]
    refine ⟨_, rfl, ?_⟩
    rw [(C69_proof_test_verdict C p H _).1]
    exact ⟨_, _, (means_iff C _ _).2 (C69_values_round_trip C hC _).1, reads_fromRaw C hC _, rfl⟩
  · intro ds i hi hn
    by_cases hinv : mth H (ds.map Subtype.val) = invalidRoot H
    · right
      have hb : utf8Bytes "invalid" = [0x69, 0x6e, 0x76, 0x61, 0x6c, 0x69, 0x64] := by decide +kernel
      match hds : ds.map Subtype.val with
      | [] => rw [List.map_eq_nil_iff] at hds; subst hds; cases hi
      | [d] =>
        refine ⟨[0x00] ++ d, by simp [mthMsgs], _, List.mem_singleton.2 rfl, by rw [hb]; simp, ?_⟩
        rw [hds, mth] at hinv
        exact hinv
      | d :: d' :: rest =>
        refine ⟨_, by rw [mthMsgs]; exact List.mem_cons_self, _, List.mem_singleton.2 rfl, by rw [hb]; simp, ?_⟩
        rw [hds, mth] at hinv
        exact hinv
    · left
      unfold generateInvalidRoot
      rw [generateTest_eq C p H name fn desc ds hn i hi, ok_bind]
      refine ⟨_, rfl, ?_⟩
      rw [(C69_proof_test_verdict C p H _).1]
      refine ⟨invalidRoot H, _, hC.hex _, reads_fromRaw C hC _, ?_⟩
      simp only [audit_verify p H ds hn i hi, hinv, decide_false]

/-! ### Sparse tree tests -/

theorem step_means (C : Codecs) (p : Profile) (H : HashFn) (s : Step) (o : Sparse.Op) (h : s.Means C o) (t : Sparse.InMemory.T) :
    s.execute C p H t = TestData.lift (Sparse.InMemory.op p H t o) := by
  cases o with
  | update k d =>
    obtain ⟨h1, ⟨v, h2, h3⟩, w, h4, h5⟩ := h
    rw [means_iff] at h3 h5
    unfold Step.execute Step.actionType
    rw [if_pos h1, h2, h4]
    simp only [runwrap, lift_ok, ok_bind, h3, h5, ask_ok, toArray32_val, pure_bind]
    rfl
  | delete k =>
    obtain ⟨h1, v, h2, h3⟩ := h
    rw [means_iff] at h3
    unfold Step.execute Step.actionType
    rw [if_neg (by rw [h1]; decide), if_pos h1, h2]
    simp only [runwrap, lift_ok, ok_bind, h3, ask_ok, toArray32_val, pure_bind]
    rfl

/-- A step that runs stands for a call. -/
theorem step_ok (C : Codecs) (p : Profile) (H : HashFn) (s : Step) (t t' : Sparse.InMemory.T) (h : s.execute C p H t = .ok t') :
    ∃ o, s.Means C o ∧ Sparse.InMemory.op p H t o = .ok t' := by
  suffices hm : ∃ o, s.Means C o by
    obtain ⟨o, ho⟩ := hm
    refine ⟨o, ho, ?_⟩
    rw [step_means C p H s o ho] at h
    cases hop : Sparse.InMemory.op p H t o with
    | error q => rw [hop] at h; cases h
    | ok x => rw [hop] at h; cases h; rfl
  unfold Step.execute Step.actionType at h
  by_cases h1 : s.action = "update"
  · rw [if_pos h1] at h
    cases hk : s.key with
    | none => rw [hk] at h; cases h
    | some v =>
      cases hd : s.data with
      | none => rw [hk, hd] at h; cases h
      | some w =>
        rw [hk, hd] at h
        simp only [runwrap, lift_ok, ok_bind, pure_bind] at h
        cases hv : v.intoBytes C with
        | error e => rw [hv] at h; cases h
        | ok b =>
          simp only [hv, ask_ok, ok_bind] at h
          by_cases h32 : b.length = 32
          · cases hw : w.intoBytes C with
            | error e =>
              simp only [hw, toArray32, dif_pos h32, lift_ok, ok_bind, ask_error, error_bind] at h
              cases h
            | ok c => exact ⟨.update ⟨b, h32⟩ c, h1, ⟨v, hk, (means_iff C _ _).2 hv⟩, w, hd, (means_iff C _ _).2 hw⟩
          · simp only [toArray32, dif_neg h32, lift_error, error_bind] at h
            cases h
  · rw [if_neg h1] at h
    by_cases h2 : s.action = "delete"
    · rw [if_pos h2] at h
      cases hk : s.key with
      | none => rw [hk] at h; cases h
      | some v =>
        rw [hk] at h
        simp only [runwrap, lift_ok, ok_bind, pure_bind] at h
        cases hv : v.intoBytes C with
        | error e => rw [hv] at h; cases h
        | ok b =>
          simp only [hv, ask_ok, ok_bind] at h
          by_cases h32 : b.length = 32
          · exact ⟨.delete ⟨b, h32⟩, h2, v, hk, (means_iff C _ _).2 hv⟩
          · simp only [toArray32, dif_neg h32, lift_error, error_bind] at h
            cases h
    · rw [if_neg h2, error_bind] at h
      cases h

theorem runSteps_means (C : Codecs) (p : Profile) (H : HashFn) : ∀ (ss : List Step) (os : List Sparse.Op), StepsMean C ss os →
    ∀ t, runSteps C p H ss t = TestData.lift (Sparse.InMemory.runAll p H t os) := by
  intro ss
  induction ss with
  | nil =>
    intro os h t
    cases os with
    | nil => rfl
    | cons o os => exact h.elim
  | cons s ss ih =>
    intro os h t
    cases os with
    | nil => exact h.elim
    | cons o os =>
      rw [runSteps, step_means C p H s o h.1, Sparse.InMemory.runAll]
      cases Sparse.InMemory.op p H t o with
      | error q => rfl
      | ok t' => rw [lift_ok, ok_bind, ih os h.2]; rfl

theorem runSteps_ok (C : Codecs) (p : Profile) (H : HashFn) : ∀ (ss : List Step) (t t' : Sparse.InMemory.T),
    runSteps C p H ss t = .ok t' → ∃ os, StepsMean C ss os ∧ Sparse.InMemory.runAll p H t os = .ok t' := by
  intro ss
  induction ss with
  | nil => intro t t' h; cases h; exact ⟨[], trivial, rfl⟩
  | cons s ss ih =>
    intro t t' h
    rw [runSteps] at h
    cases hs : s.execute C p H t with
    | error e => rw [hs, error_bind] at h; cases h
    | ok t1 =>
      rw [hs, ok_bind] at h
      obtain ⟨o, h1, h2⟩ := step_ok C p H s t t1 hs
      obtain ⟨os, h3, h4⟩ := ih t1 t' h
      exact ⟨o :: os, ⟨h1, h3⟩, by rw [Sparse.InMemory.runAll, h2, ok_bind, h4]⟩

/-- A sparse test passes exactly if every step stands for a call, the expected root is readable
and has 32 bytes, and it is the root the in-memory tree has after these calls. -/
theorem C69_sparse_test_passes_iff (C : Codecs) (p : Profile) (H : HashFn) (t : Test) :
    t.execute C p H = .ok () ↔ ∃ ops tree, StepsMean C t.steps ops ∧
      Sparse.InMemory.runAll p H Sparse.InMemory.new ops = .ok tree ∧ t.expectedRoot.Means C (Sparse.InMemory.root H tree).val := by
  unfold Test.execute
  constructor
  · intro h
    cases hs : runSteps C p H t.steps Sparse.InMemory.new with
    | error e => rw [hs, error_bind] at h; cases h
    | ok tree =>
      rw [hs, ok_bind] at h
      obtain ⟨ops, h1, h2⟩ := runSteps_ok C p H _ _ _ hs
      refine ⟨ops, tree, h1, h2, ?_⟩
      rw [means_iff]
      cases hv : t.expectedRoot.intoBytes C with
      | error e => simp only [hv, ask_error, error_bind] at h; cases h
      | ok b =>
        simp only [hv, ask_ok, ok_bind] at h
        cases hb : toArray32 b with
        | error q => simp only [hb, lift_error, error_bind] at h; cases h
        | ok x =>
          simp only [hb, lift_ok, ok_bind] at h
          split at h
          · next hx => rw [hx, toArray32_ok hb]
          · cases h
  · rintro ⟨ops, tree, h1, h2, h3⟩
    rw [means_iff] at h3
    rw [runSteps_means C p H _ _ h1, h2, lift_ok, ok_bind]
    simp only [h3, ask_ok, ok_bind, toArray32_val, lift_ok, if_true]

/-- A test whose steps stand for a history without stale deletes passes if the expected root is the
root of the map the history denotes, and otherwise fails with its name (for a hash function that
behaves on what is hashed). -/
theorem C69_sparse_test_verdict (C : Codecs) (p : Profile) (H : HashFn) (t : Test) (ops : List Sparse.Op) (r : Bytes32)
    (hs : StepsMean C t.steps ops) (hr : t.expectedRoot.Means C r.val) (hi : Sparse.IdealFor H ops) (hc : Sparse.Clean ops) :
    t.execute C p H = if Sparse.rootOf H (Sparse.mapOf ops) = r then .ok () else .error (.err (.failed t.name)) := by
  obtain ⟨tree, _, h2, h3⟩ := C53_sparse_in_memory p H ops hi
  rw [(Sparse.Clean.state ops hc).1] at h3
  unfold Test.execute
  rw [means_iff] at hr
  rw [runSteps_means C p H _ _ hs, h2, lift_ok, ok_bind]
  simp only [hr, ask_ok, ok_bind, toArray32_val, lift_ok, h3]

/-- The first step that stands for no call decides, whatever follows and whatever is expected: an
unknown action is reported by name; a value that is not readable is a `DecodingError`; a missing key
or data, or a key that does not have 32 bytes, is a panic. -/
theorem C69_sparse_bad_step (C : Codecs) (p : Profile) (H : HashFn) (name : String) (expected : EncodedValue) (good : List Step)
    (ops : List Sparse.Op) (bad : Step) (rest : List Step) (hs : StepsMean C good ops) (hi : Sparse.IdealFor H ops) :
    (bad.action ≠ "update" → bad.action ≠ "delete" →
      Test.execute C p H ⟨name, expected, good ++ bad :: rest⟩ = .error (.err (.unsupportedAction bad.action))) ∧
    (∀ k, (bad.action = "update" ∧ bad.data ≠ none ∨ bad.action = "delete") → bad.key = some k → (∀ b, ¬ k.Means C b) →
      Test.execute C p H ⟨name, expected, good ++ bad :: rest⟩ = .error (.err .decodingError)) ∧
    (∀ (k d : EncodedValue) (b : Bytes32), bad.action = "update" → bad.key = some k → k.Means C b.val → bad.data = some d → (∀ b, ¬ d.Means C b) →
      Test.execute C p H ⟨name, expected, good ++ bad :: rest⟩ = .error (.err .decodingError)) ∧
    ((bad.action = "update" ∧ (bad.key = none ∨ bad.data = none) ∨ bad.action = "delete" ∧ bad.key = none) →
      Test.execute C p H ⟨name, expected, good ++ bad :: rest⟩ = .error (.panic .unwrapNone)) ∧
    (∀ k b, (bad.action = "update" ∧ bad.data ≠ none ∨ bad.action = "delete") → bad.key = some k → k.Means C b → b.length ≠ 32 →
      Test.execute C p H ⟨name, expected, good ++ bad :: rest⟩ = .error (.panic .unwrapNone)) := by
  obtain ⟨tree, _, h2, _⟩ := C53_sparse_in_memory p H ops hi
  have hrun : ∀ (ss : List Step) t t', runSteps C p H ss t = .ok t' → ∀ e, bad.execute C p H t' = .error e →
      runSteps C p H (ss ++ bad :: rest) t = .error e := by
    intro ss
    induction ss with
    | nil =>
      intro t t' h e he
      cases h
      rw [List.nil_append, runSteps, he, error_bind]
    | cons s ss ih =>
      intro t t' h e he
      rw [runSteps] at h
      rw [List.cons_append, runSteps]
      cases hx : s.execute C p H t with
      | error e => rw [hx, error_bind] at h; cases h
      | ok t1 =>
        rw [hx, ok_bind] at h
        rw [ok_bind, ih t1 t' h e he]
  have key : ∀ e, bad.execute C p H tree = .error e →
      Test.execute C p H ⟨name, expected, good ++ bad :: rest⟩ = .error e := by
    intro e he
    unfold Test.execute
    rw [hrun good _ tree (by rw [runSteps_means C p H _ _ hs, h2]; rfl) e he, error_bind]
  have unread : ∀ v : EncodedValue, (∀ b, ¬ v.Means C b) → v.intoBytes C = .error .decodingError := by
    intro v h
    cases hv : v.intoBytes C with
    | error e => rw [intoBytes_error C v e hv]
    | ok b => exact absurd ((means_iff C v b).2 hv) (h b)
  have ne : "delete" ≠ "update" := by decide
  refine ⟨?_, ?_, ?_, ?_, ?_⟩
  · intro h3 h4
    refine key _ ?_
    unfold Step.execute Step.actionType
    rw [if_neg h3, if_neg h4, error_bind]
  · rintro k (⟨h3, h4⟩ | h3) h5 h6 <;> refine key _ ?_ <;> unfold Step.execute Step.actionType
    · obtain ⟨d, hd⟩ := Option.ne_none_iff_exists'.1 h4
      rw [if_pos h3, h5, hd]
      simp only [runwrap, lift_ok, ok_bind, pure_bind, unread k h6, ask_error, error_bind]
    · rw [if_neg (by rw [h3]; exact ne), if_pos h3, h5]
      simp only [runwrap, lift_ok, ok_bind, pure_bind, unread k h6, ask_error, error_bind]
  · intro k d b h3 h4 h5 h6 h7
    refine key _ ?_
    unfold Step.execute Step.actionType
    rw [means_iff] at h5
    rw [if_pos h3, h4, h6]
    simp only [runwrap, lift_ok, ok_bind, pure_bind, h5, ask_ok, toArray32_val, unread d h7, ask_error, error_bind]
  · rintro (⟨h3, h4⟩ | ⟨h3, h4⟩) <;> refine key _ ?_ <;> unfold Step.execute Step.actionType
    · rw [if_pos h3]
      rcases h4 with h4 | h4
      · rw [h4]; rfl
      · rw [h4]
        cases bad.key <;> rfl
    · rw [if_neg (by rw [h3]; exact ne), if_pos h3, h4]; rfl
  · rintro k b (⟨h3, h4⟩ | h3) h5 h6 h7 <;> refine key _ ?_ <;> unfold Step.execute Step.actionType <;> rw [means_iff] at h6
    · obtain ⟨d, hd⟩ := Option.ne_none_iff_exists'.1 h4
      rw [if_pos h3, h5, hd]
      simp only [runwrap, lift_ok, ok_bind, pure_bind, h6, ask_ok, toArray32, dif_neg h7, lift_error, error_bind]
    · rw [if_neg (by rw [h3]; exact ne), if_pos h3, h5]
      simp only [runwrap, lift_ok, ok_bind, pure_bind, h6, ask_ok, toArray32, dif_neg h7, lift_error, error_bind]

/-! ### Examples -/

/-- Text that is not UTF-8 does not come back. -/
example : ¬ (EncodedValue.fromRaw standard [0xff] .utf8).intoBytes standard = .ok [0xff] := by decide +kernel

/-- A value in each encoding. -/
example : EncodedValue.Means standard ⟨"RnVlbA==", .base64⟩ [70, 117, 101, 108] ∧ EncodedValue.Means standard ⟨"4675656C", .hex⟩ [70, 117, 101, 108] ∧
    EncodedValue.Means standard ⟨"Fuel", .utf8⟩ [70, 117, 101, 108] ∧ ¬ EncodedValue.Means standard ⟨"467", .hex⟩ [70] := by
  refine ⟨?_, ?_, ?_, ?_⟩ <;> simp only [EncodedValue.Means] <;> decide +kernel

/-- The steps of a history. -/
def stepOf (C : Codecs) : Sparse.Op → Step
  | .update k d => ⟨"update", some (.fromRaw C k.val .hex), some (.fromRaw C d .base64)⟩
  | .delete k => ⟨"delete", some (.fromRaw C k.val .hex), none⟩

/-- Every history can be written as steps. -/
theorem steps_exist (C : Codecs) (hC : C.Lawful) (ops : List Sparse.Op) : StepsMean C (ops.map (stepOf C)) ops := by
  induction ops with
  | nil => trivial
  | cons o ops ih =>
    refine ⟨?_, ih⟩
    cases o with
    | update k d => exact ⟨rfl, ⟨_, rfl, hC.hex _⟩, _, rfl, hC.base64 _⟩
    | delete k => exact ⟨rfl, _, rfl, hC.hex _⟩

example : StepsMean standard (cleanOps.map (stepOf standard)) cleanOps ∧ Sparse.IdealFor Sha256.sha256 cleanOps ∧ Sparse.Clean cleanOps :=
  ⟨steps_exist _ C69_standard_codecs _, cleanOps_ideal, cleanOps_clean⟩

example (p : Profile) : (4 : Nat) < (List.replicate 10 zero32).length ∧ (List.replicate 10 zero32).length < p.leafLimit :=
  ⟨by decide, p.lt_leafLimit (by decide)⟩

end Props
end FuelMerkle
