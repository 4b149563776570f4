import Verif.Model.InMemory
import Verif.Model.Verify

/-
The data-driven tests of `/repo/test-helpers`: encoded values (`src/data/encoded_value.rs`), binary
proof tests (`src/data/binary.rs`), sparse tree tests (`src/data/sparse.rs`) and the program that
writes the binary proof tests (`src/suites/binary_proofs.rs`).

Simplifications: the crates `hex` and `base64` and `String::from_utf8_lossy` are a parameter
(`Codecs`); reading and writing YAML files is left out; a random choice of sample data is an
arbitrary argument. A failed `try_into().unwrap()` or `into_bytes().unwrap()` is the panic
`unwrapNone`.
-/
namespace FuelMerkle
namespace TestData

/-- `Encoding` (`test-helpers/src/data/encoded_value.rs:5-12`). -/
inductive Encoding where
  | base64
  | hex
  | utf8
deriving DecidableEq, Repr

/-- `EncodedValue` (`test-helpers/src/data/encoded_value.rs:14-18`). -/
structure EncodedValue where
  value : String
  encoding : Encoding
deriving DecidableEq, Repr

/-- `TestError` (`test-helpers/src/data/test_error.rs:3-11`). -/
inductive TestError where
  | failed (name : String)
  | unsupportedAction (action : String)
  | decodingError
deriving DecidableEq, Repr

/-- The functions of other crates used by `EncodedValue`: `base64::encode`, `base64::decode`,
`hex::encode`, `hex::decode` and `String::from_utf8_lossy`. -/
structure Codecs where
  base64Encode : Bytes → String
  base64Decode : String → Option Bytes
  hexEncode : Bytes → String
  hexDecode : String → Option Bytes
  fromUtf8Lossy : Bytes → String

/-- `String::into_bytes`. -/
def utf8Bytes (s : String) : Bytes := s.toByteArray.data.toList

/-- `EncodedValue::from_raw` (`test-helpers/src/data/encoded_value.rs:25-35`). -/
def EncodedValue.fromRaw (C : Codecs) (value : Bytes) (encoding : Encoding) : EncodedValue :=
  let encodedValue := match encoding with
    | .base64 => C.base64Encode value
    | .hex => C.hexEncode value
    | .utf8 => C.fromUtf8Lossy value
  { value := encodedValue, encoding := encoding }

/-- `EncodedValue::into_bytes` (`test-helpers/src/data/encoded_value.rs:37-43`). -/
def EncodedValue.intoBytes (C : Codecs) (v : EncodedValue) : Except TestError Bytes :=
  match v.encoding with
  | .base64 => match C.base64Decode v.value with
    | some b => .ok b
    | none => .error .decodingError
  | .hex => match C.hexDecode v.value with
    | some b => .ok b
    | none => .error .decodingError
  | .utf8 => .ok (utf8Bytes v.value)

/-- The result of a test: `Result<(), TestError>`, or a panic. -/
abbrev Outcome (α : Type) := Except (Fail TestError) α

/-- `x?` on a `Result`. -/
def ask {α : Type} (x : Except TestError α) : Outcome α :=
  match x with
  | .ok a => .ok a
  | .error e => .error (.err e)

/-- Run a computation that may panic. -/
def lift {α : Type} (x : Res α) : Outcome α :=
  match x with
  | .ok a => .ok a
  | .error q => .error (.panic q)

/-- `bytes.try_into().unwrap()` to `[u8; 32]`. -/
def toArray32 (b : Bytes) : Res Bytes32 :=
  if h : b.length = 32 then .ok ⟨b, h⟩ else .error .unwrapNone

/-- `v.into_bytes().unwrap().as_slice().try_into().unwrap()`
(`test-helpers/src/data/binary.rs:29-31`). -/
def unwrapBytes32 (C : Codecs) (v : EncodedValue) : Res Bytes32 :=
  match v.intoBytes C with
  | .ok b => toArray32 b
  | .error _ => .error .unwrapNone

/-! ### Binary proof tests -/

/-- `ProofTest` (`test-helpers/src/data/binary.rs:11-21`). -/
structure ProofTest where
  name : String
  functionName : String
  description : String
  root : EncodedValue
  proofSet : List EncodedValue
  proofIndex : Nat
  numLeaves : Nat
  expectedVerification : Bool

/-- The proof set of a test (`test-helpers/src/data/binary.rs:26-31`). -/
def unwrapAll (C : Codecs) : List EncodedValue → Res (List Bytes32)
  | [] => .ok []
  | v :: vs => do
    let b ← unwrapBytes32 C v
    let bs ← unwrapAll C vs
    return b :: bs

/-- `ProofTest::execute` (`test-helpers/src/data/binary.rs:24-40`). -/
def ProofTest.execute (C : Codecs) (p : Profile) (H : HashFn) (t : ProofTest) : Outcome Unit := do
  let rootBytes ← ask (t.root.intoBytes C)
  let root ← lift (toArray32 rootBytes)
  let proofSet ← lift (unwrapAll C t.proofSet)
  let verification ← lift (Verify.verify p H root proofSet t.proofIndex t.numLeaves)
  if verification = t.expectedVerification then .ok ()
  else .error (.err (.failed t.name))

/-! ### Sparse tree tests -/

/-- `Step` (`test-helpers/src/data/sparse.rs:19-24`). -/
structure Step where
  action : String
  key : Option EncodedValue
  data : Option EncodedValue

/-- `Action` (`test-helpers/src/data/sparse.rs:26-29`). -/
inductive Action where
  | update (key data : EncodedValue)
  | delete (key : EncodedValue)

/-- `Step::action_type` (`test-helpers/src/data/sparse.rs:52-67`), with `ACTION_UPDATE` and
`ACTION_DELETE` (`test-helpers/src/data/sparse.rs:10-11`). -/
def Step.actionType (s : Step) : Outcome Action :=
  if s.action = "update" then do
    let key ← lift (runwrap s.key)
    let data ← lift (runwrap s.data)
    return .update key data
  else if s.action = "delete" then do
    let key ← lift (runwrap s.key)
    return .delete key
  else .error (.err (.unsupportedAction s.action))

/-- `Step::execute` on the in-memory tree (`test-helpers/src/data/sparse.rs:31-48, 70-86`). -/
def Step.execute (C : Codecs) (p : Profile) (H : HashFn) (s : Step) (tree : Sparse.InMemory.T) :
    Outcome Sparse.InMemory.T := do
  match ← s.actionType with
  | .update encodedKey encodedData =>
    let keyBytes ← ask (encodedKey.intoBytes C)
    let key ← lift (toArray32 keyBytes)
    let dataBytes ← ask (encodedData.intoBytes C)
    lift (Sparse.InMemory.update p H tree key dataBytes)
  | .delete encodedKey =>
    let keyBytes ← ask (encodedKey.intoBytes C)
    let key ← lift (toArray32 keyBytes)
    lift (Sparse.InMemory.delete p H tree key)

/-- `Test` (`test-helpers/src/data/sparse.rs:88-93`). -/
structure Test where
  name : String
  expectedRoot : EncodedValue
  steps : List Step

/-- The loop of `Test::execute` (`test-helpers/src/data/sparse.rs:100-102`). -/
def runSteps (C : Codecs) (p : Profile) (H : HashFn) : List Step → Sparse.InMemory.T → Outcome Sparse.InMemory.T
  | [], tree => .ok tree
  | s :: ss, tree => do
    let tree ← s.execute C p H tree
    runSteps C p H ss tree

/-- `Test::execute` (`test-helpers/src/data/sparse.rs:96-112`). -/
def Test.execute (C : Codecs) (p : Profile) (H : HashFn) (t : Test) : Outcome Unit := do
  let tree ← runSteps C p H t.steps Sparse.InMemory.new
  let root := Sparse.InMemory.root H tree
  let expectedBytes ← ask (t.expectedRoot.intoBytes C)
  let expectedRoot ← lift (toArray32 expectedBytes)
  if root = expectedRoot then .ok ()
  else .error (.err (.failed t.name))

/-! ### The written binary proof tests -/

/-- The pushes of `generate_test` (`test-helpers/src/suites/binary_proofs.rs:28-31`). -/
def pushSamples (p : Profile) (H : HashFn) : List Bytes32 → Binary.InMemory.T → Res Binary.InMemory.T
  | [], t => .ok t
  | d :: ds, t => do
    let t ← Binary.InMemory.push p H t d.val
    pushSamples p H ds t

/-- `generate_test` (`test-helpers/src/suites/binary_proofs.rs:20-56`), and with it the tests that are
expected to pass (`test-helpers/src/suites/binary_proofs.rs:67-125`: 10 leaves and index 4, 1 leaf and
index 0, 100 leaves and index 10, 1024 leaves and index 512). -/
def generateTest (C : Codecs) (p : Profile) (H : HashFn) (name functionName description : String)
    (sampleData : List Bytes32) (proofIndex : Nat) : Res ProofTest := do
  let tree ← pushSamples p H sampleData Binary.InMemory.new
  let (root, proofSet) ← runwrap (← Binary.InMemory.prove p H tree proofIndex)
  return {
    name := name
    functionName := functionName
    description := description
    root := .fromRaw C root.val .hex
    proofSet := proofSet.map fun v => .fromRaw C v.val .hex
    proofIndex := proofIndex
    numLeaves := sampleData.length
    expectedVerification := true }

/-- `generate_test_0_leaves` (`test-helpers/src/suites/binary_proofs.rs:127-145`). -/
def generateNoLeaves (C : Codecs) (p : Profile) (H : HashFn) (name functionName description : String)
    (sampleData : List Bytes32) : Res ProofTest := do
  let test ← generateTest C p H name functionName description sampleData 0
  return { test with numLeaves := 0, expectedVerification := false }

/-- `generate_test_1_leaf_invalid_proof_index` (`test-helpers/src/suites/binary_proofs.rs:147-165`). -/
def generateInvalidIndex (C : Codecs) (p : Profile) (H : HashFn) (name functionName description : String)
    (sampleData : List Bytes32) : Res ProofTest := do
  let test ← generateTest C p H name functionName description sampleData 0
  return { test with proofIndex := 1, expectedVerification := false }

/-- `sum(b"invalid")` (`test-helpers/src/suites/binary_proofs.rs:14-18`). -/
def invalidRoot (H : HashFn) : Bytes32 := H (utf8Bytes "invalid")

/-- `generate_test_1_leaf_invalid_root` and `generate_test_1024_leaves_invalid_root`
(`test-helpers/src/suites/binary_proofs.rs:167-205`), the index is 0 and 512. -/
def generateInvalidRoot (C : Codecs) (p : Profile) (H : HashFn) (name functionName description : String)
    (sampleData : List Bytes32) (proofIndex : Nat) : Res ProofTest := do
  let test ← generateTest C p H name functionName description sampleData proofIndex
  return { test with root := ⟨C.hexEncode (invalidRoot H).val, .hex⟩, expectedVerification := false }

end TestData
end FuelMerkle
