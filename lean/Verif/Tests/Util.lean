import Verif.Spec.Sha256
import Verif.Model.InMemory
import Verif.Model.Verify
import Verif.Model.Reference
import Verif.Model.Sum

/-
Helpers for running the repository's fixtures on the model. These are tests of the model's
fidelity, not proofs.
-/
namespace FuelMerkle.Tests

/-- The profile of `cargo test`. -/
def debug : Profile := ⟨true, true, .w64⟩
/-- The profile of `cargo build --release`. -/
def release : Profile := ⟨false, false, .w64⟩

def hexDigit (c : Char) : Nat :=
  if c.isDigit then c.toNat - '0'.toNat else c.toNat - 'a'.toNat + 10

def unhex : List Char → Bytes
  | a :: b :: rest => UInt8.ofNat (16 * hexDigit a + hexDigit b) :: unhex rest
  | _ => []

def bytes32 (s : String) : Bytes32 :=
  let l := unhex s.toList
  if h : l.length = 32 then ⟨l, h⟩ else Sparse.zeroSum

def utf8 (s : String) : Bytes := s.toUTF8.toList

/-- A step of a sparse fixture (`test-helpers/src/data/sparse.rs:26-29`). -/
inductive Step where
  | update (key : String) (data : String)
  | delete (key : String)

/-- `Test::execute` (`test-helpers/src/data/sparse.rs:95-112`). -/
def runSparse (p : Profile) (steps : List Step) : Res Bytes32 := do
  let t ← steps.foldlM (fun t s => match s with
    | .update k d => Sparse.InMemory.update p Sha256.sha256 t (bytes32 k) (utf8 d)
    | .delete k => Sparse.InMemory.delete p Sha256.sha256 t (bytes32 k)) Sparse.InMemory.new
  return Sparse.InMemory.root Sha256.sha256 t

def checkSparse (steps : List Step) (root : String) : Bool :=
  (match runSparse debug steps with | .ok r => r = bytes32 root | .error _ => false) &&
  (match runSparse release steps with | .ok r => r = bytes32 root | .error _ => false)

/-- `ProofTest::execute` (`test-helpers/src/data/binary.rs:24-40`). -/
def checkVerify (root : String) (proof : List String) (i n : Nat) (expected : Bool) : Bool :=
  match Verify.verify debug Sha256.sha256 (bytes32 root) (proof.map bytes32) i n with
  | .ok b => b = expected
  | .error _ => false

end FuelMerkle.Tests
