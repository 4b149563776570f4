import Verif.Model.Binary

/-
The proof checker of the test helpers: `/repo/test-helpers/src/binary/verify.rs`.
Its `node_sum` (`test-helpers/src/binary/hash.rs:24-30`) hashes the same bytes as the one of
the library and is modelled by the same definition.
-/
namespace FuelMerkle
namespace Verify

open Binary (nodeSum)

/-- `1 << height` as a `u64` (`test-helpers/src/binary/verify.rs:19-20, 32`). -/
def pow2 (p : Profile) (height : Nat) : Res Nat := u64Shl1 p height

/-- State carried by the first loop. -/
structure St where
  height : Nat
  sum : Bytes32
  stableEnd : Nat

/-- The first loop (`test-helpers/src/binary/verify.rs:18-39`). `none` is the early
`return false` of line 28. The fuel bounds the number of rounds: `verify` gives more than the
length of the proof set, and each round but the last uses up one element of it. -/
def loop (p : Profile) (H : HashFn) (proofSet : List Bytes32) (proofIndex numLeaves : Nat) :
    (fuel : Nat) → St → Res (Option St)
  | 0, _ => .error .diverges
  | fuel + 1, st => do
    let w ← pow2 p st.height
    let start ← u64Mul p (proofIndex / w) w
    let e ← u64Add p start w
    let subtreeEnd ← u64Sub p e 1
    if subtreeEnd ≥ numLeaves then return some st
    else do
      match proofSet[st.height]? with
      | none => return none
      | some proofData => do
        let d ← u64Sub p proofIndex start
        let half ← pow2 p (st.height - 1)
        let sum :=
          if d < half then nodeSum H st.sum.val proofData.val
          else nodeSum H proofData.val st.sum.val
        loop p H proofSet proofIndex numLeaves fuel
          { height := st.height + 1, sum, stableEnd := subtreeEnd }

/-- The last loop (`test-helpers/src/binary/verify.rs:50-54`), over the remaining
elements of the proof set. -/
def finish (H : HashFn) (sum : Bytes32) (rest : List Bytes32) : Bytes32 :=
  rest.foldl (fun sum proofData => nodeSum H proofData.val sum.val) sum

/-- `verify` (`test-helpers/src/binary/verify.rs:3-57`). -/
def verify (p : Profile) (H : HashFn) (root : Bytes32) (proofSet : List Bytes32)
    (proofIndex numLeaves : Nat) : Res Bool := do
  if proofIndex ≥ numLeaves then return false
  else
    match proofSet with
    | [] => return false
    | first :: _ => do
      match ← loop p H proofSet proofIndex numLeaves (proofSet.length + 66)
          { height := 1, sum := first, stableEnd := proofIndex } with
      | none => return false
      | some st => do
        let last ← u64Sub p numLeaves 1
        if st.stableEnd ≠ last then
          match proofSet[st.height]? with
          | none => return false
          | some proofData =>
            let sum := nodeSum H st.sum.val proofData.val
            return finish H sum (proofSet.drop (st.height + 1)) = root
        else return finish H st.sum (proofSet.drop st.height) = root

end Verify
end FuelMerkle
