import Mathlib.Tactic.Ring
/-!
Model of the weight export: selection of the constants to load (`ApplyLoadConstantOpPatterns`), rewriting of the loads and
collection of their data (`WriteWeights`), and the files written (`FileIO`).  A byte is an integer (C++ `char`, -128..127).
Addresses and sizes are natural numbers, without the 32-bit limit of the attributes.
-/
namespace Verif.Weights

abbrev Byte := Int

/-- A constant attribute: a splat keeps one element, otherwise all bytes are stored
(`DenseElementsAttr::isSplat/getRawData/getNumElements`, used in xformer/Transforms/WriteWeights.cpp 50-56). -/
inductive Const where
  | splat (elem : List Byte) (numElements : Nat)
  | dense (raw : List Byte)

def Const.isSplat : Const → Bool
  | .splat _ _ => true
  | .dense _ => false

def Const.rawData : Const → List Byte
  | .splat e _ => e
  | .dense r => r

def Const.numElements : Const → Nat
  | .splat _ n => n
  | .dense _ => 0

/-- `getTensorData` (WriteWeights.cpp 36-57). -/
def getTensorData (c : Const) : List Byte :=
  let n := if c.isSplat then c.numElements else 1
  (List.range n).foldl (fun acc _ => acc ++ c.rawData) []

/-- An operand of an operator: the result of load `k`, result `i` of an `xc.ld_weights` with the given address and
sizes, or anything else. -/
inductive Operand where
  | load (k : Nat)
  | weights (address : Nat) (sizes : List Nat) (i : Nat)
  | other
deriving DecidableEq, Repr

/-- A created `xc.ld_weights` (xformer/IR/XCoreOps.td 495-506) and the index of the operator it is placed before. -/
structure Created where
  address : Nat
  sizes : List Nat
  before : Nat
  inDdr : Bool
deriving DecidableEq, Repr

/-- The function being rewritten: operands of every operator in block order, `tensorsVec` and the created operators. -/
structure St where
  ops : List (List Operand)
  blobs : List (List Byte)
  created : List Created

/-- Operators that use load `k`, one entry per use (`getUses`, in some order; here block order). -/
def uses (k : Nat) (ops : List (List Operand)) : List Nat :=
  ops.zipIdx.flatMap fun oi => (oi.1.filter (· = .load k)).map fun _ => oi.2

/-- The loop that finds the first owner (WriteWeights.cpp 122-129). -/
def firstOwner : List Nat → Nat
  | [] => 0
  | u :: us => (u :: us).foldl (fun first op => if op < first then op else first) u

/-- Ids of the loads among the operands of one operator, in operand order (WriteWeights.cpp 80-92). -/
def loadIds : List Operand → List Nat
  | [] => []
  | .load k :: r => k :: loadIds r
  | _ :: r => loadIds r

/-- Operand replacement in the combined case (WriteWeights.cpp 98-100); `n` results are already used. -/
def rewriteOwner (address : Nat) (sizes : List Nat) : Nat → List Operand → List Operand
  | _, [] => []
  | n, .load _ :: r => .weights address sizes n :: rewriteOwner address sizes (n + 1) r
  | n, .weights a s i :: r => .weights a s i :: rewriteOwner address sizes n r
  | n, .other :: r => .other :: rewriteOwner address sizes n r

/-- Replacement of all uses of load `k` (`replaceOp`, WriteWeights.cpp 118). -/
def replaceLoad (k address : Nat) (sizes : List Nat) (ops : List (List Operand)) : List (List Operand) :=
  ops.map fun o => o.map fun x => if x = .load k then .weights address sizes 0 else x

/-- `matchAndRewrite` for load `k` (WriteWeights.cpp 59-136).  A load without uses is erased as dead by the rewrite driver
before the pattern is tried (`LoadConstantOp` is `Pure`). -/
def step (ext : Bool) (consts : Nat → Const) (st : St) (k : Nat) : St :=
  let address := (st.blobs.map List.length).sum
  match uses k st.ops with
  | [] => st
  | u :: us =>
    if us = [] ∧ ext = false then
      let owner := st.ops.getD u []
      let datas := (loadIds owner).map fun j => getTensorData (consts j)
      let sizes := datas.map List.length
      { ops := st.ops.set u (rewriteOwner address sizes 0 owner)
        blobs := st.blobs ++ [datas.flatten]
        created := st.created ++ [⟨address, sizes, u, false⟩] }
    else
      let data := getTensorData (consts k)
      let padded := if ext then data ++ List.replicate ((data.length + 31) / 32 * 32 - data.length) 0 else data
      { ops := replaceLoad k address [data.length] st.ops
        blobs := st.blobs ++ [padded]
        created := st.created ++ [⟨address, [data.length], firstOwner (u :: us), ext⟩] }

/-- The rewrite driver visits the loads in some order (WriteWeights.cpp 154-157). -/
def run (ext : Bool) (consts : Nat → Const) (ops : List (List Operand)) (order : List Nat) : St :=
  order.foldl (step ext consts) ⟨ops, [], []⟩

/-! ### Files -/

/-- Contents of the flash file (xformer/Utils/FileIO.cpp 79-87). -/
def flashFile (tensors : List (List Byte)) : List Byte := tensors.foldl (fun acc t => acc ++ t) []

/-- `tileRamServerHeader` (xformer/Utils/TileRamSupport.cpp 5-19): 20 bytes; `~1 = -2`, `~2 = -3`. -/
def tileHeader : List Byte :=
  ((((List.replicate 20 (0 : Int)).set 0 1).set 1 2).set 2 (-2)).set 3 (-3) |>.set 8 20

inductive Tok where
  | num (n : Int)
  | newline
deriving DecidableEq, Repr

/-- State of the printing loop: output so far, `lineEnding`, `weightsSize` (FileIO.cpp 46-47). -/
structure PrintSt where
  out : List Tok
  lineEnding : Nat
  weightsSize : Nat

/-- Body of the inner loop (FileIO.cpp 50-56). -/
def printByte (s : PrintSt) (b : Byte) : PrintSt :=
  let out := s.out ++ [.num b]
  let le := s.lineEnding + 1
  let ws := s.weightsSize + 1
  if le > 80 then ⟨out ++ [.newline], 0, ws⟩ else ⟨out, le, ws⟩

/-- Initialiser list of `weights[]` and the value of `WEIGHTS_SIZE` (FileIO.cpp 30-77). -/
def weightsArray (tensors : List (List Byte)) (external : Bool) : List Tok × Nat :=
  let ts := if external then tensors else tileHeader :: tensors
  let s := ts.foldl (fun s t => t.foldl printByte s) ⟨[], 0, 0⟩
  (s.out, s.weightsSize)

/-! ### Selection of the constants -/

/-- `shouldBeLoadedExternally` (xformer/Transforms/ApplyLoadConstantOpPatterns.cpp 32-49): the static counter and a
constant's size in bits; result and new counter. -/
def shouldLoad (maxSize ifLarger : Nat) (total : Nat) (bits : Nat) : Bool × Nat :=
  if total > maxSize then (false, total)
  else (decide (bits / 8 > ifLarger), total + bits / 8)

/-- Successive calls. -/
def loadCalls (maxSize ifLarger : Nat) : Nat → List Nat → List (Nat × Bool)
  | _, [] => []
  | total, b :: r =>
    (b, (shouldLoad maxSize ifLarger total b).1) :: loadCalls maxSize ifLarger (shouldLoad maxSize ifLarger total b).2 r

end Verif.Weights
