import Verif.MemPlan.InPlace
/-!
C42: the byte size that the planner reserves for a tensor, and two witnesses of planner limits.
-/
namespace Verif.MemPlan

/-- Element types that occur in the IR: bit width of the storage type
(`getIntOrFloatBitWidth` / `getWidth`, Utils/Util.cpp 12-23). -/
structure ElemType where
  bits : Nat
deriving DecidableEq

/-- `getTypeSize` (Utils/Util.cpp 12-23): integer division by 8. -/
def getTypeSize (t : ElemType) : Nat := t.bits / 8

/-- A tensor shape; `none` is a dynamic dimension. -/
abbrev Shape := List (Option Nat)

/-- `getShapedTypeSize` (Utils/Util.cpp 25-35); `int` overflow is not modelled. -/
def getShapedTypeSize (t : ElemType) (s : Shape) : Nat :=
  s.foldl (fun acc d => acc * d.getD 1) (getTypeSize t)

/-- Specification: number of elements of a static shape. -/
def numElements : List Nat → Nat
  | [] => 1
  | d :: ds => d * numElements ds

/-- Specification: bytes that TFLite Micro stores per element (`bool` takes a whole byte). -/
def storedBytes (t : ElemType) : Nat := (t.bits + 7) / 8

theorem foldl_size (s : List Nat) (a : Nat) :
    (s.map some).foldl (fun acc d => acc * d.getD 1) a = a * numElements s := by
  induction s generalizing a with
  | nil => simp [numElements]
  | cons d ds ih =>
    simp only [List.map_cons, List.foldl_cons, Option.getD_some, numElements]
    rw [ih, Nat.mul_assoc]

/-- **C42 (partial).** For element types of a whole number of bytes the reserved size is exactly what the runtime
stores.  Missing for the full property: 1-bit (bool) element types, for which it is false (`C42_bool_refuted`). -/
theorem C42_reserved_size_partial (t : ElemType) (s : List Nat) (h : 8 ∣ t.bits) :
    getShapedTypeSize t (s.map some) = numElements s * storedBytes t := by
  unfold getShapedTypeSize
  rw [foldl_size, Nat.mul_comm]
  congr 1
  unfold getTypeSize storedBytes
  omega

example : getShapedTypeSize ⟨16⟩ ([1, 5, 7, 3].map some) = 210 := by decide

/-- **C42 refuted for bool tensors**: no byte at all is reserved, whatever the shape. -/
theorem C42_bool_refuted (s : List Nat) : getShapedTypeSize ⟨1⟩ (s.map some) = 0 := by
  unfold getShapedTypeSize
  rw [foldl_size]
  simp [getTypeSize]

/-- A function whose second in-place operator shrinks its data (excluded by `InPlaceOK.noShrink`). -/
def shrinkFunc : Func :=
  { argSizes := [100]
    ops := [⟨false, false, true, [0], [120]⟩, ⟨false, false, true, [1], [80]⟩, ⟨false, true, false, [2], []⟩] }

/-- **C05, boundary of the guarantee**: the size check of the chain loop compares the previous pair of tensors, so a
shrinking last operator is accepted and its input gets a negative arena offset. -/
theorem C05_shrinking_chain_refuted :
    shrinkFunc.WF ∧ ∃ p, getAllocatedOffsets shrinkFunc true = some p ∧
      ∃ v, shrinkFunc.Arena v ∧ offsetOf p.offsets v < 0 := by
  refine ⟨Func.wf_of_check (by decide), ⟨[-8, -32, 0], 96, 3⟩, by decide +kernel, 1, ⟨?_, ?_⟩, by decide⟩
  · unfold Func.IsValue; decide
  · decide

end Verif.MemPlan
