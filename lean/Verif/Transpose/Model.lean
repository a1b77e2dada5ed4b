import Verif.Tensor.Flat
import Verif.Move.Spec
/-!
Model of xformer/Transforms/OptimizeTranspose.cpp and specification of `tfl.transpose`.
-/
namespace Verif.Transpose
open Verif.Tensor Verif.Move

/-! ### Specification -/

/-- Shape of a transposed tensor: axis `i` of the result is axis `perm[i]` of the input. -/
def transposeShape (perm s : List Nat) : List Nat := perm.map fun d => s.getD d 0

/-- `tfl.transpose`: the element at `idx` is the element of the input whose coordinate along axis `perm[i]` is `idx[i]`. -/
def transposeT {α : Type} (perm : List Nat) (f : List Nat → α) (idx : List Nat) : α :=
  f ((List.range perm.length).map fun d => idx.getD (perm.idxOf d) 0)

/-- `perm` is a permutation of `0 .. n-1`. -/
def IsPerm (perm : List Nat) (n : Nat) : Prop := perm.length = n ∧ ∀ d, d < n → d ∈ perm

/-! ### Model -/

/-- The permutation that is matched.  OptimizeTranspose.cpp 48-54. -/
def isNWCH (perm : List Int) : Bool := perm == [0, 2, 3, 1]

/-- The paddings (rows `[before, after]`) that are matched.  Lines 62-68. -/
def isPad11 (pad : List (Int × Int)) : Bool := pad == [(0, 0), (0, 0), (1, 1), (1, 1)]

/-- `HoistTransposeWCHAbovePadPattern`: `transpose(pad x)` becomes `pad(transpose x)` with the same permutation; result are
the new shape of the transposed input and the new paddings.  Lines 29-94. -/
def hoist (inShape : List Nat) (perm : List Int) (pad : List (Int × Int)) : Option (List Nat × List (Int × Int)) :=
  if isNWCH perm && isPad11 pad then
    some ([inShape.getD 0 0, inShape.getD 2 0, inShape.getD 3 0, inShape.getD 1 0], [(0, 0), (1, 1), (1, 1), (0, 0)])
  else none

/-- TensorFlow's `AreCancellablePermutations` (external, used in lines 117-119): not empty, equal lengths, and
`perm0[perm1[i]] = i` for all `i`.  An out-of-range entry is undefined behaviour there; here it fails the test. -/
def areCancellable (perm0 perm1 : List Nat) : Bool :=
  !perm0.isEmpty && perm0.length == perm1.length && (List.range perm0.length).all fun i => perm0[perm1.getD i perm0.length]? == some i

/-- `FoldCancellableTransposePattern`: the outer transpose (`perm0`) of an inner one (`perm1`) is replaced by the input of
the inner one.  Lines 95-124. -/
def cancels (perm0 perm1 : List Nat) : Bool := areCancellable perm0 perm1

end Verif.Transpose
