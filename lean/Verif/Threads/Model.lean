/-!
Model of the multi-threading decision: xformer/Utils/ThreadSupport.cpp 141-262 (`getImageRegionThreadSplits`),
called from Transforms/ReplaceConv2D.cpp 106-114 and Transforms/ReplaceMaxPool2D.cpp 44-45.

Simplifications:
* `int` is unbounded `Nat` (static image sizes, strides and sub offsets are non-negative).
* `ceil(double(a)/double(b))` is the exact integer ceiling; for operands below 2^31 the double quotient cannot round
  across an integer.
* `calculateThreadSplit` (ThreadSupport.cpp 147) is external (lib_nn, not in /repo) and is a parameter.
* Undefined behaviour (writing `dimSplits[-1]`, line 235) is the outcome `none`.
`getSmallDimSplits` (lines 17-139) is never called (its call is commented out, 197-207) and is not modelled.
-/
namespace Verif.Threads

/-- One image region `{topLeftRow, topLeftColumn, firstChannel, rows, columns, channels}` as pushed in lines 151-152,
248-249 and 255-256. -/
structure Region where
  row : Nat
  col : Nat
  chan : Nat
  rows : Nat
  cols : Nat
  chans : Nat
deriving DecidableEq, Repr

/-- The image and transposed-convolution parameters of `getImageRegionThreadSplits` (lines 161-164). -/
structure Params where
  height : Nat
  width : Nat
  depth : Nat
  subH : Nat
  subW : Nat
  strideH : Nat
  strideW : Nat
deriving DecidableEq, Repr

/-- The loop of lines 220-230: for `i = numThreads, …, 1`, `split = ceil(dimSize / i)`, `dimSize -= split`, and the
split scaled by the stride is kept when positive. -/
def dimSplits (stride : Nat) : Nat → Nat → List Nat
  | 0, _ => []
  | i + 1, dimSize =>
    let split := (dimSize + i) / (i + 1)
    let rest := dimSplits stride i (dimSize - split)
    if split > 0 then split * stride :: rest else rest

/-- `dimSplits[dimSplits.size() - 1]++` (line 235); undefined when the vector is empty. -/
def bumpLast (l : List Nat) : Option (List Nat) :=
  match l.getLast? with
  | none => none
  | some x => some (l.dropLast ++ [x + 1])

/-- The placement loop of lines 241-259 along the chosen dimension of size `dim`: start and length of every region. -/
def place (dim sub : Nat) : Nat → List Nat → List (Nat × Nat)
  | _, [] => []
  | top, split :: rest =>
    let split' := if top + sub + split > dim ∧ dim % 2 = 1 then split - 1 else split
    (top + sub, split') :: place dim sub (top + split') rest

/-- Choice of the dimension (lines 181-194): `true` is height. -/
def heightChosen (n : Nat) (p : Params) : Bool :=
  let alignedH := p.height / p.strideH
  let alignedW := p.width / p.strideW
  if alignedH % n = 0 then true
  else if alignedW % n = 0 then false
  else decide (alignedH > alignedW)

/-- Splits along the chosen dimension: lines 219-236 and 241-259. -/
def splitDim (n dim sub stride : Nat) : Option (List (Nat × Nat)) :=
  let splits := dimSplits stride n (dim / stride)
  let splits := if dim % 2 = 1 then bumpLast splits else some splits
  splits.map (place dim sub 0)

/-- `getDepthwiseThreadSplits` (lines 141-156); `cts` is `calculateThreadSplit` with its channel multiple 16: the list of
`(s[i], e[i])`. -/
def depthwiseSplits (cts : Nat → Nat → List (Nat × Nat)) (n : Nat) (p : Params) : List Region :=
  (cts n p.depth).map fun se => ⟨0, 0, se.1, p.height, p.width, se.2 - se.1⟩

/-- `getImageRegionThreadSplits` (lines 160-262). -/
def getImageRegionThreadSplits (cts : Nat → Nat → List (Nat × Nat)) (n : Nat) (p : Params) : Option (List Region) :=
  if p.height = 1 ∧ p.width = 1 ∧ p.subH = 0 ∧ p.subW = 0 ∧ p.strideH = 1 ∧ p.strideW = 1 then
    some (depthwiseSplits cts n p)
  else if heightChosen n p then
    (splitDim n p.height p.subH p.strideH).map fun l =>
      l.map fun sl => ⟨sl.1, 0, 0, sl.2, p.width, p.depth⟩
  else
    (splitDim n p.width p.subW p.strideW).map fun l =>
      l.map fun sl => ⟨0, sl.1, 0, p.height, sl.2, p.depth⟩

end Verif.Threads
