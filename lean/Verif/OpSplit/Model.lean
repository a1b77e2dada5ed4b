import Verif.Image.Basic
/-!
Model of xformer/Transforms/OpSplit.cpp: splitting an operator along the height and raising the slices.

Simplifications: `int32_t`/`int64_t` are unbounded `Int`; batch is 1 (hard-coded in `createSliceOp`, line 38); only the
tensor arithmetic of the rewrites is modelled, not the labels that steer the greedy driver (lines 49-89, 831-910).
`tensorflow::GetWindowedOutputSizeVerbose` is external; its documented results are `sameOut`, `sameBefore`, `sameAfter`
of Verif/Image/Basic.lean (and zero pads for VALID).
-/
namespace Verif.OpSplit
open Verif.Image

/-- Loop of lines 235-251: `(begin, size)` along the height of every slice; `cnt` iterations from index `i` on. -/
def slicesFrom (sliceHeight remainder : Nat) : (cnt i prevEnd : Nat) → List (Nat × Nat)
  | 0, _, _ => []
  | cnt + 1, i, prevEnd =>
    let cur := if i < remainder then sliceHeight + 1 else sliceHeight
    (prevEnd, cur) :: slicesFrom sliceHeight remainder cnt (i + 1) (prevEnd + cur)

/-- `OpSplitPattern` (lines 224-251): heights and begins; `numSplits = 0` divides by zero and is excluded by callers. -/
def opSplitSlices (outputHeight numSplits : Nat) : List (Nat × Nat) :=
  slicesFrom (outputHeight / numSplits) (outputHeight % numSplits) numSplits 0 0

/-- `OpSplitPattern` result (lines 253-259): concatenation of the slices of the operator's output. -/
def opSplitOutput {α : Type} [Inhabited α] (numSplits : Nat) (y : Img α) : Img α :=
  concatRows y.w ((opSplitSlices y.h.toNat numSplits).map fun bs => sliceRows bs.1 bs.2 y)

/-- Result of raising a slice above a convolution: the new slice and the new explicit pads. -/
structure Raised where
  begin_ : Int
  size : Int
  padTop : Int
  padBottom : Int
  padLeft : Int
  padRight : Int
deriving DecidableEq, Repr

inductive Padding | valid | same
deriving DecidableEq, Repr

/-- `RaiseSlicePattern` (lines 558-624).  Arguments: input height/width, window, output height, padding, and the
slice's begin and size along the height.  The dilation of the operator is not consulted (lines 569-570). -/
def raiseSliceConv (inputHeight inputWidth : Int) (g : Win) (outputHeight : Int) (p : Padding)
    (beginIndex sizeIndex : Int) : Raised :=
  let endIndex := beginIndex + sizeIndex
  match p with
  | .valid =>
    let newEnd := if endIndex = outputHeight then inputHeight else endIndex * g.sh - g.sh + g.kh
    let lost := if endIndex = outputHeight then (inputHeight - g.kh + g.sh) % g.sh else 0
    let newH := sizeIndex * g.sh - g.sh + g.kh + lost
    ⟨newEnd - newH, newH, 0, 0, 0, 0⟩
  | .same =>
    let padTop := sameBefore inputHeight g.kh g.sh 1
    let padBottom := sameAfter inputHeight g.kh g.sh 1
    let padLeft := sameBefore inputWidth g.kw g.sw 1
    let padRight := sameAfter inputWidth g.kw g.sw 1
    if beginIndex = 0 then
      let newEnd := endIndex * g.sh - g.sh + g.kh - padTop
      let newH := sizeIndex * g.sh - g.sh + g.kh - padTop - 0
      ⟨newEnd - newH, newH, padTop, 0, padLeft, padRight⟩
    else if endIndex = outputHeight then
      let newEnd := endIndex * g.sh - g.sh + g.kh - padTop - padBottom
      let newH := sizeIndex * g.sh - g.sh + g.kh - 0 - padBottom
      ⟨newEnd - newH, newH, 0, padBottom, padLeft, padRight⟩
    else
      let newEnd := endIndex * g.sh - g.sh + g.kh - padTop
      let newH := sizeIndex * g.sh - g.sh + g.kh - 0 - 0
      ⟨newEnd - newH, newH, 0, 0, padLeft, padRight⟩

/-- Value computed by the rewritten operators (lines 626-688): slice of the input, pad (only for SAME; pads are 0 for
VALID), then the cloned operator with VALID padding. -/
def raisedConv {α β : Type} (z : α) (g : Win) (F : (Int → Int → α) → β) (r : Raised) (x : Img α) : Img β :=
  convValid g F (pad z r.padTop r.padBottom r.padLeft r.padRight (sliceRows r.begin_ r.size x))

/-- Height that the rewrite writes in the type of the new convolution (lines 632, 664-665). -/
def raisedTypeHeight (g : Win) (r : Raised) : Int :=
  (r.size + r.padTop + r.padBottom + g.sh - g.kh) / g.sh

/-- Width that the rewrite writes in the type of the new convolution (lines 633, 666). -/
def raisedTypeWidth (g : Win) (r : Raised) (inputWidth : Int) : Int :=
  (inputWidth + r.padLeft + r.padRight + g.sw - g.kw) / g.sw

/-- `RaiseSlicePadPattern` (lines 734-809) for an operator `pad` with output size `outH × outW`; the height and width
pads are recomputed from the sizes, halving the total (lines 737-740). -/
def raiseSlicePad (inH inW outH outW : Int) (beginIndex sizeIndex : Int) : Raised :=
  let endIndex := beginIndex + sizeIndex
  let padTop := (outH - inH) / 2
  let padBottom := (outH - inH) - padTop
  let padLeft := (outW - inW) / 2
  let padRight := (outW - inW) - padLeft
  if beginIndex = 0 then
    let newEnd := endIndex - padTop
    let newH := sizeIndex - padTop - 0
    ⟨newEnd - newH, newH, padTop, 0, padLeft, padRight⟩
  else if endIndex = outH then
    let newEnd := endIndex - padTop - padBottom
    let newH := sizeIndex - 0 - padBottom
    ⟨newEnd - newH, newH, 0, padBottom, padLeft, padRight⟩
  else
    let newEnd := endIndex - padTop
    let newH := sizeIndex - 0 - 0
    ⟨newEnd - newH, newH, 0, 0, padLeft, padRight⟩

/-- Value computed after raising a slice above a pad (lines 786-825). -/
def raisedPad {α : Type} (z : α) (r : Raised) (x : Img α) : Img α :=
  pad z r.padTop r.padBottom r.padLeft r.padRight (sliceRows r.begin_ r.size x)

/-- Candidate search of `combineSliceWithExisting` (lines 133-151): first other slice that contains this one. -/
def findContaining (b n : Int) (cands : List (Int × Int)) : Option (Int × Int) :=
  cands.find? fun c => decide (b ≥ c.1 ∧ b + n ≤ c.1 + c.2)

/-- `combineSliceWithExisting` (lines 153-180): value of the replacement, if any: the candidate itself when equal, else a
slice of the candidate. -/
def combineSlice {α : Type} (b n : Int) (cands : List (Int × Int)) (y : Img α) : Option (Img α) :=
  (findContaining b n cands).map fun c =>
    if b = c.1 ∧ n = c.2 then sliceRows c.1 c.2 y else sliceRows (b - c.1) n (sliceRows c.1 c.2 y)

/-- Operand of a broadcasting element-wise operator. -/
def bcast {α : Type} (h w : Int) (x : Img α) : Img α :=
  ⟨h, w, fun i j => x.px (if x.h = 1 then 0 else i) (if x.w = 1 then 0 else j)⟩

/-- Element-wise binary operator with broadcasting to `h × w` (specification of `tfl.add`/`tfl.mul`). -/
def ewise {α : Type} (f : α → α → α) (h w : Int) (a b : Img α) : Img α :=
  ⟨h, w, fun i j => f ((bcast h w a).px i j) ((bcast h w b).px i j)⟩

/-- Operand after raising a slice above a binary operator (`getSliceOp`, lines 445-491): an operand of the output's
shape is sliced, any other operand is kept whole (its fake slice is removed later, lines 272-278). -/
def raisedOperand {α : Type} (h w b n : Int) (a : Img α) : Img α :=
  if a.h = h ∧ a.w = w then sliceRows b n a else a

/-- Value computed after raising a slice above a binary operator (lines 437-500). -/
def raisedBinary {α : Type} (f : α → α → α) (h w b n : Int) (x y : Img α) : Img α :=
  ewise f n w (raisedOperand h w b n x) (raisedOperand h w b n y)

end Verif.OpSplit
