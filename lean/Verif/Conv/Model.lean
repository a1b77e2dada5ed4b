import Verif.Conv.Spec
/-!
Model of xformer/Transforms/OptimizeConv2D.cpp.  `int` arithmetic is modelled on `Nat`/`Int` without overflow.
-/
namespace Verif.Conv
open Verif.Tensor Verif.Move

/-- Least padding up to a multiple of `al`: `((n + al - 1) / al) * al - n`.
OptimizeConv2D.cpp 608-612 (input), 695-698 (output), 765 (depthwise). -/
def alignPad (al n : Nat) : Nat := (n + al - 1) / al * al - n

/-- Alignment: 16 channels if input and output are both 16 bits wide, else 4.  Lines 596-608, 681-695. -/
def alignOf (inBits outBits : Nat) : Nat := if inBits = 16 ∧ outBits = 16 then 16 else 4

/-- `getPaddedResultType`: per-channel scales are extended with 1.0 and zero points with 0.  Lines 234-269. -/
def padQP (p : Nat) : QP → QP
  | .perTensor s z => .perTensor s z
  | .perAxis ss zs => .perAxis (ss ++ List.replicate p 1) (zs ++ List.replicate p 0)

/-- The loop that appends `p` zeros after every run of `k` elements (`for i = 0; i < size; i += k`).  Lines 303-311. -/
def padRuns (k p : Nat) (l : List Int) : List Int :=
  (List.range ((l.length + k - 1) / k)).flatMap fun j => (l.drop (j * k)).take k ++ List.replicate p 0

/-- `createPaddedFilterOp` with padDim 3; `quantDim` is the operator's `GetQuantizationDimIndex()` (0 for Conv2D and
TransposeConv, 3 for DepthwiseConv2D).  Lines 271-349. -/
def padFilter3 (quantDim p : Nat) (f : Filter) : Filter :=
  { f with c := f.c + p, data := padRuns f.c p f.data, qp := if quantDim = 3 then padQP p f.qp else f.qp }

/-- `createPaddedFilterOp` with padDim 0: zeros appended at the end.  Lines 271-349 (312-318). -/
def padFilter0 (quantDim p : Nat) (f : Filter) : Filter :=
  { f with o := f.o + p, data := f.data ++ List.replicate (p * f.kh * f.kw * f.c) 0,
           qp := if quantDim = 0 then padQP p f.qp else f.qp }

/-- `createPaddedBiasOp`.  Lines 351-396. -/
def padBias (p : Nat) (b : Bias) : Bias := { data := b.data ++ List.replicate p 0, qp := padQP p b.qp }

/-- `createInputPadOp`: `tfl.pad` by `p` channels at the end; `tfl.pad` fills with the zero point `zpi`.  Lines 211-232. -/
def padInputT (zpi : Int) (shape : List Nat) (x : Tensor) : Tensor := padT zpi [0, 0, 0, 0] shape x

/-- Result of `PadConv2DInputPattern`: how many channels the input is padded by, and the changed operator.  `none`: the
pattern does not apply.  The element type checks (lines 555-592) are not modelled.  Lines 544-632. -/
def padConvInput (al ic : Nat) (op : ConvOp) : Option (Nat × ConvOp) :=
  let p := alignPad al ic
  if p = 0 then none else some (p, { op with filter := padFilter3 0 p op.filter })

/-- Slice produced by `createPaddedConvWithSliceOp`: begin and size.  Lines 439-448. -/
structure SliceAttr where
  begin_ : List Nat
  size : List Nat
  deriving DecidableEq, Repr

/-- Result of `PadConv2DOutputPattern`: the operator with `p` more output channels and the slice behind it; `out` is the
output shape.  Lines 634-725 and 398-454. -/
def padConvOutput (al : Nat) (out : List Nat) (op : ConvOp) : Option (Nat × ConvOp × SliceAttr) :=
  let p := alignPad al (out.getD 3 0)
  if p = 0 then none
  else some (p, { op with filter := padFilter0 0 p op.filter, bias := op.bias.map (padBias p) },
    { begin_ := [0, 0, 0, 0], size := [1, out.getD 1 0, out.getD 2 0, out.getD 3 0] })

/-- Result of `PadTo4DepthwiseConv2DPattern`: input padding, operator and slice.  Lines 727-793. -/
def padDepthwise (ic : Nat) (out : List Nat) (op : ConvOp) : Option (Nat × ConvOp × SliceAttr) :=
  if ic ≠ out.getD 3 0 then none
  else
    let p := (ic + 3) / 4 * 4 - ic
    if p = 0 then none
    else some (p, { op with filter := padFilter3 3 p op.filter, bias := op.bias.map (padBias p) },
      { begin_ := [0, 0, 0, 0], size := [1, out.getD 1 0, out.getD 2 0, out.getD 3 0] })

/-! ### Channel-wise splitting -/

/-- Group sizes: `tmp = batch / 4`, `d = tmp / numSplits`, `r = tmp % numSplits`; the loop counts `r` down.
Lines 109-123. -/
def splitLoop (d : Nat) : Nat → Nat → List Nat
  | 0, _ => []
  | n + 1, r => if r > 0 then ((d + 1) * 4) :: splitLoop d n (r - 1) else (d * 4) :: splitLoop d n r

def splitSizes (batch numSplits : Nat) : List Nat :=
  let tmp := batch / 4
  splitLoop (tmp / numSplits) numSplits (tmp % numSplits)

/-- `numSplits = ceil(filterSize / limit)`, where both operands are integers, so that the division already rounds down;
the pattern applies if `numSplits >= 2` and `batch / 4 >= 2`.  Lines 96-107. -/
def numSplits (filterSize limit : Nat) : Nat := filterSize / limit

def splitApplies (filterSize limit batch : Nat) : Bool := ¬(numSplits filterSize limit < 2 ∨ batch / 4 < 2)

/-- `getSplitResultType`: scales and zero points `[elems, elems + n)`.  Lines 58-87. -/
def splitQP (elems n : Nat) : QP → QP
  | .perTensor s z => .perTensor s z
  | .perAxis ss zs => .perAxis ((ss.drop elems).take n) ((zs.drop elems).take n)

/-- One of the smaller convolutions; its padding is always `VALID`.  Lines 139-197. -/
def splitConv (op : ConvOp) (elems n : Nat) : ConvOp :=
  let f := op.filter
  let rest := f.kh * f.kw * f.c
  { op with
    padding := .valid
    filter := { f with o := n, data := (f.data.drop (elems * rest)).take ((elems + n) * rest - elems * rest),
                       qp := splitQP elems n f.qp }
    bias := op.bias.map fun b => { data := (b.data.drop elems).take n, qp := splitQP elems n b.qp } }

/-- The loop over the groups with its running channel offset.  Lines 137-200. -/
def splitConvs (op : ConvOp) : Nat → List Nat → List (Nat × ConvOp)
  | _, [] => []
  | elems, n :: ns => (n, splitConv op elems n) :: splitConvs op (elems + n) ns

/-- `ChannelwiseSplitConv2DOutputPattern`: the convolutions that are concatenated along axis 3.  Lines 27-209. -/
def channelSplit (limit : Nat) (op : ConvOp) : Option (List (Nat × ConvOp)) :=
  if splitApplies op.filter.data.length limit op.filter.o then
    some (splitConvs op 0 (splitSizes op.filter.o (numSplits op.filter.data.length limit)))
  else none

/-! ### Transposed convolution: SAME to VALID -/

/-- Result of `SameToValidTransposeConvPattern`: size of the `VALID` output and the begin and size of the slice (`none` if
no slice is made).  `int` division rounds towards zero.  Lines 456-542. -/
structure SameToValid where
  op : ConvOp
  vh : Int
  vw : Int
  slice : Option (List Int × List Int)
  deriving Repr

def sameToValid (ih iw : Nat) (out : List Nat) (op : ConvOp) : Option SameToValid :=
  if op.padding ≠ .same then none
  else
    let vh : Int := ((ih : Int) - 1) * op.sh + op.filter.kh
    let vw : Int := ((iw : Int) - 1) * op.sw + op.filter.kw
    let sliceH : Int := (op.filter.kh : Int) - op.sh
    let sliceW : Int := (op.filter.kw : Int) - op.sw
    some { op := { op with padding := .valid }, vh, vw,
           slice := if sliceH = 0 ∧ sliceW = 0 then none
                    else some ([0, sliceH.tdiv 2, sliceW.tdiv 2, 0],
                               [1, (out.getD 1 0 : Int), (out.getD 2 0 : Int), (out.getD 3 0 : Int)]) }

end Verif.Conv
