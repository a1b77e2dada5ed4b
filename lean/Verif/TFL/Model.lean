import Verif.Quant.Basic
import Verif.Image.Basic
import Verif.Move.Spec
/-!
Model of the rewrite patterns on TensorFlow Lite operators (xformer/Transforms/TFLPatterns.td and ApplyTFLPatterns.cpp).
A pattern is modelled as a function from the matched operators (their attributes and types) to the operators it creates;
`none` means that the pattern does not apply.
-/
namespace Verif.TFL
open Verif.Quant

/-! ### SAME padding -/

/-- `tensorflow::GetWindowedOutputSizeVerbose` for `SAME` (TensorFlow, core/framework/kernel_shape_util.cc; a library of
/repo, used in ApplyTFLPatterns.cpp 48-59): output size, padding before and padding after. -/
def windowedSame (n k d s : Int) : Int × Int × Int :=
  let effective := (k - 1) * d + 1
  let out := (n + s - 1) / s
  let needed := max 0 ((out - 1) * s + effective - n)
  (out, needed / 2, needed - needed / 2)

/-- `getConvPaddingValues` (ApplyTFLPatterns.cpp 31-88): the padding values of the created pad operator and the shape of
its result, from the input shape `[n, h, w, c]` and the filter shape `[o, kh, kw, i]`. -/
def getConvPaddingValues (input filter : List Int) (dh dw sh sw : Int) : List Int × List Int :=
  let inputHeight := input.getD 1 0
  let inputWidth := input.getD 2 0
  let filterHeight := filter.getD 1 0
  let filterWidth := filter.getD 2 0
  let (_, padTop, padBottom) := windowedSame inputHeight filterHeight dh sh
  let (_, padLeft, padRight) := windowedSame inputWidth filterWidth dw sw
  ([0, 0, padTop, padBottom, padLeft, padRight, 0, 0],
   [input.getD 0 0, inputHeight + padTop + padBottom, inputWidth + padLeft + padRight, input.getD 3 0])

/-! ### Swapping of pads -/

/-- `hasOnlyChannelPadding` (xformer/Utils/Util.cpp 74-80); `p` is the flattened 4x2 attribute. -/
def hasOnlyChannelPadding (p : List Nat) : Bool :=
  if p.length ≠ 8 then false
  else p.getD 0 0 == 0 && p.getD 1 0 == 0 && p.getD 2 0 == 0 && p.getD 3 0 == 0 && p.getD 4 0 == 0 && p.getD 5 0 == 0

/-- `hasOnlySpatialPadding` (Util.cpp 82-88). -/
def hasOnlySpatialPadding (p : List Nat) : Bool :=
  if p.length ≠ 8 then false
  else p.getD 0 0 == 0 && p.getD 1 0 == 0 && p.getD 6 0 == 0 && p.getD 7 0 == 0

/-- Two pad operators in a row: padding values of the inner one, shape of its result, padding values of the outer one and
shape of its result. -/
structure TwoPads where
  inner : List Nat
  mid : List Nat
  outer : List Nat
  out : List Nat
deriving DecidableEq, Repr

/-- `PadChannel(PadSpatial)` to `PadSpatial(PadChannel)` (TFLPatterns.td 108-153) with `PadChannelOutputType` (Utils.td
110-116); `input` is the shape of the innermost operand. -/
def swapPads (input : List Nat) (t : TwoPads) : Option TwoPads :=
  if hasOnlySpatialPadding t.inner && hasOnlyChannelPadding t.outer then
    some { inner := t.outer
           mid := [input.getD 0 0, input.getD 1 0, input.getD 2 0, t.out.getD 3 0]
           outer := t.inner
           out := t.out }
  else none

/-! ### Quantise fusions -/

/-- A chain of operators that ends with re-quantisations, from a real-valued producer: the types of the successive
results.  `Quantize(Quantize(x))`, `Quantize(Conv2D)` and `Quantize(DepthwiseConv2D)` all have this form: the producer
writes type `t1`, the quantise operator re-quantises to `t2`. -/
structure Chain where
  types : List QType

/-- `Quantize(Quantize())`, `Quantize(Conv2D())`, `Quantize(DepthwiseConv2D())` (TFLPatterns.td 25-39): the result type is
the one of the outer operator, the inner quantisation is gone. -/
def fuseQuantize (c : Chain) : Option Chain :=
  match c.types with
  | [_, t2] => some ⟨[t2]⟩
  | _ => none

/-- `Quantize(Reshape())` (TFLPatterns.td 17-23): both width constraints must hold. -/
def quantizeReshapeApplies (bits : Nat) : Bool := bits == 8 && bits == 16

/-! ### Activations -/

inductive Act where
  | none
  | relu
  | relu1
  | relu6
deriving DecidableEq, Repr

/-- A binary operator with fused activation `act`, followed by the separate activation operators `post`; all results have
the type of the original output (`returnType $output`, TFLPatterns.td 77). -/
structure BinAct where
  fused : Act
  post : List Act
deriving DecidableEq, Repr

/-- Unfusing (TFLPatterns.td 64-79) for the activations of this model.  `TANH` and `SIGN`, which integer kernels do not
support as fused activations, are not modelled. -/
def unfuse (b : BinAct) : Option BinAct :=
  match b.fused with
  | .none => Option.none
  | a => some ⟨.none, a :: b.post⟩

/-- Merging a `Relu` into a convolution (TFLPatterns.td 58-62): fused activation and result type of the convolution. -/
def mergeRelu (fused : Act) (_convType reluType : QType) : Option (Act × QType) :=
  if fused = .none then some (.relu, reluType) else Option.none

/-- `Relu(Minimum(x, c))` (TFLPatterns.td 55-56, `IsSplatAndEqualTo` in Utils.td 52-58): drops the minimum when the
8-bit splat value is 127. -/
def dropMinimum (splat : Int) : Bool := splat == 127

/-! ### Quantise above concatenation -/

/-- Operands of a concatenation: size along the axis, elements and type; and the type of the result. -/
structure Concat where
  axis : Nat
  operands : List (Nat × (List Nat → Int) × QType)
  type : QType

/-- `HoistQuantizeAboveConcatPattern` (ApplyTFLPatterns.cpp 107-155): each operand is quantised to the type of the outer
operator and the concatenation gets this type.  `requant from to` is the element-wise effect of a quantise operator. -/
def hoistQuantize (requant : QType → QType → Int → Int) (c : Concat) (qtype : QType) : Concat :=
  { axis := c.axis
    operands := c.operands.map fun o => (o.1, fun idx => requant o.2.2 qtype (o.2.1 idx), qtype)
    type := qtype }

/-! ### Explicit broadcast -/

/-- `hasSameShape` (Util.cpp 54-72); `none` is a dynamic dimension. -/
def hasSameShape (a b : List (Option Nat)) : Bool :=
  if a.length ≠ b.length then false
  else (List.range a.length).all fun i => (a.getD i none).getD 1 == (b.getD i none).getD 1

/-- An operand of a binary operator: its shape and how it is obtained from the original operand. -/
structure Operand (α : Type) where
  shape : List Nat
  val : List Nat → α

/-- The two patterns that add `tfl.broadcast_to` (TFLPatterns.td 90-106): on the first operand if its shape differs from the
output's, otherwise on the second operand. -/
def addBroadcast {α : Type} (out : List Nat) (a b : Operand α) : Option (Operand α × Operand α) :=
  if !hasSameShape (a.shape.map some) (out.map some) then
    some (⟨out, Move.broadcastT a.shape a.val⟩, b)
  else if !hasSameShape (b.shape.map some) (out.map some) then
    some (a, ⟨out, Move.broadcastT b.shape b.val⟩)
  else none

end Verif.TFL
