import Verif.Conv.Props
import Verif.Quant.Basic
import Mathlib.Algebra.BigOperators.Ring.Finset
import Mathlib.Tactic.Ring
import Mathlib.Tactic.NormNum
/-!
Lowering of quantised convolutions to `XC_conv2d_v2` (xformer/Transforms/ReplaceConv2D.cpp, ConvPatternsTFL.cpp,
ConvPatterns.td): model.

lib_nn is not part of /repo.  Its im2col/matmul kernels and its output transforms enter as the contract at the end of the
model: what an XC convolution with given parameters computes.  The output transform is an arbitrary function with a reported
error bound.  `float`/`double` scales are rationals.
-/
namespace Verif.Conv
open Verif.Tensor Verif.Image Verif.Quant

inductive Act where
  | none
  | relu
  | relu6
  | reluN1
  deriving DecidableEq, Repr

/-- `padding` of `XC_FakeConv2D`: the TensorFlow Lite kinds, or explicit pads (top, bottom, left, right). -/
inductive FPad where
  | tfl (p : Padding)
  | explicit (t b l r : Int)
  deriving DecidableEq, Repr

/-- `XC_FakeConv2D` / `XC_FakeDepthwiseConv2D` (`dw`) with its types (XCoreOps.td; ConvPatterns.td 34–51).  Tensors are
`[_, ih, iw, ic]` and `[_, oh, ow, oc]`; `bits` is the width of input and output, `inS, zpi, outS, zpo` their
quantisation.  Simplification: input and output have the same width. -/
structure Fake where
  dw : Bool
  bits : Nat
  ih : Nat
  iw : Nat
  ic : Nat
  oh : Nat
  ow : Nat
  oc : Nat
  inS : ℚ
  zpi : Int
  outS : ℚ
  zpo : Int
  filter : Filter
  bias : Option (List Int)
  pad : FPad
  sh : Nat
  sw : Nat
  dh : Nat
  dwf : Nat
  act : Act
  deriving DecidableEq

/-- `Conv2DType` (XCoreOps.td), the kinds used for TFL convolutions. -/
inductive KT where
  | validDirect
  | validIndirect
  | paddedIndirect
  | validDirectI16
  | depthwiseValidDirect
  | depthwisePaddedIndirect
  deriving DecidableEq, Repr

inductive OT where
  | group
  | channelwise
  deriving DecidableEq, Repr

/-- `tensorflow::GetWindowedOutputSizeVerbose` (external, TensorFlow): output size, padding before, padding after; an error
for a stride or dilation below one or a negative output size. -/
def windowed (n k d s : Nat) (p : Padding) : Option (Int × Int × Int) :=
  if s < 1 ∨ d < 1 then none
  else
    let e : Int := ((k : Int) - 1) * d + 1
    let r : Int × Int × Int :=
      match p with
      | .valid => (((n : Int) - e + s) / s, 0, 0)
      | .same =>
        let out : Int := ((n : Int) + s - 1) / s
        let needed : Int := max 0 ((out - 1) * s + e - n)
        (out, needed / 2, needed - needed / 2)
    if r.1 < 0 then none else some r

structure Pads where
  top : Int
  left : Int
  bottom : Int
  right : Int
  deriving DecidableEq, Repr

/-- `static_cast<int16_t>`. -/
def toI16 (z : Int) : Int := (z + 32768) % 65536 - 32768

/-- ConvPatternsTFL.cpp 125–156: the pads before the cast to 16 bits. -/
def getPads (f : Fake) : Option Pads :=
  match f.pad with
  | .explicit t b l r => some ⟨t, l, b, r⟩
  | .tfl p =>
    match windowed f.ih f.filter.kh f.dh f.sh p, windowed f.iw f.filter.kw f.dwf f.sw p with
    | some (_, t, b), some (_, l, r) => some ⟨t, l, b, r⟩
    | _, _ => none

/-- ConvPatternsTFL.cpp 71–102: `inputScale * filterScale / outputScale`, one for every entry of the filter's quantised
dimension (ConvPatterns.h: 0 for convolutions, 3 for depthwise). -/
def effMuls (f : Fake) : List ℚ :=
  (List.range (if f.dw then f.filter.c else f.filter.o)).map fun i => f.inS * f.filter.qp.scale i / f.outS

/-- ConvPatternsTFL.cpp 104–123: every multiplier is limited to `factor` times the smallest. -/
def clampMuls (factor : Nat) (l : List ℚ) : List ℚ :=
  match l with
  | [] => []
  | a :: t => (a :: t).map fun m => min m (t.foldl min a * factor)

/-- Arguments of lib_nn's `canonicalise_mul_and_bias[_dw]`. -/
structure MB where
  dw : Bool
  muls : List ℚ
  bias : List Int
  filter : List Int
  fshape : List Nat
  zpi : Int
  zpo : Int

/-- The output transforms of lib_nn (external): value before rounding as a function of channel and accumulator, and the
reported quantisation error. -/
structure Lib where
  group : MB → Nat → Int → ℚ
  groupErr : MB → ℚ
  chan : MB → Nat → Int → ℚ
  chanErr : MB → ℚ
  round : ℚ → ℤ

/-- Command line options (XCoreOptMain.cpp 110–131): error threshold, multiplier factor. -/
structure Cfg where
  threshold : ℚ
  factor : Nat

/-- An `XC_conv2d_v2` operator: kernel type, pads and window start as given to lib_nn, strides, dilations, and the data for
aggregation and output transform. -/
structure Lowered where
  kt : KT
  ot : OT
  pads : Pads
  startRow : Int
  startCol : Int
  sh : Nat
  sw : Nat
  dh : Nat
  dwf : Nat
  ih : Nat
  iw : Nat
  kh : Nat
  kw : Nat
  ic : Nat
  oc : Nat
  mb : MB

/-- ConvPatternsTFL.cpp 198–217 and 531–540: `getKernelType`. -/
def kernelType (f : Fake) (toBePadded : Bool) : Option KT :=
  if f.dw then
    if toBePadded then some .depthwisePaddedIndirect else some .depthwiseValidDirect
  else if f.bits = 16 then
    if f.ic % 16 = 0 ∧ f.oc % 16 = 0 then some .validDirectI16 else none
  else if toBePadded then some .paddedIndirect
  else if f.ic % 32 = 0 ∧ f.oc % 16 = 0 then some .validDirect
  else some .validIndirect

/-- ConvPatternsTFL.cpp 157–158 `toBePadded`. -/
def toBePadded (p : Pads) : Bool := p.top ≠ 0 ∨ p.bottom ≠ 0 ∨ p.left ≠ 0 ∨ p.right ≠ 0

/-- Filter shape given to lib_nn: ConvPatternsTFL.cpp 385, 419, 453, 489 (convolutions), 592, 690, 721 (depthwise). -/
def libShape (f : Fake) : List Nat :=
  if f.dw then [1, f.filter.kh, f.filter.kw, f.ic] else [f.oc, f.filter.kh, f.filter.kw, f.ic]

/-- ConvPatternsTFL.cpp 303–306, 609–613: the arguments of `canonicalise_mul_and_bias`; 48–69: a missing bias is zero. -/
def mulsBias (cfg : Cfg) (f : Fake) : MB :=
  { dw := f.dw, muls := clampMuls cfg.factor (effMuls f), bias := f.bias.getD (List.replicate f.oc 0)
    filter := f.filter.data, fshape := libShape f, zpi := f.zpi, zpo := f.zpo }

/-- ConvPatternsTFL.cpp 311–359, 617–664: group transform if its error is within the threshold, else channelwise if that
one's error is, else failure.  (The 16-bit kernel always uses `Group` without a check: 263–283.) -/
def chooseOT (cfg : Cfg) (lib : Lib) (mb : MB) : Option OT :=
  if lib.groupErr mb ≤ cfg.threshold then some .group
  else if lib.chanErr mb ≤ cfg.threshold then some .channelwise
  else none

/-- ReplaceConv2D.cpp 49–220 with ConvPatternsTFL.cpp 19–188: the operator created for `f`, or none if the convolution is
left alone.  The fused activation is not looked at. -/
def lower (cfg : Cfg) (lib : Lib) (f : Fake) : Option Lowered :=
  match getPads f with
  | none => none
  | some p =>
    match kernelType f (toBePadded p) with
    | none => none
    | some kt =>
      match (if kt = .validDirectI16 then some OT.group else chooseOT cfg lib (mulsBias cfg f)) with
      | none => none
      | some ot =>
        let pads : Pads := ⟨toI16 p.top, toI16 p.left, toI16 p.bottom, toI16 p.right⟩
        some { kt := kt, ot := ot, pads := pads, startRow := -pads.top, startCol := -pads.left, sh := f.sh, sw := f.sw
               dh := f.dh, dwf := f.dwf, ih := f.ih, iw := f.iw, kh := f.filter.kh, kw := f.filter.kw, ic := f.ic, oc := f.oc
               mb := mulsBias cfg f }

/-- ConvPatterns.td 34–51: when a `TFL.Conv2D` / `TFL.DepthwiseConv2D` becomes a fake convolution at all (the filter is
constant in this model): channel counts multiples of four and, for convolutions, no groups. -/
def fakeApplies (f : Fake) : Bool :=
  f.ic % 4 = 0 ∧ f.oc % 4 = 0 ∧ (f.dw = true ∨ f.ic = f.filter.c)

/-- ConvPatterns.td 11–16: `Relu` is split off a convolution unless the output zero point is -128 (8-bit convolutions). -/
def reluSplitOff (f : Fake) : Bool := !f.dw ∧ f.bits = 8 ∧ f.act = .relu ∧ f.zpo ≠ -128

/-! ### Contract of the lib_nn kernels -/

def MB.mul (m : MB) (o : Nat) : ℚ := m.muls.getD o 0
def MB.biasAt (m : MB) (o : Nat) : Int := m.bias.getD o 0

/-- The filter element for output channel `o`, kernel position `(a, b)` and input channel `c`. -/
def MB.w (m : MB) (o a b c : Nat) : Int :=
  if m.dw then m.filter.getD (ravel m.fshape [0, a, b, o]) 0 else m.filter.getD (ravel m.fshape [o, a, b, c]) 0

def MB.kh (m : MB) : Nat := m.fshape.getD 1 0
def MB.kw (m : MB) : Nat := m.fshape.getD 2 0
/-- Input channels combined into one output channel. -/
def MB.nc (m : MB) : Nat := if m.dw then 1 else m.fshape.getD 3 0

/-- Dot product of channel `o`'s filter with a patch. -/
def MB.dot (m : MB) (o : Nat) (p : Nat → Nat → Nat → Int) : Int :=
  ∑ a ∈ Finset.range m.kh, ∑ b ∈ Finset.range m.kw, ∑ c ∈ Finset.range m.nc, p a b c * m.w o a b c

/-- What the output transform approximates: multiplier times accumulator, corrected for the input zero point, plus bias and
output zero point. -/
def MB.exact (m : MB) (o : Nat) (acc : Int) : ℚ :=
  m.mul o * acc + (m.mul o * ((m.biasAt o - m.zpi * m.dot o fun _ _ _ => 1 : Int) : ℚ) + m.zpo)

/-- The reported errors bound the deviation for every patch of 8-bit values, and rounding is to a nearest integer.
(lib_nn's fast check, used unless `--xcore-force-conv-err-full-check` is given, only estimates the group error.) -/
structure Lib.Faithful (lib : Lib) : Prop where
  group : ∀ (m : MB) (o : Nat) (p : Nat → Nat → Nat → Int), (∀ a b c, -128 ≤ p a b c ∧ p a b c ≤ 127) →
    |lib.group m o (m.dot o p) - m.exact o (m.dot o p)| ≤ lib.groupErr m
  chan : ∀ (m : MB) (o : Nat) (p : Nat → Nat → Nat → Int), (∀ a b c, -128 ≤ p a b c ∧ p a b c ≤ 127) →
    |lib.chan m o (m.dot o p) - m.exact o (m.dot o p)| ≤ lib.chanErr m
  round : Nearest lib.round

def KT.padded : KT → Bool
  | .paddedIndirect | .depthwisePaddedIndirect => true
  | _ => false

/-- Row (column) of the input read for output coordinate `y` and kernel position `a`. -/
def Lowered.row (l : Lowered) (y a : Nat) : Int := y * l.sh + l.startRow + a * l.dh
def Lowered.col (l : Lowered) (x b : Nat) : Int := x * l.sw + l.startCol + b * l.dwf

def Lowered.Inside (l : Lowered) (i j : Int) : Prop := (0 ≤ i ∧ i < l.ih) ∧ 0 ≤ j ∧ j < l.iw

instance (l : Lowered) (i j : Int) : Decidable (l.Inside i j) := by unfold Lowered.Inside; infer_instance

/-- The patch the kernel multiplies with the filter: input elements, and the input zero point outside the input. -/
def Lowered.patch (l : Lowered) (x : Tensor) (bt y xx o a b c : Nat) : Int :=
  if l.Inside (l.row y a) (l.col xx b) then x [bt, (l.row y a).toNat, (l.col xx b).toNat, if l.mb.dw then o else c]
  else l.mb.zpi

/-- Result of an 8-bit XC convolution. -/
def Lowered.run (lib : Lib) (l : Lowered) (x : Tensor) (idx : List Nat) : Int :=
  let bt := idx.getD 0 0; let y := idx.getD 1 0; let xx := idx.getD 2 0; let o := idx.getD 3 0
  let acc := l.mb.dot o fun a b c => l.patch x bt y xx o a b c
  clamp (-128) 127 (lib.round (match l.ot with | .group => lib.group l.mb o acc | .channelwise => lib.chan l.mb o acc))

/-- What the kernels demand: the kernels without padding must never be made to read outside the input, and the direct
convolution works on whole vectors of 32 input and 16 output channels (16 and 16 for 16-bit data). -/
def Lowered.Usable (l : Lowered) (oh ow : Nat) : Prop :=
  (l.kt.padded = false → ∀ y < oh, ∀ x < ow, ∀ a < l.kh, ∀ b < l.kw, l.Inside (l.row y a) (l.col x b)) ∧
  (l.kt = .validDirect → l.ic % 32 = 0 ∧ l.oc % 16 = 0) ∧
  (l.kt = .validDirectI16 → l.ic % 16 = 0 ∧ l.oc % 16 = 0)

end Verif.Conv
