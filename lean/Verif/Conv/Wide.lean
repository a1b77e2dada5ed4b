import Verif.Conv.CompileMore
/-!
C110: a whole 16-bit convolution, from the TensorFlow Lite operator to the operators in the compiled model.

The pattern applications before the lowering are those of C80 with channels padded to multiples of 16 (`PipelineN 16`).  The operator that
ReplaceConv2D makes for 16-bit data is a different one: the direct kernel on 16-bit values with the output transform of lib_nn's
`output_transform_fn_int16`.  lib_nn is not part of /repo; its kernel enters as the contract `Lib16.OK`.
-/
namespace Verif.Conv.Compile
open Verif.Tensor Verif.Move Verif.Image Verif.Quant Verif.Conv Verif.TFL

/-! ### Model -/

/-- The operator that ReplaceConv2D sees for a 16-bit convolution (ConvPatterns.td 34-42; ReplaceConv2D.cpp 78-80 `isI16Conv`). -/
def Leaf.fake16 (t : Types) (l : Leaf) : Fake := { l.fake t with bits := 16 }

/-- ConvPatterns.td 34-42 for 16-bit data: pixels of input and output are multiples of four bytes, at two bytes per element; no groups.
Depthwise convolutions (44-50) have a pattern for 8-bit data only. -/
def fakeApplies16 (f : Fake) : Bool := f.dw = false ∧ f.ic * 2 % 4 = 0 ∧ f.oc * 2 % 4 = 0 ∧ f.ic = f.filter.c

/-- The XC operator that replaces a 16-bit convolution, if it is replaced (ReplaceConv2D.cpp 49-220; ConvPatternsTFL.cpp 198-207, 262-283,
477-527).  No pattern splits RELU off a 16-bit convolution: ConvPatterns.td 14-16 is for 8-bit data. -/
def Leaf.lowered16 (cfg : Cfg) (lib : Lib) (t : Types) (l : Leaf) : Option Lowered :=
  if fakeApplies16 (l.fake16 t) then lower cfg lib (l.fake16 t) else none

/-! ### Contract of the lib_nn kernel -/

/-- The 16-bit kernel of lib_nn: result for a channel and a patch, the error it makes, and the largest multiplier it can represent.
(`output_transform_fn_int16_kernel_transform` turns multipliers and biases into 32-bit numbers.) -/
structure Lib16 where
  kern : MB → Nat → (Nat → Nat → Nat → Int) → Int
  err : ℚ
  top : ℚ

/-- Saturation to 16 bits. -/
def sat16 (v : ℚ) : ℚ := max (-32768) (min 32767 v)

/-- The sum of the magnitudes of all products of channel `o`. -/
def absDot (m : MB) (o : Nat) (p : Nat → Nat → Nat → Int) : Int :=
  ∑ a ∈ Finset.range m.kh, ∑ b ∈ Finset.range m.kw, ∑ c ∈ Finset.range m.nc, |p a b c * m.w o a b c|

/-- Contract: on 16-bit values, with a multiplier it can represent and no partial sum outside 32 bits in whatever order the products are
added, the kernel computes multiplier times (bias plus dot product), saturated to 16 bits, up to the error.  Results are 16-bit. -/
structure Lib16.OK (lib : Lib16) : Prop where
  nonneg : 0 ≤ lib.err
  near : ∀ (m : MB) (o : Nat) (p : Nat → Nat → Nat → Int), m.dw = false → 0 < m.mul o → m.mul o ≤ lib.top →
    (∀ a b c, -32768 ≤ p a b c ∧ p a b c ≤ 32767) → |m.biasAt o| + absDot m o p < 2 ^ 31 →
    |(lib.kern m o p : ℚ) - sat16 (m.mul o * ((m.biasAt o + m.dot o p : Int) : ℚ))| ≤ lib.err
  range : ∀ m o p, -32768 ≤ lib.kern m o p ∧ lib.kern m o p ≤ 32767

/-- The patch, with zeros where the kernel has no element. -/
def _root_.Verif.Conv.Lowered.window (l : Lowered) (x : Tensor) (bt y xx o a b c : Nat) : Int :=
  if a < l.mb.kh ∧ b < l.mb.kw ∧ c < l.mb.nc then l.patch x bt y xx o a b c else 0

/-- Result of a 16-bit XC convolution. -/
def _root_.Verif.Conv.Lowered.run16 (lib16 : Lib16) (l : Lowered) (x : Tensor) (idx : List Nat) : Int :=
  lib16.kern l.mb (idx.getD 3 0) (l.window x (idx.getD 0 0) (idx.getD 1 0) (idx.getD 2 0) (idx.getD 3 0))

/-! ### What the operators compute -/

/-- Range of the results of a 16-bit operator with a fused activation (TensorFlow Lite `CalculateActivationRange`). -/
def actLo16 (t : Types) (r : ℚ → ℤ) : Int :=
  match t.act with
  | .none => -32768
  | .relu | .relu6 => max (-32768) t.zpo
  | .reluN1 => max (-32768) (t.zpo + r (-1 / t.outS))
def actHi16 (t : Types) (r : ℚ → ℤ) : Int :=
  match t.act with
  | .none | .relu => 32767
  | .relu6 => min 32767 (t.zpo + r (6 / t.outS))
  | .reluN1 => min 32767 (t.zpo + r (1 / t.outS))

/-- TensorFlow Lite's requantisation to 16 bits. -/
def rqT16 (t : Types) (r : ℚ → ℤ) : Requant := fun s _ acc =>
  clamp (actLo16 t r) (actHi16 t r) (t.zpo + r (t.inS * s / t.outS * acc))

/-- The compiled 16-bit convolution: an XC convolution if the operator is replaced, else the TensorFlow Lite operator. -/
def Leaf.run16 (cfg : Cfg) (lib : Lib) (lib16 : Lib16) (r : ℚ → ℤ) (t : Types) (l : Leaf) (x : Tensor) (idx : List Nat) : Int :=
  match l.lowered16 cfg lib t with
  | some lo => lo.run16 lib16 (srcVal t.zpi l.src x) idx
  | none => l.value (rqT16 t r) t.zpi x idx

/-- The TensorFlow Lite operator on the original input: a plain 16-bit convolution. -/
def tflConv16 (r : ℚ → ℤ) (t : Types) (l : Leaf) (x : Tensor) (idx : List Nat) : Int := conv2d (rqT16 t r) t.zpi l.ih l.iw l.ic l.op x idx

/-- No product of 16-bit inputs with channel `o`'s filter can push the accumulator outside 32 bits: bias plus 32768 times the sum of the
filter's magnitudes.  A condition on the model's constants. -/
def Leaf.Fits32 (l : Leaf) : Prop := ∀ o < l.op.filter.o,
  |biasAt l.op.bias o| + 32768 * ∑ a ∈ Finset.range l.op.filter.kh, ∑ b ∈ Finset.range l.op.filter.kw, ∑ c ∈ Finset.range l.op.filter.c,
    |l.op.filter.at o a b c| < 2 ^ 31

end Verif.Conv.Compile
