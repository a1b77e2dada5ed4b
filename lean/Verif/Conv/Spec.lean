import Verif.Tensor.Flat
import Verif.Move.Spec
import Verif.Image.Basic
import Mathlib.Algebra.BigOperators.Group.Finset.Basic
import Mathlib.Algebra.BigOperators.Intervals
import Mathlib.Algebra.Order.Ring.Rat
import Mathlib.Tactic.Ring
/-!
Reference semantics of the quantised TensorFlow Lite convolutions (specification, not code of /repo): `CONV_2D` with
groups, `DEPTHWISE_CONV_2D` with depth multiplier 1, and `TRANSPOSE_CONV`, for constant filter and bias.

Tensors are functions of multi-indices `[batch, row, column, channel]`.  Requantisation and fused activation are an
arbitrary function `rq` of the channel's filter scale, the channel's bias scale (if there is a bias) and the accumulator,
so the statements hold for every rounding rule, output scale and activation.
-/
namespace Verif.Conv
open Verif.Tensor Verif.Move Verif.Image

abbrev Tensor := List Nat → Int

/-- Quantisation parameters of a constant: for the whole tensor or per output channel. -/
inductive QP where
  | perTensor (scale : ℚ) (zp : Int)
  | perAxis (scales : List ℚ) (zps : List Int)
  deriving DecidableEq, Repr

def QP.scale : QP → Nat → ℚ
  | .perTensor s _, _ => s
  | .perAxis ss _, o => ss.getD o 0

def QP.zp : QP → Nat → Int
  | .perTensor _ z, _ => z
  | .perAxis _ zs, o => zs.getD o 0

/-- A per-channel annotation has one entry per channel. -/
def QP.Fits : QP → Nat → Prop
  | .perTensor _ _, _ => True
  | .perAxis ss zs, n => ss.length = n ∧ zs.length = n

inductive Padding where
  | valid
  | same
  deriving DecidableEq, Repr

/-- A constant filter of shape `[o, kh, kw, c]`, stored row-major. -/
structure Filter where
  o : Nat
  kh : Nat
  kw : Nat
  c : Nat
  data : List Int
  qp : QP
  deriving DecidableEq, Repr

def Filter.shape (f : Filter) : List Nat := [f.o, f.kh, f.kw, f.c]

/-- The element with multi-index `[o, a, b, c]`. -/
def Filter.at (f : Filter) (o a b c : Nat) : Int := f.data.getD (ravel f.shape [o, a, b, c]) 0

/-- As many data elements as the shape says. -/
def Filter.OK (f : Filter) : Prop := f.data.length = f.shape.prod

structure Bias where
  data : List Int
  qp : QP
  deriving DecidableEq, Repr

structure ConvOp where
  padding : Padding
  sh : Nat
  sw : Nat
  dh : Nat
  dw : Nat
  filter : Filter
  bias : Option Bias
  deriving DecidableEq, Repr

/-- Requantisation and activation. -/
abbrev Requant := ℚ → Option ℚ → Int → Int

/-- `Σ` over the taps `(a, b)` that lie inside the input and over the channels. -/
def accum (py px : Nat → Option Nat) (kh kw nc : Nat) (x : Nat → Nat → Nat → Int) (w : Nat → Nat → Nat → Int) : Int :=
  ∑ a ∈ Finset.range kh, ∑ b ∈ Finset.range kw,
    match py a, px b with
    | some iy, some ix => ∑ c ∈ Finset.range nc, x iy ix c * w a b c
    | _, _ => 0

/-- Rows (columns) of padding before the input. -/
def padBefore (p : Padding) (n k s d : Nat) : Int :=
  match p with
  | .valid => 0
  | .same => sameBefore n k s d

/-- Input coordinate of tap `a` for output coordinate `y`: input size `n`, kernel `k`, stride `s`, dilation `d`. -/
def tap (p : Padding) (n k s d y a : Nat) : Option Nat :=
  let i : Int := y * s + a * d - padBefore p n k s d
  if 0 ≤ i ∧ i < n then some i.toNat else none

def biasAt (b : Option Bias) (o : Nat) : Int := match b with | none => 0 | some b => b.data.getD o 0

/-- `CONV_2D` on an input of shape `[_, h, w, ic]`; `ic / c` groups, as in TensorFlow Lite. -/
def conv2d (rq : Requant) (zpi : Int) (h w ic : Nat) (op : ConvOp) (x : Tensor) (idx : List Nat) : Int :=
  let f := op.filter
  let bt := idx.getD 0 0; let y := idx.getD 1 0; let xx := idx.getD 2 0; let o := idx.getD 3 0
  let group := o / (f.o / (ic / f.c))
  rq (f.qp.scale o) (op.bias.map fun b => b.qp.scale o)
    (biasAt op.bias o +
      accum (fun a => tap op.padding h f.kh op.sh op.dh y a) (fun b => tap op.padding w f.kw op.sw op.dw xx b) f.kh f.kw f.c
        (fun iy ix c => x [bt, iy, ix, group * f.c + c] - zpi) (fun a b c => f.at o a b c - f.qp.zp o))

/-- `DEPTHWISE_CONV_2D`, depth multiplier 1; the filter has shape `[1, kh, kw, channels]` and is quantised along its last
axis. -/
def dwconv (rq : Requant) (zpi : Int) (h w : Nat) (op : ConvOp) (x : Tensor) (idx : List Nat) : Int :=
  let f := op.filter
  let bt := idx.getD 0 0; let y := idx.getD 1 0; let xx := idx.getD 2 0; let o := idx.getD 3 0
  rq (f.qp.scale o) (op.bias.map fun b => b.qp.scale o)
    (biasAt op.bias o +
      accum (fun a => tap op.padding h f.kh op.sh op.dh y a) (fun b => tap op.padding w f.kw op.sw op.dw xx b) f.kh f.kw 1
        (fun iy ix _ => x [bt, iy, ix, o] - zpi) (fun a b _ => f.at 0 a b o - f.qp.zp o))

/-- Input coordinate reached from output coordinate `y` through kernel position `a` of a transposed convolution: the `i`
with `i * s + a = y + before`, if it exists and is inside the input (size `n`). -/
def ttap (n s before y a : Nat) : Option Nat :=
  if a ≤ y + before ∧ (y + before - a) % s = 0 ∧ (y + before - a) / s < n then some ((y + before - a) / s) else none

/-- Rows cropped before the first output row of a transposed convolution (TensorFlow Lite computes the padding of the
forward convolution from the *output* size). -/
def tbefore (p : Padding) (out k s : Nat) : Nat :=
  match p with
  | .valid => 0
  | .same => (sameBefore out k s 1).toNat

/-- `TRANSPOSE_CONV` with an input of shape `[_, h, w, c]` and an output of shape `[_, oh, ow, o]`. -/
def tconv (rq : Requant) (zpi : Int) (h w oh ow : Nat) (op : ConvOp) (x : Tensor) (idx : List Nat) : Int :=
  let f := op.filter
  let bt := idx.getD 0 0; let y := idx.getD 1 0; let xx := idx.getD 2 0; let o := idx.getD 3 0
  rq (f.qp.scale o) (op.bias.map fun b => b.qp.scale o)
    (biasAt op.bias o +
      accum (fun a => ttap h op.sh (tbefore op.padding oh f.kh op.sh) y a)
        (fun b => ttap w op.sw (tbefore op.padding ow f.kw op.sw) xx b) f.kh f.kw f.c
        (fun iy ix c => x [bt, iy, ix, c] - zpi) (fun a b c => f.at o a b c - f.qp.zp o))

end Verif.Conv
