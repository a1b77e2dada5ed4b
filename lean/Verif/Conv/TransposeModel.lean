import Verif.Conv.Spec
/-!
Model of xformer/Transforms/ReplaceTransposeConv.cpp 102-227, and specifications of the two external pieces it relies on:
lib_nn's `transpose_conv_reorder_kernel_weights` and the XC convolution kernel with output sub-sampling.
-/
namespace Verif.Conv
open Verif.Tensor Verif.Move

/-- lib_nn's `ConvParams`: `kernelShape`, `weights`, `subH`, `subW`. -/
structure ConvParams where
  kernel : Filter
  subH : Nat
  subW : Nat

/-- Number of kernel rows `sub, sub + s, sub + 2s, ...` below `k`. -/
def phaseCount (k s sub : Nat) : Nat := (k - sub + s - 1) / s

/-- Contract of lib_nn's `transpose_conv_reorder_kernel_weights` (external): one entry for every output phase, holding
every `s`-th row and column of the kernel in reversed order. -/
structure Reordered (f : Filter) (sh sw : Nat) (ps : List ConvParams) : Prop where
  cover : ∀ i j, i < sh → j < sw → ∃ p ∈ ps, p.subH = i ∧ p.subW = j
  range : ∀ p ∈ ps, p.subH < sh ∧ p.subW < sw
  once : (ps.map fun p => (p.subH, p.subW)).Nodup
  shape : ∀ p ∈ ps, p.kernel.o = f.o ∧ p.kernel.c = f.c ∧
    p.kernel.kh = phaseCount f.kh sh p.subH ∧ p.kernel.kw = phaseCount f.kw sw p.subW
  weights : ∀ p ∈ ps, ∀ o a b c, o < f.o → a < p.kernel.kh → b < p.kernel.kw → c < f.c →
    p.kernel.at o a b c = f.at o (p.subH + (p.kernel.kh - 1 - a) * sh) (p.subW + (p.kernel.kw - 1 - b) * sw) c

/-- Attributes of the `XC_FakeConv2D` created for one entry (strides and dilations are 1). -/
structure FakeConv where
  kernel : Filter
  bias : Option Bias
  subH : Nat
  subW : Nat
  strideH : Nat
  strideW : Nat
  inputOffset : Int
  deriving DecidableEq, Repr

/-- The largest `kernel - 1`, starting at 0.  Lines 115-122. -/
def padAmount (sizes : List Nat) : Nat := (sizes.foldl (fun m k => max m ((k : Int) - 1)) 0).toNat

def vPad (ps : List ConvParams) : Nat := padAmount (ps.map fun p => p.kernel.kh)
def hPad (ps : List ConvParams) : Nat := padAmount (ps.map fun p => p.kernel.kw)

/-- Offset in bytes of an entry's first window.  Lines 174-186. -/
def inputOffset (i16 : Bool) (inW inC : Nat) (ps : List ConvParams) (p : ConvParams) : Int :=
  let tv : Int := (p.kernel.kh : Int) - 1
  let th : Int := (p.kernel.kw : Int) - 1
  let off : Int := (inC : Int) * ((hPad ps : Int) - th) + ((inC : Int) * ((vPad ps : Int) - tv) * ((inW : Int) + 2 * (hPad ps : Int)))
  if i16 then off * 2 else off

/-- The chain of convolutions, first to last; each one updates the result of the one before.  Lines 171-225.  The sub-kernel
constant has the element type, and so the quantisation parameters, of the whole kernel (lines 188-198). -/
def fakeConvs (i16 : Bool) (inW : Nat) (op : ConvOp) (ps : List ConvParams) : List FakeConv :=
  ps.map fun p =>
    { kernel := { p.kernel with qp := op.filter.qp }, bias := op.bias, subH := p.subH, subW := p.subW, strideH := op.sh,
      strideW := op.sw, inputOffset := inputOffset i16 inW op.filter.c ps p }

/-- The padded input: a `tfl.pad` is only created when some amount is positive.  Lines 124-165. -/
def padForTranspose (zpi : Int) (h w c : Nat) (ps : List ConvParams) (x : Tensor) : List Int :=
  if vPad ps > 0 ∨ hPad ps > 0 then
    flat [1, h + 2 * vPad ps, w + 2 * hPad ps, c] (padT zpi [0, vPad ps, hPad ps, 0] [1, h, w, c] x)
  else flat [1, h, w, c] x

/-- Specification of the XC convolution kernel with output sub-sampling (external): output pixels `(y, x)` of the phase are
computed from the window that starts, in the input memory `m` with rows of `w` pixels of `c` elements, `inputOffset` bytes
behind pixel `(y / strideH, x / strideW)`; all other pixels keep the value of the partial output. -/
def FakeConv.run (fc : FakeConv) (rq : Requant) (zpi : Int) (elemBytes w c : Nat) (m : List Int)
    (prev : Nat → Nat → Nat → Int) (y x o : Nat) : Int :=
  if y % fc.strideH = fc.subH ∧ x % fc.strideW = fc.subW then
    rq (fc.kernel.qp.scale o) (fc.bias.map fun b => b.qp.scale o)
      (biasAt fc.bias o +
        ∑ a ∈ Finset.range fc.kernel.kh, ∑ b ∈ Finset.range fc.kernel.kw, ∑ ch ∈ Finset.range fc.kernel.c,
          (m.getD (fc.inputOffset / elemBytes +
              ((((y / fc.strideH + a) * w + (x / fc.strideW + b)) * c + ch : Nat) : Int)).toNat 0 - zpi) *
            (fc.kernel.at o a b ch - fc.kernel.qp.zp o))
  else prev y x o

/-- Running the chain. -/
def runChain (rq : Requant) (zpi : Int) (elemBytes w c : Nat) (m : List Int) (l : List FakeConv)
    (init : Nat → Nat → Nat → Int) : Nat → Nat → Nat → Int :=
  l.foldl (fun prev fc => fc.run rq zpi elemBytes w c m prev) init

end Verif.Conv
