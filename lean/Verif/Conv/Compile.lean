import Verif.Conv.LowerProps
import Verif.Conv.Split
import Verif.TFL.Props
import Verif.XC.Lut
import Mathlib.Logic.Relation
/-!
C80: a whole 8-bit convolution, from the TensorFlow Lite operator to the operators in the compiled model.

The pattern applications of all passes that touch a convolution are put together: explicit padding and the swapping of pads
(ApplyTFLPatterns), padding of channels and channel-wise splitting (OptimizeConv2D), splitting off RELU and lowering
(ReplaceConv2D).  The order in which MLIR applies patterns within a pass is left open.
-/
namespace Verif.Conv.Compile
open Verif.Tensor Verif.Move Verif.Image Verif.Quant Verif.Conv Verif.TFL

/-! ### Model -/

/-- Quantised types of input and output, and the fused activation.  No pattern changes them: pads and slices keep the element
type, a split copies the activation (xformer/Transforms/OptimizeConv2D.cpp 177-197, 211-232, 398-454). -/
structure Types where
  inS : ℚ
  zpi : Int
  outS : ℚ
  zpo : Int
  act : Verif.Conv.Act

/-- A `tfl.pad` with its flattened 4x2 padding values and the shape of its operand. -/
structure PadStep where
  vals : List Nat
  inp : List Nat
  deriving DecidableEq, Repr

/-- A convolution (`dw`: depthwise) in the graph: the pads between the original input and its operand (innermost first), the sizes
of operand `[1, ih, iw, ic]` and result `[1, oh, ow, _]`, and the operator. -/
structure Leaf where
  dw : Bool
  src : List PadStep
  ih : Nat
  iw : Nat
  ic : Nat
  oh : Nat
  ow : Nat
  op : ConvOp
  deriving DecidableEq

def Leaf.oc (l : Leaf) : Nat := if l.dw then l.op.filter.c else l.op.filter.o

/-- The operators that one convolution has become.  `cat n a b` is a concatenation along the channels whose first operand has `n`
channels; an operator with more operands is a chain of these that ends with `nil`. -/
inductive Net where
  | conv (l : Leaf)
  | slice (s : SliceAttr) (e : Net)
  | cat (n : Nat) (a b : Net)
  | nil

/-- `SAME` to pad and `VALID` (TFLPatterns.td 41-53 with `getConvPaddingValues`). -/
def explicitPad (l : Leaf) : Option Leaf :=
  if l.op.padding = .same then
    let r := getConvPaddingValues [1, (l.ih : Int), l.iw, l.ic] [(l.op.filter.o : Int), l.op.filter.kh, l.op.filter.kw, l.op.filter.c]
      l.op.dh l.op.dw l.op.sh l.op.sw
    some { l with src := l.src ++ [⟨r.1.map Int.toNat, [1, l.ih, l.iw, l.ic]⟩]
                  ih := (r.2.getD 1 0).toNat
                  iw := (r.2.getD 2 0).toNat
                  op := { l.op with padding := .valid } }
  else none

/-- The channel pad that `createInputPadOp` puts in front of a convolution (OptimizeConv2D.cpp 211-232), with the new operator. -/
def Leaf.widen (l : Leaf) (p : Nat) (op : ConvOp) : Leaf :=
  { l with src := l.src ++ [⟨[0, 0, 0, 0, 0, 0, 0, p], [1, l.ih, l.iw, l.ic]⟩], ic := l.ic + p, op := op }

/-- The concatenation that a split makes (OptimizeConv2D.cpp 137-205). -/
def cats (l : Leaf) : List (Nat × ConvOp) → Net
  | [] => .nil
  | q :: qs => .cat q.1 (.conv { l with op := q.2 }) (cats l qs)

/-- Patterns of `ApplyTFLPatterns` that match around a convolution without re-quantisation. -/
inductive TflRule : Leaf → Net → Prop
  | same {l l' : Leaf} : explicitPad l = some l' → TflRule l (.conv l')
  /-- swapping two adjacent pads (TFLPatterns.td 108-153) -/
  | swap {l : Leaf} {pre post : List PadStep} {a b : PadStep} {t : TwoPads} : l.src = pre ++ a :: b :: post →
      swapPads a.inp ⟨a.vals, b.inp, b.vals, padded b.inp b.vals⟩ = some t →
      TflRule l (.conv { l with src := pre ++ ⟨t.inner, a.inp⟩ :: ⟨t.outer, t.mid⟩ :: post })

/-- The padding patterns of `OptimizeConv2D` (lines 544-793): channels are padded to a multiple of `al`, which is 4 for 8-bit and 16 for
16-bit convolutions (lines 596-612, 681-700); depthwise convolutions are 8-bit. -/
inductive PadRuleN (al : Nat) : Leaf → Net → Prop
  | input {l : Leaf} {p : Nat} {op : ConvOp} : l.dw = false → padConvInput al l.ic l.op = some (p, op) → PadRuleN al l (.conv (l.widen p op))
  | output {l : Leaf} {p : Nat} {op : ConvOp} {s : SliceAttr} : l.dw = false →
      padConvOutput al [1, l.oh, l.ow, l.op.filter.o] l.op = some (p, op, s) → PadRuleN al l (.slice s (.conv { l with op := op }))
  | depthwise {l : Leaf} {p : Nat} {op : ConvOp} {s : SliceAttr} : l.dw = true →
      padDepthwise l.ic [1, l.oh, l.ow, l.oc] l.op = some (p, op, s) → PadRuleN al l (.slice s (.conv (l.widen p op)))

/-- ... for 8-bit convolutions. -/
abbrev PadRule : Leaf → Net → Prop := PadRuleN 4

/-- The splitting pattern (lines 27-209). -/
inductive SplitRule (limit : Nat) : Leaf → Net → Prop
  | split {l : Leaf} {parts : List (Nat × ConvOp)} : l.dw = false → channelSplit limit l.op = some parts → SplitRule limit l (cats l parts)

/-- One pattern application anywhere in the graph. -/
inductive Step (R : Leaf → Net → Prop) : Net → Net → Prop
  | here {l : Leaf} {n : Net} : R l n → Step R (.conv l) n
  | slice {s : SliceAttr} {e e' : Net} : Step R e e' → Step R (.slice s e) (.slice s e')
  | left {n : Nat} {a a' b : Net} : Step R a a' → Step R (.cat n a b) (.cat n a' b)
  | right {n : Nat} {a b b' : Net} : Step R b b' → Step R (.cat n a b) (.cat n a b')

abbrev Steps (R : Leaf → Net → Prop) : Net → Net → Prop := Relation.ReflTransGen (Step R)

/-- No pattern of the set applies. -/
def Done (R : Leaf → Net → Prop) (n : Net) : Prop := ∀ n', ¬ Step R n n'

/-- Only the pattern that makes `SAME` padding explicit. -/
inductive SameRule : Leaf → Net → Prop
  | same {l l' : Leaf} : explicitPad l = some l' → SameRule l (.conv l')

/-- The passes in their order (xformer/Transforms/Passes.cpp 22-45; OptimizeConv2D.cpp 795-835): TFL patterns until no `SAME`
convolution is left, padding until nothing needs padding, splitting any number of times, padding, TFL patterns.  That the first two
pattern sets are applied until they no longer match is what MLIR's greedy driver does. -/
def PipelineN (al limit : Nat) (a e : Net) : Prop :=
  ∃ b c d d', Steps TflRule a b ∧ Done SameRule b ∧ Steps (PadRuleN al) b c ∧ Done (PadRuleN al) c ∧
    Steps (SplitRule limit) c d ∧ Steps (PadRuleN al) d d' ∧ Steps TflRule d' e

/-- ... for 8-bit convolutions. -/
abbrev Pipeline (limit : Nat) (a e : Net) : Prop := PipelineN 4 limit a e

/-- The operator that ReplaceConv2D sees for a convolution (ConvPatterns.td 34-51). -/
def Leaf.fake (t : Types) (l : Leaf) : Fake :=
  { dw := l.dw, bits := 8, ih := l.ih, iw := l.iw, ic := l.ic, oh := l.oh, ow := l.ow, oc := l.oc, inS := t.inS, zpi := t.zpi
    outS := t.outS, zpo := t.zpo, filter := l.op.filter, bias := l.op.bias.map (·.data), pad := .tfl l.op.padding
    sh := l.op.sh, sw := l.op.sw, dh := l.op.dh, dwf := l.op.dw, act := t.act }

/-! ### What the operators compute -/

/-- Pads in a row; an 8-bit pad fills with the zero point. -/
def srcVal (zpi : Int) : List PadStep → Tensor → Tensor
  | [], x => x
  | p :: ps, x => srcVal zpi ps (padT zpi (lows p.vals) p.inp x)

/-- TensorFlow Lite's requantisation. -/
def rqT (t : Types) (r : ℚ → ℤ) : Requant := fun s _ acc =>
  clamp (actLo t.act r t.outS t.zpo) (actHi t.act r t.outS t.zpo) (t.zpo + r (t.inS * s / t.outS * acc))

/-- The TensorFlow Lite operator with the pads in front of it. -/
def Leaf.value (rq : Requant) (zpi : Int) (l : Leaf) (x : Tensor) : Tensor :=
  if l.dw then dwconv rq zpi l.ih l.iw l.op (srcVal zpi l.src x)
  else conv2d rq zpi l.ih l.iw l.ic l.op (srcVal zpi l.src x)

/-- A lookup table for RELU between equal types applied to a value (C35). -/
noncomputable def reluVal (t : Types) (q : Int) : Int :=
  ((XC.tableAt (XC.lookupTable .relu ⟨t.outS, t.zpo⟩ ⟨t.outS, t.zpo⟩) q).map XC.ofU8).getD 0

/-- The compiled convolution: an XC convolution if the operator is replaced, else the TensorFlow Lite operator. -/
def Leaf.core (cfg : Cfg) (lib : Lib) (r : ℚ → ℤ) (t : Types) (l : Leaf) (x : Tensor) (idx : List Nat) : Int :=
  match (if fakeApplies (l.fake t) then lower cfg lib (l.fake t) else none) with
  | some lo => lo.run lib (srcVal t.zpi l.src x) idx
  | none => l.value (rqT t r) t.zpi x idx

/-- ... with RELU split off first (ConvPatterns.td 11-16) and turned into a lookup table (XCPatterns.td 18-25). -/
noncomputable def Leaf.run (cfg : Cfg) (lib : Lib) (r : ℚ → ℤ) (t : Types) (l : Leaf) (x : Tensor) (idx : List Nat) : Int :=
  if reluSplitOff (l.fake t) then reluVal t (l.core cfg lib r { t with act := .none } x idx) else l.core cfg lib r t x idx

/-- The value of the graph, given what its convolutions compute. -/
def Net.eval (leaf : Leaf → Tensor) : Net → Tensor
  | .conv l => leaf l
  | .slice s e => sliceT s.begin_ (e.eval leaf)
  | .cat n a b => fun idx => if idx.getD 3 0 < n then a.eval leaf idx else b.eval leaf (idx.set 3 (idx.getD 3 0 - n))
  | .nil => fun _ => 0

/-! ### Well-formed graphs -/

/-- Every pad is applied to a tensor of the shape it was made for. -/
def PadsOK : List Nat → List PadStep → List Nat → Prop
  | s, [], u => s = u
  | s, p :: ps, u => p.inp = s ∧ p.vals.length = 8 ∧ PadsOK (padded s p.vals) ps u

/-- A well-formed 8-bit convolution on an original input of shape `s0`. -/
structure Leaf.OK (s0 : List Nat) (l : Leaf) : Prop where
  pads : PadsOK s0 l.src [1, l.ih, l.iw, l.ic]
  /-- one group; depth multiplier 1 -/
  ch : l.ic = l.op.filter.c
  conv : l.dw = false → l.op.OK
  dwise : l.dw = true → l.op.DwOK
  kh : 1 ≤ l.op.filter.kh
  kw : 1 ≤ l.op.filter.kw
  sh : 1 ≤ l.op.sh
  sw : 1 ≤ l.op.sw
  dh : 1 ≤ l.op.dh
  dwf : 1 ≤ l.op.dw
  ih : 1 ≤ l.ih
  iw : 1 ≤ l.iw
  oh : (l.oh : Int) = outSize l.op.padding l.ih l.op.filter.kh l.op.sh l.op.dh
  ow : (l.ow : Int) = outSize l.op.padding l.iw l.op.filter.kw l.op.sw l.op.dw
  scales : ∀ o < l.oc, 0 < l.op.filter.qp.scale o
  zp : ∀ o < l.oc, l.op.filter.qp.zp o = 0
  small : (l.op.filter.kh : Int) * l.op.dh < 32768 ∧ (l.op.filter.kw : Int) * l.op.dw < 32768

end Verif.Conv.Compile
