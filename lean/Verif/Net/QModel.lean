import Verif.Net.Blob
import Verif.Net.Bin
import Verif.XC.AddSub
import Verif.Conv.Wide
import Verif.Conv.MaxPool
import Verif.Conv.TransposeCompile
import Verif.XC.Reduce
import Mathlib.Data.Nat.Pairing
/-!
C84: whole networks with quantised arithmetic, from the TensorFlow Lite graph to the run in the arena.

A network may contain, besides the operators of `Verif.Net.Model`, 8-bit `ADD`, `SUB` and `MUL` with a fused activation, 8-bit activation
functions, 8-bit (depthwise) and 16-bit convolutions, transposed convolutions, average pools, fully connected layers, maximum pools, means and sums,
the operators of `Verif.Net.Blob`: 16-bit arithmetic, activation functions, quantisation and dequantisation, and 8-bit softmax (C109),
and the binarised operators of `Verif.Net.Bin` (C113).
`expand` puts together
what the passes make of each: explicit broadcasts, an xcore addition or multiplication, a lookup table with its constant, for a convolution
its pads, partial convolutions with constant weights, multipliers and biases, scratch buffers, lookup tables, slices and concatenation, for
an average pool and a fully connected layer a convolution (between reshapes), for a transposed convolution a pad, the chain of its phases
and a slice, a maximum pool with its scratch buffer, a reduction.  The
result is a network of `Verif.Net.Model`, whose data-movement operators are then lowered, planned and run as in C83; the arithmetic
operators in it are kernels of lib_nn (contracts) with the parameters that the compiler computes.

Simplifications, besides those of `Verif.Net.Model`: what a kernel leaves in its scratch buffer is put there when the buffer is made; the
contents of the constants that lib_nn makes for a convolution are a parameter, with the element type given as bytes; integers do not
overflow in the compiler.
-/
namespace Verif.Net
open Verif.Tensor Verif.Move Verif.MemPlan Verif.Quant

/-! ### Source networks -/

inductive BinOp where
  | add
  | sub
  | mul
  deriving DecidableEq, Repr

/-- Operators.  `binary`: types of the operands and of the result; `act` is the fused activation.  `conv t l g`: the operator `l` with its
types, and the operators `g` that the passes have made of it (they may choose the order, C80).  `avgPool` and `fc` likewise: `g` is what
the passes have made of the convolution that replaces the operator (C81, C82); the pool has an operand `[1, h, w, depth]` and a result
`[1, oh, ow, depth]`, the layer `B` batches.  `reduce sum`: a sum, else a mean, over `axes` of an operand of shape `shape`.  `tconv`: a
transposed convolution `op` from `[1, h, w, _]` to `[1, oh, ow, _]` with the sub-kernels `ps` that lib_nn makes of its kernel.  `blob`: an
operator of `Verif.Net.Blob`, binary ones with a fused activation.  `conv16` and `fc16`: convolution and fully connected layer on 16-bit data
with 8-bit weights.  `bsign zp`: the signs of 8-bit data with zero point `zp`, packed (`lq.Quantize`).  `bconv L`: a binarised convolution
(`lq.Bconv2d`, C113). -/
inductive QKind where
  | base (k : Kind)
  | binary (op : BinOp) (act : TFL.Act) (lt rt ot : XC.QI8)
  | activation (a : XC.Activation) (it ot : XC.QI8)
  | conv (t : Conv.Compile.Types) (l : Conv.Compile.Leaf) (g : Conv.Compile.Net)
  | avgPool (t : Conv.Compile.Types) (p : Conv.AvgPool) (h w oh ow depth : Nat) (g : Conv.Compile.Net)
  | fc (t : Conv.Compile.Types) (f : Conv.FC) (B : Nat) (g : Conv.Compile.Net)
  | maxPool (p : Conv.MaxPool)
  | reduce (sum : Bool) (ti tq : QType) (axes : List Int) (shape : List Nat)
  | tconv (t : Conv.Compile.Types) (h w oh ow : Nat) (op : Conv.ConvOp) (ps : List Conv.ConvParams)
  | blob (op : BlobOp) (act : TFL.Act)
  | conv16 (t : Conv.Compile.Types) (l : Conv.Compile.Leaf) (g : Conv.Compile.Net)
  | fc16 (t : Conv.Compile.Types) (f : Conv.FC) (B : Nat) (g : Conv.Compile.Net)
  | bsign (zp : ℤ)
  | bconv (L : LConv)

structure QNode where
  kind : QKind
  args : List Nat
  ty : Ty

structure QNetwork where
  inputs : List Ty
  nodes : List QNode
  outputs : List Nat

/-! ### Kernels -/

/-- The numbers given to `mul_boggle` (xformer/Transforms/ReplaceMul.cpp 55-57), in the order of its parameters. -/
structure MulArgs where
  lhsScale : ℝ
  rhsScale : ℝ
  outputScale : ℝ
  lhsZeroPoint : ℤ
  rhsZeroPoint : ℤ
  outputZeroPoint : ℤ

/-- Everything outside /repo that takes part in a run: rounding of the addition kernel, the multiplication kernel with the parameters that
`mul_boggle` makes of its arguments, lib_nn's arithmetic for convolutions with the options of the compiler, rounding of TensorFlow Lite's
kernels and of the reduction kernel, size and contents of scratch buffers, the constants that lib_nn makes for a convolution (weights;
multipliers and biases), the convolution kernel with its parameters on all its operands (data, weights, multipliers and biases, scratch
buffer), TensorFlow Lite's convolution on data, filter and bias, the pooling kernel on data and scratch buffer with the division of work
among `threads` threads, one phase of a transposed convolution with the regions of its threads on all its operands (data, weights,
multipliers and biases, the result of the phase before if `chained`, scratch buffer), the 16-bit operators and softmax (`b`), lib_nn's
arithmetic for 16-bit convolutions, the kernel that widens their weights, the 16-bit convolution kernel on data, widened weights and
multipliers and biases, TensorFlow Lite's 16-bit convolution, the binarised operators (`bin`), and the meaning of all other operators. -/
structure Rt where
  rnd : ℝ → ℤ
  mul : MulArgs → ℤ → ℤ → ℤ
  cfg : Conv.Cfg
  lib : Conv.Lib
  r : ℚ → ℤ
  redRound : ℚ → ℤ
  scratchSize : Conv.Lowered → Nat
  poolScratch : Nat → Nat
  scratch : Nat → List Byte
  weights : Conv.Lowered → List Byte
  muls : Conv.Lowered → List Byte
  conv : Conv.Lowered → Nat → Nat → List (List Byte) → List Byte
  tflConv : Conv.Compile.Types → Conv.Compile.Leaf → List (List Byte) → List Byte
  cts : Nat → Nat → List (Nat × Nat)
  threads : Nat
  maxPool : Conv.XCMaxPool → Nat → Nat → List (List Byte) → List Byte
  phaseScratch : Conv.Lowered → Conv.FakeConv → Nat
  phase : Conv.Lowered → Conv.FakeConv → List Threads.Region → (oh ow : Nat) → (chained : Bool) → List (List Byte) → List Byte
  b : BLib
  lib16 : Conv.Compile.Lib16
  expand16 : List Byte → List Byte
  conv16 : Conv.Lowered → Nat → Nat → List (List Byte) → List Byte
  tflConv16 : Conv.Compile.Types → Conv.Compile.Leaf → List (List Byte) → List Byte
  bin : BinLib
  ext : Sem

/-- `utils::checkBinaryCompatibility` (xformer/Utils/Util.h 44-68) for 8-bit types.  It always holds when `expandNode` makes the xcore
operator, because the broadcasts before it are explicit (`checkBinary_self`). -/
def checkBinary (lhs rhs out : List Nat) : Bool :=
  !(!TFL.hasSameShape (rhs.map some) (out.map some) && !TFL.hasSameShape (lhs.map some) (out.map some))

/-- The real result of a binary operator on quantised values. -/
noncomputable def binReal (op : BinOp) (lt rt : XC.QI8) (x y : ℤ) : ℝ :=
  match op with
  | .add => lt.deq x + rt.deq y
  | .sub => lt.deq x - rt.deq y
  | .mul => lt.deq x * rt.deq y

/-- One element: the xcore operator that replaces an addition, subtraction (ReplaceAddSub.cpp 32-76) or multiplication (ReplaceMul.cpp
37-66). -/
noncomputable def xcBinary (R : Rt) (op : BinOp) (lt rt ot : XC.QI8) (x y : ℤ) : ℤ :=
  match op with
  | .add => XC.addKernel R.rnd (XC.addParams lt rt ot false) x y
  | .sub => XC.addKernel R.rnd (XC.addParams lt rt ot true) x y
  | .mul => R.mul ⟨lt.scale, rt.scale, ot.scale, lt.zp, rt.zp, ot.zp⟩ x y

/-- The bytes of a lookup table (an `Arith_ConstantOp`, XCPatterns.td 20-25). -/
noncomputable def tableBytes (a : XC.Activation) (it ot : XC.QI8) : List Byte :=
  (XC.lookupTable a it ot).map fun e => UInt8.ofNat (e.getD 0)

/-- The lookup kernel: operands are the data and the table. -/
def lookupKernel (ins : List (List Byte)) : List Byte := (ins.getD 0 []).map fun b => (ins.getD 1 []).getD b.toNat 0

/-- What follows an operator with a fused activation: RELU_N1_TO_1 is TensorFlow Lite's kernel, the others are lookup tables. -/
noncomputable def actKernel (ot : XC.QI8) (ins : List (List Byte)) : TFL.Act → List Byte
  | .relu1 => (ins.getD 0 []).map fun x => toByte (XC.quantR ot (fusedReal .relu1 (ot.deq (s8 x))))
  | _ => lookupKernel ins

/-- The integers in an 8-bit tensor. -/
def tensorOf (t : Ty) (data : List Byte) : Conv.Tensor := fun idx => s8 ((elemAt t data idx).headD 0)

/-- The convolutions of a graph in the order in which `expandConv` reaches them. -/
def leaves : Conv.Compile.Net → List Conv.Compile.Leaf
  | .conv l => [l]
  | .slice _ e => leaves e
  | .cat _ a b => leaves a ++ leaves b
  | .nil => []

/-- The types in which a convolution is computed: without RELU if that is split off (ConvPatterns.td 11-16). -/
def coreTypes (t : Conv.Compile.Types) (l : Conv.Compile.Leaf) : Conv.Compile.Types :=
  if Conv.reluSplitOff (l.fake t) then { t with act := .none } else t

/-- The xcore convolution that a convolution becomes, if any. -/
def loweredLeaf (R : Rt) (t : Conv.Compile.Types) (l : Conv.Compile.Leaf) : Option Conv.Lowered :=
  if Conv.fakeApplies (l.fake (coreTypes t l)) then Conv.lower R.cfg R.lib (l.fake (coreTypes t l)) else none

/-- Little-endian bytes of a 32-bit integer. -/
def le32 (v : Int) : List Byte := (List.range 4).map fun k => UInt8.ofNat ((v % 4294967296).toNat / 256 ^ k % 256)

/-- The constant operands of one convolution, in their order (ReplaceConv2D.cpp 163-217: weights, multipliers and biases; filter and bias
if the TensorFlow Lite operator stays). -/
def leafConsts (R : Rt) (t : Conv.Compile.Types) (l : Conv.Compile.Leaf) : List (List Byte) :=
  match loweredLeaf R t l with
  | some lo => [R.weights lo, R.muls lo]
  | none => l.op.filter.data.map toByte :: (l.op.bias.toList.map fun b => b.data.flatMap le32)

/-- The kernel of one convolution on its operands: the xcore kernel with its parameters, or TensorFlow Lite's. -/
def convKernel (R : Rt) (t : Conv.Compile.Types) (l : Conv.Compile.Leaf) (ins : List (List Byte)) : List Byte :=
  match loweredLeaf R t l with
  | some lo => R.conv lo l.oh l.ow ins
  | none => R.tflConv (coreTypes t l) l ins

/-- The kernels of the operators that a convolution has become. -/
def graphKernel (R : Rt) (t : Conv.Compile.Types) (g : Conv.Compile.Net) (j m : Nat) (ins : List (List Byte)) : List Byte :=
  match (leaves g)[m / 3]? with
  | some l =>
    if m % 3 = 0 then convKernel R t l ins
    else if m % 3 = 1 then R.scratch (Nat.pair j m)
    else lookupKernel ins
  | none => []

/-- Filter and bias of a convolution that stays a TensorFlow Lite operator. -/
def tflConsts (l : Conv.Compile.Leaf) : List (List Byte) := l.op.filter.data.map toByte :: (l.op.bias.toList.map fun b => b.data.flatMap le32)

/-- The kernel of one 16-bit convolution on its operands. -/
def convKernel16 (R : Rt) (t : Conv.Compile.Types) (l : Conv.Compile.Leaf) (ins : List (List Byte)) : List Byte :=
  match l.lowered16 R.cfg R.lib t with
  | some lo => R.conv16 lo l.oh l.ow ins
  | none => R.tflConv16 t l ins

/-- The kernels of the operators that a 16-bit convolution has become: convolution `i` is `3 * i`, the operator that widens its weights
`3 * i + 1`. -/
def graphKernel16 (R : Rt) (t : Conv.Compile.Types) (g : Conv.Compile.Net) (m : Nat) (ins : List (List Byte)) : List Byte :=
  match (leaves g)[m / 3]? with
  | some l => if m % 3 = 0 then convKernel16 R t l ins else R.expand16 (ins.getD 0 [])
  | none => []

/-- What TensorFlow Lite specifies for `SUM` and `MEAN`: the values in the shape without the reduced axes. -/
def reduceSpec (r : ℚ → ℤ) (sum : Bool) (ti tq : QType) (axes : List Int) (shape : List Nat) (x : List Nat → ℤ) (idx : List Nat) : ℤ :=
  if sum then XC.sumSpec r ti tq axes shape x idx else XC.meanSpec r ti tq axes shape x idx

/-- A reduction: the xcore kernel with the attributes of ReplaceMean.cpp 43-102, ReplaceSum.cpp 43-101, or the TensorFlow Lite operator if
the axes are not contiguous. -/
def reduceKernel (R : Rt) (sum : Bool) (ti tq : QType) (axes : List Int) (shape : List Nat) (data : List Byte) : List Byte :=
  match XC.reduceDims axes shape with
  | .dims s m e => (XC.kernel R.redRound tq ti.zp (if sum then XC.sumScale ti tq else XC.meanScale ti tq m) s m e (data.map s8)).map toByte
  | .noMatch => (flat (XC.keptShape (XC.reduced axes) 0 shape) (reduceSpec R.r sum ti tq axes shape (tensorOf ⟨shape, 1⟩ data))).map toByte
  | .undefined => []

/-- The transposed convolution as xformer/Transforms/ReplaceTransposeConv.cpp sees it, and the slice behind it: a `SAME` one has become
`VALID` (`Conv.sameToValid`, C49). -/
structure TPlan where
  vh : Nat
  vw : Nat
  op : Conv.ConvOp
  slice : Option (List Nat × List Nat)

def tplan (h w oh ow : Nat) (op : Conv.ConvOp) : TPlan :=
  match Conv.sameToValid h w [1, oh, ow, op.filter.o] op with
  | some sv => ⟨sv.vh.toNat, sv.vw.toNat, sv.op, sv.slice.map fun s => (s.1.map Int.toNat, s.2.map Int.toNat)⟩
  | none => ⟨oh, ow, op, none⟩

/-- The image and stride parameters from which the regions of a phase's threads are made (xformer/Transforms/ReplaceConv2D.cpp 104-110). -/
def TPlan.params (p : TPlan) (fc : Conv.FakeConv) : Threads.Params := ⟨p.vh, p.vw, p.op.filter.o, fc.subH, fc.subW, fc.strideH, fc.strideW⟩

/-- The XC convolution that a phase becomes, if any. -/
def TPlan.lower (R : Rt) (t : Conv.Compile.Types) (h w : Nat) (ps : List Conv.ConvParams) (p : TPlan) (fc : Conv.FakeConv) : Option Conv.Lowered :=
  Conv.lower R.cfg R.lib (Conv.Compile.phaseFake t h w p.vh p.vw p.op ps fc)

/-- The kernels of the phases: phase `i` has number `2 * i`, its scratch buffer `2 * i + 1`. -/
def phaseKernel (R : Rt) (t : Conv.Compile.Types) (h w : Nat) (ps : List Conv.ConvParams) (p : TPlan) (j m : Nat) (ins : List (List Byte)) :
    List Byte :=
  match (Conv.fakeConvs false w p.op ps)[m / 2]? with
  | some fc =>
    if m % 2 = 0 then
      match p.lower R t h w ps fc, Threads.getImageRegionThreadSplits R.cts R.threads (p.params fc) with
      | some lo, some rs => R.phase lo fc rs p.vh p.vw (decide (0 < m / 2)) ins
      | _, _ => []
    else R.scratch (Nat.pair j m)
  | none => []

/-- The kernels of the operators made from one operator, by number: an arithmetic operator is 0 and what follows it 1; the convolution with
number `i` in the graph is `3 * i`, its scratch buffer `3 * i + 1`, its lookup table `3 * i + 2`. -/
noncomputable def QKind.kernel (R : Rt) (j : Nat) (k : QKind) (m : Nat) (ins : List (List Byte)) : List Byte :=
  match k with
  | .base (.other _ k) => R.ext k ins
  | .base (.elementwise k) => R.ext k ins
  | .base _ => []
  | .binary op act lt rt ot =>
    if m = 0 then List.zipWith (fun x y => toByte (xcBinary R op lt rt ot (s8 x) (s8 y))) (ins.getD 0 []) (ins.getD 1 [])
    else actKernel ot ins act
  | .activation _ _ _ => lookupKernel ins
  | .conv t _ g => graphKernel R t g j m ins
  | .avgPool t _ _ _ _ _ _ g => graphKernel R t g j m ins
  | .fc t _ _ g => graphKernel R t g j m ins
  | .maxPool p =>
    match Conv.lowerMaxPool R.cts R.threads p with
    | some k => if m = 0 then R.maxPool k p.oh p.ow ins else R.scratch (Nat.pair j m)
    | none => []
  | .reduce sum ti tq axes shape => reduceKernel R sum ti tq axes shape (ins.getD 0 [])
  | .tconv t h w oh ow op ps => phaseKernel R t h w ps (tplan h w oh ow op) j m ins
  | .blob op act =>
    if m = 0 then op.kernel R.b ins
    else
      match op.fused act with
      | some f => f.kernel R.b ins
      | none => []
  | .conv16 t _ g => graphKernel16 R t g m ins
  | .fc16 t _ _ g => graphKernel16 R t g m ins
  | .bsign zp => R.bin.bsign zp ins
  | .bconv L =>
    match L.lower R.cts R.threads with
    | some k => if m = 0 then R.bin.conv k ins else R.scratch (Nat.pair j m)
    | none => []

/-- The meaning of the operators in the expanded network; operator `m` made from operator `j` has the number `Nat.pair j m`. -/
noncomputable def QNetwork.sem (R : Rt) (N : QNetwork) : Sem := fun key ins =>
  match N.nodes[(Nat.unpair key).1]? with
  | some n => n.kind.kernel R (Nat.unpair key).1 (Nat.unpair key).2 ins
  | none => []

/-! ### Expansion -/

/-- The network under construction, with `n0` inputs. -/
structure Exp where
  n0 : Nat
  nodes : List Node

def Exp.emit (e : Exp) (n : Node) : Exp × Nat := (⟨e.n0, e.nodes ++ [n]⟩, e.n0 + e.nodes.length)

/-- An operand: type and number. -/
abbrev Opd := Ty × Nat

/-- Explicit broadcast of one operand (xformer/Transforms/TFLPatterns.td 90-106). -/
def expandBroadcast (e : Exp) (a : Opd) (out : Ty) : Exp × Nat :=
  if TFL.hasSameShape (a.1.shape.map some) (out.shape.map some) then (e, a.2) else e.emit ⟨.broadcast, [a.2], ⟨out.shape, a.1.d⟩⟩

/-- The constant with a lookup table, and the operator that uses it (XCPatterns.td 18-25); XCoreOps.td 454: in place. -/
noncomputable def expandLookup (e : Exp) (key : Nat) (a : XC.Activation) (it ot : XC.QI8) (v : Nat) (ty : Ty) : Exp × Nat :=
  let c := e.emit ⟨.const (tableBytes a it ot), [], ⟨[256], 1⟩⟩
  c.1.emit ⟨.other true key, [v, c.2], ty⟩

/-- A fused activation becomes an operator of its own (TFLPatterns.td 64-79), between equal types; RELU and RELU6 become lookup tables,
RELU_N1_TO_1 is left to TensorFlow Lite. -/
noncomputable def expandAct (e : Exp) (key : Nat) (act : TFL.Act) (ot : XC.QI8) (v : Nat) (ty : Ty) : Exp × Nat :=
  match act with
  | .none => (e, v)
  | .relu => expandLookup e key .relu ot ot v ty
  | .relu6 => expandLookup e key .relu6 ot ot v ty
  | .relu1 => e.emit ⟨.other false key, [v], ty⟩

/-- The pads in front of a convolution, with elements of `d` bytes; `q8`: 8-bit data. -/
def expandPads (q8 : Bool) (d : Nat) (zpi : Int) : List Conv.Compile.PadStep → Exp → Nat → Exp × Nat
  | [], e, v => (e, v)
  | p :: ps, e, v =>
    let r := e.emit ⟨.pad q8 zpi p.vals, [v], ⟨TFL.padded p.inp p.vals, d⟩⟩
    expandPads q8 d zpi ps r.1 r.2

/-- Size of the scratch buffer that an operator asks for; a TensorFlow Lite operator has none. -/
def scratchOf (R : Rt) : Option Conv.Lowered → Nat
  | some lo => R.scratchSize lo
  | none => 0

/-- Constants, the last one first; the numbers are in the order of the list. -/
def expandConsts : List (List Byte) → Exp → Exp × List Nat
  | [], e => (e, [])
  | c :: cs, e =>
    let r := expandConsts cs e
    let x := r.1.emit ⟨.const c, [], ⟨[c.length], 1⟩⟩
    (x.1, x.2 :: r.2)

/-- A scratch buffer, if any (ReplaceConv2D.cpp 191-208, ReplaceMaxPool2D.cpp 81-97), and the operator that uses it as its last operand. -/
def expandScratch (e : Exp) (sc key skey : Nat) (args : List Nat) (ty : Ty) : Exp × Nat :=
  if 0 < sc then
    let s := e.emit ⟨.other false skey, [], ⟨[sc], 1⟩⟩
    s.1.emit ⟨.other false key, args ++ [s.2], ty⟩
  else e.emit ⟨.other false key, args, ty⟩

/-- One convolution, number `i` of operator `j`: pads, constants, scratch buffer, the convolution, and RELU if it was split off. -/
noncomputable def expandLeaf (R : Rt) (t : Conv.Compile.Types) (j i : Nat) (l : Conv.Compile.Leaf) (e : Exp) (v : Nat) : Exp × Nat :=
  let ty : Ty := ⟨[1, l.oh, l.ow, l.oc], 1⟩
  let p := expandPads true 1 t.zpi l.src e v
  let w := expandConsts (leafConsts R t l) p.1
  let c := expandScratch w.1 (scratchOf R (loweredLeaf R t l)) (Nat.pair j (3 * i)) (Nat.pair j (3 * i + 1)) (p.2 :: w.2) ty
  if Conv.reluSplitOff (l.fake t) then expandLookup c.1 (Nat.pair j (3 * i + 2)) .relu ⟨t.outS, t.zpo⟩ ⟨t.outS, t.zpo⟩ c.2 ty else c

/-- One 16-bit convolution, number `i` of operator `j`: pads, multipliers and biases, weights, the operator that widens the weights, the
convolution (ReplaceConv2D.cpp 163-220; ConvPatternsTFL.cpp 477-527: no scratch buffer); filter and bias if the TensorFlow Lite operator
stays. -/
def expandLeaf16 (R : Rt) (t : Conv.Compile.Types) (j i : Nat) (l : Conv.Compile.Leaf) (e : Exp) (v : Nat) : Exp × Nat :=
  let ty : Ty := ⟨[1, l.oh, l.ow, l.oc], 2⟩
  let p := expandPads false 2 t.zpi l.src e v
  match l.lowered16 R.cfg R.lib t with
  | some lo =>
    let m := p.1.emit ⟨.const (R.muls lo), [], ⟨[(R.muls lo).length], 1⟩⟩
    let w := m.1.emit ⟨.const (R.weights lo), [], ⟨[(R.weights lo).length], 1⟩⟩
    let x := w.1.emit ⟨.other false (Nat.pair j (3 * i + 1)), [w.2], ⟨[(R.weights lo).length * 2], 1⟩⟩
    x.1.emit ⟨.other false (Nat.pair j (3 * i)), [p.2, x.2, m.2], ty⟩
  | none =>
    let w := expandConsts (tflConsts l) p.1
    w.1.emit ⟨.other false (Nat.pair j (3 * i)), p.2 :: w.2, ty⟩

/-- Channels of the result. -/
def channels : Conv.Compile.Net → Nat
  | .conv l => l.oc
  | .slice s _ => s.size.getD 3 0
  | .cat n _ b => n + channels b
  | .nil => 0

mutual
/-- The operators that a convolution has become, given what becomes of each of its parts (`leaf`, with its number); elements have `d` bytes,
`oh`, `ow` are the sizes of the result, `i` the number of the first part. -/
def expandGraph (leaf : Nat → Conv.Compile.Leaf → Exp → Nat → Exp × Nat) (d oh ow : Nat) : Conv.Compile.Net → Nat → Exp → Nat → Exp × Nat
  | .conv l, i, e, v => leaf i l e v
  | .slice s g, i, e, v =>
    let r := expandGraph leaf d oh ow g i e v
    r.1.emit ⟨.slice s.begin_ s.size, [r.2], ⟨[1, oh, ow, s.size.getD 3 0], d⟩⟩
  | .cat n a b, i, e, v =>
    let r := expandGraph leaf d oh ow a i e v
    let rs := expandCats leaf d oh ow b (i + (leaves a).length) r.1 v
    rs.1.emit ⟨.concat 3, r.2 :: rs.2, ⟨[1, oh, ow, n + channels b], d⟩⟩
  | .nil, _, e, v => (e, v)
/-- The remaining operands of a concatenation. -/
def expandCats (leaf : Nat → Conv.Compile.Leaf → Exp → Nat → Exp × Nat) (d oh ow : Nat) : Conv.Compile.Net → Nat → Exp → Nat → Exp × List Nat
  | .cat _ a b, i, e, v =>
    let r := expandGraph leaf d oh ow a i e v
    let rs := expandCats leaf d oh ow b (i + (leaves a).length) r.1 v
    (rs.1, r.2 :: rs.2)
  | _, _, e, _ => (e, [])
end

/-- The operators that an 8-bit convolution has become. -/
noncomputable def expandConv (R : Rt) (t : Conv.Compile.Types) (j oh ow : Nat) (g : Conv.Compile.Net) (i : Nat) (e : Exp) (v : Nat) : Exp × Nat :=
  expandGraph (expandLeaf R t j) 1 oh ow g i e v

/-- The operators that a 16-bit convolution has become. -/
def expandConv16 (R : Rt) (t : Conv.Compile.Types) (j oh ow : Nat) (g : Conv.Compile.Net) (i : Nat) (e : Exp) (v : Nat) : Exp × Nat :=
  expandGraph (expandLeaf16 R t j) 2 oh ow g i e v

/-- The pad in front of the phases (ReplaceTransposeConv.cpp 124-165). -/
def tpads (h w c : Nat) (ps : List Conv.ConvParams) : List Conv.Compile.PadStep :=
  if Conv.vPad ps > 0 ∨ Conv.hPad ps > 0 then
    [⟨[0, 0, Conv.vPad ps, Conv.vPad ps, Conv.hPad ps, Conv.hPad ps, 0, 0], [1, h, w, c]⟩]
  else []

/-- The phases from number `i` on (ReplaceTransposeConv.cpp 171-225, ReplaceConv2D.cpp 163-217): operands of each are the padded data `x`,
weights, multipliers and biases, the result `prev` of the phase before, and the scratch buffer. -/
def expandPhases (R : Rt) (t : Conv.Compile.Types) (h w : Nat) (ps : List Conv.ConvParams) (p : TPlan) (j x : Nat) :
    List Conv.FakeConv → Nat → Exp → Option Nat → Exp × Option Nat
  | [], _, e, prev => (e, prev)
  | fc :: fcs, i, e, prev =>
    match p.lower R t h w ps fc with
    | some lo =>
      let c := expandConsts [R.weights lo, R.muls lo] e
      let o := expandScratch c.1 (R.phaseScratch lo fc) (Nat.pair j (2 * i)) (Nat.pair j (2 * i + 1)) (x :: c.2 ++ prev.toList)
        ⟨[1, p.vh, p.vw, p.op.filter.o], 1⟩
      expandPhases R t h w ps p j x fcs (i + 1) o.1 (some o.2)
    | none => (e, prev)

/-- A transposed convolution: pad, phases, slice. -/
def expandTconv (R : Rt) (t : Conv.Compile.Types) (h w : Nat) (ps : List Conv.ConvParams) (p : TPlan) (j : Nat) (e : Exp) (v : Nat) (ty : Ty) :
    Exp × Nat :=
  let x := expandPads true 1 t.zpi (tpads h w p.op.filter.c ps) e v
  let y := expandPhases R t h w ps p j x.2 (Conv.fakeConvs false w p.op ps) 0 x.1 none
  match p.slice with
  | some s => y.1.emit ⟨.slice s.1 s.2, [y.2.getD x.2], ty⟩
  | none => (y.1, y.2.getD x.2)

/-- The constant of an operator and the operator that uses it as its last operand, or the TensorFlow Lite operator (XCPatterns.td 27-142). -/
noncomputable def expandBlob (R : Rt) (e : Exp) (key : Nat) (op : BlobOp) (args : List Nat) (ty : Ty) : Exp × Nat :=
  match op.const R.b with
  | some c =>
    let x := e.emit ⟨.const c, [], ⟨[c.length], 1⟩⟩
    x.1.emit ⟨.other op.inPlace key, args ++ [x.2], ty⟩
  | none => e.emit ⟨.other false key, args, ty⟩

/-- The operands: those of a binary operator are broadcast (TFLPatterns.td 90-106). -/
def expandOperands (e : Exp) (a b : Opd) (ty : Ty) : BlobOp → Exp × List Nat
  | .binary _ _ _ _ =>
    let x := expandBroadcast e a ty
    let y := expandBroadcast x.1 b ty
    (y.1, [x.2, y.2])
  | _ => (e, [a.2])

/-- A binarised convolution: pad, constants, scratch buffer, the convolution (TFLPatterns.td 163-173, ReplaceConv2D.cpp 142-217). -/
def expandBconv (R : Rt) (L : LConv) (j : Nat) (e : Exp) (v : Nat) (ty : Ty) : Exp × Nat :=
  match L.lower R.cts R.threads with
  | some k =>
    let p := expandPads false 4 0 L.pads e v
    let c := expandConsts [R.bin.weights k L.filter, R.bin.muls k L.filter L.thr] p.1
    expandScratch c.1 (k.scratch R.bin) (Nat.pair j 0) (Nat.pair j 1) (p.2 :: c.2) ty
  | none => (e, v)

/-- One operator: number `j`, with its operands.  Signs: XCPatterns.td 208-209; not in place (XCoreOps.td 508). -/
noncomputable def expandNode (R : Rt) (j : Nat) (e : Exp) (as : List Opd) (n : QNode) : Exp × Nat :=
  let a := as.getD 0 (⟨[], 0⟩, 0)
  let b := as.getD 1 (⟨[], 0⟩, 0)
  match n.kind with
  | .base (.other ip _) => e.emit ⟨.other ip (Nat.pair j 0), as.map (·.2), n.ty⟩
  | .base (.elementwise _) => e.emit ⟨.elementwise (Nat.pair j 0), as.map (·.2), n.ty⟩
  | .base k => e.emit ⟨k, as.map (·.2), n.ty⟩
  | .binary _ act _ _ ot =>
    let x := expandBroadcast e a n.ty
    let y := expandBroadcast x.1 b n.ty
    let z := y.1.emit ⟨.other true (Nat.pair j 0), [x.2, y.2], n.ty⟩
    expandAct z.1 (Nat.pair j 1) act ot z.2 n.ty
  | .activation f it ot => expandLookup e (Nat.pair j 0) f it ot a.2 n.ty
  | .conv t l g => expandConv R t j l.oh l.ow g 0 e a.2
  | .avgPool t _ _ _ oh ow _ g => expandConv R t j oh ow g 0 e a.2
  | .fc t f B g =>
    let x := e.emit ⟨.reshape, [a.2], ⟨(Conv.fcInputShape a.1.shape).getD [], a.1.d⟩⟩
    let y := expandConv R t j 1 B g 0 x.1 x.2
    y.1.emit ⟨.reshape, [y.2], ⟨Conv.fcOutputShape n.ty.shape, n.ty.d⟩⟩
  | .maxPool p =>
    match Conv.lowerMaxPool R.cts R.threads p with
    | some k => expandScratch e ((R.poolScratch (p.fw * p.fh) + 32) * k.regions.length) (Nat.pair j 0) (Nat.pair j 1) [a.2] n.ty
    | none => (e, a.2)
  | .reduce _ _ _ _ _ => e.emit ⟨.other false (Nat.pair j 0), [a.2], n.ty⟩
  | .tconv t h w oh ow op ps => expandTconv R t h w ps (tplan h w oh ow op) j e a.2 n.ty
  | .blob op act =>
    let x := expandOperands e a b n.ty op
    let z := expandBlob R x.1 (Nat.pair j 0) op x.2 n.ty
    match op.fused act with
    | some f => expandBlob R z.1 (Nat.pair j 1) f [z.2] n.ty
    | none => z
  | .conv16 t l g => expandConv16 R t j l.oh l.ow g 0 e a.2
  | .fc16 t _ B g =>
    let x := e.emit ⟨.reshape, [a.2], ⟨(Conv.fcInputShape a.1.shape).getD [], a.1.d⟩⟩
    let y := expandConv16 R t j 1 B g 0 x.1 x.2
    y.1.emit ⟨.reshape, [y.2], ⟨Conv.fcOutputShape n.ty.shape, n.ty.d⟩⟩
  | .bsign _ => e.emit ⟨.other false (Nat.pair j 0), [a.2], n.ty⟩
  | .bconv L => expandBconv R L j e a.2 n.ty

/-- The operators in order; `vals` says where the values of the source network are. -/
noncomputable def expandNodes (R : Rt) : List QNode → Nat → Exp → List Opd → Exp × List Opd
  | [], _, e, vals => (e, vals)
  | n :: ns, j, e, vals =>
    let r := expandNode R j e (n.args.map fun v => vals.getD v (⟨[], 0⟩, 0)) n
    expandNodes R ns (j + 1) r.1 (vals ++ [(n.ty, r.2)])

noncomputable def QNetwork.expanded (R : Rt) (N : QNetwork) : Exp × List Opd :=
  expandNodes R N.nodes 0 ⟨N.inputs.length, []⟩ N.inputs.zipIdx

/-- The network in which only data movement is left to be lowered. -/
noncomputable def QNetwork.expand (R : Rt) (N : QNetwork) : Network where
  inputs := N.inputs
  nodes := (N.expanded R).1.nodes
  outputs := N.outputs.map fun v => ((N.expanded R).2.getD v (⟨[], 0⟩, 0)).2

/-! ### Specification -/

/-- Within the tolerance of convolutions: the threshold and one step, and one step if the threshold is below one. -/
def Near (R : Rt) (got want : ℤ) : Prop := (|got - want| : ℤ) ≤ R.cfg.threshold + 1 ∧ (R.cfg.threshold < 1 → |got - want| ≤ 1)

/-- Within the tolerance of 16-bit convolutions: the error of lib_nn's kernel and half a step. -/
def Near16 (R : Rt) (got want : ℤ) : Prop := ((|got - want| : ℤ) : ℚ) ≤ R.lib16.err + 1 / 2

/-- The integers in 16-bit data. -/
def vals16 (data : List Byte) : List ℤ := (List.range (data.length / 2)).map (val16 data)

/-- What the result `out` of an operator must be, given the operands that it was run on. -/
def QNode.Meets (R : Rt) (n : QNode) (args : List (Ty × List Byte)) (out : List Byte) : Prop :=
  let a := args.getD 0 (⟨[], 0⟩, [])
  let b := args.getD 1 (⟨[], 0⟩, [])
  let res := tensorOf n.ty out
  match n.kind with
  | .base k => out = eval R.ext k n.ty args
  | .binary op act lt rt ot => ∀ idx, InShape n.ty.shape idx →
      |res idx - XC.quantR ot (fusedReal act (binReal op lt rt (broadcastT a.1.shape (tensorOf a.1 a.2) idx)
        (broadcastT b.1.shape (tensorOf b.1 b.2) idx)))| ≤ 1
  | .activation f it ot => ∀ idx, InShape n.ty.shape idx → XC.Best ot (f.apply (it.deq (tensorOf a.1 a.2 idx))) (res idx)
  | .conv t l _ => ∀ idx, InShape n.ty.shape idx → Near R (res idx) (Conv.Compile.tflConv R.r t l (tensorOf a.1 a.2) idx)
  | .avgPool t p h w _ _ _ _ => ∀ idx, InShape n.ty.shape idx →
      Near R (res idx) (Conv.avgPool (Conv.Compile.quantOut t R.r) ⟨t.inS, t.zpi, -128, 127⟩ h w p (tensorOf a.1 a.2) idx)
  | .fc t f B _ => out.length = B * f.o ∧ ∀ k < B * f.o,
      Near R (s8 (out.getD k 0)) ((Conv.fullyConnected (Conv.Compile.rqT t R.r) t.zpi f B (a.2.map s8)).getD k 0)
  | .maxPool p => ∀ y x c, y < p.oh → x < p.ow → c < p.depth → Conv.IsMaxPool p (tensorOf a.1 a.2) 0 y x c (res [0, y, x, c])
  | .reduce sum ti tq axes shape =>
      let kept := XC.keptShape (XC.reduced axes) 0 shape
      out.length = kept.prod ∧ ∀ idx, InShape kept idx →
        |tensorOf ⟨kept, 1⟩ out idx - reduceSpec R.r sum ti tq axes shape (tensorOf a.1 a.2) idx| ≤ 1
  | .tconv t h w oh ow op _ => ∀ idx, InShape n.ty.shape idx →
      Near R (res idx) (Conv.tconv (Conv.Compile.rqT t R.r) t.zpi h w oh ow op (tensorOf a.1 a.2) idx)
  | .blob op act => op.Meets R.b act n.ty a b out
  | .conv16 t l _ => ∀ idx, InShape n.ty.shape idx → Near16 R (tensor16 n.ty out idx) (Conv.Compile.tflConv16 R.r t l (tensor16 a.1 a.2) idx)
  | .fc16 t f B _ => out.length = B * f.o * 2 ∧ ∀ k < B * f.o,
      Near16 R (val16 out k) ((Conv.fullyConnected (Conv.Compile.rqT16 t R.r) t.zpi f B (vals16 a.2)).getD k 0)
  | .bsign zp => ∀ k < a.1.size, bitOf out k = decide (s8 (a.2.getD k 0) < zp)
  | .bconv L => L.Meets R.bin.err a.2 out

/-! ### Well-typed networks and the contracts -/

/-- Contracts of what is outside /repo.  `dom` tells for which parameters the multiplication kernel is accurate. -/
structure Rt.OK (R : Rt) (dom : MulArgs → Prop) : Prop where
  rnd : ∀ x : ℝ, |(R.rnd x : ℝ) - x| ≤ 1 / 2
  mul : ∀ (p : MulArgs) (x y : ℤ), dom p → -128 ≤ x ∧ x ≤ 127 → -128 ≤ y ∧ y ≤ 127 →
    (-128 ≤ R.mul p x y ∧ R.mul p x y ≤ 127) ∧
    |R.mul p x y - XC.quantR ⟨p.outputScale, p.outputZeroPoint⟩ (p.lhsScale * (x - p.lhsZeroPoint) * (p.rhsScale * (y - p.rhsZeroPoint)))| ≤ 1
  lib : R.lib.Faithful
  thr : 0 ≤ R.cfg.threshold
  fac : 1 ≤ R.cfg.factor
  r : Nearest R.r
  redRound : Nearest R.redRound
  /-- the convolution kernel given the constants made for it; the scratch buffer does not matter -/
  conv : ∀ (lo : Conv.Lowered) (oh ow : Nat) (data : List Byte) (rest : List (List Byte)),
    R.conv lo oh ow (data :: R.weights lo :: R.muls lo :: rest) =
      bytesOf ⟨[1, oh, ow, lo.oc], 1⟩ fun idx => [toByte (lo.run R.lib (tensorOf ⟨[1, lo.ih, lo.iw, lo.ic], 1⟩ data) idx)]
  /-- TensorFlow Lite's convolution -/
  tflConv : ∀ (t : Conv.Compile.Types) (l : Conv.Compile.Leaf) (data : List Byte),
    R.tflConv t l (data :: l.op.filter.data.map toByte :: (l.op.bias.toList.map fun b => b.data.flatMap le32)) =
      bytesOf ⟨[1, l.oh, l.ow, l.oc], 1⟩ fun idx =>
        [toByte (({ l with src := [] } : Conv.Compile.Leaf).value (Conv.Compile.rqT t R.r) t.zpi (tensorOf ⟨[1, l.ih, l.iw, l.ic], 1⟩ data) idx)]
  split : Threads.CalcContract R.cts
  threads : 1 ≤ R.threads
  /-- the pooling kernel: every element in exactly one region is the largest of the bytes at the addresses of its window -/
  maxPool : ∀ (k : Conv.XCMaxPool) (oh ow : Nat) (data : List Byte) (rest : List (List Byte)),
    (R.maxPool k oh ow (data :: rest)).length = oh * ow * k.inDepth ∧
    ∀ y x c, y < oh → x < ow → c < k.inDepth → Threads.coverage k.regions y x c = 1 → k.reads y x c ≠ [] →
      (∀ i ∈ k.reads y x c, i < data.length) →
      k.Gives (fun i => s8 (data.getD i 0)) y x c (s8 ((R.maxPool k oh ow (data :: rest)).getD ((y * ow + x) * k.inDepth + c) 0))

  /-- a phase: its elements that lie in exactly one region are computed from the window at the offset of the phase -/
  phase : ∀ (lo : Conv.Lowered) (fc : Conv.FakeConv) (rs : List Threads.Region) (oh ow : Nat) (chained : Bool) (data : List Byte) (rest : List (List Byte)),
    (R.phase lo fc rs oh ow chained (data :: R.weights lo :: R.muls lo :: rest)).length = oh * ow * lo.oc ∧
    ∀ y x o, y < oh → x < ow → o < lo.oc → y % fc.strideH = fc.subH ∧ x % fc.strideW = fc.subW → Threads.coverage rs y x o = 1 →
      s8 ((R.phase lo fc rs oh ow chained (data :: R.weights lo :: R.muls lo :: rest)).getD ((y * ow + x) * lo.oc + o) 0) =
        Conv.Compile.phaseRun R.lib lo fc (data.map s8) (y, x, o)
  /-- the elements of the other phases are those of the result of the phase before -/
  phaseKeeps : ∀ (lo : Conv.Lowered) (fc : Conv.FakeConv) (rs : List Threads.Region) (oh ow : Nat) (data prev : List Byte) (rest : List (List Byte)),
    ∀ y x o, y < oh → x < ow → o < lo.oc → ¬ (y % fc.strideH = fc.subH ∧ x % fc.strideW = fc.subW) →
      (R.phase lo fc rs oh ow true (data :: R.weights lo :: R.muls lo :: prev :: rest)).getD ((y * ow + x) * lo.oc + o) 0 =
        prev.getD ((y * ow + x) * lo.oc + o) 0
  b : R.b.OK
  bin : R.bin.OK
  lib16 : R.lib16.OK
  expand16 : ∀ w, (R.expand16 w).length = w.length * 2
  /-- the 16-bit convolution kernel given the constants made for it, the weights widened -/
  conv16 : ∀ (lo : Conv.Lowered) (oh ow : Nat) (data : List Byte),
    R.conv16 lo oh ow [data, R.expand16 (R.weights lo), R.muls lo] =
      bytesOf ⟨[1, oh, ow, lo.oc], 2⟩ fun idx => bytes16 (lo.run16 R.lib16 (tensor16 ⟨[1, lo.ih, lo.iw, lo.ic], 2⟩ data) idx)
  /-- TensorFlow Lite's 16-bit convolution -/
  tflConv16 : ∀ (t : Conv.Compile.Types) (l : Conv.Compile.Leaf) (data : List Byte),
    R.tflConv16 t l (data :: tflConsts l) =
      bytesOf ⟨[1, l.oh, l.ow, l.oc], 2⟩ fun idx =>
        bytes16 (({ l with src := [] } : Conv.Compile.Leaf).value (Conv.Compile.rqT16 t R.r) t.zpi (tensor16 ⟨[1, l.ih, l.iw, l.ic], 2⟩ data) idx)

/-- An 8-bit type. -/
structure QOK (t : XC.QI8) : Prop where
  pos : 0 < t.scale
  zp : -128 ≤ t.zp ∧ t.zp ≤ 127

/-- The types of a convolution. -/
structure _root_.Verif.Conv.Compile.Types.OK (t : Conv.Compile.Types) : Prop where
  inS : 0 < t.inS
  outS : 0 < t.outS
  zpi : -128 ≤ t.zpi ∧ t.zpi ≤ 127
  zpo : -128 ≤ t.zpo ∧ t.zpo ≤ 127

/-- The types of a 16-bit convolution: zero points are 0, no fused activation (the compiled operator ignores it, C110). -/
structure _root_.Verif.Conv.Compile.Types.OK16 (t : Conv.Compile.Types) : Prop where
  inS : 0 < t.inS
  outS : 0 < t.outS
  zpi : t.zpi = 0
  zpo : t.zpo = 0
  act : t.act = .none

/-- The scales for which an operator is accurate: the sum of two products fits the kernel's registers (C39), or the contract of the
multiplication. -/
def BinDom (dom : MulArgs → Prop) (lt rt ot : XC.QI8) : BinOp → Prop
  | .mul => dom ⟨lt.scale, rt.scale, ot.scale, lt.zp, rt.zp, ot.zp⟩
  | _ => lt.scale ≤ 31 * ot.scale ∧ rt.scale ≤ 31 * ot.scale

/-- A transposed convolution that is compiled right (C97): `VALID`, depths in multiples of four, sub-kernels as lib_nn's contract says,
output sizes that the phases can be cut into, and every phase replaced. -/
structure TConvOK (R : Rt) (t : Conv.Compile.Types) (h w oh ow : Nat) (op : Conv.ConvOp) (ps : List Conv.ConvParams) : Prop where
  applies : Conv.Compile.tconvMatches op = true
  hsh : 0 < op.sh
  hsw : 0 < op.sw
  hps : Conv.Reordered op.filter op.sh op.sw ps
  hoh : oh ≤ (h - 1) * op.sh + max op.filter.kh op.sh
  how : ow ≤ (w - 1) * op.sw + max op.filter.kw op.sw
  hoh1 : op.sh ≤ oh ∧ (oh % 2 = 1 ∨ oh % op.sh = 0)
  how1 : op.sw ≤ ow ∧ (ow % 2 = 1 ∨ ow % op.sw = 0)
  hzp : ∀ o < op.filter.o, op.filter.qp.zp o = 0
  hscale : ∀ o < op.filter.o, ∀ o' < op.filter.o, op.filter.qp.scale o ≤ R.cfg.factor * op.filter.qp.scale o'
  hall : Conv.Compile.AllLowered R.cfg R.lib t h w oh ow op ps

/-- Typing rules. -/
def QKind.OK (R : Rt) (dom : MulArgs → Prop) (as : List (Ty × Bool)) (ty : Ty) : QKind → Prop
  | .base k => k.OK as ty
  | .binary op act lt rt ot => ∃ a ca b cb, as = [(a, ca), (b, cb)] ∧ a.d = 1 ∧ b.d = 1 ∧ ty.d = 1 ∧ TFL.Broadcastable a.shape ty.shape ∧
      TFL.Broadcastable b.shape ty.shape ∧ QOK lt ∧ QOK rt ∧ QOK ot ∧
      BinDom dom lt rt ot op ∧
      (act = .relu6 → 6 ≤ 2147483647 * ot.scale)
  | .activation f it ot => ∃ a c, as = [(a, c)] ∧ a.d = 1 ∧ ty = a ∧ QOK it ∧ QOK ot ∧
      ∀ q : ℤ, -128 ≤ q → q ≤ 127 → |f.apply (it.deq q)| ≤ 2147483647 * ot.scale
  | .conv t l g => ∃ a c, as = [(a, c)] ∧ a = ⟨[1, l.ih, l.iw, l.ic], 1⟩ ∧ ty = ⟨[1, l.oh, l.ow, l.oc], 1⟩ ∧
      t.OK ∧ l.src = [] ∧ l.OK [1, l.ih, l.iw, l.ic] ∧
      1 ≤ l.ic ∧ 1 ≤ l.oh ∧ 1 ≤ l.ow ∧
      (t.act = .none ∨ t.act = .relu ∧ (t.zpo = -128 ∨ l.dw = false)) ∧
      (∀ o < l.oc, l.op.filter.qp.scale o ≤ R.cfg.factor ∧ ∀ o' < l.oc, l.op.filter.qp.scale o ≤ R.cfg.factor * l.op.filter.qp.scale o') ∧
      ∃ limit, Conv.Compile.Pipeline limit (.conv l) g
  | .avgPool t p h w oh ow depth g => ∃ a c, as = [(a, c)] ∧ a = ⟨[1, h, w, depth], 1⟩ ∧ ty = ⟨[1, oh, ow, depth], 1⟩ ∧ t.OK ∧
      (t.act = .none ∨ t.act = .relu ∧ t.zpo = -128) ∧ p.padding = .valid ∧ 1 ≤ p.fh ∧ 1 ≤ p.fw ∧ 1 ≤ p.sh ∧ 1 ≤ p.sw ∧
      p.fh < 32768 ∧ p.fw < 32768 ∧ 1 ≤ h ∧ 1 ≤ w ∧ 1 ≤ oh ∧ 1 ≤ ow ∧ 1 ≤ depth ∧ (oh : Int) = ((h : Int) - p.fh + p.sh) / p.sh ∧
      (ow : Int) = ((w : Int) - p.fw + p.sw) / p.sw ∧ ∃ limit, Conv.Compile.Pipeline limit (.conv (Conv.Compile.poolLeaf p h w oh ow depth)) g
  | .fc t f B g => ∃ a c pre, as = [(a, c)] ∧ a = ⟨pre ++ [B, f.c], 1⟩ ∧ pre.prod = 1 ∧ ty.d = 1 ∧ ty.shape.prod = B * f.o ∧
      Conv.fcOutputShape ty.shape = ty.shape ∧ t.OK ∧ (t.act = .none ∨ t.act = .relu) ∧ f.data.length = f.o * f.c ∧ 1 ≤ f.c ∧ 1 ≤ B ∧
      f.qp.Fits f.o ∧ (∀ b, f.bias = some b → b.data.length = f.o ∧ b.qp.Fits f.o) ∧
      (∀ o < f.o, f.qp.zp o = 0 ∧ 0 < f.qp.scale o ∧ f.qp.scale o ≤ R.cfg.factor ∧ ∀ o' < f.o, f.qp.scale o ≤ R.cfg.factor * f.qp.scale o') ∧
      ∃ limit, Conv.Compile.Pipeline limit (.conv (Conv.Compile.fcLeaf f B)) g
  | .maxPool p => ∃ a c, as = [(a, c)] ∧ a = ⟨[1, p.h, p.w, p.depth], 1⟩ ∧ ty = ⟨[1, p.oh, p.ow, p.depth], 1⟩ ∧ p.OK ∧ p.padding = .valid ∧
      p.act = .none
  | .reduce _ ti tq axes shape => ∃ a c, as = [(a, c)] ∧ a = ⟨shape, 1⟩ ∧ ty.d = 1 ∧
      ty.shape.prod = (XC.keptShape (XC.reduced axes) 0 shape).prod ∧ 0 < ti.scale ∧ 0 < tq.scale ∧ tq.lo = -128 ∧ tq.hi = 127 ∧ axes.Nodup ∧
      (∀ x ∈ axes, 0 ≤ x ∧ x < shape.length) ∧ XC.reduceDims axes shape ≠ .undefined
  | .tconv t h w oh ow op ps => ∃ a c, as = [(a, c)] ∧ a = ⟨[1, h, w, op.filter.c], 1⟩ ∧ ty = ⟨[1, oh, ow, op.filter.o], 1⟩ ∧ t.OK ∧
      (t.act = .none ∨ t.act = .relu ∧ t.zpo = -128) ∧ 1 ≤ h ∧ 1 ≤ w ∧ 1 ≤ op.filter.c ∧ 1 ≤ op.filter.o ∧
      TConvOK R t h w (tplan h w oh ow op).vh (tplan h w oh ow op).vw (tplan h w oh ow op).op ps ∧
      (op.padding = .same → oh = h * op.sh ∧ ow = w * op.sw ∧ op.sh ≤ op.filter.kh ∧ op.sw ≤ op.filter.kw)
  | .blob op act => op.OK (as.map (·.1)) ty act
  | .conv16 t l g => ∃ a c, as = [(a, c)] ∧ a = ⟨[1, l.ih, l.iw, l.ic], 2⟩ ∧ ty = ⟨[1, l.oh, l.ow, l.oc], 2⟩ ∧ t.OK16 ∧ l.dw = false ∧ l.src = [] ∧
      l.OK [1, l.ih, l.iw, l.ic] ∧ 1 ≤ l.ic ∧ 1 ≤ l.oh ∧ 1 ≤ l.ow ∧
      (∀ o < l.oc, l.op.filter.qp.scale o ≤ R.cfg.factor ∧ ∀ o' < l.oc, l.op.filter.qp.scale o ≤ R.cfg.factor * l.op.filter.qp.scale o') ∧
      (∀ o < l.oc, t.inS * l.op.filter.qp.scale o / t.outS ≤ R.lib16.top) ∧ l.Fits32 ∧
      ∃ limit, Conv.Compile.PipelineN 16 limit (.conv l) g
  | .fc16 t f B g => ∃ a c pre, as = [(a, c)] ∧ a = ⟨pre ++ [B, f.c], 2⟩ ∧ pre.prod = 1 ∧ ty.d = 2 ∧ ty.shape.prod = B * f.o ∧
      Conv.fcOutputShape ty.shape = ty.shape ∧ t.OK16 ∧ f.data.length = f.o * f.c ∧ 1 ≤ f.c ∧ 1 ≤ B ∧
      f.qp.Fits f.o ∧ (∀ b, f.bias = some b → b.data.length = f.o ∧ b.qp.Fits f.o) ∧
      (∀ o < f.o, f.qp.zp o = 0 ∧ 0 < f.qp.scale o ∧ f.qp.scale o ≤ R.cfg.factor ∧ ∀ o' < f.o, f.qp.scale o ≤ R.cfg.factor * f.qp.scale o') ∧
      (∀ o < f.o, t.inS * f.qp.scale o / t.outS ≤ R.lib16.top) ∧
      (∀ o < f.o, |Conv.biasAt f.bias o| + 32768 * ∑ c ∈ Finset.range f.c, |f.data.getD (o * f.c + c) 0| < 2 ^ 31) ∧
      ∃ limit, Conv.Compile.PipelineN 16 limit (.conv (Conv.Compile.fcLeaf f B)) g
  | .bsign zp => ∃ a c pre w, as = [(a, c)] ∧ a = ⟨pre ++ [w * 32], 1⟩ ∧ ty = ⟨pre ++ [w], 4⟩ ∧ -128 ≤ zp ∧ zp ≤ 127
  | .bconv L => ∃ a c, as = [(a, c)] ∧ a = ⟨[1, L.f.ih, L.f.iw, L.f.words], 4⟩ ∧ ty = L.ty ∧ L.OK

/-- Types of all values. -/
def QNetwork.types (N : QNetwork) : List Ty := N.inputs ++ N.nodes.map (·.ty)

def QKind.isConst : QKind → Bool
  | .base k => k.isConst
  | _ => false

def QNodesOK (R : Rt) (dom : MulArgs → Prop) : List QNode → List (Ty × Bool) → Prop
  | [], _ => True
  | n :: ns, vs => (∀ v ∈ n.args, v < vs.length) ∧ n.kind.OK R dom (n.args.map fun v => vs.getD v (⟨[], 0⟩, false)) n.ty ∧
      QNodesOK R dom ns (vs ++ [(n.ty, n.kind.isConst)])

structure QNetwork.OK (R : Rt) (dom : MulArgs → Prop) (N : QNetwork) : Prop where
  nodes : QNodesOK R dom N.nodes (N.inputs.map fun t => (t, false))
  outs : ∀ v ∈ N.outputs, v < N.inputs.length + N.nodes.length

end Verif.Net
