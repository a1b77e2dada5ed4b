import Verif.Net.Props
import Verif.XC.Patterns
import Verif.TFL.Props
/-!
C109: operators that the patterns of xformer/Transforms/XCPatterns.td replace by an xcore operator with a constant that lib_nn makes for it:
16-bit `ADD`, `SUB`, `MUL`, activation functions, `QUANTIZE` (from 32-bit floats and from 16 bits) and `DEQUANTIZE`, and 8-bit `SOFTMAX`.

What lib_nn makes (`*_tensor_blob`, `quadratic_approximation_generator`) and the kernels that read it are parameters, `BLib`.  Real numbers
for the `double`s of the compiler.  `ELU(DEQUANTIZE)` (XCPatterns.td 83-93, C58) is not an operator here.
-/
namespace Verif.Net
open Verif.Tensor Verif.Move Verif.MemPlan Verif.Quant

/-! ### Bytes and numbers -/

/-- Signed 8-bit value of a byte. -/
def s8 (b : Byte) : ℤ := XC.ofU8 b.toNat

/-- The byte of a signed 8-bit value. -/
def toByte (v : ℤ) : Byte := UInt8.ofNat (XC.toU8 v)

/-- Element `k` of a buffer of `d`-byte elements. -/
def word (d : Nat) (data : List Byte) (k : Nat) : List Byte := fit d ((data.drop (k * d)).take d)

/-- Signed value of two little-endian bytes. -/
def s16 (b : List Byte) : ℤ := (b.getD 0 0).toNat + 256 * s8 (b.getD 1 0)

/-- The two little-endian bytes of a 16-bit integer. -/
def bytes16 (v : ℤ) : List Byte := [UInt8.ofNat (v % 256).toNat, UInt8.ofNat (v / 256 % 256).toNat]

/-- The 16-bit integer number `k` of a buffer. -/
def val16 (data : List Byte) (k : Nat) : ℤ := s16 (word 2 data k)

/-- The integers in a 16-bit tensor. -/
def tensor16 (t : Ty) (data : List Byte) (idx : List Nat) : ℤ := s16 (elemAt t data idx)

/-- The activation that TensorFlow Lite fuses, on real numbers. -/
noncomputable def fusedReal : TFL.Act → ℝ → ℝ
  | .none, x => x
  | .relu, x => max 0 x
  | .relu1, x => max (-1) (min 1 x)
  | .relu6, x => max 0 (min 6 x)

/-- A real number in steps of a 16-bit type, saturated. -/
noncomputable def sat16 (t : QType) (x : ℝ) : ℝ := max (-32768) (min 32767 (x / t.scale + t.zp))

/-! ### Operators -/

/-- Activation functions: those with tables for 8 bits (XCPatterns.td 18-19), and TensorFlow Lite's RELU_N1_TO_1. -/
inductive ActFn where
  | tabled (a : XC.Activation)
  | relu1

noncomputable def ActFn.apply : ActFn → ℝ → ℝ
  | .tabled a, x => a.apply x
  | .relu1, x => max (-1) (min 1 x)

/-- Operators with their types.  `quantize tq`: from 32-bit floats.  `softmax beta t shape`: of an 8-bit tensor along its last axis; the
result has scale 1/256 and zero point -128, as TensorFlow Lite demands. -/
inductive BlobOp where
  | binary (op : XC.BinOp) (t1 t2 tq : QType)
  | fn (f : ActFn) (ti tq : QType)
  | requantize (ti tq : QType)
  | quantize (tq : QType)
  | dequantize (ti : QType)
  | softmax (beta : ℚ) (t : XC.QI8) (shape : List Nat)

/-- Calls of lib_nn's functions that make a constant (ApplyXCPatterns.cpp 289-323). -/
inductive Blob where
  | binary (b : XC.BinI16)
  | requantize (si so : ℚ)
  | quantize (so : ℚ)
  | dequantize (si : ℚ)

/-- Kernels: the `op_type` of `XC_BinaryI16Op` and `XC_UnaryI16Op` (IR/XCoreOps.td 217-223, 241-244), the 16-bit lookup, and softmax; the
batched one takes the length of a row from its operand's shape. -/
inductive Code where
  | add
  | mul
  | quantize
  | requantize
  | dequantize
  | lookup
  | softmax
  | batchedSoftmax (cols : Nat)
  deriving DecidableEq

/-- What is outside /repo: constants (`none`: lib_nn refuses), tables of 16-bit functions and their bytes, kernels on all their operands,
TensorFlow Lite's kernels, the option `--xcore-quadratic-lookup-error`, the value of a 32-bit float, `expf` with its argument rounded to 32
bits; and the errors in steps of the result (of the kernels; of TensorFlow Lite's kernels), and relative (of floats and of `expf`). -/
structure BLib where
  blob : Blob → Option (List Byte)
  gen : (ℝ → ℝ) → ℝ → ℝ → XC.Quadratic
  quadBytes : XC.Quadratic → List Byte
  limit : ℤ
  kern : Code → List (List Byte) → List Byte
  tfl : BlobOp → List (List Byte) → List Byte
  f32 : List Byte → ℝ
  finite : List Byte → Prop
  expf : ℝ → List Byte
  err : ℚ
  tflErr : ℚ
  fErr : ℚ

/-- `getExpLookupF32` (ApplyXCPatterns.cpp 80-108): entry `i` belongs to the quantised value `i - 128`. -/
def softTable (L : BLib) (t : XC.QI8) : List Byte := (List.range 256).flatMap fun (i : Nat) => L.expf (((((i : ℤ) - 128) - t.zp : ℤ) : ℝ) * t.scale)

/-- Functions with a 16-bit pattern (XCPatterns.td 32-33). -/
def ActFn.wide : ActFn → Option XC.Activation
  | .tabled .logistic => some .logistic
  | .tabled .tanh => some .tanh
  | .tabled .relu => some .relu
  | .tabled .relu6 => some .relu6
  | _ => none

/-- The constant operand; `none`: the pattern fails and the TensorFlow Lite operator stays (XCPatterns.td 27-142; ApplyXCPatterns.cpp 80-176,
256-340).  Zero points are not passed for 16 bits. -/
noncomputable def BlobOp.const (L : BLib) : BlobOp → Option (List Byte)
  | .binary op t1 t2 tq => L.blob (.binary (XC.lowerBin op t1 t2 tq))
  | .fn f ti tq => f.wide.bind fun a => (XC.lookupI16 L.gen L.limit a.apply ti.scale tq.scale).map L.quadBytes
  | .requantize ti tq => L.blob (.requantize ti.scale tq.scale)
  | .quantize tq => L.blob (.quantize tq.scale)
  | .dequantize ti => L.blob (.dequantize ti.scale)
  | .softmax beta t shape => (XC.lowerSoftmax beta shape).map fun _ => softTable L t

/-- The kernel of the xcore operator (XCPatterns.td 60-70, 105-142): subtraction is an addition. -/
def BlobOp.code : BlobOp → Code
  | .binary .add _ _ _ => .add
  | .binary .sub _ _ _ => .add
  | .binary .mul _ _ _ => .mul
  | .fn _ _ _ => .lookup
  | .requantize _ _ => .requantize
  | .quantize _ => .quantize
  | .dequantize _ => .dequantize
  | .softmax beta _ shape => if XC.lowerSoftmax beta shape = some .batched then .batchedSoftmax (shape.getLastD 0) else .softmax

/-- Operators whose result may overlap an operand (IR/XCoreOps.td 246, 454: `XC_MemoryOverlappable`; not 225, 343, 353). -/
def BlobOp.inPlace : BlobOp → Bool
  | .binary _ _ _ _ => true
  | .fn _ _ _ => true
  | _ => false

/-- The meaning of the operator that is made: the xcore operator, whose last operand is the constant, or TensorFlow Lite's. -/
noncomputable def BlobOp.kernel (L : BLib) (op : BlobOp) (ins : List (List Byte)) : List Byte :=
  match op.const L with
  | some _ => L.kern op.code ins
  | none => L.tfl op ins

/-- A fused activation as an operator of its own, between equal types (TFLPatterns.td 64-79). -/
def fusedFn : TFL.Act → Option ActFn
  | .none => none
  | .relu => some (.tabled .relu)
  | .relu1 => some .relu1
  | .relu6 => some (.tabled .relu6)

def BlobOp.fused (act : TFL.Act) : BlobOp → Option BlobOp
  | .binary _ _ _ tq => (fusedFn act).map fun f => .fn f tq tq
  | _ => none

/-! ### Specification -/

/-- The real number of which element `k` of a softmax along rows of length `cols` is to be, in steps of 1/256 from -128. -/
noncomputable def softReal (beta : ℝ) (t : XC.QI8) (cols : Nat) (data : List Byte) (k : Nat) : ℝ :=
  min 127 (256 * (Real.exp (beta * t.deq (s8 (data.getD k 0))) /
    ∑ c ∈ Finset.range cols, Real.exp (beta * t.deq (s8 (data.getD (k / cols * cols + c) 0)))) - 128)

/-- `out` is the result, of `n` elements, of the operator on the operands `ins`, up to `e` steps. -/
def BlobOp.Spec (L : BLib) (op : BlobOp) (n : Nat) (ins : List (List Byte)) (out : List Byte) (e : ℝ) : Prop :=
  let a := ins.getD 0 []
  let b := ins.getD 1 []
  match op with
  | .binary op t1 t2 tq => out.length = n * 2 ∧ ∀ k < n,
      |(val16 out k : ℝ) - sat16 tq ((op.real (t1.deq (val16 a k)) (t2.deq (val16 b k)) : ℚ) : ℝ)| ≤ e
  | .fn f ti tq => out.length = n * 2 ∧ ∀ k < n, |(val16 out k : ℝ) - sat16 tq (f.apply ((ti.deq (val16 a k) : ℚ) : ℝ))| ≤ e
  | .requantize ti tq => out.length = n * 2 ∧ ∀ k < n, |(val16 out k : ℝ) - sat16 tq ((ti.deq (val16 a k) : ℚ) : ℝ)| ≤ e
  | .quantize tq => out.length = n * 2 ∧ ∀ k < n, L.finite (word 4 a k) → |(val16 out k : ℝ) - sat16 tq (L.f32 (word 4 a k))| ≤ e
  | .dequantize ti => out.length = n * 4 ∧ ∀ k < n,
      |L.f32 (word 4 out k) - ((ti.deq (val16 a k) : ℚ) : ℝ)| ≤ L.fErr * |((ti.deq (val16 a k) : ℚ) : ℝ)|
  | .softmax beta t shape => out.length = n ∧ ∀ k < n, |(s8 (out.getD k 0) : ℝ) - softReal beta t (shape.getLastD 0) a k| ≤ e

/-- Tolerance in steps. -/
noncomputable def BlobOp.tol (L : BLib) : BlobOp → ℝ
  | .fn _ _ _ => max (L.limit : ℝ) L.tflErr
  | .softmax _ _ _ => max ((L.err : ℝ) + 512 * L.fErr / (1 - L.fErr)) L.tflErr
  | _ => max (L.err : ℝ) L.tflErr

/-- Tolerance with a fused activation. -/
noncomputable def BlobOp.tolFused (L : BLib) (op : BlobOp) : TFL.Act → ℝ
  | .none => op.tol L
  | _ => op.tol L + max (L.limit : ℝ) L.tflErr

/-- A symmetric 16-bit type; only the scale matters. -/
structure Sym16 (t : QType) : Prop where
  pos : 0 < t.scale
  zp : t.zp = 0

/-- Types for which the operator is right (C57, C58): symmetric; in `dequantize` the values are normal 32-bit floats, in `softmax` the
exponentials are. -/
def BlobOp.TypesOK : BlobOp → Prop
  | .binary _ t1 t2 tq => Sym16 t1 ∧ Sym16 t2 ∧ Sym16 tq
  | .fn _ ti tq => Sym16 ti ∧ Sym16 tq
  | .requantize ti tq => Sym16 ti ∧ Sym16 tq
  | .quantize tq => Sym16 tq
  | .dequantize ti => Sym16 ti ∧ 1 / 2 ^ 126 ≤ ti.scale ∧ ti.scale ≤ 2 ^ 111
  | .softmax _ t shape => (∀ q : ℤ, -128 ≤ q → q ≤ 127 → |t.deq q| ≤ 87) ∧ shape ≠ [] ∧ ∀ d ∈ shape, 1 ≤ d

/-- The operands have the sizes for `n` elements. -/
def BlobOp.Sizes (n : Nat) (ins : List (List Byte)) : BlobOp → Prop
  | .binary _ _ _ _ => ∃ a b, ins = [a, b] ∧ a.length = n * 2 ∧ b.length = n * 2
  | .quantize _ => ∃ a, ins = [a] ∧ a.length = n * 4
  | .softmax _ _ shape => ∃ a, ins = [a] ∧ a.length = n ∧ n = shape.prod
  | _ => ∃ a, ins = [a] ∧ a.length = n * 2

/-- Typing rules: types of the operands and of the result; only binary operators have a fused activation. -/
def BlobOp.OK (ts : List Ty) (ty : Ty) (act : TFL.Act) (op : BlobOp) : Prop :=
  op.TypesOK ∧
  match op with
  | .binary _ _ _ _ => ∃ a b, ts = [a, b] ∧ a.d = 2 ∧ b.d = 2 ∧ ty.d = 2 ∧ TFL.Broadcastable a.shape ty.shape ∧ TFL.Broadcastable b.shape ty.shape
  | .quantize _ => act = .none ∧ ts = [⟨ty.shape, 4⟩] ∧ ty.d = 2
  | .dequantize _ => act = .none ∧ ts = [⟨ty.shape, 2⟩] ∧ ty.d = 4
  | .softmax _ _ shape => act = .none ∧ ts = [⟨shape, 1⟩] ∧ ty = ⟨shape, 1⟩
  | _ => act = .none ∧ ts = [ty] ∧ ty.d = 2

/-- What the result `out`, of type `ty`, of an operator with a fused activation must be, given its operands `a` and `b`. -/
def BlobOp.Meets (L : BLib) (op : BlobOp) (act : TFL.Act) (ty : Ty) (a b : Ty × List Byte) (out : List Byte) : Prop :=
  match op with
  | .binary o t1 t2 tq => ∀ idx, InShape ty.shape idx →
      |(tensor16 ty out idx : ℝ) - sat16 tq (fusedReal act ((o.real (t1.deq (broadcastT a.1.shape (tensor16 a.1 a.2) idx))
        (t2.deq (broadcastT b.1.shape (tensor16 b.1 b.2) idx)) : ℚ) : ℝ))| ≤ op.tolFused L act
  | .fn f ti tq => ∀ idx, InShape ty.shape idx → |(tensor16 ty out idx : ℝ) - sat16 tq (f.apply ((ti.deq (tensor16 a.1 a.2 idx) : ℚ) : ℝ))| ≤ op.tol L
  | .requantize ti tq => ∀ idx, InShape ty.shape idx → |(tensor16 ty out idx : ℝ) - sat16 tq ((ti.deq (tensor16 a.1 a.2 idx) : ℚ) : ℝ)| ≤ op.tol L
  | .quantize tq => ∀ idx, InShape ty.shape idx → L.finite (elemAt a.1 a.2 idx) →
      |(tensor16 ty out idx : ℝ) - sat16 tq (L.f32 (elemAt a.1 a.2 idx))| ≤ op.tol L
  | .dequantize ti => ∀ idx, InShape ty.shape idx →
      |L.f32 (elemAt ty out idx) - ((ti.deq (tensor16 a.1 a.2 idx) : ℚ) : ℝ)| ≤ L.fErr * |((ti.deq (tensor16 a.1 a.2 idx) : ℚ) : ℝ)|
  | .softmax beta t shape => out.length = shape.prod ∧ ∀ k < shape.prod, |(s8 (out.getD k 0) : ℝ) - softReal beta t (shape.getLastD 0) a.2 k| ≤ op.tol L

/-! ### Contracts -/

/-- The entry for the value `q` in a table of floats. -/
def entryOf (f32 : List Byte → ℝ) (table : List Byte) (q : ℤ) : ℝ := f32 (word 4 table (q + 128).toNat)

/-- Softmax from a table of exponentials. -/
noncomputable def softOf (f32 : List Byte → ℝ) (table : List Byte) (cols : Nat) (data : List Byte) (k : Nat) : ℝ :=
  min 127 (256 * (entryOf f32 table (s8 (data.getD k 0)) / ∑ c ∈ Finset.range cols, entryOf f32 table (s8 (data.getD (k / cols * cols + c) 0))) - 128)

structure BLib.OK (L : BLib) : Prop where
  fErr : 0 ≤ L.fErr ∧ L.fErr < 1
  gen : XC.QuadraticOK L.gen
  genRange : ∀ fn si so (q : ℤ), -32768 ≤ q → q ≤ 32767 → -32768 ≤ (L.gen fn si so).eval q ∧ (L.gen fn si so).eval q ≤ 32767
  /-- the 16-bit lookup kernel evaluates the table that it is given -/
  lookup : ∀ (t : XC.Quadratic) (n : Nat) (a : List Byte), (∀ q : ℤ, -32768 ≤ q → q ≤ 32767 → -32768 ≤ t.eval q ∧ t.eval q ≤ 32767) →
    a.length = n * 2 → (L.kern .lookup [a, L.quadBytes t]).length = n * 2 ∧ ∀ k < n, val16 (L.kern .lookup [a, L.quadBytes t]) k = t.eval (val16 a k)
  /-- the kernels of `XC_BinaryI16Op`, with a constant made for them -/
  binary : ∀ (b : XC.BinI16) (c : List Byte) (n : Nat) (x y : List Byte), L.blob (.binary b) = some c → x.length = n * 2 → y.length = n * 2 →
    (L.kern (if b.mul then .mul else .add) [x, y, c]).length = n * 2 ∧
    ∀ k < n, b.Gives (-32768) 32767 L.err (val16 x k) (val16 y k) (val16 (L.kern (if b.mul then .mul else .add) [x, y, c]) k)
  /-- the kernels of `XC_UnaryI16Op`, with a constant made for them -/
  requantize : ∀ (si so : ℚ) (c : List Byte) (n : Nat) (x : List Byte), L.blob (.requantize si so) = some c → x.length = n * 2 →
    (L.kern .requantize [x, c]).length = n * 2 ∧
    ∀ k < n, |(val16 (L.kern .requantize [x, c]) k : ℝ) - max (-32768) (min 32767 ((si * val16 x k / so : ℚ) : ℝ))| ≤ L.err
  quantize : ∀ (so : ℚ) (c : List Byte) (n : Nat) (x : List Byte), L.blob (.quantize so) = some c → x.length = n * 4 →
    (L.kern .quantize [x, c]).length = n * 2 ∧
    ∀ k < n, L.finite (word 4 x k) → |(val16 (L.kern .quantize [x, c]) k : ℝ) - max (-32768) (min 32767 (L.f32 (word 4 x k) / so))| ≤ L.err
  dequantize : ∀ (si : ℚ) (c : List Byte) (n : Nat) (x : List Byte), L.blob (.dequantize si) = some c → 1 / 2 ^ 126 ≤ si → si ≤ 2 ^ 111 →
    x.length = n * 2 → (L.kern .dequantize [x, c]).length = n * 4 ∧
    ∀ k < n, |L.f32 (word 4 (L.kern .dequantize [x, c]) k) - ((si * val16 x k : ℚ) : ℝ)| ≤ L.fErr * |((si * val16 x k : ℚ) : ℝ)|
  /-- `expf` returns four bytes, accurate where neither it nor the result leaves the normal numbers -/
  expf4 : ∀ x, (L.expf x).length = 4
  expf : ∀ x : ℝ, |x| ≤ 87 → |L.f32 (L.expf x) - Real.exp x| ≤ L.fErr * Real.exp x
  /-- softmax: one segment, and rows, given a table of positive numbers -/
  softmax : ∀ (c : List Byte) (n : Nat) (x : List Byte), c.length = 1024 → (∀ q : ℤ, -128 ≤ q → q ≤ 127 → 0 < entryOf L.f32 c q) → x.length = n →
    (L.kern .softmax [x, c]).length = n ∧ ∀ k < n, |(s8 ((L.kern .softmax [x, c]).getD k 0) : ℝ) - softOf L.f32 c n x k| ≤ L.err
  batched : ∀ (c : List Byte) (cols n : Nat) (x : List Byte), c.length = 1024 → (∀ q : ℤ, -128 ≤ q → q ≤ 127 → 0 < entryOf L.f32 c q) → x.length = n →
    1 ≤ cols → n % cols = 0 →
    (L.kern (.batchedSoftmax cols) [x, c]).length = n ∧ ∀ k < n, |(s8 ((L.kern (.batchedSoftmax cols) [x, c]).getD k 0) : ℝ) - softOf L.f32 c cols x k| ≤ L.err
  /-- TensorFlow Lite's kernels -/
  tfl : ∀ (op : BlobOp) (n : Nat) (ins : List (List Byte)), op.TypesOK → op.Sizes n ins → op.Spec L n ins (L.tfl op ins) L.tflErr

end Verif.Net
