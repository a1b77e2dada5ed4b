import Verif.Net.QModel
import Mathlib.Algebra.BigOperators.Group.Finset.Basic
/-!
C112: how far a compiled network can be from the reference.

C84 and C106 bound the error of every operator on the operands that *it* gets.  Here a whole run of the compiled model is compared with a whole
run of the reference (TensorFlow Lite's operators on the same network, each with its own operands): differences in the operands grow by the
weights and scales of an operator, and each operator adds its own tolerance.
-/
namespace Verif.Net
open Verif.Tensor Verif.Move Verif.MemPlan Verif.Quant

/-! ### Specification -/

/-- The numbers in two elements differ by at most `δ`: 8-bit and 16-bit integers, 32-bit floats; elements of other sizes are equal.  Floats that
differ by at most 0 are the same bytes. -/
def CloseEl (L : BLib) (d : Nat) (δ : ℝ) (a b : List Byte) : Prop :=
  if d = 1 then |((s8 (a.headD 0) : ℤ) : ℝ) - (s8 (b.headD 0) : ℤ)| ≤ δ
  else if d = 2 then |((s16 a : ℤ) : ℝ) - (s16 b : ℤ)| ≤ δ
  else if d = 4 then a = b ∨ 0 < δ ∧ |L.f32 a - L.f32 b| ≤ δ
  else a = b

/-- Elements number `k` of two buffers of the same type differ by at most `δ`, for all `k`. -/
def Close (L : BLib) (t : Ty) (δ : ℝ) (x y : List Byte) : Prop := ∀ k < t.shape.prod, CloseEl L t.d δ (word t.d x k) (word t.d y k)

/-- A real number in steps of an 8-bit type, saturated. -/
noncomputable def sat8 (t : XC.QI8) (x : ℝ) : ℝ := max (-128) (min 127 (x / t.scale + t.zp))

/-- The result `out` of an operator is the reference result for the operands that it was run on, up to `e` steps; up to `e` itself for floats.
Operators that TensorFlow Lite runs in both cases, and data movement, give the same result. -/
def QNode.Within (R : Rt) (n : QNode) (e : ℝ) (args : List (Ty × List Byte)) (out : List Byte) : Prop :=
  let a := args.getD 0 (⟨[], 0⟩, [])
  let b := args.getD 1 (⟨[], 0⟩, [])
  let res := tensorOf n.ty out
  match n.kind with
  | .base k => out = eval R.ext k n.ty args
  | .binary op act lt rt ot => ∀ idx, InShape n.ty.shape idx →
      |((res idx : ℤ) : ℝ) - (XC.quantR ot (fusedReal act (binReal op lt rt (broadcastT a.1.shape (tensorOf a.1 a.2) idx)
        (broadcastT b.1.shape (tensorOf b.1 b.2) idx))) : ℤ)| ≤ e
  | .activation f it ot => ∀ idx, InShape n.ty.shape idx → |((res idx : ℤ) : ℝ) - sat8 ot (f.apply (it.deq (tensorOf a.1 a.2 idx)))| ≤ e
  | .conv t l _ => ∀ idx, InShape n.ty.shape idx → |((res idx : ℤ) : ℝ) - (Conv.Compile.tflConv R.r t l (tensorOf a.1 a.2) idx : ℤ)| ≤ e
  | .avgPool t p h w _ _ _ _ => ∀ idx, InShape n.ty.shape idx →
      |((res idx : ℤ) : ℝ) - (Conv.avgPool (Conv.Compile.quantOut t R.r) ⟨t.inS, t.zpi, -128, 127⟩ h w p (tensorOf a.1 a.2) idx : ℤ)| ≤ e
  | .fc t f B _ => ∀ k < B * f.o,
      |((s8 (out.getD k 0) : ℤ) : ℝ) - ((Conv.fullyConnected (Conv.Compile.rqT t R.r) t.zpi f B (a.2.map s8)).getD k 0 : ℤ)| ≤ e
  | .maxPool p => ∀ y x c, y < p.oh → x < p.ow → c < p.depth →
      ∃ v, Conv.IsMaxPool p (tensorOf a.1 a.2) 0 y x c v ∧ |((res [0, y, x, c] : ℤ) : ℝ) - (v : ℤ)| ≤ e
  | .reduce sum ti tq axes shape => ∀ idx, InShape (XC.keptShape (XC.reduced axes) 0 shape) idx →
      |((tensorOf ⟨XC.keptShape (XC.reduced axes) 0 shape, 1⟩ out idx : ℤ) : ℝ) - (reduceSpec R.r sum ti tq axes shape (tensorOf a.1 a.2) idx : ℤ)| ≤ e
  | .tconv t h w oh ow op _ => ∀ idx, InShape n.ty.shape idx →
      |((res idx : ℤ) : ℝ) - (Conv.tconv (Conv.Compile.rqT t R.r) t.zpi h w oh ow op (tensorOf a.1 a.2) idx : ℤ)| ≤ e
  | .blob op act =>
    match op with
    | .binary o t1 t2 tq => ∀ idx, InShape n.ty.shape idx →
        |(tensor16 n.ty out idx : ℝ) - sat16 tq (fusedReal act ((o.real (t1.deq (broadcastT a.1.shape (tensor16 a.1 a.2) idx))
          (t2.deq (broadcastT b.1.shape (tensor16 b.1 b.2) idx)) : ℚ) : ℝ))| ≤ e
    | .fn f ti tq => ∀ idx, InShape n.ty.shape idx → |(tensor16 n.ty out idx : ℝ) - sat16 tq (f.apply ((ti.deq (tensor16 a.1 a.2 idx) : ℚ) : ℝ))| ≤ e
    | .requantize ti tq => ∀ idx, InShape n.ty.shape idx → |(tensor16 n.ty out idx : ℝ) - sat16 tq ((ti.deq (tensor16 a.1 a.2 idx) : ℚ) : ℝ)| ≤ e
    | .quantize tq => ∀ idx, InShape n.ty.shape idx → R.b.finite (elemAt a.1 a.2 idx) →
        |(tensor16 n.ty out idx : ℝ) - sat16 tq (R.b.f32 (elemAt a.1 a.2 idx))| ≤ e
    | .dequantize ti => ∀ idx, InShape n.ty.shape idx → |R.b.f32 (elemAt n.ty out idx) - ((ti.deq (tensor16 a.1 a.2 idx) : ℚ) : ℝ)| ≤ e
    | .softmax beta t shape => ∀ k < shape.prod, |(s8 (out.getD k 0) : ℝ) - softReal beta t (shape.getLastD 0) a.2 k| ≤ e
  | .conv16 t l _ => ∀ idx, InShape n.ty.shape idx →
      |((tensor16 n.ty out idx : ℤ) : ℝ) - (Conv.Compile.tflConv16 R.r t l (tensor16 a.1 a.2) idx : ℤ)| ≤ e
  | .fc16 t f B _ => ∀ k < B * f.o,
      |((val16 out k : ℤ) : ℝ) - ((Conv.fullyConnected (Conv.Compile.rqT16 t R.r) t.zpi f B (vals16 a.2)).getD k 0 : ℤ)| ≤ e
  | .bsign zp => ∀ k < a.1.size, bitOf out k = decide (s8 (a.2.getD k 0) < zp)
  | .bconv L => L.Meets e a.2 out

/-! ### Bounds -/

/-- Tolerance of a compiled operator in steps (C84, C109, C111). -/
noncomputable def QNode.tol (R : Rt) (n : QNode) : ℝ :=
  match n.kind with
  | .base _ => 0
  | .maxPool _ => 0
  | .binary _ _ _ _ _ => 1
  | .reduce _ _ _ _ _ => 1
  | .activation _ _ _ => 1 / 2
  | .blob (.dequantize ti) _ => R.b.fErr * (32768 * ti.scale)
  | .blob op act => op.tolFused R.b act
  | .conv16 _ _ _ => R.lib16.err + 1 / 2
  | .fc16 _ _ _ _ => R.lib16.err + 1 / 2
  | .bsign _ => 0
  | .bconv _ => R.bin.err
  | _ => if R.cfg.threshold < 1 then 1 else R.cfg.threshold + 1

/-- Differences of rounded numbers, from a bound of the difference of the numbers. -/
noncomputable def roundUp (g : ℝ) : ℝ := if g ≤ 0 then 0 else g + 1

/-- The largest of finitely many numbers and 0. -/
noncomputable def peak (l : List ℝ) : ℝ := l.foldr max 0

/-- How much a difference of one step in the operand may change the result of a requantised sum of products: for output channel `o`, the
multiplier times the sum of the magnitudes of the weights. -/
noncomputable def gain (t : Conv.Compile.Types) (scale : ℚ) (weights : ℤ) : ℝ := ((|t.inS * scale / t.outS| : ℚ) : ℝ) * (weights : ℝ)

/-- Magnitudes of the weights of output channel `o`. -/
def weightSum (f : Conv.Filter) (o : Nat) : ℤ :=
  ∑ a ∈ Finset.range f.kh, ∑ b ∈ Finset.range f.kw, ∑ c ∈ Finset.range f.c, |f.at o a b c - f.qp.zp o|

/-- The same for a depthwise convolution. -/
def weightSumDw (f : Conv.Filter) (o : Nat) : ℤ := ∑ a ∈ Finset.range f.kh, ∑ b ∈ Finset.range f.kw, |f.at 0 a b o - f.qp.zp o|

def weightSumFc (f : Conv.FC) (o : Nat) : ℤ := ∑ c ∈ Finset.range f.c, |f.data.getD (o * f.c + c) 0 - f.qp.zp o|

/-- The steepest slope of an activation function. -/
noncomputable def slope : ActFn → ℝ
  | .tabled .logistic => 1 / 4
  | .tabled .hardSwish => 3 / 2
  | _ => 1

/-- Number of elements that a reduction adds up. -/
def reducedCount (red : Nat → Bool) : Nat → List Nat → Nat
  | _, [] => 1
  | p, n :: s => if red p then n * reducedCount red (p + 1) s else reducedCount red (p + 1) s

/-- How far the reference results for two lists of operands are apart, if the operands differ by at most `δs`. -/
noncomputable def QNode.grow (n : QNode) (δs : List ℝ) : ℝ :=
  let δ := δs.getD 0 0
  let δ' := δs.getD 1 0
  match n.kind with
  | .base (.const _) => 0
  | .base _ => peak δs
  | .binary .mul _ lt rt ot => roundUp (255 * lt.scale * rt.scale * (δ + δ') / ot.scale)
  | .binary _ _ lt rt ot => roundUp ((lt.scale * δ + rt.scale * δ') / ot.scale)
  | .activation f it ot => slope (.tabled f) * (it.scale * δ) / ot.scale
  | .conv t l _ => roundUp (δ * peak ((List.range l.oc).map fun o =>
      gain t (l.op.filter.qp.scale o) (if l.dw then weightSumDw l.op.filter o else weightSum l.op.filter o)))
  | .avgPool t _ _ _ _ _ _ _ => roundUp (t.inS * δ / t.outS)
  | .fc t f _ _ => roundUp (δ * peak ((List.range f.o).map fun o => gain t (f.qp.scale o) (weightSumFc f o)))
  | .maxPool _ => δ
  | .reduce sum ti tq axes shape => roundUp ((if sum then (reducedCount (XC.reduced axes) 0 shape : ℝ) else 1) * (ti.scale * δ) / tq.scale)
  | .tconv t _ _ _ _ op _ => roundUp (δ * peak ((List.range op.filter.o).map fun o => gain t (op.filter.qp.scale o) (weightSum op.filter o)))
  | .blob (.binary .mul t1 t2 tq) _ => 32768 * t1.scale * t2.scale * (δ + δ') / tq.scale
  | .blob (.binary _ t1 t2 tq) _ => (t1.scale * δ + t2.scale * δ') / tq.scale
  | .blob (.fn f ti tq) _ => slope f * (ti.scale * δ) / tq.scale
  | .blob (.requantize ti tq) _ => ti.scale * δ / tq.scale
  | .blob (.quantize tq) _ => δ / tq.scale
  | .blob (.dequantize ti) _ => ti.scale * δ
  | .blob (.softmax beta t _) _ => 128 * |(beta : ℝ)| * |t.scale| * δ
  | .conv16 t l _ => roundUp (δ * peak ((List.range l.op.filter.o).map fun o => gain t (l.op.filter.qp.scale o) (weightSum l.op.filter o)))
  | .fc16 t f _ _ => roundUp (δ * peak ((List.range f.o).map fun o => gain t (f.qp.scale o) (weightSumFc f o)))
  | .bsign _ => 0
  | .bconv _ => 0

/-- Operators to which `grow` applies: a reshape keeps the element type, operators with an unknown
meaning and binarised operators get equal operands. -/
def QNode.Tame (n : QNode) (tys : List Ty) (δs : List ℝ) (δ : ℝ) : Prop :=
  match n.kind with
  | .base .reshape => ∀ t ∈ tys, t.d = n.ty.d
  | .base (.elementwise _) => ∀ d ∈ δs, d = 0
  | .base (.other _ _) => ∀ d ∈ δs, d = 0
  | .blob (.dequantize _) _ => 0 < δ
  | .bsign _ => ∀ d ∈ δs, d = 0
  | .bconv _ => ∀ d ∈ δs, d = 0
  | _ => True

/-- An operator that TensorFlow Lite runs in both cases: operands that differ by at most `δs` give results that differ by at most `δ`. -/
def Rt.Grows (R : Rt) (k : Kind) (tys : List Ty) (ty : Ty) (δs : List ℝ) (δ : ℝ) : Prop :=
  ∀ xs ys : List (List Byte), xs.map List.length = tys.map Ty.size → ys.map List.length = tys.map Ty.size →
    (∀ i < tys.length, Close R.b (tys.getD i ⟨[], 0⟩) (δs.getD i 0) (xs.getD i []) (ys.getD i [])) →
    Close R.b ty δ (eval R.ext k ty (tys.zip xs)) (eval R.ext k ty (tys.zip ys))

/-- `δ` is a bound for the difference of the results of two runs of an operator, of which the first is within its tolerance and the second
within `e` of the reference, if `δs` are bounds for the operands. -/
def QNode.Bound (R : Rt) (n : QNode) (tys : List Ty) (δs : List ℝ) (e δ : ℝ) : Prop :=
  0 ≤ δ ∧ (n.ty.d = 1 ∧ 255 ≤ δ ∨ n.ty.d = 2 ∧ 65535 ≤ δ ∨ n.Tame tys δs δ ∧ n.tol R + e + n.grow δs ≤ δ ∨ ∃ k, n.kind = .base k ∧ R.Grows k tys n.ty δs δ)

end Verif.Net
