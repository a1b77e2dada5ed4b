import Verif.Net.MergeMain
import Verif.Net.SplitNet
/-!
C115: xformer/Transforms/OpSplit.cpp on networks with quantised arithmetic.

C100 has the pass on networks whose convolutions are arbitrary functions of their windows.  Here the operators are those of C84, with TensorFlow Lite's
arithmetic, so that splitting can be combined with merges (C114), compilation (C80, C106) and the distance from the reference (C112).
-/
namespace Verif.Net
open Verif.Tensor Verif.Move Verif.MemPlan Verif.Quant Verif.Image Verif.OpSplit

/-- What `RaiseSlicePattern` reads of a convolution (OpSplit.cpp 545-570). -/
def wopOf (t : Conv.Compile.Types) (l : Conv.Compile.Leaf) : WOp :=
  ⟨0, decide (l.op.padding = .same), l.op.filter.kh, l.op.filter.kw, l.op.sh, l.op.sw, l.op.dh, l.op.dw, true, t.zpi, l.ih, l.iw, l.ic, 1, l.oh, l.ow, l.oc, 1⟩

/-- The cloned convolution (lines 663-686): no padding, new sizes, the same filter, bias and types. -/
def raisedLeaf (l : Conv.Compile.Leaf) (w1 : WOp) : Conv.Compile.Leaf :=
  { l with ih := w1.ih, iw := w1.iw, oh := w1.oh, ow := w1.ow, op := { l.op with padding := .valid } }

/-- The slice (lines 605-640) and, for `SAME`, the pad (lines 642-661) in front of the clone; `m` is the number of the slice's value. -/
def raisedOperand (w : WOp) (r : Raised) (x m : Nat) : List Node :=
  rowSlice x r.begin_.toNat r.size.toNat w.iw w.ic w.idd ::
    if w.same then [⟨.pad w.q8 w.zp [0, 0, r.padTop.toNat, r.padBottom.toNat, r.padLeft.toNat, r.padRight.toNat, 0, 0], [m], (w.clone r).inp⟩] else []

/-- `RaiseSlicePattern` (lines 508-690) at operator `i`: the operators in front of the clone, the clone, which takes the place of the slice, and the
position of the convolution.  `g` is what the clone is compiled to later.  Conditions as in `raiseConvP`. -/
def raiseConvQ (Q : QNetwork) (g : Conv.Compile.Net) (i : Nat) : Option (List Node × QNode × Nat) :=
  match Q.nodes[i]? with
  | some ⟨.base (.slice [0, b, 0, 0] [1, s, _, _]), [v], ty⟩ =>
    match Q.producer v with
    | some ⟨.conv t l _, [x], _⟩ =>
      let w := wopOf t l
      let r := w.raised b s
      if ty = ty4 s w.ow w.oc w.od ∧ 1 ≤ s ∧ w.dh = 1 ∧ w.dw = 1 ∧ 0 ≤ r.begin_ ∧ 1 ≤ r.size ∧ r.begin_ + r.size ≤ w.ih then
        let m := Q.inputs.length + i
        let ns := raisedOperand w r x m
        some (ns, ⟨.conv t (raisedLeaf l (w.clone r)) g, [m + ns.length - 1], ty⟩, v - Q.inputs.length)
      else none
    | _ => none
  | _ => none

/-- `RaiseSliceBinaryPattern` (lines 406-500) at operator `i`.  Conditions as in `raiseBinP`. -/
def raiseBinQ (Q : QNetwork) (i : Nat) : Option (List Node × QNode × Nat) :=
  match Q.nodes[i]? with
  | some ⟨.base (.slice [0, b, 0, 0] [1, s, _, _]), [v], ty⟩ =>
    match Q.producer v with
    | some ⟨.binary op act lt rt ot, [x, y], ⟨[1, oh, ow, oc], od⟩⟩ =>
      match Q.types.getD x ⟨[], 0⟩, Q.types.getD y ⟨[], 0⟩ with
      | ⟨[1, ah, aw, ac], ad⟩, ⟨[1, bh, bw, bc], bd⟩ =>
        let o : BOp := ⟨0, ah, aw, ac, ad, bh, bw, bc, bd, oh, ow, oc, od⟩
        if o.Fits ∧ ty = ty4 s ow oc od ∧ 1 ≤ s ∧ (o.slices ah aw ac = true ∨ ah = 1) ∧ (o.slices bh bw bc = true ∨ bh = 1) then
          let m := Q.inputs.length + i
          let sx := if o.slices ah aw ac then [rowSlice x b s aw ac ad] else []
          let x' := if o.slices ah aw ac then m else x
          let sy := if o.slices bh bw bc then [rowSlice y b s bw bc bd] else []
          let y' := if o.slices bh bw bc then m + sx.length else y
          some (sx ++ sy, ⟨.binary op act lt rt ot, [x', y'], ty⟩, v - Q.inputs.length)
        else none
      | _, _ => none
    | _ => none
  | _ => none

/-- Operators `ns` inserted in front of operator `i`; the later values get new numbers. -/
def QNetwork.insert (Q : QNetwork) (i : Nat) (ns : List Node) : Network :=
  splice Q.inputs (Q.seen.nodes.take i) (ns ++ (Q.seen.nodes.drop i).take 1) (Q.seen.nodes.drop (i + 1)) Q.outputs (Q.inputs.length + i + ns.length)

/-- The rewritten network: `ns` in front of operator `i`, which becomes `n`. -/
def QNetwork.raise (Q : QNetwork) (i : Nat) (ns : List Node) (n : QNode) : QNetwork :=
  (Q.rewritten (Q.insert i ns)).replace (i + ns.length) n

/-! ### Specification -/

/-- The patterns of OpSplit.cpp that do not look into operators. -/
inductive MovePattern : Pattern → Prop where
  | split (k : Nat) : MovePattern (splitP k)
  | combine (j : Nat) : MovePattern (combineP j)
  | raisePad : MovePattern raisePadP

/-- The new operator is one that the compiler compiles (C80). -/
def QNode.Compiled (n : QNode) : Prop :=
  match n.kind with
  | .conv _ l g => ∃ limit, Conv.Compile.Pipeline limit (.conv l) g
  | _ => True

/-- One step of the splitting pass on a network with the errors `e` of the reference's operators.  The clone of an operator has the operator's error;
data movement has none. -/
inductive SplitQStep : QNetwork × (Nat → ℝ) → QNetwork × (Nat → ℝ) → Prop
  | move {Q : QNetwork} {e : Nat → ℝ} {N : Network} {P : Pattern} : MovePattern P → Rw [P] Q.seen N → SplitQStep (Q, e) (Q.rewritten N, carried N e)
  | raise {Q : QNetwork} {e : Nat → ℝ} {i j : Nat} {ns : List Node} {n : QNode} :
      ((∃ g, raiseConvQ Q g i = some (ns, n, j)) ∨ raiseBinQ Q i = some (ns, n, j)) → n.Compiled →
      SplitQStep (Q, e) (Q.raise i ns n, Function.update (carried (Q.insert i ns) e) (i + ns.length) (e j))

/-- One step of the compiler: a step of C114 (rewrites and merges), or a step of the splitting pass. -/
inductive Lower (R : Rt) (inputs : List (List Byte)) : QNetwork × (Nat → ℝ) → QNetwork × (Nat → ℝ) → Prop
  | merge {s s' : QNetwork × (Nat → ℝ)} : Merge R inputs s s' → Lower R inputs s s'
  | split {s s' : QNetwork × (Nat → ℝ)} : SplitQStep s s' → Lower R inputs s s'

end Verif.Net
