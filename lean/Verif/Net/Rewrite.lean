import Verif.Net.Model
import Verif.TFL.Model
/-!
C95: rewrites of whole networks before lowering (OptimizeTranspose.cpp, TFLPatterns.td, ApplyTFLPatterns.cpp), in any order.

A pattern looks at one operator and the operators that define its operands, creates new operators in front of it and replaces the value of
the matched operator by another one (`rewriter.replaceOp`).  Operands may have other users: operators that lose their last user are
removed by the greedy driver in a step of its own.  Which pattern is tried where and when is up to the driver.
-/
namespace Verif.Net
open Verif.Tensor Verif.Move Verif.MemPlan

/-- `getDefiningOp`: nothing for a function argument; `n0` is the number of arguments, `pre` are the operators in front. -/
def defOf (n0 : Nat) (pre : List Node) (v : Nat) : Option Node := if v < n0 then none else pre[v - n0]?

/-- `getType` of a value. -/
def tyOf (inputs : List Ty) (pre : List Node) (v : Nat) : Ty := (inputs ++ pre.map (·.ty)).getD v ⟨[], 0⟩

/-- A pattern on the operator `n` behind `pre`: the new operators, placed in front of `n`, and the value that replaces `n`. -/
abbrev Pattern := (inputs : List Ty) → (pre : List Node) → (n : Node) → Option (List Node × Nat)

/-- Rows `[before, after]` of a paddings attribute. -/
def padRows (p : List Nat) : List (Int × Int) := (evens p).zipWith (fun (a b : Nat) => ((a : Int), (b : Int))) (odds p)

/-- The flat attribute with the given rows. -/
def unRows (l : List (Int × Int)) : List Nat := l.flatMap fun x => [x.1.toNat, x.2.toNat]

/-- `HoistTransposeWCHAbovePadPattern` (OptimizeTranspose.cpp 29-94).  The new pad has the element type, hence the padding value, of the
old one. -/
def hoistP : Pattern := fun inputs pre n =>
  match n.kind, n.args with
  | .transpose perm, [v] =>
    match defOf inputs.length pre v with
    | some ⟨.pad q8 zp p, [x], _⟩ =>
      match Transpose.hoist (tyOf inputs pre x).shape (perm.map Int.ofNat) (padRows p) with
      | some (tshape, pad') =>
        let m := inputs.length + pre.length
        some ([⟨.transpose perm, [x], ⟨tshape, (tyOf inputs pre x).d⟩⟩, ⟨.pad q8 zp (unRows pad'), [m], n.ty⟩], m + 1)
      | none => none
    | _ => none
  | _, _ => none

/-- `FoldCancellableTransposePattern` (OptimizeTranspose.cpp 95-124). -/
def cancelP : Pattern := fun inputs pre n =>
  match n.kind, n.args with
  | .transpose p0, [v] =>
    match defOf inputs.length pre v with
    | some ⟨.transpose p1, [x], _⟩ => if Transpose.cancels p0 p1 then some ([], x) else none
    | _ => none
  | _, _ => none

/-- `PadChannel(PadSpatial)` to `PadSpatial(PadChannel)` (TFLPatterns.td 108-153).  Both pads of a pair have the same element type
(`tfl.pad` requires it), so the same padding value. -/
def swapP : Pattern := fun inputs pre n =>
  match n.kind, n.args with
  | .pad q8 zp po, [v] =>
    match defOf inputs.length pre v with
    | some ⟨.pad q8' zp' pi, [x], mid⟩ =>
      if q8' = q8 ∧ zp' = zp then
        match TFL.swapPads (tyOf inputs pre x).shape ⟨pi, mid.shape, po, n.ty.shape⟩ with
        | some t =>
          let m := inputs.length + pre.length
          some ([⟨.pad q8 zp t.inner, [x], ⟨t.mid, n.ty.d⟩⟩, ⟨.pad q8 zp t.outer, [m], n.ty⟩], m + 1)
        | none => none
      else none
    | _ => none
  | _, _ => none

/-- `HoistQuantizeAboveConcatPattern` (ApplyTFLPatterns.cpp 107-155) for concatenations without a fused activation, of operands that have
the element type of the result.  Here for any operator on elements. -/
def quantP : Pattern := fun inputs pre n =>
  match n.kind, n.args with
  | .elementwise k, [v] =>
    match defOf inputs.length pre v with
    | some ⟨.concat axis, xs, cty⟩ =>
      if xs = [] then none
      else
        let m := inputs.length + pre.length
        some (xs.map (fun x => ⟨.elementwise k, [x], ⟨(tyOf inputs pre x).shape, n.ty.d⟩⟩) ++
          [⟨.concat axis, List.range' m xs.length, ⟨cty.shape, n.ty.d⟩⟩], m + xs.length)
    | _ => none
  | _, _ => none

def patterns : List Pattern := [hoistP, cancelP, swapP, quantP]

/-- New number of the value `v` when the value `m` is replaced by `r` and `k` operators are inserted in front of its operator. -/
def renum (m k r v : Nat) : Nat := if v < m then v else if v = m then r else v - 1 + k

def Node.rename (f : Nat → Nat) (n : Node) : Node := ⟨n.kind, n.args.map f, n.ty⟩

/-- `rewriter.replaceOp`: the operator between `pre` and `post` is replaced by `ns`, its value by `r`. -/
def splice (inputs : List Ty) (pre ns post : List Node) (outs : List Nat) (r : Nat) : Network :=
  let f := renum (inputs.length + pre.length) ns.length r
  ⟨inputs, pre ++ ns ++ post.map (Node.rename f), outs.map f⟩

/-- One step of the driver with the given patterns: a pattern applies, or an operator without users is removed. -/
inductive Rw (ps : List Pattern) : Network → Network → Prop where
  | apply (P : Pattern) (inputs : List Ty) (pre : List Node) (n : Node) (post : List Node) (outs : List Nat) (ns : List Node) (r : Nat) :
      P ∈ ps → P inputs pre n = some (ns, r) → Rw ps ⟨inputs, pre ++ n :: post, outs⟩ (splice inputs pre ns post outs r)
  | dead (inputs : List Ty) (pre : List Node) (n : Node) (post : List Node) (outs : List Nat) :
      (∀ n' ∈ post, inputs.length + pre.length ∉ n'.args) → inputs.length + pre.length ∉ outs →
      Rw ps ⟨inputs, pre ++ n :: post, outs⟩ (splice inputs pre [] post outs 0)

/-- `FoldTransposeWCHToInput` (OptimizeTranspose.cpp 125-170): the transposed argument `i` of the function is replaced by an argument of the
transposed type, if the transpose is its only user. -/
inductive FoldInput : Network → Nat → Network → Prop where
  | fold (inputs : List Ty) (pre : List Node) (i : Nat) (ty : Ty) (post : List Node) (outs : List Nat) :
      i < inputs.length → (∀ n ∈ pre ++ post, i ∉ n.args) → i ∉ outs →
      FoldInput ⟨inputs, pre ++ ⟨.transpose [0, 2, 3, 1], [i], ty⟩ :: post, outs⟩ i (splice (inputs.set i ty) pre [] post outs i)

end Verif.Net
