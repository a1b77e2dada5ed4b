import Verif.Net.Whole
/-!
C107: reshapes that vanish, and the other clean-up of the compiled function.

The last patterns of `ApplyXCPatterns` fuse reshapes with the convolutions before and after them (xformer/Transforms/XCPatterns.td 191-206),
and the canonicaliser runs twice (xformer/Transforms/Passes.cpp 40-41, 62-63, "which includes combining Reshapes").  These rewrites take a
compiled function (the result of `Network.compile`) to another one, before constants move to the weights file and the arena is planned.

The canonicaliser is MLIR's; what it does is modelled as far as it concerns this pipeline: chains of reshapes, reshapes to the same type,
data movement of constants, unused operators, and the places of operators (constants move to the start of the function).  Its second run comes
after the weights have been written; here it comes before, when the constants that it does not touch are still in the function.
-/
namespace Verif.Net
open Verif.Tensor Verif.Move Verif.MemPlan

/-- A compiled function before weights are moved. -/
structure DFun where
  inputs : List Ty
  ops : List DOp
  outs : List Nat

/-- The compiled function of a network. -/
def Network.compiled (skip : Nat → Bool) (N : Network) : DFun := ⟨N.inputs, (N.compile skip).1.ops, N.outDev skip⟩

/-- The same operator with other operands. -/
def DOp.mapArgs (f : Nat → Nat) (d : DOp) : DOp := ⟨d.kind, d.args.map f, d.ty⟩

/-- Uses of `v` become uses of `a`. -/
def redirect (v a u : Nat) : Nat := if u = v then a else u

/-- Numbers of the values after value `p` has been removed. -/
def without (p u : Nat) : Nat := if p < u then u - 1 else u

/-- Numbers of the values after the operators with results `p` and `p + 1` have changed places. -/
def swapped (p u : Nat) : Nat := if u = p then p + 1 else if u = p + 1 then p else u

/-- Operators whose result on constants is computed at compile time: data movement. -/
def Kind.folds : Kind → Bool
  | .slice _ _ => true
  | .strided _ _ _ _ _ => true
  | .pad _ _ _ => true
  | .broadcast => true
  | .concat _ => true
  | .reshape => true
  | .transpose _ => true
  | _ => false

/-- Type of value `v`. -/
def DFun.tyOf (inputs : List Ty) (ops : List DOp) (v : Nat) : Ty := (inputs ++ ops.map (·.ty)).getD v ⟨[], 0⟩

/-- One rewrite of the compiled function; `conv k` says that the operator `.other false k` is an `xc.conv2d_v2`.  The new operator always
stands where the matched one was; operators that lose their uses stay until they are removed. -/
inductive DRw (conv : Nat → Prop) : DFun → DFun → Prop
  /-- `XC_Conv2DV2(Reshape(a), …)` becomes `XC_Conv2DV2(a, …)` (XCPatterns.td 191-198). -/
  | fuseIn {inputs pre post outs k t ts v as ty t' a rt} : conv k → inputs.length ≤ v → pre[v - inputs.length]? = some ⟨.tfl .reshape [t'], [a], rt⟩ →
      DRw conv ⟨inputs, pre ++ ⟨.tfl (.other false k) (t :: ts), v :: as, ty⟩ :: post, outs⟩
        ⟨inputs, pre ++ ⟨.tfl (.other false k) (t' :: ts), a :: as, ty⟩ :: post, outs⟩
  /-- `Reshape(XC_Conv2DV2(…))` becomes `XC_Conv2DV2(…)` with the result type of the reshape (XCPatterns.td 200-206). -/
  | fuseOut {inputs pre post outs k ts as t v ty ct} : conv k → inputs.length ≤ v → pre[v - inputs.length]? = some ⟨.tfl (.other false k) ts, as, ct⟩ →
      DRw conv ⟨inputs, pre ++ ⟨.tfl .reshape [t], [v], ty⟩ :: post, outs⟩ ⟨inputs, pre ++ ⟨.tfl (.other false k) ts, as, ty⟩ :: post, outs⟩
  /-- `Reshape(Reshape(a))` becomes `Reshape(a)` (Passes.cpp 40-41, 62-63). -/
  | combine {inputs pre post outs t t' v a ty rt} : inputs.length ≤ v → pre[v - inputs.length]? = some ⟨.tfl .reshape [t'], [a], rt⟩ →
      DRw conv ⟨inputs, pre ++ ⟨.tfl .reshape [t], [v], ty⟩ :: post, outs⟩ ⟨inputs, pre ++ ⟨.tfl .reshape [t'], [a], ty⟩ :: post, outs⟩
  /-- A reshape to the type of its operand is replaced by its operand; there is a use to replace. -/
  | same {inputs pre post outs t a ty} : DFun.tyOf inputs pre a = ty →
      ((∃ d ∈ post, inputs.length + pre.length ∈ d.args) ∨ inputs.length + pre.length ∈ outs) →
      DRw conv ⟨inputs, pre ++ ⟨.tfl .reshape [t], [a], ty⟩ :: post, outs⟩
        ⟨inputs, pre ++ ⟨.tfl .reshape [t], [a], ty⟩ :: post.map (DOp.mapArgs (redirect (inputs.length + pre.length) a)),
          outs.map (redirect (inputs.length + pre.length) a)⟩
  /-- Data movement of constants happens at compile time; `data` are their bytes. -/
  | fold {inputs pre post outs k tys as ty data} : k.folds = true →
      List.Forall₂ (fun a x => inputs.length ≤ a ∧ ∃ data args t, pre[a - inputs.length]? = some ⟨.const data, args, t⟩ ∧ x = fit t.size data) as data →
      DRw conv ⟨inputs, pre ++ ⟨.tfl k tys, as, ty⟩ :: post, outs⟩
        ⟨inputs, pre ++ ⟨.const (eval (fun _ _ => []) k ty (tys.zip data)), [], ty⟩ :: post, outs⟩
  /-- An operator whose result is not used is removed. -/
  | erase {inputs pre d post outs} : (∀ e ∈ post, inputs.length + pre.length ∉ e.args) → inputs.length + pre.length ∉ outs →
      DRw conv ⟨inputs, pre ++ d :: post, outs⟩
        ⟨inputs, pre ++ post.map (DOp.mapArgs (without (inputs.length + pre.length))), outs.map (without (inputs.length + pre.length))⟩

/-- Two neighbours change places; the second does not use the first. -/
inductive DSwap : DFun → DFun → Prop
  | swap {inputs pre d e post outs} : inputs.length + pre.length ∉ e.args →
      DSwap ⟨inputs, pre ++ d :: e :: post, outs⟩
        ⟨inputs, pre ++ e :: d :: post.map (DOp.mapArgs (swapped (inputs.length + pre.length))), outs.map (swapped (inputs.length + pre.length))⟩

/-- Any number of rewrites and moves. -/
def Cleaned (conv : Nat → Prop) : DFun → DFun → Prop := Relation.ReflTransGen fun F G => DRw conv F G ∨ DSwap F G

/-- The cleaned-up function with its constants moved to the weights file (C94). -/
def DFun.withWeights (F : DFun) (cfg : WCfg) (calls order : List Nat) (consts : Nat → Weights.Const) : WFun :=
  ⟨cfg, F.inputs, F.ops, F.outs, calls, order, consts⟩

/-- What the function returns when every value has its own memory: the kernels one after another (Verif.Net.Run). -/
def DFun.result (sem : Sem) (F : DFun) (inputs : List (List Byte)) : List (List Byte) :=
  F.outs.map fun v => (runOps sem F.ops inputs).getD v []

end Verif.Net
