import Verif.Net.QModel
import Verif.Weights.Props
/-!
C94: a compiled network whose large constants live in the weights file.

After lowering, the constants to be kept out of the model are chosen (`ApplyLoadConstantOpPatterns`), their bytes go to the weights file and
their uses become results of `xc.ld_weights` operators (`WriteWeights`, Verif.Weights.Model); the constants themselves are dead and
disappear.  The function with the loads in it is the one that is planned and run.

Simplifications: the file is the flash file (the array for the tile server and the one for external memory hold the same bytes, C26); values
are named symbolically until the end, when they are numbered in block order.
-/
namespace Verif.Net
open Verif.Tensor Verif.Move Verif.MemPlan

/-- Size in bits of the constant at position `p`; 0 for all other operators, which are not matched by the patterns
(xformer/Transforms/ApplyLoadConstantOpPatterns.cpp 38-45). -/
def constBits (ops : List DOp) (p : Nat) : Nat :=
  match ops[p]? with
  | some ⟨.const _, _, ty⟩ => ty.size * 8
  | _ => 0

/-- Options: `maxLoadExternalSizeOption`, `loadExternallyIfLargerOption`, `weightsInExternalMemory`, and the value of the static counter
`totalSize_` before the pass (ApplyLoadConstantOpPatterns.cpp 32-35). -/
structure WCfg where
  maxSize : Nat
  ifLarger : Nat
  external : Bool
  total : Nat

/-- Positions of the constants for which the patterns are tried with success; `calls` is the sequence of tries
(LoadConstantOpPatterns.td 19-30). -/
def selected (cfg : WCfg) (ops : List DOp) (calls : List Nat) : List Nat :=
  ((calls.zip (Weights.loadCalls cfg.maxSize cfg.ifLarger cfg.total (calls.map (constBits ops)))).filter (·.2.2)).map (·.1)

/-- The function after lowering, with the choices of the rewrite driver and how the constants are stored (splat or not). -/
structure WFun where
  cfg : WCfg
  inputs : List Ty
  ops : List DOp
  outs : List Nat
  calls : List Nat
  order : List Nat
  consts : Nat → Weights.Const

/-- Positions of the loaded constants. -/
def WFun.sel (W : WFun) : List Nat := selected W.cfg W.ops W.calls

/-- Operands of every operator; the last one is the return. -/
def WFun.operands (W : WFun) : List (List Nat) := W.ops.map (·.args) ++ [W.outs]

/-- An operand as `WriteWeights` sees it: all uses of a chosen constant are uses of its `xc.ld_constant` (LoadConstantOpPatterns.td 19-30). -/
def WFun.operand (W : WFun) (v : Nat) : Weights.Operand :=
  if W.inputs.length ≤ v ∧ v - W.inputs.length ∈ W.sel then .load (v - W.inputs.length) else .other

/-- The state after `WriteWeights` (xformer/Transforms/WriteWeights.cpp 141-167). -/
def WFun.st (W : WFun) : Weights.St := Weights.run W.cfg.external W.consts (W.operands.map fun l => l.map W.operand) W.order

/-- The weights file (WriteWeights.cpp 159-161, xformer/Utils/FileIO.cpp 79-87). -/
def WFun.file (W : WFun) : List Weights.Byte := Weights.flashFile W.st.blobs

/-- A value of the new function: a value of the old one, or result `i` of the `c`-th `xc.ld_weights`. -/
inductive Ref where
  | val (v : Nat)
  | ld (c i : Nat)
  deriving DecidableEq, Repr

/-- The operand of the new function in place of operand `v` of the operator at `p` with index `i`.  In Verif.Weights.Model a load is known by
its address and sizes, which tell loads of non-empty constants apart (C25). -/
def WFun.ref (W : WFun) (p i v : Nat) : Ref :=
  match Weights.at_ W.st.ops p i with
  | .weights a s j => .ld (W.st.created.findIdx fun c => c.address == a && c.sizes == s) j
  | _ => .val v

/-- Operands of the operator at `p` in the new function. -/
def WFun.refs (W : WFun) (p : Nat) : List Ref := (W.operands.getD p []).zipIdx.map fun x => W.ref p x.2 x.1

/-- An operator of the new function: an old one or a load. -/
inductive Item where
  | op (p : Nat)
  | load (c : Nat)
  deriving DecidableEq, Repr

/-- Loads are moved right before their owner, one after the other (`moveBefore`, WriteWeights.cpp 102, 130); chosen constants are dead. -/
def WFun.block (W : WFun) (p : Nat) : List Item :=
  ((List.range W.st.created.length).filter fun c => (W.st.created.map (·.before)).getD c 0 == p).map .load ++ if p ∈ W.sel then [] else [.op p]

/-- The new function, in block order. -/
def WFun.items (W : WFun) : List Item := (List.range (W.ops.length + 1)).flatMap W.block

/-- Sizes of the results of a load. -/
def WFun.sizes (W : WFun) (c : Nat) : List Nat := (W.st.created.map (·.sizes)).getD c []

/-- Results of an operator. -/
def WFun.results (W : WFun) : Item → List Ref
  | .op p => if p < W.ops.length then [.val (W.inputs.length + p)] else []
  | .load c => (List.range (W.sizes c).length).map (.ld c)

/-- All values in block order. -/
def WFun.names (W : WFun) : List Ref := (List.range W.inputs.length).map .val ++ W.items.flatMap W.results

/-- Number of a value. -/
def WFun.num (W : WFun) (r : Ref) : Nat := W.names.idxOf r

/-- An operator as the memory planner sees it; `xc.ld_weights` is not `MemoryOverlappable` (xformer/IR/XCoreOps.td 495-506). -/
def WFun.planned (W : WFun) : Item → Op
  | .op p =>
    match W.ops[p]? with
    | some d => ⟨d.kind.isConst, false, d.kind.inPlace, (W.refs p).map W.num, [d.ty.size]⟩
    | none => ⟨false, true, false, (W.refs p).map W.num, []⟩
  | .load c => ⟨false, false, false, [], W.sizes c⟩

/-- The function that is planned. -/
def WFun.func (W : WFun) : Func := ⟨W.inputs.map Ty.size, W.items.map W.planned⟩

/-- What result `i` of load `c` gets: the bytes of the file that follow those of the results before it. -/
def WFun.loaded (W : WFun) (file : List Weights.Byte) (c i : Nat) : List Byte :=
  fit ((W.sizes c).getD i 0) ((Weights.readWeights file ((W.st.created.map (·.address)).getD c 0) (W.sizes c) i).map UInt8.ofInt)

/-- The kernels: those of the operators as before, and the loads from the file. -/
def WFun.kernels (W : WFun) (sem : Sem) (file : List Weights.Byte) : Kernels := fun j ins =>
  match W.items[j]? with
  | some (.op p) => devKernels sem W.ops p ins
  | some (.load c) => (List.range (W.sizes c).length).map (W.loaded file c)
  | none => []

/-- `consts` are the bytes of the constants. -/
def WFun.Stored (W : WFun) : Prop :=
  ∀ p data args ty, W.ops[p]? = some ⟨.const data, args, ty⟩ → (Weights.constBytes (W.consts p)).map UInt8.ofInt = fit ty.size data

/-- The network's compiled function with its constants moved to the weights file. -/
def Network.withWeights (skip : Nat → Bool) (N : Network) (cfg : WCfg) (calls order : List Nat) (consts : Nat → Weights.Const) : WFun :=
  ⟨cfg, N.inputs, (N.compile skip).1.ops, N.outDev skip, calls, order, consts⟩

end Verif.Net
