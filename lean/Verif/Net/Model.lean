import Verif.Move.Concat
import Verif.MemPlan.Props
import Verif.XC.Patterns
import Verif.Transpose.Model
/-!
C83: a whole network, from the TensorFlow Lite graph to its run in the planned arena.

The data-movement operators (slice, strided slice, pad, broadcast, concatenation, reshape) are compiled as the passes do; transposes,
element-wise operators and any other operator are left as it is, with an arbitrary meaning.  The compiled function is planned (`planMemory`) and executed in one arena.

Simplifications: the constants that hold begins, sizes, paddings and shapes are attributes here; folding of operators on constants and
removal of unused operators come later (Verif.Net.Fuse); every operator has one result.
-/
namespace Verif.Net
open Verif.Tensor Verif.Move Verif.MemPlan

/-! ### The source network -/

/-- A ranked tensor type with static shape; `d` is `getTypeSize` of the element type (xformer/Utils/Util.cpp 12-23). -/
structure Ty where
  shape : List Nat
  d : Nat
  deriving DecidableEq, Repr

/-- `getShapedTypeSize` (xformer/Utils/Util.cpp 25-35). -/
def Ty.size (t : Ty) : Nat := t.shape.prod * t.d

/-- Operators.  `pad q8 zp`: whether the type is quantised with 8 bits, and its zero point (0 for types that are not quantised).
`strided`: unit strides, no ellipsis or new-axis mask (others count as `other`).  `elementwise k`: an operator on single elements of one
operand that is left to TensorFlow Lite (quantise).  `other inPlace k`: any other operator; `inPlace` is
the trait `MemoryOverlappable` (xformer/IR/XCoreOps.td 49). -/
inductive Kind where
  | const (data : List Byte)
  | slice (begin_ size : List Nat)
  | strided (begin_ end_ : List Int) (bm em sm : Nat)
  | pad (q8 : Bool) (zp : Int) (paddings : List Nat)
  | broadcast
  | concat (axis : Int)
  | reshape
  | transpose (perm : List Nat)
  | elementwise (k : Nat)
  | other (inPlace : Bool) (k : Nat)
  deriving DecidableEq, Repr

/-- An operator: its operands are the values with the given numbers (inputs first, then the results in order). -/
structure Node where
  kind : Kind
  args : List Nat
  ty : Ty
  deriving DecidableEq, Repr

structure Network where
  inputs : List Ty
  nodes : List Node
  outputs : List Nat
  deriving DecidableEq, Repr

/-! ### The compiled function -/

/-- Operators of the compiled function: constants, xcore operators, and TensorFlow Lite operators that stay. -/
inductive DKind where
  | const (data : List Byte)
  | xcSlice (p : SliceParams)
  | xcPad (p : PadParams)
  | xcPad34 (v : BitVec 32)
  | xcBroadcast (p : BroadcastParams)
  | xcConcat (p : ConcatParams)
  | tfl (k : Kind) (argTys : List Ty)

structure DOp where
  kind : DKind
  args : List Nat
  ty : Ty

/-- A source value during compilation: its type and the value of the compiled function that holds it. -/
structure Val where
  ty : Ty
  dev : Nat

/-- What has been emitted so far; `n0` is the number of function arguments. -/
structure Out where
  n0 : Nat
  ops : List DOp

/-- Append an operator; its result gets the next number. -/
def Out.emit (o : Out) (d : DOp) : Out × Nat := (⟨o.n0, o.ops ++ [d]⟩, o.n0 + o.ops.length)

def dummy : Val := ⟨⟨[], 0⟩, 0⟩

/-- ReplaceSlice.cpp 37-114: a slice that selects everything is replaced by its operand (48-51), a slice of a constant is left alone
(55-58).  Which operands count as constants depends on the order of the passes; here and below `skip` says that the operator is left
alone, and C83 holds for every choice. -/
def compileSlice (skip : Bool) (o : Out) (a : Val) (ty : Ty) (begin_ size : List Nat) : Out × Nat :=
  match lowerSlice a.ty.d (zipAxes a.ty.shape ty.shape begin_ size) with
  | .noop => (o, a.dev)
  | .op p => if skip then o.emit ⟨.tfl (.slice begin_ size) [a.ty], [a.dev], ty⟩ else o.emit ⟨.xcSlice p, [a.dev], ty⟩
  | _ => o.emit ⟨.tfl (.slice begin_ size) [a.ty], [a.dev], ty⟩

/-- ReplacePad.cpp 40-128, then the pattern for three to four channels (XCPatterns.td 154-163) for pads that are still there. -/
def compilePad (skip : Bool) (o : Out) (a : Val) (ty : Ty) (q8 : Bool) (zp : Int) (paddings : List Nat) : Out × Nat :=
  let rest := match (if q8 then XC.pad3To4 a.ty.shape ty.shape paddings zp else none) with
    | some v => o.emit ⟨.xcPad34 v, [a.dev], ty⟩
    | none => o.emit ⟨.tfl (.pad q8 zp paddings) [a.ty], [a.dev], ty⟩
  match lowerPad a.ty.d zp a.ty.shape ty.shape paddings with
  | .noop => (o, a.dev)
  | .op p => if skip then rest else o.emit ⟨.xcPad p, [a.dev], ty⟩
  | _ => rest

/-- ReplaceBroadcast.cpp 37-120. -/
def compileBroadcast (skip : Bool) (o : Out) (a : Val) (ty : Ty) : Out × Nat :=
  match lowerBroadcast a.ty.d a.ty.shape ty.shape with
  | .noop => (o, a.dev)
  | .op p => if skip then o.emit ⟨.tfl .broadcast [a.ty], [a.dev], ty⟩ else o.emit ⟨.xcBroadcast p, [a.dev], ty⟩
  | _ => o.emit ⟨.tfl .broadcast [a.ty], [a.dev], ty⟩

/-- One concatenation with at most 13 operands (ReplaceConcat.cpp 106-158). -/
def emitConcat (o : Out) (as : List Val) (ty : Ty) (axis : Int) : Out × Nat :=
  match lowerConcat ty.d (as.map (·.ty.shape)) ty.shape axis with
  | .op p => o.emit ⟨.xcConcat p, as.map (·.dev), ty⟩
  | _ => o.emit ⟨.tfl (.concat axis) (as.map (·.ty)), as.map (·.dev), ty⟩

/-- Wide concatenations are split first (ReplaceConcat.cpp 50-103): the first 13 operands are concatenated, the result becomes the first
operand of the rest. -/
def compileConcat (o : Out) (as : List Val) (ty : Ty) (axis : Int) : Out × Nat :=
  if as.length ≤ concatMax then emitConcat o as ty axis
  else
    let ax := (splitConcatAxis ty.shape.length axis).toNat
    let first := as.take concatMax
    let fty : Ty := ⟨splitShape ty.shape (splitConcatAxis ty.shape.length axis) (first.map fun a => a.ty.shape.getD ax 0).sum, ty.d⟩
    let r := emitConcat o first fty axis
    compileConcat r.1 (⟨fty, r.2⟩ :: as.drop concatMax) ty axis
termination_by as.length
decreasing_by
  simp only [List.length_cons, List.length_drop, concatMax] at *
  omega

/-- ReplaceStridedSlice.cpp 48-145: a slice, and a reshape if an axis is dropped; the slice is lowered later (ReplaceSlice.cpp). -/
def compileStrided (skip : Bool) (o : Out) (a : Val) (ty : Ty) (b e : List Int) (bm em sm : Nat) : Out × Nat :=
  match lowerStrided (a.ty.shape.map fun (n : Nat) => (n : Int)) b e (a.ty.shape.map fun _ => 1) bm em sm 0 0 with
  | some (slices, final) =>
    let begin_ := slices.map (·.1.toNat)
    let size := slices.map (·.2.toNat)
    let sty : Ty := ⟨size, a.ty.d⟩
    let r := compileSlice skip o a sty begin_ size
    if sm = 0 then r else r.1.emit ⟨.tfl .reshape [sty], [r.2], ⟨final.map (·.toNat), a.ty.d⟩⟩
  | none => o.emit ⟨.tfl (.strided b e bm em sm) [a.ty], [a.dev], ty⟩

/-- One operator. -/
def compileNode (skip : Bool) (o : Out) (vals : List Val) (n : Node) : Out × Nat :=
  let as := n.args.map fun v => vals.getD v dummy
  let a := as.getD 0 dummy
  match n.kind with
  | .const data => o.emit ⟨.const data, [], n.ty⟩
  | .slice b s => compileSlice skip o a n.ty b s
  | .strided b e bm em sm => compileStrided skip o a n.ty b e bm em sm
  | .pad q8 zp p => compilePad skip o a n.ty q8 zp p
  | .broadcast => compileBroadcast skip o a n.ty
  | .concat axis => compileConcat o as n.ty axis
  | .reshape => o.emit ⟨.tfl .reshape (as.map (·.ty)), as.map (·.dev), n.ty⟩
  | .transpose perm => o.emit ⟨.tfl (.transpose perm) (as.map (·.ty)), as.map (·.dev), n.ty⟩
  | .elementwise k => o.emit ⟨.tfl (.elementwise k) (as.map (·.ty)), as.map (·.dev), n.ty⟩
  | .other ip k => o.emit ⟨.tfl (.other ip k) (as.map (·.ty)), as.map (·.dev), n.ty⟩

def Kind.isConst : Kind → Bool
  | .const _ => true
  | _ => false

/-- The operators in order; `skip` is about the value with the given number. -/
def compileNodes (skip : Nat → Bool) : List Node → Out → List Val → Out × List Val
  | [], o, vals => (o, vals)
  | n :: ns, o, vals =>
    let r := compileNode (skip vals.length) o vals n
    compileNodes skip ns r.1 (vals ++ [⟨n.ty, r.2⟩])

/-- The values that stand for the function arguments. -/
def argVals (inputs : List Ty) : List Val := inputs.zipIdx.map fun x => ⟨x.1, x.2⟩

def Network.compile (skip : Nat → Bool) (N : Network) : Out × List Val := compileNodes skip N.nodes ⟨N.inputs.length, []⟩ (argVals N.inputs)

/-- The trait `MemoryOverlappable` (xformer/IR/XCoreOps.td 126, 464; 165-455 for other operators). -/
def DKind.inPlace : DKind → Bool
  | .xcPad _ => true
  | .xcPad34 _ => true
  | .tfl (.other ip _) _ => ip
  | _ => false

def DKind.isConst : DKind → Bool
  | .const _ => true
  | _ => false

/-- The compiled function as the memory planner sees it, with the return at the end. -/
def toFunc (inputs : List Ty) (ops : List DOp) (outs : List Nat) : Func :=
  { argSizes := inputs.map Ty.size
    ops := ops.map (fun o => ⟨o.kind.isConst, false, o.kind.inPlace, o.args, [o.ty.size]⟩) ++ [⟨false, true, false, outs, []⟩] }

def Network.outDev (skip : Nat → Bool) (N : Network) : List Nat := N.outputs.map fun v => ((N.compile skip).2.getD v dummy).dev

def Network.func (skip : Nat → Bool) (N : Network) : Func := toFunc N.inputs (N.compile skip).1.ops (N.outDev skip)

/-! ### What operators compute -/

/-- A tensor: the bytes of every element. -/
abbrev T := List Nat → List Byte

/-- Exactly `d` bytes. -/
def fit (d : Nat) (l : List Byte) : List Byte := (l ++ List.replicate d 0).take d

/-- Row-major bytes. -/
def bytesOf (t : Ty) (f : T) : List Byte := (flat t.shape f).flatten

/-- The tensor stored in row-major bytes. -/
def elemAt (t : Ty) (data : List Byte) : T := fun idx => fit t.d ((data.drop (ravel t.shape idx * t.d)).take t.d)

/-- Position in the input of an element of a strided slice; `i` is the number of the first axis of the lists. -/
def stridedIdx (bm em sm : Nat) : Nat → List Nat → List Int → List Int → List Nat → List Nat
  | i, n :: ns, b :: bs, e :: es, idx =>
    let lo := (tfRange (bm.testBit i) (em.testBit i) (sm.testBit i) n b e).1.toNat
    if sm.testBit i then lo :: stridedIdx bm em sm (i + 1) ns bs es idx
    else (lo + idx.headD 0) :: stridedIdx bm em sm (i + 1) ns bs es idx.tail
  | _, _, _, _, _ => []

/-- Meaning of the operators that the network does not know: row-major bytes of the operands to row-major bytes of the result; for
operators on elements, the bytes of an element to those of the resulting element. -/
abbrev Sem := Nat → List (List Byte) → List Byte

/-- TensorFlow's meaning of an operator with result type `ty` on the given operands. -/
def denote (sem : Sem) (k : Kind) (ty : Ty) (args : List (Ty × T)) : T :=
  let a := args.getD 0 (⟨[], 0⟩, fun _ => [])
  match k with
  | .const data => elemAt ty data
  | .slice b _ => sliceT b a.2
  | .strided b e bm em sm => fun idx => a.2 (stridedIdx bm em sm 0 a.1.shape b e idx)
  | .pad _ zp p => padT (List.replicate a.1.d (UInt8.ofInt zp)) (evens p) a.1.shape a.2
  | .broadcast => broadcastT a.1.shape a.2
  | .concat axis =>
    let ax := (if axis < 0 then ty.shape.length + axis else axis).toNat
    fun idx => fit ty.d (concatT ax (args.map fun x => (x.1.shape.getD ax 0, x.2)) idx)
  | .reshape => elemAt ty (bytesOf a.1 a.2)
  | .transpose perm => Transpose.transposeT perm a.2
  | .elementwise k => fun idx => fit ty.d (sem k [a.2 idx])
  | .other _ k => elemAt ty (sem k (args.map fun x => bytesOf x.1 x.2))

/-- Row-major bytes of the result, from those of the operands. -/
def eval (sem : Sem) (k : Kind) (ty : Ty) (args : List (Ty × List Byte)) : List Byte :=
  bytesOf ty (denote sem k ty (args.map fun x => (x.1, elemAt x.1 x.2)))

/-- The values of the network, given those of its inputs. -/
def evalNodes (sem : Sem) : List Node → List (Ty × List Byte) → List (Ty × List Byte)
  | [], vs => vs
  | n :: ns, vs => evalNodes sem ns (vs ++ [(n.ty, eval sem n.kind n.ty (n.args.map fun v => vs.getD v (⟨[], 0⟩, [])))])

/-- The outputs of the network: every tensor has its own memory. -/
def Network.result (sem : Sem) (N : Network) (inputs : List (List Byte)) : List (List Byte) :=
  N.outputs.map fun v => ((evalNodes sem N.nodes (N.inputs.zip inputs)).getD v (⟨[], 0⟩, [])).2

/-- What the run-time kernels do with the bytes of their operands.  The kernels of xcore operators are those of Verif.Move.Spec and
Verif.XC.Patterns; a TensorFlow Lite operator that stays is run by TensorFlow Lite Micro's own kernel. -/
def DKind.run (sem : Sem) (k : DKind) (ty : Ty) (ins : List (List Byte)) : List Byte :=
  let m := ins.getD 0 []
  match k with
  | .const data => data
  | .xcSlice p => sliceKernel p.start p.offset p.size p.numCopies m
  | .xcPad p => padKernel (UInt8.ofNat (lane p.zeroPoint 0)) p.start p.padSize p.size p.numCopies p.end_ m
  | .xcPad34 v => XC.pad34Kernel (UInt8.ofBitVec (v.extractLsb' 0 8)) m
  | .xcBroadcast p => broadcastKernel p.size p.numCopies p.numBroadcasts m
  | .xcConcat p => concatKernel p.numCopies p.sizes ins
  | .tfl k tys => eval sem k ty (tys.zip ins)

/-- The kernels of the compiled function; a kernel fills exactly its result buffer. -/
def devKernels (sem : Sem) (ops : List DOp) : Kernels := fun j ins =>
  match ops[j]? with
  | some o => [fit o.ty.size (o.kind.run sem o.ty ins)]
  | none => []

/-! ### Well-typed networks -/

/-- Sizes along axis `pre.length` of the operands of a concatenation. -/
def ConcatFits (pre post : List Nat) (d : Nat) (as : List Ty) (ty : Ty) : Prop :=
  (∀ a ∈ as, ∃ n, a = ⟨pre ++ n :: post, d⟩) ∧ ty = ⟨pre ++ (as.map fun a => a.shape.getD pre.length 0).sum :: post, d⟩

/-- Typing rules: `as` are the operands with their constness. -/
def Kind.OK (as : List (Ty × Bool)) (ty : Ty) : Kind → Prop
  | .const data => as = [] ∧ data.length = ty.size
  | .slice b s => ∃ a c, as = [(a, c)] ∧ a.d = ty.d ∧ SliceFits a.shape ty.shape b ∧ s.length = a.shape.length ∧ ∀ n ∈ a.shape, 0 < n
  | .strided b e bm em sm => ∃ a c, as = [(a, c)] ∧ a.d = ty.d ∧ b.length = a.shape.length ∧ e.length = a.shape.length ∧ (∀ n ∈ a.shape, 0 < n) ∧
      (∀ i < a.shape.length, AxisArgsOK (bm.testBit i) (em.testBit i) (sm.testBit i) ((a.shape.getD i 0 : Nat) : Int) (b.getD i 0) (e.getD i 0)) ∧
      sm < 2 ^ a.shape.length ∧
      (ty.shape.map fun (n : Nat) => (n : Int)) = shrinkShape sm 0 ((List.range a.shape.length).map fun i =>
        (tfRange (bm.testBit i) (em.testBit i) (sm.testBit i) ((a.shape.getD i 0 : Nat) : Int) (b.getD i 0) (e.getD i 0)).2)
  | .pad q8 _ p => ∃ a c, as = [(a, c)] ∧ a.d = ty.d ∧ PadFits a.shape ty.shape (evens p) (odds p) ∧ (∀ n ∈ a.shape, 0 < n) ∧
      (q8 = true → a.d = 1 ∧ (p.length = 8 → p.getD 6 0 = 0 ∨ a.shape.getD 3 0 ≠ 3))
  | .broadcast => ∃ a c, as = [(a, c)] ∧ a.d = ty.d ∧ a.shape.length ≤ ty.shape.length
  | .concat axis => ∃ pre post, ConcatFits pre post ty.d (as.map (·.1)) ty ∧
      (axis = pre.length ∨ axis = (pre.length : Int) - (pre.length + 1 + post.length) ∧ (as.length ≤ 13 ∨ axis = -1))
  | .reshape => ∃ a c, as = [(a, c)] ∧ a.size = ty.size
  | .transpose perm => ∃ a c, as = [(a, c)] ∧ a.d = ty.d ∧ Transpose.IsPerm perm a.shape.length ∧ ty.shape = Transpose.transposeShape perm a.shape
  | .elementwise _ => ∃ a c, as = [(a, c)] ∧ a.shape = ty.shape
  | .other ip _ => ip = true → ∀ a ∈ as, a.2 = true ∨ a.1.size ≤ ty.size

/-- Every operator reads earlier values and follows its typing rule. -/
def NodesOK : List Node → List (Ty × Bool) → Prop
  | [], _ => True
  | n :: ns, vs => (∀ v ∈ n.args, v < vs.length) ∧ n.kind.OK (n.args.map fun v => vs.getD v (⟨[], 0⟩, false)) n.ty ∧
      NodesOK ns (vs ++ [(n.ty, n.kind.isConst)])

structure Network.OK (N : Network) : Prop where
  nodes : NodesOK N.nodes (N.inputs.map fun t => (t, false))
  outs : ∀ v ∈ N.outputs, v < N.inputs.length + N.nodes.length

end Verif.Net
