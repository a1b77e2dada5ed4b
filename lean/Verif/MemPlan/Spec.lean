import Verif.MemPlan.Model
/-
Specification vocabulary for the arena planner.  Nothing here refers to the planner's algorithm
(op ids, `valueInfo`, queues, chains): only to the function being compiled.
-/
namespace Verif.MemPlan

/-- `v` names a tensor of the function. -/
def Func.IsValue (f : Func) (v : Nat) : Prop := v < f.numValues

/-- `v` is a compile-time constant (stored in the model file, not in the arena). -/
def Func.Constant (f : Func) (v : Nat) : Prop := (f.decl v).isConst = true

/-- `v` is a tensor that lives in the arena. -/
def Func.Arena (f : Func) (v : Nat) : Prop := f.IsValue v ∧ (f.decl v).isConst = false

/-- `v` is a function argument. -/
def Func.IsArg (f : Func) (v : Nat) : Prop := v < f.argSizes.length

/-- `v` is a result of the operation at position `j`. -/
def Func.DefinedAt (f : Func) (v j : Nat) : Prop := (f.decl v).defPos = some j

/-- `v` is read by the operation at position `j`. -/
def Func.UsedAt (f : Func) (v j : Nat) : Prop := j < f.ops.length ∧ v ∈ (f.op j).operands

/-- `v` is live while the operation at position `p` runs: it exists by then (an argument, or the result of
an operation at or before `p`) and either it is produced right there, or it is still needed at or after `p`.
Arguments are in memory from the start, so they are live at position 0 even if unused. -/
def Func.LiveAt (f : Func) (v p : Nat) : Prop :=
  (f.IsArg v ∧ (p = 0 ∨ ∃ q, p ≤ q ∧ f.UsedAt v q)) ∨
  (∃ j, f.DefinedAt v j ∧ j ≤ p ∧ (p = j ∨ ∃ q, p ≤ q ∧ f.UsedAt v q))

/-- Two half-open byte ranges do not intersect. -/
def RangesDisjoint (o₁ s₁ o₂ s₂ : Int) : Prop := o₁ + s₁ ≤ o₂ ∨ o₂ + s₂ ≤ o₁

/-- `n` rounded up to a multiple of 8 (the alignment of tensors in the arena). -/
def roundUp8 (n : Nat) : Nat := if n % 8 = 0 then n else n + (8 - n % 8)

/-- Offset of `v` in a list of offsets. -/
def offsetOf (offs : List Int) (v : Nat) : Int := offs.getD v 0

/-- Every operation only reads arguments and results of earlier operations (SSA dominance), and constant
operations read nothing. -/
structure Func.WF (f : Func) : Prop where
  dominated : ∀ j v, f.UsedAt v j → f.IsArg v ∨ ∃ i, f.DefinedAt v i ∧ i < j
  constNoOperands : ∀ j, (f.op j).isConst = true → (f.op j).operands = []

/-- In-place operators never shrink data: the first result of an in-place operator is at least as large as
each of its operands that is itself produced by an in-place operator; and in-place operators are proper
(non-constant, non-terminator) operators with a result. -/
structure Func.InPlaceOK (f : Func) : Prop where
  proper : ∀ j, j < f.ops.length → (f.op j).overlappable = true →
    (f.op j).isConst = false ∧ (f.op j).isTerm = false ∧ (f.op j).resultSizes ≠ []
  noShrink : ∀ i j, i < f.ops.length → (f.op i).overlappable = true →
    j < f.ops.length → (f.op j).overlappable = true →
    f.UsedAt (f.result0 i) j → f.raw (f.result0 i) ≤ f.raw (f.result0 j)

/-- `w` may be computed in place of `v`: the only reader of `v` is one in-place operator, and `w` is that
operator's (first) result. -/
def Func.InPlaceStep (f : Func) (v w : Nat) : Prop :=
  ∃ j, f.UsedAt v j ∧ (f.op j).overlappable = true ∧ (∀ q, f.UsedAt v q → q = j) ∧ w = f.result0 j

/-- `w` is reached from `v` by one or more in-place steps. -/
inductive Func.InPlaceChain (f : Func) : Nat → Nat → Prop
  | single {v w} : f.InPlaceStep v w → Func.InPlaceChain f v w
  | cons {v u w} : f.InPlaceStep v u → Func.InPlaceChain f u w → Func.InPlaceChain f v w

/-! ### Two machines -/

/-- A byte. -/
abbrev Byte := UInt8

/-- Arena contents, addressed by byte offset. -/
abbrev Mem := Int → Byte

/-- Reading `n` bytes at `off`. -/
def Mem.read (m : Mem) (off : Int) : Nat → List Byte
  | 0 => []
  | n + 1 => m off :: Mem.read m (off + 1) n

/-- Writing bytes at `off`. -/
def Mem.write (m : Mem) (off : Int) : List Byte → Mem
  | [] => m
  | b :: bs => Mem.write (fun a => if a = off then b else m a) (off + 1) bs

/-- What the kernel of the operation at a position computes: operand bytes to result bytes. -/
abbrev Kernels := Nat → List (List Byte) → List (List Byte)

/-- Kernels produce as many bytes as the result types say. -/
def Kernels.Fit (f : Func) (k : Kernels) : Prop :=
  ∀ j ins, j < f.ops.length → (k j ins).map List.length = (f.op j).resultSizes

/-- Private memory per tensor. -/
abbrev Env := Nat → List Byte

/-- Store consecutive results `r, r+1, ...`. -/
def Env.setFrom (e : Env) : Nat → List (List Byte) → Env
  | _, [] => e
  | r, b :: bs => Env.setFrom (fun v => if v = r then b else e v) (r + 1) bs

/-- The reference execution: every tensor has its own memory.  Returns the operand bytes seen by each
operation from position `j` on. -/
def refTrace (f : Func) (k : Kernels) : List Op → Nat → Env → List (List (List Byte))
  | [], _, _ => []
  | o :: os, j, e =>
      let ins := o.operands.map e
      ins :: refTrace f k os (j + 1) (e.setFrom (f.result0 j) (k j ins))

/-- Write consecutive non-constant results into the arena. -/
def writeResults (offs : List Int) : Nat → List (List Byte) → Mem → Mem
  | _, [], m => m
  | r, b :: bs, m => writeResults offs (r + 1) bs (m.write (offsetOf offs r) b)

/-- Operand bytes as seen by an operation in the arena execution. -/
def arenaOperand (f : Func) (offs : List Int) (m : Mem) (c : Env) (v : Nat) : List Byte :=
  if (f.decl v).isConst then c v else m.read (offsetOf offs v) (f.raw v)

/-- The arena execution: constants are in the model file (`c`), every other tensor is only in the arena at
its planned offset.  An operation reads all its operands and then writes its results. -/
def arenaTrace (f : Func) (k : Kernels) (offs : List Int) :
    List Op → Nat → Mem → Env → List (List (List Byte))
  | [], _, _, _ => []
  | o :: os, j, m, c =>
      let ins := o.operands.map (arenaOperand f offs m c)
      let outs := k j ins
      if o.isConst || o.isTerm then
        ins :: arenaTrace f k offs os (j + 1) m (c.setFrom (f.result0 j) outs)
      else
        ins :: arenaTrace f k offs os (j + 1) (writeResults offs (f.result0 j) outs m) c

/-- The application writes the inputs into the arena before invoking the model. -/
def loadInputs (offs : List Int) (inputs : List (List Byte)) (m : Mem) : Mem :=
  writeResults offs 0 inputs m

/-- Inputs in private memory. -/
def inputEnv (inputs : List (List Byte)) : Env := fun v => inputs.getD v []

/-- Running the planned model in an arena with arbitrary initial content `m` shows every operation
(including the final return, whose operands are the outputs) the operands of the reference execution. -/
def ArenaRunsCorrectly (f : Func) (offs : List Int) : Prop :=
  ∀ (k : Kernels) (inputs : List (List Byte)) (m : Mem) (c : Env),
    Kernels.Fit f k → inputs.map List.length = f.argSizes →
    arenaTrace f k offs f.ops 0 (loadInputs offs inputs m) c
      = refTrace f k f.ops 0 (inputEnv inputs)

end Verif.MemPlan
