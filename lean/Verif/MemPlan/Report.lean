import Verif.MemPlan.Tight

/-!
C108: the memory analysis report, `MemoryPlan::printMemoryPlan` (xformer/Analysis/MemoryPlan.cpp 338-424), which
`xformer` prints after planning without overlap when memory analysis is enabled (xformer/XCoreOptMain.cpp 208-221).

This file is the model.  The theorems are in `ReportProps.lean`.
-/
namespace Verif.MemPlan

/-- `MemoryPlan::getOrdinalCharacter` (MemoryPlan.cpp 338-347). -/
def getOrdinalCharacter (i : Nat) : Char :=
  if i < 10 then Char.ofNat (48 + i)
  else if i < 36 then Char.ofNat (97 + (i - 10))
  else if i < 62 then Char.ofNat (65 + (i - 36))
  else '*'

/-- `kLineWidth` (MemoryPlan.cpp 366). -/
def kLineWidth : Nat := 60

/-- A signed 32-bit `int` computation: `none` is the undefined behaviour of an overflow. -/
def int32 (x : Int) : Option Int := if -2147483648 ≤ x ∧ x < 2147483648 then some x else none

/-- `nonConstantAllocatedValues` and `nonConstantOffsets` after `getAllocatedOffsets` (MemoryPlan.cpp 308-316): the
entries of the plan in id order, without the constants.  (The offsets of the plan are in id order, one per value.) -/
def nonConstantEntries (f : Func) (p : Plan) : Alloc :=
  ((List.range f.numValues).filter fun v => !(f.vinfo v).isConst).map fun v => (v, offsetOf p.offsets v)

/-- The vector `operations` (MemoryPlan.cpp 57-61): the block positions of the non-constant operations. -/
def Func.operations (f : Func) : List Nat :=
  (List.range f.ops.length).filter fun j => !(f.op j).isConst

/-- The loop computing `max_size` (MemoryPlan.cpp 367, 369-376). -/
def reportMaxSize (vi : VMap) (l : Alloc) : Int :=
  l.foldl (fun m e => if e.2 + (vi e.1).size > m then e.2 + (vi e.1).size else m) (kLineWidth : Int)

/-- The loop computing `max_time` (MemoryPlan.cpp 368-379). -/
def reportMaxTime (vi : VMap) (l : Alloc) : Nat :=
  l.foldl (fun m e => if (vi e.1).last > m then (vi e.1).last else m) 0

/-- The inner loop `for (n = line_start; n < line_end; ++n)` (MemoryPlan.cpp 406-412): `k` iterations left.  `none`: an
access outside the 60 columns. -/
def fillLine (c : Char) : Nat → Nat → List Char → Option (List Char)
  | 0, _, line => some line
  | k + 1, n, line =>
      match line[n]? with
      | none => none
      | some x => fillLine c k (n + 1) (line.set n (if x = '.' then c else '!'))

/-- The local variables of one line of the report (MemoryPlan.cpp 381-388). -/
structure LineState where
  line : List Char
  memoryUse : Int
  peakSize : Int
deriving Repr, DecidableEq

/-- The body of the loop over the values (MemoryPlan.cpp 389-412) for the `i`-th value `e` at time `t`. -/
def lineStep (vi : VMap) (maxSize : Int) (t i : Nat) (e : Nat × Int) (s : LineState) : Option LineState :=
  if t < (vi e.1).first ∨ t > (vi e.1).last then some s
  else if e.2 = -1 then some s
  else do
    let stop ← int32 (e.2 + (vi e.1).size)
    let use ← int32 (s.memoryUse + (vi e.1).size)
    let a ← int32 (e.2 * (kLineWidth : Int))
    let b ← int32 (stop * (kLineWidth : Int))
    let lineStart := a.tdiv maxSize
    let lineEnd := b.tdiv maxSize
    if lineStart < 0 then none
    else do
      let line ← fillLine (getOrdinalCharacter i) (lineEnd - lineStart).toNat lineStart.toNat s.line
      some ⟨line, use, if s.peakSize < stop then stop else s.peakSize⟩

/-- The loop over the values (MemoryPlan.cpp 389-413), from the `i`-th on. -/
def lineLoop (vi : VMap) (maxSize : Int) (t : Nat) : Nat → Alloc → LineState → Option LineState
  | _, [], s => some s
  | i, e :: l, s => (lineStep vi maxSize t i e s).bind (lineLoop vi maxSize t (i + 1) l)

/-- A line of the report (MemoryPlan.cpp 416-421): the operation (by its block position; the code prints its name), its
number, the 60 columns and the two figures in kB. -/
structure ReportRow where
  op : Nat
  time : Nat
  line : List Char
  useK : Int
  peakK : Int
deriving Repr, DecidableEq

/-- One iteration of the outer loop (MemoryPlan.cpp 382-422).  `none`: undefined behaviour (`operations[t]` out of range,
a write outside the line, an `int` overflow). -/
def reportRow (f : Func) (l : Alloc) (maxSize : Int) (t : Nat) : Option ReportRow := do
  let s ← lineLoop f.vinfo maxSize t 0 l ⟨List.replicate kLineWidth '.', 0, 0⟩
  let o ← f.operations[t]?
  let u ← int32 (s.memoryUse + 1023)
  let k ← int32 (s.peakSize + 1023)
  some ⟨o, t, s.line, u.tdiv 1024, k.tdiv 1024⟩

/-- `MemoryPlan::printMemoryPlan` (MemoryPlan.cpp 349-424) after `getAllocatedOffsets` returned `p` for `f`. -/
def printMemoryPlan (f : Func) (p : Plan) : Option (List ReportRow) :=
  let l := nonConstantEntries f p
  (List.range (reportMaxTime f.vinfo l + 1)).mapM (reportRow f l (reportMaxSize f.vinfo l))

/-! ### Specification -/

/-- The `t`-th operation that runs is the one at block position `j`. -/
def Func.OpAt (f : Func) (t j : Nat) : Prop :=
  j < f.ops.length ∧ (f.op j).isConst = false ∧
    ((List.range j).filter fun i => !(f.op i).isConst).length = t

/-- Arena tensor `v` is in memory while the `t`-th operation runs: it is live there, or it is an input and nothing has run
yet. -/
def Func.InUse (f : Func) (v t : Nat) : Prop :=
  f.Arena v ∧ ((f.IsArg v ∧ t = 0) ∨ ∃ j, f.OpAt t j ∧ f.LiveAt v j)

/-- Column `n` of a 60-column picture of an arena of `size` bytes shows the tensor at `[off, off + len)`: the right-hand
end of the column, `(n+1)/60` of the arena, is inside the tensor. -/
def ShownAt (size off len : Int) (n : Nat) : Prop :=
  off * 60 < (n + 1) * size ∧ (n + 1) * size ≤ (off + len) * 60

/-- The number of arena tensors before `v`. -/
def Func.arenaRank (f : Func) (v : Nat) : Nat :=
  ((List.range v).filter fun w => !(f.decl w).isConst).length

/-- The meaning of one line of the report for the plan `offs` in an arena picture of `size` bytes. -/
structure RowSpec (f : Func) (offs : List Int) (size : Int) (r : ReportRow) : Prop where
  /-- it names the operation with that number -/
  op : f.OpAt r.time r.op
  /-- it has 60 columns -/
  width : r.line.length = 60
  /-- a column inside a tensor in use shows that tensor's letter -/
  shown : ∀ n, n < 60 → ∀ v, f.InUse v r.time → ShownAt size (offsetOf offs v) (roundUp8 (f.raw v)) n →
    r.line[n]? = some (getOrdinalCharacter (f.arenaRank v))
  /-- other columns are blank -/
  blank : ∀ n, n < 60 →
    (∀ v, f.InUse v r.time → ¬ ShownAt size (offsetOf offs v) (roundUp8 (f.raw v)) n) → r.line[n]? = some '.'
  /-- the first figure is the total size of the tensors in use, in kB rounded up -/
  use : ∃ S : Finset Nat, (∀ v, v ∈ S ↔ f.InUse v r.time) ∧
    r.useK = (∑ v ∈ S, (roundUp8 (f.raw v) : Int) + 1023) / 1024
  /-- the second is the end of the highest of them -/
  peak : ∃ k : Int, r.peakK = (k + 1023) / 1024 ∧
    (∀ v, f.InUse v r.time → offsetOf offs v + roundUp8 (f.raw v) ≤ k) ∧
    (k = 0 ∨ ∃ v, f.InUse v r.time ∧ offsetOf offs v + roundUp8 (f.raw v) = k)
  /-- and is never smaller than the first -/
  le : r.useK ≤ r.peakK

end Verif.MemPlan
