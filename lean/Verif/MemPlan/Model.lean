/-
Model of the tensor-arena planner:
  xformer/Analysis/MemoryPlan.cpp, xformer/Analysis/MemoryPlan.h,
  xformer/Transforms/PlanMemory.cpp.

What is simplified (all of it):
* `size_t`/`int` arithmetic is done in unbounded `Nat`/`Int` (no 2^31 overflow).
* A `Value` is represented by its id, i.e. its position in `MemoryPlan::values`
  (MemoryPlan.cpp 37-71).  Results of type `NoneType` are not values.
* The function has a single block (asserted at MemoryPlan.cpp 76-77) and no nested regions
  (PlanMemory.cpp 32-40 skips functions with control flow); `quantfork::StatisticsOp`s do not occur.
* MLIR's `Liveness`, `hasOneUse` and `getUsers` are not in /repo; they are modelled by their
  documented meaning on a single block (see `startPos`, `endPos`, `numUses`, `userOf`).
-/
namespace Verif.MemPlan

/-- One operation of the function body, in block order.
`isConst`: `NoValueOp`/`QConstOp`/`ConstOp`/`arith.ConstantOp` (MemoryPlan.cpp 51-53, 57-58);
`isTerm`: has the `IsTerminator` trait (MemoryPlan.cpp 51);
`overlappable`: has the `xcore::MemoryOverlappable` trait (MemoryPlan.cpp 165, 202; IR/XCoreOps.td 49);
`operands`: value ids; `resultSizes`: `getShapedTypeSize` (Utils/Util.cpp 25-35) of each result. -/
structure Op where
  isConst : Bool
  isTerm : Bool
  overlappable : Bool
  operands : List Nat
  resultSizes : List Nat
deriving Repr, DecidableEq

/-- A function: sizes in bytes of the arguments and the body (MemoryPlan.cpp 27-72). -/
structure Func where
  argSizes : List Nat
  ops : List Op
deriving Repr, DecidableEq

/-- Static part of an entry of `valueInfo` (MemoryPlan.cpp 38-41, 67-70): unaligned size, `isConstant`,
and the block position of the defining op (`none` for a block argument). -/
structure Decl where
  raw : Nat
  isConst : Bool
  defPos : Option Nat
deriving Repr, DecidableEq

/-- The results contributed by the op at position `j` (MemoryPlan.cpp 63-71). -/
def opDecls (j : Nat) (o : Op) : List Decl :=
  o.resultSizes.map fun s => ⟨s, o.isConst || o.isTerm, some j⟩

/-- `values` produced by the walk over the ops, from position `j` on (MemoryPlan.cpp 44-72). -/
def declsFrom : Nat → List Op → List Decl
  | _, [] => []
  | j, o :: os => opDecls j o ++ declsFrom (j + 1) os

/-- All values in id order: arguments first (MemoryPlan.cpp 37-42), then results in walk order. -/
def Func.decls (f : Func) : List Decl :=
  f.argSizes.map (fun s => ⟨s, false, none⟩) ++ declsFrom 0 f.ops

/-- The declaration of value `v` (dummy for out-of-range ids). -/
def Func.decl (f : Func) (v : Nat) : Decl := f.decls.getD v ⟨0, true, none⟩

/-- Number of values, `values.size()`. -/
def Func.numValues (f : Func) : Nat := f.decls.length

/-- The op at block position `j` (dummy constant op if out of range). -/
def Func.op (f : Func) (j : Nat) : Op := f.ops.getD j ⟨true, false, false, [], []⟩

/-- Number of non-constant ops among the first `j`: value of `operationIds.size()` when the walk
reaches position `j` (MemoryPlan.cpp 57-61). -/
def Func.cnt (f : Func) (j : Nat) : Nat := (f.ops.take j).countP fun o => !o.isConst

/-- `operationIds[op]` for the op at position `j` (MemoryPlan.cpp 59, 84-85).  Constant ops are not in
the map, so `DenseMap::operator[]` default-constructs 0 for them. -/
def Func.opId (f : Func) (j : Nat) : Nat := if (f.op j).isConst then 0 else f.cnt j

/-- `lvb->getStartOperation(v)` (MemoryPlan.cpp 83): the defining op, or the front of the block for an
argument. -/
def Func.startPos (f : Func) (v : Nat) : Nat := ((f.decl v).defPos).getD 0

/-- Scan of the users of `v`: the last position `≥ acc` of an op using `v`, starting from `acc`. -/
def endScan (v : Nat) : Nat → List Op → Nat → Nat
  | _, [], acc => acc
  | j, o :: os, acc =>
      endScan v (j + 1) os (if v ∈ o.operands ∧ acc < j then j else acc)

/-- `lvb->getEndOperation(v, startOp)` (MemoryPlan.cpp 85): the last op of the block that uses `v`, or
the start op if there is none after it. -/
def Func.endPos (f : Func) (v : Nat) : Nat := endScan v 0 f.ops (f.startPos v)

/-- `((k + 7) / 8) * 8` (MemoryPlan.cpp 33). -/
def align8 (k : Nat) : Nat := ((k + 7) / 8) * 8

/-- `MemoryPlan::ValueInfo` (MemoryPlan.h 69-75) without the id, which is the index. -/
structure VInfo where
  size : Int
  isConst : Bool
  first : Nat
  last : Nat
deriving Repr, DecidableEq

/-- `MemoryPlan::build` (MemoryPlan.cpp 22-87): the `valueInfo` map. -/
def Func.vinfo (f : Func) (v : Nat) : VInfo :=
  { size := align8 (f.decl v).raw
    isConst := (f.decl v).isConst
    first := f.opId (f.startPos v)
    last := f.opId (f.endPos v) }

/-- The analysis' `valueInfo` / `vInfo` maps. -/
abbrev VMap := Nat → VInfo

/-- Entries `(value, offset)` of the offset-ordered multiset (MemoryPlan.h 58-67). -/
abbrev Alloc := List (Nat × Int)

/-- `MemoryPlan::getOffset` (MemoryPlan.cpp 119-150), the loop over `allocatedValues` with the current
`offset` as accumulator. -/
def getOffset (vi : VMap) (v : Nat) (size : Int) : Alloc → Int → Int
  | [], offset => offset
  | (a, aOff) :: rest, offset =>
      if (vi a).first > (vi v).last ∨ (vi v).first > (vi a).last then
        getOffset vi v size rest offset
      else if aOff - offset ≥ size then offset
      else
        let e := aOff + (vi a).size
        getOffset vi v size rest (if e > offset then e else offset)

/-- `std::multiset::insert` with `IncreasingOffsetsComparator` (MemoryPlan.h 60-67): the new entry goes
after all entries with an offset that is not larger. -/
def insertByOffset (x : Nat × Int) : Alloc → Alloc
  | [] => [x]
  | y :: ys => if x.2 < y.2 then x :: y :: ys else y :: insertByOffset x ys

/-- Order of `DecreasingSizesComparator` (MemoryPlan.cpp 239-244): `a` is popped before `b`. -/
def popsBefore (vi : VMap) (a b : Nat) : Bool :=
  if (vi a).size ≠ (vi b).size then (vi b).size < (vi a).size else b < a

/-- Insertion into the list of queue items kept in pop order. -/
def insertQueue (vi : VMap) (x : Nat) : List Nat → List Nat
  | [] => [x]
  | y :: ys => if popsBefore vi x y then x :: y :: ys else y :: insertQueue vi x ys

/-- The priority queue (MemoryPlan.cpp 246-255) as the list of values in the order in which they are
popped. -/
def queueOf (vi : VMap) (vs : List Nat) : List Nat :=
  vs.foldl (fun q v => insertQueue vi v q) []

/-- The allocation loop (MemoryPlan.cpp 262-270). -/
def allocLoop (vi : VMap) : List Nat → Alloc → Alloc
  | [], al => al
  | v :: q, al =>
      allocLoop vi q (insertByOffset (v, getOffset vi v (vi v).size al 0) al)

/-- MemoryPlan.cpp 257-270: place the top of the queue at 0 and then the rest.  `none`: `queue.top()`
of an empty queue, which is undefined behaviour. -/
def allocate (vi : VMap) : List Nat → Option Alloc
  | [] => none
  | v :: q => some (allocLoop vi q [(v, 0)])

/-- `inOutMap` (MemoryPlan.cpp 160): input value, root output value, offset inside the root's buffer. -/
abbrev InOut := List (Nat × (Nat × Int))

/-- Number of uses of `v` as an operand (`hasOneUse()` is `numUses = 1`). -/
def Func.numUses (f : Func) (v : Nat) : Nat := (f.ops.map fun o => o.operands.count v).sum

/-- `*v.getUsers().begin()`, as a block position; only consulted when `v` has exactly one use.
`none` when there is no user (the C++ dereferences an end iterator there, MemoryPlan.cpp 199, 211). -/
def Func.userOf (f : Func) (v : Nat) : Option Nat :=
  f.ops.findIdx? fun o => decide (v ∈ o.operands)

/-- Id of the first result of the op at position `j`. -/
def Func.result0 (f : Func) (j : Nat) : Nat :=
  f.argSizes.length + ((f.ops.take j).map fun o => o.resultSizes.length).sum

/-- Unaligned byte size of `v`: `getShapedTypeSize` (Utils/Util.cpp 25-35). -/
def Func.raw (f : Func) (v : Nat) : Nat := (f.decl v).raw

/-- State of the overlap analysis (MemoryPlan.cpp 157-161). -/
structure OvState where
  vi : VMap
  inOut : InOut
  visited : List Nat

/-- Number of positions below `n` that are not in `visited`; used only to show that the C++ `while`
loop terminates. -/
def unvisited (n : Nat) (visited : List Nat) : Nat :=
  (List.range n).countP fun j => decide (j ∉ visited)

theorem unvisited_cons_lt {n : Nat} {vis : List Nat} {j : Nat} (hj : j < n) (hv : j ∉ vis) :
    unvisited n (j :: vis) < unvisited n vis := by
  unfold unvisited
  induction n with
  | zero => omega
  | succ n ih =>
    rw [List.range_succ, List.countP_append, List.countP_append]
    by_cases h : j = n
    · subst h
      have hle : List.countP (fun k => decide (k ∉ j :: vis)) (List.range j)
          ≤ List.countP (fun k => decide (k ∉ vis)) (List.range j) := by
        apply List.countP_mono_left
        intro x _ hx
        simp only [decide_eq_true_eq, List.mem_cons, not_or] at hx ⊢
        exact hx.2
      simp [hv]
      simp at hle
      omega
    · have := ih (by omega)
      have hle : List.countP (fun k => decide (k ∉ j :: vis)) [n]
          ≤ List.countP (fun k => decide (k ∉ vis)) [n] := by
        apply List.countP_mono_left
        intro x _ hx
        simp only [decide_eq_true_eq, List.mem_cons, not_or] at hx ⊢
        exact hx.2
      omega

/-- Result of following a chain: the inputs (in chain order), the final output, the visited set. -/
structure Chain where
  inputs : List Nat
  out : Nat
  visited : List Nat

/-- The `while` loop that extends a chain of overlappable ops (MemoryPlan.cpp 199-212).
`inVal`, `outVal` are the C++ locals; `inputs` is `inputVals`. -/
def chainLoop (f : Func) (inVal outVal : Nat) (inputs visited : List Nat) : Chain :=
  match _h : f.userOf outVal with
  | none => ⟨inputs, outVal, visited⟩
  | some nextOp =>
    if _hc : f.numUses outVal = 1 ∧ nextOp ∉ visited ∧ (f.op nextOp).overlappable = true ∧
        f.raw outVal ≥ f.raw inVal then
      chainLoop f outVal (f.result0 nextOp) (inputs ++ [outVal]) (nextOp :: visited)
    else ⟨inputs, outVal, visited⟩
termination_by unvisited f.ops.length visited
decreasing_by
  apply unvisited_cons_lt _ _hc.2.1
  have := List.findIdx?_eq_some_iff_findIdx_eq.1 _h
  omega

/-- `((x + 7) / 8) * 8` on `int` (MemoryPlan.cpp 224); C++ division truncates. -/
def alignOff (x : Int) : Int := ((x + 7).tdiv 8) * 8

/-- Offset of chain input `inV` inside the buffer of `outV` (MemoryPlan.cpp 216-224). -/
def chainOffset (f : Func) (outV inV : Nat) : Int :=
  alignOff ((f.raw outV : Int) - (f.raw inV : Int))

/-- Which operand can be overlapped (MemoryPlan.cpp 167-184): `none` if the condition at 173-178 is
false. -/
def pickInput (f : Func) (vi : VMap) (o : Op) : Option Nat :=
  match o.operands with
  | [a] => if f.numUses a = 1 ∧ (vi a).isConst = false then some a else none
  | [a, b] =>
      if (f.numUses a = 1 ∧ (vi a).isConst = false) ∨ (f.numUses b = 1 ∧ (vi b).isConst = false) then
        some (if f.numUses a ≠ 1 ∨ (vi a).isConst = true then b else a)
      else none
  | _ => none

/-- `maxSizeNeeded` (MemoryPlan.cpp 218-225). -/
def maxSizeNeeded (f : Func) (vi : VMap) (outV : Nat) (inputs : List Nat) : Int :=
  inputs.foldl (fun m inV => max ((vi inV).size + chainOffset f outV inV) m) 0

/-- Update of one entry of `vInfo` (MemoryPlan.cpp 215, 230). -/
def widenRoot (f : Func) (vi : VMap) (outV : Nat) (inputs : List Nat) : VMap := fun v =>
  if v = outV then
    { vi v with
      first := (vi (inputs.headD 0)).first
      size := max (vi v).size (maxSizeNeeded f vi outV inputs) }
  else vi v

/-- Body of the loop over `operations` (MemoryPlan.cpp 163-234) for the op at position `j`. -/
def overlapStep (f : Func) (s : OvState) (j : Nat) : OvState :=
  let o := f.op j
  if o.overlappable = true ∧ j ∉ s.visited then
    match pickInput f s.vi o with
    | none => s
    | some inVal =>
      let visited := j :: s.visited
      let outVal := f.result0 j
      if f.raw outVal ≥ f.raw inVal then
        let c := chainLoop f inVal outVal [inVal] visited
        { vi := widenRoot f s.vi c.out c.inputs
          inOut := s.inOut ++ c.inputs.map fun i => (i, (c.out, chainOffset f c.out i))
          visited := c.visited }
      else { s with visited := visited }
  else s

/-- Positions of `operations`, the non-constant ops in program order (MemoryPlan.cpp 57-61). -/
def Func.opPositions (f : Func) : List Nat :=
  (List.range f.ops.length).filter fun j => !(f.op j).isConst

/-- The overlap analysis (MemoryPlan.cpp 156-235). -/
def overlapPhase (f : Func) (overlapOps : Bool) : OvState :=
  let s0 : OvState := ⟨f.vinfo, [], []⟩
  if overlapOps then f.opPositions.foldl (overlapStep f) s0 else s0

/-- Values pushed to the queue (MemoryPlan.cpp 251-255). -/
def queueValues (f : Func) (s : OvState) : List Nat :=
  (List.range f.numValues).filter fun v =>
    decide (v ∉ s.inOut.map Prod.fst) && !(s.vi v).isConst

/-- Patching up of overlapped buffers (MemoryPlan.cpp 272-287): `none` is the failed assertion. The C++
iterates a `DenseMap`, whose order is unspecified; only the ids and offsets inserted matter. -/
def patch (al : Alloc) : InOut → Option Alloc
  | [] => some []
  | (i, (out, off)) :: rest =>
      match al.find? (fun p => p.1 == out) with
      | none => none
      | some p => (patch al rest).map fun t => (i, p.2 + off) :: t

/-- Entries with offset -1 for the constants (MemoryPlan.cpp 289-294). -/
def constEntries (f : Func) (vi : VMap) : Alloc :=
  ((List.range f.numValues).filter fun v => (vi v).isConst).map fun v => (v, -1)

/-- `std::multiset` insertion ordered by value id (MemoryPlan.cpp 296-303). -/
def insertById (x : Nat × Int) : Alloc → Alloc
  | [] => [x]
  | y :: ys => if x.1 < y.1 then x :: y :: ys else y :: insertById x ys

/-- `allocatedValuesOrderedByID` (MemoryPlan.cpp 300-303). -/
def sortById (al : Alloc) : Alloc := al.foldl (fun t x => insertById x t) []

/-- State of the reporting loop (MemoryPlan.cpp 305-328): `peakUsed`, `maxId`, `peakOpId`. -/
structure Peak where
  peakUsed : Int
  maxId : Nat
  peakOpId : Nat
deriving Repr, DecidableEq

/-- One iteration of the reporting loop (MemoryPlan.cpp 311-327). -/
def peakStep (vi : VMap) (p : Peak) (x : Nat × Int) : Peak :=
  if (vi x.1).isConst then p
  else
    let cur := (vi x.1).size + x.2
    if cur ≥ p.peakUsed then ⟨cur, p.maxId + 1, p.maxId + 1⟩
    else { p with maxId := p.maxId + 1 }

/-- The result of `getAllocatedOffsets`: the offsets and the two out-parameters. -/
structure Plan where
  offsets : List Int
  peakMemoryUsed : Int
  peakOpId : Nat
deriving Repr, DecidableEq

/-- `MemoryPlan::getAllocatedOffsets` (MemoryPlan.cpp 152-336).  `none`: undefined behaviour (empty
queue) or failed assertion. -/
def getAllocatedOffsets (f : Func) (overlapOps : Bool) : Option Plan :=
  let s := overlapPhase f overlapOps
  match allocate s.vi (queueOf s.vi (queueValues f s)) with
  | none => none
  | some al =>
    match patch al s.inOut with
    | none => none
    | some pt =>
      let sorted := sortById (al ++ pt ++ constEntries f s.vi)
      let pk := sorted.foldl (peakStep s.vi) ⟨0, 0, 0⟩
      some ⟨sorted.map Prod.snd, pk.peakUsed, pk.peakOpId⟩

/-- What `PlanMemory::runOnOperation` writes to the module (PlanMemory.cpp 44-60):
`xc.offsets`, `xc.peakusage`, `xc.peakopid`. -/
structure ModuleAttrs where
  offsets : List Int
  peakUsage : Int
  peakOpId : Nat
deriving Repr, DecidableEq

/-- `PlanMemory::runOnOperation` (PlanMemory.cpp 41-60), for a function without unsupported ops. -/
def planMemory (f : Func) : Option ModuleAttrs :=
  match getAllocatedOffsets f true, getAllocatedOffsets f false with
  | some w, some wo =>
      some
        { offsets := if w.peakMemoryUsed ≤ wo.peakMemoryUsed then w.offsets else wo.offsets
          peakUsage := wo.peakMemoryUsed
          peakOpId := wo.peakOpId }
  | _, _ => none

end Verif.MemPlan
