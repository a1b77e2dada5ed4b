import Verif.Tensor.Flat
/-!
Model of the data-movement lowerings: `mergeAxes`, slice, pad, broadcast, concatenation and strided slice.

Simplifications common to this file: dimensions, begins and paddings are natural numbers without the 32-bit limit of
`int32_t` (all of them are bounded by the byte size of a tensor); dynamic shapes and constant inputs, for which every
pattern returns `failure()` before doing anything, are outside the model.
-/
namespace Verif.Move
open Verif.Tensor

/-- One axis of the four parallel vectors handed to `mergeAxes` (xformer/Utils/Util.cpp 113-115): `inShape[i]`,
`outShape[i]`, `begin[i]` and `size[i]`. -/
structure Axis where
  inn : Nat
  out : Nat
  beg : Nat
  siz : Nat
deriving Repr, DecidableEq

instance : Inhabited Axis := ⟨⟨0, 0, 0, 0⟩⟩

/-- Body of the `while` loop: axis `b` is folded into the axis `a` before it (Util.cpp 119-123). -/
def mergePair (a b : Axis) : Axis := ⟨a.inn * b.inn, a.out * b.inn, a.beg * b.inn, a.siz * b.inn⟩

/-- The two nested loops at index `i` (Util.cpp 117-131).  When the axis at `i` has equal input and output size it is
folded into axis `i - 1`, erased, and the `while` goes on at `i - 1`; otherwise the `for` goes on at `i - 1`.  Both stop
at index 0. -/
def mergeLoop : Nat → List Axis → List Axis
  | 0, l => l
  | i + 1, l =>
    if (l.getD (i + 1) default).inn = (l.getD (i + 1) default).out then
      mergeLoop i ((l.set i (mergePair (l.getD i default) (l.getD (i + 1) default))).eraseIdx (i + 1))
    else mergeLoop i l

/-- `mergeAxes` (Util.cpp 113-140); the returned rank is the length of the list. -/
def mergeAxes (l : List Axis) : List Axis :=
  match mergeLoop (l.length - 1) l with
  | [] => []
  | a :: rest => if a.inn = 1 ∧ a.out = 1 then rest else a :: rest

/-- `checkSliceNoOp` on types of equal rank (Util.cpp 98-111). -/
def checkSliceNoOp (l : List Axis) : Bool := l.all fun a => a.inn = a.out

/-- Outcome of a pattern: operator removed, left alone, replaced by an xcore operator with parameters `p`, or undefined
behaviour (an index before the beginning of a vector). -/
inductive Lowered (p : Type) where
  | noop
  | fail
  | op (params : p)
  | undef
deriving Repr, DecidableEq

/-- Parameters of `xc.slice` (xformer/IR/XCoreOps.td 86-94). -/
structure SliceParams where
  start : Nat
  offset : Nat
  size : Nat
  numCopies : Nat
  useVpu : Bool
deriving Repr, DecidableEq

/-- `ReplaceSlicePattern` (xformer/Transforms/ReplaceSlice.cpp 46-114); `d` is `dtype_size`. -/
def lowerSlice (d : Nat) (l : List Axis) : Lowered SliceParams :=
  if checkSliceNoOp l then .noop
  else
    match mergeAxes l with
    | [] => .undef
    | [a] =>
      let start := a.beg * d
      let offset := a.inn * d
      let size := a.out * d
      .op ⟨start, offset, size, 1, start % 4 == 0 && size % 4 == 0 && offset % 4 == 0⟩
    | [a, b] =>
      let start := a.beg * (b.inn * d) + b.beg * d
      let offset := b.inn * d
      let size := b.out * d
      .op ⟨start, offset, size, a.out, start % 4 == 0 && size % 4 == 0 && offset % 4 == 0⟩
    | _ => .fail

/-- Parameters of `xc.pad` (XCoreOps.td 131-141). -/
structure PadParams where
  start : Nat
  padSize : Nat
  size : Nat
  numCopies : Int
  zeroPoint : Nat
  end_ : Nat
  useVpu : Bool
deriving Repr, DecidableEq

/-- `BROADCAST_8_TO_32` (defined in lib_nn, used in ReplacePad.cpp 94): the low byte in all four byte lanes. -/
def broadcast8to32 (zp : Int) : Nat := (zp % 256).toNat * 0x01010101

/-- Splitting of the padding constant into the vectors of leading and trailing paddings (ReplacePad.cpp 64-69). -/
def evens {α : Type} : List α → List α
  | [] => []
  | [a] => [a]
  | a :: _ :: r => a :: evens r

def odds {α : Type} : List α → List α
  | [] => []
  | [_] => []
  | _ :: b :: r => b :: odds r

/-- The four vectors as one list of axes; in `ReplacePad` the roles of `begin` and `size` are played by the leading and
trailing paddings (ReplacePad.cpp 78-79). -/
def zipAxes : List Nat → List Nat → List Nat → List Nat → List Axis
  | i :: is, o :: os, b :: bs, s :: ss => ⟨i, o, b, s⟩ :: zipAxes is os bs ss
  | _, _, _, _ => []

/-- `ReplacePadPattern` (xformer/Transforms/ReplacePad.cpp 48-128); `zp` is the zero point of a quantised type, 0 for the
other types (lines 91-95). -/
def lowerPadAxes (d : Nat) (zp : Int) (l : List Axis) : Lowered PadParams :=
  if checkSliceNoOp l then .noop
  else
    match mergeAxes l with
    | [] => .undef
    | [a] =>
      let start := a.beg * d
      let size := a.inn * d
      let end_ := a.siz * d
      .op ⟨start, 0, size, 0, broadcast8to32 zp, end_,
        start % 4 == 0 && 0 % 4 == 0 && size % 4 == 0 && end_ % 4 == 0⟩
    | [a, b] =>
      if b.inn * d = 3 ∧ b.out * d = 4 then .fail
      else
        let start := a.beg * (b.out * d) + b.beg * d
        let padSize := b.beg * d + b.siz * d
        let size := b.inn * d
        let end_ := a.siz * (b.out * d) + b.siz * d
        .op ⟨start, padSize, size, (a.inn : Int) - 1, broadcast8to32 zp, end_,
          start % 4 == 0 && padSize % 4 == 0 && size % 4 == 0 && end_ % 4 == 0⟩
    | _ => .fail

/-- The pattern applied to shapes and the flat padding constant (ReplacePad.cpp 60-73). -/
def lowerPad (d : Nat) (zp : Int) (inShape outShape paddings : List Nat) : Lowered PadParams :=
  lowerPadAxes d zp (zipAxes inShape outShape (evens paddings) (odds paddings))

/-- Parameters of `xc.broadcast` (XCoreOps.td 114-121). -/
structure BroadcastParams where
  size : Nat
  numCopies : Nat
  numBroadcasts : Nat
  useVpu : Bool
deriving Repr, DecidableEq

/-- State of the loop of `ReplaceBroadcastPattern` (ReplaceBroadcast.cpp 78-80). -/
structure BState where
  canBroadcast : Bool
  size : Nat
  numCopies : Nat
  numBroadcasts : Nat
deriving Repr, DecidableEq

/-- One iteration (ReplaceBroadcast.cpp 82-96); `none` is `return failure()`. -/
def broadcastStep (s : BState) (i o : Nat) : Option BState :=
  if s.canBroadcast then
    if i ≠ o then some { s with numCopies := s.numCopies * o }
    else if s.numCopies ≠ 1 ∧ o ≠ 1 then some { s with canBroadcast := false, size := s.size * i }
    else some { s with numBroadcasts := s.numBroadcasts * o }
  else if i ≠ o then none
  else some { s with size := s.size * i }

/-- The loop over the axes (ReplaceBroadcast.cpp 81-97). -/
def broadcastLoop : BState → List (Nat × Nat) → Option BState
  | s, [] => some s
  | s, (i, o) :: r => (broadcastStep s i o).bind fun s' => broadcastLoop s' r

/-- Missing leading dimensions are filled with ones (ReplaceBroadcast.cpp 68-70). -/
def padOnes (inShape outShape : List Nat) : List Nat :=
  List.replicate (outShape.length - inShape.length) 1 ++ inShape

/-- `ReplaceBroadcastPattern` (ReplaceBroadcast.cpp 46-110). -/
def lowerBroadcast (d : Nat) (inShape outShape : List Nat) : Lowered BroadcastParams :=
  if inShape = outShape then .noop
  else
    let axes := (padOnes inShape outShape).zip outShape
    if axes.all (fun io => io.1 = io.2 || io.1 = 1) then
      match broadcastLoop ⟨true, d, 1, 1⟩ axes with
      | none => .fail
      | some s => .op ⟨s.size, s.numCopies, s.numBroadcasts, s.size % 4 == 0⟩
    else .fail

/-- Parameters of `xc.concat` (XCoreOps.td 153-162).  `sizes` holds the initialised entries only: the C++ array has 13
entries of which those from `numInputs` on are uninitialised (ReplaceConcat.cpp 141-148). -/
structure ConcatParams where
  numCopies : Nat
  sizes : List Nat
  numInputs : Nat
  useVpu : Bool
deriving Repr, DecidableEq

/-- `CONCAT_OP_MAX_INPUTS` (xformer/IR/XCoreOps.h 33). -/
def concatMax : Nat := 13

/-- Normalisation of the axis (ReplaceConcat.cpp 129-132); `none`: the index stays negative. -/
def concatAxis (rank : Nat) (axis : Int) : Option Nat :=
  let a := if axis < 0 then (rank : Int) + axis else axis
  if a < 0 then none else some a.toNat

/-- `ReplaceConcatPattern` (ReplaceConcat.cpp 106-158) for static shapes and no fused activation. -/
def lowerConcat (d : Nat) (inShapes : List (List Nat)) (outShape : List Nat) (axis : Int) : Lowered ConcatParams :=
  if inShapes.length > concatMax then .fail
  else
    match concatAxis outShape.length axis with
    | none => .undef
    | some a =>
      let sizes := inShapes.map fun s => d * (s.drop a).prod
      .op ⟨(outShape.take a).prod, sizes, inShapes.length, sizes.all fun n => n % 4 == 0⟩

/-- A tree of concatenations over the original inputs: what repeated application of `SplitConcatPattern` builds. -/
inductive CTree where
  | input (k : Nat)
  | concat (declaredShape : List Nat) (args : List CTree)
deriving Repr

/-- Axis used by `SplitConcatPattern` (ReplaceConcat.cpp 65-66): only `-1` is normalised. -/
def splitConcatAxis (rank : Nat) (axis : Int) : Int := if axis = -1 then (rank : Int) - 1 else axis

/-- `newShape` (ReplaceConcat.cpp 68-80). -/
def splitShape (outShape : List Nat) (axis : Int) (axisShape : Nat) : List Nat :=
  outShape.mapIdx fun i n => if (i : Int) = axis then axisShape else n

/-- One application of `SplitConcatPattern` to the argument list of a concatenation (ReplaceConcat.cpp 54-102); every
argument comes with its shape.  `none`: `getShape()[axis]` with a negative axis (undefined behaviour, line 71). -/
def splitConcatStep (outShape : List Nat) (axis : Int) (args : List (List Nat × CTree)) :
    Option (List (List Nat × CTree)) :=
  if splitConcatAxis outShape.length axis < 0 then none
  else
    let ax := splitConcatAxis outShape.length axis
    let first := args.take concatMax
    let axisShape := (first.map fun a => a.1.getD ax.toNat 0).sum
    let shape := splitShape outShape ax axisShape
    some ((shape, CTree.concat shape (first.map (·.2))) :: args.drop concatMax)

theorem splitConcatStep_length {outShape : List Nat} {axis : Int} {args args' : List (List Nat × CTree)}
    (h : splitConcatStep outShape axis args = some args') : args'.length = args.length - concatMax + 1 := by
  unfold splitConcatStep at h
  split at h
  · exact absurd h (by simp)
  · cases h; simp

/-- The greedy driver applies the pattern until it fails (ReplaceConcat.cpp 59-60 and 161-168). -/
def splitConcat (outShape : List Nat) (axis : Int) (args : List (List Nat × CTree)) : Option CTree :=
  if args.length ≤ concatMax then some (.concat outShape (args.map (·.2)))
  else
    match h : splitConcatStep outShape axis args with
    | none => none
    | some args' => splitConcat outShape axis args'
termination_by args.length
decreasing_by
  have := splitConcatStep_length h
  unfold concatMax at *
  omega

/-- Begin and size of one axis of `ReplaceStridedSlicePattern` (ReplaceStridedSlice.cpp 82-95). -/
def stridedAxis (beginMask endMask : Nat) (i : Nat) (dim begin_ end_ : Int) : Int × Int :=
  let newBegin := if beginMask.testBit i then 0 else if begin_ < 0 then dim + begin_ else begin_
  let newSize :=
    if endMask.testBit i then dim - newBegin
    else (if end_ < 0 then dim + end_ else end_) - newBegin
  (newBegin, newSize)

/-- The loop over the axes (ReplaceStridedSlice.cpp 82-95); `i` is the index of the first axis of the lists. -/
def stridedLoop (beginMask endMask : Nat) : Nat → List Int → List Int → List Int → List (Int × Int)
  | i, d :: ds, b :: bs, e :: es =>
    stridedAxis beginMask endMask i d b e :: stridedLoop beginMask endMask (i + 1) ds bs es
  | _, _, _, _ => []

/-- `newOutputShape` (ReplaceStridedSlice.cpp 96-102). -/
def shrinkShape (shrinkMask : Nat) : Nat → List Int → List Int
  | _, [] => []
  | i, n :: r => if shrinkMask.testBit i then shrinkShape shrinkMask (i + 1) r else n :: shrinkShape shrinkMask (i + 1) r

/-- `canReplaceWithSlice` (ReplaceStridedSlice.cpp 24-45). -/
def canReplaceWithSlice (strides : List Int) (ellipsisMask newAxisMask : Nat) : Bool :=
  strides.all (· = 1) && ellipsisMask == 0 && newAxisMask == 0

/-- `ReplaceStridedSlicePattern` (ReplaceStridedSlice.cpp 51-144): begin and size of the new slice and the declared shape
of the final result. -/
def lowerStrided (shape begin_ end_ strides : List Int) (beginMask endMask shrinkMask ellipsisMask newAxisMask : Nat) :
    Option (List (Int × Int) × List Int) :=
  if canReplaceWithSlice strides ellipsisMask newAxisMask then
    let bs := stridedLoop beginMask endMask 0 shape begin_ end_
    some (bs, shrinkShape shrinkMask 0 (bs.map (·.2)))
  else none

end Verif.Move
