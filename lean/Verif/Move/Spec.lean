import Verif.Tensor.Flat
/-!
Specification side of C17-C23: what the TensorFlow operators mean on multi-indices, and what the run-time kernels of
lib_nn / lib_tflite_micro do with their parameters (these kernels are not part of /repo; this is their documented
behaviour, and part of the trusted base).
-/
namespace Verif.Move
open Verif.Tensor

/-! ### Operators -/

/-- `tfl.slice`: element `idx` of the result is element `begin + idx` of the input. -/
def sliceT {α : Type} (begin_ : List Nat) (f : List Nat → α) (idx : List Nat) : α := f (List.zipWith (· + ·) begin_ idx)

/-- `tfl.pad`: element `idx` is element `idx - start` of the input if that is inside the input, else `z`. -/
def padT {α : Type} (z : α) : List Nat → List Nat → (List Nat → α) → List Nat → α
  | s :: ss, n :: ns, f, i :: idx => if s ≤ i ∧ i < s + n then padT z ss ns (fun r => f ((i - s) :: r)) idx else z
  | _, _, f, _ => f []

/-- `tfl.broadcast_to`: numpy broadcasting; the last axes are aligned and axes of size 1 are repeated. -/
def broadcastT {α : Type} (inShape : List Nat) (f : List Nat → α) (idx : List Nat) : α :=
  f (List.zipWith (fun n i => if n = 1 then 0 else i) inShape (idx.drop (idx.length - inShape.length)))

/-- `tfl.concatenation` along `axis`: the inputs, given with their sizes along the axis, one after the other. -/
def concatT {α : Type} [Inhabited α] (axis : Nat) : List (Nat × (List Nat → α)) → List Nat → α
  | [], _ => default
  | (n, f) :: rest, idx =>
    if idx.getD axis 0 < n then f idx else concatT axis rest (idx.set axis (idx.getD axis 0 - n))

/-! ### Kernels (bytes) -/

/-- `n` copies of `size` bytes from `start`, `start + offset`, `start + 2 * offset`, ... -/
def sliceKernel {B : Type} (start offset size n : Nat) (m : List B) : List B :=
  (List.range n).flatMap fun i => (m.drop (start + i * offset)).take size

/-- Fill `start`; then `numCopies` times copy `size` bytes and fill `padSize`; then copy `size` bytes and fill `end`. -/
def padKernel {B : Type} (z : B) (start padSize size : Nat) (numCopies : Int) (end_ : Nat) (m : List B) : List B :=
  List.replicate start z ++
    ((List.range numCopies.toNat).flatMap fun i => (m.drop (i * size)).take size ++ List.replicate padSize z) ++
    (m.drop (numCopies.toNat * size)).take size ++ List.replicate end_ z

/-- Byte lane `k` of a 32-bit word. -/
def lane (w k : Nat) : Nat := w / 256 ^ k % 256

/-- For each of `numBroadcasts` consecutive blocks of `size` bytes: copy it `numCopies` times. -/
def broadcastKernel {B : Type} (size numCopies numBroadcasts : Nat) (m : List B) : List B :=
  (List.range numBroadcasts).flatMap fun i =>
    (List.range numCopies).flatMap fun _ => (m.drop (i * size)).take size

/-- `numCopies` times: from every input the next `sizes[k]` bytes. -/
def concatKernel {B : Type} (numCopies : Nat) (sizes : List Nat) (ms : List (List B)) : List B :=
  (List.range numCopies).flatMap fun i =>
    (List.zip sizes ms).flatMap fun sm => (sm.2.drop (i * sm.1)).take sm.1

/-! ### Strided slice -/

/-- TensorFlow's rule for stride 1 on one axis: first element and number of elements selected.  Negative positions count
from the end, masked ends are the whole axis, positions are clamped into the axis; a shrunk axis selects exactly the
element `begin`, its mask and end being ignored. -/
def tfRange (beginMasked endMasked shrunk : Bool) (dim b e : Int) : Int × Int :=
  let pos := fun p : Int => if p < 0 then dim + p else p
  let clamp := fun p : Int => max 0 (min dim p)
  if shrunk then (pos b, 1)
  else
    let lo := if beginMasked then 0 else clamp (pos b)
    let hi := if endMasked then dim else clamp (pos e)
    (lo, max 0 (hi - lo))

end Verif.Move
