import Verif.Threads.Model
/-! Specification vocabulary for the thread regions (independent of how they are computed). -/
namespace Verif.Threads

/-- Output element (row `y`, column `x`, channel `c`) lies in the region. -/
def Region.Has (r : Region) (y x c : Nat) : Prop :=
  r.row ≤ y ∧ y < r.row + r.rows ∧ r.col ≤ x ∧ x < r.col + r.cols ∧ r.chan ≤ c ∧ c < r.chan + r.chans

instance (r : Region) (y x c : Nat) : Decidable (r.Has y x c) := inferInstanceAs (Decidable (_ ∧ _))

/-- Output element lies in the image. -/
def Params.Inside (p : Params) (y x c : Nat) : Prop := y < p.height ∧ x < p.width ∧ c < p.depth

instance (p : Params) (y x c : Nat) : Decidable (p.Inside y x c) := inferInstanceAs (Decidable (_ ∧ _))

/-- The element belongs to the phase of this (partial) convolution: it is `sub` modulo the output stride.
Reading of the external kernel: a strided kernel working on a region writes the elements of the region in its phase. -/
def Params.InPhase (p : Params) (y x : Nat) : Prop :=
  y % p.strideH = p.subH % p.strideH ∧ x % p.strideW = p.subW % p.strideW

instance (p : Params) (y x : Nat) : Decidable (p.InPhase y x) := inferInstanceAs (Decidable (_ ∧ _))

/-- How many regions contain the element, i.e. how many threads compute it. -/
def coverage (rs : List Region) (y x c : Nat) : Nat := rs.countP fun r => decide (r.Has y x c)

/-- Contract assumed of the external `calculateThreadSplit`: at most `n` non-empty consecutive channel ranges that
together are `[0, depth)`. -/
def Contiguous : Nat → Nat → List (Nat × Nat) → Prop
  | s, e, [] => s = e
  | s, e, (a, b) :: rest => a = s ∧ a < b ∧ Contiguous b e rest

def CalcContract (cts : Nat → Nat → List (Nat × Nat)) : Prop :=
  ∀ n d, 1 ≤ n → (cts n d).length ≤ n ∧ Contiguous 0 d (cts n d)

end Verif.Threads
