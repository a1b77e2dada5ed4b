import Verif.Host.Accept

/-!
# The full statements of partial properties: the host tools

As `Verif/Full.lean`: the property as the English text would have it, and its
refutation.
-/

namespace Verif.Full

open Verif.Host.Accept

/-- C96 in full: whatever the outputs, a passing test means that they are as
specified. -/
def C96_full : Prop := ∀ (p : Params) (draws : Nat → Run) (n : Nat), Passes p draws n → Accepted p draws n

/-- Differences are computed in the outputs' own type, so one of 255 counts as 1. -/
theorem C96_full_refuted : ¬ C96_full := fun h =>
  C96_wraparound_accepted.2 (h _ _ _ C96_wraparound_accepted.1)

end Verif.Full
