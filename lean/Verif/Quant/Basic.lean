import Mathlib.Tactic.Linarith
import Mathlib.Tactic.Ring
import Mathlib.Tactic.FieldSimp
import Mathlib.Tactic.Positivity
import Mathlib.Algebra.Order.Floor.Ring
import Mathlib.Data.Rat.Floor
/-!
Reference semantics of affine quantisation (specification, not code of /repo): a quantised integer `q` of type `t` stands
for the real number `scale * (q - zeroPoint)`; a real number is quantised by dividing, rounding to a nearest integer,
adding the zero point and clamping to the storage range.  Scales and reals are rationals.  The rounding rule for ties is
left open: every statement holds for each function that returns a nearest integer.
-/
namespace Verif.Quant

/-- `r` rounds to a nearest integer. -/
def Nearest (r : ℚ → ℤ) : Prop := ∀ x : ℚ, |(r x : ℚ) - x| ≤ 1 / 2

/-- Round to nearest, ties away from zero (C++ `round`). -/
def roundAway (x : ℚ) : ℤ := if 0 ≤ x then ⌊x + 1 / 2⌋ else ⌈x - 1 / 2⌉

theorem roundAway_nearest : Nearest roundAway := by
  intro x
  unfold roundAway
  split
  · have h1 := Int.floor_le (x + 1 / 2)
    have h2 := Int.lt_floor_add_one (x + 1 / 2)
    rw [abs_le]; constructor <;> linarith
  · have h1 := Int.le_ceil (x - 1 / 2)
    have h2 := Int.ceil_lt_add_one (x - 1 / 2)
    rw [abs_le]; constructor <;> linarith

/-- A nearest-integer rounding leaves integers alone. -/
theorem Nearest.int {r : ℚ → ℤ} (h : Nearest r) (n : ℤ) : r n = n := by
  have := abs_le.1 (h n)
  have h1 : (r n : ℚ) < n + 1 := by linarith
  have h2 : (n : ℚ) - 1 < r n := by linarith
  have h1' : r n < n + 1 := by exact_mod_cast h1
  have h2' : n - 1 < r n := by exact_mod_cast h2
  omega

/-- An integer below a number is below its rounding, and the same above. -/
theorem Nearest.le_of {r : ℚ → ℤ} (h : Nearest r) {n : ℤ} {x : ℚ} (hx : (n : ℚ) ≤ x) : n ≤ r x := by
  have := abs_le.1 (h x)
  have h2 : (n : ℚ) - 1 < r x := by linarith
  have h2' : n - 1 < r x := by exact_mod_cast h2
  omega

theorem Nearest.ge_of {r : ℚ → ℤ} (h : Nearest r) {n : ℤ} {x : ℚ} (hx : x ≤ (n : ℚ)) : r x ≤ n := by
  have := abs_le.1 (h x)
  have h2 : (r x : ℚ) < n + 1 := by linarith
  have h2' : r x < n + 1 := by exact_mod_cast h2
  omega

/-- A per-tensor quantised type. -/
structure QType where
  scale : ℚ
  zp : ℤ
  lo : ℤ
  hi : ℤ

structure QType.OK (t : QType) : Prop where
  scale_pos : 0 < t.scale
  zp_lo : t.lo ≤ t.zp
  zp_hi : t.zp ≤ t.hi

def clamp (lo hi q : ℤ) : ℤ := max lo (min hi q)

/-- Real value of `q`. -/
def QType.deq (t : QType) (q : ℤ) : ℚ := t.scale * ((q : ℚ) - t.zp)

/-- Unclamped quantised value. -/
def QType.raw (t : QType) (r : ℚ → ℤ) (x : ℚ) : ℤ := t.zp + r (x / t.scale)

/-- Quantised value. -/
def QType.q (t : QType) (r : ℚ → ℤ) (x : ℚ) : ℤ := clamp t.lo t.hi (t.raw r x)

def QType.InRange (t : QType) (q : ℤ) : Prop := t.lo ≤ q ∧ q ≤ t.hi

theorem QType.deq_div (t : QType) (ok : t.OK) (q : ℤ) : t.deq q / t.scale = ((q - t.zp : ℤ) : ℚ) := by
  have := ok.scale_pos
  unfold QType.deq
  push_cast
  field_simp

theorem QType.raw_deq (t : QType) (ok : t.OK) {r : ℚ → ℤ} (hr : Nearest r) (q : ℤ) : t.raw r (t.deq q) = q := by
  unfold QType.raw
  rw [t.deq_div ok, hr.int]; omega

/-- Re-quantising a representable value gives it back. -/
theorem QType.q_deq (t : QType) (ok : t.OK) {r : ℚ → ℤ} (hr : Nearest r) {q : ℤ} (h : t.InRange q) :
    t.q r (t.deq q) = q := by
  unfold QType.q clamp
  rw [t.raw_deq ok hr]
  obtain ⟨h1, h2⟩ := h
  omega

theorem clamp_inRange {t : QType} (ok : t.OK) (n : ℤ) : t.InRange (clamp t.lo t.hi n) := by
  have := ok.zp_lo
  have := ok.zp_hi
  unfold clamp QType.InRange
  omega

/-- Quantisation error of a value whose rounding is inside the storage range: half a step. -/
theorem QType.deq_q_err (t : QType) (ok : t.OK) {r : ℚ → ℤ} (hr : Nearest r) {x : ℚ} (h : t.InRange (t.raw r x)) :
    |t.deq (t.q r x) - x| ≤ t.scale / 2 := by
  have hs := ok.scale_pos
  have hq : t.q r x = t.raw r x := by
    unfold QType.q clamp
    obtain ⟨h1, h2⟩ := h
    omega
  rw [hq]
  unfold QType.deq QType.raw
  have h1 := hr (x / t.scale)
  have e : t.scale * (((t.zp + r (x / t.scale) : ℤ) : ℚ) - t.zp) - x = t.scale * ((r (x / t.scale) : ℚ) - x / t.scale) := by
    push_cast; field_simp; ring
  rw [e, abs_mul, abs_of_pos hs]
  nlinarith

/-- Values close together are quantised close together. -/
theorem QType.q_dist (t : QType) (ok : t.OK) {r : ℚ → ℤ} (hr : Nearest r) (x y : ℚ) :
    (|t.q r x - t.q r y| : ℤ) ≤ |x - y| / t.scale + 1 := by
  have hs := ok.scale_pos
  have h1 := abs_le.1 (hr (x / t.scale))
  have h2 := abs_le.1 (hr (y / t.scale))
  have hd : |x / t.scale - y / t.scale| = |x - y| / t.scale := by
    rw [← sub_div, abs_div, abs_of_pos hs]
  have hd' := abs_le.1 (le_of_eq hd)
  have hraw : |((t.raw r x - t.raw r y : ℤ) : ℚ)| ≤ |x - y| / t.scale + 1 := by
    unfold QType.raw
    push_cast
    rw [abs_le]; constructor <;> linarith
  refine le_trans ?_ hraw
  have : |t.q r x - t.q r y| ≤ |t.raw r x - t.raw r y| := by
    unfold QType.q clamp
    rw [abs_le]
    rcases abs_cases (t.raw r x - t.raw r y) with h | h <;> omega
  exact_mod_cast this

end Verif.Quant
