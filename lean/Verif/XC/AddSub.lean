import Verif.XC.Lut
import Mathlib.Analysis.SpecialFunctions.Log.Base
/-!
Fixed-point parameters of the quantised `ADD` and `SUB` (xformer/Transforms/ReplaceAddSub.cpp 32–76), with real numbers for
`double`s.  The kernel (lib_nn) is not in /repo: its contract is `addKernel`.
-/
namespace Verif.XC

/-! ### Model -/

structure AddParams where
  m1 : ℤ
  m2 : ℤ
  bias : ℤ
  shift : ℤ

/-- ReplaceAddSub.cpp 50–56. -/
noncomputable def maxRatio (l r o : QI8) : ℝ := max (l.scale / o.scale) (r.scale / o.scale)

/-- ReplaceAddSub.cpp 58. -/
noncomputable def addShift (l r o : QI8) : ℤ := ⌊Real.logb 2 ((2 : ℝ) ^ (14 : ℕ) / maxRatio l r o)⌋

/-- ReplaceAddSub.cpp 50–68 (`sub` is `negateForSub`). -/
noncomputable def addParams (l r o : QI8) (sub : Bool) : AddParams :=
  let lr := l.scale / o.scale
  let shift := addShift l r o
  let rr := if sub then -(r.scale / o.scale) else r.scale / o.scale
  { m1 := roundR (lr * (2 : ℝ) ^ shift)
    m2 := roundR (rr * (2 : ℝ) ^ shift)
    bias := roundR ((o.zp - l.zp * lr - r.zp * rr) * (2 : ℝ) ^ shift)
    shift := shift }

/-- Contract of the kernel (external): multiply, add, shift with rounding `rnd`, saturate. -/
noncomputable def addKernel (rnd : ℝ → ℤ) (p : AddParams) (x1 x2 : ℤ) : ℤ :=
  max (min (rnd (((p.m1 * x1 + p.m2 * x2 + p.bias : ℤ) : ℝ) / (2 : ℝ) ^ p.shift)) 127) (-128)

/-! ### Specification -/

/-- The real result of the operator. -/
noncomputable def addReal (l r : QI8) (sub : Bool) (x1 x2 : ℤ) : ℝ :=
  if sub then l.deq x1 - r.deq x2 else l.deq x1 + r.deq x2

/-- Quantised result. -/
noncomputable def quantR (o : QI8) (x : ℝ) : ℤ := max (min (roundR (x / o.scale) + o.zp) 127) (-128)

/-! ### Proofs -/

theorem roundR_int (n : ℤ) : roundR (n : ℝ) = n := by
  have := abs_le.1 (roundR_near (n : ℝ))
  have p1 : (roundR (n : ℝ) : ℝ) < (n : ℝ) + 1 := by linarith
  have p2 : (n : ℝ) - 1 < (roundR (n : ℝ) : ℝ) := by linarith
  have p1' : roundR (n : ℝ) < n + 1 := by exact_mod_cast p1
  have p2' : n - 1 < roundR (n : ℝ) := by exact_mod_cast p2
  omega

section
variable (l r o : QI8) (hl : 0 < l.scale) (hr : 0 < r.scale) (ho : 0 < o.scale)
include hl ho in
theorem maxRatio_pos : 0 < maxRatio l r o := lt_max_of_lt_left (div_pos hl ho)

include hl ho in
theorem addShift_spec : maxRatio l r o * (2 : ℝ) ^ addShift l r o ≤ 16384 ∧
    16384 < 2 * (maxRatio l r o * (2 : ℝ) ^ addShift l r o) := by
  have hp := maxRatio_pos l r o hl ho
  have hx : 0 < (2 : ℝ) ^ (14 : ℕ) / maxRatio l r o := by positivity
  have hlog : addShift l r o = Int.log 2 ((2 : ℝ) ^ (14 : ℕ) / maxRatio l r o) := by
    unfold addShift
    have := Real.floor_logb_natCast (b := 2) hx.le
    push_cast at this
    exact this
  have h1 := Int.zpow_log_le_self (R := ℝ) (b := 2) (by norm_num) hx
  have h2 := Int.lt_zpow_succ_log_self (R := ℝ) (b := 2) (by norm_num) ((2 : ℝ) ^ (14 : ℕ) / maxRatio l r o)
  rw [← hlog] at h1 h2
  push_cast at h1 h2
  rw [le_div_iff₀ hp] at h1
  rw [div_lt_iff₀ hp, zpow_add_one₀ (by norm_num)] at h2
  constructor
  · rw [mul_comm]; linarith
  · rw [mul_comm (maxRatio l r o)]
    have : (2 : ℝ) ^ (14 : ℕ) = 16384 := by norm_num
    linarith

theorem roundR_abs_le (x : ℝ) (n : ℕ) (h : |x| ≤ n) : |roundR x| ≤ n := by
  have h1 := abs_le.1 (roundR_near x)
  have h2 := abs_le.1 h
  rw [abs_le]
  constructor
  · have : (-(n : ℝ)) - 1 < roundR x := by linarith
    have : -(n : ℤ) - 1 < roundR x := by exact_mod_cast this
    omega
  · have : (roundR x : ℝ) < n + 1 := by linarith
    have : roundR x < (n : ℤ) + 1 := by exact_mod_cast this
    omega

include hl hr ho in
/-- **C39**.  For all positive scales: both multipliers are at most `2^14` in absolute value (they fit 16 bits), the larger
one is at least `2^13`, and no larger shift keeps the larger ratio within `2^14`. -/
theorem C39_multipliers (sub : Bool) :
    |(addParams l r o sub).m1| ≤ 16384 ∧ |(addParams l r o sub).m2| ≤ 16384 ∧
    8192 ≤ max |(addParams l r o sub).m1| |(addParams l r o sub).m2| ∧
    ∀ k : ℤ, maxRatio l r o * (2 : ℝ) ^ k ≤ 2 ^ 14 ↔ k ≤ (addParams l r o sub).shift := by
  obtain ⟨h1, h2⟩ := addShift_spec l r o hl ho
  have hP : (0 : ℝ) < (2 : ℝ) ^ addShift l r o := by positivity
  have hm := maxRatio_pos l r o hl ho
  have a1 : 0 < l.scale / o.scale := div_pos hl ho
  have a2 : 0 < r.scale / o.scale := div_pos hr ho
  have b1 : l.scale / o.scale ≤ maxRatio l r o := le_max_left _ _
  have b2 : r.scale / o.scale ≤ maxRatio l r o := le_max_right _ _
  have c1 : l.scale / o.scale * (2 : ℝ) ^ addShift l r o ≤ 16384 := (mul_le_mul_of_nonneg_right b1 hP.le).trans h1
  have c2 : r.scale / o.scale * (2 : ℝ) ^ addShift l r o ≤ 16384 := (mul_le_mul_of_nonneg_right b2 hP.le).trans h1
  have d1 : 0 < l.scale / o.scale * (2 : ℝ) ^ addShift l r o := mul_pos a1 hP
  have d2 : 0 < r.scale / o.scale * (2 : ℝ) ^ addShift l r o := mul_pos a2 hP
  have big : ∀ y : ℝ, 8192 < y → 8192 ≤ |roundR y| := by
    intro y hy
    have := abs_le.1 (roundR_near y)
    have : (8192 : ℝ) - 1 < roundR y := by linarith
    have : (8192 : ℤ) - 1 < roundR y := by exact_mod_cast this
    have := le_abs_self (roundR y)
    omega
  have bign : ∀ y : ℝ, 8192 < y → 8192 ≤ |roundR (-y)| := by
    intro y hy
    have := abs_le.1 (roundR_near (-y))
    have : (roundR (-y) : ℝ) < -8192 + 1 := by linarith
    have : roundR (-y) < (-8192 : ℤ) + 1 := by exact_mod_cast this
    have := neg_le_abs (roundR (-y))
    omega
  refine ⟨?_, ?_, ?_, ?_⟩
  · apply roundR_abs_le _ 16384
    rw [abs_of_pos d1]; exact_mod_cast c1
  · unfold addParams
    simp only
    apply roundR_abs_le _ 16384
    cases sub
    · simp only [Bool.false_eq_true, if_false]
      rw [abs_of_pos d2]; exact_mod_cast c2
    · simp only [if_true]
      rw [neg_mul, abs_neg, abs_of_pos d2]; exact_mod_cast c2
  · unfold addParams
    simp only
    rcases le_total (l.scale / o.scale) (r.scale / o.scale) with h | h
    · refine le_max_of_le_right ?_
      have e : maxRatio l r o = r.scale / o.scale := max_eq_right h
      rw [e] at h2
      cases sub
      · simp only [Bool.false_eq_true, if_false]
        exact big _ (by linarith)
      · simp only [if_true]
        rw [neg_mul]
        exact bign _ (by linarith)
    · refine le_max_of_le_left ?_
      have e : maxRatio l r o = l.scale / o.scale := max_eq_left h
      rw [e] at h2
      exact big _ (by linarith)
  · intro k
    show _ ↔ k ≤ addShift l r o
    constructor
    · intro hk
      by_contra hc
      have hk' : (2 : ℝ) ^ (addShift l r o + 1) ≤ (2 : ℝ) ^ k := zpow_le_zpow_right₀ (by norm_num) (by omega)
      rw [zpow_add_one₀ (by norm_num)] at hk'
      have := mul_le_mul_of_nonneg_left hk' hm.le
      have e : (2 : ℝ) ^ 14 = 16384 := by norm_num
      rw [e] at hk
      linarith
    · intro hk
      have hk' : (2 : ℝ) ^ k ≤ (2 : ℝ) ^ addShift l r o := zpow_le_zpow_right₀ (by norm_num) hk
      have := mul_le_mul_of_nonneg_left hk' hm.le
      have e : (2 : ℝ) ^ 14 = 16384 := by norm_num
      rw [e]; linarith

include hl hr ho in
/-- Distance between the fixed-point and the exact scaled result. -/
theorem add_error (sub : Bool) (x1 x2 : ℤ) (hx1 : |(x1 : ℝ)| ≤ 128) (hx2 : |(x2 : ℝ)| ≤ 128) :
    |((((addParams l r o sub).m1 * x1 + (addParams l r o sub).m2 * x2 + (addParams l r o sub).bias : ℤ) : ℝ) /
      (2 : ℝ) ^ (addParams l r o sub).shift) - (addReal l r sub x1 x2 / o.scale + o.zp)| * 16384 < 257 * maxRatio l r o := by
  obtain ⟨_, h2⟩ := addShift_spec l r o hl ho
  have hm := maxRatio_pos l r o hl ho
  set P := (2 : ℝ) ^ addShift l r o with hPd
  have hP : 0 < P := by positivity
  set rr : ℝ := if sub then -(r.scale / o.scale) else r.scale / o.scale with hrr
  set lr : ℝ := l.scale / o.scale with hlr
  have e1 := abs_le.1 (roundR_near (lr * P))
  have e2 := abs_le.1 (roundR_near (rr * P))
  have e3 := abs_le.1 (roundR_near ((o.zp - l.zp * lr - r.zp * rr) * P))
  have hy : addReal l r sub x1 x2 / o.scale = lr * (x1 - l.zp) + rr * (x2 - r.zp) := by
    unfold addReal QI8.deq
    rw [hrr, hlr]
    cases sub <;> simp only [Bool.false_eq_true, if_true, if_false] <;> field_simp; ring
  have hshift : (addParams l r o sub).shift = addShift l r o := rfl
  have hm1 : (addParams l r o sub).m1 = roundR (lr * P) := rfl
  have hm2 : (addParams l r o sub).m2 = roundR (rr * P) := rfl
  have hb : (addParams l r o sub).bias = roundR ((o.zp - l.zp * lr - r.zp * rr) * P) := rfl
  rw [hshift, hm1, hm2, hb, ← hPd, hy]
  push_cast
  generalize (roundR (lr * P) : ℝ) = A at *
  generalize (roundR (rr * P) : ℝ) = B at *
  generalize (roundR ((o.zp - l.zp * lr - r.zp * rr) * P) : ℝ) = C at *
  have eq : (A * x1 + B * x2 + C) / P - (lr * (x1 - l.zp) + rr * (x2 - r.zp) + o.zp) =
      ((A - lr * P) * x1 + (B - rr * P) * x2 + (C - (o.zp - l.zp * lr - r.zp * rr) * P)) / P := by
    field_simp; ring
  rw [eq, abs_div, abs_of_pos hP]
  have num : |(A - lr * P) * x1 + (B - rr * P) * x2 + (C - (o.zp - l.zp * lr - r.zp * rr) * P)| ≤ 257 / 2 := by
    have t1 : |(A - lr * P) * x1| ≤ 1 / 2 * 128 := by
      rw [abs_mul]; exact mul_le_mul (abs_le.2 e1) hx1 (abs_nonneg _) (by norm_num)
    have t2 : |(B - rr * P) * x2| ≤ 1 / 2 * 128 := by
      rw [abs_mul]; exact mul_le_mul (abs_le.2 e2) hx2 (abs_nonneg _) (by norm_num)
    have t3 : |C - (o.zp - l.zp * lr - r.zp * rr) * P| ≤ 1 / 2 := abs_le.2 e3
    have := abs_add_le ((A - lr * P) * x1 + (B - rr * P) * x2) (C - (o.zp - l.zp * lr - r.zp * rr) * P)
    have := abs_add_le ((A - lr * P) * x1) ((B - rr * P) * x2)
    linarith
  rw [div_mul_eq_mul_div, div_lt_iff₀ hP]
  nlinarith

include hl hr ho in
/-- **C39** (accuracy).  If neither input scale exceeds 31 times the output scale, then for all 8-bit inputs the fixed-point
result differs by at most one step from the correctly quantised sum (difference), whatever nearest rounding the kernel
uses. -/
theorem C39_accuracy (sub : Bool) (rnd : ℝ → ℤ) (hrnd : ∀ x : ℝ, |(rnd x : ℝ) - x| ≤ 1 / 2) (x1 x2 : ℤ)
    (hx1 : -128 ≤ x1 ∧ x1 ≤ 127) (hx2 : -128 ≤ x2 ∧ x2 ≤ 127) (h31 : l.scale ≤ 31 * o.scale) (h31' : r.scale ≤ 31 * o.scale) :
    |addKernel rnd (addParams l r o sub) x1 x2 - quantR o (addReal l r sub x1 x2)| ≤ 1 := by
  have k1 : |(x1 : ℝ)| ≤ 128 := by
    have : |x1| ≤ 128 := by rw [abs_le]; omega
    exact_mod_cast this
  have k2 : |(x2 : ℝ)| ≤ 128 := by
    have : |x2| ≤ 128 := by rw [abs_le]; omega
    exact_mod_cast this
  have he := add_error l r o hl hr ho sub x1 x2 k1 k2
  have hM : maxRatio l r o ≤ 31 := by
    apply max_le <;> rw [div_le_iff₀ ho] <;> assumption
  unfold addKernel quantR
  set V := ((((addParams l r o sub).m1 * x1 + (addParams l r o sub).m2 * x2 + (addParams l r o sub).bias : ℤ) : ℝ) /
      (2 : ℝ) ^ (addParams l r o sub).shift)
  have hv : |V - (addReal l r sub x1 x2 / o.scale + o.zp)| < 1 / 2 := by linarith
  have hv' := abs_lt.1 hv
  have r1 := abs_le.1 (hrnd V)
  have r2 := abs_le.1 (roundR_near (addReal l r sub x1 x2 / o.scale))
  have q1 : (rnd V : ℝ) - (roundR (addReal l r sub x1 x2 / o.scale) + o.zp : ℤ) < 2 := by push_cast; linarith
  have q2 : (-2 : ℝ) < (rnd V : ℝ) - (roundR (addReal l r sub x1 x2 / o.scale) + o.zp : ℤ) := by push_cast; linarith
  have q1' : rnd V - (roundR (addReal l r sub x1 x2 / o.scale) + o.zp) < 2 := by exact_mod_cast q1
  have q2' : -2 < rnd V - (roundR (addReal l r sub x1 x2 / o.scale) + o.zp) := by exact_mod_cast q2
  rw [abs_le]
  omega

include hl hr ho in
/-- **C39** (range).  If the larger ratio is at least `2^-9` and the zero points are 8-bit values, then the bias and every
accumulator value fit 32 bits. -/
theorem C39_accumulator (sub : Bool) (hz1 : -128 ≤ l.zp ∧ l.zp ≤ 127) (hz2 : -128 ≤ r.zp ∧ r.zp ≤ 127)
    (hz : -128 ≤ o.zp ∧ o.zp ≤ 127) (hM : 1 / 512 ≤ maxRatio l r o) (x1 x2 : ℤ) (hx1 : -128 ≤ x1 ∧ x1 ≤ 127)
    (hx2 : -128 ≤ x2 ∧ x2 ≤ 127) :
    |(addParams l r o sub).bias| < 2 ^ 31 ∧
    |(addParams l r o sub).m1 * x1 + (addParams l r o sub).m2 * x2 + (addParams l r o sub).bias| < 2 ^ 31 := by
  obtain ⟨h1, h2⟩ := addShift_spec l r o hl ho
  obtain ⟨hm1, hm2, _, _⟩ := C39_multipliers l r o hl hr ho sub
  have hm := maxRatio_pos l r o hl ho
  have hP : (0 : ℝ) < (2 : ℝ) ^ addShift l r o := by positivity
  have cast : ∀ z : ℤ, (-128 ≤ z ∧ z ≤ 127) → |(z : ℝ)| ≤ 128 := by
    intro z hz
    have : |z| ≤ 128 := by rw [abs_le]; omega
    exact_mod_cast this
  have hbias : |(addParams l r o sub).bias| ≤ 1078000000 := by
    unfold addParams
    simp only
    apply roundR_abs_le _ 1078000000
    have a1 : 0 < l.scale / o.scale := div_pos hl ho
    have a2 : 0 < r.scale / o.scale := div_pos hr ho
    have b1 : l.scale / o.scale ≤ maxRatio l r o := le_max_left _ _
    have b2 : r.scale / o.scale ≤ maxRatio l r o := le_max_right _ _
    set rr : ℝ := if sub then -(r.scale / o.scale) else r.scale / o.scale with hrr
    have hrr' : |rr| ≤ maxRatio l r o := by
      rw [hrr]
      cases sub
      · simp only [Bool.false_eq_true, if_false]; rw [abs_of_pos a2]; exact b2
      · simp only [if_true]; rw [abs_neg, abs_of_pos a2]; exact b2
    have hll : |l.scale / o.scale| ≤ maxRatio l r o := by rw [abs_of_pos a1]; exact b1
    generalize l.scale / o.scale = lr at *
    have s1 : |(o.zp : ℝ) - l.zp * lr - r.zp * rr| ≤ 128 + 256 * maxRatio l r o := by
      have t1 : |(l.zp : ℝ) * lr| ≤ 128 * maxRatio l r o := by
        rw [abs_mul]; exact mul_le_mul (cast _ hz1) hll (abs_nonneg _) (by norm_num)
      have t2 : |(r.zp : ℝ) * rr| ≤ 128 * maxRatio l r o := by
        rw [abs_mul]; exact mul_le_mul (cast _ hz2) hrr' (abs_nonneg _) (by norm_num)
      have t3 := cast _ hz
      have u1 := abs_sub ((o.zp : ℝ) - l.zp * lr) (r.zp * rr)
      have u2 := abs_sub (o.zp : ℝ) (l.zp * lr)
      linarith
    rw [abs_mul, abs_of_pos hP]
    have s2 := mul_le_mul_of_nonneg_right s1 hP.le
    have s3 : (2 : ℝ) ^ addShift l r o ≤ 16384 * 512 := by nlinarith
    push_cast
    nlinarith
  have t1 : |(addParams l r o sub).m1 * x1| ≤ 16384 * 128 := by
    rw [abs_mul]
    exact mul_le_mul hm1 (by rw [abs_le]; omega) (abs_nonneg _) (by norm_num)
  have t2 : |(addParams l r o sub).m2 * x2| ≤ 16384 * 128 := by
    rw [abs_mul]
    exact mul_le_mul hm2 (by rw [abs_le]; omega) (abs_nonneg _) (by norm_num)
  have u1 := abs_add_le ((addParams l r o sub).m1 * x1 + (addParams l r o sub).m2 * x2) (addParams l r o sub).bias
  have u2 := abs_add_le ((addParams l r o sub).m1 * x1) ((addParams l r o sub).m2 * x2)
  constructor <;> omega
end

/-- **C39** refuted for inputs with much smaller scales than the output: with ratios `2^-11` and output zero point `-128`
the bias does not fit the 32-bit `int` in which the code stores it. -/
theorem C39_bias_overflow_refuted :
    (addParams ⟨1 / 2048, 0⟩ ⟨1 / 2048, 0⟩ ⟨1, -128⟩ false).bias = -(2 ^ 32) := by
  have hs : addShift ⟨1 / 2048, 0⟩ ⟨1 / 2048, 0⟩ ⟨1, -128⟩ = 25 := by
    unfold addShift maxRatio
    simp only [max_self]
    rw [show (2 : ℝ) ^ (14 : ℕ) / (1 / 2048 / 1) = (2 : ℝ) ^ (25 : ℝ) by norm_num, Real.logb_rpow (by norm_num) (by norm_num)]
    norm_num
  unfold addParams
  simp only [hs]
  have : ((((-128 : ℤ) : ℝ) - ((0 : ℤ) : ℝ) * (1 / 2048 / 1) - ((0 : ℤ) : ℝ) * (if (false : Bool) = true then -(1 / 2048 / 1) else 1 / 2048 / 1)) *
      (2 : ℝ) ^ (25 : ℤ)) = ((-(2 ^ 32) : ℤ) : ℝ) := by
    norm_num
  rw [this]
  exact roundR_int _

/-- Non-vacuity: two inputs with different scales, output scale between. -/
example : |addKernel roundR (addParams ⟨1 / 10, 3⟩ ⟨1 / 50, -7⟩ ⟨1 / 20, 0⟩ true) 100 (-50) -
    quantR ⟨1 / 20, 0⟩ (addReal ⟨1 / 10, 3⟩ ⟨1 / 50, -7⟩ true 100 (-50))| ≤ 1 :=
  C39_accuracy _ _ _ (by norm_num) (by norm_num) (by norm_num) true roundR roundR_near 100 (-50) (by norm_num) (by norm_num)
    (by norm_num) (by norm_num)

end Verif.XC
