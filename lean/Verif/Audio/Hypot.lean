import Verif.Audio.HypotModel
import Mathlib.Analysis.SpecialFunctions.Pow.Real
import Mathlib.Analysis.Complex.Norm
/-!
C87: accuracy of `hypot_i`, for every pair of 32-bit words.
-/
namespace Verif.Audio
open Real

/-- The iteration on integers. -/
def ittZ (n : Nat) (p : Int × Int) : Int × Int :=
  if p.1 < 0 then (p.1 + p.2 / 2 ^ n, p.2 - p.1 / 2 ^ n) else (p.1 - p.2 / 2 ^ n, p.2 + p.1 / 2 ^ n)

/-- The start on integers: `a`, `b` are the quarters. -/
def startZ (a b : Int) : Int × Int := if a < 0 then (a + b, b - a) else (a - b, b + a)

/-- The run on integers. -/
def runZ (a b : Int) : Nat → Int × Int
  | 0 => startZ a b
  | i + 1 => ittZ (i + 1) (runZ a b i)

/-- The point as a complex number. -/
noncomputable def pt (p : Int × Int) : ℂ := ⟨p.1, p.2⟩

/-- Square of the gain after `i` iterations. -/
noncomputable def gsq : Nat → ℝ
  | 0 => 2
  | i + 1 => gsq i * (1 + 1 / 4 ^ (i + 1))

noncomputable def gain (i : Nat) : ℝ := √(gsq i)

theorem gsq_ge (i : Nat) : 2.5 ≤ gsq (i + 1) := by
  induction i with
  | zero => norm_num [gsq]
  | succ i ih =>
    have : (0 : ℝ) < 1 / 4 ^ (i + 1 + 1) := by positivity
    rw [gsq]
    nlinarith

theorem gsq_pos (i : Nat) : 0 < gsq i := by
  cases i with
  | zero => norm_num [gsq]
  | succ i => have := gsq_ge i; linarith

theorem gain_pos (i : Nat) : 0 < gain i := sqrt_pos.2 (gsq_pos i)

theorem gain_step (i : Nat) : gain (i + 1) = √(1 + 1 / 4 ^ (i + 1)) * gain i := by
  unfold gain
  rw [gsq, sqrt_mul (gsq_pos i).le, mul_comm]

theorem gain_small (i : Nat) : √2 ≤ 0.9 * gain (i + 1) := by
  unfold gain
  have h := gsq_ge i
  rw [show (0.9 : ℝ) = √(0.81) by rw [show (0.81 : ℝ) = 0.9 ^ 2 by norm_num, sqrt_sq (by norm_num)], ← sqrt_mul (by norm_num)]
  apply sqrt_le_sqrt
  norm_num at h ⊢
  linarith

/-- One turn, exactly. -/
noncomputable def turn (n : Nat) (neg : Bool) : ℂ := if neg then ⟨1, -(1 / 2 ^ n)⟩ else ⟨1, 1 / 2 ^ n⟩

theorem norm_turn (n : Nat) (neg : Bool) : ‖turn n neg‖ = √(1 + 1 / 4 ^ n) := by
  rw [Complex.norm_def]
  congr 1
  unfold turn
  have : (4 : ℝ) ^ n = 2 ^ n * 2 ^ n := by rw [← mul_pow]; norm_num
  rw [this]
  cases neg <;> simp [Complex.normSq]

theorem norm_le_sqrt2 (z : ℂ) (h1 : |z.re| ≤ 1) (h2 : |z.im| ≤ 1) : ‖z‖ ≤ √2 := by
  rw [Complex.norm_def]
  apply sqrt_le_sqrt
  rw [Complex.normSq_apply]
  have := abs_le.1 h1
  have := abs_le.1 h2
  nlinarith

/-- The quotient of a division by a power of two against the real one. -/
theorem floor_div (a : Int) (n : Nat) : |((a / 2 ^ n : Int) : ℝ) - a / 2 ^ n| ≤ 1 := by
  have h0 : (0 : Int) < 2 ^ n := by positivity
  have hp : (0 : ℝ) < 2 ^ n := by positivity
  have e : (((a / 2 ^ n * 2 ^ n + a % 2 ^ n : Int)) : ℝ) = a := by
    congr 1; rw [mul_comm]; exact Int.mul_ediv_add_emod a (2 ^ n)
  have m0 : (0 : ℝ) ≤ ((a % 2 ^ n : Int) : ℝ) := by exact_mod_cast Int.emod_nonneg a h0.ne'
  have m1 : ((a % 2 ^ n : Int) : ℝ) ≤ 2 ^ n := by exact_mod_cast (Int.emod_lt_of_pos a h0).le
  push_cast at e
  have q : (a : ℝ) / 2 ^ n = ((a / 2 ^ n : Int) : ℝ) + ((a % 2 ^ n : Int) : ℝ) / 2 ^ n := by
    rw [← e]; field_simp
  rw [q]
  have d0 : 0 ≤ ((a % 2 ^ n : Int) : ℝ) / 2 ^ n := div_nonneg m0 hp.le
  have d1 : ((a % 2 ^ n : Int) : ℝ) / 2 ^ n ≤ 1 := (div_le_one hp).2 m1
  rw [abs_le]
  constructor <;> linarith

/-- An iteration is a turn up to the truncation of both components. -/
theorem ittZ_turn (n : Nat) (p : Int × Int) : ∃ neg, ‖pt (ittZ n p) - pt p * turn n neg‖ ≤ √2 := by
  have f1 := floor_div p.1 n
  have f2 := floor_div p.2 n
  by_cases h : p.1 < 0
  · refine ⟨true, norm_le_sqrt2 _ ?_ ?_⟩
    · simp only [pt, turn, ittZ, if_pos h, if_true, Complex.sub_re, Complex.mul_re]
      push_cast
      convert f2 using 2
      ring
    · simp only [pt, turn, ittZ, if_pos h, if_true, Complex.sub_im, Complex.mul_im]
      push_cast
      rw [abs_sub_comm] at f1
      convert f1 using 2
      ring
  · refine ⟨false, norm_le_sqrt2 _ ?_ ?_⟩
    · simp only [pt, turn, ittZ, if_neg h, Bool.false_eq_true, if_false, Complex.sub_re, Complex.mul_re]
      push_cast
      rw [abs_sub_comm] at f2
      convert f2 using 2
      ring
    · simp only [pt, turn, ittZ, if_neg h, Bool.false_eq_true, if_false, Complex.sub_im, Complex.mul_im]
      push_cast
      convert f1 using 2
      ring

theorem norm_start (a b : Int) : ‖pt (startZ a b)‖ = gain 0 * ‖pt (a, b)‖ := by
  have e : ∃ neg, pt (startZ a b) = pt (a, b) * turn 0 neg := by
    by_cases h : a < 0
    · refine ⟨true, ?_⟩
      apply Complex.ext <;> simp [pt, startZ, if_pos h, turn] <;> ring
    · refine ⟨false, ?_⟩
      apply Complex.ext <;> simp [pt, startZ, if_neg h, turn] <;> ring
  obtain ⟨neg, e⟩ := e
  rw [e, norm_mul, norm_turn, gain, gsq, mul_comm]
  norm_num

/-- The length after `i` iterations: the gain times the length, up to 0.9 for every iteration. -/
theorem norm_run (a b : Int) (i : Nat) : |‖pt (runZ a b i)‖ - gain i * ‖pt (a, b)‖| ≤ gain i * (0.9 * i) := by
  induction i with
  | zero => simp [runZ, norm_start]
  | succ i ih =>
    obtain ⟨neg, h⟩ := ittZ_turn (i + 1) (runZ a b i)
    have h1 := (abs_norm_sub_norm_le _ _).trans h
    rw [norm_mul, norm_turn] at h1
    have g := gain_small i
    have gs := gain_step i
    have r0 : 0 ≤ √(1 + 1 / 4 ^ (i + 1) : ℝ) := sqrt_nonneg _
    change |‖pt (ittZ (i + 1) (runZ a b i))‖ - _| ≤ _
    generalize ‖pt (ittZ (i + 1) (runZ a b i))‖ = n' at *
    generalize ‖pt (runZ a b i)‖ = n at *
    generalize ‖pt (a, b)‖ = H at *
    generalize √(1 + 1 / 4 ^ (i + 1) : ℝ) = r at *
    generalize gain (i + 1) = G' at *
    generalize gain i = G at *
    obtain ⟨a1, a2⟩ := abs_le.1 ih
    obtain ⟨b1, b2⟩ := abs_le.1 h1
    have c1 := mul_le_mul_of_nonneg_left a1 r0
    have c2 := mul_le_mul_of_nonneg_left a2 r0
    rw [gs] at g ⊢
    push_cast
    rw [abs_le]
    constructor <;> nlinarith

/-- The angle: the first component is bounded by the second over `2 ^ i`, up to a few units. -/
theorem angle (a b : Int) (hb : 0 ≤ b) (i : Nat) : 0 ≤ (runZ a b i).2 ∧ ∃ d : Nat, d ≤ i ∧ (d = 0 ∨ (2 : Int) ^ (d - 1) ≤ (runZ a b i).2) ∧
    |(runZ a b i).1| ≤ (runZ a b i).2 / 2 ^ i + d := by
  induction i with
  | zero =>
    by_cases h : a < 0
    · simp only [runZ, startZ, if_pos h]
      refine ⟨by omega, 0, by omega, by simp, ?_⟩
      simp only [pow_zero, Int.ediv_one]
      rw [abs_le]; omega
    · simp only [runZ, startZ, if_neg h]
      refine ⟨by omega, 0, by omega, by simp, ?_⟩
      simp only [pow_zero, Int.ediv_one]
      rw [abs_le]; omega
  | succ i ih =>
    obtain ⟨y0, d, d1, d2, d3⟩ := ih
    rw [runZ]
    generalize runZ a b i = p at *
    obtain ⟨x, y⟩ := p
    simp only at *
    have hp : (0 : Int) < 2 ^ (i + 1) := by positivity
    have hp' : (0 : Int) < 2 ^ i := by positivity
    have fl0 : 0 ≤ y / 2 ^ (i + 1) := Int.ediv_nonneg y0 hp.le
    have half : y / 2 ^ (i + 1) = y / 2 ^ i / 2 := by rw [Int.ediv_ediv_of_nonneg hp'.le, pow_succ]
    -- the second component does not shrink
    have grow : y ≤ (ittZ (i + 1) (x, y)).2 := by
      by_cases h : x < 0
      · simp only [ittZ, if_pos h]
        have : x / 2 ^ (i + 1) < 0 := Int.ediv_neg_of_neg_of_pos h hp
        omega
      · simp only [ittZ, if_neg h]
        have : 0 ≤ x / 2 ^ (i + 1) := Int.ediv_nonneg (by omega) hp.le
        omega
    have mono : y / 2 ^ (i + 1) ≤ (ittZ (i + 1) (x, y)).2 / 2 ^ (i + 1) := Int.ediv_le_ediv hp grow
    have fst : |(ittZ (i + 1) (x, y)).1| = abs (|x| - y / 2 ^ (i + 1)) := by
      by_cases h : x < 0
      · simp only [ittZ, if_pos h]
        rw [abs_of_neg h, ← abs_neg]; congr 1; ring
      · simp only [ittZ, if_neg h]
        rw [abs_of_nonneg (by omega : 0 ≤ x)]
    refine ⟨by omega, ?_⟩
    rw [fst]
    have ax0 := abs_nonneg x
    generalize (ittZ (i + 1) (x, y)).2 = y' at *
    generalize |x| = ax at *
    by_cases hz : y / 2 ^ i = 0
    · -- nothing is subtracted any more
      refine ⟨d, by omega, ?_, ?_⟩
      · rcases d2 with h | h
        · exact .inl h
        · exact .inr (by omega)
      · rw [abs_le]; omega
    · have big : (2 : Int) ^ i ≤ y := by
        by_contra hlt
        exact hz (Int.ediv_eq_zero_of_lt y0 (by omega))
      refine ⟨d + 1, by omega, .inr ?_, ?_⟩
      · rw [Nat.add_sub_cancel]
        have : (2 : Int) ^ d ≤ 2 ^ i := by
          exact_mod_cast Nat.pow_le_pow_right (by omega : 0 < 2) d1
        omega
      · rw [abs_le]; push_cast; omega

/-- Numbers for the gain after all iterations. -/
theorem gsq18 : gsq 18 = 2 * (1 + 1 / 4 ^ 1) * (1 + 1 / 4 ^ 2) * (1 + 1 / 4 ^ 3) * (1 + 1 / 4 ^ 4) * (1 + 1 / 4 ^ 5) * (1 + 1 / 4 ^ 6) *
    (1 + 1 / 4 ^ 7) * (1 + 1 / 4 ^ 8) * (1 + 1 / 4 ^ 9) * (1 + 1 / 4 ^ 10) * (1 + 1 / 4 ^ 11) * (1 + 1 / 4 ^ 12) * (1 + 1 / 4 ^ 13) *
    (1 + 1 / 4 ^ 14) * (1 + 1 / 4 ^ 15) * (1 + 1 / 4 ^ 16) * (1 + 1 / 4 ^ 17) * (1 + 1 / 4 ^ 18) := by
  simp only [gsq]

theorem gain_mono (i : Nat) : gain i ≤ gain (i + 1) := by
  unfold gain
  apply sqrt_le_sqrt
  rw [gsq]
  have := gsq_pos i
  have : (0 : ℝ) ≤ gsq i * (1 / 4 ^ (i + 1)) := by positivity
  linarith

theorem gain_le {i : Nat} (h : i ≤ 18) : gain i ≤ 1.65 := by
  have : gain i ≤ gain 18 := monotone_nat_of_le_succ gain_mono h
  refine this.trans ?_
  unfold gain
  rw [sqrt_le_left (by norm_num), gsq18]
  norm_num

/-- The constant of the last multiplication is the inverse of the gain. -/
theorem scalar_gain : |(hypScalar : ℝ) / 2 ^ 32 * gain 18 - 1| ≤ 1 / 2 ^ 30 := by
  have hg := gain_pos 18
  have l : (1 - 1 / 2 ^ 30 : ℝ) * (2 ^ 32 / hypScalar) ≤ gain 18 := by
    apply le_sqrt_of_sq_le
    rw [gsq18]
    norm_num [hypScalar]
  have u : gain 18 ≤ (1 + 1 / 2 ^ 30 : ℝ) * (2 ^ 32 / hypScalar) := by
    apply sqrt_le_iff.2
    constructor
    · norm_num [hypScalar]
    · rw [gsq18]
      norm_num [hypScalar]
  generalize gain 18 = g at *
  norm_num [hypScalar] at l u ⊢
  rw [abs_le]
  constructor <;> linarith

/-- The second component against the length, after the last iteration. -/
theorem last_near (X Y : Int) (hY : 0 ≤ Y) (hY2 : Y < 2 ^ 31) (d : Nat) (h1 : d ≤ 18) (h2 : d = 0 ∨ (2 : Int) ^ (d - 1) ≤ Y)
    (h3 : |X| ≤ Y / 2 ^ 18 + d) : (Y : ℝ) ≤ ‖pt (X, Y)‖ ∧ ‖pt (X, Y)‖ ≤ Y + 1.2 := by
  have hn : ‖pt (X, Y)‖ ^ 2 = (X : ℝ) ^ 2 + (Y : ℝ) ^ 2 := by
    rw [Complex.sq_norm, Complex.normSq_apply]; simp [pt]; ring
  have hn0 : 0 ≤ ‖pt (X, Y)‖ := norm_nonneg _
  generalize ‖pt (X, Y)‖ = N at *
  have y0 : (0 : ℝ) ≤ Y := by exact_mod_cast hY
  have y2 : (Y : ℝ) ≤ 2 ^ 31 := by exact_mod_cast hY2.le
  refine ⟨by nlinarith [sq_nonneg (X : ℝ)], ?_⟩
  by_cases hd : d = 0
  · subst hd
    have : |X| * 2 ^ 18 ≤ Y := by
      have : Y / 2 ^ 18 * 2 ^ 18 ≤ Y := Int.ediv_mul_le _ (by norm_num)
      simp at h3
      omega
    have hx : (|X| : ℝ) * 2 ^ 18 ≤ Y := by exact_mod_cast this
    have hx0 : (0 : ℝ) ≤ |(X : ℝ)| := abs_nonneg _
    have hsq : (X : ℝ) ^ 2 = |(X : ℝ)| ^ 2 := (sq_abs _).symm
    rw [hsq] at hn
    generalize |(X : ℝ)| = x at *
    by_contra hlt
    have : N ^ 2 > (Y + 1.2) ^ 2 := by nlinarith
    have : x ^ 2 * 2 ^ 36 ≤ Y ^ 2 := by nlinarith
    nlinarith
  · have h2 : (2 : Int) ^ (d - 1) ≤ Y := by tauto
    have dd : (d : ℝ) ^ 2 ≤ 1.125 * 2 * Y := by
      have : ∀ k : Nat, k ≤ 18 → (k : Int) ^ 2 * 8 ≤ 9 * 2 * 2 ^ (k - 1) := by decide +kernel
      have := this d h1
      have : (d : Int) ^ 2 * 8 ≤ 9 * 2 * Y := by omega
      have : (d : ℝ) ^ 2 * 8 ≤ 9 * 2 * Y := by exact_mod_cast this
      norm_num
      linarith
    have hx : (|X| : ℝ) ≤ Y / 2 ^ 18 + d := by
      have h3' : |X| - d ≤ Y / 2 ^ 18 := by omega
      have : (|X| - d) * 2 ^ 18 ≤ Y := (Int.le_ediv_iff_mul_le (by norm_num)).1 h3'
      have : ((|X| : ℝ) - d) * 2 ^ 18 ≤ Y := by exact_mod_cast this
      rw [← sub_le_iff_le_add, le_div_iff₀ (by norm_num)]
      exact this
    have hx0 : (0 : ℝ) ≤ |(X : ℝ)| := abs_nonneg _
    have hsq : (X : ℝ) ^ 2 = |(X : ℝ)| ^ 2 := (sq_abs _).symm
    rw [hsq] at hn
    have d18 : (d : ℝ) ≤ 18 := by exact_mod_cast h1
    have d0 : (0 : ℝ) ≤ d := by positivity
    generalize |(X : ℝ)| = x at *
    by_contra hlt
    have n2 : N ^ 2 > (Y + 1.2) ^ 2 := by nlinarith
    have x2 : x ^ 2 ≤ (Y / 2 ^ 18 + d) ^ 2 := by nlinarith
    have e1 : (Y / 2 ^ 18 : ℝ) ^ 2 ≤ Y / 32 := by
      rw [show (Y / 2 ^ 18 : ℝ) ^ 2 = Y * Y / 2 ^ 36 by ring, div_le_div_iff₀ (by norm_num) (by norm_num)]
      nlinarith
    have e2 : (Y : ℝ) / 2 ^ 18 * d ≤ Y / 2 ^ 18 * 18 := mul_le_mul_of_nonneg_left d18 (by positivity)
    nlinarith

theorem last_near' (p : Int × Int) (hY : 0 ≤ p.2) (hY2 : p.2 < 2 ^ 31) (d : Nat) (h1 : d ≤ 18) (h2 : d = 0 ∨ (2 : Int) ^ (d - 1) ≤ p.2)
    (h3 : |p.1| ≤ p.2 / 2 ^ 18 + d) : (p.2 : ℝ) ≤ ‖pt p‖ ∧ ‖pt p‖ ≤ p.2 + 1.2 := last_near p.1 p.2 hY hY2 d h1 h2 h3

/-- The length of the quarters is a quarter of the length. -/
theorem quarter (x y : Int) (a b : Int) (ha : a = x / 4) (hb : b = |y| / 4) :
    |4 * ‖pt (a, b)‖ - √((x : ℝ) ^ 2 + (y : ℝ) ^ 2)| ≤ 4.25 := by
  have e : √((x : ℝ) ^ 2 + (y : ℝ) ^ 2) = ‖(⟨(x : ℝ), |(y : ℝ)|⟩ : ℂ)‖ := by
    rw [Complex.norm_def, Complex.normSq_apply]; congr 1
    simp only
    rw [← sq, ← sq, sq_abs]
  have e4 : 4 * ‖pt (a, b)‖ = ‖(4 : ℂ) * pt (a, b)‖ := by rw [norm_mul]; norm_num
  rw [e, e4]
  refine (abs_norm_sub_norm_le _ _).trans ?_
  rw [Complex.norm_def]
  have h : ∀ z : Int, -3 ≤ 4 * (z / 4 : Int) - z ∧ 4 * (z / 4 : Int) - z ≤ 0 := by intro z; omega
  have h1 := h x
  have h2 := h |y|
  rw [← ha] at h1
  rw [← hb] at h2
  have r1 : (-3 : ℝ) ≤ 4 * a - x := by exact_mod_cast h1.1
  have r2 : (4 * a - x : ℝ) ≤ 0 := by exact_mod_cast h1.2
  have r3 : (-3 : ℝ) ≤ 4 * b - |(y : ℝ)| := by exact_mod_cast h2.1
  have r4 : (4 * b - |(y : ℝ)| : ℝ) ≤ 0 := by exact_mod_cast h2.2
  apply sqrt_le_iff.2
  refine ⟨by norm_num, ?_⟩
  rw [Complex.normSq_apply]
  simp only [pt, Complex.sub_re, Complex.sub_im, Complex.mul_re, Complex.mul_im]
  norm_num
  nlinarith

/-! ### The registers -/

theorem slt_zero (x : BitVec 32) : (x.slt 0 = true) ↔ x.toInt < 0 := by
  simp [BitVec.slt]

theorem toInt_small (y : BitVec 32) (h : y.toNat < 2 ^ 31) : y.toInt = y.toNat := by
  rw [BitVec.toInt_eq_toNat_cond]
  split <;> omega

theorem toNat_of_toInt (x : BitVec 32) (h : 0 ≤ x.toInt) : (x.toNat : Int) = x.toInt ∧ x.toNat < 2 ^ 31 := by
  rw [BitVec.toInt_eq_toNat_cond] at *
  have := x.isLt
  split at h <;> omega

theorem shr_small (y : BitVec 32) (n : Nat) (h : y.toNat < 2 ^ 31) : (y >>> n).toInt = (y.toNat : Int) / 2 ^ n := by
  rw [toInt_small]
  · rw [BitVec.toNat_ushiftRight, Nat.shiftRight_eq_div_pow]; push_cast; rfl
  · rw [BitVec.toNat_ushiftRight, Nat.shiftRight_eq_div_pow]
    exact lt_of_le_of_lt (Nat.div_le_self _ _) h

theorem ashr_eq (x : BitVec 32) (n : Nat) : (x.sshiftRight n).toInt = x.toInt / 2 ^ n := by
  rw [BitVec.toInt_sshiftRight, Int.shiftRight_eq_div_pow]; push_cast; rfl

theorem add_toInt (x y : BitVec 32) (h1 : -2 ^ 31 ≤ x.toInt + y.toInt) (h2 : x.toInt + y.toInt < 2 ^ 31) : (x + y).toInt = x.toInt + y.toInt := by
  rw [BitVec.toInt_add, Int.bmod_eq_of_le] <;> norm_num <;> omega

theorem sub_toInt (x y : BitVec 32) (h1 : -2 ^ 31 ≤ x.toInt - y.toInt) (h2 : x.toInt - y.toInt < 2 ^ 31) : (x - y).toInt = x.toInt - y.toInt := by
  rw [BitVec.toInt_sub, Int.bmod_eq_of_le] <;> norm_num <;> omega

/-- A pair of registers holds a pair of integers. -/
def Holds (r : BitVec 32 × BitVec 32) (p : Int × Int) : Prop := r.1.toInt = p.1 ∧ r.2.toInt = p.2

/-- No overflow. -/
def Small (p : Int × Int) : Prop := |p.1| < 2 ^ 31 ∧ 0 ≤ p.2 ∧ p.2 < 2 ^ 31

theorem itt_holds (n : Nat) (r : BitVec 32 × BitVec 32) (p : Int × Int) (h : Holds r p) (hp : Small p) (hq : Small (ittZ n p)) :
    Holds (itt n r.1 r.2) (ittZ n p) := by
  obtain ⟨h1, h2⟩ := h
  obtain ⟨s1, s2, s3⟩ := hp
  obtain ⟨q1, q2, q3⟩ := hq
  obtain ⟨y1, y2⟩ := toNat_of_toInt r.2 (by omega)
  have sy := shr_small r.2 n y2
  rw [y1, h2] at sy
  rw [abs_lt] at q1
  unfold itt ittZ at *
  by_cases c : p.1 < 0
  · have c' : r.1.slt 0 = true := by rw [slt_zero]; omega
    rw [if_pos c'] 
    simp only [if_pos c] at *
    have sx := ashr_eq r.1 n
    rw [h1] at sx
    constructor
    · rw [add_toInt, sy, h1] <;> rw [sy, h1] <;> omega
    · rw [sub_toInt, sx, h2] <;> rw [sx, h2] <;> omega
  · have c' : ¬ r.1.slt 0 = true := by rw [slt_zero]; omega
    rw [if_neg c'] 
    simp only [if_neg c] at *
    obtain ⟨x1, x2⟩ := toNat_of_toInt r.1 (by omega)
    have sx := shr_small r.1 n x2
    rw [x1, h1] at sx
    constructor
    · rw [sub_toInt, sy, h1] <;> rw [sy, h1] <;> omega
    · rw [add_toInt, sx, h2] <;> rw [sx, h2] <;> omega

theorem start_holds (x y : BitVec 32) : Holds (hypStart x y) (startZ (x.toInt / 4) (|y.toInt| / 4)) := by
  have hx1 := BitVec.le_toInt x
  have hx2 := BitVec.toInt_lt (x := x)
  have hy1 := BitVec.le_toInt y
  have hy2 := BitVec.toInt_lt (x := y)
  norm_num at hx1 hx2 hy1 hy2
  have ex : (x.sshiftRight 2).toInt = x.toInt / 4 := by rw [ashr_eq]; norm_num
  have ey : ((if y.slt 0 then -y else y) >>> 2).toInt = |y.toInt| / 4 := by
    have en : (((if y.slt 0 then -y else y).toNat : Nat) : Int) = |y.toInt| := by
      by_cases c : y.toInt < 0
      · rw [if_pos ((slt_zero y).2 c), abs_of_neg c, BitVec.toNat_neg, BitVec.toInt_eq_toNat_cond] at *
        have := y.isLt
        split at c <;> omega
      · rw [if_neg (fun h => c ((slt_zero y).1 h)), abs_of_nonneg (by omega)]
        exact (toNat_of_toInt y (by omega)).1
    generalize (if y.slt 0 then -y else y) = w at *
    have hw : (w >>> 2).toNat = w.toNat / 4 := by rw [BitVec.toNat_ushiftRight, Nat.shiftRight_eq_div_pow]
    have := w.isLt
    rw [toInt_small _ (by omega), hw]
    push_cast
    rw [en]
  unfold hypStart startZ
  generalize ((if y.slt 0 then -y else y) >>> 2) = w at *
  generalize x.sshiftRight 2 = v at *
  have ya : |y.toInt| ≤ 2 ^ 31 := by rw [abs_le]; omega
  have ya0 := abs_nonneg y.toInt
  by_cases c : x.toInt / 4 < 0
  · have c' : v.slt 0 = true := by rw [slt_zero]; omega
    rw [if_pos c]
    simp only [if_pos c']
    constructor
    · rw [add_toInt] <;> omega
    · rw [sub_toInt] <;> omega
  · have c' : ¬ v.slt 0 = true := by rw [slt_zero]; omega
    rw [if_neg c]
    simp only [if_neg c']
    constructor
    · rw [sub_toInt] <;> omega
    · rw [add_toInt] <;> omega

theorem norm_quarter_le (a b : Int) (ha : |a| ≤ 2 ^ 29) (hb : |b| ≤ 2 ^ 29) : ‖pt (a, b)‖ ≤ 760000000 := by
  rw [Complex.norm_def]
  apply sqrt_le_iff.2
  refine ⟨by norm_num, ?_⟩
  rw [Complex.normSq_apply]
  have r1 : |(a : ℝ)| ≤ 2 ^ 29 := by exact_mod_cast ha
  have r2 : |(b : ℝ)| ≤ 2 ^ 29 := by exact_mod_cast hb
  have := abs_le.1 r1
  have := abs_le.1 r2
  simp only [pt]
  norm_num at *
  nlinarith

theorem run_small (a b : Int) (ha : |a| ≤ 2 ^ 29) (hb0 : 0 ≤ b) (hb : b ≤ 2 ^ 29) (i : Nat) (hi : i ≤ 18) :
    Small (runZ a b i) ∧ (runZ a b i).2 ≤ 1290000000 := by
  have hH := norm_quarter_le a b ha (by rw [abs_le]; omega)
  have hr := (abs_le.1 (norm_run a b i)).2
  have hg := gain_le hi
  have hg0 := gain_pos i
  have hi' : (i : ℝ) ≤ 18 := by exact_mod_cast hi
  have hbd : ‖pt (runZ a b i)‖ ≤ 1290000000 := by
    have : ‖pt (runZ a b i)‖ ≤ gain i * (‖pt (a, b)‖ + 0.9 * i) := by linarith
    refine this.trans ?_
    have hn := norm_nonneg (pt (a, b))
    calc gain i * (‖pt (a, b)‖ + 0.9 * i) ≤ 1.65 * (760000000 + 0.9 * 18) := by
          exact mul_le_mul hg (add_le_add hH (by linarith)) (by positivity) (by norm_num)
      _ ≤ _ := by norm_num
  have r := (Complex.abs_re_le_norm (pt (runZ a b i))).trans hbd
  have m := (Complex.abs_im_le_norm (pt (runZ a b i))).trans hbd
  have pos := (angle a b hb0 i).1
  generalize runZ a b i = p at *
  change |(p.1 : ℝ)| ≤ _ at r
  change |(p.2 : ℝ)| ≤ _ at m
  have r' : |p.1| ≤ 1290000000 := by exact_mod_cast r
  have m' : |p.2| ≤ 1290000000 := by exact_mod_cast m
  have := abs_le.1 m'
  exact ⟨⟨by norm_num; omega, pos, by norm_num; omega⟩, by omega⟩

/-- The registers follow the integers. -/
theorem turns_holds (r : BitVec 32 × BitVec 32) (a b : Int) (ha : |a| ≤ 2 ^ 29) (hb0 : 0 ≤ b) (hb : b ≤ 2 ^ 29) (hr : Holds r (runZ a b 0)) :
    ∀ k, k ≤ 18 → Holds ((List.range' 1 k).foldl (fun p n => itt n p.1 p.2) r) (runZ a b k) := by
  intro k
  induction k with
  | zero => intro _; simpa using hr
  | succ k ih =>
    intro hk
    rw [List.range'_concat, List.foldl_append]
    have := itt_holds (k + 1) _ _ (ih (by omega)) (run_small a b ha hb0 hb k (by omega)).1 (run_small a b ha hb0 hb (k + 1) hk).1
    simpa [Nat.add_comm, runZ] using this

/-- What `hypot_i` returns, from the integer run. -/
theorem hypot_val (x y : BitVec 32) (Y : Int) (hY : Y = (runZ (x.toInt / 4) (|y.toInt| / 4) 18).2) :
    ((hypot_i x y).toNat : Int) = 4 * (Y * 2608131495 / 2 ^ 32) := by
  have hx1 := BitVec.le_toInt x
  have hx2 := BitVec.toInt_lt (x := x)
  have hy1 := BitVec.le_toInt y
  have hy2 := BitVec.toInt_lt (x := y)
  norm_num at hx1 hx2 hy1 hy2
  have ya : |y.toInt| ≤ 2 ^ 31 := by rw [abs_le]; omega
  have ya0 := abs_nonneg y.toInt
  have ha : |x.toInt / 4| ≤ 2 ^ 29 := by rw [abs_le]; omega
  have h := turns_holds (hypStart x y) _ _ ha (by omega : 0 ≤ |y.toInt| / 4) (by omega) (start_holds x y)
  have hl : Holds (itt 18 (hypTurns (hypStart x y)).1 (hypTurns (hypStart x y)).2) (runZ (x.toInt / 4) (|y.toInt| / 4) 18) := by
    have e : runZ (x.toInt / 4) (|y.toInt| / 4) 18 = ittZ 18 (runZ (x.toInt / 4) (|y.toInt| / 4) 17) := by rw [runZ]
    rw [e]
    apply itt_holds 18 _ _ (h 17 (by omega)) (run_small _ _ ha (by omega) (by omega) 17 (by omega)).1
    rw [← e]
    exact (run_small _ _ ha (by omega) (by omega) 18 (by omega)).1
  have fin : ∀ r : BitVec 32 × BitVec 32, ittFinal 18 r.1 r.2 = (itt 18 r.1 r.2).2 := by
    intro r; unfold ittFinal itt; split <;> rfl
  obtain ⟨s, sb⟩ := run_small _ _ ha (by omega : 0 ≤ |y.toInt| / 4) (by omega) 18 (by omega)
  unfold hypot_i
  simp only [fin]
  have h2 := hl.2
  rw [← hY] at h2 sb
  have s0 := s.2.1
  rw [← hY] at s0
  generalize (itt 18 (hypTurns (hypStart x y)).1 (hypTurns (hypStart x y)).2).2 = w at *
  obtain ⟨w1, w2⟩ := toNat_of_toInt w (by omega)
  rw [h2] at w1
  clear hY
  rw [← w1] at sb ⊢
  have : w.toNat * hypScalar / 2 ^ 32 < 2 ^ 30 := by
    rw [Nat.div_lt_iff_lt_mul (by norm_num)]
    unfold hypScalar
    omega
  rw [BitVec.toNat_shiftLeft, BitVec.toNat_ofNat, Nat.mod_eq_of_lt (by omega : w.toNat * hypScalar / 2 ^ 32 < 2 ^ 32), Nat.shiftLeft_eq,
    Nat.mod_eq_of_lt (by omega)]
  unfold hypScalar
  push_cast
  norm_num
  ring

/-- The errors together. -/
theorem real_end (H T N Y q g : ℝ) (h0 : 0 ≤ H) (h1 : H ≤ 760000000) (n1 : Y ≤ N) (n2 : N ≤ Y + 1.2) (a1 : -(17 / 4) ≤ 4 * H - T)
    (a2 : 4 * H - T ≤ 17 / 4) (b1 : g * H - g * 16.2 ≤ N) (b2 : N ≤ g * H + g * 16.2)
    (c1 : 1 - 1 / 2 ^ 30 ≤ 2608131495 / 4294967296 * g) (c2 : 2608131495 / 4294967296 * g ≤ 1 + 1 / 2 ^ 30)
    (r1 : q * 4294967296 ≤ Y * 2608131495) (r2 : Y * 2608131495 ≤ (q + 1) * 4294967296) : |4 * q - T| ≤ 80 := by
  have u1 : (2608131495 / 4294967296 * g) * (H + 16.2) ≤ (1 + 1 / 2 ^ 30) * (H + 16.2) := mul_le_mul_of_nonneg_right c2 (by positivity)
  have u2 : (1 - 1 / 2 ^ 30) * H ≤ (2608131495 / 4294967296 * g) * H := mul_le_mul_of_nonneg_right c1 h0
  have u3 : (1 - 1 / 2 ^ 30) * H ≥ H - 1 := by norm_num; linarith
  have u4 : (1 + 1 / 2 ^ 30) * (H + 16.2) ≤ H + 16.2 + 1 := by norm_num; linarith
  norm_num at *
  rw [abs_le]
  constructor <;> linarith

/-- **C87.** For every two words, read as signed numbers, the returned word, read as an unsigned number, is within 80 of the
length of the vector. -/
theorem C87_hypot_unsigned (x y : BitVec 32) : |((hypot_i x y).toNat : ℝ) - √((x.toInt : ℝ) ^ 2 + (y.toInt : ℝ) ^ 2)| ≤ 80 := by
  have hx1 := BitVec.le_toInt x
  have hx2 := BitVec.toInt_lt (x := x)
  have hy1 := BitVec.le_toInt y
  have hy2 := BitVec.toInt_lt (x := y)
  norm_num at hx1 hx2 hy1 hy2
  have ya : |y.toInt| ≤ 2 ^ 31 := by rw [abs_le]; omega
  have ya0 := abs_nonneg y.toInt
  have ha : |x.toInt / 4| ≤ 2 ^ 29 := by rw [abs_le]; omega
  have hb0 : 0 ≤ |y.toInt| / 4 := by omega
  have hb : |y.toInt| / 4 ≤ 2 ^ 29 := by omega
  have hv := hypot_val x y _ rfl
  have hq := quarter x.toInt y.toInt _ _ rfl rfl
  have hH := norm_quarter_le _ _ ha (by rw [abs_le]; omega : |(|y.toInt| / 4)| ≤ 2 ^ 29)
  have hn := norm_run (x.toInt / 4) (|y.toInt| / 4) 18
  obtain ⟨⟨-, s2, s3⟩, s4⟩ := run_small _ _ ha hb0 hb 18 le_rfl
  obtain ⟨-, d, d1, d2, d3⟩ := angle (x.toInt / 4) _ hb0 18
  obtain ⟨n1, n2⟩ := last_near' _ s2 s3 d d1 d2 d3
  have sg := scalar_gain
  have sn := norm_nonneg (pt (x.toInt / 4, |y.toInt| / 4))
  have gl := gain_le (le_refl 18)
  have g0 := gain_pos 18
  generalize √((x.toInt : ℝ) ^ 2 + (y.toInt : ℝ) ^ 2) = T at *
  generalize ‖pt (runZ (x.toInt / 4) (|y.toInt| / 4) 18)‖ = N at *
  generalize (runZ (x.toInt / 4) (|y.toInt| / 4) 18).2 = Y at *
  generalize ‖pt (x.toInt / 4, |y.toInt| / 4)‖ = H at *
  have hR : ((hypot_i x y).toNat : ℝ) = 4 * ((Y * 2608131495 / 2 ^ 32 : Int) : ℝ) := by exact_mod_cast hv
  have f1 : (Y * 2608131495 / 2 ^ 32) * 2 ^ 32 ≤ Y * 2608131495 := Int.ediv_mul_le _ (by norm_num)
  have f2 : Y * 2608131495 < (Y * 2608131495 / 2 ^ 32 + 1) * 2 ^ 32 := Int.lt_ediv_add_one_mul_self _ (by norm_num)
  rw [hR]
  generalize (Y * 2608131495 / 2 ^ 32) = q at *
  have r1 : (q : ℝ) * 2 ^ 32 ≤ Y * 2608131495 := by exact_mod_cast f1
  have r2 : (Y : ℝ) * 2608131495 ≤ (q + 1) * 2 ^ 32 := by exact_mod_cast f2.le
  obtain ⟨a1, a2⟩ := abs_le.1 hq
  obtain ⟨b1, b2⟩ := abs_le.1 hn
  obtain ⟨c1, c2⟩ := abs_le.1 sg
  generalize gain 18 = g at *
  have k : (hypScalar : ℝ) / 2 ^ 32 = 2608131495 / 4294967296 := by norm_num [hypScalar]
  rw [k] at c1 c2
  exact real_end H T N Y q g sn hH n1 n2 (by norm_num at a1; linarith) (by norm_num at a2; linarith) (by norm_num at b1 ⊢; linarith)
    (by norm_num at b2 ⊢; linarith) (by linarith) (by linarith) (by norm_num at r1; exact r1) (by norm_num at r2; exact r2)

/-- **C87, as the C prototype reads it.** If the length fits into an `int` with 81 to spare the returned `int` is within 80 of it. -/
theorem C87_hypot (x y : BitVec 32) (h : √((x.toInt : ℝ) ^ 2 + (y.toInt : ℝ) ^ 2) ≤ 2 ^ 31 - 81) :
    |((hypot_i x y).toInt : ℝ) - √((x.toInt : ℝ) ^ 2 + (y.toInt : ℝ) ^ 2)| ≤ 80 := by
  have u := C87_hypot_unsigned x y
  have : ((hypot_i x y).toNat : ℝ) ≤ 2 ^ 31 - 1 := by have := (abs_le.1 u).2; linarith
  have : ((hypot_i x y).toNat : ℝ) < ((2 ^ 31 : Nat) : ℝ) := by push_cast; linarith
  rw [toInt_small _ (Nat.cast_lt.1 this)]
  exact_mod_cast u

/-- Three and four; the smallest negative number; and the noise floor: nothing but one bit gives 44. -/
theorem C87_example : (hypot_i 300000 400000).toInt = 500004 ∧ (hypot_i 0x80000000#32 0).toNat = 2147483652 ∧ (hypot_i (-1) 0).toInt = 44 := by
  decide +kernel

/-- The bound on the length in `C87_hypot` is needed: two large numbers give a negative `int`. -/
theorem C87_range_needed : (hypot_i 0x7fffffff#32 0x7fffffff#32).toInt < 0 := by decide +kernel

end Verif.Audio
