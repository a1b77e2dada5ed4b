import Verif.Audio.LogModel
import Mathlib.Analysis.SpecialFunctions.Log.Base
import Mathlib.Analysis.SpecialFunctions.Log.Deriv
import Mathlib.Analysis.Convex.SpecificFunctions.Basic
import Mathlib.Analysis.Complex.ExponentialBounds
/-!
C85, C86: accuracy of the fixed-point logarithms, for every argument.
-/
namespace Verif.Audio
open Real

/-- The position of the leading one. -/
theorem log2_spec {x : Nat} (h : 1 ≤ x) : 2 ^ Nat.log2 x ≤ x ∧ x < 2 ^ (Nat.log2 x + 1) :=
  ⟨Nat.log2_self_le (by omega), Nat.lt_log2_self⟩

theorem log2_le {x : Nat} (h : 1 ≤ x) {k : Nat} (hx : x < 2 ^ (k + 1)) : Nat.log2 x ≤ k := by
  have := (log2_spec h).1
  have := Nat.lt_of_le_of_lt this hx
  have := (Nat.pow_lt_pow_iff_right (by omega : 1 < 2)).1 this
  omega

/-- Shifting the leading one to position `p`. -/
theorem shl_spec {x : Nat} (h1 : 1 ≤ x) (p : Nat) (hp : p ≤ 31) {T : Nat} (hT : shl x ((p : Int) - Nat.log2 x) = T) :
    2 ^ p ≤ T ∧ T < 2 ^ (p + 1) ∧ T * 2 ^ Nat.log2 x ≤ x * 2 ^ p ∧ x * 2 ^ p < (T + 1) * 2 ^ Nat.log2 x := by
  obtain ⟨a, b⟩ := log2_spec h1
  generalize Nat.log2 x = e at *
  unfold shl at hT
  by_cases hpe : (0 : Int) ≤ p - e
  · rw [if_pos hpe] at hT
    have hk : ((p : Int) - e).toNat = p - e := by omega
    obtain ⟨d, rfl⟩ : ∃ d, p = e + d := ⟨p - e, by omega⟩
    rw [hk, Nat.add_sub_cancel_left] at hT
    have hd := Nat.two_pow_pos d
    have he := Nat.two_pow_pos e
    have lt : x * 2 ^ d < 2 ^ (e + d + 1) := by
      calc x * 2 ^ d < 2 ^ (e + 1) * 2 ^ d := Nat.mul_lt_mul_of_pos_right b hd
        _ = 2 ^ (e + d + 1) := by rw [← pow_add]; congr 1; omega
    have le : 2 ^ (e + d + 1) ≤ 2 ^ 32 := Nat.pow_le_pow_right (by omega) (by omega)
    rw [Nat.mod_eq_of_lt (by omega)] at hT
    subst hT
    refine ⟨?_, lt, ?_, ?_⟩
    · rw [pow_add]; exact Nat.mul_le_mul_right _ a
    · rw [pow_add]; apply le_of_eq; ring
    · rw [pow_add]
      calc x * (2 ^ e * 2 ^ d) = x * 2 ^ d * 2 ^ e := by ring
        _ < (x * 2 ^ d + 1) * 2 ^ e := Nat.mul_lt_mul_of_pos_right (by omega) he
  · rw [if_neg hpe] at hT
    have hk : (-((p : Int) - e)).toNat = e - p := by omega
    obtain ⟨d, rfl⟩ : ∃ d, e = p + d := ⟨e - p, by omega⟩
    rw [hk, Nat.add_sub_cancel_left] at hT
    have hd := Nat.two_pow_pos d
    have hp := Nat.two_pow_pos p
    have m1 : T * 2 ^ d ≤ x := by rw [← hT]; exact Nat.div_mul_le_self _ _
    have m2 : x < (T + 1) * 2 ^ d := by
      rw [← hT]
      have := Nat.div_add_mod x (2 ^ d)
      have := Nat.mod_lt x hd
      nlinarith
    refine ⟨?_, ?_, ?_, ?_⟩
    · rw [← hT, Nat.le_div_iff_mul_le hd, ← pow_add]; exact a
    · rw [← hT, Nat.div_lt_iff_lt_mul hd, ← pow_add]
      rwa [show p + 1 + d = p + d + 1 by omega]
    · rw [pow_add]
      calc T * (2 ^ p * 2 ^ d) = T * 2 ^ d * 2 ^ p := by ring
        _ ≤ _ := Nat.mul_le_mul_right _ m1
    · rw [pow_add]
      calc x * 2 ^ p < (T + 1) * 2 ^ d * 2 ^ p := Nat.mul_lt_mul_of_pos_right m2 hp
        _ = _ := by ring

/-- The mantissa of `x` lies between `T / 2 ^ p` and the next number. -/
theorem mantissa {x : Nat} (h1 : 1 ≤ x) {p T : Nat} (hT1 : 2 ^ p ≤ T) (h2 : T * 2 ^ Nat.log2 x ≤ x * 2 ^ p)
    (h3 : x * 2 ^ p < (T + 1) * 2 ^ Nat.log2 x) :
    (Nat.log2 x : ℝ) + logb 2 (T / 2 ^ p) ≤ logb 2 x ∧ logb 2 x ≤ Nat.log2 x + logb 2 ((T + 1) / 2 ^ p) := by
  generalize Nat.log2 x = e at *
  have hx : (0 : ℝ) < x := by exact_mod_cast h1
  have hT : (0 : ℝ) < T := by
    have := Nat.two_pow_pos p
    have : 0 < T := by omega
    exact_mod_cast this
  have he : (e : ℝ) = logb 2 (2 ^ e) := by rw [logb_pow, logb_self_eq_one (by norm_num)]; ring
  have r2 : (T : ℝ) * 2 ^ e ≤ x * 2 ^ p := by exact_mod_cast h2
  have r3 : (x : ℝ) * 2 ^ p ≤ (T + 1) * 2 ^ e := by exact_mod_cast h3.le
  have pp : (0 : ℝ) < 2 ^ p := by positivity
  have pe : (0 : ℝ) < 2 ^ e := by positivity
  constructor
  · rw [he, ← logb_mul (by positivity) (by positivity)]
    apply logb_le_logb_of_le (by norm_num) (by positivity)
    rw [← mul_div_assoc, div_le_iff₀ pp]
    linarith
  · rw [he, ← logb_mul (by positivity) (by positivity)]
    apply logb_le_logb_of_le (by norm_num) hx
    rw [← mul_div_assoc, le_div_iff₀ pp]
    linarith

/-- Logarithms of natural numbers to any precision, by powers. -/
theorem logb_nat (u N : Nat) (hu : 1 ≤ u) : (Nat.log2 (u ^ N) : ℝ) ≤ N * logb 2 u ∧ N * logb 2 u ≤ Nat.log2 (u ^ N) + 1 := by
  have hp : 1 ≤ u ^ N := Nat.one_le_pow _ _ hu
  obtain ⟨a, b⟩ := log2_spec hp
  have e : (N : ℝ) * logb 2 u = logb 2 ((u ^ N : Nat) : ℝ) := by push_cast; rw [logb_pow]
  have l : ∀ k : Nat, (k : ℝ) = logb 2 ((2 ^ k : Nat) : ℝ) := by
    intro k; push_cast; rw [logb_pow, logb_self_eq_one (by norm_num)]; ring
  rw [e]
  constructor
  · rw [l]
    apply logb_le_logb_of_le (by norm_num) (by positivity)
    exact_mod_cast a
  · rw [show (Nat.log2 (u ^ N) : ℝ) + 1 = ((Nat.log2 (u ^ N) + 1 : Nat) : ℝ) by push_cast; ring, l (Nat.log2 (u ^ N) + 1)]
    apply logb_le_logb_of_le (by norm_num)
    · exact_mod_cast hp
    · exact_mod_cast b.le

theorem wrap32_eq {v : Int} (h1 : -2 ^ 31 ≤ v) (h2 : v < 2 ^ 31) : wrap32 v = v := by
  unfold wrap32
  omega

theorem clz_eq {x : Nat} (h1 : 1 ≤ x) (h2 : x < 2 ^ 32) : (clz x : Int) = 31 - Nat.log2 x ∧ Nat.log2 x ≤ 31 := by
  have := log2_le h1 (k := 31) (by simpa using h2)
  unfold clz
  rw [if_neg (by omega)]
  omega

theorem log8_check : ∀ T, 8 ≤ T → T < 16 → 2 ^ (T - 8) * 8 ^ 8 ≤ T ^ 8 ∧ (T + 1) ^ 80 ≤ 2 ^ (10 * (T - 8) + 17) * 8 ^ 80 := by decide +kernel

/-- **C85, 8-bit version.** Eight times the logarithm is never exceeded and missed by at most 1.7. -/
theorem C85_log2_8 (x : Nat) (h1 : 1 ≤ x) (h2 : x < 2 ^ 32) :
    -1.7 ≤ (log2_8 x : ℝ) - 8 * logb 2 x ∧ (log2_8 x : ℝ) - 8 * logb 2 x ≤ 0 := by
  obtain ⟨hc, he⟩ := clz_eq h1 h2
  have hs : (clz x : Int) - 28 = ((3 : Nat) : Int) - Nat.log2 x := by omega
  obtain ⟨t1, t2, t3, t4⟩ := shl_spec h1 3 (by omega) (rfl : shl x (((3 : Nat) : Int) - Nat.log2 x) = _)
  obtain ⟨m1, m2⟩ := mantissa h1 t1 t3 t4
  have hv : log2_8 x = (shl x (((3 : Nat) : Int) - Nat.log2 x) - 8 : Int) + 8 * Nat.log2 x := by
    unfold log2_8 zext
    rw [hs, hc]
    generalize shl x (((3 : Nat) : Int) - Nat.log2 x) = T at *
    have : T % 2 ^ 3 = T - 8 := by omega
    rw [this, wrap32_eq] <;> omega
  generalize shl x (((3 : Nat) : Int) - Nat.log2 x) = T at *
  obtain ⟨k1, k2⟩ := log8_check T (by omega) (by omega)
  have hT : (0 : ℝ) < T := by have : 0 < T := by omega
                              exact_mod_cast this
  have c1 : ((T : ℝ) - 8) ≤ 8 * logb 2 (T / 2 ^ 3) := by
    have : (2 : ℝ) ^ (T - 8) ≤ (T / 2 ^ 3) ^ 8 := by
      rw [div_pow, le_div_iff₀ (by positivity)]
      have : ((2 ^ (T - 8) * 8 ^ 8 : Nat) : ℝ) ≤ ((T ^ 8 : Nat) : ℝ) := by exact_mod_cast k1
      push_cast at this
      norm_num at this ⊢
      exact this
    have := logb_le_logb_of_le (b := 2) (by norm_num) (by positivity) this
    rw [logb_pow, logb_pow, logb_self_eq_one (by norm_num), Nat.cast_sub (by omega)] at this
    push_cast at this
    linarith
  have c2 : 8 * logb 2 (((T : ℝ) + 1) / 2 ^ 3) ≤ ((T : ℝ) - 8) + 1.7 := by
    have : (((T : ℝ) + 1) / 2 ^ 3) ^ 80 ≤ (2 : ℝ) ^ (10 * (T - 8) + 17) := by
      rw [div_pow, div_le_iff₀ (by positivity)]
      have : (((T + 1) ^ 80 : Nat) : ℝ) ≤ ((2 ^ (10 * (T - 8) + 17) * 8 ^ 80 : Nat) : ℝ) := by exact_mod_cast k2
      push_cast at this
      norm_num at this ⊢
      exact this
    have := logb_le_logb_of_le (b := 2) (by norm_num) (by positivity) this
    rw [logb_pow, logb_pow, logb_self_eq_one (by norm_num)] at this
    push_cast [Nat.cast_sub (show 8 ≤ T by omega)] at this
    norm_num at this ⊢
    linarith
  rw [hv]
  push_cast
  constructor <;> linarith

/-! ### The 16-bit version -/

/-- `8192 * log2 w` rounded down, from `w = 64`; checked by `lg_check`. -/
def lgTable : List Nat := [
  49152, 49335, 49515, 49693, 49868, 50041, 50211, 50378, 50544, 50707, 50867, 51026, 51183, 51337, 51490, 51640,
  51789, 51936, 52081, 52224, 52365, 52505, 52643, 52780, 52915, 53049, 53181, 53311, 53441, 53568, 53695, 53820,
  53944, 54066, 54187, 54307, 54426, 54544, 54660, 54775, 54890, 55003, 55115, 55226, 55336, 55444, 55552, 55659,
  55765, 55870, 55975, 56078, 56180, 56282, 56382, 56482, 56581, 56679, 56776, 56873, 56968, 57063, 57157, 57251,
  57344, 57435, 57527, 57617, 57707, 57796, 57885, 57973, 58060, 58147, 58233, 58318, 58403, 58487, 58570, 58653,
  58736, 58817, 58899, 58979, 59059, 59139, 59218, 59297, 59375, 59452, 59529, 59606, 59682, 59757, 59832, 59907,
  59981, 60054, 60128, 60200, 60273, 60344, 60416, 60487, 60557, 60628, 60697, 60767, 60835, 60904, 60972, 61040,
  61107, 61174, 61241, 61307, 61373, 61438, 61503, 61568, 61633, 61697, 61760, 61824, 61887, 61949, 62012, 62074,
  62136, 62197, 62258, 62319, 62379, 62439, 62499, 62559, 62618, 62677, 62736, 62794, 62852, 62910, 62967, 63025,
  63082, 63138, 63195, 63251, 63307, 63362, 63418, 63473, 63528, 63582, 63636, 63691, 63744, 63798, 63851, 63904,
  63957, 64010, 64062, 64115, 64167, 64218, 64270, 64321, 64372, 64423, 64474, 64524, 64574, 64624, 64674, 64723,
  64773, 64822, 64871, 64920, 64968, 65016, 65065, 65113, 65160, 65208, 65255, 65302, 65349, 65396, 65443, 65489]

def lg (w : Nat) : Nat := lgTable.getD (w - 64) 0

theorem lg_check : ∀ i, i < 192 → 2 ^ lgTable.getD i 0 ≤ (64 + i) ^ 8192 ∧ (64 + i) ^ 8192 ≤ 2 ^ (lgTable.getD i 0 + 1) := by decide +kernel

/-- Row `u - 64` against the logarithm: from above at both ends of the segment, from below with the tangent in its middle. -/
def rowOK (u : Nat) : Bool :=
  let row := logTable.getD (u - 64) (0, 0)
  let a : ℚ := row.1
  let m : ℚ := row.2
  let mid : ℚ := ((lg (2 * u + 1) : ℚ) + 1 - 7 * 8192) / 8
  decide (a + m * u / 128 ≤ ((lg u : ℚ) - 6 * 8192) / 8 + 9 / 10 ∧
    a + m * (u + 1) / 128 ≤ ((lg (u + 1) : ℚ) - 6 * 8192) / 8 + 9 / 10 ∧
    mid - 1024 * (14426 / 10000) / (2 * u + 1) ≤ a + m * u / 128 - m / 65536 - 1 + 195 / 100 ∧
    mid + 1024 * (14427 / 10000) / (2 * u + 1) ≤ a + m * (u + 1) / 128 - m / 65536 - 1 + 195 / 100 ∧
    -2000 < row.1 ∧ row.1 < 0 ∧ 0 < row.2 ∧ row.2 < 3000)

theorem rows_ok : ∀ u, u < 64 → rowOK (64 + u) = true := by decide +kernel

theorem lg_spec (w : Nat) (h1 : 64 ≤ w) (h2 : w < 256) : (lg w : ℝ) ≤ 8192 * logb 2 w ∧ 8192 * logb 2 w ≤ lg w + 1 := by
  obtain ⟨a, b⟩ := lg_check (w - 64) (by omega)
  rw [show 64 + (w - 64) = w by omega] at a b
  change 2 ^ lg w ≤ _ at a
  change _ ≤ 2 ^ (lg w + 1) at b
  generalize lg w = k at *
  have hw : (0 : ℝ) < w := by have : 0 < w := by omega
                              exact_mod_cast this
  have e : (8192 : ℝ) * logb 2 w = logb 2 ((w : ℝ) ^ 8192) := by rw [logb_pow]; norm_num
  have l : ∀ k : Nat, (k : ℝ) = logb 2 ((2 : ℝ) ^ k) := by
    intro k; rw [logb_pow, logb_self_eq_one (by norm_num)]; ring
  have ra : (2 : ℝ) ^ k ≤ (w : ℝ) ^ 8192 := by exact_mod_cast a
  have rb : (w : ℝ) ^ 8192 ≤ (2 : ℝ) ^ (k + 1) := by exact_mod_cast b
  rw [e]
  constructor
  · rw [l k]
    exact logb_le_logb_of_le (by norm_num) (by positivity) ra
  · rw [show (k : ℝ) + 1 = ((k + 1 : Nat) : ℝ) by push_cast; ring, l (k + 1)]
    exact logb_le_logb_of_le (by norm_num) (by positivity) rb

/-- A segment of the table: `Y` is the 16-bit mantissa, `u` its first seven bits. -/
theorem segment (u Y : Nat) (hu1 : 64 ≤ u) (hu2 : u < 128) (hY1 : 512 * u ≤ Y) (hY2 : Y < 512 * (u + 1)) :
    let row := logTable.getD (u - 64) (0, 0)
    ((row.1 : ℝ) + row.2 * Y / 65536 ≤ 1024 * logb 2 (Y / 2 ^ 15) + 0.9) ∧
    1024 * logb 2 ((Y + 1) / 2 ^ 15) - 1.95 ≤ (row.1 : ℝ) + row.2 * Y / 65536 - 1 := by
  intro row
  have hrow := rows_ok (u - 64) (by omega)
  rw [show 64 + (u - 64) = u by omega] at hrow
  have hrow := of_decide_eq_true hrow
  change ((row.1 : ℚ) + (row.2 : ℚ) * u / 128 ≤ _) ∧ _ at hrow
  obtain ⟨r1, r2, r3, r4, -⟩ := hrow
  change (row.1 : ℚ) + (row.2 : ℚ) * (u + 1) / 128 ≤ _ at r2
  change _ ≤ (row.1 : ℚ) + (row.2 : ℚ) * u / 128 - (row.2 : ℚ) / 65536 - 1 + 195 / 100 at r3
  change _ ≤ (row.1 : ℚ) + (row.2 : ℚ) * (u + 1) / 128 - (row.2 : ℚ) / 65536 - 1 + 195 / 100 at r4
  obtain ⟨l1, -⟩ := lg_spec u hu1 (by omega)
  obtain ⟨l2, -⟩ := lg_spec (u + 1) (by omega) (by omega)
  obtain ⟨-, l3⟩ := lg_spec (2 * u + 1) (by omega) (by omega)
  generalize row.1 = a at *
  generalize row.2 = m at *
  generalize lg u = k1 at *
  generalize lg (u + 1) = k2 at *
  generalize lg (2 * u + 1) = k3 at *
  have q1 : (a : ℝ) + m * u / 128 ≤ ((k1 : ℝ) - 6 * 8192) / 8 + 9 / 10 := by
    have := (Rat.cast_le (K := ℝ)).2 r1
    push_cast at this
    exact this
  have q2 : (a : ℝ) + m * (u + 1) / 128 ≤ ((k2 : ℝ) - 6 * 8192) / 8 + 9 / 10 := by
    have := (Rat.cast_le (K := ℝ)).2 r2
    push_cast at this
    exact this
  have q3 : ((k3 : ℝ) + 1 - 7 * 8192) / 8 - 1024 * (14426 / 10000) / (2 * u + 1) ≤ a + m * u / 128 - m / 65536 - 1 + 195 / 100 := by
    have := (Rat.cast_le (K := ℝ)).2 r3
    push_cast at this
    exact this
  have q4 : ((k3 : ℝ) + 1 - 7 * 8192) / 8 + 1024 * (14427 / 10000) / (2 * u + 1) ≤ a + m * (u + 1) / 128 - m / 65536 - 1 + 195 / 100 := by
    have := (Rat.cast_le (K := ℝ)).2 r4
    push_cast at this
    exact this
  push_cast at l2 l3
  have hu : (64 : ℝ) ≤ u := by exact_mod_cast hu1
  have y1 : (512 : ℝ) * u ≤ Y := by exact_mod_cast hY1
  have y2 : (Y : ℝ) + 1 ≤ 512 * (u + 1) := by exact_mod_cast hY2
  have log2pos : 0 < log 2 := log_pos (by norm_num)
  have l6 : logb 2 (64 : ℝ) = 6 := by
    rw [show (64 : ℝ) = 2 ^ 6 by norm_num, logb_pow, logb_self_eq_one (by norm_num)]; norm_num
  constructor
  · obtain ⟨σ, hσ⟩ : ∃ σ : ℝ, σ = Y / 512 - u := ⟨_, rfl⟩
    have s0 : 0 ≤ σ := by rw [hσ]; linarith
    have s1 : σ ≤ 1 := by rw [hσ]; linarith
    have hY : (Y : ℝ) = 512 * (u + σ) := by rw [hσ]; ring
    have e1 : logb 2 ((Y : ℝ) / 2 ^ 15) = logb 2 (u + σ) - 6 := by
      rw [hY, show (512 * ((u : ℝ) + σ) / 2 ^ 15) = (u + σ) / 64 by ring, logb_div (by linarith) (by norm_num), l6]
    have conc : (1 - σ) * logb 2 u + σ * logb 2 (u + 1) ≤ logb 2 (u + σ) := by
      have := strictConcaveOn_log_Ioi.concaveOn.2 (show (u : ℝ) ∈ Set.Ioi 0 by simp only [Set.mem_Ioi]; linarith)
        (show (u : ℝ) + 1 ∈ Set.Ioi 0 by simp only [Set.mem_Ioi]; linarith) (by linarith : (0 : ℝ) ≤ 1 - σ) s0 (by ring)
      simp only [smul_eq_mul] at this
      rw [show (1 - σ) * (u : ℝ) + σ * (u + 1) = u + σ by ring] at this
      unfold logb
      rw [← mul_div_assoc, ← mul_div_assoc, ← add_div]
      exact (div_le_div_iff_of_pos_right log2pos).2 this
    rw [e1, hY]
    have a1 := mul_le_mul_of_nonneg_left (q1.trans (by linarith : _ ≤ (1024 * (logb 2 u - 6) + 9 / 10 : ℝ))) (by linarith : 0 ≤ 1 - σ)
    have a2 := mul_le_mul_of_nonneg_left (q2.trans (by linarith : _ ≤ (1024 * (logb 2 ((u : ℝ) + 1) - 6) + 9 / 10 : ℝ))) s0
    have e2 : (a : ℝ) + m * (512 * (u + σ)) / 65536 = (1 - σ) * (a + m * u / 128) + σ * (a + m * (u + 1) / 128) := by ring
    rw [e2]
    norm_num at a1 a2 ⊢
    linarith
  · obtain ⟨σ, hσ⟩ : ∃ σ : ℝ, σ = (Y + 1) / 512 - u := ⟨_, rfl⟩
    have s0 : 0 ≤ σ := by rw [hσ]; linarith
    have s1 : σ ≤ 1 := by rw [hσ]; linarith
    have hY : (Y : ℝ) + 1 = 512 * (u + σ) := by rw [hσ]; ring
    have e1 : logb 2 (((Y : ℝ) + 1) / 2 ^ 15) = logb 2 (u + σ) - 6 := by
      rw [hY, show (512 * ((u : ℝ) + σ) / 2 ^ 15) = (u + σ) / 64 by ring, logb_div (by linarith) (by norm_num), l6]
    have w0 : (0 : ℝ) < 2 * u + 1 := by linarith
    have tang : logb 2 (u + σ) ≤ logb 2 (2 * u + 1) - 1 + (2 * σ - 1) / (2 * u + 1) / log 2 := by
      have h0 : (0 : ℝ) < u + σ := by linarith
      have := log_le_sub_one_of_pos (x := (u + σ) / ((2 * u + 1) / 2)) (by positivity)
      rw [log_div h0.ne' (by positivity), log_div w0.ne' (by norm_num)] at this
      have e : (u + σ) / ((2 * u + 1) / 2) - 1 = (2 * σ - 1) / (2 * u + 1) := by field_simp; ring
      rw [e] at this
      have key : log (u + σ) ≤ log (2 * u + 1) - log 2 + (2 * σ - 1) / (2 * u + 1) := by linarith
      unfold logb
      rw [div_le_iff₀ log2pos]
      have e2 : (log (2 * (u : ℝ) + 1) / log 2 - 1 + (2 * σ - 1) / (2 * u + 1) / log 2) * log 2 = log (2 * u + 1) - log 2 + (2 * σ - 1) / (2 * u + 1) := by
        field_simp
      rw [e2]
      exact key
    have g1 : 14426 / 10000 ≤ 1 / log 2 := by
      rw [le_div_iff₀ log2pos]; have := log_two_lt_d9; norm_num at this ⊢; linarith
    have g2 : 1 / log 2 ≤ 14427 / 10000 := by
      rw [div_le_iff₀ log2pos]; have := log_two_gt_d9; norm_num at this ⊢; linarith
    have winv : (0 : ℝ) < 1 / (2 * u + 1) := by positivity
    have b0 : -1 / (2 * (u : ℝ) + 1) / log 2 ≤ - (14426 / 10000) / (2 * u + 1) := by
      have := mul_le_mul_of_nonneg_right g1 winv.le
      have e1 : -1 / (2 * (u : ℝ) + 1) / log 2 = - (1 / log 2 * (1 / (2 * u + 1))) := by field_simp
      have e2 : - (14426 / 10000) / (2 * (u : ℝ) + 1) = - (14426 / 10000 * (1 / (2 * u + 1))) := by field_simp
      rw [e1, e2]; linarith
    have b1 : 1 / (2 * (u : ℝ) + 1) / log 2 ≤ (14427 / 10000) / (2 * u + 1) := by
      have := mul_le_mul_of_nonneg_right g2 winv.le
      have e1 : 1 / (2 * (u : ℝ) + 1) / log 2 = 1 / log 2 * (1 / (2 * u + 1)) := by field_simp
      have e2 : (14427 / 10000) / (2 * (u : ℝ) + 1) = 14427 / 10000 * (1 / (2 * u + 1)) := by field_simp
      rw [e1, e2]; exact this
    have split : (2 * σ - 1) / (2 * (u : ℝ) + 1) / log 2 = (1 - σ) * (-1 / (2 * (u : ℝ) + 1) / log 2) + σ * (1 / (2 * (u : ℝ) + 1) / log 2) := by
      field_simp; ring
    have c0 := mul_le_mul_of_nonneg_left b0 (by linarith : 0 ≤ 1 - σ)
    have c1 := mul_le_mul_of_nonneg_left b1 s0
    have d0 := mul_le_mul_of_nonneg_left q3 (by linarith : 0 ≤ 1 - σ)
    have d1 := mul_le_mul_of_nonneg_left q4 s0
    have e2 : (a : ℝ) + m * Y / 65536 = (1 - σ) * (a + m * u / 128 - m / 65536 - 1 + 195 / 100) + σ * (a + m * (u + 1) / 128 - m / 65536 - 1 + 195 / 100) - 95 / 100 := by
      rw [show (Y : ℝ) = 512 * (u + σ) - 1 by linarith]; ring
    rw [e1, e2]
    have t2 : 1024 * logb 2 (2 * (u : ℝ) + 1) ≤ (k3 + 1) / 8 := by linarith
    have f0 : (1 - σ) * (((k3 : ℝ) + 1 - 7 * 8192) / 8 - 1024 * (14426 / 10000) / (2 * u + 1)) =
        (1 - σ) * (((k3 : ℝ) + 1 - 7 * 8192) / 8) + 1024 * ((1 - σ) * (- (14426 / 10000) / (2 * u + 1))) := by ring
    have f1 : σ * (((k3 : ℝ) + 1 - 7 * 8192) / 8 + 1024 * (14427 / 10000) / (2 * u + 1)) =
        σ * (((k3 : ℝ) + 1 - 7 * 8192) / 8) + 1024 * (σ * ((14427 / 10000) / (2 * u + 1))) := by ring
    rw [f0] at d0
    rw [f1] at d1
    rw [split] at tang
    norm_num at *
    linarith

/-- The bounds for `log2_16`, a little sharper than C85 needs. -/
theorem log2_16_near (x : Nat) (h1 : 1 ≤ x) (h2 : x < 2 ^ 32) :
    1024 * logb 2 x - 1.95 ≤ log2_16 x ∧ (log2_16 x : ℝ) ≤ 1024 * logb 2 x + 0.9 := by
  obtain ⟨hc, he⟩ := clz_eq h1 h2
  have hs6 : (clz x : Int) - 25 = ((6 : Nat) : Int) - Nat.log2 x := by omega
  have hs15 : (clz x : Int) - 16 = ((15 : Nat) : Int) - Nat.log2 x := by omega
  obtain ⟨u1, u2, u3, u4⟩ := shl_spec h1 6 (by omega) (rfl : shl x (((6 : Nat) : Int) - Nat.log2 x) = _)
  obtain ⟨t1, t2, t3, t4⟩ := shl_spec h1 15 (by omega) (rfl : shl x (((15 : Nat) : Int) - Nat.log2 x) = _)
  obtain ⟨m1, m2⟩ := mantissa h1 t1 t3 t4
  have hv : log2_16 x = wrap32 ((logTable.getD (zext (shl x (((6 : Nat) : Int) - Nat.log2 x)) 6) (0, 0)).1 +
      (((logTable.getD (zext (shl x (((6 : Nat) : Int) - Nat.log2 x)) 6) (0, 0)).2 * zext (shl x (((15 : Nat) : Int) - Nat.log2 x)) 16 % 2 ^ 32 / 2 ^ 16 : Nat) : Int)
      + (31 - (clz x : Int)) * 1024) := by
    unfold log2_16
    rw [hs6, hs15]
  generalize shl x (((6 : Nat) : Int) - Nat.log2 x) = U at *
  generalize shl x (((15 : Nat) : Int) - Nat.log2 x) = Y at *
  have he2 := Nat.two_pow_pos (Nat.log2 x)
  have y1 : 512 * U ≤ Y := by
    have : U * 512 * 2 ^ Nat.log2 x < (Y + 1) * 2 ^ Nat.log2 x := by
      calc U * 512 * 2 ^ Nat.log2 x = U * 2 ^ Nat.log2 x * 512 := by ring
        _ ≤ x * 2 ^ 6 * 512 := Nat.mul_le_mul_right _ u3
        _ = x * 2 ^ 15 := by ring
        _ < _ := t4
    have := Nat.lt_of_mul_lt_mul_right this
    omega
  have y2 : Y < 512 * (U + 1) := by
    have : Y * 2 ^ Nat.log2 x < 512 * (U + 1) * 2 ^ Nat.log2 x := by
      calc Y * 2 ^ Nat.log2 x ≤ x * 2 ^ 15 := t3
        _ = x * 2 ^ 6 * 512 := by ring
        _ < (U + 1) * 2 ^ Nat.log2 x * 512 := Nat.mul_lt_mul_of_pos_right u4 (by omega)
        _ = _ := by ring
    exact Nat.lt_of_mul_lt_mul_right this
  have z1 : zext U 6 = U - 64 := by unfold zext; omega
  have z2 : zext Y 16 = Y := by unfold zext; omega
  rw [z1, z2, hc] at hv
  have hrow := of_decide_eq_true (rows_ok (U - 64) (by omega))
  rw [show 64 + (U - 64) = U by omega] at hrow
  obtain ⟨-, -, -, -, b1, b2, b3, b4⟩ := hrow
  obtain ⟨g1, g2⟩ := segment U Y (by omega) (by omega) y1 y2
  generalize logTable.getD (U - 64) (0, 0) = row at *
  have p1 : row.2 * Y < 196608000 := by
    have : row.2 * Y ≤ 3000 * Y := Nat.mul_le_mul_right _ b4.le
    omega
  rw [Nat.mod_eq_of_lt (lt_of_lt_of_le p1 (by norm_num))] at hv
  have hw : row.2 * Y / 2 ^ 16 < 3000 := by
    rw [Nat.div_lt_iff_lt_mul (by norm_num)]
    exact lt_of_lt_of_le p1 (by norm_num)
  have fl1 : ((row.2 * Y / 2 ^ 16 : Nat) : ℝ) ≤ row.2 * Y / 65536 := by
    have : ((row.2 * Y / 2 ^ 16 : Nat) : ℝ) ≤ ((row.2 * Y : Nat) : ℝ) / ((2 ^ 16 : Nat) : ℝ) := Nat.cast_div_le
    push_cast at this
    norm_num at this ⊢
    exact this
  have fl2 : (row.2 * Y / 65536 : ℝ) - 1 ≤ ((row.2 * Y / 2 ^ 16 : Nat) : ℝ) := by
    have : row.2 * Y < (row.2 * Y / 2 ^ 16 + 1) * 65536 := by omega
    have : ((row.2 * Y : Nat) : ℝ) ≤ (((row.2 * Y / 2 ^ 16 + 1) * 65536 : Nat) : ℝ) := by exact_mod_cast this.le
    push_cast at this ⊢
    rw [sub_le_iff_le_add, div_le_iff₀ (by norm_num)]
    exact this
  generalize row.2 * Y / 2 ^ 16 = w at *
  rw [wrap32_eq (by omega) (by omega)] at hv
  rw [hv]
  push_cast
  constructor <;> linarith

/-- **C85, 16-bit version.** For every 32-bit number except zero the result is within two units of 1024 times the logarithm. -/
theorem C85_log2_16 (x : Nat) (h1 : 1 ≤ x) (h2 : x < 2 ^ 32) :
    -2 ≤ (log2_16 x : ℝ) - 1024 * logb 2 x ∧ (log2_16 x : ℝ) - 1024 * logb 2 x ≤ 1 := by
  obtain ⟨a, b⟩ := log2_16_near x h1 h2
  norm_num at a b
  constructor <;> linarith

/-- The value of `log2_8`, for C85's order claim. -/
theorem log2_8_eq (x : Nat) (h1 : 1 ≤ x) (h2 : x < 2 ^ 32) : ∃ T, 8 ≤ T ∧ T < 16 ∧ T * 2 ^ Nat.log2 x ≤ x * 8 ∧
    x * 8 < (T + 1) * 2 ^ Nat.log2 x ∧ log2_8 x = (T - 8 : Int) + 8 * Nat.log2 x := by
  obtain ⟨hc, he⟩ := clz_eq h1 h2
  have hs : (clz x : Int) - 28 = ((3 : Nat) : Int) - Nat.log2 x := by omega
  obtain ⟨t1, t2, t3, t4⟩ := shl_spec h1 3 (by omega) (rfl : shl x (((3 : Nat) : Int) - Nat.log2 x) = _)
  refine ⟨_, t1, t2, t3, t4, ?_⟩
  unfold log2_8 zext
  rw [hs, hc]
  generalize shl x (((3 : Nat) : Int) - Nat.log2 x) = T at *
  have : T % 2 ^ 3 = T - 8 := by omega
  rw [this, wrap32_eq] <;> omega

/-- **C85, order.** The 8-bit version never reverses two numbers. -/
theorem C85_log2_8_mono (x y : Nat) (h1 : 1 ≤ x) (h : x ≤ y) (h2 : y < 2 ^ 32) : log2_8 x ≤ log2_8 y := by
  obtain ⟨T, a1, a2, a3, a4, a5⟩ := log2_8_eq x h1 (by omega)
  obtain ⟨S, b1, b2, b3, b4, b5⟩ := log2_8_eq y (by omega) h2
  rw [a5, b5]
  have hl : Nat.log2 x ≤ Nat.log2 y := by
    have := (log2_spec h1).1
    have := (log2_spec (show 1 ≤ y by omega)).2
    have := (Nat.pow_lt_pow_iff_right (by omega : 1 < 2)).1 (show 2 ^ Nat.log2 x < 2 ^ (Nat.log2 y + 1) by omega)
    omega
  rcases Nat.eq_or_lt_of_le hl with e | e
  · rw [e] at a3 ⊢
    have : T * 2 ^ Nat.log2 y < (S + 1) * 2 ^ Nat.log2 y := by omega
    have := Nat.lt_of_mul_lt_mul_right this
    omega
  · omega

/-- **C85, order.** The 16-bit version may reverse two numbers, by two units at most. -/
theorem C85_log2_16_mono (x y : Nat) (h1 : 1 ≤ x) (h : x ≤ y) (h2 : y < 2 ^ 32) : log2_16 x ≤ log2_16 y + 2 := by
  obtain ⟨-, a⟩ := log2_16_near x h1 (by omega)
  obtain ⟨b, -⟩ := log2_16_near y (by omega) h2
  have hx : (0 : ℝ) < x := by exact_mod_cast h1
  have := logb_le_logb_of_le (b := 2) (by norm_num) hx (show (x : ℝ) ≤ y by exact_mod_cast h)
  have : (log2_16 x : ℝ) < ((log2_16 y + 3 : Int) : ℝ) := by push_cast; norm_num at a b; linarith
  have := Int.cast_lt.1 this
  omega

/-! ### 64 bits -/

/-- Above 32 bits: how `log2_16_64` and `log2_8_64` normalise. -/
theorem norm64 (x : Nat) (h1 : 2 ^ 32 ≤ x) (h2 : x < 2 ^ 64) : ∃ k, 1 ≤ k ∧ k ≤ 32 ∧ 32 - (clz (x / 2 ^ 32) : Int) = (k : Nat) ∧
    2 ^ 31 ≤ x / 2 ^ k ∧ x / 2 ^ k < 2 ^ 32 ∧ x / 2 ^ k * 2 ^ k ≤ x ∧ x < (x / 2 ^ k + 1) * 2 ^ k := by
  have hq1 : 1 ≤ x / 2 ^ 32 := (Nat.le_div_iff_mul_le (by norm_num)).2 (by omega)
  have hq2 : x / 2 ^ 32 < 2 ^ 32 := (Nat.div_lt_iff_lt_mul (by norm_num)).2 (by norm_num; omega)
  obtain ⟨hc, he⟩ := clz_eq hq1 hq2
  obtain ⟨s1, s2⟩ := log2_spec hq1
  refine ⟨Nat.log2 (x / 2 ^ 32) + 1, by omega, by omega, by omega, ?_, ?_, Nat.div_mul_le_self _ _, ?_⟩
  · rw [Nat.le_div_iff_mul_le (by positivity)]
    have := (Nat.le_div_iff_mul_le (by norm_num : 0 < 2 ^ 32)).1 s1
    calc 2 ^ 31 * 2 ^ (Nat.log2 (x / 2 ^ 32) + 1) = 2 ^ Nat.log2 (x / 2 ^ 32) * 2 ^ 32 := by rw [pow_succ]; ring
      _ ≤ x := this
  · rw [Nat.div_lt_iff_lt_mul (by positivity)]
    have := (Nat.div_lt_iff_lt_mul (by norm_num : 0 < 2 ^ 32)).1 s2
    calc x < _ := this
      _ = _ := by ring
  · have := Nat.div_add_mod x (2 ^ (Nat.log2 (x / 2 ^ 32) + 1))
    have := Nat.mod_lt x (show 0 < 2 ^ (Nat.log2 (x / 2 ^ 32) + 1) by positivity)
    nlinarith

/-- **C86.** The 16-bit logarithm of a 64-bit number is as accurate as that of a 32-bit number. -/
theorem C86_log2_16_64 (x : Nat) (h1 : 1 ≤ x) (h2 : x < 2 ^ 64) :
    -2 ≤ (log2_16_64 x : ℝ) - 1024 * logb 2 x ∧ (log2_16_64 x : ℝ) - 1024 * logb 2 x ≤ 1 := by
  by_cases h : x < 2 ^ 32
  · have e : log2_16_64 x = log2_16 x := by
      unfold log2_16_64
      rw [Nat.div_eq_of_lt h, Nat.mod_eq_of_lt h]
      simp [clz]
    rw [e]
    exact C85_log2_16 x h1 h
  · obtain ⟨k, k1, k2, kc, y1, y2, y3, y4⟩ := norm64 x (by omega) h2
    have e : log2_16_64 x = log2_16 (x / 2 ^ k) + k * 1024 := by
      unfold log2_16_64
      rw [kc]
      dsimp only
      rw [if_neg (by omega), Int.toNat_natCast, Nat.mod_eq_of_lt y2]
    rw [e]
    generalize x / 2 ^ k = y at *
    obtain ⟨a, b⟩ := log2_16_near y (by omega) y2
    have hy : (2 ^ 31 : ℝ) ≤ y := by exact_mod_cast y1
    have hy0 : (0 : ℝ) < y := by linarith [show (0 : ℝ) < 2 ^ 31 by norm_num]
    have hx : (0 : ℝ) < x := by exact_mod_cast h1
    have kk : logb 2 ((2 : ℝ) ^ k) = k := by rw [logb_pow, logb_self_eq_one (by norm_num)]; ring
    have r3 : (y : ℝ) * 2 ^ k ≤ x := by exact_mod_cast y3
    have r4 : (x : ℝ) ≤ (y + 1) * 2 ^ k := by exact_mod_cast y4.le
    have l3 := logb_le_logb_of_le (b := 2) (by norm_num) (by positivity) r3
    have l4 := logb_le_logb_of_le (b := 2) (by norm_num) hx r4
    rw [logb_mul (by positivity) (by positivity), kk] at l3 l4
    have gap : logb 2 ((y : ℝ) + 1) ≤ logb 2 y + 1 / 100000 := by
      have := log_le_sub_one_of_pos (x := ((y : ℝ) + 1) / y) (by positivity)
      rw [log_div (by positivity) (by positivity)] at this
      have e : ((y : ℝ) + 1) / y - 1 = 1 / y := by field_simp; ring
      rw [e] at this
      have i1 : (1 : ℝ) / y ≤ 1 / 2 ^ 31 := one_div_le_one_div_of_le (by norm_num) hy
      have lp : 0 < log 2 := log_pos (by norm_num)
      have lg := log_two_gt_d9
      unfold logb
      rw [div_le_iff₀ lp, add_mul, div_mul_cancel₀ _ lp.ne']
      have i2 : (1 : ℝ) / 2 ^ 31 ≤ 1 / 100000 * (1 / 2) := by norm_num
      have i3 : (1 : ℝ) / 2 ≤ log 2 := by norm_num at lg ⊢; linarith
      have i4 := mul_le_mul_of_nonneg_left i3 (by norm_num : (0 : ℝ) ≤ 1 / 100000)
      linarith
    push_cast
    norm_num at a b gap ⊢
    constructor <;> linarith

/-- **C86, 8-bit version, what holds.** Below 32 bits it is `log2_8`; above, the exponent above 31 counts once instead of eight times. -/
theorem C86_log2_8_64_partial (x : Nat) (h1 : 1 ≤ x) (h2 : x < 2 ^ 64) :
    (x < 2 ^ 32 → -1.7 ≤ (log2_8_64 x : ℝ) - 8 * logb 2 x ∧ (log2_8_64 x : ℝ) - 8 * logb 2 x ≤ 0) ∧
    (2 ^ 32 ≤ x → (log2_8_64 x : ℝ) ≤ 8 * logb 2 x - 7) := by
  constructor
  · intro h
    have e : log2_8_64 x = log2_8 x := by
      unfold log2_8_64
      rw [Nat.div_eq_of_lt h, Nat.mod_eq_of_lt h]
      simp [clz]
    rw [e]
    exact C85_log2_8 x h1 h
  · intro h
    obtain ⟨k, k1, k2, kc, y1, y2, y3, y4⟩ := norm64 x (by omega) h2
    have e : log2_8_64 x = log2_8 (x / 2 ^ k) + k := by
      unfold log2_8_64
      rw [kc]
      dsimp only
      rw [if_neg (by omega), Int.toNat_natCast, Nat.mod_eq_of_lt y2]
    rw [e]
    generalize x / 2 ^ k = y at *
    obtain ⟨-, b⟩ := C85_log2_8 y (by omega) y2
    have hy : (2 ^ 31 : ℝ) ≤ y := by exact_mod_cast y1
    have hy0 : (0 : ℝ) < y := by linarith [show (0 : ℝ) < 2 ^ 31 by norm_num]
    have kk : logb 2 ((2 : ℝ) ^ k) = k := by rw [logb_pow, logb_self_eq_one (by norm_num)]; ring
    have r3 : (y : ℝ) * 2 ^ k ≤ x := by exact_mod_cast y3
    have l3 := logb_le_logb_of_le (b := 2) (by norm_num) (by positivity) r3
    rw [logb_mul (by positivity) (by positivity), kk] at l3
    have k1' : (1 : ℝ) ≤ k := by exact_mod_cast k1
    push_cast
    linarith

/-- A step of the table: the 16-bit version does go down. -/
theorem C85_log2_16_drop : log2_16 35328 < log2_16 35327 := by decide +kernel

/-- C85 and C86 on numbers. -/
theorem C85_example : log2_8 1000 = 79 ∧ log2_16 1000 = 10204 ∧ log2_16_64 (2 ^ 40) = 40960 := by decide +kernel

end Verif.Audio
