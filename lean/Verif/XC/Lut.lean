import Mathlib.Analysis.Complex.Trigonometric
import Mathlib.Algebra.Order.Round
import Mathlib.Data.Real.Archimedean
import Mathlib.Tactic.Linarith
import Mathlib.Tactic.Positivity
import Mathlib.Tactic.FieldSimp
import Mathlib.Tactic.NormNum
/-!
Lookup tables for 8-bit activations (`getLookupTableI8`) and for softmax (`getExpLookupF32`),
xformer/Transforms/ApplyXCPatterns.cpp, and the four-byte pad value (`getPadValue`).

Simplification, for the whole file: the C++ computes in `double`; the model computes with real numbers.
-/
namespace Verif.XC

/-! ### Model -/

/-- C++ `round` on a real number: to nearest, ties away from zero. -/
noncomputable def roundR (x : ℝ) : ℤ := if 0 ≤ x then ⌊x + 1 / 2⌋ else ⌈x - 1 / 2⌉

/-- The activations of the patterns in xformer/Transforms/XCPatterns.td 18–25. -/
inductive Activation where
  | relu
  | relu6
  | tanh
  | logistic
  | hardSwish

/-- ApplyXCPatterns.cpp 218–240: the function applied to every dequantised value. -/
noncomputable def Activation.apply : Activation → ℝ → ℝ
  | .relu, x => max x 0
  | .relu6, x => min (max x 0) 6
  | .tanh, x => Real.tanh x
  | .logistic, x => 1 / (1 + Real.exp (-x))
  | .hardSwish, x => x * min (max (x + 3) 0) 6 / 6

/-- Quantisation parameters of a tensor with signed 8-bit storage. -/
structure QI8 where
  scale : ℝ
  zp : ℤ

/-- ApplyXCPatterns.cpp 183–190: the two `iota`s: `0 … 127` in the first half, `-128 … -1` in the second. -/
def inputVector : List ℤ :=
  (List.range 128).map (fun (k : Nat) => (k : ℤ)) ++ (List.range 128).map (fun (k : Nat) => -128 + (k : ℤ))

/-- Conversion of an `int32_t` to `uint8_t`. -/
def toU8 (v : ℤ) : Nat := (v % 256).toNat

/-- ApplyXCPatterns.cpp 245–252: division, rounding, zero point, saturation, conversion to `uint8_t`.  The
`static_cast<int32_t>` of a rounded value outside the `int32_t` range is undefined behaviour: `none`.  Simplification: the
sum with the 64-bit zero point is not truncated to 32 bits. -/
noncomputable def quantEntry (out : QI8) (n : ℝ) : Option Nat :=
  let r := roundR (n / out.scale)
  if -2147483648 ≤ r ∧ r ≤ 2147483647 then some (toU8 (max (min (r + out.zp) 127) (-128))) else none

/-- ApplyXCPatterns.cpp 181–258, `getLookupTableI8` (207–213: dequantisation). -/
noncomputable def lookupTable (a : Activation) (inp out : QI8) : List (Option Nat) :=
  (inputVector.map fun (n : ℤ) => ((n - inp.zp : ℤ) : ℝ) * inp.scale).map fun x => quantEntry out (a.apply x)

/-- ApplyXCPatterns.cpp 80–108, `getExpLookupF32`: entry `i` belongs to the quantised value `i - 128`. -/
noncomputable def expTable (inp : QI8) : List ℝ :=
  (List.range 256).map fun (i : Nat) => Real.exp (((((i : ℤ) - 128) - inp.zp : ℤ) : ℝ) * inp.scale)

/-- ApplyXCPatterns.cpp 42–65, `getPadValue`: `zp` is the zero point of a quantised input type and 0 otherwise; `bits8`
tells whether the storage type has 8 bits. -/
def padValue (zp : ℤ) (bits8 : Bool) : BitVec 32 :=
  let p := BitVec.ofInt 32 zp
  if bits8 then (p <<< 24) ||| ((p <<< 16) &&& 0x00FFFFFF#32) ||| ((p <<< 8) &&& 0x0000FFFF#32) ||| (p &&& 0x000000FF#32)
  else p

/-! ### Specification -/

/-- What the kernel does with the table: the input byte is the index. -/
def tableAt (t : List (Option Nat)) (q : ℤ) : Option Nat := (t[(toU8 q)]?).join

/-- The signed 8-bit value of a byte. -/
def ofU8 (b : Nat) : ℤ := if b < 128 then b else (b : ℤ) - 256

/-- The real number that a quantised value stands for. -/
noncomputable def QI8.deq (t : QI8) (q : ℤ) : ℝ := t.scale * ((q : ℝ) - t.zp)

/-- `q` is a best 8-bit approximation of `x`. -/
def Best (t : QI8) (x : ℝ) (q : ℤ) : Prop :=
  (-128 ≤ q ∧ q ≤ 127) ∧ ∀ q', -128 ≤ q' → q' ≤ 127 → |t.deq q - x| ≤ |t.deq q' - x|

/-! ### Proofs -/

theorem inputVector_length : inputVector.length = 256 := by simp [inputVector]

theorem inputVector_at (q : ℤ) (h1 : -128 ≤ q) (h2 : q ≤ 127) : inputVector[(toU8 q)]? = some q := by
  unfold inputVector toU8
  by_cases h : 0 ≤ q
  · rw [List.getElem?_append_left (by simp; omega), List.getElem?_map, List.getElem?_range (by omega)]
    simp; omega
  · rw [List.getElem?_append_right (by simp; omega), List.getElem?_map]
    simp only [List.length_map, List.length_range]
    rw [List.getElem?_range (by omega)]
    simp only [Option.map_some, Option.some.injEq]; omega

theorem ofU8_toU8 (q : ℤ) (h1 : -128 ≤ q) (h2 : q ≤ 127) : ofU8 (toU8 q) = q := by
  unfold ofU8 toU8
  split <;> omega

theorem roundR_near (x : ℝ) : |(roundR x : ℝ) - x| ≤ 1 / 2 := by
  unfold roundR
  split
  · have h1 := Int.floor_le (x + 1 / 2)
    have h2 := Int.lt_floor_add_one (x + 1 / 2)
    rw [abs_le]; constructor <;> linarith
  · have h1 := Int.le_ceil (x - 1 / 2)
    have h2 := Int.ceil_lt_add_one (x - 1 / 2)
    rw [abs_le]; constructor <;> linarith

/-- The rounded and saturated value is a best one. -/
theorem best_clamp (t : QI8) (hs : 0 < t.scale) (x : ℝ) :
    Best t x (max (min (roundR (x / t.scale) + t.zp) 127) (-128)) := by
  have hr := abs_le.1 (roundR_near (x / t.scale))
  set r := roundR (x / t.scale) with hr0
  refine ⟨by omega, ?_⟩
  intro q' h1 h2
  have key : ∀ q : ℤ, |t.deq q - x| = t.scale * |((q - t.zp : ℤ) : ℝ) - x / t.scale| := by
    intro q
    unfold QI8.deq
    rw [show t.scale * ((q : ℝ) - t.zp) - x = t.scale * (((q - t.zp : ℤ) : ℝ) - x / t.scale) by
      push_cast; field_simp, abs_mul, abs_of_pos hs]
  rw [key, key]
  apply mul_le_mul_of_nonneg_left _ hs.le
  generalize x / t.scale = y at *
  set c := max (min (r + t.zp) 127) (-128) with hc
  -- compare the integers r, c - zp, q' - zp
  rcases lt_trichotomy c (r + t.zp) with h | h | h
  · have hc1 : c = 127 := by omega
    have e1 : q' - t.zp ≤ c - t.zp := by omega
    have e2 : c - t.zp ≤ r - 1 := by omega
    have e1' : ((q' - t.zp : ℤ) : ℝ) ≤ ((c - t.zp : ℤ) : ℝ) := by exact_mod_cast e1
    have e2' : ((c - t.zp : ℤ) : ℝ) ≤ (r : ℝ) - 1 := by exact_mod_cast e2
    rw [abs_of_nonpos (by linarith), abs_of_nonpos (by linarith)]
    linarith
  · have e : c - t.zp = r := by omega
    rw [e]
    by_cases hq : q' - t.zp = r
    · rw [hq]
    · rcases lt_or_gt_of_ne hq with h' | h'
      · have : q' - t.zp ≤ r - 1 := by omega
        have : ((q' - t.zp : ℤ) : ℝ) ≤ (r : ℝ) - 1 := by exact_mod_cast this
        have l1 : |(r : ℝ) - y| ≤ 1 / 2 := abs_le.2 hr
        have l2 := neg_le_abs (((q' - t.zp : ℤ) : ℝ) - y)
        linarith
      · have : r + 1 ≤ q' - t.zp := by omega
        have : (r : ℝ) + 1 ≤ ((q' - t.zp : ℤ) : ℝ) := by exact_mod_cast this
        have l1 : |(r : ℝ) - y| ≤ 1 / 2 := abs_le.2 hr
        have l2 := le_abs_self (((q' - t.zp : ℤ) : ℝ) - y)
        linarith
  · have hc1 : c = -128 := by omega
    have e1 : c - t.zp ≤ q' - t.zp := by omega
    have e2 : r + 1 ≤ c - t.zp := by omega
    have e1' : ((c - t.zp : ℤ) : ℝ) ≤ ((q' - t.zp : ℤ) : ℝ) := by exact_mod_cast e1
    have e2' : (r : ℝ) + 1 ≤ ((c - t.zp : ℤ) : ℝ) := by exact_mod_cast e2
    rw [abs_of_nonneg (by linarith), abs_of_nonneg (by linarith)]
    linarith

/-- **C35**.  For every input value, activation and quantisation: the table entry that the input value addresses is an
8-bit value closest to the activation of the real number that the input stands for - provided that number divided by the
output scale fits 32 bits (otherwise the conversion in the code is undefined). -/
theorem C35_lookup_table (a : Activation) (inp out : QI8) (hs : 0 < out.scale) (q : ℤ) (h1 : -128 ≤ q) (h2 : q ≤ 127)
    (hfit : |a.apply (inp.deq q)| ≤ 2147483647 * out.scale) :
    (lookupTable a inp out).length = 256 ∧
    ∃ b, tableAt (lookupTable a inp out) q = some b ∧ b < 256 ∧ Best out (a.apply (inp.deq q)) (ofU8 b) := by
  refine ⟨by simp [lookupTable, inputVector_length], ?_⟩
  have hx : ((q - inp.zp : ℤ) : ℝ) * inp.scale = inp.deq q := by unfold QI8.deq; push_cast; ring
  have hat : tableAt (lookupTable a inp out) q = quantEntry out (a.apply (inp.deq q)) := by
    unfold tableAt lookupTable
    rw [List.getElem?_map, List.getElem?_map, inputVector_at q h1 h2]
    simp only [Option.map_some, Option.join_some, hx]
  rw [hat]
  unfold quantEntry
  simp only
  have hr : -2147483648 ≤ roundR (a.apply (inp.deq q) / out.scale) ∧ roundR (a.apply (inp.deq q) / out.scale) ≤ 2147483647 := by
    have hn := abs_le.1 (roundR_near (a.apply (inp.deq q) / out.scale))
    have hd : |a.apply (inp.deq q) / out.scale| ≤ 2147483647 := by
      rw [abs_div, abs_of_pos hs, div_le_iff₀ hs]; exact hfit
    have hd' := abs_le.1 hd
    constructor
    · have : (-2147483648 : ℝ) - 1 < roundR (a.apply (inp.deq q) / out.scale) := by linarith
      have : (-2147483648 : ℤ) - 1 < roundR (a.apply (inp.deq q) / out.scale) := by exact_mod_cast this
      omega
    · have : (roundR (a.apply (inp.deq q) / out.scale) : ℝ) < 2147483647 + 1 := by linarith
      have : roundR (a.apply (inp.deq q) / out.scale) < 2147483647 + 1 := by exact_mod_cast this
      omega
  rw [if_pos hr]
  have hb := best_clamp out hs (a.apply (inp.deq q))
  refine ⟨_, rfl, by unfold toU8; omega, ?_⟩
  rw [ofU8_toU8 _ hb.1.1 hb.1.2]
  exact hb

/-- The proviso of C35 holds for every activation whenever the scales are within a factor of two million and the zero point
is an 8-bit value, for scales up to one (hard swish grows quadratically, but is at most `|x|` in absolute value). -/
theorem apply_bound (a : Activation) (x : ℝ) : |a.apply x| ≤ max |x| 1 := by
  cases a with
  | relu =>
    simp only [Activation.apply]
    refine le_max_of_le_left ?_
    rw [abs_of_nonneg (le_max_right _ _)]
    exact max_le (le_abs_self x) (abs_nonneg x)
  | relu6 =>
    simp only [Activation.apply]
    refine le_max_of_le_left ?_
    rw [abs_of_nonneg (le_min (le_max_right _ _) (by norm_num))]
    exact (min_le_left _ _).trans (max_le (le_abs_self x) (abs_nonneg x))
  | tanh =>
    simp only [Activation.apply]
    refine le_max_of_le_right ?_
    rw [Real.tanh_eq_sinh_div_cosh, abs_div, abs_of_pos (Real.cosh_pos x), div_le_one (Real.cosh_pos x)]
    rw [abs_le]
    have e1 := Real.sinh_eq x
    have e2 := Real.cosh_eq x
    have p1 := Real.exp_pos x
    have p2 := Real.exp_pos (-x)
    constructor <;> linarith
  | logistic =>
    simp only [Activation.apply]
    refine le_max_of_le_right ?_
    have p2 := Real.exp_pos (-x)
    rw [abs_of_nonneg (by positivity), div_le_one (by linarith)]
    linarith
  | hardSwish =>
    simp only [Activation.apply]
    refine le_max_of_le_left ?_
    have m0 : 0 ≤ min (max (x + 3) 0) 6 := le_min (le_max_right _ _) (by norm_num)
    have m6 : min (max (x + 3) 0) 6 ≤ 6 := min_le_right _ _
    rw [abs_div, abs_mul, abs_of_nonneg m0, abs_of_pos (show (0 : ℝ) < 6 by norm_num), div_le_iff₀ (by norm_num)]
    exact mul_le_mul_of_nonneg_left m6 (abs_nonneg x)

theorem C35_fits (a : Activation) (inp out : QI8) (hi : 0 < inp.scale) (hs : 0 < out.scale) (hz1 : -128 ≤ inp.zp)
    (hz2 : inp.zp ≤ 127) (hr : inp.scale ≤ 8000000 * out.scale) (h1 : 1 ≤ 2147483647 * out.scale) (q : ℤ) (hq1 : -128 ≤ q)
    (hq2 : q ≤ 127) : |a.apply (inp.deq q)| ≤ 2147483647 * out.scale := by
  refine (apply_bound a _).trans (max_le ?_ h1)
  unfold QI8.deq
  rw [abs_mul, abs_of_pos hi]
  have : |(q : ℝ) - inp.zp| ≤ 255 := by
    rw [abs_le]
    have a1 : (-128 : ℝ) ≤ q := by exact_mod_cast hq1
    have a2 : (q : ℝ) ≤ 127 := by exact_mod_cast hq2
    have a3 : (-128 : ℝ) ≤ inp.zp := by exact_mod_cast hz1
    have a4 : (inp.zp : ℝ) ≤ 127 := by exact_mod_cast hz2
    constructor <;> linarith
  calc inp.scale * |(q : ℝ) - inp.zp| ≤ inp.scale * 255 := mul_le_mul_of_nonneg_left this hi.le
    _ ≤ 2147483647 * out.scale := by linarith

/-- Non-vacuity: an ordinary RELU6 layer. -/
example : ∃ b, tableAt (lookupTable .relu6 ⟨1 / 20, 3⟩ ⟨6 / 255, -128⟩) (-5) = some b ∧ b < 256 ∧
    Best ⟨6 / 255, -128⟩ (Activation.relu6.apply (QI8.deq ⟨1 / 20, 3⟩ (-5))) (ofU8 b) :=
  (C35_lookup_table _ _ _ (by norm_num) (-5) (by norm_num) (by norm_num)
    (C35_fits _ _ _ (by norm_num) (by norm_num) (by norm_num) (by norm_num) (by norm_num) (by norm_num) (-5) (by norm_num)
      (by norm_num))).2

/-- **C50** (softmax table).  There is an entry for every 8-bit value and no other; entry `q + 128` is the exponential of the real number that
the input value `q` stands for. -/
theorem C50_exp_table (inp : QI8) (q : ℤ) (h1 : -128 ≤ q) (h2 : q ≤ 127) :
    (expTable inp).length = 256 ∧ (expTable inp)[(q + 128).toNat]? = some (Real.exp (inp.deq q)) := by
  refine ⟨by simp [expTable], ?_⟩
  unfold expTable
  rw [List.getElem?_map, List.getElem?_range (by omega)]
  simp only [Option.map_some, Option.some.injEq]
  congr 1
  unfold QI8.deq
  have : ((((q + 128).toNat : ℤ) - 128 - inp.zp : ℤ)) = q - inp.zp := by omega
  rw [this]; push_cast; ring

example : (expTable ⟨1 / 2, 3⟩)[128]? = some (Real.exp (1 / 2 * (0 - 3))) := by
  have := (C50_exp_table ⟨1 / 2, 3⟩ 0 (by norm_num) (by norm_num)).2
  simpa [QI8.deq] using this

/-- **C50** (pad value).  Each of the four bytes of the pad value of an 8-bit tensor is the byte of the zero point. -/
theorem C50_pad_value (zp : ℤ) (k : Nat) (hk : k < 4) : (padValue zp true).extractLsb' (8 * k) 8 = BitVec.ofInt 8 zp := by
  have e : BitVec.ofInt 8 zp = (BitVec.ofInt 32 zp).setWidth 8 := by
    apply BitVec.eq_of_toNat_eq
    simp only [BitVec.toNat_ofInt, BitVec.toNat_setWidth]
    norm_num
    omega
  rw [e]
  ext i hi
  have hk' : k = 0 ∨ k = 1 ∨ k = 2 ∨ k = 3 := by omega
  have hi' : i = 0 ∨ i = 1 ∨ i = 2 ∨ i = 3 ∨ i = 4 ∨ i = 5 ∨ i = 6 ∨ i = 7 := by omega
  rcases hk' with rfl | rfl | rfl | rfl <;> rcases hi' with rfl | rfl | rfl | rfl | rfl | rfl | rfl | rfl <;>
    simp [padValue, BitVec.getElem_extractLsb', BitVec.getLsbD_or, BitVec.getLsbD_and, BitVec.getLsbD_shiftLeft]

end Verif.XC
