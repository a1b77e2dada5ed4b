import Mathlib.Tactic.Linarith
import Mathlib.Tactic.NormNum
import Mathlib.Tactic.Ring
import Mathlib.Algebra.Order.AbsoluteValue.Basic
import Mathlib.Data.Rat.Floor

/-!
# C124: what the verdict of xformer/modelrunner.py means

modelrunner.py compiles a model, runs the original in TensorFlow Lite and the compiled one in the host interpreter, and counts the outputs that differ.
Modelled is its default mode (lines 142-263 without --bnn and --cifar, which stop with an exception; --input has no effect).
-/

namespace Verif.Host.Runner

/-- An integer element type: `np.iinfo(t).min`, `np.iinfo(t).max`. -/
structure IType where
  min : Int
  max : Int

def int8 : IType := ⟨-128, 127⟩
def uint8 : IType := ⟨0, 255⟩
def int16 : IType := ⟨-32768, 32767⟩
def int32 : IType := ⟨-2147483648, 2147483647⟩

/-- `step` (modelrunner.py 156): the division is one of floats, exact enough for types of at most 32 bits. -/
def IType.step (t : IType) : Int := t.max * 2 / 85

/-- The loop that fills an input (157-162): count of elements that are left, `n`. -/
def fill (t : IType) : Nat → Int → List Int
  | 0, _ => []
  | c + 1, n =>
    let n := if t.max ≤ n then t.min else n
    n :: fill t c (n + t.step)

/-- An input with `c` elements (154-169). -/
def pattern (t : IType) (c : Nat) : List Int := fill t c t.min

/-- `dequantize` (28-29), with `rn` the rounding to `float32`; the subtraction does not leave `int32`. -/
def dequantize (rn : ℚ → ℚ) (s : ℚ) (z : Int) (x : Int) : ℚ := rn (rn ((x - z : Int) : ℚ) * s)

/-- The comparison of one output (250-257): with a scale the dequantised values, otherwise the values. Tensors are flat here, both with the same shape. -/
def same (rn : ℚ → ℚ) (q : Option (ℚ × Int)) (a b : List Int) : Bool :=
  match q with
  | some (s, z) => a.map (dequantize rn s z) = b.map (dequantize rn s z)
  | none => a = b

/-- Outputs that differ in one run (225-261). -/
def differing (rn : ℚ → ℚ) : List (Option (ℚ × Int)) → List (List Int) → List (List Int) → Nat
  | q :: qs, a :: as, b :: bs => (if same rn q a b then 0 else 1) + differing rn qs as bs
  | _, _, _ => 0

/-- The runs (142-263): the inputs of run number `n` do not depend on `n`. -/
def fails (rn : ℚ → ℚ) (qs : List (Option (ℚ × Int))) (ref xc : List (List Int) → List (List Int)) (ins : List (IType × Nat)) : Nat → Nat
  | 0 => 0
  | n + 1 => fails rn qs ref xc ins n + differing rn qs (ref (ins.map fun x => pattern x.1 x.2)) (xc (ins.map fun x => pattern x.1 x.2))

/-! ### Specification -/

/-- Number of different values in the input. -/
def period (t : IType) : Nat := ((t.max - t.min + t.step - 1) / t.step).toNat

/-- `rn` keeps small integers, and has the relative error of `float32` on their products with the scale (no overflow, no subnormal results). -/
def Accurate (rn : ℚ → ℚ) (s : ℚ) (B : Int) : Prop :=
  ∀ k : Int, |k| ≤ B → rn k = k ∧ |rn (k * s) - k * s| ≤ |(k : ℚ) * s| / 2 ^ 24

/-! ### Proofs -/

theorem fill_length (t : IType) : ∀ (c : Nat) (n : Int), (fill t c n).length = c := by
  intro c
  induction c with
  | zero => intro n; rfl
  | succ c ih => intro n; simp [fill, ih]

theorem period_spec {t : IType} (hs : 0 < t.step) (h : t.min < t.max) :
    0 < period t ∧ (∀ k : Nat, t.max ≤ t.min + t.step * k ↔ period t ≤ k) := by
  obtain ⟨s, es⟩ : ∃ s, s = t.step := ⟨_, rfl⟩
  obtain ⟨d, ed⟩ : ∃ d, d = t.max - t.min := ⟨_, rfl⟩
  have e : period t = ((d + s - 1) / s).toNat := by rw [period, es, ed]
  rw [← es] at hs ⊢
  have hd : 0 < d := by omega
  have hq : 0 < (d + s - 1) / s := by
    have : 1 ≤ (d + s - 1) / s := (Int.le_ediv_iff_mul_le hs).2 (by omega)
    omega
  refine ⟨by omega, fun k => ?_⟩
  have : period t ≤ k ↔ (d + s - 1) / s ≤ (k : Int) := by omega
  rw [this]
  constructor
  · intro hk
    have : (d + s - 1) / s < (k : Int) + 1 := by
      rw [Int.ediv_lt_iff_lt_mul hs]
      nlinarith
    omega
  · intro hk
    have : (d + s - 1) / s < (k : Int) + 1 := by omega
    rw [Int.ediv_lt_iff_lt_mul hs] at this
    nlinarith

theorem fill_get {t : IType} (hs : 0 < t.step) (h : t.min < t.max) : ∀ (c k : Nat), k ≤ period t → ∀ i < c,
    (fill t c (t.min + t.step * k))[i]? = some (t.min + t.step * ((k + i) % period t : Nat)) := by
  obtain ⟨hp, hk⟩ := period_spec hs h
  intro c
  induction c with
  | zero => intro k _ i hi; omega
  | succ c ih =>
    intro k hkp i hi
    have e : (if t.max ≤ t.min + t.step * k then t.min else t.min + t.step * k) = t.min + t.step * ((k % period t : Nat) : Int) := by
      by_cases c1 : period t ≤ k
      · have : k = period t := by omega
        rw [if_pos ((hk k).2 c1), this, Nat.mod_self]; simp
      · rw [if_neg (fun h => c1 ((hk k).1 h)), Nat.mod_eq_of_lt (by omega)]
    simp only [fill]
    rw [e]
    cases i with
    | zero => simp
    | succ i =>
      have hm := Nat.mod_lt k hp
      have e2 : t.min + t.step * ((k % period t : Nat) : Int) + t.step = t.min + t.step * ((k % period t + 1 : Nat) : Int) := by push_cast; ring
      rw [List.getElem?_cons_succ, e2, ih _ (by omega) i (by omega)]
      have : (k % period t + 1 + i) % period t = (k + (i + 1)) % period t := by
        rw [show k % period t + 1 + i = k % period t + (i + 1) by omega, Nat.mod_add_mod]
      rw [this]

/-- **C124.** The inputs: `min`, `min + step`, ..., starting again at `min` before `max` is reached; all within the type. -/
theorem C124_pattern {t : IType} (hs : 0 < t.step) (h : t.min < t.max) (c i : Nat) (hi : i < c) :
    ∃ x, (pattern t c)[i]? = some x ∧ x = t.min + t.step * (i % period t : Nat) ∧ t.min ≤ x ∧ x < t.max := by
  have g := fill_get hs h c 0 (by omega) i hi
  obtain ⟨hp, hk⟩ := period_spec hs h
  simp only [Nat.cast_zero, mul_zero, add_zero, Nat.zero_add] at g
  refine ⟨_, g, rfl, ?_, ?_⟩
  · have : 0 ≤ t.step * ((i % period t : Nat) : Int) := mul_nonneg (le_of_lt hs) (by omega)
    omega
  · by_contra c1
    have := (hk (i % period t)).1 (by omega)
    have := Nat.mod_lt i hp
    omega

/-- **C124.** For `int8` the inputs are the even numbers only. -/
theorem C124_int8 (c : Nat) : ∀ x ∈ pattern int8 c, x % 2 = 0 := by
  intro x hx
  obtain ⟨i, hi⟩ := List.mem_iff_getElem?.1 hx
  have hc : i < c := by
    have := (List.getElem?_eq_some_iff.1 hi).1
    rwa [pattern, fill_length] at this
  obtain ⟨y, h1, h2, -⟩ := C124_pattern (t := int8) (by decide) (by decide) c i hc
  rw [hi] at h1
  cases h1
  rw [h2, show int8.step = 2 by decide, show int8.min = -128 from rfl]
  omega

/-- **C124.** All runs are the same: the count is the number of runs times the number of outputs that differ on the one input. -/
theorem C124_fails (rn : ℚ → ℚ) (qs : List (Option (ℚ × Int))) (ref xc : List (List Int) → List (List Int)) (ins : List (IType × Nat)) (n : Nat) :
    fails rn qs ref xc ins n = n * differing rn qs (ref (ins.map fun x => pattern x.1 x.2)) (xc (ins.map fun x => pattern x.1 x.2)) := by
  induction n with
  | zero => simp [fails]
  | succ n ih => rw [fails, ih, Nat.add_mul, Nat.one_mul]

/-- Different small integers stay different when they are dequantised. -/
theorem dequantize_inj {rn : ℚ → ℚ} {s : ℚ} {B : Int} (hs : s ≠ 0) (hB : B < 2 ^ 23) (ha : Accurate rn s B) {z x y : Int} (hx : |x - z| ≤ B) (hy : |y - z| ≤ B)
    (h : dequantize rn s z x = dequantize rn s z y) : x = y := by
  by_contra hne
  obtain ⟨k, ek⟩ : ∃ k, k = x - z := ⟨_, rfl⟩
  obtain ⟨l, el⟩ : ∃ l, l = y - z := ⟨_, rfl⟩
  unfold dequantize at h
  rw [← ek] at h hx
  rw [← el] at h hy
  obtain ⟨a1, a2⟩ := ha k hx
  obtain ⟨b1, b2⟩ := ha l hy
  rw [a1, b1] at h
  rw [← h] at b2
  have hkl : 1 ≤ |k - l| := Int.one_le_abs (by omega)
  have hkl' : (1 : ℚ) ≤ |(k : ℚ) - l| := by
    have : ((1 : Int) : ℚ) ≤ ((|k - l| : Int) : ℚ) := Int.cast_le.2 hkl
    simpa using this
  have hsp : 0 < |s| := abs_pos.2 hs
  have t1 : |(k : ℚ) * s - l * s| ≤ |(k : ℚ) * s| / 2 ^ 24 + |(l : ℚ) * s| / 2 ^ 24 := by
    have := abs_sub_le ((k : ℚ) * s) (rn (k * s)) (l * s)
    rw [abs_sub_comm ((k : ℚ) * s) (rn (k * s))] at this
    linarith
  rw [← sub_mul, abs_mul, abs_mul, abs_mul] at t1
  have hk' : |(k : ℚ)| ≤ 2 ^ 23 - 1 := by
    have : ((|k| : Int) : ℚ) ≤ ((2 ^ 23 - 1 : Int) : ℚ) := Int.cast_le.2 (by omega)
    norm_num at this ⊢; exact this
  have hl' : |(l : ℚ)| ≤ 2 ^ 23 - 1 := by
    have : ((|l| : Int) : ℚ) ≤ ((2 ^ 23 - 1 : Int) : ℚ) := Int.cast_le.2 (by omega)
    norm_num at this ⊢; exact this
  have t2 : |s| ≤ |(k : ℚ) - l| * |s| := by nlinarith
  have t3 : |(k : ℚ)| * |s| ≤ (2 ^ 23 - 1) * |s| := mul_le_mul_of_nonneg_right hk' (le_of_lt hsp)
  have t4 : |(l : ℚ)| * |s| ≤ (2 ^ 23 - 1) * |s| := mul_le_mul_of_nonneg_right hl' (le_of_lt hsp)
  have t5 : |s| ≤ (2 ^ 23 - 1) * |s| / 2 ^ 24 + (2 ^ 23 - 1) * |s| / 2 ^ 24 := by
    refine le_trans (le_trans t2 t1) (add_le_add ?_ ?_)
    · exact div_le_div_of_nonneg_right t3 (by norm_num)
    · exact div_le_div_of_nonneg_right t4 (by norm_num)
  linarith

/-- An output whose values the comparison tells apart. -/
def Fine (rn : ℚ → ℚ) (q : Option (ℚ × Int)) (a : List Int) : Prop :=
  ∀ s z, q = some (s, z) → s ≠ 0 ∧ ∃ B : Int, B < 2 ^ 23 ∧ Accurate rn s B ∧ ∀ x ∈ a, |x - z| ≤ B

theorem map_inj {α β : Type} (g : α → β) : ∀ (a b : List α), (∀ x ∈ a, ∀ y ∈ b, g x = g y → x = y) → a.map g = b.map g → a = b := by
  intro a
  induction a with
  | nil => intro b _ h; cases b with
    | nil => rfl
    | cons _ _ => cases h
  | cons x a ih =>
    intro b hg h
    cases b with
    | nil => cases h
    | cons y b =>
      simp only [List.map_cons, List.cons.injEq] at h
      rw [hg x (by simp) y (by simp) h.1, ih b (fun x hx y hy => hg x (List.mem_cons_of_mem _ hx) y (List.mem_cons_of_mem _ hy)) h.2]

theorem same_iff {rn : ℚ → ℚ} {q : Option (ℚ × Int)} {a b : List Int} (hf : Fine rn q (a ++ b)) : same rn q a b = true ↔ a = b := by
  unfold same
  match q, hf with
  | none, _ => simp
  | some (s, z), hf =>
    obtain ⟨hs, B, hB, ha, hx⟩ := hf s z rfl
    simp only [decide_eq_true_eq]
    constructor
    · refine map_inj _ a b fun x h1 y h2 e => ?_
      exact dequantize_inj hs hB ha (hx x (by simp [h1])) (hx y (by simp [h2])) e
    · rintro rfl; rfl

theorem differing_zero (rn : ℚ → ℚ) : ∀ (qs : List (Option (ℚ × Int))) (as bs : List (List Int)), as.length = qs.length → bs.length = qs.length →
    (∀ (i : Nat) (q : Option (ℚ × Int)) (a b : List Int), qs[i]? = some q → as[i]? = some a → bs[i]? = some b → Fine rn q (a ++ b)) →
    (differing rn qs as bs = 0 ↔ as = bs) := by
  intro qs
  induction qs with
  | nil => intro as bs h1 h2 _; simp [List.length_eq_zero_iff.1 h1, List.length_eq_zero_iff.1 h2, differing]
  | cons q qs ih =>
    intro as bs h1 h2 hf
    match as, bs, h1, h2 with
    | a :: as, b :: bs, h1, h2 =>
      have i1 := ih as bs (by simpa using h1) (by simpa using h2) (fun i q a b e1 e2 e3 => hf (i + 1) q a b e1 e2 e3)
      have i2 := same_iff (hf 0 q a b rfl rfl rfl)
      simp only [differing, List.cons.injEq]
      rw [← i1, ← i2]
      by_cases c : same rn q a b = true <;> simp [c]

/-- **C124** (in part). For outputs that the comparison tells apart, such as `int8` and `int16` ones with a usual scale: no failures are reported exactly if there was no run, or the
two models agree on the one input. What is missing: other inputs (`C124_even_refuted`), outputs of 32 bits (`C124_wide_refuted`). -/
theorem C124_verdict_partial (rn : ℚ → ℚ) (qs : List (Option (ℚ × Int))) (ref xc : List (List Int) → List (List Int)) (ins : List (IType × Nat))
    (h1 : (ref (ins.map fun x => pattern x.1 x.2)).length = qs.length) (h2 : (xc (ins.map fun x => pattern x.1 x.2)).length = qs.length)
    (hf : ∀ (i : Nat) (q : Option (ℚ × Int)) (a b : List Int), qs[i]? = some q → (ref (ins.map fun x => pattern x.1 x.2))[i]? = some a →
      (xc (ins.map fun x => pattern x.1 x.2))[i]? = some b → Fine rn q (a ++ b)) (n : Nat) :
    fails rn qs ref xc ins n = 0 ↔ n = 0 ∨ ref (ins.map fun x => pattern x.1 x.2) = xc (ins.map fun x => pattern x.1 x.2) := by
  rw [C124_fails, Nat.mul_eq_zero, differing_zero rn qs _ _ h1 h2 hf]

/-- `int8` and `int16` values meet the condition, for every scale on which `rn` is as accurate as `float32`. -/
theorem fine_int16 {rn : ℚ → ℚ} {s : ℚ} (hs : s ≠ 0) (ha : Accurate rn s (2 ^ 16)) (z : Int) (hz : -32768 ≤ z ∧ z ≤ 32767) (a : List Int)
    (h : ∀ x ∈ a, -32768 ≤ x ∧ x ≤ 32767) : Fine rn (some (s, z)) a := by
  intro s' z' e
  cases e
  exact ⟨hs, 2 ^ 16, by norm_num, ha, fun x hx => by have := h x hx; rw [abs_le]; omega⟩

/-- **C124** (refuted): a compiled model that is wrong on every odd `int8` value passes any number of runs, on inputs of any size. -/
theorem C124_even_refuted (rn : ℚ → ℚ) (q : Option (ℚ × Int)) (c n : Nat) :
    fails rn [q] id (fun xs => xs.map (List.map fun v => if v % 2 = 0 then v else 0)) [(int8, c)] n = 0 := by
  rw [C124_fails]
  have e : (pattern int8 c).map (fun v => if v % 2 = 0 then v else 0) = pattern int8 c := by
    conv_rhs => rw [← List.map_id (pattern int8 c)]
    refine List.map_congr_left fun v hv => ?_
    rw [if_pos (C124_int8 c v hv)]; rfl
  simp only [List.map_cons, List.map_nil, id, e, differing]
  have hs : same rn q (pattern int8 c) (pattern int8 c) = true := by
    unfold same
    cases q <;> simp
  rw [if_pos hs]
  omega

/-- **C124** (refuted): outputs of 32 bits that differ, 16777216 and 16777217, pass: both become the same `float32`. -/
theorem C124_wide_refuted (rn : ℚ → ℚ) (h0 : rn 16777217 = 16777216) (h1 : rn 16777216 = 16777216) (ins : List (IType × Nat)) (n : Nat) :
    fails rn [some (1, 0)] (fun _ => [[16777216]]) (fun _ => [[16777217]]) ins n = 0 := by
  rw [C124_fails]
  have : same rn (some (1, 0)) [16777216] [16777217] = true := by
    unfold same dequantize
    have e0 : ((16777217 - 0 : Int) : ℚ) = 16777217 := by norm_num
    have e1 : ((16777216 - 0 : Int) : ℚ) = 16777216 := by norm_num
    simp only [List.map_cons, List.map_nil, e0, e1, h0, h1, decide_true]
  simp [differing, this]

/-- A rounding that keeps multiples of 2^-20, for the example. -/
def exRn (q : ℚ) : ℚ := (⌊q * 2 ^ 20⌋ : ℚ) / 2 ^ 20

theorem exRn_accurate : Accurate exRn (1 / 128) (2 ^ 16) := by
  intro k _
  have h1 : exRn (k : ℚ) = k := by
    unfold exRn
    rw [show (k : ℚ) * 2 ^ 20 = ((k * 2 ^ 20 : Int) : ℚ) by push_cast; ring, Int.floor_intCast]
    push_cast
    ring
  have h2 : exRn ((k : ℚ) * (1 / 128)) = k * (1 / 128) := by
    unfold exRn
    rw [show (k : ℚ) * (1 / 128) * 2 ^ 20 = ((k * 2 ^ 13 : Int) : ℚ) by push_cast; ring, Int.floor_intCast]
    push_cast
    ring
  refine ⟨h1, ?_⟩
  rw [h2, sub_self, abs_zero]
  positivity

/-- **C124, example.** A model with one `int16` input of three elements, -32768, -31998 and -31228; the compiled model is off by one in the last element: one failure in each of three runs. -/
theorem C124_example :
    pattern int16 3 = [-32768, -31998, -31228] ∧
    fails exRn [some (1 / 128, 0)] id (fun xs => xs.map fun x => x.take 2 ++ [x.getD 2 0 + 1]) [(int16, 3)] 3 = 3 ∧
    fails exRn [some (1 / 128, 0)] id (fun xs => xs.map fun x => x.take 3) [(int16, 3)] 3 = 0 := by
  have hp : pattern int16 3 = [-32768, -31998, -31228] := by decide
  refine ⟨hp, ?_, ?_⟩
  · rw [C124_fails]
    have hn : ¬ same exRn (some (1 / 128, 0)) [-32768, -31998, -31228] [-32768, -31998, -31227] = true := by
      rw [same_iff (fine_int16 (by norm_num) exRn_accurate 0 (by decide) _ (by decide))]
      decide
    simp only [List.map_cons, List.map_nil, hp, id, differing]
    rw [show List.take 2 [-32768, -31998, -31228] ++ [List.getD [-32768, -31998, -31228] 2 0 + 1] = ([-32768, -31998, -31227] : List Int) by decide, if_neg hn]
  · refine (C124_verdict_partial exRn [some (1 / 128, 0)] id _ [(int16, 3)] (by simp) (by simp) ?_ 3).2 (.inr (by simp [hp]))
    intro i q a b e1 e2 e3
    match i, e1, e2, e3 with
    | 0, e1, e2, e3 =>
      simp only [List.map_cons, List.map_nil, hp, id, List.getElem?_cons_zero, Option.some.injEq] at e1 e2 e3
      subst e1 e2 e3
      exact fine_int16 (by norm_num) exRn_accurate 0 (by decide) _ (by decide)

end Verif.Host.Runner
