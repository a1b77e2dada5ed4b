import Verif.Net.Drift
import Verif.Net.QProps
import Mathlib.Analysis.Calculus.MeanValue
import Mathlib.Analysis.SpecialFunctions.ExpDeriv
import Mathlib.Analysis.SpecialFunctions.Log.Basic
/-! C112: Lipschitz bounds of the reference operators. -/
namespace Verif.Net
open Verif.Tensor Verif.Move Verif.MemPlan Verif.Quant

/-! ### Numbers -/

theorem roundUp_nonneg (g : ℝ) : 0 ≤ roundUp g := by
  unfold roundUp
  split <;> linarith

theorem roundUp_mono {g h : ℝ} (hgh : g ≤ h) : roundUp g ≤ roundUp h := by
  unfold roundUp
  split <;> split <;> linarith

theorem le_peak {l : List ℝ} {x : ℝ} (h : x ∈ l) : x ≤ peak l := by
  unfold peak
  induction l with
  | nil => cases h
  | cons a l ih =>
    rcases List.mem_cons.1 h with rfl | h
    · exact le_max_left _ _
    · exact (ih h).trans (le_max_right _ _)

theorem peak_nonneg (l : List ℝ) : 0 ≤ peak l := by
  unfold peak
  induction l with
  | nil => exact le_refl _
  | cons a l ih => exact ih.trans (le_max_right _ _)

theorem clampI_dist (lo hi a b : ℤ) : |clamp lo hi a - clamp lo hi b| ≤ |a - b| := by
  unfold clamp
  refine (abs_max_sub_max_le_max _ _ _ _).trans ?_
  rw [sub_self, abs_zero, max_eq_right (abs_nonneg _)]
  refine (abs_min_sub_min_le_max _ _ _ _).trans ?_
  rw [sub_self, abs_zero, max_eq_right (abs_nonneg _)]

theorem clampR_dist (lo hi a b : ℝ) : |max lo (min hi a) - max lo (min hi b)| ≤ |a - b| := by
  refine (abs_max_sub_max_le_max _ _ _ _).trans ?_
  rw [sub_self, abs_zero, max_eq_right (abs_nonneg _)]
  refine (abs_min_sub_min_le_max _ _ _ _).trans ?_
  rw [sub_self, abs_zero, max_eq_right (abs_nonneg _)]

/-- Rounding. -/
theorem round_dist {f : ℝ → ℤ} (hf : ∀ x, |(f x : ℝ) - x| ≤ 1 / 2) {u v g : ℝ} (h : |u - v| ≤ g) : |(f u : ℝ) - (f v : ℝ)| ≤ roundUp g := by
  unfold roundUp
  split
  · rename_i hg
    have : u = v := by
      have := abs_nonpos_iff.1 (h.trans hg)
      linarith
    rw [this]
    simp
  · have h1 := abs_le.1 (hf u)
    have h2 := abs_le.1 (hf v)
    have h3 := abs_le.1 h
    rw [abs_le]
    constructor <;> linarith [h1.1, h1.2, h2.1, h2.2, h3.1, h3.2]

theorem roundQ_dist {r : ℚ → ℤ} (hr : Nearest r) {u v : ℚ} {g : ℝ} (h : |(u : ℝ) - v| ≤ g) : |((r u : ℤ) : ℝ) - (r v : ℤ)| ≤ roundUp g := by
  unfold roundUp
  split
  · rename_i hg
    have : (u : ℝ) = v := by
      have := abs_nonpos_iff.1 (h.trans hg)
      linarith
    have : u = v := by exact_mod_cast this
    rw [this]
    simp
  · have hq : ∀ w : ℚ, |((r w : ℤ) : ℝ) - w| ≤ 1 / 2 := by
      intro w
      have h' : ((|((r w : ℤ) : ℚ) - w| : ℚ) : ℝ) ≤ ((1 / 2 : ℚ) : ℝ) := by exact_mod_cast hr w
      push_cast at h'
      linarith
    have h1 := abs_le.1 (hq u)
    have h2 := abs_le.1 (hq v)
    have h3 := abs_le.1 h
    rw [abs_le]
    constructor <;> linarith [h1.1, h1.2, h2.1, h2.2, h3.1, h3.2]

/-- Rounded, shifted and clamped. -/
theorem requant_dist {r : ℚ → ℤ} (hr : Nearest r) (lo hi z : ℤ) {u v : ℚ} {g : ℝ} (h : |(u : ℝ) - v| ≤ g) :
    |((clamp lo hi (z + r u) : ℤ) : ℝ) - (clamp lo hi (z + r v) : ℤ)| ≤ roundUp g := by
  refine le_trans ?_ (roundQ_dist hr h)
  have := clampI_dist lo hi (z + r u) (z + r v)
  rw [add_sub_add_left_eq_sub] at this
  exact_mod_cast this

theorem quantR_dist (o : XC.QI8) {u v g : ℝ} (hs : 0 < o.scale) (h : |u - v| ≤ g) :
    |((XC.quantR o u : ℤ) : ℝ) - (XC.quantR o v : ℤ)| ≤ roundUp (g / o.scale) := by
  have h1 : |u / o.scale - v / o.scale| ≤ g / o.scale := by
    rw [← sub_div, abs_div, abs_of_pos hs]
    exact div_le_div_of_nonneg_right h hs.le
  refine le_trans ?_ (round_dist XC.roundR_near h1)
  unfold XC.quantR
  have : |max (min (XC.roundR (u / o.scale) + o.zp) 127) (-128) - max (min (XC.roundR (v / o.scale) + o.zp) 127) (-128)| ≤
      |XC.roundR (u / o.scale) - XC.roundR (v / o.scale)| := by
    refine (abs_max_sub_max_le_max _ _ _ _).trans ?_
    rw [sub_self, abs_zero, max_eq_left (abs_nonneg _)]
    refine (abs_min_sub_min_le_max _ _ _ _).trans ?_
    rw [sub_self, abs_zero, max_eq_left (abs_nonneg _), add_sub_add_right_eq_sub]
  exact_mod_cast this

theorem sat16_dist (t : QType) (hs : 0 < t.scale) (x y : ℝ) : |sat16 t x - sat16 t y| ≤ |x - y| / t.scale := by
  have hs' : (0 : ℝ) < t.scale := by exact_mod_cast hs
  unfold sat16
  refine (clampR_dist _ _ _ _).trans (le_of_eq ?_)
  rw [add_sub_add_right_eq_sub, ← sub_div, abs_div, abs_of_pos hs']

theorem sat8_dist (t : XC.QI8) (hs : 0 < t.scale) (x y : ℝ) : |sat8 t x - sat8 t y| ≤ |x - y| / t.scale := by
  unfold sat8
  refine (clampR_dist _ _ _ _).trans (le_of_eq ?_)
  rw [add_sub_add_right_eq_sub, ← sub_div, abs_div, abs_of_pos hs]

/-! ### Activation functions -/

theorem fused_dist (act : TFL.Act) (x y : ℝ) : |fusedReal act x - fusedReal act y| ≤ |x - y| := by
  cases act with
  | none => exact le_refl _
  | relu =>
    refine (abs_max_sub_max_le_max _ _ _ _).trans ?_
    rw [sub_self, abs_zero, max_eq_right (abs_nonneg _)]
  | relu1 => exact clampR_dist _ _ _ _
  | relu6 => exact clampR_dist _ _ _ _

theorem logistic_deriv (x : ℝ) : HasDerivAt (fun x : ℝ => 1 / (1 + Real.exp (-x))) (Real.exp (-x) / (1 + Real.exp (-x)) ^ 2) x := by
  have h0 : (1 + Real.exp (-x)) ≠ 0 := by positivity
  have h1 : HasDerivAt (fun x : ℝ => 1 + Real.exp (-x)) (Real.exp (-x) * (-1)) x := ((Real.hasDerivAt_exp (-x)).comp x (hasDerivAt_neg x)).const_add 1
  have h2 := h1.inv h0
  have e : (fun x : ℝ => 1 / (1 + Real.exp (-x))) = (fun x : ℝ => 1 + Real.exp (-x))⁻¹ := by
    funext x
    simp [one_div]
  rw [e]
  rw [mul_neg_one, neg_neg] at h2
  exact h2

theorem logistic_dist (x y : ℝ) : |1 / (1 + Real.exp (-x)) - 1 / (1 + Real.exp (-y))| ≤ 1 / 4 * |x - y| := by
  have := Convex.norm_image_sub_le_of_norm_hasDerivWithin_le (f := fun x : ℝ => 1 / (1 + Real.exp (-x)))
    (f' := fun x => Real.exp (-x) / (1 + Real.exp (-x)) ^ 2) (s := Set.univ) (x := y) (y := x) (C := 1 / 4)
    (fun z _ => (logistic_deriv z).hasDerivWithinAt) (fun z _ => by
      rw [Real.norm_eq_abs, abs_of_nonneg (by positivity), div_le_iff₀ (by positivity)]
      nlinarith [sq_nonneg (1 - Real.exp (-z)), Real.exp_pos (-z)]) convex_univ trivial trivial
  simpa [Real.norm_eq_abs] using this

theorem tanh_logistic (x : ℝ) : Real.tanh x = 2 * (1 / (1 + Real.exp (-(2 * x)))) - 1 := by
  rw [Real.tanh_eq_sinh_div_cosh, Real.sinh_eq, Real.cosh_eq]
  have h1 : Real.exp (-(2 * x)) = Real.exp (-x) * Real.exp (-x) := by rw [← Real.exp_add]; congr 1; ring
  have h2 : Real.exp x * Real.exp (-x) = 1 := by rw [← Real.exp_add]; simp
  have p1 := Real.exp_pos x
  have p2 := Real.exp_pos (-x)
  rw [h1]
  field_simp
  nlinarith

theorem hardSwish_dist (x y : ℝ) : |x * min (max (x + 3) 0) 6 / 6 - y * min (max (y + 3) 0) 6 / 6| ≤ 3 / 2 * |x - y| := by
  wlog h : x ≤ y generalizing x y
  · rw [abs_sub_comm, abs_sub_comm x y]
    exact this y x (le_of_lt (not_le.1 h))
  have key : ∀ z : ℝ, z * min (max (z + 3) 0) 6 / 6 = if z ≤ -3 then 0 else if z ≤ 3 then z * (z + 3) / 6 else z := by
    intro z
    split
    · rw [max_eq_right (by linarith), min_eq_left (by norm_num)]
      ring
    · split
      · rw [max_eq_left (by linarith), min_eq_left (by linarith)]
      · rw [max_eq_left (by linarith), min_eq_right (by linarith)]
        ring
  rw [key, key, abs_sub_comm x y, abs_of_nonneg (sub_nonneg.2 h), abs_le]
  split_ifs <;> constructor <;> nlinarith

theorem slope_nonneg (f : ActFn) : 0 ≤ slope f := by
  unfold slope
  split <;> norm_num

theorem act_dist (f : ActFn) (x y : ℝ) : |f.apply x - f.apply y| ≤ slope f * |x - y| := by
  match f with
  | .relu1 => rw [show slope .relu1 = 1 from rfl, one_mul]; exact clampR_dist _ _ _ _
  | .tabled .relu =>
    rw [show slope (.tabled .relu) = 1 from rfl, one_mul]
    show |max x 0 - max y 0| ≤ _
    refine (abs_max_sub_max_le_max _ _ _ _).trans ?_
    rw [sub_self, abs_zero, max_eq_left (abs_nonneg _)]
  | .tabled .relu6 =>
    rw [show slope (.tabled .relu6) = 1 from rfl, one_mul]
    show |min (max x 0) 6 - min (max y 0) 6| ≤ _
    refine (abs_min_sub_min_le_max _ _ _ _).trans ?_
    rw [sub_self, abs_zero, max_eq_left (abs_nonneg _)]
    refine (abs_max_sub_max_le_max _ _ _ _).trans ?_
    rw [sub_self, abs_zero, max_eq_left (abs_nonneg _)]
  | .tabled .tanh =>
    rw [show slope (.tabled .tanh) = 1 from rfl, one_mul]
    show |Real.tanh x - Real.tanh y| ≤ _
    rw [tanh_logistic, tanh_logistic, sub_sub_sub_cancel_right, ← mul_sub, abs_mul]
    have := logistic_dist (2 * x) (2 * y)
    rw [← mul_sub, abs_mul] at this
    norm_num at this ⊢
    linarith
  | .tabled .logistic =>
    rw [show slope (.tabled .logistic) = 1 / 4 from rfl]
    exact logistic_dist x y
  | .tabled .hardSwish =>
    rw [show slope (.tabled .hardSwish) = 3 / 2 from rfl]
    exact hardSwish_dist x y

/-! ### Softmax -/

/-- Changing every logit by at most `η` changes a softmax by at most `η / 2`. -/
theorem softmax_dist {n : Nat} (x y : Nat → ℝ) (i : Nat) (hi : i < n) {η : ℝ} (hη : ∀ c < n, |x c - y c| ≤ η) :
    |Real.exp (x i) / ∑ c ∈ Finset.range n, Real.exp (x c) - Real.exp (y i) / ∑ c ∈ Finset.range n, Real.exp (y c)| ≤ η / 2 := by
  have hη0 : 0 ≤ η := (abs_nonneg _).trans (hη i hi)
  have form : ∀ z : Nat → ℝ, Real.exp (z i) / ∑ c ∈ Finset.range n, Real.exp (z c) = 1 / (1 + ∑ c ∈ (Finset.range n).erase i, Real.exp (z c - z i)) := by
    intro z
    have h1 : ∑ c ∈ Finset.range n, Real.exp (z c) = Real.exp (z i) * (1 + ∑ c ∈ (Finset.range n).erase i, Real.exp (z c - z i)) := by
      rw [← Finset.add_sum_erase _ _ (Finset.mem_range.2 hi), mul_add, mul_one, Finset.mul_sum]
      congr 1
      apply Finset.sum_congr rfl
      intro c _
      rw [← Real.exp_add]
      congr 1
      ring
    have h0 : (0 : ℝ) < 1 + ∑ c ∈ (Finset.range n).erase i, Real.exp (z c - z i) := by
      have : 0 ≤ ∑ c ∈ (Finset.range n).erase i, Real.exp (z c - z i) := Finset.sum_nonneg fun c _ => (Real.exp_pos _).le
      linarith
    rw [h1, div_mul_eq_div_div, div_self (Real.exp_pos _).ne']
  rw [form, form]
  by_cases he : (Finset.range n).erase i = ∅
  · rw [he]
    simp
    linarith
  have hne : ((Finset.range n).erase i).Nonempty := Finset.nonempty_iff_ne_empty.2 he
  have hpos : ∀ z : Nat → ℝ, 0 < ∑ c ∈ (Finset.range n).erase i, Real.exp (z c - z i) := fun z => Finset.sum_pos (fun c _ => Real.exp_pos _) hne
  have hle : ∀ z w : Nat → ℝ, (∀ c < n, |z c - w c| ≤ η) →
      Real.log (∑ c ∈ (Finset.range n).erase i, Real.exp (z c - z i)) ≤ Real.log (∑ c ∈ (Finset.range n).erase i, Real.exp (w c - w i)) + 2 * η := by
    intro z w h
    rw [← Real.log_exp (2 * η), ← Real.log_mul (hpos w).ne' (Real.exp_pos _).ne']
    refine Real.log_le_log (hpos z) ?_
    rw [Finset.sum_mul]
    apply Finset.sum_le_sum
    intro c hc
    rw [← Real.exp_add]
    apply Real.exp_le_exp.2
    have h1 := abs_le.1 (h c (Finset.mem_range.1 (Finset.mem_of_mem_erase hc)))
    have h2 := abs_le.1 (h i hi)
    linarith [h1.2, h2.1]
  have h1 := hle x y hη
  have h2 := hle y x fun c hc => by rw [abs_sub_comm]; exact hη c hc
  obtain ⟨A, eA⟩ : ∃ A, A = Real.log (∑ c ∈ (Finset.range n).erase i, Real.exp (x c - x i)) := ⟨_, rfl⟩
  obtain ⟨B, eB⟩ : ∃ B, B = Real.log (∑ c ∈ (Finset.range n).erase i, Real.exp (y c - y i)) := ⟨_, rfl⟩
  have eA' : ∑ c ∈ (Finset.range n).erase i, Real.exp (x c - x i) = Real.exp (-(-A)) := by rw [neg_neg, eA, Real.exp_log (hpos x)]
  have eB' : ∑ c ∈ (Finset.range n).erase i, Real.exp (y c - y i) = Real.exp (-(-B)) := by rw [neg_neg, eB, Real.exp_log (hpos y)]
  rw [← eA, ← eB] at h1 h2
  rw [eA', eB']
  refine (logistic_dist _ _).trans ?_
  have : |(-A) - (-B)| ≤ 2 * η := by
    rw [abs_le]
    constructor <;> linarith
  linarith

/-! ### Sums of products -/

theorem accum_dist (py px : Nat → Option Nat) (kh kw nc : Nat) (x y : Nat → Nat → Nat → Int) (w : Nat → Nat → Nat → Int) {δ : ℝ} (hδ : 0 ≤ δ)
    (h : ∀ a b c, |((x a b c : ℤ) : ℝ) - (y a b c : ℤ)| ≤ δ) :
    |((Conv.accum py px kh kw nc x w : ℤ) : ℝ) - (Conv.accum py px kh kw nc y w : ℤ)| ≤
      δ * ((∑ a ∈ Finset.range kh, ∑ b ∈ Finset.range kw, ∑ c ∈ Finset.range nc, |w a b c| : ℤ) : ℝ) := by
  unfold Conv.accum
  push_cast
  rw [← Finset.sum_sub_distrib, Finset.mul_sum]
  refine (Finset.abs_sum_le_sum_abs _ _).trans (Finset.sum_le_sum ?_)
  intro a _
  rw [← Finset.sum_sub_distrib, Finset.mul_sum]
  refine (Finset.abs_sum_le_sum_abs _ _).trans (Finset.sum_le_sum ?_)
  intro b _
  have h0 : (0 : ℝ) ≤ δ * ∑ c ∈ Finset.range nc, |(w a b c : ℝ)| := mul_nonneg hδ (Finset.sum_nonneg fun _ _ => abs_nonneg _)
  cases py a with
  | none => simpa using h0
  | some iy =>
    cases px b with
    | none => simpa using h0
    | some ix =>
      dsimp only
      push_cast
      rw [← Finset.sum_sub_distrib, Finset.mul_sum]
      refine (Finset.abs_sum_le_sum_abs _ _).trans (Finset.sum_le_sum ?_)
      intro c _
      rw [← sub_mul, abs_mul]
      exact mul_le_mul_of_nonneg_right (h iy ix c) (abs_nonneg _)

/-- A requantised accumulator. -/
theorem rq_dist {r : ℚ → ℤ} (hr : Nearest r) (t : Conv.Compile.Types) {s : ℚ} (lo up : ℤ) {A B : ℤ} {W : ℤ}
    {δ G : ℝ} (h : |((A : ℤ) : ℝ) - (B : ℤ)| ≤ δ * (W : ℝ)) (hG : δ * gain t s W ≤ G) :
    |((clamp lo up (t.zpo + r (t.inS * s / t.outS * A)) : ℤ) : ℝ) - (clamp lo up (t.zpo + r (t.inS * s / t.outS * B)) : ℤ)| ≤ roundUp G := by
  apply requant_dist hr
  refine le_trans ?_ hG
  unfold gain
  push_cast
  rw [← mul_sub, abs_mul]
  calc |(t.inS : ℝ) * s / t.outS| * |((A : ℤ) : ℝ) - (B : ℤ)| ≤ |(t.inS : ℝ) * s / t.outS| * (δ * (W : ℝ)) := mul_le_mul_of_nonneg_left h (abs_nonneg _)
    _ = _ := by ring

theorem redSum_dist (red : Nat → Bool) : ∀ (s : List Nat) (p : Nat) (x y : List Nat → ℚ) (idx : List Nat) (δ : ℝ), 0 ≤ δ →
    (∀ i, |((x i : ℚ) : ℝ) - (y i : ℚ)| ≤ δ) →
    |((XC.redSum red p s x idx : ℚ) : ℝ) - (XC.redSum red p s y idx : ℚ)| ≤ (reducedCount red p s : ℝ) * δ
  | [], p, x, y, idx, δ, h0, h => by
    unfold XC.redSum reducedCount
    simpa using h []
  | n :: s, p, x, y, idx, δ, h0, h => by
    unfold XC.redSum reducedCount
    split
    · have key : ∀ (l : List Nat) (f g : Nat → ℚ) (e : ℝ), (∀ i, |((f i : ℚ) : ℝ) - (g i : ℚ)| ≤ e) →
          |(((l.map f).sum : ℚ) : ℝ) - ((l.map g).sum : ℚ)| ≤ l.length * e := by
        intro l f g e he
        induction l with
        | nil => simp
        | cons a l il =>
          rw [List.map_cons, List.map_cons, List.sum_cons, List.sum_cons]
          rw [Rat.cast_add, Rat.cast_add]
          rw [show ((f a : ℚ) : ℝ) + ((l.map f).sum : ℚ) - ((g a : ℚ) + ((l.map g).sum : ℚ)) = (((f a : ℚ) : ℝ) - (g a : ℚ)) + ((((l.map f).sum : ℚ) : ℝ) - ((l.map g).sum : ℚ)) by ring]
          refine (abs_add_le _ _).trans ?_
          have := he a
          rw [List.length_cons, Nat.cast_add, Nat.cast_one, add_mul, one_mul]
          linarith
      have := key (List.range n) (fun i => XC.redSum red (p + 1) s (fun t => x (i :: t)) idx) (fun i => XC.redSum red (p + 1) s (fun t => y (i :: t)) idx) _
        fun i => redSum_dist red s (p + 1) (fun t => x (i :: t)) (fun t => y (i :: t)) idx δ h0 fun t => h (i :: t)
      rw [List.length_range] at this
      refine this.trans (le_of_eq ?_)
      push_cast
      ring
    · exact redSum_dist red s (p + 1) _ _ idx.tail δ h0 fun t => h _

end Verif.Net
