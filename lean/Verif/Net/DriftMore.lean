import Verif.Net.MergeExample
/-! C112: bounds for operators that TensorFlow Lite runs, on operands that differ. -/
namespace Verif.Net
open Verif.Tensor Verif.Move Verif.MemPlan Verif.MemPlan.Conc Verif.Quant

theorem one_of {xs : List (List Byte)} {t : Ty} (h : xs.map List.length = [t].map Ty.size) : ∃ x, xs = [x] ∧ x.length = t.size := by
  rcases xs with _ | ⟨x, _ | ⟨x', l⟩⟩ <;> simp at h
  exact ⟨x, rfl, h⟩

theorem two_of {xs : List (List Byte)} {t u : Ty} (h : xs.map List.length = [t, u].map Ty.size) :
    ∃ x x', xs = [x, x'] ∧ x.length = t.size ∧ x'.length = u.size := by
  rcases xs with _ | ⟨x, _ | ⟨x', _ | ⟨x'', l⟩⟩⟩ <;> simp at h
  exact ⟨x, x', rfl, h⟩

/-- **C112.** A change of scale of 8-bit numbers: the differences grow by the ratio of the steps, and one step of rounding. -/
theorem C112_quantize {R : Rt} {dom : MulArgs → Prop} (hR : R.OK dom) {k : Nat} {it ot : QType} (h : IsQuantize R k it ot) (hi : Is8 it) (ho : Is8 ot)
    {ty : Ty} (hd : ty.d = 1) {δ : ℝ} (h0 : 0 ≤ δ) : R.Grows (.elementwise k) [ty] ty [δ] (roundUp (it.scale * δ / ot.scale)) := by
  intro xs ys hx hy hc
  obtain ⟨x, ex, hx⟩ := one_of hx
  obtain ⟨y, ey, hy⟩ := one_of hy
  rw [ex, ey] at hc ⊢
  have hc : Close R.b ty δ x y := hc 0 (by simp)
  have hs1 : (0 : ℝ) < it.scale := by exact_mod_cast hi.pos
  have hs2 : (0 : ℝ) < ot.scale := by exact_mod_cast ho.pos
  unfold roundUp
  split
  · next hz =>
    have : δ = 0 := by
      by_contra hne
      have : 0 < δ := lt_of_le_of_ne h0 (Ne.symm hne)
      have : 0 < (it.scale : ℝ) * δ / ot.scale := by positivity
      linarith
    subst this
    rw [close_eq hx hy hc]
    exact close_refl _ _ le_rfl _
  · refine close_of8 hd fun idx hidx => ?_
    show |((tensorOf ty (eval R.ext (.elementwise k) ty [(ty, x)]) idx : ℤ) : ℝ) - (tensorOf ty (eval R.ext (.elementwise k) ty [(ty, y)]) idx : ℤ)| ≤ _
    rw [eval_quantize h ho hd x hidx, eval_quantize h ho hd y hidx]
    have f := (Rat.cast_le (K := ℝ)).2 (ot.q_dist ho.ok hR.r (it.deq (tensorOf ty x idx)) (it.deq (tensorOf ty y idx)))
    push_cast at f
    refine f.trans ?_
    have g := close8 hd h0 hx hy hc idx
    rw [cast_deq, cast_deq, ← mul_sub, abs_mul, abs_of_pos hs1,
      show ∀ a b z : ℝ, a - z - (b - z) = a - b from fun a b z => by ring]
    have := div_le_div_of_nonneg_right (mul_le_mul_of_nonneg_left g hs1.le) hs2.le
    linarith

/-- **C112.** MINIMUM: at most the larger of the differences. -/
theorem C112_minimum {R : Rt} {k : Nat} (h : IsMinimum R k) {ip : Bool} {ty tb : Ty} (hd : ty.d = 1) (hb : tb.d = 1) (hne : 0 < tb.size) (δ δ' : ℝ) :
    R.Grows (.other ip k) [ty, tb] ty [δ, δ'] (max δ δ') := by
  intro xs ys hx hy hc
  obtain ⟨x, x', ex, hx, hx'⟩ := two_of hx
  obtain ⟨y, y', ey, hy, hy'⟩ := two_of hy
  rw [ex, ey] at hc ⊢
  have c1 : Close R.b ty δ x y := hc 0 (by simp)
  have c2 : Close R.b tb δ' x' y' := hc 1 (by simp)
  have hs : ty.size = ty.shape.prod := by unfold Ty.size; rw [hd, Nat.mul_one]
  have hsb : tb.size = tb.shape.prod := by unfold Ty.size; rw [hb, Nat.mul_one]
  have ev : ∀ (a a' : List Byte), a.length = ty.size → a'.length = tb.size →
      eval R.ext (.other ip k) ty [(ty, a), (tb, a')] = R.ext k [a, a'] := by
    intro a a' ha ha'
    unfold eval denote
    simp only [List.map_cons, List.map_nil]
    rw [bytesOf_elemAt _ _ ha, bytesOf_elemAt _ _ ha']
    apply bytesOf_elemAt
    rw [h a a' (by rintro rfl; simp at ha'; omega)]
    simp [ha]
  show Close R.b ty _ (eval R.ext (.other ip k) ty [(ty, x), (tb, x')]) (eval R.ext (.other ip k) ty [(ty, y), (tb, y')])
  rw [ev x x' hx hx', ev y y' hy hy', h x x' (by rintro rfl; simp at hx'; omega), h y y' (by rintro rfl; simp at hy'; omega)]
  refine close_of8_getD hd fun i hi => ?_
  have get : ∀ (a a' : List Byte), a.length = ty.size → a'.length = tb.size →
      s8 (((List.range a.length).map fun i => if s8 (a.getD i 0) ≤ s8 (a'.getD (i % a'.length) 0) then a.getD i 0 else a'.getD (i % a'.length) 0).getD i 0) =
        min (s8 (a.getD i 0)) (s8 (a'.getD (i % tb.size) 0)) := by
    intro a a' ha ha'
    rw [List.getD_eq_getElem?_getD, List.getElem?_map, List.getElem?_range (by rw [ha, hs]; exact hi), Option.map_some, Option.getD_some, ha']
    split
    · next hle => rw [min_eq_left hle]
    · next hle => rw [min_eq_right (by omega)]
  rw [get x x' hx hx', get y y' hy hy']
  have d1 := c1 i hi
  rw [hd] at d1
  unfold CloseEl at d1
  rw [if_pos rfl, word_one, word_one] at d1
  have d2 := c2 (i % tb.size) (by rw [← hsb]; exact Nat.mod_lt _ hne)
  rw [hb] at d2
  unfold CloseEl at d2
  rw [if_pos rfl, word_one, word_one] at d2
  push_cast
  exact (abs_min_sub_min_le_max _ _ _ _).trans (max_le_max d1 d2)

noncomputable def exDG (v : Nat) : ℝ := [0, 1, 3, 2].getD v 0

/-- C114's example without merging has bounds: one step for the convolution, three (finer) steps behind the quantise operator and two behind the RELU
operator; C112 applies to it. -/
theorem C112_quantize_example (g : Conv.Compile.Net) : (exampleM g).Bounds exRtM exEM exDG := by
  have hthr : exRtM.cfg.threshold < 1 := by
    show exRt.cfg.threshold < 1
    norm_num [exRt, Conv.defaultCfg]
  constructor
  · intro v hv
    have : v = 0 := by simp [exampleM] at hv; exact hv
    subst this
    norm_num [exDG]
  · intro j n hj
    have hjl := (List.getElem?_eq_some_iff.1 hj).1
    have hjl : j < 3 := hjl
    have : j = 0 ∨ j = 1 ∨ j = 2 := by omega
    have z : ∀ l : List ℝ, roundUp (exDG 0 * peak l) = 0 := fun l => by
      rw [show exDG 0 = 0 from rfl, zero_mul, roundUp, if_pos le_rfl]
    rcases this with rfl | rfl | rfl <;> obtain rfl := Option.some.inj hj
    · refine ⟨by norm_num [exEM], by norm_num [exDG, exampleM], .inr (.inr (.inl ⟨trivial, ?_⟩))⟩
      show (if exRtM.cfg.threshold < 1 then (1 : ℝ) else exRtM.cfg.threshold + 1) + exEM 0 + roundUp (exDG 0 * peak _) ≤ exDG 1
      rw [if_pos hthr, z]
      norm_num [exDG, exEM]
    · refine ⟨by norm_num [exEM], by norm_num [exDG, exampleM], .inr (.inr (.inr ⟨_, rfl, ?_⟩))⟩
      have h := C112_quantize exRtM_ok (k := 0) (it := exTypesM.outQ) (ot := exQ2) (fun b => rfl) exM_is8.1 exM_is8.2 (ty := ⟨[1, 3, 3, 6], 1⟩) rfl
        (δ := 1) (by norm_num)
      have e : roundUp ((exTypesM.outQ.scale : ℝ) * 1 / exQ2.scale) = 3 := by
        norm_num [roundUp, exTypesM, Conv.Compile.exTypes, Conv.Compile.Types.outQ, exQ2]
      rw [e] at h
      exact h
    · refine ⟨by norm_num [exEM], by norm_num [exDG, exampleM], .inr (.inr (.inl ⟨trivial, ?_⟩))⟩
      show (1 / 2 : ℝ) + exEM 2 + slope (.tabled .relu) * ((exTypesM.outS : ℝ) * exDG 1) / (exTypesM.outQ.scale : ℝ) ≤ exDG 3
      norm_num [exDG, exEM, slope, exTypesM, Conv.Compile.exTypes, Conv.Compile.Types.outQ]

end Verif.Net
