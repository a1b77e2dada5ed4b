import Verif.Net.MergeRef
/-!
C114: operators that the compiler merges into the convolution before them.

`ApplyTFLPatterns` (xformer/Transforms/TFLPatterns.td 29-40, 55-62) replaces `Quantize(Conv2D)` by a convolution with the type of the quantise
operator, `Relu(Conv2D)` by a convolution with a fused RELU and the type of the RELU operator, and `Relu(Minimum(x, 127))` by `Relu(x)`.  The first two
leave out one rounding, so results change.  Here merges and the exact rewrites of C95/C99 are applied in any order to a whole network.
-/
namespace Verif.Net
open Verif.Tensor Verif.Move Verif.MemPlan Verif.MemPlan.Conc Verif.Quant

/-! ### Model -/

/-- The 8-bit type of the result of a convolution. -/
def _root_.Verif.Conv.Compile.Types.outQ (t : Conv.Compile.Types) : QType := ⟨t.outS, t.zpo, -128, 127⟩

/-- The same convolution with another result type and fused activation. -/
def _root_.Verif.Conv.Compile.Types.into (t : Conv.Compile.Types) (q : QType) (act : Conv.Act) : Conv.Compile.Types :=
  { t with outS := q.scale, zpo := q.zp, act := act }

/-- The operator that defines a value. -/
def QNetwork.producer (Q : QNetwork) (v : Nat) : Option QNode := if v < Q.inputs.length then none else Q.nodes[v - Q.inputs.length]?

/-- An operator is replaced by another one with the same result type; the operators before it stay and are removed when nothing uses them (C95). -/
def QNetwork.replace (Q : QNetwork) (i : Nat) (n : QNode) : QNetwork := { Q with nodes := Q.nodes.set i n }

/-- TFLPatterns.td 29-33 (Conv2D) and 35-40 (DepthwiseConv2D): operator `i` is a quantise operator with result type `ot`. -/
def mergeQuantize (Q : QNetwork) (i : Nat) (ot : QType) : Option QNetwork :=
  match Q.nodes[i]? with
  | some ⟨.base (.elementwise _), [v], ty⟩ =>
    match Q.producer v with
    | some ⟨.conv t l g, args, _⟩ => some (Q.replace i ⟨.conv (t.into ot t.act) l g, args, ty⟩)
    | _ => none
  | _ => none

/-- TFLPatterns.td 58-62: Conv2D only, without a fused activation.  `ot` is the type of the RELU operator's result. -/
def mergeReluConv (Q : QNetwork) (i : Nat) (ot : QType) : Option QNetwork :=
  match Q.nodes[i]? with
  | some ⟨.activation .relu _ _, [v], ty⟩ =>
    match Q.producer v with
    | some ⟨.conv t l g, args, _⟩ =>
      if t.act = .none ∧ l.dw = false then some (Q.replace i ⟨.conv (t.into ot .relu) l g, args, ty⟩) else none
    | _ => none
  | _ => none

/-- TFLPatterns.td 55-56 with `IsSplatAndEqualTo<127>` (xformer/Utils/Utils.td 52-58): all bytes of the constant are 127. -/
def mergeMinimum (Q : QNetwork) (i : Nat) : Option QNetwork :=
  match Q.nodes[i]? with
  | some ⟨.activation .relu it ot, [v], ty⟩ =>
    match Q.producer v with
    | some ⟨.base (.other _ _), [a, b], _⟩ =>
      match Q.producer b with
      | some ⟨.base (.const data), _, _⟩ => if data ≠ [] ∧ ∀ x ∈ data, x = 127 then some (Q.replace i ⟨.activation .relu it ot, [a], ty⟩) else none
      | _ => none
    | _ => none
  | _ => none

/-! ### Specification -/

/-- Element operator `k` is TensorFlow Lite's QUANTIZE between two 8-bit types: it computes the real number and quantises it. -/
def IsQuantize (R : Rt) (k : Nat) (it ot : QType) : Prop := ∀ b : Byte, R.ext k [[b]] = [toByte (ot.q R.r (it.deq (s8 b)))]

/-- Operator `k` is TensorFlow Lite's MINIMUM of 8-bit tensors, the second of the shape of the first or repeated along its first axes. -/
def IsMinimum (R : Rt) (k : Nat) : Prop := ∀ x y : List Byte, y ≠ [] →
  R.ext k [x, y] = (List.range x.length).map fun i => if s8 (x.getD i 0) ≤ s8 (y.getD (i % y.length) 0) then x.getD i 0 else y.getD (i % y.length) 0

/-- An 8-bit type with a positive scale. -/
structure Is8 (q : QType) : Prop where
  pos : 0 < q.scale
  zp : -128 ≤ q.zp ∧ q.zp ≤ 127
  lo : q.lo = -128
  hi : q.hi = 127

/-- Leaving out type `q1` between a convolution and type `q2` is harmless for an element that is `v` in type `q1`, up to `e` steps: type `q1` reaches as
far up as type `q2` or `v` is not saturated; the same for the lower end, unless the numbers are not negative (`pos`). -/
def Unsaturated (pos : Prop) (q1 q2 : QType) (e : ℝ) (v : ℤ) : Prop :=
  (q2.deq 127 ≤ q1.deq 127 ∨ (v : ℝ) + e < 127) ∧ (pos ∨ q1.deq (-128) ≤ q2.deq (-128) ∨ (-128 : ℝ) < v - e)

/-- Error of a convolution into which a quantise operator is merged: half a step of the type that is left out, and one rounding. -/
noncomputable def mergedErr (q1 q2 : QType) (e : ℝ) : ℝ := ⌊(q1.scale : ℝ) * (e + 1 / 2) / q2.scale + 1⌋

/-- The same for a RELU operator (with error `e'`); nothing is lost between equal types. -/
noncomputable def reluErr (q1 q2 : QType) (e e' : ℝ) : ℝ :=
  open Classical in
  if q1 = q2 then ⌊e + e'⌋ else ⌊(q1.scale : ℝ) * (e + 1 / 2) / q2.scale + 1 / 2 + e'⌋

/-! ### Proofs: numbers -/

theorem Is8.ok {q : QType} (h : Is8 q) : q.OK := ⟨h.pos, by rw [h.lo]; exact h.zp.1, by rw [h.hi]; exact h.zp.2⟩

theorem raw_mono (q : QType) (ok : q.OK) {r : ℚ → ℤ} (hr : Nearest r) {x y : ℚ} (h : x ≤ y) : q.raw r x ≤ q.raw r y := by
  unfold QType.raw
  have := TFL.Nearest.mono hr (div_le_div_of_nonneg_right h ok.scale_pos.le)
  omega

/-- A number cut to the range of the first type. -/
theorem cut_type {r : ℚ → ℤ} (hr : Nearest r) {q1 q2 : QType} (h1 : Is8 q1) (h2 : Is8 q2) (y : ℚ) :
    let y' := max (q1.deq (-128)) (min (q1.deq 127) y)
    q1.InRange (q1.raw r y') ∧ q1.q r y' = q1.q r y ∧
    ((q2.deq 127 ≤ q1.deq 127 ∨ q1.q r y < 127) → (0 ≤ y ∨ q1.deq (-128) ≤ q2.deq (-128) ∨ -128 < q1.q r y) → q2.q r y' = q2.q r y) := by
  intro y'
  have hs1 := h1.pos
  have hlu : q1.deq (-128) ≤ q1.deq 127 := by unfold QType.deq; push_cast; nlinarith
  have r1 : q1.raw r (q1.deq (-128)) = -128 := q1.raw_deq h1.ok hr _
  have r2 : q1.raw r (q1.deq 127) = 127 := q1.raw_deq h1.ok hr _
  have e1 : ∀ x, q1.q r x = max (-128) (min 127 (q1.raw r x)) := fun x => by unfold QType.q clamp; rw [h1.lo, h1.hi]
  have e2 : ∀ x, q2.q r x = max (-128) (min 127 (q2.raw r x)) := fun x => by unfold QType.q clamp; rw [h2.lo, h2.hi]
  rcases le_total y (q1.deq (-128)) with c1 | c1
  · have hy : y' = q1.deq (-128) := by
      simp only [y']
      rw [min_eq_right (c1.trans hlu), max_eq_left c1]
    have m := raw_mono q1 h1.ok hr c1
    rw [hy]
    have eq1 : q1.q r y = -128 := by rw [e1]; omega
    refine ⟨⟨by rw [r1, h1.lo], by rw [r1, h1.hi]; norm_num⟩, by rw [eq1, e1, r1]; norm_num, fun _ hl => ?_⟩
    rcases hl with hl | hl | hl
    · have h0 : q1.deq (-128) ≤ 0 := by
        unfold QType.deq
        have : ((-128 : ℤ) : ℚ) ≤ q1.zp := by exact_mod_cast h1.zp.1
        nlinarith
      rw [show y = q1.deq (-128) by linarith]
    · have m1 := raw_mono q2 h2.ok hr hl
      have m2 := raw_mono q2 h2.ok hr c1
      rw [q2.raw_deq h2.ok hr] at m1
      rw [e2, e2]
      omega
    · omega
  · rcases le_total (q1.deq 127) y with c2 | c2
    · have hy : y' = q1.deq 127 := by
        simp only [y']
        rw [min_eq_left c2, max_eq_right hlu]
      have m := raw_mono q1 h1.ok hr c2
      rw [hy]
      have eq1 : q1.q r y = 127 := by rw [e1]; omega
      refine ⟨⟨by rw [r2, h1.lo]; norm_num, by rw [r2, h1.hi]⟩, by rw [eq1, e1, r2]; norm_num, fun hu _ => ?_⟩
      rcases hu with hu | hu
      · have m1 := raw_mono q2 h2.ok hr hu
        have m2 := raw_mono q2 h2.ok hr c2
        rw [q2.raw_deq h2.ok hr] at m1
        rw [e2, e2]
        omega
      · omega
    · have hy : y' = y := by
        simp only [y']
        rw [min_eq_right c2, max_eq_right c1]
      rw [hy]
      have m1 := raw_mono q1 h1.ok hr c1
      have m2 := raw_mono q1 h1.ok hr c2
      exact ⟨⟨by rw [h1.lo]; omega, by rw [h1.hi]; omega⟩, rfl, fun _ _ => rfl⟩

theorem cast_deq (q : QType) (v : ℤ) : ((q.deq v : ℚ) : ℝ) = (q.scale : ℝ) * (v - q.zp) := by
  unfold QType.deq
  push_cast
  ring

/-- The number in the first type is not far from the exact one. -/
theorem first_type {r : ℚ → ℤ} (hr : Nearest r) {q1 : QType} (h1 : Is8 q1) {y' : ℚ} (hin : q1.InRange (q1.raw r y')) {v : ℤ} {e : ℝ}
    (hv : |(v : ℝ) - (q1.q r y' : ℤ)| ≤ e) : |((q1.deq v : ℚ) : ℝ) - (y' : ℝ)| ≤ (q1.scale : ℝ) * (e + 1 / 2) := by
  have hs : (0 : ℝ) < q1.scale := by exact_mod_cast h1.pos
  have a := q1.deq_q_err h1.ok hr hin
  have a' : |((q1.deq (q1.q r y') : ℚ) : ℝ) - (y' : ℝ)| ≤ (q1.scale : ℝ) / 2 := by
    have := (Rat.cast_le (K := ℝ)).2 a
    push_cast at this
    exact this
  have b : |((q1.deq v : ℚ) : ℝ) - ((q1.deq (q1.q r y') : ℚ) : ℝ)| ≤ (q1.scale : ℝ) * e := by
    rw [cast_deq, cast_deq, ← mul_sub, abs_mul, abs_of_pos hs]
    refine mul_le_mul_of_nonneg_left ?_ hs.le
    rwa [show ((v : ℝ) - q1.zp - (((q1.q r y' : ℤ) : ℝ) - q1.zp)) = (v : ℝ) - (q1.q r y' : ℤ) by ring]
  calc _ ≤ _ := abs_sub_le _ ((q1.deq (q1.q r y') : ℚ) : ℝ) _
    _ ≤ _ := by linarith

theorem unsaturated_first {pos : Prop} {q1 q2 : QType} {e : ℝ} {v w : ℤ} (hu : Unsaturated pos q1 q2 e v) (hv : |(v : ℝ) - (w : ℤ)| ≤ e) :
    (q2.deq 127 ≤ q1.deq 127 ∨ w < 127) ∧ (pos ∨ q1.deq (-128) ≤ q2.deq (-128) ∨ -128 < w) := by
  have hv := abs_le.1 hv
  refine ⟨hu.1.imp_right fun h => ?_, hu.2.imp_right fun h => h.imp_right fun h => ?_⟩
  · have : (w : ℝ) < (127 : ℤ) := by push_cast; linarith [hv.1]
    exact_mod_cast this
  · have : ((-128 : ℤ) : ℝ) < w := by push_cast; linarith [hv.2]
    exact_mod_cast this

theorem le_floor_abs {a b : ℤ} {e : ℝ} (h : |(a : ℝ) - (b : ℤ)| ≤ e) : |(a : ℝ) - (b : ℤ)| ≤ (⌊e⌋ : ℤ) := by
  have h1 : ((|a - b| : ℤ) : ℝ) ≤ e := by push_cast; exact h
  have h2 := Int.le_floor.2 h1
  have h3 : ((|a - b| : ℤ) : ℝ) ≤ (⌊e⌋ : ℤ) := by exact_mod_cast h2
  push_cast at h3
  exact h3

/-- Quantising from the first type and quantising the exact number. -/
theorem quantize_merged {r : ℚ → ℤ} (hr : Nearest r) {q1 q2 : QType} (h1 : Is8 q1) (h2 : Is8 q2) {pos : Prop} {y : ℚ} (hpos : pos → 0 ≤ y) {v : ℤ} {e : ℝ}
    (hv : |(v : ℝ) - (q1.q r y : ℤ)| ≤ e) (hu : Unsaturated pos q1 q2 e v) :
    |((q2.q r (q1.deq v) : ℤ) : ℝ) - (q2.q r y : ℤ)| ≤ mergedErr q1 q2 e := by
  obtain ⟨u1, u2⟩ := unsaturated_first hu hv
  obtain ⟨c1, c2, c3⟩ := cut_type hr h1 h2 y
  have c3 := c3 u1 (u2.imp_left hpos)
  obtain ⟨y', hy'⟩ : ∃ y', y' = max (q1.deq (-128)) (min (q1.deq 127) y) := ⟨_, rfl⟩
  rw [← hy'] at c1 c2 c3
  rw [← c2] at hv
  have d := first_type hr h1 c1 hv
  have hs2 : (0 : ℝ) < q2.scale := by exact_mod_cast h2.pos
  have f := (Rat.cast_le (K := ℝ)).2 (q2.q_dist h2.ok hr (q1.deq v) y')
  push_cast at f
  rw [← c3]
  unfold mergedErr
  apply le_floor_abs
  refine f.trans ?_
  have := div_le_div_of_nonneg_right d hs2.le
  linarith

theorem cut_lip (a b : ℝ) : |max (-128) (min 127 a) - max (-128) (min 127 b)| ≤ |a - b| := by
  refine (abs_max_sub_max_le_max _ _ _ _).trans ?_
  rw [sub_self, abs_zero]
  refine max_le (abs_nonneg _) ((abs_min_sub_min_le_max _ _ _ _).trans ?_)
  rw [sub_self, abs_zero]
  exact max_le (abs_nonneg _) le_rfl

theorem sat8_lip (t : XC.QI8) (ht : 0 < t.scale) (x y : ℝ) : |sat8 t x - sat8 t y| ≤ |x - y| / t.scale := by
  unfold sat8
  have h : |(x / t.scale + t.zp) - (y / t.scale + t.zp)| = |x - y| / t.scale := by
    rw [show x / t.scale + t.zp - (y / t.scale + t.zp) = (x - y) / t.scale by ring, abs_div, abs_of_pos ht]
  rw [← h]
  exact cut_lip _ _

theorem q_sat8 {r : ℚ → ℤ} (hr : Nearest r) {q : QType} (h : Is8 q) (x : ℚ) : |((q.q r x : ℤ) : ℝ) - sat8 ⟨q.scale, q.zp⟩ (x : ℝ)| ≤ 1 / 2 := by
  have h1 := abs_le.1 (hr (x / q.scale))
  have h2 : |((q.raw r x : ℤ) : ℝ) - ((x : ℝ) / q.scale + q.zp)| ≤ 1 / 2 := by
    have := (Rat.cast_le (K := ℝ)).2 (hr (x / q.scale))
    push_cast at this
    unfold QType.raw
    push_cast
    rwa [show ((q.zp : ℝ) + (r (x / q.scale) : ℤ) - ((x : ℝ) / q.scale + q.zp)) = ((r (x / q.scale) : ℤ) : ℝ) - (x : ℝ) / q.scale by ring]
  unfold QType.q clamp sat8
  rw [h.lo, h.hi]
  push_cast
  exact (cut_lip _ _).trans h2

/-- Quantising RELU of the number in the first type (up to `e'`) and of the exact number. -/
theorem relu_merged {r : ℚ → ℤ} (hr : Nearest r) {q1 q2 : QType} (h1 : Is8 q1) (h2 : Is8 q2) {y : ℚ} {v : ℤ} {e e' : ℝ}
    (hv : |(v : ℝ) - (q1.q r y : ℤ)| ≤ e) (hr8 : -128 ≤ v ∧ v ≤ 127) (hu : q1 = q2 ∨ Unsaturated True q1 q2 e v) {w : ℤ}
    (hw : |(w : ℝ) - sat8 ⟨q2.scale, q2.zp⟩ (max 0 ((q1.scale : ℝ) * (v - q1.zp)))| ≤ e') :
    |(w : ℝ) - (q2.q r (max 0 y) : ℤ)| ≤ reluErr q1 q2 e e' := by
  have hs2 : (0 : ℝ) < q2.scale := by exact_mod_cast h2.pos
  unfold reluErr
  split
  · next heq =>
    subst heq
    apply le_floor_abs
    -- in steps
    have a : sat8 ⟨q1.scale, q1.zp⟩ (max 0 ((q1.scale : ℝ) * (v - q1.zp))) = ((max q1.zp v : ℤ) : ℝ) := by
      unfold sat8
      simp only
      have h3 : max 0 ((q1.scale : ℝ) * (v - q1.zp)) / q1.scale + q1.zp = ((max q1.zp v : ℤ) : ℝ) := by
        rcases le_total q1.zp v with hz | hz
        · have hz' : (q1.zp : ℝ) ≤ v := by exact_mod_cast hz
          rw [max_eq_right (mul_nonneg hs2.le (by linarith)), max_eq_right hz]
          field_simp
          ring
        · have hz' : (v : ℝ) ≤ q1.zp := by exact_mod_cast hz
          rw [max_eq_left (mul_nonpos_of_nonneg_of_nonpos hs2.le (by linarith)), max_eq_left hz, zero_div, zero_add]
      rw [h3]
      have h4 := h1.zp
      have h5 : (max q1.zp v : ℤ) ≤ 127 := by omega
      have h6 : -128 ≤ (max q1.zp v : ℤ) := by omega
      have h5' : ((max q1.zp v : ℤ) : ℝ) ≤ 127 := by exact_mod_cast h5
      have h6' : (-128 : ℝ) ≤ ((max q1.zp v : ℤ) : ℝ) := by exact_mod_cast h6
      rw [min_eq_right h5', max_eq_right h6']
    have b : q1.q r (max 0 y) = max q1.zp (q1.q r y) := by
      have r0 : q1.raw r 0 = q1.zp := by
        have := q1.raw_deq h1.ok hr q1.zp
        unfold QType.deq at this
        rwa [sub_self, mul_zero] at this
      have h4 := h1.zp
      unfold QType.q clamp
      rw [h1.lo, h1.hi]
      rcases le_total 0 y with hy | hy
      · have := raw_mono q1 h1.ok hr hy
        rw [max_eq_right hy]
        omega
      · have := raw_mono q1 h1.ok hr hy
        rw [max_eq_left hy]
        omega
    rw [a] at hw
    rw [b]
    have c : |((max q1.zp v : ℤ) : ℝ) - ((max q1.zp (q1.q r y) : ℤ) : ℝ)| ≤ e := by
      refine le_trans ?_ hv
      push_cast
      refine (abs_max_sub_max_le_max _ _ _ _).trans ?_
      rw [sub_self, abs_zero]
      exact max_le (abs_nonneg _) le_rfl
    calc _ ≤ _ := abs_sub_le _ ((max q1.zp v : ℤ) : ℝ) _
      _ ≤ _ := by linarith
  · next hne =>
    have hu := hu.resolve_left hne
    apply le_floor_abs
    obtain ⟨u1, -⟩ := unsaturated_first hu hv
    obtain ⟨c1, c2, -⟩ := cut_type hr h1 h2 y
    obtain ⟨-, -, c3⟩ := cut_type hr h1 h2 (max 0 y)
    obtain ⟨y', hy'⟩ : ∃ y', y' = max (q1.deq (-128)) (min (q1.deq 127) y) := ⟨_, rfl⟩
    rw [← hy'] at c1 c2
    rw [← c2] at hv
    have d := first_type hr h1 c1 hv
    have hL : q1.deq (-128) ≤ 0 := by
      unfold QType.deq
      have : ((-128 : ℤ) : ℚ) ≤ q1.zp := by exact_mod_cast h1.zp.1
      have := h1.pos
      nlinarith
    have hU : 0 ≤ q1.deq 127 := by
      unfold QType.deq
      have : (q1.zp : ℚ) ≤ ((127 : ℤ) : ℚ) := by exact_mod_cast h1.zp.2
      have := h1.pos
      nlinarith
    have hcut : max (q1.deq (-128)) (min (q1.deq 127) (max 0 y)) = max 0 y' := by
      rw [hy']
      rcases le_total 0 y with hy | hy
      · rw [max_eq_right hy]
        rw [max_eq_right (hL.trans (le_min hU hy)), max_eq_right (le_min hU hy)]
      · rw [max_eq_left hy, min_eq_right hU, max_eq_right hL, min_eq_right (hy.trans hU), max_eq_left (max_le hL hy)]
    have c4 : q2.q r (max 0 y') = q2.q r (max 0 y) := by
      rcases le_total 0 y with hy | hy
      · rw [← hcut]
        refine c3 (u1.imp_right fun h => ?_) (.inl (le_max_left _ _))
        rw [max_eq_right hy]
        exact h
      · rw [hy', min_eq_right (hy.trans hU), max_eq_left (max_le hL hy), max_eq_left hy]
    rw [← c4]
    have f := q_sat8 hr h2 (max 0 y')
    have g := sat8_lip ⟨q2.scale, q2.zp⟩ hs2 (max 0 ((q1.scale : ℝ) * (v - q1.zp))) ((max 0 y' : ℚ) : ℝ)
    have k : |max 0 ((q1.scale : ℝ) * (v - q1.zp)) - ((max 0 y' : ℚ) : ℝ)| ≤ (q1.scale : ℝ) * (e + 1 / 2) := by
      rw [cast_deq] at d
      refine le_trans ?_ d
      push_cast
      refine (abs_max_sub_max_le_max _ _ _ _).trans ?_
      rw [sub_self, abs_zero]
      exact max_le (abs_nonneg _) le_rfl
    have g' := g.trans (div_le_div_of_nonneg_right k hs2.le)
    have f' := abs_le.1 f
    have g'' := abs_le.1 g'
    have hw' := abs_le.1 hw
    rw [abs_le]
    constructor <;> linarith [f'.1, f'.2, g''.1, g''.2, hw'.1, hw'.2]

end Verif.Net
