import Verif.Net.DriftNode
import Verif.Net.QConv16Props
/-! C112: two runs of one operator, continued. -/
namespace Verif.Net
open Verif.Tensor Verif.Move Verif.MemPlan Verif.Quant

theorem tri {a b r s e₁ e₂ g : ℝ} (h₁ : |a - r| ≤ e₁) (h₂ : |b - s| ≤ e₂) (h : |r - s| ≤ g) : |a - b| ≤ e₁ + e₂ + g := by
  rw [abs_le] at *
  constructor <;> linarith [h₁.1, h₁.2, h₂.1, h₂.2, h.1, h.2]

/-! ### Sums of products -/

theorem conv2d_dist {r : ℚ → ℤ} (hr : Nearest r) (t : Conv.Compile.Types) (lo up : ℤ) (h w ic : Nat) (op : Conv.ConvOp) (x y : Conv.Tensor) {δ G : ℝ}
    (hδ : 0 ≤ δ) (hxy : ∀ i, |((x i : ℤ) : ℝ) - (y i : ℤ)| ≤ δ) (idx : List Nat)
    (hG : δ * gain t (op.filter.qp.scale (idx.getD 3 0)) (weightSum op.filter (idx.getD 3 0)) ≤ G) :
    |((Conv.conv2d (fun s _ acc => clamp lo up (t.zpo + r (t.inS * s / t.outS * acc))) t.zpi h w ic op x idx : ℤ) : ℝ) -
      (Conv.conv2d (fun s _ acc => clamp lo up (t.zpo + r (t.inS * s / t.outS * acc))) t.zpi h w ic op y idx : ℤ)| ≤ roundUp G := by
  unfold Conv.conv2d
  refine rq_dist hr t lo up ?_ hG
  push_cast
  rw [add_sub_add_left_eq_sub]
  refine accum_dist _ _ _ _ _ _ _ _ hδ ?_
  intro a b c
  push_cast
  rw [sub_sub_sub_cancel_right]
  exact hxy _

theorem dwconv_dist {r : ℚ → ℤ} (hr : Nearest r) (t : Conv.Compile.Types) (lo up : ℤ) (h w : Nat) (op : Conv.ConvOp) (x y : Conv.Tensor) {δ G : ℝ}
    (hδ : 0 ≤ δ) (hxy : ∀ i, |((x i : ℤ) : ℝ) - (y i : ℤ)| ≤ δ) (idx : List Nat)
    (hG : δ * gain t (op.filter.qp.scale (idx.getD 3 0)) (weightSumDw op.filter (idx.getD 3 0)) ≤ G) :
    |((Conv.dwconv (fun s _ acc => clamp lo up (t.zpo + r (t.inS * s / t.outS * acc))) t.zpi h w op x idx : ℤ) : ℝ) -
      (Conv.dwconv (fun s _ acc => clamp lo up (t.zpo + r (t.inS * s / t.outS * acc))) t.zpi h w op y idx : ℤ)| ≤ roundUp G := by
  unfold Conv.dwconv
  refine rq_dist hr t lo up ?_ hG
  push_cast
  rw [add_sub_add_left_eq_sub]
  refine (accum_dist _ _ _ _ _ _ _ _ hδ ?_).trans (le_of_eq ?_)
  · intro a b c
    push_cast
    rw [sub_sub_sub_cancel_right]
    exact hxy _
  · unfold weightSumDw
    simp

theorem tconv_dist {r : ℚ → ℤ} (hr : Nearest r) (t : Conv.Compile.Types) (lo up : ℤ) (h w oh ow : Nat) (op : Conv.ConvOp) (x y : Conv.Tensor) {δ G : ℝ}
    (hδ : 0 ≤ δ) (hxy : ∀ i, |((x i : ℤ) : ℝ) - (y i : ℤ)| ≤ δ) (idx : List Nat)
    (hG : δ * gain t (op.filter.qp.scale (idx.getD 3 0)) (weightSum op.filter (idx.getD 3 0)) ≤ G) :
    |((Conv.tconv (fun s _ acc => clamp lo up (t.zpo + r (t.inS * s / t.outS * acc))) t.zpi h w oh ow op x idx : ℤ) : ℝ) -
      (Conv.tconv (fun s _ acc => clamp lo up (t.zpo + r (t.inS * s / t.outS * acc))) t.zpi h w oh ow op y idx : ℤ)| ≤ roundUp G := by
  unfold Conv.tconv
  refine rq_dist hr t lo up ?_ hG
  push_cast
  rw [add_sub_add_left_eq_sub]
  refine accum_dist _ _ _ _ _ _ _ _ hδ ?_
  intro a b c
  push_cast
  rw [sub_sub_sub_cancel_right]
  exact hxy _

theorem fc_dist {r : ℚ → ℤ} (hr : Nearest r) (t : Conv.Compile.Types) (lo up : ℤ) (f : Conv.FC) (B : Nat) (x y : List ℤ) {δ G : ℝ}
    (hδ : 0 ≤ δ) (hxy : ∀ i, |((x.getD i 0 : ℤ) : ℝ) - (y.getD i 0 : ℤ)| ≤ δ) {k : Nat} (hk : k < B * f.o)
    (hG : ∀ o < f.o, δ * gain t (f.qp.scale o) (weightSumFc f o) ≤ G) :
    |(((Conv.fullyConnected (fun s _ acc => clamp lo up (t.zpo + r (t.inS * s / t.outS * acc))) t.zpi f B x).getD k 0 : ℤ) : ℝ) -
      ((Conv.fullyConnected (fun s _ acc => clamp lo up (t.zpo + r (t.inS * s / t.outS * acc))) t.zpi f B y).getD k 0 : ℤ)| ≤ roundUp G := by
  have ho : 0 < f.o := by
    rcases Nat.eq_zero_or_pos f.o with h | h
    · rw [h] at hk; simp at hk
    · exact h
  have e : k = k / f.o * f.o + k % f.o := by rw [Nat.mul_comm]; exact (Nat.div_add_mod k f.o).symm
  have h1 : k / f.o < B := Nat.div_lt_of_lt_mul (by rw [Nat.mul_comm]; exact hk)
  have h2 : k % f.o < f.o := Nat.mod_lt _ ho
  rw [e, fc_getD _ _ _ _ _ h1 h2, fc_getD _ _ _ _ _ h1 h2]
  refine rq_dist hr t lo up ?_ (hG _ h2)
  push_cast
  rw [add_sub_add_left_eq_sub, ← Finset.sum_sub_distrib]
  unfold weightSumFc
  push_cast
  rw [Finset.mul_sum]
  refine (Finset.abs_sum_le_sum_abs _ _).trans (Finset.sum_le_sum ?_)
  intro c _
  rw [← sub_mul, sub_sub_sub_cancel_right, abs_mul]
  exact mul_le_mul_of_nonneg_right (hxy _) (abs_nonneg _)

theorem peak_gain {n : Nat} (g : Nat → ℝ) {δ : ℝ} (hδ : 0 ≤ δ) {o : Nat} (ho : o < n) : δ * g o ≤ δ * peak ((List.range n).map g) :=
  mul_le_mul_of_nonneg_left (le_peak (List.mem_map_of_mem (List.mem_range.2 ho))) hδ

/-! ### Pools and reductions -/

theorem windowSum_dist (p : Conv.AvgPool) (h w y x : Nat) (u v : Nat → Nat → ℚ) {η : ℝ} (hη : ∀ a b, |((u a b : ℚ) : ℝ) - (v a b : ℚ)| ≤ η) :
    |((Conv.windowSum p h w y x u : ℚ) : ℝ) - (Conv.windowSum p h w y x v : ℚ)| ≤ (Conv.windowSum p h w y x (fun _ _ => 1) : ℚ) * η := by
  unfold Conv.windowSum
  push_cast
  rw [← Finset.sum_sub_distrib, Finset.sum_mul]
  refine (Finset.abs_sum_le_sum_abs _ _).trans (Finset.sum_le_sum ?_)
  intro a _
  rw [← Finset.sum_sub_distrib, Finset.sum_mul]
  refine (Finset.abs_sum_le_sum_abs _ _).trans (Finset.sum_le_sum ?_)
  intro b _
  split
  · simpa using hη _ _
  · simp

theorem windowSum_nonneg (p : Conv.AvgPool) (h w y x : Nat) : 0 ≤ Conv.windowSum p h w y x (fun _ _ => 1) := by
  unfold Conv.windowSum
  refine Finset.sum_nonneg fun a _ => Finset.sum_nonneg fun b _ => ?_
  split <;> norm_num

theorem div_dist {u v n : ℚ} {η : ℝ} (hn : 0 ≤ n) (hη : 0 ≤ η) (h : |(u : ℝ) - v| ≤ n * η) : |((u / n : ℚ) : ℝ) - (v / n : ℚ)| ≤ η := by
  push_cast
  rw [← sub_div, abs_div]
  rcases hn.eq_or_lt with h0 | h0
  · rw [← h0]
    simpa using hη
  · have h1 : (0 : ℝ) < n := by exact_mod_cast h0
    rw [abs_of_pos h1, div_le_iff₀ h1, mul_comm η]
    exact h

theorem deq_dist (t : QType) (hs : 0 < t.scale) {x y : ℤ} {δ : ℝ} (h : |((x : ℤ) : ℝ) - (y : ℤ)| ≤ δ) : |((t.deq x : ℚ) : ℝ) - (t.deq y : ℚ)| ≤ t.scale * δ := by
  have hs' : (0 : ℝ) < t.scale := by exact_mod_cast hs
  unfold QType.deq
  push_cast
  rw [← mul_sub, sub_sub_sub_cancel_right, abs_mul, abs_of_pos hs']
  exact mul_le_mul_of_nonneg_left h hs'.le

theorem deq8_dist (t : XC.QI8) (hs : 0 < t.scale) {x y : ℤ} {δ : ℝ} (h : |((x : ℤ) : ℝ) - (y : ℤ)| ≤ δ) : |t.deq x - t.deq y| ≤ t.scale * δ := by
  unfold XC.QI8.deq
  rw [← mul_sub, sub_sub_sub_cancel_right, abs_mul, abs_of_pos hs]
  exact mul_le_mul_of_nonneg_left h hs.le

theorem avgPool_dist {r : ℚ → ℤ} (hr : Nearest r) (t : Conv.Compile.Types) (hi : 0 < t.inS) (ho : 0 < t.outS) (p : Conv.AvgPool) (h w : Nat)
    (x y : Conv.Tensor) {δ : ℝ} (hδ : 0 ≤ δ) (hxy : ∀ i, |((x i : ℤ) : ℝ) - (y i : ℤ)| ≤ δ) (idx : List Nat) :
    |((Conv.avgPool (Conv.Compile.quantOut t r) ⟨t.inS, t.zpi, -128, 127⟩ h w p x idx : ℤ) : ℝ) -
      (Conv.avgPool (Conv.Compile.quantOut t r) ⟨t.inS, t.zpi, -128, 127⟩ h w p y idx : ℤ)| ≤ roundUp (t.inS * δ / t.outS) := by
  have hi' : (0 : ℝ) < t.inS := by exact_mod_cast hi
  have ho' : (0 : ℝ) < t.outS := by exact_mod_cast ho
  unfold Conv.avgPool Conv.Compile.quantOut
  apply requant_dist hr
  have h1 := div_dist (windowSum_nonneg p h w (idx.getD 1 0) (idx.getD 2 0)) (mul_nonneg hi'.le hδ)
    (windowSum_dist p h w (idx.getD 1 0) (idx.getD 2 0)
      (fun iy ix => QType.deq ⟨t.inS, t.zpi, -128, 127⟩ (x [idx.getD 0 0, iy, ix, idx.getD 3 0]))
      (fun iy ix => QType.deq ⟨t.inS, t.zpi, -128, 127⟩ (y [idx.getD 0 0, iy, ix, idx.getD 3 0])) fun a b => deq_dist _ hi (hxy _))
  rw [Rat.cast_div (_ / _), Rat.cast_div (_ / _), ← sub_div, abs_div, abs_of_pos ho']
  exact div_le_div_of_nonneg_right h1 ho'.le

theorem redSum_one (red : Nat → Bool) : ∀ (s : List Nat) (p : Nat) (idx : List Nat), XC.redSum red p s (fun _ => 1) idx = (reducedCount red p s : ℚ)
  | [], p, idx => by unfold XC.redSum reducedCount; simp
  | n :: s, p, idx => by
    unfold XC.redSum reducedCount
    split
    · rw [show ((List.range n).map fun i => XC.redSum red (p + 1) s (fun t => (fun _ => (1 : ℚ)) (i :: t)) idx) = (List.range n).map fun _ => (reducedCount red (p + 1) s : ℚ) from
        List.map_congr_left fun i _ => redSum_one red s (p + 1) idx]
      simp
    · exact redSum_one red s (p + 1) idx.tail

theorem reduce_dist {r : ℚ → ℤ} (hr : Nearest r) (sum : Bool) (ti tq : QType) (hi : 0 < ti.scale) (hq : 0 < tq.scale) (axes : List Int) (shape : List Nat)
    (x y : List Nat → ℤ) {δ : ℝ} (hδ : 0 ≤ δ) (hxy : ∀ i, |((x i : ℤ) : ℝ) - (y i : ℤ)| ≤ δ) (idx : List Nat) :
    |((reduceSpec r sum ti tq axes shape x idx : ℤ) : ℝ) - (reduceSpec r sum ti tq axes shape y idx : ℤ)| ≤
      roundUp ((if sum then (reducedCount (XC.reduced axes) 0 shape : ℝ) else 1) * (ti.scale * δ) / tq.scale) := by
  have hi' : (0 : ℝ) < ti.scale := by exact_mod_cast hi
  have hq' : (0 : ℝ) < tq.scale := by exact_mod_cast hq
  have h1 := redSum_dist (XC.reduced axes) shape 0 (fun i => ti.deq (x i)) (fun i => ti.deq (y i)) idx (ti.scale * δ) (mul_nonneg hi'.le hδ)
    fun i => deq_dist ti hi (hxy i)
  unfold reduceSpec
  cases sum with
  | true =>
    rw [if_pos rfl, if_pos rfl, if_pos rfl]
    unfold XC.sumSpec QType.q QType.raw
    apply requant_dist hr
    rw [Rat.cast_div, Rat.cast_div, ← sub_div, abs_div, abs_of_pos hq']
    exact div_le_div_of_nonneg_right h1 hq'.le
  | false =>
    rw [if_neg (by simp), if_neg (by simp), if_neg (by simp), one_mul]
    unfold XC.meanSpec QType.q QType.raw
    apply requant_dist hr
    rw [redSum_one, Rat.cast_div (_ / _), Rat.cast_div (_ / _), ← sub_div, abs_div, abs_of_pos hq']
    refine div_le_div_of_nonneg_right (div_dist (Nat.cast_nonneg _) (mul_nonneg hi'.le hδ) ?_) hq'.le
    rw [Rat.cast_natCast]
    exact h1

theorem maxPool_dist (p : Conv.MaxPool) (x y : Conv.Tensor) {δ : ℝ} (hxy : ∀ i, |((x i : ℤ) : ℝ) - (y i : ℤ)| ≤ δ) {bt a b c : Nat} {u v : ℤ}
    (hu : Conv.IsMaxPool p x bt a b c u) (hv : Conv.IsMaxPool p y bt a b c v) : |((u : ℤ) : ℝ) - (v : ℤ)| ≤ δ := by
  obtain ⟨⟨a1, b1, i1, j1, p1, p2, p3, p4, rfl⟩, hu⟩ := hu
  obtain ⟨⟨a2, b2, i2, j2, q1, q2, q3, q4, rfl⟩, hv⟩ := hv
  have h1 := hu ⟨a2, b2, i2, j2, q1, q2, q3, q4, rfl⟩
  have h2 := hv ⟨a1, b1, i1, j1, p1, p2, p3, p4, rfl⟩
  have h1 : ((x [bt, i2, j2, c] : ℤ) : ℝ) ≤ (x [bt, i1, j1, c] : ℤ) := by exact_mod_cast h1
  have h2 : ((y [bt, i1, j1, c] : ℤ) : ℝ) ≤ (y [bt, i2, j2, c] : ℤ) := by exact_mod_cast h2
  have h3 := abs_le.1 (hxy [bt, i1, j1, c])
  have h4 := abs_le.1 (hxy [bt, i2, j2, c])
  rw [abs_le]
  constructor <;> linarith [h3.1, h3.2, h4.1, h4.2]

/-! ### Binary operators -/

theorem mul_dist {x y x' y' A B : ℝ} (hy : |y| ≤ B) (hx' : |x'| ≤ A) : |x * y - x' * y'| ≤ B * |x - x'| + A * |y - y'| := by
  rw [show x * y - x' * y' = y * (x - x') + x' * (y - y') by ring]
  refine (abs_add_le _ _).trans ?_
  rw [abs_mul, abs_mul]
  exact add_le_add (mul_le_mul_of_nonneg_right hy (abs_nonneg _)) (mul_le_mul_of_nonneg_right hx' (abs_nonneg _))

theorem deq8_abs {t : XC.QI8} (ht : QOK t) {x : ℤ} (hx : -128 ≤ x ∧ x ≤ 127) : |t.deq x| ≤ 255 * t.scale := by
  unfold XC.QI8.deq
  rw [abs_mul, abs_of_pos ht.pos, mul_comm]
  refine mul_le_mul_of_nonneg_right ?_ ht.pos.le
  have : |x - t.zp| ≤ 255 := by
    have := ht.zp
    rw [abs_le]
    omega
  exact_mod_cast this

theorem binary_dist {lt rt ot : XC.QI8} (hl : QOK lt) (hr : QOK rt) (ho : QOK ot) (op : BinOp) (act : TFL.Act) {x x' y y' : ℤ}
    (bx' : -128 ≤ x' ∧ x' ≤ 127) (ry : -128 ≤ y ∧ y ≤ 127) {δ δ' : ℝ} (hx : |((x : ℤ) : ℝ) - (x' : ℤ)| ≤ δ) (hy : |((y : ℤ) : ℝ) - (y' : ℤ)| ≤ δ') :
    |((XC.quantR ot (fusedReal act (binReal op lt rt x y)) : ℤ) : ℝ) - (XC.quantR ot (fusedReal act (binReal op lt rt x' y')) : ℤ)| ≤
      (match op with
        | .mul => roundUp (255 * lt.scale * rt.scale * (δ + δ') / ot.scale)
        | _ => roundUp ((lt.scale * δ + rt.scale * δ') / ot.scale)) := by
  have h1 := deq8_dist lt hl.pos hx
  have h2 := deq8_dist rt hr.pos hy
  have a1 := abs_le.1 h1
  have a2 := abs_le.1 h2
  cases op with
  | add =>
    refine quantR_dist ot ho.pos ((fused_dist act _ _).trans ?_)
    unfold binReal
    rw [abs_le]
    constructor <;> linarith [a1.1, a1.2, a2.1, a2.2]
  | sub =>
    refine quantR_dist ot ho.pos ((fused_dist act _ _).trans ?_)
    unfold binReal
    rw [abs_le]
    constructor <;> linarith [a1.1, a1.2, a2.1, a2.2]
  | mul =>
    refine quantR_dist ot ho.pos ((fused_dist act _ _).trans ((mul_dist (deq8_abs hr ry) (deq8_abs hl bx')).trans ?_))
    have := hl.pos
    have := hr.pos
    calc 255 * rt.scale * |lt.deq x - lt.deq x'| + 255 * lt.scale * |rt.deq y - rt.deq y'|
        ≤ 255 * rt.scale * (lt.scale * δ) + 255 * lt.scale * (rt.scale * δ') := add_le_add
          (mul_le_mul_of_nonneg_left h1 (by positivity)) (mul_le_mul_of_nonneg_left h2 (by positivity))
      _ = 255 * lt.scale * rt.scale * (δ + δ') := by ring

theorem deq16_abs {t : QType} (ht : Sym16 t) {x : ℤ} (hx : -32768 ≤ x ∧ x ≤ 32767) : |((t.deq x : ℚ) : ℝ)| ≤ 32768 * t.scale := by
  have hs : (0 : ℝ) < t.scale := by exact_mod_cast ht.pos
  unfold QType.deq
  rw [ht.zp]
  push_cast
  rw [sub_zero, abs_mul, abs_of_pos hs, mul_comm]
  refine mul_le_mul_of_nonneg_right ?_ hs.le
  have : |x| ≤ 32768 := by
    rw [abs_le]
    omega
  exact_mod_cast this

theorem binary16_dist {t1 t2 tq : QType} (h1 : Sym16 t1) (h2 : Sym16 t2) (hq : Sym16 tq) (op : XC.BinOp) (act : TFL.Act) {x x' y y' : ℤ}
    (bx' : -32768 ≤ x' ∧ x' ≤ 32767) (ry : -32768 ≤ y ∧ y ≤ 32767) {δ δ' : ℝ} (hx : |((x : ℤ) : ℝ) - (x' : ℤ)| ≤ δ) (hy : |((y : ℤ) : ℝ) - (y' : ℤ)| ≤ δ') :
    |sat16 tq (fusedReal act ((op.real (t1.deq x) (t2.deq y) : ℚ) : ℝ)) - sat16 tq (fusedReal act ((op.real (t1.deq x') (t2.deq y') : ℚ) : ℝ))| ≤
      (match op with
        | .mul => 32768 * t1.scale * t2.scale * (δ + δ') / tq.scale
        | _ => (t1.scale * δ + t2.scale * δ') / tq.scale) := by
  have s1 : (0 : ℝ) < t1.scale := by exact_mod_cast h1.pos
  have s2 : (0 : ℝ) < t2.scale := by exact_mod_cast h2.pos
  have sq : (0 : ℝ) < tq.scale := by exact_mod_cast hq.pos
  have d1 := deq_dist t1 h1.pos hx
  have d2 := deq_dist t2 h2.pos hy
  have a1 := abs_le.1 d1
  have a2 := abs_le.1 d2
  refine (sat16_dist tq hq.pos _ _).trans ?_
  cases op with
  | add =>
    refine div_le_div_of_nonneg_right ((fused_dist act _ _).trans ?_) sq.le
    simp only [XC.BinOp.real]
    rw [Rat.cast_add, Rat.cast_add, abs_le]
    constructor <;> linarith [a1.1, a1.2, a2.1, a2.2]
  | sub =>
    refine div_le_div_of_nonneg_right ((fused_dist act _ _).trans ?_) sq.le
    simp only [XC.BinOp.real]
    rw [Rat.cast_sub, Rat.cast_sub, abs_le]
    constructor <;> linarith [a1.1, a1.2, a2.1, a2.2]
  | mul =>
    refine div_le_div_of_nonneg_right ((fused_dist act _ _).trans ?_) sq.le
    simp only [XC.BinOp.real]
    rw [Rat.cast_mul, Rat.cast_mul]
    refine (mul_dist (deq16_abs h2 ry) (deq16_abs h1 bx')).trans ?_
    calc 32768 * (t2.scale : ℝ) * |((t1.deq x : ℚ) : ℝ) - (t1.deq x' : ℚ)| + 32768 * (t1.scale : ℝ) * |((t2.deq y : ℚ) : ℝ) - (t2.deq y' : ℚ)|
        ≤ 32768 * t2.scale * (t1.scale * δ) + 32768 * t1.scale * (t2.scale * δ') := add_le_add
          (mul_le_mul_of_nonneg_left d1 (by positivity)) (mul_le_mul_of_nonneg_left d2 (by positivity))
      _ = 32768 * t1.scale * t2.scale * (δ + δ') := by ring

theorem soft_dist (beta : ℝ) (t : XC.QI8) (cols : Nat) (hc : 0 < cols) (x y : List Byte) {δ : ℝ} (hδ : 0 ≤ δ)
    (h : ∀ k, |((s8 (x.getD k 0) : ℤ) : ℝ) - (s8 (y.getD k 0) : ℤ)| ≤ δ) (k : Nat) :
    |softReal beta t cols x k - softReal beta t cols y k| ≤ 128 * |beta| * |t.scale| * δ := by
  unfold softReal
  refine (abs_min_sub_min_le_max _ _ _ _).trans ?_
  rw [sub_self, abs_zero, max_eq_right (abs_nonneg _), sub_sub_sub_cancel_right, ← mul_sub, abs_mul]
  have hk : k / cols * cols + k % cols = k := by rw [Nat.mul_comm]; exact Nat.div_add_mod k cols
  have key := softmax_dist (n := cols) (fun c => beta * t.deq (s8 (x.getD (k / cols * cols + c) 0))) (fun c => beta * t.deq (s8 (y.getD (k / cols * cols + c) 0)))
    (k % cols) (Nat.mod_lt _ hc) (η := |beta| * (|t.scale| * δ)) (by
      intro c _
      rw [← mul_sub, abs_mul]
      refine mul_le_mul_of_nonneg_left ?_ (abs_nonneg _)
      unfold XC.QI8.deq
      rw [← mul_sub, sub_sub_sub_cancel_right, abs_mul]
      exact mul_le_mul_of_nonneg_left (h _) (abs_nonneg _))
  rw [hk] at key
  rw [abs_of_pos (by norm_num : (0 : ℝ) < 256)]
  calc 256 * _ ≤ 256 * (|beta| * (|t.scale| * δ) / 2) := mul_le_mul_of_nonneg_left key (by norm_num)
    _ = 128 * |beta| * |t.scale| * δ := by ring

/-! ### Packed bits -/

theorem close_bits {L : BLib} {t : Ty} (ht : t.d = 4) {δ : ℝ} {x y : List Byte} (h : ∀ k < t.shape.prod * 32, bitOf x k = bitOf y k) : Close L t δ x y := by
  intro q hq
  rw [ht]
  unfold CloseEl
  rw [if_neg (by norm_num), if_neg (by norm_num), if_pos rfl]
  left
  apply bits_ext
  · rw [length_word, length_word]
  · intro i hi
    rw [length_word] at hi
    rw [bitOf_word _ _ _ (by omega), bitOf_word _ _ _ (by omega)]
    exact h _ (by omega)

/-- The pixel and channel of a bit. -/
theorem pixel_of {h w n k : Nat} (hk : k < h * w * n) : k = (k / n / w * w + k / n % w) * n + k % n ∧ k / n / w < h ∧ k / n % w < w ∧ k % n < n := by
  have hn : 0 < n := by rcases Nat.eq_zero_or_pos n with h | h; · rw [h] at hk; simp at hk
                        · exact h
  have hw : 0 < w := by rcases Nat.eq_zero_or_pos w with h | h; · rw [h] at hk; simp at hk
                        · exact h
  refine ⟨?_, ?_, Nat.mod_lt _ hw, Nat.mod_lt _ hn⟩
  · rw [Nat.mul_comm (k / n / w) w, Nat.div_add_mod, Nat.mul_comm, Nat.div_add_mod]
  · rw [Nat.div_div_eq_div_mul]
    apply Nat.div_lt_of_lt_mul
    calc k < h * w * n := hk
      _ = n * w * h := by ring

/-- Two results of a binarised convolution for the same operand. -/
theorem bconv_close {B : BLib} {L : LConv} {e₁ e₂ δ : ℝ} {D x y : List Byte} (h₁ : L.Meets e₁ D x) (h₂ : L.Meets e₂ D y) (hδ : e₁ + e₂ ≤ δ) : Close B L.ty δ x y := by
  unfold LConv.Meets at h₁ h₂
  cases hq : L.f.outQ8 with
  | some q =>
    obtain ⟨scale, zp⟩ := q
    rw [hq] at h₁ h₂
    have hty : L.ty = ⟨[1, L.f.oh, L.f.ow, L.f.outDim], 1⟩ := by
      unfold LConv.ty
      rw [hq]
      rfl
    have hoc : L.oc = L.f.outDim := by
      unfold LConv.oc
      rw [hq]
      rfl
    refine close_of8 (by rw [hty]) fun idx hx => ?_
    have hx : InShape L.ty.shape idx := hx
    rw [hty] at hx
    match idx, hx with
    | [a, i, j, o], hx =>
      obtain ⟨h1, h2, h3, h4, -⟩ := hx
      obtain rfl : a = 0 := by omega
      have := tri (h₁ i j o h2 h3 (by rw [hoc]; exact h4)) (h₂ i j o h2 h3 (by rw [hoc]; exact h4)) (g := 0) (by rw [sub_self, abs_zero])
      exact this.trans (by linarith)
  | none =>
    rw [hq] at h₁ h₂
    have hty : L.ty = ⟨[1, L.f.oh, L.f.ow, L.f.outDim], 4⟩ := by
      unfold LConv.ty
      rw [hq]
      rfl
    have hoc : L.oc = L.f.outDim * 32 := by
      unfold LConv.oc
      rw [hq]
      rfl
    refine close_bits (by rw [hty]) fun k hk => ?_
    have hk' : k < L.f.oh * L.f.ow * (L.f.outDim * 32) := by
      rw [hty] at hk
      simp only [List.prod_cons, List.prod_nil, Nat.one_mul, Nat.mul_one] at hk
      rw [← Nat.mul_assoc] at hk
      rw [← Nat.mul_assoc]
      exact hk
    obtain ⟨e, p1, p2, p3⟩ := pixel_of hk'
    have q1 := h₁ _ _ _ p1 p2 (by rw [hoc]; exact p3)
    have q2 := h₂ _ _ _ p1 p2 (by rw [hoc]; exact p3)
    rw [bitAt_flat, ← e] at q1 q2
    rw [q1, q2]

/-! ### One operator -/

theorem getD3_lt {a b c n : Nat} {idx : List Nat} (h : InShape [a, b, c, n] idx) : idx.getD 3 0 < n := by
  match idx, h with
  | [_, _, _, _], ⟨_, _, _, h, _⟩ => exact h

/-- Two runs of an operator, within `e₁` and `e₂` of the reference for their operands. -/
theorem node_close {R : Rt} {dom : MulArgs → Prop} (hR : R.OK dom) (n : QNode) (T : Nat → Ty) (c : Nat → Bool) (X Y : Nat → List Byte) (D : Nat → ℝ)
    (hok : n.kind.OK R dom (n.args.map fun v => (T v, c v)) n.ty) (hX : ∀ v ∈ n.args, (X v).length = (T v).size)
    (hY : ∀ v ∈ n.args, (Y v).length = (T v).size) (hD : ∀ v ∈ n.args, 0 ≤ D v) (hC : ∀ v ∈ n.args, Close R.b (T v) (D v) (X v) (Y v))
    (hfin : ∀ tq act, n.kind = .blob (.quantize tq) act → ∀ v ∈ n.args, ∀ idx, InShape (T v).shape idx →
      R.b.finite (elemAt (T v) (X v) idx) ∧ R.b.finite (elemAt (T v) (Y v) idx))
    {x y : List Byte} {e₁ e₂ δ : ℝ} (h₁ : n.Within R e₁ (n.args.map fun v => (T v, X v)) x) (h₂ : n.Within R e₂ (n.args.map fun v => (T v, Y v)) y)
    (h0 : 0 ≤ δ) (he : ∀ k, n.kind = .base k → 0 ≤ e₁ + e₂) (tame : n.Tame (n.args.map T) (n.args.map D) δ)
    (hδ : e₁ + e₂ + n.grow (n.args.map D) ≤ δ) : Close R.b n.ty δ x y := by
  obtain ⟨kind, args, ty⟩ := n
  cases kind with
  | base k =>
    have h₁ : x = eval R.ext k ty (args.map fun v => (T v, X v)) := h₁
    have h₂ : y = eval R.ext k ty (args.map fun v => (T v, Y v)) := h₂
    rw [h₁, h₂]
    have := he k rfl
    exact base_close R.b R.ext k args ty T c X Y D hok hX hY hD hC h0 tame (by linarith)
  | binary op act lt rt ot =>
    obtain ⟨a, ca, b, cb, h1, ha, hb, ht, _, _, hl, hr, ho, _⟩ := hok
    obtain ⟨v, w, rfl, h2, h3⟩ := map_two h1
    obtain ⟨rfl, rfl⟩ := Prod.mk.inj h2
    obtain ⟨rfl, rfl⟩ := Prod.mk.inj h3
    have mv : v ∈ [v, w] := by simp
    have mw : w ∈ [v, w] := by simp
    refine close_of8 ht fun idx hi => (tri (h₁ idx hi) (h₂ idx hi) ?_).trans hδ
    refine (binary_dist hl hr ho op act (tensorOf_range _ _ _) (tensorOf_range _ _ _) (close8 ha (hD v mv) (hX v mv) (hY v mv) (hC v mv) _)
      (close8 hb (hD w mw) (hX w mw) (hY w mw) (hC w mw) _)).trans ?_
    cases op <;> exact le_rfl
  | activation f it ot =>
    obtain ⟨a, ca, h1, ha, ht, hi, ho, _⟩ := hok
    obtain ⟨v, rfl, h2⟩ := map_one h1
    obtain ⟨rfl, rfl⟩ := Prod.mk.inj h2
    have mv : v ∈ [v] := by simp
    refine close_of8 (by rw [show ty = T v from ht, ha]) fun idx hx => (tri (h₁ idx hx) (h₂ idx hx) ?_).trans hδ
    refine (sat8_dist ot ho.pos _ _).trans ?_
    refine div_le_div_of_nonneg_right ?_ ho.pos.le
    refine (act_dist (.tabled f) _ _).trans (mul_le_mul_of_nonneg_left ?_ (slope_nonneg _))
    exact deq8_dist it hi.pos (close8 ha (hD v mv) (hX v mv) (hY v mv) (hC v mv) _)
  | conv t l g =>
    obtain ⟨a, ca, h1, ha, ht, tok, _⟩ := hok
    obtain ⟨v, rfl, h2⟩ := map_one h1
    obtain ⟨rfl, rfl⟩ := Prod.mk.inj h2
    have mv : v ∈ [v] := by simp
    have ht : ty = ⟨[1, l.oh, l.ow, l.oc], 1⟩ := ht
    refine close_of8 (by rw [ht]) fun idx hx => (tri (h₁ idx hx) (h₂ idx hx) ?_).trans hδ
    have hlt : idx.getD 3 0 < l.oc := by
      have hx : InShape ty.shape idx := hx
      rw [ht] at hx
      exact getD3_lt hx
    have hd : ∀ i, |((tensorOf (T v) (X v) i : ℤ) : ℝ) - (tensorOf (T v) (Y v) i : ℤ)| ≤ D v :=
      close8 (by rw [ha]) (hD v mv) (hX v mv) (hY v mv) (hC v mv)
    have hp := peak_gain (fun o => gain t (l.op.filter.qp.scale o) (if l.dw then weightSumDw l.op.filter o else weightSum l.op.filter o)) (hD v mv) hlt
    unfold Conv.Compile.tflConv
    cases hdw : l.dw with
    | true =>
      simp only [hdw, if_true] at hp
      rw [if_pos rfl, if_pos rfl]
      refine (dwconv_dist hR.r t _ _ _ _ _ _ _ (hD v mv) hd idx hp).trans (le_of_eq ?_)
      simp only [QNode.grow, hdw]
      rfl
    | false =>
      simp only [hdw, Bool.false_eq_true, if_false] at hp
      rw [if_neg (by simp), if_neg (by simp)]
      refine (conv2d_dist hR.r t _ _ _ _ _ _ _ _ (hD v mv) hd idx hp).trans (le_of_eq ?_)
      simp only [QNode.grow, hdw]
      rfl
  | avgPool t p h w oh ow depth g =>
    obtain ⟨a, ca, h1, ha, ht, tok, _⟩ := hok
    obtain ⟨v, rfl, h2⟩ := map_one h1
    obtain ⟨rfl, rfl⟩ := Prod.mk.inj h2
    have mv : v ∈ [v] := by simp
    have ht : ty = ⟨[1, oh, ow, depth], 1⟩ := ht
    refine close_of8 (by rw [ht]) fun idx hx => (tri (h₁ idx hx) (h₂ idx hx) ?_).trans hδ
    exact avgPool_dist hR.r t tok.inS tok.outS p h w _ _ (hD v mv) (close8 (by rw [ha]) (hD v mv) (hX v mv) (hY v mv) (hC v mv)) idx
  | fc t f B g =>
    obtain ⟨a, ca, pre, h1, ha, hpre, ht, hp, _⟩ := hok
    obtain ⟨v, rfl, h2⟩ := map_one h1
    obtain ⟨rfl, rfl⟩ := Prod.mk.inj h2
    have mv : v ∈ [v] := by simp
    refine close_of8_getD ht fun k hk => ?_
    have hk : k < B * f.o := by rw [← hp]; exact hk
    refine (tri (h₁ k hk) (h₂ k hk) ?_).trans hδ
    exact fc_dist hR.r t _ _ f B _ _ (hD v mv) (close8_map (by rw [ha]) (hD v mv) (hX v mv) (hY v mv) (hC v mv)) hk
      fun o ho => peak_gain (fun o => gain t (f.qp.scale o) (weightSumFc f o)) (hD v mv) ho
  | maxPool p =>
    obtain ⟨a, ca, h1, ha, ht, _⟩ := hok
    obtain ⟨v, rfl, h2⟩ := map_one h1
    obtain ⟨rfl, rfl⟩ := Prod.mk.inj h2
    have mv : v ∈ [v] := by simp
    have ht : ty = ⟨[1, p.oh, p.ow, p.depth], 1⟩ := ht
    refine close_of8 (by rw [ht]) fun idx hx => ?_
    have hx : InShape ty.shape idx := hx
    rw [ht] at hx
    match idx, hx with
    | [b, i, j, d], ⟨q1, q2, q3, q4, _⟩ =>
      obtain rfl : b = 0 := by omega
      obtain ⟨u, u1, u2⟩ := h₁ i j d q2 q3 q4
      obtain ⟨u', u1', u2'⟩ := h₂ i j d q2 q3 q4
      exact (tri u2 u2' (maxPool_dist p _ _ (close8 (by rw [ha]) (hD v mv) (hX v mv) (hY v mv) (hC v mv)) u1 u1')).trans hδ
  | reduce sum ti tq axes shape =>
    obtain ⟨a, ca, h1, ha, ht, hp, hi, hq, _⟩ := hok
    obtain ⟨v, rfl, h2⟩ := map_one h1
    obtain ⟨rfl, rfl⟩ := Prod.mk.inj h2
    have mv : v ∈ [v] := by simp
    have hc : Close R.b ⟨XC.keptShape (XC.reduced axes) 0 shape, 1⟩ δ x y := by
      refine close_of8 rfl fun idx hx => (tri (h₁ idx hx) (h₂ idx hx) ?_).trans hδ
      exact reduce_dist hR.r sum ti tq hi hq axes shape _ _ (hD v mv) (close8 (by rw [ha]) (hD v mv) (hX v mv) (hY v mv) (hC v mv)) idx
    intro k hk
    have := hc k (by rw [← hp]; exact hk)
    rw [show (⟨.reduce sum ti tq axes shape, [v], ty⟩ : QNode).ty.d = 1 from ht]
    exact this
  | tconv t h w oh ow op ps =>
    obtain ⟨a, ca, h1, ha, ht, tok, _⟩ := hok
    obtain ⟨v, rfl, h2⟩ := map_one h1
    obtain ⟨rfl, rfl⟩ := Prod.mk.inj h2
    have mv : v ∈ [v] := by simp
    have ht : ty = ⟨[1, oh, ow, op.filter.o], 1⟩ := ht
    refine close_of8 (by rw [ht]) fun idx hx => (tri (h₁ idx hx) (h₂ idx hx) ?_).trans hδ
    have hlt : idx.getD 3 0 < op.filter.o := by
      have hx : InShape ty.shape idx := hx
      rw [ht] at hx
      exact getD3_lt hx
    exact tconv_dist hR.r t _ _ h w oh ow op _ _ (hD v mv) (close8 (by rw [ha]) (hD v mv) (hX v mv) (hY v mv) (hC v mv)) idx
      (peak_gain (fun o => gain t (op.filter.qp.scale o) (weightSum op.filter o)) (hD v mv) hlt)
  | blob op act =>
    obtain ⟨tok, hok⟩ := hok
    cases op with
    | binary o t1 t2 tq =>
      obtain ⟨a, b, h1, ha, hb, ht, _⟩ := hok
      rw [List.map_map] at h1
      obtain ⟨v, w, rfl, h2, h3⟩ := map_two h1
      have h2 : T v = a := h2
      have h3 : T w = b := h3
      subst h2
      subst h3
      have mv : v ∈ [v, w] := by simp
      have mw : w ∈ [v, w] := by simp
      refine close_of16 ht fun idx hi => (tri (h₁ idx hi) (h₂ idx hi) ?_).trans hδ
      refine (binary16_dist tok.1 tok.2.1 tok.2.2 o act (s16_range _) (s16_range _) (close16 ha (hD v mv) (hX v mv) (hY v mv) (hC v mv) _)
        (close16 hb (hD w mw) (hX w mw) (hY w mw) (hC w mw) _)).trans ?_
      cases o <;> exact le_rfl
    | fn f ti tq =>
      obtain ⟨_, h1, ht⟩ := hok
      rw [List.map_map] at h1
      obtain ⟨v, rfl, h2⟩ := map_one h1
      have h2 : T v = ty := h2
      have mv : v ∈ [v] := by simp
      refine close_of16 ht fun idx hi => (tri (h₁ idx hi) (h₂ idx hi) ?_).trans hδ
      have sq : (0 : ℝ) < tq.scale := by exact_mod_cast tok.2.pos
      refine (sat16_dist tq tok.2.pos _ _).trans (div_le_div_of_nonneg_right ?_ sq.le)
      refine (act_dist f _ _).trans (mul_le_mul_of_nonneg_left ?_ (slope_nonneg _))
      exact deq_dist ti tok.1.pos (close16 (by rw [h2]; exact ht) (hD v mv) (hX v mv) (hY v mv) (hC v mv) _)
    | requantize ti tq =>
      obtain ⟨_, h1, ht⟩ := hok
      rw [List.map_map] at h1
      obtain ⟨v, rfl, h2⟩ := map_one h1
      have h2 : T v = ty := h2
      have mv : v ∈ [v] := by simp
      refine close_of16 ht fun idx hi => (tri (h₁ idx hi) (h₂ idx hi) ?_).trans hδ
      have sq : (0 : ℝ) < tq.scale := by exact_mod_cast tok.2.pos
      refine (sat16_dist tq tok.2.pos _ _).trans (div_le_div_of_nonneg_right ?_ sq.le)
      exact deq_dist ti tok.1.pos (close16 (by rw [h2]; exact ht) (hD v mv) (hX v mv) (hY v mv) (hC v mv) _)
    | quantize tq =>
      obtain ⟨_, h1, ht⟩ := hok
      rw [List.map_map] at h1
      obtain ⟨v, rfl, h2⟩ := map_one h1
      have h2 : T v = ⟨ty.shape, 4⟩ := h2
      have mv : v ∈ [v] := by simp
      refine close_of16 ht fun idx hi => ?_
      have hf := hfin tq act rfl v mv idx (by rw [h2]; exact hi)
      refine (tri (h₁ idx hi hf.1) (h₂ idx hi hf.2) ?_).trans hδ
      have sq : (0 : ℝ) < tq.scale := by exact_mod_cast tok.pos
      refine (sat16_dist tq tok.pos _ _).trans (div_le_div_of_nonneg_right ?_ sq.le)
      have hc := close_elemAt (hD v mv) (hX v mv) (hY v mv) (hC v mv) idx
      rw [show (T v).d = 4 by rw [h2]] at hc
      unfold CloseEl at hc
      rw [if_neg (by norm_num), if_neg (by norm_num), if_pos rfl] at hc
      rcases hc with hc | hc
      · show |R.b.f32 (elemAt (T v) (X v) idx) - R.b.f32 (elemAt (T v) (Y v) idx)| ≤ _
        rw [hc, sub_self, abs_zero]
        exact hD v mv
      · exact hc.2
    | dequantize ti =>
      obtain ⟨_, h1, ht⟩ := hok
      rw [List.map_map] at h1
      obtain ⟨v, rfl, h2⟩ := map_one h1
      have h2 : T v = ⟨ty.shape, 2⟩ := h2
      have mv : v ∈ [v] := by simp
      apply close_of_elemAt
      intro idx hi
      have ht : ty.d = 4 := ht
      show CloseEl R.b ty.d δ _ _
      rw [ht]
      unfold CloseEl
      rw [if_neg (by norm_num), if_neg (by norm_num), if_pos rfl]
      refine Or.inr ⟨tame, (tri (h₁ idx hi) (h₂ idx hi) ?_).trans hδ⟩
      exact deq_dist ti tok.1.pos (close16 (by rw [h2]) (hD v mv) (hX v mv) (hY v mv) (hC v mv) _)
    | softmax beta t shape =>
      obtain ⟨_, h1, ht⟩ := hok
      rw [List.map_map] at h1
      obtain ⟨v, rfl, h2⟩ := map_one h1
      have h2 : T v = ⟨shape, 1⟩ := h2
      have ht : ty = ⟨shape, 1⟩ := ht
      have mv : v ∈ [v] := by simp
      refine close_of8_getD (by rw [ht]) fun k hk => ?_
      have hk : k < shape.prod := by
        have hk : k < ty.shape.prod := hk
        rw [ht] at hk
        exact hk
      refine (tri (h₁ k hk) (h₂ k hk) ?_).trans hδ
      refine soft_dist beta t _ ?_ _ _ (hD v mv) (close8_getD (by rw [h2]) (hD v mv) (hX v mv) (hY v mv) (hC v mv)) k
      have hne := tok.2.1
      rw [List.getLastD_eq_getLast?, List.getLast?_eq_some_getLast hne]
      exact tok.2.2 _ (List.getLast_mem hne)
  | conv16 t l g =>
    obtain ⟨a, ca, h1, ha, ht, tok, hdw, _⟩ := hok
    obtain ⟨v, rfl, h2⟩ := map_one h1
    obtain ⟨rfl, rfl⟩ := Prod.mk.inj h2
    have mv : v ∈ [v] := by simp
    have ht : ty = ⟨[1, l.oh, l.ow, l.oc], 2⟩ := ht
    refine close_of16 (by rw [ht]) fun idx hx => (tri (h₁ idx hx) (h₂ idx hx) ?_).trans hδ
    have hlt : idx.getD 3 0 < l.op.filter.o := by
      have hx : InShape ty.shape idx := hx
      rw [ht, Conv.Compile.Leaf.oc, hdw, if_neg (by simp)] at hx
      exact getD3_lt hx
    exact conv2d_dist hR.r t _ _ _ _ _ _ _ _ (hD v mv) (close16 (by rw [ha]) (hD v mv) (hX v mv) (hY v mv) (hC v mv)) idx
      (peak_gain (fun o => gain t (l.op.filter.qp.scale o) (weightSum l.op.filter o)) (hD v mv) hlt)
  | fc16 t f B g =>
    obtain ⟨a, ca, pre, h1, ha, hpre, ht, hp, _⟩ := hok
    obtain ⟨v, rfl, h2⟩ := map_one h1
    obtain ⟨rfl, rfl⟩ := Prod.mk.inj h2
    have mv : v ∈ [v] := by simp
    refine close_of16_val ht fun k hk => ?_
    have hk : k < B * f.o := by rw [← hp]; exact hk
    refine (tri (h₁ k hk) (h₂ k hk) ?_).trans hδ
    exact fc_dist hR.r t _ _ f B _ _ (hD v mv) (close16_vals (by rw [ha]) (hD v mv) (hX v mv) (hY v mv) (hC v mv)) hk
      fun o ho => peak_gain (fun o => gain t (f.qp.scale o) (weightSumFc f o)) (hD v mv) ho
  | bsign zp =>
    obtain ⟨a, ca, pre, w, h1, ha, ht, _⟩ := hok
    obtain ⟨v, rfl, h2⟩ := map_one h1
    obtain ⟨rfl, rfl⟩ := Prod.mk.inj h2
    have mv : v ∈ [v] := by simp
    have hz : D v = 0 := tame _ (by simp)
    have hc := hC v mv
    rw [hz] at hc
    have hxy : X v = Y v := close_eq (hX v mv) (hY v mv) hc
    have ht : ty = ⟨pre ++ [w], 4⟩ := ht
    refine close_bits (by rw [ht]) fun k hk => ?_
    have hk' : k < (T v).size := by
      rw [ha]
      have hk : k < ty.shape.prod * 32 := hk
      rw [ht] at hk
      simp only [Ty.size, List.prod_append, List.prod_cons, List.prod_nil, Nat.mul_one] at hk ⊢
      rw [← Nat.mul_assoc]
      exact hk
    have q1 : bitOf x k = _ := h₁ k hk'
    have q2 : bitOf y k = _ := h₂ k hk'
    rw [q1, q2]
    simp only [List.map_cons, List.getD_cons_zero]
    rw [hxy]
  | bconv L =>
    obtain ⟨a, ca, h1, ha, ht, _⟩ := hok
    obtain ⟨v, rfl, h2⟩ := map_one h1
    obtain ⟨rfl, rfl⟩ := Prod.mk.inj h2
    have mv : v ∈ [v] := by simp
    have hz : D v = 0 := tame _ (by simp)
    have hc := hC v mv
    rw [hz] at hc
    have hxy : X v = Y v := close_eq (hX v mv) (hY v mv) hc
    have ht : ty = L.ty := ht
    have q1 : L.Meets e₁ (X v) x := h₁
    have q2 : L.Meets e₂ (Y v) y := h₂
    rw [← hxy] at q2
    show Close R.b ty δ x y
    rw [ht]
    refine bconv_close q1 q2 ?_
    have : e₁ + e₂ + 0 ≤ δ := hδ
    linarith

end Verif.Net
