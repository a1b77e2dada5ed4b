import Verif.Conv.Props
import Verif.Quant.Basic
import Mathlib.Algebra.BigOperators.Ring.Finset
import Mathlib.Tactic.Ring
import Mathlib.Tactic.FieldSimp
import Mathlib.Tactic.NormNum
/-!
Average pooling as a depthwise convolution (xformer/Transforms/ReplaceAvgPoolWithConv2D.cpp) and fully connected layers as
1x1 convolutions (xformer/Transforms/ReplaceFCWithConv2D.cpp).
-/
namespace Verif.Conv
open Verif.Tensor Verif.Image Verif.Quant

/-! ### Average pooling: model -/

structure AvgPool where
  fh : Nat
  fw : Nat
  sh : Nat
  sw : Nat
  padding : Padding

/-- ReplaceAvgPoolWithConv2D.cpp 52–107: filter `[1, fh, fw, depth]` of ones with scale `1 / (fh * fw)` and zero point 0,
bias of zeros, dilation 1, same strides and padding.  Simplifications: the `float` scale is a rational; the bias, which has
element type I32 without a scale, gets scale 1. -/
def avgPoolToConv (p : AvgPool) (depth : Nat) : ConvOp :=
  { padding := p.padding, sh := p.sh, sw := p.sw, dh := 1, dw := 1
    filter := { o := 1, kh := p.fh, kw := p.fw, c := depth, data := List.replicate (p.fh * p.fw * depth) 1
                qp := .perTensor (1 / ((p.fh * p.fw : Nat) : ℚ)) 0 }
    bias := some { data := List.replicate depth 0, qp := .perTensor 1 0 } }

/-! ### Average pooling: specification -/

/-- Sum of `v` over the elements of the window of output position `(y, x)` that lie inside the input. -/
def windowSum (p : AvgPool) (h w y x : Nat) (v : Nat → Nat → ℚ) : ℚ :=
  ∑ a ∈ Finset.range p.fh, ∑ b ∈ Finset.range p.fw,
    match tap p.padding h p.fh p.sh 1 y a, tap p.padding w p.fw p.sw 1 x b with
    | some iy, some ix => v iy ix
    | _, _ => 0

/-- `AVERAGE_POOL_2D`: the mean of the real values of the elements of the window that lie inside the input; `post` is
activation and quantisation of the result. -/
def avgPool (post : ℚ → Int) (t : QType) (h w : Nat) (p : AvgPool) (x : Tensor) (idx : List Nat) : Int :=
  let bt := idx.getD 0 0; let y := idx.getD 1 0; let xx := idx.getD 2 0; let o := idx.getD 3 0
  post (windowSum p h w y xx (fun iy ix => t.deq (x [bt, iy, ix, o])) / windowSum p h w y xx fun _ _ => 1)

/-- Requantisation of a convolution whose accumulator counts steps of input scale times filter scale. -/
def convPost (post : ℚ → Int) (t : QType) : Requant := fun s _ acc => post (t.scale * s * acc)

/-- The whole window of output position `(y, x)` lies inside the input. -/
def Inside (p : AvgPool) (h w y x : Nat) : Prop :=
  (∀ a < p.fh, tap p.padding h p.fh p.sh 1 y a ≠ none) ∧ ∀ b < p.fw, tap p.padding w p.fw p.sw 1 x b ≠ none

/-! ### Average pooling: proofs -/

theorem avgFilter_at (p : AvgPool) (depth a b o : Nat) (ha : a < p.fh) (hb : b < p.fw) (ho : o < depth) :
    (avgPoolToConv p depth).filter.at 0 a b o = 1 := by
  unfold Filter.at avgPoolToConv Filter.shape
  dsimp only
  rw [ravel4, List.getD_eq_getElem?_getD, List.getElem?_replicate_of_lt]
  · rfl
  · have h1 := run_lt (O := 1) (o := 0) (by omega) ha hb
    rw [Nat.one_mul] at h1
    have : ((0 * p.fh + a) * p.fw + b + 1) * depth ≤ p.fh * p.fw * depth := Nat.mul_le_mul_right _ h1
    rw [Nat.succ_mul] at this
    omega

/-- The accumulator of the convolution is the sum of the elements (minus the zero point) in the window. -/
theorem avg_accum (p : AvgPool) (depth : Nat) (t : QType) (h w : Nat) (x : Tensor) (bt y xx o : Nat) (ho : o < depth) :
    ((accum (fun a => tap p.padding h p.fh p.sh 1 y a) (fun b => tap p.padding w p.fw p.sw 1 xx b) p.fh p.fw 1
        (fun iy ix _ => x [bt, iy, ix, o] - t.zp) (fun a b _ => (avgPoolToConv p depth).filter.at 0 a b o - 0) : Int) : ℚ) * t.scale =
      windowSum p h w y xx fun iy ix => t.deq (x [bt, iy, ix, o]) := by
  unfold accum windowSum
  push_cast
  rw [Finset.sum_mul]
  apply Finset.sum_congr rfl
  intro a ha
  rw [Finset.sum_mul]
  apply Finset.sum_congr rfl
  intro b hb
  rw [Finset.mem_range] at ha hb
  rw [avgFilter_at p depth a b o ha hb ho]
  cases tap p.padding h p.fh p.sh 1 y a with
  | none => simp
  | some iy =>
    cases tap p.padding w p.fw p.sw 1 xx b with
    | none => simp
    | some ix =>
      simp only [Finset.sum_range_one, QType.deq]
      push_cast
      ring

theorem windowSum_one (p : AvgPool) (h w y x : Nat) (hin : Inside p h w y x) :
    (windowSum p h w y x fun _ _ => 1) = ((p.fh * p.fw : Nat) : ℚ) := by
  unfold windowSum
  have : ∀ a ∈ Finset.range p.fh, (∑ b ∈ Finset.range p.fw,
      (match tap p.padding h p.fh p.sh 1 y a, tap p.padding w p.fw p.sw 1 x b with
      | some _, some _ => (1 : ℚ)
      | _, _ => 0)) = (p.fw : ℚ) := by
    intro a ha
    rw [Finset.mem_range] at ha
    have h1 := hin.1 a ha
    rw [Finset.sum_congr rfl (g := fun _ => (1 : ℚ))]
    · simp
    · intro b hb
      rw [Finset.mem_range] at hb
      have h2 := hin.2 b hb
      cases e1 : tap p.padding h p.fh p.sh 1 y a with
      | none => exact absurd e1 h1
      | some _ => cases e2 : tap p.padding w p.fw p.sw 1 x b with
        | none => exact absurd e2 h2
        | some _ => rfl
  rw [Finset.sum_congr rfl this]
  simp

/-- Value of the convolution at any position: the sum over the window divided by the *full* window size. -/
theorem avg_conv_value (post : ℚ → Int) (t : QType) (h w : Nat) (p : AvgPool) (depth : Nat) (x : Tensor) (bt y xx o : Nat)
    (ho : o < depth) :
    dwconv (convPost post t) t.zp h w (avgPoolToConv p depth) x [bt, y, xx, o] =
      post (windowSum p h w y xx (fun iy ix => t.deq (x [bt, iy, ix, o])) / ((p.fh * p.fw : Nat) : ℚ)) := by
  rw [← avg_accum p depth t h w x bt y xx o ho]
  have hb : biasAt (avgPoolToConv p depth).bias o = 0 := by
    unfold biasAt avgPoolToConv
    dsimp only
    rw [List.getD_eq_getElem?_getD, List.getElem?_replicate_of_lt ho]
    rfl
  unfold dwconv convPost
  simp only [List.getD_cons_zero, List.getD_cons_succ]
  rw [hb, Int.zero_add]
  congr 1
  have e : ∀ s c a : ℚ, s * (1 / c) * a = a * s / c := by intro s c a; ring
  exact e _ _ _

/-- **C37**.  At every output position whose window lies inside the input the convolution that replaces an average pool
has the same value, for every activation and output quantisation. -/
theorem C37_avgpool_inside (post : ℚ → Int) (t : QType) (h w : Nat) (p : AvgPool) (depth : Nat) (x : Tensor) (bt y xx o : Nat)
    (ho : o < depth) (hin : Inside p h w y xx) :
    dwconv (convPost post t) t.zp h w (avgPoolToConv p depth) x [bt, y, xx, o] = avgPool post t h w p x [bt, y, xx, o] := by
  rw [avg_conv_value post t h w p depth x bt y xx o ho]
  unfold avgPool
  simp only [List.getD_cons_zero, List.getD_cons_succ]
  rw [windowSum_one p h w y xx hin]

/-- **C37** (VALID): the whole output agrees. -/
theorem C37_avgpool_valid (post : ℚ → Int) (t : QType) (B h w oh ow : Nat) (p : AvgPool) (hp : p.padding = .valid) (depth : Nat)
    (hoh : ∀ y, y < oh → y * p.sh + p.fh ≤ h) (how : ∀ x, x < ow → x * p.sw + p.fw ≤ w) (x : Tensor) (idx : List Nat)
    (hi : InShape [B, oh, ow, depth] idx) :
    dwconv (convPost post t) t.zp h w (avgPoolToConv p depth) x idx = avgPool post t h w p x idx := by
  obtain ⟨b, y, xx, o, rfl, _, hy, hx, ho⟩ := in4 hi
  apply C37_avgpool_inside post t h w p depth x b y xx o ho
  have key : ∀ n k s y, y * s + k ≤ n → ∀ a < k, tap .valid n k s 1 y a ≠ none := by
    intro n k s y hle a ha
    unfold tap padBefore
    dsimp only
    have : (0 : Int) ≤ (y : Int) * s + a * (1 : Nat) - 0 ∧ (y : Int) * s + a * (1 : Nat) - 0 < n := by
      have : ((y * s + k : Nat) : Int) ≤ n := by exact_mod_cast hle
      push_cast at this ⊢
      have h0 : (0 : Int) ≤ (y : Int) * s := by positivity
      omega
    rw [if_pos this]
    simp
  rw [Inside, hp]
  exact ⟨key _ _ _ _ (hoh y hy), key _ _ _ _ (how xx hx)⟩

/-- **C37** refuted at the border of a SAME pool: a 3x3 pool of a constant image returns the constant, the replacement
four ninths of it in the corner. -/
theorem C37_same_border_refuted :
    avgPool roundAway ⟨1, 0, -128, 127⟩ 3 3 ⟨3, 3, 1, 1, .same⟩ (fun _ => 90) [0, 0, 0, 0] = 90 ∧
    dwconv (convPost roundAway ⟨1, 0, -128, 127⟩) 0 3 3 (avgPoolToConv ⟨3, 3, 1, 1, .same⟩ 1) (fun _ => 90) [0, 0, 0, 0] = 40 := by
  constructor
  · decide +kernel
  · decide +kernel

/-- Non-vacuity of the VALID case, with the value computed. -/
example : dwconv (convPost roundAway ⟨1, 0, -128, 127⟩) 0 2 2 (avgPoolToConv ⟨2, 2, 2, 2, .valid⟩ 1)
    (fun i => if i = [0, 1, 1, 0] then 7 else 3) [0, 0, 0, 0] = 4 := by decide +kernel

/-! ### Fully connected: model -/

structure FC where
  /-- filter shape `[o, c]`, row-major -/
  o : Nat
  c : Nat
  data : List Int
  qp : QP
  bias : Option Bias

/-- ReplaceFCWithConv2D.cpp 92–119: the filter's data with shape `[o, 1, 1, c]`, the same bias, VALID, strides and dilations
one. -/
def fcToConv (f : FC) : ConvOp :=
  { padding := .valid, sh := 1, sw := 1, dh := 1, dw := 1
    filter := { o := f.o, kh := 1, kw := 1, c := f.c, data := f.data, qp := f.qp }
    bias := f.bias }

/-- ReplaceFCWithConv2D.cpp 64–90: shape of the reshaped input, `none` when the rank is below two (undefined: the last but one
dimension is read).  Simplification: no dynamic dimensions. -/
def fcInputShape (shape : List Nat) : Option (List Nat) :=
  if 2 ≤ shape.length then some [1, 1, shape.getD (shape.length - 2) 0, shape.getD (shape.length - 1) 0] else none

/-- ReplaceFCWithConv2D.cpp 121–152: shape of the final result for a fully connected result of shape `res`. -/
def fcOutputShape (res : List Nat) : List Nat :=
  let s := res.getD (res.length - 2) 0
  let c := res.getD (res.length - 1) 0
  if res.length = 3 then [1, s, c] else [s, c]

/-! ### Fully connected: specification -/

/-- A tensor of the given shape with the given row-major elements. -/
def unflat (shape : List Nat) (data : List Int) : Tensor := fun idx => data.getD (ravel shape idx) 0

/-- `FULLY_CONNECTED` on row-major data: batches of `c` consecutive input elements, `o` results for each. -/
def fullyConnected (rq : Requant) (zpi : Int) (f : FC) (batches : Nat) (data : List Int) : List Int :=
  (List.range batches).flatMap fun b => (List.range f.o).map fun o =>
    rq (f.qp.scale o) (f.bias.map fun bs => bs.qp.scale o)
      (biasAt f.bias o + ∑ c ∈ Finset.range f.c, (data.getD (b * f.c + c) 0 - zpi) * (f.data.getD (o * f.c + c) 0 - f.qp.zp o))

/-! ### Fully connected: proofs -/

/-- **C38**.  For an input whose dimensions other than the last two are 1 and whose last dimension is the filter's: the
reshape keeps the number of elements and the 1x1 convolution of the reshaped input has exactly the elements of the fully
connected layer, in order. -/
theorem C38_fully_connected_partial (rq : Requant) (zpi : Int) (f : FC) (pre : List Nat) (hpre : pre.prod = 1) (B : Nat)
    (data : List Int) (hd : data.length = (pre ++ [B, f.c]).prod) :
    ∃ s, fcInputShape (pre ++ [B, f.c]) = some s ∧ s.prod = data.length ∧
      flat [1, 1, B, f.o] (conv2d rq zpi 1 B f.c (fcToConv f) (unflat s data)) = fullyConnected rq zpi f B data := by
  refine ⟨[1, 1, B, f.c], ?_, ?_, ?_⟩
  · unfold fcInputShape
    rw [if_pos (by simp)]
    simp [List.getElem?_append_right]
  · rw [hd, List.prod_append, hpre]; simp
  · simp only [flat, List.range_one, List.flatMap_cons, List.flatMap_nil, List.append_nil]
    unfold fullyConnected
    apply flatMap_congr'
    intro b hb
    rw [show ∀ g : Nat → Int, ((List.range f.o).map g) = (List.range f.o).flatMap fun o => [g o] from fun g => by
      rw [List.map_eq_flatMap]]
    apply flatMap_congr'
    intro o ho
    rw [List.mem_range] at hb ho
    congr 1
    have hb' : ((b : Int) * ((1 : Nat) : Int) + ((0 : Nat) : Int) * ((1 : Nat) : Int) - 0) = b := by push_cast; ring
    have ht : tap .valid B 1 1 1 b 0 = some b := by
      unfold tap padBefore
      dsimp only
      rw [if_pos (by omega)]
      congr 1
      omega
    have ht0 : tap .valid 1 1 1 1 0 0 = some 0 := by decide
    unfold conv2d fcToConv
    simp only [List.getD_cons_zero, List.getD_cons_succ]
    rw [group_zero (div_self_le_one _) ho]
    congr 2
    unfold accum
    simp only [Finset.sum_range_one, ht, ht0]
    apply Finset.sum_congr rfl
    intro c hc
    rw [Finset.mem_range] at hc
    unfold unflat Filter.at Filter.shape
    dsimp only
    rw [ravel4, ravel4]
    simp

/-- **C38** refuted for inputs with more elements than their last two dimensions: the reshape that is created changes the
number of elements. -/
theorem C38_leading_dims_refuted (pre : List Nat) (hpre : 1 < pre.prod) (B C : Nat) (hB : 0 < B) (hC : 0 < C) :
    ∃ s, fcInputShape (pre ++ [B, C]) = some s ∧ s.prod < (pre ++ [B, C]).prod := by
  refine ⟨[1, 1, B, C], ?_, ?_⟩
  · unfold fcInputShape
    rw [if_pos (by simp)]
    simp [List.getElem?_append_right]
  · rw [List.prod_append]
    simp only [List.prod_cons, List.prod_nil, Nat.one_mul, Nat.mul_one]
    have : 0 < B * C := Nat.mul_pos hB hC
    nlinarith

/-- **C38** (result shape).  For a result of rank 2, or of rank 3 with first dimension 1, the final reshape restores the
layer's result shape. -/
theorem C38_result_shape (B O : Nat) : fcOutputShape [B, O] = [B, O] ∧ fcOutputShape [1, B, O] = [1, B, O] := by
  constructor <;> rfl

/-- **C38** refuted for results of rank 4: two dimensions are dropped, so the type of the replacement differs. -/
theorem C38_rank4_refuted (B O : Nat) : fcOutputShape [1, 1, B, O] = [B, O] ∧ fcOutputShape [1, 1, B, O] ≠ [1, 1, B, O] := by
  refine ⟨rfl, fun h => ?_⟩
  have := congrArg List.length h
  simp [fcOutputShape] at this

/-- Non-vacuity: two batches, three inputs, two outputs. -/
example : fullyConnected (fun _ _ a => a) 1 ⟨2, 3, [1, 2, 3, 4, 5, 6], .perTensor 1 0, some ⟨[10, 20], .perTensor 1 0⟩⟩ 2
    [1, 2, 3, 4, 5, 6] = [18, 37, 36, 82] := by decide +kernel

end Verif.Conv
