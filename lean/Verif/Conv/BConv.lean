import Verif.Conv.LowerProps
import Mathlib.Tactic.Linarith
/-!
Binarised convolutions (xformer/Transforms/ConvPatternsLCE.cpp): model, specification, proofs (C54).

Bits stand for the numbers 1 (bit clear) and -1 (bit set).  lib_nn's kernels are a contract, see `BLowered.value`.
-/
namespace Verif.Conv
open Verif.Tensor Verif.Image Verif.Quant

/-! ### Model -/

/-- `lq.Bconv2d` with 8-bit or binary result.  `cin` is `channels_in`; the input tensor is `[_, ih, iw, words]` of packed
32-bit words, the output tensor `[_, oh, ow, outDim]`; the filter `[oc, kh, kw, words]`. -/
structure BConv where
  filterI32 : Bool
  /-- Element type of the result: quantised 8-bit (`some (scale, zp)`), 32-bit integer, or something else. -/
  outQ8 : Option (ℚ × Int)
  outI32 : Bool
  relu : Bool
  valid : Bool
  cin : Nat
  words : Nat
  ih : Nat
  iw : Nat
  oh : Nat
  ow : Nat
  outDim : Nat
  kh : Nat
  kw : Nat
  sh : Nat
  sw : Nat
  dh : Nat
  dw : Nat
  postMul : List ℚ
  postBias : List ℚ

inductive BKT where
  | directBinary
  | directInt8
  | indirectBinary
  | indirectInt8
  deriving DecidableEq, Repr

/-- ConvPatternsLCE.cpp 10–70 `checkIfValid`: no error message. -/
def checkValid (f : BConv) : Bool :=
  f.filterI32 ∧ (f.outQ8.isSome ∨ f.outI32) ∧ (f.outQ8.isSome → f.relu) ∧ f.valid ∧ f.cin % 32 = 0 ∧
  (f.outQ8.isSome → f.outDim % 4 = 0)

/-- Arguments collected by `getArgs` (ConvPatternsLCE.cpp 72–192) that the kernels depend on. -/
structure BArgs where
  inputDepth : Nat
  outputDepth : Nat
  binaryOutput : Bool
  muls : List ℚ
  biases : List ℚ
  clampMin : Int
  clampMax : Int

/-- ConvPatternsLCE.cpp 142–143. -/
def BConv.backtransformAdd (f : BConv) : Int := f.kh * f.kw * f.cin

/-- ConvPatternsLCE.cpp 72–192.  `float` numbers are rationals; 32-bit integers do not overflow (simplification). -/
def bArgs (f : BConv) : BArgs :=
  match f.outQ8 with
  | none =>
    -- 93–99: depths in bits
    { inputDepth := f.words * 32, outputDepth := f.outDim * 32, binaryOutput := true, muls := [], biases := []
      clampMin := 0, clampMax := 0 }
  | some (scale, zp) =>
    let add := f.backtransformAdd
    -- 161–167
    let nominalMin : Int := max 0 (-1 * add)
    let nominalMax : Int := min 2147483647 add
    { inputDepth := f.words * 32, outputDepth := f.outDim, binaryOutput := false
      -- 145–153
      muls := (List.range f.outDim).map fun i => -1 * f.postMul.getD i 0 / scale
      biases := (List.range f.outDim).map fun i => (f.postBias.getD i 0 + add * f.postMul.getD i 0) / scale + zp
      clampMin := -1 * nominalMax + add, clampMax := -1 * nominalMin + add }

/-- ConvPatternsLCE.cpp 194–210. -/
def bKernelType (a : BArgs) : BKT :=
  if a.inputDepth % 256 = 0 ∧ a.binaryOutput then .directBinary
  else if a.inputDepth % 256 = 0 ∧ a.outputDepth % 16 = 0 then .directInt8
  else if a.binaryOutput then .indirectBinary
  else .indirectInt8

/-- The lowered operator: ReplaceConv2D.cpp 49–220 for `lq.Bconv2d`; window start (0, 0) (ConvPatternsLCE.cpp 177–180). -/
structure BLowered where
  kt : BKT
  args : BArgs
  start : Int × Int
  sh : Nat
  sw : Nat
  dh : Nat
  dw : Nat

def bLower (f : BConv) : Option BLowered :=
  if checkValid f then
    some { kt := bKernelType (bArgs f), args := bArgs f, start := (0, 0), sh := f.sh, sw := f.sw, dh := f.dh, dw := f.dw }
  else none

/-! ### Contract of lib_nn's 8-bit binary kernels

`canonicalise_mul_and_bias` (ConvPatternsLCE.cpp 366–368, 424–426) takes multiplier, bias and clamp bounds in the
"xor-popcount" convention of Larq: the kernel counts the positions at which input and filter bits differ, doubles the
count, clamps it, and applies multiplier and bias. -/

/-- Number of kernel positions at which the bits differ. -/
def mismatches (kh kw cin : Nat) (x w : Nat → Nat → Nat → Bool) : Int :=
  ∑ a ∈ Finset.range kh, ∑ b ∈ Finset.range kw, ∑ c ∈ Finset.range cin, if x a b c = w a b c then 0 else 1

/-- Value before rounding. -/
def BLowered.value (l : BLowered) (kh kw : Nat) (o : Nat) (x w : Nat → Nat → Nat → Bool) : ℚ :=
  l.args.muls.getD o 0 * (clamp l.args.clampMin l.args.clampMax (2 * mismatches kh kw l.args.inputDepth x w) : Int) +
    l.args.biases.getD o 0

/-- The input patch the kernel reads for output position `(y, x)`. -/
def BLowered.patch (l : BLowered) (img : Int → Int → Nat → Bool) (y x : Nat) (a b c : Nat) : Bool :=
  img (y * l.sh + l.start.1 + a * l.dh) (x * l.sw + l.start.2 + b * l.dw) c

/-! ### Specification: Larq's `LceBconv2d` -/

/-- The number a bit stands for. -/
def pm (b : Bool) : Int := if b then -1 else 1

/-- Sum over the window of input times filter (VALID padding). -/
def bconvSum (f : BConv) (img : Int → Int → Nat → Bool) (w : Nat → Nat → Nat → Bool) (y x : Nat) : Int :=
  ∑ a ∈ Finset.range f.kh, ∑ b ∈ Finset.range f.kw, ∑ c ∈ Finset.range f.cin,
    pm (img (y * f.sh + a * f.dh) (x * f.sw + b * f.dw) c) * pm (w a b c)

/-- RELU, then the affine post-activation transform, in steps of the output quantisation (before rounding). -/
def bconvReal (f : BConv) (scale : ℚ) (zp : Int) (img : Int → Int → Nat → Bool) (w : Nat → Nat → Nat → Bool) (y x o : Nat) : ℚ :=
  (f.postMul.getD o 0 * (max 0 (bconvSum f img w y x) : Int) + f.postBias.getD o 0) / scale + zp

/-! ### Proofs -/

theorem dot_mismatch (kh kw n : Nat) (x w : Nat → Nat → Nat → Bool) :
    (∑ a ∈ Finset.range kh, ∑ b ∈ Finset.range kw, ∑ c ∈ Finset.range n, pm (x a b c) * pm (w a b c)) =
      kh * kw * n - 2 * mismatches kh kw n x w := by
  unfold mismatches
  rw [Finset.mul_sum]
  have : ((kh : Int) * kw * n) = ∑ _a ∈ Finset.range kh, ∑ _b ∈ Finset.range kw, ∑ _c ∈ Finset.range n, (1 : Int) := by
    simp [mul_assoc]
  rw [this, ← Finset.sum_sub_distrib]
  apply Finset.sum_congr rfl
  intro a _
  rw [Finset.mul_sum, ← Finset.sum_sub_distrib]
  apply Finset.sum_congr rfl
  intro b _
  rw [Finset.mul_sum, ← Finset.sum_sub_distrib]
  apply Finset.sum_congr rfl
  intro c _
  cases x a b c <;> cases w a b c <;> decide

theorem mismatches_nonneg (kh kw n : Nat) (x w : Nat → Nat → Nat → Bool) : 0 ≤ mismatches kh kw n x w := by
  unfold mismatches
  refine Finset.sum_nonneg fun a _ => Finset.sum_nonneg fun b _ => Finset.sum_nonneg fun c _ => ?_
  split <;> decide

/-- **C54.** An 8-bit binarised convolution that is lowered has, before rounding, exactly the value that Larq defines:
RELU of the ±1 sum, post-activation multiplier and bias, output scale and zero point.  The channel count is that of the
packed input, and the receptive field has fewer than 2^31 elements. -/
theorem C54_bconv (f : BConv) (l : BLowered) (h : bLower f = some l) (scale : ℚ) (zp : Int) (hq : f.outQ8 = some (scale, zp))
    (hw : f.cin = f.words * 32) (hsmall : f.backtransformAdd ≤ 2147483647)
    (img : Int → Int → Nat → Bool) (w : Nat → Nat → Nat → Bool) (y x o : Nat) (ho : o < f.outDim) :
    l.value f.kh f.kw o (l.patch img y x) w = bconvReal f scale zp img w y x o := by
  unfold bLower at h
  by_cases hc : checkValid f = true
  swap
  · rw [if_neg hc] at h; cases h
  rw [if_pos hc] at h
  have h := Option.some.inj h
  subst h
  have key := dot_mismatch f.kh f.kw f.cin (fun a b c => img (y * f.sh + a * f.dh) (x * f.sw + b * f.dw) c) w
  have hnn := mismatches_nonneg f.kh f.kw f.cin (fun a b c => img (y * f.sh + a * f.dh) (x * f.sw + b * f.dw) c) w
  unfold BLowered.value BLowered.patch bconvReal bconvSum
  rw [key]
  unfold bArgs
  rw [hq]
  dsimp only
  rw [getD_map_range _ _ _ ho, getD_map_range _ _ _ ho, ← hw]
  unfold BConv.backtransformAdd at *
  simp only [add_zero]
  generalize mismatches f.kh f.kw f.cin (fun a b c => img (y * f.sh + a * f.dh) (x * f.sw + b * f.dw) c) w = m at *
  have hadd : (0 : Int) ≤ f.kh * f.kw * f.cin := by positivity
  generalize (f.kh : Int) * f.kw * f.cin = add at *
  have e : clamp (-1 * min 2147483647 add + add) (-1 * max 0 (-1 * add) + add) (2 * m) = add - max 0 (add - 2 * m) := by
    unfold clamp; omega
  rw [e]
  push_cast
  ring

/-- **C54, kernels.** The direct kernels are chosen only for input depths that are multiples of 256, with an output depth
that is a multiple of 16, and a binary result is computed by a binary kernel, an 8-bit result by an 8-bit kernel. -/
theorem C54_kernel (f : BConv) (l : BLowered) (h : bLower f = some l) :
    (l.kt = .directBinary ∨ l.kt = .directInt8 → (f.words * 32) % 256 = 0 ∧ l.args.outputDepth % 16 = 0) ∧
    (l.kt = .directBinary ∨ l.kt = .indirectBinary ↔ f.outQ8 = none) := by
  unfold bLower at h
  by_cases hc : checkValid f = true
  swap
  · rw [if_neg hc] at h; cases h
  rw [if_pos hc] at h
  have h := Option.some.inj h
  subst h
  dsimp only
  cases hq : f.outQ8 with
  | none =>
    have e1 : (bArgs f).inputDepth = f.words * 32 := by unfold bArgs; rw [hq]
    have e2 : (bArgs f).binaryOutput = true := by unfold bArgs; rw [hq]
    have e3 : (bArgs f).outputDepth = f.outDim * 32 := by unfold bArgs; rw [hq]
    unfold bKernelType
    rw [e1, e2, e3]
    by_cases h1 : (f.words * 32) % 256 = 0
    · rw [if_pos ⟨h1, rfl⟩]
      exact ⟨fun _ => ⟨h1, by omega⟩, by simp⟩
    · rw [if_neg (fun h => h1 h.1), if_neg (fun h => h1 h.1), if_pos rfl]
      exact ⟨fun h => (by rcases h with h | h <;> exact absurd h (by decide)), by simp⟩
  | some q =>
    obtain ⟨s, z⟩ := q
    have e1 : (bArgs f).inputDepth = f.words * 32 := by unfold bArgs; rw [hq]
    have e2 : (bArgs f).binaryOutput = false := by unfold bArgs; rw [hq]
    unfold bKernelType
    rw [e1, e2]
    simp only [Bool.false_eq_true, and_false, if_false]
    by_cases h1 : (f.words * 32) % 256 = 0 ∧ (bArgs f).outputDepth % 16 = 0
    · rw [if_pos h1]
      exact ⟨fun _ => h1, by simp⟩
    · rw [if_neg h1]
      exact ⟨fun h => (by rcases h with h | h <;> exact absurd h (by decide)), by simp⟩

/-- **C54, rejection.** What is lowered is a VALID convolution over a multiple of 32 channels, and an 8-bit result has
RELU as its activation and a multiple of four channels. -/
theorem C54_accepted (f : BConv) (l : BLowered) (h : bLower f = some l) :
    f.valid = true ∧ f.cin % 32 = 0 ∧ (f.outQ8 ≠ none → f.relu = true ∧ f.outDim % 4 = 0) := by
  unfold bLower at h
  by_cases hc : checkValid f = true
  swap
  · rw [if_neg hc] at h; cases h
  simp only [checkValid, decide_eq_true_eq] at hc
  obtain ⟨_, _, h3, h4, h5, h6⟩ := hc
  refine ⟨h4, h5, ?_⟩
  intro hq
  have : f.outQ8.isSome = true := by
    cases e : f.outQ8 with
    | none => exact absurd e hq
    | some _ => rfl
  exact ⟨h3 this, h6 this⟩

/-- A concrete binarised convolution that is lowered. -/
def exBConv : BConv :=
  { filterI32 := true, outQ8 := some (1 / 2, -128), outI32 := false, relu := true, valid := true, cin := 256, words := 8
    ih := 5, iw := 5, oh := 3, ow := 3, outDim := 16, kh := 3, kw := 3, sh := 1, sw := 1, dh := 1, dw := 1
    postMul := List.replicate 16 (1 / 8), postBias := List.replicate 16 1 }

theorem C54_example : ∃ l, bLower exBConv = some l ∧ l.kt = .directInt8 ∧ l.args.clampMin = 0 ∧ l.args.clampMax = 2304 ∧
    exBConv.cin = exBConv.words * 32 ∧ exBConv.backtransformAdd ≤ 2147483647 := by
  refine ⟨{ kt := .directInt8, args := bArgs exBConv, start := (0, 0), sh := 1, sw := 1, dh := 1, dw := 1 }, ?_, rfl, ?_, ?_, rfl, ?_⟩
  · unfold bLower
    rw [if_pos (by decide)]
    have : bKernelType (bArgs exBConv) = .directInt8 := by
      unfold bKernelType
      have e1 : (bArgs exBConv).inputDepth = 256 := rfl
      have e2 : (bArgs exBConv).binaryOutput = false := rfl
      have e3 : (bArgs exBConv).outputDepth = 16 := rfl
      rw [e1, e2, e3]; decide
    rw [this]
    rfl
  · show (-1 * min 2147483647 exBConv.backtransformAdd + exBConv.backtransformAdd : Int) = 0
    decide
  · show (-1 * max 0 (-1 * exBConv.backtransformAdd) + exBConv.backtransformAdd : Int) = 2304
    decide
  · decide

end Verif.Conv
