import Verif.Conv.Pool
import Verif.Conv.Lower
import Verif.Threads.Props
import Mathlib.Order.Bounds.Basic
import Mathlib.Tactic.IntervalCases
/-!
Maximum pooling (xformer/Transforms/ReplaceMaxPool2D.cpp): model, specification, proofs (C55).
-/
namespace Verif.Conv
open Verif.Tensor Verif.Image Verif.Quant Verif.Threads

/-! ### Model -/

/-- `tfl.max_pool_2d` on an input `[batch, h, w, depth]` with result `[batch, oh, ow, depth]`. -/
structure MaxPool where
  fh : Nat
  fw : Nat
  sh : Nat
  sw : Nat
  padding : Padding
  act : Act
  h : Nat
  w : Nat
  depth : Nat
  oh : Nat
  ow : Nat

/-- What the xcore operator is given: window geometry, input geometry, output geometry and thread regions. -/
structure XCMaxPool where
  kh : Nat
  kw : Nat
  startRow : Nat
  startCol : Nat
  strideRow : Nat
  strideCol : Nat
  inCols : Nat
  inDepth : Nat
  regions : List Region

/-- ReplaceMaxPool2D.cpp 32–110.  Window start (0, 0) and dilation 1 (72–74); padding and fused activation are not looked at.
`none`: `back()` of an empty vector in the thread splits. -/
def lowerMaxPool (cts : Nat → Nat → List (Nat × Nat)) (threads : Nat) (p : MaxPool) : Option XCMaxPool :=
  (getImageRegionThreadSplits cts threads ⟨p.oh, p.ow, p.depth, 0, 0, 1, 1⟩).map fun rs =>
    { kh := p.fh, kw := p.fw, startRow := 0, startCol := 0, strideRow := p.sh, strideCol := p.sw
      inCols := p.w, inDepth := p.depth, regions := rs }

/-! ### Contract of the kernel (lib_nn `DerefInputFn` with the maximum as aggregate)

`mem i` is the byte `i` places after the start of the input tensor.  The kernel computes, for every element of its region,
the largest of the bytes at the addresses of the window. -/

/-- Address of window element `(a, b)` for output element `(y, x, c)`. -/
def XCMaxPool.addr (k : XCMaxPool) (y x c a b : Nat) : Nat :=
  ((y * k.strideRow + k.startRow + a) * k.inCols + (x * k.strideCol + k.startCol + b)) * k.inDepth + c

/-- The addresses read for output element `(y, x, c)`. -/
def XCMaxPool.reads (k : XCMaxPool) (y x c : Nat) : List Nat :=
  (List.range k.kh).flatMap fun a => (List.range k.kw).map fun b => k.addr y x c a b

/-- `v` is the kernel's result for output element `(y, x, c)`. -/
def XCMaxPool.Gives (k : XCMaxPool) (mem : Nat → Int) (y x c : Nat) (v : Int) : Prop :=
  IsGreatest {u | ∃ i ∈ k.reads y x c, mem i = u} v

/-! ### Specification: `MAX_POOL_2D` without activation -/

/-- Output size. -/
def poolOut (p : Padding) (n k s : Nat) : Nat :=
  match p with
  | .valid => (n - k + s) / s
  | .same => (n + s - 1) / s

/-- The result at `[bt, y, xx, c]` is the largest element of its window inside the input. -/
def IsMaxPool (p : MaxPool) (t : Tensor) (bt y xx c : Nat) (v : Int) : Prop :=
  IsGreatest {u | ∃ a b iy ix, a < p.fh ∧ b < p.fw ∧ tap p.padding p.h p.fh p.sh 1 y a = some iy ∧
    tap p.padding p.w p.fw p.sw 1 xx b = some ix ∧ t [bt, iy, ix, c] = u} v

structure MaxPool.OK (p : MaxPool) : Prop where
  fh : 1 ≤ p.fh
  fw : 1 ≤ p.fw
  sh : 1 ≤ p.sh
  sw : 1 ≤ p.sw
  hh : p.fh ≤ p.h
  hw : p.fw ≤ p.w
  oh : p.oh = poolOut p.padding p.h p.fh p.sh
  ow : p.ow = poolOut p.padding p.w p.fw p.sw

/-! ### Proofs -/

theorem pool_bound {n k s y a : Nat} (hs : 1 ≤ s) (hk : k ≤ n) (hy : y < (n - k + s) / s) (ha : a < k) : y * s + a < n := by
  have h1 : (y + 1) * s ≤ n - k + s := (Nat.le_div_iff_mul_le (by omega)).1 hy
  rw [Nat.succ_mul] at h1
  omega

theorem tap_valid {n k s y a : Nat} (h : y * s + a < n) : tap .valid n k s 1 y a = some (y * s + a) := by
  unfold tap padBefore
  dsimp only
  have h0 : ((y * s + a : Nat) : Int) < n := by exact_mod_cast h
  push_cast at h0
  have h1 : (0 : Int) ≤ (y : Int) * s := by positivity
  rw [if_pos (by push_cast; constructor <;> omega)]
  congr 1
  have : ((y : Int) * s + a * ((1 : Nat) : Int) - 0) = ((y * s + a : Nat) : Int) := by push_cast; ring
  rw [this]
  rfl

theorem addr_lt {h w d iy ix c : Nat} (h1 : iy < h) (h2 : ix < w) (h3 : c < d) : (iy * w + ix) * d + c < h * w * d := by
  have a1 : (iy + 1) * w ≤ h * w := Nat.mul_le_mul_right _ h1
  rw [Nat.succ_mul] at a1
  have a2 : (iy * w + ix + 1) * d ≤ h * w * d := Nat.mul_le_mul_right _ (by omega)
  rw [Nat.succ_mul] at a2
  omega

/-- **C55.** A VALID max pool (no fused activation, batch 1): the replacement exists; every output element is computed by
exactly one thread; the addresses it reads lie inside the input tensor, whatever lies behind it in memory; and its value is
the largest element of the window. -/
theorem C55_maxpool_valid_partial (cts : Nat → Nat → List (Nat × Nat)) (hcalc : CalcContract cts) (threads : Nat) (hn : 1 ≤ threads)
    (p : MaxPool) (ok : p.OK) (hv : p.padding = .valid) :
    ∃ k, lowerMaxPool cts threads p = some k ∧
      (∀ y x c, coverage k.regions y x c = if y < p.oh ∧ x < p.ow ∧ c < p.depth then 1 else 0) ∧
      ∀ y x c, y < p.oh → x < p.ow → c < p.depth →
        (∀ i ∈ k.reads y x c, i < p.h * p.w * p.depth) ∧
        ∀ (t : Tensor) (mem : Nat → Int) (v : Int),
          (∀ iy ix c, iy < p.h → ix < p.w → c < p.depth → mem ((iy * p.w + ix) * p.depth + c) = t [0, iy, ix, c]) →
          (k.Gives mem y x c v ↔ IsMaxPool p t 0 y x c v) := by
  have hoh := ok.oh
  have how := ok.ow
  rw [hv] at hoh how
  simp only [poolOut] at hoh how
  have e1 : 1 ≤ p.oh := by
    rw [hoh, Nat.le_div_iff_mul_le (by have := ok.sh; omega)]; omega
  have e2 : 1 ≤ p.ow := by
    rw [how, Nat.le_div_iff_mul_le (by have := ok.sw; omega)]; omega
  obtain ⟨rs, h1, h2, h3, h4⟩ := C07_regions_partition_image cts hcalc threads p.oh p.ow p.depth hn e1 e2
  unfold lowerMaxPool
  rw [h1]
  refine ⟨_, rfl, h4, ?_⟩
  intro y x c hy hx hc
  have by_ : ∀ a < p.fh, y * p.sh + a < p.h := fun a ha => pool_bound ok.sh ok.hh (by rw [← hoh]; exact hy) ha
  have bx_ : ∀ b < p.fw, x * p.sw + b < p.w := fun b hb => pool_bound ok.sw ok.hw (by rw [← how]; exact hx) hb
  constructor
  · intro i hi
    simp only [XCMaxPool.reads, List.mem_flatMap, List.mem_map, List.mem_range] at hi
    obtain ⟨a, ha, b, hb, rfl⟩ := hi
    exact addr_lt (by have := by_ a ha; simpa using this) (by have := bx_ b hb; simpa using this) hc
  · intro t mem v hm
    unfold XCMaxPool.Gives IsMaxPool
    suffices h : {u | ∃ i ∈ XCMaxPool.reads { kh := p.fh, kw := p.fw, startRow := 0, startCol := 0, strideRow := p.sh, strideCol := p.sw, inCols := p.w, inDepth := p.depth, regions := rs } y x c, mem i = u} =
        {u | ∃ a b iy ix, a < p.fh ∧ b < p.fw ∧ tap p.padding p.h p.fh p.sh 1 y a = some iy ∧
          tap p.padding p.w p.fw p.sw 1 x b = some ix ∧ t [0, iy, ix, c] = u} by rw [h]
    ext u
    simp only [XCMaxPool.reads, List.mem_flatMap, List.mem_map, List.mem_range, Set.mem_setOf_eq, XCMaxPool.addr, hv]
    constructor
    · rintro ⟨i, ⟨a, ha, b, hb, rfl⟩, rfl⟩
      refine ⟨a, b, _, _, ha, hb, tap_valid (by_ a ha), tap_valid (bx_ b hb), ?_⟩
      rw [← hm _ _ _ (by_ a ha) (bx_ b hb) hc]
      simp
    · rintro ⟨a, b, iy, ix, ha, hb, h1, h2, rfl⟩
      rw [tap_valid (by_ a ha)] at h1
      rw [tap_valid (bx_ b hb)] at h2
      obtain rfl := Option.some.inj h1
      obtain rfl := Option.some.inj h2
      refine ⟨_, ⟨a, ha, b, hb, rfl⟩, ?_⟩
      rw [← hm _ _ _ (by_ a ha) (bx_ b hb) hc]
      simp

/-- The window is not empty, so `MAX_POOL_2D` (VALID) has a value at every output position: C55 is not vacuous. -/
theorem C55_value_exists (p : MaxPool) (ok : p.OK) (hv : p.padding = .valid) (t : Tensor) (y x c : Nat) (hy : y < p.oh)
    (hx : x < p.ow) : ∃ v, IsMaxPool p t 0 y x c v := by
  have hoh := ok.oh
  have how := ok.ow
  rw [hv] at hoh how
  simp only [poolOut] at hoh how
  have by_ : ∀ a < p.fh, y * p.sh + a < p.h := fun a ha => pool_bound ok.sh ok.hh (by rw [← hoh]; exact hy) ha
  have bx_ : ∀ b < p.fw, x * p.sw + b < p.w := fun b hb => pool_bound ok.sw ok.hw (by rw [← how]; exact hx) hb
  let S : Finset Int := (Finset.range p.fh ×ˢ Finset.range p.fw).image fun ab => t [0, y * p.sh + ab.1, x * p.sw + ab.2, c]
  have hS : S.Nonempty := by
    refine ⟨_, Finset.mem_image_of_mem _ (a := (0, 0)) ?_⟩
    simp only [Finset.mem_product, Finset.mem_range]
    exact ⟨ok.fh, ok.fw⟩
  refine ⟨S.max' hS, ?_⟩
  have e : {u | ∃ a b iy ix, a < p.fh ∧ b < p.fw ∧ tap p.padding p.h p.fh p.sh 1 y a = some iy ∧
    tap p.padding p.w p.fw p.sw 1 x b = some ix ∧ t [0, iy, ix, c] = u} = ↑S := by
    ext u
    simp only [S, Set.mem_setOf_eq, Finset.coe_image, Set.mem_image, Finset.mem_coe, Finset.mem_product, Finset.mem_range, hv]
    constructor
    · rintro ⟨a, b, iy, ix, ha, hb, h1, h2, rfl⟩
      rw [tap_valid (by_ a ha)] at h1
      rw [tap_valid (bx_ b hb)] at h2
      obtain rfl := Option.some.inj h1
      obtain rfl := Option.some.inj h2
      exact ⟨(a, b), ⟨ha, hb⟩, rfl⟩
    · rintro ⟨⟨a, b⟩, ⟨ha, hb⟩, rfl⟩
      exact ⟨a, b, _, _, ha, hb, tap_valid (by_ a ha), tap_valid (bx_ b hb), rfl⟩
  unfold IsMaxPool
  rw [e]
  exact Finset.isGreatest_max' S hS

/-- A 2x2 pool with stride 1 and SAME padding on a 2x2 input with one channel. -/
def exSamePool : MaxPool :=
  { fh := 2, fw := 2, sh := 1, sw := 1, padding := .same, act := .none, h := 2, w := 2, depth := 1, oh := 2, ow := 2 }

theorem exSamePool_ok : exSamePool.OK := by constructor <;> decide

/-- **C55 refuted for SAME**: the pool is replaced although the kernel then reads outside the input; and at (0, 1), where
the largest element of the window is 3, the kernel gives 7, an element of another window, even if everything behind the
tensor is 0. -/
theorem C55_same_refuted :
    ∃ k, lowerMaxPool (fun _ _ => []) 1 exSamePool = some k ∧
      (∃ i ∈ k.reads 1 1 0, exSamePool.h * exSamePool.w * exSamePool.depth ≤ i) ∧
      k.Gives (fun i => [1, 3, 7, 2].getD i 0) 0 1 0 7 ∧
      IsMaxPool exSamePool (fun idx => [1, 3, 7, 2].getD (idx.getD 1 0 * 2 + idx.getD 2 0) 0) 0 0 1 0 3 := by
  refine ⟨_, rfl, ⟨4, by decide, by decide⟩, ⟨⟨2, by decide, rfl⟩, ?_⟩, ⟨⟨0, 0, 0, 1, by decide, by decide, by decide, by decide, rfl⟩, ?_⟩⟩
  · rintro u ⟨i, hi, rfl⟩
    have : i = 1 ∨ i = 2 ∨ i = 3 ∨ i = 4 := by
      have e : XCMaxPool.reads { kh := 2, kw := 2, startRow := 0, startCol := 0, strideRow := 1, strideCol := 1, inCols := 2, inDepth := 1, regions := [⟨0, 0, 0, 2, 2, 1⟩] } 0 1 0 = [1, 2, 3, 4] := by decide
      have hi : i ∈ XCMaxPool.reads { kh := 2, kw := 2, startRow := 0, startCol := 0, strideRow := 1, strideCol := 1, inCols := 2, inDepth := 1, regions := [⟨0, 0, 0, 2, 2, 1⟩] } 0 1 0 := hi
      rw [e] at hi
      simpa using hi
    rcases this with rfl | rfl | rfl | rfl <;> decide
  · rintro u ⟨a, b, iy, ix, ha, hb, h1, h2, rfl⟩
    have ha : a < 2 := ha
    have hb : b < 2 := hb
    interval_cases a <;> interval_cases b <;>
      first
      | (have e : tap exSamePool.padding exSamePool.w exSamePool.fw exSamePool.sw 1 1 1 = none := by decide
         rw [e] at h2; cases h2)
      | (have e : tap exSamePool.padding exSamePool.w exSamePool.fw exSamePool.sw 1 1 0 = some 1 := by decide
         rw [e] at h2; obtain rfl := Option.some.inj h2
         first
         | (have e : tap exSamePool.padding exSamePool.h exSamePool.fh exSamePool.sh 1 0 0 = some 0 := by decide
            rw [e] at h1; obtain rfl := Option.some.inj h1; decide)
         | (have e : tap exSamePool.padding exSamePool.h exSamePool.fh exSamePool.sh 1 0 1 = some 1 := by decide
            rw [e] at h1; obtain rfl := Option.some.inj h1; decide))

/-- **C55 refuted for fused activations**: the operator made is the same for every activation, so a RELU is lost. -/
theorem C55_activation_ignored (cts : Nat → Nat → List (Nat × Nat)) (threads : Nat) (p : MaxPool) (a : Act) :
    lowerMaxPool cts threads { p with act := a } = lowerMaxPool cts threads p := rfl

/-- **C55 refuted for batches**: no thread computes an element of the second or a later batch, whose addresses in the
result start at `oh * ow * depth`. -/
theorem C55_batch_refuted (cts : Nat → Nat → List (Nat × Nat)) (hcalc : CalcContract cts) (threads : Nat) (hn : 1 ≤ threads)
    (p : MaxPool) (h1 : 1 ≤ p.oh) (h2 : 1 ≤ p.ow) :
    ∃ k, lowerMaxPool cts threads p = some k ∧
      ∀ r ∈ k.regions, ∀ y x c, r.Has y x c → (y * p.ow + x) * p.depth + c < p.oh * p.ow * p.depth := by
  obtain ⟨rs, e1, _, _, e4⟩ := C07_regions_partition_image cts hcalc threads p.oh p.ow p.depth hn h1 h2
  unfold lowerMaxPool
  rw [e1]
  refine ⟨_, rfl, ?_⟩
  intro r hr y x c hhas
  have hpos : 0 < coverage rs y x c := List.countP_pos_iff.2 ⟨r, hr, by simpa using hhas⟩
  rw [e4] at hpos
  by_cases hc : y < p.oh ∧ x < p.ow ∧ c < p.depth
  · exact addr_lt hc.1 hc.2.1 hc.2.2
  · rw [if_neg hc] at hpos; omega

/-- A pool that meets the hypotheses of C55: 3x3, stride 2, on a 7x9 input with 16 channels, 5 threads. -/
def exPool : MaxPool :=
  { fh := 3, fw := 3, sh := 2, sw := 2, padding := .valid, act := .none, h := 7, w := 9, depth := 16, oh := 3, ow := 4 }

theorem C55_example : exPool.OK ∧ exPool.padding = .valid ∧ CalcContract (fun _ d => if d = 0 then [] else [(0, d)]) ∧
    ∃ k, lowerMaxPool (fun _ d => if d = 0 then [] else [(0, d)]) 5 exPool = some k ∧ k.regions.length = 4 ∧
      3 * 9 * 16 + 8 * 16 + 3 ∈ k.reads 1 3 3 := by
  refine ⟨by constructor <;> decide, rfl, ?_, _, rfl, by decide, by decide⟩
  intro n d hn
  by_cases h : d = 0
  · subst h; exact ⟨by simp, rfl⟩
  · simp only [if_neg h]
    exact ⟨by simpa using hn, rfl, by omega, rfl⟩

end Verif.Conv
