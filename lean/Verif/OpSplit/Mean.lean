import Verif.OpSplit.Props
import Mathlib.Algebra.BigOperators.Field
import Mathlib.Algebra.BigOperators.Intervals
import Mathlib.Algebra.Order.BigOperators.Group.Finset
import Mathlib.Algebra.Order.Field.Rat
import Mathlib.Tactic.FieldSimp
import Mathlib.Tactic.Linarith
import Mathlib.Tactic.Positivity
import Mathlib.Data.Rat.Defs
/-!
Splitting a mean (xformer/Transforms/OpSplit.cpp 331-404) and the fate of the placeholder `FakeSliceOp` that leads to it
(lines 265-329).

Simplifications: one channel, batch 1, reduction over height and width with kept dimensions (the shape that lines 387-390
assume); rational instead of floating point arithmetic.
-/
namespace Verif.OpSplit
open Verif.Image

/-! ### Specification: the quantised mean -/

/-- Quantisation of a mean operator: `s` = input scale / output scale, zero points, output range and the rounding used. -/
structure MeanQ where
  rnd : ℚ → Int
  s : ℚ
  zi : Int
  zo : Int
  lo : Int
  hi : Int

/-- Rounds to a nearest integer (any tie rule). -/
def Nearest (rnd : ℚ → Int) : Prop := ∀ q : ℚ, |(rnd q : ℚ) - q| ≤ 1 / 2

/-- Sum of all elements. -/
def total (x : Img Int) : Int := ∑ i ∈ Finset.range x.h.toNat, ∑ j ∈ Finset.range x.w.toNat, x.px i j

/-- Exact mean of the dequantised input in units of the output scale. -/
def realMean (m : MeanQ) (x : Img Int) : ℚ := m.s * ((total x : ℚ) / ((x.h : ℚ) * x.w) - m.zi)

/-- Saturate. -/
def clampI (lo hi v : Int) : Int := max lo (min hi v)

/-- `tfl.mean` over height and width. -/
def meanOp (m : MeanQ) (x : Img Int) : Int := clampI m.lo m.hi (m.rnd (realMean m x) + m.zo)

/-- The mean of a part is representable in the output type without saturation. -/
def Unsaturated (m : MeanQ) (x : Img Int) : Prop := m.lo ≤ m.rnd (realMean m x) + m.zo ∧ m.rnd (realMean m x) + m.zo ≤ m.hi

/-! ### The rewrite -/

/-- Slice of `n` rows and the first `w` columns (lines 364-378: begin and size recorded by the placeholder). -/
def sliceBox (b n w : Int) (x : Img Int) : Img Int := ⟨n, w, fun i j => x.px (b + i) j⟩

/-- The second mean is a clone that reads the first ones' results (lines 387-397), so its input has the quantisation of the
output. -/
def MeanQ.second (m : MeanQ) : MeanQ := { m with s := 1, zi := m.zo }

/-- `RaiseFakeSliceToSliceMeanPattern` (lines 331-404) for the recorded slices `(begin, height, width)`; fails unless all sizes
are equal (lines 352-361).  `assert`s are compiled out in release builds, so a single recorded slice is accepted. -/
def splitMean (m : MeanQ) (slices : List (Int × Int × Int)) (x : Img Int) : Option Int :=
  match slices with
  | [] => none
  | s0 :: rest =>
    if rest.all fun s => s.2 == s0.2 then
      some (meanOp m.second ⟨slices.length, 1, fun i _ =>
        let s := slices.getD i.toNat (0, 0, 0)
        meanOp m (sliceBox s.1 s.2.1 s.2.2 x)⟩)
    else none

/-! ### C66 -/

theorem clampI_lip (lo hi a b : Int) : |clampI lo hi a - clampI lo hi b| ≤ |a - b| := by
  unfold clampI
  rcases abs_cases (a - b) with h | h <;>
    rcases abs_cases (max lo (min hi a) - max lo (min hi b)) with g | g <;> omega

theorem clampI_id {lo hi v : Int} (h : lo ≤ v ∧ v ≤ hi) : clampI lo hi v = v := by
  unfold clampI; omega

theorem sum_blocks (f : Nat → Int) (n k : Nat) :
    (∑ i ∈ Finset.range n, ∑ a ∈ Finset.range k, f (i * k + a)) = ∑ r ∈ Finset.range (n * k), f r := by
  induction n with
  | zero => simp
  | succ n ih =>
    rw [Finset.sum_range_succ, ih, Nat.succ_mul, Finset.sum_range_add]

/-- The sums of equal consecutive blocks of rows add up to the whole sum. -/
theorem total_blocks (x : Img Int) (n k : Nat) (hh : x.h = (n * k : Nat)) :
    (∑ i ∈ Finset.range n, total (sliceBox ((i * k : Nat) : Int) k x.w x)) = total x := by
  unfold total sliceBox
  simp only [Int.toNat_natCast]
  rw [show x.h.toNat = n * k by omega,
    ← sum_blocks (fun r => ∑ j ∈ Finset.range x.w.toNat, x.px (r : Int) (j : Int)) n k]
  push_cast
  rfl

theorem slicesFrom_equal (k : Nat) : ∀ cnt i p : Nat,
    slicesFrom k 0 cnt i p = (List.range cnt).map fun j => (p + j * k, k) := by
  intro cnt
  induction cnt with
  | zero => intro i p; rfl
  | succ cnt ih =>
    intro i p
    show (p, if i < 0 then k + 1 else k) :: slicesFrom k 0 cnt (i + 1) (p + if i < 0 then k + 1 else k) = _
    rw [if_neg (Nat.not_lt_zero _), ih, List.range_succ_eq_map, List.map_cons, List.map_map]
    refine congrArg₂ _ (by simp) ?_
    apply List.map_congr_left
    intro j _
    simp only [Function.comp, Nat.succ_eq_add_one]
    congr 1
    ring

theorem opSplit_equal (n k : Nat) (hn : 1 ≤ n) :
    opSplitSlices (n * k) n = (List.range n).map fun j => (j * k, k) := by
  unfold opSplitSlices
  rw [Nat.mul_div_cancel_left _ (by omega), Nat.mul_mod_right, slicesFrom_equal]
  simp

/-- Without rounding, the mean of the means of equal slices is the mean. -/
theorem C66_real_mean_exact (m : MeanQ) (x : Img Int) (n k : Nat) (hn : 1 ≤ n) (hk : 1 ≤ k) (hh : x.h = (n * k : Nat))
    (hw : 1 ≤ x.w) :
    (∑ i ∈ Finset.range n, realMean m (sliceBox ((i * k : Nat) : Int) k x.w x)) / n = realMean m x := by
  have hn' : (n : ℚ) ≠ 0 := by positivity
  have hk' : (k : ℚ) ≠ 0 := by positivity
  have hw' : (x.w : ℚ) ≠ 0 := by
    have : x.w ≠ 0 := by omega
    exact_mod_cast this
  have ht : (∑ i ∈ Finset.range n, (total (sliceBox ((i * k : Nat) : Int) k x.w x) : ℚ)) = (total x : ℚ) := by
    have := total_blocks x n k hh
    exact_mod_cast this
  unfold realMean
  rw [← Finset.mul_sum, Finset.sum_sub_distrib, Finset.sum_const, Finset.card_range, nsmul_eq_mul]
  simp only [sliceBox] at ht ⊢
  rw [← Finset.sum_div, ht, hh]
  push_cast
  field_simp

/-- **C66.** A mean over `n * k` rows that is split into `n` slices of `k` rows (the slices that splitting makes): if no
slice's mean saturates, the result differs from the original by at most one quantisation step, whatever the rounding to
nearest. -/
theorem C66_mean_split_partial (m : MeanQ) (hr : Nearest m.rnd) (x : Img Int) (n k : Nat) (hn : 1 ≤ n) (hk : 1 ≤ k)
    (hh : x.h = (n * k : Nat)) (hw : 1 ≤ x.w)
    (uns : ∀ bs ∈ opSplitSlices x.h.toNat n, Unsaturated m (sliceRows bs.1 bs.2 x)) :
    ∃ v, splitMean m ((opSplitSlices x.h.toNat n).map fun bs => ((bs.1 : Int), (bs.2 : Int), x.w)) x = some v ∧
      |v - meanOp m x| ≤ 1 := by
  have e0 : x.h.toNat = n * k := by omega
  rw [e0, opSplit_equal n k hn] at uns ⊢
  rw [List.map_map]
  obtain ⟨n', rfl⟩ : ∃ n', n = n' + 1 := ⟨n - 1, by omega⟩
  set sl := (List.range (n' + 1)).map ((fun bs : Nat × Nat => ((bs.1 : Int), (bs.2 : Int), x.w)) ∘ fun j => (j * k, k)) with hsl
  have hcons : ∃ s0 rest, sl = s0 :: rest ∧ ∀ s ∈ rest, s.2 = s0.2 := by
    rw [hsl, List.range_succ_eq_map]
    refine ⟨_, _, List.map_cons, ?_⟩
    intro s hs
    obtain ⟨a, _, rfl⟩ := List.mem_map.1 hs
    rfl
  have hget : ∀ i < n' + 1, sl.getD i (0, 0, 0) = (((i * k : Nat) : Int), (k : Int), x.w) := by
    intro i hi
    rw [hsl, List.getD_eq_getElem?_getD, List.getElem?_map, List.getElem?_range hi]
    rfl
  have hlen : sl.length = n' + 1 := by rw [hsl]; simp
  obtain ⟨s0, rest, hcs, hrest⟩ := hcons
  have hall : (rest.all fun s => s.2 == s0.2) = true := by
    rw [List.all_eq_true]
    intro s hs
    rw [hrest s hs]; simp
  have hsome : splitMean m sl x = some (meanOp m.second ⟨sl.length, 1, fun i _ =>
        let s := sl.getD i.toNat (0, 0, 0)
        meanOp m (sliceBox s.1 s.2.1 s.2.2 x)⟩) := by
    rw [hcs]
    unfold splitMean
    dsimp only
    rw [if_pos hall]
  refine ⟨_, hsome, ?_⟩
  -- the parts
  set q : Nat → ℚ := fun i => realMean m (sliceBox ((i * k : Nat) : Int) k x.w x) with hq
  have hpart : ∀ i < n' + 1, meanOp m (sliceBox ((i * k : Nat) : Int) k x.w x) = m.rnd (q i) + m.zo := by
    intro i hi
    have := uns (i * k, k) (List.mem_map.2 ⟨i, List.mem_range.2 hi, rfl⟩)
    exact clampI_id this
  set Y : Img Int := ⟨sl.length, 1, fun i _ =>
        let s := sl.getD i.toNat (0, 0, 0)
        meanOp m (sliceBox s.1 s.2.1 s.2.2 x)⟩ with hY
  have hpos : (0 : ℚ) < ((n' + 1 : Nat) : ℚ) := by positivity
  have htot : (total Y : ℚ) = (∑ i ∈ Finset.range (n' + 1), ((m.rnd (q i) : Int) : ℚ)) + ((n' + 1 : Nat) : ℚ) * m.zo := by
    have h1 : total Y = ∑ i ∈ Finset.range (n' + 1), (m.rnd (q i) + m.zo) := by
      unfold total
      rw [hY]
      simp only [hlen, Int.toNat_natCast]
      apply Finset.sum_congr rfl
      intro i hi
      rw [Finset.mem_range] at hi
      rw [show (1 : Int).toNat = 1 from rfl, Finset.sum_range_one, hget i hi]
      exact hpart i hi
    rw [h1]
    push_cast
    rw [Finset.sum_add_distrib, Finset.sum_const, Finset.card_range, nsmul_eq_mul]
    push_cast
    ring
  have hsec : realMean m.second Y = (∑ i ∈ Finset.range (n' + 1), ((m.rnd (q i) : Int) : ℚ)) / ((n' + 1 : Nat) : ℚ) := by
    unfold realMean
    rw [htot]
    have hYh : (Y.h : ℚ) = ((n' + 1 : Nat) : ℚ) := by rw [hY]; simp [hlen]
    have hYw : (Y.w : ℚ) = 1 := by rw [hY]; simp
    rw [hYh, hYw]
    have : m.second.s = 1 := rfl
    have : m.second.zi = m.zo := rfl
    have hne := ne_of_gt hpos
    simp only [*]
    field_simp
    ring
  have hex := C66_real_mean_exact m x (n' + 1) k hn hk hh hw
  have hdist : |realMean m.second Y - realMean m x| ≤ 1 / 2 := by
    rw [hsec, ← hex, ← sub_div, ← Finset.sum_sub_distrib, abs_div, abs_of_pos hpos, div_le_iff₀ hpos]
    refine le_trans (Finset.abs_sum_le_sum_abs _ _) ?_
    refine le_trans (Finset.sum_le_sum (g := fun _ => (1 / 2 : ℚ)) fun i _ => hr (q i)) ?_
    rw [Finset.sum_const, Finset.card_range, nsmul_eq_mul, mul_comm]
  have ha := hr (realMean m.second Y)
  have hb := hr (realMean m x)
  have hlt : |((m.rnd (realMean m.second Y) - m.rnd (realMean m x) : Int) : ℚ)| < 2 := by
    push_cast
    rw [abs_le] at ha hb hdist
    rw [abs_lt]
    constructor <;> linarith [ha.1, ha.2, hb.1, hb.2, hdist.1, hdist.2]
  have hint : |m.rnd (realMean m.second Y) - m.rnd (realMean m x)| < 2 := by exact_mod_cast hlt
  refine le_trans (clampI_lip _ _ _ _) ?_
  have e1 : m.second.rnd (realMean m.second Y) + m.second.zo - (m.rnd (realMean m x) + m.zo) =
      m.rnd (realMean m.second Y) - m.rnd (realMean m x) := by
    show m.rnd (realMean m.second Y) + m.zo - (m.rnd (realMean m x) + m.zo) = _
    ring
  rw [e1]
  omega

/-- Round half up. -/
def roundHalfUp (q : ℚ) : Int := (q + 1 / 2).floor

theorem roundHalfUp_nearest : Nearest roundHalfUp := by
  intro q
  unfold roundHalfUp
  have h1 := Rat.floor_le (q + 1 / 2)
  have h2 := Rat.lt_floor_add_one (q + 1 / 2)
  push_cast at h2
  rw [abs_le]
  constructor <;> linarith

/-- 8-bit mean whose output scale is that of the input. -/
def exampleMean (s : ℚ) : MeanQ := ⟨roundHalfUp, s, 0, 0, -128, 127⟩

/-- Non-vacuity of `C66_mean_split_partial`, and exactness refuted: rows 0, 1 | 0, 1 | 0, 0.  The halves' means are 1/2 and 1/2 and
0, which round to 1, 1 and 0; their mean rounds to 1, the true mean 1/3 to 0. -/
theorem C66_exact_refuted :
    let x : Img Int := ⟨6, 1, fun i _ => if i = 1 ∨ i = 3 then 1 else 0⟩
    (∀ bs ∈ opSplitSlices 6 3, Unsaturated (exampleMean 1) (sliceRows bs.1 bs.2 x)) ∧
    splitMean (exampleMean 1) [(0, 2, 1), (2, 2, 1), (4, 2, 1)] x = some 1 ∧ meanOp (exampleMean 1) x = 0 := by
  intro x
  refine ⟨?_, by decide +kernel, by decide +kernel⟩
  rw [show opSplitSlices 6 3 = [(0, 2), (2, 2), (4, 2)] by decide]
  intro bs hbs
  simp only [List.mem_cons, List.not_mem_nil, or_false] at hbs
  rcases hbs with rfl | rfl | rfl <;> (unfold Unsaturated; decide +kernel)

/-- **C66 refuted when a slice's mean saturates**: with 5 output steps to 2 input steps, rows 100, 100 | -40, -40 have mean 30
(75 output steps); the halves' means are 250 and -100 output steps, of which the first saturates at 127, and the result is 14. -/
theorem C66_saturation_refuted :
    let x : Img Int := ⟨4, 1, fun i _ => if i < 2 then 100 else -40⟩
    meanOp (exampleMean (5 / 2)) x = 75 ∧
    splitMean (exampleMean (5 / 2)) [(0, 2, 1), (2, 2, 1)] x = some 14 := by
  decide +kernel

/-- **C66 refuted for incomplete placeholders**: nothing makes the rewrite wait until all slices are recorded (lines 345-361 do
not consult the number of splits); when it sees only the first half, the result is the first half's mean. -/
theorem C66_early_refuted :
    let x : Img Int := ⟨4, 1, fun i _ => if i < 2 then 100 else 0⟩
    meanOp (exampleMean 1) x = 50 ∧ splitMean (exampleMean 1) [(0, 2, 1)] x = some 100 := by
  decide +kernel

/-- **C66 refuted for operands of another size**: the slices are those of the tensor that the mean is combined with, not of the
mean's input; with 4 rows combined with the mean of 8 rows, half of the rows are ignored. -/
theorem C66_other_size_refuted :
    let x : Img Int := ⟨8, 1, fun i _ => if i < 4 then 100 else 0⟩
    opSplitSlices 4 2 = [(0, 2), (2, 2)] ∧
    meanOp (exampleMean 1) x = 50 ∧ splitMean (exampleMean 1) [(0, 2, 1), (2, 2, 1)] x = some 100 := by
  decide +kernel

/-- Heights that the number of splits does not divide: the rewrite never applies. -/
theorem C66_uneven_not_rewritten (m : MeanQ) (x : Img Int) (H n : Nat) (w : Int) (hn : 1 ≤ n) (hnd : ¬ n ∣ H) :
    splitMean m ((opSplitSlices H n).map fun bs => ((bs.1 : Int), (bs.2 : Int), w)) x = none := by
  have hr : 0 < H % n := Nat.pos_of_ne_zero fun h => hnd (Nat.dvd_of_mod_eq_zero h)
  have hlt : H % n < n := Nat.mod_lt _ (by omega)
  have key : ∀ q R cnt i p : Nat, i ≤ R → R < i + cnt → ∃ bn ∈ slicesFrom q R cnt i p, bn.2 = q := by
    intro q R cnt
    induction cnt with
    | zero => intro i p h1 h2; omega
    | succ cnt ih =>
      intro i p h1 h2
      by_cases hi : i < R
      · obtain ⟨bn, g1, g2⟩ := ih (i + 1) (p + if i < R then q + 1 else q) (by omega) (by omega)
        exact ⟨bn, List.mem_cons_of_mem _ g1, g2⟩
      · exact ⟨_, List.mem_cons_self, if_neg hi⟩
  obtain ⟨bn, hbn, hq⟩ := key (H / n) (H % n) n 0 0 (Nat.zero_le _) (by omega)
  obtain ⟨c, rfl⟩ : ∃ c, n = c + 1 := ⟨n - 1, by omega⟩
  unfold opSplitSlices
  have hhead : slicesFrom (H / (c + 1)) (H % (c + 1)) (c + 1) 0 0 =
      (0, H / (c + 1) + 1) :: slicesFrom (H / (c + 1)) (H % (c + 1)) c 1 (0 + (H / (c + 1) + 1)) := by
    show (0, if 0 < H % (c + 1) then _ else _) :: slicesFrom _ _ c (0 + 1) (0 + if 0 < H % (c + 1) then _ else _) = _
    rw [if_pos hr]
  rw [hhead] at hbn ⊢
  have hmem : bn ∈ slicesFrom (H / (c + 1)) (H % (c + 1)) c 1 (0 + (H / (c + 1) + 1)) := by
    rcases List.mem_cons.1 hbn with h | h
    · rw [h] at hq; simp at hq
    · exact h
  rw [List.map_cons]
  unfold splitMean
  dsimp only
  rw [if_neg]
  intro hall
  rw [List.all_eq_true] at hall
  have := hall _ (List.mem_map_of_mem hmem)
  simp only [beq_iff_eq, Prod.mk.injEq] at this
  omega

end Verif.OpSplit
