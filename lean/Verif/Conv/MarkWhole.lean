import Verif.Conv.RevertPass
import Verif.Conv.TransposeCompile
/-! C61: the mark of a convolution stands for the whole convolution. -/
namespace Verif.Conv
open Verif.Tensor Verif.Image Verif.Quant Verif.Conv.Compile

/-- What the kernel with output strides is told (ReplaceConv2D.cpp 64-113, ConvPatternsTFL.cpp 22-60): sub-position, strides and offset. -/
def FakeX.phase (f : FakeX) : FakeConv :=
  { kernel := f.op.filter, bias := f.op.bias, subH := f.subH, subW := f.subW, strideH := f.strideH, strideW := f.strideW, inputOffset := f.offset }

/-- **C61.** A convolution that is marked (ConvPatterns.td 33-50) is one phase that has every output position and takes no earlier result:
the kernel with output strides computes for each of them what the plain kernel computes. -/
theorem C61_mark_whole (lib : Lib) (op : ConvOp) (act : Act) (lo : Lowered) (hdw : lo.mb.dw = false) (hs : lo.sh = 1 ∧ lo.sw = 1) (hd : lo.dh = 1 ∧ lo.dwf = 1)
    (h0 : lo.startRow = 0 ∧ lo.startCol = 0) (mem : List Int) (y x o : Nat) (hy : y + lo.mb.kh ≤ lo.ih) (hx : x + lo.mb.kw ≤ lo.iw) :
    (toFakeX op act).partialOut = none ∧ (y % (toFakeX op act).phase.strideH = (toFakeX op act).phase.subH ∧ x % (toFakeX op act).phase.strideW = (toFakeX op act).phase.subW) ∧
    phaseRun lib lo (toFakeX op act).phase mem (y, x, o) = lo.run lib (unflat [1, lo.ih, lo.iw, lo.ic] mem) [0, y, x, o] := by
  refine ⟨rfl, ⟨Nat.mod_one y, Nat.mod_one x⟩, ?_⟩
  unfold phaseRun Lowered.run applyOT
  have hdot : (lo.mb.dot o fun a b c => mem.getD ((toFakeX op act).phase.inputOffset +
      ((((y / (toFakeX op act).phase.strideH + a) * lo.iw + (x / (toFakeX op act).phase.strideW + b)) * lo.ic + c : Nat) : Int)).toNat 0) =
      lo.mb.dot o fun a b c => lo.patch (unflat [1, lo.ih, lo.iw, lo.ic] mem) 0 y x o a b c := by
    unfold MB.dot
    refine Finset.sum_congr rfl fun a ha => Finset.sum_congr rfl fun b hb => Finset.sum_congr rfl fun c _ => ?_
    have ha := Finset.mem_range.1 ha
    have hb := Finset.mem_range.1 hb
    have r1 : lo.row y a = ((y + a : Nat) : Int) := by
      unfold Lowered.row
      rw [hs.1, h0.1, hd.1]
      push_cast
      ring
    have r2 : lo.col x b = ((x + b : Nat) : Int) := by
      unfold Lowered.col
      rw [hs.2, h0.2, hd.2]
      push_cast
      ring
    congr 1
    unfold Lowered.patch
    beta_reduce
    rw [r1, r2, if_pos ⟨⟨by omega, by omega⟩, by omega, by omega⟩, hdw, if_neg (by simp), Int.toNat_natCast, Int.toNat_natCast]
    unfold unflat
    rw [ravel4]
    show mem.getD ((0 : Int) + ((((y / 1 + a) * lo.iw + (x / 1 + b)) * lo.ic + c : Nat) : Int)).toNat 0 = _
    rw [Int.zero_add, Int.toNat_natCast, Nat.div_one, Nat.div_one, Nat.zero_mul, Nat.zero_add]
  dsimp only
  rw [hdot]
  rfl

/-- A convolution that meets the hypotheses. -/
example : (lower defaultCfg exactLib (view exGeo8 exConv16 .none)).map (fun lo => decide (lo.mb.dw = false ∧ (lo.sh = 1 ∧ lo.sw = 1) ∧ (lo.dh = 1 ∧ lo.dwf = 1) ∧
    (lo.startRow = 0 ∧ lo.startCol = 0) ∧ 1 + lo.mb.kh ≤ lo.ih ∧ 1 + lo.mb.kw ≤ lo.iw)) = some true := by decide +kernel

end Verif.Conv
