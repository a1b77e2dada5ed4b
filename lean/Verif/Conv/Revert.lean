import Verif.Conv.Transpose
import Verif.Conv.BConv
import Verif.TFL.Props
/-!
* C54, SAME: a SAME binarised convolution with pad value one becomes a pad and a VALID one (TFLPatterns.td 155–173).
* C61: convolutions that are not replaced are turned back (ConvPatterns.td 33–50, ConvRevertPatterns.td).
-/
namespace Verif.Conv
open Verif.Tensor Verif.Image Verif.Quant

/-! ### Binarised convolutions with SAME padding -/

/-- Channel `c` of a pixel of packed 32-bit words (bit set: -1). -/
def unpack (p : Nat → BitVec 32) (c : Nat) : Bool := (p (c / 32)).getLsbD (c % 32)

def mapImg {α β : Type} (f : α → β) (x : Img α) : Img β := ⟨x.h, x.w, fun i j => f (x.px i j)⟩

/-- **C54, SAME.** Larq's "same one" padding lets positions outside the input count as +1 in every channel.  The pad that
the compiler inserts pads the packed tensor with zero words; the VALID operator on it gives the result of the SAME operator,
for every function of the window's bits. -/
theorem C54_same_one (g : Win) (ok : g.OK) {β : Type} (F : (Int → Int → Nat → Bool) → β) (x : Img (Nat → BitVec 32))
    (hh : 1 ≤ x.h) (hw : 1 ≤ x.w) (n c o ci : Int) :
    let r := TFL.getConvPaddingValues [n, x.h, x.w, c] [o, g.kh, g.kw, ci] g.dh g.dw g.sh g.sw
    let padded := pad (fun _ => 0#32) (r.1.getD 2 0) (r.1.getD 3 0) (r.1.getD 4 0) (r.1.getD 5 0) x
    r.2 = [n, padded.h, padded.w, c] ∧
    (convSame g (fun _ => false) F (mapImg unpack x)).Same (convValid g F (mapImg unpack padded)) := by
  intro r padded
  obtain ⟨_, _, _, _, _, _, h7, h8⟩ :=
    TFL.C34_same_padding_explicit g ok (fun _ => 0#32) (fun u => F fun a b => unpack (u a b)) x hh hw n c o ci
  refine ⟨h7, ?_⟩
  obtain ⟨s1, s2, s3⟩ := h8
  refine ⟨s1, s2, ?_⟩
  intro i j hi hi2 hj hj2
  have := s3 i j hi hi2 hj hj2
  refine Eq.trans ?_ this
  show F _ = F _
  congr 1
  funext a b
  unfold Img.at mapImg
  dsimp only
  split
  · rfl
  · funext c
    simp [unpack]

/-! ### Turning back -/

/-- `XC_FakeConv2D` as created for a TensorFlow Lite convolution or for one phase of a transposed one.  `partialOut` is the
operator whose result is updated. -/
structure FakeX where
  op : ConvOp
  act : Act
  partialOut : Option Nat
  subH : Nat
  subW : Nat
  strideH : Nat
  strideW : Nat
  offset : Int
  deriving DecidableEq

/-- ConvPatterns.td 33–50 (attributes only; the conditions are `fakeApplies`). -/
def toFakeX (op : ConvOp) (act : Act) : FakeX :=
  { op := op, act := act, partialOut := none, subH := 0, subW := 0, strideH := 1, strideW := 1, offset := 0 }

/-- ConvRevertPatterns.td 10–19. -/
def revert (f : FakeX) : ConvOp × Act := (f.op, f.act)

/-- ReplaceTransposeConv.cpp 204–226: the operators made for a transposed convolution: dilation and stride 1, padding and
activation of the original. -/
def phaseOps (i16 : Bool) (inW : Nat) (op : ConvOp) (act : Act) (ps : List ConvParams) : List FakeX :=
  (fakeConvs i16 inW op ps).mapIdx fun i fc =>
    { op := { padding := op.padding, sh := 1, sw := 1, dh := 1, dw := 1, filter := fc.kernel, bias := fc.bias }, act := act
      partialOut := if i = 0 then none else some (i - 1), subH := fc.subH, subW := fc.subW, strideH := fc.strideH
      strideW := fc.strideW, offset := fc.inputOffset }


/-- Output height of a `VALID` convolution. -/
def validOut (n k s d : Nat) : Int := ((n : Int) - eff k d + s) / s

/-- **C61 refuted for transposed convolutions.** If a phase of a transposed convolution is turned back, the output phase,
the strides, the offset and the partial result it was to update are gone: for a 3x4 kernel with strides 2 and 3 on a 2x2
input the last operator of the chain becomes a plain convolution whose result has 4 rows, where 5 are declared; it has no
operand from the phases before it. -/
theorem C61_transposed_refuted :
    let ps := refReorder exTV.filter exTV.sh exTV.sw
    ∃ f ∈ phaseOps false 2 exTV .none ps, f.partialOut = some 4 ∧ f.subH = 1 ∧ f.strideH = 2 ∧
      (revert f).1.sh = 1 ∧ (revert f).1.padding = .valid ∧
      validOut (2 + 2 * vPad ps) (revert f).1.filter.kh (revert f).1.sh (revert f).1.dh = 4 ∧
      (2 - 1) * exTV.sh + exTV.filter.kh = 5 := by
  refine ⟨(phaseOps false 2 exTV .none (refReorder exTV.filter exTV.sh exTV.sw)).getD 5 (toFakeX exTV .none), ?_, ?_, ?_, ?_, ?_, ?_, ?_, ?_⟩ <;> decide

end Verif.Conv
