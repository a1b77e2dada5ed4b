import Verif.OpSplit.Props
import Mathlib.Logic.Relation
/-!
The rewrites of xformer/Transforms/OpSplit.cpp as a relation on graphs, applied anywhere and in any order.

The pass runs MLIR's greedy driver on two pattern sets (lines 866-910); which pattern fires where and when is decided by
labels (lines 49-89, 826-862) and by the driver's work list.  Both are replaced by non-determinism here: every step that some
label assignment and work list could take is a `Step`, so whatever holds for all sequences of `Step`s holds for the pass.
A graph is written as an expression; sharing does not change values.
-/
namespace Verif.OpSplit
open Verif.Image

/-- Expressions over images.  `input` is anything the pass does not look into (function arguments, constants, results of other
operators); `un` is an operator that the pass only passes placeholders through (`TFL::FullyConnectedOp`, `TFL::LogisticOp`,
lines 902-903); `fake` is the placeholder `FakeSliceOp` (XCoreOps.td 99-106), whose value is its operand; `nil` and `cat` are the
concatenation along the height (lines 253-257).  `pixel` values stand for all channels of a position, batch 1. -/
inductive Expr (α : Type) where
  | input (x : Img α)
  | conv (p : Padding) (z : α) (g : Win) (F : (Int → Int → α) → α) (e : Expr α)
  | pad (z : α) (t b l r : Int) (e : Expr α)
  | bin (f : α → α → α) (h w : Int) (a b : Expr α)
  | un (U : Img α → Img α) (e : Expr α)
  | slice (b n : Int) (e : Expr α)
  | fake (e : Expr α)
  | nil (w : Int)
  | cat (a b : Expr α)

variable {α : Type} [Inhabited α]

/-- Value of an expression, by the reference semantics of Verif/Image/Basic.lean. -/
def Expr.eval : Expr α → Img α
  | .input x => x
  | .conv .valid _ g F e => convValid g F e.eval
  | .conv .same z g F e => convSame g z F e.eval
  | .pad z t b l r e => Image.pad z t b l r e.eval
  | .bin f h w a b => ewise f h w a.eval b.eval
  | .un U e => U e.eval
  | .slice b n e => sliceRows b n e.eval
  | .fake e => e.eval
  | .nil w => ⟨0, w, fun _ _ => default⟩
  | .cat a b => vcat a.eval b.eval

/-- Operand `x` may be broadcast to `h × w`. -/
def Broadcasts (x : Img α) (h w : Int) : Prop := (x.h = h ∨ x.h = 1) ∧ (x.w = w ∨ x.w = 1)

/-- Well-formed graphs: what the TFLite verifier demands of a model (slices inside their input and not empty, operands that
broadcast, equal widths in a concatenation), plus: kernels look at nothing but their window, operators nothing but their
operand's elements. -/
def Expr.WF : Expr α → Prop
  | .input _ => True
  | .conv p _ g F e => e.WF ∧ g.OK ∧ WindowFn g F ∧ (p = .same → 1 ≤ e.eval.h ∧ 1 ≤ e.eval.w)
  | .pad _ t b l r e => e.WF ∧ 0 ≤ t ∧ 0 ≤ b ∧ 0 ≤ l ∧ 0 ≤ r
  | .bin _ h w a b => a.WF ∧ b.WF ∧ Broadcasts a.eval h w ∧ Broadcasts b.eval h w
  | .un U e => e.WF ∧ ∀ x y : Img α, x.Same y → (U x).Same (U y)
  | .slice b n e => e.WF ∧ SliceOK b n e.eval ∧ 1 ≤ n
  | .fake e => e.WF
  | .nil _ => True
  | .cat a b => a.WF ∧ b.WF ∧ a.eval.w = b.eval.w ∧ 0 ≤ a.eval.h

/-- `OpSplitPattern` (lines 182-263): slices of the operator below a concatenation along the height. -/
def splitExpr (n : Nat) (e : Expr α) : Expr α :=
  ((opSplitSlices e.eval.h.toNat n).map fun bs => Expr.slice bs.1 bs.2 e).foldr .cat (.nil e.eval.w)

/-- `RaiseSlicePattern` (lines 508-690): slice, pad unless `VALID`, operator without padding. -/
def raiseConvExpr (p : Padding) (z : α) (g : Win) (F : (Int → Int → α) → α) (b n : Int) (e : Expr α) : Expr α :=
  let r := raiseSliceConv e.eval.h e.eval.w g (Expr.conv p z g F e).eval.h p b n
  match p with
  | .valid => .conv .valid z g F (.slice r.begin_ r.size e)
  | .same => .conv .valid z g F (.pad z r.padTop r.padBottom r.padLeft r.padRight (.slice r.begin_ r.size e))

/-- `RaiseSlicePadPattern` (lines 692-824). -/
def raisePadExpr (z : α) (t bo l rr b n : Int) (e : Expr α) : Expr α :=
  let r := raiseSlicePad e.eval.h e.eval.w (Expr.pad z t bo l rr e).eval.h (Expr.pad z t bo l rr e).eval.w b n
  .pad z r.padTop r.padBottom r.padLeft r.padRight (.slice r.begin_ r.size e)

/-- Operand of a raised binary operator (`getSliceOp`, lines 440-489): sliced if it has the result's shape, behind a placeholder
otherwise. -/
def raiseOperandExpr (h w b n : Int) (e : Expr α) : Expr α :=
  if e.eval.h = h ∧ e.eval.w = w then .slice b n e else .fake e

/-- `RaiseSliceBinaryPattern` (lines 406-500). -/
def raiseBinExpr (f : α → α → α) (h w b n : Int) (x y : Expr α) : Expr α :=
  .bin f n w (raiseOperandExpr h w b n x) (raiseOperandExpr h w b n y)

/-- One rewrite, at the top of a graph (`split` … `fakeConst`) or below any operator (`inConv` … `inCatR`).

Conditions on the steps: `split` makes no more parts than there are rows; the raised operator is not dilated (lines 549-560 do
not read the dilation: `C10_dilation_refuted`); the slice made above it lies inside its input (line 605-631 do not check:
`C11_thin_slice_refuted`); the pad is the halves that line 737-740 recompute (`C11_asymmetric_pad_refuted`); an operand that is
not sliced has height 1 (`C12_width_broadcast_refuted`). -/
inductive Step : Expr α → Expr α → Prop
  | split (n : Nat) (e : Expr α) (hn : 1 ≤ n) (hle : (n : Int) ≤ e.eval.h) : Step e (splitExpr n e)
  | combine (b n c m : Int) (e : Expr α) (hc : SliceOK c m e.eval) (hm : 1 ≤ m) (h1 : c ≤ b) (h2 : b + n ≤ c + m) :
      Step (.slice b n e) (.slice (b - c) n (.slice c m e))
  | raiseConv (p : Padding) (z : α) (g : Win) (F : (Int → Int → α) → α) (b n : Int) (e : Expr α) (hd : g.dh = 1) (hdw : g.dw = 1)
      (hin : SliceOK (raiseSliceConv e.eval.h e.eval.w g (Expr.conv p z g F e).eval.h p b n).begin_
        (raiseSliceConv e.eval.h e.eval.w g (Expr.conv p z g F e).eval.h p b n).size e.eval)
      (hne : 1 ≤ (raiseSliceConv e.eval.h e.eval.w g (Expr.conv p z g F e).eval.h p b n).size) :
      Step (.slice b n (.conv p z g F e)) (raiseConvExpr p z g F b n e)
  | raisePad (z : α) (t bo l rr b n : Int) (e : Expr α) (hbo : t ≤ bo ∧ bo ≤ t + 1) (hlr : l ≤ rr ∧ rr ≤ l + 1)
      (hin : SliceOK (raiseSlicePad e.eval.h e.eval.w (e.eval.h + t + bo) (e.eval.w + l + rr) b n).begin_
        (raiseSlicePad e.eval.h e.eval.w (e.eval.h + t + bo) (e.eval.w + l + rr) b n).size e.eval)
      (hne : 1 ≤ (raiseSlicePad e.eval.h e.eval.w (e.eval.h + t + bo) (e.eval.w + l + rr) b n).size) :
      Step (.slice b n (.pad z t bo l rr e)) (raisePadExpr z t bo l rr b n e)
  | raiseBin (f : α → α → α) (h w b n : Int) (x y : Expr α)
      (hx : (x.eval.h = h ∧ x.eval.w = w) ∨ x.eval.h = 1) (hy : (y.eval.h = h ∧ y.eval.w = w) ∨ y.eval.h = 1) :
      Step (.slice b n (.bin f h w x y)) (raiseBinExpr f h w b n x y)
  | raiseFake (U : Img α → Img α) (e : Expr α) : Step (.fake (.un U e)) (.un U (.fake e))
  | fakeConst (e : Expr α) : Step (.fake e) e
  | inConv {p z g F} {e e' : Expr α} : Step e e' → Step (.conv p z g F e) (.conv p z g F e')
  | inPad {z t b l r} {e e' : Expr α} : Step e e' → Step (.pad z t b l r e) (.pad z t b l r e')
  | inBinL {f h w} {e e' b : Expr α} : Step e e' → Step (.bin f h w e b) (.bin f h w e' b)
  | inBinR {f h w} {a e e' : Expr α} : Step e e' → Step (.bin f h w a e) (.bin f h w a e')
  | inUn {U} {e e' : Expr α} : Step e e' → Step (.un U e) (.un U e')
  | inSlice {b n} {e e' : Expr α} : Step e e' → Step (.slice b n e) (.slice b n e')
  | inFake {e e' : Expr α} : Step e e' → Step (.fake e) (.fake e')
  | inCatL {e e' b : Expr α} : Step e e' → Step (.cat e b) (.cat e' b)
  | inCatR {a e e' : Expr α} : Step e e' → Step (.cat a e) (.cat a e')

/-! ### Equal operands give equal results -/

omit [Inhabited α] in
theorem at_congr {z : α} {x y : Img α} (h : x.Same y) (i j : Int) : x.at z i j = y.at z i j := by
  apply Img.at_eq
  · rw [h.1, h.2.1]
  · intro hc; exact h.2.2 i j hc.1 hc.2.1 hc.2.2.1 hc.2.2.2

omit [Inhabited α] in
theorem pad_congr {z : α} {t b l r : Int} {x y : Img α} (h : x.Same y) :
    (Image.pad z t b l r x).Same (Image.pad z t b l r y) := by
  refine ⟨?_, ?_, fun i j _ _ _ _ => at_congr h _ _⟩
  · simp [Image.pad, h.1]
  · simp [Image.pad, h.2.1]

omit [Inhabited α] in
theorem convSame_congr {g : Win} {z : α} {F : (Int → Int → α) → α} {x y : Img α} (h : x.Same y) :
    (convSame g z F x).Same (convSame g z F y) := by
  refine ⟨?_, ?_, fun i j _ _ _ _ => ?_⟩
  · simp [convSame, h.1]
  · simp [convSame, h.2.1]
  · simp only [convSame, h.1, h.2.1]
    congr 1
    funext a b
    exact at_congr h _ _

omit [Inhabited α] in
theorem sliceRows_congr {b n : Int} {x y : Img α} (h : x.Same y) (hs : SliceOK b n x) :
    (sliceRows b n x).Same (sliceRows b n y) := by
  obtain ⟨h1, h2, h3⟩ := hs
  refine ⟨rfl, h.2.1, fun i j hi hi2 hj hj2 => ?_⟩
  simp only [sliceRows] at hi2 hj2 ⊢
  exact h.2.2 _ _ (by omega) (by omega) hj hj2

omit [Inhabited α] in
theorem bcast_congr {h w : Int} {x y : Img α} (e : x.Same y) (hb : Broadcasts x h w) {i j : Int}
    (hi : 0 ≤ i) (hi2 : i < h) (hj : 0 ≤ j) (hj2 : j < w) : (bcast h w x).px i j = (bcast h w y).px i j := by
  simp only [bcast, ← e.1, ← e.2.1]
  obtain ⟨h1, h2⟩ := hb
  apply e.2.2
  · split <;> omega
  · split <;> omega
  · split <;> omega
  · split <;> omega

omit [Inhabited α] in
theorem ewise_congr {f : α → α → α} {h w : Int} {a a' b b' : Img α} (ha : a.Same a') (hb : b.Same b')
    (wa : Broadcasts a h w) (wb : Broadcasts b h w) : (ewise f h w a b).Same (ewise f h w a' b') := by
  refine ⟨rfl, rfl, fun i j hi hi2 hj hj2 => ?_⟩
  simp only [ewise] at hi2 hj2 ⊢
  rw [bcast_congr ha wa hi hi2 hj hj2, bcast_congr hb wb hi hi2 hj hj2]

omit [Inhabited α] in
theorem vcat_congr {a a' b b' : Img α} (ha : a.Same a') (hb : b.Same b') (hw : a.w = b.w) :
    (vcat a b).Same (vcat a' b') := by
  refine ⟨?_, ha.2.1, fun i j hi hi2 hj hj2 => ?_⟩
  · simp [vcat, ha.1, hb.1]
  · simp only [vcat] at hi2 hj2 ⊢
    rw [← ha.1]
    by_cases hc : i < a.h
    · rw [if_pos hc, if_pos hc]; exact ha.2.2 i j hi hc hj hj2
    · rw [if_neg hc, if_neg hc]; exact hb.2.2 _ _ (by omega) (by omega) hj (by omega)

omit [Inhabited α] in
theorem Broadcasts.same {x y : Img α} {h w : Int} (e : x.Same y) (hb : Broadcasts x h w) : Broadcasts y h w := by
  unfold Broadcasts at *
  rw [← e.1, ← e.2.1]; exact hb

omit [Inhabited α] in
theorem SliceOK.same {x y : Img α} {b n : Int} (e : x.Same y) (h : SliceOK b n x) : SliceOK b n y := by
  unfold SliceOK at *
  rw [← e.1]; exact h

/-! ### The split -/

theorem foldr_cat (w : Int) (es : List (Expr α)) :
    (es.foldr Expr.cat (.nil w)).eval = concatRows w (es.map Expr.eval) := by
  induction es with
  | nil => rfl
  | cons e es ih =>
    show vcat e.eval (es.foldr Expr.cat (.nil w)).eval = _
    rw [ih]; rfl

theorem foldr_cat_wf (w : Int) (es : List (Expr α)) (h : ∀ e ∈ es, e.WF ∧ e.eval.w = w ∧ 0 ≤ e.eval.h) :
    (es.foldr Expr.cat (.nil w)).WF ∧ (es.foldr Expr.cat (.nil w)).eval.w = w := by
  induction es with
  | nil => exact ⟨trivial, rfl⟩
  | cons e es ih =>
    obtain ⟨i1, i2⟩ := ih fun e' he' => h e' (List.mem_cons_of_mem _ he')
    obtain ⟨h1, h2, h3⟩ := h e List.mem_cons_self
    exact ⟨⟨h1, i1, by rw [h2]; exact i2.symm, h3⟩, h2⟩

theorem split_step (n : Nat) (e : Expr α) (hn : 1 ≤ n) (hle : (n : Int) ≤ e.eval.h) (wf : e.WF) :
    (splitExpr n e).WF ∧ (splitExpr n e).eval.Same e.eval := by
  have hc := opSplit_chain e.eval.h.toNat n hn
  obtain ⟨_, _, _, hpos, hsame⟩ := C09_split_is_partition e.eval n hn (by omega)
  constructor
  · apply (foldr_cat_wf _ _ ?_).1
    intro s hs
    obtain ⟨bs, hbs, rfl⟩ := List.mem_map.1 hs
    have h1 := hpos (by omega) bs hbs
    have h2 := (chain_mem hc bs hbs).2
    refine ⟨⟨wf, ?_, by omega⟩, rfl, ?_⟩
    · unfold SliceOK; omega
    · show (0 : Int) ≤ bs.2; omega
  · unfold splitExpr
    rw [foldr_cat, List.map_map]
    exact hsame

/-! ### Raising -/

theorem clear_of_inside (g : Win) (F : (Int → Int → α) → α) (z : α) (x : Img α) (b n : Int)
    (h : SliceOK (raiseSliceConv x.h x.w g (convSame g z F x).h .same b n).begin_
      (raiseSliceConv x.h x.w g (convSame g z F x).h .same b n).size x) : Clear x.h g (convSame g z F x).h b n := by
  by_contra hc
  exact C11_clear_is_necessary z g F x b n hc h

omit [Inhabited α] in
theorem pad_nothing (z : α) (x : Img α) : (Image.pad z 0 0 0 0 x).Same x := by
  refine ⟨by simp [Image.pad], by simp [Image.pad], fun i j hi hi2 hj hj2 => ?_⟩
  simp only [Image.pad, add_zero, sub_zero] at hi2 hj2 ⊢
  exact Img.at_pos _ _ ⟨hi, hi2, hj, hj2⟩

omit [Inhabited α] in
theorem raise_pads_nonneg (g : Win) (ok : g.OK) (ih iw oh b n : Int) (h1 : 1 ≤ ih) (h2 : 1 ≤ iw) :
    let r := raiseSliceConv ih iw g oh .same b n
    0 ≤ r.padTop ∧ 0 ≤ r.padBottom ∧ 0 ≤ r.padLeft ∧ 0 ≤ r.padRight := by
  intro r
  obtain ⟨_, _, _, f4, f5, _⟩ := samePad_facts (d := 1) h1 ok.kh ok.sh (le_refl _)
  obtain ⟨_, _, _, w4, w5, _⟩ := samePad_facts (d := 1) h2 ok.kw ok.sw (le_refl _)
  have f5' : 0 ≤ sameAfter ih g.kh g.sh 1 := le_trans f4 f5
  have w5' : 0 ≤ sameAfter iw g.kw g.sw 1 := le_trans w4 w5
  simp only [r, raiseSliceConv]
  split
  · exact ⟨f4, le_refl _, w4, w5'⟩
  · split
    · exact ⟨le_refl _, f5', w4, w5'⟩
    · exact ⟨le_refl _, le_refl _, w4, w5'⟩

theorem raiseConv_step (p : Padding) (z : α) (g : Win) (F : (Int → Int → α) → α) (b n : Int) (e : Expr α)
    (hd : g.dh = 1) (hdw : g.dw = 1)
    (hin : SliceOK (raiseSliceConv e.eval.h e.eval.w g (Expr.conv p z g F e).eval.h p b n).begin_
        (raiseSliceConv e.eval.h e.eval.w g (Expr.conv p z g F e).eval.h p b n).size e.eval)
    (hne : 1 ≤ (raiseSliceConv e.eval.h e.eval.w g (Expr.conv p z g F e).eval.h p b n).size)
    (wf : (Expr.slice b n (.conv p z g F e)).WF) :
    (raiseConvExpr p z g F b n e).WF ∧ (raiseConvExpr p z g F b n e).eval.Same (Expr.slice b n (.conv p z g F e)).eval := by
  obtain ⟨⟨we, ok, hF, hs⟩, ⟨hb, _, hbn⟩, hn⟩ := wf
  cases p with
  | valid =>
    have h := C10_raise_slice_valid_partial z g ok hd hdw F hF e.eval b n hb hn hbn
    refine ⟨⟨⟨we, hin, hne⟩, ok, hF, fun h => by cases h⟩, ?_⟩
    refine Img.Same.trans ?_ h.2.1
    have hp : ∀ r : Raised, r = raiseSliceConv e.eval.h e.eval.w g (convValid g F e.eval).h .valid b n →
        (convValid g F (sliceRows r.begin_ r.size e.eval)).Same (raisedConv z g F r e.eval) := by
      intro r hr
      have hz : r.padTop = 0 ∧ r.padBottom = 0 ∧ r.padLeft = 0 ∧ r.padRight = 0 := by
        rw [hr]; exact ⟨rfl, rfl, rfl, rfl⟩
      unfold raisedConv
      rw [hz.1, hz.2.1, hz.2.2.1, hz.2.2.2]
      exact convValid_congr g ok hF (pad_nothing z _).symm
    exact hp _ rfl
  | same =>
    obtain ⟨hxh, hxw⟩ := hs rfl
    have hcl := clear_of_inside g F z e.eval b n hin
    have h := C11_raise_slice_same_partial z g ok hd hdw F hF e.eval hxh hxw b n hb hn hbn hcl
    obtain ⟨q1, q2, q3, q4⟩ := raise_pads_nonneg g ok e.eval.h e.eval.w (convSame g z F e.eval).h b n hxh hxw
    exact ⟨⟨⟨⟨we, hin, hne⟩, q1, q2, q3, q4⟩, ok, hF, fun h => by cases h⟩, h.2.1⟩

theorem raisePad_step (z : α) (t bo l rr b n : Int) (e : Expr α) (hbo : t ≤ bo ∧ bo ≤ t + 1) (hlr : l ≤ rr ∧ rr ≤ l + 1)
    (hin : SliceOK (raiseSlicePad e.eval.h e.eval.w (e.eval.h + t + bo) (e.eval.w + l + rr) b n).begin_
        (raiseSlicePad e.eval.h e.eval.w (e.eval.h + t + bo) (e.eval.w + l + rr) b n).size e.eval)
    (hne : 1 ≤ (raiseSlicePad e.eval.h e.eval.w (e.eval.h + t + bo) (e.eval.w + l + rr) b n).size)
    (wf : (Expr.slice b n (.pad z t bo l rr e)).WF) :
    (raisePadExpr z t bo l rr b n e).WF ∧ (raisePadExpr z t bo l rr b n e).eval.Same (Expr.slice b n (.pad z t bo l rr e)).eval := by
  obtain ⟨⟨we, ht, hb0, hl, hr0⟩, ⟨hb, _, hbn⟩, hn⟩ := wf
  have hbn' : b + n ≤ e.eval.h + t + bo := hbn
  have e1 : (e.eval.h + t + bo - e.eval.h) / 2 = t := by omega
  have e2 : (e.eval.w + l + rr - e.eval.w) / 2 = l := by omega
  have hall : (b ≠ 0 → t ≤ b) ∧ (b = 0 ∨ b + n ≠ e.eval.h + t + bo → b + n ≤ e.eval.h + t) ∧
      ((b = 0 → t ≤ n) ∧ (b ≠ 0 → b + n = e.eval.h + t + bo → bo ≤ n)) ∧
      (let r := raiseSlicePad e.eval.h e.eval.w (e.eval.h + t + bo) (e.eval.w + l + rr) b n
       0 ≤ r.padTop ∧ 0 ≤ r.padBottom ∧ 0 ≤ r.padLeft ∧ 0 ≤ r.padRight) := by
    obtain ⟨o1, o2, o3⟩ := hin
    simp only [raiseSlicePad, e1, e2] at o1 o2 o3 ⊢
    by_cases h0 : b = 0
    · rw [if_pos h0] at o1 o2 o3 ⊢
      dsimp only at o1 o2 o3 ⊢
      refine ⟨by omega, by omega, by omega, by omega, by omega, by omega, by omega⟩
    · rw [if_neg h0] at o1 o2 o3 ⊢
      by_cases h1 : b + n = e.eval.h + t + bo
      · rw [if_pos h1] at o1 o2 o3 ⊢
        dsimp only at o1 o2 o3 ⊢
        refine ⟨by omega, by omega, by omega, by omega, by omega, by omega, by omega⟩
      · rw [if_neg h1] at o1 o2 o3 ⊢
        dsimp only at o1 o2 o3 ⊢
        refine ⟨by omega, by omega, by omega, by omega, by omega, by omega, by omega⟩
  have h := C11_raise_slice_pad_partial z e.eval t bo l rr ht hbo hlr b n (by omega) hbn' hall.1 hall.2.1 hall.2.2.1
  exact ⟨⟨⟨we, hin, hne⟩, hall.2.2.2⟩, h.2⟩

theorem raiseBin_step (f : α → α → α) (h w b n : Int) (x y : Expr α)
    (hx : (x.eval.h = h ∧ x.eval.w = w) ∨ x.eval.h = 1) (hy : (y.eval.h = h ∧ y.eval.w = w) ∨ y.eval.h = 1)
    (wf : (Expr.slice b n (.bin f h w x y)).WF) :
    (raiseBinExpr f h w b n x y).WF ∧ (raiseBinExpr f h w b n x y).eval.Same (Expr.slice b n (.bin f h w x y)).eval := by
  obtain ⟨⟨wx, wy, bx, bY⟩, ⟨hb, _, hbn⟩, hn⟩ := wf
  have hev : ∀ e : Expr α, (raiseOperandExpr h w b n e).eval = raisedOperand h w b n e.eval := by
    intro e
    unfold raiseOperandExpr raisedOperand
    split <;> rfl
  have hwf : ∀ e : Expr α, e.WF → Broadcasts e.eval h w → ((e.eval.h = h ∧ e.eval.w = w) ∨ e.eval.h = 1) →
      (raiseOperandExpr h w b n e).WF ∧ Broadcasts (raiseOperandExpr h w b n e).eval n w := by
    intro e we be he
    unfold raiseOperandExpr
    by_cases hc : e.eval.h = h ∧ e.eval.w = w
    · rw [if_pos hc]
      refine ⟨⟨we, ⟨hb, by omega, ?_⟩, hn⟩, Or.inl rfl, Or.inl hc.2⟩
      rw [hc.1]; exact hbn
    · rw [if_neg hc]
      have h1 : e.eval.h = 1 := by
        rcases he with h | h
        · exact absurd h hc
        · exact h
      exact ⟨we, Or.inr h1, be.2⟩
  refine ⟨⟨(hwf x wx bx hx).1, (hwf y wy bY hy).1, (hwf x wx bx hx).2, (hwf y wy bY hy).2⟩, ?_⟩
  show (ewise f n w (raiseOperandExpr h w b n x).eval (raiseOperandExpr h w b n y).eval).Same _
  rw [hev x, hev y]
  exact C12_raise_slice_binary_partial f h w b n x.eval y.eval hx hy hb hbn

/-! ### Every schedule -/

/-- One rewrite anywhere in a well-formed graph leaves it well-formed and its value unchanged. -/
theorem step_same {e e' : Expr α} (s : Step e e') : e.WF → e'.WF ∧ e'.eval.Same e.eval := by
  induction s with
  | split n e hn hle => exact split_step n e hn hle
  | combine b n c m e hc hm h1 h2 =>
    rintro ⟨we, ⟨hb, hn0, hbn⟩, hn⟩
    refine ⟨⟨⟨we, hc, hm⟩, ?_, hn⟩, rfl, rfl, fun i j _ _ _ _ => ?_⟩
    · unfold SliceOK; simp only [Expr.eval, sliceRows]; omega
    · show e.eval.px (c + (b - c + i)) j = e.eval.px (b + i) j
      congr 1; omega
  | raiseConv p z g F b n e hd hdw hin hne => exact raiseConv_step p z g F b n e hd hdw hin hne
  | raisePad z t bo l rr b n e hbo hlr hin hne => exact raisePad_step z t bo l rr b n e hbo hlr hin hne
  | raiseBin f h w b n x y hx hy => exact raiseBin_step f h w b n x y hx hy
  | raiseFake U e => exact fun wf => ⟨wf, Img.Same.refl _⟩
  | fakeConst e => exact fun wf => ⟨wf, Img.Same.refl _⟩
  | @inConv p z g F e e' _ ih =>
    rintro ⟨we, ok, hF, hs⟩
    obtain ⟨i1, i2⟩ := ih we
    refine ⟨⟨i1, ok, hF, fun hp => ?_⟩, ?_⟩
    · rw [i2.1, i2.2.1]; exact hs hp
    · cases p
      · exact convValid_congr g ok hF i2
      · exact convSame_congr i2
  | inPad _ ih =>
    rintro ⟨we, hr⟩
    obtain ⟨i1, i2⟩ := ih we
    exact ⟨⟨i1, hr⟩, pad_congr i2⟩
  | inBinL _ ih =>
    rintro ⟨wa, wb, ba, bb⟩
    obtain ⟨i1, i2⟩ := ih wa
    exact ⟨⟨i1, wb, ba.same i2.symm, bb⟩, (ewise_congr i2.symm (Img.Same.refl _) ba bb).symm⟩
  | inBinR _ ih =>
    rintro ⟨wa, wb, ba, bb⟩
    obtain ⟨i1, i2⟩ := ih wb
    exact ⟨⟨wa, i1, ba, bb.same i2.symm⟩, (ewise_congr (Img.Same.refl _) i2.symm ba bb).symm⟩
  | inUn _ ih =>
    rintro ⟨we, hU⟩
    obtain ⟨i1, i2⟩ := ih we
    exact ⟨⟨i1, hU⟩, hU _ _ i2⟩
  | inSlice _ ih =>
    rintro ⟨we, hs, hn⟩
    obtain ⟨i1, i2⟩ := ih we
    exact ⟨⟨i1, SliceOK.same i2.symm hs, hn⟩, (sliceRows_congr i2.symm hs).symm⟩
  | inFake _ ih => exact ih
  | inCatL _ ih =>
    rintro ⟨wa, wb, hw, hh⟩
    obtain ⟨i1, i2⟩ := ih wa
    exact ⟨⟨i1, wb, i2.2.1.trans hw, by rw [i2.1]; exact hh⟩, (vcat_congr i2.symm (Img.Same.refl _) hw).symm⟩
  | inCatR _ ih =>
    rintro ⟨wa, wb, hw, hh⟩
    obtain ⟨i1, i2⟩ := ih wb
    exact ⟨⟨wa, i1, hw.trans i2.2.1.symm, hh⟩, (vcat_congr (Img.Same.refl _) i2.symm hw).symm⟩

/-- **C65.** Whatever sequence of splits, slice merges, raises and placeholder moves is applied, at whatever places and in
whatever order, the graph that results is well-formed (in particular every slice lies inside its input) and computes the tensor
that the original graph computes. -/
theorem C65_any_schedule {e e' : Expr α} (s : Relation.ReflTransGen Step e e') (wf : e.WF) :
    e'.WF ∧ e'.eval.Same e.eval := by
  induction s with
  | refl => exact ⟨wf, Img.Same.refl _⟩
  | tail _ hs ih =>
    obtain ⟨h1, h2⟩ := step_same hs ih.1
    exact ⟨h1, h2.trans ih.2⟩

/-! ### The schedule that the pass aims for exists -/

/-- A chain of unpadded, undilated convolutions, the last operator first. -/
def chain (z : α) : List (Win × ((Int → Int → α) → α)) → Expr α → Expr α
  | [], e => e
  | l :: ls, e => .conv .valid z l.1 l.2 (chain z ls e)

theorem rtc_lift {C : Expr α → Expr α} (hC : ∀ a b, Step a b → Step (C a) (C b)) {a b : Expr α}
    (h : Relation.ReflTransGen Step a b) : Relation.ReflTransGen Step (C a) (C b) :=
  h.lift C (fun a b => hC a b)

theorem chain_raise (z : α) (ls : List (Win × ((Int → Int → α) → α)))
    (ok : ∀ l ∈ ls, l.1.OK ∧ l.1.dh = 1 ∧ l.1.dw = 1 ∧ WindowFn l.1 l.2) (e : Expr α) :
    ∀ b n : Int, 0 ≤ b → 1 ≤ n → b + n ≤ (chain z ls e).eval.h →
      ∃ b' n', SliceOK b' n' e.eval ∧ 1 ≤ n' ∧
        Relation.ReflTransGen Step (.slice b n (chain z ls e)) (chain z ls (.slice b' n' e)) := by
  induction ls with
  | nil => intro b n hb hn hbn; exact ⟨b, n, ⟨hb, by omega, hbn⟩, hn, .refl⟩
  | cons l ls ih =>
    intro b n hb hn hbn
    obtain ⟨o1, o2, o3, o4⟩ := ok l List.mem_cons_self
    have hc := C10_raise_slice_valid_partial z l.1 o1 o2 o3 l.2 o4 (chain z ls e).eval b n hb hn hbn
    obtain ⟨hin, _, hht, _⟩ := hc
    have hsz : 1 ≤ (raiseSliceConv (chain z ls e).eval.h (chain z ls e).eval.w l.1
        (convValid l.1 l.2 (chain z ls e).eval).h .valid b n).size := by
      simp only [raiseSliceConv]
      have h1 := o1.sh
      have h2 := o1.kh
      have h4 : 1 * l.1.sh ≤ n * l.1.sh := Int.mul_le_mul_of_nonneg_right hn (by omega)
      have h5 : 0 ≤ (if b + n = (convValid l.1 l.2 (chain z ls e).eval).h then
          ((chain z ls e).eval.h - l.1.kh + l.1.sh) % l.1.sh else 0) := by
        split
        · exact Int.emod_nonneg _ (by omega)
        · exact le_refl _
      omega
    obtain ⟨b', n', hs', hn', hr⟩ := ih (fun l' hl' => ok l' (List.mem_cons_of_mem _ hl')) _ _ hin.1 hsz hin.2.2
    refine ⟨b', n', hs', hn', ?_⟩
    refine Relation.ReflTransGen.head (b := raiseConvExpr .valid z l.1 l.2 b n (chain z ls e)) ?_ ?_
    · exact Step.raiseConv .valid z l.1 l.2 b n (chain z ls e) o2 o3 hin hsz
    · exact rtc_lift (C := fun a => .conv .valid z l.1 l.2 a) (fun _ _ h => Step.inConv h) hr

theorem raise_parts (w : Int) (parts : List (Expr α)) (Q : Expr α → Prop)
    (h : ∀ p ∈ parts, ∃ q, Q q ∧ Relation.ReflTransGen Step p q) :
    ∃ qs : List (Expr α), qs.length = parts.length ∧ (∀ q ∈ qs, Q q) ∧
      Relation.ReflTransGen Step (parts.foldr Expr.cat (.nil w)) (qs.foldr Expr.cat (.nil w)) := by
  induction parts with
  | nil => exact ⟨[], rfl, by simp, .refl⟩
  | cons p ps ih =>
    obtain ⟨qs, h1, h2, h3⟩ := ih fun p' hp' => h p' (List.mem_cons_of_mem _ hp')
    obtain ⟨q, hq, hr⟩ := h p List.mem_cons_self
    refine ⟨q :: qs, by simp [h1], ?_, ?_⟩
    · intro q' hq'
      rcases List.mem_cons.1 hq' with rfl | h
      · exact hq
      · exact h2 q' h
    · refine Relation.ReflTransGen.trans
        (rtc_lift (C := fun a => .cat a (ps.foldr Expr.cat (.nil w))) (fun _ _ h => Step.inCatL h) hr) ?_
      exact rtc_lift (C := fun a => .cat q a) (fun _ _ h => Step.inCatR h) h3

/-- **C65** (the pass can finish).  For every chain of unpadded, undilated convolutions, of any length and with any windows and
strides, and every number of parts up to the height of the result, there is a sequence of rewrites after which the graph is a
concatenation of that many parts, each being the whole chain applied to a slice of the chain's input; it computes the same
tensor. -/
theorem C65_chain_fully_split (z : α) (ls : List (Win × ((Int → Int → α) → α)))
    (ok : ∀ l ∈ ls, l.1.OK ∧ l.1.dh = 1 ∧ l.1.dw = 1 ∧ WindowFn l.1 l.2) (x : Img α) (n : Nat) (hn : 1 ≤ n)
    (hle : (n : Int) ≤ (chain z ls (.input x)).eval.h) :
    ∃ (w : Int) (parts : List (Expr α)),
      parts.length = n ∧
      (∀ p ∈ parts, ∃ b m, SliceOK b m x ∧ 1 ≤ m ∧ p = chain z ls (.slice b m (.input x))) ∧
      Relation.ReflTransGen Step (chain z ls (.input x)) (parts.foldr Expr.cat (.nil w)) ∧
      (parts.foldr Expr.cat (.nil w)).eval.Same (chain z ls (.input x)).eval := by
  have hwf : ∀ ls : List (Win × ((Int → Int → α) → α)),
      (∀ l ∈ ls, l.1.OK ∧ l.1.dh = 1 ∧ l.1.dw = 1 ∧ WindowFn l.1 l.2) → (chain z ls (.input x)).WF := by
    intro ls
    induction ls with
    | nil => intro _; trivial
    | cons l ls ih =>
      intro h
      obtain ⟨o1, _, _, o4⟩ := h l List.mem_cons_self
      exact ⟨ih fun l' hl' => h l' (List.mem_cons_of_mem _ hl'), o1, o4, fun h => by cases h⟩
  set e := chain z ls (.input x) with he
  have hc := opSplit_chain e.eval.h.toNat n hn
  obtain ⟨hlen, _, _, hpos, _⟩ := C09_split_is_partition e.eval n hn (by omega)
  obtain ⟨qs, h1, h2, h3⟩ := raise_parts e.eval.w ((opSplitSlices e.eval.h.toNat n).map fun bs => Expr.slice bs.1 bs.2 e)
    (fun q => ∃ b m, SliceOK b m x ∧ 1 ≤ m ∧ q = chain z ls (.slice b m (.input x))) (by
      intro p hp
      obtain ⟨bs, hbs, rfl⟩ := List.mem_map.1 hp
      have g1 := hpos (by omega) bs hbs
      have g2 := (chain_mem hc bs hbs).2
      obtain ⟨b', n', k1, k2, k3⟩ := chain_raise z ls ok (.input x) bs.1 bs.2 (by omega) (by omega)
        (by rw [← he]; omega)
      exact ⟨_, ⟨b', n', k1, k2, rfl⟩, k3⟩)
  have hr : Relation.ReflTransGen Step e (qs.foldr Expr.cat (.nil e.eval.w)) :=
    Relation.ReflTransGen.head (Step.split n e hn hle) h3
  refine ⟨e.eval.w, qs, by rw [h1, List.length_map]; exact hlen, h2, hr, ?_⟩
  exact (C65_any_schedule hr (hwf ls ok)).2

/-- Non-vacuity: two 3-row convolutions of stride 1 and 2 on 12 rows leave 4 rows, split in 2; and the hypotheses of
`C65_any_schedule` are met by a `SAME` convolution with a slice above it being raised, merged and raised again. -/
example : (chain (0 : Int) [(⟨3, 1, 2, 1, 1, 1⟩, fun u => u 0 0 + u 1 0 + u 2 0), (⟨3, 1, 1, 1, 1, 1⟩, fun u => u 0 0 * u 2 0)]
    (.input ⟨12, 1, fun i _ => i⟩)).eval.h = 4 := by decide

example : ∃ e' : Expr Int,
    Relation.ReflTransGen Step
      (.slice 1 2 (.conv .same (0 : Int) ⟨3, 1, 1, 1, 1, 1⟩ (fun u => u 0 0 + 2 * u 1 0 + u 2 0) (.input ⟨4, 1, fun i _ => i⟩))) e' ∧
    e'.eval.h = 2 ∧ e'.eval.px 0 0 = 4 ∧ e'.eval.px 1 0 = 8 := by
  refine ⟨_, .single (Step.raiseConv .same (0 : Int) ⟨3, 1, 1, 1, 1, 1⟩ _ 1 2 (.input ⟨4, 1, fun i _ => i⟩) rfl rfl ?_ ?_), ?_⟩
  · unfold SliceOK; decide
  · decide
  · decide

end Verif.OpSplit
