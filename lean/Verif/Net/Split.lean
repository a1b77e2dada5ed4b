import Verif.Net.Rewrite
import Verif.OpSplit.Rewrite
/-!
C100: xformer/Transforms/OpSplit.cpp on whole networks.

The operators that the pass looks into (convolutions, depthwise convolutions, additions and multiplications) are opaque operators of
Verif/Net/Model.lean with a number; `Table` says which number stands for which operator.  What such an operator computes is not fixed: any
function of its window (of its two pixels) will do, see `Meaning`.

Simplifications: batch 1 and rank 4 (hard-coded in `createSliceOp`, line 38, and lines 545-557); the placeholders `FakeSliceOp`, whose value
is their operand, are left out (C67), as are the labels that steer the driver (lines 49-89, 826-862): a step may happen wherever some labels
could allow it.
-/
namespace Verif.Net
open Verif.Tensor Verif.Move Verif.MemPlan Verif.Image Verif.OpSplit

/-- All channels of a position. -/
abbrev Px := List (List Byte)

/-- A convolution or depthwise convolution (lines 545-570): everything but window, padding and sizes is in `id` (kind of operator,
activation, quantisation).  `q8`, `zp`: the input is quantised with 8 bits, and its zero point. -/
structure WOp where
  id : Nat
  same : Bool
  kh : Nat
  kw : Nat
  sh : Nat
  sw : Nat
  dh : Nat
  dw : Nat
  q8 : Bool
  zp : Int
  ih : Nat
  iw : Nat
  ic : Nat
  idd : Nat
  oh : Nat
  ow : Nat
  oc : Nat
  od : Nat
  deriving DecidableEq, Repr

/-- An addition or multiplication (lines 437-446) of operands of the given heights, widths, channels and element sizes. -/
structure BOp where
  id : Nat
  ah : Nat
  aw : Nat
  ac : Nat
  ad : Nat
  bh : Nat
  bw : Nat
  bc : Nat
  bd : Nat
  oh : Nat
  ow : Nat
  oc : Nat
  od : Nat
  deriving DecidableEq, Repr

inductive Opq where
  | win (w : WOp)
  | bin (b : BOp)
  deriving DecidableEq, Repr

/-- Numbers of operators. -/
structure Table where
  look : Nat → Option Opq
  name : Opq → Nat
  named : ∀ o, look (name o) = some o

def ty4 (h w c d : Nat) : Ty := ⟨[1, h, w, c], d⟩

def WOp.win (w : WOp) : Win := ⟨w.kh, w.kw, w.sh, w.sw, w.dh, w.dw⟩
def WOp.pad (w : WOp) : Padding := if w.same then .same else .valid
def WOp.inp (w : WOp) : Ty := ty4 w.ih w.iw w.ic w.idd
def WOp.out (w : WOp) : Ty := ty4 w.oh w.ow w.oc w.od

/-- What TensorFlow Lite's verifier demands of a convolution. -/
def WOp.Fits (w : WOp) : Prop :=
  (1 ≤ w.kh ∧ 1 ≤ w.kw ∧ 1 ≤ w.sh ∧ 1 ≤ w.sw ∧ 1 ≤ w.dh ∧ 1 ≤ w.dw) ∧ (1 ≤ w.ih ∧ 1 ≤ w.iw ∧ 1 ≤ w.ic) ∧ (w.q8 = true → w.idd = 1) ∧
  (w.oh : Int) = (if w.same then sameOut w.ih w.sh else (w.ih - eff w.kh w.dh + w.sh) / w.sh) ∧
  (w.ow : Int) = (if w.same then sameOut w.iw w.sw else (w.iw - eff w.kw w.dw + w.sw) / w.sw)

instance (w : WOp) : Decidable w.Fits := by unfold WOp.Fits; infer_instance

def BOp.lhs (b : BOp) : Ty := ty4 b.ah b.aw b.ac b.ad
def BOp.rhs (b : BOp) : Ty := ty4 b.bh b.bw b.bc b.bd
def BOp.out (b : BOp) : Ty := ty4 b.oh b.ow b.oc b.od

/-! ### The rewrites -/

/-- `createSliceOp` (lines 34-47) along the height. -/
def rowSlice (v b n w c d : Nat) : Node := ⟨.slice [0, b, 0, 0] [1, n, w, c], [v], ty4 n w c d⟩

/-- `OpSplitPattern` (lines 182-263) into `k` parts: the operator, its slices, and their concatenation, which replaces the operator. -/
def splitP (k : Nat) : Pattern := fun inputs pre n =>
  match n.kind.isConst, n.ty.shape with
  | false, [1, h, w, c] =>
    if 1 ≤ k ∧ k ≤ h ∧ 1 ≤ w ∧ 1 ≤ c then
      let m := inputs.length + pre.length
      some (n :: (opSplitSlices h k).map (fun bs => rowSlice m bs.1 bs.2 w c n.ty.d) ++ [⟨.concat 1, List.range' (m + 1) k, n.ty⟩], m + 1 + k)
    else none
  | _, _ => none

/-- `combineSliceWithExisting` (lines 91-180) with the slice `j` of the same value, which must come first. -/
def combineP (j : Nat) : Pattern := fun inputs pre n =>
  match n.kind, n.args, defOf inputs.length pre j with
  | .slice [0, b, 0, 0] [1, s, w, c], [x], some ⟨.slice [0, cb, 0, 0] [1, cs, w', c'], [x'], jt⟩ =>
    if x' = x ∧ w' = w ∧ c' = c ∧ jt = ty4 cs w c n.ty.d ∧ n.ty = ty4 s w c n.ty.d ∧ 1 ≤ w ∧ 1 ≤ c ∧ 1 ≤ cs ∧ cb ≤ b ∧ b + s ≤ cb + cs then
      if b = cb ∧ s = cs then some ([], j) else some ([rowSlice j (b - cb) s w c n.ty.d], inputs.length + pre.length)
    else none
  | _, _, _ => none

/-- The slice and pads of `RaiseSlicePattern`. -/
def WOp.raised (w : WOp) (b s : Nat) : Raised := raiseSliceConv w.ih w.iw w.win w.oh w.pad b s

/-- The cloned operator (lines 663-686). -/
def WOp.clone (w : WOp) (r : Raised) : WOp :=
  { w with
    same := false
    ih := (r.size + r.padTop + r.padBottom).toNat
    iw := (w.iw + r.padLeft + r.padRight).toNat
    oh := (raisedTypeHeight w.win r).toNat
    ow := (raisedTypeWidth w.win r w.iw).toNat }

/-- `RaiseSlicePattern` (lines 508-690).  Conditions that the code does not check: no dilation (`C10_dilation_refuted`), and a new slice
inside the input (`C11_thin_slice_refuted`). -/
def raiseConvP (tb : Table) : Pattern := fun inputs pre n =>
  match n.kind, n.args with
  | .slice [0, b, 0, 0] [1, s, _, _], [v] =>
    match defOf inputs.length pre v with
    | some ⟨.other false key, x :: rest, dty⟩ =>
      match tb.look key with
      | some (.win w) =>
        let r := w.raised b s
        if w.Fits ∧ dty = w.out ∧ tyOf inputs pre x = w.inp ∧ n.ty = ty4 s w.ow w.oc w.od ∧ 1 ≤ s ∧ w.dh = 1 ∧ w.dw = 1 ∧
            0 ≤ r.begin_ ∧ 1 ≤ r.size ∧ r.begin_ + r.size ≤ w.ih then
          let m := inputs.length + pre.length
          let sl := rowSlice x r.begin_.toNat r.size.toNat w.iw w.ic w.idd
          let w1 := w.clone r
          if w.same then
            some ([sl, ⟨.pad w.q8 w.zp [0, 0, r.padTop.toNat, r.padBottom.toNat, r.padLeft.toNat, r.padRight.toNat, 0, 0], [m], w1.inp⟩,
              ⟨.other false (tb.name (.win w1)), (m + 1) :: rest, w1.out⟩], m + 2)
          else some ([sl, ⟨.other false (tb.name (.win w1)), m :: rest, w1.out⟩], m + 1)
        else none
      | _ => none
    | _ => none
  | _, _ => none

/-- `RaiseSlicePadPattern` (lines 692-824).  Conditions that the code does not check: the pads are the halves that lines 737-740 recompute
(`C11_asymmetric_pad_refuted`), and the new slice lies inside the input. -/
def raisePadP : Pattern := fun inputs pre n =>
  match n.kind, n.args with
  | .slice [0, b, 0, 0] [1, s, _, _], [v] =>
    match defOf inputs.length pre v with
    | some ⟨.pad q8 zp [0, 0, t, bo, l, rr, cl, cr], [x], dty⟩ =>
      match tyOf inputs pre x with
      | ⟨[1, ih, iw, ic], d⟩ =>
        let r := raiseSlicePad ih iw (ih + t + bo : Nat) (iw + l + rr : Nat) b s
        if dty = ty4 (ih + t + bo) (iw + l + rr) (ic + cl + cr) d ∧ n.ty = ty4 s (iw + l + rr) (ic + cl + cr) d ∧ 1 ≤ s ∧
            t ≤ bo ∧ bo ≤ t + 1 ∧ l ≤ rr ∧ rr ≤ l + 1 ∧ 0 ≤ r.begin_ ∧ 1 ≤ r.size ∧ r.begin_ + r.size ≤ ih then
          let m := inputs.length + pre.length
          some ([rowSlice x r.begin_.toNat r.size.toNat iw ic d,
            ⟨.pad q8 zp [0, 0, r.padTop.toNat, r.padBottom.toNat, r.padLeft.toNat, r.padRight.toNat, cl, cr], [m],
              ty4 (r.size + r.padTop + r.padBottom).toNat (iw + r.padLeft + r.padRight).toNat (ic + cl + cr) d⟩], m + 1)
        else none
      | _ => none
    | _ => none
  | _, _ => none

/-- The operand `x` of a raised binary operator (`getSliceOp`, lines 445-491), and the type of the new operand: sliced if it has the shape
of the result, itself otherwise. -/
def BOp.slices (o : BOp) (h w c : Nat) : Bool := decide (h = o.oh ∧ w = o.ow ∧ c = o.oc)

/-- The cloned operator (lines 437-440, 494-497). -/
def BOp.clone (o : BOp) (s : Nat) : BOp :=
  { o with
    ah := if o.slices o.ah o.aw o.ac then s else o.ah
    bh := if o.slices o.bh o.bw o.bc then s else o.bh
    oh := s }

/-- The operands fit the result (TensorFlow Lite's verifier): equal or 1 along every axis.  Channels are up to the operator. -/
def BOp.Fits (o : BOp) : Prop :=
  (1 ≤ o.ah ∧ 1 ≤ o.aw ∧ 1 ≤ o.ac ∧ 1 ≤ o.bh ∧ 1 ≤ o.bw ∧ 1 ≤ o.bc) ∧ (o.ah = o.oh ∨ o.ah = 1) ∧ (o.aw = o.ow ∨ o.aw = 1) ∧ (o.bh = o.oh ∨ o.bh = 1) ∧
  (o.bw = o.ow ∨ o.bw = 1)

instance (o : BOp) : Decidable o.Fits := by unfold BOp.Fits; infer_instance

/-- `RaiseSliceBinaryPattern` (lines 406-500).  Condition that the code does not check: an operand that is not sliced has height 1
(`C12_width_broadcast_refuted`). -/
def raiseBinP (tb : Table) : Pattern := fun inputs pre n =>
  match n.kind, n.args with
  | .slice [0, b, 0, 0] [1, s, _, _], [v] =>
    match defOf inputs.length pre v with
    | some ⟨.other false key, [x, y], dty⟩ =>
      match tb.look key with
      | some (.bin o) =>
        if o.Fits ∧ dty = o.out ∧ tyOf inputs pre x = o.lhs ∧ tyOf inputs pre y = o.rhs ∧ n.ty = ty4 s o.ow o.oc o.od ∧ 1 ≤ s ∧
            (o.slices o.ah o.aw o.ac = true ∨ o.ah = 1) ∧ (o.slices o.bh o.bw o.bc = true ∨ o.bh = 1) then
          let m := inputs.length + pre.length
          let sx := if o.slices o.ah o.aw o.ac then [rowSlice x b s o.aw o.ac o.ad] else []
          let x' := if o.slices o.ah o.aw o.ac then m else x
          let sy := if o.slices o.bh o.bw o.bc then [rowSlice y b s o.bw o.bc o.bd] else []
          let y' := if o.slices o.bh o.bw o.bc then m + sx.length else y
          let o1 := o.clone s
          some (sx ++ sy ++ [⟨.other false (tb.name (.bin o1)), [x', y'], o1.out⟩], m + sx.length + sy.length)
        else none
      | _ => none
    | _ => none
  | _, _ => none

/-- The patterns of the pass (lines 866-910). -/
inductive SplitPattern (tb : Table) : Pattern → Prop where
  | split (k : Nat) : SplitPattern tb (splitP k)
  | combine (j : Nat) : SplitPattern tb (combineP j)
  | raiseConv : SplitPattern tb (raiseConvP tb)
  | raisePad : SplitPattern tb raisePadP
  | raiseBin : SplitPattern tb (raiseBinP tb)

/-- One step of the splitting pass, or of the rewrites of C95, or removal of an operator without users. -/
def SplitStep (tb : Table) (N N' : Network) : Prop := ∃ P, (SplitPattern tb P ∨ P ∈ patterns) ∧ Rw [P] N N'

/-! ### What the operators compute -/

/-- The image stored in a tensor of height `h`, width `w` and `c` channels. -/
def imgT (h w c : Nat) (f : T) : Img Px := ⟨h, w, fun i j => (List.range c).map fun ch => f [0, i.toNat, j.toNat, ch]⟩

def imgOf (h w c d : Nat) (data : List Byte) : Img Px := imgT h w c (elemAt (ty4 h w c d) data)

/-- The tensor with the given pixels. -/
def pixels (d : Nat) (x : Img Px) : T := fun idx => fit d ((x.px (idx.getD 1 0 : Nat) (idx.getD 2 0 : Nat)).getD (idx.getD 3 0) [])

/-- A windowed operator whose kernel is `F`; outside the input it sees the zero point. -/
def WOp.apply (w : WOp) (F : (Int → Int → Px) → Px) (x : Img Px) : Img Px :=
  if w.same then convSame w.win (List.replicate w.ic (List.replicate w.idd (UInt8.ofInt w.zp))) F x else convValid w.win F x

/-- The numbered operators compute what `F` and `G` say: a convolution is a function of its window, the filter and the bias at every
position (operator `id`, window height and width), a binary operator a function of the two pixels. -/
structure Meaning (tb : Table) (F : Nat → Nat → Nat → List (List Byte) → (Int → Int → Px) → Px) (G : Nat → Px → Px → Px) (sem : Sem) : Prop where
  win : ∀ key w, tb.look key = some (.win w) → w.Fits → ∀ (data : List Byte) (rest : List (List Byte)), data.length = w.inp.size →
    sem key (data :: rest) = bytesOf w.out (pixels w.od (w.apply (F w.id w.kh w.kw rest) (imgOf w.ih w.iw w.ic w.idd data)))
  bin : ∀ key o, tb.look key = some (.bin o) → o.Fits → ∀ a b : List Byte, a.length = o.lhs.size → b.length = o.rhs.size →
    sem key [a, b] = bytesOf o.out (pixels o.od (ewise (G o.id) o.oh o.ow (imgOf o.ah o.aw o.ac o.ad a) (imgOf o.bh o.bw o.bc o.bd b)))

/-- The kernels look at nothing but their window of height `kh` and width `kw`. -/
def Windowed (F : Nat → Nat → Nat → List (List Byte) → (Int → Int → Px) → Px) : Prop :=
  ∀ (id kh kw : Nat) (rest : List (List Byte)), WindowFn ⟨(kh : Int), kw, 1, 1, 1, 1⟩ (F id kh kw rest)

end Verif.Net
