import Verif.MemPlan.Sizes
import Verif.Threads.Props
import Verif.OpSplit.Props
import Verif.OpSplit.Rewrite
import Verif.OpSplit.Placeholder
import Verif.Move.Concat
import Verif.Host.Usb
import Verif.Host.Search
import Verif.Host.Interp
import Verif.Host.Convert
import Verif.Host.Driver
import Verif.Host.Subgraphs
import Verif.Conv.Split
import Verif.Conv.Same
import Verif.Conv.Pool
import Verif.Conv.LowerProps
import Verif.Conv.MaxPool
import Verif.Conv.Revert
import Verif.Conv.Threaded
import Verif.XC.Reduce
import Verif.XC.Patterns
import Verif.Shape.Dynamic
/-!
The full statements of the properties that the code has only in part.  Every `Cxx_full` is the property as a user would
state it, without the side conditions of the theorem `Cxx_..._partial`; every `Cxx_full_refuted` proves that the code does
not have it.
-/

namespace Verif.Threads

/-- C08 in full: for every phase of a strided output the threads compute every element of the phase exactly once. -/
def C08_full : Prop :=
  ∀ (cts : Nat → Nat → List (Nat × Nat)), CalcContract cts → ∀ (n : Nat) (p : Params), 1 ≤ n → 1 ≤ p.height → 1 ≤ p.width →
    p.subH < p.strideH → p.subW < p.strideW →
    ∃ rs, getImageRegionThreadSplits cts n p = some rs ∧
      ∀ y x c, p.InPhase y x → coverage rs y x c = if p.Inside y x c then 1 else 0

theorem C08_full_refuted : ¬ C08_full := by
  intro h
  obtain ⟨rs, hrs, hc⟩ := h _ Verif.Conv.C55_example.2.2.1 1 ⟨8, 8, 4, 0, 0, 3, 3⟩ (by decide) (by decide) (by decide) (by decide)
    (by decide)
  have he : rs = [⟨0, 0, 0, 6, 8, 4⟩] := by
    have : getImageRegionThreadSplits (fun _ d => if d = 0 then [] else [(0, d)]) 1 ⟨8, 8, 4, 0, 0, 3, 3⟩ =
      some [⟨0, 0, 0, 6, 8, 4⟩] := by decide
    rw [this] at hrs
    exact (Option.some.inj hrs).symm
  subst he
  have := hc 6 0 0 (by decide)
  revert this
  decide

end Verif.Threads

namespace Verif.OpSplit
open Verif.Image

/-- C10 in full: raising a slice above a `VALID` convolution of any geometry. -/
def C10_full : Prop :=
  ∀ (α β : Type) (z : α) (g : Win), g.OK → ∀ (F : (Int → Int → α) → β), WindowFn g F → ∀ (x : Img α) (b n : Int), 0 ≤ b →
    1 ≤ n → b + n ≤ (convValid g F x).h →
    (raisedConv z g F (raiseSliceConv x.h x.w g (convValid g F x).h .valid b n) x).Same (sliceRows b n (convValid g F x))

theorem C10_full_refuted : ¬ C10_full := by
  intro h
  refine C10_dilation_refuted.2.2.2 (h Int Int 0 ⟨3, 1, 1, 1, 2, 1⟩ ⟨by decide, by decide, by decide, by decide, by decide, by decide⟩
    (fun u => u 0 0) (fun u v huv => huv 0 0 (by decide) (by decide) (by decide) (by decide)) _ 0 3 (by decide) (by decide) (by decide))

/-- C11 in full: raising a slice above a `SAME` convolution, for any row range. -/
def C11_full : Prop :=
  ∀ (α β : Type) (z : α) (g : Win), g.OK → g.dh = 1 → g.dw = 1 → ∀ (F : (Int → Int → α) → β), WindowFn g F →
    ∀ (x : Img α) (b n : Int), 1 ≤ x.h → 1 ≤ x.w → 0 ≤ b → 1 ≤ n → b + n ≤ (convSame g z F x).h →
    let r := raiseSliceConv x.h x.w g (convSame g z F x).h .same b n
    SliceOK r.begin_ r.size x ∧ (raisedConv z g F r x).Same (sliceRows b n (convSame g z F x))

theorem C11_full_refuted : ¬ C11_full := by
  intro h
  have := (h Int Int 0 ⟨5, 1, 1, 1, 1, 1⟩ ⟨by decide, by decide, by decide, by decide, by decide, by decide⟩ rfl rfl
    (fun u => u 0 0) (fun u v huv => huv 0 0 (by decide) (by decide) (by decide) (by decide)) ⟨4, 4, fun i _ => i⟩ 1 1 (by decide)
    (by decide) (by decide) (by decide) (by decide)).1.1
  revert this
  decide

/-- C12 in full (element-wise operators): operands of any shape that broadcasts to the result's. -/
def C12_full : Prop :=
  ∀ (α : Type) (f : α → α → α) (h w b n : Int) (x y : Img α), (x.h = h ∨ x.h = 1) → (x.w = w ∨ x.w = 1) → (y.h = h ∨ y.h = 1) →
    (y.w = w ∨ y.w = 1) → 0 ≤ b → 1 ≤ n → b + n ≤ h →
    (raisedBinary f h w b n x y).Same (sliceRows b n (ewise f h w x y))

theorem C12_full_refuted : ¬ C12_full := fun h =>
  C12_width_broadcast_refuted (h Int _ 4 2 2 2 _ _ (Or.inl rfl) (Or.inl rfl) (Or.inl rfl) (Or.inr rfl) (by decide) (by decide) (by decide))

end Verif.OpSplit

namespace Verif.Conv
open Verif.Tensor Verif.Move Verif.Threads

/-- A `SAME` convolution with eight output channels. -/
def exSameSplit : ConvOp :=
  { padding := .same, sh := 1, sw := 1, dh := 1, dw := 1
    filter := { o := 8, kh := 3, kw := 1, c := 1, data := List.replicate 24 1, qp := .perTensor 1 0 }, bias := none }

/-- C13 in full: channel-wise splitting keeps the result, whatever the padding. -/
def C13_full : Prop :=
  ∀ (rq : Requant) (zpi : Int) (limit B h w oh ow : Nat) (op : ConvOp), op.OK → 4 ∣ op.filter.o → ∀ (parts : List (Nat × ConvOp)),
    channelSplit limit op = some parts → ∀ (x : Tensor) (idx : List Nat), InShape [B, oh, ow, op.filter.o] idx →
    concatT 3 (parts.map fun q => (q.1, conv2d rq zpi h w op.filter.c q.2 x)) idx = conv2d rq zpi h w op.filter.c op x idx

theorem C13_full_refuted : ¬ C13_full := by
  intro h
  have := h (fun _ _ a => a) 0 12 1 3 1 3 1 exSameSplit ⟨rfl, by decide, trivial, by intro b hb; exact absurd hb (by simp [exSameSplit])⟩ (by decide) _ rfl (fun _ => 1) [0, 0, 0, 0]
    ⟨by decide, by decide, by decide, by decide, trivial⟩
  revert this
  decide +kernel

/-- C14 in full (input channels): the padded convolution has the same result, for any number of groups. -/
def C14_full : Prop :=
  ∀ (rq : Requant) (zpi : Int) (al B h w oh ow ic : Nat), 0 < al → ∀ (op op' : ConvOp), op.OK → op.filter.c ∣ ic → ∀ (p : Nat),
    padConvInput al ic op = some (p, op') → ∀ (x : Tensor) (idx : List Nat), InShape [B, oh, ow, op.filter.o] idx →
    conv2d rq zpi h w (ic + p) op' (padInputT zpi [B, h, w, ic] x) idx = conv2d rq zpi h w ic op x idx

theorem C14_full_refuted : ¬ C14_full := by
  intro h
  obtain ⟨p, op', h1, h2, h3⟩ := C14_groups_refuted
  have := h (fun _ _ a => a) 0 4 1 1 1 1 1 2 (by decide) groupsConv op' ⟨rfl, by decide, trivial, by intro b hb; exact absurd hb (by simp [groupsConv])⟩ (by decide) p h1
    (fun idx => (idx.getD 3 0 : Int) + 1) [0, 0, 0, 1] ⟨by decide, by decide, by decide, by decide, trivial⟩
  rw [h2] at this
  erw [h3] at this
  exact absurd this (by decide)

/-- C14 in full (output channels): the slice behind the padded convolution has the shape of the original result, for any batch. -/
def C14_output_full : Prop :=
  ∀ (al B oh ow : Nat), 0 < al → ∀ (op op' : ConvOp), op.OK → ∀ (p : Nat) (sl : SliceAttr),
    padConvOutput al [B, oh, ow, op.filter.o] op = some (p, op', sl) → sl.size = [B, oh, ow, op.filter.o]

theorem C14_output_full_refuted : ¬ C14_output_full := by
  intro h
  have := h 4 2 1 1 (by decide) groupsConv _ ⟨rfl, by decide, trivial, by intro b hb; exact absurd hb (by simp [groupsConv])⟩ 2 _ rfl
  revert this
  decide

end Verif.Conv

namespace Verif.Move
open Verif.Tensor

/-- C17 in full: any axis TensorFlow Lite accepts. -/
def C17_full : Prop :=
  ∀ (pre post : List Nat) (inputs : List (Nat × (List Nat → Int))) (axis : Int),
    (axis = pre.length ∨ axis = (pre.length : Int) - (pre.length + 1 + post.length : Nat)) →
    let total := (inputs.map (·.1)).sum
    ∃ t g, splitConcat (pre ++ total :: post) axis
        (inputs.zipIdx.map fun x => (pre ++ x.1.1 :: post, CTree.input x.2)) = some t ∧
      Denotes pre post inputs t total g (List.range inputs.length) ∧
      ∀ idx, InShape (pre ++ total :: post) idx → g idx = concatT pre.length inputs idx

theorem C17_full_refuted : ¬ C17_full := by
  intro h
  obtain ⟨t, g, ht, _⟩ := h [] [1] (List.replicate 14 (1, fun _ => 0)) (-2) (Or.inr (by decide))
  rw [C17_negative_axis_undefined _ (-2) (by decide) _ (by decide)] at ht
  exact absurd ht (by simp)

/-- C23 in full: the slice of every axis is the one TensorFlow's rules for begin, end and masks give, with clamping. -/
def C23_full : Prop :=
  ∀ (shape b e strides : List Int) (bm em sm : Nat), b.length = shape.length → e.length = shape.length → (∀ d ∈ shape, 1 ≤ d) →
    (∀ s ∈ strides, s = 1) →
    ∃ slices final, lowerStrided shape b e strides bm em sm 0 0 = some (slices, final) ∧
      ∀ i, i < shape.length → slices[i]? =
        some (tfRange (bm.testBit i) (em.testBit i) (sm.testBit i) (shape.getD i 0) (b.getD i 0) (e.getD i 0))

theorem C23_full_refuted : ¬ C23_full := by
  intro h
  obtain ⟨s, f, hl, hi⟩ := h [4] [0] [7] [1] 0 0 0 rfl rfl (by decide) (by decide)
  have h2 := hi 0 (by decide)
  have : lowerStrided [4] [0] [7] [1] 0 0 0 0 0 = some ([(0, 7)], [7]) := by decide
  rw [this] at hl
  simp only [Option.some.injEq, Prod.mk.injEq] at hl
  rw [← hl.1] at h2
  revert h2
  decide

end Verif.Move

namespace Verif.Host.Search

/-- C30 in full: the search stops, and the configuration it suggests is the best one measured and better than none. -/
def C30_full : Prop :=
  ∀ (lastUse : List Nat) (measure : Nat → Nat), (∀ i, 0 < measure i) → ∀ (peakOpId peakUsage : Nat), peakOpId < lastUse.length →
    ∃ fuel st, search lastUse measure fuel (start peakOpId peakUsage) = .done st ∧
      (st.lastGoodUsage ≠ 0 → st.lastGoodUsage < peakUsage ∧ ∀ m ∈ st.measured, st.lastGoodUsage ≤ m.2)

theorem C30_full_refuted : ¬ C30_full := by
  intro h
  obtain ⟨fuel, st, hs, _⟩ := h (lastUses loopFunc) (fun i => i + 1) (by simp) 5 100 (by decide)
  obtain ⟨st', hs'⟩ := C30_may_not_stop (fun i => i + 1) (by decide) 100 fuel
  rw [hs'] at hs
  exact absurd hs (by simp)

end Verif.Host.Search

namespace Verif.Host.Usb

/-- C33 in full: every sequence of messages is reassembled, and nothing is left over. -/
def C33_full : Prop :=
  ∀ msgs : List Msg, readMsgs msgs.length (msgs.flatMap fun m => download m.cmd m.model m.tensor m.data) =
    some (msgs.map fun m => ([m.cmd, m.model, m.tensor], m.data), [])

theorem C33_full_refuted : ¬ C33_full := by
  intro h
  have h1 := h [⟨0, 0, 0, []⟩]
  have h2 := C33_empty_refuted 0 0 0
  simp only [List.length_singleton, List.flatMap_cons, List.flatMap_nil, List.append_nil] at h1
  rw [h2] at h1
  exact absurd h1 (by simp)

end Verif.Host.Usb

namespace Verif.MemPlan

/-- C41 in full: every front-to-back in-place operator, wherever it is in its chain. -/
def C41_full : Prop :=
  ∀ (f : Func), f.WF → f.InPlaceOK → ∀ (b : Bool) (p : Plan), getAllocatedOffsets f b = some p → ∀ v w, f.Arena v →
    f.InPlaceStep v w → ∀ (ss : List StreamStep), (∀ s ∈ ss, s.Ok) → (∀ s ∈ ss, ∀ k ∈ s.deps, k < f.raw v) →
    (ss.map StreamStep.len).sum = f.raw w → StreamLag ((f.raw w : Int) - f.raw v) 0 ss →
    ∀ (inp : Nat → Byte) (m : Mem), (∀ k, k < f.raw v → m (offsetOf p.offsets v + (k : Int)) = inp k) →
    (runStream (offsetOf p.offsets v) (offsetOf p.offsets w) ss m).read (offsetOf p.offsets w) (f.raw w) = streamRef inp ss

theorem C41_full_refuted : ¬ C41_full := by
  intro h
  obtain ⟨f, p, v, w, ss, inp, m, h1, h2, h3, h4, h5, h6, h7, h8, h9, h10, h11⟩ := C41_mid_chain_refuted
  exact h11 (h f h1 h2 true p h3 v w h4 h5 ss h6 h7 h8 h9 inp m h10)

/-- C42 in full: every element type. -/
def C42_full : Prop := ∀ (t : ElemType) (s : List Nat), getShapedTypeSize t (s.map some) = numElements s * storedBytes t

theorem C42_full_refuted : ¬ C42_full := by
  intro h
  have := h ⟨1⟩ [3]
  rw [C42_bool_refuted] at this
  exact absurd this (by decide)

end Verif.MemPlan

namespace Verif.XC
open Verif.Tensor Verif.Quant Verif.Move

/-- C36 in full: every list of axes that TensorFlow Lite accepts (also negative, also repeated) is either left alone or
reduced exactly. -/
def C36_full : Prop :=
  ∀ (r : ℚ → ℤ) (ti tq : QType), tq.scale ≠ 0 → ∀ (axes : List Int) (shape : List Nat), axes ≠ [] →
    (∀ a ∈ axes, -(shape.length : Int) ≤ a ∧ a < shape.length) → reduceDims axes shape ≠ .undefined ∧
    ∀ (x : List Nat → ℤ) (s m e : Nat), reduceDims axes shape = .dims s m e →
      kernel r tq ti.zp (sumScale ti tq) s m e (flat shape x) =
        flat (keptShape (reduced (axes.map fun a => if a < 0 then a + shape.length else a)) 0 shape)
          (sumSpec r ti tq (axes.map fun a => if a < 0 then a + shape.length else a) shape x)

theorem C36_full_refuted : ¬ C36_full := by
  intro h
  exact (h (fun q => q.floor) ⟨1, 0, -128, 127⟩ ⟨1, 0, -128, 127⟩ (by decide) [-1] [2, 2] (by decide) (by decide)).1
    (C36_negative_axis_undefined _)

/-- Without negative axes it still fails, for repeated ones. -/
def C36_nonneg_full : Prop :=
  ∀ (r : ℚ → ℤ) (ti tq : QType), tq.scale ≠ 0 → ∀ (axes : List Int) (shape : List Nat), axes ≠ [] →
    (∀ a ∈ axes, 0 ≤ a ∧ a < shape.length) → ∀ (x : List Nat → ℤ) (s m e : Nat), reduceDims axes shape = .dims s m e →
      kernel r tq ti.zp (sumScale ti tq) s m e (flat shape x) =
        flat (keptShape (reduced axes) 0 shape) (sumSpec r ti tq axes shape x)

theorem C36_nonneg_full_refuted : ¬ C36_nonneg_full := by
  intro h
  have := congrArg List.length (h (fun q => q.floor) ⟨1, 0, -128, 127⟩ ⟨1, 0, -128, 127⟩ (by decide) [0, 2, 2] [2, 3, 4, 5] (by decide) (by decide)
    (fun _ => 0) 1 24 5 C36_repeated_axes_refuted.1)
  rw [C36_repeated_axes_refuted.2, length_flat] at this
  revert this
  unfold kernel
  simp

/-- C56 in full: padding before or after the channels. -/
def C56_full : Prop :=
  ∀ (n h w : Nat) (padding : List Nat) (zp : Int) (v : BitVec 32) (x : List Nat → BitVec 8),
    pad3To4 [n, h, w, 3] [n, h, w, 4] padding zp = some v → padding.getD 6 0 + padding.getD 7 0 = 1 →
    pad34Kernel (v.extractLsb' 0 8) (flat [n, h, w, 3] x) =
      flat [n, h, w, 4] (padT (BitVec.ofInt 8 zp) (padStarts padding) [n, h, w, 3] x)

theorem C56_full_refuted : ¬ C56_full := by
  intro h
  obtain ⟨v, h1, h2, h3⟩ := C56_pad_before_refuted
  have := h 1 1 1 [0, 0, 0, 0, 0, 0, 1, 0] 9 v (fun idx => BitVec.ofNat 8 (idx.getD 3 0)) h1 (by decide)
  rw [h2] at this
  erw [h3] at this
  exact absurd this (by decide)

/-- C57 in full (arithmetic): every zero point. -/
def C57_full : Prop :=
  ∀ (op : BinOp) (t1 t2 t : QType), t1.OK → t2.OK → t.OK → ∀ (r : ℚ → ℤ), Nearest r → ∀ (e : ℚ) (q1 q2 out : Int),
    (lowerBin op t1 t2 t).Gives t.lo t.hi e q1 q2 out →
    |(out : ℚ) - t.q r (op.real (t1.deq q1) (t2.deq q2))| ≤ e + 1 / 2

theorem C57_full_refuted : ¬ C57_full := by
  intro h
  have := h .add ⟨1, 5, -32768, 32767⟩ ⟨1, 5, -32768, 32767⟩ ⟨1, 5, -32768, 32767⟩ ⟨by norm_num, by norm_num, by norm_num⟩
    ⟨by norm_num, by norm_num, by norm_num⟩ ⟨by norm_num, by norm_num, by norm_num⟩ roundAway roundAway_nearest 0 5 5 10
    (by unfold BinI16.Gives lowerBin BinI16.exact; norm_num)
  rw [show (QType.mk 1 5 (-32768) 32767).q roundAway (BinOp.real .add ((QType.mk 1 5 (-32768) 32767).deq 5)
    ((QType.mk 1 5 (-32768) 32767).deq 5)) = 5 by decide +kernel] at this
  norm_num at this

/-- C57 in full (unary operators): whatever is replaced fits the types the new operator allows. -/
def C57_unary_full : Prop :=
  ∀ (isQ : Bool) (input output : ETy) (u : UnOp), lowerUn isQ input output = some u →
    (if isQ then output ≠ .f32 else output = .f32) → unTypesOK input output = true

theorem C57_unary_full_refuted : ¬ C57_unary_full := by
  intro h
  have := h true .q16 .q8 .requantize C57_requantize_refuted.1 (by decide)
  rw [C57_requantize_refuted.2] at this
  exact absurd this (by decide)

/-- C58 in full (ELU): whatever produces the dequantised tensor, the table is made for the tensor's own scale. -/
def C58_full : Prop :=
  ∀ (producer : Option (List ℝ × Nat)) (si : ℝ), 0 < si → (∀ p, producer = some p → p.1.getD p.2 0 = si) →
    eluScales producer si = some (si, si)

theorem C58_full_refuted : ¬ C58_full := by
  intro h
  have := h none 1 (by norm_num) (by simp)
  rw [C58_elu_producer_refuted.1] at this
  exact absurd this (by simp)

/-- ... also not if only operators' results are considered. -/
def C58_result_full : Prop :=
  ∀ (results : List ℝ) (i : Nat) (si : ℝ), 0 < si → results.getD i 0 = si → eluScales (some (results, i)) si = some (si, si)

theorem C58_result_full_refuted : ¬ C58_result_full := by
  intro h
  have := h [4, 1] 1 1 (by norm_num) rfl
  rw [C58_elu_producer_refuted.2] at this
  norm_num at this

end Verif.XC

namespace Verif.Shape

/-- C60 in full: afterwards all tensors are static, and sizes that were known are kept. -/
def C60_full : Prop :=
  ∀ (f : Fn), (∀ t ∈ f.types, t ≠ .unranked) →
    (removeDynamic f).types = f.types.map (TTy.inst 1) ∧ ∀ t ∈ (removeDynamic f).types, t.Static

theorem C60_full_refuted : ¬ C60_full := by
  intro h
  have := (h { args := [.ranked [none]], results := [.ranked [none]], ops := [], returned := [.inl 0] } (by decide)).1
  revert this
  decide

end Verif.Shape

namespace Verif.Conv
open Verif.Tensor Verif.Threads Verif.Quant

/-- C38 in full: a fully connected layer with any leading dimensions. -/
def C38_full : Prop :=
  ∀ (rq : Requant) (zpi : Int) (f : FC) (pre : List Nat) (B : Nat) (data : List Int), data.length = (pre ++ [B, f.c]).prod →
    ∃ s, fcInputShape (pre ++ [B, f.c]) = some s ∧ s.prod = data.length

theorem C38_full_refuted : ¬ C38_full := by
  intro h
  obtain ⟨s, h1, h2⟩ := h (fun _ _ a => a) 0 ⟨1, 1, [1], .perTensor 1 0, none⟩ [2] 1 [0, 0] rfl
  obtain ⟨s', h3, h4⟩ := C38_leading_dims_refuted [2] (by decide) 1 1 (by decide) (by decide)
  rw [h3] at h1
  obtain rfl := Option.some.inj h1
  revert h4
  rw [h2]
  decide

/-- C51 in full: every fused activation. -/
def C51_full : Prop :=
  ∀ (cfg : Cfg) (lib : Lib), lib.Faithful → ∀ (r : ℚ → ℤ), Nearest r → ∀ (f : Fake) (p : Padding), f.OK p →
    (∀ o < f.oc, ∀ o' < f.oc, f.filter.qp.scale o ≤ cfg.factor * f.filter.qp.scale o') → fakeApplies f = true →
    reluSplitOff f = false → ∀ (l : Lowered), lower cfg lib f = some l → ∀ (B : Nat) (x : Tensor),
    (∀ i, InShape [B, f.ih, f.iw, f.ic] i → -128 ≤ x i ∧ x i ≤ 127) → (-128 ≤ f.zpi ∧ f.zpi ≤ 127) → ∀ (idx : List Nat),
    InShape [B, f.oh, f.ow, f.oc] idx → (|l.run lib x idx - f.ref r p x idx| : ℤ) ≤ cfg.threshold + 1

theorem exDwRelu_ok : exDwRelu.OK .valid := by
  refine ⟨rfl, rfl, by decide, by decide, by decide, by decide, by decide, by decide, by decide, by decide, by decide,
    by decide, by norm_num [exDwRelu], by norm_num [exDwRelu], ?_, rfl, by decide, ?_, by decide⟩
  · intro o _; norm_num [exDwRelu, QP.scale]
  · intro o _; rfl

theorem C51_full_refuted : ¬ C51_full := by
  intro h
  obtain ⟨l, hl⟩ := Option.isSome_iff_exists.1 C51_activation_refuted_reached
  obtain ⟨h1, h2, h3, h4⟩ := C51_activation_refuted exactLib exactLib_faithful defaultCfg (by norm_num [defaultCfg])
    (by norm_num [defaultCfg]) l hl
  have := h defaultCfg exactLib exactLib_faithful roundAway roundAway_nearest exDwRelu .valid exDwRelu_ok
    (by intro o _ o' _; norm_num [exDwRelu, QP.scale, defaultCfg]) h3 h4 l hl 1 (fun _ => -100) (by intro i _; omega)
    (by decide) [0, 0, 0, 0] ⟨by decide, by decide, by decide, by decide, trivial⟩
  rw [h1] at this
  have h5 : (99 : ℤ) ≤ |l.run exactLib (fun _ => -100) [0, 0, 0, 0] - 0| := by
    rw [sub_zero, abs_of_nonpos (by omega)]
    omega
  have h6 : ((99 : ℤ) : ℚ) ≤ ((|l.run exactLib (fun _ => -100) [0, 0, 0, 0] - 0| : ℤ) : ℚ) := by exact_mod_cast h5
  norm_num [defaultCfg] at this h6
  linarith

/-- C53 in full: also for 16-bit convolutions. -/
def C53_full : Prop :=
  ∀ (cfg : Cfg) (lib : Lib) (f : Fake) (p : Padding), ({ f with bits := 8 } : Fake).OK p → ∀ (l : Lowered),
    lower cfg lib f = some l → l.Usable f.oh f.ow

theorem C53_full_refuted : ¬ C53_full := by
  intro h
  obtain ⟨l, h1, _, h3⟩ := C53_i16_padding_refuted defaultCfg exactLib
  refine h3 (h defaultCfg exactLib exI16 .same ?_ l h1)
  refine ⟨rfl, rfl, by decide, by decide, by decide, by decide, by decide, by decide, by decide, by decide, by decide,
    by decide, by norm_num [exI16, exFake], by norm_num [exI16, exFake], ?_, rfl, by decide, ?_, by decide⟩
  · intro o _; norm_num [exI16, exFake, QP.scale]
  · intro o _; rfl

/-- C55 in full: every padding. -/
def C55_full : Prop :=
  ∀ (cts : Nat → Nat → List (Nat × Nat)), CalcContract cts → ∀ (threads : Nat), 1 ≤ threads → ∀ (p : MaxPool), p.OK →
    ∃ k, lowerMaxPool cts threads p = some k ∧
      ∀ y x c, y < p.oh → x < p.ow → c < p.depth → ∀ i ∈ k.reads y x c, i < p.h * p.w * p.depth

theorem C55_full_refuted : ¬ C55_full := by
  intro h
  obtain ⟨k, h1, h2⟩ := h _ C55_example.2.2.1 1 (by decide) exSamePool exSamePool_ok
  have e : lowerMaxPool (fun _ d => if d = 0 then [] else [(0, d)]) 1 exSamePool =
      some { kh := 2, kw := 2, startRow := 0, startCol := 0, strideRow := 1, strideCol := 1, inCols := 2, inDepth := 1, regions := [⟨0, 0, 0, 2, 2, 1⟩] } := by rfl
  rw [e] at h1
  obtain rfl := Option.some.inj h1
  have := h2 1 1 0 (by decide) (by decide) (by decide) 4 (by decide)
  revert this
  decide

/-- C61 in full: also the operators made for a transposed convolution lose nothing when they are turned back. -/
def C61_full : Prop :=
  ∀ (i16 : Bool) (inW : Nat) (op : ConvOp) (act : Act), ∀ f ∈ phaseOps i16 inW op act (refReorder op.filter op.sh op.sw),
    toFakeX (revert f).1 (revert f).2 = f

theorem C61_full_refuted : ¬ C61_full := by
  intro h
  obtain ⟨f, hf, hp, _⟩ := C61_transposed_refuted
  have := congrArg FakeX.partialOut (h false 2 exTV .none f hf)
  rw [hp] at this
  exact absurd this (by simp [toFakeX])

/-- C64 in full: for every output size, every element of the phase is written. -/
def C64_full : Prop :=
  ∀ (cts : Nat → Nat → List (Nat × Nat)), CalcContract cts → ∀ (n : Nat) (p : Params), 1 ≤ n → 1 ≤ p.height → 1 ≤ p.width →
    p.subH < p.strideH → p.subW < p.strideW →
    ∃ rs, getImageRegionThreadSplits cts n p = some rs ∧
      ∀ B ws, List.Forall₂ (DoesRegion p) rs ws → ∀ s, Interleaving (ws.map (program B)) s →
        ∀ y x c, p.InPhase y x → p.Inside y x c → writes s (y, x, c) = 1

theorem C64_full_refuted : ¬ C64_full := by
  intro h
  obtain ⟨rs, hrs, hw⟩ := h _ C55_example.2.2.1 1 ⟨8, 8, 4, 0, 0, 3, 3⟩ (by decide) (by decide) (by decide) (by decide) (by decide)
  have e : getImageRegionThreadSplits (fun _ d => if d = 0 then [] else [(0, d)]) 1 ⟨8, 8, 4, 0, 0, 3, 3⟩ = some [⟨0, 0, 0, 6, 8, 4⟩] := by decide
  rw [e] at hrs
  obtain rfl := Option.some.inj hrs
  let p : Params := ⟨8, 8, 4, 0, 0, 3, 3⟩
  let r : Region := ⟨0, 0, 0, 6, 8, 4⟩
  let ws : List (List Job) := [(regionElems p r).map fun e => ⟨fun _ => 0, [(e, fun _ => 0)]⟩]
  have hws : List.Forall₂ (DoesRegion p) [r] ws := by
    refine .cons ?_ .nil
    have : elems ((regionElems p r).map fun e => (⟨fun _ => 0, [(e, fun _ => 0)]⟩ : Job)) = regionElems p r := by
      unfold elems
      rw [List.flatMap_map]
      simp
    unfold DoesRegion
    rw [this]
    exact regionElems_spec p r
  obtain ⟨s, hs⟩ := interleaving_exists (ws.map (program 0))
  have h1 := hw 0 ws hws s hs 6 0 0 (by decide) (by decide)
  have h2 := (C64_rows_lost ws s 0 hws hs).2
  omega

end Verif.Conv

namespace Verif.OpSplit
open Verif.Image

/-- C66 in full: splitting a mean into any number of equal slices costs at most one step. -/
def C66_full : Prop :=
  ∀ (m : MeanQ), Nearest m.rnd → ∀ (x : Img Int) (n k : Nat), 1 ≤ n → 1 ≤ k → x.h = (n * k : Nat) → 1 ≤ x.w →
    ∃ v, splitMean m ((opSplitSlices x.h.toNat n).map fun bs => ((bs.1 : Int), (bs.2 : Int), x.w)) x = some v ∧
      |v - meanOp m x| ≤ 1

theorem C66_full_refuted : ¬ C66_full := by
  intro h
  obtain ⟨v, h1, h2⟩ := h (exampleMean (5 / 2)) roundHalfUp_nearest ⟨4, 1, fun i _ => if i < 2 then 100 else -40⟩ 2 2
    (by decide) (by decide) (by decide) (by decide)
  have e := C66_saturation_refuted
  have hs : (opSplitSlices (4 : Int).toNat 2).map (fun bs => ((bs.1 : Int), (bs.2 : Int), (1 : Int))) = [(0, 2, 1), (2, 2, 1)] := by
    decide
  dsimp only at h1 h2 e
  rw [hs, e.2] at h1
  obtain rfl := Option.some.inj h1
  rw [e.1] at h2
  revert h2
  decide

/-- C67 in full: every placeholder is removed or resolved. -/
def C67_full : Prop :=
  ∀ (sizes : List (Int × Int)) (o : Origin) (l : List Producer), fate sizes o l = .removed ∨ fate sizes o l = .becameMeans

theorem C67_full_refuted : ¬ C67_full := by
  intro h
  have := h ((opSplitSlices 9 4).map fun bs => ((bs.2 : Int), 1)) .const (gate (4 : Nat))
  rw [C67_uneven_refuted 9 4 1 (by decide) (by decide)] at this
  simp at this

end Verif.OpSplit

namespace Verif.Host.Interp

/-- C69 in full: after every history, setting a model that can be loaded makes it the model that the interpreter runs. -/
def C69_full : Prop :=
  ∀ (cs : List Call) (s : State) (r : Bytes), calls fresh cs [] = .ok s r → ∀ (m : Model), m.OK → ∀ (idx : Int),
    ∃ s', calls fresh (cs ++ [.setModel m idx]) [] = .ok s' [] ∧ s'.obj = some (newEngine m)

theorem C69_full_refuted : ¬ C69_full := by
  intro h
  obtain ⟨s', h1, h2⟩ := h [.setModel (adder 10) 0] _ _ rfl (adder 20) (adder_ok 20) 0
  obtain ⟨s2, h3, h4⟩ := C69_first_model_wins_partial [.setModel (adder 10) 0] _ _ rfl (adder 20) 0
  rw [h1] at h3
  cases h3
  rw [h2] at h4
  have h5 : newEngine (adder 20) = newEngine (adder 10) := by simpa [given] using h4
  have h6 := congrArg (fun e : Engine => (e.model.run 0 [[1]]).2.1) h5
  revert h6
  decide

/-- C70 in full: no history of calls on an interpreter with one model leaves the buffers. -/
def C70_full : Prop :=
  ∀ (m : Model), m.OK → ∀ (cs : List Call), calls fresh (.setModel m 0 :: cs) [] ≠ .undefined

theorem C70_full_refuted : ¬ C70_full := fun h =>
  h (adder 0) (adder_ok 0) [.setTensor 0 [1, 2, 3, 4, 5] 0] (C70_long_value_refuted 0 _ (by decide))

end Verif.Host.Interp

namespace Verif.Host.Convert

/-- C73 in full: the compiler sees every parameter and the input file, whatever the names and values. -/
def C73_full : Prop :=
  ∀ (kinds : Str → Option Kind), kinds ['o'] = some .value → ∀ (filename outfile : Str) (params : List (Str × Option Str)),
    (∀ p ∈ params, p.1 ≠ [] ∧ '=' ∉ p.1 ∧ p.1.head? ≠ some '-' ∧ (kinds p.1).isSome) →
    parse kinds none (args filename outfile params) =
      some ⟨(['o'], outfile) :: params.map fun p => (p.1, given p.2), [filename]⟩

theorem C73_full_refuted : ¬ C73_full := by
  intro h
  have := h exampleKinds (by decide) "-in.tflite".toList "out.tflite".toList [] (by simp)
  rw [C73_dash_refuted] at this
  cases this

end Verif.Host.Convert

namespace Verif.Host.Driver

/-- C75 in full: a run that fails leaves every file as it was. -/
def C75_full : Prop :=
  ∀ (o : Opts) (l : Libs) (w : World) (fs : FS), (main o l w).1 ≠ 0 → ∀ x, after fs (main o l w).2 x = fs x

theorem C75_full_refuted : ¬ C75_full := by
  intro h
  have := h { output := myOut } someLibs { fine with tflmc := none } (fun _ => none) (by decide) myOut
  rw [C75_tflmc_refuted.2] at this
  cases this

/-- C76 in full: after a successful run every file has its contents, whatever the names. -/
def C76_full : Prop :=
  ∀ (o : Opts) (l : Libs) (w : World) (fs : FS), o.help = false → (main o l w).1 = 0 →
    ∀ nd ∈ weightFiles o w, after fs (main o l w).2 nd.1 = some nd.2

theorem C76_full_refuted : ¬ C76_full := by
  intro h
  have hc := C76_clash_refuted
  have := h { output := myOut, weightsFile := myOut, asArray := true, asArrayCount := 1 } someLibs fine (fun _ => none) rfl hc.1 _ hc.2.1
  rw [hc.2.2.1, hc.2.2.2] at this
  revert this
  decide

/-- C77 in full: an interrupted run never leaves a complete model beside weights of another run. -/
def C77_full : Prop :=
  ∀ (o : Opts) (l : Libs) (w : World) (fs : FS), (names o).Nodup → ∀ p, p <+: (main o l w).2 →
    (after fs p o.output = fs o.output ∧ ∀ nd ∈ weightFiles o w, after fs p nd.1 = fs nd.1) ∨
      ∀ nd ∈ weightFiles o w, after fs p nd.1 = some nd.2 ∧ after fs p o.output ≠ fs o.output

theorem C77_full_refuted : ¬ C77_full := by
  intro h
  obtain ⟨p, h1, h2, h3, h4⟩ := C77_old_model_refuted
  rcases h { output := myOut, weightsFile := myWeights } someLibs fine _ h2 p h1 with ⟨_, g⟩ | g
  · have := g (myWeights, [1, 2, 3]) (by decide)
    rw [h4] at this
    revert this
    decide
  · exact (g (myWeights, [1, 2, 3]) (by decide)).2 h3

end Verif.Host.Driver

namespace Verif.Host.Subgraphs

/-- C78 in full: whatever the order, every function finds its weights. -/
def C78_full : Prop :=
  ∀ (ext : Bool) (sched : List WFunc), (∀ f ∈ sched, f.OK) → ∀ f ∈ sched, Finds ext (weightsFile ext sched) f

theorem C78_full_refuted : ¬ C78_full := by
  intro h
  obtain ⟨f, hf, _, hn⟩ := C78_two_functions_refuted _ (List.Perm.refl _)
  refine hn (h false _ ?_ f hf)
  intro g hg
  simp only [List.mem_cons, List.not_mem_nil, or_false] at hg
  rcases hg with rfl | rfl <;> exact oneLoad_ok _

open Verif.MemPlan in
/-- C79 in full: whatever the functions and their order, the plan in the model is one for the main function. -/
def C79_full : Prop :=
  ∀ (before after_ : List PFunc) (main : PFunc), main.func.WF → main.func.InPlaceOK →
    PlanOf main.func (moduleAttrs (before ++ main :: after_))

theorem C79_full_refuted : ¬ C79_full := fun h =>
  C79_loop_refuted.2.2 (h [] [loopBody] loopMain Verif.MemPlan.exampleFunc_wf Verif.MemPlan.exampleFunc_inPlace)

end Verif.Host.Subgraphs
