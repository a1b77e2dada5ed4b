import Verif.Net.SplitQStep
/-! C115: TensorFlow Lite's convolutions are functions of their windows; slices above them. -/
namespace Verif.Net
open Verif.Tensor Verif.Move Verif.MemPlan Verif.Quant Verif.Image Verif.OpSplit

/-- The number in channel `c` of a pixel. -/
def pxNum (p : Px) (c : Nat) : ℤ := s8 ((p.getD c []).headD 0)

/-- TensorFlow Lite's sum over a window. -/
def winSum (kh kw nc : Nat) (x : Nat → Nat → Nat → ℤ) (w : Nat → Nat → Nat → ℤ) : ℤ :=
  ∑ a ∈ Finset.range kh, ∑ b ∈ Finset.range kw, ∑ c ∈ Finset.range nc, x a b c * w a b c

/-- A convolution as a function of its window. -/
def convK (r : ℚ → ℤ) (t : Conv.Compile.Types) (l : Conv.Compile.Leaf) (u : Int → Int → Px) : Px :=
  (List.range l.oc).map fun o => [toByte <| Conv.Compile.rqT t r (l.op.filter.qp.scale o) (l.op.bias.map fun b => b.qp.scale o) <|
    Conv.biasAt l.op.bias o + if l.dw then winSum l.op.filter.kh l.op.filter.kw 1 (fun a b _ => pxNum (u a b) o - t.zpi) (fun a b _ => l.op.filter.at 0 a b o - l.op.filter.qp.zp o)
      else winSum l.op.filter.kh l.op.filter.kw l.op.filter.c (fun a b c => pxNum (u a b) c - t.zpi) (fun a b c => l.op.filter.at o a b c - l.op.filter.qp.zp o)]

theorem winSum_congr {kh kw nc : Nat} {x x' w : Nat → Nat → Nat → ℤ} (h : ∀ a < kh, ∀ b < kw, ∀ c < nc, x a b c = x' a b c) :
    winSum kh kw nc x w = winSum kh kw nc x' w := by
  unfold winSum
  refine Finset.sum_congr rfl fun a ha => Finset.sum_congr rfl fun b hb => Finset.sum_congr rfl fun c hc => ?_
  rw [h a (Finset.mem_range.1 ha) b (Finset.mem_range.1 hb) c (Finset.mem_range.1 hc)]

theorem convK_windowed (r : ℚ → ℤ) (t : Conv.Compile.Types) (l : Conv.Compile.Leaf) : WindowFn (wopOf t l).win (convK r t l) := by
  intro u v h
  unfold convK
  have h : ∀ a < l.op.filter.kh, ∀ b < l.op.filter.kw, u a b = v a b := by
    intro a ha b hb
    exact h a b (by omega) (by show (a : Int) < (l.op.filter.kh : Nat); omega) (by omega) (by show (b : Int) < (l.op.filter.kw : Nat); omega)
  apply List.map_congr_left
  intro o _
  rw [winSum_congr (nc := 1) (fun a ha b hb c _ => by rw [h a ha b hb]), winSum_congr (nc := l.op.filter.c) (fun a ha b hb c _ => by rw [h a ha b hb])]

/-- The sum over the taps inside the input is the sum over the window of the image with the zero point outside. -/
theorem accum_window {py px : Nat → Option Nat} {kh kw nc : Nat} {x w y : Nat → Nat → Nat → ℤ}
    (h : ∀ a < kh, ∀ b < kw, ∀ c < nc, y a b c = match py a, px b with | some iy, some ix => x iy ix c | _, _ => 0) :
    Conv.accum py px kh kw nc x w = winSum kh kw nc y w := by
  unfold Conv.accum winSum
  refine Finset.sum_congr rfl fun a ha => Finset.sum_congr rfl fun b hb => ?_
  have h := h a (Finset.mem_range.1 ha) b (Finset.mem_range.1 hb)
  split
  · next iy ix h1 h2 =>
    simp only [h1, h2] at h
    exact Finset.sum_congr rfl fun c hc => by rw [h c (Finset.mem_range.1 hc)]
  · next hn =>
    symm
    apply Finset.sum_eq_zero
    intro c hc
    rw [h c (Finset.mem_range.1 hc)]
    split
    · next iy ix h1 h2 => exact (hn iy ix h1 h2).elim
    · ring

theorem fits_wopOf {t : Conv.Compile.Types} {l : Conv.Compile.Leaf} (hl : l.OK [1, l.ih, l.iw, l.ic]) (hic : 1 ≤ l.ic) : (wopOf t l).Fits := by
  refine ⟨⟨hl.kh, hl.kw, hl.sh, hl.sw, hl.dh, hl.dwf⟩, ⟨hl.ih, hl.iw, hic⟩, fun _ => rfl, ?_, ?_⟩
  · have := hl.oh
    unfold Conv.outSize at this
    show (l.oh : Int) = if decide (l.op.padding = .same) = true then _ else _
    cases hp : l.op.padding with
    | valid => rw [hp] at this; simp only [reduceCtorEq, decide_false, Bool.false_eq_true, if_false]; exact this
    | same => rw [hp] at this; simp only [decide_true, if_true]; exact this
  · have := hl.ow
    unfold Conv.outSize at this
    show (l.ow : Int) = if decide (l.op.padding = .same) = true then _ else _
    cases hp : l.op.padding with
    | valid => rw [hp] at this; simp only [reduceCtorEq, decide_false, Bool.false_eq_true, if_false]; exact this
    | same => rw [hp] at this; simp only [decide_true, if_true]; exact this

theorem pxNum_imgOf {h w c : Nat} {D : List Byte} {i j ch : Nat} (hc : ch < c) :
    pxNum ((imgOf h w c 1 D).px i j) ch = tensorOf (ty4 h w c 1) D [0, i, j, ch] := by
  unfold pxNum imgOf imgT tensorOf
  simp only [Int.toNat_natCast]
  rw [List.getD_eq_getElem?_getD, List.getElem?_map, List.getElem?_range hc]
  rfl

theorem pxNum_zero {c : Nat} {z : ℤ} (hz : -128 ≤ z ∧ z ≤ 127) {ch : Nat} (hc : ch < c) : pxNum (List.replicate c (List.replicate 1 (UInt8.ofInt z))) ch = z := by
  unfold pxNum
  rw [List.getD_eq_getElem?_getD, List.getElem?_replicate_of_lt hc, ← toByte_ofInt]
  exact s8_toByte hz

/-- The tap of TensorFlow Lite's operator reads the image at the place where the windowed operator does. -/
theorem tap_at {p : Conv.Padding} {n k s d y a : Nat} : Conv.tap p n k s d y a =
    if 0 ≤ (y * s + a * d - Conv.padBefore p n k s d : Int) ∧ (y * s + a * d - Conv.padBefore p n k s d : Int) < n then
      some (y * s + a * d - Conv.padBefore p n k s d : Int).toNat else none := rfl

theorem window_eq {t : Conv.Compile.Types} {l : Conv.Compile.Leaf} (hz : -128 ≤ t.zpi ∧ t.zpi ≤ 127) {D : List Byte} {py px : Int} {ty tx : Option Nat}
    (hty : ty = if 0 ≤ py ∧ py < l.ih then some py.toNat else none) (htx : tx = if 0 ≤ px ∧ px < l.iw then some px.toNat else none) {ch : Nat} (hch : ch < l.ic) :
    pxNum ((imgOf l.ih l.iw l.ic 1 D).at (List.replicate l.ic (List.replicate 1 (UInt8.ofInt t.zpi))) py px) ch - t.zpi =
      match (generalizing := false) ty, tx with | some iy, some ix => tensorOf (ty4 l.ih l.iw l.ic 1) D [0, iy, ix, ch] - t.zpi | _, _ => 0 := by
  unfold Img.at
  subst hty htx
  by_cases h1 : 0 ≤ py ∧ py < l.ih
  · by_cases h2 : 0 ≤ px ∧ px < l.iw
    · rw [if_pos ⟨h1.1, h1.2, h2.1, h2.2⟩, if_pos h1, if_pos h2]
      obtain ⟨i, rfl⟩ : ∃ i : Nat, py = i := ⟨_, (Int.toNat_of_nonneg h1.1).symm⟩
      obtain ⟨j, rfl⟩ : ∃ j : Nat, px = j := ⟨_, (Int.toNat_of_nonneg h2.1).symm⟩
      simp only [Int.toNat_natCast]
      rw [pxNum_imgOf hch]
    · rw [if_neg (fun h => h2 ⟨h.2.2.1, h.2.2.2⟩), if_neg h2, pxNum_zero hz hch]
      simp
  · rw [if_neg (fun h => h1 ⟨h.1, h.2.1⟩), if_neg h1, pxNum_zero hz hch]
    simp

theorem valid_bound {n k s d i a : Int} (hk : 1 ≤ k) (hs : 1 ≤ s) (hd : 1 ≤ d) (hi : 0 ≤ i) (hi2 : i < (n - eff k d + s) / s) (ha : 0 ≤ a) (ha2 : a < k) :
    0 ≤ i * s + a * d ∧ i * s + a * d < n := by
  have hle : (i + 1) * s ≤ n - eff k d + s := (Int.le_ediv_iff_mul_le (by omega)).1 (by omega)
  have e : (i + 1) * s = i * s + s := by ring
  have p1 : 0 ≤ i * s := Int.mul_nonneg hi (by omega)
  have p2 : 0 ≤ a * d := Int.mul_nonneg ha (by omega)
  have p3 : a * d ≤ (k - 1) * d := Int.mul_le_mul_of_nonneg_right (by omega) (by omega)
  unfold eff at hle
  omega

/-- The operator of TensorFlow Lite on a stored tensor is the windowed operator on its image. -/
theorem conv_image (r : ℚ → ℤ) (t : Conv.Compile.Types) (hz : -128 ≤ t.zpi ∧ t.zpi ≤ 127) {l : Conv.Compile.Leaf} (hl : l.OK [1, l.ih, l.iw, l.ic]) (hic : 1 ≤ l.ic)
    (D : List Byte) {y xx : Nat} (hy : y < l.oh) (hx : xx < l.ow) :
    ((wopOf t l).apply (convK r t l) (imgOf l.ih l.iw l.ic 1 D)).px y xx =
      (List.range l.oc).map fun o => [toByte (Conv.Compile.tflConv r t l (tensorOf (ty4 l.ih l.iw l.ic 1) D) [0, y, xx, o])] := by
  have hf := fits_wopOf (t := t) hl hic
  obtain ⟨X, hX⟩ : ∃ X, X = imgOf l.ih l.iw l.ic 1 D := ⟨_, rfl⟩
  obtain ⟨z, hzz⟩ : ∃ z : Px, z = List.replicate l.ic (List.replicate 1 (UInt8.ofInt t.zpi)) := ⟨_, rfl⟩
  have hXh : X.h = l.ih := by rw [hX]; rfl
  have hXw : X.w = l.iw := by rw [hX]; rfl
  -- the window
  have hwin : ((wopOf t l).apply (convK r t l) X).px y xx = convK r t l fun a b =>
      X.at z (y * l.op.sh + a * l.op.dh - Conv.padBefore l.op.padding l.ih l.op.filter.kh l.op.sh l.op.dh)
        (xx * l.op.sw + b * l.op.dw - Conv.padBefore l.op.padding l.iw l.op.filter.kw l.op.sw l.op.dw) := by
    unfold WOp.apply
    cases hp : l.op.padding with
    | same =>
      rw [if_pos (show (wopOf t l).same = true from by simp [wopOf, hp])]
      unfold convSame
      simp only
      rw [hXh, hXw, hzz]
      rfl
    | valid =>
      rw [if_neg (show ¬(wopOf t l).same = true from by simp [wopOf, hp])]
      unfold convValid
      simp only
      apply convK_windowed r t l
      intro a b ha ha2 hb hb2
      have oh := hl.oh
      have ow := hl.ow
      rw [hp] at oh ow
      simp only [Conv.outSize] at oh ow
      obtain ⟨g1, g2⟩ := valid_bound (n := l.ih) (k := l.op.filter.kh) (s := l.op.sh) (d := l.op.dh) (i := y) (a := a) (by have := hl.kh; omega)
        (by have := hl.sh; omega) (by have := hl.dh; omega) (by omega) (by rw [← oh]; omega) ha ha2
      obtain ⟨g3, g4⟩ := valid_bound (n := l.iw) (k := l.op.filter.kw) (s := l.op.sw) (d := l.op.dw) (i := xx) (a := b) (by have := hl.kw; omega)
        (by have := hl.sw; omega) (by have := hl.dwf; omega) (by omega) (by rw [← ow]; omega) hb hb2
      simp only [Conv.padBefore, sub_zero]
      rw [Img.at_pos]
      · rfl
      · rw [hXh, hXw]
        exact ⟨g1, g2, g3, g4⟩
  rw [← hX, hwin]
  unfold convK
  apply List.map_congr_left
  intro o ho
  rw [List.mem_range] at ho
  congr 2
  unfold Conv.Compile.tflConv
  have hc1 : l.ic = l.op.filter.c := hl.ch
  cases hd : l.dw with
  | true =>
    have ho : o < l.op.filter.c := by simpa [Conv.Compile.Leaf.oc, hd] using ho
    simp only [if_true]
    unfold Conv.dwconv
    simp only [List.getD_cons_zero, List.getD_cons_succ]
    congr 2
    symm
    apply accum_window
    intro a ha b hb c hc
    rw [hX, hzz]
    exact window_eq hz rfl rfl (by rw [hc1]; exact ho)
  | false =>
    have ho : o < l.op.filter.o := by simpa [Conv.Compile.Leaf.oc, hd] using ho
    simp only [Bool.false_eq_true, if_false]
    unfold Conv.conv2d
    simp only [List.getD_cons_zero, List.getD_cons_succ]
    have hg : o / (l.op.filter.o / (l.ic / l.op.filter.c)) = 0 := by
      rw [hc1, Nat.div_self (by omega), Nat.div_one]
      exact Nat.div_eq_of_lt ho
    rw [hg]
    simp only [Nat.zero_mul, Nat.zero_add]
    congr 2
    symm
    apply accum_window
    intro a ha b hb c hc
    rw [hX, hzz]
    exact window_eq hz rfl rfl (by rw [hc1]; exact hc)

theorem tflConv_range {r : ℚ → ℤ} (hr : Nearest r) {t : Conv.Compile.Types} (ht : t.OK) (hact : t.act = .none ∨ t.act = .relu) (l : Conv.Compile.Leaf)
    (x : Conv.Tensor) (idx : List Nat) : -128 ≤ Conv.Compile.tflConv r t l x idx ∧ Conv.Compile.tflConv r t l x idx ≤ 127 := by
  obtain ⟨y, hy⟩ := tflConv_real hr t l x idx
  have h8 := outQ_is8 ht
  rw [← into_self t]
  rcases hact with h | h
  · rw [h, (hy _ h8).1]
    exact q_range8 h8 _ _
  · rw [h, (hy _ h8).2]
    exact q_range8 h8 _ _

theorem wopOf_raised (t : Conv.Compile.Types) (l : Conv.Compile.Leaf) (r : Raised) : wopOf t (raisedLeaf l ((wopOf t l).clone r)) = (wopOf t l).clone r := rfl

/-- The clone is a well-formed convolution. -/
theorem raisedLeaf_ok {t : Conv.Compile.Types} {l : Conv.Compile.Leaf} (hsrc : l.src = []) (hl : l.OK [1, l.ih, l.iw, l.ic]) (hic : 1 ≤ l.ic) (hd : l.op.dh = 1) (hdw : l.op.dw = 1)
    {r : Raised} {s : Nat} (h1 : 1 ≤ r.size) (hp : 0 ≤ r.padTop ∧ 0 ≤ r.padBottom ∧ 0 ≤ r.padLeft ∧ 0 ≤ r.padRight)
    (hh : raisedTypeHeight (wopOf t l).win r = s) (hw : raisedTypeWidth (wopOf t l).win r l.iw = l.ow) :
    (raisedLeaf l ((wopOf t l).clone r)).OK [1, ((wopOf t l).clone r).ih, ((wopOf t l).clone r).iw, l.ic] := by
  obtain ⟨⟨-, ⟨i1, i2, -⟩, -, f1, f2⟩, -, -⟩ := clone_fits (fits_wopOf (t := t) hl hic) hd hdw h1 hp hh hw
  refine ⟨?_, hl.ch, fun h => ?_, fun h => ?_, hl.kh, hl.kw, hl.sh, hl.sw, hl.dh, hl.dwf, i1, i2, ?_, ?_, hl.scales, hl.zp, hl.small⟩
  · show Conv.Compile.PadsOK _ l.src _
    rw [hsrc]
    exact rfl
  · obtain ⟨a, b, c, d⟩ := hl.conv h
    exact ⟨a, b, c, d⟩
  · obtain ⟨a, b, c, d, e⟩ := hl.dwise h
    exact ⟨a, b, c, d, e⟩
  · exact f1
  · exact f2

/-- **The slice of a convolution is the convolution of the slice**, padded as the pass pads it. -/
theorem conv_raised {r : ℚ → ℤ} (hr : Nearest r) {t : Conv.Compile.Types} (ht : t.OK) (hact : t.act = .none ∨ t.act = .relu) {l : Conv.Compile.Leaf}
    (hsrc : l.src = []) (hl : l.OK [1, l.ih, l.iw, l.ic]) (hic : 1 ≤ l.ic) (hd : l.op.dh = 1) (hdw : l.op.dw = 1) {b s : Nat} (hs : 1 ≤ s) (hbs : b + s ≤ l.oh)
    (h0 : 0 ≤ ((wopOf t l).raised b s).begin_) (h1 : 1 ≤ ((wopOf t l).raised b s).size)
    (h2 : ((wopOf t l).raised b s).begin_ + ((wopOf t l).raised b s).size ≤ l.ih) {w1 : WOp} (hw1 : w1 = (wopOf t l).clone ((wopOf t l).raised b s)) {D D2 : List Byte}
    (hi : (imgOf w1.ih w1.iw l.ic 1 D2).Same (Image.pad (List.replicate l.ic (List.replicate 1 (UInt8.ofInt t.zpi))) ((wopOf t l).raised b s).padTop
      ((wopOf t l).raised b s).padBottom ((wopOf t l).raised b s).padLeft ((wopOf t l).raised b s).padRight
      (sliceRows ((wopOf t l).raised b s).begin_ ((wopOf t l).raised b s).size (imgOf l.ih l.iw l.ic 1 D)))) {y xx o : Nat} (hy : y < s) (hx : xx < l.ow) (ho : o < l.oc) :
    Conv.Compile.tflConv r t (raisedLeaf l w1) (tensorOf (ty4 w1.ih w1.iw l.ic 1) D2) [0, y, xx, o] =
      Conv.Compile.tflConv r t l (tensorOf (ty4 l.ih l.iw l.ic 1) D) [0, b + y, xx, o] := by
  have hf := fits_wopOf (t := t) hl hic
  obtain ⟨p1, p2, p3, p4, p5⟩ := raise_facts hf hd hdw hs hbs h0 h1 h2
  have hok := raisedLeaf_ok (t := t) hsrc hl hic hd hdw h1 p1 p3 p4
  obtain ⟨-, ch, cw⟩ := clone_fits hf hd hdw h1 p1 p3 p4
  rw [← hw1] at ch cw hok
  have key := (convValid_congr (wopOf t l).win hf.ok (convK_windowed r t l) hi).trans (p5 (convK r t l) (convK_windowed r t l) (imgOf l.ih l.iw l.ic 1 D) rfl rfl)
  have hy1 : y < (raisedLeaf l w1).oh := by show y < w1.oh; rw [ch]; exact hy
  have hx1 : xx < (raisedLeaf l w1).ow := by show xx < w1.ow; rw [cw]; exact hx
  have e1 := conv_image r t ht.zpi (l := raisedLeaf l w1) hok hic D2 hy1 hx1
  have e2 := conv_image r t ht.zpi hl hic D (y := b + y) (xx := xx) (by omega) hx
  have ew : wopOf t (raisedLeaf l w1) = w1 := by rw [hw1]; exact wopOf_raised t l _
  rw [ew] at e1
  have hap : w1.apply (convK r t (raisedLeaf l w1)) (imgOf (raisedLeaf l w1).ih (raisedLeaf l w1).iw (raisedLeaf l w1).ic 1 D2) =
      convValid (wopOf t l).win (convK r t l) (imgOf w1.ih w1.iw l.ic 1 D2) := by
    unfold WOp.apply
    rw [if_neg (by rw [hw1]; exact Bool.false_ne_true)]
    have : w1.win = (wopOf t l).win := by rw [hw1]; rfl
    rw [this]
    rfl
  rw [hap] at e1
  have h3 := key.2.2 y xx (by omega) ?_ (by omega) ?_
  · rw [e1] at h3
    have h4 : ((sliceRows (b : Int) s ((wopOf t l).apply (convK r t l) (imgOf l.ih l.iw l.ic 1 D))).px y xx) =
        ((wopOf t l).apply (convK r t l) (imgOf l.ih l.iw l.ic 1 D)).px ((b + y : Nat) : Int) xx := by
      show ((wopOf t l).apply (convK r t l) (imgOf l.ih l.iw l.ic 1 D)).px ((b : Int) + y) xx = _
      rw [Nat.cast_add]
    rw [h4, e2] at h3
    have h5 := List.map_eq_map_iff.1 h3 o (List.mem_range.2 ho)
    have h6 := congrArg s8 (List.head_eq_of_cons_eq h5)
    rwa [s8_toByte (tflConv_range hr ht hact _ _ _), s8_toByte (tflConv_range hr ht hact _ _ _)] at h6
  · rw [key.1]
    show (y : Int) < s
    omega
  · rw [key.2.1]
    show (xx : Int) < ((wopOf t l).apply (convK r t l) (imgOf l.ih l.iw l.ic 1 D)).w
    have : ((wopOf t l).apply (convK r t l) (imgOf l.ih l.iw l.ic 1 D)).w = l.ow := by
      have := hf.2.2.2.2
      unfold WOp.apply
      split
      · next h => rw [if_pos h] at this; exact this.symm
      · next h => rw [if_neg h] at this; exact this.symm
    rw [this]
    omega

end Verif.Net
