import Verif.Conv.Wide
/-!
C110: properties of compiled 16-bit convolutions.
-/
namespace Verif.Conv.Compile
open Verif.Tensor Verif.Move Verif.Image Verif.Quant Verif.Conv Verif.TFL

/-! ### The accumulator bound survives the rewriting -/

theorem all_and {Q Q' : Leaf → Prop} : ∀ n : Net, n.All Q → n.All Q' → n.All fun l => Q l ∧ Q' l
  | .conv _, h, h' => ⟨h, h'⟩
  | .slice _ e, h, h' => all_and e h h'
  | .cat _ a b, h, h' => ⟨all_and a h.1 h'.1, all_and b h.2 h'.2⟩
  | .nil, _, _ => trivial

theorem sound_and {F : Nat} {s0 : List Nat} {oh ow : Nat} {Q Q' : Leaf → Prop} {R : Leaf → Net → Prop} (hR : Sound F s0 oh ow Q R)
    (hQ : ∀ l n, R l n → l.OK s0 → Q l → Q' l → n.All Q') : Sound F s0 oh ow (fun l => Q l ∧ Q' l) R := by
  intro l n c v hv h hi hq
  obtain ⟨h1, h2, h3⟩ := hR l n c v hv h hi hq.1
  exact ⟨h1, all_and n h2 (hQ l n h hi.1 hq.1 hq.2), h3⟩

/-- What is kept: a plain convolution whose accumulators fit 32 bits. -/
def Wide (l : Leaf) : Prop := l.dw = false ∧ l.Fits32

/-- Sum of the magnitudes of a channel's filter. -/
def l1 (f : Filter) (o : Nat) : Int :=
  ∑ a ∈ Finset.range f.kh, ∑ b ∈ Finset.range f.kw, ∑ c ∈ Finset.range f.c, |f.at o a b c|

theorem l1_congr {f g : Filter} {o o' : Nat} (hh : f.kh = g.kh) (hw : f.kw = g.kw) (hc : f.c = g.c)
    (h : ∀ a < g.kh, ∀ b < g.kw, ∀ c < g.c, f.at o a b c = g.at o' a b c) : l1 f o = l1 g o' := by
  unfold l1
  rw [hh, hw, hc]
  refine Finset.sum_congr rfl fun a ha => Finset.sum_congr rfl fun b hb => Finset.sum_congr rfl fun c hc => ?_
  rw [h a (Finset.mem_range.1 ha) b (Finset.mem_range.1 hb) c (Finset.mem_range.1 hc)]

theorem l1_pad3 {p : Nat} {f : Filter} (ok : f.OK) (hc0 : 0 < f.c) {o : Nat} (ho : o < f.o) : l1 (padFilter3 0 p f) o = l1 f o := by
  unfold l1
  refine Finset.sum_congr rfl fun a ha => Finset.sum_congr rfl fun b hb => ?_
  show ∑ c ∈ Finset.range (f.c + p), |(padFilter3 0 p f).at o a b c| = _
  rw [Finset.sum_range_add]
  have e1 : ∀ c ∈ Finset.range f.c, |(padFilter3 0 p f).at o a b c| = |f.at o a b c| := by
    intro c hc
    rw [padFilter3_at ok hc0 ho (Finset.mem_range.1 ha) (Finset.mem_range.1 hb) (by have := Finset.mem_range.1 hc; omega),
      if_pos (Finset.mem_range.1 hc)]
  have e2 : ∀ c ∈ Finset.range p, |(padFilter3 0 p f).at o a b (f.c + c)| = 0 := by
    intro c hc
    rw [padFilter3_at ok hc0 ho (Finset.mem_range.1 ha) (Finset.mem_range.1 hb) (by have := Finset.mem_range.1 hc; omega),
      if_neg (by omega), abs_zero]
  rw [Finset.sum_congr rfl e1, Finset.sum_congr rfl e2, Finset.sum_const_zero, add_zero]

theorem rep0 (n i : Nat) : (List.replicate n (0 : Int))[i]?.getD 0 = 0 := by
  cases hg : (List.replicate n (0 : Int))[i]? with
  | none => rfl
  | some v => exact List.eq_of_mem_replicate (List.mem_of_getElem? hg)

theorem pad0_zero {p : Nat} {f : Filter} (ok : f.OK) {o a b c : Nat} (ho : f.o ≤ o) : (padFilter0 0 p f).at o a b c = 0 := by
  unfold Filter.at Filter.shape padFilter0
  dsimp only
  rw [ravel4, List.getD_eq_getElem?_getD]
  have hl : f.data.length ≤ ((o * f.kh + a) * f.kw + b) * f.c + c := by
    rw [ok]
    unfold Filter.shape
    rw [prod4]
    have : f.o * f.kh * f.kw * f.c ≤ ((o * f.kh + a) * f.kw + b) * f.c := by
      apply Nat.mul_le_mul_right
      have h1 : f.o * f.kh * f.kw ≤ (o * f.kh + a) * f.kw := by
        apply Nat.mul_le_mul_right
        have := Nat.mul_le_mul_right f.kh ho
        omega
      omega
    omega
  rw [List.getElem?_append_right hl]
  exact rep0 _ _

theorem at_le {f : Filter} {o : Nat} : 0 ≤ l1 f o :=
  Finset.sum_nonneg fun _ _ => Finset.sum_nonneg fun _ _ => Finset.sum_nonneg fun _ _ => abs_nonneg _

theorem fits_iff (l : Leaf) : l.Fits32 ↔ ∀ o < l.op.filter.o, |biasAt l.op.bias o| + 32768 * l1 l.op.filter o < 2 ^ 31 := Iff.rfl

theorem wide_tfl (l : Leaf) (n : Net) (h : TflRule l n) (hq : Wide l) : n.All Wide := by
  cases h with
  | same h =>
    unfold explicitPad at h
    split at h
    · have := Option.some.inj h; rw [← this]; exact hq
    · cases h
  | swap _ _ => exact hq

theorem bias_pad_zero {op : ConvOp} (ok : op.OK) {p o : Nat} (ho : op.filter.o ≤ o) : biasAt (op.bias.map (padBias p)) o = 0 := by
  cases hb : op.bias with
  | none => rfl
  | some b =>
    obtain ⟨h1, -⟩ := ok.bias b hb
    show (b.data ++ List.replicate p 0).getD o 0 = 0
    rw [List.getD_eq_getElem?_getD, List.getElem?_append_right (by omega)]
    exact rep0 _ _

theorem wide_pad {al : Nat} {s0 : List Nat} (l : Leaf) (n : Net) (h : PadRuleN al l n) (ok : l.OK s0) (hq : Wide l) : n.All Wide := by
  obtain ⟨hd, hf⟩ := hq
  have okc := ok.conv hd
  rw [fits_iff] at hf
  cases h with
  | @input p op _ h =>
    refine ⟨hd, (fits_iff _).2 ?_⟩
    unfold padConvInput at h
    dsimp only at h
    split at h
    · cases h
    · obtain ⟨rfl, rfl⟩ := Prod.mk.inj (Option.some.inj h)
      intro o ho
      have ho : o < l.op.filter.o := ho
      show |biasAt l.op.bias o| + 32768 * l1 (padFilter3 0 _ l.op.filter) o < 2 ^ 31
      rw [l1_pad3 okc.filter okc.depth ho]
      exact hf o ho
  | @output p op s _ h =>
    refine ⟨hd, (fits_iff _).2 ?_⟩
    unfold padConvOutput at h
    simp only [List.getD_cons_zero, List.getD_cons_succ] at h
    split at h
    · cases h
    · obtain ⟨-, h⟩ := Prod.mk.inj (Option.some.inj h)
      obtain ⟨rfl, -⟩ := Prod.mk.inj h
      generalize alignPad al l.op.filter.o = p
      intro o _
      show |biasAt (l.op.bias.map (padBias p)) o| + 32768 * l1 (padFilter0 0 p l.op.filter) o < 2 ^ 31
      by_cases ho : o < l.op.filter.o
      · rw [(biasAt_pad okc ho).1, l1_congr (f := padFilter0 0 p l.op.filter) (g := l.op.filter) (o := o) (o' := o) rfl rfl rfl fun a ha b hb c hc => padFilter0_at okc.filter ho ha hb hc]
        exact hf o ho
      · have e : l1 (padFilter0 0 p l.op.filter) o = 0 := by
          unfold l1
          refine Finset.sum_eq_zero fun a _ => Finset.sum_eq_zero fun b _ => Finset.sum_eq_zero fun c _ => ?_
          rw [pad0_zero okc.filter (by omega), abs_zero]
        rw [bias_pad_zero okc (by omega), e]
        decide
  | depthwise h _ => exact absurd (hd.symm.trans h) (by decide)

theorem wide_cats {s0 : List Nat} {l : Leaf} (ok : l.OK s0) (hd : l.dw = false)
    (hf : ∀ o < l.op.filter.o, |biasAt l.op.bias o| + 32768 * l1 l.op.filter o < 2 ^ 31) :
    ∀ (ns : List Nat) (e : Nat), e + ns.sum ≤ l.op.filter.o → (cats l (splitConvs l.op e ns)).All Wide
  | [], _, _ => trivial
  | n :: ns, e, hs => by
    rw [List.sum_cons] at hs
    refine ⟨⟨hd, (fits_iff _).2 ?_⟩, wide_cats ok hd hf ns (e + n) (by omega)⟩
    intro o ho
    have ho : o < n := ho
    show |biasAt (splitConv l.op e n).bias o| + 32768 * l1 (splitConv l.op e n).filter o < 2 ^ 31
    rw [l1_congr (f := (splitConv l.op e n).filter) (g := l.op.filter) (o := o) (o' := e + o) rfl rfl rfl fun a ha b hb c hc => splitConv_at ho ha hb hc]
    have hb : biasAt (splitConv l.op e n).bias o = biasAt l.op.bias (e + o) := by
      unfold splitConv biasAt
      dsimp only
      cases l.op.bias with
      | none => rfl
      | some b => exact getD_take_drop _ _ _ _ _ ho
    rw [hb]
    exact hf _ (by omega)

theorem wide_split {s0 : List Nat} {limit : Nat} (l : Leaf) (n : Net) (h : SplitRule limit l n) (ok : l.OK s0)
    (h4 : l.dw = false → 4 ∣ l.op.filter.o) (hq : Wide l) : n.All Wide := by
  obtain ⟨hd, hf⟩ := hq
  cases h with
  | @split parts _ h =>
    obtain ⟨hn, -, rfl⟩ := channelSplit_some h
    exact wide_cats ok hd ((fits_iff _).1 hf) _ 0 (by rw [splitSizes_sum (h4 hd) (by omega)]; omega)

/-- After all passes every convolution is plain, `VALID`, and its accumulators fit 32 bits. -/
theorem pipeline_wide {al : Nat} (hal : 0 < al) (hal4 : 4 ∣ al) {F : Nat} {s0 : List Nat} (hs0 : s0.length = 4) {oh ow limit : Nat} {a e : Net}
    (h : PipelineN al limit a e) (c v : Nat) (hv : v ≤ c) (hi : a.Inv F s0 oh ow c v) (hw : a.All Wide) :
    e.All fun l => l.op.padding = .valid ∧ Wide l := by
  obtain ⟨b, c1, d, d', h1, h2, h3, h4, h5, h6, h7⟩ := h
  obtain ⟨i1, q1, -⟩ := steps_sound (sound_and (Q' := Wide) (tfl_sound F s0 hs0 oh ow) fun l n h _ _ hq => wide_tfl l n h hq) h1 c v hv hi
    (all_and _ (all_true _) hw)
  obtain ⟨i2, q2, -⟩ := steps_sound (sound_and (Q' := Wide) (pad_sound hal F s0 oh ow (· = .valid)) fun l n h ok _ hq => wide_pad l n h ok hq) h3 c v hv i1
    (all_and _ (done_same _ h2) (Net.All.mono (fun _ h => h.2) _ q1))
  obtain ⟨i3, q3, -⟩ := steps_sound (sound_and (Q' := Wide) (split_sound F s0 oh ow limit) fun l n h ok h4 hq => wide_split l n h ok h4.2 hq) h5 c v hv i2
    (all_and _ (done_pad hal hal4 _ h4 (Net.All.mono (fun _ h => h.1) _ q2)) (Net.All.mono (fun _ h => h.2) _ q2))
  obtain ⟨i4, q4, -⟩ := steps_sound (sound_and (Q' := Wide) (pad_sound hal F s0 oh ow (· = .valid)) fun l n h ok _ hq => wide_pad l n h ok hq) h6 c v hv i3
    (Net.All.mono (fun _ h => ⟨h.1.1, h.2⟩) _ q3)
  refine steps_all (Q := fun l => l.op.padding = .valid ∧ Wide l) ?_ h7 q4
  intro l n h hq
  refine all_and _ ?_ (wide_tfl l n h hq.2)
  cases h with
  | same h =>
    unfold explicitPad at h
    split at h
    · have := Option.some.inj h; rw [← this]; rfl
    · cases h
  | swap _ _ => exact hq.1

/-! ### Lowering -/

theorem eff_out {n k s d out : Nat} (h : (out : Int) = outSize .valid n k s d) : (out : Int) = ((n : Int) - (((k : Int) - 1) * d + 1) + s) / s := by
  rw [h]
  unfold outSize eff
  rfl

/-- The pads of a `VALID` convolution are zero. -/
theorem getPads_valid {s0 : List Nat} {l : Leaf} (ok : l.OK s0) (hv : l.op.padding = .valid) (t : Types) :
    getPads (l.fake16 t) = some ⟨0, 0, 0, 0⟩ := by
  have e1 := eff_out (hv ▸ ok.oh)
  have e2 := eff_out (hv ▸ ok.ow)
  have w : ∀ n k d s : Nat, 1 ≤ s → 1 ≤ d → (∃ out : Nat, (out : Int) = ((n : Int) - (((k : Int) - 1) * d + 1) + s) / s) →
      ∃ z, windowed n k d s .valid = some (z, 0, 0) := by
    intro n k d s hs hd ⟨out, he⟩
    unfold windowed
    rw [if_neg (by omega)]
    dsimp only
    rw [if_neg (by rw [← he]; omega)]
    exact ⟨_, rfl⟩
  obtain ⟨z1, h1⟩ := w l.ih l.op.filter.kh l.op.dh l.op.sh ok.sh ok.dh ⟨_, e1⟩
  obtain ⟨z2, h2⟩ := w l.iw l.op.filter.kw l.op.dw l.op.sw ok.sw ok.dwf ⟨_, e2⟩
  unfold getPads Leaf.fake16 Leaf.fake
  dsimp only
  rw [hv, h1, h2]

/-- What a 16-bit convolution without padding is lowered to: the 16-bit direct kernel if both channel counts are multiples of 16. -/
theorem lower16_eq {s0 : List Nat} {l : Leaf} (ok : l.OK s0) (hd : l.dw = false) (hv : l.op.padding = .valid) (cfg : Cfg) (lib : Lib) (t : Types) :
    lower cfg lib (l.fake16 t) = if l.ic % 16 = 0 ∧ l.oc % 16 = 0 then
      some { kt := .validDirectI16, ot := .group, pads := ⟨0, 0, 0, 0⟩, startRow := 0, startCol := 0, sh := l.op.sh, sw := l.op.sw, dh := l.op.dh
             dwf := l.op.dw, ih := l.ih, iw := l.iw, kh := l.op.filter.kh, kw := l.op.filter.kw, ic := l.ic, oc := l.oc
             mb := mulsBias cfg (l.fake t) } else none := by
  unfold lower
  rw [getPads_valid ok hv t]
  dsimp only
  have hk : kernelType (l.fake16 t) (toBePadded ⟨0, 0, 0, 0⟩) = if l.ic % 16 = 0 ∧ l.oc % 16 = 0 then some .validDirectI16 else none := by
    unfold kernelType
    rw [if_neg (by show ¬ l.dw = true; rw [hd]; decide), if_pos (show (l.fake16 t).bits = 16 from rfl)]
    rfl
  rw [hk]
  by_cases h : l.ic % 16 = 0 ∧ l.oc % 16 = 0
  · rw [if_pos h, if_pos h]
    rfl
  · rw [if_neg h, if_neg h]

/-- The scale test: one where a channel's filter scale lets the kernel represent the multiplier. -/
def scaleTest (t : Types) (top : ℚ) : Requant := fun s _ _ => if t.inS * s / t.outS ≤ top then 1 else 0

theorem sat16_clamp (z : Int) : ((clamp (-32768) 32767 z : Int) : ℚ) = sat16 z := by
  unfold clamp sat16
  push_cast
  rfl

theorem sat16_dist (u v : ℚ) : |sat16 u - sat16 v| ≤ |u - v| := by
  unfold sat16
  have h1 := abs_max_sub_max_le_abs (min 32767 u) (min 32767 v) (-32768 : ℚ)
  have h2 := abs_min_sub_min_le_max (32767 : ℚ) u 32767 v
  rw [sub_self, abs_zero, max_eq_right (abs_nonneg _)] at h2
  rw [max_comm (-32768 : ℚ), max_comm (-32768 : ℚ)]
  exact le_trans h1 h2

theorem srcVal_range16 : ∀ (ps : List PadStep) (s u : List Nat) (f : Tensor), s.length = 4 → PadsOK s ps u →
    (∀ i, InShape s i → -32768 ≤ f i ∧ f i ≤ 32767) → ∀ i, InShape u i → -32768 ≤ srcVal 0 ps f i ∧ srcVal 0 ps f i ≤ 32767
  | [], s, u, f, _, hp, h => by
    have : s = u := hp
    subst this; exact h
  | p :: ps, s, u, f, hs, hp, h => by
    obtain ⟨h1, h2, h3⟩ := hp
    have hl : (padded s p.vals).length = 4 := by rw [padded_length s _ (by omega)]; exact hs
    refine srcVal_range16 ps _ u _ hl h3 ?_
    intro i hi
    have := inShape_length _ _ hi
    exact padT_range (fun v : Int => -32768 ≤ v ∧ v ≤ 32767) 0 (by decide) _ _ _ _ (by rw [lows_length, h2, h1, hs])
      (by rw [this, hl, h1, hs]) (by rw [h1]; exact h)

theorem absDot_le (m : MB) (o : Nat) (p : Nat → Nat → Nat → Int) (hp : ∀ a b c, -32768 ≤ p a b c ∧ p a b c ≤ 32767) :
    absDot m o p ≤ 32768 * ∑ a ∈ Finset.range m.kh, ∑ b ∈ Finset.range m.kw, ∑ c ∈ Finset.range m.nc, |m.w o a b c| := by
  unfold absDot
  rw [Finset.mul_sum]
  refine Finset.sum_le_sum fun a _ => ?_
  rw [Finset.mul_sum]
  refine Finset.sum_le_sum fun b _ => ?_
  rw [Finset.mul_sum]
  refine Finset.sum_le_sum fun c _ => ?_
  rw [abs_mul]
  refine mul_le_mul_of_nonneg_right ?_ (abs_nonneg _)
  have := hp a b c
  exact abs_le.2 ⟨by omega, by omega⟩

theorem leaf_near16 {cfg : Cfg} {lib : Lib} {lib16 : Lib16} (hlib : lib16.OK) {r : ℚ → ℤ} (hr : Nearest r) {t : Types} (hin : 0 < t.inS)
    (hout : 0 < t.outS) (hzi : t.zpi = 0) (hzo : t.zpo = 0) (hact : t.act = .none) {s0 : List Nat} (hs0 : s0.length = 4) {l : Leaf}
    (ok : l.OK s0) (hv : l.op.padding = .valid) (hw : Wide l) {x : Tensor} (hx : ∀ i, InShape s0 i → -32768 ≤ x i ∧ x i ≤ 32767)
    {idx : List Nat} (hidx : InShape [1, l.oh, l.ow, l.oc] idx)
    (hsc : ∀ o' < l.oc, l.op.filter.qp.scale (idx.getD 3 0) ≤ cfg.factor * l.op.filter.qp.scale o')
    (htop : l.value (scaleTest t lib16.top) t.zpi x idx = 1) :
    ((|l.run16 cfg lib lib16 r t x idx - l.value (rqT16 t r) t.zpi x idx| : ℤ) : ℚ) ≤ lib16.err + 1 / 2 := by
  have herr := hlib.nonneg
  unfold Leaf.run16
  cases hl : l.lowered16 cfg lib t with
  | none =>
    dsimp only
    rw [sub_self, abs_zero, Int.cast_zero]
    linarith
  | some lo =>
    dsimp only
    unfold Leaf.lowered16 at hl
    by_cases ha : fakeApplies16 (l.fake16 t) = true
    swap
    · rw [if_neg ha] at hl; cases hl
    rw [if_pos ha, lower16_eq ok hw.1 hv] at hl
    split at hl
    swap
    · cases hl
    obtain ⟨bt, y, xx, o, rfl, hbt, hy, hxx, ho⟩ := in4 hidx
    simp only [List.getD_cons_zero, List.getD_cons_succ] at hsc
    have hlo := (Option.some.inj hl).symm
    have hd := hw.1
    have hoc : l.oc = l.op.filter.o := by unfold Leaf.oc; rw [hd]; rfl
    have hmb : lo.mb = mulsBias cfg (l.fake t) := by rw [hlo]
    have hdw : lo.mb.dw = false := by rw [hmb]; exact hd
    have fok := fake_ok ok (t := t) hin hout
    rw [value_eq ok _ _ x ho] at htop ⊢
    obtain ⟨acc, hacc⟩ : ∃ acc : Int, acc = biasAt l.op.bias o +
        accum (fun a => tap l.op.padding l.ih l.op.filter.kh l.op.sh l.op.dh y a)
          (fun b => tap l.op.padding l.iw l.op.filter.kw l.op.sw l.op.dw xx b) l.op.filter.kh l.op.filter.kw
          (if l.dw then 1 else l.op.filter.c)
          (fun iy ix c => srcVal t.zpi l.src x [bt, iy, ix, if l.dw then o else c] - t.zpi)
          (fun a b c => if l.dw then l.op.filter.at 0 a b o - l.op.filter.qp.zp o else l.op.filter.at o a b c - l.op.filter.qp.zp o) := ⟨_, rfl⟩
    rw [← hacc]
    rw [← hacc] at htop
    -- the multiplier
    have hmul : lo.mb.mul o = t.inS * l.op.filter.qp.scale o / t.outS := by
      rw [hmb]
      unfold MB.mul mulsBias
      dsimp only
      unfold effMuls
      have e : (if (l.fake t).dw then (l.fake t).filter.c else (l.fake t).filter.o) = l.oc := rfl
      rw [e]
      refine unclamped_at cfg.factor l.oc _ o ho ?_
      intro o' ho'
      have := hsc o' ho'
      show t.inS * l.op.filter.qp.scale o / t.outS ≤ cfg.factor * (t.inS * l.op.filter.qp.scale o' / t.outS)
      rw [← mul_div_assoc]
      apply div_le_div_of_nonneg_right _ hout.le
      nlinarith
    have hpos : 0 < lo.mb.mul o := by
      rw [hmul]
      have := ok.scales o ho
      positivity
    have htop' : lo.mb.mul o ≤ lib16.top := by
      rw [hmul]
      unfold scaleTest at htop
      by_contra hc
      rw [if_neg hc] at htop
      exact absurd htop (by decide)
    -- the exact value
    have hb : biasAt ((l.fake t).op l.op.padding).bias o = biasAt l.op.bias o := by
      unfold Fake.op Leaf.fake
      cases l.op.bias <;> rfl
    have hex := exact_eq (cfg := cfg) fok lo hmb (by rw [hlo, hv]; rfl) (by rw [hlo, hv]; rfl) (by rw [hlo]; rfl) (by rw [hlo]; rfl)
      (by rw [hlo]; rfl) (by rw [hlo]; rfl) (by rw [hlo]; rfl) (by rw [hlo]; rfl) (srcVal t.zpi l.src x) bt y xx o acc (by
        rw [hacc, hb, ok.zp o ho]
        simp only [Int.sub_zero]
        show _ = biasAt l.op.bias o + accum _ _ _ _ (if l.dw then 1 else l.ic) _ _
        rw [ok.ch]
        rfl)
    have hex' : lo.mb.exact o (lo.mb.dot o fun a b c => lo.patch (srcVal t.zpi l.src x) bt y xx o a b c) =
        lo.mb.mul o * ((lo.mb.biasAt o + lo.mb.dot o (lo.window (srcVal t.zpi l.src x) bt y xx o) : Int) : ℚ) := by
      have hz1 : lo.mb.zpi = 0 := by rw [hmb]; exact hzi
      have hz2 : lo.mb.zpo = 0 := by rw [hmb]; exact hzo
      have hdot : lo.mb.dot o (fun a b c => lo.patch (srcVal t.zpi l.src x) bt y xx o a b c) =
          lo.mb.dot o (lo.window (srcVal t.zpi l.src x) bt y xx o) := by
        unfold MB.dot
        refine Finset.sum_congr rfl fun a h1 => Finset.sum_congr rfl fun b h2 => Finset.sum_congr rfl fun c h3 => ?_
        unfold Lowered.window
        rw [if_pos ⟨Finset.mem_range.1 h1, Finset.mem_range.1 h2, Finset.mem_range.1 h3⟩]
      rw [hdot]
      unfold MB.exact
      rw [hz1, hz2]
      push_cast
      ring
    have hkh : lo.mb.kh = l.op.filter.kh := by
      rw [hmb]; unfold MB.kh mulsBias libShape; dsimp only; rw [show (l.fake t).dw = false from hd]; rfl
    have hkw : lo.mb.kw = l.op.filter.kw := by
      rw [hmb]; unfold MB.kw mulsBias libShape; dsimp only; rw [show (l.fake t).dw = false from hd]; rfl
    have hnc : lo.mb.nc = l.op.filter.c := by
      rw [hmb]; unfold MB.nc mulsBias libShape; dsimp only; rw [show (l.fake t).dw = false from hd]; exact ok.ch
    have hbias : lo.mb.biasAt o = biasAt l.op.bias o := by
      rw [hmb]
      unfold MB.biasAt mulsBias Leaf.fake biasAt
      dsimp only
      cases l.op.bias with
      | none =>
        show (List.replicate l.oc (0 : Int)).getD o 0 = 0
        rw [List.getD_eq_getElem?_getD]
        exact rep0 _ _
      | some b => rfl
    -- the patch holds 16-bit values
    have hsrc := srcVal_range16 l.src s0 _ x hs0 ok.pads hx
    have hwin : ∀ a b c, -32768 ≤ lo.window (srcVal t.zpi l.src x) bt y xx o a b c ∧ lo.window (srcVal t.zpi l.src x) bt y xx o a b c ≤ 32767 := by
      intro a b c
      unfold Lowered.window
      split
      next hc =>
        unfold Lowered.patch
        split
        next hi =>
          rw [hzi]
          apply hsrc
          unfold Lowered.Inside at hi
          have e1 : lo.ih = l.ih := by rw [hlo]
          have e2 : lo.iw = l.iw := by rw [hlo]
          rw [e1, e2] at hi
          refine ⟨hbt, by omega, by omega, ?_, trivial⟩
          rw [hdw, ok.ch, ← hnc]
          exact hc.2.2
        next =>
          rw [show lo.mb.zpi = 0 by rw [hmb]; exact hzi]
          decide
      next => decide
    have hfit : |lo.mb.biasAt o| + absDot lo.mb o (lo.window (srcVal t.zpi l.src x) bt y xx o) < 2 ^ 31 := by
      have h1 := absDot_le lo.mb o _ hwin
      have h2 := (fits_iff l).1 hw.2 o (by rw [← hoc]; exact ho)
      have h3 : ∑ a ∈ Finset.range lo.mb.kh, ∑ b ∈ Finset.range lo.mb.kw, ∑ c ∈ Finset.range lo.mb.nc, |lo.mb.w o a b c| = l1 l.op.filter o := by
        unfold l1
        rw [hkh, hkw, hnc]
        refine Finset.sum_congr rfl fun a _ => Finset.sum_congr rfl fun b _ => Finset.sum_congr rfl fun c _ => ?_
        rw [hmb, mb_w fok, show (l.fake t).dw = false from hd]
        rfl
      rw [h3] at h1
      rw [hbias]
      omega
    have key := hlib.near lo.mb o (lo.window (srcVal t.zpi l.src x) bt y xx o) hdw hpos htop' hwin hfit
    rw [← hex', hex, show (l.fake t).zpo = 0 from hzo, Int.cast_zero, add_zero, hmul] at key
    unfold Lowered.run16
    simp only [List.getD_cons_zero, List.getD_cons_succ]
    have hrq : rqT16 t r (l.op.filter.qp.scale o) (l.op.bias.map fun b => b.qp.scale o) acc =
        clamp (-32768) 32767 (r (t.inS * l.op.filter.qp.scale o / t.outS * acc)) := by
      unfold rqT16 actLo16 actHi16
      rw [hact, hzo]
      simp only [Int.zero_add]
    rw [hrq, Int.cast_abs, Int.cast_sub, sat16_clamp]
    have h1 := le_trans (sat16_dist _ _) (hr (t.inS * l.op.filter.qp.scale o / t.outS * acc))
    calc |(lib16.kern lo.mb o (lo.window (srcVal t.zpi l.src x) bt y xx o) : ℚ) - sat16 ((r (t.inS * l.op.filter.qp.scale o / t.outS * acc) : Int) : ℚ)|
        = |((lib16.kern lo.mb o (lo.window (srcVal t.zpi l.src x) bt y xx o) : ℚ) - sat16 (t.inS * l.op.filter.qp.scale o / t.outS * acc)) -
          (sat16 ((r (t.inS * l.op.filter.qp.scale o / t.outS * acc) : Int) : ℚ) - sat16 (t.inS * l.op.filter.qp.scale o / t.outS * acc))| := by
            congr 1; ring
      _ ≤ _ := abs_sub _ _
      _ ≤ _ := add_le_add key h1

theorem net_near16 {cfg : Cfg} {lib : Lib} {lib16 : Lib16} (hlib : lib16.OK) {r : ℚ → ℤ} (hr : Nearest r) {t : Types} (hin : 0 < t.inS)
    (hout : 0 < t.outS) (hzi : t.zpi = 0) (hzo : t.zpo = 0) (hact : t.act = .none) {s0 : List Nat} (hs0 : s0.length = 4)
    {x : Tensor} (hx : ∀ i, InShape s0 i → -32768 ≤ x i ∧ x i ≤ 32767) {oh ow : Nat} :
    ∀ (n : Net) (c v : Nat), v ≤ c → n.Inv cfg.factor s0 oh ow c v → n.All (fun l => l.op.padding = .valid ∧ Wide l) →
      ∀ idx, InShape [1, oh, ow, v] idx → n.eval (fun l => l.value (scaleTest t lib16.top) t.zpi x) idx = 1 →
      ((|n.eval (fun l => l.run16 cfg lib lib16 r t x) idx - n.eval (fun l => l.value (rqT16 t r) t.zpi x) idx| : ℤ) : ℚ) ≤ lib16.err + 1 / 2
  | .conv l, c, v, hv, hi, ha, idx, hidx, ht => by
    obtain ⟨ok, rfl, rfl, rfl, hsc⟩ := hi
    obtain ⟨bt, y, xx, o, rfl, hbt, hy, hxx, ho⟩ := in4 hidx
    exact leaf_near16 hlib hr hin hout hzi hzo hact hs0 ok ha.1 ha.2 hx ⟨hbt, hy, hxx, by omega, trivial⟩ (hsc o ho).2 ht
  | .slice s e, c, v, hv, hi, ha, idx, hidx, ht => by
    obtain ⟨h1, c', h2, h3⟩ := hi
    obtain ⟨bt, y, xx, o, rfl, hbt, hy, hxx, ho⟩ := in4 hidx
    simp only [Net.eval, sliceT, h1, List.zipWith_cons_cons, List.zipWith_nil_right, Nat.zero_add] at ht ⊢
    exact net_near16 hlib hr hin hout hzi hzo hact hs0 hx e c' v (by omega) h3 ha _ hidx ht
  | .cat n a b, c, v, hv, hi, ha, idx, hidx, ht => by
    obtain ⟨m, h1, h2, h3⟩ := hi
    obtain ⟨bt, y, xx, o, rfl, hbt, hy, hxx, ho⟩ := in4 hidx
    simp only [Net.eval, List.getD_cons_zero, List.getD_cons_succ, List.set_cons_succ, List.set_cons_zero] at ht ⊢
    by_cases hc : o < n
    · rw [if_pos hc] at ht
      rw [if_pos hc, if_pos hc]
      exact net_near16 hlib hr hin hout hzi hzo hact hs0 hx a n _ (by omega) h2 ha.1 _ ⟨hbt, hy, hxx, by omega, trivial⟩ ht
    · rw [if_neg hc] at ht
      rw [if_neg hc, if_neg hc]
      exact net_near16 hlib hr hin hout hzi hzo hact hs0 hx b m _ (by omega) h3 ha.2 _ ⟨hbt, hy, hxx, by omega, trivial⟩ ht
  | .nil, c, v, hv, hi, _, idx, hidx, _ => by
    have : c = 0 := hi
    obtain ⟨bt, y, xx, o, rfl, hbt, hy, hxx, ho⟩ := in4 hidx
    omega

/-! ### C110 -/

/-- **C110.** A whole 16-bit convolution, from the TensorFlow Lite operator to the operators that run on the device: whatever patterns the
passes apply and in whatever order within a pass (explicit padding, padding of channels to multiples of 16, splitting, swapping of pads), at
every output position the compiled graph computes the value of the TensorFlow Lite operator up to the error of lib_nn's 16-bit kernel plus
half a step.  Assumed: one group, batch 1, symmetric input and output types as TensorFlow Lite demands for 16 bits, filter zero points 0;
filter scales of at most `--xcore-conv-multiplier-factor` and within that factor of each other; effective multipliers the kernel can represent;
bias plus 32768 times the sum of a channel's filter magnitudes below 2^31; no fused activation. -/
theorem C110_convolution16_compiled_partial (cfg : Cfg) (lib : Lib) (lib16 : Lib16) (hlib : lib16.OK) (r : ℚ → ℤ) (hr : Nearest r) (t : Types)
    (hin : 0 < t.inS) (hout : 0 < t.outS) (hzi : t.zpi = 0) (hzo : t.zpo = 0) (hact : t.act = .none)
    (l : Leaf) (hd : l.dw = false) (hsrc : l.src = []) (ok : l.OK [1, l.ih, l.iw, l.ic])
    (hrange : ∀ o < l.oc, l.op.filter.qp.scale o ≤ cfg.factor ∧ ∀ o' < l.oc, l.op.filter.qp.scale o ≤ cfg.factor * l.op.filter.qp.scale o')
    (htop : ∀ o < l.oc, t.inS * l.op.filter.qp.scale o / t.outS ≤ lib16.top) (hfit : l.Fits32)
    (limit : Nat) (g : Net) (hg : PipelineN 16 limit (.conv l) g) (x : Tensor)
    (hx : ∀ i, InShape [1, l.ih, l.iw, l.ic] i → -32768 ≤ x i ∧ x i ≤ 32767) (idx : List Nat) (hidx : InShape [1, l.oh, l.ow, l.oc] idx) :
    ((|g.eval (fun l => l.run16 cfg lib lib16 r t x) idx - tflConv16 r t l x idx| : ℤ) : ℚ) ≤ lib16.err + 1 / 2 := by
  have hi : (Net.conv l).Inv cfg.factor [1, l.ih, l.iw, l.ic] l.oh l.ow l.oc l.oc := ⟨ok, rfl, rfl, rfl, hrange⟩
  obtain ⟨h1, h2⟩ := pipelineN_sound (F := cfg.factor) (by decide) (by decide) rfl hg l.oc l.oc (le_refl _) hi
  have ha := pipeline_wide (F := cfg.factor) (by decide) (by decide) rfl hg l.oc l.oc (le_refl _) hi ⟨hd, hfit⟩
  have e : ∀ rq : Requant, (Net.conv l).eval (fun l => l.value rq t.zpi x) idx = conv2d rq t.zpi l.ih l.iw l.ic l.op x idx := by
    intro rq
    simp only [Net.eval]
    unfold Leaf.value
    rw [hsrc, hd]
    rfl
  have ht : g.eval (fun l => l.value (scaleTest t lib16.top) t.zpi x) idx = 1 := by
    rw [h2 (scaleTest t lib16.top) t.zpi x idx hidx]
    obtain ⟨bt, y, xx, o, rfl, hbt, hy, hxx, ho⟩ := in4 hidx
    simp only [Net.eval]
    rw [value_eq ok _ _ x ho]
    unfold scaleTest
    rw [if_pos (htop o ho)]
  have key := net_near16 (lib := lib) hlib hr hin hout hzi hzo hact rfl hx g l.oc l.oc (le_refl _) h1 ha idx hidx ht
  rw [h2 (rqT16 t r) t.zpi x idx hidx, e] at key
  exact key

theorem done_all {al : Nat} (hal : 0 < al) : ∀ (n : Net), Done (PadRuleN al) n → n.All (fun l => l.dw = false) →
    n.All fun l => al ∣ l.ic ∧ al ∣ l.oc
  | .conv l, h, hd => by
    have hd : l.dw = false := hd
    refine ⟨?_, ?_⟩
    · cases hp : padConvInput al l.ic l.op with
      | some q => exact absurd (.here (.input hd hp)) (h _)
      | none =>
        unfold padConvInput at hp
        dsimp only at hp
        split at hp
        next hz =>
          have := (alignPad_spec (al := al) (n := l.ic) hal).1
          rwa [hz, Nat.add_zero] at this
        next => cases hp
    · have hoc : l.oc = l.op.filter.o := by unfold Leaf.oc; rw [hd]; rfl
      rw [hoc]
      cases hp : padConvOutput al [1, l.oh, l.ow, l.op.filter.o] l.op with
      | some q => exact absurd (.here (.output hd hp)) (h _)
      | none =>
        unfold padConvOutput at hp
        simp only [List.getD_cons_zero, List.getD_cons_succ] at hp
        split at hp
        next hz =>
          have := (alignPad_spec (al := al) (n := l.op.filter.o) hal).1
          rwa [hz, Nat.add_zero] at this
        next => cases hp
  | .slice s e, h, hd => done_all hal e (fun n' hn => h _ (.slice hn)) hd
  | .cat k a b, h, hd => ⟨done_all hal a (fun n' hn => h _ (.left hn)) hd.1, done_all hal b (fun n' hn => h _ (.right hn)) hd.2⟩
  | .nil, _, _ => trivial

theorem inv_all {F : Nat} {s0 : List Nat} {oh ow : Nat} : ∀ (n : Net) (c v : Nat), n.Inv F s0 oh ow c v → n.All fun l => l.OK s0 ∧ l.oh = oh ∧ l.ow = ow
  | .conv _, _, _, h => ⟨h.1, h.2.1, h.2.2.1⟩
  | .slice _ e, _, v, h => by obtain ⟨_, c', _, h⟩ := h; exact inv_all e c' v h
  | .cat _ a b, _, _, h => by obtain ⟨_, _, h1, h2⟩ := h; exact ⟨inv_all a _ _ h1, inv_all b _ _ h2⟩
  | .nil, _, _, _ => trivial

/-- **C110, nothing is left to the reference kernels**: once padding has been carried through, every convolution a 16-bit convolution has
become is replaced by an XC operator with the 16-bit direct kernel, whatever the library's error estimates are, and the kernel only reads
inside the tensor it is given and works on whole vectors of 16 channels. -/
theorem C110_all_replaced (cfg : Cfg) (lib : Lib) (t : Types) (l : Leaf) (hd : l.dw = false) (ok : l.OK [1, l.ih, l.iw, l.ic])
    (hfit : l.Fits32) (limit : Nat) (g : Net) (hg : PipelineN 16 limit (.conv l) g) (hdone : Done (PadRuleN 16) g) :
    g.All fun l' => ∃ lo, l'.lowered16 cfg lib t = some lo ∧ lo.kt = .validDirectI16 ∧ lo.Usable l.oh l.ow := by
  have hi : (Net.conv l).Inv 0 [1, l.ih, l.iw, l.ic] l.oh l.ow l.oc 0 := ⟨ok, rfl, rfl, rfl, fun o ho => absurd ho (by omega)⟩
  obtain ⟨h1, -⟩ := pipelineN_sound (F := 0) (by decide) (by decide) rfl hg l.oc 0 (by omega) hi
  have ha := pipeline_wide (F := 0) (by decide) (by decide) rfl hg l.oc 0 (by omega) hi ⟨hd, hfit⟩
  have hm := done_all (by decide) g hdone (Net.All.mono (fun _ h => h.2.1) _ ha)
  refine Net.All.mono ?_ g (all_and g (all_and g (inv_all g _ _ h1) ha) hm)
  rintro l' ⟨⟨⟨ok', eh, ew⟩, hv, hw⟩, m1, m2⟩
  have c1 : l'.ic % 16 = 0 := Nat.mod_eq_zero_of_dvd m1
  have c2 : l'.oc % 16 = 0 := Nat.mod_eq_zero_of_dvd m2
  have hf : fakeApplies16 (l'.fake16 t) = true := by
    unfold fakeApplies16
    simp only [decide_eq_true_eq]
    refine ⟨hw.1, ?_, ?_, ok'.ch⟩
    · show l'.ic * 2 % 4 = 0; omega
    · show l'.oc * 2 % 4 = 0; omega
  have hl := lower16_eq ok' hw.1 hv cfg lib t
  rw [if_pos ⟨c1, c2⟩] at hl
  refine ⟨_, by unfold Leaf.lowered16; rw [if_pos hf]; exact hl, rfl, ?_, fun h => ?_, fun _ => ⟨c1, c2⟩⟩
  · intro _ y hy xx hx a ha b hb
    have hy : y < l'.oh := by rw [eh]; exact hy
    have hx : xx < l'.ow := by rw [ew]; exact hx
    have b1 := in_bounds (p := .valid) ok'.ih ok'.kh ok'.sh ok'.dh (hv ▸ ok'.oh) rfl rfl hy ha
    have b2 := in_bounds (p := .valid) ok'.iw ok'.kw ok'.sw ok'.dwf (hv ▸ ok'.ow) rfl rfl hx hb
    unfold Lowered.Inside Lowered.row Lowered.col
    exact ⟨b1, b2⟩
  · cases h

end Verif.Conv.Compile
