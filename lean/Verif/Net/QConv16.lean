import Verif.Net.QTconv
import Verif.Net.QBlob
import Verif.Conv.WideMore
/-! C111: the graph made of a 16-bit convolution or fully connected layer computes what C110 says. -/
namespace Verif.Net
open Verif.Tensor Verif.Move Verif.MemPlan Verif.Quant Verif.Conv Verif.Conv.Compile

variable {sem : Sem} {iv : List (Ty × List Byte)}

theorem lower_mb {cfg : Cfg} {lib : Lib} {f : Fake} {lo : Lowered} (h : lower cfg lib f = some lo) : lo.mb = mulsBias cfg f := by
  unfold lower at h
  split at h
  · cases h
  · split at h
    · cases h
    · split at h
      · cases h
      · have := Option.some.inj h
        subst this
        rfl

theorem lowered16_spec {cfg : Cfg} {lib : Lib} {t : Types} {l : Leaf} {lo : Lowered} (h : l.lowered16 cfg lib t = some lo) :
    l.dw = false ∧ lo.ih = l.ih ∧ lo.iw = l.iw ∧ lo.ic = l.ic ∧ lo.oc = l.oc ∧ lo.mb = mulsBias cfg (l.fake16 t) := by
  unfold Leaf.lowered16 at h
  by_cases hf : fakeApplies16 (l.fake16 t) = true
  · rw [if_pos hf] at h
    obtain ⟨h1, h2, h3, h4⟩ := lower_dims h
    refine ⟨?_, h1, h2, h3, h4, lower_mb h⟩
    unfold fakeApplies16 at hf
    simp only [decide_eq_true_eq] at hf
    exact hf.1
  · rw [if_neg hf] at h
    cases h

/-- A 16-bit convolution looks at its operand inside the shape only. -/
theorem run16_congr {cfg : Cfg} {lib : Lib} {lib16 : Lib16} {r : ℚ → ℤ} {t : Types} {s0 : List Nat} {l : Leaf} (ok : l.OK s0) (x y : Tensor)
    (h : ∀ i, InShape [1, l.ih, l.iw, l.ic] i → y i = srcVal t.zpi l.src x i) (idx : List Nat) (hidx : InShape [1, l.oh, l.ow, l.oc] idx) :
    ({ l with src := [] } : Leaf).run16 cfg lib lib16 r t y idx = l.run16 cfg lib lib16 r t x idx := by
  have ok' : ({ l with src := [] } : Leaf).OK [1, l.ih, l.iw, l.ic] :=
    ⟨rfl, ok.ch, ok.conv, ok.dwise, ok.kh, ok.kw, ok.sh, ok.sw, ok.dh, ok.dwf, ok.ih, ok.iw, ok.oh, ok.ow, ok.scales, ok.zp, ok.small⟩
  unfold Leaf.run16
  have hf : ({ l with src := [] } : Leaf).lowered16 cfg lib t = l.lowered16 cfg lib t := rfl
  rw [hf]
  obtain ⟨bt, yy, xx, o, rfl, hbt, hy, hxx, ho⟩ := in4 hidx
  cases hl : l.lowered16 cfg lib t with
  | none =>
    show ({ l with src := [] } : Leaf).value (rqT16 t r) t.zpi y _ = l.value (rqT16 t r) t.zpi x _
    have ho' : o < ({ l with src := [] } : Leaf).oc := ho
    rw [value_eq ok _ _ x ho, value_eq ok' _ _ y ho']
    dsimp only [srcVal]
    congr 2
    apply accum_congr
    intro a ha b hb iy ix hiy hix c hc
    rw [h [bt, iy, ix, if l.dw then o else c] ⟨hbt, tap_lt hiy, tap_lt hix, chan_lt ok ho hc, trivial⟩]
  | some lo =>
    obtain ⟨hd, ei, ew, ec, -, emb⟩ := lowered16_spec hl
    show lo.run16 lib16 y _ = lo.run16 lib16 (srcVal t.zpi l.src x) _
    unfold Lowered.run16
    simp only [List.getD_cons_zero, List.getD_cons_succ]
    congr 1
    funext a b c
    unfold Lowered.window
    by_cases hw : a < lo.mb.kh ∧ b < lo.mb.kw ∧ c < lo.mb.nc
    · rw [if_pos hw, if_pos hw]
      unfold Lowered.patch
      by_cases hin : lo.Inside (lo.row yy a) (lo.col xx b)
      · rw [if_pos hin, if_pos hin]
        apply h
        obtain ⟨⟨i1, i2⟩, j1, j2⟩ := hin
        refine ⟨hbt, by omega, by omega, ?_, trivial⟩
        have hdw : lo.mb.dw = false := by rw [emb]; exact hd
        rw [hdw]
        have hc := hw.2.2
        rw [emb] at hc
        have e : (mulsBias cfg (l.fake16 t)).nc = l.ic := by
          unfold mulsBias MB.nc libShape Leaf.fake16 Leaf.fake
          simp [hd]
        rw [e] at hc
        simpa using hc
      · rw [if_neg hin, if_neg hin]
    · rw [if_neg hw, if_neg hw]

theorem run16_range {cfg : Cfg} {lib : Lib} {lib16 : Lib16} (hlib : lib16.OK) {r : ℚ → ℤ} {t : Types} (ha : t.act = .none) {s0 : List Nat} {l : Leaf}
    (ok : l.OK s0) (x : Tensor) (idx : List Nat) (hidx : InShape [1, l.oh, l.ow, l.oc] idx) :
    -32768 ≤ l.run16 cfg lib lib16 r t x idx ∧ l.run16 cfg lib lib16 r t x idx ≤ 32767 := by
  unfold Leaf.run16
  cases l.lowered16 cfg lib t with
  | none =>
    obtain ⟨bt, yy, xx, o, rfl, hbt, hy, hxx, ho⟩ := in4 hidx
    show -32768 ≤ l.value _ _ _ _ ∧ l.value _ _ _ _ ≤ 32767
    rw [value_eq ok _ _ x ho]
    unfold rqT16 actLo16 actHi16 clamp
    rw [ha]
    dsimp only
    omega
  | some lo => exact hlib.range _ _ _

/-- Contracts of the kernels of 16-bit convolution number `i`. -/
def KeyOK16 (sem : Sem) (R : Rt) (t : Types) (j i : Nat) (l : Leaf) : Prop :=
  (∀ ins, sem (Nat.pair j (3 * i)) ins = convKernel16 R t l ins) ∧ ∀ ins, sem (Nat.pair j (3 * i + 1)) ins = R.expand16 (ins.getD 0 [])

/-- The value of one convolution on its (padded) operand. -/
def convValue16 (R : Rt) (t : Types) (l : Leaf) (data : List Byte) : List Byte :=
  bytesOf ⟨[1, l.oh, l.ow, l.oc], 2⟩ fun idx =>
    bytes16 (({ l with src := [] } : Leaf).run16 R.cfg R.lib R.lib16 R.r t (tensor16 ⟨[1, l.ih, l.iw, l.ic], 2⟩ data) idx)

theorem EStep.base {e e1 : Exp} {r : Exp × Nat} {t : Ty} {D : List Byte} (he : ∃ extra, e1 = ⟨e.n0, e.nodes ++ extra⟩) (h : EStep sem iv e1 r t D) :
    EStep sem iv e r t D := by
  obtain ⟨x1, h1⟩ := he
  obtain ⟨x2, h2⟩ := h.ext
  refine ⟨⟨x1 ++ x2, ?_⟩, h.good, h.holds⟩
  rw [h2, h1]
  simp

theorem leaf16_estep {R : Rt} {dom : MulArgs → Prop} (hR : R.OK dom) (t : Types) (ht : t.OK16) (j i : Nat) {s0 : List Nat} (hs0 : s0.length = 4)
    (hpos : ∀ n ∈ s0, 0 < n) {l : Leaf} (ok : l.OK s0) (pb : PadsBehind l) (hk : KeyOK16 sem R t j i l) {e : Exp} (hg : EGood iv e) (v : Nat)
    {D : List Byte} (hv : EHolds sem iv e v ⟨s0, 2⟩ D) :
    ∃ D', EStep sem iv e (expandLeaf16 R t j i l e v) ⟨[1, l.oh, l.ow, l.oc], 2⟩ D' ∧
      ∀ idx, InShape [1, l.oh, l.ow, l.oc] idx →
        tensor16 ⟨[1, l.oh, l.ow, l.oc], 2⟩ D' idx = l.run16 R.cfg R.lib R.lib16 R.r t (tensor16 ⟨s0, 2⟩ D) idx := by
  obtain ⟨D1, hs1, ht1⟩ := pads_estep (sem := sem) s16 (q8 := false) (by intro h; cases h) t.zpi (by rw [ht.zpi]; rfl) l.src s0 _ hs0 hpos ok.pads pb e hg v D hv
  obtain ⟨p, hp⟩ : ∃ p, p = expandPads false 2 t.zpi l.src e v := ⟨_, rfl⟩
  obtain ⟨ty, hty⟩ : ∃ ty : Ty, ty = ⟨[1, l.oh, l.ow, l.oc], 2⟩ := ⟨_, rfl⟩
  rw [← hp] at hs1
  have hkl : (convValue16 R t l D1).length = ty.size := by rw [hty]; exact length_bytesOf _ _ fun _ => rfl
  have hval : ∀ idx, InShape [1, l.oh, l.ow, l.oc] idx →
      tensor16 ty (convValue16 R t l D1) idx = l.run16 R.cfg R.lib R.lib16 R.r t (tensor16 ⟨s0, 2⟩ D) idx := by
    intro idx hidx
    rw [hty]
    unfold convValue16 tensor16
    rw [elemAt_bytesOf (⟨[1, l.oh, l.ow, l.oc], 2⟩ : Ty) _ (fun _ _ => rfl) idx hidx]
    have e1 := run16_congr (cfg := R.cfg) (lib := R.lib) (lib16 := R.lib16) (r := R.r) (t := t) ok (tensor16 ⟨s0, 2⟩ D) (tensor16 ⟨[1, l.ih, l.iw, l.ic], 2⟩ D1) ht1 idx hidx
    show s16 (bytes16 (({ l with src := [] } : Leaf).run16 R.cfg R.lib R.lib16 R.r t (tensor16 ⟨[1, l.ih, l.iw, l.ic], 2⟩ D1) idx)) = _
    rw [e1]
    exact s16_bytes16 (run16_range hR.lib16 ht.act ok _ idx hidx)
  refine ⟨convValue16 R t l D1, ?_, by rw [← hty]; exact hval⟩
  rw [← hty]
  refine hs1.trans ?_
  unfold expandLeaf16
  dsimp only
  rw [← hp, ← hty]
  have hval' : convValue16 R t l D1 = match l.lowered16 R.cfg R.lib t with
      | some lo => bytesOf ty fun idx => bytes16 (lo.run16 R.lib16 (tensor16 ⟨[1, l.ih, l.iw, l.ic], 2⟩ D1) idx)
      | none => bytesOf ty fun idx => bytes16 (({ l with src := [] } : Leaf).value (rqT16 t R.r) t.zpi (tensor16 ⟨[1, l.ih, l.iw, l.ic], 2⟩ D1) idx) := by
    unfold convValue16 Leaf.run16
    have hf : ({ l with src := [] } : Leaf).lowered16 R.cfg R.lib t = l.lowered16 R.cfg R.lib t := rfl
    rw [hf, hty]
    cases l.lowered16 R.cfg R.lib t <;> rfl
  cases hl : l.lowered16 R.cfg R.lib t with
  | some lo =>
    dsimp only
    rw [hl] at hval'
    dsimp only at hval'
    obtain ⟨-, e1, e2, e3, e4, -⟩ := lowered16_spec hl
    have hm := (const_estep (sem := sem) hs1.good (R.muls lo) ⟨[(R.muls lo).length], 1⟩ (by simp [Ty.size])).1
    have hw := (const_estep (sem := sem) hm.good (R.weights lo) ⟨[(R.weights lo).length], 1⟩ (by simp [Ty.size])).1
    have hx := other_estep (sem := sem) hw.good false (Nat.pair j (3 * i + 1)) ⟨[(R.weights lo).length * 2], 1⟩
      [(_, ⟨[(R.weights lo).length], 1⟩, R.weights lo)] (by
        intro z hz
        rw [List.mem_singleton.1 hz]
        exact hw.holds) (by intro h; cases h) (D := R.expand16 (R.weights lo)) (by rw [hk.2]; rfl) (by rw [hR.expand16]; simp [Ty.size])
    refine EStep.base ?_ (other_estep (sem := sem) hx.good false (Nat.pair j (3 * i)) ty
      [(p.2, ⟨[1, l.ih, l.iw, l.ic], 2⟩, D1), (_, ⟨[(R.weights lo).length * 2], 1⟩, R.expand16 (R.weights lo)), (_, ⟨[(R.muls lo).length], 1⟩, R.muls lo)] ?_
        (by intro h; cases h) (D := convValue16 R t l D1) ?_ hkl)
    · exact ((hm.trans hw).trans hx).ext
    · intro z hz
      rcases List.mem_cons.1 hz with rfl | hz
      · exact hs1.holds.mono hs1.good ((hm.trans hw).trans hx).ext
      rcases List.mem_cons.1 hz with rfl | hz
      · exact hx.holds
      rw [List.mem_singleton.1 hz]
      exact hm.holds.mono hm.good (hw.trans hx).ext
    · rw [hk.1]
      unfold convKernel16
      rw [hl]
      show R.conv16 lo l.oh l.ow [D1, R.expand16 (R.weights lo), R.muls lo] = _
      rw [hR.conv16, hval', e1, e2, e3, e4, hty]
  | none =>
    dsimp only
    rw [hl] at hval'
    dsimp only at hval'
    obtain ⟨w1, w2, zs, w3, w4, w5⟩ := consts_estep (sem := sem) (tflConsts l) p.1 hs1.good
    obtain ⟨w, hw⟩ : ∃ w, w = expandConsts (tflConsts l) p.1 := ⟨_, rfl⟩
    rw [← hw] at w1 w2 w3 w5 ⊢
    rw [← w3]
    refine EStep.base w1 (other_estep (sem := sem) w2 false (Nat.pair j (3 * i)) ty ((p.2, ⟨[1, l.ih, l.iw, l.ic], 2⟩, D1) :: zs) ?_
      (by intro h; cases h) ?_ hkl)
    · intro z hz
      rcases List.mem_cons.1 hz with rfl | hz
      · exact hs1.holds.mono hs1.good w1
      · exact w5 z hz
    · rw [hk.1, List.map_cons, w4]
      unfold convKernel16
      rw [hl]
      dsimp only
      rw [hR.tflConv16, hval', hty]

/-- All operators that a 16-bit convolution has become. -/
theorem conv16_estep {R : Rt} {dom : MulArgs → Prop} (hR : R.OK dom) (t : Types) (ht : t.OK16) (j : Nat) (l : Leaf)
    (hsrc : l.src = []) (ok : l.OK [1, l.ih, l.iw, l.ic]) (hic : 1 ≤ l.ic) (hoh : 1 ≤ l.oh) (how : 1 ≤ l.ow) {limit : Nat} {g : Conv.Compile.Net}
    (hp : PipelineN 16 limit (.conv l) g) {e : Exp} (hg : EGood iv e) (v : Nat) {B : List Byte} (hh : EHolds sem iv e v ⟨[1, l.ih, l.iw, l.ic], 2⟩ B)
    (hsem : ∀ m ins, sem (Nat.pair j m) ins = graphKernel16 R t g m ins) :
    ∃ D, EStep sem iv e (expandConv16 R t j l.oh l.ow g 0 e v) ⟨[1, l.oh, l.ow, l.oc], 2⟩ D ∧
      ∀ idx, InShape [1, l.oh, l.ow, l.oc] idx → tensor16 ⟨[1, l.oh, l.ow, l.oc], 2⟩ D idx =
        g.eval (fun l' => l'.run16 R.cfg R.lib R.lib16 R.r t (tensor16 ⟨[1, l.ih, l.iw, l.ic], 2⟩ B)) idx := by
  have hsh : Shaped [1, l.ih, l.iw, l.ic] l.oh l.ow (.conv l) := ⟨ok, rfl, rfl, by intro p hp; rw [hsrc] at hp; cases hp⟩
  obtain ⟨s1, s2, s3⟩ := pipelineN_shaped rfl (by decide) (by decide) hp hsh
  obtain ⟨D, hD, eD⟩ := (graph_estep (sem := sem) dec16_ok (expandLeaf16 R t j)
    (fun l' => l'.run16 R.cfg R.lib R.lib16 R.r t (tensor16 ⟨[1, l.ih, l.iw, l.ic], 2⟩ B)) hoh how B g 0 e v hg hh s1
    fun k l' hl' hs e v hg hv => by
      obtain ⟨ok', -, -, pb⟩ := hs
      refine leaf16_estep hR t ht j _ (s0 := [1, l.ih, l.iw, l.ic]) rfl (by
        intro n hn
        have := ok.ih
        have := ok.iw
        simp only [List.mem_cons, List.not_mem_nil, or_false] at hn
        omega) ok' pb ⟨fun ins => ?_, fun ins => ?_⟩ hg v hv
      · rw [hsem]
        unfold graphKernel16
        rw [show 3 * (0 + k) / 3 = k by omega, hl']
        dsimp only
        rw [if_pos (by omega)]
      · rw [hsem]
        unfold graphKernel16
        rw [show (3 * (0 + k) + 1) / 3 = k by omega, hl']
        dsimp only
        rw [if_neg (by omega)]).1 s3
  rw [s2] at hD eD
  exact ⟨D, hD, eD⟩

/-! ### Fully connected layers -/

theorem getD_vals16 (D : List Byte) {k : Nat} (h : k < D.length / 2) : (vals16 D).getD k 0 = val16 D k := by
  unfold vals16
  rw [List.getD_eq_getElem?_getD, List.getElem?_map, List.getElem?_range h]
  rfl

theorem val16_out (D : List Byte) {k : Nat} (h : D.length ≤ k * 2) : val16 D k = 0 := by
  unfold val16 word
  rw [List.drop_eq_nil_of_le h]
  rfl

theorem tensor16_unflat (s : List Nat) (D : List Byte) (h : D.length = s.prod * 2) (idx : List Nat) : tensor16 ⟨s, 2⟩ D idx = Conv.unflat s (vals16 D) idx := by
  rw [tensor16_val ⟨s, 2⟩ rfl]
  unfold Conv.unflat
  show val16 D (ravel s idx) = _
  by_cases hk : ravel s idx < D.length / 2
  · exact (getD_vals16 D hk).symm
  · rw [val16_out D (by omega), List.getD_eq_getElem?_getD, List.getElem?_eq_none (by unfold vals16; simp; omega)]
    rfl

theorem length_vals16 (D : List Byte) : (vals16 D).length = D.length / 2 := by simp [vals16]

theorem flat_tensor16 (s : List Nat) (D : List Byte) (h : D.length = s.prod * 2) : flat s (tensor16 ⟨s, 2⟩ D) = vals16 D := by
  apply List.ext_getElem
  · rw [length_flat, length_vals16, h]; omega
  · intro k h1 h2
    have e : flat s (tensor16 ⟨s, 2⟩ D) = flat s fun idx => val16 D (ravel s idx) := flat_congr fun idx _ => tensor16_val ⟨s, 2⟩ rfl D idx
    have e2 : (flat s fun idx => val16 D (ravel s idx)) = (List.range s.prod).map fun k => val16 D k := by rw [← ravel_flat, XC.flat_map]
    simp only [e, e2, List.getElem_map, List.getElem_range, vals16]

theorem fc16_estep {R : Rt} {dom : MulArgs → Prop} (hR : R.OK dom) (t : Types) (ht : t.OK16) (j : Nat) (f : Conv.FC) (B : Nat)
    (hB : 1 ≤ B) (hdata : f.data.length = f.o * f.c) (hc : 1 ≤ f.c) (hq : f.qp.Fits f.o)
    (hb : ∀ b, f.bias = some b → b.data.length = f.o ∧ b.qp.Fits f.o)
    (hs : ∀ o < f.o, f.qp.zp o = 0 ∧ 0 < f.qp.scale o ∧ f.qp.scale o ≤ R.cfg.factor ∧ ∀ o' < f.o, f.qp.scale o ≤ R.cfg.factor * f.qp.scale o')
    (htop : ∀ o < f.o, t.inS * f.qp.scale o / t.outS ≤ R.lib16.top)
    (hfit : ∀ o < f.o, |Conv.biasAt f.bias o| + 32768 * ∑ c ∈ Finset.range f.c, |f.data.getD (o * f.c + c) 0| < 2 ^ 31)
    {limit : Nat} {g : Conv.Compile.Net} (hp : PipelineN 16 limit (.conv (fcLeaf f B)) g) (pre : List Nat) (hpre : pre.prod = 1) (ty : Ty) (htd : ty.d = 2)
    (hsz : ty.shape.prod = B * f.o) (hout : Conv.fcOutputShape ty.shape = ty.shape) {e : Exp} (hg : EGood iv e) (v : Nat) {D : List Byte}
    (hh : EHolds sem iv e v ⟨pre ++ [B, f.c], 2⟩ D) (hsem : ∀ m ins, sem (Nat.pair j m) ins = graphKernel16 R t g m ins) :
    ∃ D', EStep sem iv e (
      let x := e.emit ⟨.reshape, [v], ⟨(Conv.fcInputShape (pre ++ [B, f.c])).getD [], 2⟩⟩
      let y := expandConv16 R t j 1 B g 0 x.1 x.2
      y.1.emit ⟨.reshape, [y.2], ⟨Conv.fcOutputShape ty.shape, ty.d⟩⟩) ty D' ∧ D'.length = B * f.o * 2 ∧ ∀ k < B * f.o,
        Near16 R (val16 D' k) ((Conv.fullyConnected (rqT16 t R.r) t.zpi f B (vals16 D)).getD k 0) := by
  have hlen : D.length = (pre ++ [B, f.c]).prod * 2 := hh.len
  have hprod : (pre ++ [B, f.c]).prod = B * f.c := by rw [List.prod_append, hpre]; simp
  obtain ⟨s, hs', hC⟩ := C110_fully_connected16_partial R.cfg R.lib R.lib16 hR.lib16 R.r hR.r t ht.inS ht.outS ht.zpi ht.zpo ht.act f hdata hc hq hb
    (fun o h => (hs o h).1) (fun o h => (hs o h).2.1) (fun o h => (hs o h).2.2) htop hfit pre hpre B hB (vals16 D) (by rw [length_vals16, hlen]; omega) (by
      intro x hx
      obtain ⟨k, _, rfl⟩ := List.mem_map.1 hx
      exact val16_range D k) limit g hp
  have hs4 : s = [1, 1, B, f.c] := by
    unfold Conv.fcInputShape at hs'
    rw [if_pos (by simp)] at hs'
    have := Option.some.inj hs'
    rw [← this]
    simp
  subst hs4
  dsimp only at hC ⊢
  rw [hs', Option.getD_some, hout]
  obtain ⟨x, hx⟩ : ∃ x, x = e.emit ⟨.reshape, [v], ⟨[1, 1, B, f.c], 2⟩⟩ := ⟨_, rfl⟩
  rw [← hx]
  have h1 : EStep sem iv e x ⟨[1, 1, B, f.c], 2⟩ D := by
    rw [hx]
    refine reshape_estep hg hh ?_
    show (pre ++ [B, f.c]).prod * 2 = [1, 1, B, f.c].prod * 2
    rw [hprod]
    simp
  obtain ⟨D2, h2, e2⟩ := conv16_estep hR t ht j (fcLeaf f B) rfl (fcLeaf_ok f B hB hdata hc hq hb (fun o h => (hs o h).1) (fun o h => (hs o h).2.1)) hc (le_refl _)
    hB hp h1.good x.2 (B := D) h1.holds hsem
  have h2' : EStep sem iv x.1 (expandConv16 R t j 1 B g 0 x.1 x.2) ⟨[1, 1, B, f.o], 2⟩ D2 := h2
  have h3 : EStep sem iv (expandConv16 R t j 1 B g 0 x.1 x.2).1 ((expandConv16 R t j 1 B g 0 x.1 x.2).1.emit ⟨.reshape, [(expandConv16 R t j 1 B g 0 x.1 x.2).2], ty⟩) ty D2 := by
    refine reshape_estep h2'.good h2'.holds ?_
    unfold Ty.size
    dsimp only
    rw [htd, hsz]
    simp
  have hD2 : D2.length = B * f.o * 2 := by
    have := h3.holds.len
    unfold Ty.size at this
    rw [this, htd, hsz]
  refine ⟨D2, (h1.trans h2').trans h3, hD2, ?_⟩
  obtain ⟨c1, c2, c3⟩ := hC
  intro k hk
  have hgot : Tensor.flat [1, 1, B, f.o] (g.eval fun l => l.run16 R.cfg R.lib R.lib16 R.r t (Conv.unflat [1, 1, B, f.c] (vals16 D))) = vals16 D2 := by
    rw [← flat_tensor16 [1, 1, B, f.o] D2 (by rw [hD2]; simp)]
    apply flat_congr
    intro idx hidx
    have e3 : tensor16 ⟨[1, 1, B, f.c], 2⟩ D = Conv.unflat [1, 1, B, f.c] (vals16 D) := by
      funext i
      exact tensor16_unflat _ D (by rw [hlen, hprod]; simp) i
    rw [← e3]
    exact (e2 idx hidx).symm
  have hk1 : k < (vals16 D2).length := by rw [length_vals16, hD2]; omega
  have := c3 k (by rw [hgot]; exact hk1) (by rw [c2]; exact hk)
  simp only [hgot] at this
  have e1 : val16 D2 k = (vals16 D2)[k] := by
    rw [← getD_vals16 D2 (by rw [hD2]; omega), List.getD_eq_getElem?_getD, List.getElem?_eq_getElem hk1, Option.getD_some]
  have e3 : (Conv.fullyConnected (rqT16 t R.r) t.zpi f B (vals16 D)).getD k 0 = (Conv.fullyConnected (rqT16 t R.r) t.zpi f B (vals16 D))[k]'(by rw [c2]; exact hk) := by
    rw [List.getD_eq_getElem?_getD, List.getElem?_eq_getElem (by rw [c2]; exact hk), Option.getD_some]
  unfold Near16
  rw [e1, e3]
  exact this

end Verif.Net
