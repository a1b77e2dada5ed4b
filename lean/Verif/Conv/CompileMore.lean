import Verif.Conv.CompileProps
import Verif.Conv.Pool
/-!
C81, C82: average pools and fully connected layers, from the TensorFlow Lite operator to the operators in the compiled model.
-/
namespace Verif.Conv.Compile
open Verif.Tensor Verif.Move Verif.Image Verif.Quant Verif.Conv Verif.TFL

/-- ReplaceAvgPoolWithConv2D.cpp 52–107: the depthwise convolution made for a pool, with the sizes of its tensors. -/
def poolLeaf (p : AvgPool) (h w oh ow depth : Nat) : Leaf :=
  { dw := true, src := [], ih := h, iw := w, ic := depth, oh := oh, ow := ow, op := avgPoolToConv p depth }

/-- ReplaceFCWithConv2D.cpp 64–119: the convolution made for a fully connected layer with `B` batches. -/
def fcLeaf (f : FC) (B : Nat) : Leaf :=
  { dw := false, src := [], ih := 1, iw := B, ic := f.c, oh := 1, ow := B, op := fcToConv f }

/-- Quantisation of a real result with the fused activation, as TensorFlow Lite's integer kernels do it. -/
def quantOut (t : Types) (r : ℚ → ℤ) (v : ℚ) : Int :=
  clamp (actLo t.act r t.outS t.zpo) (actHi t.act r t.outS t.zpo) (t.zpo + r (v / t.outS))

theorem rqT_eq (t : Types) (r : ℚ → ℤ) (lo hi : Int) : rqT t r = convPost (quantOut t r) ⟨t.inS, t.zpi, lo, hi⟩ := by
  funext s b acc
  unfold rqT convPost quantOut
  dsimp only
  rw [show t.inS * s / t.outS * (acc : ℚ) = t.inS * s * acc / t.outS by ring]

theorem poolLeaf_ok (p : AvgPool) (hp : p.padding = .valid) (h w oh ow depth : Nat) (hfh : 1 ≤ p.fh) (hfw : 1 ≤ p.fw) (hsh : 1 ≤ p.sh) (hsw : 1 ≤ p.sw)
    (hh : 1 ≤ h) (hw : 1 ≤ w) (hd : 0 < depth) (hoh : (oh : Int) = ((h : Int) - p.fh + p.sh) / p.sh)
    (how : (ow : Int) = ((w : Int) - p.fw + p.sw) / p.sw) (hs1 : p.fh < 32768) (hs2 : p.fw < 32768) :
    (poolLeaf p h w oh ow depth).OK [1, h, w, depth] := by
  have hpos : (0 : ℚ) < 1 / ((p.fh * p.fw : Nat) : ℚ) := by
    have : 0 < p.fh * p.fw := Nat.mul_pos hfh hfw
    have : (0 : ℚ) < ((p.fh * p.fw : Nat) : ℚ) := by exact_mod_cast this
    positivity
  refine ⟨rfl, rfl, (fun h => by cases h), fun _ => ⟨?_, rfl, hd, trivial, ?_⟩, hfh, hfw, hsh, hsw, le_refl _, le_refl _, hh, hw, ?_, ?_, fun _ _ => hpos, fun _ _ => rfl, ?_⟩
  · unfold Filter.OK Filter.shape poolLeaf avgPoolToConv
    simp [Nat.mul_assoc]
  · intro b hb
    have := Option.some.inj hb
    subst this
    exact ⟨by simp [poolLeaf, avgPoolToConv], trivial⟩
  · have e : outSize p.padding h p.fh p.sh 1 = ((h : Int) - p.fh + p.sh) / p.sh := by
      rw [hp]
      unfold outSize eff
      dsimp only
      congr 1
      push_cast; ring
    exact hoh.trans e.symm
  · have e : outSize p.padding w p.fw p.sw 1 = ((w : Int) - p.fw + p.sw) / p.sw := by
      rw [hp]
      unfold outSize eff
      dsimp only
      congr 1
      push_cast; ring
    exact how.trans e.symm
  · show (p.fh : Int) * ((1 : Nat) : Int) < 32768 ∧ (p.fw : Int) * ((1 : Nat) : Int) < 32768
    omega

/-- **C81.** An 8-bit average pool with `VALID` padding that is replaced by a depthwise convolution: after all passes the operators on the device
compute, at every output position, the quantised mean of the window up to `threshold + 1` steps, and up to one step with a threshold below
one. -/
theorem C81_average_pool_compiled (cfg : Cfg) (lib : Lib) (hlib : lib.Faithful) (hthr : 0 ≤ cfg.threshold) (hfac : 1 ≤ cfg.factor)
    (r : ℚ → ℤ) (hr : Nearest r) (t : Types) (hin : 0 < t.inS) (hout : 0 < t.outS) (hzi : -128 ≤ t.zpi ∧ t.zpi ≤ 127)
    (hzo : -128 ≤ t.zpo ∧ t.zpo ≤ 127) (hact : t.act = .none ∨ t.act = .relu ∧ t.zpo = -128)
    (p : AvgPool) (hp : p.padding = .valid) (h w oh ow depth : Nat) (hfh : 1 ≤ p.fh) (hfw : 1 ≤ p.fw) (hsh : 1 ≤ p.sh) (hsw : 1 ≤ p.sw)
    (hh : 1 ≤ h) (hw : 1 ≤ w) (hd : 0 < depth) (hoh : (oh : Int) = ((h : Int) - p.fh + p.sh) / p.sh)
    (how : (ow : Int) = ((w : Int) - p.fw + p.sw) / p.sw) (hs1 : p.fh < 32768) (hs2 : p.fw < 32768)
    (limit : Nat) (g : Net) (hg : Pipeline limit (.conv (poolLeaf p h w oh ow depth)) g) (x : Tensor)
    (hx : ∀ i, InShape [1, h, w, depth] i → -128 ≤ x i ∧ x i ≤ 127) (idx : List Nat) (hidx : InShape [1, oh, ow, depth] idx) :
    (|g.eval (fun l => l.run cfg lib r t x) idx - avgPool (quantOut t r) ⟨t.inS, t.zpi, -128, 127⟩ h w p x idx| : ℤ) ≤ cfg.threshold + 1 ∧
    (cfg.threshold < 1 → |g.eval (fun l => l.run cfg lib r t x) idx - avgPool (quantOut t r) ⟨t.inS, t.zpi, -128, 127⟩ h w p x idx| ≤ 1) := by
  have ok := poolLeaf_ok p hp h w oh ow depth hfh hfw hsh hsw hh hw hd hoh how hs1 hs2
  have hq : (1 : ℚ) ≤ cfg.factor := by exact_mod_cast hfac
  have hn : (1 : ℚ) ≤ ((p.fh * p.fw : Nat) : ℚ) := by exact_mod_cast Nat.mul_pos hfh hfw
  have hs : (1 : ℚ) / ((p.fh * p.fw : Nat) : ℚ) ≤ 1 := by
    rw [div_le_one (by linarith)]; exact hn
  have hs0 : (0 : ℚ) ≤ (1 : ℚ) / ((p.fh * p.fw : Nat) : ℚ) := by positivity
  have key := C80_convolution_compiled cfg lib hlib hthr r hr t hin hout hzi hzo (poolLeaf p h w oh ow depth) rfl ok
    (hact.imp_right fun e => ⟨e.1, .inl e.2⟩)
    (by
      intro o _
      show (1 : ℚ) / ((p.fh * p.fw : Nat) : ℚ) ≤ cfg.factor ∧ ∀ o' < _, (1 : ℚ) / ((p.fh * p.fw : Nat) : ℚ) ≤ cfg.factor * ((1 : ℚ) / ((p.fh * p.fw : Nat) : ℚ))
      exact ⟨by linarith, fun _ _ => by nlinarith⟩)
    limit g hg x hx idx hidx
  have hin' : ∀ n k s out : Nat, 1 ≤ s → (out : Int) = ((n : Int) - k + s) / s → ∀ y < out, y * s + k ≤ n := by
    intro n k s out hs ho y hy
    have hle : ((y : Int) + 1) * s ≤ (n : Int) - k + s := (Int.le_ediv_iff_mul_le (by omega)).1 (by omega)
    have e1 : ((y : Int) + 1) * s = ((y * s : Nat) : Int) + s := by push_cast; ring
    omega
  have e : tflConv r t (poolLeaf p h w oh ow depth) x idx = avgPool (quantOut t r) ⟨t.inS, t.zpi, -128, 127⟩ h w p x idx := by
    rw [← C37_avgpool_valid (quantOut t r) ⟨t.inS, t.zpi, -128, 127⟩ 1 h w oh ow p hp depth (hin' _ _ _ _ hsh hoh) (hin' _ _ _ _ hsw how) x idx hidx,
      ← rqT_eq]
    rfl
  rw [e] at key
  exact key

/-- **C82.** An 8-bit fully connected layer whose dimensions before the last two are 1: after all passes every element of the result on the
device is the one of the TensorFlow Lite layer up to `threshold + 1` steps, and up to one step with a threshold below one.  Assumed: the
filter's zero points are 0, its scales are positive, at most `--xcore-conv-multiplier-factor` and within that factor of each other; activation
none or RELU. -/
theorem C82_fully_connected_compiled (cfg : Cfg) (lib : Lib) (hlib : lib.Faithful) (hthr : 0 ≤ cfg.threshold)
    (r : ℚ → ℤ) (hr : Nearest r) (t : Types) (hin : 0 < t.inS) (hout : 0 < t.outS) (hzi : -128 ≤ t.zpi ∧ t.zpi ≤ 127)
    (hzo : -128 ≤ t.zpo ∧ t.zpo ≤ 127) (hact : t.act = .none ∨ t.act = .relu)
    (f : FC) (hdata : f.data.length = f.o * f.c) (hc : 0 < f.c) (hq : f.qp.Fits f.o) (hb : ∀ b, f.bias = some b → b.data.length = f.o ∧ b.qp.Fits f.o)
    (hz : ∀ o < f.o, f.qp.zp o = 0) (hpos : ∀ o < f.o, 0 < f.qp.scale o)
    (hrange : ∀ o < f.o, f.qp.scale o ≤ cfg.factor ∧ ∀ o' < f.o, f.qp.scale o ≤ cfg.factor * f.qp.scale o')
    (pre : List Nat) (hpre : pre.prod = 1) (B : Nat) (hB : 1 ≤ B) (data : List Int) (hd : data.length = (pre ++ [B, f.c]).prod)
    (hx : ∀ v ∈ data, -128 ≤ v ∧ v ≤ 127)
    (limit : Nat) (g : Net) (hg : Pipeline limit (.conv (fcLeaf f B)) g) :
    ∃ s, fcInputShape (pre ++ [B, f.c]) = some s ∧
      let got := flat [1, 1, B, f.o] (g.eval (fun l => l.run cfg lib r t (unflat s data)))
      let want := fullyConnected (rqT t r) t.zpi f B data
      got.length = want.length ∧ want.length = B * f.o ∧ ∀ k (h1 : k < got.length) (h2 : k < want.length),
        (|got[k] - want[k]| : ℤ) ≤ cfg.threshold + 1 ∧ (cfg.threshold < 1 → |got[k] - want[k]| ≤ 1) := by
  obtain ⟨s, hs, hprod, hflat⟩ := C38_fully_connected_partial (rqT t r) t.zpi f pre hpre B data hd
  refine ⟨s, hs, ?_⟩
  intro got want
  have hs' : s = [1, 1, B, f.c] := by
    unfold fcInputShape at hs
    rw [if_pos (by simp)] at hs
    have := Option.some.inj hs
    rw [← this]
    simp
  subst hs'
  have ok : (fcLeaf f B).OK [1, 1, B, f.c] := by
    refine ⟨rfl, rfl, fun _ => ⟨?_, hc, hq, hb⟩, (fun h => by cases h), le_refl _, le_refl _, le_refl _, le_refl _, le_refl _, le_refl _, le_refl _, hB, ?_, ?_,
      hpos, hz, ⟨(by show ((1 : Nat) : Int) * ((1 : Nat) : Int) < 32768; decide), (by show ((1 : Nat) : Int) * ((1 : Nat) : Int) < 32768; decide)⟩⟩
    · unfold Filter.OK Filter.shape fcLeaf fcToConv
      simp [hdata]
    · show ((1 : Nat) : Int) = outSize .valid 1 1 1 1
      decide
    · show (B : Int) = outSize .valid B 1 1 1
      unfold outSize eff
      dsimp only
      push_cast
      omega
  have hx' : ∀ i, InShape [1, 1, B, f.c] i → -128 ≤ unflat [1, 1, B, f.c] data i ∧ unflat [1, 1, B, f.c] data i ≤ 127 := by
    intro i _
    unfold unflat
    rw [List.getD_eq_getElem?_getD]
    cases h : data[ravel [1, 1, B, f.c] i]? with
    | none => simp
    | some v => exact hx v (List.mem_of_getElem? h)
  have key := C80_convolution_compiled cfg lib hlib hthr r hr t hin hout hzi hzo (fcLeaf f B) rfl ok
    (hact.imp_right fun e => ⟨e, .inr rfl⟩) hrange limit g hg (unflat [1, 1, B, f.c] data) hx'
  have hwant : want = flat [1, 1, B, f.o] (conv2d (rqT t r) t.zpi 1 B f.c (fcToConv f) (unflat [1, 1, B, f.c] data)) := hflat.symm
  have len : ∀ h : Tensor, (flat [1, 1, B, f.o] h).length = B * f.o := by intro h; rw [length_flat]; simp
  refine ⟨by rw [hwant]; exact (len _).trans (len _).symm, by rw [hwant, len], ?_⟩
  rw [hwant]
  intro k h1 h2
  have hk : k < B * f.o := by rw [len] at h2; exact h2
  have hfo : 0 < f.o := Nat.pos_of_ne_zero (by rintro h; rw [h] at hk; omega)
  have hi : InShape [1, 1, B, f.o] [0, 0, k / f.o, k % f.o] :=
    ⟨by omega, by omega, Nat.div_lt_of_lt_mul (by rwa [Nat.mul_comm]), Nat.mod_lt _ hfo, trivial⟩
  have hr' : ravel [1, 1, B, f.o] [0, 0, k / f.o, k % f.o] = k := by
    rw [ravel4]
    simp only [Nat.zero_mul, Nat.zero_add]
    rw [Nat.mul_comm]; exact Nat.div_add_mod k f.o
  have ge : ∀ (h : Tensor) (hk' : k < (flat [1, 1, B, f.o] h).length), (flat [1, 1, B, f.o] h)[k] = h [0, 0, k / f.o, k % f.o] := by
    intro h hk'
    have := flat_getElem [1, 1, B, f.o] h _ hi
    rw [hr'] at this
    rw [List.getElem?_eq_getElem hk'] at this
    exact Option.some.inj this
  have e1 : got[k] = g.eval (fun l => l.run cfg lib r t (unflat [1, 1, B, f.c] data)) [0, 0, k / f.o, k % f.o] := ge _ h1
  rw [e1, ge _ h2]
  exact key _ hi

/-- A 2x2 pool with stride 2 of a 4x6x3 tensor meets the hypotheses of C81, and there is a compiled graph. -/
theorem C81_example : ∃ g, Pipeline 8192 (.conv (poolLeaf ⟨2, 2, 2, 2, .valid⟩ 4 6 2 3 3)) g := by
  obtain ⟨_, _, d, _, _, _, _, _, _, h⟩ := C80_reached 8192 (poolLeaf ⟨2, 2, 2, 2, .valid⟩ 4 6 2 3 3)
    (poolLeaf_ok _ rfl 4 6 2 3 3 (by decide) (by decide) (by decide) (by decide) (by decide) (by decide) (by decide) (by decide) (by decide)
      (by decide) (by decide))
  exact ⟨d, h⟩

/-- A layer with two batches, three inputs and two outputs meets the hypotheses of C82, and there is a compiled graph. -/
theorem C82_example :
    ∃ g, Pipeline 8192 (.conv (fcLeaf ⟨2, 3, [1, 2, 3, 4, 5, 6], .perTensor 1 0, some ⟨[10, 20], .perTensor 1 0⟩⟩ 2)) g := by
  obtain ⟨_, _, d, _, _, _, _, _, _, h⟩ := C80_reached 8192
    (fcLeaf ⟨2, 3, [1, 2, 3, 4, 5, 6], .perTensor 1 0, some ⟨[10, 20], .perTensor 1 0⟩⟩ 2)
    ⟨rfl, rfl, fun _ => ⟨by unfold Filter.OK; decide, by decide, trivial, fun b hb => by
      have := Option.some.inj hb; subst this; exact ⟨by decide, trivial⟩⟩, (fun h => by cases h), by decide, by decide, by decide, by decide, by decide,
      by decide, by decide, by decide, by decide, by decide, fun _ _ => by norm_num [fcLeaf, fcToConv, QP.scale], fun _ _ => rfl, by decide⟩
  exact ⟨d, h⟩

end Verif.Conv.Compile
