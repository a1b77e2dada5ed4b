import Verif.Conv.WideProps
/-!
C110: 16-bit convolutions: the passes reach a result, fused activations, fully connected layers, examples.
-/
namespace Verif.Conv.Compile
open Verif.Tensor Verif.Move Verif.Image Verif.Quant Verif.Conv Verif.TFL

/-! ### The passes reach a result -/

theorem steps_slice {R : Leaf → Net → Prop} {a a' : Net} (s : SliceAttr) (h : Steps R a a') : Steps R (.slice s a) (.slice s a') := by
  induction h with
  | refl => exact .refl
  | tail _ h ih => exact ih.tail (.slice h)

theorem steps_cat {R : Leaf → Net → Prop} {a a' b b' : Net} (n : Nat) (h : Steps R a a') (h' : Steps R b b') : Steps R (.cat n a b) (.cat n a' b') := by
  have h1 : Steps R (.cat n a b) (.cat n a' b) := by
    induction h with
    | refl => exact .refl
    | tail _ h ih => exact ih.tail (.left h)
  refine h1.trans ?_
  clear h1 h
  induction h' with
  | refl => exact .refl
  | tail _ h ih => exact ih.tail (.right h)

/-- If the patterns come to an end on every convolution of a graph, they do so on the graph. -/
theorem net_reach {R : Leaf → Net → Prop} : ∀ n : Net, (n.All fun l => ∃ c, Steps R (.conv l) c ∧ Done R c) → ∃ c, Steps R n c ∧ Done R c
  | .conv _, h => h
  | .slice s e, h => by
    obtain ⟨c, h1, h2⟩ := net_reach e h
    exact ⟨_, steps_slice s h1, done_slice h2⟩
  | .cat n a b, h => by
    obtain ⟨c, h1, h2⟩ := net_reach a h.1
    obtain ⟨d, g1, g2⟩ := net_reach b h.2
    refine ⟨_, steps_cat n h1 g1, ?_⟩
    intro n' hn
    cases hn with
    | left h => exact h2 _ h
    | right h => exact g2 _ h
  | .nil, _ => ⟨.nil, .refl, fun _ hn => by cases hn⟩

/-- **C110, the passes come to an end**: for every well-formed 16-bit convolution there is a compiled graph in which nothing is left to
pad, so C110 is about every convolution. -/
theorem C110_reached (limit : Nat) (l : Leaf) (hd : l.dw = false) (ok : l.OK [1, l.ih, l.iw, l.ic]) :
    ∃ g, PipelineN 16 limit (.conv l) g ∧ Done (PadRuleN 16) g := by
  obtain ⟨b, c, d, h1, h2, h3, h4, h5, -, hp⟩ := reachedN (al := 16) (by decide) (by decide) limit l ok
    fun l1 _ e => pad_reachN (by decide) (by decide) l1 (e.trans hd)
  have hdw := pipeline_dw hp false hd
  obtain ⟨g, s, dn⟩ := net_reach (R := PadRuleN 16) d (Net.All.mono (fun l' h => pad_reachN (by decide) (by decide) l' h) d hdw)
  exact ⟨g, ⟨b, c, d, g, h1, h2, h3, h4, h5, s, .refl⟩, dn⟩

/-! ### Fused activations -/

/-- The operator made for a 16-bit convolution does not depend on the fused activation. -/
theorem C110_activation_ignored (cfg : Cfg) (lib : Lib) (t : Types) (a : Act) (l : Leaf) :
    l.lowered16 cfg lib { t with act := a } = l.lowered16 cfg lib t := rfl

/-- A 1x1 convolution of 16 to 16 channels with all weights -1 on a single pixel. -/
def negLeaf : Leaf :=
  { dw := false, src := [], ih := 1, iw := 1, ic := 16, oh := 1, ow := 1
    op := { padding := .valid, sh := 1, sw := 1, dh := 1, dw := 1
            filter := { o := 16, kh := 1, kw := 1, c := 16, data := List.replicate 256 (-1), qp := .perTensor 1 0 }, bias := none } }

def negTypes : Types := { inS := 1, zpi := 0, outS := 1, zpo := 0, act := .none }

theorem negLeaf_ok : negLeaf.OK [1, negLeaf.ih, negLeaf.iw, negLeaf.ic] :=
  ⟨rfl, rfl, fun _ => ⟨by unfold Filter.OK; decide +kernel, by decide, trivial, (fun b hb => by cases hb)⟩, (fun h => by cases h), by decide, by decide, by decide,
    by decide, by decide, by decide, by decide, by decide, by decide, by decide, fun _ _ => by norm_num [negLeaf, QP.scale], fun _ _ => rfl, by decide⟩

/-- **C110, refuted for fused activations**: a RELU that is part of a 16-bit convolution is lost.  Two convolutions that differ in nothing but
the RELU are replaced by the same operator, TensorFlow Lite's results for them are 0 and -32000, so that whatever the kernel computes, one of
the two compiled convolutions is wrong by at least 16000 steps. -/
theorem C110_relu_refuted (cfg : Cfg) (lib : Lib) (lib16 : Lib16) (r : ℚ → ℤ) (hr : Nearest r) (x : Tensor) (hx : x = fun _ => 2000) :
    (negLeaf.lowered16 cfg lib negTypes).isSome = true ∧
    tflConv16 r negTypes negLeaf x [0, 0, 0, 0] = -32000 ∧ tflConv16 r { negTypes with act := .relu } negLeaf x [0, 0, 0, 0] = 0 ∧
    (16000 ≤ |negLeaf.run16 cfg lib lib16 r negTypes x [0, 0, 0, 0] - tflConv16 r negTypes negLeaf x [0, 0, 0, 0]| ∨
     16000 ≤ |negLeaf.run16 cfg lib lib16 r { negTypes with act := .relu } x [0, 0, 0, 0] -
       tflConv16 r { negTypes with act := .relu } negLeaf x [0, 0, 0, 0]|) := by
  subst hx
  have hl := lower16_eq negLeaf_ok rfl rfl cfg lib negTypes
  rw [if_pos (by decide)] at hl
  have hs : ∃ lo, negLeaf.lowered16 cfg lib negTypes = some lo := ⟨_, by unfold Leaf.lowered16; rw [if_pos (by decide)]; exact hl⟩
  obtain ⟨lo, hs⟩ := hs
  have hr' : ∀ z : Int, r z = z := by
    intro z
    have := hr z
    rw [← Int.cast_sub, ← Int.cast_abs] at this
    have h2 : (|r z - z| : ℤ) < (1 : ℚ) := by linarith
    have h3 : |r z - z| < 1 := by exact_mod_cast h2
    have := abs_lt.1 h3
    omega
  have hacc : ∀ rq : Requant, conv2d rq 0 1 1 16 negLeaf.op (fun _ => 2000) [0, 0, 0, 0] = rq 1 none (-32000) := by
    intro rq
    have e : conv2d (fun _ _ a => a) 0 1 1 16 negLeaf.op (fun _ => 2000) [0, 0, 0, 0] = -32000 := by decide +kernel
    have e2 : conv2d rq 0 1 1 16 negLeaf.op (fun _ => 2000) [0, 0, 0, 0] =
      rq 1 none (conv2d (fun _ _ a => a) 0 1 1 16 negLeaf.op (fun _ => 2000) [0, 0, 0, 0]) := rfl
    rw [e2, e]
  have hq : r (negTypes.inS * 1 / negTypes.outS * ((-32000 : Int) : ℚ)) = -32000 := by
    rw [show negTypes.inS * 1 / negTypes.outS * ((-32000 : Int) : ℚ) = ((-32000 : Int) : ℚ) by norm_num [negTypes]]
    exact hr' _
  have t1 : tflConv16 r negTypes negLeaf (fun _ => 2000) [0, 0, 0, 0] = -32000 := by
    unfold tflConv16
    refine (hacc _).trans ?_
    unfold rqT16
    rw [hq]
    show clamp (-32768) 32767 (0 + -32000) = -32000
    decide
  have t2 : tflConv16 r { negTypes with act := .relu } negLeaf (fun _ => 2000) [0, 0, 0, 0] = 0 := by
    unfold tflConv16
    refine (hacc _).trans ?_
    unfold rqT16
    rw [hq]
    show clamp (max (-32768) 0) 32767 (0 + -32000) = 0
    decide
  refine ⟨by rw [hs]; rfl, t1, t2, ?_⟩
  rw [t1, t2]
  have e : negLeaf.run16 cfg lib lib16 r { negTypes with act := .relu } (fun _ => 2000) [0, 0, 0, 0] =
      negLeaf.run16 cfg lib lib16 r negTypes (fun _ => 2000) [0, 0, 0, 0] := by
    unfold Leaf.run16
    rw [C110_activation_ignored, hs]
  rw [e]
  generalize negLeaf.run16 cfg lib lib16 r negTypes (fun _ => 2000) [0, 0, 0, 0] = z
  rcases le_total z (-16000) with h | h
  · right
    rw [sub_zero]
    exact le_trans (by omega) (neg_le_abs z)
  · left
    exact le_trans (by omega) (le_abs_self _)

/-! ### Fully connected layers -/

/-- **C110, fully connected layers**: a 16-bit fully connected layer whose dimensions before the last two are 1: after all passes every
element of the result on the device is the one of the TensorFlow Lite layer up to the error of lib_nn's 16-bit kernel plus half a step.
Assumed as for convolutions. -/
theorem C110_fully_connected16_partial (cfg : Cfg) (lib : Lib) (lib16 : Lib16) (hlib : lib16.OK) (r : ℚ → ℤ) (hr : Nearest r) (t : Types)
    (hin : 0 < t.inS) (hout : 0 < t.outS) (hzi : t.zpi = 0) (hzo : t.zpo = 0) (hact : t.act = .none)
    (f : FC) (hdata : f.data.length = f.o * f.c) (hc : 0 < f.c) (hq : f.qp.Fits f.o) (hb : ∀ b, f.bias = some b → b.data.length = f.o ∧ b.qp.Fits f.o)
    (hz : ∀ o < f.o, f.qp.zp o = 0) (hpos : ∀ o < f.o, 0 < f.qp.scale o)
    (hrange : ∀ o < f.o, f.qp.scale o ≤ cfg.factor ∧ ∀ o' < f.o, f.qp.scale o ≤ cfg.factor * f.qp.scale o')
    (htop : ∀ o < f.o, t.inS * f.qp.scale o / t.outS ≤ lib16.top)
    (hfit : ∀ o < f.o, |biasAt f.bias o| + 32768 * ∑ c ∈ Finset.range f.c, |f.data.getD (o * f.c + c) 0| < 2 ^ 31)
    (pre : List Nat) (hpre : pre.prod = 1) (B : Nat) (hB : 1 ≤ B) (data : List Int) (hd : data.length = (pre ++ [B, f.c]).prod)
    (hx : ∀ v ∈ data, -32768 ≤ v ∧ v ≤ 32767)
    (limit : Nat) (g : Net) (hg : PipelineN 16 limit (.conv (fcLeaf f B)) g) :
    ∃ s, fcInputShape (pre ++ [B, f.c]) = some s ∧
      let got := flat [1, 1, B, f.o] (g.eval (fun l => l.run16 cfg lib lib16 r t (unflat s data)))
      let want := fullyConnected (rqT16 t r) t.zpi f B data
      got.length = want.length ∧ want.length = B * f.o ∧ ∀ k (h1 : k < got.length) (h2 : k < want.length),
        ((|got[k] - want[k]| : ℤ) : ℚ) ≤ lib16.err + 1 / 2 := by
  obtain ⟨s, hs, hprod, hflat⟩ := C38_fully_connected_partial (rqT16 t r) t.zpi f pre hpre B data hd
  refine ⟨s, hs, ?_⟩
  intro got want
  have hs' : s = [1, 1, B, f.c] := by
    unfold fcInputShape at hs
    rw [if_pos (by simp)] at hs
    have := Option.some.inj hs
    rw [← this]
    simp
  subst hs'
  have ok : (fcLeaf f B).OK [1, 1, B, f.c] := by
    refine ⟨rfl, rfl, fun _ => ⟨?_, hc, hq, hb⟩, (fun h => by cases h), le_refl _, le_refl _, le_refl _, le_refl _, le_refl _, le_refl _, le_refl _, hB, ?_, ?_,
      hpos, hz, ⟨(by show ((1 : Nat) : Int) * ((1 : Nat) : Int) < 32768; decide), (by show ((1 : Nat) : Int) * ((1 : Nat) : Int) < 32768; decide)⟩⟩
    · unfold Filter.OK Filter.shape fcLeaf fcToConv
      simp [hdata]
    · show ((1 : Nat) : Int) = outSize .valid 1 1 1 1
      decide
    · show (B : Int) = outSize .valid B 1 1 1
      unfold outSize eff
      dsimp only
      push_cast
      omega
  have hx' : ∀ i, InShape [1, 1, B, f.c] i → -32768 ≤ unflat [1, 1, B, f.c] data i ∧ unflat [1, 1, B, f.c] data i ≤ 32767 := by
    intro i _
    unfold unflat
    rw [List.getD_eq_getElem?_getD]
    cases h : data[ravel [1, 1, B, f.c] i]? with
    | none => simp
    | some v => exact hx v (List.mem_of_getElem? h)
  have hf32 : (fcLeaf f B).Fits32 := by
    intro o ho
    have e : ∑ a ∈ Finset.range (fcLeaf f B).op.filter.kh, ∑ b ∈ Finset.range (fcLeaf f B).op.filter.kw, ∑ c ∈ Finset.range (fcLeaf f B).op.filter.c,
        |(fcLeaf f B).op.filter.at o a b c| = ∑ c ∈ Finset.range f.c, |f.data.getD (o * f.c + c) 0| := by
      show ∑ a ∈ Finset.range 1, ∑ b ∈ Finset.range 1, ∑ c ∈ Finset.range f.c, |(fcLeaf f B).op.filter.at o a b c| = _
      rw [Finset.sum_range_one, Finset.sum_range_one]
      refine Finset.sum_congr rfl fun c _ => ?_
      unfold Filter.at Filter.shape fcLeaf fcToConv
      dsimp only
      rw [ravel4]
      simp
    rw [e]
    exact hfit o ho
  have key := C110_convolution16_compiled_partial cfg lib lib16 hlib r hr t hin hout hzi hzo hact (fcLeaf f B) rfl rfl ok hrange htop hf32 limit g hg
    (unflat [1, 1, B, f.c] data) hx'
  have hwant : want = flat [1, 1, B, f.o] (conv2d (rqT16 t r) t.zpi 1 B f.c (fcToConv f) (unflat [1, 1, B, f.c] data)) := hflat.symm
  have len : ∀ h : Tensor, (flat [1, 1, B, f.o] h).length = B * f.o := by intro h; rw [length_flat]; simp
  refine ⟨by rw [hwant]; exact (len _).trans (len _).symm, by rw [hwant, len], ?_⟩
  rw [hwant]
  intro k h1 h2
  have hk : k < B * f.o := by rw [len] at h2; exact h2
  have hfo : 0 < f.o := Nat.pos_of_ne_zero (by rintro h; rw [h] at hk; omega)
  have hi : InShape [1, 1, B, f.o] [0, 0, k / f.o, k % f.o] :=
    ⟨by omega, by omega, Nat.div_lt_of_lt_mul (by rwa [Nat.mul_comm]), Nat.mod_lt _ hfo, trivial⟩
  have hr' : ravel [1, 1, B, f.o] [0, 0, k / f.o, k % f.o] = k := by
    rw [ravel4]
    simp only [Nat.zero_mul, Nat.zero_add]
    rw [Nat.mul_comm]; exact Nat.div_add_mod k f.o
  have ge : ∀ (h : Tensor) (hk' : k < (flat [1, 1, B, f.o] h).length), (flat [1, 1, B, f.o] h)[k] = h [0, 0, k / f.o, k % f.o] := by
    intro h hk'
    have := flat_getElem [1, 1, B, f.o] h _ hi
    rw [hr'] at this
    rw [List.getElem?_eq_getElem hk'] at this
    exact Option.some.inj this
  have e1 : got[k] = g.eval (fun l => l.run16 cfg lib lib16 r t (unflat [1, 1, B, f.c] data)) [0, 0, k / f.o, k % f.o] := ge _ h1
  rw [e1, ge _ h2]
  exact key _ hi

/-! ### Example -/

/-- A kernel that computes exactly and rounds once. -/
def exactLib16 : Lib16 :=
  { kern := fun m o p => clamp (-32768) 32767 (roundAway (m.mul o * ((m.biasAt o + m.dot o p : Int) : ℚ))), err := 1 / 2, top := 2 }

theorem exactLib16_ok : exactLib16.OK where
  nonneg := by norm_num [exactLib16]
  near := by
    intro m o p _ _ _ _ _
    show |((clamp (-32768) 32767 (roundAway _) : Int) : ℚ) - _| ≤ 1 / 2
    rw [sat16_clamp]
    exact le_trans (sat16_dist _ _) (roundAway_nearest _)
  range := by
    intro m o p
    show -32768 ≤ clamp (-32768) 32767 _ ∧ clamp (-32768) 32767 _ ≤ 32767
    unfold clamp
    omega

def exTypes16 : Types := { inS := 1 / 10, zpi := 0, outS := 1 / 5, zpo := 0, act := .none }

/-- The convolution of C80's example on 16-bit data meets the hypotheses of C110, and there is a compiled graph without anything left to pad;
the exact kernel keeps the contract. -/
theorem C110_example : ∃ g, PipelineN 16 1000 (.conv exLeaf) g ∧ Done (PadRuleN 16) g ∧ exactLib16.OK ∧ exLeaf.Fits32 ∧
    (∀ o < exLeaf.oc, exTypes16.inS * exLeaf.op.filter.qp.scale o / exTypes16.outS ≤ exactLib16.top) ∧
    (∀ o < exLeaf.oc, exLeaf.op.filter.qp.scale o ≤ (4294967295 : Nat) ∧ ∀ o' < exLeaf.oc,
      exLeaf.op.filter.qp.scale o ≤ (4294967295 : Nat) * exLeaf.op.filter.qp.scale o') ∧
    exLeaf.dw = false ∧ exLeaf.src = [] ∧ exLeaf.OK [1, exLeaf.ih, exLeaf.iw, exLeaf.ic] := by
  obtain ⟨g, h1, h2⟩ := C110_reached 1000 exLeaf rfl exLeaf_ok
  refine ⟨g, h1, h2, exactLib16_ok, ?_, ?_, ?_, rfl, rfl, exLeaf_ok⟩
  · unfold Leaf.Fits32
    decide +kernel
  · decide +kernel
  · decide +kernel

end Verif.Conv.Compile
