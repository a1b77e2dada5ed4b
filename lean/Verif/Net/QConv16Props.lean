import Verif.Net.QWide
/-! C111: 16-bit convolutions and fully connected layers in compiled networks. -/
namespace Verif.Net
open Verif.Tensor Verif.Move Verif.MemPlan Verif.MemPlan.Conc Verif.Quant

/-- **C111.** In every well-typed quantised network — after any rewriting by the patterns, with any placement of the constants, in the planned
arena and with every interleaving of the threads — every 16-bit convolution, whatever the passes made of it, computes what TensorFlow Lite's
operator computes from the operand that it gets, and so does every 16-bit fully connected layer, up to the error of the kernel and half a
step. -/
theorem C111_wide_conv_network (R : Rt) (dom : MulArgs → Prop) (hR : R.OK dom) (Q : QNetwork) (hQ : Q.OK R dom) (N : Network)
    (h : Relation.ReflTransGen (Rw patterns) Q.seen N) (skip : Nat → Bool)
    (cfg : WCfg) (calls order : List Nat) (consts : Nat → Weights.Const) (W : WFun)
    (hW : W = ((Q.rewritten N).expand R).withWeights skip cfg calls order consts)
    (hv : W.Visited) (hs : W.Stored) (a : ModuleAttrs) (ha : planMemory W.func = some a) (impl : Nat → Impl)
    (ok : ImplOK W.func (onData W.func impl (W.kernels ((Q.rewritten N).sem R) W.file)) impl)
    (hskip : ∀ j, j < W.func.ops.length → impl j = .skip → (W.func.op j).operands = []) (inputs : List (List Byte))
    (hin : inputs.map List.length = Q.inputs.map Ty.size) :
    ∃ vals : List (List Byte), vals.take Q.inputs.length = inputs ∧ vals.map List.length = Q.types.map Ty.size ∧
      (∀ (j : Nat) (t : Conv.Compile.Types) (l : Conv.Compile.Leaf) (g : Conv.Compile.Net) (v : Nat) (ty : Ty),
        Q.nodes[j]? = some ⟨.conv16 t l g, [v], ty⟩ → ∀ idx, InShape ty.shape idx →
          ((|tensor16 ty (vals.getD (Q.inputs.length + j) []) idx -
            Conv.Compile.tflConv16 R.r t l (tensor16 (Q.types.getD v ⟨[], 0⟩) (vals.getD v [])) idx| : ℤ) : ℚ) ≤ R.lib16.err + 1 / 2) ∧
      (∀ (j : Nat) (t : Conv.Compile.Types) (f : Conv.FC) (B : Nat) (g : Conv.Compile.Net) (v : Nat) (ty : Ty),
        Q.nodes[j]? = some ⟨.fc16 t f B g, [v], ty⟩ → ∀ k < B * f.o,
          ((|val16 (vals.getD (Q.inputs.length + j) []) k -
            (Conv.fullyConnected (Conv.Compile.rqT16 t R.r) t.zpi f B (vals16 (vals.getD v []))).getD k 0| : ℤ) : ℚ) ≤ R.lib16.err + 1 / 2) ∧
      ∀ (m : Mem) (c : Env) (tr : List (List (List Byte))),
        Run W.func (onData W.func impl (W.kernels ((Q.rewritten N).sem R) W.file)) impl a.offsets W.func.ops 0 (loadInputs a.offsets inputs m) c tr →
          tr.getLast? = some (Q.outputs.map fun v => vals.getD v []) := by
  obtain ⟨vals, ⟨v1, v2, v3, v4⟩, v5⟩ := C106_compiled_network R dom hR Q hQ N h skip cfg calls order consts W hW hv hs a ha impl ok hskip inputs hin
  exact ⟨vals, v2, v3, (fun j t l g v ty hj => v4 j _ hj), (fun j t f B g v ty hj => (v4 j _ hj).2), v5⟩

/-! ### Floats through a 16-bit layer -/

/-- Floats are converted to 16 bits, go through a fully connected layer, and are converted back. -/
def dense (t : Conv.Compile.Types) (f : Conv.FC) (B : Nat) (g : Conv.Compile.Net) : QNetwork where
  inputs := [⟨[B, f.c], 4⟩]
  nodes := [⟨.blob (.quantize ⟨t.inS, 0, -32768, 32767⟩) .none, [0], ⟨[B, f.c], 2⟩⟩, ⟨.fc16 t f B g, [1], ⟨[B, f.o], 2⟩⟩,
    ⟨.blob (.dequantize ⟨t.outS, 0, -32768, 32767⟩) .none, [2], ⟨[B, f.o], 4⟩⟩]
  outputs := [3]

/-- The layer in real numbers: weights and biases of output `o` are multiples of `scale o` and `inS * scale o`. -/
noncomputable def denseReal (t : Conv.Compile.Types) (f : Conv.FC) (x : Nat → ℝ) (o : Nat) : ℝ :=
  (t.inS * f.qp.scale o : ℚ) * (Conv.biasAt f.bias o : ℝ) + ∑ c ∈ Finset.range f.c, (f.qp.scale o : ℝ) * (f.data.getD (o * f.c + c) 0 : ℝ) * x c

theorem fc_getD (rq : Conv.Requant) (zpi : ℤ) (f : Conv.FC) (B : Nat) (data : List ℤ) {b o : Nat} (hb : b < B) (ho : o < f.o) :
    (Conv.fullyConnected rq zpi f B data).getD (b * f.o + o) 0 = rq (f.qp.scale o) (f.bias.map fun bs => bs.qp.scale o)
      (Conv.biasAt f.bias o + ∑ c ∈ Finset.range f.c, (data.getD (b * f.c + c) 0 - zpi) * (f.data.getD (o * f.c + c) 0 - f.qp.zp o)) := by
  unfold Conv.fullyConnected
  rw [List.getD_eq_getElem?_getD, Conv.getElem?_flatMap_range _ f.o B b o (by simp) hb ho, List.getElem?_map, List.getElem?_range ho]
  rfl

/-- Conditions on the layer: those of C110, for any kernel. -/
structure DenseOK (R : Rt) (t : Conv.Compile.Types) (f : Conv.FC) (B : Nat) (g : Conv.Compile.Net) : Prop where
  types : t.OK16
  out : 1 / 2 ^ 126 ≤ t.outS ∧ t.outS ≤ 2 ^ 111
  data : f.data.length = f.o * f.c
  c : 1 ≤ f.c
  batches : 1 ≤ B
  fits : f.qp.Fits f.o
  bias : ∀ b, f.bias = some b → b.data.length = f.o ∧ b.qp.Fits f.o
  scales : ∀ o < f.o, f.qp.zp o = 0 ∧ 0 < f.qp.scale o ∧ f.qp.scale o ≤ R.cfg.factor ∧ ∀ o' < f.o, f.qp.scale o ≤ R.cfg.factor * f.qp.scale o'
  top : ∀ o < f.o, t.inS * f.qp.scale o / t.outS ≤ R.lib16.top
  fit32 : ∀ o < f.o, |Conv.biasAt f.bias o| + 32768 * ∑ c ∈ Finset.range f.c, |f.data.getD (o * f.c + c) 0| < 2 ^ 31
  made : ∃ limit, Conv.Compile.PipelineN 16 limit (.conv (Conv.Compile.fcLeaf f B)) g

theorem dense_ok {R : Rt} {dom : MulArgs → Prop} {t : Conv.Compile.Types} {f : Conv.FC} {B : Nat} {g : Conv.Compile.Net} (h : DenseOK R t f B g) :
    (dense t f B g).OK R dom := by
  refine ⟨⟨by simp [dense], ⟨⟨h.types.inS, rfl⟩, rfl, rfl, rfl⟩, by simp [dense], ?_, by simp [dense], ⟨⟨⟨h.types.outS, rfl⟩, h.out⟩, rfl, rfl, rfl⟩, trivial⟩,
    by simp [dense]⟩
  exact ⟨_, _, [], rfl, rfl, rfl, rfl, by simp, rfl, h.types, h.data, h.c, h.batches, h.fits, h.bias, h.scales, h.top, h.fit32, h.made⟩

/-- **C111**, end to end in real numbers: the compiled model that converts floats to 16 bits, applies a fully connected layer and converts the
result to floats, in its arena, gives the real-valued layer of its inputs, where these are in the range of the input type and the result is in
the range of the output type: up to one step and the kernel's error in the result, the error of the conversion weighted with the weights, and
the relative error of a float. -/
theorem C111_dense_layer (R : Rt) (dom : MulArgs → Prop) (hR : R.OK dom) (t : Conv.Compile.Types) (f : Conv.FC) (B : Nat) (g : Conv.Compile.Net)
    (hok : DenseOK R t f B g) (skip : Nat → Bool) (a : ModuleAttrs) (ha : planMemory (((dense t f B g).expand R).func skip) = some a)
    (x : List Byte) (hx : x.length = B * f.c * 4) (m : Mem) (c : Env) :
    ∃ y : List Byte, y.length = B * f.o * 4 ∧
      (arenaTrace (((dense t f B g).expand R).func skip) (devKernels ((dense t f B g).sem R) (((dense t f B g).expand R).compile skip).1.ops) a.offsets
        (((dense t f B g).expand R).func skip).ops 0 (loadInputs a.offsets [x] m) c).getLast? = some [y] ∧
      ∀ b < B, ∀ o < f.o,
        (∀ c < f.c, R.b.finite (elemAt ⟨[B, f.c], 4⟩ x [b, c]) ∧ |R.b.f32 (elemAt ⟨[B, f.c], 4⟩ x [b, c])| ≤ 32767 * t.inS) →
        |denseReal t f (fun c => R.b.f32 (elemAt ⟨[B, f.c], 4⟩ x [b, c])) o| ≤ 32767 * t.outS →
        |R.b.f32 (elemAt ⟨[B, f.o], 4⟩ y [b, o]) - denseReal t f (fun c => R.b.f32 (elemAt ⟨[B, f.c], 4⟩ x [b, c])) o| ≤
          (1 + R.b.fErr) * (t.outS * (R.lib16.err + 1) +
            t.inS * max (R.b.err : ℝ) R.b.tflErr * ∑ c ∈ Finset.range f.c, (f.qp.scale o : ℝ) * |(f.data.getD (o * f.c + c) 0 : ℝ)|) +
          R.b.fErr * |denseReal t f (fun c => R.b.f32 (elemAt ⟨[B, f.c], 4⟩ x [b, c])) o| := by
  obtain ⟨vals, v1, v2, v3, v4, v5⟩ := ((C84_quantised_network R dom hR _ (dense_ok hok) skip).2 a ha).2 [x] (by
    simp [dense, hx, Ty.size])
  have hsi : (0 : ℝ) < t.inS := by exact_mod_cast hok.types.inS
  have hso : (0 : ℝ) < t.outS := by exact_mod_cast hok.types.outS
  match vals, v1 with
  | [x', q, z, y], _ =>
    have e1 : x' = x := by simpa [dense] using v2
    subst e1
    simp [dense, QNetwork.types, Ty.size] at v3
    refine ⟨y, v3.2.2.2, by simpa [dense] using v5 m c, ?_⟩
    intro b hb o ho hxr hwr
    obtain ⟨X, eX⟩ : ∃ X : Nat → ℝ, X = fun c => R.b.f32 (elemAt ⟨[B, f.c], 4⟩ x' [b, c]) := ⟨_, rfl⟩
    have hXc : ∀ c, R.b.f32 (elemAt ⟨[B, f.c], 4⟩ x' [b, c]) = X c := fun c => by rw [eX]
    rw [← eX] at hwr ⊢
    have m1 := v4 0 _ rfl
    have m2 := v4 1 _ rfl
    have m3 := v4 2 _ rfl
    have m1 : ∀ idx, InShape [B, f.c] idx → R.b.finite (elemAt ⟨[B, f.c], 4⟩ x' idx) →
      |(tensor16 ⟨[B, f.c], 2⟩ q idx : ℝ) - sat16 ⟨t.inS, 0, -32768, 32767⟩ (R.b.f32 (elemAt ⟨[B, f.c], 4⟩ x' idx))| ≤ max (R.b.err : ℝ) R.b.tflErr := m1
    have m2 : Near16 R (val16 z (b * f.o + o)) ((Conv.fullyConnected (Conv.Compile.rqT16 t R.r) t.zpi f B (vals16 q)).getD (b * f.o + o) 0) :=
      m2.2 _ (by nlinarith)
    have m3 : |R.b.f32 (elemAt ⟨[B, f.o], 4⟩ y [b, o]) - ((QType.deq ⟨t.outS, 0, -32768, 32767⟩ (tensor16 ⟨[B, f.o], 2⟩ z [b, o]) : ℚ) : ℝ)| ≤
        R.b.fErr * |((QType.deq ⟨t.outS, 0, -32768, 32767⟩ (tensor16 ⟨[B, f.o], 2⟩ z [b, o]) : ℚ) : ℝ)| := m3 _ ⟨hb, ho, trivial⟩
    rw [tensor16_val ⟨[B, f.o], 2⟩ rfl, deq_sym ⟨hok.types.outS, rfl⟩] at m3
    have er : ravel [B, f.o] [b, o] = b * f.o + o := by simp [ravel]
    have er2 : ∀ c, ravel [B, f.c] [b, c] = b * f.c + c := fun c => by simp [ravel]
    dsimp only at m3
    rw [er] at m3
    push_cast at m3
    rw [fc_getD _ _ _ _ _ hb ho] at m2
    obtain ⟨E, eE⟩ : ∃ E, E = max (R.b.err : ℝ) R.b.tflErr := ⟨_, rfl⟩
    rw [← eE] at m1 ⊢
    -- the quantised inputs
    have hq : ∀ c < f.c, |(t.inS : ℝ) * ((vals16 q).getD (b * f.c + c) 0 : ℝ) - X c| ≤ t.inS * E := by
      intro c hc
      obtain ⟨hf, hr⟩ := hxr c hc
      have h1 := m1 [b, c] ⟨hb, hc, trivial⟩ hf
      rw [tensor16_val ⟨[B, f.c], 2⟩ rfl, sat16_eq ⟨hok.types.inS, rfl⟩] at h1
      dsimp only at h1
      rw [er2, hXc] at h1
      rw [hXc] at hr
      have hlt : b * f.c + c < B * f.c := by nlinarith
      rw [getD_vals16 q (by rw [v3.2.1]; omega)]
      have hX : |X c / t.inS| ≤ 32767 := by
        rw [abs_div, abs_of_pos hsi, div_le_iff₀ hsi]
        exact hr
      rw [abs_le] at hX
      rw [min_eq_right hX.2, max_eq_right (by linarith [hX.1])] at h1
      have : (t.inS : ℝ) * (val16 q (b * f.c + c) : ℝ) - X c = t.inS * ((val16 q (b * f.c + c) : ℝ) - X c / t.inS) := by field_simp
      rw [this, abs_mul, abs_of_pos hsi]
      exact mul_le_mul_of_nonneg_left h1 hsi.le
    obtain ⟨Q, eQ⟩ : ∃ Q : Nat → ℤ, Q = fun c => (vals16 q).getD (b * f.c + c) 0 := ⟨_, rfl⟩
    have hQc : ∀ c, (vals16 q).getD (b * f.c + c) 0 = Q c := fun c => by rw [eQ]
    simp only [hQc] at hq m2
    obtain ⟨S, eS⟩ : ∃ S : ℚ, S = f.qp.scale o := ⟨_, rfl⟩
    have hzp : f.qp.zp o = 0 := (hok.scales o ho).1
    have hS : 0 < S := by rw [eS]; exact (hok.scales o ho).2.1
    have hSR : (0 : ℝ) < S := by exact_mod_cast hS
    rw [hok.types.zpi, hzp] at m2
    simp only [sub_zero] at m2
    obtain ⟨A, eA⟩ : ∃ A : ℤ, A = Conv.biasAt f.bias o + ∑ c ∈ Finset.range f.c, Q c * f.data.getD (o * f.c + c) 0 := ⟨_, rfl⟩
    rw [← eA, ← eS] at m2
    unfold denseReal at hwr ⊢
    rw [← eS] at hwr ⊢
    obtain ⟨D, eD⟩ : ∃ D : ℝ, D = ((t.inS * S : ℚ) : ℝ) * (Conv.biasAt f.bias o : ℝ) + ∑ c ∈ Finset.range f.c, (S : ℝ) * (f.data.getD (o * f.c + c) 0 : ℝ) * X c := ⟨_, rfl⟩
    rw [← eD] at hwr ⊢
    obtain ⟨G, eG⟩ : ∃ G : ℝ, G = ∑ c ∈ Finset.range f.c, (S : ℝ) * |(f.data.getD (o * f.c + c) 0 : ℝ)| := ⟨_, rfl⟩
    rw [← eG]
    -- the sum of products
    have hA : |(t.inS : ℝ) * S * A - D| ≤ t.inS * E * G := by
      have e : (t.inS : ℝ) * S * A - D = ∑ c ∈ Finset.range f.c, (S : ℝ) * (f.data.getD (o * f.c + c) 0 : ℝ) * ((t.inS : ℝ) * Q c - X c) := by
        rw [eA, eD]
        push_cast
        simp only [mul_sub, Finset.sum_sub_distrib, mul_add, Finset.mul_sum]
        rw [add_sub_add_left_eq_sub]
        congr 1
        apply Finset.sum_congr rfl
        intro c _
        ring
      rw [e, eG, Finset.mul_sum]
      refine (Finset.abs_sum_le_sum_abs _ _).trans (Finset.sum_le_sum ?_)
      intro c hc
      rw [abs_mul, abs_mul, abs_of_pos hSR]
      have := hq c (Finset.mem_range.1 hc)
      have h0 : (0 : ℝ) ≤ S * |(f.data.getD (o * f.c + c) 0 : ℝ)| := by positivity
      nlinarith
    -- rounding and saturation
    have hrq : |(Conv.Compile.rqT16 t R.r S (f.bias.map fun bs => bs.qp.scale o) A : ℝ) - D / t.outS| ≤ 1 / 2 + t.inS * E * G / t.outS := by
      have hn : |((R.r (t.inS * S / t.outS * A) : ℤ) : ℝ) - (t.inS : ℝ) * S / t.outS * A| ≤ 1 / 2 := by
        have := hR.r (t.inS * S / t.outS * A)
        have h' : ((|((R.r (t.inS * S / t.outS * A) : ℤ) : ℚ) - t.inS * S / t.outS * A| : ℚ) : ℝ) ≤ ((1 / 2 : ℚ) : ℝ) := by exact_mod_cast this
        push_cast at h'
        linarith
      have hd : |(t.inS : ℝ) * S / t.outS * A - D / t.outS| ≤ t.inS * E * G / t.outS := by
        have : (t.inS : ℝ) * S / t.outS * A - D / t.outS = ((t.inS : ℝ) * S * A - D) / t.outS := by ring
        rw [this, abs_div, abs_of_pos hso]
        exact div_le_div_of_nonneg_right hA hso.le
      have hsum : |((R.r (t.inS * S / t.outS * A) : ℤ) : ℝ) - D / t.outS| ≤ 1 / 2 + t.inS * E * G / t.outS :=
        (abs_sub_le _ _ _).trans (add_le_add hn hd)
      have hD : |D / t.outS| ≤ 32767 := by
        rw [abs_div, abs_of_pos hso, div_le_iff₀ hso]
        exact hwr
      rw [abs_le] at hD
      refine le_trans ?_ hsum
      unfold Conv.Compile.rqT16 Conv.Compile.actLo16 Conv.Compile.actHi16 clamp
      rw [hok.types.act, hok.types.zpo]
      dsimp only
      rw [zero_add]
      generalize R.r (t.inS * S / t.outS * A) = n
      push_cast
      have hc : max (-32768) (min 32767 (D / (t.outS : ℝ))) = D / t.outS := by rw [min_eq_right hD.2, max_eq_right (by linarith [hD.1])]
      have hn : |max (-32768) (min 32767 (n : ℝ)) - max (-32768) (min 32767 (D / (t.outS : ℝ)))| ≤ |(n : ℝ) - D / t.outS| := by
        refine (abs_max_sub_max_le_max _ _ _ _).trans ?_
        rw [sub_self, abs_zero, max_eq_right (abs_nonneg _)]
        refine (abs_min_sub_min_le_max _ _ _ _).trans ?_
        rw [sub_self, abs_zero, max_eq_right (abs_nonneg _)]
      rw [hc] at hn
      exact hn
    have m4 : |((val16 z (b * f.o + o) : ℤ) : ℝ) - (Conv.Compile.rqT16 t R.r S (f.bias.map fun bs => bs.qp.scale o) A : ℝ)| ≤ (R.lib16.err : ℝ) + 1 / 2 := by
      unfold Near16 at m2
      have h' : (((|val16 z (b * f.o + o) - Conv.Compile.rqT16 t R.r S (f.bias.map fun bs => bs.qp.scale o) A| : ℤ) : ℚ) : ℝ) ≤ ((R.lib16.err + 1 / 2 : ℚ) : ℝ) := by
        exact_mod_cast m2
      push_cast at h'
      linarith
    obtain ⟨V, eV⟩ : ∃ V : ℝ, V = ((val16 z (b * f.o + o) : ℤ) : ℝ) := ⟨_, rfl⟩
    rw [← eV] at m3 m4
    have m5 : |V - D / t.outS| ≤ R.lib16.err + 1 + t.inS * E * G / t.outS := by
      have := abs_sub_le V (Conv.Compile.rqT16 t R.r S (f.bias.map fun bs => bs.qp.scale o) A : ℝ) (D / t.outS)
      linarith
    have m6 : |(t.outS : ℝ) * V - D| ≤ t.outS * (R.lib16.err + 1) + t.inS * E * G := by
      have e : (t.outS : ℝ) * V - D = t.outS * (V - D / t.outS) := by field_simp
      rw [e, abs_mul, abs_of_pos hso]
      refine (mul_le_mul_of_nonneg_left m5 hso.le).trans (le_of_eq ?_)
      field_simp
    obtain ⟨T, eT⟩ : ∃ T : ℝ, T = t.outS * (R.lib16.err + 1) + t.inS * E * G := ⟨_, rfl⟩
    rw [← eT] at m6 ⊢
    obtain ⟨Y, eY⟩ : ∃ Y, Y = R.b.f32 (elemAt ⟨[B, f.o], 4⟩ y [b, o]) := ⟨_, rfl⟩
    rw [← eY] at m3 ⊢
    have hF : (0 : ℝ) ≤ R.b.fErr := by exact_mod_cast hR.b.fErr.1
    have m7 : |(t.outS : ℝ) * V| ≤ |D| + T := by
      have := abs_add_le ((t.outS : ℝ) * V - D) D
      rw [sub_add_cancel] at this
      linarith
    have m8 : |Y - D| ≤ |Y - t.outS * V| + |t.outS * V - D| := abs_sub_le _ _ _
    have m9 : (R.b.fErr : ℝ) * |(t.outS : ℝ) * V| ≤ R.b.fErr * (|D| + T) := mul_le_mul_of_nonneg_left m7 hF
    nlinarith

/-! ### A concrete network -/

def exT16 : Conv.Compile.Types := ⟨1 / 5, 0, 1 / 10, 0, .none⟩

/-- Floats are converted to 16 bits, go through a `SAME` convolution with stride 2, the hyperbolic tangent, a reshape and a fully connected
layer, and are converted back. -/
def exampleC16 (g g2 : Conv.Compile.Net) : QNetwork where
  inputs := [⟨[1, 5, 5, 3], 4⟩]
  nodes := [⟨.blob (.quantize (i16 (1 / 10))) .none, [0], ⟨[1, 5, 5, 3], 2⟩⟩,
    ⟨.conv16 Conv.Compile.exTypes16 Conv.Compile.exLeaf g, [1], ⟨[1, 3, 3, 6], 2⟩⟩,
    ⟨.blob (.fn (.tabled .tanh) (i16 (1 / 5)) (i16 (1 / 5))) .none, [2], ⟨[1, 3, 3, 6], 2⟩⟩,
    ⟨.base .reshape, [3], ⟨[9, 6], 2⟩⟩,
    ⟨.fc16 exT16 exFC 9 g2, [4], ⟨[9, 2], 2⟩⟩,
    ⟨.blob (.dequantize (i16 (1 / 10))) .none, [5], ⟨[9, 2], 4⟩⟩]
  outputs := [6]
where i16 (s : ℚ) : QType := ⟨s, 0, -32768, 32767⟩

theorem exDense (B : Nat) (hB : 1 ≤ B) (g : Conv.Compile.Net) (hg : Conv.Compile.PipelineN 16 1000 (.conv (Conv.Compile.fcLeaf exFC B)) g) : DenseOK exRt exT16 exFC B g where
  types := ⟨by norm_num [exT16], by norm_num [exT16], rfl, rfl, rfl⟩
  out := by norm_num [exT16]
  data := rfl
  c := by decide
  batches := hB
  fits := trivial
  bias := by
    intro b hb
    have := Option.some.inj hb
    subst this
    exact ⟨rfl, trivial⟩
  scales := by
    intro o _
    refine ⟨rfl, by norm_num [exFC, Conv.QP.scale], by norm_num [exFC, Conv.QP.scale, exRt, Conv.defaultCfg], ?_⟩
    intro o' _
    norm_num [exFC, Conv.QP.scale, exRt, Conv.defaultCfg]
  top := by
    show ∀ o < 2, exT16.inS * exFC.qp.scale o / exT16.outS ≤ Conv.Compile.exactLib16.top
    decide +kernel
  fit32 := by
    show ∀ o < 2, _
    decide +kernel
  made := ⟨1000, hg⟩

theorem exampleC16_ok (g g2 : Conv.Compile.Net) (hg : Conv.Compile.PipelineN 16 1000 (.conv Conv.Compile.exLeaf) g)
    (hg2 : Conv.Compile.PipelineN 16 1000 (.conv (Conv.Compile.fcLeaf exFC 9)) g2) : (exampleC16 g g2).OK exRt fun _ => True := by
  have sym : ∀ s : ℚ, 0 < s → Sym16 (exampleC16.i16 s) := fun s h => ⟨h, rfl⟩
  obtain ⟨_, -, -, -, c1, c2, c3, -⟩ := Conv.Compile.C110_example
  refine ⟨⟨by simp [exampleC16], ?_, by simp [exampleC16], ?_, by simp [exampleC16], ?_, by simp [exampleC16], ?_, by simp [exampleC16], ?_, by simp [exampleC16], ?_,
    trivial⟩, by simp [exampleC16]⟩
  · exact ⟨sym _ (by norm_num), rfl, rfl, rfl⟩
  · exact ⟨_, _, rfl, rfl, rfl, ⟨by norm_num [Conv.Compile.exTypes16], by norm_num [Conv.Compile.exTypes16], rfl, rfl, rfl⟩, rfl, rfl, Conv.Compile.exLeaf_ok, by decide,
      by decide, by decide, Conv.Compile.C80_example.1, c2, c1, 1000, hg⟩
  · exact ⟨⟨sym _ (by norm_num), sym _ (by norm_num)⟩, rfl, rfl, rfl⟩
  · exact ⟨_, _, rfl, rfl⟩
  · have h := exDense 9 (by decide) g2 hg2
    exact ⟨_, _, [], rfl, rfl, rfl, rfl, rfl, rfl, h.types, h.data, h.c, h.batches, h.fits, h.bias, h.scales, h.top, h.fit32, h.made⟩
  · refine ⟨⟨sym _ (by norm_num), ?_, ?_⟩, rfl, rfl, rfl⟩ <;> norm_num [exampleC16.i16]

/-- The hypotheses of C111 are met: the passes have results for the convolution and the layer, the network is well typed and has a plan, and so
has the network of one layer with two batches. -/
theorem C111_example : ∃ g g2 g3, (exampleC16 g g2).OK exRt (fun _ => True) ∧
    (∃ a, planMemory (((exampleC16 g g2).expand exRt).func fun _ => false) = some a) ∧
    DenseOK exRt exT16 exFC 2 g3 ∧ (∃ a, planMemory (((dense exT16 exFC 2 g3).expand exRt).func fun _ => false) = some a) := by
  obtain ⟨g, hg, -⟩ := Conv.Compile.C110_reached 1000 Conv.Compile.exLeaf rfl Conv.Compile.exLeaf_ok
  have hfc : ∀ B, 1 ≤ B → (Conv.Compile.fcLeaf exFC B).OK [1, 1, B, 6] := fun B hB =>
    fcLeaf_ok exFC B hB rfl (by decide) trivial (by
      intro b hb
      have := Option.some.inj hb
      subst this
      exact ⟨rfl, trivial⟩) (fun _ _ => rfl) (fun _ _ => by norm_num [exFC, Conv.QP.scale])
  obtain ⟨g2, hg2, -⟩ := Conv.Compile.C110_reached 1000 (Conv.Compile.fcLeaf exFC 9) rfl (hfc 9 (by decide))
  obtain ⟨g3, hg3, -⟩ := Conv.Compile.C110_reached 1000 (Conv.Compile.fcLeaf exFC 2) rfl (hfc 2 (by decide))
  have h1 := exampleC16_ok g g2 hg hg2
  have h2 := exDense 2 (by decide) g3 hg3
  refine ⟨g, g2, g3, h1, ?_, h2, ?_⟩
  · exact (C84_quantised_network exRt _ exRt_ok _ h1 fun _ => false).1 0 ⟨by
      show 0 < List.length _
      simp [Func.decls, Network.func, toFunc, QNetwork.expand, exampleC16], by
      simp [Func.decl, Func.decls, Network.func, toFunc, QNetwork.expand, exampleC16]⟩
  · exact (C84_quantised_network exRt _ exRt_ok _ (dense_ok h2) fun _ => false).1 0 ⟨by
      show 0 < List.length _
      simp [Func.decls, Network.func, toFunc, QNetwork.expand, dense], by
      simp [Func.decl, Func.decls, Network.func, toFunc, QNetwork.expand, dense, exFC, Ty.size]⟩

end Verif.Net
