import Verif.Net.Whole
/-! C109: 16-bit operators and softmax in compiled networks. -/
namespace Verif.Net
open Verif.Tensor Verif.Move Verif.MemPlan Verif.MemPlan.Conc Verif.Quant

/-- **C109**, one operator.  The operator that stands in the compiled model for a 16-bit addition, subtraction, multiplication, activation
function, conversion or an 8-bit softmax — an xcore operator that gets the constant the pattern makes, or, if lib_nn makes none or the
pattern does not match, TensorFlow Lite's — computes, on operands of any size and contents, the real-valued function rounded to the steps of
the result, within the tolerance. -/
theorem C109_operator (L : BLib) (hL : L.OK) (op : BlobOp) (n : Nat) (ins : List (List Byte)) (ht : op.TypesOK) (hs : op.Sizes n ins) :
    op.Spec L n ins (op.kernel L (ins ++ (op.const L).toList)) (op.tol L) := run_spec hL op n ins ht hs

/-- **C109.** In every well-typed quantised network — after any rewriting by the patterns, with any placement of the constants, in the planned
arena and with every interleaving of the threads — the results of all 16-bit operators, with their broadcasting and fused activations, and of
all softmax operators are what their types specify for the operands that they get, within the tolerance. -/
theorem C109_wide_network (R : Rt) (dom : MulArgs → Prop) (hR : R.OK dom) (Q : QNetwork) (hQ : Q.OK R dom) (N : Network)
    (h : Relation.ReflTransGen (Rw patterns) Q.seen N) (skip : Nat → Bool)
    (cfg : WCfg) (calls order : List Nat) (consts : Nat → Weights.Const) (W : WFun)
    (hW : W = ((Q.rewritten N).expand R).withWeights skip cfg calls order consts)
    (hv : W.Visited) (hs : W.Stored) (a : ModuleAttrs) (ha : planMemory W.func = some a) (impl : Nat → Impl)
    (ok : ImplOK W.func (onData W.func impl (W.kernels ((Q.rewritten N).sem R) W.file)) impl)
    (hskip : ∀ j, j < W.func.ops.length → impl j = .skip → (W.func.op j).operands = []) (inputs : List (List Byte))
    (hin : inputs.map List.length = Q.inputs.map Ty.size) :
    ∃ vals : List (List Byte), vals.take Q.inputs.length = inputs ∧ vals.map List.length = Q.types.map Ty.size ∧
      (∀ (j : Nat) (op : BlobOp) (act : TFL.Act) (args : List Nat) (ty : Ty), Q.nodes[j]? = some ⟨.blob op act, args, ty⟩ →
        op.Meets R.b act ty ((args.map fun v => (Q.types.getD v ⟨[], 0⟩, vals.getD v [])).getD 0 (⟨[], 0⟩, []))
          ((args.map fun v => (Q.types.getD v ⟨[], 0⟩, vals.getD v [])).getD 1 (⟨[], 0⟩, [])) (vals.getD (Q.inputs.length + j) [])) ∧
      ∀ (m : Mem) (c : Env) (tr : List (List (List Byte))),
        Run W.func (onData W.func impl (W.kernels ((Q.rewritten N).sem R) W.file)) impl a.offsets W.func.ops 0 (loadInputs a.offsets inputs m) c tr →
          tr.getLast? = some (Q.outputs.map fun v => vals.getD v []) := by
  obtain ⟨vals, ⟨v1, v2, v3, v4⟩, v5⟩ := C106_compiled_network R dom hR Q hQ N h skip cfg calls order consts W hW hv hs a ha impl ok hskip inputs hin
  exact ⟨vals, v2, v3, (fun j op act args ty hj => v4 j _ hj), v5⟩

/-! ### Round trip -/

/-- Floats to 16 bits and back. -/
def roundTrip (shape : List Nat) (t : QType) : QNetwork where
  inputs := [⟨shape, 4⟩]
  nodes := [⟨.blob (.quantize t) .none, [0], ⟨shape, 2⟩⟩, ⟨.blob (.dequantize t) .none, [1], ⟨shape, 4⟩⟩]
  outputs := [2]

theorem roundTrip_ok (R : Rt) (dom : MulArgs → Prop) (shape : List Nat) (t : QType) (h0 : t.zp = 0) (h1 : 1 / 2 ^ 126 ≤ t.scale) (h2 : t.scale ≤ 2 ^ 111) :
    (roundTrip shape t).OK R dom := by
  have hp : 0 < t.scale := lt_of_lt_of_le (by positivity) h1
  exact ⟨⟨by simp [roundTrip], ⟨⟨hp, h0⟩, rfl, rfl, rfl⟩, by simp [roundTrip], ⟨⟨⟨hp, h0⟩, h1, h2⟩, rfl, rfl, rfl⟩, trivial⟩, by simp [roundTrip]⟩

/-- **C109**, end to end for one network: floats that are converted to 16 bits and back by the compiled model, in its arena, come back, where
they are in the range of the 16-bit type, up to the tolerance in steps and the relative error of a float. -/
theorem C109_roundtrip (R : Rt) (dom : MulArgs → Prop) (hR : R.OK dom) (shape : List Nat) (t : QType) (h0 : t.zp = 0) (h1 : 1 / 2 ^ 126 ≤ t.scale)
    (h2 : t.scale ≤ 2 ^ 111) (skip : Nat → Bool) (a : ModuleAttrs) (ha : planMemory (((roundTrip shape t).expand R).func skip) = some a)
    (x : List Byte) (hx : x.length = (⟨shape, 4⟩ : Ty).size) (m : Mem) (c : Env) :
    ∃ y : List Byte, y.length = x.length ∧
      (arenaTrace (((roundTrip shape t).expand R).func skip) (devKernels ((roundTrip shape t).sem R) (((roundTrip shape t).expand R).compile skip).1.ops) a.offsets
        (((roundTrip shape t).expand R).func skip).ops 0 (loadInputs a.offsets [x] m) c).getLast? = some [y] ∧
      ∀ idx, InShape shape idx → R.b.finite (elemAt ⟨shape, 4⟩ x idx) → |R.b.f32 (elemAt ⟨shape, 4⟩ x idx)| ≤ 32767 * t.scale →
        |R.b.f32 (elemAt ⟨shape, 4⟩ y idx) - R.b.f32 (elemAt ⟨shape, 4⟩ x idx)| ≤
          (1 + R.b.fErr) * (t.scale * max (R.b.err : ℝ) R.b.tflErr) + R.b.fErr * |R.b.f32 (elemAt ⟨shape, 4⟩ x idx)| := by
  obtain ⟨vals, v1, v2, v3, v4, v5⟩ := ((C84_quantised_network R dom hR _ (roundTrip_ok R dom shape t h0 h1 h2) skip).2 a ha).2 [x] (by
    simp [roundTrip, hx])
  have hsp : 0 < t.scale := lt_of_lt_of_le (by positivity) h1
  have hs : (0 : ℝ) < t.scale := by exact_mod_cast hsp
  match vals, v1 with
  | [x', q, y], _ =>
    have e1 : x' = x := by simpa [roundTrip] using v2
    subst e1
    refine ⟨y, ?_, by simpa [roundTrip] using v5 m c, ?_⟩
    · simp [roundTrip, QNetwork.types] at v3
      rw [v3.2.2, v3.1]
    intro idx hidx hf hr
    have m1 := v4 0 _ rfl
    have m2 := v4 1 _ rfl
    have m1 : |(tensor16 ⟨shape, 2⟩ q idx : ℝ) - sat16 t (R.b.f32 (elemAt ⟨shape, 4⟩ x' idx))| ≤ max (R.b.err : ℝ) R.b.tflErr := m1 idx hidx hf
    have m2 : |R.b.f32 (elemAt ⟨shape, 4⟩ y idx) - ((t.deq (tensor16 ⟨shape, 2⟩ q idx) : ℚ) : ℝ)| ≤ R.b.fErr * |((t.deq (tensor16 ⟨shape, 2⟩ q idx) : ℚ) : ℝ)| := m2 idx hidx
    obtain ⟨X, eX⟩ : ∃ X, X = R.b.f32 (elemAt ⟨shape, 4⟩ x' idx) := ⟨_, rfl⟩
    obtain ⟨Y, eY⟩ : ∃ Y, Y = R.b.f32 (elemAt ⟨shape, 4⟩ y idx) := ⟨_, rfl⟩
    obtain ⟨z, ez⟩ : ∃ z, z = tensor16 ⟨shape, 2⟩ q idx := ⟨_, rfl⟩
    obtain ⟨E, eE⟩ : ∃ E, E = max (R.b.err : ℝ) R.b.tflErr := ⟨_, rfl⟩
    have hF : (0 : ℝ) ≤ R.b.fErr := by exact_mod_cast hR.b.fErr.1
    rw [← eX] at m1 hr ⊢
    rw [← eY] at m2 ⊢
    rw [← ez] at m1 m2
    rw [← eE] at m1 ⊢
    rw [sat16_eq ⟨hsp, h0⟩] at m1
    rw [deq_sym ⟨hsp, h0⟩] at m2
    push_cast at m2
    have hX : |X / t.scale| ≤ 32767 := by
      rw [abs_div, abs_of_pos hs, div_le_iff₀ hs]
      exact hr
    rw [abs_le] at hX
    rw [min_eq_right hX.2, max_eq_right (by linarith [hX.1])] at m1
    have m3 : |t.scale * z - X| ≤ t.scale * E := by
      have : (t.scale : ℝ) * z - X = t.scale * (z - X / t.scale) := by field_simp
      rw [this, abs_mul, abs_of_pos hs]
      exact mul_le_mul_of_nonneg_left m1 hs.le
    have m4 : |(t.scale : ℝ) * z| ≤ |X| + t.scale * E := by
      have := abs_add_le ((t.scale : ℝ) * z - X) X
      rw [sub_add_cancel] at this
      linarith
    have m5 : |Y - X| ≤ |Y - t.scale * z| + |t.scale * z - X| := abs_sub_le _ _ _
    have m6 : (R.b.fErr : ℝ) * |(t.scale : ℝ) * z| ≤ R.b.fErr * (|X| + t.scale * E) := mul_le_mul_of_nonneg_left m4 hF
    nlinarith

/-! ### A concrete network -/

/-- Floats are converted to 16 bits, a 16-bit number is added to all of them with RELU6, then the hyperbolic tangent, a change of scale, and a
conversion to floats; a 16-bit difference with RELU_N1_TO_1, which stays a TensorFlow Lite operator; softmax of one row and of two rows. -/
noncomputable def exampleI16 : QNetwork where
  inputs := [⟨[1, 10], 4⟩, ⟨[1], 2⟩, ⟨[1, 10], 1⟩, ⟨[2, 10], 1⟩]
  nodes := [⟨.blob (.quantize (i16 (1 / 4096))) .none, [0], ⟨[1, 10], 2⟩⟩,
    ⟨.blob (.binary .add (i16 (1 / 4096)) (i16 (1 / 1000)) (i16 (1 / 2048))) .relu6, [4, 1], ⟨[1, 10], 2⟩⟩,
    ⟨.blob (.fn (.tabled .tanh) (i16 (1 / 2048)) (i16 (1 / 32768))) .none, [5], ⟨[1, 10], 2⟩⟩,
    ⟨.blob (.requantize (i16 (1 / 32768)) (i16 (1 / 3000))) .none, [6], ⟨[1, 10], 2⟩⟩,
    ⟨.blob (.dequantize (i16 (1 / 3000))) .none, [7], ⟨[1, 10], 4⟩⟩,
    ⟨.blob (.binary .sub (i16 (1 / 4096)) (i16 (1 / 3000)) (i16 (1 / 2048))) .relu1, [4, 7], ⟨[1, 10], 2⟩⟩,
    ⟨.blob (.softmax 1 (exQ (1 / 20) 4) [1, 10]) .none, [2], ⟨[1, 10], 1⟩⟩,
    ⟨.blob (.softmax 1 (exQ (1 / 20) 4) [2, 10]) .none, [3], ⟨[2, 10], 1⟩⟩]
  outputs := [8, 9, 10, 11]
where i16 (s : ℚ) : QType := ⟨s, 0, -32768, 32767⟩

theorem exampleI16_ok : exampleI16.OK exRt fun _ => True := by
  have hB1 : TFL.Broadcastable [1, 10] [1, 10] := by unfold TFL.Broadcastable; decide
  have hB2 : TFL.Broadcastable [1] [1, 10] := by unfold TFL.Broadcastable; decide
  have sym : ∀ s : ℚ, 0 < s → Sym16 (exampleI16.i16 s) := fun s h => ⟨h, rfl⟩
  have hsoft : ∀ q : ℤ, -128 ≤ q → q ≤ 127 → |(exQ (1 / 20) 4).deq q| ≤ 87 := by
    intro q h1 h2
    have hq : |(q : ℝ) - 4| ≤ 132 := by
      have : |q - 4| ≤ 132 := by rw [abs_le]; omega
      exact_mod_cast this
    unfold XC.QI8.deq exQ
    dsimp only
    rw [abs_mul, abs_of_pos (by norm_num)]
    push_cast
    linarith
  refine ⟨⟨by simp [exampleI16], ?_, by simp [exampleI16], ?_, by simp [exampleI16], ?_, by simp [exampleI16], ?_, by simp [exampleI16], ?_, by simp [exampleI16], ?_,
    by simp [exampleI16], ?_, by simp [exampleI16], ?_, trivial⟩, by simp [exampleI16]⟩
  · exact ⟨sym _ (by norm_num), rfl, rfl, rfl⟩
  · exact ⟨⟨sym _ (by norm_num), sym _ (by norm_num), sym _ (by norm_num)⟩, _, _, rfl, rfl, rfl, rfl, hB1, hB2⟩
  · exact ⟨⟨sym _ (by norm_num), sym _ (by norm_num)⟩, rfl, rfl, rfl⟩
  · exact ⟨⟨sym _ (by norm_num), sym _ (by norm_num)⟩, rfl, rfl, rfl⟩
  · refine ⟨⟨sym _ (by norm_num), ?_, ?_⟩, rfl, rfl, rfl⟩ <;> norm_num [exampleI16.i16]
  · exact ⟨⟨sym _ (by norm_num), sym _ (by norm_num), sym _ (by norm_num)⟩, _, _, rfl, rfl, rfl, rfl, hB1, hB1⟩
  · exact ⟨⟨hsoft, by simp, by simp⟩, rfl, rfl, rfl⟩
  · exact ⟨⟨hsoft, by simp, by simp⟩, rfl, rfl, rfl⟩

/-- The hypotheses of C109 are met by the example, which has a plan; its operators get constants, but not RELU_N1_TO_1, and the two softmax
operators get different kernels. -/
theorem C109_example : exampleI16.OK exRt (fun _ => True) ∧ (∃ a, planMemory ((exampleI16.expand exRt).func fun _ => false) = some a) ∧
    ((BlobOp.binary .add (exampleI16.i16 (1 / 4096)) (exampleI16.i16 (1 / 1000)) (exampleI16.i16 (1 / 2048))).const exB).isSome ∧
    ((BlobOp.fn (.tabled .tanh) (exampleI16.i16 (1 / 2048)) (exampleI16.i16 (1 / 32768))).const exB).isSome ∧
    (BlobOp.fn .relu1 (exampleI16.i16 (1 / 2048)) (exampleI16.i16 (1 / 2048))).const exB = none ∧
    (BlobOp.softmax 1 (exQ (1 / 20) 4) [1, 10]).code = .softmax ∧ (BlobOp.softmax 1 (exQ (1 / 20) 4) [2, 10]).code = .batchedSoftmax 10 := by
  refine ⟨exampleI16_ok, ?_, rfl, ?_, rfl, ?_, ?_⟩
  · exact (C84_quantised_network exRt _ exRt_ok _ exampleI16_ok fun _ => false).1 0 ⟨by
      show 0 < List.length _
      simp [Func.decls, Network.func, toFunc, QNetwork.expand, exampleI16], by
      simp [Func.decl, Func.decls, Network.func, toFunc, QNetwork.expand, exampleI16]⟩
  · show (((XC.lookupI16 exB.gen exB.limit XC.Activation.tanh.apply _ _).map exB.quadBytes)).isSome = true
    rw [Option.isSome_map]
    unfold XC.lookupI16
    rw [if_neg (by show ¬ (1 : ℤ) > 1; decide)]
    rfl
  · norm_num [BlobOp.code, XC.lowerSoftmax]
    intro h
    cases h
  · norm_num [BlobOp.code, XC.lowerSoftmax]

end Verif.Net
