import Verif.Net.MergeNet
/-! C114: compiled networks with merged operators. -/
namespace Verif.Net
open Verif.Tensor Verif.Move Verif.MemPlan Verif.MemPlan.Conc Verif.Quant

/-- **C114.** Rewrites and merges in any order and number: the network stays well typed, and every run of the reference on the original network is, on the
merged one, a run with the same inputs and outputs whose operators are within the merged errors. -/
theorem C114_reference_kept (R : Rt) (dom : MulArgs → Prop) (hR : R.OK dom) (inputs : List (List Byte)) (Q Q' : QNetwork) (e e' : Nat → ℝ)
    (hm : Relation.ReflTransGen (Merge R inputs) (Q, e) (Q', e')) (hQ : Q.OK R dom) (he : Q.Enough R e) :
    Q'.OK R dom ∧ Q'.inputs = Q.inputs ∧ Q'.outputs.length = Q.outputs.length ∧
    ∀ ref, Q.Reference R e ref → ref.take Q.inputs.length = inputs →
      ∃ ref', Q'.Reference R e' ref' ∧ ref'.take Q.inputs.length = inputs ∧
        (Q'.outputs.map fun v => ref'.getD v []) = Q.outputs.map fun v => ref.getD v [] := by
  have key : ∀ s, Relation.ReflTransGen (Merge R inputs) (Q, e) s →
      s.1.OK R dom ∧ s.1.Enough R s.2 ∧ s.1.inputs = Q.inputs ∧ s.1.outputs.length = Q.outputs.length ∧
      ∀ ref, Q.Reference R e ref → ref.take Q.inputs.length = inputs →
        ∃ ref', s.1.Reference R s.2 ref' ∧ ref'.take s.1.inputs.length = inputs ∧
          (s.1.outputs.map fun v => ref'.getD v []) = Q.outputs.map fun v => ref.getD v [] := by
    intro s hs
    induction hs with
    | refl => exact ⟨hQ, he, rfl, rfl, fun ref h1 h2 => ⟨ref, h1, h2, rfl⟩⟩
    | tail _ hstep ih =>
      obtain ⟨i1, i2, i3, i4, i5⟩ := ih
      obtain ⟨j1, j2, j3, j4, j5⟩ := merge_step hR hstep i1 i2
      refine ⟨j1, j2, j3.trans i3, j4.trans i4, fun ref h1 h2 => ?_⟩
      obtain ⟨r1, a1, a2, a3⟩ := i5 ref h1 h2
      obtain ⟨r2, b1, b2, b3⟩ := j5 r1 a1 a2
      exact ⟨r2, b1, b2, b3.trans a3⟩
  obtain ⟨k1, -, k3, k4, k5⟩ := key _ hm
  refine ⟨k1, k3, k4, fun ref h1 h2 => ?_⟩
  obtain ⟨r, a1, a2, a3⟩ := k5 ref h1 h2
  have k3 : Q'.inputs = Q.inputs := k3
  have a2 : r.take Q'.inputs.length = inputs := a2
  exact ⟨r, a1, by rw [← k3]; exact a2, a3⟩

/-- **C114.** The whole compiler with merges: every output of every run of the compiled model differs from the output of TensorFlow Lite on the *original*
network by at most `D`, which counts the errors of the merges. -/
theorem C114_merged_network (R : Rt) (dom : MulArgs → Prop) (hR : R.OK dom) (Q Q' : QNetwork) (hQ : Q.OK R dom) (e e' : Nat → ℝ) (he : Q.Enough R e)
    (ref : List (List Byte)) (href : Q.Reference R e ref)
    (hm : Relation.ReflTransGen (Merge R (ref.take Q.inputs.length)) (Q, e) (Q', e')) (N : Network)
    (h : Relation.ReflTransGen (Rw patterns) Q'.seen N) (skip : Nat → Bool)
    (cfg : WCfg) (calls order : List Nat) (consts : Nat → Weights.Const) (W : WFun)
    (hW : W = ((Q'.rewritten N).expand R).withWeights skip cfg calls order consts)
    (hv : W.Visited) (hs : W.Stored) (a : ModuleAttrs) (ha : planMemory W.func = some a) (impl : Nat → Impl)
    (ok : ImplOK W.func (onData W.func impl (W.kernels ((Q'.rewritten N).sem R) W.file)) impl)
    (hskip : ∀ j, j < W.func.ops.length → impl j = .skip → (W.func.op j).operands = []) (inputs : List (List Byte))
    (hin : inputs.map List.length = Q.inputs.map Ty.size) (D : Nat → ℝ) (hB : Q'.Bounds R e' D)
    (hD : ∀ v < Q.inputs.length, Close R.b (Q.inputs.getD v ⟨[], 0⟩) (D v) (inputs.getD v []) (ref.getD v []))
    (hf : Q'.FiniteIn R inputs) (hf' : Q'.FiniteIn R (ref.take Q.inputs.length))
    (m : Mem) (c : Env) (tr : List (List (List Byte)))
    (hrun : Run W.func (onData W.func impl (W.kernels ((Q'.rewritten N).sem R) W.file)) impl a.offsets W.func.ops 0 (loadInputs a.offsets inputs m) c tr) :
    ∃ outs, tr.getLast? = some outs ∧ outs.length = Q.outputs.length ∧
      ∀ (i v v' : Nat), Q.outputs[i]? = some v → Q'.outputs[i]? = some v' →
        ∃ out, outs[i]? = some out ∧ Close R.b (Q'.types.getD v' ⟨[], 0⟩) (D v') out (ref.getD v []) := by
  obtain ⟨hQ', hI, hO, hk⟩ := C114_reference_kept R dom hR _ Q Q' e e' hm hQ he
  obtain ⟨ref', h1, h2, h3⟩ := hk ref href rfl
  have hins : ∀ v < Q.inputs.length, ref'.getD v [] = ref.getD v [] := by
    intro v hv
    have := congrArg (fun l => l.getD v []) h2
    simpa only [List.getD_eq_getElem?_getD, List.getElem?_take_of_lt hv] using this
  obtain ⟨outs, g1, g2, g3⟩ := C112_close_to_reference R dom hR Q' hQ' N h skip cfg calls order consts W hW hv hs a ha impl ok hskip inputs (by rw [hI]; exact hin)
    e' D ref' h1 hB (by
      rw [hI]
      intro v hv
      rw [hins v hv]
      exact hD v hv) hf (by rw [hI, h2]; exact hf') m c tr hrun
  refine ⟨outs, g1, g2.trans hO, fun i v v' hv hv' => ?_⟩
  obtain ⟨out, q1, q2⟩ := g3 i v' hv'
  refine ⟨out, q1, ?_⟩
  have := congrArg (fun l => l[i]?) h3
  simp only [List.getElem?_map, hv, hv', Option.map_some, Option.some.injEq] at this
  rw [← this]
  exact q2

/-- **C114.** What merges cost: a RELU between equal types nothing; a quantise operator behind an exact convolution one step and half a step of the type
that is left out. -/
theorem C114_errors (q1 q2 : QType) : reluErr q1 q1 0 (1 / 2) = 0 ∧ (Is8 q1 → Is8 q2 →
    mergedErr q1 q2 0 ≤ (q1.scale : ℝ) / (2 * q2.scale) + 1 ∧ (q1.scale ≤ q2.scale → mergedErr q1 q2 0 ≤ 1)) := by
  refine ⟨?_, fun h1 h2 => ?_⟩
  · unfold reluErr
    rw [if_pos rfl]
    norm_num
  · have hs1 : (0 : ℝ) < q1.scale := by exact_mod_cast h1.pos
    have hs2 : (0 : ℝ) < q2.scale := by exact_mod_cast h2.pos
    have e : (q1.scale : ℝ) * (0 + 1 / 2) / q2.scale + 1 = (q1.scale : ℝ) / (2 * q2.scale) + 1 := by field_simp; ring
    unfold mergedErr
    rw [e]
    refine ⟨Int.floor_le _, fun hle => ?_⟩
    have hle' : (q1.scale : ℝ) ≤ q2.scale := by exact_mod_cast hle
    have : (q1.scale : ℝ) / (2 * q2.scale) + 1 < 2 := by
      have : (q1.scale : ℝ) / (2 * q2.scale) ≤ 1 / 2 := by
        rw [div_le_iff₀ (by linarith)]
        linarith
      linarith
    have h3 : ⌊(q1.scale : ℝ) / (2 * q2.scale) + 1⌋ < 2 := Int.floor_lt.2 (by push_cast; linarith)
    have h4 : ⌊(q1.scale : ℝ) / (2 * q2.scale) + 1⌋ ≤ 1 := by omega
    exact_mod_cast h4

/-- The condition on saturation is needed: 1000 in steps of 1 is saturated to 127, that is 64 in steps of 2; without the first type it is 127. -/
theorem C114_saturated (r : ℚ → ℤ) (hr : Nearest r) :
    let q1 : QType := ⟨1, 0, -128, 127⟩
    let q2 : QType := ⟨2, 0, -128, 127⟩
    Is8 q1 ∧ Is8 q2 ∧ q1.q r 1000 = 127 ∧ q2.q r (q1.deq 127) ≤ 64 ∧ q2.q r 1000 = 127 ∧ mergedErr q1 q2 0 = 1 := by
  intro q1 q2
  have h1 : Is8 q1 := ⟨by norm_num [q1], by decide, rfl, rfl⟩
  have h2 : Is8 q2 := ⟨by norm_num [q2], by decide, rfl, rfl⟩
  refine ⟨h1, h2, ?_, ?_, ?_, ?_⟩
  · have := hr.int 1000
    unfold QType.q clamp QType.raw
    norm_num [q1] at this ⊢
    rw [this]
    norm_num
  · have := abs_le.1 (hr (127 / 2))
    have h3 : ((r (127 / 2) : ℤ) : ℚ) < (65 : ℤ) := by push_cast; linarith [this.2]
    have h4 : r (127 / 2) < 65 := by exact_mod_cast h3
    unfold QType.q clamp QType.raw QType.deq
    norm_num [q1, q2]
    omega
  · have := hr.int 500
    unfold QType.q clamp QType.raw
    norm_num [q2] at this ⊢
    rw [this]
    norm_num
  · unfold mergedErr
    norm_num [q1, q2]

end Verif.Net
