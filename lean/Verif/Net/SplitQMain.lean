import Verif.Net.SplitQProps
/-! C115: split networks. -/
namespace Verif.Net
open Verif.Tensor Verif.Move Verif.MemPlan Verif.MemPlan.Conc Verif.Quant

theorem lower_step {R : Rt} {dom : MulArgs → Prop} (hR : R.OK dom) {inputs : List (List Byte)} {s s' : QNetwork × (Nat → ℝ)} (h : Lower R inputs s s')
    (hQ : s.1.OK R dom) (he : s.1.Enough R s.2) :
    s'.1.OK R dom ∧ s'.1.Enough R s'.2 ∧ s'.1.inputs = s.1.inputs ∧ s'.1.outputs.length = s.1.outputs.length ∧
    ∀ ref, s.1.Reference R s.2 ref → ref.take s.1.inputs.length = inputs →
      ∃ ref', s'.1.Reference R s'.2 ref' ∧ ref'.take s'.1.inputs.length = inputs ∧
        (s'.1.outputs.map fun v => ref'.getD v []) = s.1.outputs.map fun v => ref.getD v [] := by
  cases h with
  | merge h => exact merge_step hR h hQ he
  | split h =>
    cases h with
    | @move Q e N P hP hN =>
      have hQ : Q.OK R dom := hQ
      have he : Q.Enough R e := he
      obtain ⟨hs, hk⟩ := movePattern_facts hP
      obtain ⟨hI, hout, hres⟩ := inv_pattern hs hk hN (inv_start hQ)
      refine ⟨rewritten_ok hQ hI, enough_kept hI he, hI.inputs, hout, fun ref hr hin => ?_⟩
      obtain ⟨ref', h1, h2, h3⟩ := reference_kept hR hQ hI hres he hr
      exact ⟨ref', h1, by rw [show (Q.rewritten N).inputs = Q.inputs from hI.inputs]; exact h2.trans hin, h3⟩
    | @raise Q e i j ns n h hc =>
      have key : (Q.raise i ns n).OK R dom ∧ (Q.raise i ns n).Enough R (Function.update (carried (Q.insert i ns) e) (i + ns.length) (e j)) ∧
          (Q.raise i ns n).inputs = Q.inputs ∧ (Q.raise i ns n).outputs.length = Q.outputs.length ∧
          ∀ ref, Q.Reference R e ref →
            ∃ ref', (Q.raise i ns n).Reference R (Function.update (carried (Q.insert i ns) e) (i + ns.length) (e j)) ref' ∧
              ref'.take Q.inputs.length = ref.take Q.inputs.length ∧
              ((Q.raise i ns n).outputs.map fun v => ref'.getD v []) = Q.outputs.map fun v => ref.getD v [] := by
        rcases h with ⟨g, h⟩ | h
        · exact raiseConvQ_step hR hQ he h hc
        · exact raiseBinQ_step hR hQ he h
      obtain ⟨k1, k2, k3, k4, k5⟩ := key
      refine ⟨k1, k2, k3, k4, fun ref hr hin => ?_⟩
      obtain ⟨ref', h1, h2, h3⟩ := k5 ref hr
      exact ⟨ref', h1, h2.trans hin, h3⟩

/-- **C115.** Rewrites, merges and steps of the splitting pass in any order and number: the network stays well typed, and every run of the reference on the
original network is, on the new one, a run with the same inputs and outputs whose operators are within the new errors. -/
theorem C115_reference_kept (R : Rt) (dom : MulArgs → Prop) (hR : R.OK dom) (inputs : List (List Byte)) (Q Q' : QNetwork) (e e' : Nat → ℝ)
    (hm : Relation.ReflTransGen (Lower R inputs) (Q, e) (Q', e')) (hQ : Q.OK R dom) (he : Q.Enough R e) :
    Q'.OK R dom ∧ Q'.inputs = Q.inputs ∧ Q'.outputs.length = Q.outputs.length ∧
    ∀ ref, Q.Reference R e ref → ref.take Q.inputs.length = inputs →
      ∃ ref', Q'.Reference R e' ref' ∧ ref'.take Q.inputs.length = inputs ∧
        (Q'.outputs.map fun v => ref'.getD v []) = Q.outputs.map fun v => ref.getD v [] := by
  have key : ∀ s, Relation.ReflTransGen (Lower R inputs) (Q, e) s →
      s.1.OK R dom ∧ s.1.Enough R s.2 ∧ s.1.inputs = Q.inputs ∧ s.1.outputs.length = Q.outputs.length ∧
      ∀ ref, Q.Reference R e ref → ref.take Q.inputs.length = inputs →
        ∃ ref', s.1.Reference R s.2 ref' ∧ ref'.take s.1.inputs.length = inputs ∧
          (s.1.outputs.map fun v => ref'.getD v []) = Q.outputs.map fun v => ref.getD v [] := by
    intro s hs
    induction hs with
    | refl => exact ⟨hQ, he, rfl, rfl, fun ref h1 h2 => ⟨ref, h1, h2, rfl⟩⟩
    | tail _ hstep ih =>
      obtain ⟨i1, i2, i3, i4, i5⟩ := ih
      obtain ⟨j1, j2, j3, j4, j5⟩ := lower_step hR hstep i1 i2
      refine ⟨j1, j2, j3.trans i3, j4.trans i4, fun ref h1 h2 => ?_⟩
      obtain ⟨r1, a1, a2, a3⟩ := i5 ref h1 h2
      obtain ⟨r2, b1, b2, b3⟩ := j5 r1 a1 a2
      exact ⟨r2, b1, b2, b3.trans a3⟩
  obtain ⟨k1, -, k3, k4, k5⟩ := key _ hm
  refine ⟨k1, k3, k4, fun ref h1 h2 => ?_⟩
  obtain ⟨r, a1, a2, a3⟩ := k5 ref h1 h2
  have k3 : Q'.inputs = Q.inputs := k3
  have a2 : r.take Q'.inputs.length = inputs := a2
  exact ⟨r, a1, by rw [← k3]; exact a2, a3⟩

/-- **C115.** The whole compiler with merges and splitting: every output of every run of the compiled model differs from the output of TensorFlow Lite on
the *original* network by at most `D`. -/
theorem C115_split_network (R : Rt) (dom : MulArgs → Prop) (hR : R.OK dom) (Q Q' : QNetwork) (hQ : Q.OK R dom) (e e' : Nat → ℝ) (he : Q.Enough R e)
    (ref : List (List Byte)) (href : Q.Reference R e ref)
    (hm : Relation.ReflTransGen (Lower R (ref.take Q.inputs.length)) (Q, e) (Q', e')) (N : Network)
    (h : Relation.ReflTransGen (Rw patterns) Q'.seen N) (skip : Nat → Bool)
    (cfg : WCfg) (calls order : List Nat) (consts : Nat → Weights.Const) (W : WFun)
    (hW : W = ((Q'.rewritten N).expand R).withWeights skip cfg calls order consts)
    (hv : W.Visited) (hs : W.Stored) (a : ModuleAttrs) (ha : planMemory W.func = some a) (impl : Nat → Impl)
    (ok : ImplOK W.func (onData W.func impl (W.kernels ((Q'.rewritten N).sem R) W.file)) impl)
    (hskip : ∀ j, j < W.func.ops.length → impl j = .skip → (W.func.op j).operands = []) (inputs : List (List Byte))
    (hin : inputs.map List.length = Q.inputs.map Ty.size) (D : Nat → ℝ) (hB : Q'.Bounds R e' D)
    (hD : ∀ v < Q.inputs.length, Close R.b (Q.inputs.getD v ⟨[], 0⟩) (D v) (inputs.getD v []) (ref.getD v []))
    (hf : Q'.FiniteIn R inputs) (hf' : Q'.FiniteIn R (ref.take Q.inputs.length))
    (m : Mem) (c : Env) (tr : List (List (List Byte)))
    (hrun : Run W.func (onData W.func impl (W.kernels ((Q'.rewritten N).sem R) W.file)) impl a.offsets W.func.ops 0 (loadInputs a.offsets inputs m) c tr) :
    ∃ outs, tr.getLast? = some outs ∧ outs.length = Q.outputs.length ∧
      ∀ (i v v' : Nat), Q.outputs[i]? = some v → Q'.outputs[i]? = some v' →
        ∃ out, outs[i]? = some out ∧ Close R.b (Q'.types.getD v' ⟨[], 0⟩) (D v') out (ref.getD v []) := by
  obtain ⟨hQ', hI, hO, hk⟩ := C115_reference_kept R dom hR _ Q Q' e e' hm hQ he
  obtain ⟨ref', h1, h2, h3⟩ := hk ref href rfl
  have hins : ∀ v < Q.inputs.length, ref'.getD v [] = ref.getD v [] := by
    intro v hv
    have := congrArg (fun l => l.getD v []) h2
    simpa only [List.getD_eq_getElem?_getD, List.getElem?_take_of_lt hv] using this
  obtain ⟨outs, g1, g2, g3⟩ := C112_close_to_reference R dom hR Q' hQ' N h skip cfg calls order consts W hW hv hs a ha impl ok hskip inputs (by rw [hI]; exact hin)
    e' D ref' h1 hB (by
      rw [hI]
      intro v hv
      rw [hins v hv]
      exact hD v hv) hf (by rw [hI, h2]; exact hf') m c tr hrun
  refine ⟨outs, g1, g2.trans hO, fun i v v' hv hv' => ?_⟩
  obtain ⟨out, q1, q2⟩ := g3 i v' hv'
  refine ⟨out, q1, ?_⟩
  have := congrArg (fun l => l[i]?) h3
  simp only [List.getElem?_map, hv, hv', Option.map_some, Option.some.injEq] at this
  rw [← this]
  exact q2

/-- **C115.** Splitting costs nothing: if the operators of the reference have no errors, the operators of the split network have none. -/
theorem C115_no_error (Q Q' : QNetwork) (e e' : Nat → ℝ) (h : Relation.ReflTransGen SplitQStep (Q, e) (Q', e')) (he : ∀ j, e j = 0) : ∀ j, e' j = 0 := by
  have key : ∀ s, Relation.ReflTransGen SplitQStep (Q, e) s → ∀ j, s.2 j = 0 := by
    intro s hs
    induction hs with
    | refl => exact he
    | tail _ hstep ih =>
      have hc : ∀ {e : Nat → ℝ} (N : Network), (∀ j, e j = 0) → ∀ j, carried N e j = 0 := by
        intro e N he j
        unfold carried
        split
        · exact he _
        · rfl
      cases hstep with
      | move => exact hc _ ih
      | @raise Q e i j ns n =>
        intro k
        show Function.update (carried (Q.insert i ns) e) (i + ns.length) (e j) k = 0
        rw [Function.update_apply]
        split
        · exact ih j
        · exact hc _ ih k
  exact key _ h

end Verif.Net
