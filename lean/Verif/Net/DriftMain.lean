import Verif.Net.DriftRef
import Verif.Net.Whole
/-! C112: a run of the compiled model and a run of the reference. -/
namespace Verif.Net
open Verif.Tensor Verif.Move Verif.MemPlan Verif.MemPlan.Conc Verif.Quant

theorem types_at {Q : QNetwork} {j : Nat} {n : QNode} (hj : Q.nodes[j]? = some n) : Q.types[Q.inputs.length + j]? = some n.ty := by
  unfold QNetwork.types
  rw [List.getElem?_append_right (by omega), Nat.add_sub_cancel_left, List.getElem?_map, hj]
  rfl

theorem reference_prefix {R : Rt} {dom : MulArgs → Prop} (hR : R.OK dom) {Q : QNetwork} (hQ : Q.OK R dom) (inputs : List (List Byte))
    (hin : inputs.map List.length = Q.inputs.map Ty.size) : ∀ k ≤ Q.nodes.length, ∃ ref : List (List Byte), ref.length = Q.inputs.length + k ∧
      ref.take Q.inputs.length = inputs ∧ ref.map List.length = (Q.types.take (Q.inputs.length + k)).map Ty.size ∧
      ∀ (j : Nat) (n : QNode), j < k → Q.nodes[j]? = some n →
        n.Within R (n.refErr R) (n.args.map fun v => (Q.types.getD v ⟨[], 0⟩, ref.getD v [])) (ref.getD (Q.inputs.length + j) []) := by
  intro k
  have hlen : inputs.length = Q.inputs.length := by simpa using congrArg List.length hin
  induction k with
  | zero =>
    intro _
    refine ⟨inputs, by omega, by rw [← hlen, List.take_length], ?_, fun j n h => absurd h (Nat.not_lt_zero j)⟩
    rw [hin, Nat.add_zero]
    unfold QNetwork.types
    rw [List.take_left]
  | succ k ih =>
    intro hk
    obtain ⟨ref, h1, h2, h3, h4⟩ := ih (by omega)
    have hkn : Q.nodes[k]? = some Q.nodes[k] := List.getElem?_eq_getElem (by omega)
    obtain ⟨n, en⟩ : ∃ n, n = Q.nodes[k] := ⟨_, rfl⟩
    rw [← en] at hkn
    obtain ⟨hargs, c, hok⟩ := nodeOK hQ hkn
    have hT : ∀ v < Q.inputs.length + k, (ref.getD v []).length = (Q.types.getD v ⟨[], 0⟩).size := by
      intro v hv
      rw [sizes_getD h3 v, List.getD_eq_getElem?_getD, List.getElem?_take_of_lt hv, List.getD_eq_getElem?_getD]
    obtain ⟨out, o1, o2⟩ := node_ref hR n (fun v => Q.types.getD v ⟨[], 0⟩) c (fun v => ref.getD v []) hok (fun v hv => hT v (hargs v hv)) (by
      intro kd hkd
      rw [hkd] at hok
      refine length_eval kd n.ty _ _ hok ?_
      simp [List.map_map, Function.comp_def])
    have old : ∀ v < Q.inputs.length + k, (ref ++ [out]).getD v [] = ref.getD v [] := fun v hv => List.getD_append _ _ _ _ (by omega)
    refine ⟨ref ++ [out], by simp [h1]; omega, by rw [List.take_append_of_le_length (by omega), h2], ?_, ?_⟩
    · rw [List.map_append, h3, ← Nat.add_assoc, List.take_add_one, types_at hkn, List.map_append]
      simp [o1]
    · intro j m hj hm
      have hargs' := (nodeOK hQ hm).1
      have eargs : (m.args.map fun v => (Q.types.getD v ⟨[], 0⟩, (ref ++ [out]).getD v [])) = m.args.map fun v => (Q.types.getD v ⟨[], 0⟩, ref.getD v []) := by
        apply List.map_congr_left
        intro v hv
        rw [old v (by have := hargs' v hv; omega)]
      rw [eargs]
      rcases Nat.lt_or_ge j k with h | h
      · rw [old _ (by omega)]
        exact h4 j m h hm
      · obtain rfl : j = k := by omega
        obtain rfl : m = n := by rw [hkn] at hm; exact (Option.some.inj hm).symm
        have : (ref ++ [out]).getD (Q.inputs.length + j) [] = out := by
          rw [← h1, List.getD_append_right _ _ _ _ (le_refl _), Nat.sub_self]
          rfl
        rw [this]
        exact o2

/-- **C112.** The reference has a run on every network and all inputs: each operator is exact or rounds its real result to the nearest
step. -/
theorem C112_reference_exists (R : Rt) (dom : MulArgs → Prop) (hR : R.OK dom) (Q : QNetwork) (hQ : Q.OK R dom) (inputs : List (List Byte))
    (hin : inputs.map List.length = Q.inputs.map Ty.size) :
    ∃ ref, Q.Reference R (fun j => (Q.nodes[j]?.map (QNode.refErr R)).getD 0) ref ∧ ref.take Q.inputs.length = inputs := by
  obtain ⟨ref, h1, h2, h3, h4⟩ := reference_prefix hR hQ inputs hin Q.nodes.length le_rfl
  refine ⟨ref, ⟨h1, ?_, fun j n hj => ?_⟩, h2⟩
  · rw [h3, List.take_of_length_le (by simp [QNetwork.types])]
  · rw [hj]
    exact h4 j n ((List.getElem?_eq_some_iff.1 hj).1) hj

/-- **C112.** The whole compiler (as in C106), and any run of the reference: on inputs that differ by at most `D`, every output of every run of
the compiled model differs from the output of the reference by at most `D`. -/
theorem C112_close_to_reference (R : Rt) (dom : MulArgs → Prop) (hR : R.OK dom) (Q : QNetwork) (hQ : Q.OK R dom) (N : Network)
    (h : Relation.ReflTransGen (Rw patterns) Q.seen N) (skip : Nat → Bool)
    (cfg : WCfg) (calls order : List Nat) (consts : Nat → Weights.Const) (W : WFun)
    (hW : W = ((Q.rewritten N).expand R).withWeights skip cfg calls order consts)
    (hv : W.Visited) (hs : W.Stored) (a : ModuleAttrs) (ha : planMemory W.func = some a) (impl : Nat → Impl)
    (ok : ImplOK W.func (onData W.func impl (W.kernels ((Q.rewritten N).sem R) W.file)) impl)
    (hskip : ∀ j, j < W.func.ops.length → impl j = .skip → (W.func.op j).operands = []) (inputs : List (List Byte))
    (hin : inputs.map List.length = Q.inputs.map Ty.size)
    (e D : Nat → ℝ) (ref : List (List Byte)) (href : Q.Reference R e ref) (hB : Q.Bounds R e D)
    (hD : ∀ v < Q.inputs.length, Close R.b (Q.inputs.getD v ⟨[], 0⟩) (D v) (inputs.getD v []) (ref.getD v []))
    (hf : Q.FiniteIn R inputs) (hf' : Q.FiniteIn R (ref.take Q.inputs.length))
    (m : Mem) (c : Env) (tr : List (List (List Byte)))
    (hrun : Run W.func (onData W.func impl (W.kernels ((Q.rewritten N).sem R) W.file)) impl a.offsets W.func.ops 0 (loadInputs a.offsets inputs m) c tr) :
    ∃ outs, tr.getLast? = some outs ∧ outs.length = Q.outputs.length ∧
      ∀ (i v : Nat), Q.outputs[i]? = some v → ∃ out, outs[i]? = some out ∧ Close R.b (Q.types.getD v ⟨[], 0⟩) (D v) out (ref.getD v []) := by
  obtain ⟨vals, hvals, hlast⟩ := C106_compiled_network R dom hR Q hQ N h skip cfg calls order consts W hW hv hs a ha impl ok hskip inputs hin
  refine ⟨_, hlast m c tr hrun, by simp, fun i v hi => ⟨vals.getD v [], by rw [List.getElem?_map, hi]; rfl, ?_⟩⟩
  refine (values_close hR hQ hvals href hB ?_ hf hf' v (hQ.outs v (List.mem_of_getElem? hi))).2
  intro u hu
  have e1 : Q.types.getD u ⟨[], 0⟩ = Q.inputs.getD u ⟨[], 0⟩ := List.getD_append _ _ _ _ hu
  have e2 : vals.getD u [] = inputs.getD u [] := by
    rw [← hvals.inputs, List.getD_eq_getElem?_getD, List.getD_eq_getElem?_getD, List.getElem?_take_of_lt hu]
  rw [e1, e2]
  exact hD u hu

/-- **C112.** Two devices, with different kernels within their tolerances (`R` and the values of both runs), differ by no more than twice the
tolerances allow. -/
theorem C112_two_runs (R : Rt) (dom : MulArgs → Prop) (hR : R.OK dom) (Q : QNetwork) (hQ : Q.OK R dom) (inputs inputs' vals vals' : List (List Byte))
    (hv : Q.Values R inputs vals) (hv' : Q.Values R inputs' vals') (D : Nat → ℝ)
    (hB : Q.Bounds R (fun j => (Q.nodes[j]?.map (QNode.tol R)).getD 0) D)
    (hD : ∀ v < Q.inputs.length, Close R.b (Q.inputs.getD v ⟨[], 0⟩) (D v) (inputs.getD v []) (inputs'.getD v []))
    (hf : Q.FiniteIn R inputs) (hf' : Q.FiniteIn R inputs') :
    ∀ v ∈ Q.outputs, Close R.b (Q.types.getD v ⟨[], 0⟩) (D v) (vals.getD v []) (vals'.getD v []) := by
  intro v hvo
  refine (values_close hR hQ hv ⟨hv'.length, hv'.sizes, fun j n hj => ?_⟩ hB ?_ hf (by rw [hv'.inputs]; exact hf') v (hQ.outs v hvo)).2
  · obtain ⟨_, c, hok⟩ := nodeOK hQ hj
    rw [hj]
    exact meets_within hR hok (hv'.meets j n hj)
  · intro u hu
    have e1 : Q.types.getD u ⟨[], 0⟩ = Q.inputs.getD u ⟨[], 0⟩ := List.getD_append _ _ _ _ hu
    have e2 : ∀ {i w : List (List Byte)}, w.take Q.inputs.length = i → w.getD u [] = i.getD u [] := by
      intro i w h
      rw [← h, List.getD_eq_getElem?_getD, List.getD_eq_getElem?_getD, List.getElem?_take_of_lt hu]
    rw [e1, e2 hv.inputs, e2 hv'.inputs]
    exact hD u hu

end Verif.Net
