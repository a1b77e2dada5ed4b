import Verif.Host.UsbQuant
import Verif.Host.CompileTest

/-!
# C131: quantised networks in the compiled runtime of the integration tests

Composes C94 (quantised networks, weights in a file or in external memory) and C129 (integration_tests/compile_test.cpp, `XFHostRuntime` of runner.py).
-/

namespace Verif.Host.QuantTest

open Verif.MemPlan Verif.Net Verif.Quant Verif.Shipped.IoServer Verif.Host.UsbQuant Verif.Host.CompileTest
open Verif.Host.UsbSession (Details elements)

/-- **C131.** For every quantised network, compiled with its weights moved to a file and linked into the test's program, and all inputs: `predict` returns the outputs among values that
the network's specification admits for those inputs, and these values do not depend on what the arena holds at the start. -/
theorem C131_quantised_program (R : Rt) (dom : MulArgs → Prop) (hR : R.OK dom) (N : QNetwork) (hN : N.OK R dom) (skip : Nat → Bool)
    (cfg : WCfg) (calls order : List Nat) (consts : Nat → Weights.Const) (W : WFun) (hW : W = (N.expand R).withWeights skip cfg calls order consts)
    (hv : W.Visited) (hs : W.Stored) (a : ModuleAttrs) (ha : planMemory W.func = some a)
    (hc : ∀ v ∈ (W.planned (.op W.ops.length)).operands, (W.func.decl v).isConst = false) (ds : List Details)
    (hds : List.Forall₂ (fun (d : Details) v => d.shape.prod * d.width = (N.types.getD v ⟨[], 0⟩).size ∧ 0 < d.width) ds N.outputs)
    (inputs : List (List Byte)) (hi : inputs.map List.length = N.inputs.map Ty.size) :
    ∃ vals, Admissible R N inputs vals ∧ ∀ (m : Mem) (c : Env),
      predict ⟨W.func, a.offsets, W.kernels (N.sem R) W.file, (W.planned (.op W.ops.length)).operands⟩ ds inputs m c =
        some (List.zipWith (fun d v => elements d.width ((vals.getD v []).map UInt8.toNat)) ds N.outputs) := by
  have hok : W.OK := by
    have hE := (expand_values hR N hN (N.inputs.map fun t => List.replicate t.size 0) (by simp [List.map_map, Function.comp_def])).1
    subst hW
    exact Network.withWeights_ok hE skip cfg calls order consts hv hs
  have hargs : W.func.argSizes = N.inputs.map Ty.size := by subst hW; rfl
  obtain ⟨b, p, hp, hpa⟩ := plan_of ha
  obtain ⟨body, hops, hret⟩ := ops_last W
  obtain ⟨c1, -, -⟩ := C06_chosen_plan (WFun.wf hok) (WFun.inPlace hok) ha
  obtain ⟨vals, v1, v2, v3, v4, v5⟩ := C94_quantised_with_weights R dom hR N hN skip cfg calls order consts W hW hv hs a ha inputs hi
  refine ⟨vals, ⟨v2, v3, v4⟩, fun m c => ?_⟩
  have hx2 : inputs.map List.length = W.func.argSizes := by rw [hi, hargs]
  obtain ⟨outs, t1, t2⟩ := C129_program (WFun.wf hok) (WFun.inPlace hok) hp (W.kernels (N.sem R) W.file) (W.kernels_fit _ _) body _ hops hret hc inputs hx2 m c
  have e := v5 m c
  rw [c1 (W.kernels (N.sem R) W.file) inputs m c (W.kernels_fit _ _) hx2, t1] at e
  cases e
  rw [hpa] at t2
  rw [predict, t2]
  refine (mapM_fromFile _ _ ?_).trans ?_
  · rw [List.forall₂_map_right_iff]
    refine hds.imp fun d v h => ⟨?_, h.2⟩
    rw [h.1]
    have hl := congrArg (fun l => l.getD v 0) v3
    simp only [List.getD_eq_getElem?_getD, List.getElem?_map] at hl
    simp only [List.getD_eq_getElem?_getD]
    cases h1 : vals[v]? <;> cases h2 : N.types[v]? <;> simp_all [Ty.size]
  · rw [List.zipWith_map_right]

/-- **C131, example.** The network of C127's example: it takes rows out of an image. -/
theorem C131_example (cfg : WCfg) (x : List Byte) (hx : x.length = 32) :
    ∃ (W : WFun) (a : ModuleAttrs), planMemory W.func = some a ∧ ∃ v : List (List Byte), Admissible exRt exSmall [x] v ∧ ∀ (m : Mem) (c : Env),
      predict ⟨W.func, a.offsets, W.kernels (exSmall.sem exRt) W.file, [1]⟩ [⟨[1, 2, 1, 8], 1⟩] [x] m c =
        some [elements 1 ((v.getD 1 []).map UInt8.toNat)] := by
  have hE : (exSmall.expand exRt).OK :=
    (expand_values exRt_ok _ exSmall_ok (exSmall.inputs.map fun t => List.replicate t.size 0) (by simp [List.map_map, Function.comp_def])).1
  obtain ⟨consts, W, a, impl, hW, hv, hs, ha, -⟩ := C107_compiles _ hE (fun _ => false) (fun _ => False) _ .refl cfg [] (by
    show exSmall.inputs ≠ []
    simp [exSmall]) (exSmall.sem exRt)
  have hW : W = (exSmall.expand exRt).withWeights (fun _ => false) cfg [] [] consts := hW
  obtain ⟨f1, f2, f3⟩ := exSmall_func cfg consts
  rw [← hW] at f1 f2 f3
  obtain ⟨vals, h1, h2⟩ := C131_quantised_program exRt _ exRt_ok exSmall exSmall_ok (fun _ => false) cfg [] [] consts W hW hv hs a ha
    (by intro v hv; rw [f2] at hv; simp only [List.mem_singleton] at hv; subst hv; exact f3) [⟨[1, 2, 1, 8], 1⟩] (.cons ⟨rfl, by decide⟩ .nil) [x]
    (by rw [List.map_singleton, hx]; rfl)
  rw [f2] at h2
  exact ⟨W, a, ha, vals, h1, h2⟩

end Verif.Host.QuantTest
