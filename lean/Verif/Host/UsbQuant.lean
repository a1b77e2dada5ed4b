import Verif.Host.UsbNet
import Verif.Net.EndToEnd

/-!
# C127: a quantised network with its weights in a file gives over USB results that meet the network's specification

Composes C94 (quantised networks, weights in a file or in external memory) and C123.
-/

namespace Verif.Host.UsbQuant

open Verif.MemPlan Verif.Net Verif.Quant Verif.Shipped.IoServer Verif.Host.UsbSession Verif.Host.UsbNet
open Verif.Host.Usb (Frames)

/-- Values of all tensors of the network, as its specification wants them for the given inputs: every node's value meets what is asked of the node on its operands' values. -/
def Admissible (R : Rt) (N : QNetwork) (inputs vals : List (List Byte)) : Prop :=
  vals.take N.inputs.length = inputs ∧ vals.map List.length = N.types.map Ty.size ∧
  ∀ (j : Nat) (n : QNode), N.nodes[j]? = some n →
    n.Meets R (n.args.map fun v => (N.types.getD v ⟨[], 0⟩, vals.getD v [])) (vals.getD (N.inputs.length + j) [])

/-- The compiled function ends with its return. -/
theorem ops_last (W : WFun) : ∃ body, W.func.ops = body ++ [W.planned (.op W.ops.length)] ∧ (W.planned (.op W.ops.length)).isTerm = true := by
  obtain ⟨pre, hp⟩ := W.last_item
  refine ⟨pre.map W.planned, ?_, ?_⟩
  · show List.map _ W.items = _
    rw [hp]
    simp
  · simp [WFun.planned]

theorem plan_of {f : Func} {a : ModuleAttrs} (ha : planMemory f = some a) : ∃ b p, getAllocatedOffsets f b = some p ∧ p.offsets = a.offsets := by
  unfold planMemory at ha
  cases h1 : getAllocatedOffsets f true with
  | none => rw [h1] at ha; cases ha
  | some w =>
    cases h2 : getAllocatedOffsets f false with
    | none => rw [h1, h2] at ha; cases ha
    | some wo =>
      rw [h1, h2] at ha
      simp only [Option.some.injEq] at ha
      subst ha
      by_cases hle : w.peakMemoryUsed ≤ wo.peakMemoryUsed
      · exact ⟨true, w, h1, by simp [hle]⟩
      · exact ⟨false, wo, h2, by simp [hle]⟩

/-- **C127.** For every quantised network, compiled with its weights moved to a file, and any number of runs over USB, each of which sends every input: every read returns the
elements of the asked output among values that the network's specification admits for the inputs sent last in that run. -/
theorem C127_quantised_over_usb (R : Rt) (dom : MulArgs → Prop) (hR : R.OK dom) (N : QNetwork) (hN : N.OK R dom) (skip : Nat → Bool)
    (cfg : WCfg) (calls order : List Nat) (consts : Nat → Weights.Const) (W : WFun) (hW : W = (N.expand R).withWeights skip cfg calls order consts)
    (hv : W.Visited) (hs : W.Stored) (a : ModuleAttrs) (ha : planMemory W.func = some a)
    (junk : Nat → Byte) (frame : List Nat → List (List Nat)) (hf : ∀ d, Frames d (frame d)) (ds : List Details)
    (hds : ∀ j < N.outputs.length, ∃ d, ds[j]? = some d ∧ (d.width = 1 ∨ d.width = 2 ∨ d.width = 4 ∨ d.width = 8) ∧
      d.shape.prod * d.width = (N.types.getD (N.outputs.getD j 0) ⟨[], 0⟩).size)
    (runs : List Run) (hr : ∀ r ∈ runs, r.OK W.func (W.planned (.op W.ops.length)) ∧ ∀ j ∈ r.outs, j < N.outputs.length) (m : Mem) (c : Env) :
    ∃ rs, session ⟨W.func, a.offsets, W.kernels (N.sem R) W.file, (W.planned (.op W.ops.length)).operands⟩ junk frame ds (runs.flatMap Run.calls ++ [.close]) m c = some rs ∧
      List.Forall₂ (fun (x : Run × Nat) r => ∃ vals d, Admissible R N (x.1.inputs W.func) vals ∧ ds[x.2]? = some d ∧
        r = some (elements d.width ((vals.getD (N.outputs.getD x.2 0) []).map UInt8.toNat))) (tasks runs) rs := by
  have hok : W.OK := by
    have hE := (expand_values hR N hN (N.inputs.map fun t => List.replicate t.size 0) (by simp [List.map_map, Function.comp_def])).1
    subst hW
    exact Network.withWeights_ok hE skip cfg calls order consts hv hs
  have hargs : W.func.argSizes = N.inputs.map Ty.size := by subst hW; rfl
  obtain ⟨b, p, hp, hpa⟩ := plan_of ha
  obtain ⟨body, hops, hret⟩ := ops_last W
  obtain ⟨bs, hb, hse⟩ := session_holds (WFun.wf hok) (WFun.inPlace hok) hp (W.kernels (N.sem R) W.file) (W.kernels_fit _ _) body _ hops hret junk frame hf ds runs
    (fun r h => (hr r h).1) m c
  rw [hpa] at hse
  refine ⟨_, hse, ?_⟩
  have hj : ∀ x ∈ tasks runs, x.2 < N.outputs.length ∧ (x.1.inputs W.func).map List.length = W.func.argSizes := by
    intro x hx
    simp only [tasks, List.mem_flatMap, List.mem_map] at hx
    obtain ⟨r, h1, j, h2, rfl⟩ := hx
    exact ⟨(hr r h1).2 j h2, inputs_sized (hr r h1).1⟩
  obtain ⟨c1, -, -⟩ := C06_chosen_plan (WFun.wf hok) (WFun.inPlace hok) ha
  clear hse
  generalize tasks runs = ts at hb hj ⊢
  induction hb with
  | nil => exact .nil
  | @cons x b ts bs hx hxs ih =>
    simp only [List.zip_cons_cons, List.map_cons]
    refine .cons ?_ (ih (fun y hy => hj y (List.mem_cons_of_mem _ hy)))
    obtain ⟨outs, t1, t2, t3⟩ := hx
    obtain ⟨hx1, hx2⟩ := hj x (by simp)
    obtain ⟨d, d1, d2, d3⟩ := hds x.2 hx1
    obtain ⟨vals, v1, v2, v3, v4, v5⟩ := C94_quantised_with_weights R dom hR N hN skip cfg calls order consts W hW hv hs a ha (x.1.inputs W.func) (by rw [hx2, hargs])
    have e := v5 m c
    rw [c1 (W.kernels (N.sem R) W.file) (x.1.inputs W.func) m c (W.kernels_fit _ _) hx2, t1] at e
    cases e
    refine ⟨vals, d, ⟨v2, v3, v4⟩, d1, ?_⟩
    have hg : (N.outputs.map fun v => vals.getD v []).getD x.2 [] = vals.getD (N.outputs.getD x.2 0) [] := by
      rw [List.getD_eq_getElem?_getD, List.getElem?_map, List.getD_eq_getElem?_getD (l := N.outputs), List.getElem?_eq_getElem hx1]
      rfl
    rw [hg] at t3
    refine arr_of_holds d1 d2 ?_ t2 t3
    have hl := congrArg (fun l => l.getD (N.outputs.getD x.2 0) 0) v3
    simp only [List.getD_eq_getElem?_getD, List.getElem?_map] at hl
    rw [d3]
    simp only [List.getD_eq_getElem?_getD]
    cases h1 : vals[(N.outputs[x.2]?.getD 0)]? <;> cases h2 : N.types[(N.outputs[x.2]?.getD 0)]? <;> simp_all [Ty.size]

/-- The small network's function, whatever the configuration. -/
theorem exSmall_func (cfg : WCfg) (consts : Nat → Weights.Const) :
    ((exSmall.expand exRt).withWeights (fun _ => false) cfg [] [] consts).func.argSizes = [32] ∧
    (((exSmall.expand exRt).withWeights (fun _ => false) cfg [] [] consts).planned
      (.op ((exSmall.expand exRt).withWeights (fun _ => false) cfg [] [] consts).ops.length)).operands = [1] ∧
    (((exSmall.expand exRt).withWeights (fun _ => false) cfg [] [] consts).func.decl 1).isConst = false := ⟨rfl, rfl, rfl⟩

/-- **C127, example.** Two runs of a network that takes rows out of an image. -/
theorem C127_example (cfg : WCfg) (x y : List Byte) (hx : x.length = 32) (hy : y.length = 32) (junk : Nat → Byte) (m : Mem) (c : Env) :
    ∃ (W : WFun) (a : ModuleAttrs), planMemory W.func = some a ∧
    ∃ v w : List (List Byte),
      session ⟨W.func, a.offsets, W.kernels (exSmall.sem exRt) W.file, [1]⟩ junk exFrame [⟨[1, 2, 1, 8], 1⟩]
        [.write 0 x, .start, .read 0, .write 0 y, .start, .read 0, .close] m c =
        some [some (elements 1 ((v.getD 1 []).map UInt8.toNat)), some (elements 1 ((w.getD 1 []).map UInt8.toNat))] ∧
      Admissible exRt exSmall [x] v ∧ Admissible exRt exSmall [y] w := by
  have hE : (exSmall.expand exRt).OK :=
    (expand_values exRt_ok _ exSmall_ok (exSmall.inputs.map fun t => List.replicate t.size 0) (by simp [List.map_map, Function.comp_def])).1
  obtain ⟨consts, W, a, impl, hW, hv, hs, ha, -⟩ := C107_compiles _ hE (fun _ => false) (fun _ => False) _ .refl cfg [] (by
    show exSmall.inputs ≠ []
    simp [exSmall]) (exSmall.sem exRt)
  have hW : W = (exSmall.expand exRt).withWeights (fun _ => false) cfg [] [] consts := hW
  obtain ⟨f1, f2, f3⟩ := exSmall_func cfg consts
  rw [← hW] at f1 f2 f3
  have hrun : ∀ z : List Byte, z.length = 32 → (⟨[(0, z)], [0]⟩ : Run).OK W.func (W.planned (.op W.ops.length)) := by
    intro z hz
    refine ⟨?_, ?_, ?_⟩
    · intro q hq
      simp only [List.mem_singleton] at hq
      subst hq
      refine ⟨by simp [f1], by show (0 : Nat) < 256; decide, by simp [f1, hz], ?_⟩
      intro e
      simp only at e
      rw [e] at hz
      simp at hz
    · intro i hi
      have : i = 0 := by simpa [f1] using hi
      subst this
      simp [latest]
    · intro j hj
      simp only [List.mem_singleton] at hj
      subst hj
      simp [f2, f3]
  have hin : ∀ z : List Byte, (⟨[(0, z)], [0]⟩ : Run).inputs W.func = [z] := by
    intro z
    simp [Run.inputs, f1, latest]
  obtain ⟨rs, h1, h2⟩ := C127_quantised_over_usb exRt _ exRt_ok exSmall exSmall_ok (fun _ => false) cfg [] [] consts W hW hv hs a ha junk exFrame exFrame_ok [⟨[1, 2, 1, 8], 1⟩]
    (by intro j hj
        have : j = 0 := by have : j < 1 := hj; omega
        subst this
        exact ⟨_, rfl, .inl rfl, rfl⟩)
    [⟨[(0, x)], [0]⟩, ⟨[(0, y)], [0]⟩]
    (by
      intro r hr
      simp only [List.mem_cons, List.not_mem_nil, or_false] at hr
      rcases hr with rfl | rfl
      · exact ⟨hrun x hx, by intro j hj; simp only [List.mem_singleton] at hj; subst hj; decide⟩
      · exact ⟨hrun y hy, by intro j hj; simp only [List.mem_singleton] at hj; subst hj; decide⟩) m c
  rw [f2] at h1
  have h2' : List.Forall₂ _ [((⟨[(0, x)], [0]⟩ : Run), 0), ((⟨[(0, y)], [0]⟩ : Run), 0)] rs := h2
  match rs, h1, h2' with
  | [r1, r2], h1, .cons ⟨v, d, a1, a2, a3⟩ (.cons ⟨w, d', b1, b2, b3⟩ .nil) =>
    rw [hin] at a1 b1
    cases a2
    cases b2
    subst a3 b3
    exact ⟨W, a, ha, v, w, h1, a1, b1⟩

end Verif.Host.UsbQuant
