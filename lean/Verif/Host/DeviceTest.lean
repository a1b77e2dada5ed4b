import Verif.Host.CompileTest

/-!
# C130: the device runner of the integration tests

`XFDeviceRuntime` of integration_tests/runner.py keeps one connection to a device over USB for a whole test: each `predict` resets, sends all inputs, starts the model and reads all outputs.
The connection is that of C123.
-/

namespace Verif.Host.DeviceTest

open Verif.MemPlan Verif.Net Verif.Shipped.IoServer Verif.Host.UsbSession Verif.Host.CompileTest
open Verif.Host.Usb (Frames)

/-- The calls of `XFDeviceRuntime.predict` (runner.py 200-205), for a model with `outs` outputs. -/
def calls (outs : Nat) (inputs : List (List Byte)) : List Call :=
  .reset :: ((List.range inputs.length).map fun i => .write i (inputs.getD i [])) ++ .start :: (List.range outs).map .read

/-- A test on a device: what `read_output_tensor` returns, call by call, over all calls of `predict` (runner.py 304-309). -/
def onDevice (D : Dev) (junk : Nat → Byte) (frame : List Nat → List (List Nat)) (ds : List Details) (tests : List (List (List Byte))) (m : Mem) (c : Env) :
    Option (List (Option (List (List Nat)))) :=
  session D junk frame ds (tests.flatMap (calls ds.length) ++ [.close]) m c

/-! ### Proofs -/

def Call.noReset : Call → Bool
  | .reset => false
  | _ => true

theorem answers_resets (D : Dev) (junk : Nat → Byte) : ∀ (cs : List Call) (m : Mem) (c : Env),
    answers (serve D (cs.map (toCmd junk)) m c) = answers (serve D ((cs.filter Call.noReset).map (toCmd junk)) m c) := by
  intro cs
  induction cs with
  | nil => intro m c; rfl
  | cons x cs ih =>
    intro m c
    cases x <;> simp only [List.filter_cons, Call.noReset, if_true, List.map_cons, toCmd, serve, answers, Bool.false_eq_true, if_false, ih]

theorem reads_resets : ∀ cs : List Call, reads cs = reads (cs.filter Call.noReset) := by
  intro cs
  induction cs with
  | nil => rfl
  | cons x cs ih => cases x <;> simp [List.filter_cons, Call.noReset, reads, ih]

/-- Resets change nothing that is read. -/
theorem session_resets (D : Dev) (junk : Nat → Byte) (frame : List Nat → List (List Nat)) (ds : List Details) (cs : List Call)
    (h : ∀ i d, Call.write i d ∈ cs → d ≠ []) (m : Mem) (c : Env) :
    session D junk frame ds cs m c = session D junk frame ds (cs.filter Call.noReset) m c := by
  have e : cs.all Call.fits = (cs.filter Call.noReset).all Call.fits := by
    clear h
    induction cs with
    | nil => rfl
    | cons x cs ih => cases x <;> simp [List.filter_cons, Call.noReset, Call.fits, ih]
  have h' : ∀ i d, Call.write i d ∈ cs.filter Call.noReset → d ≠ [] := fun i d hd => h i d (List.mem_filter.1 hd).1
  unfold session
  rw [decode_calls junk cs h _ (sent_length cs), decode_calls junk _ h' _ (sent_length _), answers_resets, ← e, ← reads_resets]

theorem latest_snoc (x : Nat × List Byte) (i : Nat) : ∀ w : List (Nat × List Byte), latest (w ++ [x]) i = if x.1 = i then some x.2 else latest w i := by
  intro w
  induction w with
  | nil => simp [latest]
  | cons y w ih =>
    rw [List.cons_append, latest, ih]
    by_cases c : x.1 = i
    · simp [c]
    · simp [c, latest]

theorem latest_range (g : Nat → List Byte) (i : Nat) : ∀ n, latest ((List.range n).map fun k => (k, g k)) i = if i < n then some (g i) else none := by
  intro n
  induction n with
  | zero => rfl
  | succ n ih =>
    rw [List.range_succ, List.map_append, List.map_singleton, latest_snoc, ih]
    by_cases c : n = i
    · subst c; simp
    · have : i < n + 1 ↔ i < n := by omega
      simp [c, this]

def runOf (outs : Nat) (inputs : List (List Byte)) : Run := ⟨(List.range inputs.length).map fun i => (i, inputs.getD i []), List.range outs⟩

theorem runOf_calls (outs : Nat) (inputs : List (List Byte)) : (calls outs inputs).filter Call.noReset = (runOf outs inputs).calls := by
  have h : ∀ cs : List Call, (∀ x ∈ cs, Call.noReset x = true) → cs.filter Call.noReset = cs := fun cs hx => List.filter_eq_self.2 hx
  rw [calls, List.cons_append, List.filter_cons, if_neg (by simp [Call.noReset])]
  rw [h _ (by
    intro x hx
    simp only [List.mem_append, List.mem_map, List.mem_cons] at hx
    rcases hx with ⟨_, _, rfl⟩ | rfl | ⟨_, _, rfl⟩ <;> rfl)]
  simp [runOf, Run.calls, Function.comp_def]

theorem runOf_inputs {f : Func} (outs : Nat) {inputs : List (List Byte)} (hl : inputs.length = f.argSizes.length) : (runOf outs inputs).inputs f = inputs := by
  refine List.ext_getElem? fun i => ?_
  rw [Run.inputs, List.getElem?_map]
  by_cases h : i < f.argSizes.length
  · rw [List.getElem?_range h, Option.map_some, runOf, latest_range, if_pos (by omega), Option.getD_some, List.getD_eq_getElem?_getD, List.getElem?_eq_getElem (by omega)]
    rfl
  · rw [List.getElem?_eq_none (by simpa using h), List.getElem?_eq_none (by omega)]; rfl

/-- **C130.** On a device, every `predict` of a test returns the outputs of the network as it was written, for any number of runs on one connection, whatever the arena held before:
for every well-typed network, any choice of operators left alone, any meaning of the other operators and all inputs. -/
theorem C130_device_runner (N : Network) (hN : N.OK) (skip : Nat → Bool) (a : ModuleAttrs) (ha : planMemory (N.func skip) = some a) (sem : Sem)
    (junk : Nat → Byte) (frame : List Nat → List (List Nat)) (hf : ∀ d, Frames d (frame d)) (ds : List Details)
    (hc : ∀ v ∈ N.outDev skip, ((N.func skip).decl v).isConst = false)
    (hn : N.inputs.length ≤ 256) (ho : N.outputs.length ≤ 256) (hpos : ∀ t ∈ N.inputs, 0 < t.size)
    (hds : ∀ inputs, inputs.map List.length = N.inputs.map Ty.size →
      List.Forall₂ (fun (d : Details) o => o.length = d.shape.prod * d.width ∧ (d.width = 1 ∨ d.width = 2 ∨ d.width = 4 ∨ d.width = 8)) ds (N.result sem inputs))
    (tests : List (List (List Byte))) (ht : ∀ t ∈ tests, t.map List.length = N.inputs.map Ty.size) (m : Mem) (c : Env) :
    onDevice ⟨N.func skip, a.offsets, devKernels sem (N.compile skip).1.ops, N.outDev skip⟩ junk frame ds tests m c =
      some (tests.flatMap fun t => (List.zipWith (fun d o => elements d.width (o.map UInt8.toNat)) ds (N.result sem t)).map some) := by
  have hlen : ∀ t ∈ tests, t.length = N.inputs.length := fun t h => by simpa using congrArg List.length (ht t h)
  have hres : ∀ inputs, (N.result sem inputs).length = N.outputs.length := fun inputs => by simp [Network.result]
  have hdl : ds.length = N.outputs.length := by
    have := (hds (N.inputs.map fun t => List.replicate t.size 0) (by simp [List.map_map, Function.comp_def])).length_eq
    rw [this, hres]
  have hget : ∀ t ∈ tests, ∀ i < t.length, (t.getD i []).length = (N.inputs.map Ty.size).getD i 0 := by
    intro t h i hi
    rw [← ht t h, List.getD_eq_getElem?_getD, List.getD_eq_getElem?_getD, List.getElem?_map, List.getElem?_eq_getElem hi]
    rfl
  have hne : ∀ t ∈ tests, ∀ i < t.length, t.getD i [] ≠ [] := by
    intro t h i hi e
    have h1 := hget t h i hi
    have hi2 : i < N.inputs.length := by rw [← hlen t h]; exact hi
    rw [e, List.getD_eq_getElem?_getD, List.getElem?_map, List.getElem?_eq_getElem hi2] at h1
    have h2 := hpos N.inputs[i] (List.getElem_mem _)
    simp only [List.length_nil, Option.map_some, Option.getD_some] at h1
    omega
  have hw : ∀ i d, Call.write i d ∈ tests.flatMap (calls ds.length) ++ [.close] → d ≠ [] := by
    intro i d hd
    simp only [calls, List.mem_append, List.mem_flatMap, List.mem_cons, List.mem_map, List.mem_range, List.cons_append] at hd
    rcases hd with ⟨t, h1, h2 | ⟨j, h2, h3⟩ | h2 | ⟨j, _, h2⟩⟩ | h2 | h2
    · cases h2
    · cases h3; exact hne t h1 _ h2
    · cases h2
    · cases h2
    · cases h2
    · cases h2
  have harg : (N.func skip).argSizes = N.inputs.map Ty.size := rfl
  have hod : (N.outDev skip).length = N.outputs.length := by simp [Network.outDev]
  have e : (tests.flatMap (calls ds.length) ++ [Call.close]).filter Call.noReset = (tests.map (runOf ds.length)).flatMap Run.calls ++ [.close] := by
    rw [List.filter_append]
    congr 1
    rw [List.filter_flatMap, List.flatMap_map]
    simp only [runOf_calls]
  rw [onDevice, session_resets _ _ _ _ _ hw, e]
  rw [UsbNet.C126_network_over_usb N hN skip a ha sem junk frame hf ds ?_ (tests.map (runOf ds.length)) ?_ m c]
  · congr 1
    rw [List.flatMap_map]
    have hfl : ∀ (ts : List (List (List Byte))), (∀ t ∈ ts, t ∈ tests) →
        (ts.flatMap fun t => (runOf ds.length t).outs.map fun j => ds[j]?.map fun d => elements d.width (((N.result sem ((runOf ds.length t).inputs (N.func skip))).getD j []).map UInt8.toNat)) =
        ts.flatMap fun t => (List.zipWith (fun d o => elements d.width (o.map UInt8.toNat)) ds (N.result sem t)).map some := by
      intro ts
      induction ts with
      | nil => intro _; rfl
      | cons t ts ih =>
        intro hts
        have h1 := hts t (by simp)
        rw [List.flatMap_cons, List.flatMap_cons, ih fun x hx => hts x (List.mem_cons_of_mem _ hx)]
        congr 1
        rw [runOf_inputs _ (by rw [harg, List.length_map]; exact hlen t h1)]
        show List.map _ (List.range ds.length) = _
        have hl := (hds t (ht t h1)).length_eq
        refine List.ext_getElem? fun j => ?_
        rw [List.getElem?_map, List.getElem?_map, List.getElem?_zipWith]
        by_cases hj : j < ds.length
        · rw [List.getElem?_range hj, List.getElem?_eq_getElem hj, List.getElem?_eq_getElem (by omega), Option.map_some, Option.map_some, List.getD_eq_getElem?_getD,
            List.getElem?_eq_getElem (by omega)]
          show some (Option.map _ ds[j]?) = _
          rw [List.getElem?_eq_getElem hj]
          rfl
        · rw [List.getElem?_eq_none (by simpa using hj), List.getElem?_eq_none (l := ds) (by omega)]
          rfl
    exact hfl tests fun _ h => h
  · intro j hj
    have hj' : j < ds.length := by omega
    refine ⟨ds[j], List.getElem?_eq_getElem hj', ?_, ?_⟩
    · have := hds (N.inputs.map fun t => List.replicate t.size 0) (by simp [List.map_map, Function.comp_def])
      exact (List.forall₂_iff_get.1 this).2 j hj' (by rw [hres]; exact hj) |>.2
    · intro inputs hi
      have := (List.forall₂_iff_get.1 (hds inputs hi)).2 j hj' (by rw [hres]; exact hj)
      rw [List.getD_eq_getElem?_getD, List.getElem?_eq_getElem (by rw [hres]; exact hj)]
      exact this.1
  · intro r hr
    obtain ⟨t, h1, rfl⟩ := List.mem_map.1 hr
    refine ⟨?_, ?_, ?_⟩
    · intro x hx
      obtain ⟨i, h2, rfl⟩ := List.mem_map.1 hx
      have h3 := List.mem_range.1 h2
      have h4 := hlen t h1
      exact ⟨by rw [harg, List.length_map]; show i < _; omega, by show i < _; omega, hget t h1 i h3, hne t h1 i h3⟩
    · intro i hi
      rw [harg, List.length_map] at hi
      rw [runOf, latest_range, if_pos (by rw [hlen t h1]; exact hi)]
      simp
    · intro j hj
      have h2 : j < ds.length := List.mem_range.1 hj
      refine ⟨by show j < (N.outDev skip).length; omega, by omega, hc _ ?_⟩
      show (N.outDev skip).getD j 0 ∈ N.outDev skip
      rw [List.getD_eq_getElem?_getD, List.getElem?_eq_getElem (by omega)]
      exact List.getElem_mem _

/-- **C130.** The device and the compiled program on the host return the same arrays, test by test, whatever their arenas held. -/
theorem C130_runners_agree (N : Network) (hN : N.OK) (skip : Nat → Bool) (a : ModuleAttrs) (ha : planMemory (N.func skip) = some a) (sem : Sem)
    (junk : Nat → Byte) (frame : List Nat → List (List Nat)) (hf : ∀ d, Frames d (frame d)) (ds : List Details)
    (hc : ∀ v ∈ N.outDev skip, ((N.func skip).decl v).isConst = false)
    (hn : N.inputs.length ≤ 256) (ho : N.outputs.length ≤ 256) (hpos : ∀ t ∈ N.inputs, 0 < t.size)
    (hds : ∀ inputs, inputs.map List.length = N.inputs.map Ty.size →
      List.Forall₂ (fun (d : Details) o => o.length = d.shape.prod * d.width ∧ (d.width = 1 ∨ d.width = 2 ∨ d.width = 4 ∨ d.width = 8)) ds (N.result sem inputs))
    (tests : List (List (List Byte))) (ht : ∀ t ∈ tests, t.map List.length = N.inputs.map Ty.size) (m : Mem) (c : Env)
    (m' : List (List Byte) → Mem) (c' : List (List Byte) → Env) :
    let D : Dev := ⟨N.func skip, a.offsets, devKernels sem (N.compile skip).1.ops, N.outDev skip⟩
    ∃ rs : List (List (List (List Nat))), onDevice D junk frame ds tests m c = some (rs.flatMap fun r => r.map some) ∧
      (tests.mapM fun t => predict D ds t (m' t) (c' t)) = some rs := by
  refine ⟨tests.map fun t => List.zipWith (fun d o => elements d.width (o.map UInt8.toNat)) ds (N.result sem t), ?_, ?_⟩
  · rw [C130_device_runner N hN skip a ha sem junk frame hf ds hc hn ho hpos hds tests ht m c, List.flatMap_map]
  · clear hf
    induction tests with
    | nil => rfl
    | cons t ts ih =>
      rw [List.mapM_cons, ih fun x hx => ht x (List.mem_cons_of_mem _ hx),
        C129_network N hN skip a ha sem ds hc t (ht t (by simp)) ((hds t (ht t (by simp))).imp fun _ _ h => ⟨h.1, by omega⟩)]
      rfl

open Verif.Shipped.Image (exDirect exDirect_ok) in
open Verif.Shipped.Agree (exSem exDirect_result) in
/-- **C130, example.** C104's network on a device: two tests on one connection. -/
theorem C130_example (junk : Nat → Byte) (m : Mem) (c : Env) :
    onDevice ⟨exDirect.func fun _ => false, [0, 16, 16], devKernels exSem (exDirect.compile fun _ => false).1.ops, exDirect.outDev fun _ => false⟩ junk exFrame [⟨[1, 4], 2⟩]
      [[[1, 2, 3, 4, 5, 6, 7, 8, 0, 0, 0, 0, 0, 0, 0, 0]], [List.replicate 16 200]] m c =
      some [some [[3, 4], [5, 6], [7, 8], [9, 10]], some [[202, 202], [202, 202], [202, 202], [202, 202]]] := by
  have hp : planMemory (exDirect.func fun _ => false) = some ⟨[0, 16, 16], 24, 2⟩ := by decide +kernel
  refine (C130_device_runner exDirect exDirect_ok (fun _ => false) _ hp exSem junk exFrame exFrame_ok [⟨[1, 4], 2⟩] (by decide +kernel) (by decide) (by decide) (by decide +kernel)
    ?_ _ (by decide +kernel) m c).trans (by decide +kernel)
  intro inputs h
  have hl : inputs.length = 1 := by have := congrArg List.length h; simpa [exDirect] using this
  match inputs, hl with
  | [x], _ =>
    obtain ⟨o, h1, h2⟩ := exDirect_result x
    rw [h1]
    exact .cons ⟨by simpa using h2, .inr (.inl rfl)⟩ .nil

end Verif.Host.DeviceTest
