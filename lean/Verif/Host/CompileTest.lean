import Verif.Host.UsbNet
import Verif.Host.TestRunner

/-!
# C129: the compiled runtime of the integration tests

integration_tests/compile_test.cpp links the generated C++ of a model into a program that reads its inputs from files and writes its outputs to files; `XFHostRuntime` of
integration_tests/runner.py writes the files, runs the program and reads the outputs.  The program is started anew for each run; its arena may hold anything at the start.
-/

namespace Verif.Host.CompileTest

open Verif.MemPlan Verif.Net Verif.Shipped.IoServer
open Verif.Host.UsbSession (Details elements)

/-- The loop over the inputs (compile_test.cpp 10-28): a file that cannot be opened ends the program with status 1 (`none`); at its end the rest of the input is left as it was. -/
def load (D : Dev) : List (Option (List Byte)) → Nat → Mem → Option Mem
  | [], _, m => some m
  | none :: _, _, _ => none
  | some d :: fs, n, m => load D fs (n + 1) (m.write (offsetOf D.offs n) (d.take (D.f.raw n)))

/-- `main` (compile_test.cpp 5-49), `files` being `in0`, `in1`, ... for the inputs of the model: the contents of `out0`, `out1`, ... or `none` for status 1.
A failing `model_init` is only reported, and outputs can be opened. -/
def main (D : Dev) (files : List (Option (List Byte))) (m : Mem) (c : Env) : Option (List (List Byte)) :=
  (load D files 0 m).map fun m =>
    let r := arenaFinal D.f D.k D.offs D.f.ops 0 m c
    D.outs.map fun v => r.1.read (offsetOf D.offs v) (D.f.raw v)

/-- `np.fromfile(...).reshape(s)` (runner.py 170-173), elements as their bytes: `fromfile` drops an incomplete element, `reshape` needs as many elements as the shape has. -/
def fromFile (d : Details) (data : List Byte) : Option (List (List Nat)) :=
  if data.length / d.width = d.shape.prod then some (elements d.width (data.map UInt8.toNat)) else none

/-- `XFHostRuntime.predict` (runner.py 164-174); the model has as many inputs as `inputs`. `none` is an exception or exit. -/
def predict (D : Dev) (ds : List Details) (inputs : List (List Byte)) (m : Mem) (c : Env) : Option (List (List (List Nat))) :=
  (main D (inputs.map some) m c).bind fun outs => (List.zip ds outs).mapM fun x => fromFile x.1 x.2

/-! ### Proofs -/

theorem load_eq (D : Dev) : ∀ (xs : List (List Byte)) (n : Nat) (m : Mem), (∀ (i : Nat) (x : List Byte), xs[i]? = some x → x.length = D.f.raw (n + i)) →
    load D (xs.map some) n m = some (writeResults D.offs n xs m) := by
  intro xs
  induction xs with
  | nil => intro n m _; rfl
  | cons x xs ih =>
    intro n m h
    have h0 := h 0 x rfl
    rw [List.map_cons, load, List.take_of_length_le (by rw [h0]; simp), ih _ _ fun i y hy => by rw [h (i + 1) y (by simpa using hy)]; congr 1; omega]
    rfl

/-- **C129.** For every planned model and any kernels, the files that the program writes hold what the model computes on the files that it reads, when every tensor has memory of its
own, whatever is in the arena when it starts. -/
theorem C129_program {f : Func} (wf : f.WF) (ip : f.InPlaceOK) {b : Bool} {p : Plan} (h : getAllocatedOffsets f b = some p) (k : Kernels) (hk : Kernels.Fit f k)
    (body : List Op) (ret : Op) (hops : f.ops = body ++ [ret]) (hret : ret.isTerm = true) (hc : ∀ v ∈ ret.operands, (f.decl v).isConst = false)
    (inputs : List (List Byte)) (hi : inputs.map List.length = f.argSizes) (m : Mem) (c : Env) :
    ∃ outs, (refTrace f k f.ops 0 (inputEnv inputs)).getLast? = some outs ∧ main ⟨f, p.offsets, k, ret.operands⟩ (inputs.map some) m c = some outs := by
  have hrun := C02_arena_execution_correct_in_place wf ip h k inputs m c hk hi
  have hl := load_eq ⟨f, p.offsets, k, ret.operands⟩ inputs 0 m (by
    intro i x hx
    have h2 : (inputs.map List.length)[i]? = f.argSizes[i]? := by rw [hi]
    rw [List.getElem?_map, hx] at h2
    have hi' : i < f.argSizes.length := by
      by_contra hn
      rw [List.getElem?_eq_none (by omega)] at h2
      cases h2
    rw [Nat.zero_add, (raw_arg f hi').1, List.getD_eq_getElem?_getD, ← h2]
    rfl)
  obtain ⟨t1, t2⟩ := trace_last f k p.offsets ret hret body 0 (loadInputs p.offsets inputs m) c
  rw [← hops] at t1 t2
  rw [hrun] at t1
  refine ⟨_, t1, ?_⟩
  rw [main, hl]
  refine congrArg some (List.map_congr_left fun v hv => ?_)
  have hlo : writeResults p.offsets 0 inputs m = loadInputs p.offsets inputs m := rfl
  dsimp only
  rw [hlo, t2, arenaOperand, hc v hv]
  rfl

theorem mapM_fromFile : ∀ (ds : List Details) (outs : List (List Byte)), List.Forall₂ (fun d o => o.length = d.shape.prod * d.width ∧ 0 < d.width) ds outs →
    ((List.zip ds outs).mapM fun x => fromFile x.1 x.2) = some (List.zipWith (fun d o => elements d.width (o.map UInt8.toNat)) ds outs) := by
  intro ds outs h
  induction h with
  | nil => rfl
  | @cons d o ds outs hd _ ih =>
    have : fromFile d o = some (elements d.width (o.map UInt8.toNat)) := by
      rw [fromFile, if_pos (by rw [hd.1, Nat.mul_div_cancel _ hd.2])]
    rw [List.zip_cons_cons, List.mapM_cons, this, ih]
    rfl

/-- **C129.** A network, compiled, linked and run by the test, gives the outputs of the network as it was written: for every well-typed network, any choice of operators left alone, any
meaning of the other operators, all inputs, and whatever the arena holds at the start. -/
theorem C129_network (N : Network) (hN : N.OK) (skip : Nat → Bool) (a : ModuleAttrs) (ha : planMemory (N.func skip) = some a) (sem : Sem) (ds : List Details)
    (hc : ∀ v ∈ N.outDev skip, ((N.func skip).decl v).isConst = false)
    (inputs : List (List Byte)) (hi : inputs.map List.length = N.inputs.map Ty.size)
    (hds : List.Forall₂ (fun (d : Details) o => o.length = d.shape.prod * d.width ∧ 0 < d.width) ds (N.result sem inputs)) (m : Mem) (c : Env) :
    predict ⟨N.func skip, a.offsets, devKernels sem (N.compile skip).1.ops, N.outDev skip⟩ ds inputs m c =
      some (List.zipWith (fun d o => elements d.width (o.map UInt8.toNat)) ds (N.result sem inputs)) := by
  have key := N.compile_spec hN skip
  obtain ⟨hg, h0, ho, hres⟩ := key sem inputs hi
  have wf : (N.func skip).WF := toFunc_wf h0 hg ho
  have ip : (N.func skip).InPlaceOK := toFunc_inPlace h0 hg
  obtain ⟨b, p, hp, hpa⟩ : ∃ b p, getAllocatedOffsets (N.func skip) b = some p ∧ p.offsets = a.offsets := by
    unfold planMemory at ha
    cases h1 : getAllocatedOffsets (N.func skip) true with
    | none => rw [h1] at ha; cases ha
    | some w =>
      cases h2 : getAllocatedOffsets (N.func skip) false with
      | none => rw [h1, h2] at ha; cases ha
      | some wo =>
        rw [h1, h2] at ha
        simp only [Option.some.injEq] at ha
        subst ha
        by_cases hle : w.peakMemoryUsed ≤ wo.peakMemoryUsed
        · exact ⟨true, w, h1, by simp [hle]⟩
        · exact ⟨false, wo, h2, by simp [hle]⟩
  obtain ⟨outs, t1, t2⟩ := C129_program wf ip hp (devKernels sem (N.compile skip).1.ops) (devKernels_fit sem _ _ _) ((N.compile skip).1.ops.map DOp.planned) (retOp (N.outDev skip))
    (toFunc_ops _ _ _) rfl hc inputs hi m c
  have hlen : inputs.length = N.inputs.length := by simpa using congrArg List.length hi
  have := refTrace_last sem N.inputs (N.compile skip).1 (N.outDev skip) h0 hg ho (N.compile skip).1.ops 0 inputs (inputEnv inputs) rfl (by omega) (by omega) (fun v _ => rfl)
  have t1' : some outs = some (N.result sem inputs) := by rw [← hres]; exact t1.symm.trans this
  cases t1'
  rw [hpa] at t2
  rw [predict, show (retOp (N.outDev skip)).operands = N.outDev skip from rfl] at *
  rw [t2]
  exact mapM_fromFile _ _ hds

/-! ### With the verdict of the test (C128) -/

/-- An int8 value as its byte, and back. -/
def byteOf (x : Int) : Byte := UInt8.ofNat (x % 256).toNat
def int8Of (b : Nat) : Int := if b < 128 then b else b - 256

/-- A network as a program on int8 tensors, as written. -/
def written (N : Network) (sem : Sem) : TestRunner.Program := fun t =>
  (N.result sem (t.map (List.map byteOf))).map fun o => (o.map UInt8.toNat).map int8Of

/-- The compiled program as the test sees it, the arena of the run on `t` holding `m t` at the start. An exception ends the test; here it is a result without outputs. -/
def tested (D : Dev) (ds : List Details) (m : List (List Int) → Mem) (c : List (List Int) → Env) : TestRunner.Program := fun t =>
  match predict D ds (t.map (List.map byteOf)) (m t) (c t) with
  | some outs => outs.map fun o => o.flatten.map int8Of
  | none => []

theorem elements_one (l : List Nat) : (elements 1 l).flatten = l := by
  have : elements 1 l = l.map fun x => [x] := by
    refine List.ext_getElem? fun i => ?_
    rw [elements, List.getElem?_map, List.getElem?_map, Nat.div_one]
    by_cases h : i < l.length
    · rw [List.getElem?_range h, List.getElem?_eq_getElem h]
      simp only [Option.map_some, Nat.mul_one]
      rw [List.drop_eq_getElem_cons h]
      rfl
    · rw [List.getElem?_eq_none (by simpa using h), List.getElem?_eq_none (by simpa using h)]; rfl
  rw [this]
  clear this
  induction l with
  | nil => rfl
  | cons x l ih => rw [List.map_cons, List.flatten_cons, ih]; rfl

/-- **C129.** So the integration test passes for every such network with int8 outputs, whatever inputs it draws and whatever the arenas hold, with any parameters that are not negative. -/
theorem C129_test_passes (p : TestRunner.Params) (hp : 0 < p.required) (hM : 0 ≤ p.maxAbs) (hA : 0 ≤ p.absAvg) (hB : 0 ≤ p.avgAbs)
    (N : Network) (hN : N.OK) (skip : Nat → Bool) (a : ModuleAttrs) (ha : planMemory (N.func skip) = some a) (sem : Sem) (ds : List Details)
    (hc : ∀ v ∈ N.outDev skip, ((N.func skip).decl v).isConst = false)
    (hds : ∀ inputs, inputs.map List.length = N.inputs.map Ty.size →
      List.Forall₂ (fun (d : Details) o => o.length = d.shape.prod * d.width ∧ d.width = 1) ds (N.result sem inputs) ∧ (N.result sem inputs).flatten ≠ [])
    (ins : Nat → List (List Int)) (hi : ∀ k, (ins k).map List.length = N.inputs.map Ty.size) (m : List (List Int) → Mem) (c : List (List Int) → Env) :
    TestRunner.Passes p 128 (written N sem) (tested ⟨N.func skip, a.offsets, devKernels sem (N.compile skip).1.ops, N.outDev skip⟩ ds m c) ins := by
  have hlen : ∀ k, ((ins k).map (List.map byteOf)).map List.length = N.inputs.map Ty.size := fun k => by
    rw [← hi k, List.map_map]
    exact List.map_congr_left fun x _ => by simp
  refine TestRunner.C128_no_false_alarm (by decide) hp hM hA hB (fun k => ?_) fun k => ?_
  · obtain ⟨h1, _⟩ := hds _ (hlen k)
    have h2 : List.Forall₂ (fun (d : Details) o => o.length = d.shape.prod * d.width ∧ 0 < d.width) ds (N.result sem ((ins k).map (List.map byteOf))) :=
      h1.imp fun _ _ h => ⟨h.1, by omega⟩
    rw [tested, C129_network N hN skip a ha sem ds hc _ (hlen k) h2]
    show List.map _ _ = List.map _ _
    generalize N.result sem ((ins k).map (List.map byteOf)) = os at h1
    clear h2 hds
    induction h1 with
    | nil => rfl
    | @cons d o ds' os' hd _ ih =>
      rw [List.zipWith_cons_cons, List.map_cons, List.map_cons, hd.2, elements_one]
      exact congrArg _ ih
  · obtain ⟨_, h2⟩ := hds _ (hlen k)
    intro e
    apply h2
    rw [List.flatten_eq_nil_iff] at e ⊢
    intro o ho
    have := e _ (List.mem_map_of_mem (f := fun o : List Byte => (o.map UInt8.toNat).map int8Of) ho)
    simpa using this

/-! ### Witnesses -/

open Verif.Shipped.Image (exDirect exDirect_ok)
open Verif.Shipped.Agree (exSem exDirect_result)

/-- **C129, example.** C104's network meets the hypotheses of `C129_test_passes`, and so of `C129_network` and `C129_program`. -/
theorem C129_example (ins : Nat → List (List Int)) (hi : ∀ k, (ins k).map List.length = [16]) (m : List (List Int) → Mem) (c : List (List Int) → Env) :
    TestRunner.Passes {} 128 (written exDirect exSem)
      (tested ⟨exDirect.func fun _ => false, [0, 16, 16], devKernels exSem (exDirect.compile fun _ => false).1.ops, exDirect.outDev fun _ => false⟩ [⟨[8], 1⟩] m c) ins := by
  have hp : planMemory (exDirect.func fun _ => false) = some ⟨[0, 16, 16], 24, 2⟩ := by decide +kernel
  refine C129_test_passes {} (by decide) (by decide) (by norm_num) (by norm_num) exDirect exDirect_ok (fun _ => false) _ hp exSem [⟨[8], 1⟩] (by decide +kernel) ?_ ins
    (fun k => by rw [hi]; decide +kernel) m c
  intro inputs h
  have hl : inputs.length = 1 := by have := congrArg List.length h; simpa [exDirect] using this
  match inputs, hl with
  | [x], _ =>
    obtain ⟨o, h1, h2⟩ := exDirect_result x
    rw [h1]
    exact ⟨.cons ⟨by simpa using h2, rfl⟩ .nil, by
      intro e
      simp only [List.flatten_cons, List.flatten_nil, List.append_nil] at e
      rw [e] at h2; cases h2⟩

/-- **C129.** A file that is missing ends the program with status 1, before the model is run. -/
theorem C129_missing (D : Dev) (xs : List (List Byte)) (fs : List (Option (List Byte))) (m : Mem) (c : Env) : main D (xs.map some ++ none :: fs) m c = none := by
  have : ∀ (xs : List (List Byte)) (n : Nat) (m : Mem), load D (xs.map some ++ none :: fs) n m = none := by
    intro xs
    induction xs with
    | nil => intro n m; rfl
    | cons x xs ih => intro n m; exact ih _ _
  rw [main, this]
  rfl

open UsbSession (exF exK) in
/-- **C129, refuted for short files.** A file that is too short is not an error of the program: it computes with what the arena held. -/
theorem C129_short_refuted (c : Env) : main ⟨exF, [0, 0], exK, [1]⟩ [some [1, 2, 3, 4]] (fun _ => 7) c = some [[2, 3, 4, 5, 8, 8]] ∧
    main ⟨exF, [0, 0], exK, [1]⟩ [some [1, 2, 3, 4]] (fun _ => 0) c = some [[2, 3, 4, 5, 1, 1]] := by
  constructor <;> rfl

end Verif.Host.CompileTest
