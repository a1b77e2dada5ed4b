import Verif.MemPlan.ConcurrentSeq
import Verif.Net.WProps
import Verif.Net.SplitNet
/-!
C102 for whole networks: networks that were compiled, planned and whose constants may be in the weights file (C83, C84, C94, C100), run with threads.
-/
namespace Verif.Net
open Verif.MemPlan Verif.MemPlan.Conc

/-- **C102, networks.**  A compiled network returns its results in every run with threads. -/
theorem C102_network (N : Network) (hN : N.OK) (skip : Nat → Bool) (a : ModuleAttrs) (ha : planMemory (N.func skip) = some a) (sem : Sem) (impl : Nat → Impl)
    (ok : ImplOK (N.func skip) (onData (N.func skip) impl (devKernels sem (N.compile skip).1.ops)) impl)
    (hskip : ∀ j, j < (N.func skip).ops.length → impl j = .skip → ((N.func skip).op j).operands = []) (inputs : List (List Byte))
    (hin : inputs.map List.length = N.inputs.map Ty.size) (m : Mem) (c : Env) (tr : List (List (List Byte)))
    (hrun : Run (N.func skip) (onData (N.func skip) impl (devKernels sem (N.compile skip).1.ops)) impl a.offsets (N.func skip).ops 0
      (loadInputs a.offsets inputs m) c tr) :
    tr.getLast? = some (N.result sem inputs) := by
  obtain ⟨hg, h0, ho, _⟩ := N.compile_spec hN skip (fun _ _ => []) (N.inputs.map fun t => List.replicate t.size 0) (by simp [List.map_map, Function.comp_def])
  have wf : (N.func skip).WF := toFunc_wf h0 hg ho
  have ip : (N.func skip).InPlaceOK := toFunc_inPlace h0 hg
  rw [C102_as_sequential wf ip ha _ (devKernels_fit sem _ _ _) impl ok hskip ⟨_, by simp [Network.func, toFunc]; rfl, rfl⟩ inputs hin m c tr hrun m c]
  exact ((C83_network_compiled N hN skip).2 a ha).2 sem inputs m c hin

/-- **C102, split networks** (C100). -/
theorem C102_split_network {tb : Table} {N N' : Network} (h : Relation.ReflTransGen (SplitStep tb) N N') (hN : N.OK) (skip : Nat → Bool) (a : ModuleAttrs)
    (ha : planMemory (N'.func skip) = some a)
    (F : Nat → Nat → Nat → List (List Byte) → (Int → Int → Px) → Px) (G : Nat → Px → Px → Px) (hF : Windowed F) (sem : Sem) (hm : Meaning tb F G sem)
    (impl : Nat → Impl)
    (ok : ImplOK (N'.func skip) (onData (N'.func skip) impl (devKernels sem (N'.compile skip).1.ops)) impl)
    (hskip : ∀ j, j < (N'.func skip).ops.length → impl j = .skip → ((N'.func skip).op j).operands = []) (inputs : List (List Byte))
    (hin : inputs.map List.length = N.inputs.map Ty.size) (m : Mem) (c : Env) (tr : List (List (List Byte)))
    (hrun : Run (N'.func skip) (onData (N'.func skip) impl (devKernels sem (N'.compile skip).1.ops)) impl a.offsets (N'.func skip).ops 0
      (loadInputs a.offsets inputs m) c tr) :
    tr.getLast? = some (N.result sem inputs) := by
  obtain ⟨h1, h2, -, h4⟩ := C100_split_network h hN
  rw [C102_network N' h1 skip a ha sem impl ok hskip inputs (by rw [h2]; exact hin) m c tr hrun, h4 F G hF sem hm inputs hin]

/-- **C100 with C94.** The split network with its constants in the weights file, planned and run in the arena, returns the results of the original one. -/
theorem C100_split_with_weights {tb : Table} {N N' : Network} (h : Relation.ReflTransGen (SplitStep tb) N N') (hN : N.OK) (skip : Nat → Bool) (cfg : WCfg)
    (calls order : List Nat) (consts : Nat → Weights.Const) (W : WFun) (hW : W = N'.withWeights skip cfg calls order consts) (hv : W.Visited) (hs : W.Stored) :
    (∀ v, W.func.Arena v → ∃ a, planMemory W.func = some a) ∧
    ∀ a, planMemory W.func = some a →
      Fits W.func a.offsets a.peakUsage ∧
      ∀ (F : Nat → Nat → Nat → List (List Byte) → (Int → Int → Px) → Px) (G : Nat → Px → Px → Px), Windowed F → ∀ (sem : Sem), Meaning tb F G sem →
      ∀ (inputs : List (List Byte)) (m : Mem) (c : Env), inputs.map List.length = N.inputs.map Ty.size →
        (arenaTrace W.func (W.kernels sem W.file) a.offsets W.func.ops 0 (loadInputs a.offsets inputs m) c).getLast? = some (N.result sem inputs) := by
  obtain ⟨h1, h2, -, h4⟩ := C100_split_network h hN
  obtain ⟨g1, g2⟩ := C94_network_with_weights N' h1 skip cfg calls order consts W hW hv hs
  refine ⟨g1, fun a ha => ⟨(g2 a ha).1, ?_⟩⟩
  intro F G hF sem hm inputs m c hin
  rw [(g2 a ha).2 sem inputs m c (by rw [h2]; exact hin), h4 F G hF sem hm inputs hin]

/-- **C102, quantised networks with weights** (C94): in every run the results are within the tolerances of the operators. -/
theorem C102_quantised_with_weights (R : Rt) (dom : MulArgs → Prop) (hR : R.OK dom) (N : QNetwork) (hN : N.OK R dom) (skip : Nat → Bool)
    (cfg : WCfg) (calls order : List Nat) (consts : Nat → Weights.Const) (W : WFun) (hW : W = (N.expand R).withWeights skip cfg calls order consts)
    (hv : W.Visited) (hs : W.Stored) (a : ModuleAttrs) (ha : planMemory W.func = some a) (impl : Nat → Impl)
    (ok : ImplOK W.func (onData W.func impl (W.kernels (N.sem R) W.file)) impl)
    (hskip : ∀ j, j < W.func.ops.length → impl j = .skip → (W.func.op j).operands = []) (inputs : List (List Byte))
    (hin : inputs.map List.length = N.inputs.map Ty.size) :
    ∃ vals : List (List Byte), vals.length = N.inputs.length + N.nodes.length ∧ vals.take N.inputs.length = inputs ∧
      vals.map List.length = N.types.map Ty.size ∧
      (∀ (j : Nat) (n : QNode), N.nodes[j]? = some n →
        n.Meets R (n.args.map fun v => (N.types.getD v ⟨[], 0⟩, vals.getD v [])) (vals.getD (N.inputs.length + j) [])) ∧
      ∀ (m : Mem) (c : Env) (tr : List (List (List Byte))),
        Run W.func (onData W.func impl (W.kernels (N.sem R) W.file)) impl a.offsets W.func.ops 0 (loadInputs a.offsets inputs m) c tr →
          tr.getLast? = some (N.outputs.map fun v => vals.getD v []) := by
  obtain ⟨vals, v1, v2, v3, v4, v5⟩ := C94_quantised_with_weights R dom hR N hN skip cfg calls order consts W hW hv hs a ha inputs hin
  refine ⟨vals, v1, v2, v3, v4, ?_⟩
  intro m c tr hrun
  have hok : W.OK := by
    subst hW
    exact Network.withWeights_ok (expand_values hR N hN inputs hin).1 skip cfg calls order consts hv hs
  rw [← v5 m c]
  apply C102_as_sequential (WFun.wf hok) (WFun.inPlace hok) ha _ (W.kernels_fit _ _) impl ok hskip ?_ inputs ?_ m c tr hrun
  · obtain ⟨pre, hp⟩ := W.last_item
    refine ⟨W.planned (.op W.ops.length), by show (List.map _ W.items).getLast? = _; rw [hp]; simp, ?_⟩
    simp [WFun.planned]
  · subst hW; exact hin

/-! ### Example: the network of `exF` -/

def exConcNet : Network where
  inputs := [⟨[8], 1⟩]
  nodes := [⟨.other false 0, [], ⟨[2], 1⟩⟩, ⟨.other false 1, [0, 1], ⟨[1, 2, 1, 2], 1⟩⟩, ⟨.other true 2, [2], ⟨[1, 2, 1, 2], 1⟩⟩]
  outputs := [3]

def exConcSem : Sem
  | 0, _ => [0, 0]
  | 1, ins => (imageKernel 2 1 2 exVal ins).headD []
  | _, ins => exLut (ins.headD [])

theorem exConcNet_func : exConcNet.func (fun _ => false) = Conc.exF := by decide

theorem exConcNet_ok : exConcNet.OK := by
  refine ⟨?_, by decide⟩
  refine ⟨by decide, ?_, by decide, ?_, by decide, ?_, ?_⟩
  all_goals first | trivial | (intro h; cases h)
  all_goals decide

theorem ImplOK.congr {f : Func} {k k' : Kernels} {impl : Nat → Impl} (h : ImplOK f k impl)
    (hk : ∀ j ins, j < f.ops.length → ins.length = (dataOperands (isScratch f impl) (f.op j)).length →
      (∀ (i v : Nat) (b : List Byte), (dataOperands (isScratch f impl) (f.op j))[i]? = some v → ins[i]? = some b → (∃ ps, impl j = .blocks ps) → (f.decl v).isConst = false → b.length = f.raw v) → k j ins = k' j ins) : ImplOK f k' impl := by
  refine ⟨h.notInPlace, ?_, h.scratchUse, h.scratchRoom, ?_⟩
  · intro j ps hj hi
    obtain ⟨n, h1, h2⟩ := h.blocks j ps hj hi
    refine ⟨n, h1, h2.sizes, h2.inside, h2.disjoint, h2.cover, ?_⟩
    intro val hval
    obtain ⟨out, ho, hb⟩ := h2.law val hval
    refine ⟨out, ?_, hb⟩
    rw [← hk j _ hj (by simp), ho]
    intro i v b hv hb _ hc
    rw [List.getElem?_map, hv] at hb
    have := Option.some.inj hb
    rw [← this, hval v (List.mem_of_getElem? hv) hc, h2.sizes v (List.mem_of_getElem? hv) hc]
  · intro j sc B ps hj hi
    obtain ⟨h1, h2⟩ := h.correct j sc B ps hj hi
    refine ⟨h1, ?_⟩
    intro ins i out p b hl ho
    rw [← hk j ins hj hl (by rintro _ _ _ _ _ ⟨ps', hp⟩; rw [hi] at hp; cases hp)] at ho
    exact h2 ins i out p b hl ho

theorem fit_one (x : List Byte) (i : Nat) : fit 1 ((x.drop i).take 1) = [x.getD i 0] := by
  rw [List.getD_eq_getElem?_getD]
  by_cases h : i < x.length
  · rw [List.drop_eq_getElem_cons h, List.getElem?_eq_getElem h]; rfl
  · rw [List.drop_eq_nil_of_le (by omega), List.getElem?_eq_none (by omega)]; simp [fit]

theorem bytes8 (x : List Byte) : bytesOf ⟨[8], 1⟩ (elemAt ⟨[8], 1⟩ x) = (List.range 8).map fun i => x.getD i 0 := by
  have : elemAt ⟨[8], 1⟩ x = fun idx => [x.getD (Tensor.ravel [8] idx) 0] := by
    funext idx
    unfold elemAt
    simp only [Nat.mul_one]
    exact fit_one _ _
  rw [this]
  rfl

theorem exConcNet_impl : ImplOK (exConcNet.func fun _ => false)
    (onData (exConcNet.func fun _ => false) exImpl (devKernels exConcSem (exConcNet.compile fun _ => false).1.ops)) exImpl := by
  rw [exConcNet_func]
  refine ImplOK.congr exImplOK ?_
  intro j ins hj hl hb
  match j, hj with
  | 0, _ =>
    have : ins = [] := List.length_eq_zero_iff.1 hl
    subst this
    decide +kernel
  | 1, _ =>
    obtain ⟨x, rfl⟩ : ∃ x, ins = [x] := List.length_eq_one_iff.1 hl
    show imageKernel 2 1 2 exVal [x] = [fit 4 (bytesOf ⟨[1, 2, 1, 2], 1⟩ (elemAt ⟨[1, 2, 1, 2], 1⟩
      ((imageKernel 2 1 2 exVal [bytesOf ⟨[8], 1⟩ (elemAt ⟨[8], 1⟩ x), bytesOf ⟨[2], 1⟩ (elemAt ⟨[2], 1⟩ [0, 0])]).headD [])))]
    rw [bytes8]
    rfl
  | 2, _ =>
    obtain ⟨x, rfl⟩ : ∃ x, ins = [x] := List.length_eq_one_iff.1 hl
    have := hb 0 2 x (by decide) rfl ⟨_, rfl⟩ (by decide)
    match x, this with
    | [a, b, c, d], _ => rfl
  | 3, _ => rfl

/-- A network with a scratch tensor and two threaded operators meets all hypotheses of `C102_network`. -/
theorem C102_network_example : ∃ a, planMemory (exConcNet.func fun _ => false) = some a ∧ exConcNet.OK ∧
    (∀ m c, ∃ tr, Run (exConcNet.func fun _ => false) (onData (exConcNet.func fun _ => false) exImpl
      (devKernels exConcSem (exConcNet.compile fun _ => false).1.ops)) exImpl a.offsets (exConcNet.func fun _ => false).ops 0
      (loadInputs a.offsets [[1, 2, 3, 4, 5, 6, 7, 8]] m) c tr) ∧
    ∀ m c tr, Run (exConcNet.func fun _ => false) (onData (exConcNet.func fun _ => false) exImpl
      (devKernels exConcSem (exConcNet.compile fun _ => false).1.ops)) exImpl a.offsets (exConcNet.func fun _ => false).ops 0
      (loadInputs a.offsets [[1, 2, 3, 4, 5, 6, 7, 8]] m) c tr → tr.getLast? = some [[246, 234, 222, 210]] := by
  obtain ⟨a, ha⟩ : ∃ a, planMemory (exConcNet.func fun _ => false) = some a := by
    rw [exConcNet_func]
    exact Option.isSome_iff_exists.1 (by decide +kernel)
  refine ⟨a, ha, exConcNet_ok, fun m c => C102_runs_exist _ _ _ _ _ _ _ _, ?_⟩
  intro m c tr h
  rw [C102_network exConcNet exConcNet_ok _ a ha exConcSem exImpl exConcNet_impl (by
    intro j hj hi
    rw [exConcNet_func] at hj ⊢
    match j, hj with
    | 0, _ => rfl
    | 1, _ => cases hi
    | 2, _ => cases hi
    | 3, _ => cases hi) _ (by decide) m c tr h]
  decide +kernel

end Verif.Net
