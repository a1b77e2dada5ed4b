import Verif.Weights.Props
import Verif.MemPlan.Props
/-!
C78, C79: models with several subgraphs (control flow).  `FlatBufferToMlir` makes one function of each subgraph; `WriteWeights` and
`PlanMemory` are passes on functions (`OperationPass<func::FuncOp>`), so the pass manager runs them once per function, in any order
(or in parallel), but they write one weights file and one set of attributes of the whole module.
-/
namespace Verif.Host.Subgraphs

/-! ### Weights -/
section weights
open Verif.Weights

/-- A function as `WriteWeights` sees it (see `Verif.Weights`): its constants, its operators, the order in which the loads are
visited. -/
structure WFunc where
  consts : Nat → Const
  ops : List (List Operand)
  order : List Nat

/-- Every load of the function is visited. -/
def WFunc.OK (f : WFunc) : Prop := ∀ o i k, at_ f.ops o i = .load k → k ∈ f.order

/-- The function after the pass. -/
def WFunc.result (ext : Bool) (f : WFunc) : St := run ext f.consts f.ops f.order

/-- `WriteWeights::runOnOperation` (xformer/Transforms/WriteWeights.cpp 140-166) for one function: `tensorsVec` is a local variable,
so addresses start at 0, and the file is written anew.  Modelled: binary file (not the array). -/
def writePass (ext : Bool) (_file : Option (List Byte)) (f : WFunc) : Option (List Byte) := some (flashFile (f.result ext).blobs)

/-- The weights file after the pass has run on the functions in the order `sched`. -/
def weightsFile (ext : Bool) (sched : List WFunc) : Option (List Byte) := sched.foldl (writePass ext) none

/-- Specification: every operand of `f` that was a loaded constant is now loaded from the file and gets the bytes of the constant. -/
def Finds (ext : Bool) (file : Option (List Byte)) (f : WFunc) : Prop :=
  ∀ o i k, at_ f.ops o i = .load k →
    ∃ b a s j, file = some b ∧ at_ (f.result ext).ops o i = .weights a s j ∧ readWeights b a s j = constBytes (f.consts k)

theorem weightsFile_last (ext : Bool) (sched : List WFunc) (f : WFunc) :
    weightsFile ext (sched ++ [f]) = some (flashFile (f.result ext).blobs) := by
  simp [weightsFile, writePass]

/-- **C78, proved part** The function that is processed last finds all its weights; in particular the only function of a model
does. -/
theorem C78_last_function_partial (ext : Bool) (sched : List WFunc) (f : WFunc) (hf : f.OK) :
    Finds ext (weightsFile ext (sched ++ [f])) f := by
  intro o i k hk
  rw [weightsFile_last]
  have h := (C24_weights_found ext f.consts f.ops f.order hf o i).2
  rw [hk] at h
  obtain ⟨a, s, j, h1, _, _, h2, _⟩ := h
  exact ⟨_, a, s, j, rfl, h1, h2⟩

/-- One operator that loads one constant. -/
def oneLoad (data : List Byte) : WFunc := ⟨fun _ => .dense data, [[.load 0]], [0]⟩

/-- A function without loads. -/
def noLoad : WFunc := ⟨fun _ => .dense [], [[.other]], []⟩

theorem oneLoad_ok (data : List Byte) : (oneLoad data).OK := by
  intro o i k h
  rcases o with _ | o
  · rcases i with _ | i
    · simp only [oneLoad, at_] at h ⊢
      simp at h
      simp [h.symm]
    · simp [oneLoad, at_] at h
  · simp [oneLoad, at_] at h

/-- **C78, refuted part** With two functions whose constants differ, whatever the order, one of them does not find its weights. -/
theorem C78_two_functions_refuted (sched : List WFunc) (h : sched.Perm [oneLoad [1, 2], oneLoad [3, 4]]) :
    ∃ f ∈ sched, f.OK ∧ ¬ Finds false (weightsFile false sched) f := by
  have hcases : sched = [oneLoad [1, 2], oneLoad [3, 4]] ∨ sched = [oneLoad [3, 4], oneLoad [1, 2]] := by
    match sched, h with
    | [], h => exact absurd h.length_eq (by simp)
    | [_], h => exact absurd h.length_eq (by simp)
    | [x, y], h =>
      have hx : x = oneLoad [1, 2] ∨ x = oneLoad [3, 4] := by
        have := h.subset (List.mem_cons_self ..); simpa using this
      rcases hx with rfl | rfl
      · have := List.Perm.cons_inv h
        rw [List.perm_singleton] at this
        exact Or.inl (by rw [this])
      · have := List.Perm.cons_inv (h.trans (List.Perm.swap _ _ _))
        rw [List.perm_singleton] at this
        exact Or.inr (by rw [this])
    | _ :: _ :: _ :: _, h => exact absurd h.length_eq (by simp)
  rcases hcases with rfl | rfl
  · refine ⟨_, List.mem_cons_self .., oneLoad_ok _, fun hf => ?_⟩
    obtain ⟨b, a, s, j, h1, h2, h3⟩ := hf 0 0 0 (by rfl)
    have e1 : weightsFile false [oneLoad [1, 2], oneLoad [3, 4]] = some [3, 4] := by decide
    have e2 : at_ ((oneLoad [1, 2]).result false).ops 0 0 = .weights 0 [2] 0 := by decide
    rw [e1] at h1
    rw [e2] at h2
    injection h1 with h1
    injection h2 with ha hs hj
    subst h1 ha hs hj
    exact absurd h3 (by decide)
  · refine ⟨_, List.mem_cons_self .., oneLoad_ok _, fun hf => ?_⟩
    obtain ⟨b, a, s, j, h1, h2, h3⟩ := hf 0 0 0 (by rfl)
    have e1 : weightsFile false [oneLoad [3, 4], oneLoad [1, 2]] = some [1, 2] := by decide
    have e2 : at_ ((oneLoad [3, 4]).result false).ops 0 0 = .weights 0 [2] 0 := by decide
    rw [e1] at h1
    rw [e2] at h2
    injection h1 with h1
    injection h2 with ha hs hj
    subst h1 ha hs hj
    exact absurd h3 (by decide)

/-- **C78, refuted part** A function without any constant is enough: processed last, it leaves an empty file. -/
theorem C78_empty_file_refuted : weightsFile false [oneLoad [1, 2], noLoad] = some [] := by decide

end weights

/-! ### Memory plan -/
section plan
open Verif.MemPlan

/-- A function as `PlanMemory` sees it. -/
structure PFunc where
  func : Func
  /-- contains an LSTM, a while, an if or a call-once -/
  unsupported : Bool
deriving DecidableEq

/-- `PlanMemory::runOnOperation` (xformer/Transforms/PlanMemory.cpp 28-62) for one function: the attributes of the module are
replaced, except by functions with unsupported operators.  A function for which the planner is undefined leaves them (none of the
theorems uses this case). -/
def planPass (attrs : Option ModuleAttrs) (f : PFunc) : Option ModuleAttrs :=
  if f.unsupported then attrs else (planMemory f.func).or attrs

/-- The attributes of the module after the pass has run on the functions in the order `sched`; `main` writes them to the model as the
plan of subgraph 0 (XCoreOptMain.cpp 592-632). -/
def moduleAttrs (sched : List PFunc) : Option ModuleAttrs := sched.foldl planPass none

/-- Specification: what the metadata says about the main function.  Either there is no plan, or it has one entry per tensor and the
model runs correctly in it. -/
def PlanOf (main : Func) (a : Option ModuleAttrs) : Prop :=
  ∀ x, a = some x → x.offsets.length = main.numValues ∧ ArenaRunsCorrectly main x.offsets ∧ Fits main x.offsets x.peakUsage

theorem planMemory_of {f : Func} (wf : f.WF) (ip : f.InPlaceOK) {a : ModuleAttrs} (h : planMemory f = some a) :
    a.offsets.length = f.numValues ∧ ArenaRunsCorrectly f a.offsets ∧ Fits f a.offsets a.peakUsage := by
  have h' := C06_chosen_plan wf ip h
  refine ⟨?_, h'.1, h'.2.1⟩
  unfold planMemory at h
  split at h
  · rename_i w wo hw hwo
    simp only [Option.some.injEq] at h
    subst h
    simp only
    split
    · exact (C03_plan_shape wf ip hw).1
    · exact (C03_plan_shape wf ip hwo).1
  · simp at h

/-- **C79, proved part** If the main function can be planned and no function after it can, or if no function can, then the plan in the
model is one for the main function (or there is none). -/
theorem C79_main_last_partial (before after_ : List PFunc) (main : PFunc) (wf : main.func.WF) (ip : main.func.InPlaceOK)
    (ha : ∀ f ∈ after_, f.unsupported = true)
    (hm : (main.unsupported = false ∧ ∃ a, planMemory main.func = some a) ∨ ∀ f ∈ main :: before, f.unsupported = true) :
    PlanOf main.func (moduleAttrs (before ++ main :: after_)) := by
  have skip : ∀ (l : List PFunc) (a : Option ModuleAttrs), (∀ f ∈ l, f.unsupported = true) → l.foldl planPass a = a := by
    intro l
    induction l with
    | nil => intro a _; rfl
    | cons f t ih =>
      intro a h
      rw [List.foldl_cons, ih _ fun g hg => h g (List.mem_cons_of_mem _ hg)]
      simp [planPass, h f (List.mem_cons_self ..)]
  have e : moduleAttrs (before ++ main :: after_) = planPass (moduleAttrs before) main := by
    unfold moduleAttrs
    rw [List.foldl_append, List.foldl_cons, skip after_ _ ha]
  intro x hx
  rw [e] at hx
  rcases hm with ⟨hs, a, hp⟩ | hu
  · simp only [planPass, hs, hp, Bool.false_eq_true, if_false, Option.some_or, Option.some.injEq] at hx
    subst hx
    exact planMemory_of wf ip hp
  · have h0 : moduleAttrs before = none := skip before none fun f hf => hu f (List.mem_cons_of_mem _ hf)
    simp [planPass, hu main (List.mem_cons_self ..), h0] at hx

/-- A loop: the main function contains a `while`, whose body is a function of its own. -/
def loopMain : PFunc := ⟨exampleFunc, true⟩
def loopBody : PFunc := ⟨⟨[8], [⟨false, false, false, [0], [8]⟩, ⟨false, true, false, [1], []⟩]⟩, false⟩

/-- **C79, refuted part** The main function of a model with a loop is not planned, but its body is, and that plan is written into the
model as the plan of the main function, in either order. -/
theorem C79_loop_refuted :
    (∃ a, moduleAttrs [loopMain, loopBody] = some a ∧ planMemory loopBody.func = some a ∧ a.offsets.length ≠ loopMain.func.numValues) ∧
      moduleAttrs [loopBody, loopMain] = moduleAttrs [loopMain, loopBody] ∧
      ¬ PlanOf loopMain.func (moduleAttrs [loopMain, loopBody]) := by
  have e : moduleAttrs [loopMain, loopBody] = planMemory loopBody.func := by
    show (planMemory loopBody.func).or none = _
    simp
  have hp : planMemory loopBody.func = some ⟨[8, 0], 16, 1⟩ := by decide +kernel
  have hl : (⟨[8, 0], 16, 1⟩ : ModuleAttrs).offsets.length ≠ loopMain.func.numValues := by decide
  refine ⟨⟨_, by rw [e, hp], hp, hl⟩, ?_, ?_⟩
  · rw [e]
    show (planMemory loopBody.func).or none = _
    simp
  · intro h
    exact hl (h _ (by rw [e, hp])).1

/-- A model with one function (hypotheses of `C79_main_last_partial`). -/
example : PlanOf exampleFunc (moduleAttrs [⟨exampleFunc, false⟩]) :=
  C79_main_last_partial [] [] ⟨exampleFunc, false⟩ exampleFunc_wf exampleFunc_inPlace (by simp)
    (Or.inl ⟨rfl, ⟨[24, 168, -1, 0, 0, 128, 208, 128], 280, 2⟩, by decide +kernel⟩)

end plan

end Verif.Host.Subgraphs
