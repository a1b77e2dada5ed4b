import Verif.Host.Config
import Mathlib.Data.List.Infix
import Mathlib.Data.List.Nodup
/-!
C75, C76, C77: the compiler's `main` (xformer/XCoreOptMain.cpp) as a sequence of checks and file writes.  What the files hold is
the subject of other properties; here the question is which files change, in what order, and what an interrupted run leaves.

Contract: opening an output file truncates it; its data then arrives in any number of pieces (`openOutputFile` of LLVM is a
`ToolOutputFile`).  A run may be killed between any two of these events.
-/
namespace Verif.Host.Driver

open Verif.Host.Config (isCompatibleVersion)

abbrev Name := List Char
abbrev Bytes := List Nat
abbrev FS := Name → Option Bytes

/-! ### Contract: files -/

inductive Event
  | trunc (n : Name)
  | app (n : Name) (piece : Bytes)

/-- Effect of one event on the files. -/
def Event.apply (fs : FS) : Event → FS
  | .trunc n => fun x => if x = n then some [] else fs x
  | .app n p => fun x => if x = n then some ((fs n).getD [] ++ p) else fs x

/-- The files after some events. -/
def after (fs : FS) (es : List Event) : FS := es.foldl Event.apply fs

/-! ### Model -/

/-- The options that `main` looks at (XCoreOptMain.cpp 36-177, 381-420).  The counts are `getNumOccurrences()`. -/
structure Opts where
  help : Bool := false
  memAnalysis : Bool := false
  argc : Nat := 3
  mlirIO : Bool := false
  output : Name := []
  asArray : Bool := false
  asArrayCount : Nat := 0
  extMem : Bool := false
  extMemCount : Nat := 0
  largerCount : Nat := 0
  weightsFile : Name := []
  targetSizeCount : Nat := 0
  bottomOps : List Nat := []
  topOps : List Nat := []
  numSplits : List Nat := []
  threads : Nat := 1
  tflmVersion : List Char := []
  nnVersion : List Char := []

/-- Major and minor versions of the two libraries (`lib_tflite_micro/api/version.h`, `lib_nn/api/version.h`). -/
structure Libs where
  tflm : Int × Int
  nn : Int × Int

/-- Everything the outcome depends on besides the options: whether the input can be read, whether the passes before and after the
weights are written succeed, the data to write, and which files can be opened for writing. -/
structure World where
  reads : Bool
  /-- the pipeline before operator splitting, and the split analysis -/
  prePasses : Bool
  analysis : Bool
  passesBeforeWeights : Bool
  passesAfterWeights : Bool
  weights : List Bytes
  arraySource : Bytes
  arrayHeader : Bytes
  flatbuffer : Option Bytes
  tflmc : Option (Bytes × Bytes)
  opens : Name → Bool
  pieces : Bytes → List Bytes
  pieces_ok : ∀ d, (pieces d).flatten = d

inductive Stage
  | check (ok : Bool)
  | write (n : Name) (d : Bytes)

/-- `writeDataToFile` (xformer/Utils/FileIO.cpp 14-23). -/
def writeEvents (w : World) (n : Name) (d : Bytes) : List Event := .trunc n :: (w.pieces d).map (.app n)

/-- A failed check or a file that cannot be opened ends the run with exit code 1. -/
def exec (w : World) : List Stage → Nat × List Event
  | [] => (0, [])
  | .check ok :: r => if ok then exec w r else (1, [])
  | .write n d :: r => if w.opens n then ((exec w r).1, writeEvents w n d ++ (exec w r).2) else (1, [])

def dotC : Name := ['.', 'c']
def dotH : Name := ['.', 'h']
def dotCpp : Name := ['.', 'c', 'p', 'p']

/-- `writeWeightsToFile` (FileIO.cpp 25-88). -/
def weightStages (o : Opts) (w : World) : List Stage :=
  if o.asArray then [.write (o.weightsFile ++ dotC) w.arraySource, .write (o.weightsFile ++ dotH) w.arrayHeader]
  else [.write o.weightsFile w.weights.flatten]

/-- `runPassPipeline` (XCoreOptMain.cpp 181-340), without an explicit pipeline on the command line; the order of the passes is that
of xformer/Transforms/Passes.cpp 22-58: the weights are written by a pass, before the memory plan and the translation to custom
operators. -/
def passStages (o : Opts) (w : World) : List Stage :=
  .check w.prePasses ::
    (if o.memAnalysis then [.check w.analysis]
     else .check w.passesBeforeWeights :: (if o.weightsFile = [] then [] else weightStages o w) ++ [.check w.passesAfterWeights])

/-- The checks on the options (XCoreOptMain.cpp 450-507). -/
def optionStages (o : Opts) (l : Libs) : List Stage :=
  [.check !(o.memAnalysis && decide (o.argc > 3)),
   .check !(o.memAnalysis && decide (o.output ≠ [])),
   .check !(!o.mlirIO && !o.memAnalysis && decide (o.output = [])),
   .check !(decide (o.extMemCount > 0) && decide (o.asArrayCount = 0)),
   .check !(decide (o.largerCount > 0) && decide (o.weightsFile = [])),
   .check !(decide (o.targetSizeCount > 0) && (decide (o.bottomOps ≠ []) || decide (o.topOps ≠ []) || decide (o.numSplits ≠ []))),
   .check !(decide (o.threads < 1) || decide (o.threads > 5)),
   .check (isCompatibleVersion o.tflmVersion l.tflm.1 l.tflm.2),
   .check (isCompatibleVersion o.nnVersion l.nn.1 l.nn.2)]

/-- Writing the model and the sources that tflmc makes from it (XCoreOptMain.cpp 564-671). -/
def outputStages (o : Opts) (w : World) : List Stage :=
  if o.output = [] then []
  else match w.flatbuffer with
    | none => [.check false]
    | some fb =>
      .write o.output fb :: (match w.tflmc with
        | none => [.check false]
        | some sh => [.write (o.output ++ dotCpp) sh.1, .write (o.output ++ dotH) sh.2])

/-- `main` (XCoreOptMain.cpp 378-675): exit code and events. -/
def main (o : Opts) (l : Libs) (w : World) : Nat × List Event :=
  if o.help then (0, [])
  else exec w (optionStages o l ++ .check w.reads :: (passStages o w ++ outputStages o w))

/-! ### Specification -/

/-- Rules for the command line. -/
inductive Violates (o : Opts) (l : Libs) : Prop
  /-- `--xcore-run-memory-analysis` stands alone -/
  | analysisAlone : o.memAnalysis = true → 3 < o.argc → Violates o l
  | analysisOutput : o.memAnalysis = true → o.output ≠ [] → Violates o l
  /-- an output name is needed to compile -/
  | noOutput : o.mlirIO = false → o.memAnalysis = false → o.output = [] → Violates o l
  | externalWithoutArray : 0 < o.extMemCount → o.asArrayCount = 0 → Violates o l
  | limitWithoutFile : 0 < o.largerCount → o.weightsFile = [] → Violates o l
  | targetWithManual : 0 < o.targetSizeCount → (o.bottomOps ≠ [] ∨ o.topOps ≠ [] ∨ o.numSplits ≠ []) → Violates o l
  | threadCount : ¬ (1 ≤ o.threads ∧ o.threads ≤ 5) → Violates o l
  | tflmVersion : isCompatibleVersion o.tflmVersion l.tflm.1 l.tflm.2 = false → Violates o l
  | nnVersion : isCompatibleVersion o.nnVersion l.nn.1 l.nn.2 = false → Violates o l

/-- The files that belong to the weights, with the contents they should get, in the order in which they are written. -/
def weightFiles (o : Opts) (w : World) : List (Name × Bytes) :=
  if o.memAnalysis = true ∨ o.weightsFile = [] then []
  else if o.asArray = true then [(o.weightsFile ++ ".c".toList, w.arraySource), (o.weightsFile ++ ".h".toList, w.arrayHeader)]
  else [(o.weightsFile, w.weights.flatten)]

/-- The model and its sources. -/
def modelFiles (o : Opts) (fb src hdr : Bytes) : List (Name × Bytes) :=
  [(o.output, fb), (o.output ++ ".cpp".toList, src), (o.output ++ ".h".toList, hdr)]

/-- All names a run may write. -/
def names (o : Opts) : List Name :=
  (if o.memAnalysis = true ∨ o.weightsFile = [] then []
   else if o.asArray = true then [o.weightsFile ++ ".c".toList, o.weightsFile ++ ".h".toList] else [o.weightsFile]) ++
  (if o.output = [] then [] else [o.output, o.output ++ ".cpp".toList, o.output ++ ".h".toList])

/-! ### Proofs -/

theorem after_append (fs : FS) (a b : List Event) : after fs (a ++ b) = after (after fs a) b := by
  simp [after, List.foldl_append]

theorem exec_checks_false (w : World) (pre : List Bool) (r : List Stage) (h : false ∈ pre) :
    exec w (pre.map .check ++ r) = (1, []) := by
  induction pre with
  | nil => simp at h
  | cons b t ih =>
    cases b with
    | false => rfl
    | true => simp only [List.map_cons, List.cons_append, exec, if_true]; exact ih (by simpa using h)

theorem exec_checks_true (w : World) (pre : List Bool) (r : List Stage) (h : false ∉ pre) :
    exec w (pre.map .check ++ r) = exec w r := by
  induction pre with
  | nil => rfl
  | cons b t ih =>
    cases b with
    | false => simp at h
    | true => simp only [List.map_cons, List.cons_append, exec, if_true]; exact ih (by simpa using h)

/-- Truth values of the option checks. -/
def optionChecks (o : Opts) (l : Libs) : List Bool :=
  (optionStages o l).map fun s => match s with | .check b => b | .write _ _ => true

theorem optionStages_eq (o : Opts) (l : Libs) : optionStages o l = (optionChecks o l).map .check := rfl

theorem violates_iff (o : Opts) (l : Libs) : Violates o l ↔ false ∈ optionChecks o l := by
  constructor
  · intro h
    cases h with
    | analysisAlone a b => simp [optionChecks, optionStages, a, b]
    | analysisOutput a b => simp [optionChecks, optionStages, a, b]
    | noOutput a b c => simp [optionChecks, optionStages, a, b, c]
    | externalWithoutArray a b => simp [optionChecks, optionStages, a, b]
    | limitWithoutFile a b => simp [optionChecks, optionStages, a, b]
    | targetWithManual a b =>
      simp only [optionChecks, optionStages, List.map_cons, List.map_nil, List.mem_cons]
      right; right; right; right; right; left
      rcases b with b | b | b <;> simp [a, b]
    | threadCount a =>
      simp only [optionChecks, optionStages, List.map_cons, List.map_nil, List.mem_cons]
      right; right; right; right; right; right; left
      rcases Nat.lt_or_ge o.threads 1 with b | b
      · simp [b]
      · have : 5 < o.threads := by omega
        simp [this]
    | tflmVersion a => simp [optionChecks, optionStages, a]
    | nnVersion a => simp [optionChecks, optionStages, a]
  · intro h
    simp only [optionChecks, optionStages, List.map_cons, List.map_nil, List.mem_cons, List.not_mem_nil, or_false] at h
    rcases h with h | h | h | h | h | h | h | h | h
    · simp at h; exact .analysisAlone h.1 h.2
    · simp at h; exact .analysisOutput h.1 h.2
    · simp at h; exact .noOutput h.1.1 h.1.2 h.2
    · simp at h; exact .externalWithoutArray h.1 h.2
    · simp at h; exact .limitWithoutFile h.1 h.2
    · simp at h; exact .targetWithManual h.1 (by tauto)
    · simp at h; exact .threadCount (by omega)
    · exact .tflmVersion h.symm
    · exact .nnVersion h.symm

/-- The writes of a list of stages up to the first check that fails. -/
def writesOf : List Stage → List (Name × Bytes)
  | [] => []
  | .check ok :: r => if ok then writesOf r else []
  | .write n d :: r => (n, d) :: writesOf r

theorem exec_prefix (w : World) (ss : List Stage) :
    (exec w ss).2 <+: (writesOf ss).flatMap fun nd => writeEvents w nd.1 nd.2 := by
  induction ss with
  | nil => simp [exec, writesOf]
  | cons s r ih =>
    cases s with
    | check ok =>
      cases ok with
      | false => simp [exec, writesOf]
      | true => simpa [exec, writesOf] using ih
    | write n d =>
      simp only [exec, writesOf, List.flatMap_cons]
      split
      · exact (List.prefix_append_right_inj _).2 ih
      · exact List.nil_prefix

theorem exec_zero (w : World) (ss : List Stage) (h : (exec w ss).1 = 0) :
    (exec w ss).2 = (writesOf ss).flatMap (fun nd => writeEvents w nd.1 nd.2) ∧ Stage.check false ∉ ss := by
  induction ss with
  | nil => simp [exec, writesOf]
  | cons s r ih =>
    cases s with
    | check ok =>
      cases ok with
      | false => simp [exec] at h
      | true =>
        simp only [exec, if_true] at h
        simpa [exec, writesOf] using ih h
    | write n d =>
      simp only [exec] at h ⊢
      split at h
      · rename_i ho
        rw [if_pos ho]
        obtain ⟨a, b⟩ := ih h
        refine ⟨?_, by simpa using b⟩
        simp only [writesOf, List.flatMap_cons]
        rw [a]
      · simp at h

theorem exec_ok (w : World) (ss : List Stage) (hc : Stage.check false ∉ ss) (ho : ∀ nd ∈ writesOf ss, w.opens nd.1 = true) :
    (exec w ss).1 = 0 := by
  induction ss with
  | nil => rfl
  | cons s r ih =>
    cases s with
    | check ok =>
      cases ok with
      | false => simp at hc
      | true =>
        simp only [exec, if_true]
        exact ih (by simpa using hc) (by simpa [writesOf] using ho)
    | write n d =>
      simp only [writesOf, List.mem_cons, forall_eq_or_imp] at ho
      simp only [exec, ho.1, if_true]
      exact ih (by simpa using hc) ho.2

/-- Writing one file, stopped anywhere. -/
theorem file_partial (w : World) (fs : FS) (n : Name) (d : Bytes) (p : List Event) (h : p <+: writeEvents w n d) :
    (∀ x, x ≠ n → after fs p x = fs x) ∧ (after fs p n = fs n ∨ ∃ c, c <+: d ∧ after fs p n = some c) := by
  have key : ∀ (ps : List Bytes) (fs : FS) (q : List Event) (acc : Bytes), fs n = some acc → q <+: ps.map (Event.app n) →
      (∀ x, x ≠ n → after fs q x = fs x) ∧ ∃ c, c <+: ps.flatten ∧ after fs q n = some (acc ++ c) := by
    intro ps
    induction ps with
    | nil =>
      intro fs q acc hf hq
      simp only [List.map_nil, List.prefix_nil] at hq
      subst hq
      exact ⟨fun x _ => rfl, [], by simp, by simpa [after] using hf⟩
    | cons b t ih =>
      intro fs q acc hf hq
      cases q with
      | nil => exact ⟨fun x _ => rfl, [], by simp, by simpa [after] using hf⟩
      | cons e q' =>
        simp only [List.map_cons, List.cons_prefix_cons] at hq
        obtain ⟨he, hq'⟩ := hq
        subst he
        have h1 : Event.apply fs (.app n b) n = some (acc ++ b) := by simp [Event.apply, hf]
        obtain ⟨a1, c, c1, c2⟩ := ih (Event.apply fs (.app n b)) q' (acc ++ b) h1 hq'
        refine ⟨fun x hx => ?_, b ++ c, ?_, ?_⟩
        · show after (Event.apply fs (.app n b)) q' x = _
          rw [a1 x hx]; simp [Event.apply, hx]
        · simpa using c1
        · show after (Event.apply fs (.app n b)) q' n = _
          rw [c2, List.append_assoc]
  cases p with
  | nil => exact ⟨fun x _ => rfl, Or.inl rfl⟩
  | cons e q =>
    simp only [writeEvents, List.cons_prefix_cons] at h
    obtain ⟨he, hq⟩ := h
    subst he
    obtain ⟨a1, c, c1, c2⟩ := key (w.pieces d) (Event.apply fs (.trunc n)) q [] (by simp [Event.apply]) hq
    rw [w.pieces_ok] at c1
    refine ⟨fun x hx => ?_, Or.inr ⟨c, c1, by simpa [after] using c2⟩⟩
    show after (Event.apply fs (.trunc n)) q x = _
    rw [a1 x hx]; simp [Event.apply, hx]

theorem file_done (w : World) (fs : FS) (n : Name) (d : Bytes) :
    (∀ x, x ≠ n → after fs (writeEvents w n d) x = fs x) ∧ after fs (writeEvents w n d) n = some d := by
  refine ⟨(file_partial w fs n d _ (List.prefix_refl _)).1, ?_⟩
  have key : ∀ (ps : List Bytes) (fs : FS) (acc : Bytes), fs n = some acc →
      after fs (ps.map (Event.app n)) n = some (acc ++ ps.flatten) := by
    intro ps
    induction ps with
    | nil => intro fs acc hf; simpa [after] using hf
    | cons b t ih =>
      intro fs acc hf
      show after (Event.apply fs (.app n b)) (t.map (Event.app n)) n = _
      rw [ih _ (acc ++ b) (by simp [Event.apply, hf])]
      simp
  show after (Event.apply fs (.trunc n)) ((w.pieces d).map (Event.app n)) n = _
  rw [key _ _ [] (by simp [Event.apply]), w.pieces_ok]
  simp

/-- Writing several files with different names, stopped anywhere: some of them, in order, are complete, the next one is as before or
has the beginning of its data, and nothing else has changed. -/
theorem files_partial (w : World) (ws : List (Name × Bytes)) (hn : (ws.map Prod.fst).Nodup) (fs : FS) (p : List Event)
    (h : p <+: ws.flatMap fun nd => writeEvents w nd.1 nd.2) :
    ∃ a b, ws = a ++ b ∧ (∀ nd ∈ a, after fs p nd.1 = some nd.2) ∧
      (∀ x, x ∉ a.map Prod.fst → (∀ nd, b.head? = some nd → x ≠ nd.1) → after fs p x = fs x) ∧
      ∀ nd, b.head? = some nd → after fs p nd.1 = fs nd.1 ∨ ∃ c, c <+: nd.2 ∧ after fs p nd.1 = some c := by
  induction ws generalizing fs p with
  | nil =>
    simp only [List.flatMap_nil, List.prefix_nil] at h
    subst h
    exact ⟨[], [], rfl, by simp, fun x _ _ => rfl, by simp⟩
  | cons nd ws ih =>
    simp only [List.flatMap_cons] at h
    simp only [List.map_cons, List.nodup_cons] at hn
    rcases (List.prefix_append (writeEvents w nd.1 nd.2) (ws.flatMap fun nd => writeEvents w nd.1 nd.2)) with ⟨_, _⟩
    rcases List.prefix_or_prefix_of_prefix h (List.prefix_append _ _) with hp | hp
    · obtain ⟨u, v⟩ := file_partial w fs nd.1 nd.2 p hp
      refine ⟨[], nd :: ws, rfl, by simp, ?_, ?_⟩
      · intro x _ hx; exact u x (hx nd rfl)
      · intro e he; simp only [List.head?_cons, Option.some.injEq] at he; subst he; exact v
    · obtain ⟨q, rfl⟩ := hp
      rw [List.prefix_append_right_inj] at h
      obtain ⟨u, v⟩ := file_done w fs nd.1 nd.2
      obtain ⟨a, b, hab, h1, h2, h3⟩ := ih hn.2 (after fs (writeEvents w nd.1 nd.2)) q h
      have hnb : ∀ e ∈ ws, e.1 ≠ nd.1 := fun e he hc => hn.1 (hc ▸ List.mem_map_of_mem he)
      refine ⟨nd :: a, b, by rw [hab]; rfl, ?_, ?_, ?_⟩
      · intro e he
        rw [after_append]
        rcases List.mem_cons.1 he with rfl | he
        · rw [h2 e.1]
          · exact v
          · intro hc
            obtain ⟨e', he', hee⟩ := List.mem_map.1 hc
            exact hnb e' (by rw [hab]; exact List.mem_append_left _ he') hee
          · intro e' he' hc
            exact hnb e' (by rw [hab]; exact List.mem_append_right _ (List.mem_of_mem_head? he')) hc.symm
        · exact h1 e he
      · intro x hx hb
        simp only [List.map_cons, List.mem_cons, not_or] at hx
        rw [after_append, h2 x hx.2 hb, u x hx.1]
      · intro e he
        rw [after_append]
        have := hnb e (by rw [hab]; exact List.mem_append_right _ (List.mem_of_mem_head? he))
        rcases h3 e he with g | g
        · left; rw [g, u _ this]
        · right; exact g

/-- What a run writes at most. -/
def planned (o : Opts) (w : World) : List (Name × Bytes) :=
  weightFiles o w ++ (if o.output = [] then [] else match w.flatbuffer with
    | none => []
    | some fb => (o.output, fb) :: match w.tflmc with
      | none => []
      | some sh => [(o.output ++ ".cpp".toList, sh.1), (o.output ++ ".h".toList, sh.2)])

theorem writesOf_append_prefix (a b : List Stage) : writesOf (a ++ b) <+: writesOf a ++ writesOf b := by
  induction a with
  | nil => simp [writesOf]
  | cons s r ih =>
    cases s with
    | check ok =>
      cases ok with
      | false => simp [writesOf]
      | true => simpa [writesOf] using ih
    | write n d => simpa [writesOf] using ih

theorem writesOf_outputStages (o : Opts) (w : World) :
    writesOf (outputStages o w) = (if o.output = [] then [] else match w.flatbuffer with
      | none => []
      | some fb => (o.output, fb) :: match w.tflmc with
        | none => []
        | some sh => [(o.output ++ ".cpp".toList, sh.1), (o.output ++ ".h".toList, sh.2)]) := by
  unfold outputStages
  split
  · rfl
  · cases w.flatbuffer with
    | none => rfl
    | some fb => cases w.tflmc <;> rfl

theorem writesOf_passStages (o : Opts) (w : World) : writesOf (passStages o w) <+: weightFiles o w := by
  unfold passStages weightFiles
  cases w.prePasses with
  | false => simp [writesOf]
  | true =>
    cases hm : o.memAnalysis with
    | true => cases w.analysis <;> simp [writesOf]
    | false =>
      cases w.passesBeforeWeights with
      | false => simp [writesOf]
      | true =>
        by_cases hw : o.weightsFile = []
        · cases w.passesAfterWeights <;> simp [writesOf, hw]
        · cases ha : o.asArray <;> cases w.passesAfterWeights <;>
            simp [writesOf, hw, weightStages, ha, dotC, dotH]

theorem writesOf_passStages_eq (o : Opts) (w : World) (h : Stage.check false ∉ passStages o w) :
    writesOf (passStages o w) = weightFiles o w := by
  unfold passStages at h ⊢
  unfold weightFiles
  cases hp : w.prePasses with
  | false => simp [hp] at h
  | true =>
    cases hm : o.memAnalysis with
    | true => cases w.analysis <;> simp [writesOf]
    | false =>
      cases hb : w.passesBeforeWeights with
      | false => simp [hm, hb] at h
      | true =>
        by_cases hw : o.weightsFile = []
        · cases w.passesAfterWeights <;> simp [writesOf, hw]
        · cases ha : o.asArray <;> cases w.passesAfterWeights <;>
            simp [writesOf, hw, weightStages, ha, dotC, dotH]

theorem writesOf_checks (pre : List Bool) (r : List Stage) : writesOf (pre.map .check ++ r) <+: writesOf r := by
  induction pre with
  | nil => simp
  | cons b t ih =>
    cases b with
    | false => simp [writesOf]
    | true => simpa [writesOf] using ih

theorem flatMap_prefix {α β : Type} (f : α → List β) {a b : List α} (h : a <+: b) : a.flatMap f <+: b.flatMap f := by
  obtain ⟨c, rfl⟩ := h
  rw [List.flatMap_append]
  exact List.prefix_append _ _

/-- A prefix of a prefix of a product: `writesOf (a ++ b)` when the writes of `a` are a beginning of `x`. -/
theorem writesOf_append_le (a b : List Stage) (x : List (Name × Bytes)) (hx : writesOf a <+: x)
    (heq : Stage.check false ∉ a → writesOf a = x) : writesOf (a ++ b) <+: x ++ writesOf b := by
  by_cases hc : Stage.check false ∈ a
  · have : writesOf (a ++ b) = writesOf a := by
      clear hx heq
      induction a with
      | nil => simp at hc
      | cons s r ih =>
        cases s with
        | check ok =>
          cases ok with
          | false => rfl
          | true => simp only [List.cons_append, writesOf, if_true]; exact ih (by simpa using hc)
        | write n d => simp only [List.cons_append, writesOf]; rw [ih (by simpa using hc)]
    rw [this]
    exact hx.trans (List.prefix_append _ _)
  · rw [← heq hc]; exact writesOf_append_prefix a b

theorem main_prefix (o : Opts) (l : Libs) (w : World) :
    (main o l w).2 <+: (planned o w).flatMap fun nd => writeEvents w nd.1 nd.2 := by
  unfold main
  split
  · exact List.nil_prefix
  · refine (exec_prefix w _).trans (flatMap_prefix _ ?_)
    rw [optionStages_eq]
    refine (writesOf_checks _ _).trans ?_
    cases w.reads with
    | false => simp [writesOf]
    | true =>
      simp only [writesOf, if_true]
      unfold planned
      rw [← writesOf_outputStages o w]
      exact writesOf_append_le _ _ _ (writesOf_passStages o w) (writesOf_passStages_eq o w)

theorem planned_names (o : Opts) (w : World) : (planned o w).map Prod.fst <+: names o := by
  unfold planned names weightFiles
  rw [List.map_append]
  have e : (if o.memAnalysis = true ∨ o.weightsFile = [] then ([] : List (Name × Bytes))
      else if o.asArray = true then [(o.weightsFile ++ ".c".toList, w.arraySource), (o.weightsFile ++ ".h".toList, w.arrayHeader)]
      else [(o.weightsFile, w.weights.flatten)]).map Prod.fst =
      (if o.memAnalysis = true ∨ o.weightsFile = [] then []
       else if o.asArray = true then [o.weightsFile ++ ".c".toList, o.weightsFile ++ ".h".toList] else [o.weightsFile]) := by
    split
    · rfl
    · split <;> rfl
  rw [e, List.prefix_append_right_inj]
  split
  · simp
  · cases w.flatbuffer with
    | none => simp
    | some fb => cases w.tflmc <;> simp

/-! ### C75: failed runs -/

/-- **C75, proved part** A command line that breaks one of the rules is refused: exit code 1 and no file is touched; the same holds
when the input cannot be read or a pass before the weights are written fails.  Asking for help or for the memory analysis never
touches a file, and no run touches a file other than the output, the two sources named after it and the weights files. -/
theorem C75_failed_runs_partial (o : Opts) (l : Libs) (w : World) (fs : FS) :
    (o.help = false → Violates o l ∨ w.reads = false ∨ w.prePasses = false ∨
        (o.memAnalysis = false ∧ w.passesBeforeWeights = false) → main o l w = (1, [])) ∧
      (o.help = true ∨ o.memAnalysis = true → (main o l w).2 = []) ∧
      ∀ p, p <+: (main o l w).2 → ∀ x, x ∉ names o → after fs p x = fs x := by
  refine ⟨?_, ?_, ?_⟩
  · intro hh h
    unfold main
    rw [if_neg (by simp [hh]), optionStages_eq]
    by_cases hv : false ∈ optionChecks o l
    · exact exec_checks_false w _ _ hv
    · rw [exec_checks_true w _ _ hv]
      rcases h with h | h | h | h
      · exact absurd ((violates_iff o l).1 h) hv
      · simp [exec, h]
      · cases hr : w.reads <;> simp [exec, passStages, h]
      · cases hr : w.reads <;> cases hp : w.prePasses <;> simp [exec, passStages, h, hp]
  · intro h
    by_cases hh : o.help = true
    · simp [main, hh]
    · have hm : o.memAnalysis = true := by tauto
      unfold main
      rw [if_neg hh, optionStages_eq]
      by_cases hv : false ∈ optionChecks o l
      · rw [exec_checks_false w _ _ hv]
      · rw [exec_checks_true w _ _ hv]
        have ho : o.output = [] := by
          by_contra hc
          exact hv ((violates_iff o l).1 (.analysisOutput hm hc))
        cases hr : w.reads <;> cases hp : w.prePasses <;> cases ha : w.analysis <;>
          simp [exec, passStages, outputStages, hm, hp, ha, ho]
  · intro p hp x hx
    have h1 := hp.trans (main_prefix o l w)
    have key : ∀ (es : List Event) (fs : FS), (∀ e ∈ es, ∀ n, (e = .trunc n ∨ ∃ b, e = .app n b) → x ≠ n) → after fs es x = fs x := by
      intro es
      induction es with
      | nil => intro fs _; rfl
      | cons e t ih =>
        intro fs he
        show after (Event.apply fs e) t x = _
        rw [ih _ fun e' h' => he e' (List.mem_cons_of_mem _ h')]
        cases e with
        | trunc n => simp [Event.apply, he (.trunc n) (by simp) n (Or.inl rfl)]
        | app n b => simp [Event.apply, he (.app n b) (by simp) n (Or.inr ⟨b, rfl⟩)]
    apply key
    intro e he n hn hxn
    have hm := h1.subset he
    rw [List.mem_flatMap] at hm
    obtain ⟨nd, hnd, hev⟩ := hm
    have hname : nd.1 ∈ names o := (planned_names o w).subset (List.mem_map_of_mem hnd)
    have : n = nd.1 := by
      rcases hn with rfl | ⟨b, rfl⟩
      · simp only [writeEvents, List.mem_cons, Event.trunc.injEq, List.mem_map, reduceCtorEq, and_false, exists_false, or_false] at hev
        exact hev
      · simp only [writeEvents, List.mem_cons, reduceCtorEq, false_or, List.mem_map, Event.app.injEq] at hev
        obtain ⟨_, _, h2, _⟩ := hev
        exact h2.symm
    exact hx (by rw [hxn, this]; exact hname)

/-- A world in which everything works. -/
def fine : World where
  reads := true
  prePasses := true
  analysis := true
  passesBeforeWeights := true
  passesAfterWeights := true
  weights := [[1, 2], [3]]
  arraySource := [10]
  arrayHeader := [11]
  flatbuffer := some [20, 21]
  tflmc := some ([30], [31])
  opens := fun _ => true
  pieces := fun d => [d]
  pieces_ok := by simp

/-- **C75, the rules are the only ones**: a command line that breaks none of them is accepted. -/
theorem C75_accepted (o : Opts) (l : Libs) (h : ¬ Violates o l) : (main o l fine).1 = 0 := by
  unfold main
  split
  · rfl
  · rw [optionStages_eq, exec_checks_true _ _ _ (fun hc => h ((violates_iff o l).2 hc))]
    apply exec_ok
    · simp only [fine, passStages, outputStages, weightStages]
      cases o.memAnalysis <;> cases o.asArray <;> by_cases h1 : o.weightsFile = [] <;> by_cases h2 : o.output = [] <;> simp [h1, h2]
    · intro nd _; rfl

def myOut : Name := "m.tflite".toList
def myWeights : Name := "w.params".toList
def someLibs : Libs := ⟨(0, 6), (1, 2)⟩

/-- **C75, refuted part** A failed run can destroy the weights of the model that is already there: the output cannot be opened, but
the weights file has been replaced. -/
theorem C75_weights_lost_refuted :
    let o : Opts := { output := myOut, weightsFile := myWeights, largerCount := 1 }
    let w : World := { fine with opens := fun n => n ≠ myOut }
    let fs : FS := fun n => if n = myOut then some [7] else if n = myWeights then some [8] else none
    (main o someLibs w).1 = 1 ∧ after fs (main o someLibs w).2 myOut = some [7] ∧
      after fs (main o someLibs w).2 myWeights = some [1, 2, 3] := by
  refine ⟨by decide, by decide, by decide⟩

/-- **C75, refuted part** A failed run can leave a new model without its sources: tflmc fails after the model has been written. -/
theorem C75_tflmc_refuted :
    let o : Opts := { output := myOut }
    let w : World := { fine with tflmc := none }
    (main o someLibs w).1 = 1 ∧ after (fun _ => none) (main o someLibs w).2 myOut = some [20, 21] := by
  refine ⟨by decide, by decide⟩

/-- **C75, refuted part** The checks look at how often an option was given, not at its value: weights for external memory without
the array are accepted when the array option is given and switched off, and refused when external memory is given and switched
off. -/
theorem C75_occurrences_refuted :
    (main { output := myOut, weightsFile := myWeights, extMem := true, extMemCount := 1, asArray := false, asArrayCount := 1 }
        someLibs fine).1 = 0 ∧
      (main { output := myOut, weightsFile := myWeights, extMem := false, extMemCount := 1 } someLibs fine) = (1, []) := by
  refine ⟨by decide, rfl⟩

/-! ### C76: successful runs -/

/-- **C76, proved part** If the files have different names and the run succeeds, then every file has its contents: the model, its two
sources, and the weights; everything else is as before. -/
theorem C76_success_partial (o : Opts) (l : Libs) (w : World) (fs : FS) (hn : (names o).Nodup) (hh : o.help = false)
    (ho : o.output ≠ []) (h : (main o l w).1 = 0) :
    ∃ fb src hdr, w.flatbuffer = some fb ∧ w.tflmc = some (src, hdr) ∧
      (∀ nd ∈ weightFiles o w ++ modelFiles o fb src hdr, after fs (main o l w).2 nd.1 = some nd.2) ∧
      ∀ x, x ∉ names o → after fs (main o l w).2 x = fs x := by
  have hx := (C75_failed_runs_partial o l w fs).2.2 _ (List.prefix_refl _)
  unfold main at h hx ⊢
  rw [if_neg (by simp [hh])] at h hx ⊢
  rw [optionStages_eq] at h hx ⊢
  have hv : false ∉ optionChecks o l := by
    intro hc
    rw [exec_checks_false w _ _ hc] at h
    simp at h
  rw [exec_checks_true w _ _ hv] at h hx ⊢
  obtain ⟨h1, h2⟩ := exec_zero w _ h
  simp only [List.mem_cons, Stage.check.injEq, List.mem_append, not_or] at h2
  obtain ⟨hr, hp, hq⟩ := h2
  have hr' : w.reads = true := by cases e : w.reads <;> simp_all
  have hfb : ∃ fb, w.flatbuffer = some fb := by
    cases e : w.flatbuffer with
    | none => simp [outputStages, ho, e] at hq
    | some fb => exact ⟨fb, rfl⟩
  obtain ⟨fb, hfb⟩ := hfb
  have htf : ∃ sh, w.tflmc = some sh := by
    cases e : w.tflmc with
    | none => simp [outputStages, ho, hfb, e] at hq
    | some sh => exact ⟨sh, rfl⟩
  obtain ⟨sh, htf⟩ := htf
  refine ⟨fb, sh.1, sh.2, hfb, by rw [htf], ?_, hx⟩
  have hpl : writesOf (.check w.reads :: (passStages o w ++ outputStages o w)) = weightFiles o w ++ modelFiles o fb sh.1 sh.2 := by
    rw [hr']
    simp only [writesOf, if_true]
    have happ : ∀ a b : List Stage, Stage.check false ∉ a → writesOf (a ++ b) = writesOf a ++ writesOf b := by
      intro a b
      induction a with
      | nil => simp [writesOf]
      | cons s r ih =>
        intro hc
        cases s with
        | check ok =>
          cases ok with
          | false => simp at hc
          | true => simpa [writesOf] using ih (by simpa using hc)
        | write n d => simpa [writesOf] using ih (by simpa using hc)
    rw [happ _ _ hp, writesOf_passStages_eq o w hp, writesOf_outputStages, if_neg ho, hfb, htf]
    rfl
  rw [h1, hpl]
  have hnodup : ((weightFiles o w ++ modelFiles o fb sh.1 sh.2).map Prod.fst).Nodup := by
    have : (weightFiles o w ++ modelFiles o fb sh.1 sh.2).map Prod.fst <+: names o := by
      have := planned_names o w
      unfold planned at this
      rw [if_neg ho, hfb, htf] at this
      exact this
    exact hn.sublist this.sublist
  intro nd hnd
  generalize weightFiles o w ++ modelFiles o fb sh.1 sh.2 = ws at *
  clear h1 hpl hx
  have key : ∀ (ws : List (Name × Bytes)) (fs : FS), (ws.map Prod.fst).Nodup → ∀ nd ∈ ws,
      after fs (ws.flatMap fun nd => writeEvents w nd.1 nd.2) nd.1 = some nd.2 := by
    intro ws
    induction ws with
    | nil => intro fs _ nd h; simp at h
    | cons e t ih =>
      intro fs hnd nd hmem
      simp only [List.map_cons, List.nodup_cons] at hnd
      rw [List.flatMap_cons, after_append]
      rcases List.mem_cons.1 hmem with rfl | hm
      · have := file_done w fs nd.1 nd.2
        obtain ⟨a, b, hab, h1, h2, h3⟩ := files_partial w t hnd.2 (after fs (writeEvents w nd.1 nd.2)) _ (List.prefix_refl _)
        rw [h2 nd.1]
        · exact this.2
        · intro hc
          obtain ⟨e', he', hee⟩ := List.mem_map.1 hc
          exact hnd.1 (hee ▸ List.mem_map_of_mem (by rw [hab]; exact List.mem_append_left _ he'))
        · intro e' he' hc
          exact hnd.1 (hc ▸ List.mem_map_of_mem (by rw [hab]; exact List.mem_append_right _ (List.mem_of_mem_head? he')))
      · exact ih _ hnd.2 nd hm
  exact key ws fs hnodup nd hnd

/-- **C76, refuted part** Names are not checked against each other: with the weights as an array under the name of the output, the
header with their size is overwritten, and the run reports success. -/
theorem C76_clash_refuted :
    let o : Opts := { output := myOut, weightsFile := myOut, asArray := true, asArrayCount := 1 }
    (main o someLibs fine).1 = 0 ∧ (myOut ++ ".h".toList, fine.arrayHeader) ∈ weightFiles o fine ∧
      after (fun _ => none) (main o someLibs fine).2 (myOut ++ ".h".toList) = some [31] ∧ fine.arrayHeader = [11] := by
  refine ⟨by decide, by decide, by decide, rfl⟩

/-- Which names clash. -/
theorem names_nodup_iff (o : Opts) (ho : o.output ≠ []) (hm : o.memAnalysis = false) (hw : o.weightsFile ≠ []) :
    (names o).Nodup ↔
      if o.asArray = true then
        o.weightsFile ≠ o.output ∧ o.weightsFile ++ ".c".toList ≠ o.output ∧ o.weightsFile ++ ".h".toList ≠ o.output
      else o.weightsFile ≠ o.output ∧ o.weightsFile ≠ o.output ++ ".cpp".toList ∧ o.weightsFile ≠ o.output ++ ".h".toList := by
  have e1 : o.output ≠ o.output ++ ['.', 'c', 'p', 'p'] := by intro h; simpa using congrArg List.length h
  have e2 : o.output ≠ o.output ++ ['.', 'h'] := by intro h; simpa using congrArg List.length h
  have e3 : o.output ++ ['.', 'c', 'p', 'p'] ≠ o.output ++ ['.', 'h'] := by intro h; simpa using congrArg List.length h
  have last : ∀ (a b : Name) (x y : Char), a ++ [x] = b ++ [y] → x = y := by
    intro a b x y h
    have := congrArg List.getLast? h
    simpa using this
  have e4 : o.weightsFile ++ ['.', 'c'] ≠ o.weightsFile ++ ['.', 'h'] := by simp
  have e5 : o.weightsFile ++ ['.', 'c'] ≠ o.output ++ ['.', 'c', 'p', 'p'] := by
    intro h
    have := last (o.weightsFile ++ ['.']) (o.output ++ ['.', 'c', 'p']) 'c' 'p' (by simpa using h)
    simp at this
  have e6 : o.weightsFile ++ ['.', 'c'] ≠ o.output ++ ['.', 'h'] := by
    intro h
    have := last (o.weightsFile ++ ['.']) (o.output ++ ['.']) 'c' 'h' (by simpa using h)
    simp at this
  have e7 : o.weightsFile ++ ['.', 'h'] ≠ o.output ++ ['.', 'c', 'p', 'p'] := by
    intro h
    have := last (o.weightsFile ++ ['.']) (o.output ++ ['.', 'c', 'p']) 'h' 'p' (by simpa using h)
    simp at this
  unfold names
  simp only [hm, hw, ho, if_false, Bool.false_eq_true, or_false]
  cases o.asArray with
  | true =>
    simp only [if_true, String.toList, List.cons_append, List.nil_append, List.nodup_cons, List.mem_cons, List.not_mem_nil, or_false,
      not_or, List.nodup_nil, not_false_eq_true, and_true]
    constructor
    · rintro ⟨⟨a1, a2, a3, a4⟩, ⟨b1, b2, b3⟩, -⟩
      exact ⟨fun h => b3 (by rw [h]), a2, b1⟩
    · rintro ⟨a, b, c⟩
      exact ⟨⟨e4, b, e5, e6⟩, ⟨c, e7, fun h => a (List.append_cancel_right h)⟩, ⟨e1, e2⟩, e3⟩
  | false =>
    simp only [Bool.false_eq_true, if_false, String.toList, List.cons_append, List.nil_append, List.nodup_cons, List.mem_cons,
      List.not_mem_nil, or_false, not_or, List.nodup_nil, not_false_eq_true, and_true]
    constructor
    · rintro ⟨⟨a1, a2, a3⟩, -⟩; exact ⟨a1, a2, a3⟩
    · rintro ⟨a, b, c⟩; exact ⟨⟨a, b, c⟩, ⟨e1, e2⟩, e3⟩

/-! ### C77: interrupted runs -/

/-- **C77, proved part** A run that is killed (or fails) at any moment, with different file names: a model file that has been touched
stands beside complete new weights; a source file that has been touched stands beside the complete new model; the header beside
the complete new source; and no file holds anything but its old contents or a beginning of its new ones. -/
theorem C77_interrupted_partial (o : Opts) (l : Libs) (w : World) (fs : FS) (hn : (names o).Nodup) (p : List Event)
    (hp : p <+: (main o l w).2) :
    (after fs p o.output ≠ fs o.output → ∀ nd ∈ weightFiles o w, after fs p nd.1 = some nd.2) ∧
      (o.output ≠ [] → after fs p (o.output ++ ".cpp".toList) ≠ fs (o.output ++ ".cpp".toList) →
        after fs p o.output = w.flatbuffer ∧ w.flatbuffer ≠ none) ∧
      (o.output ≠ [] → after fs p (o.output ++ ".h".toList) ≠ fs (o.output ++ ".h".toList) →
        after fs p (o.output ++ ".cpp".toList) = w.tflmc.map Prod.fst ∧ w.tflmc ≠ none) ∧
      ∀ x, after fs p x = fs x ∨ ∃ d c, (x, d) ∈ planned o w ∧ c <+: d ∧ after fs p x = some c := by
  have hnod : ((planned o w).map Prod.fst).Nodup := hn.sublist (planned_names o w).sublist
  obtain ⟨a, b, hab, h1, h2, h3⟩ := files_partial w (planned o w) hnod fs p (hp.trans (main_prefix o l w))
  -- a touched file: everything planned before it is complete
  have before : ∀ x d u v, planned o w = u ++ (x, d) :: v → after fs p x ≠ fs x → ∀ nd ∈ u, after fs p nd.1 = some nd.2 := by
    intro x d u v hu hx nd hnd
    by_cases hlen : u.length ≤ a.length
    · have : u <+: a := by
        have h4 : u <+: a ++ b := by rw [← hab, hu]; exact List.prefix_append _ _
        exact List.prefix_of_prefix_length_le h4 (List.prefix_append _ _) hlen
      exact h1 nd (this.subset hnd)
    · exfalso
      apply hx
      have h5 : a <+: u := by
        have h4 : u <+: a ++ b := by rw [← hab, hu]; exact List.prefix_append _ _
        exact List.prefix_of_prefix_length_le (List.prefix_append _ _) h4 (by omega)
      obtain ⟨t, rfl⟩ := h5
      have hb : b = t ++ (x, d) :: v := by
        have : a ++ b = a ++ (t ++ (x, d) :: v) := by rw [← hab, hu, List.append_assoc]
        exact List.append_cancel_left this
      have ht : t ≠ [] := by intro h; subst h; simp at hlen
      obtain ⟨e, t', rfl⟩ := List.exists_cons_of_ne_nil ht
      have hnd2 : (((a ++ e :: t') ++ (x, d) :: v).map Prod.fst).Nodup := by rw [← hu]; exact hnod
      rw [List.map_append, List.nodup_append] at hnd2
      have hdis := hnd2.2.2
      apply h2 x
      · intro hc
        obtain ⟨e', he', hee⟩ := List.mem_map.1 hc
        exact hdis e'.1 (List.mem_map_of_mem (List.mem_append_left _ he')) x (by simp) hee
      · intro nd' hh hc
        rw [hb] at hh
        simp only [List.cons_append, List.head?_cons, Option.some.injEq] at hh
        subst hh
        exact hdis e.1 (List.mem_map_of_mem (by simp)) x (by simp) hc.symm
  have untouched : ∀ x, x ∉ (planned o w).map Prod.fst → after fs p x = fs x := by
    intro x hx
    apply h2 x
    · intro hc; exact hx (by rw [hab, List.map_append]; exact List.mem_append_left _ hc)
    · intro nd hh hc
      exact hx (by rw [hc]; exact List.mem_map_of_mem (by rw [hab]; exact List.mem_append_right _ (List.mem_of_mem_head? hh)))
  have hnames : o.output ≠ [] → o.output ∉ (weightFiles o w).map Prod.fst ∧
      o.output ++ ".cpp".toList ∉ (weightFiles o w).map Prod.fst ++ [o.output] ∧
      o.output ++ ".h".toList ∉ (weightFiles o w).map Prod.fst ++ [o.output, o.output ++ ".cpp".toList] := by
    intro ho
    have hn' := hn
    unfold names at hn'
    rw [if_neg ho] at hn'
    have e : (weightFiles o w).map Prod.fst = (if o.memAnalysis = true ∨ o.weightsFile = [] then []
       else if o.asArray = true then [o.weightsFile ++ ".c".toList, o.weightsFile ++ ".h".toList] else [o.weightsFile]) := by
      unfold weightFiles
      split
      · rfl
      · split <;> rfl
    rw [← e, List.nodup_append] at hn'
    obtain ⟨_, n2, n3⟩ := hn'
    simp only [List.nodup_cons, List.mem_cons, List.not_mem_nil, or_false, not_or] at n2
    refine ⟨fun hc => n3 _ hc _ (by simp) rfl, ?_, ?_⟩
    · intro hc
      rcases List.mem_append.1 hc with hc | hc
      · exact n3 _ hc _ (by simp) rfl
      · simp only [List.mem_cons, List.not_mem_nil, or_false] at hc; exact n2.1.1 hc.symm
    · intro hc
      rcases List.mem_append.1 hc with hc | hc
      · exact n3 _ hc _ (by simp) rfl
      · simp only [List.mem_cons, List.not_mem_nil, or_false] at hc
        rcases hc with hc | hc
        · exact n2.1.2 hc.symm
        · exact n2.2.1 hc.symm
  refine ⟨?_, ?_, ?_, ?_⟩
  · intro hx
    by_cases ho : o.output = []
    · exfalso
      apply hx
      apply untouched
      intro hc
      have := (planned_names o w).subset hc
      unfold names at this
      rw [ho] at this
      simp only [if_true, List.append_nil] at this
      split at this
      · simp at this
      · rename_i hw
        split at this
        · simp at this
        · simp only [List.mem_singleton] at this
          exact hw (Or.inr this.symm)
    · cases hfb : w.flatbuffer with
      | none =>
        exfalso
        apply hx
        apply untouched
        have : planned o w = weightFiles o w := by simp [planned, ho, hfb]
        rw [this]; exact (hnames ho).1
      | some fb =>
        exact before o.output fb (weightFiles o w) _ (by unfold planned; rw [if_neg ho, hfb]) hx
  · intro ho hx
    cases hfb : w.flatbuffer with
    | none =>
      exfalso
      apply hx
      apply untouched
      have : planned o w = weightFiles o w := by simp [planned, ho, hfb]
      rw [this]; intro hc; exact (hnames ho).2.1 (List.mem_append_left _ hc)
    | some fb =>
      cases htf : w.tflmc with
      | none =>
        exfalso
        apply hx
        apply untouched
        have : planned o w = weightFiles o w ++ [(o.output, fb)] := by simp [planned, ho, hfb, htf]
        rw [this, List.map_append]; exact (hnames ho).2.1
      | some sh =>
        refine ⟨?_, by simp⟩
        exact before _ sh.1 (weightFiles o w ++ [(o.output, fb)]) [(o.output ++ ".h".toList, sh.2)]
          (by simp [planned, ho, hfb, htf]) hx (o.output, fb) (by simp)
  · intro ho hx
    cases hfb : w.flatbuffer with
    | none =>
      exfalso
      apply hx
      apply untouched
      have : planned o w = weightFiles o w := by simp [planned, ho, hfb]
      rw [this]; intro hc; exact (hnames ho).2.2 (List.mem_append_left _ hc)
    | some fb =>
      cases htf : w.tflmc with
      | none =>
        exfalso
        apply hx
        apply untouched
        have : planned o w = weightFiles o w ++ [(o.output, fb)] := by simp [planned, ho, hfb, htf]
        rw [this, List.map_append]
        intro hc
        rcases List.mem_append.1 hc with hc | hc
        · exact (hnames ho).2.2 (List.mem_append_left _ hc)
        · exact (hnames ho).2.2 (List.mem_append_right _ (List.mem_cons.2 (Or.inl (by simpa only [List.map_cons, List.map_nil, List.mem_singleton] using hc))))
      | some sh =>
        refine ⟨?_, by simp⟩
        exact before _ sh.2 (weightFiles o w ++ [(o.output, fb), (o.output ++ ".cpp".toList, sh.1)]) []
          (by simp [planned, ho, hfb, htf]) hx (o.output ++ ".cpp".toList, sh.1) (by simp)
  · intro x
    by_cases hx : x ∈ a.map Prod.fst
    · obtain ⟨nd, hnd, rfl⟩ := List.mem_map.1 hx
      exact Or.inr ⟨nd.2, nd.2, by rw [hab]; exact List.mem_append_left _ hnd, List.prefix_refl _, h1 nd hnd⟩
    · by_cases hb : ∃ nd, b.head? = some nd ∧ x = nd.1
      · obtain ⟨nd, hh, rfl⟩ := hb
        rcases h3 nd hh with g | ⟨c, g1, g2⟩
        · exact Or.inl g
        · exact Or.inr ⟨nd.2, c, by rw [hab]; exact List.mem_append_right _ (List.mem_of_mem_head? hh), g1, g2⟩
      · exact Or.inl (h2 x hx fun nd hh hc => hb ⟨nd, hh, hc⟩)

/-- **C77, refuted part** The other way round it fails: killed after the weights and before the model, a run leaves the old model with
the new weights. -/
theorem C77_old_model_refuted :
    let o : Opts := { output := myOut, weightsFile := myWeights }
    let fs : FS := fun n => if n = myOut then some [7] else if n = myWeights then some [8] else none
    ∃ p, p <+: (main o someLibs fine).2 ∧ (names o).Nodup ∧ after fs p myOut = some [7] ∧ after fs p myWeights = some [1, 2, 3] := by
  refine ⟨writeEvents fine myWeights [1, 2, 3], ⟨writeEvents fine myOut [20, 21] ++ (writeEvents fine (myOut ++ dotCpp) [30] ++
    writeEvents fine (myOut ++ dotH) [31]), by rfl⟩, by decide, by decide, by decide⟩

/-- A whole run with weights in an array. -/
example :
    let o : Opts := { output := myOut, weightsFile := myWeights, asArray := true, asArrayCount := 1 }
    (names o).Nodup ∧ (main o someLibs fine).1 = 0 ∧
      (names o).map (after (fun _ => none) (main o someLibs fine).2) = [some [10], some [11], some [20, 21], some [30], some [31]] := by
  refine ⟨by decide, by decide, by decide⟩

end Verif.Host.Driver
