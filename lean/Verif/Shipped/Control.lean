import Mathlib.Tactic.Ring
/-!
C117: the control flow of the runtime that the compiler generates for a model (examples/audio_network/src/model_audioi16.tflite.cpp 13452-13841), with any
number of subgraphs: `model_init`, `model_invoke`, `mg_InvokeSubgraph`, `GetEvalTensor`, `mg_*`, `model_input`, `model_output` and the header's accessors.

What operators compute is C98.  Here an operator is a program that asks for tensors, calls subgraphs (as IF, WHILE and CALL_ONCE do through
`micro_graph.InvokeSubgraph`), changes memory and returns a status.
-/
namespace Verif.Shipped.Control

/-- `TfLiteStatus`: `kTfLiteOk` or an error. -/
inductive Status where
  | ok
  | error (code : Nat)
deriving DecidableEq

/-- The generated tables: `tflNodes_subgraph_index`, `tflTensors_subgraph_index`, `inTensorIndices`, `inTensors_subgraph_index`, `outTensorIndices` and
`outTensors_subgraph_index` (lines 13437-13458). -/
structure Tabs where
  nodes : List Nat
  tensors : List Nat
  ins : List Nat
  insAt : List Nat
  outs : List Nat
  outsAt : List Nat

/-- What an operator does when it is called.  `lookup t` asks for tensor `t` (`GetEvalTensor`, `AllocateTempInputTensor`, `AllocateTempOutputTensor`) and
gets a position in `tflTensors`; `call g` runs subgraph `g` and gets its status; `m` is the memory it leaves. -/
inductive Act (σ : Type) where
  | ret (m : σ) (s : Status)
  | lookup (t : Nat) (k : Nat → Act σ)
  | call (g : Nat) (m : σ) (k : σ → Status → Act σ)

/-- What can be observed. -/
inductive Ev where
  | threads (on : Bool)
  | enter (g : Nat)
  | leave (g : Nat)
  | start (phase i : Nat)
  | looked (i t pos : Nat)
  | done (phase i : Nat) (s : Status)
deriving DecidableEq

/-- `currentSubgraphIndex`, the memory, and what has happened. -/
structure St (σ : Type) where
  cur : Nat
  mem : σ
  log : List Ev

/-- The nodes of a subgraph: the loops' bounds `tflNodes_subgraph_index[g]` and `[g+1]` (13556, 13701, 13742). -/
def Tabs.nodesOf (T : Tabs) (g : Nat) : List Nat :=
  (List.range (T.nodes.getD (g + 1) 0 - T.nodes.getD g 0)).map (T.nodes.getD g 0 + ·)

/-- `GetEvalTensor`, `mc_AllocateTempInputTensor` and `mc_AllocateTempOutputTensor` (13487-13515): the position in `tflTensors`. -/
def Tabs.position (T : Tabs) (cur t : Nat) : Nat := T.tensors.getD cur 0 + t

/-- Line 13616: `if (0 && status != kTfLiteOk)`. -/
def stops (s : Status) : Bool := false && decide (s ≠ .ok)

/-- Two things to be run: operators of a subgraph, or the rest of an operator. -/
inductive Task (σ : Type) where
  | nodes (l : List Nat)
  | act (i : Nat) (a : Act σ)

/-- `phase` 2: invoke.  `mg_InvokeSubgraph` (13549-13629) without its first two and last lines, which are in `.call`, and the operators; `none` if the steps `n` are not
enough. -/
def run {σ : Type} (T : Tabs) (op : Nat → σ → Act σ) : Nat → Task σ → St σ → Option (St σ × Status)
  | 0, _, _ => none
  | _ + 1, .nodes [], st => some (st, .ok)
  | n + 1, .nodes (i :: is), st =>
    match run T op n (.act i (op i st.mem)) { st with log := st.log ++ [.start 2 i] } with
    | none => none
    | some (st1, s) => if stops s then some (st1, s) else run T op n (.nodes is) st1
  | _ + 1, .act i (.ret m s), st => some ({ st with mem := m, log := st.log ++ [.done 2 i s] }, s)
  | n + 1, .act i (.lookup t k), st =>
    run T op n (.act i (k (T.position st.cur t))) { st with log := st.log ++ [.looked i t (T.position st.cur t)] }
  | n + 1, .act i (.call g m k), st =>
    match run T op n (.nodes (T.nodesOf g)) { cur := g, mem := m, log := st.log ++ [.enter g] } with
    | none => none
    | some (st1, s) => run T op n (.act i (k st1.mem s)) { cur := st.cur, mem := st1.mem, log := st1.log ++ [.leave g] }

/-- `model_invoke` (13785-13832): threads, subgraph 0, end of the threads; the status of the subgraph is not looked at. -/
def modelInvoke {σ : Type} (T : Tabs) (op : Nat → σ → Act σ) (n : Nat) (st : St σ) : Option (St σ × Status) :=
  match run T op n (.nodes (T.nodesOf 0)) { st with cur := 0, log := st.log ++ [.threads true, .enter 0] } with
  | none => none
  | some (st1, _) => some ({ st1 with cur := st.cur, log := st1.log ++ [.leave 0, .threads false] }, .ok)

/-! ### `model_init` -/

/-- An operator's `init` or `prepare`: lookups and changes of memory; it calls no subgraph. -/
inductive Prep (σ : Type) where
  | ret (m : σ) (s : Status)
  | lookup (t : Nat) (k : Nat → Prep σ)

def Prep.run {σ : Type} (T : Tabs) (phase i : Nat) : Prep σ → St σ → St σ × Status
  | .ret m s, st => ({ st with mem := m, log := st.log ++ [.done phase i s] }, s)
  | .lookup t k, st => (k (T.position st.cur t)).run T phase i { st with log := st.log ++ [.looked i t (T.position st.cur t)] }

/-- The inner loop over a subgraph's nodes: `init` (lines 13701-13723; whatever it returns becomes `user_data`) with `check = false`, `prepare`
(13742-13764) with `check = true`.  An operator without the function (`none`) is passed over. -/
def prepNodes {σ : Type} (T : Tabs) (phase : Nat) (check : Bool) (f : Nat → Option (σ → Prep σ)) : List Nat → St σ → St σ × Status
  | [], st => (st, .ok)
  | i :: is, st =>
    match f i with
    | none => prepNodes T phase check f is st
    | some p =>
      let r := (p st.mem).run T phase i { st with log := st.log ++ [.start phase i] }
      if check && decide (r.2 ≠ .ok) then r else prepNodes T phase check f is r.1

/-- The outer loop over the subgraphs. -/
def prepGraphs {σ : Type} (T : Tabs) (phase : Nat) (check : Bool) (f : Nat → Option (σ → Prep σ)) : List Nat → St σ → St σ × Status
  | [], st => (st, .ok)
  | g :: gs, st =>
    let r := prepNodes T phase check f (T.nodesOf g) { st with cur := g }
    if check && decide (r.2 ≠ .ok) then r else prepGraphs T phase check f gs r.1

/-- `mg_NumSubgraphs` (13529-13531). -/
def Tabs.numSubgraphs (T : Tabs) : Nat := T.tensors.length - 1

/-- `model_init` (13640-13782) after the tables of functions are set. -/
def modelInit {σ : Type} (T : Tabs) (init prepare : Nat → Option (σ → Prep σ)) (st : St σ) : St σ × Status :=
  let r := prepGraphs T 0 false init (List.range T.numSubgraphs) st
  let r := prepGraphs T 1 true prepare (List.range T.numSubgraphs) { r.1 with cur := 0 }
  if r.2 ≠ .ok then r else ({ r.1 with cur := 0 }, .ok)

/-! ### Inputs and outputs -/

/-- `mg_NumSubgraphInputs` (13533-13535). -/
def Tabs.numIn (T : Tabs) (g : Nat) : Nat := T.insAt.getD (g + 1) 0 - T.insAt.getD g 0
/-- `mg_NumSubgraphOutputs` (13537-13539). -/
def Tabs.numOut (T : Tabs) (g : Nat) : Nat := T.outsAt.getD (g + 1) 0 - T.outsAt.getD g 0
/-- `mg_GetSubgraphInput` (13541-13543): the position in `tflTensors`. -/
def Tabs.graphIn (T : Tabs) (g i : Nat) : Nat := T.tensors.getD g 0 + T.ins.getD (T.insAt.getD g 0 + i) 0
/-- `mg_GetSubgraphOutput` (13545-13547). -/
def Tabs.graphOut (T : Tabs) (g i : Nat) : Nat := T.tensors.getD g 0 + T.outs.getD (T.outsAt.getD g 0 + i) 0
/-- `model_input` (13631-13633). -/
def Tabs.modelIn (T : Tabs) (i : Nat) : Nat := T.ins.getD i 0
/-- `model_output` (13635-13637). -/
def Tabs.modelOut (T : Tabs) (i : Nat) : Nat := T.outs.getD i 0

/-- `model_input_dims_len`, `model_output_dims_len` (model_audioi16.tflite.h 45-47, 58-60): `dims->data[0]`.  `dims->data` has the dimensions; their number is
`dims->size`. -/
def dimsLen (dims : List Nat) : Nat := dims.getD 0 0
/-- `model_input_dims`, `model_output_dims` (48-50, 61-63): `&dims->data[1]`. -/
def dimsPtr (dims : List Nat) : List Nat := dims.drop 1

/-! ### Specification -/

mutual
/-- What should be observed of the operators of a list: each once, in this order. -/
inductive OpsTrace (T : Tabs) : List Nat → List Ev → Prop
  | nil : OpsTrace T [] []
  | cons {i : Nat} {is : List Nat} {b rest : List Ev} {s : Status} : BodyTrace T i b → OpsTrace T is rest →
      OpsTrace T (i :: is) (.start 2 i :: b ++ .done 2 i s :: rest)
/-- While an operator runs: lookups of tensors, and complete runs of subgraphs. -/
inductive BodyTrace (T : Tabs) : Nat → List Ev → Prop
  | nil {i : Nat} : BodyTrace T i []
  | looked {i t p : Nat} {b : List Ev} : BodyTrace T i b → BodyTrace T i (.looked i t p :: b)
  | call {i g : Nat} {b c : List Ev} : OpsTrace T (T.nodesOf g) c → BodyTrace T i b → BodyTrace T i (.enter g :: c ++ .leave g :: b)
end

/-- Every lookup has found a tensor of the subgraph that the operator belongs to. -/
def Own (T : Tabs) (log : List Ev) : Prop := ∀ i t p, Ev.looked i t p ∈ log → ∃ g, i ∈ T.nodesOf g ∧ p = T.tensors.getD g 0 + t

/-- The tables of a generated file: sorted, starting at 0. -/
structure Tabs.OK (T : Tabs) : Prop where
  nodes : T.nodes.Pairwise (· ≤ ·)
  nodes0 : T.nodes.getD 0 0 = 0
  same : T.nodes.length = T.tensors.length
  tensors0 : T.tensors.getD 0 0 = 0
  ins0 : T.insAt.getD 0 0 = 0
  outs0 : T.outsAt.getD 0 0 = 0

/-- The number of operators of the model, in all its subgraphs: what the table of nodes ends with. -/
def Tabs.numNodes (T : Tabs) : Nat := T.nodes.getLast?.getD 0

/-- A subgraph: numbers of operators and tensors, and which of its tensors are its inputs and outputs. -/
structure Sub where
  nodes : Nat
  tensors : Nat
  ins : List Nat
  outs : List Nat

/-- Where each of consecutive pieces begins, and the end. -/
def starts (sizes : List Nat) : List Nat := (List.range (sizes.length + 1)).map fun i => (sizes.take i).sum

/-- The tables of a model with these subgraphs, one after the other; lines 13437-13458 are those of a model with one subgraph. -/
def tables (gs : List Sub) : Tabs where
  nodes := starts (gs.map (·.nodes))
  tensors := starts (gs.map (·.tensors))
  ins := gs.flatMap (·.ins)
  insAt := starts (gs.map (·.ins.length))
  outs := gs.flatMap (·.outs)
  outsAt := starts (gs.map (·.outs.length))

end Verif.Shipped.Control
