import Mathlib.Tactic.Ring
import Mathlib.Data.List.Basic
/-!
The host interpreter (python/xmos_ai_tools/xinterpreters/host_interpreter.py and src/dll_interpreter.cc) as a state machine over
API calls.

Simplifications: the inference engine (lib_tflite_micro, not in /repo) is a contract: loading a model gives one buffer per input
and output tensor of the tensor's size, and an inference computes the outputs (and a new hidden state for models with variables)
from the inputs and may overwrite the input buffers.  A byte is a `Nat`.  Access through a null pointer or outside a buffer or
table is `undefined`; a Python exception is `raised` and ends the history.
-/
namespace Verif.Host.Interp

abbrev Bytes := List Nat

/-- Element types of TensorFlow Lite tensors; `other n`: any further type, of `n` bytes. -/
inductive ElemType | int8 | int16 | int32 | float32 | other (n : Nat)
deriving DecidableEq, Repr

structure TensorInfo where
  index : Nat
  shape : List Nat
  type : ElemType
deriving DecidableEq, Repr

/-! ### Specification: models and their buffers -/

/-- True size of an element. -/
def ElemType.bytes : ElemType → Nat
  | .int8 => 1
  | .int16 => 2
  | .int32 => 4
  | .float32 => 4
  | .other n => n

/-- True size of a tensor. -/
def TensorInfo.bytes (t : TensorInfo) : Nat := t.type.bytes * t.shape.prod

/-- A model file as the runtime sees it. -/
structure Model where
  inputs : List TensorInfo
  outputs : List TensorInfo
  /-- the runtime can load it -/
  loads : Bool
  /-- contents of the input and output buffers after loading -/
  blank : List Bytes × List Bytes
  /-- hidden state after loading or resetting -/
  init : Nat
  /-- one inference: hidden state and inputs to new hidden state, outputs and overwritten inputs -/
  run : Nat → List Bytes → Nat × List Bytes × List Bytes

/-- Buffers have the sizes of the tensors. -/
def Sized (ts : List TensorInfo) (bs : List Bytes) : Prop := bs.map List.length = ts.map TensorInfo.bytes

/-- Contract of the inference engine for a model that loads, with element types that the host interpreter knows. -/
structure Model.OK (m : Model) : Prop where
  loads : m.loads = true
  blank : Sized m.inputs m.blank.1 ∧ Sized m.outputs m.blank.2
  run : ∀ st ins, Sized m.inputs ins → Sized m.outputs (m.run st ins).2.1 ∧ Sized m.inputs (m.run st ins).2.2
  typesIn : ∀ t ∈ m.inputs, ∀ n, t.type ≠ .other n
  typesOut : ∀ t ∈ m.outputs, ∀ n, t.type ≠ .other n

/-! ### Model of the code -/

/-- The engine behind `self.obj` (dll_interpreter.cc 56-100). -/
structure Engine where
  model : Model
  loaded : Bool
  st : Nat
  ins : List Bytes
  outs : List Bytes

/-- `self.models` (tile and model, host_interpreter.py 115) and `self.obj`.  Earlier engines are dropped without being deleted. -/
structure State where
  models : List (Int × Model)
  obj : Option Engine

/-- `__init__` (host_interpreter.py 51-115): no model; `self.obj` does not exist. -/
def fresh : State := ⟨[], none⟩

inductive Outcome
  | ok (s : State) (reply : Bytes)
  | raised
  | undefined

/-- `get_model` (host_interpreter.py 596-599): the first model of that tile. -/
def getModel (s : State) (idx : Int) : Option Model := (s.models.find? fun p => p.1 == idx).map Prod.snd

/-- The size computation of `get_input_tensor_size` and `get_tensor_size` (host_interpreter.py 288-311, 373-392): `none` if the type
is not one of four (an exception). -/
def tensorSize (t : TensorInfo) : Option Nat :=
  (match t.type with
   | .int8 => some 1
   | .int16 => some 2
   | .int32 => some 4
   | .float32 => some 4
   | .other _ => none).map fun n => t.shape.foldl (· * ·) n

/-- `new_interpreter` followed by `initialize` (dll_interpreter.cc 56-113): the result of loading is not looked at. -/
def newEngine (m : Model) : Engine := ⟨m, m.loads, m.init, m.blank.1, m.blank.2⟩

/-- `set_model` (host_interpreter.py 541-594): if the index already has a model, the new one is assigned to the loop variable only
(lines 568-579), so `self.models` keeps the old one; then `initialise_interpreter` (lines 124-152) loads the last entry of that
index into a new engine. -/
def setModel (s : State) (m : Model) (idx : Int) : Outcome :=
  let models := if s.models.any fun p => p.1 == idx then s.models else s.models ++ [(idx, m)]
  match (models.filter fun p => p.1 == idx).getLast? with
  | none => .raised
  | some p => .ok ⟨models, some (newEngine p.2)⟩ []

/-- `memcpy` of `v` over the front of a buffer. -/
def overwrite (old v : Bytes) : Bytes := v ++ old.drop v.length

/-- `set_tensor` (host_interpreter.py 154-173) and `set_input_tensor` (dll_interpreter.cc 144-148).  The model index is not passed
on; a wrong length is only reported on the console (lines 166-171). -/
def setTensor (s : State) (i : Nat) (v : Bytes) : Outcome :=
  match getModel s 0 with
  | none => .raised
  | some m =>
    match m.inputs[i]? with
    | none => .undefined
    | some t =>
      match tensorSize t with
      | none => .raised
      | some _ =>
        match s.obj with
        | none => .undefined
        | some e =>
          match e.ins[i]? with
          | none => .undefined
          | some old =>
            if e.loaded = true ∧ v.length ≤ old.length then
              .ok { s with obj := some { e with ins := e.ins.set i (overwrite old v) } } []
            else .undefined

/-- `get_tensor` (host_interpreter.py 175-214) and `get_output_tensor` (dll_interpreter.cc 156-160): the output is looked up by its
tensor index in the model of index 0; `own` is the length in bytes of the array supplied by the caller, if any (the check of
lines 205-209 compares a length with itself). -/
def getTensor (s : State) (ti : Nat) (own : Option Nat) : Outcome :=
  match getModel s 0 with
  | none => .raised
  | some m =>
    match m.outputs.findIdx? fun t => t.index == ti with
    | none => .raised
    | some count =>
      match (m.outputs[count]?).bind tensorSize with
      | none => .raised
      | some size =>
        match s.obj with
        | none => .undefined
        | some e =>
          match e.outs[count]? with
          | none => .undefined
          | some b =>
            let len := own.getD size
            if e.loaded = true ∧ len ≤ b.length then .ok s (b.take len) else .undefined

/-- `get_input_tensor` (host_interpreter.py 216-231, dll_interpreter.cc 150-154): the details come from the model of the given index,
the data from the current engine. -/
def getInput (s : State) (i : Nat) (idx : Int) : Outcome :=
  match getModel s idx with
  | none => .raised
  | some m =>
    match (m.inputs[i]?).bind tensorSize with
    | none => .raised
    | some size =>
      match s.obj with
      | none => .undefined
      | some e =>
        match e.ins[i]? with
        | none => .undefined
        | some b => if e.loaded = true ∧ size ≤ b.length then .ok s (b.take size) else .undefined

/-- `invoke` (host_interpreter.py 237-243, dll_interpreter.cc 162): the current engine, whatever the model index. -/
def invoke (s : State) : Outcome :=
  match s.obj with
  | none => .undefined
  | some e =>
    if e.loaded = true then
      let r := e.model.run e.st e.ins
      .ok { s with obj := some { e with st := r.1, outs := r.2.1, ins := r.2.2 } } []
    else .undefined

/-- `reset` (host_interpreter.py 233-235, dll_interpreter.cc 164). -/
def reset (s : State) : Outcome :=
  match s.obj with
  | none => .undefined
  | some e => if e.loaded = true then .ok { s with obj := some { e with st := e.model.init } } [] else .undefined

inductive Call
  | setModel (m : Model) (idx : Int)
  | setTensor (i : Nat) (v : Bytes) (idx : Int)
  | getTensor (ti : Nat) (own : Option Nat) (idx : Int)
  | getInput (i : Nat) (idx : Int)
  | invoke (idx : Int)
  | reset (idx : Int)

/-- One API call. -/
def call (s : State) : Call → Outcome
  | .setModel m idx => setModel s m idx
  | .setTensor i v _ => setTensor s i v
  | .getTensor ti own _ => getTensor s ti own
  | .getInput i idx => getInput s i idx
  | .invoke _ => invoke s
  | .reset _ => reset s

/-- A history of calls: the reply is that of the last one. -/
def calls : State → List Call → Bytes → Outcome
  | s, [], r => .ok s r
  | s, c :: cs, _ =>
    match call s c with
    | .ok s' r => calls s' cs r
    | .raised => .raised
    | .undefined => .undefined

theorem calls_append (s : State) (a b : List Call) (r : Bytes) :
    calls s (a ++ b) r = match calls s a r with
      | .ok s' r' => calls s' b r'
      | .raised => .raised
      | .undefined => .undefined := by
  induction a generalizing s r with
  | nil => rfl
  | cons c a ih =>
    simp only [List.cons_append, calls]
    cases call s c with
    | ok s' r' => exact ih s' r'
    | raised => rfl
    | undefined => rfl

/-! ### C68, C70: one model -/

/-- A call that fits the model: an existing input with a value of its size, an existing output read into a new array. -/
def Fits (m : Model) : Call → Prop
  | .setModel _ _ => False
  | .setTensor i v _ => ∃ t, m.inputs[i]? = some t ∧ v.length = t.bytes
  | .getTensor ti own _ => (∃ t ∈ m.outputs, t.index = ti) ∧ own = none
  | .getInput i idx => i < m.inputs.length ∧ idx = 0
  | .invoke _ => True
  | .reset _ => True

/-- The session runs model `m`, loaded, with buffers of the right sizes. -/
def Ready (m : Model) (s : State) (e : Engine) : Prop :=
  s.models = [(0, m)] ∧ s.obj = some e ∧ e.model = m ∧ e.loaded = true ∧ Sized m.inputs e.ins ∧ Sized m.outputs e.outs

theorem foldl_mul (l : List Nat) : ∀ n, l.foldl (· * ·) n = n * l.prod := by
  induction l with
  | nil => intro n; simp
  | cons a l ih => intro n; rw [List.foldl_cons, ih, List.prod_cons, Nat.mul_assoc]

theorem tensorSize_eq {t : TensorInfo} (h : ∀ n, t.type ≠ .other n) : tensorSize t = some t.bytes := by
  unfold tensorSize TensorInfo.bytes
  cases ht : t.type with
  | other n => exact absurd ht (h n)
  | _ => simp only [Option.map_some, foldl_mul, ElemType.bytes]

theorem Sized.get {ts : List TensorInfo} {bs : List Bytes} (h : Sized ts bs) {i : Nat} {t : TensorInfo} (ht : ts[i]? = some t) :
    ∃ b, bs[i]? = some b ∧ b.length = t.bytes := by
  unfold Sized at h
  have := congrArg (fun l => l[i]?) h
  simp only [List.getElem?_map, ht, Option.map_some] at this
  cases hb : bs[i]? with
  | none => rw [hb] at this; simp at this
  | some b => rw [hb] at this; exact ⟨b, rfl, by simpa using this⟩

theorem Sized.set {ts : List TensorInfo} {bs : List Bytes} (h : Sized ts bs) {i : Nat} {t : TensorInfo} (ht : ts[i]? = some t)
    {v : Bytes} (hv : v.length = t.bytes) : Sized ts (bs.set i v) := by
  unfold Sized at *
  apply List.ext_getElem?
  intro j
  have hj := congrArg (fun l => l[j]?) h
  simp only [List.getElem?_map] at hj ⊢
  rw [List.getElem?_set]
  by_cases hij : i = j
  · subst hij
    rw [if_pos rfl]
    obtain ⟨b, hb, _⟩ := Sized.get h ht
    have : i < bs.length := (List.getElem?_eq_some_iff.1 hb).1
    rw [if_pos this, ht]
    simp [hv]
  · rw [if_neg hij]; exact hj

theorem getModel_ready {m : Model} {s : State} {e : Engine} (h : Ready m s e) : getModel s 0 = some m := by
  unfold getModel; rw [h.1]; rfl

theorem setTensor_ready {m : Model} (ok : m.OK) {s : State} {e : Engine} (h : Ready m s e) {i : Nat} {t : TensorInfo}
    (ht : m.inputs[i]? = some t) {v : Bytes} (hv : v.length = t.bytes) :
    setTensor s i v = .ok { s with obj := some { e with ins := e.ins.set i v } } [] := by
  obtain ⟨h1, h2, h3, h4, h5, h6⟩ := h
  obtain ⟨b, hb, hbl⟩ := h5.get ht
  unfold setTensor
  rw [getModel_ready ⟨h1, h2, h3, h4, h5, h6⟩]
  dsimp only
  rw [ht]
  dsimp only
  rw [tensorSize_eq (ok.typesIn t (List.mem_of_getElem? ht)), h2]
  dsimp only
  rw [hb]
  dsimp only
  rw [if_pos ⟨h4, by omega⟩]
  have : overwrite b v = v := by
    unfold overwrite
    rw [List.drop_eq_nil_of_le (by omega), List.append_nil]
  rw [this]

theorem getTensor_ready {m : Model} (ok : m.OK) {s : State} {e : Engine} (h : Ready m s e) {ti : Nat}
    (ht : ∃ t ∈ m.outputs, t.index = ti) :
    ∃ (k : Nat) (t : TensorInfo) (b : Bytes), m.outputs[k]? = some t ∧ t.index = ti ∧ (∀ j t', j < k → m.outputs[j]? = some t' → t'.index ≠ ti) ∧
      e.outs[k]? = some b ∧ getTensor s ti none = .ok s b := by
  obtain ⟨h1, h2, h3, h4, h5, h6⟩ := h
  unfold getTensor
  rw [getModel_ready ⟨h1, h2, h3, h4, h5, h6⟩]
  dsimp only
  cases hf : m.outputs.findIdx? fun t => t.index == ti with
  | none =>
    rw [List.findIdx?_eq_none_iff] at hf
    obtain ⟨t, ht1, ht2⟩ := ht
    have := hf t ht1
    simp [ht2] at this
  | some k =>
    obtain ⟨hk, hk2, hk3⟩ := List.findIdx?_eq_some_iff_getElem.1 hf
    have hget : m.outputs[k]? = some m.outputs[k] := List.getElem?_eq_getElem hk
    obtain ⟨b, hb, hbl⟩ := h6.get hget
    refine ⟨k, m.outputs[k], b, hget, by simpa using hk2, fun j t' hj ht' => ?_, hb, ?_⟩
    · have h := hk3 j hj
      obtain ⟨hj1, rfl⟩ := List.getElem?_eq_some_iff.1 ht'
      simpa using h
    dsimp only
    rw [hget, Option.bind_some, tensorSize_eq (ok.typesOut _ (List.getElem_mem hk)), h2]
    dsimp only
    rw [hb]
    dsimp only [Option.getD_none]
    rw [if_pos ⟨h4, by omega⟩, ← hbl, List.take_length]

/-- The engine after an inference. -/
def inferred (e : Engine) : Engine :=
  { e with st := (e.model.run e.st e.ins).1, outs := (e.model.run e.st e.ins).2.1, ins := (e.model.run e.st e.ins).2.2 }

theorem invoke_some {s : State} {e : Engine} (h2 : s.obj = some e) (h4 : e.loaded = true) :
    invoke s = .ok { s with obj := some (inferred e) } [] := by
  unfold invoke inferred
  rw [h2]
  dsimp only
  rw [if_pos h4]

theorem call_ready {m : Model} (ok : m.OK) {s : State} {e : Engine} (h : Ready m s e) (c : Call) (hc : Fits m c) :
    ∃ s' e' r, call s c = .ok s' r ∧ Ready m s' e' := by
  have h' := h
  obtain ⟨h1, h2, h3, h4, h5, h6⟩ := h
  cases c with
  | setModel m' idx => exact hc.elim
  | setTensor i v idx =>
    obtain ⟨t, ht, hv⟩ := hc
    exact ⟨_, _, _, setTensor_ready ok h' ht hv, h1, rfl, h3, h4, h5.set ht hv, h6⟩
  | getTensor ti own idx =>
    obtain ⟨hi, rfl⟩ := hc
    obtain ⟨k, t, b, _, _, _, _, hg⟩ := getTensor_ready ok h' hi
    exact ⟨_, _, _, hg, h'⟩
  | getInput i idx =>
    obtain ⟨hi, rfl⟩ := hc
    have hget : m.inputs[i]? = some m.inputs[i] := List.getElem?_eq_getElem hi
    obtain ⟨b, hb, hbl⟩ := h5.get hget
    refine ⟨s, e, b.take m.inputs[i].bytes, ?_, h'⟩
    show getInput s i 0 = _
    unfold getInput
    rw [getModel_ready h']
    dsimp only
    rw [hget, Option.bind_some, tensorSize_eq (ok.typesIn _ (List.getElem_mem hi)), h2]
    dsimp only
    rw [hb]
    dsimp only
    rw [if_pos ⟨h4, by omega⟩]
  | invoke idx =>
    refine ⟨{ s with obj := some (inferred e) }, inferred e, [], invoke_some h2 h4, h1, rfl, h3, h4, ?_, ?_⟩
    · unfold inferred; dsimp only; rw [h3]; exact (ok.run _ _ h5).2
    · unfold inferred; dsimp only; rw [h3]; exact (ok.run _ _ h5).1
  | reset idx =>
    exact ⟨{ s with obj := some { e with st := e.model.init } }, { e with st := e.model.init }, [],
      (by show reset s = _; unfold reset; rw [h2]; dsimp only; rw [if_pos h4]), h1, rfl, h3, h4, h5, h6⟩

theorem calls_ready {m : Model} (ok : m.OK) (cs : List Call) (hc : ∀ c ∈ cs, Fits m c) :
    ∀ {s : State} {e : Engine} (r : Bytes), Ready m s e → ∃ s' e' r', calls s cs r = .ok s' r' ∧ Ready m s' e' := by
  induction cs with
  | nil => intro s e r h; exact ⟨s, e, r, rfl, h⟩
  | cons c cs ih =>
    intro s e r h
    obtain ⟨s', e', r', h1, h2⟩ := call_ready ok h c (hc c List.mem_cons_self)
    obtain ⟨s2, e2, r2, h3, h4⟩ := ih (fun c' h' => hc c' (List.mem_cons_of_mem _ h')) r' h2
    exact ⟨s2, e2, r2, by rw [calls, h1]; exact h3, h4⟩

theorem setModel_ready {m : Model} (ok : m.OK) :
    setModel fresh m 0 = .ok ⟨[(0, m)], some (newEngine m)⟩ [] ∧ Ready m ⟨[(0, m)], some (newEngine m)⟩ (newEngine m) :=
  ⟨rfl, rfl, rfl, rfl, ok.loads, ok.blank⟩

/-- **C70.** On an interpreter with one model, every history of calls that fit the model - values of the right size, existing
tensors, results read into new arrays - stays inside the buffers and raises nothing. -/
theorem C70_no_undefined_partial {m : Model} (ok : m.OK) (cs : List Call) (hc : ∀ c ∈ cs, Fits m c) :
    ∃ s r, calls fresh (.setModel m 0 :: cs) [] = .ok s r := by
  obtain ⟨h1, h2⟩ := setModel_ready ok
  obtain ⟨s', e', r', h3, _⟩ := calls_ready ok cs hc [] h2
  exact ⟨s', r', by rw [calls, show call fresh (.setModel m 0) = _ from h1]; exact h3⟩

/-- The value that a list of assignments leaves at position `i`. -/
def lastSet (sets : List (Nat × Bytes)) (i : Nat) : Option Bytes := (sets.reverse.find? fun p => p.1 == i).map Prod.snd

theorem calls_sets {m : Model} (ok : m.OK) : ∀ (sets : List (Nat × Bytes)) {s : State} {e : Engine} (r : Bytes), Ready m s e →
    (∀ p ∈ sets, ∃ t, m.inputs[p.1]? = some t ∧ p.2.length = t.bytes) →
    ∃ ins r', calls s (sets.map fun p => Call.setTensor p.1 p.2 0) r = .ok { s with obj := some { e with ins := ins } } r' ∧
      Ready m { s with obj := some { e with ins := ins } } { e with ins := ins } ∧
      ∀ i, ins[i]? = (lastSet sets i).or e.ins[i]? := by
  intro sets
  induction sets with
  | nil =>
    intro s e r h _
    have : ({ s with obj := some { e with ins := e.ins } } : State) = s := by
      cases s; simp only [State.mk.injEq, true_and]; exact h.2.1.symm
    refine ⟨e.ins, r, ?_, ?_, fun i => by simp [lastSet]⟩
    · rw [this]; rfl
    · rw [this]; exact h
  | cons p ps ih =>
    intro s e r h hs
    obtain ⟨t, ht, hv⟩ := hs p List.mem_cons_self
    have h1 := setTensor_ready ok h ht hv
    have hr : Ready m { s with obj := some { e with ins := e.ins.set p.1 p.2 } } { e with ins := e.ins.set p.1 p.2 } :=
      ⟨h.1, rfl, h.2.2.1, h.2.2.2.1, h.2.2.2.2.1.set ht hv, h.2.2.2.2.2⟩
    obtain ⟨ins, r', g1, g2, g3⟩ := ih [] hr fun q hq => hs q (List.mem_cons_of_mem _ hq)
    refine ⟨ins, r', ?_, g2, fun i => ?_⟩
    · rw [List.map_cons, calls, show call s (.setTensor p.1 p.2 0) = _ from h1]
      exact g1
    · rw [g3 i]
      unfold lastSet
      rw [List.reverse_cons, List.find?_append]
      cases hf : ps.reverse.find? fun q => q.1 == i with
      | some q => rfl
      | none =>
        simp only [Option.map_none, Option.none_or]
        rw [List.getElem?_set]
        by_cases hpi : p.1 = i
        · obtain ⟨b, hb, _⟩ := h.2.2.2.2.1.get ht
          have hlt : p.1 < e.ins.length := (List.getElem?_eq_some_iff.1 hb).1
          subst hpi
          simp [hlt]
        · rw [if_neg hpi]
          have : (p.1 == i) = false := by simpa using hpi
          simp [this]

/-- **C68.** On an interpreter with one model, after any history of fitting calls: setting every input at least once, in any order
and any number of times, then invoking and reading the output with tensor index `ti`, gives the (first) output of that index, as computed by
the model from the values that were set last (and from its hidden state `e.st`, which nothing but inferences and resets
change). -/
theorem C68_inference {m : Model} (ok : m.OK) (before : List Call) (hb : ∀ c ∈ before, Fits m c)
    (sets : List (Nat × Bytes)) (hs : ∀ p ∈ sets, ∃ t, m.inputs[p.1]? = some t ∧ p.2.length = t.bytes)
    (vals : List Bytes) (hlen : vals.length = m.inputs.length) (hvals : ∀ i (h : i < vals.length), lastSet sets i = some vals[i])
    (ti : Nat) (hti : ∃ t ∈ m.outputs, t.index = ti) :
    ∃ (s0 s : State) (e0 : Engine) (r0 reply : Bytes) (k : Nat) (t : TensorInfo),
      calls fresh (.setModel m 0 :: before) [] = .ok s0 r0 ∧ s0.obj = some e0 ∧
      calls fresh (.setModel m 0 :: before ++ sets.map (fun p => Call.setTensor p.1 p.2 0) ++ [.invoke 0, .getTensor ti none 0]) []
        = .ok s reply ∧
      m.outputs[k]? = some t ∧ t.index = ti ∧ (∀ j t', j < k → m.outputs[j]? = some t' → t'.index ≠ ti) ∧
      (m.run e0.st vals).2.1[k]? = some reply := by
  obtain ⟨h1, h2⟩ := setModel_ready ok
  obtain ⟨s0, e0, r0, h3, h4⟩ := calls_ready ok before hb [] h2
  have hbefore : calls fresh (.setModel m 0 :: before) [] = .ok s0 r0 := by
    rw [calls, show call fresh (.setModel m 0) = _ from h1]; exact h3
  obtain ⟨ins, r1, g1, g2, g3⟩ := calls_sets ok sets r0 h4 hs
  have hins : ins = vals := by
    apply List.ext_getElem?
    intro i
    by_cases hi : i < vals.length
    · rw [g3 i, hvals i hi, List.getElem?_eq_getElem hi]; rfl
    · have e1 : ins.length = m.inputs.length := by
        have := congrArg List.length g2.2.2.2.2.1
        simpa using this
      rw [List.getElem?_eq_none (by omega), List.getElem?_eq_none (by omega)]
  subst hins
  obtain ⟨q1, q2, q3, q4, q5, q6⟩ := g2
  set s1 : State := { s0 with obj := some { e0 with ins := ins } } with hs1
  have hinv : ∃ s2 e2, invoke s1 = .ok s2 [] ∧ Ready m s2 e2 ∧ e2.outs = (m.run e0.st ins).2.1 := by
    refine ⟨_, _, invoke_some q2 q4, ⟨q1, rfl, q3, q4, ?_, ?_⟩, ?_⟩
    · unfold inferred; dsimp only; rw [show e0.model = m from q3]; exact (ok.run _ _ q5).2
    · unfold inferred; dsimp only; rw [show e0.model = m from q3]; exact (ok.run _ _ q5).1
    · unfold inferred; dsimp only; rw [show e0.model = m from q3]
  obtain ⟨s2, e2, hi1, hi2, hi3⟩ := hinv
  obtain ⟨k, t, b, hk, htk, hfst, hbk, hg⟩ := getTensor_ready ok hi2 hti
  refine ⟨s0, s2, e0, r0, b, k, t, hbefore, h4.2.1, ?_, hk, htk, hfst, by rw [← hi3]; exact hbk⟩
  rw [List.append_assoc, calls_append, hbefore]
  dsimp only
  rw [calls_append, g1]
  dsimp only
  rw [calls, show call s1 (.invoke 0) = _ from hi1]
  dsimp only
  rw [calls, show call s2 (.getTensor ti none 0) = _ from hg]
  rfl

/-- **C68**, reproducibility: after a reset, setting the inputs, invoking and reading an output gives the same bytes whatever was
called before the reset. -/
theorem C68_reset_reproducible {m : Model} (ok : m.OK) (before : List Call) (hb : ∀ c ∈ before, Fits m c)
    (sets : List (Nat × Bytes)) (hs : ∀ p ∈ sets, ∃ t, m.inputs[p.1]? = some t ∧ p.2.length = t.bytes)
    (vals : List Bytes) (hlen : vals.length = m.inputs.length) (hvals : ∀ i (h : i < vals.length), lastSet sets i = some vals[i])
    (ti : Nat) (hti : ∃ t ∈ m.outputs, t.index = ti) :
    ∃ (s s' : State) (reply : Bytes),
      calls fresh (.setModel m 0 :: (before ++ [.reset 0]) ++ sets.map (fun p => Call.setTensor p.1 p.2 0) ++
        [.invoke 0, .getTensor ti none 0]) [] = .ok s reply ∧
      calls fresh (.setModel m 0 :: [] ++ sets.map (fun p => Call.setTensor p.1 p.2 0) ++ [.invoke 0, .getTensor ti none 0]) []
        = .ok s' reply := by
  have key : ∀ b : List Call, (∀ c ∈ b, Fits m c) → (∀ s0 e0 r0, calls fresh (.setModel m 0 :: b) [] = .ok s0 r0 →
      s0.obj = some e0 → e0.st = m.init) → ∃ (s : State) (reply : Bytes),
      calls fresh (.setModel m 0 :: b ++ sets.map (fun p => Call.setTensor p.1 p.2 0) ++ [.invoke 0, .getTensor ti none 0]) []
        = .ok s reply ∧ ((m.outputs.findIdx? fun t => t.index == ti).bind fun k => (m.run m.init vals).2.1[k]?) = some reply := by
    intro b hb' hst
    obtain ⟨s0, s, e0, r0, reply, k, t, h1, h2, h3, h4, h5, h6, h7⟩ := C68_inference ok b hb' sets hs vals hlen hvals ti hti
    refine ⟨s, reply, h3, ?_⟩
    rw [hst s0 e0 r0 h1 h2] at h7
    have : m.outputs.findIdx? (fun t => t.index == ti) = some k := by
      rw [List.findIdx?_eq_some_iff_getElem]
      obtain ⟨hk, hk2⟩ := List.getElem?_eq_some_iff.1 h4
      refine ⟨hk, by rw [hk2]; simpa using h5, fun j hj => ?_⟩
      have := h6 j m.outputs[j] hj (List.getElem?_eq_getElem (by omega))
      simpa using this
    rw [this]
    exact h7
  obtain ⟨h1, h2⟩ := setModel_ready ok
  obtain ⟨sa, ra, a1, a2⟩ := key (before ++ [.reset 0]) (by
      intro c hc
      rcases List.mem_append.1 hc with h | h
      · exact hb c h
      · rw [List.mem_singleton.1 h]; trivial) (by
      intro s0 e0 r0 h3 h4
      obtain ⟨s1, e1, r1, g1, g2⟩ := calls_ready ok before hb [] h2
      rw [calls, show call fresh (.setModel m 0) = _ from h1] at h3
      dsimp only at h3
      rw [calls_append, g1] at h3
      dsimp only at h3
      rw [calls] at h3
      have : call s1 (.reset 0) = .ok { s1 with obj := some { e1 with st := e1.model.init } } [] := by
        show reset s1 = _; unfold reset; rw [g2.2.1]; dsimp only; rw [if_pos g2.2.2.2.1]
      rw [this] at h3
      dsimp only [calls] at h3
      cases h3
      cases h4
      show e1.model.init = m.init
      rw [g2.2.2.1])
  obtain ⟨sb, rb, b1, b2⟩ := key [] (by intro c hc; cases hc) (by
      intro s0 e0 r0 h3 h4
      rw [calls, show call fresh (.setModel m 0) = _ from h1] at h3
      dsimp only [calls] at h3
      cases h3
      cases h4
      rfl)
  rw [a2] at b2
  cases b2
  exact ⟨sa, sb, ra, a1, b1⟩

/-! ### C69: several models -/

/-- The models given for index `idx` by a history, in order. -/
def given (idx : Int) (cs : List Call) : List Model :=
  cs.filterMap fun c => match c with
    | .setModel m j => if j = idx then some m else none
    | _ => none

theorem call_models (s s' : State) (c : Call) (r : Bytes) (h : call s c = .ok s' r) :
    (match c with
     | .setModel m j => s'.models = if s.models.any fun p => p.1 == j then s.models else s.models ++ [(j, m)]
     | _ => s'.models = s.models) := by
  cases c with
  | setModel m j =>
    dsimp only
    simp only [call, setModel] at h
    split at h
    · cases h
    · cases h; rfl
  | setTensor i v idx =>
    simp only [call, setTensor] at h
    repeat' split at h
    all_goals (cases h <;> rfl)
  | getTensor ti own idx =>
    simp only [call, getTensor] at h
    repeat' split at h
    all_goals (cases h <;> rfl)
  | getInput i idx =>
    simp only [call, getInput] at h
    repeat' split at h
    all_goals (cases h <;> rfl)
  | invoke idx =>
    simp only [call, invoke] at h
    repeat' split at h
    all_goals (cases h <;> rfl)
  | reset idx =>
    simp only [call, reset] at h
    repeat' split at h
    all_goals (cases h <;> rfl)

/-- The entries of index `idx` after a history: the first model that was ever given for it, and only that. -/
theorem calls_models (idx : Int) (cs : List Call) : ∀ (s s' : State) (r r' : Bytes), calls s cs r = .ok s' r' →
    s'.models.filter (fun p => p.1 == idx) =
      if s.models.any fun p => p.1 == idx then s.models.filter fun p => p.1 == idx
      else ((given idx cs).head?.map fun m => (idx, m)).toList := by
  induction cs with
  | nil =>
    intro s s' r r' h
    simp only [calls, Outcome.ok.injEq] at h
    obtain ⟨rfl, rfl⟩ := h
    by_cases ha : s.models.any fun p => p.1 == idx
    · rw [if_pos ha]
    · rw [if_neg ha]
      have : s.models.filter (fun p => p.1 == idx) = [] := by
        rw [List.filter_eq_nil_iff]
        intro p hp hpi
        exact ha (List.any_eq_true.2 ⟨p, hp, hpi⟩)
      rw [this]; rfl
  | cons c cs ih =>
    intro s s' r r' h
    rw [calls] at h
    cases hc : call s c with
    | raised => rw [hc] at h; cases h
    | undefined => rw [hc] at h; cases h
    | ok s1 r1 =>
      rw [hc] at h
      dsimp only at h
      rw [ih s1 s' r1 r' h]
      have hm := call_models s s1 c r1 hc
      cases c with
      | setModel m j =>
        dsimp only at hm
        rw [hm]
        by_cases hj : j = idx
        · subst hj
          have hg : given j (.setModel m j :: cs) = m :: given j cs := by simp [given]
          rw [hg]
          by_cases ha : s.models.any fun p => p.1 == j
          · rw [if_pos ha, if_pos ha, if_pos ha]
          · have hnil : s.models.filter (fun p => p.1 == j) = [] := by
              rw [List.filter_eq_nil_iff]
              intro p hp hpi
              exact ha (List.any_eq_true.2 ⟨p, hp, hpi⟩)
            rw [if_neg ha, if_neg ha, if_pos (by simp)]
            rw [List.filter_append, hnil]
            simp
        · have hg : given idx (.setModel m j :: cs) = given idx cs := by simp [given, hj]
          rw [hg]
          by_cases ha : s.models.any fun p => p.1 == j
          · rw [if_pos ha]
          · rw [if_neg ha]
            have hjb : (j == idx) = false := by simpa using hj
            have e1 : ((s.models ++ [(j, m)]).any fun p => p.1 == idx) = s.models.any fun p => p.1 == idx := by
              rw [List.any_append]
              simp only [List.any_cons, hjb, List.any_nil, Bool.or_self, Bool.or_false]
            have e2 : (s.models ++ [(j, m)]).filter (fun p => p.1 == idx) = s.models.filter fun p => p.1 == idx := by
              rw [List.filter_append, List.filter_cons]
              simp only [hjb, List.filter_nil, Bool.false_eq_true, if_false, List.append_nil]
            rw [e1, e2]
      | setTensor i v k => dsimp only at hm; rw [hm]; rfl
      | getTensor ti own k => dsimp only at hm; rw [hm]; rfl
      | getInput i k => dsimp only at hm; rw [hm]; rfl
      | invoke k => dsimp only at hm; rw [hm]; rfl
      | reset k => dsimp only at hm; rw [hm]; rfl

/-- **C69.** After every history, setting a model for an index puts the interpreter into the state after loading the FIRST model
that was ever given for that index; in particular, a model for an index that had none is what runs from then on. -/
theorem C69_first_model_wins_partial (cs : List Call) (s : State) (r : Bytes) (h : calls fresh cs [] = .ok s r) (m : Model)
    (idx : Int) :
    ∃ s', calls fresh (cs ++ [.setModel m idx]) [] = .ok s' [] ∧
      s'.obj = some (newEngine ((given idx cs).head?.getD m)) := by
  have h1 : s.models.filter (fun p => p.1 == idx) = ((given idx cs).head?.map fun m => (idx, m)).toList := by
    have := calls_models idx cs fresh s [] r h
    rw [this]; rfl
  rw [calls_append, h]
  dsimp only
  rw [calls]
  show ∃ s', (match setModel s m idx with
    | .ok s' r => calls s' [] r
    | .raised => .raised
    | .undefined => .undefined) = .ok s' [] ∧ _
  unfold setModel
  dsimp only
  cases hg : (given idx cs).head? with
  | some m0 =>
    rw [hg] at h1
    have ha : (s.models.any fun p => p.1 == idx) = true := by
      have hmem : (idx, m0) ∈ s.models.filter (fun p => p.1 == idx) := by rw [h1]; simp
      rw [List.mem_filter] at hmem
      exact List.any_eq_true.2 ⟨_, hmem.1, hmem.2⟩
    rw [if_pos ha, h1]
    exact ⟨_, rfl, rfl⟩
  | none =>
    rw [hg] at h1
    have ha : ¬ (s.models.any fun p => p.1 == idx) = true := by
      intro hc
      obtain ⟨p, hp, hpi⟩ := List.any_eq_true.1 hc
      have : p ∈ s.models.filter (fun p => p.1 == idx) := List.mem_filter.2 ⟨hp, hpi⟩
      rw [h1] at this
      cases this
    rw [if_neg ha, List.filter_append, h1]
    have : List.filter (fun p => p.1 == idx) [(idx, m)] = [(idx, m)] := by simp
    rw [this]
    exact ⟨_, rfl, rfl⟩

/-! ### Example models, and the refutations -/

/-- One input of four bytes, two outputs: the first (tensor 7) has the input plus `k`, the second (tensor 5) the number of
inferences. -/
def adder (k : Nat) : Model :=
  ⟨[⟨3, [2, 2], .int8⟩], [⟨7, [4], .int8⟩, ⟨5, [], .int8⟩], true, ([[0, 0, 0, 0]], [[0, 0, 0, 0], [0]]), 0,
    fun st ins => (st + 1, [(ins.getD 0 []).map (· + k), [st + 1]], ins)⟩

theorem adder_ok (k : Nat) : (adder k).OK := by
  refine ⟨rfl, ⟨rfl, rfl⟩, fun st ins h => ⟨?_, h⟩, ?_, ?_⟩
  · unfold Sized at h
    have hl : ins.length = 1 := by simpa [adder] using congrArg List.length h
    match ins, hl with
    | [b], _ =>
      have : b.length = 4 := by simpa [adder, TensorInfo.bytes, ElemType.bytes] using h
      simp [Sized, adder, TensorInfo.bytes, ElemType.bytes, this]
  · intro t ht n
    simp only [adder, List.mem_singleton] at ht
    rw [ht]; simp
  · intro t ht n
    simp only [adder, List.mem_cons, List.not_mem_nil, or_false] at ht
    rcases ht with rfl | rfl <;> simp

example : ∃ s, calls fresh [.setModel (adder 10) 0, .invoke 0, .setTensor 0 [9, 9, 9, 9] 0, .setTensor 0 [1, 2, 3, 4] 0, .invoke 0,
    .getTensor 7 none 0] [] = .ok s [11, 12, 13, 14] := ⟨_, rfl⟩
example : ∃ s, calls fresh [.setModel (adder 10) 0, .invoke 0, .setTensor 0 [1, 2, 3, 4] 0, .invoke 0, .getTensor 5 none 0] []
    = .ok s [2] := ⟨_, rfl⟩

/-- Replacing the model of an index: the old one still runs. -/
theorem C69_replace_refuted : ∃ s, calls fresh [.setModel (adder 10) 0, .setModel (adder 20) 0, .setTensor 0 [1, 2, 3, 4] 0,
    .invoke 0, .getTensor 7 none 0] [] = .ok s [11, 12, 13, 14] := ⟨_, rfl⟩

/-- Two models, and every later call names index 0: the model of index 1 runs. -/
theorem C69_model_index_refuted : ∃ s, calls fresh [.setModel (adder 10) 0, .setModel (adder 20) 1, .setTensor 0 [1, 2, 3, 4] 0,
    .invoke 0, .getTensor 7 none 0] [] = .ok s [21, 22, 23, 24] := ⟨_, rfl⟩

/-- Only a model for index 1, and every later call names index 1: the calls look for a model of index 0 and raise. -/
theorem C69_index_one_refuted :
    calls fresh [.setModel (adder 10) 1, .setTensor 0 [1, 2, 3, 4] 1] [] = .raised ∧
    calls fresh [.setModel (adder 10) 1, .invoke 1, .getTensor 7 none 1] [] = .raised := ⟨rfl, rfl⟩

/-- A model that cannot be loaded: setting it raises nothing, and the next call is undefined. -/
theorem C69_load_failure_refuted : (∃ s, calls fresh [.setModel { adder 10 with loads := false } 0] [] = .ok s []) ∧
    calls fresh [.setModel { adder 10 with loads := false } 0, .invoke 0] [] = .undefined := ⟨⟨_, rfl⟩, rfl⟩

/-- A value longer than the input tensor is written past the end of its buffer; the message on the console is no exception. -/
theorem C70_long_value_refuted (k : Nat) (v : Bytes) (hv : 4 < v.length) :
    calls fresh [.setModel (adder k) 0, .setTensor 0 v 0] [] = .undefined := by
  have : ¬ v.length ≤ 4 := by omega
  show (match (if true = true ∧ v.length ≤ 4 then _ else Outcome.undefined) with
    | .ok s' r => calls s' [] r
    | .raised => .raised
    | .undefined => .undefined) = _
  rw [if_neg (fun h => this h.2)]

/-- A value shorter than the input tensor is accepted: the rest of the input keeps what it held before. -/
theorem C70_short_value_refuted : ∃ s, calls fresh [.setModel (adder 0) 0, .setTensor 0 [9, 9, 9, 9] 0, .setTensor 0 [1, 2] 0,
    .invoke 0, .getTensor 7 none 0] [] = .ok s [1, 2, 9, 9] := ⟨_, rfl⟩

/-- Reading into an array of the caller's that is longer than the output reads past the end of the output's buffer. -/
theorem C70_own_array_refuted : calls fresh [.setModel (adder 0) 0, .invoke 0, .getTensor 5 (some 2) 0] [] = .undefined := rfl

/-- The tensor index that the details of the input report is not what setting the input takes. -/
theorem C70_input_index_refuted : calls fresh [.setModel (adder 0) 0, .setTensor 3 [1, 2, 3, 4] 0] [] = .undefined := rfl

end Verif.Host.Interp
