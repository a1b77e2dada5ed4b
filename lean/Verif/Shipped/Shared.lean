import Verif.Shipped.Runtime
/-!
Several compiled models that share one tensor arena (`SHARED_TENSOR_ARENA`; examples/app_flash_two_models_one_arena/src/main.cpp).

Every model has its own tables and its own `persistentBufferPtr`, `scratch_buffer_idx` etc. (they are in anonymous namespaces); only `tensor_arena` is
shared.  The tensors of a model are at fixed offsets from its beginning, the buffers that operators ask for in `model_init` end at
`tensor_arena + kTensorArenaSize` of *that* model (model_audioi16.tflite.cpp 66-73, 13478-13486, 13640-13643).
-/
namespace Verif.Shipped.Shared
open Verif.MemPlan (Mem Byte)

/-- The headers of the models, included in any order (model_audioi16.tflite.h 9-15):
`#ifndef LARGEST_TENSOR_ARENA_SIZE` / `#define … size` / `#elif LARGEST_TENSOR_ARENA_SIZE < size` / `#define … size`.
`l` is the macro before, if it is defined. -/
def largest (l : Option Nat) : List Nat → Option Nat
  | [] => l
  | s :: rest => largest (match l with
    | none => some s
    | some x => if x < s then some s else some x) rest

/-- A compiled model.  `initial` is what the operators' init and prepare leave in the buffers they asked for (`per` bytes in all, C98_persistent),
`kern` and `keep` what the operator of a node writes to its outputs and leaves in the buffers. -/
structure Part where
  T : Tables
  consts : Nat → List Byte
  /-- `kTensorArenaSize` -/
  size : Nat
  /-- end of the tensors -/
  peak : Nat
  /-- bytes of the persistent buffers -/
  per : Nat
  initial : List Byte
  kern : List Byte → Kern
  keep : List Byte → Nat → List (Option (List Byte)) → List Byte

/-- Where the persistent buffers begin (model_audioi16.tflite.cpp 13642, 13480-13486). -/
def Part.lo (p : Part) : Int := p.size - p.per

/-- `model_init` (model_audioi16.tflite.cpp 13640-13782). -/
def Part.init (p : Part) (m : Mem) : Mem := m.write p.lo p.initial

/-- The application copies its data to the inputs (main.cpp 36). -/
def Part.load (p : Part) (ins : List (List Byte)) (m : Mem) : Mem := p.T.putAll p.T.inputs ins m

/-- `mg_InvokeSubgraph` (model_audioi16.tflite.cpp 13549-13629). -/
def Part.invokeFrom (p : Part) : Nat → List (List Int × List Nat) → Mem → Mem
  | _, [], m => m
  | i, (is, os) :: rest, m =>
      let P := m.read p.lo p.per
      let ins := is.map (fetch (p.T.get p.consts m))
      p.invokeFrom (i + 1) rest ((p.T.putAll os (p.kern P i ins) m).write p.lo (p.keep P i ins))

def Part.invoke (p : Part) (m : Mem) : Mem := p.invokeFrom 0 p.T.nodes m

/-- The outputs as the application reads them. -/
def Part.outputs (p : Part) (m : Mem) : List (List Byte) := p.T.outputs.map (p.T.get p.consts m)

/-- What an application does. -/
inductive Event where
  | init (i : Nat)
  | load (i : Nat) (ins : List (List Byte))
  /-- invoke, then read the outputs -/
  | invoke (i : Nat)

/-- A history in the shared arena: the outputs read, and the final memory. -/
def run (M : Nat → Part) : List Event → Mem → List (List (List Byte)) × Mem
  | [], m => ([], m)
  | .init i :: es, m => run M es ((M i).init m)
  | .load i ins :: es, m => run M es ((M i).load ins m)
  | .invoke i :: es, m =>
      let m' := (M i).invoke m
      let r := run M es m'
      ((M i).outputs m' :: r.1, r.2)

/-! ### What it should do: every model has memory of its own -/

/-- The nodes in order, every tensor in storage of its own; the second component is the content of the persistent buffers. -/
def Part.evalFrom (p : Part) : Nat → List (List Int × List Nat) → List Byte → (Nat → List Byte) → (Nat → List Byte) × List Byte
  | _, [], P, e => (e, P)
  | i, (is, os) :: rest, P, e =>
      let ins := is.map (fetch e)
      p.evalFrom (i + 1) rest (p.keep P i ins) (assign os (p.kern P i ins) e)

/-- One inference on inputs `ins` with persistent buffers `P`: the outputs, and the persistent buffers afterwards. -/
def Part.eval (p : Part) (P : List Byte) (ins : List (List Byte)) : List (List Byte) × List Byte :=
  let r := p.evalFrom 0 p.T.nodes P (assign p.T.inputs ins p.consts)
  (p.T.outputs.map r.1, r.2)

/-- The model the application works with: which one, its persistent buffers if it was initialised since the application turned to it, and its inputs if they were
written since then and since the last inference. -/
structure Turn where
  i : Nat
  persistent : Option (List Byte)
  inputs : Option (List (List Byte))

/-- The turn goes to model `i`. -/
def turnTo (i : Nat) : Option Turn → Turn
  | some t => if t.i = i then t else ⟨i, none, none⟩
  | none => ⟨i, none, none⟩

/-- What the outputs should be; `none` if the application breaks the rules: every inference needs an init since the application last turned
to the model (main.cpp 40-42: "you must initialise the model before INVOKE when switching from one model to the other"), and inputs of the
right sizes written since then and since the last inference. -/
def expected (M : Nat → Part) : List Event → Option Turn → Option (List (List (List Byte)))
  | [], _ => some []
  | .init i :: es, t => expected M es (some { turnTo i t with persistent := some (M i).initial })
  | .load i ins :: es, t =>
      if ins.map List.length = (M i).T.inputs.map (M i).T.size then expected M es (some { turnTo i t with inputs := some ins }) else none
  | .invoke i :: es, t =>
      match turnTo i t with
      | ⟨_, some P, some ins⟩ =>
          let r := (M i).eval P ins
          (expected M es (some ⟨i, some r.2, none⟩)).map (r.1 :: ·)
      | _ => none

/-- The tables pass the check of C98, operators write as many bytes as their outputs have, and the persistent buffers fit above the tensors. -/
structure Part.OK (p : Part) : Prop where
  check : p.T.check p.peak = true
  fit : ∀ P, p.T.Fit (p.kern P)
  initial : p.initial.length = p.per
  keep : ∀ P i ins, (p.keep P i ins).length = p.per
  room : p.peak + p.per ≤ p.size

/-! ### Proofs -/

theorem putAll_above {T : Tables} {peak : Nat} (ts : List Nat) (bs : List (List Byte)) (m : Mem) (hb : bs.map List.length = ts.map T.size)
    (hin : ∀ t ∈ ts, T.below peak t = true) (a : Int) (ha : a < 0 ∨ peak ≤ a) : T.putAll ts bs m a = m a := by
  induction ts generalizing bs m with
  | nil => rfl
  | cons t ts ih =>
    cases bs with
    | nil => rfl
    | cons b bs =>
      simp only [List.map_cons, List.cons.injEq] at hb
      simp only [Tables.putAll]
      rw [ih bs _ hb.2 fun u hu => hin u (List.mem_cons_of_mem _ hu)]
      have := hin t List.mem_cons_self
      unfold Tables.below at this
      unfold Tables.put
      cases eo : T.off t with
      | none => rfl
      | some o =>
        rw [eo] at this
        simp only [decide_eq_true_eq] at this
        apply MemPlan.Mem.write_other
        omega

theorem read_above {m m' : Mem} {peak : Int} {o : Int} {n : Nat} (h : ∀ a, peak ≤ a → m' a = m a) (ho : peak ≤ o) : m'.read o n = m.read o n :=
  MemPlan.Mem.read_congr fun a h1 _ => h a (by omega)

theorem get_write_above {T : Tables} {c : Nat → List Byte} {peak v : Nat} (h : T.below peak v = true) (m : Mem) (o : Int) (ho : (peak : Int) ≤ o) (bs : List Byte) :
    T.get c (m.write o bs) v = T.get c m v :=
  get_quiet (g := fun m => m.write o bs) (fun m a ha => MemPlan.Mem.write_other _ _ _ _ (by omega)) m h

theorem invokeFrom_sound {p : Part} (ok : p.OK) :
    ∀ (nodes : List (List Int × List Nat)) (i : Nat) (live : List Nat) (m : Mem) (P : List Byte) (e : Nat → List Byte),
      (∀ j n, nodes[j]? = some n → ∀ P ins, (p.kern P (i + j) ins).map List.length = n.2.map p.T.size) →
      p.T.scan p.peak live nodes = true → (∀ v ∈ live, p.T.below p.peak v = true) → (∀ v ∈ live, p.T.get p.consts m v = e v) →
      (∀ v, p.T.off v = none → e v = p.consts v) → m.read p.lo p.per = P →
      (∀ v ∈ p.T.outputs, p.T.get p.consts (p.invokeFrom i nodes m) v = (p.evalFrom i nodes P e).1 v) ∧
      (p.invokeFrom i nodes m).read p.lo p.per = (p.evalFrom i nodes P e).2 ∧
      ∀ a, a < 0 ∨ (p.size : Int) ≤ a → p.invokeFrom i nodes m a = m a := by
  have hlo : (p.peak : Int) ≤ p.lo := by have := ok.room; unfold Part.lo; omega
  intro nodes
  induction nodes with
  | nil =>
    intro i live m P e _ hs _ hl _ hP
    simp only [Tables.scan, List.all_eq_true, List.contains_iff_mem] at hs
    exact ⟨fun v hv => hl v (hs v hv), hP, fun _ _ => rfl⟩
  | cons n rest ih =>
    obtain ⟨is, os⟩ := n
    intro i live m P e hf hs hb hl hc hP
    simp only [Tables.scan, Bool.and_eq_true, List.all_eq_true] at hs
    obtain ⟨⟨⟨⟨h1, h2⟩, h3⟩, h4⟩, h5⟩ := hs
    have hins : is.map (fetch (p.T.get p.consts m)) = is.map (fetch e) := by
      apply List.map_congr_left
      intro x hx
      unfold fetch
      split
      · rfl
      · rename_i hx0
        have := h1 x hx
        simp only [Bool.or_eq_true, decide_eq_true_eq, List.contains_iff_mem, Option.isNone_iff_eq_none] at this
        rcases this with (h | h) | h
        · exact absurd h hx0
        · rw [hc _ h]; unfold Tables.get; rw [h]
        · rw [hl _ h]
    have hk := hf 0 (is, os) rfl P (is.map (fetch e))
    simp only [Nat.add_zero] at hk
    simp only [Part.invokeFrom, Part.evalFrom]
    rw [hins, hP]
    have hkl := ok.keep P i (is.map (fetch e))
    obtain ⟨r1, r2, r3⟩ := ih (i + 1) (os ++ live.filter (p.T.later rest))
      ((p.T.putAll os (p.kern P i (is.map (fetch e))) m).write p.lo (p.keep P i (is.map (fetch e)))) (p.keep P i (is.map (fetch e)))
      (assign os (p.kern P i (is.map (fetch e))) e) (by
        intro j n hj P ins
        have := hf (j + 1) n (by simpa using hj) P ins
        rw [show i + 1 + j = i + (j + 1) by omega]
        exact this) h5 (by
        intro v hv
        rcases List.mem_append.1 hv with h | h
        · exact h2 v h
        · exact hb v (List.mem_filter.1 h).1) (by
        intro v hv
        have hbv : p.T.below p.peak v = true := by
          rcases List.mem_append.1 hv with h | h
          · exact h2 v h
          · exact hb v (List.mem_filter.1 h).1
        rw [get_write_above hbv _ _ hlo]
        by_cases hm : v ∈ os
        · exact get_putAll_same os _ m hk h3 (fun t ht => h2 t ht) e v hm
        · have hv' : v ∈ live.filter (p.T.later rest) := by
            rcases List.mem_append.1 hv with h | h
            · exact absurd h hm
            · exact h
          have h4' := h4 v hv'
          rw [get_putAll_other os _ m hk (fun t ht => (h4' t ht).1), assign_other os _ e hm]
          exact hl v (List.mem_filter.1 hv').1) (by
        intro v hv
        have hm : v ∉ os := by
          intro h
          have := below_some (h2 v h)
          rw [hv] at this
          simp at this
        rw [assign_other os _ e hm]
        exact hc v hv) (by
        have := MemPlan.Mem.read_write_same (p.T.putAll os (p.kern P i (is.map (fetch e))) m) p.lo (p.keep P i (is.map (fetch e)))
        rwa [hkl] at this)
    refine ⟨r1, r2, ?_⟩
    intro a ha
    have hroom := ok.room
    rw [r3 a ha, MemPlan.Mem.write_other _ _ _ _ (by rw [hkl]; unfold Part.lo; omega),
      putAll_above os _ m hk (fun t ht => h2 t ht) a (by omega)]

/-- One inference. -/
theorem invoke_sound {p : Part} (ok : p.OK) {m : Mem} {P : List Byte} {ins : List (List Byte)} (hi : ins.map List.length = p.T.inputs.map p.T.size)
    (hP : m.read p.lo p.per = P) (hm : ∀ v ∈ p.T.inputs, p.T.get p.consts m v = assign p.T.inputs ins p.consts v) :
    p.outputs (p.invoke m) = (p.eval P ins).1 ∧ (p.invoke m).read p.lo p.per = (p.eval P ins).2 := by
  have h := ok.check
  simp only [Tables.check, Bool.and_eq_true, List.all_eq_true] at h
  obtain ⟨⟨h1, h2⟩, h3⟩ := h
  obtain ⟨r1, r2, -⟩ := invokeFrom_sound ok p.T.nodes 0 p.T.inputs m P (assign p.T.inputs ins p.consts) (by
    intro j n hj P ins
    rw [Nat.zero_add]
    exact ok.fit P j n hj ins) h3 h1 hm (by
    intro v hv
    apply assign_other
    intro hm
    have := below_some (h1 v hm)
    rw [hv] at this
    simp at this) hP
  exact ⟨List.map_congr_left r1, r2⟩

/-- What the memory holds for the model whose turn it is. -/
def Holds (M : Nat → Part) (t : Turn) (m : Mem) : Prop :=
  (∀ P, t.persistent = some P → m.read (M t.i).lo (M t.i).per = P) ∧
  ∀ ins, t.inputs = some ins → ins.map List.length = (M t.i).T.inputs.map (M t.i).T.size ∧
    ∀ v ∈ (M t.i).T.inputs, (M t.i).T.get (M t.i).consts m v = assign (M t.i).T.inputs ins (M t.i).consts v

theorem turnTo_i (i : Nat) (t : Option Turn) : (turnTo i t).i = i := by
  unfold turnTo
  cases t with
  | none => rfl
  | some t => simp only; split <;> simp_all

theorem holds_turnTo {M : Nat → Part} {t : Option Turn} {m : Mem} (h : ∀ t', t = some t' → Holds M t' m) (i : Nat) : Holds M (turnTo i t) m := by
  have empty : Holds M ⟨i, none, none⟩ m := ⟨by simp, by simp⟩
  unfold turnTo
  cases t with
  | none => exact empty
  | some t =>
    simp only
    split
    · exact h t rfl
    · exact empty

theorem run_sound {M : Nat → Part} (ok : ∀ i, (M i).OK) (es : List Event) (t : Option Turn) (m : Mem) (h : ∀ t', t = some t' → Holds M t' m)
    (outs : List (List (List Byte))) (he : expected M es t = some outs) : (run M es m).1 = outs := by
  induction es generalizing t m outs with
  | nil =>
    simp only [expected, Option.some.injEq] at he
    exact he
  | cons ev es ih =>
    have hlo : ∀ i, ((M i).peak : Int) ≤ (M i).lo := by intro i; have := (ok i).room; unfold Part.lo; omega
    have hbelow : ∀ i, ∀ v ∈ (M i).T.inputs, (M i).T.below (M i).peak v = true := by
      intro i
      have h := (ok i).check
      simp only [Tables.check, Bool.and_eq_true, List.all_eq_true] at h
      exact h.1.1
    cases ev with
    | init i =>
      simp only [expected] at he
      apply ih _ _ _ _ he
      rintro t' rfl'
      have ht : t' = { turnTo i t with persistent := some (M i).initial } := (Option.some.inj rfl').symm
      subst ht
      obtain ⟨-, g2⟩ := holds_turnTo h i
      refine ⟨?_, ?_⟩
      · intro P hP
        have hP : (M i).initial = P := Option.some.inj hP
        subst hP
        simp only [turnTo_i]
        have := MemPlan.Mem.read_write_same m (M i).lo (M i).initial
        rw [(ok i).initial] at this
        exact this
      · intro ins hins
        obtain ⟨a1, a2⟩ := g2 ins hins
        refine ⟨a1, ?_⟩
        intro v hv
        rw [← a2 v hv]
        simp only [turnTo_i] at hv ⊢
        exact get_write_above (hbelow i v hv) _ _ (hlo i) _
    | load i ins =>
      simp only [expected] at he
      split at he
      · next hl =>
        apply ih _ _ _ _ he
        rintro t' rfl'
        have ht : t' = { turnTo i t with inputs := some ins } := (Option.some.inj rfl').symm
        subst ht
        obtain ⟨g1, -⟩ := holds_turnTo h i
        refine ⟨?_, ?_⟩
        · intro P hP
          rw [← g1 P hP]
          simp only [turnTo_i]
          exact read_above (peak := (M i).peak) (fun a ha => putAll_above _ _ _ hl (hbelow i) a (Or.inr ha)) (hlo i)
        · intro ins' hins
          have hins : ins = ins' := Option.some.inj hins
          subst hins
          simp only [turnTo_i]
          refine ⟨hl, ?_⟩
          have hc := (ok i).check
          simp only [Tables.check, Bool.and_eq_true, List.all_eq_true] at hc
          exact get_putAll_same _ _ m hl hc.1.2 hc.1.1 _
      · cases he
    | invoke i =>
      simp only [expected] at he
      have hh := holds_turnTo h i
      have hti := turnTo_i i t
      generalize turnTo i t = tt at he hh hti
      obtain ⟨j, po, io⟩ := tt
      simp only at hti
      subst hti
      match po, io, he, hh with
      | some P, some ins, he, hh =>
        simp only at he
        obtain ⟨outs', e1, e2⟩ := Option.map_eq_some_iff.1 he
        subst e2
        obtain ⟨a1, a2⟩ := hh.2 ins rfl
        obtain ⟨r1, r2⟩ := invoke_sound (ok j) a1 (hh.1 P rfl) a2
        simp only [run]
        rw [ih _ _ _ _ e1, r1]
        rintro t' rfl'
        have ht : t' = ⟨j, some ((M j).eval P ins).2, none⟩ := (Option.some.inj rfl').symm
        subst ht
        exact ⟨fun P' hP' => by rw [← Option.some.inj hP']; exact r2, by simp⟩
      | some P, none, he, _ => cases he
      | none, some _, he, _ => cases he
      | none, none, he, _ => cases he

/-- **C103** For any number of models in one arena, whatever it holds at the start, and any history of inits, inputs and inferences that keeps the rules,
every inference gives the outputs that the model gives in memory of its own. -/
theorem C103_shared_arena (M : Nat → Part) (ok : ∀ i, (M i).OK) (es : List Event) (outs : List (List (List Byte)))
    (h : expected M es none = some outs) (m : Mem) : (run M es m).1 = outs :=
  run_sound ok es none m (by simp) outs h

/-- **C103, size of the arena.** Whatever the order in which the headers of the models are included, `LARGEST_TENSOR_ARENA_SIZE` is the greatest of the sizes
(and of a value the application has defined). -/
theorem C103_largest (l : Option Nat) (sizes : List Nat) (h : sizes ≠ [] ∨ l ≠ none) :
    ∃ n, largest l sizes = some n ∧ (n ∈ sizes ∨ l = some n) ∧ (∀ s ∈ sizes, s ≤ n) ∧ ∀ x, l = some x → x ≤ n := by
  induction sizes generalizing l with
  | nil =>
    cases l with
    | none => simp at h
    | some x => exact ⟨x, rfl, Or.inr rfl, by simp, fun y hy => by rw [Option.some.inj hy]⟩
  | cons s rest ih =>
    cases l with
    | none =>
      obtain ⟨n, h1, h2, h3, h4⟩ := ih (some s) (Or.inr (by simp))
      refine ⟨n, h1, ?_, ?_, by simp⟩
      · rcases h2 with h2 | h2
        · exact Or.inl (List.mem_cons_of_mem _ h2)
        · exact Or.inl (by rw [Option.some.inj h2]; exact List.mem_cons_self)
      · intro x hx
        rcases List.mem_cons.1 hx with rfl | hx
        · exact h4 x rfl
        · exact h3 x hx
    | some y =>
      have hd : largest (some y) (s :: rest) = largest (if y < s then some s else some y) rest := rfl
      rw [hd]
      by_cases hys : y < s
      · rw [if_pos hys]
        obtain ⟨n, h1, h2, h3, h4⟩ := ih (some s) (Or.inr (by simp))
        have hsn := h4 s rfl
        refine ⟨n, h1, ?_, ?_, ?_⟩
        · rcases h2 with h2 | h2
          · exact Or.inl (List.mem_cons_of_mem _ h2)
          · exact Or.inl (by rw [Option.some.inj h2]; exact List.mem_cons_self)
        · intro x hx
          rcases List.mem_cons.1 hx with rfl | hx
          · exact hsn
          · exact h3 x hx
        · intro x hx
          have := Option.some.inj hx
          omega
      · rw [if_neg hys]
        obtain ⟨n, h1, h2, h3, h4⟩ := ih (some y) (Or.inr (by simp))
        have hyn := h4 y rfl
        refine ⟨n, h1, ?_, ?_, h4⟩
        · rcases h2 with h2 | h2
          · exact Or.inl (List.mem_cons_of_mem _ h2)
          · exact Or.inr h2
        · intro x hx
          rcases List.mem_cons.1 hx with rfl | hx
          · omega
          · exact h3 x hx

theorem invokeFrom_inside {p : Part} (ok : p.OK) :
    ∀ (nodes : List (List Int × List Nat)) (i : Nat) (live : List Nat) (m : Mem),
      (∀ j n, nodes[j]? = some n → ∀ P ins, (p.kern P (i + j) ins).map List.length = n.2.map p.T.size) →
      p.T.scan p.peak live nodes = true → ∀ a, a < 0 ∨ (p.size : Int) ≤ a → p.invokeFrom i nodes m a = m a := by
  intro nodes
  induction nodes with
  | nil => intros; rfl
  | cons n rest ih =>
    obtain ⟨is, os⟩ := n
    intro i live m hf hs a ha
    simp only [Tables.scan, Bool.and_eq_true, List.all_eq_true] at hs
    obtain ⟨⟨⟨⟨-, h2⟩, -⟩, -⟩, h5⟩ := hs
    have hk := hf 0 (is, os) rfl
    simp only [Nat.add_zero] at hk
    simp only [Part.invokeFrom]
    have hroom := ok.room
    rw [ih (i + 1) _ _ (by
      intro j n hj P ins
      have := hf (j + 1) n (by simpa using hj) P ins
      rw [show i + 1 + j = i + (j + 1) by omega]
      exact this) h5 a ha, MemPlan.Mem.write_other _ _ _ _ (by rw [ok.keep]; unfold Part.lo; omega),
      putAll_above os _ m (hk _ _) (fun t ht => h2 t ht) a (by omega)]

/-- Inputs have the right sizes. -/
def Event.Sized (M : Nat → Part) : Event → Prop
  | .load i ins => ins.map List.length = (M i).T.inputs.map (M i).T.size
  | _ => True

/-- The model an event is about. -/
def Event.model : Event → Nat
  | .init i => i
  | .load i _ => i
  | .invoke i => i

/-- **C103, nothing outside the arena.** Any history, also one that breaks the rules, leaves all memory outside an arena of
`LARGEST_TENSOR_ARENA_SIZE` bytes alone, whatever the order of the headers. -/
theorem C103_inside (M : Nat → Part) (ok : ∀ i, (M i).OK) (l : Option Nat) (headers : List Nat) (n : Nat)
    (hn : largest l (headers.map fun i => (M i).size) = some n) (es : List Event) (hes : ∀ e ∈ es, e.model ∈ headers ∧ e.Sized M) (m : Mem) (a : Int)
    (ha : a < 0 ∨ (n : Int) ≤ a) : (run M es m).2 a = m a := by
  have hsz : ∀ i ∈ headers, (M i).size ≤ n := by
    intro i hi
    obtain ⟨n', h1, -, h3, -⟩ := C103_largest l (headers.map fun i => (M i).size) (Or.inl (by
      intro hc
      rw [List.map_eq_nil_iff] at hc
      subst hc
      simp at hi))
    rw [hn] at h1
    have : n' = n := (Option.some.inj h1).symm
    subst this
    exact h3 _ (List.mem_map_of_mem hi)
  clear hn
  induction es generalizing m with
  | nil => rfl
  | cons ev es ih =>
    have ih := ih fun e he => hes e (List.mem_cons_of_mem _ he)
    obtain ⟨hm, hs⟩ := hes ev List.mem_cons_self
    have hle := hsz _ hm
    have hroom := (ok ev.model).room
    have hc := (ok ev.model).check
    simp only [Tables.check, Bool.and_eq_true, List.all_eq_true] at hc
    cases ev with
    | init i =>
      simp only [run]
      rw [ih]
      simp only [Event.model] at *
      exact MemPlan.Mem.write_other _ _ _ _ (by rw [(ok i).initial]; unfold Part.lo; omega)
    | load i ins =>
      simp only [run]
      rw [ih]
      simp only [Event.model] at *
      exact putAll_above _ _ m hs hc.1.1 a (by omega)
    | invoke i =>
      simp only [run]
      rw [ih]
      simp only [Event.model] at *
      exact invokeFrom_inside (ok i) _ 0 _ m (by
        intro j n hj P ins
        rw [Nat.zero_add]
        exact (ok i).fit P j n hj ins) hc.2 a (by omega)

/-! ### Example: two models that keep a byte in a persistent buffer -/

/-- One node: add the first persistent byte to the input, and increment that byte. -/
def exPart (k : Byte) (size : Nat) : Part where
  T := ⟨[some 0, some 1], [1, 1], [([0], [1])], [0], [1]⟩
  consts := fun _ => []
  size := size
  peak := 2
  per := 8
  initial := k :: List.replicate 7 0
  kern := fun P _ ins => [[((ins.headD none).getD []).headD 0 + P.headD 0]]
  keep := fun P _ _ => (P.headD 0 + 1) :: List.replicate 7 0

def exModels (i : Nat) : Part := if i = 0 then exPart 10 16 else exPart 100 24

theorem exPart_ok (k : Byte) (size : Nat) (h : 10 ≤ size) : (exPart k size).OK := by
  refine ⟨by show (exPart 0 0).T.check 2 = true; decide, ?_, rfl, fun _ _ _ => rfl, h⟩
  intro P i n hn ins
  match i, hn with
  | 0, hn =>
    have : n = ([0], [1]) := (Option.some.inj hn).symm
    subst this
    rfl
  | i + 1, hn => simp [exPart] at hn

theorem exModels_ok (i : Nat) : (exModels i).OK := by
  unfold exModels
  split
  · exact exPart_ok _ _ (by decide)
  · exact exPart_ok _ _ (by decide)

/-- Model 0 twice, then model 1, then model 0 again: the outputs are 11, 13, 103 and, after the new init, 14. -/
theorem C103_example (m : Mem) : (∀ i, (exModels i).OK) ∧
    (run exModels [.init 0, .load 0 [[1]], .invoke 0, .load 0 [[2]], .invoke 0, .load 1 [[3]], .init 1, .invoke 1, .init 0, .load 0 [[4]], .invoke 0] m).1 =
      [[[11]], [[13]], [[103]], [[14]]] :=
  ⟨exModels_ok, C103_shared_arena exModels exModels_ok _ _ (by decide) m⟩

/-- The rule is needed: both models are initialised once, the inputs of model 0 are written just before its inference, and still the result is
not that of model 0, because the init of the other one has written over its buffers. -/
theorem C103_init_needed : ∃ (M : Nat → Part) (m : Mem), (∀ i, (M i).OK) ∧
    (run M [.init 0, .init 1, .load 0 [[1]], .invoke 0] m).1 ≠ [((M 0).eval (M 0).initial [[1]]).1] :=
  ⟨fun i => if i = 0 then exPart 10 16 else exPart 100 16, fun _ => 0, fun i => by
    dsimp only
    split
    · exact exPart_ok _ _ (by decide)
    · exact exPart_ok _ _ (by decide), by decide⟩

/-- Inputs do not survive the other model's inference, either, even if the model is initialised again. -/
theorem C103_inputs_needed : ∃ (M : Nat → Part) (m : Mem), (∀ i, (M i).OK) ∧
    (run M [.init 0, .load 0 [[1]], .init 1, .load 1 [[7]], .invoke 1, .init 0, .invoke 0] m).1 ≠
      [((M 1).eval (M 1).initial [[7]]).1, ((M 0).eval (M 0).initial [[1]]).1] :=
  ⟨exModels, fun _ => 0, exModels_ok, by decide⟩

end Verif.Shipped.Shared
