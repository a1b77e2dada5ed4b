/-!
# C120: what the host interpreter does with native memory over its life

`TFLMHostInterpreter` (python/xmos_ai_tools/xinterpreters/host_interpreter.py) owns memory of the C library: `set_model` makes a new native
interpreter (50 MB for the model and the objects around it) and `close`, or leaving a `with` block, gives it back. The model follows any number of
interpreter objects through any history of calls; what is computed is in Host/Interp.lean, here only the memory counts.

Trusted: `inference_engine_initialize` of lib_tflite_micro stores its two pointer arguments in the engine, so `delete_interpreter` frees what
`new_interpreter` allocated; what that library allocates itself is not modelled.
-/

namespace Verif.Host.Lifetime

/-- The blocks of one native interpreter: `ie->memory_primary`, `ie->xtflm` and `ie` itself (dll_interpreter.cc 57-64). -/
structure Native where
  primary : Nat
  objects : Nat
  engine : Nat

/-- The attribute `self.obj`: `__init__` (host_interpreter.py 51-115) does not set it, `close` sets it to `None`. -/
inductive Attr
  | missing
  | none
  | engine (n : Native)

/-- An interpreter object: the attribute and the list of models with their indices and sizes in bytes (host_interpreter.py 115). -/
structure Obj where
  attr : Attr
  models : List (Int × Nat)

/-- Interpreter objects, by number, and the heap of the C library: blocks that are allocated, and the next new one. -/
structure World where
  objs : Nat → Obj
  live : List Nat
  next : Nat

/-- Nothing has happened: every object is as `__init__` leaves it. -/
def start : World := ⟨fun _ => ⟨.missing, []⟩, [], 0⟩

/-- A call on interpreter object `k`. `setModel`: the content is a model of that many bytes, or (`none`) there is none that can be read or parsed.
`use`: any of `set_tensor`, `get_tensor`, `get_input_tensor`, `invoke`, `reset` with arguments that fit the model. -/
inductive Ev
  | setModel (k : Nat) (idx : Int) (size : Option Nat)
  | use (k : Nat)
  | close (k : Nat)

/-- What a call does: it goes on (returning, or raising an exception that the caller catches), or it accesses memory it may not. -/
inductive Out
  | ok (w : World)
  | raised (w : World)
  | undefined

/-- `max_model_size` (host_interpreter.py 129). -/
def maxModel : Nat := 50000000

def World.put (w : World) (k : Nat) (o : Obj) : World := { w with objs := fun j => if j = k then o else w.objs j }

/-- `new_interpreter` (dll_interpreter.cc 57-64): three new blocks. -/
def newInterpreter (w : World) : World × Native :=
  ({ w with live := w.next :: (w.next + 1) :: (w.next + 2) :: w.live, next := w.next + 3 }, ⟨w.next + 1, w.next + 2, w.next⟩)

/-- `set_model` (host_interpreter.py 544-574): a model for an index that has one is read and dropped (the assignment is to the loop's variable);
`initialise_interpreter` (124-150) then makes a new native interpreter, whatever `self.obj` was, and `initialize` (dll_interpreter.cc 100-109)
copies the stored model of that index into it without looking at its size. -/
def setModel (w : World) (k : Nat) (idx : Int) (size : Option Nat) : Out :=
  match size with
  | none => .raised w
  | some n =>
    let o := w.objs k
    let models := if o.models.any (fun p => p.1 == idx) then o.models else o.models ++ [(idx, n)]
    let a := newInterpreter w
    match (models.filter fun p => p.1 == idx).getLast? with
    | none => .raised (a.1.put k ⟨.engine a.2, models⟩)
    | some p => if maxModel < p.2 then .undefined else .ok (a.1.put k ⟨.engine a.2, models⟩)

/-- A call of the C library on `self.obj` (host_interpreter.py 152-236; dll_interpreter.cc 141-163): without the attribute Python raises
AttributeError; `None` becomes a null pointer, which the library follows; so does it a pointer to a freed engine. -/
def use (w : World) (k : Nat) : Out :=
  match (w.objs k).attr with
  | .missing => .raised w
  | .none => .undefined
  | .engine n => if n.primary ∈ w.live ∧ n.objects ∈ w.live ∧ n.engine ∈ w.live then .ok w else .undefined

/-- `free`: of a block that is not allocated it is undefined. -/
def free (w : World) (b : Nat) : Option World := if b ∈ w.live then some { w with live := w.live.erase b } else none

/-- `close` (host_interpreter.py 238-245), `__exit__` (120-122) and `delete_interpreter` (dll_interpreter.cc 93-98). The engine is read before each
`free`, which the order guarantees. -/
def close (w : World) (k : Nat) : Out :=
  match (w.objs k).attr with
  | .missing => .raised w
  | .none => .ok w
  | .engine n =>
    match ((free w n.primary).bind fun w => free w n.objects).bind fun w => free w n.engine with
    | some w' => .ok (w'.put k ⟨.none, (w.objs k).models⟩)
    | none => .undefined

def step (w : World) : Ev → Out
  | .setModel k i s => setModel w k i s
  | .use k => use w k
  | .close k => close w k

/-- A history of calls; the caller goes on after an exception. `none`: undefined behaviour has happened. -/
def run : World → List Ev → Option World
  | w, [] => some w
  | w, e :: es =>
    match step w e with
    | .ok w' => run w' es
    | .raised w' => run w' es
    | .undefined => none

/-! ## Specification, by the history alone -/

inductive Status | untouched | opened | closed
  deriving DecidableEq

/-- What the calls so far have made of object `k`: a successful `set_model` opens it, `close` closes it if it was ever opened. -/
def after (k : Nat) (s : Status) : Ev → Status
  | .setModel j _ (some _) => if j = k then .opened else s
  | .setModel _ _ none => s
  | .use _ => s
  | .close j => if j = k ∧ s = .opened then .closed else s

def status (k : Nat) (h : List Ev) : Status := h.foldl (after k) .untouched

/-- The size of the first model ever given to object `k` for an index. -/
def firstSize (k : Nat) (idx : Int) : List Ev → Option Nat
  | [] => none
  | .setModel j i (some n) :: h => if j = k ∧ i = idx then some n else firstSize k idx h
  | _ :: h => firstSize k idx h

/-- A call that may not be made after the history `h`: one on a closed object, or `set_model` for an index whose first model exceeds 50 MB. -/
def Forbidden (h : List Ev) : Ev → Prop
  | .use k => status k h = .closed
  | .setModel k i (some n) => ∃ m, firstSize k i (h ++ [.setModel k i (some n)]) = some m ∧ 50000000 < m
  | _ => False

/-- Native interpreters made and given back. -/
def made : List Ev → Nat
  | [] => 0
  | .setModel _ _ (some _) :: h => made h + 1
  | _ :: h => made h

def givenBack (h : List Ev) : Nat → List Ev → Nat
  | n, [] => n
  | n, .close k :: es => givenBack (h ++ [.close k]) (if status k h = .opened then n + 1 else n) es
  | n, e :: es => givenBack (h ++ [e]) n es

/-! ## Proofs -/

def Native.blocks (n : Native) : List Nat := [n.primary, n.objects, n.engine]

structure Inv (h : List Ev) (w : World) : Prop where
  missing : ∀ k, (w.objs k).attr = .missing → status k h = .untouched
  none : ∀ k, (w.objs k).attr = .none → status k h = .closed
  engine : ∀ k n, (w.objs k).attr = .engine n → status k h = .opened
  nodup : w.live.Nodup
  below : ∀ b ∈ w.live, b < w.next
  owned : ∀ k n, (w.objs k).attr = .engine n → n.blocks.Nodup ∧ ∀ b ∈ n.blocks, b ∈ w.live
  apart : ∀ j k m n, (w.objs j).attr = .engine m → (w.objs k).attr = .engine n → j ≠ k → ∀ b ∈ m.blocks, b ∉ n.blocks
  models : ∀ k idx, ((w.objs k).models.filter fun p => p.1 == idx) = ((firstSize k idx h).map fun n => (idx, n)).toList

theorem status_snoc (k : Nat) (h : List Ev) (e : Ev) : status k (h ++ [e]) = after k (status k h) e := by
  simp [status]

theorem firstSize_append (k : Nat) (idx : Int) : ∀ h g : List Ev,
    firstSize k idx (h ++ g) = match firstSize k idx h with | some n => some n | none => firstSize k idx g
  | [], g => rfl
  | .setModel j i (some n) :: h, g => by
    simp only [List.cons_append, firstSize]
    split
    · rfl
    · exact firstSize_append k idx h g
  | .setModel j i none :: h, g => by simpa only [List.cons_append, firstSize] using firstSize_append k idx h g
  | .use j :: h, g => by simpa only [List.cons_append, firstSize] using firstSize_append k idx h g
  | .close j :: h, g => by simpa only [List.cons_append, firstSize] using firstSize_append k idx h g

theorem made_snoc : ∀ (h : List Ev) (e : Ev), made (h ++ [e]) = made h + made [e]
  | [], e => by simp [made]
  | .setModel _ _ (some _) :: h, e => by
    simp only [List.cons_append, made, made_snoc h e]; omega
  | .setModel _ _ none :: h, e => by simp only [List.cons_append, made, made_snoc h e]
  | .use _ :: h, e => by simp only [List.cons_append, made, made_snoc h e]
  | .close _ :: h, e => by simp only [List.cons_append, made, made_snoc h e]

theorem inv_start : Inv [] start := by
  constructor <;> simp [start, status, firstSize]

/-- A call that changes nothing. -/
theorem Inv.same {h : List Ev} {w : World} (i : Inv h w) (e : Ev) (hs : ∀ k, status k (h ++ [e]) = status k h)
    (hf : ∀ k idx, firstSize k idx (h ++ [e]) = firstSize k idx h) : Inv (h ++ [e]) w where
  missing k a := by rw [hs]; exact i.missing k a
  none k a := by rw [hs]; exact i.none k a
  engine k n a := by rw [hs]; exact i.engine k n a
  nodup := i.nodup
  below := i.below
  owned := i.owned
  apart := i.apart
  models k idx := by rw [hf]; exact i.models k idx

theorem Inv.models_new {h : List Ev} {w : World} (i : Inv h w) (k : Nat) (idx : Int) (n : Nat) :
    ∀ j, (((if (w.objs k).models.any (fun p => p.1 == idx) then (w.objs k).models else (w.objs k).models ++ [(idx, n)])).filter
      fun p => p.1 == j) = ((firstSize k j (h ++ [.setModel k idx (some n)])).map fun n => (j, n)).toList := by
  intro j
  have hm := i.models k j
  have hi := i.models k idx
  rw [firstSize_append]
  split
  · rename_i ha
    rw [hm]
    cases hfj : firstSize k j h with
    | some m => rfl
    | none =>
      by_cases e : idx = j
      · subst e
        rw [hfj] at hi
        obtain ⟨p, hp, hq⟩ := List.any_eq_true.1 ha
        have : p ∈ (w.objs k).models.filter fun p => p.1 == idx := List.mem_filter.2 ⟨hp, hq⟩
        rw [hi] at this
        simp at this
      · simp [firstSize, e]
  · rename_i ha
    rw [List.filter_append, hm]
    by_cases e : idx = j
    · subst e
      cases hfj : firstSize k idx h with
      | some m =>
        exfalso
        rw [hfj] at hi
        have : (idx, m) ∈ (w.objs k).models.filter fun p => p.1 == idx := by rw [hi]; simp
        have := List.mem_filter.1 this
        exact ha (List.any_eq_true.2 ⟨_, this.1, this.2⟩)
      | none => simp [firstSize]
    · cases hfj : firstSize k j h with
      | some m => simp [e]
      | none => simp [firstSize, e]

theorem Inv.set {h : List Ev} {w : World} (i : Inv h w) (k : Nat) (idx : Int) (n : Nat) (ms : List (Int × Nat))
    (hm : ∀ j, (ms.filter fun p => p.1 == j) = ((firstSize k j (h ++ [.setModel k idx (some n)])).map fun n => (j, n)).toList) :
    Inv (h ++ [.setModel k idx (some n)]) ((newInterpreter w).1.put k ⟨.engine (newInterpreter w).2, ms⟩) where
  missing j a := by
    by_cases e : j = k
    · simp [World.put, e] at a
    · simp only [World.put, e, if_false] at a
      simpa [status_snoc, after, Ne.symm e] using i.missing j a
  none j a := by
    by_cases e : j = k
    · simp [World.put, e] at a
    · simp only [World.put, e, if_false] at a
      simpa [status_snoc, after, Ne.symm e] using i.none j a
  engine j m a := by
    by_cases e : j = k
    · simp [status_snoc, after, e]
    · simp only [World.put, e, if_false] at a
      simpa [status_snoc, after, Ne.symm e] using i.engine j m a
  nodup := by
    have b := i.below
    have c : ∀ x, w.next ≤ x → x ∉ w.live := fun x hx hl => absurd (b x hl) (by omega)
    simp only [World.put, newInterpreter, List.nodup_cons, List.mem_cons, not_or]
    exact ⟨⟨by omega, by omega, c _ (by omega)⟩, ⟨by omega, c _ (by omega)⟩, c _ (by omega), i.nodup⟩
  below := by
    intro b hb
    simp only [World.put, newInterpreter, List.mem_cons] at hb ⊢
    rcases hb with hb | hb | hb | hb
    · omega
    · omega
    · omega
    · have := i.below b hb; omega
  owned j m a := by
    by_cases e : j = k
    · simp only [World.put, e, if_true] at a
      injection a with a
      subst a
      simp [Native.blocks, newInterpreter, World.put]
    · simp only [World.put, e, if_false] at a
      obtain ⟨d, l⟩ := i.owned j m a
      refine ⟨d, fun b hb => ?_⟩
      simp [World.put, newInterpreter, l b hb]
  apart j l m m' a a' ne b hb hb' := by
    have key : ∀ j m, (w.objs j).attr = .engine m → ∀ b ∈ m.blocks, b < w.next := fun j m a b hb => i.below b ((i.owned j m a).2 b hb)
    have new : ∀ b ∈ (newInterpreter w).2.blocks, w.next ≤ b := by
      intro b hb
      simp only [newInterpreter, Native.blocks, List.mem_cons, List.not_mem_nil, or_false] at hb
      omega
    by_cases e : j = k
    · have e' : l ≠ k := fun h => ne (e.trans h.symm)
      simp only [World.put, e, if_true] at a
      simp only [World.put, e', if_false] at a'
      injection a with a
      subst a
      have := new b hb; have := key l m' a' b hb'; omega
    · simp only [World.put, e, if_false] at a
      by_cases e' : l = k
      · simp only [World.put, e', if_true] at a'
        injection a' with a'
        subst a'
        have := new b hb'; have := key j m a b hb; omega
      · simp only [World.put, e', if_false] at a'
        exact i.apart j l m m' a a' ne b hb hb'
  models j l := by
    by_cases e : j = k
    · subst e; simp only [World.put, if_true]; exact hm l
    · simp only [World.put, e, if_false]
      change List.filter _ (w.objs j).models = _
      rw [i.models j l, firstSize_append]
      cases firstSize j l h <;> simp [firstSize, Ne.symm e]

theorem mem_erase_iff {l : List Nat} (d : l.Nodup) (a b : Nat) : b ∈ l.erase a ↔ b ≠ a ∧ b ∈ l := d.mem_erase_iff

theorem Inv.closed {h : List Ev} {w : World} (i : Inv h w) (k : Nat) (n : Native) (a : (w.objs k).attr = .engine n) :
    ∃ w', close w k = .ok w' ∧ Inv (h ++ [.close k]) w' ∧ w'.live.length + 3 = w.live.length := by
  obtain ⟨d, l⟩ := i.owned k n a
  simp only [Native.blocks, List.nodup_cons, List.mem_cons, List.not_mem_nil, or_false, not_or, not_false_eq_true, List.nodup_nil,
    and_true] at d
  have h1 : n.primary ∈ w.live := l _ (by simp [Native.blocks])
  have h2 : n.objects ∈ w.live := l _ (by simp [Native.blocks])
  have h3 : n.engine ∈ w.live := l _ (by simp [Native.blocks])
  have d1 := i.nodup.erase n.primary
  have d2 := d1.erase n.objects
  have m2 : n.objects ∈ w.live.erase n.primary := (mem_erase_iff i.nodup _ _).2 ⟨Ne.symm d.1.1, h2⟩
  have m3' : n.engine ∈ w.live.erase n.primary := (mem_erase_iff i.nodup _ _).2 ⟨Ne.symm d.1.2, h3⟩
  have m3 : n.engine ∈ (w.live.erase n.primary).erase n.objects := (mem_erase_iff d1 _ _).2 ⟨Ne.symm d.2, m3'⟩
  have back : ∀ b, b ∈ ((w.live.erase n.primary).erase n.objects).erase n.engine ↔ b ∉ n.blocks ∧ b ∈ w.live := by
    intro b
    rw [mem_erase_iff d2, mem_erase_iff d1, mem_erase_iff i.nodup]
    simp only [Native.blocks, List.mem_cons, List.not_mem_nil, or_false, not_or]
    constructor
    · rintro ⟨x, y, z, u⟩; exact ⟨⟨z, y, x⟩, u⟩
    · rintro ⟨⟨z, y, x⟩, u⟩; exact ⟨x, y, z, u⟩
  have st : close w k = .ok ({ w with live := ((w.live.erase n.primary).erase n.objects).erase n.engine }.put k ⟨.none, (w.objs k).models⟩) := by
    simp only [close, a, free, h1, m2, m3, if_true, Option.bind_some]
  refine ⟨_, st, ?_, ?_⟩
  · refine ⟨?_, ?_, ?_, d2.erase _, fun b hb => i.below b ((back b).1 hb).2, ?_, ?_, ?_⟩
    · intro j aj
      by_cases e : j = k
      · simp [World.put, e] at aj
      · simp only [World.put, e, if_false] at aj
        simpa [status_snoc, after, Ne.symm e] using i.missing j aj
    · intro j aj
      by_cases e : j = k
      · subst e
        simp [status_snoc, after, i.engine j n a]
      · simp only [World.put, e, if_false] at aj
        simpa [status_snoc, after, Ne.symm e] using i.none j aj
    · intro j m aj
      by_cases e : j = k
      · simp [World.put, e] at aj
      · simp only [World.put, e, if_false] at aj
        simpa [status_snoc, after, Ne.symm e] using i.engine j m aj
    · intro j m aj
      by_cases e : j = k
      · simp [World.put, e] at aj
      · simp only [World.put, e, if_false] at aj
        obtain ⟨dm, lm⟩ := i.owned j m aj
        exact ⟨dm, fun b hb => (back b).2 ⟨i.apart j k m n aj a e b hb, lm b hb⟩⟩
    · intro j l m m' aj al ne
      by_cases e : j = k
      · simp [World.put, e] at aj
      · by_cases e' : l = k
        · simp [World.put, e'] at al
        · simp only [World.put, e, e', if_false] at aj al
          exact i.apart j l m m' aj al ne
    · intro j l
      have : firstSize j l (h ++ [.close k]) = firstSize j l h := by
        rw [firstSize_append]; cases firstSize j l h <;> rfl
      rw [this, ← i.models j l]
      by_cases e : j = k <;> simp [World.put, e]
  · simp only [World.put]
    rw [List.length_erase_of_mem m3, List.length_erase_of_mem m2, List.length_erase_of_mem h1]
    have := List.length_pos_of_mem m3
    rw [List.length_erase_of_mem m2, List.length_erase_of_mem h1] at this
    omega

/-- One call, with the invariant: it is undefined exactly when the history forbids it, and the blocks are counted. -/
theorem step_inv {h : List Ev} {w : World} (i : Inv h w) (e : Ev) :
    (step w e = .undefined ∧ Forbidden h e) ∨
    (¬ Forbidden h e ∧ ∃ w', (step w e = .ok w' ∨ step w e = .raised w') ∧ Inv (h ++ [e]) w' ∧
      w'.live.length + 3 * (givenBack h 0 [e]) = w.live.length + 3 * made [e]) := by
  cases e with
  | setModel k idx size =>
    cases size with
    | none =>
      refine .inr ⟨id, w, .inr rfl, i.same _ (fun j => ?_) (fun j l => ?_), by simp [made, givenBack]⟩
      · simp [status_snoc, after]
      · rw [firstSize_append]; cases firstSize j l h <;> rfl
    | some n =>
      have hm := i.models_new k idx n
      obtain ⟨ms, ems⟩ : ∃ ms, ms = (if (w.objs k).models.any (fun p => p.1 == idx) then (w.objs k).models
        else (w.objs k).models ++ [(idx, n)]) := ⟨_, rfl⟩
      rw [← ems] at hm
      have hs : ∃ m, firstSize k idx (h ++ [.setModel k idx (some n)]) = some m := by
        rw [firstSize_append]
        cases firstSize k idx h with
        | some m => exact ⟨m, rfl⟩
        | none => exact ⟨n, by simp [firstSize]⟩
      obtain ⟨m, em⟩ := hs
      have hl : (ms.filter fun p => p.1 == idx).getLast? = some (idx, m) := by rw [hm, em]; rfl
      have st : step w (.setModel k idx (some n)) = if maxModel < m then .undefined
          else .ok ((newInterpreter w).1.put k ⟨.engine (newInterpreter w).2, ms⟩) := by
        simp only [step, setModel, ← ems, hl]
      by_cases big : maxModel < m
      · exact .inl ⟨by rw [st, if_pos big], m, em, big⟩
      · refine .inr ⟨?_, _, .inl (by rw [st, if_neg big]), i.set k idx n ms hm, by simp [World.put, newInterpreter, made, givenBack]⟩
        rintro ⟨m', e', b⟩
        rw [em] at e'; injection e' with e'; subst e'
        exact big b
  | use k =>
    have same : Inv (h ++ [.use k]) w := i.same _ (fun j => by simp [status_snoc, after]) (fun j l => by
      rw [firstSize_append]; cases firstSize j l h <;> rfl)
    cases a : (w.objs k).attr with
    | missing =>
      refine .inr ⟨?_, w, .inr (by simp [step, use, a]), same, by simp [made, givenBack]⟩
      have := i.missing k a
      simp [Forbidden, this]
    | none => exact .inl ⟨by simp [step, use, a], i.none k a⟩
    | engine n =>
      have l := (i.owned k n a).2
      have c : n.primary ∈ w.live ∧ n.objects ∈ w.live ∧ n.engine ∈ w.live :=
        ⟨l _ (by simp [Native.blocks]), l _ (by simp [Native.blocks]), l _ (by simp [Native.blocks])⟩
      refine .inr ⟨?_, w, .inl (by simp [step, use, a, c]), same, by simp [made, givenBack]⟩
      have := i.engine k n a
      simp [Forbidden, this]
  | close k =>
    have hf : ∀ j l, firstSize j l (h ++ [.close k]) = firstSize j l h := fun j l => by
      rw [firstSize_append]; cases firstSize j l h <;> rfl
    cases a : (w.objs k).attr with
    | missing =>
      have u := i.missing k a
      refine .inr ⟨id, w, .inr (by simp [step, close, a]), i.same _ (fun j => ?_) hf, by simp [made, givenBack, u]⟩
      rw [status_snoc]
      change (if k = j ∧ status j h = .opened then Status.closed else status j h) = _
      split
      · rename_i c; obtain ⟨rfl, c⟩ := c; rw [u] at c; cases c
      · rfl
    | none =>
      have u := i.none k a
      refine .inr ⟨id, w, .inl (by simp [step, close, a]), i.same _ (fun j => ?_) hf, by simp [made, givenBack, u]⟩
      rw [status_snoc]
      change (if k = j ∧ status j h = .opened then Status.closed else status j h) = _
      split
      · rename_i c; obtain ⟨rfl, c⟩ := c; rw [u] at c; cases c
      · rfl
    | engine n =>
      obtain ⟨w', e, i', c⟩ := i.closed k n a
      refine .inr ⟨id, w', .inl e, i', ?_⟩
      simp only [givenBack, i.engine k n a, if_true, made]
      omega

theorem givenBack_cons (e : Ev) : ∀ (es : List Ev) (h : List Ev) (n : Nat),
    givenBack h n (e :: es) = givenBack (h ++ [e]) (n + givenBack h 0 [e]) es := by
  intro es h n
  cases e with
  | close k => simp only [givenBack]; split <;> simp
  | setModel k idx s => simp [givenBack]
  | use k => simp [givenBack]

theorem run_inv : ∀ (es h : List Ev) (w : World) (g : Nat), Inv h w → w.live.length + 3 * g = 3 * made h →
    (run w es = none ↔ ∃ pre e post, es = pre ++ e :: post ∧ Forbidden (h ++ pre) e) ∧
    ∀ w', run w es = some w' → Inv (h ++ es) w' ∧ w'.live.length + 3 * givenBack h g es = 3 * made (h ++ es)
  | [], h, w, g, i, c => by
    refine ⟨⟨fun hr => by simp [run] at hr, fun ⟨pre, e, post, h1, _⟩ => by simp at h1⟩, fun w' hr => ?_⟩
    simp only [run, Option.some.injEq] at hr
    subst hr
    simpa [givenBack] using ⟨i, c⟩
  | e :: es, h, w, g, i, c => by
    rcases step_inv i e with ⟨hu, hf⟩ | ⟨hn, w1, hs, i1, c1⟩
    · have hr : run w (e :: es) = none := by simp only [run, hu]
      refine ⟨⟨fun _ => ⟨[], e, es, rfl, by simpa using hf⟩, fun _ => hr⟩, fun w' h' => ?_⟩
      rw [hr] at h'; cases h'
    · have hr : run w (e :: es) = run w1 es := by
        rcases hs with hs | hs <;> simp only [run, hs]
      have c2 : w1.live.length + 3 * (g + givenBack h 0 [e]) = 3 * made (h ++ [e]) := by
        rw [made_snoc]; omega
      obtain ⟨q1, q2⟩ := run_inv es (h ++ [e]) w1 (g + givenBack h 0 [e]) i1 c2
      rw [hr]
      refine ⟨q1.trans ⟨?_, ?_⟩, ?_⟩
      · rintro ⟨pre, e', post, h1, h2⟩
        exact ⟨e :: pre, e', post, by rw [h1]; rfl, by simpa using h2⟩
      · rintro ⟨pre, e', post, h1, h2⟩
        cases pre with
        | nil =>
          simp only [List.nil_append, List.cons.injEq] at h1
          obtain ⟨rfl, rfl⟩ := h1
          exact absurd (by simpa using h2) hn
        | cons x pre =>
          simp only [List.cons_append, List.cons.injEq] at h1
          obtain ⟨rfl, rfl⟩ := h1
          exact ⟨pre, e', post, rfl, by simpa using h2⟩
      · intro w' h'
        obtain ⟨a, b⟩ := q2 w' h'
        rw [givenBack_cons]
        rw [List.append_assoc] at a b
        exact ⟨a, b⟩

/-- **C120** (safety, exactly). Whatever sequence of calls is made on whatever interpreter objects: memory is accessed that may not be exactly if
some call uses an object after it was closed, or gives a model to an object whose first model for that index exceeds 50 MB. In particular closing
twice, closing an object without a model and setting a model again after closing are harmless. -/
theorem C120_safe (es : List Ev) :
    run start es = none ↔ ∃ pre e post, es = pre ++ e :: post ∧ Forbidden pre e := by
  simpa using (run_inv es [] start 0 inv_start rfl).1

/-- **C120** (what stays allocated). After any history of calls the native interpreters still allocated (three blocks each) are those made by
`set_model` less those given back by a `close` of an open object. -/
theorem C120_balance (es : List Ev) (w : World) (h : run start es = some w) :
    w.live.length + 3 * givenBack [] 0 es = 3 * made es := by
  simpa using ((run_inv es [] start 0 inv_start rfl).2 w h).2

/-- Objects are used one model at a time: `set_model` is called only on objects that are not open. -/
def OneAtATime (es : List Ev) : Prop :=
  ∀ pre k i n post, es = pre ++ .setModel k i (some n) :: post → status k pre ≠ .opened

theorem owned_step {h : List Ev} {w w' : World} (i : Inv h w) (e : Ev)
    (ho : ∀ b ∈ w.live, ∃ k n, (w.objs k).attr = .engine n ∧ b ∈ n.blocks)
    (hd : ∀ k i n, e = .setModel k i (some n) → status k h ≠ .opened) (hs : step w e = .ok w' ∨ step w e = .raised w') :
    ∀ b ∈ w'.live, ∃ k n, (w'.objs k).attr = .engine n ∧ b ∈ n.blocks := by
  cases e with
  | setModel k idx size =>
    cases size with
    | none =>
      rcases hs with hs | hs <;> simp only [step, setModel, Out.raised.injEq, reduceCtorEq] at hs
      subst hs; exact ho
    | some n =>
      have hk := hd k idx n rfl
      have : ∃ ms, w' = (newInterpreter w).1.put k ⟨.engine (newInterpreter w).2, ms⟩ := by
        simp only [step, setModel] at hs
        split at hs
        · rcases hs with hs | hs <;> cases hs; exact ⟨_, rfl⟩
        · split at hs
          · rcases hs with hs | hs <;> cases hs
          · rcases hs with hs | hs <;> cases hs; exact ⟨_, rfl⟩
      obtain ⟨ms, rfl⟩ := this
      intro b hb
      simp only [World.put, newInterpreter, List.mem_cons] at hb
      have old : b ∈ w.live ∨ b ∈ (newInterpreter w).2.blocks := by
        simp only [newInterpreter, Native.blocks, List.mem_cons, List.not_mem_nil, or_false]
        rcases hb with hb | hb | hb | hb
        · exact .inr (.inr (.inr hb))
        · exact .inr (.inl hb)
        · exact .inr (.inr (.inl hb))
        · exact .inl hb
      rcases old with hl | hn
      · obtain ⟨j, m, hj, hm⟩ := ho b hl
        have ne : j ≠ k := fun e => hk (e ▸ i.engine j m hj)
        refine ⟨j, m, ?_, hm⟩
        simp only [World.put, ne, if_false]; exact hj
      · exact ⟨k, _, by simp only [World.put, if_true], hn⟩
  | use k =>
    simp only [step, use] at hs
    have : w' = w := by
      split at hs
      · rcases hs with hs | hs <;> cases hs; rfl
      · rcases hs with hs | hs <;> cases hs
      · split at hs
        · rcases hs with hs | hs <;> cases hs; rfl
        · rcases hs with hs | hs <;> cases hs
    subst this; exact ho
  | close k =>
    cases a : (w.objs k).attr with
    | missing =>
      simp only [step, close, a] at hs
      rcases hs with hs | hs <;> cases hs; exact ho
    | none =>
      simp only [step, close, a] at hs
      rcases hs with hs | hs <;> cases hs; exact ho
    | engine n =>
      simp only [step, close, a, free] at hs
      have d := i.owned k n a
      have h1 : n.primary ∈ w.live := d.2 _ (by simp [Native.blocks])
      simp only [h1, if_true, Option.bind_some] at hs
      split at hs
      · rename_i w2 e2
        rcases hs with hs | hs <;> cases hs
        have hw : w2 = { w with live := ((w.live.erase n.primary).erase n.objects).erase n.engine } := by
          split at e2
          · simp only [Option.bind_some] at e2
            split at e2
            · injection e2 with e2; exact e2.symm
            · cases e2
          · cases e2
        subst hw
        intro b hb
        simp only [World.put] at hb
        have d1 := i.nodup.erase n.primary
        have d2 := d1.erase n.objects
        rw [mem_erase_iff d2, mem_erase_iff d1, mem_erase_iff i.nodup] at hb
        obtain ⟨j, m, hj, hm⟩ := ho b hb.2.2.2
        have ne : j ≠ k := by
          rintro rfl
          rw [hj] at a; injection a with a; subst a
          simp only [Native.blocks, List.mem_cons, List.not_mem_nil, or_false] at hm
          rcases hm with hm | hm | hm
          · exact hb.2.2.1 hm
          · exact hb.2.1 hm
          · exact hb.1 hm
        refine ⟨j, m, ?_, hm⟩
        simp only [World.put, ne, if_false]; exact hj
      · rcases hs with hs | hs <;> cases hs

theorem owned_run : ∀ (es h : List Ev) (w w' : World), Inv h w →
    (∀ b ∈ w.live, ∃ k n, (w.objs k).attr = .engine n ∧ b ∈ n.blocks) →
    (∀ pre k i n post, es = pre ++ .setModel k i (some n) :: post → status k (h ++ pre) ≠ .opened) → run w es = some w' →
    Inv (h ++ es) w' ∧ ∀ b ∈ w'.live, ∃ k n, (w'.objs k).attr = .engine n ∧ b ∈ n.blocks
  | [], h, w, w', i, ho, _, hr => by
    simp only [run, Option.some.injEq] at hr
    subst hr
    simpa using ⟨i, ho⟩
  | e :: es, h, w, w', i, ho, hd, hr => by
    rcases step_inv i e with ⟨hu, _⟩ | ⟨_, w1, hs, i1, _⟩
    · simp only [run, hu] at hr; cases hr
    · have h1 := owned_step i e ho (fun k j n he => by simpa using hd [] k j n es (by rw [he]; rfl)) hs
      have hr1 : run w1 es = some w' := by
        rcases hs with hs | hs <;> simpa only [run, hs] using hr
      have := owned_run es (h ++ [e]) w1 w' i1 h1 (fun pre k j n post he => by
        have := hd (e :: pre) k j n post (by rw [he]; rfl)
        simpa using this) hr1
      simpa using this

/-- **C120** (nothing is leaked, in part). If `set_model` is called only on objects without an open model, then once every object that was opened
has been closed no native memory is left. What is missing: without that condition it is false (`C120_replace_leaks_refuted`). -/
theorem C120_no_leak_partial (es : List Ev) (w : World) (h : run start es = some w) (one : OneAtATime es)
    (done : ∀ k, status k es ≠ .opened) : w.live = [] := by
  obtain ⟨i, o⟩ := owned_run es [] start w inv_start (by simp [start]) (by simpa [OneAtATime] using one) h
  cases hl : w.live with
  | nil => rfl
  | cons b l =>
    obtain ⟨k, n, hk, _⟩ := o b (by rw [hl]; exact List.mem_cons_self)
    exact absurd (by simpa using i.engine k n hk) (done k)

/-- **C120** (refuted without the condition): giving an object another model, which is what `set_model` is documented to do, leaves the native
interpreter of the first model allocated for ever, whatever is called afterwards: every `set_model` on an open object loses three blocks. -/
theorem C120_replace_leaks_refuted (k : Nat) (i j : Int) (m n : Nat) (hm : m ≤ 50000000) (hn : n ≤ 50000000) :
    ∃ w, run start [.setModel k i (some m), .setModel k j (some n), .use k, .close k] = some w ∧ w.live.length = 3 := by
  cases hr : run start [.setModel k i (some m), .setModel k j (some n), .use k, .close k] with
  | some w =>
    have := C120_balance _ w hr
    refine ⟨w, rfl, ?_⟩
    simp only [givenBack, made, status, List.nil_append, List.cons_append, List.foldl, after, if_true] at this
    omega
  | none =>
    obtain ⟨pre, e, post, he, hf⟩ := (C120_safe _).1 hr
    exfalso
    match pre, he with
    | [], he =>
      simp only [List.nil_append, List.cons.injEq] at he
      rw [← he.1] at hf
      simp [Forbidden, firstSize] at hf
      omega
    | [a], he =>
      simp only [List.cons_append, List.nil_append, List.cons.injEq] at he
      rw [← he.1, ← he.2.1] at hf
      simp only [Forbidden, List.cons_append, List.nil_append, firstSize] at hf
      obtain ⟨x, hx, big⟩ := hf
      split at hx <;> simp at hx <;> omega
    | [a, b], he =>
      simp only [List.cons_append, List.nil_append, List.cons.injEq] at he
      rw [← he.1, ← he.2.1, ← he.2.2.1] at hf
      simp [Forbidden, status, after] at hf
    | [a, b, c], he =>
      simp only [List.cons_append, List.nil_append, List.cons.injEq] at he
      rw [← he.2.2.2.1] at hf
      exact hf
    | a :: b :: c :: d :: r, he =>
      simp at he

/-- **C120** (refuted): the first model of an object decides: a model of 60 MB is copied past the 50 MB allocated for it. -/
theorem C120_large_refuted (k : Nat) (i : Int) (n : Nat) (h : 50000000 < n) : run start [.setModel k i (some n)] = none :=
  (C120_safe _).2 ⟨[], _, [], rfl, n, by simp [firstSize], h⟩

/-- **C120** (refuted): a call on a closed object is not an exception but an access through a null pointer. -/
theorem C120_use_closed_refuted (k : Nat) (i : Int) (n : Nat) :
    run start [.setModel k i (some n), .close k, .use k] = none :=
  (C120_safe _).2 ⟨[.setModel k i (some n), .close k], .use k, [], rfl, by simp [Forbidden, status, after]⟩

/-- A case that meets the hypotheses: two objects, interleaved, one of them closed twice and opened again, one closed without ever having a model. -/
theorem C120_example : ∃ w, run start [.close 2, .setModel 0 0 (some 1000), .setModel 1 0 (some 2000), .use 0, .use 1, .close 0, .close 0,
    .setModel 0 0 none, .setModel 0 1 (some 500), .use 0, .close 1, .close 0, .use 2] = some w ∧ w.live = [] := by
  refine ⟨_, rfl, ?_⟩
  decide +kernel

end Verif.Host.Lifetime
