import Mathlib.Tactic.Ring
/-!
Removal of dynamic batch sizes (xformer/Transforms/RemoveDynamicShape.cpp): model, specification, proofs (C60).
-/
namespace Verif.Shape

/-! ### Model -/

/-- A tensor type as far as the pass looks at it: no rank, or a list of dimensions; `none` is a dynamic dimension. -/
inductive TTy where
  | unranked
  | ranked (dims : List (Option Int))
  deriving DecidableEq, Repr

/-- `static_cast<int>(dim)` of RemoveDynamicShape.cpp 38–40: a static size below 2^31 stays; `kDynamic` is the smallest
64-bit integer, whose low 32 bits are 0. -/
def castDim : Option Int → Option Int
  | some n => some n
  | none => some 0

/-- `getNewTensorType`, RemoveDynamicShape.cpp 30–45. -/
def newType : TTy → TTy
  | .unranked => .unranked
  | .ranked dims =>
    if dims.length > 1 ∧ dims.head? = some none then .ranked ((dims.map castDim).set 0 (some 1)) else .ranked dims

/-- A function: types of its arguments, declared result types, and the result types of its operators (`none`: a value
without tensor, `NoneType`). -/
structure Fn where
  args : List TTy
  results : List TTy
  /-- Every operator's result types, in order. -/
  ops : List (List (Option TTy))
  /-- The values returned: an argument, or a result of an operator. -/
  returned : List (Nat ⊕ Nat × Nat)

/-- RemoveDynamicShape.cpp 47–82. -/
def removeDynamic (f : Fn) : Fn :=
  { f with args := f.args.map newType, results := f.results.map newType, ops := f.ops.map fun rs => rs.map (Option.map newType) }

/-! ### Specification -/

/-- The type with every dynamic dimension of size `b`. -/
def TTy.inst (b : Int) : TTy → TTy
  | .unranked => .unranked
  | .ranked dims => .ranked (dims.map fun d => some (d.getD b))

def TTy.Static : TTy → Prop
  | .unranked => False
  | .ranked dims => ∀ d ∈ dims, d ≠ none

/-- At most the first of at least two dimensions is dynamic. -/
def TTy.BatchOnly : TTy → Prop
  | .unranked => False
  | .ranked dims => (∀ d ∈ dims.tail, d ≠ none) ∧ (dims.head? = some none → 2 ≤ dims.length)

/-- Type of a value. -/
def Fn.typeOf (f : Fn) : Nat ⊕ Nat × Nat → Option TTy
  | .inl i => f.args[i]?
  | .inr (o, r) => (f.ops[o]?.bind (·[r]?)).join

/-- The declared result types are the types of the returned values. -/
def Fn.Consistent (f : Fn) : Prop := f.returned.map f.typeOf = f.results.map some

/-- Every tensor of the function. -/
def Fn.types (f : Fn) : List TTy := f.args ++ f.results ++ (f.ops.flatten.filterMap id)

/-! ### Proofs -/

theorem castDim_static (l : List (Option Int)) (h : ∀ d ∈ l, d ≠ none) (b : Int) : l.map castDim = l.map fun d => some (d.getD b) := by
  apply List.map_congr_left
  intro d hd
  cases d with
  | none => exact absurd rfl (h _ hd)
  | some n => rfl

theorem inst_static (l : List (Option Int)) (h : ∀ d ∈ l, d ≠ none) (b : Int) : (l.map fun d => some (d.getD b)) = l := by
  conv_rhs => rw [← List.map_id l]
  apply List.map_congr_left
  intro d hd
  cases d with
  | none => exact absurd rfl (h _ hd)
  | some n => rfl

/-- **C60** (one type). -/
theorem newType_eq_inst (t : TTy) (h : t.BatchOnly) : newType t = t.inst 1 := by
  cases t with
  | unranked => exact h.elim
  | ranked dims =>
    obtain ⟨h1, h2⟩ := h
    unfold newType TTy.inst
    dsimp only
    cases dims with
    | nil => simp
    | cons d rest =>
      simp only [List.tail_cons] at h1
      cases d with
      | none =>
        have := h2 rfl
        rw [if_pos ⟨by simp only [List.length_cons] at *; omega, rfl⟩]
        simp only [List.map_cons, List.set_cons_zero, Option.getD_none]
        rw [castDim_static rest h1 1]
      | some n =>
        rw [if_neg (by simp)]
        simp only [List.map_cons, Option.getD_some]
        rw [inst_static rest h1 1]

theorem inst_isStatic (t : TTy) (h : t ≠ .unranked) (b : Int) : (t.inst b).Static := by
  cases t with
  | unranked => exact absurd rfl h
  | ranked dims =>
    intro d hd
    rw [List.mem_map] at hd
    obtain ⟨_, _, rfl⟩ := hd
    simp

theorem typeOf_map (f : Fn) (v : Nat ⊕ Nat × Nat) : (removeDynamic f).typeOf v = (f.typeOf v).map newType := by
  cases v with
  | inl i => simp [Fn.typeOf, removeDynamic]
  | inr p =>
    obtain ⟨o, r⟩ := p
    simp only [Fn.typeOf, removeDynamic, List.getElem?_map]
    cases h : f.ops[o]? with
    | none => rfl
    | some rs =>
      simp only [Option.map_some, Option.bind_some, List.getElem?_map]
      cases h2 : rs[r]? with
      | none => rfl
      | some x => cases x <;> rfl

/-- **C60.** If dynamic sizes occur only as batch sizes of tensors with at least two dimensions, then afterwards every
tensor's type is its original type with batch size 1, all are static, and declared result types still agree with the
returned values. -/
theorem C60_remove_dynamic_partial (f : Fn) (h : ∀ t ∈ f.types, t.BatchOnly) :
    (removeDynamic f).types = f.types.map (TTy.inst 1) ∧ (∀ t ∈ (removeDynamic f).types, t.Static) := by
  have e : (removeDynamic f).types = f.types.map newType := by
    unfold Fn.types removeDynamic
    simp only [List.map_append, List.append_cancel_left_eq]
    induction f.ops with
    | nil => rfl
    | cons rs l ih =>
      simp only [List.map_cons, List.flatten_cons, List.filterMap_append, List.map_append, ih]
      congr 1
      induction rs with
      | nil => rfl
      | cons x xs ih2 => cases x <;> simp_all
  have e2 : f.types.map newType = f.types.map (TTy.inst 1) := List.map_congr_left fun t ht => newType_eq_inst t (h t ht)
  refine ⟨e.trans e2, ?_⟩
  intro t ht
  rw [e, e2, List.mem_map] at ht
  obtain ⟨t', ht', rfl⟩ := ht
  exact inst_isStatic t' (fun hu => by have := h t' ht'; rw [hu] at this; exact this) 1

/-- **C60, signature.** For every function: if the declared result types were the types of the returned values, they still
are. -/
theorem C60_signature (f : Fn) (h : f.Consistent) : (removeDynamic f).Consistent := by
  unfold Fn.Consistent at *
  have e : (removeDynamic f).returned.map (removeDynamic f).typeOf = (f.returned.map f.typeOf).map (Option.map newType) := by
    rw [List.map_map]
    exact List.map_congr_left fun v _ => typeOf_map f v
  rw [e, h]
  simp [removeDynamic]

/-- **C60, static functions are left alone.** -/
theorem C60_static_unchanged (t : TTy) (h : t.Static) : newType t = t := by
  cases t with
  | unranked => exact h.elim
  | ranked dims =>
    unfold newType
    dsimp only
    rw [if_neg]
    rintro ⟨_, h2⟩
    cases dims with
    | nil => cases h2
    | cons d rest => exact h d (by simp) (by simpa using h2)

/-- **C60 refuted outside**: a second dynamic dimension becomes 0 (`tensor<?x?x3xf32>` becomes `tensor<1x0x3xf32>`), one
without a dynamic batch stays dynamic, and so does the batch of a vector. -/
theorem C60_other_dims_refuted :
    newType (.ranked [none, none, some 3]) = .ranked [some 1, some 0, some 3] ∧
    newType (.ranked [some 1, none, some 3]) = .ranked [some 1, none, some 3] ∧
    newType (.ranked [none]) = .ranked [none] := by decide

def exFn : Fn :=
  { args := [.ranked [none, some 8, some 8, some 3]], results := [.ranked [none, some 10]]
    ops := [[some (.ranked [some 10, some 192])], [none], [some (.ranked [none, some 10])]], returned := [.inr (2, 0)] }

/-- The hypotheses can be met. -/
theorem C60_example : exFn.Consistent ∧ (∀ t ∈ exFn.types, t.BatchOnly) ∧
    (removeDynamic exFn).results = [.ranked [some 1, some 10]] := by
  refine ⟨rfl, ?_, by decide⟩
  intro t ht
  have : t = .ranked [none, some 8, some 8, some 3] ∨ t = .ranked [none, some 10] ∨ t = .ranked [some 10, some 192] := by
    have e : exFn.types = [.ranked [none, some 8, some 8, some 3], .ranked [none, some 10], .ranked [some 10, some 192], .ranked [none, some 10]] := by decide
    rw [e] at ht
    simp at ht
    tauto
  rcases this with rfl | rfl | rfl <;> exact ⟨by decide, by decide⟩

end Verif.Shape
