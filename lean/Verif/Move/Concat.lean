import Verif.Move.Broadcast
/-! Property theorems C17, C18 and C23. -/
namespace Verif.Move
open Verif.Tensor

/-! ### C18 -/

theorem flat_map {α β : Type} (s : List Nat) (f : List Nat → α) (g : α → β) :
    flat s (fun i => g (f i)) = (flat s f).map g := by
  induction s generalizing f with
  | nil => rfl
  | cons n s ih =>
    simp only [flat, List.map_flatMap]
    apply flatMap_congr'
    intro i _
    exact ih fun idx => f (i :: idx)

/-- The multi-index stored at row-major position `k`. -/
def unravel (s : List Nat) (k : Nat) : List Nat := (flat s id).getD k []

theorem bytes_range {B : Type} (s : List Nat) (h : List Nat → List B) :
    bytes s h = (List.range s.prod).flatMap fun k => h (unravel s k) := by
  have e : flat s h = (List.range s.prod).map fun k => h (unravel s k) := by
    have h1 := flat_map s id h
    have h2 : flat s id = (List.range s.prod).map fun k => unravel s k := by
      apply List.ext_getElem
      · rw [length_flat]; simp
      · intro k h1 h2
        simp [unravel, List.getD_eq_getElem?_getD, List.getElem?_eq_getElem h1]
    simp only [id] at h1
    rw [h1, h2, List.map_map]; rfl
  unfold bytes
  rw [e, ← List.flatMap_def]

theorem unravel_inShape (s : List Nat) (k : Nat) (hk : k < s.prod) : InShape s (unravel s k) := by
  have hl : k < (flat s id).length := by rw [length_flat]; exact hk
  have : unravel s k ∈ flat s id := by
    unfold unravel
    rw [List.getD_eq_getElem?_getD, List.getElem?_eq_getElem hl]
    exact List.getElem_mem hl
  obtain ⟨idx, h1, h2⟩ := mem_flat this
  rw [← h2]; exact h1

/-- One outer position of the concatenation. -/
theorem concat_row {B : Type} (u post : List Nat) (inputs : List (Nat × (List Nat → List B))) :
    bytes ((inputs.map (·.1)).sum :: post) (fun j => concatT u.length inputs (u ++ j)) =
      inputs.flatMap fun nf => bytes (nf.1 :: post) fun j => nf.2 (u ++ j) := by
  induction inputs with
  | nil => simp [bytes, flat]
  | cons nf rest ih =>
    obtain ⟨n, f⟩ := nf
    rw [List.flatMap_cons, ← ih]
    simp only [List.map_cons, List.sum_cons]
    rw [bytes_cons, bytes_cons, bytes_cons, List.range_add, List.flatMap_append, List.flatMap_map]
    congr 1
    · apply flatMap_congr'
      intro i hi
      have hi : i < n := by simpa using hi
      apply bytes_congr
      intro idx _
      unfold concatT
      rw [if_pos (by simpa using hi)]
    · apply flatMap_congr'
      intro i _
      apply bytes_congr
      intro idx _
      rw [concatT, if_neg (by simp)]
      simp

/-- Shape of input `k`. -/
def inShapes {α : Type} (pre post : List Nat) (inputs : List (Nat × α)) : List (List Nat) :=
  inputs.map fun nf => pre ++ nf.1 :: post

/-- **C18.** For every element width, rank, axis (given from the front or from the back) and up to 13 inputs: the
concatenation is lowered, and executing the copies on the row-major bytes of the inputs gives the row-major bytes of the
concatenated tensor.  The vector copy is chosen only when all block lengths are multiples of four. -/
theorem C18_lowered_concat {B : Type} (d : Nat) (pre post : List Nat) (inputs : List (Nat × (List Nat → List B)))
    (hn : inputs.length ≤ 13) (axis : Int)
    (haxis : axis = pre.length ∨ axis = (pre.length : Int) - (pre.length + 1 + post.length))
    (hf : ∀ nf ∈ inputs, ∀ i, (nf.2 i).length = d) :
    let outShape := pre ++ (inputs.map (·.1)).sum :: post
    ∃ p, lowerConcat d (inShapes pre post inputs) outShape axis = .op p ∧
      concatKernel p.numCopies p.sizes (inputs.map fun nf => (flat (pre ++ nf.1 :: post) nf.2).flatten) =
        (flat outShape (concatT pre.length inputs)).flatten ∧
      p.numInputs = inputs.length ∧ p.sizes.length = inputs.length ∧
      (p.useVpu = true → ∀ s ∈ p.sizes, 4 ∣ s) := by
  intro outShape
  have hax : concatAxis outShape.length axis = some pre.length := by
    unfold concatAxis
    have hol : outShape.length = pre.length + 1 + post.length := by simp [outShape]; omega
    rw [hol]
    rcases haxis with h | h
    · subst h
      simp only [if_neg (show ¬ ((pre.length : Int) < 0) by omega), Int.toNat_natCast]
    · have h1 : axis < 0 := by omega
      simp only [if_pos h1]
      rw [if_neg (by omega)]
      congr 1
      omega
  have hlow : lowerConcat d (inShapes pre post inputs) outShape axis =
      .op ⟨(outShape.take pre.length).prod, (inShapes pre post inputs).map (fun s => d * (s.drop pre.length).prod),
        (inShapes pre post inputs).length,
        ((inShapes pre post inputs).map (fun s => d * (s.drop pre.length).prod)).all fun n => n % 4 == 0⟩ := by
    unfold lowerConcat
    rw [if_neg (by simp [inShapes, concatMax]; omega), hax]
  refine ⟨_, hlow, ?_, by simp [inShapes], by simp [inShapes], ?_⟩
  · have hsz : (inShapes pre post inputs).map (fun s => d * (s.drop pre.length).prod) =
        inputs.map fun nf => nf.1 * post.prod * d := by
      simp only [inShapes, List.map_map]
      apply List.map_congr_left
      intro nf _
      simp only [Function.comp, List.drop_left, List.prod_cons]
      ring
    have htake : outShape.take pre.length = pre := by simp [outShape]
    simp only
    rw [hsz, htake]
    show _ = bytes outShape (concatT pre.length inputs)
    show _ = bytes (pre ++ (inputs.map (·.1)).sum :: post) _
    rw [bytes_append, bytes_range]
    unfold concatKernel
    apply flatMap_congr'
    intro k hk
    have hk : k < pre.prod := by simpa using hk
    have hul : (unravel pre k).length = pre.length := length_inShape (unravel_inShape pre k hk)
    have hrow := concat_row (unravel pre k) post inputs
    rw [hul] at hrow
    rw [hrow]
    have hzip : (inputs.map fun nf => nf.1 * post.prod * d).zip
        (inputs.map fun nf => (flat (pre ++ nf.1 :: post) nf.2).flatten) =
        inputs.map fun nf => (nf.1 * post.prod * d, bytes (pre ++ nf.1 :: post) nf.2) := by
      clear hf hn hax hlow hsz htake hrow
      induction inputs with
      | nil => rfl
      | cons a l ih => simpa [bytes] using ih
    rw [hzip, List.flatMap_map]
    apply flatMap_congr'
    intro nf hnf
    simp only
    rw [bytes_append, bytes_range]
    have hlen : ∀ i, (bytes (nf.1 :: post) fun j => nf.2 (unravel pre i ++ j)).length = nf.1 * post.prod * d := by
      intro i
      rw [length_bytes _ _ d (fun _ => hf nf hnf _), List.prod_cons]
    have := slice_flatMap_range (fun i => bytes (nf.1 :: post) fun j => nf.2 (unravel pre i ++ j)) _ hlen pre.prod k 1
      (by omega)
    simpa using this
  · intro h s hs
    have := (List.all_eq_true.1 h) s hs
    exact Nat.dvd_of_mod_eq_zero (by simpa using this)

example : lowerConcat 1 [[1, 4, 4, 8], [1, 4, 4, 3]] [1, 4, 4, 11] (-1) = .op ⟨16, [8, 3], 2, false⟩ := by decide
example : lowerConcat 2 [[2, 4, 8], [2, 2, 8]] [2, 6, 8] 1 = .op ⟨2, [64, 32], 2, true⟩ := by decide

/-! ### C17 -/

/-- `t` is a well-formed tree of concatenations along axis `pre.length` of the given inputs: every operator has at most 13
operands and declares the true shape of its result.  `n` is the size of the result along the axis, `g` its value and
`leaves` the inputs in order. -/
inductive Denotes {α : Type} [Inhabited α] (pre post : List Nat) (inputs : List (Nat × (List Nat → α))) :
    CTree → Nat → (List Nat → α) → List Nat → Prop where
  | input (k n f) (h : inputs[k]? = some (n, f)) : Denotes pre post inputs (.input k) n f [k]
  | concat (l : List (CTree × Nat × (List Nat → α) × List Nat)) (hl : l.length ≤ 13)
      (h : ∀ x ∈ l, Denotes pre post inputs x.1 x.2.1 x.2.2.1 x.2.2.2) :
      Denotes pre post inputs (.concat (pre ++ (l.map (·.2.1)).sum :: post) (l.map (·.1))) (l.map (·.2.1)).sum
        (concatT pre.length (l.map fun x => (x.2.1, x.2.2.1))) (l.map (·.2.2.2)).flatten

theorem concatT_append {α : Type} [Inhabited α] (a : Nat) (l1 l2 : List (Nat × (List Nat → α))) (idx : List Nat)
    (ha : a < idx.length) :
    concatT a (l1 ++ l2) idx = concatT a (((l1.map (·.1)).sum, concatT a l1) :: l2) idx := by
  induction l1 generalizing idx with
  | nil =>
    rw [List.nil_append, concatT, if_neg (by simp)]
    simp
    congr 1
    rw [List.getElem?_eq_getElem ha]
    simp
  | cons nf l1 ih =>
    obtain ⟨n, f⟩ := nf
    have hset : ∀ v, (idx.set a v).getD a 0 = v := by
      intro v; simp [List.getD_eq_getElem?_getD, ha]
    rw [List.cons_append, concatT]
    by_cases h : idx.getD a 0 < n
    · rw [if_pos h, concatT, if_pos (by simp only [List.map_cons, List.sum_cons]; omega), concatT, if_pos h]
    · rw [if_neg h, ih (idx.set a (idx.getD a 0 - n)) (by simpa using ha), concatT, hset]
      simp only [List.map_cons, List.sum_cons]
      rw [concatT]
      by_cases h2 : idx.getD a 0 < n + (l1.map (·.1)).sum
      · rw [if_pos (by omega), if_pos h2, concatT, if_neg h]
      · rw [if_neg (by omega), if_neg h2, List.set_set]
        congr 2
        omega

theorem splitShape_eq (pre post : List Nat) (m n : Nat) :
    splitShape (pre ++ m :: post) (pre.length : Int) n = pre ++ n :: post := by
  unfold splitShape
  apply List.ext_getElem
  · simp
  · intro i h1 h2
    simp only [List.getElem_mapIdx]
    rcases Nat.lt_trichotomy i pre.length with h | h | h
    · rw [if_neg (by omega), List.getElem_append_left h, List.getElem_append_left h]
    · subst h; simp
    · rw [if_neg (by omega), List.getElem_append_right (by omega), List.getElem_append_right (by omega)]
      obtain ⟨k, hk⟩ : ∃ k, i - pre.length = k + 1 := ⟨i - pre.length - 1, by omega⟩
      simp only [hk, List.getElem_cons_succ]

theorem splitConcat_inv {α : Type} [Inhabited α] (pre post : List Nat) (inputs : List (Nat × (List Nat → α)))
    (axis : Int) (hax : splitConcatAxis (pre.length + 1 + post.length) axis = pre.length) (total : Nat)
    (l : List (CTree × Nat × (List Nat → α) × List Nat))
    (hl : ∀ x ∈ l, Denotes pre post inputs x.1 x.2.1 x.2.2.1 x.2.2.2)
    (htot : (l.map (·.2.1)).sum = total) :
    ∃ t g, splitConcat (pre ++ total :: post) axis (l.map fun x => (pre ++ x.2.1 :: post, x.1)) = some t ∧
      Denotes pre post inputs t total g (l.map (·.2.2.2)).flatten ∧
      ∀ idx, pre.length < idx.length → g idx = concatT pre.length (l.map fun x => (x.2.1, x.2.2.1)) idx := by
  induction hn : l.length using Nat.strong_induction_on generalizing l with
  | _ n ih =>
    subst hn
    rw [splitConcat]
    by_cases hle : l.length ≤ 13
    · rw [if_pos (by simpa [concatMax] using hle)]
      refine ⟨_, _, rfl, ?_, fun idx _ => rfl⟩
      have := Denotes.concat (pre := pre) (post := post) (inputs := inputs) l hle hl
      rw [htot] at this
      simpa [List.map_map, Function.comp_def] using this
    · rw [if_neg (by simpa [concatMax] using hle)]
      let first := l.take 13
      let fst : CTree × Nat × (List Nat → α) × List Nat :=
        (.concat (pre ++ (first.map (·.2.1)).sum :: post) (first.map (·.1)), (first.map (·.2.1)).sum,
          concatT pre.length (first.map fun x => (x.2.1, x.2.2.1)), (first.map (·.2.2.2)).flatten)
      have hfst : Denotes pre post inputs fst.1 fst.2.1 fst.2.2.1 fst.2.2.2 :=
        Denotes.concat first (by simp [first]) (fun x hx => hl x (List.mem_of_mem_take hx))
      have hstep : splitConcatStep (pre ++ total :: post) axis (l.map fun x => (pre ++ x.2.1 :: post, x.1)) =
          some ((fst :: l.drop 13).map fun x => (pre ++ x.2.1 :: post, x.1)) := by
        unfold splitConcatStep
        have hlen : (pre ++ total :: post).length = pre.length + 1 + post.length := by simp; omega
        rw [hlen, hax, if_neg (by omega)]
        simp only [Option.some.injEq, List.map_cons, List.map_drop, concatMax]
        have hsum : ((l.map fun x => (pre ++ x.2.1 :: post, x.1)).take 13).map
            (fun a => a.1.getD (pre.length : Int).toNat 0) = first.map (·.2.1) := by
          rw [← List.map_take, List.map_map]
          apply List.map_congr_left
          intro x _
          simp
        have htr : ((l.map fun x => (pre ++ x.2.1 :: post, x.1)).take 13).map (·.2) = first.map (·.1) := by
          rw [← List.map_take, List.map_map]
          rfl
        rw [hsum, htr, splitShape_eq]
      have hdrop : ∀ x ∈ fst :: l.drop 13, Denotes pre post inputs x.1 x.2.1 x.2.2.1 x.2.2.2 := by
        intro x hx
        rcases List.mem_cons.1 hx with hx | hx
        · rw [hx]; exact hfst
        · exact hl x (List.mem_of_mem_drop hx)
      have happ : l.take 13 ++ l.drop 13 = l := List.take_append_drop 13 l
      have htot' : ((fst :: l.drop 13).map (·.2.1)).sum = total := by
        rw [← htot]
        conv_rhs => rw [← happ]
        rw [List.map_append, List.sum_append]
        rfl
      obtain ⟨t, g, h1, h2, h3⟩ := ih (fst :: l.drop 13).length (by simp; omega) (fst :: l.drop 13) hdrop htot' rfl
      refine ⟨t, g, ?_, ?_, ?_⟩
      · split
        · rename_i hx; rw [hstep] at hx; exact absurd hx (by simp)
        · rename_i args' hx
          rw [hstep] at hx
          cases hx
          exact h1
      · have : ((fst :: l.drop 13).map (·.2.2.2)).flatten = (l.map (·.2.2.2)).flatten := by
          conv_rhs => rw [← happ]
          rw [List.map_append, List.flatten_append]
          rfl
        rw [this] at h2
        exact h2
      · intro idx hidx
        rw [h3 idx hidx]
        have := concatT_append pre.length (first.map fun x => (x.2.1, x.2.2.1))
          ((l.drop 13).map fun x => (x.2.1, x.2.2.1)) idx hidx
        conv_rhs => rw [← happ, List.map_append]
        rw [this]
        simp [fst, List.map_map, Function.comp_def]

/-- **C17.** For every number of inputs, rank and shapes, with the axis given from the front or as `-1` for the last one:
the rewriting of wide concatenations terminates, gives a tree of concatenations of at most 13 operands each whose declared
shapes are the true ones, mentions every input exactly once and in order, and has the value of the wide concatenation. -/
theorem C17_wide_concat_partial {α : Type} [Inhabited α] (pre post : List Nat) (inputs : List (Nat × (List Nat → α)))
    (axis : Int) (haxis : axis = pre.length ∨ (axis = -1 ∧ post = [])) :
    let total := (inputs.map (·.1)).sum
    ∃ t g, splitConcat (pre ++ total :: post) axis
        (inputs.zipIdx.map fun x => (pre ++ x.1.1 :: post, CTree.input x.2)) = some t ∧
      Denotes pre post inputs t total g (List.range inputs.length) ∧
      ∀ idx, InShape (pre ++ total :: post) idx → g idx = concatT pre.length inputs idx := by
  intro total
  have hax : splitConcatAxis (pre.length + 1 + post.length) axis = pre.length := by
    unfold splitConcatAxis
    rcases haxis with h | ⟨h, hp⟩
    · rw [if_neg (by omega), h]
    · subst hp; rw [if_pos h]; simp
  let l : List (CTree × Nat × (List Nat → α) × List Nat) :=
    inputs.zipIdx.map fun x => (CTree.input x.2, x.1.1, x.1.2, [x.2])
  have hl : ∀ x ∈ l, Denotes pre post inputs x.1 x.2.1 x.2.2.1 x.2.2.2 := by
    intro x hx
    obtain ⟨⟨nf, k⟩, hm, rfl⟩ := List.mem_map.1 hx
    apply Denotes.input
    exact List.mk_mem_zipIdx_iff_getElem?.1 hm
  have hfst : l.map (fun x => (x.2.1, x.2.2.1)) = inputs := by
    simp only [l, List.map_map, Function.comp_def]
    exact List.zipIdx_map_fst 0 inputs
  have hsum : (l.map (·.2.1)).sum = total := by
    have : l.map (·.2.1) = (l.map (fun x => (x.2.1, x.2.2.1))).map (·.1) :=
      (List.map_map (g := fun y : Nat × (List Nat → α) => y.1) (f := fun x : CTree × Nat × (List Nat → α) × List Nat => (x.2.1, x.2.2.1))).symm
    rw [this, hfst]
  obtain ⟨t, g, h1, h2, h3⟩ := splitConcat_inv pre post inputs axis hax total l hl hsum
  refine ⟨t, g, ?_, ?_, ?_⟩
  · simpa [l, List.map_map, Function.comp_def] using h1
  · have : (l.map (·.2.2.2)).flatten = List.range inputs.length := by
      simp only [l, List.map_map, Function.comp_def]
      have h : ∀ m : List ((Nat × (List Nat → α)) × Nat), (m.map fun x => [x.2]).flatten = m.map (·.2) := by
        intro m
        induction m with
        | nil => rfl
        | cons a m ih => simpa using ih
      rw [h, List.zipIdx_map_snd, List.range_eq_range']
    rw [this] at h2
    exact h2
  · intro idx hidx
    rw [h3 idx (by rw [length_inShape hidx]; simp), hfst]

/-- **C17, refuted part.** With any other negative axis and more than 13 inputs the rewrite indexes a shape with a negative
index: undefined behaviour. -/
theorem C17_negative_axis_undefined (outShape : List Nat) (axis : Int) (hax : axis < -1)
    (args : List (List Nat × CTree)) (hn : 13 < args.length) : splitConcat outShape axis args = none := by
  have hstep : splitConcatStep outShape axis args = none := by
    unfold splitConcatStep
    rw [if_pos]
    unfold splitConcatAxis
    rw [if_neg (by omega)]; omega
  rw [splitConcat, if_neg (by simp [concatMax]; omega)]
  split
  · rfl
  · rename_i hx; rw [hstep] at hx; exact absurd hx (by simp)

/-! ### C23 -/

/-- Arguments of one axis for which TensorFlow needs no clamping.  A shrunk axis has in-range begin, is not masked, and
its end is the position after the begin. -/
def AxisArgsOK (beginMasked endMasked shrunk : Bool) (dim b e : Int) : Prop :=
  let pos := fun p : Int => if p < 0 then dim + p else p
  if shrunk then beginMasked = false ∧ endMasked = false ∧ 0 ≤ pos b ∧ pos b < dim ∧ pos e = pos b + 1
  else
    0 ≤ dim ∧ (beginMasked = false → 0 ≤ pos b ∧ pos b ≤ dim) ∧ (endMasked = false → 0 ≤ pos e ∧ pos e ≤ dim) ∧
    (if beginMasked then 0 else pos b) ≤ (if endMasked then dim else pos e)

theorem strided_axis (bm em sm i : Nat) (dim b e : Int)
    (h : AxisArgsOK (bm.testBit i) (em.testBit i) (sm.testBit i) dim b e) :
    stridedAxis bm em i dim b e = tfRange (bm.testBit i) (em.testBit i) (sm.testBit i) dim b e := by
  unfold AxisArgsOK at h
  unfold stridedAxis tfRange
  cases hb : bm.testBit i <;> cases he : em.testBit i <;> cases hs : sm.testBit i <;>
    simp only [hb, he, hs, Bool.false_eq_true, if_true, if_false, reduceCtorEq, IsEmpty.forall_iff, true_and,
      forall_const, false_and, and_false] at h ⊢ <;>
    refine Prod.ext ?_ ?_ <;> simp only <;> omega

theorem stridedLoop_get (bm em : Nat) (shape b e : List Int) (k i : Nat) (hb : b.length = shape.length)
    (he : e.length = shape.length) (hi : i < shape.length) :
    (stridedLoop bm em k shape b e)[i]? =
      some (stridedAxis bm em (k + i) (shape.getD i 0) (b.getD i 0) (e.getD i 0)) := by
  induction shape generalizing b e k i with
  | nil => simp at hi
  | cons d ds ih =>
    rcases b with _ | ⟨b, bs⟩
    · simp at hb
    rcases e with _ | ⟨e, es⟩
    · simp at he
    rw [stridedLoop]
    cases i with
    | zero => simp
    | succ i =>
      have := ih bs es (k + 1) i (by simpa using hb) (by simpa using he) (by simpa using hi)
      rw [List.getElem?_cons_succ, this]
      simp [Nat.add_assoc, Nat.add_comm 1 i]

theorem stridedLoop_length (bm em : Nat) (shape b e : List Int) (k : Nat) (hb : b.length = shape.length)
    (he : e.length = shape.length) : (stridedLoop bm em k shape b e).length = shape.length := by
  induction shape generalizing b e k with
  | nil => cases b <;> simp [stridedLoop]
  | cons d ds ih =>
    rcases b with _ | ⟨b, bs⟩
    · simp at hb
    rcases e with _ | ⟨e, es⟩
    · simp at he
    rw [stridedLoop, List.length_cons, ih bs es _ (by simpa using hb) (by simpa using he)]
    rfl

theorem shrink_prod (sm k : Nat) (sizes : List Int) (h : ∀ i, i < sizes.length → sm.testBit (k + i) = true → sizes.getD i 0 = 1) :
    (shrinkShape sm k sizes).prod = sizes.prod := by
  induction sizes generalizing k with
  | nil => rfl
  | cons n r ih =>
    have ih' := ih (k + 1) (fun i hi hb => by
      have := h (i + 1) (by simpa using hi) (by rw [← hb]; congr 1; omega)
      simpa using this)
    rw [shrinkShape]
    split
    case isTrue hb =>
      have := h 0 (by simp) hb
      simp only [List.getD_cons_zero] at this
      rw [ih', List.prod_cons, this, Int.one_mul]
    case isFalse => rw [List.prod_cons, List.prod_cons, ih']

/-- **C23.** For every rank, every mask combination and all in-range arguments: a strided slice with unit strides is
rewritten to a slice whose begin and size on every axis are TensorFlow's, and the final reshape, which drops exactly the
shrunk axes, keeps the number of elements. -/
theorem C23_strided_slice_partial (shape b e strides : List Int) (bm em sm : Nat) (hb : b.length = shape.length)
    (he : e.length = shape.length) (hs : ∀ s ∈ strides, s = 1)
    (hok : ∀ i, i < shape.length →
      AxisArgsOK (bm.testBit i) (em.testBit i) (sm.testBit i) (shape.getD i 0) (b.getD i 0) (e.getD i 0)) :
    ∃ slices final, lowerStrided shape b e strides bm em sm 0 0 = some (slices, final) ∧
      slices.length = shape.length ∧
      (∀ i, i < shape.length → slices[i]? =
        some (tfRange (bm.testBit i) (em.testBit i) (sm.testBit i) (shape.getD i 0) (b.getD i 0) (e.getD i 0))) ∧
      final.prod = (slices.map (·.2)).prod := by
  refine ⟨stridedLoop bm em 0 shape b e, shrinkShape sm 0 ((stridedLoop bm em 0 shape b e).map (·.2)), ?_,
    stridedLoop_length _ _ _ _ _ _ hb he, ?_, ?_⟩
  rotate_left 2
  · apply shrink_prod
    intro i hi hbit
    rw [List.length_map, stridedLoop_length _ _ _ _ _ _ hb he] at hi
    rw [Nat.zero_add] at hbit
    have h1 := stridedLoop_get bm em shape b e 0 i hb he hi
    have h2 := strided_axis bm em sm i _ _ _ (hok i hi)
    rw [Nat.zero_add, h2] at h1
    rw [List.getD_eq_getElem?_getD, List.getElem?_map, h1]
    simp [tfRange, hbit]
  · unfold lowerStrided canReplaceWithSlice
    rw [if_pos]
    simpa using hs
  · intro i hi
    rw [stridedLoop_get bm em shape b e 0 i hb he hi, Nat.zero_add, strided_axis bm em sm i _ _ _ (hok i hi)]

/-- Anything but unit strides, or an ellipsis or new-axis mask, leaves the operator alone. -/
theorem C23_other_strides_untouched (shape b e strides : List Int) (bm em sm el na : Nat)
    (h : (∃ s ∈ strides, s ≠ 1) ∨ el ≠ 0 ∨ na ≠ 0) : lowerStrided shape b e strides bm em sm el na = none := by
  unfold lowerStrided canReplaceWithSlice
  rw [if_neg]
  simp only [Bool.and_eq_true, List.all_eq_true, decide_eq_true_eq, beq_iff_eq]
  rintro ⟨⟨h1, h2⟩, h3⟩
  rcases h with ⟨s, hs, hne⟩ | h | h
  · exact hne (h1 s hs)
  · exact h h2
  · exact h h3

/-- **C23, refuted for `x[-1]`** (begin -1, end 0, shrunk axis, which is how TensorFlow encodes it): the size is not 1. -/
theorem C23_last_element_refuted (dim : Int) (hd : 1 < dim) :
    (stridedAxis 0 0 0 dim (-1) 0).2 < 0 ∧ (tfRange false false true dim (-1) 0).2 = 1 := by
  constructor
  · simp [stridedAxis]; omega
  · rfl

/-- **C23, refuted without clamping**: an end beyond the axis selects more elements than there are. -/
theorem C23_end_beyond_refuted (dim e : Int) (hd : 0 ≤ dim) (he : dim < e) :
    dim < (stridedAxis 0 0 0 dim 0 e).2 ∧ (tfRange false false false dim 0 e).2 = dim := by
  constructor
  · simp [stridedAxis]; rw [if_neg (by omega)]; exact he
  · simp [tfRange]; rw [if_neg (by omega)]; omega

example : lowerStrided [4, 10, 3] [1, -3, 0] [2, -1, 0] [1, 1, 1] 4 4 1 0 0 = some ([(1, 1), (7, 2), (0, 3)], [2, 3]) := by
  decide
example : AxisArgsOK false false true 4 1 2 ∧ AxisArgsOK false false false 10 (-3) (-1) ∧ AxisArgsOK true true false 3 0 0 := by
  simp [AxisArgsOK]

end Verif.Move
