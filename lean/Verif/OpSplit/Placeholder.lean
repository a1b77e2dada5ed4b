import Verif.OpSplit.Mean
/-!
What becomes of the placeholder `FakeSliceOp` that raising a slice above a binary operator leaves on an operand of another shape
(xformer/Transforms/OpSplit.cpp 265-404, 455-487).  `FakeSliceOp` has no kernel: it is a compile-time marker whose options are
empty (TranslateToCustomOp.cpp 33), so a placeholder that remains is an operator that no runtime implements.

The greedy driver keeps applying the four patterns of lines 902-906 until none matches; a placeholder has one producer, so at
most one of them can.  Modelled: the chain of producers above the placeholder, through each producer's operand 0.
-/
namespace Verif.OpSplit

inductive Kind | fullyConnected | logistic | mean | other
deriving DecidableEq, Repr

/-- A producer: its kind, whether it carries `opSplitLabel`, and its `opSplitLabelNumSplits` if any. -/
structure Producer where
  kind : Kind
  labelled : Bool
  numSplits : Option Int
deriving DecidableEq, Repr

/-- What the chain of producers ends in: a constant, or an argument of the function (no defining operator). -/
inductive Origin | const | arg
deriving DecidableEq, Repr

inductive Fate | removed | becameMeans | stays | crash
deriving DecidableEq, Repr

/-- Lines 265-404: `sizes` are the sizes recorded so far.  A placeholder on an argument dereferences the null defining operator
(line 280); on a constant it is removed (lines 274-278, 322-326); above a labelled fully connected or logistic operator whose
number of splits is the number of recorded slices it is moved up (lines 280-308); a labelled mean takes it if the sizes are equal
(lines 331-404); otherwise no pattern matches. -/
def fate (sizes : List (Int × Int)) (origin : Origin) : List Producer → Fate
  | [] => match origin with
    | .const => .removed
    | .arg => .crash
  | p :: above =>
    if p.kind = .mean ∧ p.labelled then
      if sizes.all fun s => s == sizes.headD (0, 0) then .becameMeans else .stays
    else match p.numSplits with
      | none => .stays
      | some k =>
        if (sizes.length : Int) ≠ k then .stays
        else if p.kind = .fullyConnected ∨ p.kind = .logistic then
          if p.labelled then fate sizes origin above else .stays
        else .stays

/-- A producer that the placeholder moves past. -/
def Passes (sizes : List (Int × Int)) (p : Producer) : Prop :=
  (p.kind = .fullyConnected ∨ p.kind = .logistic) ∧ p.labelled = true ∧ p.numSplits = some (sizes.length : Int)

theorem fate_pass {sizes : List (Int × Int)} {o : Origin} {p : Producer} {l : List Producer} (h : Passes sizes p) :
    fate sizes o (p :: l) = fate sizes o l := by
  obtain ⟨h1, h2, h3⟩ := h
  have hm : ¬ (p.kind = .mean ∧ p.labelled) := by
    rintro ⟨h, _⟩
    rw [h] at h1
    simp at h1
  rw [fate, if_neg hm, h3]
  simp only [ne_eq, not_true_eq_false, if_false]
  rw [if_pos h1, if_pos h2]

/-- **C67** (exactly when).  The placeholder is gone after the pass if and only if all producers between it and a constant, or
between it and a labelled mean for slices of equal size, are labelled fully connected or logistic operators with as many splits
as there are slices. -/
theorem C67_gone_iff_partial (sizes : List (Int × Int)) (o : Origin) (l : List Producer) :
    (fate sizes o l = .removed ∨ fate sizes o l = .becameMeans) ↔
      ∃ pre post, l = pre ++ post ∧ (∀ p ∈ pre, Passes sizes p) ∧
        ((post = [] ∧ o = .const) ∨
         ∃ m rest, post = m :: rest ∧ m.kind = .mean ∧ m.labelled = true ∧ ∀ s ∈ sizes, ∀ t ∈ sizes, s = t) := by
  have heq : (sizes.all fun s => s == sizes.headD (0, 0)) = true ↔ ∀ s ∈ sizes, ∀ t ∈ sizes, s = t := by
    rw [List.all_eq_true]
    simp only [beq_iff_eq]
    constructor
    · intro h s hs t ht; rw [h s hs, h t ht]
    · intro h s hs
      cases sizes with
      | nil => simp at hs
      | cons a as => exact h s hs a List.mem_cons_self
  induction l with
  | nil =>
    constructor
    · intro h
      refine ⟨[], [], rfl, by simp, Or.inl ⟨rfl, ?_⟩⟩
      cases o
      · rfl
      · simp [fate] at h
    · rintro ⟨pre, post, h1, _, h3⟩
      obtain ⟨rfl, rfl⟩ := List.nil_eq_append_iff.1 h1
      rcases h3 with ⟨_, rfl⟩ | ⟨m, rest, h, _⟩
      · exact Or.inl rfl
      · simp at h
  | cons p l ih =>
    by_cases hp : Passes sizes p
    · rw [fate_pass hp]
      refine Iff.trans ih ?_
      constructor
      · rintro ⟨pre, post, h1, h2, h3⟩
        refine ⟨p :: pre, post, by rw [h1]; rfl, ?_, h3⟩
        intro q hq
        rcases List.mem_cons.1 hq with rfl | h
        · exact hp
        · exact h2 q h
      · rintro ⟨pre, post, h1, h2, h3⟩
        cases pre with
        | nil =>
          rcases h3 with ⟨rfl, _⟩ | ⟨m, rest, rfl, hm, _⟩
          · simp at h1
          · simp only [List.nil_append, List.cons.injEq] at h1
            obtain ⟨h, _⟩ := hp
            rw [h1.1, hm] at h
            simp at h
        | cons q pre =>
          simp only [List.cons_append, List.cons.injEq] at h1
          exact ⟨pre, post, h1.2, fun r hr => h2 r (List.mem_cons_of_mem _ hr), h3⟩
    · constructor
      · intro h
        rw [fate] at h
        by_cases hm : p.kind = .mean ∧ p.labelled
        · rw [if_pos hm] at h
          by_cases hs : (sizes.all fun s => s == sizes.headD (0, 0)) = true
          · exact ⟨[], p :: l, rfl, by simp, Or.inr ⟨p, l, rfl, hm.1, hm.2, heq.1 hs⟩⟩
          · rw [if_neg hs] at h
            simp at h
        · exfalso
          rw [if_neg hm] at h
          cases hk : p.numSplits with
          | none => rw [hk] at h; simp at h
          | some k =>
            rw [hk] at h
            dsimp only at h
            by_cases h1 : (sizes.length : Int) ≠ k
            · rw [if_pos h1] at h; simp at h
            · rw [if_neg h1] at h
              by_cases h2 : p.kind = .fullyConnected ∨ p.kind = .logistic
              · rw [if_pos h2] at h
                by_cases h3 : p.labelled = true
                · exact hp ⟨h2, h3, by rw [hk, not_not.1 h1]⟩
                · rw [if_neg h3] at h; simp at h
              · rw [if_neg h2] at h; simp at h
      · rintro ⟨pre, post, h1, h2, h3⟩
        cases pre with
        | nil =>
          rcases h3 with ⟨rfl, _⟩ | ⟨m, rest, rfl, hm, hl, hs⟩
          · simp at h1
          · simp only [List.nil_append, List.cons.injEq] at h1
            rw [fate, h1.1, if_pos ⟨hm, hl⟩, if_pos (heq.2 hs)]
            exact Or.inr rfl
        | cons q pre =>
          simp only [List.cons_append, List.cons.injEq] at h1
          rw [← h1.1] at h2
          exact absurd (h2 p List.mem_cons_self) hp

/-- Squeeze-and-excite: a gate computed from the mean of the tensor that is multiplied by it. -/
def gate (n : Int) : List Producer :=
  [⟨.logistic, true, some n⟩, ⟨.fullyConnected, true, some n⟩, ⟨.fullyConnected, true, some n⟩, ⟨.mean, true, some n⟩,
   ⟨.other, true, some n⟩]

/-- Non-vacuity: with 8 rows in 4 parts the placeholder becomes means; a broadcast constant loses its placeholder. -/
example : fate ((opSplitSlices 8 4).map fun bs => ((bs.2 : Int), (5 : Int))) .arg (gate 4) = .becameMeans ∧
    fate [(1, 1), (1, 1)] .const [] = .removed := by decide

/-- **C67 refuted for uneven splits**: whenever the number of parts does not divide the height, the placeholder above a mean
stays in the compiled model. -/
theorem C67_uneven_refuted (H n : Nat) (w : Int) (hn : 1 ≤ n) (hnd : ¬ n ∣ H) (o : Origin) :
    fate ((opSplitSlices H n).map fun bs => ((bs.2 : Int), w)) o (gate n) = .stays := by
  have hlen : (((opSplitSlices H n).map fun bs => ((bs.2 : Int), w)).length : Int) = n := by
    rw [List.length_map]; unfold opSplitSlices; rw [slicesFrom_length]
  have pass : ∀ k : Kind, (k = .fullyConnected ∨ k = .logistic) →
      Passes ((opSplitSlices H n).map fun bs => ((bs.2 : Int), w)) ⟨k, true, some n⟩ := by
    intro k hk
    exact ⟨hk, rfl, by rw [hlen]⟩
  unfold gate
  rw [fate_pass (pass _ (Or.inr rfl)), fate_pass (pass _ (Or.inl rfl)), fate_pass (pass _ (Or.inl rfl)), fate,
    if_pos ⟨rfl, rfl⟩, if_neg]
  intro hall
  -- all sizes equal would make the mean splittable
  have hsplit := C66_uneven_not_rewritten (exampleMean 1) ⟨0, 0, fun _ _ => 0⟩ H n w hn hnd
  revert hsplit
  cases hl : opSplitSlices H n with
  | nil => rw [hl] at hlen; simp at hlen; omega
  | cons s0 rest =>
    rw [hl] at hall
    rw [List.map_cons]
    unfold splitMean
    dsimp only
    rw [if_pos]
    · simp
    · rw [List.all_eq_true] at hall ⊢
      intro s hs
      obtain ⟨a, ha, rfl⟩ := List.mem_map.1 hs
      have := hall ((a.2 : Int), w) (by
        rw [List.map_cons]; exact List.mem_cons_of_mem _ (List.mem_map.2 ⟨a, ha, rfl⟩))
      simpa using this

/-- **C67 refuted for function arguments**: a broadcast operand that is an argument of the model crashes the compiler. -/
theorem C67_argument_refuted (sizes : List (Int × Int)) : fate sizes .arg [] = .crash := rfl

/-- **C67 refuted for other producers**: for instance a broadcast operand computed by a convolution. -/
theorem C67_other_refuted (sizes : List (Int × Int)) (o : Origin) (lab : Bool) (k : Option Int) (l : List Producer) :
    fate sizes o (⟨.other, lab, k⟩ :: l) = .stays := by
  rw [fate, if_neg (by simp)]
  cases k with
  | none => rfl
  | some k =>
    dsimp only
    split <;> first | rfl | simp

end Verif.OpSplit
