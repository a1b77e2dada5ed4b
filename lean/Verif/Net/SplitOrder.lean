import Verif.Net.SplitNet
/-!
C101: combining slices in the order in which the network computes them.
-/
namespace Verif.Net
open Verif.Tensor Verif.Move Verif.MemPlan Verif.Image Verif.OpSplit

/-- `combineSliceWithExisting` (OpSplit.cpp 91-180) as written, on the whole network: the slice at position `i` lies inside the slice at position
`j` of the same value, and is replaced, where it stands (line 171), by a slice of that one.  The code walks the uses of the value (lines 98, 137)
and does not ask which slice comes first.  Only the case where the slices differ (lines 158-175). -/
def combineAny (N : Network) (i j : Nat) : Option Network :=
  match N.nodes[i]?, N.nodes[j]? with
  | some ⟨.slice [0, b, 0, 0] [1, s, w, c], [x], ty⟩, some ⟨.slice [0, cb, 0, 0] [1, cs, w', c'], [x'], jt⟩ =>
    if x' = x ∧ w' = w ∧ c' = c ∧ jt = ty4 cs w c ty.d ∧ ty = ty4 s w c ty.d ∧ 1 ≤ w ∧ 1 ≤ c ∧ 1 ≤ cs ∧ cb ≤ b ∧ b + s ≤ cb + cs ∧ ¬ (b = cb ∧ s = cs) then
      some ⟨N.inputs, N.nodes.set i (rowSlice (N.inputs.length + j) (b - cb) s w c ty.d), N.outputs⟩
    else none
  | _, _ => none

/-- The property: combining leaves a network in which every operator comes after its operands, with the same results. -/
def CombineKeeps (N N' : Network) : Prop :=
  N'.OK ∧ ∀ (sem : Sem) (ins : List (List Byte)), ins.map List.length = N.inputs.map Ty.size → N'.result sem ins = N.result sem ins

theorem rename_same {m v : Nat} : renum m 1 m v = v := by
  unfold renum
  split
  · rfl
  · split <;> omega

/-- **C101**, if the containing slice comes first. -/
theorem C101_combine_earlier_partial {N N' : Network} (hN : N.OK) {i j : Nat} (hji : j < i) (h : combineAny N i j = some N') : CombineKeeps N N' := by
  obtain ⟨inputs, nodes, outs⟩ := N
  unfold combineAny at h
  simp only at h
  split at h
  case h_2 => cases h
  rename_i b s w c x ty cb cs w' c' x' jt hi hj
  split at h
  case isFalse => cases h
  rename_i hguard
  obtain ⟨rfl, rfl, rfl, hjt, hty, hw, hc, hcs, hb, hbs, hne⟩ := hguard
  have hil : i < nodes.length := by
    rcases Nat.lt_or_ge i nodes.length with h | h
    · exact h
    · rw [List.getElem?_eq_none h] at hi; cases hi
  have hsplit : nodes = nodes.take i ++ ⟨.slice [0, b, 0, 0] [1, s, w', c'], [x'], ty⟩ :: nodes.drop (i + 1) := by
    rw [List.getElem?_eq_getElem hil] at hi
    rw [← Option.some.inj hi, ← List.drop_eq_getElem_cons hil, List.take_append_drop]
  have htl : (nodes.take i).length = i := by simp; omega
  have hd : defOf inputs.length (nodes.take i) (inputs.length + j) = some ⟨.slice [0, cb, 0, 0] [1, cs, w', c'], [x'], jt⟩ := by
    unfold defOf
    rw [if_neg (by omega), Nat.add_sub_cancel_left, List.getElem?_take_of_lt hji]
    exact hj
  have hP : combineP (inputs.length + j) inputs (nodes.take i) ⟨.slice [0, b, 0, 0] [1, s, w', c'], [x'], ty⟩ =
      some ([rowSlice (inputs.length + j) (b - cb) s w' c' ty.d], inputs.length + (nodes.take i).length) := by
    unfold combineP
    simp only [hd]
    rw [if_pos ⟨trivial, trivial, trivial, hjt, hty, hw, hc, hcs, hb, hbs⟩, if_neg hne]
  have hr := Rw.apply (ps := [combineP (inputs.length + j)]) _ inputs (nodes.take i) _ (nodes.drop (i + 1)) outs _ _ (List.mem_singleton.2 rfl) hP
  rw [← hsplit] at hr
  have e : splice inputs (nodes.take i) [rowSlice (inputs.length + j) (b - cb) s w' c' ty.d] (nodes.drop (i + 1)) outs (inputs.length + (nodes.take i).length) = N' := by
    rw [← Option.some.inj h]
    unfold splice
    simp only [List.length_cons, List.length_nil, Nat.zero_add]
    have ef : ∀ m : Nat, renum m 1 m = id := fun m => funext fun v => rename_same
    rw [ef, List.map_id]
    have en : (nodes.drop (i + 1)).map (Node.rename id) = nodes.drop (i + 1) := by
      conv_rhs => rw [← List.map_id (nodes.drop (i + 1))]
      apply List.map_congr_left
      intro n _
      simp [Node.rename]
    rw [en, List.set_eq_take_append_cons_drop, if_pos hil]
    simp
  rw [e] at hr
  have := rw_stepC (C := fun _ => True) (sem0 := fun _ _ => []) trivial (by
    intro P hP
    rw [List.mem_singleton] at hP
    subst hP
    exact combineP_sound _ _) hr hN
  exact ⟨this.1, fun sem ins hins => this.2.2.2 sem ins trivial hins⟩

/-- A value whose rows are first sliced for a 1 × 1, then for a 3 × 3 convolution. -/
def exOrder (first second : Nat × Nat) : Network :=
  ⟨[ty4 8 2 4 1], [⟨.other false 0, [0], ty4 8 2 4 1⟩, rowSlice 1 first.1 first.2 2 4 1, rowSlice 1 second.1 second.2 2 4 1, ⟨.other false 1, [2, 3], ty4 8 2 4 1⟩], [4]⟩

theorem exOrder_ok {f s : Nat × Nat} (h1 : f.1 + f.2 ≤ 8) (h2 : s.1 + s.2 ≤ 8) : (exOrder f s).OK := by
  refine ⟨?_, by simp [exOrder]⟩
  simp only [exOrder, NodesOK, Kind.OK, rowSlice]
  refine ⟨by simp, by simp, by simp, ⟨_, _, rfl, rfl, sliceFits4 h1, rfl, pos4 (by omega) (by omega) (by omega)⟩, by simp,
    ⟨_, _, rfl, rfl, sliceFits4 h2, rfl, pos4 (by omega) (by omega) (by omega)⟩, by simp, by simp, trivial⟩

/-- **C101** applies: rows 0..4 inside the earlier rows 0..5. -/
theorem C101_example : ∃ N', combineAny (exOrder (0, 5) (0, 4)) 2 1 = some N' ∧ CombineKeeps (exOrder (0, 5) (0, 4)) N' ∧ N'.nodes[2]? = some (rowSlice 2 0 4 2 4 1) :=
  ⟨_, rfl, C101_combine_earlier_partial (i := 2) (j := 1) (exOrder_ok (by decide) (by decide)) (by decide) rfl, rfl⟩

/-- **C101** is false when the containing slice comes later: the slice that replaces the first one uses a value that is computed after it. -/
theorem C101_full_refuted : ¬ ∀ (N N' : Network) (i j : Nat), N.OK → combineAny N i j = some N' → CombineKeeps N N' := by
  intro h
  obtain ⟨hok, -⟩ := h (exOrder (0, 4) (0, 5)) _ 1 2 (exOrder_ok (by decide) (by decide)) rfl
  have := hok.nodes
  simp [exOrder, NodesOK, rowSlice] at this

end Verif.Net
