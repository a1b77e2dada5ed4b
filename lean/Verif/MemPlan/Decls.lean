import Verif.MemPlan.Alloc
/-! Helper lemmas: value numbering and live ranges. -/
namespace Verif.MemPlan

/-- Sum of result counts. -/
def resCount (os : List Op) : Nat := (os.map fun o => o.resultSizes.length).sum

theorem declsFrom_length (j : Nat) (os : List Op) : (declsFrom j os).length = resCount os := by
  induction os generalizing j with
  | nil => simp [declsFrom, resCount]
  | cons o os ih => simp [declsFrom, opDecls, ih, resCount]

theorem declsFrom_get (j0 : Nat) (os : List Op) (k i : Nat) (hk : k < os.length)
    (hi : i < (os[k]).resultSizes.length) :
    (declsFrom j0 os)[resCount (os.take k) + i]? =
      some ⟨(os[k]).resultSizes[i], (os[k]).isConst || (os[k]).isTerm, some (j0 + k)⟩ := by
  induction os generalizing j0 k with
  | nil => simp at hk
  | cons o os ih =>
    cases k with
    | zero =>
      simp only [List.getElem_cons_zero] at hi
      simp only [declsFrom, List.take_zero, resCount, List.map_nil, List.sum_nil, Nat.zero_add,
        List.getElem_cons_zero, Nat.add_zero]
      rw [List.getElem?_append_left (by simpa [opDecls] using hi)]
      simp [opDecls, hi]
    | succ k =>
      simp only [List.getElem_cons_succ] at hi
      simp only [declsFrom, List.take_succ_cons, resCount, List.map_cons, List.sum_cons,
        List.getElem_cons_succ]
      rw [List.getElem?_append_right (by simp [opDecls]; omega)]
      have := ih (j0 + 1) k (by simpa using hk) hi
      simp only [opDecls, List.length_map]
      rw [show o.resultSizes.length + (List.map (fun o => o.resultSizes.length) (List.take k os)).sum + i
        - o.resultSizes.length = resCount (os.take k) + i by simp [resCount]; omega]
      rw [this]
      simp; omega

theorem declsFrom_cases (j0 : Nat) (os : List Op) (n : Nat) (hn : n < resCount os) :
    ∃ k i, ∃ hk : k < os.length, i < (os[k]).resultSizes.length ∧ n = resCount (os.take k) + i := by
  induction os generalizing j0 n with
  | nil => simp [resCount] at hn
  | cons o os ih =>
    by_cases h : n < o.resultSizes.length
    · exact ⟨0, n, by simp, by simpa using h, by simp [resCount]⟩
    · have hn' : n - o.resultSizes.length < resCount os := by
        simp [resCount] at hn ⊢; omega
      obtain ⟨k, i, hk, hi, he⟩ := ih (j0 + 1) _ hn'
      refine ⟨k + 1, i, by simpa using hk, by simpa using hi, ?_⟩
      simp [resCount] at he ⊢; omega

theorem numValues_eq (f : Func) : f.numValues = f.argSizes.length + resCount f.ops := by
  simp [Func.numValues, Func.decls, declsFrom_length]

theorem op_eq (f : Func) {j : Nat} (hj : j < f.ops.length) : f.op j = f.ops[j] := by
  simp [Func.op, List.getD_eq_getElem?_getD, hj]

theorem result0_eq (f : Func) (j : Nat) :
    f.result0 j = f.argSizes.length + resCount (f.ops.take j) := rfl

theorem decl_arg (f : Func) {v : Nat} (hv : v < f.argSizes.length) :
    f.decl v = ⟨f.argSizes[v], false, none⟩ := by
  simp only [Func.decl, Func.decls, List.getD_eq_getElem?_getD]
  rw [List.getElem?_append_left (by simpa using hv)]
  simp [hv]

theorem decl_result (f : Func) {j i : Nat} (hj : j < f.ops.length)
    (hi : i < (f.op j).resultSizes.length) :
    f.decl (f.result0 j + i) =
      ⟨(f.op j).resultSizes[i], (f.op j).isConst || (f.op j).isTerm, some j⟩ := by
  have ho := op_eq f hj
  simp only [Func.decl, Func.decls, List.getD_eq_getElem?_getD]
  rw [List.getElem?_append_right (by simp [result0_eq]; omega)]
  simp only [List.length_map]
  rw [show f.result0 j + i - f.argSizes.length = resCount (f.ops.take j) + i by
    rw [result0_eq]; omega]
  rw [declsFrom_get 0 f.ops j i hj (by rw [← ho]; exact hi)]
  simp [ho]

theorem resCount_take_succ (f : Func) {j : Nat} (hj : j < f.ops.length) :
    f.result0 (j + 1) = f.result0 j + (f.op j).resultSizes.length := by
  rw [result0_eq, result0_eq, op_eq f hj]
  have : f.ops.take (j + 1) = f.ops.take j ++ [f.ops[j]] := by
    rw [List.take_add_one]; simp [hj]
  rw [this]
  simp only [resCount, List.map_append, List.sum_append, List.map_cons, List.map_nil, List.sum_cons,
    List.sum_nil]
  omega

theorem result0_mono (f : Func) {i j : Nat} (h : i ≤ j) (hj : j ≤ f.ops.length) :
    f.result0 i ≤ f.result0 j := by
  induction h with
  | refl => exact le_refl _
  | step h ih =>
    have h1 := resCount_take_succ f (j := _) hj
    have h2 := ih (Nat.le_of_succ_le hj)
    exact le_trans h2 (by rw [Nat.succ_eq_add_one, h1]; exact Nat.le_add_right _ _)

/-- Every value is an argument or a result. -/
theorem value_cases (f : Func) {v : Nat} (hv : v < f.numValues) :
    v < f.argSizes.length ∨
      ∃ j i, j < f.ops.length ∧ i < (f.op j).resultSizes.length ∧ v = f.result0 j + i := by
  by_cases h : v < f.argSizes.length
  · exact Or.inl h
  · right
    rw [numValues_eq] at hv
    obtain ⟨k, i, hk, hi, he⟩ := declsFrom_cases 0 f.ops (v - f.argSizes.length) (by omega)
    refine ⟨k, i, hk, by rw [op_eq f hk]; exact hi, ?_⟩
    rw [result0_eq]; omega

theorem decl_oob (f : Func) {v : Nat} (hv : ¬ v < f.numValues) : f.decl v = ⟨0, true, none⟩ := by
  simp [Func.decl, List.getD_eq_getElem?_getD, List.getElem?_eq_none (Nat.le_of_not_lt hv)]

theorem definedAt_iff (f : Func) (v j : Nat) :
    f.DefinedAt v j ↔ j < f.ops.length ∧
      ∃ i, i < (f.op j).resultSizes.length ∧ v = f.result0 j + i := by
  constructor
  · intro h
    unfold Func.DefinedAt at h
    by_cases hv : v < f.numValues
    · rcases value_cases f hv with ha | ⟨j', i, hj, hi, rfl⟩
      · rw [decl_arg f ha] at h; simp at h
      · rw [decl_result f hj hi] at h
        simp at h; subst h
        exact ⟨hj, i, hi, rfl⟩
    · rw [decl_oob f hv] at h; simp at h
  · rintro ⟨hj, i, hi, rfl⟩
    unfold Func.DefinedAt
    rw [decl_result f hj hi]

theorem definedAt_not_arg (f : Func) {v j : Nat} (h : f.DefinedAt v j) : ¬ f.IsArg v := by
  intro ha
  unfold Func.DefinedAt at h
  rw [decl_arg f ha] at h; simp at h

theorem definedAt_unique (f : Func) {v i j : Nat} (h1 : f.DefinedAt v i) (h2 : f.DefinedAt v j) :
    i = j := by
  unfold Func.DefinedAt at *
  rw [h1] at h2; simpa using h2

theorem definedAt_isConst (f : Func) {v j : Nat} (h : f.DefinedAt v j) :
    (f.decl v).isConst = ((f.op j).isConst || (f.op j).isTerm) := by
  obtain ⟨hj, i, hi, rfl⟩ := (definedAt_iff f v j).1 h
  rw [decl_result f hj hi]

theorem result0_definedAt (f : Func) {j : Nat} (hj : j < f.ops.length)
    (hne : (f.op j).resultSizes ≠ []) : f.DefinedAt (f.result0 j) j := by
  rw [definedAt_iff]
  exact ⟨hj, 0, List.length_pos_iff.2 hne, rfl⟩

/-! ### op ids -/

theorem cnt_mono (f : Func) {i j : Nat} (h : i ≤ j) : f.cnt i ≤ f.cnt j := by
  unfold Func.cnt
  have : (f.ops.take i).Sublist (f.ops.take j) := by
    have : f.ops.take i = (f.ops.take j).take i := by rw [List.take_take]; congr; omega
    rw [this]; exact List.take_sublist _ _
  exact this.countP_le

theorem opId_of_nonconst (f : Func) {j : Nat} (h : (f.op j).isConst = false) : f.opId j = f.cnt j := by
  simp [Func.opId, h]

theorem cnt_zero (f : Func) : f.cnt 0 = 0 := by simp [Func.cnt]

theorem opId_zero (f : Func) : f.opId 0 = 0 := by
  unfold Func.opId; split <;> simp [cnt_zero]

/-! ### `endScan` -/

theorem endScan_ge (v : Nat) (j : Nat) (os : List Op) (acc : Nat) : acc ≤ endScan v j os acc := by
  induction os generalizing j acc with
  | nil => simp [endScan]
  | cons o os ih =>
    simp only [endScan]
    refine le_trans ?_ (ih _ _)
    split <;> omega

theorem endScan_use (v : Nat) (j : Nat) (os : List Op) (acc : Nat) (k : Nat) (hk : k < os.length)
    (hu : v ∈ (os[k]).operands) : j + k ≤ endScan v j os acc := by
  induction os generalizing j acc k with
  | nil => simp at hk
  | cons o os ih =>
    simp only [endScan]
    cases k with
    | zero =>
      simp only [List.getElem_cons_zero] at hu
      refine le_trans ?_ (endScan_ge _ _ _ _)
      split
      · omega
      · rename_i h; simp [hu] at h; omega
    | succ k =>
      have := ih (j + 1) (if v ∈ o.operands ∧ acc < j then j else acc) k (by simpa using hk)
        (by simpa using hu)
      omega

theorem endScan_cases (v : Nat) (j : Nat) (os : List Op) (acc : Nat) :
    endScan v j os acc = acc ∨
      ∃ k, ∃ hk : k < os.length, v ∈ (os[k]).operands ∧ endScan v j os acc = j + k := by
  induction os generalizing j acc with
  | nil => left; simp [endScan]
  | cons o os ih =>
    simp only [endScan]
    rcases ih (j + 1) (if v ∈ o.operands ∧ acc < j then j else acc) with h | ⟨k, hk, hu, h⟩
    · rw [h]
      split
      · rename_i hc
        right; exact ⟨0, by simp, by simpa using hc.1, by simp⟩
      · left; rfl
    · right
      exact ⟨k + 1, by simpa using hk, by simpa using hu, by rw [h]; omega⟩

theorem endPos_use (f : Func) {v q : Nat} (h : f.UsedAt v q) : q ≤ f.endPos v := by
  obtain ⟨hq, hu⟩ := h
  rw [op_eq f hq] at hu
  have := endScan_use v 0 f.ops (f.startPos v) q hq hu
  simpa [Func.endPos] using this

theorem startPos_le_endPos (f : Func) (v : Nat) : f.startPos v ≤ f.endPos v := endScan_ge _ _ _ _

theorem endPos_cases (f : Func) (v : Nat) : f.endPos v = f.startPos v ∨ f.UsedAt v (f.endPos v) := by
  rcases endScan_cases v 0 f.ops (f.startPos v) with h | ⟨k, hk, hu, h⟩
  · left; exact h
  · right
    have : f.endPos v = k := by simpa [Func.endPos] using h
    rw [this]
    exact ⟨hk, by rw [op_eq f hk]; exact hu⟩

theorem usedAt_nonconst {f : Func} (wf : f.WF) {v q : Nat} (h : f.UsedAt v q) :
    (f.op q).isConst = false := by
  by_contra hc
  have := wf.constNoOperands q (by simpa using hc)
  exact absurd h.2 (by rw [this]; simp)

theorem startPos_arg (f : Func) {v : Nat} (h : f.IsArg v) : f.startPos v = 0 := by
  simp [Func.startPos, decl_arg f h]

theorem startPos_def (f : Func) {v j : Nat} (h : f.DefinedAt v j) : f.startPos v = j := by
  unfold Func.DefinedAt at h
  simp [Func.startPos, h]

/-- For values of the arena, `first` is the count at the start position. -/
theorem first_eq (f : Func) {v : Nat} (hv : f.Arena v) : (f.vinfo v).first = f.cnt (f.startPos v) := by
  rcases value_cases f hv.1 with ha | ⟨j, i, hj, hi, rfl⟩
  · simp [Func.vinfo, startPos_arg f ha, opId_zero, cnt_zero]
  · have hd : f.DefinedAt (f.result0 j + i) j := (definedAt_iff f _ j).2 ⟨hj, i, hi, rfl⟩
    have hc := definedAt_isConst f hd
    rw [hv.2] at hc
    have : (f.op j).isConst = false := by
      cases h : (f.op j).isConst <;> simp [h] at hc ⊢
    simp [Func.vinfo, startPos_def f hd, opId_of_nonconst f this]

theorem last_eq {f : Func} (wf : f.WF) {v : Nat} (hv : f.Arena v) :
    (f.vinfo v).last = f.cnt (f.endPos v) := by
  rcases endPos_cases f v with h | h
  · have := first_eq f hv
    simp only [Func.vinfo] at this ⊢
    rw [h, this]
  · simp only [Func.vinfo]
    exact opId_of_nonconst f (usedAt_nonconst wf h)

/-- The planner's ranges cover every position at which the value is live. -/
theorem live_range {f : Func} (wf : f.WF) {v p : Nat} (hv : f.Arena v) (h : f.LiveAt v p) :
    (f.vinfo v).first ≤ f.cnt p ∧ f.cnt p ≤ (f.vinfo v).last := by
  rw [first_eq f hv, last_eq wf hv]
  rcases h with ⟨ha, h⟩ | ⟨j, hd, hj, h⟩
  · rw [startPos_arg f ha]
    refine ⟨cnt_mono f (Nat.zero_le _), ?_⟩
    rcases h with rfl | ⟨q, hq, hu⟩
    · exact cnt_mono f (Nat.zero_le _)
    · exact cnt_mono f (le_trans hq (endPos_use f hu))
  · rw [startPos_def f hd]
    refine ⟨cnt_mono f hj, ?_⟩
    rcases h with rfl | ⟨q, hq, hu⟩
    · apply cnt_mono
      have := startPos_le_endPos f v
      rwa [startPos_def f hd] at this
    · exact cnt_mono f (le_trans hq (endPos_use f hu))

theorem live_meets {f : Func} (wf : f.WF) {v w p : Nat} (hv : f.Arena v) (hw : f.Arena w)
    (h1 : f.LiveAt v p) (h2 : f.LiveAt w p) : Meets f.vinfo v w := by
  have a := live_range wf hv h1
  have b := live_range wf hw h2
  unfold Meets; omega

theorem align8_eq (k : Nat) : align8 k = roundUp8 k := by
  unfold align8 roundUp8; split <;> omega

theorem roundUp8_ge (k : Nat) : k ≤ roundUp8 k := by unfold roundUp8; split <;> omega

theorem align8_ge (k : Nat) : k ≤ align8 k := by unfold align8; omega

theorem align8_dvd (k : Nat) : (8 : Int) ∣ (align8 k : Int) := by unfold align8; omega

end Verif.MemPlan
