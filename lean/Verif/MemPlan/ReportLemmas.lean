import Verif.MemPlan.Report

/-! Lemmas for C108. -/
namespace Verif.MemPlan

/-- The element number `k` of a filtered range. -/
theorem filter_range_get (p : Nat → Bool) (n k v : Nat) :
    ((List.range n).filter p)[k]? = some v ↔
      v < n ∧ p v = true ∧ ((List.range v).filter p).length = k := by
  induction n generalizing k with
  | zero => simp
  | succ n ih =>
    rw [List.range_succ, List.filter_append]
    by_cases hk : k < ((List.range n).filter p).length
    · rw [List.getElem?_append_left hk, ih]
      constructor
      · rintro ⟨a, b, c⟩; exact ⟨by omega, b, c⟩
      · rintro ⟨a, b, c⟩
        refine ⟨?_, b, c⟩
        by_contra hv
        have : v = n := by omega
        subst this
        omega
    · rw [List.getElem?_append_right (by omega)]
      constructor
      · intro h
        by_cases hp : p n = true
        · rw [List.filter_cons_of_pos hp, List.filter_nil] at h
          have h2 := List.getElem?_eq_some_iff.1 h
          obtain ⟨h3, h4⟩ := h2
          have h5 : k - ((List.range n).filter p).length = 0 := by simpa using h3
          simp only [h5, List.getElem_cons_zero] at h4
          subst h4
          exact ⟨by omega, hp, by omega⟩
        · rw [List.filter_cons_of_neg hp] at h; simp at h
      · rintro ⟨a, b, c⟩
        have : v = n := by
          by_contra hv
          have := (ih k).2 ⟨by omega, b, c⟩
          have := (List.getElem?_eq_some_iff.1 this).1
          omega
        subst this
        rw [List.filter_cons_of_pos b, c]
        simp

theorem cnt_range (f : Func) {j : Nat} (hj : j ≤ f.ops.length) :
    ((List.range j).filter fun i => !(f.op i).isConst).length = f.cnt j := by
  induction j with
  | zero => simp [cnt_zero]
  | succ j ih =>
    rw [List.range_succ, List.filter_append, List.length_append, ih (by omega)]
    have hl : j < f.ops.length := by omega
    unfold Func.cnt
    rw [← List.take_concat_get' _ _ hl, List.countP_append]
    congr 1
    have := op_eq f hl
    cases h : (f.op j).isConst <;> rw [this] at h <;> simp [this, h]

theorem opAt_iff (f : Func) (t j : Nat) :
    f.OpAt t j ↔ j < f.ops.length ∧ (f.op j).isConst = false ∧ f.cnt j = t := by
  unfold Func.OpAt
  constructor
  · rintro ⟨a, b, c⟩; rw [cnt_range f (by omega)] at c; exact ⟨a, b, c⟩
  · rintro ⟨a, b, c⟩; rw [cnt_range f (by omega)]; exact ⟨a, b, c⟩

theorem operations_get (f : Func) (t j : Nat) : f.operations[t]? = some j ↔ f.OpAt t j := by
  unfold Func.operations Func.OpAt
  rw [filter_range_get]
  simp

/-- Between non-constant operations, numbers order as positions do. -/
theorem cnt_le_imp (f : Func) {i j : Nat} (hi : i < f.ops.length) (hc : (f.op i).isConst = false)
    (h : f.cnt j ≤ f.cnt i) : j ≤ i := by
  by_contra hlt
  have := cnt_succ f i hi
  simp only [hc, Bool.false_eq_true, if_false] at this
  have := cnt_mono f (by omega : i + 1 ≤ j)
  omega

theorem arena_pos {f : Func} {v : Nat} (hv : f.Arena v) :
    f.IsArg v ∨ ∃ i, f.DefinedAt v i ∧ i < f.ops.length ∧ (f.op i).isConst = false := by
  rcases value_cases f hv.1 with ha | ⟨j, i, hj, hi, rfl⟩
  · exact Or.inl ha
  · right
    have hd : f.DefinedAt (f.result0 j + i) j := (definedAt_iff f _ j).2 ⟨hj, i, hi, rfl⟩
    have hc := definedAt_isConst f hd
    rw [hv.2] at hc
    refine ⟨j, hd, hj, ?_⟩
    cases h : (f.op j).isConst <;> simp [h] at hc ⊢

/-- The planner's ranges of operation numbers are exactly the operations during which the tensor is in use. -/
theorem inUse_iff {f : Func} (wf : f.WF) {v t j : Nat} (hv : f.Arena v) (ht : f.OpAt t j) :
    f.InUse v t ↔ (f.vinfo v).first ≤ t ∧ t ≤ (f.vinfo v).last := by
  rw [opAt_iff] at ht
  obtain ⟨hj, hc, rfl⟩ := ht
  constructor
  · rintro ⟨_, ⟨ha, h0⟩ | ⟨q, hq, hl⟩⟩
    · rw [h0, first_eq f hv, startPos_arg f ha, cnt_zero]; omega
    · rw [opAt_iff] at hq
      have := live_range wf hv hl
      rw [hq.2.2] at this
      exact this
  · rintro ⟨h1, h2⟩
    rw [first_eq f hv] at h1
    rw [last_eq wf hv] at h2
    refine ⟨hv, ?_⟩
    rcases arena_pos hv with ha | ⟨i, hd, hi, hci⟩
    · rcases endPos_cases f v with he | hu
      · rw [he, startPos_arg f ha, cnt_zero] at h2
        exact Or.inl ⟨ha, by omega⟩
      · right
        refine ⟨j, (opAt_iff f _ _).2 ⟨hj, hc, rfl⟩, Or.inl ⟨ha, Or.inr ⟨_, ?_, hu⟩⟩⟩
        exact cnt_le_imp f hu.1 (usedAt_nonconst wf hu) h2
    · right
      refine ⟨j, (opAt_iff f _ _).2 ⟨hj, hc, rfl⟩, Or.inr ⟨i, hd, ?_, ?_⟩⟩
      · rw [startPos_def f hd] at h1
        exact cnt_le_imp f hj hc h1
      · rcases endPos_cases f v with he | hu
        · rw [he, startPos_def f hd] at h2
          rw [startPos_def f hd] at h1
          left
          have a := cnt_le_imp f hi hci h2
          have b := cnt_le_imp f hj hc h1
          omega
        · exact Or.inr ⟨_, cnt_le_imp f hu.1 (usedAt_nonconst wf hu) h2, hu⟩

/-- The number of the last operation using a tensor is the number of an operation. -/
theorem last_opAt {f : Func} (wf : f.WF) (hne : ∃ j, j < f.ops.length ∧ (f.op j).isConst = false) {v t : Nat}
    (hv : f.Arena v) (ht : t ≤ (f.vinfo v).last) : ∃ j, f.OpAt t j := by
  suffices h : ∃ j, f.OpAt (f.vinfo v).last j by
    obtain ⟨j, h⟩ := h
    rw [← operations_get] at h
    have := (List.getElem?_eq_some_iff.1 h).1
    exact ⟨f.operations[t], (operations_get f _ _).1 (List.getElem?_eq_getElem (by omega))⟩
  have zero : ∃ j, f.OpAt 0 j := by
    obtain ⟨j, hj, hc⟩ := hne
    have h := (operations_get f (f.cnt j) j).2 ((opAt_iff f _ _).2 ⟨hj, hc, rfl⟩)
    have := (List.getElem?_eq_some_iff.1 h).1
    exact ⟨f.operations[0], (operations_get f _ _).1 (List.getElem?_eq_getElem (by omega))⟩
  rcases endPos_cases f v with he | hu
  · rcases arena_pos hv with ha | ⟨i, hd, hi, hci⟩
    · rw [last_eq wf hv, he, startPos_arg f ha, cnt_zero]; exact zero
    · rw [last_eq wf hv, he, startPos_def f hd]
      exact ⟨i, (opAt_iff f _ _).2 ⟨hi, hci, rfl⟩⟩
  · rw [last_eq wf hv]
    exact ⟨_, (opAt_iff f _ _).2 ⟨hu.1, usedAt_nonconst wf hu, rfl⟩⟩

/-- Disjoint ranges below `n` have total length at most `n`. -/
theorem disjoint_sum_le (off len : Nat → Int) (n : Int) (hn : 0 ≤ n) (S : Finset Nat)
    (h0 : ∀ v ∈ S, 0 ≤ off v ∧ 0 ≤ len v ∧ off v + len v ≤ n)
    (hd : ∀ v ∈ S, ∀ w ∈ S, v ≠ w → RangesDisjoint (off v) (len v) (off w) (len w)) :
    ∑ v ∈ S, len v ≤ n := by
  let I : Nat → Finset Int := fun v => Finset.Ico (off v) (off v + len v)
  have hdis : (S : Set Nat).PairwiseDisjoint I := by
    intro v hv w hw hvw
    have := hd v hv w hw hvw
    rw [Function.onFun, Finset.disjoint_left]
    intro x hx hy
    simp only [I, Finset.mem_Ico] at hx hy
    unfold RangesDisjoint at this
    omega
  have hc := Finset.card_biUnion hdis
  have hsub : S.biUnion I ⊆ Finset.Ico 0 n := by
    intro x hx
    rw [Finset.mem_biUnion] at hx
    obtain ⟨v, hv, hx⟩ := hx
    simp only [I, Finset.mem_Ico] at hx
    have h1 := h0 v hv
    rw [Finset.mem_Ico]
    omega
  have hle := Finset.card_le_card hsub
  rw [hc, Int.card_Ico] at hle
  have hcard : ∀ v ∈ S, ((I v).card : Int) = len v := by
    intro v hv
    have := (h0 v hv).2.1
    simp only [I, Int.card_Ico]
    omega
  have : ((∑ v ∈ S, (I v).card : Nat) : Int) ≤ ((n - 0).toNat : Int) := by exact_mod_cast hle
  rw [Int.toNat_of_nonneg (by omega), Int.sub_zero, Nat.cast_sum, Finset.sum_congr rfl hcard] at this
  exact this

/-- Filling blank columns. -/
theorem fillLine_spec (c : Char) (k n : Nat) (line : List Char) (hl : n + k ≤ line.length)
    (hb : ∀ i, n ≤ i → i < n + k → line[i]? = some '.') :
    ∃ line', fillLine c k n line = some line' ∧ line'.length = line.length ∧
      ∀ i : Nat, line'[i]? = if n ≤ i ∧ i < n + k then some c else line[i]? := by
  induction k generalizing n line with
  | zero =>
    refine ⟨line, rfl, rfl, fun i => ?_⟩
    rw [if_neg (by omega)]
  | succ k ih =>
    have h0 := hb n (le_refl _) (by omega)
    unfold fillLine
    rw [h0]
    simp only [if_true]
    obtain ⟨line', h1, h2, h3⟩ := ih (n + 1) (line.set n c) (by rw [List.length_set]; omega) (by
      intro i hi hi'
      rw [List.getElem?_set_ne (by omega)]
      exact hb i (by omega) (by omega))
    refine ⟨line', h1, by rw [h2, List.length_set], fun i => ?_⟩
    rw [h3]
    by_cases hi : i = n
    · subst hi
      rw [if_neg (by omega), if_pos (by omega), List.getElem?_set_self (by omega)]
    · rw [List.getElem?_set_ne (by omega)]
      by_cases h : n ≤ i ∧ i < n + (k + 1)
      · rw [if_pos h, if_pos (by omega)]
      · rw [if_neg h, if_neg (by omega)]

theorem int32_ok {x : Int} (h0 : 0 ≤ x) (h : x < 2147483648) : int32 x = some x := by
  unfold int32; rw [if_pos (by omega)]

/-- The columns the code fills are those that show the tensor. -/
theorem shownAt_iff {A off len : Int} (hA : 0 < A) (h0 : 0 ≤ off) (hl : 0 ≤ len) (n : Nat) :
    ShownAt A off len n ↔
      ((off * 60).tdiv A).toNat ≤ n ∧ n < ((off * 60).tdiv A).toNat +
        (((off + len) * 60).tdiv A - (off * 60).tdiv A).toNat := by
  have e1 : (off * 60).tdiv A = off * 60 / A := Int.tdiv_eq_ediv_of_nonneg (by omega)
  have e2 : ((off + len) * 60).tdiv A = (off + len) * 60 / A := Int.tdiv_eq_ediv_of_nonneg (by omega)
  have a0 : 0 ≤ off * 60 / A := Int.ediv_nonneg (by omega) (by omega)
  have a1 : off * 60 / A ≤ (off + len) * 60 / A := Int.ediv_le_ediv hA (by omega)
  have b1 : off * 60 < (n + 1) * A ↔ off * 60 / A < n + 1 := by
    rw [Int.ediv_lt_iff_lt_mul hA]
  have b2 : ((n : Int) + 1) * A ≤ (off + len) * 60 ↔ (n : Int) + 1 ≤ (off + len) * 60 / A := by
    rw [Int.le_ediv_iff_mul_le hA]
  unfold ShownAt
  rw [e1, e2, b1, b2]
  omega

end Verif.MemPlan
