import Verif.MemPlan.ReportLemmas

/-! C108: the memory analysis report is accurate. -/
namespace Verif.MemPlan

/-- The test of the code (MemoryPlan.cpp 390-393), positively. -/
def liveEntry (vi : VMap) (t : Nat) (e : Nat × Int) : Bool := decide ((vi e.1).first ≤ t ∧ t ≤ (vi e.1).last)

/-- Total size of the live entries of a list. -/
def liveSum (vi : VMap) (t : Nat) (l : Alloc) : Int := ((l.filter (liveEntry vi t)).map fun e => (vi e.1).size).sum

theorem liveSum_append (vi : VMap) (t : Nat) (a b : Alloc) :
    liveSum vi t (a ++ b) = liveSum vi t a + liveSum vi t b := by
  simp [liveSum]

theorem liveSum_nonneg (vi : VMap) (t : Nat) (l : Alloc) (h : ∀ e ∈ l, 0 ≤ (vi e.1).size) : 0 ≤ liveSum vi t l := by
  unfold liveSum
  apply List.sum_nonneg
  intro x hx
  obtain ⟨e, he, rfl⟩ := List.mem_map.1 hx
  exact h e (List.mem_filter.1 he).1

/-- What the loop over the values has done after the entries `d`. -/
structure LineInv (vi : VMap) (A : Int) (t : Nat) (d : Alloc) (s : LineState) : Prop where
  width : s.line.length = 60
  shown : ∀ n : Nat, n < 60 → ∀ (k : Nat) (e : Nat × Int), d[k]? = some e → liveEntry vi t e = true →
    ShownAt A e.2 (vi e.1).size n → s.line[n]? = some (getOrdinalCharacter k)
  blank : ∀ n : Nat, n < 60 → (∀ e ∈ d, liveEntry vi t e = true → ¬ ShownAt A e.2 (vi e.1).size n) →
    s.line[n]? = some '.'
  use : s.memoryUse = liveSum vi t d
  peakGe : ∀ e ∈ d, liveEntry vi t e = true → e.2 + (vi e.1).size ≤ s.peakSize
  peakEq : s.peakSize = 0 ∨ ∃ e ∈ d, liveEntry vi t e = true ∧ e.2 + (vi e.1).size = s.peakSize

theorem shown_disjoint {A o₁ s₁ o₂ s₂ : Int} {n : Nat} (h : RangesDisjoint o₁ s₁ o₂ s₂)
    (h1 : ShownAt A o₁ s₁ n) (h2 : ShownAt A o₂ s₂ n) : False := by
  unfold ShownAt at h1 h2
  unfold RangesDisjoint at h
  omega

theorem lineStep_inv {vi : VMap} {A : Int} {t : Nat} (hA : 0 < A) (hA' : A * 60 < 2147483648) {d : Alloc}
    {e : Nat × Int} {s : LineState} (inv : LineInv vi A t d s)
    (he : 0 ≤ e.2 ∧ 0 ≤ (vi e.1).size ∧ e.2 + (vi e.1).size ≤ A)
    (hd : liveEntry vi t e = true → ∀ x ∈ d, liveEntry vi t x = true →
      RangesDisjoint x.2 (vi x.1).size e.2 (vi e.1).size)
    (hs0 : 0 ≤ liveSum vi t d) (hs : liveEntry vi t e = true → liveSum vi t d + (vi e.1).size ≤ A) :
    ∃ s', lineStep vi A t d.length e s = some s' ∧ LineInv vi A t (d ++ [e]) s' := by
  obtain ⟨e0, es, ee⟩ := he
  unfold lineStep
  by_cases hl : liveEntry vi t e = true
  · have hl' : ¬ (t < (vi e.1).first ∨ t > (vi e.1).last) := by
      unfold liveEntry at hl; have := of_decide_eq_true hl; omega
    rw [if_neg hl', if_neg (by omega)]
    have k60 : (kLineWidth : Int) = 60 := rfl
    rw [k60, inv.use, int32_ok (by omega) (by omega)]
    have hs := hs hl
    rw [int32_ok (x := liveSum vi t d + (vi e.1).size) (by omega) (by omega)]
    rw [int32_ok (x := e.2 * 60) (by omega) (by omega)]
    simp only [Option.bind_eq_bind, Option.bind_some]
    rw [int32_ok (x := (e.2 + (vi e.1).size) * 60) (by omega) (by omega)]
    simp only [Option.bind_some]
    have hst : 0 ≤ (e.2 * 60).tdiv A := Int.tdiv_nonneg (by omega) (by omega)
    rw [if_neg (by omega)]
    have hcol := shownAt_iff hA e0 es
    have h2 : ((e.2 + (vi e.1).size) * 60).tdiv A ≤ 60 := by
      rw [Int.tdiv_eq_ediv_of_nonneg (by omega)]
      apply Int.ediv_le_of_le_mul hA
      omega
    have h3 : (e.2 * 60).tdiv A ≤ ((e.2 + (vi e.1).size) * 60).tdiv A := by
      rw [Int.tdiv_eq_ediv_of_nonneg (by omega), Int.tdiv_eq_ediv_of_nonneg (by omega)]
      exact Int.ediv_le_ediv hA (by omega)
    obtain ⟨line', f1, f2, f3⟩ := fillLine_spec (getOrdinalCharacter d.length)
      (((e.2 + (vi e.1).size) * 60).tdiv A - (e.2 * 60).tdiv A).toNat ((e.2 * 60).tdiv A).toNat s.line
      (by rw [inv.width]; omega) (by
        intro i hi hi'
        refine inv.blank i (by omega) ?_
        intro x hx hxl hxs
        exact shown_disjoint (hd hl x hx hxl) hxs ((hcol i).2 ⟨hi, hi'⟩))
    rw [f1]
    refine ⟨_, rfl, ?_⟩
    have hline : ∀ n : Nat, line'[n]? = if ((e.2 * 60).tdiv A).toNat ≤ n ∧ n < ((e.2 * 60).tdiv A).toNat +
        (((e.2 + (vi e.1).size) * 60).tdiv A - (e.2 * 60).tdiv A).toNat
        then some (getOrdinalCharacter d.length) else s.line[n]? := f3
    constructor
    · show line'.length = 60
      rw [f2, inv.width]
    · intro n hn k x hx hxl hxs
      show line'[n]? = _
      rw [hline]
      by_cases hk : k < d.length
      · rw [List.getElem?_append_left hk] at hx
        rw [if_neg, inv.shown n hn k x hx hxl hxs]
        rw [← hcol n]
        intro hes
        exact shown_disjoint (hd hl x (List.mem_of_getElem? hx) hxl) hxs hes
      · rw [List.getElem?_append_right (by omega)] at hx
        have hk0 := (List.getElem?_eq_some_iff.1 hx).1
        have : k = d.length := by simp at hk0; omega
        subst this
        simp at hx
        subst hx
        rw [if_pos ((hcol n).1 hxs)]
    · intro n hn hb
      show line'[n]? = _
      rw [hline, if_neg, inv.blank n hn (fun x hx => hb x (List.mem_append_left _ hx))]
      rw [← hcol n]
      exact hb e (List.mem_append_right _ (List.mem_singleton_self _)) hl
    · show liveSum vi t d + (vi e.1).size = _
      rw [liveSum_append]
      simp [liveSum, hl]
    · intro x hx hxl
      show _ ≤ (if s.peakSize < e.2 + (vi e.1).size then e.2 + (vi e.1).size else s.peakSize)
      rcases List.mem_append.1 hx with hx | hx
      · have := inv.peakGe x hx hxl
        split <;> omega
      · rw [List.mem_singleton] at hx
        subst hx
        split <;> omega
    · show (if s.peakSize < e.2 + (vi e.1).size then e.2 + (vi e.1).size else s.peakSize) = 0 ∨
        ∃ x ∈ d ++ [e], _ ∧ _ = (if s.peakSize < e.2 + (vi e.1).size then e.2 + (vi e.1).size else s.peakSize)
      split
      · exact Or.inr ⟨e, by simp, hl, rfl⟩
      · rcases inv.peakEq with h | ⟨x, hx, h⟩
        · exact Or.inl h
        · exact Or.inr ⟨x, List.mem_append_left _ hx, h⟩
  · have hl' : t < (vi e.1).first ∨ t > (vi e.1).last := by
      unfold liveEntry at hl
      have : ¬ ((vi e.1).first ≤ t ∧ t ≤ (vi e.1).last) := fun h => hl (decide_eq_true h)
      omega
    rw [if_pos hl']
    refine ⟨s, rfl, inv.width, ?_, ?_, ?_, ?_, ?_⟩
    · intro n hn k x hx hxl hxs
      by_cases hk : k < d.length
      · rw [List.getElem?_append_left hk] at hx
        exact inv.shown n hn k x hx hxl hxs
      · rw [List.getElem?_append_right (by omega)] at hx
        have := List.mem_of_getElem? hx
        rw [List.mem_singleton] at this
        subst this
        exact absurd hxl hl
    · intro n hn hb
      exact inv.blank n hn (fun x hx => hb x (List.mem_append_left _ hx))
    · rw [liveSum_append, inv.use]
      simp [liveSum, hl]
    · intro x hx hxl
      rcases List.mem_append.1 hx with hx | hx
      · exact inv.peakGe x hx hxl
      · rw [List.mem_singleton] at hx
        subst hx
        exact absurd hxl hl
    · rcases inv.peakEq with h | ⟨x, hx, h⟩
      · exact Or.inl h
      · exact Or.inr ⟨x, List.mem_append_left _ hx, h⟩

theorem lineLoop_inv {vi : VMap} {A : Int} {t : Nat} (hA : 0 < A) (hA' : A * 60 < 2147483648) (l : Alloc) :
    ∀ (d : Alloc) (s : LineState), LineInv vi A t d s →
    (∀ e ∈ d ++ l, 0 ≤ e.2 ∧ 0 ≤ (vi e.1).size ∧ e.2 + (vi e.1).size ≤ A) →
    ((d ++ l).Pairwise fun x e => liveEntry vi t x = true → liveEntry vi t e = true →
      RangesDisjoint x.2 (vi x.1).size e.2 (vi e.1).size) →
    liveSum vi t (d ++ l) ≤ A →
    ∃ s', lineLoop vi A t d.length l s = some s' ∧ LineInv vi A t (d ++ l) s' := by
  induction l with
  | nil =>
    intro d s inv _ _ _
    exact ⟨s, rfl, by simpa using inv⟩
  | cons e l ih =>
    intro d s inv h0 hd hs
    have e1 : d ++ e :: l = (d ++ [e]) ++ l := by simp
    have hsz : ∀ x ∈ d ++ e :: l, 0 ≤ (vi x.1).size := fun x hx => (h0 x hx).2.1
    have n1 : 0 ≤ liveSum vi t d := liveSum_nonneg _ _ _ fun x hx => hsz x (List.mem_append_left _ hx)
    have n2 : 0 ≤ liveSum vi t l :=
      liveSum_nonneg _ _ _ fun x hx => hsz x (List.mem_append_right _ (List.mem_cons_of_mem _ hx))
    obtain ⟨s1, h1, i1⟩ := lineStep_inv hA hA' (e := e) inv (h0 e (by simp)) (by
      intro hl x hx hxl
      have := (List.pairwise_append.1 hd).2.2 x hx e (by simp)
      exact this hxl hl) n1 (by
      intro hl
      rw [e1, liveSum_append, liveSum_append] at hs
      have : liveSum vi t [e] = (vi e.1).size := by simp [liveSum, hl]
      omega)
    obtain ⟨s2, h2, i2⟩ := ih (d ++ [e]) s1 i1 (by rw [← e1]; exact h0) (by rw [← e1]; exact hd)
      (by rw [← e1]; exact hs)
    refine ⟨s2, ?_, by rw [e1]; exact i2⟩
    unfold lineLoop
    rw [h1]
    rw [List.length_append] at h2
    exact h2

end Verif.MemPlan
