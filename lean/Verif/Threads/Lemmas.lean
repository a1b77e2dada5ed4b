import Verif.Threads.Spec
namespace Verif.Threads

theorem dimSplits_sum (s n d : Nat) : (dimSplits s (n + 1) d).sum = d * s := by
  induction n generalizing d with
  | zero =>
    simp only [dimSplits, Nat.add_zero, Nat.zero_add, Nat.div_one]
    split
    · simp
    · have : d = 0 := by omega
      simp [this]
  | succ n ih =>
    unfold dimSplits
    simp only
    have hle : (d + (n + 1)) / (n + 1 + 1) ≤ d := by
      by_cases hd : d = 0
      · subst hd; rw [Nat.div_eq_of_lt (by omega)]; exact Nat.le_refl _
      · apply Nat.div_le_of_le_mul
        have : (n + 1 + 1) * d = (n+1) * d + d := Nat.succ_mul _ _
        have : (n+1) * 1 ≤ (n+1) * d := Nat.mul_le_mul_left _ (by omega)
        omega
    generalize (d + (n + 1)) / (n + 1 + 1) = q at hle ⊢
    split
    · rw [List.sum_cons, ih, ← Nat.add_mul]
      congr 1
      omega
    · rw [ih]
      congr 1
      omega

theorem dimSplits_length (s n d : Nat) : (dimSplits s n d).length ≤ n := by
  induction n generalizing d with
  | zero => simp [dimSplits]
  | succ n ih =>
    unfold dimSplits
    simp only
    have := ih (d - (d + n) / (n + 1))
    split <;> simp <;> omega

theorem dimSplits_dvd (s n d : Nat) : ∀ x ∈ dimSplits s n d, s ∣ x := by
  induction n generalizing d with
  | zero => simp [dimSplits]
  | succ n ih =>
    unfold dimSplits
    simp only
    split
    · intro x hx
      rcases List.mem_cons.1 hx with h | h
      · subst h; exact Nat.dvd_mul_left _ _
      · exact ih _ x h
    · exact ih _

theorem dimSplits_pos (s n d : Nat) (hs : 0 < s) : ∀ x ∈ dimSplits s n d, 0 < x := by
  induction n generalizing d with
  | zero => simp [dimSplits]
  | succ n ih =>
    unfold dimSplits
    simp only
    split
    · rename_i h0
      intro x hx
      rcases List.mem_cons.1 hx with h | h
      · subst h; exact Nat.mul_pos h0 hs
      · exact ih _ x h
    · exact ih _

/-- How many `(start, length)` intervals contain `y`. -/
def cover1 (l : List (Nat × Nat)) (y : Nat) : Nat := l.countP fun sl => decide (sl.1 ≤ y ∧ y < sl.1 + sl.2)

/-- Consecutive intervals without adjustment. -/
def steps (sub : Nat) : Nat → List Nat → List (Nat × Nat)
  | _, [] => []
  | top, x :: xs => (top + sub, x) :: steps sub (top + x) xs

theorem place_eq_steps (dim sub : Nat) (l : List Nat) (top : Nat) (h : top + sub + l.sum ≤ dim) :
    place dim sub top l = steps sub top l := by
  induction l generalizing top with
  | nil => rfl
  | cons x xs ih =>
    rw [List.sum_cons] at h
    unfold place steps
    simp only
    rw [if_neg (by omega), ih (top + x) (by omega)]

theorem place_even (dim sub : Nat) (hd : dim % 2 ≠ 1) (l : List Nat) (top : Nat) :
    place dim sub top l = steps sub top l := by
  induction l generalizing top with
  | nil => rfl
  | cons x xs ih =>
    unfold place steps
    simp only
    rw [if_neg (by omega), ih]

theorem place_append (dim sub : Nat) (l : List Nat) (x top : Nat) (h : top + sub + l.sum ≤ dim) :
    place dim sub top (l ++ [x]) = steps sub top l ++ place dim sub (top + l.sum) [x] := by
  induction l generalizing top with
  | nil => simp [steps]
  | cons a as ih =>
    rw [List.sum_cons] at h
    rw [List.cons_append, place, steps]
    rw [if_neg (by omega), ih (top + a) (by omega), List.cons_append, List.sum_cons, Nat.add_assoc]

theorem steps_append (sub : Nat) (l : List Nat) (x top : Nat) :
    steps sub top (l ++ [x]) = steps sub top l ++ [(top + l.sum + sub, x)] := by
  induction l generalizing top with
  | nil => simp [steps]
  | cons a as ih =>
    rw [List.cons_append, steps, steps]
    rw [ih (top + a), List.cons_append, List.sum_cons, Nat.add_assoc top a]

theorem cover1_steps (sub : Nat) (l : List Nat) (top y : Nat) :
    cover1 (steps sub top l) y = if top + sub ≤ y ∧ y < top + sub + l.sum then 1 else 0 := by
  induction l generalizing top with
  | nil => rw [if_neg (by simp)]; rfl
  | cons x xs ih =>
    have h := ih (top + x)
    unfold cover1 at h ⊢
    rw [steps, List.countP_cons, h, List.sum_cons]
    simp only [decide_eq_true_eq]
    split <;> split <;> split <;> omega

theorem steps_length (sub : Nat) (l : List Nat) (top : Nat) : (steps sub top l).length = l.length := by
  induction l generalizing top with
  | nil => rfl
  | cons x xs ih => simp [steps, ih]

theorem steps_pos (sub : Nat) (l : List Nat) (top : Nat) (h : ∀ x ∈ l, 0 < x) :
    ∀ sl ∈ steps sub top l, 0 < sl.2 := by
  induction l generalizing top with
  | nil => simp [steps]
  | cons x xs ih =>
    intro sl hsl
    rcases List.mem_cons.1 hsl with h1 | h1
    · subst h1; exact h x (by simp)
    · exact ih (top + x) (fun z hz => h z (by simp [hz])) sl h1

/-- Every interval except the first starts `sub` past a positive multiple: helper for the last index. -/
theorem eq_append_last {l : List Nat} (h : l ≠ []) : ∃ i x, l = i ++ [x] :=
  ⟨l.dropLast, l.getLast h, (List.dropLast_concat_getLast h).symm⟩

/-- What `splitDim` yields: consecutive intervals from `sub` to `sub + (dim/stride)*stride (+1)`. -/
theorem splitDim_spec (n dim sub stride : Nat) (hn : 1 ≤ n) (hs : 0 < stride) (hsub : sub < stride)
    (hd : stride ≤ dim) :
    ∃ m : List Nat, splitDim n dim sub stride = some (steps sub 0 m) ∧ m.length ≤ n ∧ (∀ x ∈ m, 0 < x) ∧
      m.sum = dim / stride * stride + (if dim % 2 = 1 ∧ sub < dim % stride then 1 else 0) := by
  obtain ⟨k, rfl⟩ : ∃ k, n = k + 1 := ⟨n - 1, by omega⟩
  have hsum := dimSplits_sum stride k (dim / stride)
  have hlen := dimSplits_length stride (k + 1) (dim / stride)
  have hdvd := dimSplits_dvd stride (k + 1) (dim / stride)
  have hpos := dimSplits_pos stride (k + 1) (dim / stride) hs
  have hdm : dim / stride * stride + dim % stride = dim := by
    rw [Nat.mul_comm]; exact Nat.div_add_mod _ _
  have hml := Nat.mod_lt dim hs
  unfold splitDim
  generalize hl : dimSplits stride (k + 1) (dim / stride) = l at *
  by_cases hodd : dim % 2 = 1
  · have hne : l ≠ [] := by
      intro h0
      rw [h0] at hsum
      have : 0 < dim / stride * stride := Nat.mul_pos (Nat.div_pos hd hs) hs
      simp at hsum; omega
    obtain ⟨i, x, rfl⟩ := eq_append_last hne
    have hxs : stride ≤ x := Nat.le_of_dvd (hpos x (by simp)) (hdvd x (by simp))
    rw [List.sum_append, List.sum_singleton] at hsum
    simp only [hodd, if_true, true_and, bumpLast, List.getLast?_append, List.getLast?_singleton, Option.some_or,
      List.dropLast_concat, Option.map_some]
    rw [place_append _ _ _ _ _ (by omega)]
    unfold place place
    simp only [hodd, and_true, Nat.zero_add]
    by_cases hc : sub < dim % stride
    · refine ⟨i ++ [x + 1], ?_, by simpa using hlen, ?_, ?_⟩
      · rw [if_neg (by omega), steps_append, Nat.zero_add]
      · intro z hz
        rcases List.mem_append.1 hz with h | h
        · exact hpos z (by simp [h])
        · simp at h; omega
      · rw [List.sum_append, List.sum_singleton, if_pos hc]; omega
    · refine ⟨i ++ [x], ?_, by simpa using hlen, hpos, ?_⟩
      · rw [if_pos (by omega), steps_append, Nat.zero_add]; rfl
      · rw [List.sum_append, List.sum_singleton, if_neg hc]; omega
  · simp only [hodd, if_false, false_and, Option.map_some]
    exact ⟨l, by rw [place_even _ _ hodd], hlen, hpos, by omega⟩

theorem coverage_rows (l : List (Nat × Nat)) (w d y x c : Nat) :
    coverage (l.map fun sl => (⟨sl.1, 0, 0, sl.2, w, d⟩ : Region)) y x c
      = if x < w ∧ c < d then cover1 l y else 0 := by
  unfold coverage cover1
  rw [List.countP_map]
  split
  case isTrue h =>
    apply List.countP_congr
    intro sl _
    simp [Region.Has]; omega
  case isFalse h =>
    rw [List.countP_eq_zero]
    intro sl _
    simp [Region.Has]; omega

theorem coverage_cols (l : List (Nat × Nat)) (hh d y x c : Nat) :
    coverage (l.map fun sl => (⟨0, sl.1, 0, hh, sl.2, d⟩ : Region)) y x c
      = if y < hh ∧ c < d then cover1 l x else 0 := by
  unfold coverage cover1
  rw [List.countP_map]
  split
  case isTrue h =>
    apply List.countP_congr
    intro sl _
    simp [Region.Has]; omega
  case isFalse h =>
    rw [List.countP_eq_zero]
    intro sl _
    simp [Region.Has]; omega

theorem coverage_chans (l : List (Nat × Nat)) (s e y x c : Nat) (h : Contiguous s e l) :
    coverage (l.map fun se => (⟨0, 0, se.1, 1, 1, se.2 - se.1⟩ : Region)) y x c
      = if y < 1 ∧ x < 1 ∧ s ≤ c ∧ c < e then 1 else 0 := by
  induction l generalizing s with
  | nil =>
    have : s = e := h
    simp [coverage]; omega
  | cons ab rest ih =>
    obtain ⟨a, b⟩ := ab
    obtain ⟨h1, h2, h3⟩ := h
    have hmono : b ≤ e := by
      clear ih
      induction rest generalizing a b s with
      | nil => exact Nat.le_of_eq h3
      | cons cd r ih2 =>
        obtain ⟨c', d'⟩ := cd
        obtain ⟨g1, g2, g3⟩ := h3
        have := ih2 (s := c') (a := c') (b := d') rfl g2 g3
        omega
    have hi := ih b h3
    unfold coverage at hi ⊢
    rw [List.map_cons, List.countP_cons, hi]
    have he : (Region.Has ⟨0, 0, a, 1, 1, b - a⟩ y x c) ↔ (y < 1 ∧ x < 1 ∧ a ≤ c ∧ c < b) := by
      unfold Region.Has; simp only; omega
    simp only [decide_eq_true_eq, he]
    split <;> split <;> split <;> omega

/-- Membership of a phase element in `[sub, sub + q*s (+1))` is membership in `[0, dim)`. -/
theorem phase_range (dim sub s y : Nat) (hs : 0 < s) (hsub : sub < s) (hy : y % s = sub)
    (hok : dim % 2 = 1 ∨ dim % s ≤ sub) :
    (sub ≤ y ∧ y < sub + (dim / s * s + (if dim % 2 = 1 ∧ sub < dim % s then 1 else 0))) ↔ y < dim := by
  have h1 : s * (y / s) + y % s = y := Nat.div_add_mod _ _
  have h2 : s * (dim / s) + dim % s = dim := Nat.div_add_mod _ _
  rw [Nat.mul_comm (dim / s)]
  have hml := Nat.mod_lt dim hs
  generalize hq : y / s = q at *
  generalize hp : dim / s = p at *
  rcases Nat.lt_trichotomy q p with h | h | h
  · have : s * (q + 1) ≤ s * p := Nat.mul_le_mul_left _ h
    rw [Nat.mul_add] at this
    split <;> constructor <;> omega
  · subst h
    split <;> constructor <;> omega
  · have : s * (p + 1) ≤ s * q := Nat.mul_le_mul_left _ h
    rw [Nat.mul_add] at this
    split <;> constructor <;> omega

end Verif.Threads
