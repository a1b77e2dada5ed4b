import Mathlib.Data.List.Induction
import Mathlib.Tactic.ByContra
/-!
How the examples turn the outputs of a classifier into classes: the greatest output (examples/app_mobilenetv2/src/support.cpp 30-38,
examples/app_yolov8_classification/src/support.cpp 30-38), the "top three classes" (examples/app_single_model_on_two_tiles/src/support.cpp 53-75,
examples/app_single_model_on_one_tile_and_DDR/src/support.cpp 53-75), and the answer with a percentage of the two-class examples
(examples/app_no_flash/src/support.cpp 14, app_flash_single_model, app_profiling).
-/
namespace Verif.Shipped.Classify

/-- `maxIndex`, `max` and the loop (support.cpp 30-38): `i` is the index of the head of the list. -/
def bestLoop : Nat → List Int → Int × Int → Int × Int
  | _, [], s => s
  | i, x :: xs, (idx, mx) => bestLoop (i + 1) xs (if x > mx then ((i : Int), x) else (idx, mx))

/-- `maxIndex` after the loop (support.cpp 30-38). -/
def best (outs : List Int) : Int := (bestLoop 0 outs (-1, -128)).1

/-- The six variables of the loop for three classes (app_single_model_on_two_tiles/src/support.cpp 54-59). -/
structure Three where
  i1 : Int
  m1 : Int
  i2 : Int
  m2 : Int
  i3 : Int
  m3 : Int
  deriving DecidableEq

/-- One round (support.cpp 62-69). -/
def Three.step (s : Three) (i : Nat) (x : Int) : Three :=
  if x > s.m1 then ⟨i, x, s.i1, s.m1, s.i2, s.m2⟩ else s

/-- The loop (support.cpp 61-70). -/
def threeLoop : Nat → List Int → Three → Three
  | _, [], s => s
  | i, x :: xs, s => threeLoop (i + 1) xs (s.step i x)

/-- All of it (support.cpp 53-70). -/
def topThree (outs : List Int) : Three := threeLoop 0 outs ⟨-1, -128, -1, -128, -1, -128⟩

/-- The percentage that is printed (app_no_flash/src/support.cpp 14); C division truncates. -/
def percent (x : Int) : Int := ((x + 128) * 100).tdiv 255

/-! ### Specification -/

/-- `k` is the first position with the greatest element of `outs`. -/
def IsFirstGreatest (outs : List Int) (k : Nat) : Prop :=
  ∃ x, outs[k]? = some x ∧ (∀ (j : Nat) (y : Int), outs[j]? = some y → y ≤ x) ∧ ∀ (j : Nat) (y : Int), j < k → outs[j]? = some y → y < x

/-- Some output is not the smallest 8-bit number. -/
def NotAllLowest (outs : List Int) : Prop := ∃ x ∈ outs, -128 < x

/-! ### Proofs -/

/-- What the state says about the outputs `pre` that were looked at: nothing above -128, or the first greatest. -/
def Seen (pre : List Int) (s : Int × Int) : Prop :=
  (s = (-1, -128) ∧ ∀ x ∈ pre, x ≤ -128) ∨
  ∃ k : Nat, s.1 = k ∧ pre[k]? = some s.2 ∧ -128 < s.2 ∧ (∀ (j : Nat) (y : Int), pre[j]? = some y → y ≤ s.2) ∧ ∀ (j : Nat) (y : Int), j < k → pre[j]? = some y → y < s.2

theorem mem_get {l : List Int} {x : Int} (h : x ∈ l) : ∃ j : Nat, l[j]? = some x := List.mem_iff_getElem?.1 h

theorem seen_step (pre : List Int) (x : Int) (s : Int × Int) (h : Seen pre s) : Seen (pre ++ [x]) (if x > s.2 then ((pre.length : Int), x) else s) := by
  have hle : ∀ (j : Nat) (y : Int), pre[j]? = some y → y ≤ s.2 := by
    intro j y hy
    rcases h with ⟨rfl, h⟩ | ⟨k, -, -, -, h, -⟩
    · exact h y (List.mem_of_getElem? hy)
    · exact h j y hy
  have hlow : -128 ≤ s.2 := by
    rcases h with ⟨rfl, -⟩ | ⟨k, -, -, h, -⟩
    · exact Int.le_refl _
    · omega
  by_cases hx : x > s.2
  · rw [if_pos hx]
    right
    refine ⟨pre.length, rfl, by simp, ?_, ?_, ?_⟩
    · show -128 < x; omega
    · intro j y hy
      show y ≤ x
      rcases Nat.lt_or_ge j pre.length with hj | hj
      · rw [List.getElem?_append_left hj] at hy
        have := hle j y hy
        omega
      · rw [List.getElem?_append_right hj] at hy
        rcases Nat.eq_zero_or_pos (j - pre.length) with h0 | h0
        · rw [h0] at hy; simp at hy; omega
        · rw [List.getElem?_eq_none (by simp; omega)] at hy; cases hy
    · intro j y hj hy
      show y < x
      rw [List.getElem?_append_left hj] at hy
      have := hle j y hy
      omega
  · rw [if_neg hx]
    rcases h with ⟨rfl, h⟩ | ⟨k, h1, h2, h3, h4, h5⟩
    · left
      refine ⟨rfl, ?_⟩
      intro y hy
      rcases List.mem_append.1 hy with hy | hy
      · exact h y hy
      · rw [List.mem_singleton] at hy; subst hy; simp only at hx; omega
    · right
      have hk : k < pre.length := by
        by_contra hc
        rw [List.getElem?_eq_none (by omega)] at h2
        cases h2
      refine ⟨k, h1, by rw [List.getElem?_append_left hk]; exact h2, h3, ?_, ?_⟩
      · intro j y hy
        rcases Nat.lt_or_ge j pre.length with hj | hj
        · rw [List.getElem?_append_left hj] at hy
          exact h4 j y hy
        · rw [List.getElem?_append_right hj] at hy
          rcases Nat.eq_zero_or_pos (j - pre.length) with h0 | h0
          · rw [h0] at hy; simp at hy; omega
          · rw [List.getElem?_eq_none (by simp; omega)] at hy; cases hy
      · intro j y hj hy
        rw [List.getElem?_append_left (by omega)] at hy
        exact h5 j y hj hy

theorem bestLoop_seen (pre xs : List Int) (s : Int × Int) (h : Seen pre s) : Seen (pre ++ xs) (bestLoop pre.length xs s) := by
  induction xs generalizing pre s with
  | nil => simpa [bestLoop] using h
  | cons x xs ih =>
    have := ih (pre ++ [x]) _ (seen_step pre x s h)
    simp only [List.append_assoc, List.singleton_append, List.length_append, List.length_singleton] at this
    exact this

theorem best_seen (outs : List Int) : Seen outs (bestLoop 0 outs (-1, -128)) := by
  have := bestLoop_seen [] outs (-1, -128) (Or.inl ⟨rfl, by simp⟩)
  simpa using this

/-- **C105** The class that is reported is the first one with the greatest output, if some output is above -128. -/
theorem C105_best_partial (outs : List Int) (h : NotAllLowest outs) : ∃ k : Nat, best outs = k ∧ IsFirstGreatest outs k := by
  rcases best_seen outs with ⟨-, h2⟩ | ⟨k, h1, h2, -, h4, h5⟩
  · obtain ⟨x, hx, hlt⟩ := h
    have := h2 x hx
    omega
  · exact ⟨k, h1, _, h2, h4, h5⟩

/-- Otherwise no class is reported. -/
theorem C105_none (outs : List Int) (h : ¬ NotAllLowest outs) : best outs = -1 := by
  rcases best_seen outs with ⟨h1, -⟩ | ⟨k, h1, h2, h3, -⟩
  · unfold best; rw [h1]
  · exact absurd ⟨_, List.mem_of_getElem? h2, h3⟩ h

/-- The class with the greatest output is reported for all 8-bit outputs. -/
def C105_full : Prop := ∀ outs : List Int, outs ≠ [] → (∀ x ∈ outs, -128 ≤ x ∧ x ≤ 127) → ∃ k : Nat, best outs = k ∧ IsFirstGreatest outs k

/-- A thousand classes that are equally likely: a probability of 1/1000 is the smallest output, -128, in steps of 1/256. -/
theorem C105_full_refuted : ¬ C105_full := by
  intro h
  obtain ⟨k, hk, -⟩ := h (List.replicate 1000 (-128)) (by intro hc; have := congrArg List.length hc; rw [List.length_replicate] at this; cases this) (by intro x hx; rw [List.eq_of_mem_replicate hx]; omega)
  have : best (List.replicate 1000 (-128)) = -1 := C105_none _ (by
    rintro ⟨x, hx, hlt⟩
    rw [List.eq_of_mem_replicate hx] at hlt
    omega)
  omega

/-! ### The top three -/

theorem threeLoop_append (i : Nat) (xs ys : List Int) (s : Three) : threeLoop i (xs ++ ys) s = threeLoop (i + xs.length) ys (threeLoop i xs s) := by
  induction xs generalizing i s with
  | nil => simp [threeLoop]
  | cons x xs ih =>
    simp only [List.cons_append, threeLoop, ih, List.length_cons]
    congr 1
    omega

theorem bestLoop_append (i : Nat) (xs ys : List Int) (s : Int × Int) : bestLoop i (xs ++ ys) s = bestLoop (i + xs.length) ys (bestLoop i xs s) := by
  induction xs generalizing i s with
  | nil => simp [bestLoop]
  | cons x xs ih =>
    obtain ⟨a, b⟩ := s
    simp only [List.cons_append, bestLoop, ih, List.length_cons]
    congr 1
    omega

/-- The best of the outputs before position `k` (`k = -1`: of none). -/
def bestBefore (outs : List Int) (k : Int) : Int × Int := bestLoop 0 (outs.take k.toNat) (-1, -128)

theorem three_spec (outs : List Int) :
    ((topThree outs).i1, (topThree outs).m1) = bestLoop 0 outs (-1, -128) ∧
    ((topThree outs).i2, (topThree outs).m2) = bestBefore outs (topThree outs).i1 ∧
    ((topThree outs).i3, (topThree outs).m3) = bestBefore outs (topThree outs).i2 ∧
    -1 ≤ (topThree outs).i1 ∧ (topThree outs).i1 < outs.length ∧ -1 ≤ (topThree outs).i2 ∧ (topThree outs).i2 < max (topThree outs).i1 0 := by
  induction outs using List.reverseRecOn with
  | nil => exact ⟨rfl, rfl, rfl, by decide, by decide, by decide, by decide⟩
  | append_singleton xs x ih =>
    obtain ⟨h1, h2, h3, h4, h5, h6, h7⟩ := ih
    have e : topThree (xs ++ [x]) = (topThree xs).step xs.length x := by
      unfold topThree
      rw [threeLoop_append]
      simp [threeLoop]
    have eb : bestLoop 0 (xs ++ [x]) (-1, -128) = if x > (topThree xs).m1 then ((xs.length : Int), x) else ((topThree xs).i1, (topThree xs).m1) := by
      rw [bestLoop_append, ← h1]
      simp [bestLoop]
    have hb : ∀ k : Int, k ≤ xs.length → bestBefore (xs ++ [x]) k = bestBefore xs k := by
      intro k hk
      unfold bestBefore
      rw [List.take_append_of_le_length (by omega)]
    rw [e]
    unfold Three.step
    split
    · rename_i hx
      rw [if_pos hx] at eb
      refine ⟨eb.symm, ?_, ?_, ?_, ?_, h4, ?_⟩
      · show ((topThree xs).i1, (topThree xs).m1) = bestBefore (xs ++ [x]) (xs.length : Int)
        rw [hb _ (Int.le_refl _), h1]
        unfold bestBefore
        simp
      · show ((topThree xs).i2, (topThree xs).m2) = bestBefore (xs ++ [x]) (topThree xs).i1
        rw [hb _ (by omega), h2]
      · show -1 ≤ (xs.length : Int); omega
      · show (xs.length : Int) < (xs ++ [x]).length; rw [List.length_append]; simp; omega
      · show (topThree xs).i1 < max (xs.length : Int) 0; omega
    · rename_i hx
      rw [if_neg hx] at eb
      refine ⟨eb.symm, ?_, ?_, h4, ?_, h6, h7⟩
      · rw [hb _ (by omega)]; exact h2
      · rw [hb _ (by omega)]; exact h3
      · rw [List.length_append]; push_cast; omega

/-- **C105, "top three classes".** The first class is the one with the greatest output; the second is the best of those *before* the first, the third the best of those before the second. -/
theorem C105_three (outs : List Int) : (topThree outs).i1 = best outs ∧ (topThree outs).i2 = best (outs.take (topThree outs).i1.toNat) ∧
    (topThree outs).i3 = best (outs.take (topThree outs).i2.toNat) := by
  obtain ⟨h1, h2, h3, -⟩ := three_spec outs
  exact ⟨congrArg Prod.fst h1, congrArg Prod.fst h2, congrArg Prod.fst h3⟩

/-- So they are the three greatest when the outputs ascend, ... -/
theorem C105_three_ascending (outs : List Int) (hs : outs.Pairwise (· < ·)) (hl : 3 ≤ outs.length) (hlow : ∀ x ∈ outs, -128 < x) :
    (topThree outs).i1 = (outs.length - 1 : Nat) ∧ (topThree outs).i2 = (outs.length - 2 : Nat) ∧ (topThree outs).i3 = (outs.length - 3 : Nat) := by
  have key : ∀ l : List Int, l.Pairwise (· < ·) → (∀ x ∈ l, -128 < x) → 1 ≤ l.length → best l = (l.length - 1 : Nat) := by
    intro l hs hlow hl
    have hx : l[l.length - 1] ∈ l := List.getElem_mem _
    obtain ⟨k, h1, x, h2, h3, -⟩ := C105_best_partial l ⟨_, hx, hlow _ hx⟩
    rw [h1]
    have hk : k < l.length := by
      by_contra hc
      rw [List.getElem?_eq_none (by omega)] at h2
      cases h2
    by_contra hne
    have hlt : k < l.length - 1 := by omega
    have := List.pairwise_iff_getElem.1 hs k (l.length - 1) hk (by omega) hlt
    have h4 := h3 (l.length - 1) _ (List.getElem?_eq_getElem (by omega))
    rw [List.getElem?_eq_getElem hk] at h2
    have := Option.some.inj h2
    omega
  obtain ⟨h1, h2, h3⟩ := C105_three outs
  have k1 := key outs hs hlow (by omega)
  have pt : ∀ n, (outs.take n).Pairwise (· < ·) := fun n => hs.sublist (List.take_sublist _ _)
  have lt : ∀ n, ∀ x ∈ outs.take n, -128 < x := fun n x hx => hlow x (List.mem_of_mem_take hx)
  have e1 : (topThree outs).i1 = (outs.length - 1 : Nat) := by rw [h1, k1]
  have e2 : (topThree outs).i2 = (outs.length - 2 : Nat) := by
    rw [h2, e1, key _ (pt _) (lt _) (by simp; omega)]
    simp
    omega
  refine ⟨e1, e2, ?_⟩
  rw [h3, e2, key _ (pt _) (lt _) (by simp; omega)]
  simp
  omega

/-- The second class printed is the second best. -/
def C105_three_full : Prop := ∀ outs : List Int, 2 ≤ outs.length → (∀ x ∈ outs, -128 < x ∧ x ≤ 127) →
  ∃ j : Nat, (topThree outs).i2 = j ∧ (j : Int) ≠ (topThree outs).i1 ∧
    ∃ y, outs[j]? = some y ∧ ∀ (i : Nat) (z : Int), (i : Int) ≠ (topThree outs).i1 → outs[i]? = some z → z ≤ y

/-- ... but not in general: with the greatest output first there is no second class at all, and a better class behind the first is passed over. -/
theorem C105_three_refuted : ¬ C105_three_full ∧ topThree [5, 4, 3] = ⟨0, 5, -1, -128, -1, -128⟩ ∧ topThree [1, 100, 99, 98] = ⟨1, 100, 0, 1, -1, -128⟩ := by
  refine ⟨?_, by decide, by decide⟩
  intro h
  obtain ⟨j, h1, -⟩ := h [5, 4, 3] (by decide) (by decide)
  have : (topThree [5, 4, 3]).i2 = -1 := by decide
  omega

/-! ### Percentages -/

/-- **C105, percentages** are between 0 and 100, exact at both ends, and grow with the output. -/
theorem C105_percent (x y : Int) (hx : -128 ≤ x ∧ x ≤ 127) (hy : -128 ≤ y ∧ y ≤ 127) :
    0 ≤ percent x ∧ percent x ≤ 100 ∧ (x ≤ y → percent x ≤ percent y) ∧ (percent x = 100 ↔ x = 127) ∧ percent (-128) = 0 := by
  have h : ∀ z : Int, -128 ≤ z → percent z = (z + 128) * 100 / 255 := fun z hz => Int.tdiv_eq_ediv_of_nonneg (by omega)
  rw [h x hx.1, h y hy.1, h (-128) (by omega)]
  omega

/-- Non-trivial case: the second of three classes, and the top three of ascending outputs. -/
theorem C105_example : best [-100, 20, 20, -128] = 1 ∧ NotAllLowest [-100, 20, 20, -128] ∧ topThree [-100, 3, 20] = ⟨2, 20, 1, 3, 0, -100⟩ :=
  ⟨by decide, ⟨20, by decide, by decide⟩, by decide⟩

end Verif.Shipped.Classify
