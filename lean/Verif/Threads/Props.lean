import Verif.Threads.Lemmas
/-! Property theorems C07 and C08. -/
namespace Verif.Threads

/-- **C08, exact form.**  Let the requested thread count be at least 1, `sub < stride`, the image at least as large as
the stride in the dimension that gets split, and let that dimension be odd or its size modulo the stride be at most the
phase.  Then regions are produced, at most one per thread, none empty, and every element of the phase is computed
exactly once if it is in the image; no thread touches an element of the phase outside the image. -/
theorem C08_strided_regions_cover_phase_partial (cts : Nat → Nat → List (Nat × Nat)) (hcalc : CalcContract cts)
    (n : Nat) (p : Params) (hn : 1 ≤ n) (hH : 1 ≤ p.height) (hW : 1 ≤ p.width)
    (hsh : p.subH < p.strideH) (hsw : p.subW < p.strideW)
    (hh : heightChosen n p = true → p.strideH ≤ p.height ∧ (p.height % 2 = 1 ∨ p.height % p.strideH ≤ p.subH))
    (hw : heightChosen n p = false → p.strideW ≤ p.width ∧ (p.width % 2 = 1 ∨ p.width % p.strideW ≤ p.subW)) :
    ∃ rs, getImageRegionThreadSplits cts n p = some rs ∧ rs.length ≤ n ∧
      (∀ r ∈ rs, 0 < r.rows ∧ 0 < r.cols) ∧
      ∀ y x c, p.InPhase y x → coverage rs y x c = if p.Inside y x c then 1 else 0 := by
  unfold getImageRegionThreadSplits
  split
  case isTrue h1 =>
    obtain ⟨e1, e2, -, -, -, -⟩ := h1
    obtain ⟨hl, hcont⟩ := hcalc n p.depth hn
    refine ⟨_, rfl, by simpa [depthwiseSplits] using hl, ?_, ?_⟩
    · intro r hr
      simp only [depthwiseSplits, List.mem_map] at hr
      obtain ⟨se, -, rfl⟩ := hr
      exact ⟨hH, hW⟩
    · intro y x c _
      unfold depthwiseSplits
      rw [e1, e2, coverage_chans _ 0 p.depth y x c hcont]
      simp only [Params.Inside, e1, e2]
      split <;> split <;> omega
  case isFalse h1 =>
    split
    case isTrue hc =>
      obtain ⟨g1, g2⟩ := hh hc
      obtain ⟨m, hm, hlen, hpos, hsum⟩ := splitDim_spec n p.height p.subH p.strideH hn (by omega) hsh g1
      refine ⟨_, by rw [hm]; rfl, by simpa [steps_length] using hlen, ?_, ?_⟩
      · intro r hr
        obtain ⟨sl, hsl, rfl⟩ := List.mem_map.1 hr
        exact ⟨steps_pos _ _ _ hpos sl hsl, hW⟩
      · intro y x c hph
        have hy := hph.1
        rw [Nat.mod_eq_of_lt hsh] at hy
        have := phase_range p.height p.subH p.strideH y (by omega) hsh hy g2
        rw [coverage_rows, cover1_steps, hsum, Nat.zero_add]
        simp only [this]
        unfold Params.Inside
        by_cases a1 : y < p.height <;> by_cases a2 : x < p.width <;> by_cases a3 : c < p.depth <;> simp [a1, a2, a3]
    case isFalse hc =>
      obtain ⟨g1, g2⟩ := hw (by simpa using hc)
      obtain ⟨m, hm, hlen, hpos, hsum⟩ := splitDim_spec n p.width p.subW p.strideW hn (by omega) hsw g1
      refine ⟨_, by rw [hm]; rfl, by simpa [steps_length] using hlen, ?_, ?_⟩
      · intro r hr
        obtain ⟨sl, hsl, rfl⟩ := List.mem_map.1 hr
        exact ⟨hH, steps_pos _ _ _ hpos sl hsl⟩
      · intro y x c hph
        have hy := hph.2
        rw [Nat.mod_eq_of_lt hsw] at hy
        have := phase_range p.width p.subW p.strideW x (by omega) hsw hy g2
        rw [coverage_cols, cover1_steps, hsum, Nat.zero_add]
        simp only [this]
        unfold Params.Inside
        by_cases a1 : y < p.height <;> by_cases a2 : x < p.width <;> by_cases a3 : c < p.depth <;> simp [a1, a2, a3]

/-- A 7 by 9 image, stride 3, phase (0, 2): the hypotheses of C08 hold with 4 threads (height is odd and chosen … or
width is). -/
example : ∃ p : Params, p.height = 7 ∧ p.width = 9 ∧ p.strideH = 3 ∧ p.strideW = 3 ∧ heightChosen 4 p = false ∧
    (p.width % 2 = 1 ∨ p.width % p.strideW ≤ p.subW) ∧ p.subH < p.strideH ∧ p.subW < p.strideW :=
  ⟨⟨7, 9, 4, 0, 2, 3, 3⟩, by decide⟩

/-- The contract assumed of the external channel splitter is satisfiable. -/
example : CalcContract fun _ d => if d = 0 then [] else [(0, d)] := by
  intro n d hn
  by_cases h : d = 0
  · simp [h, Contiguous]
  · simp only [if_neg h, List.length_singleton]
    exact ⟨hn, rfl, by omega, rfl⟩

/-- **C07.**  Without output strides (every convolution and pooling except transposed convolution) the regions given to
the threads are non-empty, at most as many as requested, and every output element is computed by exactly one of them;
nothing outside the image is computed. -/
theorem C07_regions_partition_image (cts : Nat → Nat → List (Nat × Nat)) (hcalc : CalcContract cts)
    (n height width depth : Nat) (hn : 1 ≤ n) (hH : 1 ≤ height) (hW : 1 ≤ width) :
    ∃ rs, getImageRegionThreadSplits cts n ⟨height, width, depth, 0, 0, 1, 1⟩ = some rs ∧ rs.length ≤ n ∧
      (∀ r ∈ rs, 0 < r.rows ∧ 0 < r.cols) ∧
      ∀ y x c, coverage rs y x c = if y < height ∧ x < width ∧ c < depth then 1 else 0 := by
  obtain ⟨rs, h1, h2, h3, h4⟩ := C08_strided_regions_cover_phase_partial cts hcalc n ⟨height, width, depth, 0, 0, 1, 1⟩
    hn hH hW (by simp) (by simp) (fun _ => ⟨hH, Or.inr (by simp only [Nat.mod_one]; omega)⟩)
    (fun _ => ⟨hW, Or.inr (by simp only [Nat.mod_one]; omega)⟩)
  refine ⟨rs, h1, h2, h3, fun y x c => ?_⟩
  have := h4 y x c (by simp [Params.InPhase, Nat.mod_one])
  rw [this]
  rfl

/-- 4 threads on a 7 by 3 image: they get 2, 2, 2 and 1 rows. -/
example : getImageRegionThreadSplits (fun _ _ => []) 4 ⟨7, 3, 8, 0, 0, 1, 1⟩ =
    some [⟨0, 0, 0, 2, 3, 8⟩, ⟨2, 0, 0, 2, 3, 8⟩, ⟨4, 0, 0, 2, 3, 8⟩, ⟨6, 0, 0, 1, 3, 8⟩] := by decide

theorem dimSplits_range (n d q : Nat) (h1 : n * q ≤ d) (h2 : d ≤ n * (q + 1)) :
    ∀ x ∈ dimSplits 1 n d, q ≤ x ∧ x ≤ q + 1 := by
  induction n generalizing d with
  | zero => simp [dimSplits]
  | succ k ih =>
    have e1 : (k + 1) * q = k * q + q := Nat.succ_mul _ _
    have e2 : (k + 1) * (q + 1) = k * q + k + q + 1 := by rw [Nat.succ_mul, Nat.mul_add]; omega
    have e3 : k * (q + 1) = k * q + k := by rw [Nat.mul_add, Nat.mul_one]
    have e4 : (k + 1) * (q + 1 + 1) = k * q + k + k + q + 2 := by rw [Nat.succ_mul, Nat.mul_add, Nat.mul_add]; omega
    have hlo : q ≤ (d + k) / (k + 1) := by
      rw [Nat.le_div_iff_mul_le (by omega), Nat.mul_comm]; omega
    have hhi : (d + k) / (k + 1) ≤ q + 1 := by
      rw [← Nat.lt_succ_iff, Nat.div_lt_iff_lt_mul (by omega), Nat.mul_comm]
      show d + k < (k + 1) * (q + 1 + 1)
      omega
    have hq : (d + k) / (k + 1) ≤ q → d ≤ (k + 1) * q := by
      intro h
      rw [← Nat.lt_succ_iff, Nat.div_lt_iff_lt_mul (by omega), Nat.mul_comm] at h
      have h' : d + k < (k + 1) * (q + 1) := h
      omega
    have hq2 : q + 1 ≤ (d + k) / (k + 1) → (k + 1) * q < d := by
      intro h
      rw [Nat.le_div_iff_mul_le (by omega), Nat.mul_comm] at h
      omega
    unfold dimSplits
    simp only [Nat.mul_one]
    generalize (d + k) / (k + 1) = s at *
    have hrest : ∀ x ∈ dimSplits 1 k (d - s), q ≤ x ∧ x ≤ q + 1 := by
      refine ih (d - s) ?_ ?_
      · by_cases hs : s ≤ q
        · omega
        · have := hq2 (by omega); omega
      · rw [e3]
        by_cases hs : s ≤ q
        · have := hq hs; omega
        · have := hq2 (by omega); omega
    intro x hx
    split at hx
    · rcases List.mem_cons.1 hx with h | h
      · omega
      · exact hrest x h
    · exact hrest x hx

/-- **C07, load balance.**  With unit stride, the numbers of rows (or columns) of any two threads differ by at most
one. -/
theorem C07_balanced (cts : Nat → Nat → List (Nat × Nat)) (n height width depth : Nat) (hn : 1 ≤ n)
    (h11 : ¬ (height = 1 ∧ width = 1)) (hH : 1 ≤ height) (hW : 1 ≤ width) (rs : List Region)
    (hrs : getImageRegionThreadSplits cts n ⟨height, width, depth, 0, 0, 1, 1⟩ = some rs) :
    (∀ r ∈ rs, ∀ r' ∈ rs, r.rows * r.cols ≤ r'.rows * r'.cols + max height width) ∧
    ∀ r ∈ rs, ∀ r' ∈ rs, r.rows ≤ r'.rows + 1 ∧ r.cols ≤ r'.cols + 1 := by
  have key : ∀ d, 1 ≤ d → ∃ l, splitDim n d 0 1 = some l ∧ ∀ a ∈ l, ∀ b ∈ l, a.2 ≤ b.2 + 1 := by
    intro d hd
    have hdm : n * (d / n) + d % n = d := Nat.div_add_mod _ _
    have hml := Nat.mod_lt d (by omega : 0 < n)
    have hr := dimSplits_range n d (d / n) (by omega) (by rw [Nat.mul_add]; omega)
    obtain ⟨k, rfl⟩ : ∃ k, n = k + 1 := ⟨n - 1, by omega⟩
    have hsum := dimSplits_sum 1 k d
    have hmem : ∀ (l : List Nat) top, (∀ x ∈ l, d / (k + 1) ≤ x ∧ x ≤ d / (k + 1) + 1) →
        ∀ a ∈ steps 0 top l, d / (k + 1) ≤ a.2 ∧ a.2 ≤ d / (k + 1) + 1 := by
      intro l
      induction l with
      | nil => intro top _ a ha; simp [steps] at ha
      | cons x xs ih =>
        intro top h a ha
        rcases List.mem_cons.1 ha with h1 | h1
        · subst h1; exact h x (by simp)
        · exact ih _ (fun z hz => h z (by simp [hz])) a h1
    have heq : splitDim (k + 1) d 0 1 = some (steps 0 0 (dimSplits 1 (k + 1) d)) := by
      unfold splitDim
      simp only [Nat.div_one]
      by_cases hodd : d % 2 = 1
      · generalize dimSplits 1 (k + 1) d = l at hsum
        have hne : l ≠ [] := by intro h0; subst h0; simp at hsum; omega
        obtain ⟨i, x, rfl⟩ := eq_append_last hne
        rw [List.sum_append, List.sum_singleton] at hsum
        simp only [hodd, if_true, bumpLast, List.getLast?_append, List.getLast?_singleton, Option.some_or,
          List.dropLast_concat, Option.map_some]
        rw [place_append _ _ _ _ _ (by omega), place, place, if_pos (by omega), steps_append]
        simp
      · simp only [hodd, if_false, Option.map_some]
        rw [place_even _ _ hodd]
    refine ⟨_, heq, fun a ha b hb => ?_⟩
    have := hmem _ _ hr a ha
    have := hmem _ _ hr b hb
    omega
  unfold getImageRegionThreadSplits at hrs
  rw [if_neg (by simp only; intro h; exact h11 ⟨h.1, h.2.1⟩)] at hrs
  have fin : ∀ r ∈ rs, ∀ r' ∈ rs, (r.rows ≤ r'.rows + 1 ∧ r.cols ≤ r'.cols + 1) ∧
      r.rows * r.cols ≤ r'.rows * r'.cols + max height width := by
    split at hrs
    · obtain ⟨l, hl, hb⟩ := key height hH
      rw [hl] at hrs
      simp only [Option.map_some, Option.some.injEq] at hrs
      subst hrs
      intro r hr r' hr'
      obtain ⟨a, ha, rfl⟩ := List.mem_map.1 hr
      obtain ⟨b, hb', rfl⟩ := List.mem_map.1 hr'
      have h1 := hb a ha b hb'
      refine ⟨⟨h1, Nat.le_succ _⟩, ?_⟩
      have := Nat.mul_le_mul_right width h1
      rw [Nat.add_mul, Nat.one_mul] at this
      have := Nat.le_max_right height width
      simp only; omega
    · obtain ⟨l, hl, hb⟩ := key width hW
      rw [hl] at hrs
      simp only [Option.map_some, Option.some.injEq] at hrs
      subst hrs
      intro r hr r' hr'
      obtain ⟨a, ha, rfl⟩ := List.mem_map.1 hr
      obtain ⟨b, hb', rfl⟩ := List.mem_map.1 hr'
      have h1 := hb a ha b hb'
      refine ⟨⟨Nat.le_succ _, h1⟩, ?_⟩
      have := Nat.mul_le_mul_left height h1
      rw [Nat.mul_add, Nat.mul_one] at this
      have := Nat.le_max_left height width
      simp only; omega
  exact ⟨fun r hr r' hr' => (fin r hr r' hr').2, fun r hr r' hr' => (fin r hr r' hr').1⟩

theorem dimSplits_full (n d : Nat) (h : n ≤ d) : (dimSplits 1 n d).length = n := by
  induction n generalizing d with
  | zero => simp [dimSplits]
  | succ i ih =>
    unfold dimSplits
    obtain ⟨e, rfl⟩ : ∃ e, d = i + 1 + e := ⟨d - (i + 1), by omega⟩
    have h1 : 0 < (i + 1 + e + i) / (i + 1) := Nat.div_pos (by omega) (by omega)
    have h2 : (i + 1 + e + i) / (i + 1) < 2 + e := by
      rw [Nat.div_lt_iff_lt_mul (by omega)]
      have : (2 + e) * (i + 1) = 2 * i + 2 + e * i + e := by
        rw [Nat.add_mul, Nat.mul_add, Nat.mul_add]; omega
      have := Nat.zero_le (e * i)
      omega
    simp only [if_pos h1, List.length_cons]
    rw [ih _ (by omega)]

theorem place_length (dim sub : Nat) (l : List Nat) (top : Nat) : (place dim sub top l).length = l.length := by
  induction l generalizing top with
  | nil => rfl
  | cons x xs ih => simp [place, ih]

theorem splitDim_full (n d : Nat) (h : n ≤ d) (l : List (Nat × Nat)) (hl : splitDim n d 0 1 = some l) : l.length = n := by
  unfold splitDim at hl
  simp only [Nat.div_one] at hl
  have hf := dimSplits_full n d h
  by_cases hodd : d % 2 = 1
  · rw [if_pos hodd] at hl
    unfold bumpLast at hl
    cases hg : (dimSplits 1 n d).getLast? with
    | none => rw [hg] at hl; simp at hl
    | some x =>
      rw [hg] at hl
      simp only [Option.map_some, Option.some.injEq] at hl
      subst hl
      have hne : dimSplits 1 n d ≠ [] := by intro h0; rw [h0] at hg; simp at hg
      have : 0 < (dimSplits 1 n d).length := List.length_pos_iff.2 hne
      rw [place_length]
      simp only [List.length_append, List.length_dropLast, List.length_singleton]
      omega
  · rw [if_neg hodd] at hl
    simp only [Option.map_some, Option.some.injEq] at hl
    subst hl
    rw [place_length, hf]

/-- **C07, no idle thread.**  Whenever the image has at least as many rows or at least as many columns as there are threads,
every thread gets a (non-empty, see `C07_regions_partition_image`) region. -/
theorem C07_no_idle_thread (cts : Nat → Nat → List (Nat × Nat)) (n height width depth : Nat)
    (h11 : ¬ (height = 1 ∧ width = 1)) (hH : 1 ≤ height) (hW : 1 ≤ width) (hbig : n ≤ height ∨ n ≤ width) (rs : List Region)
    (hrs : getImageRegionThreadSplits cts n ⟨height, width, depth, 0, 0, 1, 1⟩ = some rs) : rs.length = n := by
  unfold getImageRegionThreadSplits at hrs
  rw [if_neg (by simp only; intro h; exact h11 ⟨h.1, h.2.1⟩)] at hrs
  have hdvd : ∀ d, 1 ≤ d → d % n = 0 → n ≤ d := fun d hd h => Nat.le_of_dvd hd (Nat.dvd_of_mod_eq_zero h)
  cases hc : heightChosen n ⟨height, width, depth, 0, 0, 1, 1⟩ with
  | true =>
    rw [hc, if_pos rfl] at hrs
    have hle : n ≤ height := by
      unfold heightChosen at hc
      simp only [Nat.div_one] at hc
      split at hc
      · exact hdvd _ hH (by assumption)
      · split at hc
        · simp at hc
        · simp at hc; omega
    cases hs : splitDim n height 0 1 with
    | none => rw [hs] at hrs; simp at hrs
    | some l =>
      rw [hs] at hrs
      simp only [Option.map_some, Option.some.injEq] at hrs
      subst hrs
      rw [List.length_map, splitDim_full n height hle l hs]
  | false =>
    rw [hc, if_neg (by simp)] at hrs
    have hle : n ≤ width := by
      unfold heightChosen at hc
      simp only [Nat.div_one] at hc
      split at hc
      · simp at hc
      · split at hc
        · exact hdvd _ hW (by assumption)
        · simp at hc; omega
    cases hs : splitDim n width 0 1 with
    | none => rw [hs] at hrs; simp at hrs
    | some l =>
      rw [hs] at hrs
      simp only [Option.map_some, Option.some.injEq] at hrs
      subst hrs
      rw [List.length_map, splitDim_full n width hle l hs]

/-- 5 threads on a 3 by 7 image: the larger dimension is split, all 5 threads get columns. -/
example : (getImageRegionThreadSplits (fun _ _ => []) 5 ⟨3, 7, 8, 0, 0, 1, 1⟩).map List.length = some 5 := by decide

/-- **C08 refuted in general, rows lost.**  Stride 3, even height 8 (input height 2, kernel height 5): the only thread
covers rows 0..5, so output row 6, which belongs to phase 0, is never computed. -/
theorem C08_even_height_row_lost :
    ∃ rs, getImageRegionThreadSplits (fun _ _ => []) 1 ⟨8, 8, 4, 0, 0, 3, 3⟩ = some rs ∧
      Params.InPhase ⟨8, 8, 4, 0, 0, 3, 3⟩ 6 0 ∧ Params.Inside ⟨8, 8, 4, 0, 0, 3, 3⟩ 6 0 0 ∧ coverage rs 6 0 0 = 0 :=
  ⟨[⟨0, 0, 0, 6, 8, 4⟩], by decide⟩

/-- In general: whenever the split dimension is even, not smaller than the stride, and the phase lies below
`height % stride`, the last row of the phase is computed by no thread — the hypothesis of C08 is exact. -/
theorem C08_condition_is_necessary (cts : Nat → Nat → List (Nat × Nat))
    (n : Nat) (p : Params) (hn : 1 ≤ n) (hsh : p.subH < p.strideH)
    (hc : heightChosen n p = true) (hst : p.strideH ≤ p.height) (heven : p.height % 2 = 0)
    (hbad : p.subH < p.height % p.strideH) :
    ∃ rs y, getImageRegionThreadSplits cts n p = some rs ∧ y < p.height ∧ y % p.strideH = p.subH ∧
      ∀ x c, coverage rs y x c = 0 := by
  have hs : 0 < p.strideH := by omega
  have hdm : p.height / p.strideH * p.strideH + p.height % p.strideH = p.height := by
    rw [Nat.mul_comm]; exact Nat.div_add_mod _ _
  unfold getImageRegionThreadSplits
  have hns : ¬ (p.height = 1 ∧ p.width = 1 ∧ p.subH = 0 ∧ p.subW = 0 ∧ p.strideH = 1 ∧ p.strideW = 1) := by
    intro h; omega
  rw [if_neg hns, if_pos hc]
  obtain ⟨m, hm, hlen, hpos, hsum⟩ := splitDim_spec n p.height p.subH p.strideH hn hs hsh hst
  refine ⟨_, p.height / p.strideH * p.strideH + p.subH, by rw [hm]; rfl, by omega, ?_, ?_⟩
  · rw [Nat.mul_add_mod_of_lt hsh]
  · intro x c
    rw [coverage_rows, cover1_steps, hsum, if_neg (by omega : ¬ (p.height % 2 = 1 ∧ _))]
    split
    · rw [if_neg (by omega)]
    · rfl

example : heightChosen 1 ⟨8, 8, 4, 0, 0, 3, 3⟩ = true ∧ (3 ≤ 8) ∧ 8 % 2 = 0 ∧ 0 < 8 % 3 := by decide

/-- **C08 refuted, image smaller than the stride.**  Odd height 1 with stride 2 (input height 1, kernel height 1): the
vector of splits is empty and its last element is incremented — undefined behaviour. -/
theorem C08_small_image_undefined :
    getImageRegionThreadSplits (fun _ _ => []) 1 ⟨1, 4, 4, 0, 0, 2, 2⟩ = none := by decide

/-- No split at all when the dimension is smaller than the stride. -/
theorem dimSplits_zero (s n : Nat) : dimSplits s n 0 = [] := by
  induction n with
  | zero => rfl
  | succ i ih =>
    unfold dimSplits
    have h : (0 + i) / (i + 1) = 0 := Nat.div_eq_of_lt (by omega)
    simp only [h, Nat.lt_irrefl, gt_iff_lt, if_false]
    exact ih

/-- Whatever the chosen dimension, when the condition fails `splitDim` is undefined or misses an element of the phase. -/
theorem splitDim_misses (n dim sub stride : Nat) (hn : 1 ≤ n) (hsub : sub < stride) (hin : sub < dim)
    (hbad : ¬ (stride ≤ dim ∧ (dim % 2 = 1 ∨ dim % stride ≤ sub))) (l : List (Nat × Nat)) (hl : splitDim n dim sub stride = some l) :
    ∃ y, y < dim ∧ y % stride = sub ∧ cover1 l y = 0 := by
  have hs : 0 < stride := by omega
  by_cases hst : stride ≤ dim
  · obtain ⟨m, hm, -, -, hsum⟩ := splitDim_spec n dim sub stride hn hs hsub hst
    have hdm : dim / stride * stride + dim % stride = dim := by
      rw [Nat.mul_comm]; exact Nat.div_add_mod _ _
    have hb : ¬ (dim % 2 = 1) ∧ sub < dim % stride := by
      constructor
      · intro h; exact hbad ⟨hst, Or.inl h⟩
      · refine Nat.lt_of_not_le fun h => hbad ⟨hst, Or.inr h⟩
    rw [hm] at hl
    obtain rfl := Option.some.inj hl
    refine ⟨dim / stride * stride + sub, by omega, Nat.mul_add_mod_of_lt hsub, ?_⟩
    rw [if_neg (fun h => hb.1 h.1)] at hsum
    rw [cover1_steps, hsum, if_neg (by omega)]
  · refine ⟨sub, hin, Nat.mod_eq_of_lt hsub, ?_⟩
    have h0 : dim / stride = 0 := Nat.div_eq_of_lt (by omega)
    unfold splitDim at hl
    simp only [h0, dimSplits_zero, bumpLast, List.getLast?_nil] at hl
    split at hl
    · simp at hl
    · simp only [Option.map_some, place, Option.some.injEq] at hl
      subst hl; rfl

/-- **C08, the exact condition.**  For a phase that has pixels, the threads together compute exactly the pixels of the phase, each once, if
and only if the dimension that is split is at least the stride and is odd or leaves a remainder not above the phase. -/
theorem C08_exactly (cts : Nat → Nat → List (Nat × Nat)) (hcalc : CalcContract cts)
    (n : Nat) (p : Params) (hn : 1 ≤ n) (hH : p.subH < p.height) (hW : p.subW < p.width) (hD : 1 ≤ p.depth)
    (hsh : p.subH < p.strideH) (hsw : p.subW < p.strideW) :
    (∃ rs, getImageRegionThreadSplits cts n p = some rs ∧
      ∀ y x c, p.InPhase y x → coverage rs y x c = if p.Inside y x c then 1 else 0) ↔
    (if heightChosen n p then p.strideH ≤ p.height ∧ (p.height % 2 = 1 ∨ p.height % p.strideH ≤ p.subH)
      else p.strideW ≤ p.width ∧ (p.width % 2 = 1 ∨ p.width % p.strideW ≤ p.subW)) := by
  constructor
  · rintro ⟨rs, hrs, hcov⟩
    by_cases hns : p.height = 1 ∧ p.width = 1 ∧ p.subH = 0 ∧ p.subW = 0 ∧ p.strideH = 1 ∧ p.strideW = 1
    · obtain ⟨a, b, -, -, c, d⟩ := hns
      rw [a, b, c, d]; simp
    unfold getImageRegionThreadSplits at hrs
    rw [if_neg hns] at hrs
    by_cases hc : heightChosen n p = true
    · rw [if_pos hc] at hrs ⊢
      refine Classical.byContradiction fun hbad => ?_
      obtain ⟨l, hl, rfl⟩ := Option.map_eq_some_iff.1 hrs
      obtain ⟨y, hy, hym, hy0⟩ := splitDim_misses n _ _ _ hn hsh hH hbad l hl
      have h := hcov y p.subW 0 ⟨by rw [hym, Nat.mod_eq_of_lt hsh], rfl⟩
      rw [if_pos ⟨hy, hW, hD⟩, coverage_rows, hy0] at h
      simp at h
    · rw [if_neg hc] at hrs ⊢
      refine Classical.byContradiction fun hbad => ?_
      obtain ⟨l, hl, rfl⟩ := Option.map_eq_some_iff.1 hrs
      obtain ⟨x, hx, hxm, hx0⟩ := splitDim_misses n _ _ _ hn hsw hW hbad l hl
      have h := hcov p.subH x 0 ⟨rfl, by rw [hxm, Nat.mod_eq_of_lt hsw]⟩
      rw [if_pos ⟨hH, hx, hD⟩, coverage_cols, hx0] at h
      simp at h
  · intro h
    obtain ⟨rs, h1, -, -, h2⟩ := C08_strided_regions_cover_phase_partial cts hcalc n p hn (by omega) (by omega) hsh hsw
      (fun hc => by rw [hc] at h; exact h) (fun hc => by rw [hc] at h; exact h)
    exact ⟨rs, h1, h2⟩

/-- A 9 by 8 image at stride 2: the height is split, the condition holds for phase 1; at height 8 and stride 3 it fails for phase 0. -/
example : (if heightChosen 2 ⟨9, 8, 4, 1, 0, 2, 2⟩ then 2 ≤ 9 ∧ (9 % 2 = 1 ∨ 9 % 2 ≤ 1) else False) ∧
    ¬ (3 ≤ 8 ∧ (8 % 2 = 1 ∨ 8 % 3 ≤ 0)) := by decide

end Verif.Threads
