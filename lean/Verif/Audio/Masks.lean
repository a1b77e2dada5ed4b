import Verif.Audio.Mel
/-!
C89: spreading the masks over the spectrum and applying them.
-/
namespace Verif.Audio

/-- Element `i` of the expanded masks. -/
def expandAt (runs : List Nat) (mel fs : List Int) (i : Nat) : Int :=
  blend (mel.getD (owner runs i) 0) (mel.getD (owner runs i + 1) 0) (fs.getD i 0)

theorem expandFold {runs : List Nat} (tail : List Int) (pos : ∀ r ∈ runs, 1 ≤ r) (mel fs : List Int) :
    fs.length ≤ runs.sum → (∀ i, i < fs.length → owner runs i + 1 < mel.length) →
    ∃ next run, fs.foldlM (expandStep (runs.map (fun r : Nat => (r : Int)) ++ tail) mel) (0, 0, []) =
        some (next, run, ((List.range fs.length).map (expandAt runs mel fs)).reverse) ∧
      run = (runs.take next).sum - fs.length ∧ fs.length ≤ (runs.take next).sum ∧ (next = 0 ∨ (runs.take (next - 1)).sum < fs.length) := by
  induction fs using List.reverseRecOn with
  | nil => intro _ _; exact ⟨0, 0, by simp, by simp, by simp, .inl rfl⟩
  | append_singleton fs f ih =>
    intro hl ho
    simp only [List.length_append, List.length_singleton] at hl ho
    obtain ⟨next, run, e, hr, hp, hv⟩ := ih (by omega) (fun i h => ho i (by omega))
    have hok := ho fs.length (by omega)
    have eo : ∀ i, i < fs.length → expandAt runs mel (fs ++ [f]) i = expandAt runs mel fs i := by
      intro i hi
      simp [expandAt, List.getD_eq_getElem?_getD, List.getElem?_append_left hi]
    have el : expandAt runs mel (fs ++ [f]) fs.length = blend (mel.getD (owner runs fs.length) 0) (mel.getD (owner runs fs.length + 1) 0) f := by
      simp [expandAt]
    have er : ((List.range (fs ++ [f]).length).map (expandAt runs mel (fs ++ [f]))).reverse =
        blend (mel.getD (owner runs fs.length) 0) (mel.getD (owner runs fs.length + 1) 0) f :: ((List.range fs.length).map (expandAt runs mel fs)).reverse := by
      rw [List.length_append, List.length_singleton, List.range_succ, List.map_append, List.reverse_append, List.map_cons, List.map_nil, el,
        List.map_congr_left (fun i hi => eo i (List.mem_range.1 hi))]
      rfl
    rw [er, List.foldlM_append, e]
    have hm0 : mel[owner runs fs.length]? = some (mel.getD (owner runs fs.length) 0) := by
      rw [List.getD_eq_getElem?_getD, List.getElem?_eq_getElem (by omega)]; rfl
    have hm1 : mel[owner runs fs.length + 1]? = some (mel.getD (owner runs fs.length + 1) 0) := by
      rw [List.getD_eq_getElem?_getD, List.getElem?_eq_getElem (by omega)]; rfl
    generalize mel.getD (owner runs fs.length) 0 = A at *
    generalize mel.getD (owner runs fs.length + 1) 0 = B at *
    generalize ((List.range fs.length).map (expandAt runs mel fs)).reverse = done at *
    by_cases c : run ≤ 0
    · have eq : (runs.take next).sum = fs.length := by omega
      have hn : next < runs.length := by
        by_contra hc
        rw [List.take_of_length_le (by omega)] at eq
        omega
      have ts := take_succ_sum hn
      have p1 := pos _ (List.getElem_mem hn)
      have ow : owner runs fs.length = next := owner_of (by omega) (by omega)
      have hg : (runs.map (fun r : Nat => (r : Int)) ++ tail)[next]? = some (runs[next] : Int) := by
        rw [List.getElem?_append_left (by simpa using hn)]
        simp [hn]
      refine ⟨next + 1, (runs[next] : Int) - 1, ?_, ?_, ?_, .inr ?_⟩
      · rw [ow] at hm0 hm1
        simp [expandStep, c, hg, hm0, hm1]
      · simp only [List.length_append, List.length_singleton]; push_cast; omega
      · simp only [List.length_append, List.length_singleton]; omega
      · simp only [List.length_append, List.length_singleton, Nat.add_sub_cancel]; omega
    · have n0 : next ≠ 0 := by
        rintro rfl
        simp at hr
        omega
      have pv : (runs.take (next - 1)).sum < fs.length := by rcases hv with q | q; exact absurd q n0; exact q
      have ow : owner runs fs.length = next - 1 := by
        apply owner_of (by omega)
        rw [Nat.sub_add_cancel (by omega)]
        omega
      have n1 : next - 1 + 1 = next := by omega
      refine ⟨next, run - 1, ?_, ?_, ?_, .inr ?_⟩
      · rw [ow, n1] at hm1
        rw [ow] at hm0
        simp [expandStep, c, hm0, hm1]
      · simp only [List.length_append, List.length_singleton]; push_cast; omega
      · simp only [List.length_append, List.length_singleton]; omega
      · simp only [List.length_append, List.length_singleton]; omega

theorem expand_eq {runs : List Nat} (tail : List Int) (pos : ∀ r ∈ runs, 1 ≤ r) (mel fs : List Int) (hl : fs.length ≤ runs.sum)
    (ho : ∀ i, i < fs.length → owner runs i + 1 < mel.length) :
    mel_expand (runs.map (fun r : Nat => (r : Int)) ++ tail) mel fs = some ((List.range fs.length).map (expandAt runs mel fs)) := by
  obtain ⟨next, run, e, -⟩ := expandFold tail pos mel fs hl ho
  unfold mel_expand
  rw [e]
  simp

/-- The word is a 32-bit `int`. -/
def Int32 (v : Int) : Prop := -2 ^ 31 ≤ v ∧ v < 2 ^ 31

theorem blend_between (a b f : Int) (ha : Int32 a) (hb : Int32 b) (h0 : 0 ≤ f) (h1 : f ≤ 2 ^ 30) : min a b ≤ blend a b f ∧ blend a b f ≤ max a b := by
  have lo : min a b ≤ (a * f + b * (2 ^ 30 - f)) / 2 ^ 30 := by
    rw [Int.le_ediv_iff_mul_le (by norm_num)]
    have := mul_le_mul_of_nonneg_right (min_le_left a b) h0
    have := mul_le_mul_of_nonneg_right (min_le_right a b) (by omega : 0 ≤ 2 ^ 30 - f)
    nlinarith
  have hi : (a * f + b * (2 ^ 30 - f)) / 2 ^ 30 ≤ max a b := by
    apply Int.ediv_le_of_le_mul (by norm_num)
    have := mul_le_mul_of_nonneg_right (le_max_left a b) h0
    have := mul_le_mul_of_nonneg_right (le_max_right a b) (by omega : 0 ≤ 2 ^ 30 - f)
    nlinarith
  obtain ⟨a1, a2⟩ := ha
  obtain ⟨b1, b2⟩ := hb
  have l2 : -2 ^ 31 ≤ min a b := le_min a1 b1
  have h2 : max a b < 2 ^ 31 := max_lt a2 b2
  unfold blend
  rw [wrap32_id (by omega) (by omega)]
  exact ⟨lo, hi⟩

/-- **C89, expansion.** Every expanded mask lies between the two mel masks it is made from: the one of the row that owns the
column and the next one; nothing outside the arrays is read. -/
theorem C89_between (runs : List Nat) (tail : List Int) (mel fs : List Int) (pos : ∀ r ∈ runs, 1 ≤ r) (hl : fs.length ≤ runs.sum)
    (ho : ∀ i, i < fs.length → owner runs i + 1 < mel.length) (hf : ∀ f ∈ fs, 0 ≤ f ∧ f ≤ 2 ^ 30) (hm : ∀ m ∈ mel, Int32 m) :
    ∃ out, mel_expand (runs.map (fun r : Nat => (r : Int)) ++ tail) mel fs = some out ∧ out.length = fs.length ∧
      ∀ i v, out[i]? = some v → ∃ a b, mel[owner runs i]? = some a ∧ mel[owner runs i + 1]? = some b ∧ min a b ≤ v ∧ v ≤ max a b := by
  refine ⟨_, expand_eq tail pos mel fs hl ho, by simp, ?_⟩
  intro i v hv
  obtain ⟨hi, hv⟩ := List.getElem?_eq_some_iff.1 hv
  simp only [List.length_map, List.length_range] at hi
  simp only [List.getElem_map, List.getElem_range] at hv
  have o := ho i hi
  refine ⟨mel[owner runs i]'(by omega), mel[owner runs i + 1]'o, List.getElem?_eq_getElem _, List.getElem?_eq_getElem _, ?_⟩
  have := blend_between (mel[owner runs i]'(by omega)) (mel[owner runs i + 1]'o) fs[i] (hm _ (List.getElem_mem _)) (hm _ (List.getElem_mem _))
    (hf _ (List.getElem_mem hi)).1 (hf _ (List.getElem_mem hi)).2
  have e : expandAt runs mel fs i = blend (mel[owner runs i]'(by omega)) (mel[owner runs i + 1]'o) fs[i] := by
    simp [expandAt, List.getD_eq_getElem?_getD, List.getElem?_eq_getElem (show owner runs i < mel.length by omega), List.getElem?_eq_getElem o,
      List.getElem?_eq_getElem hi]
  rw [← e, hv] at this
  exact this

/-- **C89, equal masks.** If all mel masks are the same number so are all masks of the spectrum, whatever the fractions are. -/
theorem C89_constant (runs : List Nat) (tail : List Int) (mel fs : List Int) (c : Int) (pos : ∀ r ∈ runs, 1 ≤ r) (hl : fs.length ≤ runs.sum)
    (ho : ∀ i, i < fs.length → owner runs i + 1 < mel.length) (hc : Int32 c) (hm : ∀ m ∈ mel, m = c) :
    mel_expand (runs.map (fun r : Nat => (r : Int)) ++ tail) mel fs = some (List.replicate fs.length c) := by
  rw [expand_eq tail pos mel fs hl ho]
  congr 1
  rw [List.eq_replicate_iff]
  refine ⟨by simp, ?_⟩
  intro v hv
  obtain ⟨i, hi, rfl⟩ := List.mem_map.1 hv
  have hi := List.mem_range.1 hi
  have o := ho i hi
  have e0 : mel.getD (owner runs i) 0 = c := by
    rw [List.getD_eq_getElem?_getD, List.getElem?_eq_getElem (by omega)]
    exact hm _ (List.getElem_mem _)
  have e1 : mel.getD (owner runs i + 1) 0 = c := by
    rw [List.getD_eq_getElem?_getD, List.getElem?_eq_getElem (by omega)]
    exact hm _ (List.getElem_mem _)
  unfold expandAt blend
  rw [e0, e1, show ∀ f : Int, c * f + c * (2 ^ 30 - f) = c * 2 ^ 30 by intro f; ring, Int.mul_ediv_cancel _ (by norm_num)]
  exact wrap32_id hc.1 hc.2

theorem maskMul_one (v : Int) (h : Int32 v) : maskMul v (2 ^ 30) = v := by
  unfold maskMul
  rw [Int.mul_ediv_cancel _ (by norm_num)]
  exact wrap32_id h.1 h.2

theorem maskMul_le (v m : Int) (h : Int32 v) (h0 : 0 ≤ m) (h1 : m ≤ 2 ^ 30) : |maskMul v m| ≤ |v| := by
  obtain ⟨a, -⟩ := part_le v m h0 h1
  have hv : -2 ^ 31 ≤ v * m / 2 ^ 30 ∧ v * m / 2 ^ 30 < 2 ^ 31 := by
    obtain ⟨l, u⟩ := h
    constructor
    · rw [Int.le_ediv_iff_mul_le (by norm_num)]; nlinarith
    · rw [Int.ediv_lt_iff_lt_mul (by norm_num)]; nlinarith
  unfold maskMul
  rw [wrap32_id hv.1 hv.2]
  exact a

theorem mapM_some {α β : Type} (f : α → Option β) (g : α → β) (l : List α) (h : ∀ a ∈ l, f a = some (g a)) : l.mapM f = some (l.map g) := by
  induction l with
  | nil => rfl
  | cons a l ih =>
    rw [List.mapM_cons, h a (by simp), ih (fun b hb => h b (by simp [hb]))]
    rfl

/-- What `dsp_apply_masks` returns when the masks are known. -/
theorem apply_eq (runs fs mel masks : List Int) (fft : List (Int × Int)) (he : mel_expand runs mel fs = some masks)
    (hl : fft.length + 1 ≤ masks.length) :
    dsp_apply_masks runs fs mel true fft = some (fft.zipIdx.map fun p =>
      (maskMul p.1.1 (masks.getD p.2 0), maskMul p.1.2 (masks.getD (if p.2 = 0 then fft.length else p.2) 0))) := by
  unfold dsp_apply_masks
  rw [he]
  simp only [Option.bind_eq_bind, Option.bind_some, if_true]
  apply mapM_some
  rintro ⟨z, i⟩ hz
  have hi : i < fft.length := by have := List.mem_zipIdx hz; simpa using this.2.1
  have e1 : masks[i]? = some (masks.getD i 0) := by
    rw [List.getD_eq_getElem?_getD, List.getElem?_eq_getElem (by omega)]; rfl
  have e2 : masks[fft.length]? = some (masks.getD fft.length 0) := by
    rw [List.getD_eq_getElem?_getD, List.getElem?_eq_getElem (by omega)]; rfl
  simp only [e1, Option.bind_some]
  by_cases c : i = 0
  · simp only [if_pos c, e2, Option.bind_some]
  · simp only [if_neg c]

/-- The tables suit a spectrum of `n` pairs: one mask more than pairs, and no column starts in the last row. -/
structure MaskOK (runs : List Nat) (fs mel : List Int) (n : Nat) : Prop where
  pos : ∀ r ∈ runs, 1 ≤ r
  enough : fs.length ≤ runs.sum
  rows : ∀ i, i < fs.length → owner runs i + 1 < mel.length
  frac : ∀ f ∈ fs, 0 ≤ f ∧ f ≤ 2 ^ 30
  len : fs.length = n + 1

/-- **C89, unit masks.** If every mask is one the spectrum comes back bit for bit, whether masking is enabled or not. -/
theorem C89_unit (runs : List Nat) (tail fs mel : List Int) (fft : List (Int × Int)) (enabled : Bool) (h : MaskOK runs fs mel fft.length)
    (hm : ∀ m ∈ mel, m = 2 ^ 30) (hz : ∀ z ∈ fft, Int32 z.1 ∧ Int32 z.2) :
    dsp_apply_masks (runs.map (fun r : Nat => (r : Int)) ++ tail) fs mel enabled fft = some fft := by
  have he := C89_constant runs tail mel fs (2 ^ 30) h.pos h.enough h.rows (by constructor <;> norm_num) hm
  cases enabled with
  | false => unfold dsp_apply_masks; rw [he]; rfl
  | true =>
    rw [apply_eq _ _ _ _ _ he (by simp [h.len])]
    congr 1
    have : ∀ p ∈ fft.zipIdx, (maskMul p.1.1 ((List.replicate fs.length (2 ^ 30 : Int)).getD p.2 0),
        maskMul p.1.2 ((List.replicate fs.length (2 ^ 30 : Int)).getD (if p.2 = 0 then fft.length else p.2) 0)) = p.1 := by
      rintro ⟨z, i⟩ hp
      have hi : i < fft.length := by have := List.mem_zipIdx hp; simpa using this.2.1
      have hmem : z ∈ fft := by have := List.mem_zipIdx hp; simp only [this.2.2]; exact List.getElem_mem _
      have hl := h.len
      have g : ∀ j, j < fft.length + 1 → (List.replicate fs.length (2 ^ 30 : Int)).getD j 0 = 2 ^ 30 := by
        intro j hj
        rw [List.getD_eq_getElem?_getD, List.getElem?_replicate, if_pos (by omega)]; rfl
      simp only
      rw [g i (by omega), g _ (by split <;> omega), maskMul_one _ (hz z hmem).1, maskMul_one _ (hz z hmem).2]
    rw [List.map_congr_left this]
    simp

/-- **C89, no gain.** If every mask is between zero and one no component of the spectrum grows. -/
theorem C89_no_gain (runs : List Nat) (tail fs mel : List Int) (fft : List (Int × Int)) (h : MaskOK runs fs mel fft.length)
    (hm : ∀ m ∈ mel, 0 ≤ m ∧ m ≤ 2 ^ 30) (hz : ∀ z ∈ fft, Int32 z.1 ∧ Int32 z.2) :
    ∃ out, dsp_apply_masks (runs.map (fun r : Nat => (r : Int)) ++ tail) fs mel true fft = some out ∧ out.length = fft.length ∧
      ∀ (i : Nat) (z w : Int × Int), fft[i]? = some z → out[i]? = some w → |w.1| ≤ |z.1| ∧ |w.2| ≤ |z.2| := by
  obtain ⟨masks, he, hlen, hb⟩ := C89_between runs tail mel fs h.pos h.enough h.rows h.frac
    (fun m hm' => by have := hm m hm'; constructor <;> omega)
  refine ⟨_, apply_eq _ _ _ _ _ he (by rw [hlen, h.len]), by simp, ?_⟩
  have g : ∀ j, 0 ≤ masks.getD j 0 ∧ masks.getD j 0 ≤ 2 ^ 30 := by
    intro j
    rw [List.getD_eq_getElem?_getD]
    cases hj : masks[j]? with
    | none => simp
    | some v =>
      obtain ⟨a, b, ha, hb', l, u⟩ := hb j v hj
      have := hm a (List.mem_of_getElem? ha)
      have := hm b (List.mem_of_getElem? hb')
      simp only [Option.getD_some]
      rw [min_le_iff] at l
      rw [le_max_iff] at u
      omega
  intro i z w h1 h2
  rw [List.getElem?_map, List.getElem?_zipIdx, h1] at h2
  simp only [Option.map_some, Nat.zero_add, Option.some.injEq] at h2
  subst h2
  have hmem := List.mem_of_getElem? h1
  exact ⟨maskMul_le _ _ (hz z hmem).1 (g _).1 (g _).2, maskMul_le _ _ (hz z hmem).2 (g _).1 (g _).2⟩

/-- The tables in use suit the spectrum of 256 pairs and 64 masks. -/
theorem C89_shipped (mel : List Int) (h : mel.length = 64) : MaskOK usedRuns shippedFractions mel 256 :=
  ⟨by decide +kernel, by decide +kernel, by rw [h, shipped_frac.1]; exact usedRuns_owner, shipped_frac.2, by rw [shipped_frac.1]⟩

/-- A mask of one half between masks of one and zero. -/
theorem C89_example : mel_expand [2, 1] [2 ^ 30, 0, 5] [2 ^ 30, 2 ^ 29, 2 ^ 30] = some [2 ^ 30, 2 ^ 29, 0] ∧ maskMul (-7) (2 ^ 29) = -4 := by decide +kernel

end Verif.Audio
