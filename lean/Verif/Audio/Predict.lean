import Verif.Audio.Masks
import Mathlib.Tactic.FinCases
/-!
C92: from the network's outputs to masks (examples/audio_network/src/support.cpp 17-147).
-/
namespace Verif.Audio

/-- support.cpp 31-48. -/
def typicalRow : List Int := [
    0, 1, 2, 3, 4, 5, 6, 7, 8, 9, 10, 11, 12, 13, 14, 15,
    17, 18, 19, 20, 21, 22, 23, 24, 25, 26, 27, 28, 30, 31, 32, 33,
    34, 35, 36, 38, 39, 40, 41, 42, 43, 44, 46, 47, 48, 49, 50, 52,
    53, 54, 55, 56, 58, 59, 60, 61, 63, 64, 65, 66, 68, 69, 70, 71,
    73, 74, 75, 77, 78, 79, 81, 82, 83, 84, 86, 87, 88, 90, 91, 93,
    94, 95, 97, 98, 99, 101, 102, 104, 105, 106, 108, 109, 111, 112, 114, 115,
    116, 118, 119, 121, 122, 124, 125, 127, 128, 130, 131, 133, 134, 136, 137, 139,
    141, 142, 144, 145, 147, 148, 150, 151, 153, 155, 156, 158, 160, 161, 163, 164,
    166, 168, 169, 171, 173, 174, 176, 178, 179, 181, 183, 185, 186, 188, 190, 192,
    193, 195, 197, 199, 200, 202, 204, 206, 208, 209, 211, 213, 215, 217, 219, 220,
    222, 224, 226, 228, 230, 232, 234, 236, 237, 239, 241, 243, 245, 247, 249, 251,
    253, 255, 257, 259, 261, 263, 265, 267, 269, 271, 273, 275, 278, 280, 282, 284,
    286, 288, 290, 292, 294, 297, 299, 301, 303, 305, 308, 310, 312, 314, 316, 319,
    321, 323, 325, 328, 330, 332, 335, 337, 339, 342, 344, 346, 349, 351, 353, 356,
    358, 361, 363, 365, 368, 370, 373, 375, 378, 380, 383, 385, 388, 390, 393, 395,
    398, 400, 403, 405, 408, 411, 413, 416, 418, 421, 424, 426, 429, 432, 434, 437]

/-- support.cpp 50-67. -/
def harshRow : List Int := [
    0, 0, 0, 0, 0, 0, 0, 0, 0, 0, 0, 0, 1, 1, 1, 1,
    1, 1, 1, 2, 2, 2, 2, 2, 2, 3, 3, 3, 3, 4, 4, 4,
    5, 5, 5, 5, 6, 6, 7, 7, 7, 8, 8, 9, 9, 9, 10, 10,
    11, 11, 12, 12, 13, 14, 14, 15, 15, 16, 17, 17, 18, 19, 19, 20,
    21, 21, 22, 23, 24, 24, 25, 26, 27, 28, 29, 30, 31, 32, 32, 33,
    34, 35, 36, 38, 39, 40, 41, 42, 43, 44, 45, 47, 48, 49, 50, 52,
    53, 54, 56, 57, 58, 60, 61, 63, 64, 66, 67, 69, 71, 72, 74, 75,
    77, 79, 81, 82, 84, 86, 88, 90, 92, 93, 95, 97, 99, 101, 104, 106,
    108, 110, 112, 114, 117, 119, 121, 123, 126, 128, 131, 133, 136, 138, 141, 143,
    146, 149, 151, 154, 157, 160, 162, 165, 168, 171, 174, 177, 180, 183, 187, 190,
    193, 196, 200, 203, 206, 210, 213, 217, 220, 224, 227, 231, 235, 239, 242, 246,
    250, 254, 258, 262, 266, 271, 275, 279, 283, 288, 292, 296, 301, 305, 310, 315,
    319, 324, 329, 334, 339, 344, 349, 354, 359, 364, 369, 375, 380, 386, 391, 397,
    402, 408, 414, 419, 425, 431, 437, 443, 449, 456, 462, 468, 475, 481, 488, 494,
    501, 508, 515, 521, 528, 535, 543, 550, 557, 564, 572, 579, 587, 594, 602, 610,
    618, 626, 634, 642, 650, 659, 667, 675, 684, 693, 701, 710, 719, 728, 737, 747]

/-- support.cpp 68-85: 256 everywhere. -/
def passthroughRow : List Int := List.replicate 256 256

/-- support.cpp 86-103. -/
def mediumRow : List Int := [
    0, 0, 0, 0, 1, 1, 1, 1, 1, 2, 2, 2, 3, 3, 3, 4,
    4, 5, 5, 5, 6, 6, 7, 7, 8, 8, 9, 9, 10, 11, 11, 12,
    12, 13, 14, 14, 15, 16, 16, 17, 18, 19, 19, 20, 21, 22, 22, 23,
    24, 25, 26, 26, 27, 28, 29, 30, 31, 32, 33, 34, 35, 36, 37, 38,
    39, 40, 41, 42, 43, 44, 45, 46, 47, 49, 50, 51, 52, 53, 54, 56,
    57, 58, 59, 61, 62, 63, 65, 66, 67, 69, 70, 71, 73, 74, 76, 77,
    79, 80, 82, 83, 85, 86, 88, 89, 91, 92, 94, 96, 97, 99, 101, 102,
    104, 106, 108, 109, 111, 113, 115, 117, 118, 120, 122, 124, 126, 128, 130, 132,
    134, 136, 138, 140, 142, 144, 146, 148, 150, 152, 155, 157, 159, 161, 163, 166,
    168, 170, 173, 175, 177, 180, 182, 184, 187, 189, 192, 194, 197, 199, 202, 205,
    207, 210, 212, 215, 218, 220, 223, 226, 229, 231, 234, 237, 240, 243, 246, 249,
    252, 255, 258, 261, 264, 267, 270, 273, 276, 279, 283, 286, 289, 292, 296, 299,
    302, 306, 309, 312, 316, 319, 323, 326, 330, 333, 337, 341, 344, 348, 352, 356,
    359, 363, 367, 371, 375, 379, 383, 386, 390, 395, 399, 403, 407, 411, 415, 419,
    424, 428, 432, 436, 441, 445, 450, 454, 459, 463, 468, 472, 477, 482, 486, 491,
    496, 501, 505, 510, 515, 520, 525, 530, 535, 540, 545, 550, 556, 561, 566, 571]

/-- support.cpp 30-104. -/
def outputLookup : List (List Int) := [typicalRow, harshRow, passthroughRow, mediumRow]

/-- support.cpp 19-28. -/
def buttonLookup : List Nat := [0, 0, 0, 1, 0, 3, 2, 0]

/-- The conversion of a `double` to an `int`: towards zero. -/
def toInt (q : ℚ) : Int := if 0 ≤ q then ⌊q⌋ else -⌊-q⌋

/-- An array access with a signed index: `none` outside. -/
def arr {α : Type} (l : List α) (i : Int) : Option α := if 0 ≤ i then l[i.toNat]? else none

/-- support.cpp 143-147: the mask of one output.  The product of a `float` and 255.0 is exact in `double`, so it is a rational
product here.  The shift drops what does not fit in 32 bits. -/
def maskOf (button : Nat) (o : ℚ) : Option Int := do
  let table ← buttonLookup[button % 8]?
  let row ← outputLookup[table]?
  let v ← arr row (toInt (o * 255))
  some (wrap32 (v * 2 ^ 22))

/-- support.cpp 124-175: one call of nn_predict_masks.  `net` is the model: from inputs and state to the new state and outputs. -/
def nn_predict_masks (net : List ℚ → List ℚ → List ℚ × List ℚ) (state : List ℚ) (button : Nat) (mels : List ℚ) : Option (List Int × List ℚ) := do
  let r := net mels state
  let masks ← r.2.mapM (maskOf button)
  some (masks, r.1)

theorem toInt_range (q : ℚ) : (0 ≤ toInt q ∧ toInt q < 256) ↔ (-1 < q ∧ q < 256) := by
  unfold toInt
  by_cases c : 0 ≤ q
  · rw [if_pos c]
    have : (⌊q⌋ < 256) ↔ q < 256 := by rw [Int.floor_lt]; norm_num
    rw [this]
    have h0 : 0 ≤ ⌊q⌋ := Int.floor_nonneg.2 c
    constructor
    · rintro ⟨-, h⟩; exact ⟨by linarith, h⟩
    · rintro ⟨-, h⟩; exact ⟨h0, h⟩
  · rw [if_neg c]
    have hq : q < 0 := not_le.1 c
    have e : (0 ≤ -⌊-q⌋) ↔ -1 < q := by
      rw [show (0 ≤ -⌊-q⌋) ↔ ⌊-q⌋ < 1 by omega, Int.floor_lt]
      constructor <;> intro h <;> norm_num at * <;> linarith
    have h0 : 0 ≤ ⌊-q⌋ := Int.floor_nonneg.2 (by linarith)
    rw [e]
    constructor
    · rintro ⟨h, -⟩; exact ⟨h, by linarith⟩
    · rintro ⟨h, -⟩; exact ⟨h, by omega⟩

theorem button_table (b : Nat) : ∃ t, buttonLookup[b % 8]? = some t ∧ t < 4 ∧ (t = 1 ↔ b % 8 = 3) ∧ (t = 3 ↔ b % 8 = 5) ∧ (t = 2 ↔ b % 8 = 6) := by
  have : ∀ r : Fin 8, ∃ t, buttonLookup[r.1]? = some t ∧ t < 4 ∧ (t = 1 ↔ r.1 = 3) ∧ (t = 3 ↔ r.1 = 5) ∧ (t = 2 ↔ r.1 = 6) := by
    intro r
    fin_cases r <;> exact ⟨_, rfl, by decide, by decide, by decide, by decide⟩
  exact this ⟨b % 8, Nat.mod_lt _ (by norm_num)⟩

theorem row_len (t : Nat) (h : t < 4) : ∃ r, outputLookup[t]? = some r ∧ r.length = 256 := by
  have : ∀ t : Fin 4, ∃ r, outputLookup[t.1]? = some r ∧ r.length = 256 := by
    intro t
    fin_cases t <;> exact ⟨_, rfl, by decide +kernel⟩
  exact this ⟨t, h⟩

/-- The element of a table that belongs to an index. -/
theorem mask_row (b : Nat) (o : ℚ) (r : List Int) (t : Nat) (ht : buttonLookup[b % 8]? = some t) (hr : outputLookup[t]? = some r) (hl : r.length = 256) :
    (¬ (-1 < o * 255 ∧ o * 255 < 256) ∧ maskOf b o = none) ∨
    ((-1 < o * 255 ∧ o * 255 < 256) ∧ ∃ h : (toInt (o * 255)).toNat < r.length, maskOf b o = some (wrap32 (r[(toInt (o * 255)).toNat] * 2 ^ 22))) := by
  have tr := toInt_range (o * 255)
  unfold maskOf
  rw [ht]
  simp only [Option.bind_eq_bind, Option.bind_some]
  rw [hr]
  simp only [Option.bind_some, arr]
  by_cases c : (-1 < o * 255 ∧ o * 255 < 256)
  · right
    obtain ⟨h0, h1⟩ := tr.2 c
    have hb : (toInt (o * 255)).toNat < r.length := by omega
    exact ⟨c, hb, by rw [if_pos h0, List.getElem?_eq_getElem hb]; rfl⟩
  · left
    refine ⟨c, ?_⟩
    have nt : ¬ (0 ≤ toInt (o * 255) ∧ toInt (o * 255) < 256) := fun h => c (tr.1 h)
    by_cases h0 : 0 ≤ toInt (o * 255)
    · rw [if_pos h0, List.getElem?_eq_none (by omega)]; rfl
    · rw [if_neg h0]; rfl

/-- **C92, no read outside the tables**, for every state of the buttons, exactly when 255 times the output is above -1 and below 256. -/
theorem C92_safe (b : Nat) (o : ℚ) : (maskOf b o).isSome ↔ (-1 < o * 255 ∧ o * 255 < 256) := by
  obtain ⟨t, ht, h4, -⟩ := button_table b
  obtain ⟨r, hr, hl⟩ := row_len t h4
  rcases mask_row b o r t ht hr hl with ⟨c, e⟩ | ⟨c, h, e⟩
  · rw [e]; simp [c]
  · rw [e]; simp [c]

/-- **C92, outputs between zero and one** give a mask each, for every model, state, button and input. -/
theorem C92_total (net : List ℚ → List ℚ → List ℚ × List ℚ) (state mels : List ℚ) (b : Nat) (h : ∀ o ∈ (net mels state).2, 0 ≤ o ∧ o ≤ 1) :
    ∃ masks, nn_predict_masks net state b mels = some (masks, (net mels state).1) ∧ masks.length = (net mels state).2.length ∧
      ∀ (i : Nat) (o : ℚ) (m : Int), (net mels state).2[i]? = some o → masks[i]? = some m → maskOf b o = some m := by
  obtain ⟨os, eo⟩ : ∃ os, os = (net mels state).2 := ⟨_, rfl⟩
  rw [← eo] at h ⊢
  have hs : ∀ o ∈ os, maskOf b o = some ((maskOf b o).getD 0) := by
    intro o ho
    have := (C92_safe b o).2 ⟨by linarith [(h o ho).1], by linarith [(h o ho).2]⟩
    obtain ⟨v, hv⟩ := Option.isSome_iff_exists.1 this
    rw [hv]; rfl
  refine ⟨os.map fun o => (maskOf b o).getD 0, ?_, by simp, ?_⟩
  · unfold nn_predict_masks
    simp only
    rw [← eo, mapM_some _ _ _ hs]
    rfl
  · intro i o m ho hm
    rw [List.getElem?_map, ho] at hm
    simp only [Option.map_some, Option.some.injEq] at hm
    rw [← hm]
    exact hs o (List.mem_of_getElem? ho)

/-- **C92, pass-through.** With the buttons in the pass-through state every mask is one. -/
theorem C92_passthrough (b : Nat) (hb : b % 8 = 6) (o : ℚ) (h0 : 0 ≤ o) (h1 : o ≤ 1) : maskOf b o = some (2 ^ 30) := by
  obtain ⟨t, ht, h4, -, -, h2⟩ := button_table b
  have : t = 2 := h2.2 hb
  subst this
  rcases mask_row b o passthroughRow 2 ht rfl (by decide +kernel) with ⟨c, e⟩ | ⟨c, h, e⟩
  · exact absurd ⟨by linarith, by linarith⟩ c
  · rw [e]
    have : passthroughRow[(toInt (o * 255)).toNat] = 256 := List.getElem_replicate _
    rw [this]
    decide +kernel

/-- The spectrum is then handed on bit for bit, whatever the model says: the tables in use, 256 pairs, 64 outputs. -/
theorem C92_passthrough_spectrum (net : List ℚ → List ℚ → List ℚ × List ℚ) (state mels : List ℚ) (b : Nat) (hb : b % 8 = 6)
    (hl : (net mels state).2.length = 64) (h : ∀ o ∈ (net mels state).2, 0 ≤ o ∧ o ≤ 1) (tail : List Int) (fft : List (Int × Int))
    (hf : fft.length = 256) (hz : ∀ z ∈ fft, Int32 z.1 ∧ Int32 z.2) :
    ∃ masks next, nn_predict_masks net state b mels = some (masks, next) ∧
      dsp_apply_masks (usedRuns.map (fun r : Nat => (r : Int)) ++ tail) shippedFractions masks true fft = some fft := by
  obtain ⟨masks, e, ml, hm⟩ := C92_total net state mels b h
  refine ⟨masks, _, e, C89_unit usedRuns tail shippedFractions masks fft true (hf ▸ C89_shipped masks (by omega)) ?_ hz⟩
  intro m hmem
  obtain ⟨i, hi, rfl⟩ := List.mem_iff_getElem.1 hmem
  have ho : (net mels state).2[i]? = some ((net mels state).2[i]'(by omega)) := List.getElem?_eq_getElem _
  have r := h _ (List.mem_of_getElem? ho)
  have := hm i _ _ ho (List.getElem?_eq_getElem hi)
  rw [C92_passthrough b hb _ r.1 r.2] at this
  exact (Option.some.inj this).symm

/-- Outputs that a button state turns into masks that fit: all of them, except the top of the two boosting tables. -/
def Fits (b : Nat) (o : ℚ) : Prop := 0 ≤ o ∧ o ≤ 1 ∧ (b % 8 = 3 → o * 255 < 226) ∧ (b % 8 = 5 → o * 255 < 244)

theorem rows_fit : (∀ i < 256, ∀ v, typicalRow[i]? = some v → 0 ≤ v ∧ v ≤ 511) ∧ (∀ i < 226, ∀ v, harshRow[i]? = some v → 0 ≤ v ∧ v ≤ 511) ∧
    (∀ i < 256, ∀ v, passthroughRow[i]? = some v → 0 ≤ v ∧ v ≤ 511) ∧ (∀ i < 244, ∀ v, mediumRow[i]? = some v → 0 ≤ v ∧ v ≤ 511) := by
  have all : ∀ (l : List Int) (n : Nat), ((l.take n).all fun v => decide (0 ≤ v ∧ v ≤ 511)) = true → ∀ i < n, ∀ v, l[i]? = some v → 0 ≤ v ∧ v ≤ 511 := by
    intro l n h i hi v hv
    rw [List.all_eq_true] at h
    exact of_decide_eq_true (h v (List.mem_of_getElem? (i := i) (by rw [List.getElem?_take_of_lt hi]; exact hv)))
  exact ⟨all _ _ (by decide +kernel), all _ _ (by decide +kernel), all _ _ (by decide +kernel), all _ _ (by decide +kernel)⟩

theorem rows_sorted : ∀ (t : Nat) (r : List Int), outputLookup[t]? = some r → r.Pairwise (· ≤ ·) := by
  have e : ∀ r ∈ outputLookup, r.Pairwise (· ≤ ·) := by
    have : outputLookup.all (fun r => (r.zip (r.drop 1)).all fun p => decide (p.1 ≤ p.2)) = true := by decide +kernel
    intro r hr
    rw [List.all_eq_true] at this
    have := this r hr
    rw [List.all_eq_true] at this
    rw [← List.isChain_iff_pairwise, List.isChain_iff_getElem]
    intro i hi
    have hm : (r[i]'(by omega), r[i + 1]) ∈ r.zip (r.drop 1) := by
      apply List.mem_of_getElem? (i := i)
      rw [List.getElem?_zip_eq_some]
      exact ⟨List.getElem?_eq_getElem _, by rw [List.getElem?_drop, Nat.add_comm, List.getElem?_eq_getElem hi]⟩
    exact of_decide_eq_true (this _ hm)
  exact fun t r h => e r (List.mem_of_getElem? h)

/-- The table value behind a mask that fits. -/
theorem fits_value (b : Nat) (o : ℚ) (h : Fits b o) : ∃ (t : Nat) (r : List Int) (i : Nat) (v : Int), buttonLookup[b % 8]? = some t ∧ outputLookup[t]? = some r ∧
    i = (toInt (o * 255)).toNat ∧ r[i]? = some v ∧ 0 ≤ v ∧ v ≤ 511 ∧ maskOf b o = some (v * 2 ^ 22) := by
  obtain ⟨h0, h1, h3, h5⟩ := h
  obtain ⟨t, ht, h4, e1, e3, e2⟩ := button_table b
  obtain ⟨r, hr, hl⟩ := row_len t h4
  rcases mask_row b o r t ht hr hl with ⟨c, e⟩ | ⟨c, hi, e⟩
  · exact absurd ⟨by linarith, by linarith⟩ c
  · have q0 : 0 ≤ o * 255 := by linarith
    have tf : toInt (o * 255) = ⌊o * 255⌋ := if_pos q0
    have f0 : 0 ≤ ⌊o * 255⌋ := Int.floor_nonneg.2 q0
    have bound : 0 ≤ r[(toInt (o * 255)).toNat] ∧ r[(toInt (o * 255)).toNat] ≤ 511 := by
      have hv : r[(toInt (o * 255)).toNat]? = some (r[(toInt (o * 255)).toNat]) := List.getElem?_eq_getElem hi
      have cases : t = 0 ∨ t = 1 ∨ t = 2 ∨ t = 3 := by omega
      rcases cases with rfl | rfl | rfl | rfl
      · cases hr; exact rows_fit.1 _ (by omega) _ hv
      · cases hr
        have q := h3 (e1.1 rfl)
        refine rows_fit.2.1 _ ?_ _ hv
        have : ⌊o * 255⌋ < 226 := by rw [Int.floor_lt]; norm_num; exact q
        omega
      · cases hr; exact rows_fit.2.2.1 _ (by omega) _ hv
      · cases hr
        have q := h5 (e3.1 rfl)
        refine rows_fit.2.2.2 _ ?_ _ hv
        have : ⌊o * 255⌋ < 244 := by rw [Int.floor_lt]; norm_num; exact q
        omega
    refine ⟨t, r, _, _, ht, hr, rfl, List.getElem?_eq_getElem hi, bound.1, bound.2, ?_⟩
    rw [e, wrap32_id (by omega) (by omega)]

/-- **C92, masks grow with outputs** and are never negative.  The top of the two boosting tables is left out; see `C92_full`. -/
theorem C92_mono_partial (b : Nat) (o o' : ℚ) (h : Fits b o) (h' : Fits b o') (hle : o ≤ o') :
    ∃ m m', maskOf b o = some m ∧ maskOf b o' = some m' ∧ 0 ≤ m ∧ m ≤ m' ∧ m' < 2 ^ 31 := by
  obtain ⟨t, r, i, v, ht, hr, hi, hv, l, u, e⟩ := fits_value b o h
  obtain ⟨t2, r2, i2, v2, ht2, hr2, hi2, hv2, l2, u2, e2⟩ := fits_value b o' h'
  rw [ht] at ht2
  cases ht2
  rw [hr] at hr2
  cases hr2
  refine ⟨_, _, e, e2, by omega, ?_, by omega⟩
  have q0 : 0 ≤ o * 255 := by have := h.1; linarith
  have q1 : 0 ≤ o' * 255 := by have := h'.1; linarith
  have t0 : toInt (o * 255) = ⌊o * 255⌋ := if_pos q0
  have t1 : toInt (o' * 255) = ⌊o' * 255⌋ := if_pos q1
  have : ⌊o * 255⌋ ≤ ⌊o' * 255⌋ := Int.floor_mono (by linarith)
  have ii : i ≤ i2 := by omega
  have vv : v ≤ v2 := by
    rcases Nat.eq_or_lt_of_le ii with q | q
    · subst q
      rw [hv] at hv2
      cases hv2
      exact le_refl _
    · obtain ⟨a, rfl⟩ := List.getElem?_eq_some_iff.1 hv
      obtain ⟨a2, rfl⟩ := List.getElem?_eq_some_iff.1 hv2
      exact List.pairwise_iff_getElem.1 (rows_sorted t r hr) _ _ a a2 q
  omega

/-- Outputs of one, one half and zero, no button pressed. -/
theorem C92_example : maskOf 15 1 = some (437 * 2 ^ 22) ∧ maskOf 15 (1 / 2) = some (164 * 2 ^ 22) ∧ maskOf 15 0 = some 0 ∧ Fits 15 1 ∧ Fits 3 (1 / 2) := by
  refine ⟨by decide +kernel, by decide +kernel, by decide +kernel, ?_, ?_⟩ <;> unfold Fits <;> norm_num

end Verif.Audio
