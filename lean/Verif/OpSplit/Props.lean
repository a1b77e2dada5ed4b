import Verif.OpSplit.Lemmas
/-! Property theorems C09-C12. -/
namespace Verif.OpSplit
open Verif.Image

/-! ### C09 -/

theorem chain_count {s e : Nat} {l : List (Nat × Nat)} (h : Chain s e l) (y : Nat) :
    (l.countP fun bn => decide (bn.1 ≤ y ∧ y < bn.1 + bn.2)) = if s ≤ y ∧ y < e then 1 else 0 := by
  induction l generalizing s with
  | nil =>
    have : s = e := h
    rw [if_neg (by omega)]; rfl
  | cons bn rest ih =>
    obtain ⟨h1, h2⟩ := h
    have hle := chain_le h2
    rw [List.countP_cons, ih h2]
    simp only [decide_eq_true_eq]
    split <;> split <;> split <;> omega

/-- **C09.** Splitting an operator's output of height `H` into `n ≥ 1` parts: there are `n` slices, every row is in
exactly one of them and no other row is, heights differ by at most one (and all are non-empty when `n ≤ H`), and
concatenating the slices gives the operator's output back. -/
theorem C09_split_is_partition {α : Type} [Inhabited α] (y : Img α) (n : Nat) (hn : 1 ≤ n) (hh : 0 ≤ y.h) :
    let l := opSplitSlices y.h.toNat n
    l.length = n ∧
    (∀ row : Nat, (l.countP fun bn => decide (bn.1 ≤ row ∧ row < bn.1 + bn.2)) = if (row : Int) < y.h then 1 else 0) ∧
    (∀ s ∈ l, ∀ t ∈ l, s.2 ≤ t.2 + 1) ∧
    (n ≤ y.h.toNat → ∀ s ∈ l, 1 ≤ s.2) ∧
    (opSplitOutput n y).Same y := by
  intro l
  have hc := opSplit_chain y.h.toNat n hn
  refine ⟨slicesFrom_length _ _ _ _ _, ?_, ?_, ?_, ?_⟩
  · intro row
    rw [chain_count hc row]
    split <;> split <;> omega
  · intro s hs t ht
    have h1 := slicesFrom_mem _ _ _ _ _ s hs
    have h2 := slicesFrom_mem _ _ _ _ _ t ht
    omega
  · intro hnh s hs
    have h1 := slicesFrom_mem _ _ _ _ _ s hs
    have : 1 ≤ y.h.toNat / n := (Nat.le_div_iff_mul_le (by omega)).2 (by omega)
    omega
  · have h := concat_chain y l (fun bn => sliceRows bn.1 bn.2 y) (fun bn _ => Img.Same.refl _) 0 y.h.toNat hc
    obtain ⟨h1, h2, h3⟩ := h
    refine ⟨?_, h2, ?_⟩
    · show (concatRows y.w (l.map _)).h = _
      rw [h1]; simp only [sliceRows]; omega
    · intro i j hi hi2 hj hj2
      have := h3 i j hi hi2 hj hj2
      rw [show (opSplitOutput n y).px i j = _ from this]
      simp [sliceRows]

example : opSplitSlices 11 4 = [(0, 3), (3, 3), (6, 3), (9, 2)] := by decide

/-! ### C10 -/

/-- **C10.** Rows `[b, b+n)` of a `VALID` (undilated) convolution equal the convolution of the computed input slice; the
input slice is in bounds and the declared shape of the new convolution is the true one. -/
theorem C10_raise_slice_valid_partial {α β : Type} (z : α) (g : Win) (ok : g.OK) (hd : g.dh = 1) (hdw : g.dw = 1)
    (F : (Int → Int → α) → β) (hF : WindowFn g F) (x : Img α) (b n : Int) (hb : 0 ≤ b) (hn : 1 ≤ n)
    (hbn : b + n ≤ (convValid g F x).h) :
    let r := raiseSliceConv x.h x.w g (convValid g F x).h .valid b n
    SliceOK r.begin_ r.size x ∧
    (raisedConv z g F r x).Same (sliceRows b n (convValid g F x)) ∧
    raisedTypeHeight g r = n ∧ raisedTypeWidth g r x.w = (convValid g F x).w := by
  intro r
  have hsh := ok.sh
  have hkh := ok.kh
  have hout : (convValid g F x).h = (x.h - g.kh + g.sh) / g.sh := by
    simp only [convValid, eff, hd]; congr 1; ring
  rw [hout] at hbn
  have hdiv : g.sh * ((x.h - g.kh + g.sh) / g.sh) + (x.h - g.kh + g.sh) % g.sh = x.h - g.kh + g.sh :=
    Int.mul_ediv_add_emod _ _
  have hm0 := Int.emod_nonneg (x.h - g.kh + g.sh) (by omega : g.sh ≠ 0)
  have hm1 := Int.emod_lt_of_pos (x.h - g.kh + g.sh) (by omega : 0 < g.sh)
  obtain ⟨lost, hlost0, hlost1, hr, hend⟩ : ∃ lost, 0 ≤ lost ∧ lost < g.sh ∧
      r = ⟨b * g.sh, n * g.sh - g.sh + g.kh + lost, 0, 0, 0, 0⟩ ∧
      b * g.sh + (n * g.sh - g.sh + g.kh + lost) ≤ x.h := by
    by_cases he : b + n = (x.h - g.kh + g.sh) / g.sh
    · refine ⟨(x.h - g.kh + g.sh) % g.sh, hm0, hm1, ?_, ?_⟩
      · simp only [r, raiseSliceConv, hout, he, if_true]
        congr 1
        rw [← he] at hdiv
        have : g.sh * (b + n) = b * g.sh + n * g.sh := by ring
        omega
      · rw [← he] at hdiv
        have : g.sh * (b + n) = b * g.sh + n * g.sh := by ring
        omega
    · refine ⟨0, le_refl _, by omega, ?_, ?_⟩
      · simp only [r, raiseSliceConv, hout, if_neg he]
        congr 1
        ring
      · have h1 : (b + n) * g.sh ≤ g.sh * ((x.h - g.kh + g.sh) / g.sh) := by
          rw [Int.mul_comm]; exact Int.mul_le_mul_of_nonneg_left hbn (by omega)
        have : (b + n) * g.sh = b * g.sh + n * g.sh := by ring
        omega
  have hbs : 0 ≤ b * g.sh := Int.mul_nonneg hb (by omega)
  have hns : g.sh ≤ n * g.sh := by
    have := Int.mul_le_mul_of_nonneg_right hn (by omega : 0 ≤ g.sh); omega
  have hh : (n * g.sh + lost) / g.sh = n := by
    rw [Int.ediv_eq_iff_of_pos (by omega)]
    have : (n + 1) * g.sh = n * g.sh + g.sh := by ring
    omega
  rw [hr]
  refine ⟨⟨hbs, by simp only; omega, by simpa using hend⟩, ?_, ?_, ?_⟩
  · refine ⟨?_, ?_, ?_⟩
    · simp only [raisedConv, convValid, pad, sliceRows, eff, hd]
      rw [show n * g.sh - g.sh + g.kh + lost + 0 + 0 - ((g.kh - 1) * 1 + 1) + g.sh = n * g.sh + lost by ring]
      exact hh
    · simp only [raisedConv, convValid, pad, sliceRows, Int.add_zero]
    · intro i j hi hi2 hj hj2
      simp only [raisedConv, convValid, pad, sliceRows, Int.add_zero, eff, hd, hdw] at hi2 hj2
      rw [show n * g.sh - g.sh + g.kh + lost - ((g.kh - 1) * 1 + 1) + g.sh = n * g.sh + lost by ring, hh] at hi2
      apply hF
      intro a c ha ha2 hc hc2
      simp only [pad]
      have p1 : 0 ≤ i * g.sh := Int.mul_nonneg hi (by omega)
      have p2 : i * g.sh ≤ n * g.sh - g.sh := by
        have := Int.mul_le_mul_of_nonneg_right (show i ≤ n - 1 by omega) (by omega : 0 ≤ g.sh)
        rw [Int.sub_mul] at this; omega
      have p3 : 0 ≤ j * g.sw := Int.mul_nonneg hj (by have := ok.sw; omega)
      have p4 : j * g.sw + c < x.w := by
        have hle : (j + 1) * g.sw ≤ x.w - ((g.kw - 1) * 1 + 1) + g.sw :=
          (Int.le_ediv_iff_mul_le (by have := ok.sw; omega)).1 (by omega)
        have : (j + 1) * g.sw = j * g.sw + g.sw := by ring
        omega
      rw [hd, hdw, Img.at_pos _ _ (by simp only [sliceRows]; omega)]
      simp only [sliceRows]
      congr 1 <;> ring
  · simp only [raisedTypeHeight]
    rw [show n * g.sh - g.sh + g.kh + lost + 0 + 0 + g.sh - g.kh = n * g.sh + lost by ring]
    exact hh
  · simp only [raisedTypeWidth, convValid, eff, hdw]
    congr 1; ring

/-- 10 rows, 3-row kernel, stride 2: the hypotheses hold for rows [1, 3) of the 4 output rows. -/
example : (convValid (α := Int) ⟨3, 3, 2, 2, 1, 1⟩ (fun u => u 0 0) ⟨10, 10, fun i j => i * 10 + j⟩).h = 4 ∧
    raiseSliceConv 10 10 ⟨3, 3, 2, 2, 1, 1⟩ 4 .valid 1 2 = ⟨2, 5, 0, 0, 0, 0⟩ := by decide

/-- **C10 + C09 together**: after splitting a VALID convolution into `n` parts and raising every slice above it, the
concatenation of the small convolutions is the original result. -/
theorem C10_split_valid_conv_end_to_end_partial {α β : Type} [Inhabited β] (z : α) (g : Win) (ok : g.OK) (hd : g.dh = 1)
    (hdw : g.dw = 1) (F : (Int → Int → α) → β) (hF : WindowFn g F) (x : Img α) (n : Nat) (hn : 1 ≤ n)
    (hle : (n : Int) ≤ (convValid g F x).h) :
    (concatRows (convValid g F x).w ((opSplitSlices (convValid g F x).h.toNat n).map fun bs =>
      raisedConv z g F (raiseSliceConv x.h x.w g (convValid g F x).h .valid bs.1 bs.2) x)).Same
      (convValid g F x) := by
  have hc := opSplit_chain (convValid g F x).h.toNat n hn
  have hpos := (C09_split_is_partition (convValid g F x) n hn (by omega)).2.2.2.1 (by omega)
  have h := concat_chain (convValid g F x) _
    (fun bs => raisedConv z g F (raiseSliceConv x.h x.w g (convValid g F x).h .valid bs.1 bs.2) x)
    (fun bs hbs => (C10_raise_slice_valid_partial z g ok hd hdw F hF x bs.1 bs.2 (by omega)
      (by have := hpos bs hbs; omega) (by have := (chain_mem hc bs hbs).2; omega)).2.1) 0 _ hc
  refine h.trans ⟨?_, rfl, ?_⟩
  · simp only [sliceRows]; omega
  · intro i j _ _ _ _; simp [sliceRows]

/-- **C10 refuted for dilated convolutions**: a 3-row kernel with dilation 2 over 10 rows gives 6 output rows; raising
the slice of the first 3 yields an operator whose declared height is 3 but which only computes 1 row. -/
theorem C10_dilation_refuted :
    let g : Win := ⟨3, 1, 1, 1, 2, 1⟩
    let x : Img Int := ⟨10, 1, fun i _ => i⟩
    let F : (Int → Int → Int) → Int := fun u => u 0 0
    let r := raiseSliceConv x.h x.w g (convValid g F x).h .valid 0 3
    (convValid g F x).h = 6 ∧ raisedTypeHeight g r = 3 ∧ (raisedConv 0 g F r x).h = 1 ∧
      ¬ (raisedConv 0 g F r x).Same (sliceRows 0 3 (convValid g F x)) := by
  refine ⟨by decide, by decide, by decide, ?_⟩
  intro h
  have := h.1
  revert this; decide

/-! ### C11 -/

/-- The row range `[b, b+n)` does not make a non-first slice read the top padding, nor a non-last one the bottom
padding. -/
def Clear (inH : Int) (g : Win) (outH b n : Int) : Prop :=
  (b ≠ 0 → sameBefore inH g.kh g.sh 1 ≤ b * g.sh) ∧
  ((b = 0 ∨ b + n ≠ outH) → (b + n) * g.sh - g.sh + g.kh - sameBefore inH g.kh g.sh 1 ≤ inH)

/-- **C11.** Rows `[b, b+n)` of a `SAME` (undilated) convolution equal the `VALID` convolution of the padded input slice
that the rewrite builds, provided the range is `Clear`; then the input slice is in bounds and the declared shape is the
true one. -/
theorem C11_raise_slice_same_partial {α β : Type} (z : α) (g : Win) (ok : g.OK) (hd : g.dh = 1) (hdw : g.dw = 1)
    (F : (Int → Int → α) → β) (hF : WindowFn g F) (x : Img α) (hxh : 1 ≤ x.h) (hxw : 1 ≤ x.w)
    (b n : Int) (hb : 0 ≤ b) (hn : 1 ≤ n) (hbn : b + n ≤ (convSame g z F x).h)
    (hclear : Clear x.h g (convSame g z F x).h b n) :
    let r := raiseSliceConv x.h x.w g (convSame g z F x).h .same b n
    SliceOK r.begin_ r.size x ∧
    (raisedConv z g F r x).Same (sliceRows b n (convSame g z F x)) ∧
    raisedTypeHeight g r = n ∧ raisedTypeWidth g r x.w = (convSame g z F x).w := by
  intro r
  have hsh := ok.sh
  have hkh := ok.kh
  have hout : (convSame g z F x).h = sameOut x.h g.sh := rfl
  rw [hout] at hbn hclear
  obtain ⟨f1, f2, f3, f4, f5, f6, f7, f8, f9, f10⟩ := samePad_facts (d := 1) hxh hkh hsh (le_refl _)
  unfold eff at f9 f10
  obtain ⟨w1, w2, w3, w4, w5, w6, w7, w8, w9, w10⟩ := samePad_facts (d := 1) hxw ok.kw ok.sw (le_refl _)
  obtain ⟨c1, c2⟩ := hclear
  set T := sameBefore x.h g.kh g.sh 1 with hT
  set B := sameAfter x.h g.kh g.sh 1 with hB
  set L := sameBefore x.w g.kw g.sw 1 with hL
  set R := sameAfter x.w g.kw g.sw 1 with hR
  have ebn : (b + n) * g.sh = b * g.sh + n * g.sh := by ring
  have hbs : 0 ≤ b * g.sh := Int.mul_nonneg hb (by omega)
  have hns : g.sh ≤ n * g.sh := by
    have := Int.mul_le_mul_of_nonneg_right hn (by omega : 0 ≤ g.sh); omega
  -- uniform description of the result
  obtain ⟨t', b', hr, ht', hb', htb, hbeg, hin, hend⟩ : ∃ t' b' : Int,
      r = ⟨b * g.sh - T + t', n * g.sh - g.sh + g.kh - t' - b', t', b', L, R⟩ ∧ 0 ≤ t' ∧ 0 ≤ b' ∧
      t' + b' ≤ samePad x.h g.kh g.sh 1 ∧
      0 ≤ b * g.sh - T + t' ∧ (t' = 0 ∨ b * g.sh - T + t' = 0) ∧
      ((b' = 0 ∧ b * g.sh - T + t' + (n * g.sh - g.sh + g.kh - t' - b') ≤ x.h) ∨
        b * g.sh - T + t' + (n * g.sh - g.sh + g.kh - t' - b') = x.h) := by
    by_cases h0 : b = 0
    · refine ⟨T, 0, ?_, f4, le_refl _, by omega, ?_, ?_, ?_⟩
      · simp only [r, raiseSliceConv, hout, if_pos h0, ← hT, ← hL, ← hR]
        congr 1
        subst h0; ring
      · subst h0; omega
      · right; subst h0; ring
      · left; have := c2 (Or.inl h0); omega
    · by_cases h1 : b + n = sameOut x.h g.sh
      · have hk2 := c1 h0
        have ep : (sameOut x.h g.sh - 1) * g.sh = (b + n) * g.sh - g.sh := by rw [← h1]; ring
        refine ⟨0, B, ?_, le_refl _, by omega, by omega, by omega, Or.inl rfl, ?_⟩
        · simp only [r, raiseSliceConv, hout, if_neg h0, if_pos h1, ← hT, ← hB, ← hL, ← hR]
          congr 1
          ring
        · rcases lt_or_ge 0 (samePad x.h g.kh g.sh 1) with hp | hp
          · right
            have := f10 hp
            rw [ep] at this
            omega
          · left
            rw [ep] at f9
            refine ⟨by omega, by omega⟩
      · have hk2 := c1 h0
        have := c2 (Or.inr h1)
        refine ⟨0, 0, ?_, le_refl _, le_refl _, by omega, by omega, Or.inl rfl, Or.inl ⟨rfl, by omega⟩⟩
        simp only [r, raiseSliceConv, hout, if_neg h0, if_neg h1, ← hT, ← hL, ← hR]
        congr 1
        ring
  have hsz : 0 ≤ n * g.sh - g.sh + g.kh - t' - b' := by
    omega
  have hh : (n * g.sh) / g.sh = n := Int.mul_ediv_cancel n (by omega)
  rw [hr]
  refine ⟨⟨hbeg, hsz, by simp only; rcases hend with ⟨-, h⟩ | h <;> omega⟩, ?_, ?_, ?_⟩
  · refine ⟨?_, ?_, ?_⟩
    · simp only [raisedConv, convValid, pad, sliceRows, eff, hd]
      rw [show n * g.sh - g.sh + g.kh - t' - b' + t' + b' - ((g.kh - 1) * 1 + 1) + g.sh = n * g.sh by ring]
      exact hh
    · have := (convSame_eq_pad_valid g ok z F x hxh hxw).2.1
      rw [hd, hdw, ← hT, ← hB, ← hL, ← hR] at this
      simp only [raisedConv, sliceRows]
      rw [this]
      simp [convValid, pad]
    · intro i j hi hi2 hj hj2
      simp only [raisedConv, convValid, pad, sliceRows, eff, hd] at hi2
      rw [show n * g.sh - g.sh + g.kh - t' - b' + t' + b' - ((g.kh - 1) * 1 + 1) + g.sh = n * g.sh by ring, hh] at hi2
      show F _ = F _
      apply hF
      intro a c ha ha2 hc hc2
      have p1 : 0 ≤ i * g.sh := Int.mul_nonneg hi (by omega)
      have p2 : i * g.sh ≤ n * g.sh - g.sh := by
        have := Int.mul_le_mul_of_nonneg_right (show i ≤ n - 1 by omega) (by omega : 0 ≤ g.sh)
        rw [Int.sub_mul] at this; omega
      have e2 : (b + i) * g.sh = b * g.sh + i * g.sh := by ring
      have hiff : (0 ≤ i * g.sh + a * 1 - t' ∧ i * g.sh + a * 1 - t' < n * g.sh - g.sh + g.kh - t' - b') ↔
          (0 ≤ b * g.sh + i * g.sh + a * 1 - T ∧ b * g.sh + i * g.sh + a * 1 - T < x.h) := by
        rcases hin with h | h <;> rcases hend with ⟨h2, h3⟩ | h3 <;> constructor <;> intro hx <;> constructor <;> omega
      show Img.at z _ _ _ = Img.at z _ _ _
      rw [hd, hdw, ← hT, ← hL, e2]
      apply Img.at_eq
      · simp only [sliceRows]
        rw [← and_assoc, hiff, and_assoc]
      · intro _
        simp only [sliceRows]
        congr 1; ring
  · simp only [raisedTypeHeight]
    rw [show n * g.sh - g.sh + g.kh - t' - b' + t' + b' + g.sh - g.kh = n * g.sh by ring]
    exact hh
  · have := (convSame_eq_pad_valid g ok z F x hxh hxw).2.1
    rw [hd, hdw, ← hL, ← hR] at this
    rw [this]
    simp only [raisedTypeWidth, convValid, pad, eff, hdw]
    congr 1; ring

/-- 3-row kernel, stride 1, 8 rows: rows [0,4) and [4,8) are `Clear`. -/
example : Clear 8 ⟨3, 3, 1, 1, 1, 1⟩ 8 0 4 ∧ Clear 8 ⟨3, 3, 1, 1, 1, 1⟩ 8 4 4 := by
  unfold Clear; decide

/-- `Clear` is exactly what the rewrite needs: when it fails, the input slice that the rewrite creates is out of bounds
(a negative begin, or an end past the input). -/
theorem C11_clear_is_necessary {α β : Type} (z : α) (g : Win)
    (F : (Int → Int → α) → β) (x : Img α) (b n : Int)
    (hnot : ¬ Clear x.h g (convSame g z F x).h b n) :
    let r := raiseSliceConv x.h x.w g (convSame g z F x).h .same b n
    ¬ SliceOK r.begin_ r.size x := by
  intro r hok
  apply hnot
  obtain ⟨o1, o2, o3⟩ := hok
  have ebn : (b + n) * g.sh = b * g.sh + n * g.sh := by ring
  simp only [r, raiseSliceConv] at o1 o2 o3
  by_cases h0 : b = 0
  · rw [if_pos h0] at o1 o2 o3
    simp only at o1 o2 o3
    refine ⟨fun h => absurd h0 h, fun _ => ?_⟩
    omega
  · rw [if_neg h0] at o1 o2 o3
    by_cases h1 : b + n = (convSame g z F x).h
    · rw [if_pos h1] at o1 o2 o3
      simp only at o1 o2 o3
      refine ⟨fun _ => ?_, fun h => ?_⟩
      · omega
      · rcases h with h | h
        · exact absurd h h0
        · exact absurd h1 h
    · rw [if_neg h1] at o1 o2 o3
      simp only at o1 o2 o3
      refine ⟨fun _ => ?_, fun _ => ?_⟩ <;> omega

/-- **C11 refuted for thin slices**: 5-row kernel, stride 1, 4 rows split in 4: the second slice starts at input row
-1. -/
theorem C11_thin_slice_refuted :
    opSplitSlices 4 4 = [(0, 1), (1, 1), (2, 1), (3, 1)] ∧
    (raiseSliceConv 4 4 ⟨5, 1, 1, 1, 1, 1⟩ 4 .same 1 1).begin_ = -1 := by decide

/-- When every slice is at least as high (in input rows) as the larger pad, every slice of the split is `Clear`; this
covers all 3-row kernels split in at least two non-empty parts. -/
theorem clear_of_heights {x : Int} {g : Win} (ok : g.OK) (hx : 1 ≤ x) (n : Nat) (hn : 2 ≤ n)
    (hq : sameAfter x g.kh g.sh 1 ≤ ((sameOut x g.sh).toNat / n : Nat) * g.sh) (hne : (n : Int) ≤ sameOut x g.sh) :
    ∀ bs ∈ opSplitSlices (sameOut x g.sh).toNat n, Clear x g (sameOut x g.sh) bs.1 bs.2 := by
  obtain ⟨f1, f2, f3, f4, f5, f6, f7, f8, f9, f10⟩ := samePad_facts (d := 1) hx ok.kh ok.sh (le_refl _)
  unfold eff at f9 f10
  have hsh := ok.sh
  intro bs hbs
  have hc := opSplit_chain (sameOut x g.sh).toNat n (by omega)
  have hcl : (opSplitSlices (sameOut x g.sh).toNat n).length = n := slicesFrom_length _ _ _ _ _
  have hmem : ∀ t ∈ opSplitSlices (sameOut x g.sh).toNat n, (sameOut x g.sh).toNat / n ≤ t.2 :=
    fun t ht => (slicesFrom_mem _ _ _ _ _ t ht).1
  have hqpos : 1 ≤ (sameOut x g.sh).toNat / n := (Nat.le_div_iff_mul_le (by omega)).2 (by omega)
  -- every begin is 0 or at least q, every end is the output height or at most it minus q; not both 0 and the end
  have key : ∀ (l : List (Nat × Nat)) (s e q : Nat), Chain s e l → (∀ t ∈ l, q ≤ t.2) → 1 ≤ q →
      ∀ t ∈ l, (t.1 = s ∨ s + q ≤ t.1) ∧ (t.1 + t.2 = e ∨ t.1 + t.2 + q ≤ e) ∧
        (2 ≤ l.length → t.1 = s → t.1 + t.2 + q ≤ e) := by
    intro l
    induction l with
    | nil => intro s e q _ _ _ t ht; simp at ht
    | cons a rest ih =>
      intro s e q hch hq1 hq2 t ht
      obtain ⟨g1, g2⟩ := hch
      have ha := hq1 a (by simp)
      have hrest : rest = [] ∨ a.1 + a.2 + q ≤ e := by
        cases rest with
        | nil => left; rfl
        | cons c cs =>
          right
          have h3 := chain_mem g2 c (by simp)
          have := hq1 c (by simp)
          omega
      rcases List.mem_cons.1 ht with h | h
      · subst h
        refine ⟨Or.inl g1, ?_, ?_⟩
        · rcases hrest with h | h
          · subst h; left; exact g2
          · right; exact h
        · intro hl _
          rcases hrest with h | h
          · subst h; simp at hl
          · exact h
      · obtain ⟨i1, i2, i3⟩ := ih _ _ q g2 (fun t ht => hq1 t (by simp [ht])) hq2 t h
        refine ⟨Or.inr (by omega), i2, fun _ hst => by omega⟩
  obtain ⟨k1, k2, k3⟩ := key _ 0 _ _ hc hmem hqpos bs hbs
  have k3 := k3 (by omega)
  generalize (sameOut x g.sh).toNat / n = q at *
  have hto : ((sameOut x g.sh).toNat : Int) = sameOut x g.sh := by omega
  constructor
  · intro hb
    have : q ≤ bs.1 := by omega
    have : (q : Int) * g.sh ≤ (bs.1 : Int) * g.sh := Int.mul_le_mul_of_nonneg_right (by omega) (by omega)
    omega
  · intro hor
    have hend : bs.1 + bs.2 + q ≤ (sameOut x g.sh).toNat := by
      rcases hor with h | h
      · exact k3 (by omega)
      · omega
    have h1 : ((bs.1 : Int) + bs.2 + q) * g.sh ≤ sameOut x g.sh * g.sh :=
      Int.mul_le_mul_of_nonneg_right (by omega) (by omega)
    have e1 : ((bs.1 : Int) + bs.2 + q) * g.sh = ((bs.1 : Int) + bs.2) * g.sh + q * g.sh := by ring
    have e2 : (sameOut x g.sh - 1) * g.sh = sameOut x g.sh * g.sh - g.sh := by ring
    omega

/-- **C11 + C09 together**: splitting a SAME convolution into `n ≥ 2` parts whose height (in input rows) is at least the
bottom pad, raising every slice, and concatenating gives the original result. -/
theorem C11_split_same_conv_end_to_end_partial {α β : Type} [Inhabited β] (z : α) (g : Win) (ok : g.OK) (hd : g.dh = 1)
    (hdw : g.dw = 1) (F : (Int → Int → α) → β) (hF : WindowFn g F) (x : Img α) (hxh : 1 ≤ x.h) (hxw : 1 ≤ x.w)
    (n : Nat) (hn : 2 ≤ n) (hne : (n : Int) ≤ sameOut x.h g.sh)
    (hq : sameAfter x.h g.kh g.sh 1 ≤ ((sameOut x.h g.sh).toNat / n : Nat) * g.sh) :
    (concatRows (convSame g z F x).w ((opSplitSlices (convSame g z F x).h.toNat n).map fun bs =>
      raisedConv z g F (raiseSliceConv x.h x.w g (convSame g z F x).h .same bs.1 bs.2) x)).Same
      (convSame g z F x) := by
  have hout : (convSame g z F x).h = sameOut x.h g.sh := rfl
  have hc := opSplit_chain (convSame g z F x).h.toNat n (by omega)
  have hpos := (C09_split_is_partition (convSame g z F x) n (by omega) (by omega)).2.2.2.1 (by omega)
  have h := concat_chain (convSame g z F x) _
    (fun bs => raisedConv z g F (raiseSliceConv x.h x.w g (convSame g z F x).h .same bs.1 bs.2) x)
    (fun bs hbs => (C11_raise_slice_same_partial z g ok hd hdw F hF x hxh hxw bs.1 bs.2 (by omega)
      (by have := hpos bs hbs; omega) (by have := (chain_mem hc bs hbs).2; omega)
      (clear_of_heights ok hxh n hn hq hne bs hbs)).2.1) 0 _ hc
  refine h.trans ⟨?_, rfl, ?_⟩
  · simp only [sliceRows]; omega
  · intro i j _ _ _ _; simp [sliceRows]

/-- The end-to-end hypotheses hold for a 3-row kernel of stride 1 on 7 rows in 3 parts. -/
example : sameAfter 7 3 1 1 ≤ (((sameOut 7 1).toNat / 3 : Nat) : Int) * 1 ∧ (3 : Int) ≤ sameOut 7 1 := by decide

/-! ### Slices above a pad -/

/-- Raising a slice above a pad is exact when the pads are the halves that the rewrite assumes and no other slice
reaches the padding. -/
theorem C11_raise_slice_pad_partial {α : Type} (z : α) (x : Img α) (t bo l rr : Int)
    (ht : 0 ≤ t) (hbo : t ≤ bo ∧ bo ≤ t + 1) (hlr : l ≤ rr ∧ rr ≤ l + 1) (b n : Int) (hn : 0 ≤ n)
    (hbn : b + n ≤ x.h + t + bo)
    (hfirst : b ≠ 0 → t ≤ b) (hlast : b = 0 ∨ b + n ≠ x.h + t + bo → b + n ≤ x.h + t)
    (hthin : (b = 0 → t ≤ n) ∧ (b ≠ 0 → b + n = x.h + t + bo → bo ≤ n)) :
    let r := raiseSlicePad x.h x.w (x.h + t + bo) (x.w + l + rr) b n
    SliceOK r.begin_ r.size x ∧ (raisedPad z r x).Same (sliceRows b n (pad z t bo l rr x)) := by
  intro r
  have e1 : (x.h + t + bo - x.h) / 2 = t := by omega
  have e2 : (x.w + l + rr - x.w) / 2 = l := by omega
  obtain ⟨t', b', hr, ht', hb', hbeg, hin, hend, hsz⟩ : ∃ t' b' : Int,
      r = ⟨b - t + t', n - t' - b', t', b', l, rr⟩ ∧ 0 ≤ t' ∧ 0 ≤ b' ∧
      0 ≤ b - t + t' ∧ (t' = 0 ∨ b - t + t' = 0) ∧
      ((b' = 0 ∧ b - t + t' + (n - t' - b') ≤ x.h) ∨ b - t + t' + (n - t' - b') = x.h) ∧ 0 ≤ n - t' - b' := by
    by_cases h0 : b = 0
    · refine ⟨t, 0, ?_, ht, le_refl _, by omega, by omega, ?_, ?_⟩
      · simp only [r, raiseSlicePad, if_pos h0, e1, e2]
        congr 1 <;> omega
      · left; have := hlast (Or.inl h0); omega
      · have := hthin.1 h0; omega
    · by_cases h1 : b + n = x.h + t + bo
      · have := hfirst h0
        refine ⟨0, bo, ?_, le_refl _, by omega, by omega, Or.inl rfl, ?_, ?_⟩
        · simp only [r, raiseSlicePad, if_neg h0, if_pos h1, e1, e2]
          congr 1 <;> omega
        · right; omega
        · have := hthin.2 h0 h1; omega
      · have := hfirst h0
        have := hlast (Or.inr h1)
        refine ⟨0, 0, ?_, le_refl _, le_refl _, by omega, Or.inl rfl, Or.inl ⟨rfl, by omega⟩, by omega⟩
        simp only [r, raiseSlicePad, if_neg h0, if_neg h1, e1, e2]
        congr 1 <;> omega
  rw [hr]
  refine ⟨⟨hbeg, hsz, by simp only; omega⟩, ?_, ?_, ?_⟩
  · simp only [raisedPad, pad, sliceRows]; omega
  · simp only [raisedPad, pad, sliceRows]
  · intro i j hi hi2 hj hj2
    simp only [raisedPad, pad, sliceRows] at hi2 hj2
    have hiff : (0 ≤ i - t' ∧ i - t' < n - t' - b') ↔ (0 ≤ b + i - t ∧ b + i - t < x.h) := by
      rcases hin with h | h <;> rcases hend with ⟨h2, h3⟩ | h3 <;> constructor <;> intro hx <;> constructor <;> omega
    show Img.at z _ _ _ = Img.at z _ _ _
    apply Img.at_eq
    · simp only [sliceRows]
      rw [← and_assoc, hiff, and_assoc]
    · intro _
      simp only [sliceRows]
      congr 1; omega

example : ∃ (x : Img Int), raiseSlicePad x.h x.w (x.h + 1 + 1) (x.w + 1 + 1) 0 5 = ⟨0, 4, 1, 0, 1, 1⟩ :=
  ⟨⟨8, 8, fun i j => i + j⟩, by decide⟩

/-- **Refuted for asymmetric pads**: padding one row on top only, the raised slice of the first row shows data instead of
padding. -/
theorem C11_asymmetric_pad_refuted :
    let x : Img Int := ⟨4, 1, fun i _ => i + 1⟩
    let r := raiseSlicePad 4 1 5 1 0 2
    ¬ (raisedPad 0 r x).Same (sliceRows 0 2 (pad 0 1 0 0 0 x)) := by
  intro x r h
  have := h.2.2 0 0 (by decide) (by decide) (by decide) (by decide)
  revert this; decide

/-! ### C12 -/

/-- **C12 (nested slices).** Whenever a slice is replaced because another slice of the same value contains it, the
replacement is the same tensor and the inner slice is in bounds. -/
theorem C12_combine_slices {α : Type} (y : Img α) (b n : Int) (hn : 0 ≤ n) (cands : List (Int × Int)) (v : Img α)
    (h : combineSlice b n cands y = some v) :
    v.Same (sliceRows b n y) ∧ ∃ c ∈ cands, SliceOK (b - c.1) n (sliceRows c.1 c.2 y) := by
  unfold combineSlice at h
  obtain ⟨c, hc, rfl⟩ := Option.map_eq_some_iff.1 h
  unfold findContaining at hc
  have h1 := List.find?_some hc
  have h2 := List.mem_of_find?_eq_some hc
  simp only [decide_eq_true_eq] at h1
  refine ⟨?_, c, h2, ?_⟩
  · split
    · rename_i he
      rw [he.1, he.2]; exact Img.Same.refl _
    · refine ⟨rfl, rfl, fun i j _ _ _ _ => ?_⟩
      simp only [sliceRows]
      congr 1; ring
  · simp only [SliceOK, sliceRows]; omega

example : findContaining 3 2 [(0, 2), (2, 5)] = some (2, 5) := by decide

/-- **C12 (element-wise operators).** Slicing the operands instead of the result of a broadcasting element-wise operator
gives the same tensor when every operand either has the output's shape or has height 1. -/
theorem C12_raise_slice_binary_partial {α : Type} (f : α → α → α) (h w b n : Int) (x y : Img α)
    (hx : (x.h = h ∧ x.w = w) ∨ x.h = 1) (hy : (y.h = h ∧ y.w = w) ∨ y.h = 1)
    (hb : 0 ≤ b) (hbn : b + n ≤ h) :
    (raisedBinary f h w b n x y).Same (sliceRows b n (ewise f h w x y)) := by
  have key : ∀ u : Img α, ((u.h = h ∧ u.w = w) ∨ u.h = 1) → ∀ i j : Int, 0 ≤ i → i < n →
      (bcast n w (raisedOperand h w b n u)).px i j = (bcast h w u).px (b + i) j := by
    intro u hu i j hi hi2
    by_cases hs : u.h = h ∧ u.w = w
    · rw [show raisedOperand h w b n u = sliceRows b n u from if_pos hs]
      simp only [bcast, sliceRows]
      by_cases h1 : u.h = 1
      · have : n = 1 := by omega
        have : b = 0 := by omega
        have : i = 0 := by omega
        simp [*]
      · by_cases hn1 : n = 1
        · have : i = 0 := by omega
          simp [h1, hn1, this]
          rfl
        · simp [h1, hn1]
          rfl
    · have h1 : u.h = 1 := by
        rcases hu with h | h
        · exact absurd h hs
        · exact h
      rw [show raisedOperand h w b n u = u from if_neg hs]
      simp [bcast, h1]
  refine ⟨rfl, rfl, fun i j hi hi2 hj hj2 => ?_⟩
  simp only [raisedBinary, ewise, sliceRows] at hi2 ⊢
  rw [key x hx i j hi hi2, key y hy i j hi hi2]

example : ((⟨4, 3, fun i j => i + j⟩ : Img Int).h = 4) ∧ (⟨1, 1, fun _ _ => 7⟩ : Img Int).h = 1 := ⟨rfl, rfl⟩

/-- **C12 refuted for operands broadcast only along the width**: an operand of height 4 and width 1 is left whole, so
rows 2 and 3 of the result are combined with rows 0 and 1 of that operand. -/
theorem C12_width_broadcast_refuted :
    let x : Img Int := ⟨4, 2, fun _ _ => 0⟩
    let y : Img Int := ⟨4, 1, fun i _ => i⟩
    ¬ (raisedBinary (· + ·) 4 2 2 2 x y).Same (sliceRows 2 2 (ewise (· + ·) 4 2 x y)) := by
  intro x y h
  have := h.2.2 0 0 (by decide) (by decide) (by decide) (by decide)
  revert this; decide

end Verif.OpSplit
