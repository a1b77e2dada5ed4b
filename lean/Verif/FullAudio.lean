import Verif.Audio.Log
import Verif.Audio.Masks
import Verif.Audio.CompressMel
import Verif.Audio.Predict
/-!
Full statements of the properties of the audio example that are proved in part, and their refutations.
-/
namespace Verif.Audio
open Real

/-- C86 in full: the 8-bit version too keeps its accuracy on 64-bit numbers. -/
def C86_full : Prop := ∀ x : Nat, 1 ≤ x → x < 2 ^ 64 → -1.7 ≤ (log2_8_64 x : ℝ) - 8 * logb 2 x ∧ (log2_8_64 x : ℝ) - 8 * logb 2 x ≤ 0

/-- It does not: for `2 ^ 40` it returns 257, and eight times the logarithm is 320. -/
theorem C86_full_refuted : ¬ C86_full := by
  intro h
  have := (h (2 ^ 40) (by norm_num) (by norm_num)).1
  have e : log2_8_64 (2 ^ 40) = 257 := by
    decide +kernel
  rw [e] at this
  rw [show (((2 ^ 40 : Nat) : ℝ)) = (2 : ℝ) ^ 40 by norm_cast, logb_pow, logb_self_eq_one (by norm_num)] at this
  norm_num at this

/-- C88 in full: for every matrix that mel.h allows, an array with one element for every row is enough. -/
def C88_full : Prop := ∀ (size : Nat) (runs : List Nat) (xs : List (Int × Int)), (∀ r ∈ runs, 1 ≤ r) → xs.length ≤ runs.sum →
  (∀ i, i < xs.length → owner runs i < size) → (∀ p ∈ xs, 0 ≤ p.2 ∧ p.2 ≤ 2 ^ 30) → ∃ out, mel_compress size (runs.map (fun r : Nat => (r : Int))) xs = some out

/-- It is not: for the identity matrix with two rows the third element of the array is written. -/
theorem C88_full_refuted : ¬ C88_full := by
  intro h
  obtain ⟨out, e⟩ := h 2 [1, 1] [(5, 2 ^ 30), (7, 2 ^ 30)] (by decide) (by decide) (by decide) (by decide)
  have : mel_compress 2 ([1, 1].map (fun r : Nat => (r : Int))) [(5, 2 ^ 30), (7, 2 ^ 30)] = none := by decide +kernel
  rw [this] at e
  exact absurd e (by simp)

/-- C90 in full: the tables are right for every matrix that mel.h allows, wherever its first column starts. -/
def C90_full : Prop := ∀ (fb : Nat → Nat → ℚ) (n : Nat) (first : Nat → Nat) (size : Nat) (x : List Int), 0 < n → Banded fb n first → (∀ m i, 0 ≤ fb m i) →
  (∀ i, i < n → first i + 1 < size) → x.length = n → (x.map fun v => |v|).sum < 2 ^ 31 →
  ∃ out, mel_compress size ((compress_mel fb n).1.map (fun r : Nat => (r : Int))) (x.zip (compress_mel fb n).2) = some out ∧
    ∀ m, m ≤ first (n - 1) + 1 → ∃ v : Int, out[m]? = some (some v) ∧
      |(v : ℚ) - ((List.range n).map fun i => fb m i * x.getD i 0).sum| ≤ n + (x.map fun v : Int => |(v : ℚ)|).sum / 1000000

/-- They are not: one column whose only element is in the second row gets an empty first run, and `mel_compress` counts the column
for the first row. -/
theorem C90_full_refuted : ¬ C90_full := by
  intro h
  obtain ⟨out, e, v⟩ := h (fun m _ => if m = 1 then 1 else 0) 1 (fun _ => 1) 3 [1000] (by omega)
    ⟨by simp, by intro i m _ hm; simp; omega, by intro i m _ hm; simp; omega, by simp, by intros; omega⟩
    (by intro m i; split <;> norm_num) (by simp) rfl (by decide)
  have he : mel_compress 3 ((compress_mel (fun m _ => if m = 1 then 1 else 0) 1).1.map (fun r : Nat => (r : Int)))
      ([1000].zip (compress_mel (fun m _ => if m = 1 then 1 else 0) 1).2) = some [some 1000, some 0, none] := by decide +kernel
  rw [he] at e
  cases e
  obtain ⟨w, hw, hb⟩ := v 1 (by simp)
  simp only [List.getElem?_cons_succ, List.getElem?_cons_zero, Option.some.injEq] at hw
  subst hw
  norm_num at hb

/-- C92 in full: masks grow with outputs in every state of the buttons. -/
def C92_full : Prop := ∀ (b : Nat) (o o' : ℚ), 0 ≤ o → o ≤ o' → o' ≤ 1 → ∃ m m', maskOf b o = some m ∧ maskOf b o' = some m' ∧ 0 ≤ m ∧ m ≤ m'

/-- They do not: 747 shifted by 22 does not fit in 32 bits, and the mask of a sure output becomes negative. -/
theorem C92_full_refuted : ¬ C92_full := by
  intro h
  obtain ⟨m, m', -, e, h0, h1⟩ := h 3 1 1 (by norm_num) le_rfl le_rfl
  have : maskOf 3 1 = some (-277 * 2 ^ 22) := by decide +kernel
  rw [this] at e
  cases e
  omega

end Verif.Audio
