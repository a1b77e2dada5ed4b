import Verif.OpSplit.Model
namespace Verif.OpSplit
open Verif.Image

/-- Consecutive ranges from `s` to `e`. -/
def Chain : Nat → Nat → List (Nat × Nat) → Prop
  | s, e, [] => s = e
  | s, e, (b, n) :: rest => b = s ∧ Chain (b + n) e rest

theorem slicesFrom_chain (q r cnt i p : Nat) (hr : r ≤ i + cnt) :
    Chain p (p + q * cnt + (r - i)) (slicesFrom q r cnt i p) := by
  induction cnt generalizing i p with
  | zero => simp only [slicesFrom, Chain]; omega
  | succ n ih =>
    simp only [slicesFrom, Chain, true_and]
    have := ih (i + 1) (p + if i < r then q + 1 else q) (by omega)
    have e : q * (n + 1) = q * n + q := Nat.mul_succ _ _
    convert this using 1
    split <;> omega

theorem slicesFrom_mem (q r cnt i p : Nat) : ∀ bn ∈ slicesFrom q r cnt i p, q ≤ bn.2 ∧ bn.2 ≤ q + 1 ∧
    (bn.2 = q + 1 → 0 < r) := by
  induction cnt generalizing i p with
  | zero => simp [slicesFrom]
  | succ n ih =>
    intro bn h
    simp only [slicesFrom, List.mem_cons] at h
    rcases h with h | h
    · subst h; simp only; split <;> omega
    · exact ih _ _ bn h

theorem slicesFrom_length (q r cnt i p : Nat) : (slicesFrom q r cnt i p).length = cnt := by
  induction cnt generalizing i p with
  | zero => rfl
  | succ n ih => simp [slicesFrom, ih]

theorem opSplit_chain (H n : Nat) (hn : 1 ≤ n) : Chain 0 H (opSplitSlices H n) := by
  have h := slicesFrom_chain (H / n) (H % n) n 0 0 (by have := Nat.mod_lt H (by omega : 0 < n); omega)
  have e : 0 + H / n * n + (H % n - 0) = H := by
    have := Nat.div_add_mod H n
    rw [Nat.mul_comm] at this; omega
  rw [e] at h
  exact h

theorem chain_le {s e : Nat} {l : List (Nat × Nat)} (h : Chain s e l) : s ≤ e := by
  induction l generalizing s with
  | nil => exact Nat.le_of_eq h
  | cons bn rest ih =>
    obtain ⟨h1, h2⟩ := h
    have := ih h2
    omega

theorem chain_mem {s e : Nat} {l : List (Nat × Nat)} (h : Chain s e l) :
    ∀ bn ∈ l, s ≤ bn.1 ∧ bn.1 + bn.2 ≤ e := by
  induction l generalizing s with
  | nil => simp
  | cons bn rest ih =>
    obtain ⟨h1, h2⟩ := h
    intro x hx
    have hle := chain_le h2
    rcases List.mem_cons.1 hx with h | h
    · subst h; omega
    · have := ih h2 x h; omega

/-- Concatenating images that agree with consecutive slices of `y` gives the rows `[s, e)` of `y`. -/
theorem concat_chain {α : Type} [Inhabited α] (y : Img α) (l : List (Nat × Nat)) (f : Nat × Nat → Img α)
    (hf : ∀ bn ∈ l, (f bn).Same (sliceRows bn.1 bn.2 y)) (s e : Nat) (h : Chain s e l) :
    (concatRows y.w (l.map f)).Same (sliceRows s (e - s) y) := by
  induction l generalizing s with
  | nil =>
    have : s = e := h
    subst this
    refine ⟨?_, rfl, ?_⟩
    · simp [concatRows, sliceRows]
    · intro i j h1 h2; simp [concatRows] at h2; omega
  | cons bn rest ih =>
    obtain ⟨b, n⟩ := bn
    obtain ⟨h1, h2⟩ := h
    have h1 : b = s := h1
    subst h1
    have h2 : Chain (b + n) e rest := h2
    have hs := ih (fun bn hb => hf bn (by simp [hb])) (b + n) h2
    have hc := hf (b, n) (by simp)
    have hle := chain_le h2
    have hmono : b ≤ e := by omega
    obtain ⟨c1, c2, c3⟩ := hc
    obtain ⟨s1, s2, s3⟩ := hs
    simp only [concatRows, sliceRows] at s1 s2 s3 c1 c2 c3
    simp only [concatRows, List.map_cons, List.foldr_cons, vcat, sliceRows]
    refine ⟨?_, c2, ?_⟩
    · show (f (b, n)).h + _ = _
      rw [c1, s1]; push_cast; ring
    · intro i j hi hi2 hj hj2
      simp only [vcat] at hi2 hj2 ⊢
      rw [c1] at hi2 ⊢
      split
      · rename_i hlt
        rw [c3 i j hi (by rw [c1]; exact hlt) hj hj2]
      · rename_i hge
        rw [s3 (i - n) j (by omega) (by omega) hj (by rw [s2, ← c2]; exact hj2)]
        congr 1
        push_cast; ring

end Verif.OpSplit
