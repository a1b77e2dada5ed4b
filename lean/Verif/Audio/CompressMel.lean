import Verif.Audio.Mel
import Mathlib.Tactic.NormNum
import Mathlib.Algebra.BigOperators.Ring.List
/-!
C90: compress_mel.py and mel.c agree on the matrix.
-/
namespace Verif.Audio

/-- The matrices that mel.h 8-14 allows: `first i` is the row of the first non-zero element of column `i`; at most the row below
holds another one; both add up to one; from column to column the first row stays or goes down by one. -/
structure Banded (fb : Nat → Nat → ℚ) (n : Nat) (first : Nat → Nat) : Prop where
  nonzero : ∀ i, i < n → fb (first i) i ≠ 0
  above : ∀ i m, i < n → m < first i → fb m i = 0
  below : ∀ i m, i < n → first i + 1 < m → fb m i = 0
  one : ∀ i, i < n → fb (first i) i + fb (first i + 1) i = 1
  step : ∀ i, i + 1 < n → first (i + 1) = first i ∨ first (i + 1) = first i + 1

theorem owner_append_lt (A B : List Nat) (i : Nat) (h : i < A.sum) : owner (A ++ B) i = owner A i := by
  induction A generalizing i with
  | nil => simp at h
  | cons a A ih =>
    simp only [List.sum_cons] at h
    simp only [List.cons_append, owner]
    split
    · rfl
    · rw [ih _ (by omega)]

theorem owner_append_ge (A : List Nat) (c i : Nat) (h : A.sum ≤ i) (hc : i < A.sum + c) : owner (A ++ [c]) i = A.length := by
  induction A generalizing i with
  | nil => simp at hc; simp [owner, hc]
  | cons a A ih =>
    simp only [List.sum_cons] at h hc
    simp only [List.cons_append, owner]
    rw [if_neg (by omega), ih _ (by omega) (by omega), List.length_cons]

/-- The state of the script after `k` columns. -/
structure CmInv (fb : Nat → Nat → ℚ) (first : Nat → Nat) (k : Nat) (s : CmSt) : Prop where
  len : s.runs.length = s.mel
  sum : s.runs.reverse.sum + s.current = k
  cur : k = 0 ∨ 1 ≤ s.current
  pos : ∀ r ∈ s.runs, 1 ≤ r
  old : ∀ i, i < s.runs.reverse.sum → owner s.runs.reverse i = first i
  new : ∀ i, s.runs.reverse.sum ≤ i → i < k → first i = s.mel
  vals : s.mels.reverse = (List.range k).map fun i => fb (first i) i
  start : k = 0 → s.mel = 0

theorem cmStep_inv {fb : Nat → Nat → ℚ} {first : Nat → Nat} {n k : Nat} {s : CmSt} (hb : Banded fb n first) (h0 : first 0 = 0) (hk : k < n)
    (h : CmInv fb first k s) : CmInv fb first (k + 1) (cmStep fb s k) := by
  have prev : k ≠ 0 → first (k - 1) = s.mel := by
    intro hk0
    rcases h.cur with q | q
    · exact absurd q hk0
    · exact h.new (k - 1) (by have := h.sum; omega) (by omega)
  have fk : first k = s.mel ∨ (first k = s.mel + 1 ∧ k ≠ 0) := by
    by_cases hk0 : k = 0
    · subst hk0; left; rw [h0, h.start rfl]
    · have := hb.step (k - 1) (by omega)
      rw [Nat.sub_add_cancel (by omega), prev hk0] at this
      rcases this with q | q
      · exact .inl q
      · exact .inr ⟨q, hk0⟩
  by_cases c : fb s.mel k = 0
  · have f1 : first k = s.mel + 1 ∧ k ≠ 0 := by
      rcases fk with q | q
      · exact absurd (q ▸ c) (hb.nonzero k hk)
      · exact q
    have e : cmStep fb s k = ⟨s.mel + 1, 1, s.current :: s.runs, fb (s.mel + 1) k :: s.mels⟩ := by simp [cmStep, c]
    have sr : (s.current :: s.runs).reverse.sum = k := by rw [List.reverse_cons, List.sum_append]; simpa using h.sum
    rw [e]
    refine ⟨by simp [h.len], by simp only; rw [sr], .inr (by simp), ?_, ?_, ?_, ?_, by intro; omega⟩
    · intro r hr
      rcases List.mem_cons.1 hr with q | q
      · have := h.cur; omega
      · exact h.pos r q
    · intro i hi
      simp only at hi ⊢
      rw [sr] at hi
      rw [List.reverse_cons]
      by_cases hi' : i < s.runs.reverse.sum
      · rw [owner_append_lt _ _ _ hi', h.old i hi']
      · rw [owner_append_ge _ _ _ (by omega) (by have := h.sum; omega), List.length_reverse, h.len, h.new i (by omega) hi]
    · intro i hi hi'
      simp only at hi ⊢
      rw [sr] at hi
      have : i = k := by omega
      rw [this, f1.1]
    · simp only [List.reverse_cons]
      rw [h.vals, List.range_succ, List.map_append, List.map_cons, List.map_nil, f1.1]
  · have f1 : first k = s.mel := by
      rcases fk with q | q
      · exact q
      · exact absurd (hb.above k s.mel hk (by omega)) c
    have e : cmStep fb s k = ⟨s.mel, s.current + 1, s.runs, fb s.mel k :: s.mels⟩ := by simp [cmStep, c]
    rw [e]
    refine ⟨h.len, ?_, .inr (by simp), h.pos, h.old, ?_, ?_, by intro; omega⟩
    · simp only; have := h.sum; omega
    · intro i hi hi'
      by_cases q : i = k
      · rw [q]; exact f1
      · exact h.new i hi (by omega)
    · simp only [List.reverse_cons]
      rw [h.vals, List.range_succ, List.map_append, List.map_cons, List.map_nil, f1]

theorem cmFold {fb : Nat → Nat → ℚ} {first : Nat → Nat} {n : Nat} (hb : Banded fb n first) (h0 : first 0 = 0) (k : Nat) :
    k ≤ n → CmInv fb first k ((List.range k).foldl (cmStep fb) ⟨0, 0, [], []⟩) := by
  induction k with
  | zero => intro _; exact ⟨rfl, rfl, .inl rfl, by simp, by simp, by intros; omega, rfl, fun _ => rfl⟩
  | succ k ih =>
    intro hk
    rw [List.range_succ, List.foldl_append]
    exact cmStep_inv hb h0 (by omega) (ih (by omega))

theorem toQ30_near (v : ℚ) : |((toQ30 v : Int) : ℚ) / 2 ^ 30 - v| ≤ 1 / 2 ^ 31 := by
  have a := Int.floor_le (v * 2 ^ 30 + 1 / 2)
  have b := (Int.lt_floor_add_one (v * 2 ^ 30 + 1 / 2)).le
  unfold toQ30
  generalize (⌊v * 2 ^ 30 + 1 / 2⌋ : Int) = q at *
  rw [abs_le]
  constructor
  · rw [le_sub_iff_add_le, le_div_iff₀ (by norm_num)]; norm_num at *; linarith
  · rw [sub_le_iff_le_add, div_le_iff₀ (by norm_num)]; norm_num at *; linarith

theorem percentF_near (v : ℚ) : |percentF v - v| ≤ 1 / 2000000 := by
  have a := Int.floor_le (v * 1000000 + 1 / 2)
  have b := (Int.lt_floor_add_one (v * 1000000 + 1 / 2)).le
  unfold percentF
  generalize (⌊v * 1000000 + 1 / 2⌋ : Int) = q at *
  rw [abs_le]
  constructor
  · rw [le_sub_iff_add_le, le_div_iff₀ (by norm_num)]; norm_num at *; linarith
  · rw [sub_le_iff_le_add, div_le_iff₀ (by norm_num)]; norm_num at *; linarith

/-- **C90.** For every matrix that mel.h allows and whose first column starts in the first row, the tables of the script are what
`mel_compress` and `mel_expand` expect, and the matrix that they stand for differs from the original by less than a millionth
in every element. -/
theorem C90_roundtrip_partial (fb : Nat → Nat → ℚ) (n : Nat) (first : Nat → Nat) (hn : 0 < n) (hb : Banded fb n first) (h0 : first 0 = 0) :
    let t := compress_mel fb n
    (∀ r ∈ t.1, 1 ≤ r) ∧ t.1.sum = n ∧ t.2.length = n ∧ (∀ i, i < n → owner t.1 i = first i) ∧
    (∀ i m, i < n → |matrixAt t.1 (fun i => t.2.getD i 0) m i - fb m i| ≤ 1 / 1000000) := by
  have h := cmFold hb h0 n le_rfl
  intro t
  have hc : ((List.range n).foldl (cmStep fb) ⟨0, 0, [], []⟩).current ≠ 0 := by have := h.cur; omega
  have ht : t = ((((List.range n).foldl (cmStep fb) ⟨0, 0, [], []⟩).current :: ((List.range n).foldl (cmStep fb) ⟨0, 0, [], []⟩).runs).reverse,
      (((List.range n).foldl (cmStep fb) ⟨0, 0, [], []⟩).mels.reverse).map fun v => toQ30 (percentF v)) := by
    change compress_mel fb n = _
    unfold compress_mel
    simp only [if_pos hc]
  clear_value t
  generalize (List.range n).foldl (cmStep fb) ⟨0, 0, [], []⟩ = s at *
  subst ht
  have ow : ∀ i, i < n → owner (s.current :: s.runs).reverse i = first i := by
    intro i hi
    rw [List.reverse_cons]
    by_cases c : i < s.runs.reverse.sum
    · rw [owner_append_lt _ _ _ c, h.old i c]
    · rw [owner_append_ge _ _ _ (by omega) (by have := h.sum; omega), List.length_reverse, h.len, h.new i (by omega) hi]
  refine ⟨?_, ?_, ?_, ow, ?_⟩
  · intro r hr
    simp only [List.mem_reverse, List.mem_cons] at hr
    rcases hr with q | q
    · omega
    · exact h.pos r q
  · simp only [List.reverse_cons, List.sum_append]; simpa using h.sum
  · simp [h.vals]
  · intro i m hi
    have hv : ((s.mels.reverse).map fun v => toQ30 (percentF v)).getD i 0 = toQ30 (percentF (fb (first i) i)) := by
      rw [h.vals]
      simp [List.getD_eq_getElem?_getD, hi]
    have near : |((toQ30 (percentF (fb (first i) i)) : Int) : ℚ) / 2 ^ 30 - fb (first i) i| ≤ 1 / 1000000 := by
      have a := abs_le.1 (toQ30_near (percentF (fb (first i) i)))
      have b := abs_le.1 (percentF_near (fb (first i) i))
      rw [abs_le]
      norm_num at *
      constructor <;> linarith
    unfold matrixAt
    simp only
    rw [hv, ow i hi]
    by_cases c1 : first i = m
    · rw [if_pos c1, ← c1]; exact near
    · rw [if_neg c1]
      by_cases c2 : first i + 1 = m
      · rw [if_pos c2, ← c2]
        have := hb.one i hi
        rw [show (1 : ℚ) - ((toQ30 (percentF (fb (first i) i)) : Int) : ℚ) / 2 ^ 30 - fb (first i + 1) i =
          -(((toQ30 (percentF (fb (first i) i)) : Int) : ℚ) / 2 ^ 30 - fb (first i) i) by linarith, abs_neg]
        exact near
      · rw [if_neg c2]
        have : fb m i = 0 := by
          rcases Nat.lt_or_ge m (first i) with q | q
          · exact hb.above i m hi q
          · exact hb.below i m hi (by omega)
        rw [this]; norm_num

theorem percentF_unit (v : ℚ) (h0 : 0 ≤ v) (h1 : v ≤ 1) : 0 ≤ percentF v ∧ percentF v ≤ 1 := by
  unfold percentF
  have a : 0 ≤ (⌊v * 1000000 + 1 / 2⌋ : Int) := Int.floor_nonneg.2 (by positivity)
  have b : (⌊v * 1000000 + 1 / 2⌋ : Int) < 1000001 := by rw [Int.floor_lt]; push_cast; linarith
  generalize (⌊v * 1000000 + 1 / 2⌋ : Int) = q at *
  have a' : (0 : ℚ) ≤ q := by exact_mod_cast a
  have b' : (q : ℚ) ≤ 1000000 := by exact_mod_cast (by omega : q ≤ 1000000)
  constructor
  · positivity
  · rw [div_le_one (by norm_num)]; exact b'

theorem toQ30_unit (v : ℚ) (h0 : 0 ≤ v) (h1 : v ≤ 1) : 0 ≤ toQ30 v ∧ toQ30 v ≤ 2 ^ 30 := by
  unfold toQ30
  constructor
  · exact Int.floor_nonneg.2 (by positivity)
  · have : (⌊v * 2 ^ 30 + 1 / 2⌋ : Int) < 2 ^ 30 + 1 := by rw [Int.floor_lt]; push_cast; norm_num; linarith
    omega

theorem zipIdx_range {α β : Type} (l : List α) (d : α) (g : α × Nat → β) : l.zipIdx.map g = (List.range l.length).map fun i => g (l.getD i d, i) := by
  apply List.ext_getElem
  · simp
  · intro i h1 h2
    simp only [List.length_map, List.length_zipIdx] at h1
    simp [List.getD_eq_getElem?_getD, h1]

theorem sum_range_near (n : Nat) (f g : Nat → ℚ) (e : Nat → ℚ) (h : ∀ i, i < n → |f i - g i| ≤ e i) :
    |((List.range n).map f).sum - ((List.range n).map g).sum| ≤ ((List.range n).map e).sum := by
  induction n with
  | zero => simp
  | succ n ih =>
    have a := ih (fun i hi => h i (by omega))
    have b := h n (by omega)
    simp only [List.range_succ, List.map_append, List.sum_append, List.map_cons, List.map_nil, List.sum_cons, List.sum_nil, add_zero]
    have e : ((List.range n).map f).sum + f n - (((List.range n).map g).sum + g n) =
        (((List.range n).map f).sum - ((List.range n).map g).sum) + (f n - g n) := by ring
    rw [e]
    exact (abs_add_le _ _).trans (add_le_add a b)

/-- **C90, script and C code together.** The mel values that `mel_compress` computes with the tables of the script are the
product with the original matrix, within one for every column plus a millionth of the sum of the magnitudes. -/
theorem C90_product_partial (fb : Nat → Nat → ℚ) (n : Nat) (first : Nat → Nat) (size : Nat) (x : List Int) (hn : 0 < n)
    (hb : Banded fb n first) (h0 : first 0 = 0) (hnn : ∀ m i, 0 ≤ fb m i) (hs : ∀ i, i < n → first i + 1 < size) (hx : x.length = n)
    (hr : (x.map fun v => |v|).sum < 2 ^ 31) :
    ∃ out, mel_compress size ((compress_mel fb n).1.map (fun r : Nat => (r : Int))) (x.zip (compress_mel fb n).2) = some out ∧
      ∀ m, m ≤ first (n - 1) + 1 → ∃ v : Int, out[m]? = some (some v) ∧
        |(v : ℚ) - ((List.range n).map fun i => fb m i * x.getD i 0).sum| ≤ n + (x.map fun v : Int => |(v : ℚ)|).sum / 1000000 := by
  obtain ⟨t1, t2, t3, t4, t5⟩ := C90_roundtrip_partial fb n first hn hb h0
  have hfr : ∀ f ∈ (compress_mel fb n).2, 0 ≤ f ∧ f ≤ 2 ^ 30 := by
    intro f hf
    have hv := (cmFold hb h0 n le_rfl).vals
    unfold compress_mel at hf
    simp only [hv, List.map_map, List.mem_map, List.mem_range] at hf
    obtain ⟨i, hi, rfl⟩ := hf
    have o := hb.one i hi
    have u := percentF_unit (fb (first i) i) (hnn _ _) (by have := hnn (first i + 1) i; linarith)
    exact toQ30_unit _ u.1 u.2
  generalize compress_mel fb n = t at *
  have len : (x.zip t.2).length = n := by rw [List.length_zip, hx, t3]; simp
  have ok : MelOK size t.1 (x.zip t.2) := by
    refine ⟨t1, by omega, ?_, ?_, ?_⟩
    · intro i hi
      rw [len] at hi
      rw [t4 i hi]
      exact hs i hi
    · intro p hp
      exact hfr _ (List.of_mem_zip hp).2
    · have e : (fun p : Int × Int => |p.1|) = (fun b => |b|) ∘ Prod.fst := rfl
      rw [e, ← List.map_map, List.map_fst_zip (by omega)]
      exact hr
  obtain ⟨out, e, -, hv⟩ := C88_compress_partial size t.1 [] _ ok (by intro h; rw [h] at len; simp at len; omega)
  refine ⟨out, by simpa using e, ?_⟩
  intro m hm
  refine ⟨_, hv m (by rw [len, t4 _ (by omega)]; exact hm), ?_⟩
  have a := C88_matrix t.1 (x.zip t.2) m
  have tb : (touching t.1 m n : ℚ) ≤ n := by
    have : touching t.1 m n ≤ n := by
      have := List.length_filter_le (fun i => decide (owner t.1 i = m ∨ owner t.1 i + 1 = m)) (List.range n)
      rw [List.length_range] at this
      exact this
    exact_mod_cast this
  rw [len] at a
  have b : |exactProduct t.1 (x.zip t.2) m - ((List.range n).map fun i => fb m i * x.getD i 0).sum| ≤ (x.map fun v : Int => |(v : ℚ)|).sum / 1000000 := by
    unfold exactProduct
    rw [zipIdx_range _ (0, 0), len]
    refine (sum_range_near n _ _ (fun i => |(x.getD i 0 : ℚ)| * (1 / 1000000)) ?_).trans (le_of_eq ?_)
    · intro i hi
      have hz : (x.zip t.2).getD i (0, 0) = (x.getD i 0, t.2.getD i 0) := by
        simp [List.getD_eq_getElem?_getD, List.getElem?_zip_eq_some, hx, hi, t3]
      simp only
      rw [hz]
      have q := t5 i m hi
      have e : matrixAt t.1 (fun _ => t.2.getD i 0) m i = matrixAt t.1 (fun i => t.2.getD i 0) m i := rfl
      rw [e, ← sub_mul, abs_mul, mul_comm]
      exact mul_le_mul_of_nonneg_left q (abs_nonneg _)
    · have : (List.range n).map (fun i => |(x.getD i 0 : ℚ)| * (1 / 1000000)) = x.map fun v : Int => |(v : ℚ)| * (1 / 1000000) := by
        apply List.ext_getElem
        · simp [hx]
        · intro i h1 h2
          simp only [List.length_map] at h2
          simp [List.getD_eq_getElem?_getD, h2]
      rw [this, List.sum_map_mul_right]
      ring
  obtain ⟨a1, a2⟩ := abs_le.1 a
  obtain ⟨b1, b2⟩ := abs_le.1 b
  rw [abs_le]
  constructor <;> linarith

/-- The matrix of compress_mel.py 26-46. -/
def shippedMatrix (m j : Nat) : ℚ :=
  let row := if j < 16 then j else if j < 48 then 16 + (j - 16) / 2 else if j < 112 then 32 + (j - 48) / 4 else 48 + (j - 112) / 10
  let k : ℚ := if j < 16 then 0 else if j < 48 then ((j - 16) % 2 : Nat) / 2 else if j < 112 then ((j - 48) % 4 : Nat) / 4 else ((j - 112) % 10 : Nat) / 10
  if m = row then 1 - k else if m = row + 1 then k else 0

/-- **C90 for the tables in use.** mel_parameters.h is what the script prints for its own matrix. -/
theorem C90_shipped : compress_mel shippedMatrix 257 = (usedRuns, shippedFractions) := by decide +kernel

end Verif.Audio
