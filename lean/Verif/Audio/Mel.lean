import Verif.Audio.MelModel
import Mathlib.Tactic.Linarith
import Mathlib.Tactic.Ring
import Mathlib.Tactic.FieldSimp
import Mathlib.Algebra.BigOperators.Group.Finset.Basic
import Mathlib.Algebra.BigOperators.Group.Finset.Piecewise
import Mathlib.Algebra.Order.BigOperators.Group.Finset
/-!
C88, C89, C90: the products with the compressed matrix.
-/
namespace Verif.Audio

/-! ### Specification: the matrix behind the compressed format (mel.h 8-25) -/

/-- The row of the first non-zero element of column `i`: row 0 for the first `runs[0]` columns, row 1 for the next `runs[1]`, ... -/
def owner : List Nat → Nat → Nat
  | [], _ => 0
  | r :: rs, i => if i < r then 0 else owner rs (i - r) + 1

/-- The element in row `m` and column `i`: the fraction, and what is missing to one in the row below. -/
def matrixAt (runs : List Nat) (f : Nat → Int) (m i : Nat) : ℚ :=
  if owner runs i = m then f i / 2 ^ 30 else if owner runs i + 1 = m then 1 - f i / 2 ^ 30 else 0

/-- What column `i` adds to row `m`, in integers. -/
def term (runs : List Nat) (m i : Nat) (x f : Int) : Int :=
  if owner runs i = m then x * f / 2 ^ 30 else if owner runs i + 1 = m then x - x * f / 2 ^ 30 else 0

/-- Row `m` of the product, in integers. -/
def melSum (runs : List Nat) (xs : List (Int × Int)) (m : Nat) : Int := (xs.zipIdx.map fun p => term runs m p.2 p.1.1 p.1.2).sum

/-! ### Owners -/

theorem owner_of {runs : List Nat} {r k : Nat} (h1 : (runs.take r).sum ≤ k) (h2 : k < (runs.take (r + 1)).sum) : owner runs k = r := by
  induction runs generalizing r k with
  | nil => simp at h2
  | cons a rs ih =>
    cases r with
    | zero =>
      simp at h2
      rw [owner, if_pos (by omega)]
    | succ r =>
      simp only [List.take_succ_cons, List.sum_cons] at h1 h2
      rw [owner, if_neg (by omega), ih (r := r) (by omega) (by omega)]

theorem owner_lt {runs : List Nat} {r k : Nat} (h : k < (runs.take r).sum) : owner runs k < r := by
  induction runs generalizing r k with
  | nil => simp at h
  | cons a rs ih =>
    cases r with
    | zero => simp at h
    | succ r =>
      simp only [List.take_succ_cons, List.sum_cons] at h
      rw [owner]
      split
      · omega
      · have := ih (r := r) (k := k - a) (by omega)
        omega

theorem take_succ_sum {runs : List Nat} {r : Nat} (h : r < runs.length) : (runs.take (r + 1)).sum = (runs.take r).sum + runs[r] := by
  rw [List.take_add_one, List.getElem?_eq_getElem h, List.sum_append]; simp

/-! ### Arithmetic -/

theorem wrap32_add (a b : Int) : wrap32 (wrap32 a + b) = wrap32 (a + b) := by unfold wrap32; omega

theorem wrap32_add_right (a b : Int) : wrap32 (a + wrap32 b) = wrap32 (a + b) := by unfold wrap32; omega

theorem wrap32_sub_right (a b : Int) : wrap32 (a - wrap32 b) = wrap32 (a - b) := by unfold wrap32; omega

theorem wrap32_id {v : Int} (h1 : -2 ^ 31 ≤ v) (h2 : v < 2 ^ 31) : wrap32 v = v := by unfold wrap32; omega

theorem melSum_append (runs : List Nat) (xs : List (Int × Int)) (x : Int × Int) (m : Nat) :
    melSum runs (xs ++ [x]) m = melSum runs xs m + term runs m xs.length x.1 x.2 := by
  simp [melSum, List.zipIdx_append]

theorem melSum_zero {runs : List Nat} {xs : List (Int × Int)} {m : Nat} (h : ∀ i, i < xs.length → owner runs i + 1 < m) : melSum runs xs m = 0 := by
  apply List.sum_eq_zero
  intro v hv
  rw [List.mem_map] at hv
  obtain ⟨p, hp, rfl⟩ := hv
  have hi : p.2 < xs.length := by
    have := List.mem_zipIdx hp
    omega
  have := h p.2 hi
  rw [term, if_neg (by omega), if_neg (by omega)]

/-! ### mel_compress -/

/-- The state after the columns `xs`. -/
structure MelInv (size : Nat) (runs : List Nat) (xs : List (Int × Int)) (s : MelSt) : Prop where
  len : s.mel.length = size
  run : s.run = (runs.take s.next).sum - xs.length
  pre : xs.length ≤ (runs.take s.next).sum
  prev : s.next = 0 ∨ (runs.take (s.next - 1)).sum < xs.length
  val : ∀ m, m ≤ s.next → s.mel[m]? = some (some (wrap32 (melSum runs xs m)))

theorem melStep_inv {size : Nat} {runs : List Nat} (tail : List Int) (pos : ∀ r ∈ runs, 1 ≤ r) {xs : List (Int × Int)} {x : Int × Int} {s : MelSt}
    (h : MelInv size runs xs s) (hk : xs.length < runs.sum) (hs : owner runs xs.length + 1 < size) :
    ∃ s', melStep (runs.map (fun r : Nat => (r : Int)) ++ tail) s x = some s' ∧ MelInv size runs (xs ++ [x]) s' := by
  -- the state after the advance
  have adv : ∃ s1, melAdvance (runs.map (fun r : Nat => (r : Int)) ++ tail) s = some s1 ∧ s1.mel.length = size ∧ 1 ≤ s1.next ∧ owner runs xs.length + 1 = s1.next ∧
      s1.run = (runs.take s1.next).sum - xs.length ∧ xs.length < (runs.take s1.next).sum ∧ (runs.take (s1.next - 1)).sum ≤ xs.length ∧
      (∀ m, m ≤ s1.next → s1.mel[m]? = some (some (wrap32 (melSum runs xs m)))) := by
    by_cases c : s.run ≤ 0
    · have e : (runs.take s.next).sum = xs.length := by have := h.run; have := h.pre; omega
      have hn : s.next < runs.length := by
        by_contra hc
        rw [List.take_of_length_le (by omega)] at e
        omega
      have ts := take_succ_sum hn
      have p1 := pos _ (List.getElem_mem hn)
      have ow : owner runs xs.length = s.next := owner_of (by omega) (by omega)
      refine ⟨⟨s.next + 1, (runs[s.next] : Int), s.mel.set (s.next + 1) (some 0)⟩, ?_, ?_, by simp, by simp [ow], ?_, ?_, ?_, ?_⟩
      · unfold melAdvance put
        rw [if_pos c]
        have : s.next + 1 < s.mel.length := by rw [h.len]; omega
        have hr : (runs.map (fun r : Nat => (r : Int)) ++ tail)[s.next]? = some (runs[s.next] : Int) := by
          rw [List.getElem?_append_left (by simpa using hn)]
          simp [hn]
        rw [hr, if_pos this]
        rfl
      · simp [h.len]
      · simp only; omega
      · simp only; omega
      · simp only [Nat.add_sub_cancel]; omega
      · intro m hm
        simp only at hm ⊢
        by_cases em : m = s.next + 1
        · subst em
          have : s.next + 1 < s.mel.length := by rw [h.len]; omega
          rw [List.getElem?_set_self this, melSum_zero]
          · rfl
          · intro i hi
            have := owner_lt (runs := runs) (r := s.next) (k := i) (by omega)
            omega
        · rw [List.getElem?_set_ne (by omega)]
          exact h.val m (by omega)
    · have hr := h.run
      have n0 : s.next ≠ 0 := by
        intro h0
        rw [h0] at hr
        simp at hr
        omega
      have pv : (runs.take (s.next - 1)).sum < xs.length := by rcases h.prev with q | q; exact absurd q n0; exact q
      have ow : owner runs xs.length = s.next - 1 := by
        apply owner_of (by omega)
        rw [Nat.sub_add_cancel (by omega)]
        omega
      refine ⟨s, ?_, h.len, by omega, by omega, hr, by omega, by omega, h.val⟩
      unfold melAdvance
      rw [if_neg c]
  obtain ⟨s1, e1, l1, n1, o1, r1, k1, p1, v1⟩ := adv
  have in1 : s1.next < s1.mel.length := by omega
  have g1 := v1 (s1.next - 1) (by omega)
  have g2 := v1 s1.next (by omega)
  refine ⟨⟨s1.next, s1.run - 1, (s1.mel.set (s1.next - 1) (some (wrap32 (wrap32 (melSum runs xs (s1.next - 1)) + contribution x.1 x.2)))).set s1.next
    (some (wrap32 (wrap32 (melSum runs xs s1.next) + wrap32 (x.1 - contribution x.1 x.2))))⟩, ?_, ?_⟩
  · unfold melStep
    rw [e1]
    have i0 : s1.next - 1 < s1.mel.length := by omega
    have ne : s1.next - 1 ≠ s1.next := by omega
    have g2' : ∀ v, (s1.mel.set (s1.next - 1) v)[s1.next]? = some (some (wrap32 (melSum runs xs s1.next))) := by
      intro v; rw [List.getElem?_set_ne ne, g2]
    simp only [got, put, Option.bind_eq_bind, Option.bind_some, g1, Option.join_some, if_pos i0, g2', List.length_set, if_pos in1]
  · refine ⟨by simp [l1], ?_, ?_, ?_, ?_⟩
    · simp only [List.length_append, List.length_singleton]; push_cast; omega
    · simp only [List.length_append, List.length_singleton]; omega
    · right; simp only [List.length_append, List.length_singleton]; omega
    · intro m hm
      simp only at hm ⊢
      rw [melSum_append]
      unfold contribution
      by_cases em : m = s1.next
      · subst em
        rw [List.getElem?_set_self (by simpa using in1), term, if_neg (by omega), if_pos (by omega)]
        rw [wrap32_add, wrap32_add_right, ← wrap32_add_right _ (x.1 - wrap32 _), wrap32_sub_right, wrap32_add_right]
      · rw [List.getElem?_set_ne (by omega)]
        by_cases em' : m = s1.next - 1
        · subst em'
          rw [List.getElem?_set_self (by omega), term, if_pos (by omega), wrap32_add, wrap32_add_right]
        · rw [List.getElem?_set_ne (by omega), v1 m (by omega), term, if_neg (by omega), if_neg (by omega), Int.add_zero]

theorem melFold {size : Nat} {runs : List Nat} (tail : List Int) (pos : ∀ r ∈ runs, 1 ≤ r) (s0 : MelSt) (h0 : MelInv size runs [] s0) (xs : List (Int × Int)) :
    xs.length ≤ runs.sum → (∀ i, i < xs.length → owner runs i + 1 < size) →
    ∃ s, xs.foldlM (melStep (runs.map (fun r : Nat => (r : Int)) ++ tail)) s0 = some s ∧ MelInv size runs xs s := by
  induction xs using List.reverseRecOn with
  | nil => intro _ _; exact ⟨s0, rfl, h0⟩
  | append_singleton xs x ih =>
    intro hl ho
    simp only [List.length_append, List.length_singleton] at hl ho
    obtain ⟨s, e, hi⟩ := ih (by omega) (fun i h => ho i (by omega))
    obtain ⟨s', e', hi'⟩ := melStep_inv tail (x := x) pos hi (by omega) (ho _ (by omega))
    refine ⟨s', ?_, hi'⟩
    rw [List.foldlM_append, e]
    simpa using e'

/-- What a caller must supply (mel.h 27-54): as many runs as needed, none of them empty, and fractions between zero and one. -/
structure MelOK (size : Nat) (runs : List Nat) (xs : List (Int × Int)) : Prop where
  pos : ∀ r ∈ runs, 1 ≤ r
  enough : xs.length ≤ runs.sum
  rows : ∀ i, i < xs.length → owner runs i + 1 < size
  frac : ∀ p ∈ xs, 0 ≤ p.2 ∧ p.2 ≤ 2 ^ 30
  range : (xs.map fun p => |p.1|).sum < 2 ^ 31

theorem part_le (x f : Int) (h0 : 0 ≤ f) (h1 : f ≤ 2 ^ 30) : |x * f / 2 ^ 30| ≤ |x| ∧ |x - x * f / 2 ^ 30| ≤ |x| := by
  have lo : 0 ≤ x → 0 ≤ x * f / 2 ^ 30 ∧ x * f / 2 ^ 30 ≤ x := by
    intro hx
    refine ⟨Int.ediv_nonneg (mul_nonneg hx h0) (by norm_num), ?_⟩
    apply Int.ediv_le_of_le_mul (by norm_num)
    exact mul_le_mul_of_nonneg_left h1 hx
  have hi : x < 0 → x ≤ x * f / 2 ^ 30 ∧ x * f / 2 ^ 30 ≤ 0 := by
    intro hx
    constructor
    · rw [Int.le_ediv_iff_mul_le (by norm_num)]
      exact mul_le_mul_of_nonpos_left h1 hx.le
    · exact Int.ediv_nonpos_of_nonpos_of_neg (by nlinarith) (by norm_num)
  by_cases hx : 0 ≤ x
  · obtain ⟨a, b⟩ := lo hx
    rw [abs_of_nonneg hx, abs_of_nonneg a, abs_of_nonneg (by omega)]
    omega
  · obtain ⟨a, b⟩ := hi (by omega)
    rw [abs_of_neg (by omega : x < 0), abs_of_nonpos b, abs_of_nonpos (by omega)]
    omega

theorem term_le (runs : List Nat) (m i : Nat) (x f : Int) (h0 : 0 ≤ f) (h1 : f ≤ 2 ^ 30) : |term runs m i x f| ≤ |x| := by
  obtain ⟨a, b⟩ := part_le x f h0 h1
  unfold term
  split
  · exact a
  · split
    · exact b
    · simp

theorem melSum_le (runs : List Nat) (xs : List (Int × Int)) (m : Nat) (h : ∀ p ∈ xs, 0 ≤ p.2 ∧ p.2 ≤ 2 ^ 30) :
    |melSum runs xs m| ≤ (xs.map fun p => |p.1|).sum := by
  induction xs using List.reverseRecOn with
  | nil => simp [melSum]
  | append_singleton xs x ih =>
    rw [melSum_append, List.map_append, List.sum_append]
    have hx := h x (by simp)
    have := term_le runs m xs.length x.1 x.2 hx.1 hx.2
    have := ih (fun p hp => h p (by simp [hp]))
    refine (abs_add_le _ _).trans ?_
    simp only [List.map_cons, List.map_nil, List.sum_cons, List.sum_nil, Int.add_zero]
    omega

/-- **C88.** For every matrix in compressed form whose last row starts no column, `mel_compress` stays inside its arrays, reads
nothing it has not written, and leaves in element `m` the row `m` of the product in integers, for every row up to the one below
the last column's owner.  The array of runs may be longer than needed (`tail`). -/
theorem C88_compress_partial (size : Nat) (runs : List Nat) (tail : List Int) (xs : List (Int × Int)) (h : MelOK size runs xs) (hx : xs ≠ []) :
    ∃ out, mel_compress size (runs.map (fun r : Nat => (r : Int)) ++ tail) xs = some out ∧ out.length = size ∧
      ∀ m, m ≤ owner runs (xs.length - 1) + 1 → out[m]? = some (some (melSum runs xs m)) := by
  have hl : 0 < xs.length := List.length_pos_iff.2 hx
  have hs := h.rows 0 hl
  have h0 : MelInv size runs [] ⟨0, 0, (List.replicate size none).set 0 (some 0)⟩ := by
    refine ⟨by simp, by simp, by simp, .inl rfl, ?_⟩
    intro m hm
    have : m = 0 := by simpa using hm
    subst this
    simp only
    rw [List.getElem?_set_self (by simp; omega)]
    rfl
  obtain ⟨s, e, hi⟩ := melFold tail h.pos _ h0 xs h.enough h.rows
  refine ⟨s.mel, ?_, hi.len, ?_⟩
  · unfold mel_compress put
    rw [if_pos (by simp; omega)]
    simp [e]
  · intro m hm
    have hn : owner runs (xs.length - 1) + 1 ≤ s.next := by
      have := hi.pre
      have := owner_lt (runs := runs) (r := s.next) (k := xs.length - 1) (by omega)
      omega
    rw [hi.val m (by omega), wrap32_id]
    · have := abs_le.1 (melSum_le runs xs m h.frac)
      have := h.range
      omega
    · have := abs_le.1 (melSum_le runs xs m h.frac)
      have := h.range
      omega

/-- The product with the matrix in exact arithmetic. -/
def exactProduct (runs : List Nat) (xs : List (Int × Int)) (m : Nat) : ℚ :=
  (xs.zipIdx.map fun p => matrixAt runs (fun _ => p.1.2) m p.2 * p.1.1).sum

theorem exact_append (runs : List Nat) (xs : List (Int × Int)) (x : Int × Int) (m : Nat) :
    exactProduct runs (xs ++ [x]) m = exactProduct runs xs m + matrixAt runs (fun _ => x.2) m xs.length * x.1 := by
  simp [exactProduct, List.zipIdx_append]

/-- How many of the first `n` columns have a non-zero element in row `m`. -/
def touching (runs : List Nat) (m n : Nat) : Nat := ((List.range n).filter fun i => decide (owner runs i = m ∨ owner runs i + 1 = m)).length

/-- **C88, accuracy.** A row of the integer product differs from the exact product by less than one for every column that has
a non-zero element in it. -/
theorem C88_matrix (runs : List Nat) (xs : List (Int × Int)) (m : Nat) :
    |(melSum runs xs m : ℚ) - exactProduct runs xs m| ≤ touching runs m xs.length := by
  induction xs using List.reverseRecOn with
  | nil => simp [melSum, exactProduct, touching]
  | append_singleton xs x ih =>
    rw [melSum_append, exact_append]
    have fl1 : ((x.1 * x.2 / 2 ^ 30 : Int) : ℚ) ≤ x.1 * x.2 / 2 ^ 30 := by
      rw [le_div_iff₀ (by norm_num)]
      exact_mod_cast Int.ediv_mul_le (x.1 * x.2) (by norm_num : (2 ^ 30 : Int) ≠ 0)
    have fl2 : (x.1 * x.2 / 2 ^ 30 : ℚ) ≤ ((x.1 * x.2 / 2 ^ 30 : Int) : ℚ) + 1 := by
      rw [div_le_iff₀ (by norm_num)]
      exact_mod_cast (Int.lt_ediv_add_one_mul_self (x.1 * x.2) (by norm_num : (0 : Int) < 2 ^ 30)).le
    obtain ⟨i1, i2⟩ := abs_le.1 ih
    have tc : touching runs m (xs ++ [x]).length = touching runs m xs.length + if owner runs xs.length = m ∨ owner runs xs.length + 1 = m then 1 else 0 := by
      unfold touching
      rw [List.length_append, List.length_singleton, List.range_succ, List.filter_append, List.length_append]
      congr 1
      by_cases c : owner runs xs.length = m ∨ owner runs xs.length + 1 = m <;> simp [c]
    rw [tc]
    unfold term matrixAt
    generalize x.1 * x.2 / 2 ^ 30 = q at *
    rw [abs_le]
    by_cases c1 : owner runs xs.length = m
    · rw [if_pos c1, if_pos c1, if_pos (.inl c1)]
      push_cast
      constructor <;> linarith
    · rw [if_neg c1, if_neg c1]
      by_cases c2 : owner runs xs.length + 1 = m
      · rw [if_pos c2, if_pos c2, if_pos (.inr c2)]
        push_cast
        have : (1 - (x.2 : ℚ) / 2 ^ 30) * x.1 = x.1 - x.1 * x.2 / 2 ^ 30 := by ring
        rw [this]
        constructor <;> linarith
      · rw [if_neg c2, if_neg c2, if_neg (by tauto)]
        push_cast
        constructor <;> linarith

/-- **C88, energy.** Nothing is lost in the rounding: the rows of the product add up to the sum of the inputs. -/
theorem C88_total (size : Nat) (runs : List Nat) (xs : List (Int × Int)) (h : ∀ i, i < xs.length → owner runs i + 1 < size) :
    ∑ m ∈ Finset.range size, melSum runs xs m = (xs.map Prod.fst).sum := by
  induction xs using List.reverseRecOn with
  | nil => simp [melSum]
  | append_singleton xs x ih =>
    simp only [List.length_append, List.length_singleton] at h
    have hx := h xs.length (by omega)
    simp only [melSum_append, Finset.sum_add_distrib, ih (fun i hi => h i (by omega)), List.map_append, List.sum_append, List.map_cons, List.map_nil,
      List.sum_cons, List.sum_nil, Int.add_zero]
    congr 1
    have e : ∀ m, term runs m xs.length x.1 x.2 =
        (if m = owner runs xs.length then x.1 * x.2 / 2 ^ 30 else 0) + (if m = owner runs xs.length + 1 then x.1 - x.1 * x.2 / 2 ^ 30 else 0) := by
      intro m
      unfold term
      by_cases c1 : m = owner runs xs.length
      · subst c1; simp
      · rw [if_neg (by omega), if_neg c1]
        by_cases c2 : m = owner runs xs.length + 1
        · subst c2; simp
        · rw [if_neg (by omega), if_neg c2]; rfl
    simp only [e, Finset.sum_add_distrib, Finset.sum_ite_eq', Finset.mem_range]
    rw [if_pos (by omega), if_pos hx]
    omega

/-- The 63 runs of the tables in use. -/
def usedRuns : List Nat := List.replicate 16 1 ++ List.replicate 16 2 ++ List.replicate 16 4 ++ List.replicate 14 10 ++ [5]

theorem usedRuns_owner : ∀ i, i < 257 → owner usedRuns i + 1 < 64 := by decide +kernel

theorem shipped_frac : shippedFractions.length = 257 ∧ ∀ f ∈ shippedFractions, 0 ≤ f ∧ f ≤ 2 ^ 30 := by decide +kernel

/-- **C88 for the tables in use.** With any 257 magnitudes all 64 mel values are written, and with the right numbers. -/
theorem C88_shipped (bins : List Int) (hl : bins.length = 257) (hr : (bins.map fun b => |b|).sum < 2 ^ 31) :
    ∃ out, mel_compress 64 shippedRuns (bins.zip shippedFractions) = some out ∧ out.length = 64 ∧
      ∀ m, m < 64 → out[m]? = some (some (melSum usedRuns (bins.zip shippedFractions) m)) := by
  have len : (bins.zip shippedFractions).length = 257 := by rw [List.length_zip, hl, shipped_frac.1]; rfl
  have ok : MelOK 64 usedRuns (bins.zip shippedFractions) := by
    refine ⟨by decide +kernel, ?_, ?_, ?_, ?_⟩
    · rw [len]; decide +kernel
    · rw [len]; exact usedRuns_owner
    · intro p hp
      exact shipped_frac.2 _ (List.of_mem_zip hp).2
    · have : (bins.zip shippedFractions).map (fun p => |p.1|) = bins.map fun b => |b| := by
        have e : (fun p : Int × Int => |p.1|) = (fun b => |b|) ∘ Prod.fst := rfl
        rw [e, ← List.map_map, List.map_fst_zip (by rw [hl, shipped_frac.1])]
      rw [this]
      exact hr
  obtain ⟨out, e, l, v⟩ := C88_compress_partial 64 usedRuns [0] _ ok (by intro h; rw [h] at len; simp at len)
  refine ⟨out, ?_, l, ?_⟩
  · have : shippedRuns = usedRuns.map (fun r : Nat => (r : Int)) ++ [0] := by decide +kernel
    rw [this]
    exact e
  · intro m hm
    apply v
    rw [len]
    have : owner usedRuns 256 = 62 := by decide +kernel
    simp only [Nat.reduceSub]
    omega

end Verif.Audio
