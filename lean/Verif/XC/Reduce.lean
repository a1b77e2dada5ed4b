import Verif.Tensor.Flat
import Verif.Quant.Basic
import Mathlib.Data.List.Nodup
import Mathlib.Data.Finset.Card
import Mathlib.Data.Finset.Range
import Mathlib.Data.Int.Interval
import Mathlib.Algebra.BigOperators.Group.List.Basic
/-!
Lowering of `MEAN` and `SUM` (xformer/Transforms/ReplaceMean.cpp, ReplaceSum.cpp).

The kernel (lib_nn) is not part of /repo; its contract is `kernel` below: it sees its input as `start × mean × end` elements
and reduces the middle.
-/
namespace Verif.XC
open Verif.Tensor Verif.Quant

/-! ### Model -/

/-- Outcome of a matching attempt: undefined behaviour, no match, or the three attributes of the created operator. -/
inductive ReduceRes where
  | undefined
  | noMatch
  | dims (start mean stop : Nat)
  deriving DecidableEq, Repr

/-- Loop of the form `for (int i = lo; i < hi; i++) p *= inputShape[i]`. -/
def prodLoop (shape : List Nat) (lo hi : Nat) : Nat := ((shape.drop lo).take (hi - lo)).prod

/-- ReplaceMean.cpp 43–80 = ReplaceSum.cpp 43–79 (the element type check is left out; all types here are 8-bit).
`std::min_element` of an empty list is dereferenced: undefined; `inputShape[i]` with a negative or too large `i`: undefined.
The comparison `maxAxis - minAxis > axis.size() - 1` is unsigned; the left side is never negative. -/
def reduceDims (axes : List Int) (shape : List Nat) : ReduceRes :=
  match axes.min?, axes.max? with
  | some lo, some hi =>
    if (hi - lo) > (axes.length : Int) - 1 then .noMatch
    else if lo < 0 ∨ (shape.length : Int) ≤ hi then .undefined
    else .dims (prodLoop shape 0 lo.toNat) (prodLoop shape lo.toNat (hi.toNat + 1)) (prodLoop shape (hi.toNat + 1) shape.length)
  | _, _ => .undefined

/-- ReplaceMean.cpp 87–88. -/
def meanScale (ti tq : QType) (mean : Nat) : ℚ := ti.scale / tq.scale / mean

/-- ReplaceSum.cpp 85. -/
def sumScale (ti tq : QType) : ℚ := ti.scale / tq.scale

/-- Contract of the kernel (external, XC_mean): input position `(b * mean + i) * stop + j`, output position `b * stop + j`;
the elements minus the input zero point are added, scaled, rounded, offset and clamped. -/
def kernel (r : ℚ → ℤ) (tq : QType) (zpi : ℤ) (scaleMul : ℚ) (start mean stop : Nat) (data : List ℤ) : List ℤ :=
  (List.range start).flatMap fun b => (List.range stop).map fun j =>
    clamp tq.lo tq.hi (tq.zp + r
      (((List.range mean).map fun i => ((data.getD ((b * mean + i) * stop + j) 0 : ℤ) : ℚ) - zpi).sum * scaleMul))

/-! ### Specification -/

/-- Is axis `p` among the requested axes? -/
def reduced (axes : List Int) (p : Nat) : Bool := decide ((p : Int) ∈ axes)

/-- Sum over all positions along the axes selected by `red`; the argument is the multi-index along the others.  `p` counts
the axes. -/
def redSum (red : Nat → Bool) : Nat → List Nat → (List Nat → ℚ) → List Nat → ℚ
  | _, [], x, _ => x []
  | p, n :: s, x, idx =>
    if red p then ((List.range n).map fun i => redSum red (p + 1) s (fun t => x (i :: t)) idx).sum
    else redSum red (p + 1) s (fun t => x (idx.headD 0 :: t)) idx.tail

/-- Shape of the result (without the axes of size one that `keep_dims` would leave). -/
def keptShape (red : Nat → Bool) : Nat → List Nat → List Nat
  | _, [] => []
  | p, n :: s => if red p then keptShape red (p + 1) s else n :: keptShape red (p + 1) s

/-- Quantised `SUM`. -/
def sumSpec (r : ℚ → ℤ) (ti tq : QType) (axes : List Int) (shape : List Nat) (x : List Nat → ℤ) (idx : List Nat) : ℤ :=
  tq.q r (redSum (reduced axes) 0 shape (fun i => ti.deq (x i)) idx)

/-- Quantised `MEAN`: sum divided by the number of summands. -/
def meanSpec (r : ℚ → ℤ) (ti tq : QType) (axes : List Int) (shape : List Nat) (x : List Nat → ℤ) (idx : List Nat) : ℤ :=
  tq.q r (redSum (reduced axes) 0 shape (fun i => ti.deq (x i)) idx / redSum (reduced axes) 0 shape (fun _ => 1) idx)

/-! ### Lemmas -/

theorem flat_map {α β : Type} (g : α → β) (s : List Nat) (f : List Nat → α) : (flat s f).map g = flat s fun i => g (f i) := by
  induction s generalizing f with
  | nil => rfl
  | cons n s ih => simp only [flat, List.map_flatMap, ih]

theorem keptShape_none (red : Nat → Bool) (p : Nat) (s : List Nat) (h : ∀ k, k < s.length → red (p + k) = false) :
    keptShape red p s = s := by
  induction s generalizing p with
  | nil => rfl
  | cons n s ih =>
    have h0 := h 0 (by simp)
    simp only [Nat.add_zero] at h0
    simp only [keptShape, h0, Bool.false_eq_true, if_false]
    rw [ih (p + 1) fun k hk => by have := h (k + 1) (by simp; omega); rwa [show p + 1 + k = p + (k + 1) by omega]]

theorem redSum_none (red : Nat → Bool) (p : Nat) (s : List Nat) (x : List Nat → ℚ) (idx : List Nat)
    (h : ∀ k, k < s.length → red (p + k) = false) (hi : InShape s idx) : redSum red p s x idx = x idx := by
  induction s generalizing p x idx with
  | nil =>
    cases idx with
    | nil => rfl
    | cons _ _ => cases hi
  | cons n s ih =>
    cases idx with
    | nil => cases hi
    | cons i idx =>
      have h0 := h 0 (by simp)
      simp only [Nat.add_zero] at h0
      simp only [redSum, h0, Bool.false_eq_true, if_false, List.headD_cons, List.tail_cons]
      rw [ih (p + 1) _ _ (fun k hk => by have := h (k + 1) (by simp; omega); rwa [show p + 1 + k = p + (k + 1) by omega]) hi.2]

theorem keptShape_all (red : Nat → Bool) (p : Nat) (mid s : List Nat) (h : ∀ k, k < mid.length → red (p + k) = true) :
    keptShape red p (mid ++ s) = keptShape red (p + mid.length) s := by
  induction mid generalizing p with
  | nil => simp
  | cons n mid ih =>
    have h0 := h 0 (by simp)
    simp only [Nat.add_zero] at h0
    simp only [List.cons_append, keptShape, h0, if_true, List.length_cons]
    rw [ih (p + 1) fun k hk => by have := h (k + 1) (by simp; omega); rwa [show p + 1 + k = p + (k + 1) by omega]]
    congr 1; omega

theorem sum_flatMap {α : Type} (l : List α) (f : α → List ℚ) : (l.flatMap f).sum = (l.map fun a => (f a).sum).sum := by
  induction l with
  | nil => rfl
  | cons a l ih => simp [List.flatMap_cons, List.sum_append, ih]

theorem redSum_all (red : Nat → Bool) (p : Nat) (mid s : List Nat) (x : List Nat → ℚ) (idx : List Nat)
    (h : ∀ k, k < mid.length → red (p + k) = true) :
    redSum red p (mid ++ s) x idx = (flat mid fun i => redSum red (p + mid.length) s (fun t => x (i ++ t)) idx).sum := by
  induction mid generalizing p x with
  | nil => simp [flat]
  | cons n mid ih =>
    have h0 := h 0 (by simp)
    simp only [Nat.add_zero] at h0
    simp only [List.cons_append, redSum, h0, if_true, List.length_cons, flat, sum_flatMap]
    congr 1
    apply List.map_congr_left
    intro i _
    rw [ih (p + 1) _ fun k hk => by have := h (k + 1) (by simp; omega); rwa [show p + 1 + k = p + (k + 1) by omega]]
    rw [show p + 1 + mid.length = p + (mid.length + 1) by omega]

/-- Generic form of the kernel: any function of the column of elements. -/
def gkernel (g : List ℤ → ℤ) (start mean stop : Nat) (data : List ℤ) : List ℤ :=
  (List.range start).flatMap fun b => (List.range stop).map fun j =>
    g ((List.range mean).map fun i => data.getD ((b * mean + i) * stop + j) 0)

theorem getD_flatten (rows : List (List ℤ)) (e i j : Nat) (hr : ∀ r ∈ rows, r.length = e) (hi : i < rows.length) (hj : j < e) :
    rows.flatten.getD (i * e + j) 0 = (rows[i]).getD j 0 := by
  induction rows generalizing i with
  | nil => simp at hi
  | cons r rows ih =>
    have hre := hr r (by simp)
    cases i with
    | zero =>
      simp only [List.flatten_cons, Nat.zero_mul, Nat.zero_add, List.getElem_cons_zero]
      rw [List.getD_eq_getElem?_getD, List.getElem?_append_left (by omega), ← List.getD_eq_getElem?_getD]
    | succ i =>
      simp only [List.flatten_cons, List.getElem_cons_succ]
      rw [List.getD_eq_getElem?_getD, List.getElem?_append_right (by rw [hre, Nat.succ_mul]; omega), ← List.getD_eq_getElem?_getD,
        hre, show (i + 1) * e + j - e = i * e + j by rw [Nat.succ_mul]; omega]
      exact ih i (fun r h => hr r (by simp [h])) (by simpa using hi)

/-- The kernel on one outer block. -/
theorem gkernel_one (g : List ℤ → ℤ) (mid post : List Nat) (x : List Nat → ℤ) :
    gkernel g 1 mid.prod post.prod (flat (mid ++ post) x) = flat post fun j => g (flat mid fun i => x (i ++ j)) := by
  have hrows : flat (mid ++ post) x = ((flat mid id).map fun i => (flat post id).map fun j => x (i ++ j)).flatten := by
    rw [flat_append, flat_map]
    congr 1
    apply flat_congr
    intro i _
    rw [flat_map]
    rfl
  have htgt : (flat post fun j => g (flat mid fun i => x (i ++ j))) =
      (flat post id).map fun j => g ((flat mid id).map fun i => x (i ++ j)) := by
    rw [flat_map]
    apply flat_congr
    intro j _
    rw [flat_map]; rfl
  rw [htgt]
  unfold gkernel
  simp only [List.range_one, List.flatMap_cons, List.flatMap_nil, List.append_nil, Nat.zero_mul, Nat.zero_add]
  have hl : (flat post (id : List Nat → List Nat)).length = post.prod := length_flat _ _
  have hm : (flat mid (id : List Nat → List Nat)).length = mid.prod := length_flat _ _
  apply List.ext_getElem
  · simp [hl]
  · intro j h1 h2
    simp only [List.getElem_map, List.getElem_range]
    congr 1
    have hj : j < post.prod := by simpa using h1
    apply List.ext_getElem
    · simp [hm]
    · intro i h3 h4
      have hi : i < mid.prod := by simpa using h3
      simp only [List.getElem_map, List.getElem_range]
      rw [hrows, getD_flatten _ post.prod i j _ (by simp [hm, hi]) hj]
      · simp only [List.getElem_map]
        rw [List.getD_eq_getElem?_getD, List.getElem?_eq_getElem (by simp [hl, hj])]
        simp
      · intro r hr
        obtain ⟨i, _, rfl⟩ := List.mem_map.1 hr
        simp [hl]

theorem gkernel_congr (g : List ℤ → ℤ) (m e : Nat) (d1 d2 : List ℤ) (h : ∀ k, k < m * e → d1.getD k 0 = d2.getD k 0) :
    gkernel g 1 m e d1 = gkernel g 1 m e d2 := by
  unfold gkernel
  apply flatMap_congr'
  intro b hb
  apply List.map_congr_left
  intro j hj
  congr 1
  apply List.map_congr_left
  intro i hi
  simp only [List.mem_range] at hb hi hj
  apply h
  have : b = 0 := by omega
  subst this
  rw [Nat.zero_mul, Nat.zero_add]
  have : (i + 1) * e ≤ m * e := Nat.mul_le_mul_right _ (by omega)
  rw [Nat.succ_mul] at this
  omega

/-- The kernel on several outer blocks. -/
theorem gkernel_blocks (g : List ℤ → ℤ) (s m e : Nat) (blocks : List (List ℤ)) (hs : blocks.length = s)
    (hb : ∀ b ∈ blocks, b.length = m * e) : gkernel g s m e blocks.flatten = blocks.flatMap (gkernel g 1 m e) := by
  have step : gkernel g s m e blocks.flatten =
      (List.range s).flatMap fun b => gkernel g 1 m e (blocks.getD b []) := by
    unfold gkernel
    apply flatMap_congr'
    intro b hbs
    simp only [List.mem_range] at hbs
    simp only [List.range_one, List.flatMap_cons, List.flatMap_nil, List.append_nil, Nat.zero_mul, Nat.zero_add]
    apply List.map_congr_left
    intro j hj
    congr 1
    apply List.map_congr_left
    intro i hi
    simp only [List.mem_range] at hi hj
    have hlt : i * e + j < m * e := by
      have : (i + 1) * e ≤ m * e := Nat.mul_le_mul_right _ (by omega)
      rw [Nat.succ_mul] at this
      omega
    rw [show (b * m + i) * e + j = b * (m * e) + (i * e + j) by ring,
      getD_flatten blocks (m * e) b _ hb (by omega) hlt]
    rw [List.getD_eq_getElem?_getD (l := blocks), List.getElem?_eq_getElem (by omega)]
    rfl
  rw [step]
  have : blocks = (List.range s).map fun b => blocks.getD b [] := by
    apply List.ext_getElem
    · simp [hs]
    · intro i h1 h2
      simp [List.getD_eq_getElem?_getD, List.getElem?_eq_getElem h1]
  conv_rhs => rw [this]
  rw [List.flatMap_map]

theorem gkernel_flat (g : List ℤ → ℤ) (pre mid post : List Nat) (x : List Nat → ℤ) :
    gkernel g pre.prod mid.prod post.prod (flat (pre ++ (mid ++ post)) x) =
      flat (pre ++ post) fun k => g (flat mid fun i => x (k.take pre.length ++ (i ++ k.drop pre.length))) := by
  rw [flat_append pre (mid ++ post), gkernel_blocks _ _ _ _ _ (length_flat _ _)]
  · rw [flat_append pre post, List.flatMap_def, flat_map]
    congr 1
    apply flat_congr
    intro i hi
    rw [gkernel_one]
    apply flat_congr
    intro j _
    have hl : i.length = pre.length := by
      clear * - hi
      induction pre generalizing i with
      | nil => cases i with
        | nil => rfl
        | cons _ _ => cases hi
      | cons n s ih => cases i with
        | nil => cases hi
        | cons a i => simp [ih i hi.2]
    rw [List.take_left' hl, List.drop_left' hl]
  · intro b hb
    obtain ⟨i, _, rfl⟩ := mem_flat hb
    rw [length_flat, List.prod_append]

/-- Reduction over a contiguous block of axes. -/
theorem redSum_block (red : Nat → Bool) (p : Nat) (pre mid post : List Nat) (x : List Nat → ℚ)
    (h1 : ∀ k, k < pre.length → red (p + k) = false) (h2 : ∀ k, k < mid.length → red (p + pre.length + k) = true)
    (h3 : ∀ k, k < post.length → red (p + pre.length + mid.length + k) = false) (idx : List Nat) (hi : InShape (pre ++ post) idx) :
    redSum red p (pre ++ (mid ++ post)) x idx =
      (flat mid fun i => x (idx.take pre.length ++ (i ++ idx.drop pre.length))).sum := by
  induction pre generalizing p x idx with
  | nil =>
    simp only [List.nil_append, List.length_nil, List.take_zero, List.drop_zero, Nat.add_zero] at *
    rw [redSum_all red p mid post x idx h2]
    congr 1
    apply flat_congr
    intro i _
    exact redSum_none red _ post _ idx h3 hi
  | cons n pre ih =>
    cases idx with
    | nil => cases hi
    | cons i idx =>
      have h0 := h1 0 (by simp)
      simp only [Nat.add_zero] at h0
      simp only [List.cons_append, redSum, h0, Bool.false_eq_true, if_false, List.headD_cons, List.tail_cons, List.length_cons,
        List.take_succ_cons, List.drop_succ_cons]
      apply ih (p + 1)
      · intro k hk
        have := h1 (k + 1) (by simp; omega)
        rwa [show p + 1 + k = p + (k + 1) by omega]
      · intro k hk
        have := h2 k hk
        simp only [List.length_cons] at this
        rwa [show p + 1 + pre.length + k = p + (pre.length + 1) + k by omega]
      · intro k hk
        have := h3 k hk
        simp only [List.length_cons] at this
        rwa [show p + 1 + pre.length + mid.length + k = p + (pre.length + 1) + mid.length + k by omega]
      · exact hi.2

theorem keptShape_block (red : Nat → Bool) (p : Nat) (pre mid post : List Nat)
    (h1 : ∀ k, k < pre.length → red (p + k) = false) (h2 : ∀ k, k < mid.length → red (p + pre.length + k) = true)
    (h3 : ∀ k, k < post.length → red (p + pre.length + mid.length + k) = false) :
    keptShape red p (pre ++ (mid ++ post)) = pre ++ post := by
  induction pre generalizing p with
  | nil =>
    simp only [List.nil_append, List.length_nil, Nat.add_zero] at *
    rw [keptShape_all red p mid post h2, keptShape_none red _ post h3]
  | cons n pre ih =>
    have h0 := h1 0 (by simp)
    simp only [Nat.add_zero] at h0
    simp only [List.cons_append, keptShape, h0, Bool.false_eq_true, if_false]
    rw [ih (p + 1)]
    · intro k hk
      have := h1 (k + 1) (by simp; omega)
      rwa [show p + 1 + k = p + (k + 1) by omega]
    · intro k hk
      have := h2 k hk
      simp only [List.length_cons] at this
      rwa [show p + 1 + pre.length + k = p + (pre.length + 1) + k by omega]
    · intro k hk
      have := h3 k hk
      simp only [List.length_cons] at this
      rwa [show p + 1 + pre.length + mid.length + k = p + (pre.length + 1) + mid.length + k by omega]

/-- Distinct axes spanning no more than their number fill the interval. -/
theorem axes_interval (axes : List Int) (hnd : axes.Nodup) (lo hi : Int) (hb : ∀ a ∈ axes, lo ≤ a ∧ a ≤ hi)
    (hlen : hi - lo ≤ (axes.length : Int) - 1) (a : Int) : a ∈ axes ↔ lo ≤ a ∧ a ≤ hi := by
  constructor
  · exact hb a
  · intro ha
    have hsub : axes.toFinset ⊆ Finset.Icc lo hi := by
      intro b hb'
      rw [List.mem_toFinset] at hb'
      exact Finset.mem_Icc.2 (hb b hb')
    have hcard : (Finset.Icc lo hi).card ≤ axes.toFinset.card := by
      rw [Int.card_Icc, List.toFinset_card_of_nodup hnd]
      omega
    have heq := Finset.eq_of_subset_of_card_le hsub hcard
    have : a ∈ axes.toFinset := by rw [heq]; exact Finset.mem_Icc.2 ha
    exact List.mem_toFinset.1 this

/-- What a match of the pattern means for distinct axes. -/
theorem reduceDims_split (axes : List Int) (hnd : axes.Nodup) (shape : List Nat) (s m e : Nat)
    (h : reduceDims axes shape = .dims s m e) :
    ∃ pre mid post, shape = pre ++ (mid ++ post) ∧ s = pre.prod ∧ m = mid.prod ∧ e = post.prod ∧ 0 < mid.length ∧
      ∀ k, reduced axes k = decide (pre.length ≤ k ∧ k < pre.length + mid.length) := by
  unfold reduceDims at h
  cases hlo : axes.min? with
  | none => simp [hlo] at h
  | some lo =>
    cases hhi : axes.max? with
    | none => simp [hlo, hhi] at h
    | some hi =>
      simp only [hlo, hhi] at h
      by_cases h1 : hi - lo > (axes.length : Int) - 1
      · rw [if_pos h1] at h; cases h
      rw [if_neg h1] at h
      by_cases h2 : lo < 0 ∨ (shape.length : Int) ≤ hi
      · rw [if_pos h2] at h; cases h
      rw [if_neg h2] at h
      have hmin := List.min?_eq_some_iff.1 hlo
      have hmax := List.max?_eq_some_iff.1 hhi
      have hle : lo ≤ hi := hmin.2 hi hmax.1
      have hmem := axes_interval axes hnd lo hi (fun a ha => ⟨hmin.2 a ha, hmax.2 a ha⟩) (by omega)
      injection h with e1 e2 e3
      have hl1 : (shape.take lo.toNat).length = lo.toNat := by rw [List.length_take]; omega
      have hl2 : ((shape.drop lo.toNat).take (hi.toNat + 1 - lo.toNat)).length = hi.toNat + 1 - lo.toNat := by
        rw [List.length_take, List.length_drop]; omega
      refine ⟨shape.take lo.toNat, (shape.drop lo.toNat).take (hi.toNat + 1 - lo.toNat), shape.drop (hi.toNat + 1), ?_, ?_, ?_, ?_, ?_, ?_⟩
      · conv_lhs => rw [← List.take_append_drop lo.toNat shape]
        congr 1
        conv_lhs => rw [← List.take_append_drop (hi.toNat + 1 - lo.toNat) (shape.drop lo.toNat)]
        congr 1
        rw [List.drop_drop]; congr 1; omega
      · rw [← e1]; unfold prodLoop; simp
      · rw [← e2]; rfl
      · rw [← e3]; unfold prodLoop
        rw [List.take_of_length_le (by rw [List.length_drop])]
      · rw [hl2]; omega
      · intro k
        unfold reduced
        rw [hl1, hl2]
        apply decide_eq_decide.2
        rw [hmem]
        omega

theorem sum_map_mul (l : List ℚ) (c : ℚ) : (l.map fun x => c * x).sum = c * l.sum := by
  induction l with
  | nil => simp
  | cons a l ih => simp [ih]; ring

theorem redSum_one (mid : List Nat) : (flat mid fun _ => (1 : ℚ)).sum = (mid.prod : ℚ) := by
  induction mid with
  | nil => simp [flat]
  | cons n s ih =>
    simp only [flat, sum_flatMap, ih, List.prod_cons, Nat.cast_mul]
    clear ih
    generalize (s.prod : ℚ) = c
    induction n with
    | zero => simp
    | succ n ih => rw [List.range_succ, List.map_append, List.sum_append, ih]; simp; ring

/-! ### The property -/

/-- Common part of the two theorems: `post` is applied to the scaled accumulator. -/
theorem reduce_core (r : ℚ → ℤ) (ti tq : QType) (hto : tq.scale ≠ 0) (axes : List Int) (hnd : axes.Nodup) (shape : List Nat)
    (x : List Nat → ℤ) (s m e : Nat) (h : reduceDims axes shape = .dims s m e) (c : ℚ) :
    kernel r tq ti.zp (ti.scale / tq.scale * c) s m e (flat shape x) =
      (flat (keptShape (reduced axes) 0 shape) fun idx =>
        tq.q r (redSum (reduced axes) 0 shape (fun i => ti.deq (x i)) idx * c)) ∧
    ∀ idx, InShape (keptShape (reduced axes) 0 shape) idx → redSum (reduced axes) 0 shape (fun _ => 1) idx = m := by
  obtain ⟨pre, mid, post, rfl, rfl, rfl, rfl, _, hk⟩ := reduceDims_split axes hnd shape s m e h
  have r1 : ∀ k, k < pre.length → reduced axes (0 + k) = false := fun k hk' => by
    rw [hk]; apply decide_eq_false; omega
  have r2 : ∀ k, k < mid.length → reduced axes (0 + pre.length + k) = true := fun k hk' => by
    rw [hk]; apply decide_eq_true; omega
  have r3 : ∀ k, k < post.length → reduced axes (0 + pre.length + mid.length + k) = false := fun k hk' => by
    rw [hk]; apply decide_eq_false; omega
  rw [keptShape_block _ 0 pre mid post r1 r2 r3]
  constructor
  · have hg : kernel r tq ti.zp (ti.scale / tq.scale * c) pre.prod mid.prod post.prod (flat (pre ++ (mid ++ post)) x) =
        gkernel (fun col => clamp tq.lo tq.hi (tq.zp + r
          ((col.map fun (v : ℤ) => (v : ℚ) - ti.zp).sum * (ti.scale / tq.scale * c)))) pre.prod mid.prod post.prod
          (flat (pre ++ (mid ++ post)) x) := by
      unfold kernel gkernel
      simp only [List.map_map]
      rfl
    rw [hg, gkernel_flat]
    apply flat_congr
    intro idx hidx
    rw [redSum_block _ 0 pre mid post _ r1 r2 r3 idx hidx]
    unfold QType.q QType.raw
    congr 3
    rw [flat_map]
    have : (flat mid fun i => ti.deq (x (idx.take pre.length ++ (i ++ idx.drop pre.length)))) =
        (flat mid fun i => ((x (idx.take pre.length ++ (i ++ idx.drop pre.length)) : ℤ) : ℚ) - ti.zp).map fun v => ti.scale * v := by
      rw [flat_map]; rfl
    rw [this, sum_map_mul]
    field_simp
  · intro idx hidx
    rw [redSum_block _ 0 pre mid post _ r1 r2 r3 idx hidx, redSum_one]

/-- **C36** (mean).  Whenever the pattern matches distinct axes, the kernel with the computed attributes produces exactly the
quantised mean over exactly the requested axes, in row-major order. -/
theorem C36_mean_partial (r : ℚ → ℤ) (ti tq : QType) (hto : tq.scale ≠ 0) (axes : List Int) (hnd : axes.Nodup) (shape : List Nat)
    (x : List Nat → ℤ) (s m e : Nat) (h : reduceDims axes shape = .dims s m e) :
    kernel r tq ti.zp (meanScale ti tq m) s m e (flat shape x) =
      flat (keptShape (reduced axes) 0 shape) (meanSpec r ti tq axes shape x) := by
  obtain ⟨h1, h2⟩ := reduce_core r ti tq hto axes hnd shape x s m e h (1 / m)
  rw [show meanScale ti tq m = ti.scale / tq.scale * (1 / m) by unfold meanScale; ring, h1]
  apply flat_congr
  intro idx hidx
  unfold meanSpec
  rw [h2 idx hidx]
  congr 1
  ring

/-- **C36** (sum). -/
theorem C36_sum_partial (r : ℚ → ℤ) (ti tq : QType) (hto : tq.scale ≠ 0) (axes : List Int) (hnd : axes.Nodup) (shape : List Nat)
    (x : List Nat → ℤ) (s m e : Nat) (h : reduceDims axes shape = .dims s m e) :
    kernel r tq ti.zp (sumScale ti tq) s m e (flat shape x) =
      flat (keptShape (reduced axes) 0 shape) (sumSpec r ti tq axes shape x) := by
  obtain ⟨h1, _⟩ := reduce_core r ti tq hto axes hnd shape x s m e h 1
  rw [show sumScale ti tq = ti.scale / tq.scale * 1 by unfold sumScale; ring, h1]
  apply flat_congr
  intro idx _
  unfold sumSpec
  rw [mul_one]

/-- **C36** (coverage).  Contiguous axes given from the front, in any order, are matched. -/
theorem C36_contiguous_is_lowered (axes : List Int) (lo n : Nat) (hn : 0 < n) (shape : List Nat) (hr : lo + n ≤ shape.length)
    (hp : axes.Perm ((List.range n).map fun k => ((lo + k : Nat) : Int))) :
    ∃ s m e, reduceDims axes shape = .dims s m e := by
  have hmem : ∀ a, a ∈ axes ↔ (lo : Int) ≤ a ∧ a < lo + n := by
    intro a
    rw [hp.mem_iff, List.mem_map]
    constructor
    · rintro ⟨k, hk, rfl⟩
      simp only [List.mem_range] at hk
      omega
    · intro ha
      exact ⟨(a - lo).toNat, by simp only [List.mem_range]; omega, by omega⟩
  have hlen : axes.length = n := by rw [hp.length_eq]; simp
  have h1 : axes.min? = some (lo : Int) := by
    rw [List.min?_eq_some_iff]
    exact ⟨(hmem _).2 (by omega), fun b hb => ((hmem b).1 hb).1⟩
  have h2 : axes.max? = some ((lo + n - 1 : Nat) : Int) := by
    rw [List.max?_eq_some_iff]
    exact ⟨(hmem _).2 (by omega), fun b hb => by have := ((hmem b).1 hb).2; omega⟩
  unfold reduceDims
  simp only [h1, h2]
  rw [if_neg (by rw [hlen]; omega), if_neg (by omega)]
  exact ⟨_, _, _, rfl⟩

/-- **C36** refuted for repeated axes: `[0, 2, 2]` on a tensor of rank 4 is matched and axis 1, not requested, is reduced
too: the operator is told to produce 5 elements instead of 15. -/
theorem C36_repeated_axes_refuted :
    reduceDims [0, 2, 2] [2, 3, 4, 5] = .dims 1 24 5 ∧ keptShape (reduced [0, 2, 2]) 0 [2, 3, 4, 5] = [3, 5] := by
  constructor <;> decide

/-- **C36** refuted for negative axes (valid in TensorFlow Lite): the code indexes the shape with them. -/
theorem C36_negative_axis_undefined (shape : List Nat) : reduceDims [-1] shape = .undefined := by
  unfold reduceDims
  simp

/-- Non-vacuity: mean over axes 1, 2 of a `[1, 2, 2, 3]` tensor. -/
example : reduceDims [2, 1] [1, 2, 2, 3] = .dims 1 4 3 ∧ keptShape (reduced [2, 1]) 0 [1, 2, 2, 3] = [1, 3] ∧
    kernel roundAway ⟨1, 0, -128, 127⟩ 1 (meanScale ⟨2, 1, -128, 127⟩ ⟨1, 0, -128, 127⟩ 4) 1 4 3
      [1, 2, 3, 4, 5, 6, 7, 8, 9, 10, 11, 13] = [9, 11, 14] := by
  refine ⟨by decide, by decide, by decide +kernel⟩

end Verif.XC
