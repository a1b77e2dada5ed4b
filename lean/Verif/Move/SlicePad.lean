import Verif.Move.Lemmas
/-! Property theorems C19, C20 and C21. -/
namespace Verif.Move
open Verif.Tensor

/-- A slice of a tensor of shape `inShape` with the given begin and result shape stays inside. -/
def SliceFits : List Nat → List Nat → List Nat → Prop
  | [], [], [] => True
  | i :: is, o :: os, b :: bs => b + o ≤ i ∧ SliceFits is os bs
  | _, _, _ => False

/-- `outShape` is the shape of the pad. `start` and `end_` are the leading and trailing paddings. -/
def PadFits : List Nat → List Nat → List Nat → List Nat → Prop
  | [], [], [], [] => True
  | i :: is, o :: os, s :: ss, e :: es => o = s + i + e ∧ PadFits is os ss es
  | _, _, _, _ => False

theorem sliceFits_axes {i o b s : List Nat} (h : SliceFits i o b) (hs : s.length = i.length) :
    let l := zipAxes i o b s
    (∀ x ∈ l, SliceAxisOK x) ∧ ins l = i ∧ outs l = o ∧ begs l = b := by
  induction i generalizing o b s with
  | nil =>
    cases o <;> cases b <;> first | exact h.elim | simp [zipAxes, ins, outs, begs]
  | cons i is ih =>
    rcases o with _ | ⟨o, os⟩
    · exact h.elim
    rcases b with _ | ⟨b, bs⟩
    · exact h.elim
    rcases s with _ | ⟨s, ss⟩
    · simp at hs
    obtain ⟨h1, h2⟩ := h
    obtain ⟨g1, g2, g3, g4⟩ := ih h2 (s := ss) (by simpa using hs)
    simp only [zipAxes, ins, outs, begs, List.map_cons, List.mem_cons, forall_eq_or_imp] at *
    exact ⟨⟨h1, g1⟩, by rw [g2], by rw [g3], by rw [g4]⟩

theorem padFits_axes {i o s e : List Nat} (h : PadFits i o s e) :
    let l := zipAxes i o s e
    (∀ x ∈ l, PadAxisOK x) ∧ ins l = i ∧ outs l = o ∧ begs l = s ∧ sizs l = e := by
  induction i generalizing o s e with
  | nil =>
    cases o <;> cases s <;> cases e <;> first | exact h.elim | simp [zipAxes, ins, outs, begs, sizs]
  | cons i is ih =>
    rcases o with _ | ⟨o, os⟩
    · exact h.elim
    rcases s with _ | ⟨s, ss⟩
    · exact h.elim
    rcases e with _ | ⟨e, es⟩
    · exact h.elim
    obtain ⟨h1, h2⟩ := h
    obtain ⟨g1, g2, g3, g4, g5⟩ := ih h2
    simp only [zipAxes, ins, outs, begs, sizs, List.map_cons, List.mem_cons, forall_eq_or_imp] at *
    exact ⟨⟨h1, g1⟩, by rw [g2], by rw [g3], by rw [g4], by rw [g5]⟩

/-! ### C19 -/

/-- **C19, slices.** Merging axes preserves the data movement: there is a tensor of the merged input shape with the same
memory image, and its slice has the same memory image as the original slice.  The merged slice is in bounds again and
has at most one axis more than the number of axes that are really cut. -/
theorem C19_merge_axes_slice {α : Type} (inShape outShape begin_ size : List Nat)
    (h : SliceFits inShape outShape begin_) (hs : size.length = inShape.length) (f : List Nat → α) :
    let l := zipAxes inShape outShape begin_ size
    (∃ f' : List Nat → α, flat inShape f = flat (ins (mergeAxes l)) f' ∧
      flat outShape (sliceT begin_ f) = flat (outs (mergeAxes l)) (sliceT (begs (mergeAxes l)) f')) ∧
    (∀ x ∈ mergeAxes l, x.beg + x.out ≤ x.inn) ∧
    ((∀ n ∈ inShape, 0 < n) →
      (mergeAxes l).length ≤ 1 + (inShape.zip outShape).countP fun io => io.1 ≠ io.2) := by
  intro l
  obtain ⟨g1, g2, g3, g4⟩ := sliceFits_axes h hs
  obtain ⟨⟨f', _, h1, h2⟩, h3⟩ := mergeAxes_slice l g1 f
  refine ⟨⟨f', ?_, ?_⟩, h3, ?_⟩
  · rw [← g2]; exact h1
  · have e : flat outShape (sliceT begin_ f) = flat (outs l) (sliceT (begs l) f) := by rw [g3, g4]
    rw [e]; exact h2
  · intro hpos
    refine Nat.le_trans (mergeAxes_length l ?_) ?_
    · intro x hx; apply hpos; rw [← g2]; exact List.mem_map_of_mem hx
    · have : inShape.zip outShape = l.map fun x => (x.inn, x.out) := by
        have e : (ins l).zip (outs l) = l.map fun x => (x.inn, x.out) := by
          generalize l = m
          induction m with
          | nil => rfl
          | cons a m ih => simpa [ins, outs] using ih
        rw [← e, g2, g3]
      rw [this, List.countP_map]
      exact Nat.le_refl _

/-- **C19, pads.** The same for pads. -/
theorem C19_merge_axes_pad {α : Type} (z : α) (inShape outShape start end_ : List Nat)
    (h : PadFits inShape outShape start end_) (f : List Nat → α) :
    let l := zipAxes inShape outShape start end_
    (∃ f' : List Nat → α, flat inShape f = flat (ins (mergeAxes l)) f' ∧
      flat outShape (padT z start inShape f) =
        flat (outs (mergeAxes l)) (padT z (begs (mergeAxes l)) (ins (mergeAxes l)) f')) ∧
    (∀ x ∈ mergeAxes l, x.out = x.beg + x.inn + x.siz) := by
  intro l
  obtain ⟨g1, g2, g3, g4, g5⟩ := padFits_axes h
  obtain ⟨⟨f', _, h1, h2⟩, h3⟩ := mergeAxes_pad z l g1 f
  refine ⟨⟨f', ?_, ?_⟩, h3⟩
  · rw [← g2]; exact h1
  · have e : flat outShape (padT z start inShape f) = flat (outs l) (padT z (begs l) (ins l) f) := by rw [g2, g3, g4]
    rw [e]; exact h2

example : mergeAxes (zipAxes [1, 5, 6, 8] [1, 5, 3, 8] [0, 0, 2, 0] [1, 5, 3, 8]) = [⟨5, 5, 0, 5⟩, ⟨48, 24, 16, 24⟩] := by
  decide
example : SliceFits [1, 5, 6, 8] [1, 5, 3, 8] [0, 0, 2, 0] := by simp [SliceFits]

/-! ### C20 -/

theorem take_drop_row {B : Type} (row rest : List B) (b n : Nat) (h : b + n ≤ row.length) :
    ((row ++ rest).drop b).take n = (row.drop b).take n := by
  rw [List.drop_append_of_le_length (by omega), List.take_append_of_le_length (by rw [List.length_drop]; omega)]

theorem zipWith_zero (b idx : List Nat) (hz : ∀ x ∈ b, x = 0) (hlen : idx.length = b.length) :
    List.zipWith (· + ·) b idx = idx := by
  induction b generalizing idx with
  | nil => cases idx with
    | nil => rfl
    | cons _ _ => simp at hlen
  | cons b bs ih =>
    cases idx with
    | nil => simp at hlen
    | cons i idx =>
      rw [List.zipWith_cons_cons, ih idx (fun x hx => hz x (by simp [hx])) (by simpa using hlen), hz b (by simp),
        Nat.zero_add]

/-- Two-dimensional copy. -/
theorem slice2 {B : Type} (g : Nat → Nat → List B) (d n0 n1 b0 b1 m0 m1 : Nat) (hg : ∀ i j, (g i j).length = d)
    (h0 : b0 + m0 ≤ n0) (h1 : b1 + m1 ≤ n1) :
    sliceKernel (b0 * (n1 * d) + b1 * d) (n1 * d) (m1 * d) m0
        ((List.range n0).flatMap fun i => (List.range n1).flatMap fun j => g i j) =
      (List.range m0).flatMap fun i => (List.range m1).flatMap fun j => g (b0 + i) (b1 + j) := by
  unfold sliceKernel
  apply flatMap_congr'
  intro i hi
  have hi : i < m0 := by simpa using hi
  have hrow : ∀ i, ((List.range n1).flatMap fun j => g i j).length = n1 * d := by
    intro i; rw [length_flatMap_const (fun j _ => hg i j)]; simp
  rw [show b0 * (n1 * d) + b1 * d + i * (n1 * d) = (b0 + i) * (n1 * d) + b1 * d by ring, ← List.drop_drop,
    drop_flatMap_range _ (n1 * d) hrow n0 (b0 + i) (by omega)]
  obtain ⟨k, hk⟩ : ∃ k, n0 - (b0 + i) = k + 1 := ⟨n0 - (b0 + i) - 1, by omega⟩
  rw [hk, List.range_succ_eq_map, List.flatMap_cons, take_drop_row]
  · exact slice_flatMap_range (fun j => g (b0 + i + 0) j) d (fun j => hg _ _) n1 b1 m1 h1
  · rw [hrow, ← Nat.add_mul]; exact Nat.mul_le_mul_right _ h1

/-- **C20.** For every element width `d`, rank, shape, begin and size: whatever the lowering produces, running it on the
row-major bytes of the input gives the row-major bytes of the requested sub-tensor; all copies are in bounds; the vector
copy is chosen only when every source address, destination address and length is a multiple of four bytes; and no vector
is indexed out of range. -/
theorem C20_lowered_slice {B : Type} (d : Nat) (inShape outShape begin_ size : List Nat)
    (hfit : SliceFits inShape outShape begin_) (hs : size.length = inShape.length) (hpos : ∀ n ∈ inShape, 0 < n)
    (f : List Nat → List B) (hf : ∀ i, (f i).length = d) :
    let mem := (flat inShape f).flatten
    let want := (flat outShape (sliceT begin_ f)).flatten
    match lowerSlice d (zipAxes inShape outShape begin_ size) with
    | .noop => want = mem
    | .op p =>
        sliceKernel p.start p.offset p.size p.numCopies mem = want ∧
        (∀ i < p.numCopies, p.start + i * p.offset + p.size ≤ mem.length) ∧
        (p.useVpu = true → 4 ∣ p.size ∧ ∀ i, 4 ∣ p.start + i * p.offset ∧ 4 ∣ i * p.size)
    | .fail => True
    | .undef => False := by
  intro mem want
  obtain ⟨g1, g2, g3, g4⟩ := sliceFits_axes hfit hs
  obtain ⟨⟨f', hf', h1, h2⟩, h3⟩ := mergeAxes_slice (zipAxes inShape outShape begin_ size) g1 f
  have hfd : ∀ i, (f' i).length = d := by intro i; obtain ⟨j, hj⟩ := hf' i; rw [hj, hf]
  have hpos' : ∀ x ∈ zipAxes inShape outShape begin_ size, 0 < x.inn := by
    intro x hx; apply hpos; rw [← g2]; exact List.mem_map_of_mem hx
  have hmem : mem = bytes (ins (mergeAxes (zipAxes inShape outShape begin_ size))) f' := by
    show (flat inShape f).flatten = _
    unfold bytes; rw [← h1, g2]
  have hwant : want = bytes (outs (mergeAxes (zipAxes inShape outShape begin_ size)))
      (sliceT (begs (mergeAxes (zipAxes inShape outShape begin_ size))) f') := by
    show (flat outShape _).flatten = _
    unfold bytes; rw [← h2, g3, g4]
  have vpu : ∀ s z o : Nat, (s % 4 == 0 && z % 4 == 0 && o % 4 == 0) = true →
      4 ∣ z ∧ ∀ i, 4 ∣ s + i * o ∧ 4 ∣ i * z := by
    intro s z o h
    simp only [Bool.and_eq_true, beq_iff_eq] at h
    have h1 : 4 ∣ s := Nat.dvd_of_mod_eq_zero h.1.1
    have h2 : 4 ∣ z := Nat.dvd_of_mod_eq_zero h.1.2
    have h3 : 4 ∣ o := Nat.dvd_of_mod_eq_zero h.2
    exact ⟨h2, fun i => ⟨Nat.dvd_add h1 (Dvd.dvd.mul_left h3 _), Dvd.dvd.mul_left h2 _⟩⟩
  generalize hl : zipAxes inShape outShape begin_ size = l at *
  unfold lowerSlice
  cases hno : checkSliceNoOp l with
  | true =>
    simp only [↓reduceIte]
    show want = mem
    have heq : ∀ x ∈ l, x.inn = x.out := by
      intro x hx; unfold checkSliceNoOp at hno; simpa using (List.all_eq_true.1 hno) x hx
    show (flat outShape (sliceT begin_ f)).flatten = (flat inShape f).flatten
    have hio : outShape = inShape := by
      rw [← g2, ← g3]; exact (List.map_congr_left heq).symm
    rw [hio]
    congr 1
    apply flat_congr
    intro idx hidx
    have hz : ∀ b ∈ begin_, b = 0 := by
      rw [← g4]; intro b hb
      obtain ⟨x, hx, rfl⟩ := List.mem_map.1 hb
      have := g1 x hx
      have := heq x hx
      unfold SliceAxisOK at *; omega
    have hlen : idx.length = begin_.length := by
      rw [length_inShape hidx, ← g2, ← g4]; simp [ins, begs]
    unfold sliceT
    congr 1
    exact zipWith_zero begin_ idx hz hlen
  | false =>
    simp only [Bool.false_eq_true, ↓reduceIte]
    have hne := mergeAxes_ne_nil l hpos' hno
    generalize mergeAxes l = m at *
    match m, hne with
    | [a], _ =>
      simp only
      have ha := h3 a (by simp)
      have hk := slice2 (fun _ j => f' [j]) d 1 a.inn 0 a.beg 1 a.out (fun _ _ => hfd _) (by omega) ha
      have e1 : mem = (List.range 1).flatMap fun i => (List.range a.inn).flatMap fun j => f' [j] := by
        rw [hmem]; simp [ins, bytes_cons, bytes_nil]
      have e2 : want = (List.range 1).flatMap fun i => (List.range a.out).flatMap fun j => f' [a.beg + j] := by
        rw [hwant]; simp [outs, begs, bytes_cons, bytes_nil, sliceT]
      refine ⟨?_, ?_, vpu _ _ _⟩
      · rw [e2, e1, ← hk]; simp
      · intro i hi
        rw [hmem, length_bytes _ _ d hfd]
        simp only [ins, List.map_cons, List.map_nil, List.prod_cons, List.prod_nil]
        have : i = 0 := by omega
        subst this
        have := Nat.mul_le_mul_right d ha
        rw [Nat.add_mul] at this
        simpa using this
    | [a, b], _ =>
      simp only
      have ha := h3 a (by simp)
      have hb := h3 b (by simp)
      have hk := slice2 (fun i j => f' [i, j]) d a.inn b.inn a.beg b.beg a.out b.out (fun _ _ => hfd _) ha hb
      refine ⟨?_, ?_, vpu _ _ _⟩
      · have e1 : mem = (List.range a.inn).flatMap fun i => (List.range b.inn).flatMap fun j => f' [i, j] := by
          rw [hmem]; simp [ins, bytes_cons, bytes_nil]
        have e2 : want = (List.range a.out).flatMap fun i => (List.range b.out).flatMap fun j =>
            f' [a.beg + i, b.beg + j] := by
          rw [hwant]; simp [outs, begs, bytes_cons, bytes_nil, sliceT]
        rw [e2, e1, ← hk]
      · intro i hi
        rw [hmem, length_bytes _ _ d hfd]
        simp only [ins, List.map_cons, List.map_nil, List.prod_cons, List.prod_nil]
        have h4 : a.beg + i + 1 ≤ a.inn := by unfold SliceAxisOK at ha; omega
        have h5 := Nat.mul_le_mul_right (b.inn * d) h4
        have h6 := Nat.mul_le_mul_right d hb
        rw [Nat.add_mul, Nat.add_mul] at h5
        rw [Nat.add_mul] at h6
        rw [Nat.mul_one, Nat.mul_assoc]
        omega
    | a :: b :: c :: r, _ => trivial

/-- Counting cut axes on the shapes or on the axes. -/
theorem countP_zip (l : List Axis) (i o : List Nat) (h1 : ins l = i) (h2 : outs l = o) :
    (i.zip o).countP (fun io => io.1 ≠ io.2) = l.countP fun x => x.inn ≠ x.out := by
  subst h1 h2
  have e : (ins l).zip (outs l) = l.map fun x => (x.inn, x.out) := by
    generalize l = m
    induction m with
    | nil => rfl
    | cons a m ih => simpa [ins, outs] using ih
  rw [e, List.countP_map]
  rfl

/-- **C20, completeness.** A slice that cuts at most one axis is always lowered (or removed when it cuts none). -/
theorem C20_one_axis_is_lowered (d : Nat) (inShape outShape begin_ size : List Nat)
    (hfit : SliceFits inShape outShape begin_) (hs : size.length = inShape.length) (hpos : ∀ n ∈ inShape, 0 < n)
    (hone : (inShape.zip outShape).countP (fun io => io.1 ≠ io.2) ≤ 1) :
    lowerSlice d (zipAxes inShape outShape begin_ size) ≠ .fail := by
  obtain ⟨g1, g2, g3, g4⟩ := sliceFits_axes hfit hs
  rw [countP_zip _ _ _ g2 g3] at hone
  have hpos' : ∀ x ∈ zipAxes inShape outShape begin_ size, 0 < x.inn := by
    intro x hx; apply hpos; rw [← g2]; exact List.mem_map_of_mem hx
  have hlen := mergeAxes_length _ hpos'
  unfold lowerSlice
  split
  · simp
  · generalize mergeAxes (zipAxes inShape outShape begin_ size) = m at *
    match m with
    | [] => simp
    | [a] => simp
    | [a, b] => simp
    | a :: b :: c :: r => simp only [List.length_cons] at hlen; omega

example : lowerSlice 1 (zipAxes [1, 5, 6, 8] [1, 5, 3, 8] [0, 0, 2, 0] [1, 5, 3, 8]) = .op ⟨16, 48, 24, 5, true⟩ := by
  decide
example : lowerSlice 2 (zipAxes [4, 3, 5] [2, 2, 4] [1, 0, 1] [2, 2, 4]) = .fail := by decide
example : lowerSlice 2 (zipAxes [4, 15] [2, 14] [1, 1] [2, 14]) = .op ⟨32, 30, 28, 2, false⟩ := by decide

/-! ### C21 -/

theorem interleave {B : Type} (R : Nat → List B) (A E : List B) (n : Nat) :
    ((List.range (n + 1)).flatMap fun i => A ++ R i ++ E) =
      A ++ ((List.range n).flatMap fun i => R i ++ (E ++ A)) ++ R n ++ E := by
  induction n with
  | zero => simp
  | succ n ih =>
    rw [List.range_succ, List.flatMap_append, ih, List.range_succ (n := n), List.flatMap_append]
    simp [List.append_assoc]

theorem flatMap_replicate_range {B : Type} (n m : Nat) (z : B) :
    ((List.range n).flatMap fun _ => List.replicate m z) = List.replicate (n * m) z := by
  induction n with
  | zero => simp
  | succ n ih =>
    rw [List.range_succ, List.flatMap_append, ih]
    simp only [List.flatMap_cons, List.flatMap_nil, List.append_nil, List.replicate_append_replicate]
    congr 1; ring

/-- Three consecutive pieces of an axis: padding, data, padding. -/
theorem split3 {B : Type} (s n e : Nat) (g h : Nat → List B) (z : List B)
    (h1 : ∀ i, s ≤ i → i < s + n → g i = h (i - s)) (h2 : ∀ i, ¬ (s ≤ i ∧ i < s + n) → g i = z) :
    (List.range (s + n + e)).flatMap g =
      ((List.range s).flatMap fun _ => z) ++ (List.range n).flatMap h ++ ((List.range e).flatMap fun _ => z) := by
  rw [List.range_add, List.range_add, List.flatMap_append, List.flatMap_append, List.flatMap_map, List.flatMap_map]
  congr 1
  · congr 1
    · apply flatMap_congr'; intro i hi
      have : i < s := by simpa using hi
      exact h2 i (by omega)
    · apply flatMap_congr'; intro i hi
      have : i < n := by simpa using hi
      rw [h1 (s + i) (by omega) (by omega)]; congr 1; omega
  · apply flatMap_congr'; intro i hi
    exact h2 _ (by omega)

/-- Two-dimensional pad. -/
theorem pad2 {B : Type} (g : Nat → Nat → List B) (zb : B) (d n0 n1 s0 s1 e0 e1 : Nat) (hg : ∀ i j, (g i j).length = d) :
    padKernel zb (s0 * ((s1 + (n1) + e1) * d) + s1 * d) (s1 * d + e1 * d) (n1 * d) (((n0 + 1 : Nat) : Int) - 1)
        (e0 * ((s1 + n1 + e1) * d) + e1 * d)
        ((List.range (n0 + 1)).flatMap fun i => (List.range n1).flatMap fun j => g i j) =
      (List.range (s0 + (n0 + 1) + e0)).flatMap fun i => (List.range (s1 + n1 + e1)).flatMap fun j =>
        padT (List.replicate d zb) [s0, s1] [n0 + 1, n1] (fun idx => g (idx.getD 0 0) (idx.getD 1 0)) [i, j] := by
  have hrow : ∀ i, ((List.range n1).flatMap fun j => g i j).length = n1 * d := by
    intro i; rw [length_flatMap_const (fun j _ => hg i j)]; simp
  have hchunk : ∀ i, i ≤ n0 →
      ((((List.range (n0 + 1)).flatMap fun i => (List.range n1).flatMap fun j => g i j).drop (i * (n1 * d))).take (n1 * d)) =
        (List.range n1).flatMap fun j => g i j := by
    intro i hi
    have := slice_flatMap_range (fun i => (List.range n1).flatMap fun j => g i j) (n1 * d) hrow (n0 + 1) i 1 (by omega)
    simpa using this
  -- the specification, row by row
  rw [split3 s0 (n0 + 1) e0 _
    (fun i => List.replicate (s1 * d) zb ++ ((List.range n1).flatMap fun j => g i j) ++ List.replicate (e1 * d) zb)
    (List.replicate ((s1 + n1 + e1) * d) zb)]
  · rw [interleave, flatMap_replicate_range, flatMap_replicate_range]
    unfold padKernel
    rw [show (((n0 + 1 : Nat) : Int) - 1).toNat = n0 by omega, hchunk n0 (Nat.le_refl _)]
    have : ((List.range n0).flatMap fun i =>
        (((List.range (n0 + 1)).flatMap fun i => (List.range n1).flatMap fun j => g i j).drop (i * (n1 * d))).take (n1 * d) ++
          List.replicate (s1 * d + e1 * d) zb) =
        (List.range n0).flatMap fun i => ((List.range n1).flatMap fun j => g i j) ++
          (List.replicate (e1 * d) zb ++ List.replicate (s1 * d) zb) := by
      apply flatMap_congr'
      intro i hi
      have : i < n0 := by simpa using hi
      rw [hchunk i (by omega), List.replicate_append_replicate, Nat.add_comm]
    rw [this, Nat.add_comm (e0 * ((s1 + n1 + e1) * d)), 
      ← List.replicate_append_replicate (n := e1 * d) (m := e0 * ((s1 + n1 + e1) * d)),
      ← List.replicate_append_replicate (n := s0 * ((s1 + n1 + e1) * d)) (m := s1 * d)]
    simp only [List.append_assoc]
  · intro i hi1 hi2
    rw [split3 s1 n1 e1 _ (fun j => g (i - s0) j) (List.replicate d zb)]
    · rw [flatMap_replicate_range, flatMap_replicate_range]
    · intro j hj1 hj2
      simp only [padT]
      rw [if_pos ⟨hi1, hi2⟩, if_pos ⟨hj1, hj2⟩]; rfl
    · intro j hj
      simp only [padT]
      rw [if_pos ⟨hi1, hi2⟩, if_neg hj]
  · intro i hi
    rw [← flatMap_replicate_range]
    apply flatMap_congr'
    intro j _
    simp only [padT]
    rw [if_neg hi]

theorem padT_noop {α : Type} (z : α) (s n idx : List Nat) (hs : ∀ x ∈ s, x = 0) (hl : s.length = n.length)
    (hidx : InShape n idx) (f : List Nat → α) : padT z s n f idx = f idx := by
  induction n generalizing s idx f with
  | nil =>
    cases idx with
    | nil => cases s <;> rfl
    | cons _ _ => exact hidx.elim
  | cons n ns ih =>
    rcases s with _ | ⟨s, ss⟩
    · simp at hl
    rcases idx with _ | ⟨i, idx⟩
    · exact hidx.elim
    have h0 := hs s (by simp)
    subst h0
    simp only [padT]
    rw [if_pos ⟨by omega, by have := hidx.1; omega⟩, ih ss idx (fun x hx => hs x (by simp [hx])) (by simpa using hl) hidx.2]
    rfl

/-- Every byte lane of the word written by the kernel is the zero point as a byte. -/
theorem broadcast_lanes (zp : Int) (k : Nat) (hk : k < 4) : lane (broadcast8to32 zp) k = (zp % 256).toNat := by
  unfold lane broadcast8to32
  have h : (zp % 256).toNat < 256 := by omega
  generalize (zp % 256).toNat = b at *
  have : ∀ b < 256, ∀ k < 4, b * 0x01010101 / 256 ^ k % 256 = b := by decide +kernel
  exact this b h k hk

/-- The lowering of a pad for any kind of byte and any padding byte. -/
theorem lowered_pad {B : Type} (zb : B) (d : Nat) (zp : Int) (inShape outShape paddings : List Nat)
    (hfit : PadFits inShape outShape (evens paddings) (odds paddings)) (hpos : ∀ n ∈ inShape, 0 < n)
    (f : List Nat → List B) (hf : ∀ i, (f i).length = d) :
    let mem := (flat inShape f).flatten
    let want := (flat outShape (padT (List.replicate d zb) (evens paddings) inShape f)).flatten
    match lowerPad d zp inShape outShape paddings with
    | .noop => want = mem
    | .op p =>
        padKernel zb p.start p.padSize p.size p.numCopies p.end_ mem = want ∧
        p.zeroPoint = broadcast8to32 zp ∧ 0 ≤ p.numCopies ∧
        (p.useVpu = true → 4 ∣ p.start ∧ 4 ∣ p.padSize ∧ 4 ∣ p.size ∧ 4 ∣ p.end_)
    | .fail => True
    | .undef => False := by
  intro mem want
  obtain ⟨g1, g2, g3, g4, g5⟩ := padFits_axes hfit
  obtain ⟨⟨f', hf', h1, h2⟩, h3⟩ :=
    mergeAxes_pad (List.replicate d zb) (zipAxes inShape outShape (evens paddings) (odds paddings)) g1 f
  have hfd : ∀ i, (f' i).length = d := by intro i; obtain ⟨j, hj⟩ := hf' i; rw [hj, hf]
  have hpos' : ∀ x ∈ zipAxes inShape outShape (evens paddings) (odds paddings), 0 < x.inn := by
    intro x hx; apply hpos; rw [← g2]; exact List.mem_map_of_mem hx
  have hposm := mergeAxes_pos _ hpos'
  have hmem : mem = bytes (ins (mergeAxes (zipAxes inShape outShape (evens paddings) (odds paddings)))) f' := by
    show (flat inShape f).flatten = _
    unfold bytes; rw [← h1, g2]
  have hwant : want = bytes (outs (mergeAxes (zipAxes inShape outShape (evens paddings) (odds paddings))))
      (padT (List.replicate d zb) (begs (mergeAxes (zipAxes inShape outShape (evens paddings) (odds paddings))))
        (ins (mergeAxes (zipAxes inShape outShape (evens paddings) (odds paddings)))) f') := by
    show (flat outShape _).flatten = _
    unfold bytes; rw [← h2, g2, g3, g4]
  unfold lowerPad
  generalize hl : zipAxes inShape outShape (evens paddings) (odds paddings) = l at *
  unfold lowerPadAxes
  cases hno : checkSliceNoOp l with
  | true =>
    simp only [↓reduceIte]
    show want = mem
    have heq : ∀ x ∈ l, x.inn = x.out := by
      intro x hx; unfold checkSliceNoOp at hno; simpa using (List.all_eq_true.1 hno) x hx
    show (flat outShape (padT (List.replicate d zb) (evens paddings) inShape f)).flatten = (flat inShape f).flatten
    have hio : outShape = inShape := by
      rw [← g2, ← g3]; exact (List.map_congr_left heq).symm
    rw [hio]
    congr 1
    apply flat_congr
    intro idx hidx
    apply padT_noop
    · rw [← g4]; intro b hb
      obtain ⟨x, hx, rfl⟩ := List.mem_map.1 hb
      have := g1 x hx
      have := heq x hx
      unfold PadAxisOK at *; omega
    · rw [← g2, ← g4]; simp [ins, begs]
    · exact hidx
  | false =>
    simp only [Bool.false_eq_true, ↓reduceIte]
    have hne := mergeAxes_ne_nil l hpos' hno
    generalize mergeAxes l = m at *
    match m, hne with
    | [a], _ =>
      simp only
      have ha := h3 a (by simp)
      unfold PadAxisOK at ha
      have hk := pad2 (fun _ j => f' [j]) zb d 0 a.inn 0 a.beg 0 a.siz (fun _ _ => hfd _)
      have e1 : mem = (List.range (0 + 1)).flatMap fun i => (List.range a.inn).flatMap fun j => f' [j] := by
        rw [hmem]; simp [ins, bytes_cons, bytes_nil]
      have e2 : want = (List.range (0 + (0 + 1) + 0)).flatMap fun i => (List.range (a.beg + a.inn + a.siz)).flatMap fun j =>
          padT (List.replicate d zb) [0, a.beg] [0 + 1, a.inn] (fun idx => f' [idx.getD 1 0]) [i, j] := by
        rw [hwant]; simp [outs, begs, ins, bytes_cons, bytes_nil, padT, ha]
      refine ⟨?_, trivial, by omega, ?_⟩
      · rw [e2, ← hk, e1]; simp [padKernel]
      · intro h
        simp only [Bool.and_eq_true, beq_iff_eq] at h
        exact ⟨Nat.dvd_of_mod_eq_zero h.1.1.1, by simp, Nat.dvd_of_mod_eq_zero h.1.2, Nat.dvd_of_mod_eq_zero h.2⟩
    | [a, b], _ =>
      simp only
      have ha := h3 a (by simp)
      have hb := h3 b (by simp)
      have hap := hposm a (by simp)
      unfold PadAxisOK at ha hb
      by_cases hc : b.inn * d = 3 ∧ b.out * d = 4
      · rw [if_pos hc]; trivial
      · rw [if_neg hc]
        simp only
        obtain ⟨n0, hn0⟩ : ∃ n0, a.inn = n0 + 1 := ⟨a.inn - 1, by omega⟩
        have hk := pad2 (fun i j => f' [i, j]) zb d n0 b.inn a.beg b.beg a.siz b.siz (fun _ _ => hfd _)
        have e1 : mem = (List.range (n0 + 1)).flatMap fun i => (List.range b.inn).flatMap fun j => f' [i, j] := by
          rw [hmem]; simp [ins, bytes_cons, bytes_nil, hn0]
        have e2 : want = (List.range (a.beg + (n0 + 1) + a.siz)).flatMap fun i =>
            (List.range (b.beg + b.inn + b.siz)).flatMap fun j =>
            padT (List.replicate d zb) [a.beg, b.beg] [n0 + 1, b.inn] (fun idx => f' [idx.getD 0 0, idx.getD 1 0]) [i, j] := by
          rw [hwant]; simp [outs, begs, ins, bytes_cons, bytes_nil, padT, ha, hb, hn0]
        refine ⟨?_, trivial, by omega, ?_⟩
        · rw [e2, ← hk, e1, hb, hn0]
        · intro h
          simp only [Bool.and_eq_true, beq_iff_eq] at h
          exact ⟨Nat.dvd_of_mod_eq_zero h.1.1.1, Nat.dvd_of_mod_eq_zero h.1.1.2, Nat.dvd_of_mod_eq_zero h.1.2,
            Nat.dvd_of_mod_eq_zero h.2⟩
    | a :: b :: c :: r, _ => trivial

/-- **C21.** For every element width, rank, shape and paddings: whatever the lowering produces, running it on the
row-major bytes of the input gives the row-major bytes of the padded tensor, where a padding element consists of `d` bytes
equal to the low byte of the zero point (8-bit types; wider types have zero point 0).  The word stored in the model has
that byte in every lane, the vector copy is chosen only if all lengths are multiples of four, and no vector is indexed
out of range. -/
theorem C21_lowered_pad (d : Nat) (zp : Int) (inShape outShape paddings : List Nat)
    (hfit : PadFits inShape outShape (evens paddings) (odds paddings)) (hpos : ∀ n ∈ inShape, 0 < n)
    (f : List Nat → List Nat) (hf : ∀ i, (f i).length = d) :
    let zb := (zp % 256).toNat
    let mem := (flat inShape f).flatten
    let want := (flat outShape (padT (List.replicate d zb) (evens paddings) inShape f)).flatten
    match lowerPad d zp inShape outShape paddings with
    | .noop => want = mem
    | .op p =>
        padKernel zb p.start p.padSize p.size p.numCopies p.end_ mem = want ∧
        (∀ k < 4, lane p.zeroPoint k = zb) ∧ 0 ≤ p.numCopies ∧
        (p.useVpu = true → 4 ∣ p.start ∧ 4 ∣ p.padSize ∧ 4 ∣ p.size ∧ 4 ∣ p.end_)
    | .fail => True
    | .undef => False := by
  intro zb mem want
  have := lowered_pad zb d zp inShape outShape paddings hfit hpos f hf
  revert this
  cases lowerPad d zp inShape outShape paddings with
  | op p => exact fun h => ⟨h.1, fun k hk => by rw [h.2.1]; exact broadcast_lanes zp k hk, h.2.2⟩
  | _ => exact id

/-- **C21, completeness.** A pad of at most one axis is always lowered, except for the three-to-four-channel case that is
left to the dedicated operator. -/
theorem C21_one_axis_is_lowered (d : Nat) (zp : Int) (inShape outShape paddings : List Nat)
    (hfit : PadFits inShape outShape (evens paddings) (odds paddings)) (hpos : ∀ n ∈ inShape, 0 < n)
    (hone : (inShape.zip outShape).countP (fun io => io.1 ≠ io.2) ≤ 1)
    (hfail : lowerPad d zp inShape outShape paddings = .fail) :
    ∃ a b, mergeAxes (zipAxes inShape outShape (evens paddings) (odds paddings)) = [a, b] ∧ b.inn * d = 3 ∧ b.out * d = 4 := by
  obtain ⟨g1, g2, g3, g4⟩ := padFits_axes hfit
  rw [countP_zip _ _ _ g2 g3] at hone
  have hpos' : ∀ x ∈ zipAxes inShape outShape (evens paddings) (odds paddings), 0 < x.inn := by
    intro x hx; apply hpos; rw [← g2]; exact List.mem_map_of_mem hx
  have hlen := mergeAxes_length _ hpos'
  unfold lowerPad lowerPadAxes at hfail
  split at hfail
  · exact absurd hfail (by simp)
  · generalize mergeAxes (zipAxes inShape outShape (evens paddings) (odds paddings)) = m at *
    match m with
    | [] => exact absurd hfail (by simp)
    | [a] => exact absurd hfail (by simp)
    | [a, b] =>
      simp only at hfail
      by_cases hc : b.inn * d = 3 ∧ b.out * d = 4
      · exact ⟨a, b, rfl, hc⟩
      · rw [if_neg hc] at hfail; exact absurd hfail (by simp)
    | a :: b :: c :: r => simp only [List.length_cons] at hlen; omega

example : lowerPad 1 (-3) [1, 5, 5, 16] [1, 7, 5, 16] [0, 0, 1, 1, 0, 0, 0, 0] =
    .op ⟨80, 0, 400, 0, 0xFDFDFDFD, 80, true⟩ := by decide
example : lowerPad 1 0 [1, 5, 5, 16] [1, 5, 7, 16] [0, 0, 0, 0, 1, 1, 0, 0] = .op ⟨16, 32, 80, 4, 0, 16, true⟩ := by
  decide
example : PadFits [1, 5, 5, 16] [1, 5, 7, 16] (evens [0, 0, 0, 0, 1, 1, 0, 0]) (odds [0, 0, 0, 0, 1, 1, 0, 0]) := by
  simp [PadFits, evens, odds]

end Verif.Move
