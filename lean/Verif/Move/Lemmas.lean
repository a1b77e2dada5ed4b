import Verif.Move.Model
import Verif.Move.Spec
/-! Lemmas for the data-movement lowerings. -/
namespace Verif.Move
open Verif.Tensor

/-- The four vectors of a list of axes. -/
def ins (l : List Axis) : List Nat := l.map (·.inn)
def outs (l : List Axis) : List Nat := l.map (·.out)
def begs (l : List Axis) : List Nat := l.map (·.beg)
def sizs (l : List Axis) : List Nat := l.map (·.siz)

/-! ### Merging one pair -/

theorem length_inShape {s idx : List Nat} (h : InShape s idx) : idx.length = s.length := by
  induction s generalizing idx with
  | nil => cases idx with
    | nil => rfl
    | cons _ _ => exact h.elim
  | cons n s ih => cases idx with
    | nil => exact h.elim
    | cons i idx => simp [ih h.2]

theorem zipWith_unmerge (pre post idx : List Nat) (x m : Nat) (hm : 0 < m)
    (hl : idx.length = pre.length + 1 + post.length) :
    List.zipWith (· + ·) (pre ++ x :: 0 :: post) (unmerge m pre.length idx) =
      unmerge m pre.length (List.zipWith (· + ·) (pre ++ (x * m) :: post) idx) := by
  induction pre generalizing idx with
  | nil =>
    cases idx with
    | nil => simp at hl; omega
    | cons i idx =>
      simp only [List.nil_append, List.length_nil, unmerge, List.zipWith_cons_cons, Nat.zero_add]
      rw [show x * m + i = i + m * x by ring, Nat.add_mul_div_left _ _ hm, Nat.add_mul_mod_self_left, Nat.add_comm x]
  | cons p pre ih =>
    cases idx with
    | nil => simp at hl; omega
    | cons i idx =>
      simp only [List.cons_append, List.length_cons, unmerge, List.zipWith_cons_cons]
      rw [ih idx (by simp at hl; omega)]

theorem padT_unmerge {α : Type} (z : α) (pre preN post postN idx : List Nat) (x n m : Nat) (hm : 0 < m)
    (hp : pre.length = preN.length)
    (f : List Nat → α) (hl : idx.length = pre.length + 1 + post.length) :
    padT z (pre ++ x :: 0 :: post) (preN ++ n :: m :: postN) f (unmerge m pre.length idx) =
      padT z (pre ++ (x * m) :: post) (preN ++ (n * m) :: postN) (fun i => f (unmerge m pre.length i)) idx := by
  induction pre generalizing idx preN f with
  | nil =>
    cases preN with
    | cons _ _ => simp at hp
    | nil =>
    cases idx with
    | nil => simp at hl; omega
    | cons i idx =>
      simp only [List.nil_append, List.length_nil, unmerge, padT]
      have h1 : i % m < m := Nat.mod_lt _ hm
      have h2 : m * (i / m) + i % m = i := Nat.div_add_mod i m
      have hiff : (x ≤ i / m ∧ i / m < x + n) ↔ (x * m ≤ i ∧ i < x * m + n * m) := by
        rw [Nat.le_div_iff_mul_le hm, Nat.div_lt_iff_lt_mul hm, Nat.add_mul]
      by_cases hc : x * m ≤ i ∧ i < x * m + n * m
      · rw [if_pos (hiff.2 hc), if_pos hc, if_pos (by omega)]
        congr 1
        funext r
        congr 1
        rw [Nat.sub_zero, Nat.mul_comm x m, Nat.sub_mul_div, Nat.sub_mul_mod]
        rw [Nat.mul_comm]; exact hc.1
      · rw [if_neg (fun h => hc (hiff.1 h)), if_neg hc]
  | cons p pre ih =>
    cases preN with
    | nil => simp at hp
    | cons q preN =>
    cases idx with
    | nil => simp at hl; omega
    | cons i idx =>
      simp only [List.cons_append, List.length_cons, unmerge, padT]
      split
      · rw [ih preN idx (by simpa using hp) _ (by simp at hl; omega)]
      · rfl

/-! ### The loop -/

/-- What one step does to the list. -/
theorem step_eq (pre post : List Axis) (a b : Axis) :
    (((pre ++ a :: b :: post).set pre.length (mergePair a b)).eraseIdx (pre.length + 1)) =
      pre ++ mergePair a b :: post := by
  induction pre with
  | nil => rfl
  | cons p pre ih => simpa using ih

/-- Induction principle: a relation that is preserved by merging an equal-size axis into the one before it, anywhere in
the list, is preserved by `mergeLoop`. -/
theorem mergeLoop_ind (P : List Axis → Prop)
    (hstep : ∀ pre a b post, b.inn = b.out → P (pre ++ a :: b :: post) → P (pre ++ mergePair a b :: post))
    (i : Nat) (l : List Axis) (hi : i < l.length) (h : P l) : P (mergeLoop i l) := by
  induction i generalizing l with
  | zero => exact h
  | succ i ih =>
    unfold mergeLoop
    split
    case isTrue heq =>
      obtain ⟨pre, a, b, post, hl, hpre⟩ : ∃ pre a b post, l = pre ++ a :: b :: post ∧ pre.length = i := by
        refine ⟨l.take i, l[i], l[i + 1], l.drop (i + 2), ?_, by rw [List.length_take]; omega⟩
        rw [List.getElem_cons_drop, List.getElem_cons_drop, List.take_append_drop]
      subst hpre
      have ga : l.getD pre.length default = a := by rw [hl]; simp
      have gb : l.getD (pre.length + 1) default = b := by rw [hl]; simp
      rw [ga, gb]
      rw [gb] at heq
      have e := step_eq pre post a b
      rw [← hl] at e
      rw [e]
      apply ih
      · rw [List.length_append]; simp
      · exact hstep pre a b post heq (hl ▸ h)
    case isFalse => exact ih l (by omega) h

/-- The loop never empties a list. -/
theorem mergeLoop_ne_nil (i : Nat) (l : List Axis) (hi : i < l.length) : mergeLoop i l ≠ [] :=
  mergeLoop_ind (fun l => l ≠ []) (fun _ _ _ _ _ _ => by simp) i l hi (by intro h; subst h; simp at hi)

/-! ### Slices -/

/-- The slice stays inside its input on this axis. -/
def SliceAxisOK (a : Axis) : Prop := a.beg + a.out ≤ a.inn

/-- `l` and `l'` describe the same movement of data: the same input memory and the same output memory. -/
def SliceSim {α : Type} (l l' : List Axis) (f : List Nat → α) : Prop :=
  ∃ f' : List Nat → α, (∀ i, ∃ j, f' i = f j) ∧ flat (ins l) f = flat (ins l') f' ∧
    flat (outs l) (sliceT (begs l) f) = flat (outs l') (sliceT (begs l') f')

theorem SliceSim.refl {α : Type} (l : List Axis) (f : List Nat → α) : SliceSim l l f := ⟨f, fun i => ⟨i, rfl⟩, rfl, rfl⟩

theorem slice_step {α : Type} (pre post : List Axis) (a b : Axis) (heq : b.inn = b.out) (hb : SliceAxisOK b)
    (f : List Nat → α) : SliceSim (pre ++ a :: b :: post) (pre ++ mergePair a b :: post) f := by
  have hbeg : b.beg = 0 := by unfold SliceAxisOK at hb; omega
  refine ⟨fun idx => f (unmerge b.inn pre.length idx), fun i => ⟨_, rfl⟩, ?_, ?_⟩
  · have := flat_merge (ins pre) (ins post) a.inn b.inn f
    simpa [ins, mergePair] using this
  · rcases Nat.eq_zero_or_pos b.inn with h0 | hpos
    · rw [flat_zero, flat_zero]
      · simp [outs, mergePair, h0]
      · simp only [outs, List.map_append, List.map_cons, List.mem_append, List.mem_cons]
        right; right; left; omega
    · have h1 := flat_merge (outs pre) (outs post) a.out b.out (sliceT (begs (pre ++ a :: b :: post)) f)
      have h2 : outs (pre ++ a :: b :: post) = outs pre ++ a.out :: b.out :: outs post := by simp [outs]
      have h3 : outs (pre ++ mergePair a b :: post) = outs pre ++ (a.out * b.out) :: outs post := by
        simp [outs, mergePair, heq]
      rw [h2, h1, h3]
      apply flat_congr
      intro idx hidx
      have hl := length_inShape hidx
      simp only [outs, List.length_append, List.length_map, List.length_cons] at hl
      have hz := zipWith_unmerge (begs pre) (begs post) idx a.beg b.inn hpos (by simp [begs]; omega)
      have e1 : begs (pre ++ a :: b :: post) = begs pre ++ a.beg :: 0 :: begs post := by simp [begs, hbeg]
      have e2 : begs (pre ++ mergePair a b :: post) = begs pre ++ (a.beg * b.inn) :: begs post := by
        simp [begs, mergePair]
      have e3 : (outs pre).length = (begs pre).length := by simp [outs, begs]
      have e4 : pre.length = (begs pre).length := by simp [begs]
      unfold sliceT
      rw [e1, e2, e3, ← heq, hz, e4]

theorem slice_step_ok (pre post : List Axis) (a b : Axis)
    (h : ∀ x ∈ pre ++ a :: b :: post, SliceAxisOK x) : ∀ x ∈ pre ++ mergePair a b :: post, SliceAxisOK x := by
  intro x hx
  simp only [List.mem_append, List.mem_cons] at hx
  rcases hx with hx | hx | hx
  · exact h x (by simp [hx])
  · subst hx
    have ha : SliceAxisOK a := h a (by simp)
    unfold SliceAxisOK mergePair at *
    simp only
    rw [← Nat.add_mul]
    exact Nat.mul_le_mul_right _ ha
  · exact h x (by simp [hx])

theorem SliceSim.trans {α : Type} {l l' l'' : List Axis} {f : List Nat → α}
    (h : SliceSim l l' f) (g : ∀ f' : List Nat → α, SliceSim l' l'' f') : SliceSim l l'' f := by
  obtain ⟨f', h0, h1, h2⟩ := h
  obtain ⟨f'', g0, g1, g2⟩ := g f'
  refine ⟨f'', ?_, h1.trans g1, h2.trans g2⟩
  intro i
  obtain ⟨j, hj⟩ := g0 i
  obtain ⟨k, hk⟩ := h0 j
  exact ⟨k, hj.trans hk⟩

theorem flat_one {α : Type} (s : List Nat) (f : List Nat → α) : flat (1 :: s) f = flat s fun idx => f (0 :: idx) := by
  simp [flat]

theorem mergeAxes_slice {α : Type} (l : List Axis) (hok : ∀ x ∈ l, SliceAxisOK x) (f : List Nat → α) :
    SliceSim l (mergeAxes l) f ∧ ∀ x ∈ mergeAxes l, SliceAxisOK x := by
  rcases l with _ | ⟨a0, l0⟩
  · exact ⟨SliceSim.refl _ f, by simp [mergeAxes, mergeLoop]⟩
  have hP := mergeLoop_ind (fun l' => (∀ f : List Nat → α, SliceSim (a0 :: l0) l' f) ∧ ∀ x ∈ l', SliceAxisOK x)
    (fun pre a b post heq h => ⟨fun f => (h.1 f).trans fun f' => slice_step pre post a b heq (h.2 b (by simp)) f',
      slice_step_ok pre post a b h.2⟩)
    ((a0 :: l0).length - 1) (a0 :: l0) (by simp) ⟨fun f => SliceSim.refl _ f, hok⟩
  unfold mergeAxes
  generalize mergeLoop ((a0 :: l0).length - 1) (a0 :: l0) = m at hP
  rcases m with _ | ⟨a, rest⟩
  · exact ⟨hP.1 f, hP.2⟩
  · simp only
    split
    case isTrue h1 =>
      refine ⟨?_, fun x hx => hP.2 x (by simp [hx])⟩
      refine (hP.1 f).trans fun f' => ⟨fun idx => f' (0 :: idx), fun i => ⟨_, rfl⟩, ?_, ?_⟩
      · simp only [ins, List.map_cons, h1.1]; exact flat_one _ _
      · have ha : a.beg = 0 := by have := hP.2 a (by simp); unfold SliceAxisOK at this; omega
        simp only [outs, List.map_cons, h1.2, flat_one]
        congr 1
        funext idx
        simp [sliceT, begs, ha]
    case isFalse => exact ⟨hP.1 f, hP.2⟩

/-! ### Unequal axes survive -/

/-- Some axis differs, and then the merged list is not empty. -/
theorem mergeLoop_diff (i : Nat) (l : List Axis) (hi : i < l.length) (hpos : ∀ x ∈ l, 0 < x.inn)
    (h : ∃ x ∈ l, x.inn ≠ x.out) :
    (∀ x ∈ mergeLoop i l, 0 < x.inn) ∧ ∃ x ∈ mergeLoop i l, x.inn ≠ x.out := by
  refine mergeLoop_ind (fun l => (∀ x ∈ l, 0 < x.inn) ∧ ∃ x ∈ l, x.inn ≠ x.out) ?_ i l hi ⟨hpos, h⟩
  intro pre a b post heq ⟨hp, x, hx, hne⟩
  have ha := hp a (by simp)
  have hb := hp b (by simp)
  constructor
  · intro y hy
    simp only [List.mem_append, List.mem_cons] at hy
    rcases hy with hy | hy | hy
    · exact hp y (by simp [hy])
    · subst hy; exact Nat.mul_pos ha hb
    · exact hp y (by simp [hy])
  · simp only [List.mem_append, List.mem_cons] at hx
    rcases hx with hx | hx | hx | hx
    · exact ⟨x, by simp [hx], hne⟩
    · subst hx
      refine ⟨mergePair x b, by simp, ?_⟩
      simp only [mergePair]
      intro h
      exact hne (Nat.eq_of_mul_eq_mul_right hb h)
    · subst hx; exact absurd heq hne
    · exact ⟨x, by simp [hx], hne⟩

theorem mergeAxes_ne_nil (l : List Axis) (hpos : ∀ x ∈ l, 0 < x.inn) (h : checkSliceNoOp l = false) :
    mergeAxes l ≠ [] := by
  have hex : ∃ x ∈ l, x.inn ≠ x.out := by
    unfold checkSliceNoOp at h
    simpa using h
  have hlen : l.length - 1 < l.length := by
    obtain ⟨x, hx, _⟩ := hex
    have := List.length_pos_of_mem hx
    omega
  obtain ⟨_, x, hx, hne⟩ := mergeLoop_diff _ l hlen hpos hex
  unfold mergeAxes
  generalize mergeLoop (l.length - 1) l = m at hx
  rcases m with _ | ⟨a, rest⟩
  · simp at hx
  · simp only
    split
    case isTrue h1 =>
      rcases List.mem_cons.1 hx with hx | hx
      · subst hx; omega
      · intro hr; subst hr; simp at hx
    case isFalse => simp

/-! ### How far axes are merged -/

theorem mergeLoop_length (i : Nat) (l : List Axis) (hi : i < l.length) (hpos : ∀ x ∈ l, 0 < x.inn)
    (htail : ∀ x ∈ l.drop (i + 1), x.inn ≠ x.out) :
    (mergeLoop i l).length ≤ 1 + l.countP (fun x => x.inn ≠ x.out) := by
  induction i generalizing l with
  | zero =>
    unfold mergeLoop
    rcases l with _ | ⟨a, r⟩
    · simp at hi
    · have : r.countP (fun x => x.inn ≠ x.out) = r.length := by
        rw [List.countP_eq_length]; intro x hx; simpa using htail x (by simpa using hx)
      rw [List.countP_cons, this, List.length_cons]; omega
  | succ i ih =>
    unfold mergeLoop
    obtain ⟨pre, a, b, post, hl, hpre⟩ : ∃ pre a b post, l = pre ++ a :: b :: post ∧ pre.length = i := by
      refine ⟨l.take i, l[i], l[i + 1], l.drop (i + 2), ?_, by rw [List.length_take]; omega⟩
      rw [List.getElem_cons_drop, List.getElem_cons_drop, List.take_append_drop]
    subst hpre
    have ga : l.getD pre.length default = a := by rw [hl]; simp
    have gb : l.getD (pre.length + 1) default = b := by rw [hl]; simp
    rw [ga, gb]
    have hpost : ∀ x ∈ post, x.inn ≠ x.out := by
      intro x hx
      apply htail
      rw [hl, show pre.length + 1 + 1 = pre.length + 2 by omega, ← List.drop_drop, List.drop_left]
      exact hx
    split
    case isTrue heq =>
      have e := step_eq pre post a b
      rw [← hl] at e
      rw [e]
      have hb : 0 < b.inn := hpos b (by rw [hl]; simp)
      refine Nat.le_trans (ih _ (by simp) ?_ ?_) ?_
      · intro y hy
        simp only [List.mem_append, List.mem_cons] at hy
        rcases hy with hy | hy | hy
        · exact hpos y (by rw [hl]; simp [hy])
        · subst hy; exact Nat.mul_pos (hpos a (by rw [hl]; simp)) hb
        · exact hpos y (by rw [hl]; simp [hy])
      · rw [← List.drop_drop, List.drop_left]; exact hpost
      · rw [hl]
        simp only [List.countP_append, List.countP_cons, mergePair]
        have : (a.inn * b.inn ≠ a.out * b.inn) ↔ a.inn ≠ a.out := by
          constructor
          · intro h h2; exact h (by rw [h2])
          · intro h h2; exact h (Nat.eq_of_mul_eq_mul_right hb h2)
        simp only [this]
        omega
    case isFalse hne =>
      apply ih l (by omega) hpos
      intro x hx
      rw [hl, ← List.drop_drop, List.drop_left] at hx
      simp only [List.drop_succ_cons, List.drop_zero, List.mem_cons] at hx
      rcases hx with hx | hx
      · subst hx; exact hne
      · exact hpost x hx

theorem mergeAxes_length (l : List Axis) (hpos : ∀ x ∈ l, 0 < x.inn) :
    (mergeAxes l).length ≤ 1 + l.countP (fun x => x.inn ≠ x.out) := by
  rcases l with _ | ⟨a0, l0⟩
  · simp [mergeAxes, mergeLoop]
  have h := mergeLoop_length ((a0 :: l0).length - 1) (a0 :: l0) (by simp) hpos (by simp)
  unfold mergeAxes
  generalize mergeLoop ((a0 :: l0).length - 1) (a0 :: l0) = m at h
  rcases m with _ | ⟨a, rest⟩
  · simp
  · simp only
    split
    · simp only [List.length_cons] at h; omega
    · exact h

/-! ### Pads -/

/-- Output size is input size plus both paddings on this axis. -/
def PadAxisOK (a : Axis) : Prop := a.out = a.beg + a.inn + a.siz

def PadSim {α : Type} (z : α) (l l' : List Axis) (f : List Nat → α) : Prop :=
  ∃ f' : List Nat → α, (∀ i, ∃ j, f' i = f j) ∧ flat (ins l) f = flat (ins l') f' ∧
    flat (outs l) (padT z (begs l) (ins l) f) = flat (outs l') (padT z (begs l') (ins l') f')

theorem PadSim.refl {α : Type} (z : α) (l : List Axis) (f : List Nat → α) : PadSim z l l f :=
  ⟨f, fun i => ⟨i, rfl⟩, rfl, rfl⟩

theorem PadSim.trans {α : Type} {z : α} {l l' l'' : List Axis} {f : List Nat → α}
    (h : PadSim z l l' f) (g : ∀ f' : List Nat → α, PadSim z l' l'' f') : PadSim z l l'' f := by
  obtain ⟨f', h0, h1, h2⟩ := h
  obtain ⟨f'', g0, g1, g2⟩ := g f'
  refine ⟨f'', ?_, h1.trans g1, h2.trans g2⟩
  intro i
  obtain ⟨j, hj⟩ := g0 i
  obtain ⟨k, hk⟩ := h0 j
  exact ⟨k, hj.trans hk⟩

theorem pad_step {α : Type} (z : α) (pre post : List Axis) (a b : Axis) (heq : b.inn = b.out) (hb : PadAxisOK b)
    (f : List Nat → α) : PadSim z (pre ++ a :: b :: post) (pre ++ mergePair a b :: post) f := by
  have hbeg : b.beg = 0 := by unfold PadAxisOK at hb; omega
  refine ⟨fun idx => f (unmerge b.inn pre.length idx), fun i => ⟨_, rfl⟩, ?_, ?_⟩
  · have := flat_merge (ins pre) (ins post) a.inn b.inn f
    simpa [ins, mergePair] using this
  · rcases Nat.eq_zero_or_pos b.inn with h0 | hpos
    · rw [flat_zero, flat_zero]
      · simp [outs, mergePair, h0]
      · simp only [outs, List.map_append, List.map_cons, List.mem_append, List.mem_cons]
        right; right; left; omega
    · have h1 := flat_merge (outs pre) (outs post) a.out b.out
        (padT z (begs (pre ++ a :: b :: post)) (ins (pre ++ a :: b :: post)) f)
      have h2 : outs (pre ++ a :: b :: post) = outs pre ++ a.out :: b.out :: outs post := by simp [outs]
      have h3 : outs (pre ++ mergePair a b :: post) = outs pre ++ (a.out * b.out) :: outs post := by
        simp [outs, mergePair, heq]
      rw [h2, h1, h3]
      apply flat_congr
      intro idx hidx
      have hl := length_inShape hidx
      simp only [outs, List.length_append, List.length_map, List.length_cons] at hl
      have hz := padT_unmerge z (begs pre) (ins pre) (begs post) (ins post) idx a.beg a.inn b.inn hpos
        (by simp [begs, ins]) f (by simp [begs]; omega)
      have e1 : begs (pre ++ a :: b :: post) = begs pre ++ a.beg :: 0 :: begs post := by simp [begs, hbeg]
      have e1' : ins (pre ++ a :: b :: post) = ins pre ++ a.inn :: b.inn :: ins post := by simp [ins]
      have e2 : begs (pre ++ mergePair a b :: post) = begs pre ++ (a.beg * b.inn) :: begs post := by
        simp [begs, mergePair]
      have e2' : ins (pre ++ mergePair a b :: post) = ins pre ++ (a.inn * b.inn) :: ins post := by
        simp [ins, mergePair]
      have e3 : (outs pre).length = (begs pre).length := by simp [outs, begs]
      have e4 : pre.length = (begs pre).length := by simp [begs]
      rw [e1, e1', e2, e2', e3, ← heq, hz, e4]

theorem pad_step_ok (pre post : List Axis) (a b : Axis) (heq : b.inn = b.out)
    (h : ∀ x ∈ pre ++ a :: b :: post, PadAxisOK x) : ∀ x ∈ pre ++ mergePair a b :: post, PadAxisOK x := by
  intro x hx
  simp only [List.mem_append, List.mem_cons] at hx
  rcases hx with hx | hx | hx
  · exact h x (by simp [hx])
  · subst hx
    have ha : PadAxisOK a := h a (by simp)
    unfold PadAxisOK mergePair at *
    simp only
    rw [ha]; ring
  · exact h x (by simp [hx])

theorem mergeAxes_pad {α : Type} (z : α) (l : List Axis) (hok : ∀ x ∈ l, PadAxisOK x) (f : List Nat → α) :
    PadSim z l (mergeAxes l) f ∧ ∀ x ∈ mergeAxes l, PadAxisOK x := by
  rcases l with _ | ⟨a0, l0⟩
  · exact ⟨PadSim.refl _ _ f, by simp [mergeAxes, mergeLoop]⟩
  have hP := mergeLoop_ind (fun l' => (∀ f : List Nat → α, PadSim z (a0 :: l0) l' f) ∧ ∀ x ∈ l', PadAxisOK x)
    (fun pre a b post heq h => ⟨fun f => (h.1 f).trans fun f' => pad_step z pre post a b heq (h.2 b (by simp)) f',
      pad_step_ok pre post a b heq h.2⟩)
    ((a0 :: l0).length - 1) (a0 :: l0) (by simp) ⟨fun f => PadSim.refl _ _ f, hok⟩
  unfold mergeAxes
  generalize mergeLoop ((a0 :: l0).length - 1) (a0 :: l0) = m at hP
  rcases m with _ | ⟨a, rest⟩
  · exact ⟨hP.1 f, hP.2⟩
  · simp only
    split
    case isTrue h1 =>
      refine ⟨?_, fun x hx => hP.2 x (by simp [hx])⟩
      refine (hP.1 f).trans fun f' => ⟨fun idx => f' (0 :: idx), fun i => ⟨_, rfl⟩, ?_, ?_⟩
      · simp only [ins, List.map_cons, h1.1]; exact flat_one _ _
      · have ha : a.beg = 0 := by have := hP.2 a (by simp); unfold PadAxisOK at this; omega
        simp only [outs, ins, begs, List.map_cons, h1.2, h1.1, flat_one]
        congr 1
        funext idx
        simp [padT, ha]
    case isFalse => exact ⟨hP.1 f, hP.2⟩

/-- Input dimensions stay positive. -/
theorem mergeAxes_pos (l : List Axis) (hpos : ∀ x ∈ l, 0 < x.inn) : ∀ x ∈ mergeAxes l, 0 < x.inn := by
  rcases l with _ | ⟨a0, l0⟩
  · simp [mergeAxes, mergeLoop]
  have hP := mergeLoop_ind (fun l => ∀ x ∈ l, 0 < x.inn)
    (fun pre a b post _ h y hy => by
      simp only [List.mem_append, List.mem_cons] at hy
      rcases hy with hy | hy | hy
      · exact h y (by simp [hy])
      · subst hy; exact Nat.mul_pos (h a (by simp)) (h b (by simp))
      · exact h y (by simp [hy])) ((a0 :: l0).length - 1) (a0 :: l0) (by simp) hpos
  unfold mergeAxes
  generalize mergeLoop ((a0 :: l0).length - 1) (a0 :: l0) = m at hP
  rcases m with _ | ⟨a, rest⟩
  · simp
  · simp only
    split
    · intro x hx; exact hP x (by simp [hx])
    · exact hP

/-! ### Bytes -/

/-- Memory image in bytes. -/
def bytes {B : Type} (s : List Nat) (f : List Nat → List B) : List B := (flat s f).flatten

theorem bytes_nil {B : Type} (f : List Nat → List B) : bytes [] f = f [] := by simp [bytes, flat]

theorem flatten_flatMap' {α B : Type} (l : List α) (g : α → List (List B)) :
    (l.flatMap g).flatten = l.flatMap fun a => (g a).flatten := by
  induction l with
  | nil => rfl
  | cons a l ih => rw [List.flatMap_cons, List.flatten_append, ih, List.flatMap_cons]

theorem bytes_cons {B : Type} (n : Nat) (s : List Nat) (f : List Nat → List B) :
    bytes (n :: s) f = (List.range n).flatMap fun i => bytes s fun idx => f (i :: idx) := by
  show (flat (n :: s) f).flatten = _
  rw [flat]
  exact flatten_flatMap' _ _

theorem length_bytes {B : Type} (s : List Nat) (f : List Nat → List B) (d : Nat) (hf : ∀ i, (f i).length = d) :
    (bytes s f).length = s.prod * d := by
  unfold bytes
  rw [length_flatten_const (d := d), length_flat]
  intro e he
  obtain ⟨idx, _, rfl⟩ := mem_flat he
  exact hf idx

theorem bytes_append {B : Type} (s t : List Nat) (f : List Nat → List B) :
    bytes (s ++ t) f = bytes s fun i => bytes t fun j => f (i ++ j) := by
  unfold bytes
  rw [flat_append, List.flatten_flatten]
  congr 1
  induction s generalizing f with
  | nil => simp [flat]
  | cons n s ih =>
    simp only [flat, List.map_flatMap]
    apply flatMap_congr'
    intro i _
    exact ih fun x => f (i :: x)

end Verif.Move
