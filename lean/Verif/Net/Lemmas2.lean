import Verif.Net.Lemmas
/-! Lemmas for C83: concatenations and strided slices on their own. -/
namespace Verif.Net
open Verif.Tensor Verif.Move Verif.MemPlan

theorem inShape_split : ∀ (pre post : List Nat) (m : Nat) (idx : List Nat), InShape (pre ++ m :: post) idx →
    ∃ u i w, idx = u ++ i :: w ∧ InShape pre u ∧ i < m ∧ InShape post w
  | [], post, m, i :: w, h => ⟨[], i, w, rfl, trivial, h.1, h.2⟩
  | [], _, _, [], h => h.elim
  | p :: pre, post, m, j :: idx, h => by
    obtain ⟨u, i, w, rfl, h1, h2, h3⟩ := inShape_split pre post m idx h.2
    exact ⟨j :: u, i, w, rfl, ⟨h.1, h1⟩, h2, h3⟩
  | _ :: _, _, _, [], h => h.elim

theorem inShape_join : ∀ (pre post : List Nat) (m : Nat) (u : List Nat) (i : Nat) (w : List Nat), InShape pre u → i < m → InShape post w →
    InShape (pre ++ m :: post) (u ++ i :: w)
  | [], _, _, [], _, _, _, h2, h3 => ⟨h2, h3⟩
  | _ :: pre, post, m, _ :: u, i, w, h1, h2, h3 => ⟨h1.1, inShape_join pre post m u i w h1.2 h2 h3⟩
  | [], _, _, _ :: _, _, _, h1, _, _ => h1.elim
  | _ :: _, _, _, [], _, _, h1, _, _ => h1.elim

theorem concatT_cons (k : Nat) (n : Nat) (f : T) (rest : List (Nat × T)) (u : List Nat) (i : Nat) (w : List Nat) (hu : u.length = k) :
    concatT k ((n, f) :: rest) (u ++ i :: w) = if i < n then f (u ++ i :: w) else concatT k rest (u ++ (i - n) :: w) := by
  subst hu
  rw [concatT]
  simp [List.set_append_right]

theorem length_concatT (pre post : List Nat) (d : Nat) : ∀ (l : List (Nat × T)), (∀ x ∈ l, ∀ i, (x.2 i).length = d) →
    ∀ idx, InShape (pre ++ (l.map (·.1)).sum :: post) idx → (concatT pre.length l idx).length = d
  | [], _, idx, h => by
    obtain ⟨u, i, w, _, _, h2, _⟩ := inShape_split _ _ _ _ h
    simp at h2
  | (n, f) :: l, hf, idx, h => by
    obtain ⟨u, i, w, rfl, h1, h2, h3⟩ := inShape_split _ _ _ _ h
    rw [concatT_cons _ _ _ _ _ _ _ (length_inShape h1)]
    simp only [List.map_cons, List.sum_cons] at h2
    split
    · exact hf (n, f) (by simp) _
    · exact length_concatT pre post d l (fun x hx => hf x (by simp [hx])) _ (inShape_join _ _ _ _ _ _ h1 (by omega) h3)

theorem concatT_head_congr (pre post : List Nat) (n : Nat) (f g : T) (l : List (Nat × T))
    (h : ∀ idx, InShape (pre ++ n :: post) idx → f idx = g idx) (m : Nat) (idx : List Nat) (hi : InShape (pre ++ m :: post) idx) :
    concatT pre.length ((n, f) :: l) idx = concatT pre.length ((n, g) :: l) idx := by
  obtain ⟨u, i, w, rfl, h1, h2, h3⟩ := inShape_split _ _ _ _ hi
  rw [concatT_cons _ _ _ _ _ _ _ (length_inShape h1), concatT_cons _ _ _ _ _ _ _ (length_inShape h1)]
  split
  · rename_i hn
    exact h _ (inShape_join _ _ _ _ _ _ h1 hn h3)
  · rfl

/-- The operands of a concatenation as its meaning sees them. -/
def cIn (k : Nat) (zs : List (Ty × List Byte)) : List (Nat × T) := zs.map fun z => (z.1.shape.getD k 0, elemAt z.1 z.2)

/-- The axis of a concatenation of rank `r`. -/
theorem axis_front (pre post : List Nat) (axis : Int) (m : Nat) (h : axis = pre.length ∨ axis = (pre.length : Int) - (pre.length + 1 + post.length)) :
    (if axis < 0 then ((pre ++ m :: post).length : Int) + axis else axis).toNat = pre.length := by
  rw [List.length_append, List.length_cons]
  rcases h with h | h
  · rw [if_neg (by omega)]; omega
  · rw [if_pos (by omega)]; push_cast; omega

theorem eval_concat (sem : Sem) (pre post : List Nat) (d : Nat) (ty : Ty) (zs : List (Ty × List Byte)) (axis : Int)
    (hc : ConcatFits pre post d (zs.map (·.1)) ty) (h : axis = pre.length ∨ axis = (pre.length : Int) - (pre.length + 1 + post.length)) :
    eval sem (.concat axis) ty zs = bytesOf ty (concatT pre.length (cIn pre.length zs)) ∧
      ∀ idx, InShape ty.shape idx → (concatT pre.length (cIn pre.length zs) idx).length = d := by
  obtain ⟨h1, h2⟩ := hc
  have hs : ((cIn pre.length zs).map (·.1)) = zs.map fun z => z.1.shape.getD pre.length 0 := by simp [cIn]
  have hl : ∀ idx, InShape ty.shape idx → (concatT pre.length (cIn pre.length zs) idx).length = d := by
    intro idx hi
    apply length_concatT pre post d
    · intro x hx i
      obtain ⟨z, hz, rfl⟩ := List.mem_map.1 hx
      obtain ⟨n, hn⟩ := h1 z.1 (List.mem_map_of_mem hz)
      simp only [length_elemAt, hn]
    · rw [hs]
      rw [h2] at hi
      simpa [List.map_map, Function.comp_def] using hi
  refine ⟨?_, hl⟩
  unfold eval denote
  simp only
  apply bytesOf_congr
  intro idx hi
  have ha : (if axis < 0 then (ty.shape.length : Int) + axis else axis).toNat = pre.length := by rw [h2]; exact axis_front _ _ _ _ h
  rw [ha, List.map_map]
  apply fit_eq
  have := hl idx hi
  rw [show ty.d = d by rw [h2]]
  exact this

theorem concat_value (sem : Sem) (pre post : List Nat) (ty : Ty) (zs : List (Ty × List Byte)) (axis : Int)
    (hc : ConcatFits pre post ty.d (zs.map (·.1)) ty) (h : axis = pre.length ∨ axis = (pre.length : Int) - (pre.length + 1 + post.length))
    (hn : zs.length ≤ 13) (hD : ∀ z ∈ zs, z.2.length = z.1.size) :
    ∃ p, lowerConcat ty.d (zs.map (·.1.shape)) ty.shape axis = .op p ∧
      concatKernel p.numCopies p.sizes (zs.map (·.2)) = eval sem (.concat axis) ty zs := by
  rw [(eval_concat sem pre post ty.d ty zs axis hc h).1]
  obtain ⟨h1, h2⟩ := hc
  have hz : ∀ z ∈ zs, z.1 = ⟨pre ++ z.1.shape.getD pre.length 0 :: post, ty.d⟩ := by
    intro z hz
    obtain ⟨n, hn⟩ := h1 z.1 (List.mem_map_of_mem hz)
    rw [hn]
    simp
  obtain ⟨p, g1, g2, _⟩ := C18_lowered_concat ty.d pre post (cIn pre.length zs) (by simpa [cIn] using hn) axis h (by
    intro nf hnf i
    obtain ⟨z, hm, rfl⟩ := List.mem_map.1 hnf
    rw [hz z hm]
    exact length_elemAt _ _ _)
  have hs : ((cIn pre.length zs).map (·.1)) = zs.map fun z => z.1.shape.getD pre.length 0 := by simp [cIn]
  have ho : pre ++ ((cIn pre.length zs).map (·.1)).sum :: post = ty.shape := by
    rw [hs]
    conv_rhs => rw [h2]
    simp [List.map_map, Function.comp_def]
  have hi : inShapes pre post (cIn pre.length zs) = zs.map (·.1.shape) := by
    unfold inShapes cIn
    rw [List.map_map]
    apply List.map_congr_left
    intro z hm
    show pre ++ z.1.shape.getD pre.length 0 :: post = z.1.shape
    conv_rhs => rw [hz z hm]
  have hm : ((cIn pre.length zs).map fun nf => (flat (pre ++ nf.1 :: post) nf.2).flatten) = zs.map (·.2) := by
    unfold cIn
    rw [List.map_map]
    apply List.map_congr_left
    intro z hm
    have := bytesOf_elemAt z.1 z.2 (hD z hm)
    unfold bytesOf at this
    show (flat (pre ++ z.1.shape.getD pre.length 0 :: post) (elemAt z.1 z.2)).flatten = z.2
    rw [show pre ++ z.1.shape.getD pre.length 0 :: post = z.1.shape by conv_rhs => rw [hz z hm]]
    exact this
  rw [ho, hi] at g1
  refine ⟨p, g1, ?_⟩
  rw [ho, hm] at g2
  exact g2

/-- Concatenating the first operands first changes nothing. -/
theorem concat_assoc (sem : Sem) (pre post : List Nat) (ty fty : Ty) (zs1 zs2 : List (Ty × List Byte)) (axis : Int)
    (hc : ConcatFits pre post ty.d ((zs1 ++ zs2).map (·.1)) ty) (hf : ConcatFits pre post ty.d (zs1.map (·.1)) fty)
    (h : axis = pre.length ∨ axis = (pre.length : Int) - (pre.length + 1 + post.length)) :
    ConcatFits pre post ty.d (((fty, eval sem (.concat axis) fty zs1) :: zs2).map (·.1)) ty ∧
    eval sem (.concat axis) ty ((fty, eval sem (.concat axis) fty zs1) :: zs2) = eval sem (.concat axis) ty (zs1 ++ zs2) := by
  obtain ⟨h1, h2⟩ := hc
  obtain ⟨f1, f2⟩ := hf
  have hfs : fty.shape.getD pre.length 0 = ((zs1.map (·.1)).map fun a => a.shape.getD pre.length 0).sum := by
    rw [f2]; simp
  have hc' : ConcatFits pre post ty.d (((fty, eval sem (.concat axis) fty zs1) :: zs2).map (·.1)) ty := by
    refine ⟨?_, ?_⟩
    · intro a ha
      rw [List.map_cons, List.mem_cons] at ha
      rcases ha with ha | ha
      · exact ⟨_, ha.trans f2⟩
      · exact h1 a (by rw [List.map_append]; exact List.mem_append_right _ ha)
    · conv_lhs => rw [h2]
      simp only [List.map_append, List.map_cons, List.sum_append, List.sum_cons, hfs]
  refine ⟨hc', ?_⟩
  rw [(eval_concat sem pre post ty.d ty _ axis hc' h).1, (eval_concat sem pre post ty.d ty _ axis ⟨h1, h2⟩ h).1]
  obtain ⟨e1, e2⟩ := eval_concat sem pre post ty.d fty zs1 axis ⟨f1, f2⟩ h
  apply bytesOf_congr
  intro idx hi
  have hi' : InShape (pre ++ ((((zs1 ++ zs2).map (·.1)).map fun a => a.shape.getD pre.length 0).sum) :: post) idx := by rw [h2] at hi; exact hi
  have hlen : pre.length < idx.length := by rw [length_inShape hi']; simp
  have hz1 : (cIn pre.length zs1).map (·.1) = (zs1.map (·.1)).map fun a => a.shape.getD pre.length 0 := by simp [cIn]
  have hap := concatT_append pre.length (cIn pre.length zs1) (cIn pre.length zs2) idx hlen
  have hc12 : cIn pre.length (zs1 ++ zs2) = cIn pre.length zs1 ++ cIn pre.length zs2 := by simp [cIn]
  rw [hc12, hap]
  show concatT pre.length ((fty.shape.getD pre.length 0, elemAt fty (eval sem (.concat axis) fty zs1)) :: cIn pre.length zs2) idx = _
  rw [hz1, ← hfs]
  apply concatT_head_congr pre post _ _ _ _ _ _ _ hi'
  intro j hj
  rw [e1]
  have hsh : pre ++ fty.shape.getD pre.length 0 :: post = fty.shape := by
    rw [hfs]; conv_rhs => rw [f2]
  rw [hsh] at hj
  apply elemAt_bytesOf
  · intro i hi2
    rw [e2 i hi2, f2]
  · exact hj

/-! ### Strided slices -/

/-- Selecting by ranges and dropping the axes of size one. -/
theorem strided_flat (bm em sm : Nat) : ∀ (i : Nat) (shape : List Nat) (b e : List Int) (f : T), b.length = shape.length → e.length = shape.length →
    (∀ j < shape.length, 0 ≤ (tfRange (bm.testBit (i + j)) (em.testBit (i + j)) (sm.testBit (i + j)) ((shape.getD j 0 : Nat) : Int) (b.getD j 0) (e.getD j 0)).2) →
    let r := fun j => tfRange (bm.testBit (i + j)) (em.testBit (i + j)) (sm.testBit (i + j)) ((shape.getD j 0 : Nat) : Int) (b.getD j 0) (e.getD j 0)
    let rs := (List.range shape.length).map r
    flat ((shrinkShape sm i (rs.map (·.2))).map (·.toNat)) (fun idx => f (stridedIdx bm em sm i shape b e idx)) =
      flat (rs.map (·.2.toNat)) (sliceT (rs.map (·.1.toNat)) f)
  | i, [], [], [], f, _, _, _ => by simp [shrinkShape, flat, stridedIdx, sliceT]
  | i, n :: shape, b :: bs, e :: es, f, hb, he, hp => by
    have ih := fun g => strided_flat bm em sm (i + 1) shape bs es g (by simpa using hb) (by simpa using he) (by
      intro j hj
      have := hp (j + 1) (by simpa using hj)
      rw [show i + 1 + j = i + (j + 1) by omega]
      simpa using this)
    intro r rs
    have hrs : rs = tfRange (bm.testBit i) (em.testBit i) (sm.testBit i) n b e ::
        (List.range shape.length).map fun j => tfRange (bm.testBit (i + 1 + j)) (em.testBit (i + 1 + j)) (sm.testBit (i + 1 + j))
          ((shape.getD j 0 : Nat) : Int) (bs.getD j 0) (es.getD j 0) := by
      show (List.range (shape.length + 1)).map r = _
      rw [List.range_succ_eq_map, List.map_cons, List.map_map]
      congr 1
      apply List.map_congr_left
      intro j _
      show r (j + 1) = _
      simp only [r, List.getD_cons_succ]
      rw [show i + (j + 1) = i + 1 + j by omega]
    simp only at ih
    generalize hrest : ((List.range shape.length).map fun j => tfRange (bm.testBit (i + 1 + j)) (em.testBit (i + 1 + j)) (sm.testBit (i + 1 + j))
          ((shape.getD j 0 : Nat) : Int) (bs.getD j 0) (es.getD j 0)) = rest at ih hrs
    rw [hrs]
    simp only [List.map_cons, shrinkShape]
    by_cases hs : sm.testBit i = true
    · rw [if_pos hs]
      have h1 : (tfRange (bm.testBit i) (em.testBit i) (sm.testBit i) n b e).2 = 1 := by simp [tfRange, hs]
      rw [h1]
      show _ = flat (1 :: rest.map (·.2.toNat)) _
      rw [flat_one]
      have := ih fun x => f ((tfRange (bm.testBit i) (em.testBit i) (sm.testBit i) n b e).1.toNat :: x)
      simp only [sliceT, List.zipWith_cons_cons, Nat.add_zero] at ⊢
      refine Eq.trans ?_ this
      congr 1
      funext idx
      rw [stridedIdx, if_pos hs]
    · rw [if_neg hs]
      simp only [List.map_cons, flat]
      apply flatMap_congr'
      intro k _
      have := ih fun x => f (((tfRange (bm.testBit i) (em.testBit i) (sm.testBit i) n b e).1.toNat + k) :: x)
      simp only [sliceT, List.zipWith_cons_cons] at ⊢
      refine Eq.trans ?_ this
      congr 1
      funext idx
      rw [stridedIdx, if_neg hs]
      simp

end Verif.Net
