import Verif.Net.QExpand
/-! C84: binary operators, fused activations and lookup tables. -/
namespace Verif.Net
open Verif.Tensor Verif.Move Verif.MemPlan Verif.Quant

variable {sem : Sem} {iv : List (Ty × List Byte)}

/-! ### Rounding -/

theorem roundR_mono {x y : ℝ} (h : x ≤ y) : XC.roundR x ≤ XC.roundR y := by
  rcases eq_or_lt_of_le h with h | h
  · rw [h]
  · have h1 := abs_le.1 (XC.roundR_near x)
    have h2 := abs_le.1 (XC.roundR_near y)
    have : (XC.roundR x : ℝ) < XC.roundR y + 1 := by linarith
    have : XC.roundR x < XC.roundR y + 1 := by exact_mod_cast this
    omega

theorem quantR_mono (o : XC.QI8) (ho : 0 < o.scale) : Monotone (XC.quantR o) := by
  intro x y h
  unfold XC.quantR
  have := roundR_mono (div_le_div_of_nonneg_right h ho.le)
  omega

theorem quantR_deq (o : XC.QI8) (ho : 0 < o.scale) (q : ℤ) (h : -128 ≤ q ∧ q ≤ 127) : XC.quantR o (o.deq q) = q := by
  unfold XC.quantR XC.QI8.deq
  rw [show o.scale * ((q : ℝ) - o.zp) / o.scale = ((q - o.zp : ℤ) : ℝ) by push_cast; field_simp, XC.roundR_int]
  omega

theorem quantR_range (o : XC.QI8) (x : ℝ) : -128 ≤ XC.quantR o x ∧ XC.quantR o x ≤ 127 := by
  unfold XC.quantR
  omega

/-- An activation that clamps does not enlarge the distance between quantised values. -/
theorem fused_near (o : XC.QI8) (ho : 0 < o.scale) (act : TFL.Act) (q : ℤ) (hq : -128 ≤ q ∧ q ≤ 127) (x : ℝ) (h : |q - XC.quantR o x| ≤ 1) :
    |XC.quantR o (fusedReal act (o.deq q)) - XC.quantR o (fusedReal act x)| ≤ 1 := by
  have hm := quantR_mono o ho
  have e := quantR_deq o ho q hq
  rw [abs_le] at h ⊢
  cases act <;> simp only [fusedReal, hm.map_max, hm.map_min, e] <;> omega

/-! ### Elements -/

theorem table_entry (f : XC.Activation) (it ot : XC.QI8) (hs : 0 < ot.scale) (b : Byte)
    (hfit : |f.apply (it.deq (s8 b))| ≤ 2147483647 * ot.scale) :
    s8 ((tableBytes f it ot).getD b.toNat 0) = XC.quantR ot (f.apply (it.deq (s8 b))) := by
  have hq := s8_range b
  have hx : ((s8 b - it.zp : ℤ) : ℝ) * it.scale = it.deq (s8 b) := by unfold XC.QI8.deq; push_cast; ring
  have hat := XC.inputVector_at (s8 b) hq.1 hq.2
  rw [toU8_s8] at hat
  unfold tableBytes XC.lookupTable
  rw [List.getD_eq_getElem?_getD, List.getElem?_map, List.getElem?_map, List.getElem?_map, hat]
  simp only [Option.map_some, Option.getD_some, hx]
  unfold XC.quantEntry
  have hr : -2147483648 ≤ XC.roundR (f.apply (it.deq (s8 b)) / ot.scale) ∧ XC.roundR (f.apply (it.deq (s8 b)) / ot.scale) ≤ 2147483647 := by
    have hd : |f.apply (it.deq (s8 b)) / ot.scale| ≤ (2147483647 : ℕ) := by
      rw [abs_div, abs_of_pos hs, div_le_iff₀ hs]
      exact_mod_cast hfit
    have := abs_le.1 (XC.roundR_abs_le _ 2147483647 hd)
    omega
  simp only
  rw [if_pos hr]
  simp only [Option.getD_some]
  exact s8_toByte (quantR_range ot _)

theorem length_table (f : XC.Activation) (it ot : XC.QI8) : (tableBytes f it ot).length = 256 := by
  simp [tableBytes, XC.lookupTable, XC.inputVector_length]

/-- A lookup table on the value with bytes `D`. -/
theorem lookup_estep {e : Exp} (hg : EGood iv e) (key : Nat) (hkey : ∀ ins, sem key ins = lookupKernel ins) (f : XC.Activation) (it ot : XC.QI8)
    (hs : 0 < ot.scale) (hfit : ∀ q : ℤ, -128 ≤ q → q ≤ 127 → |f.apply (it.deq q)| ≤ 2147483647 * ot.scale) (v : Nat) (ty : Ty) (hty : ty.d = 1)
    {D : List Byte} (hv : EHolds sem iv e v ty D) :
    ∃ D', EStep sem iv e (expandLookup e key f it ot v ty) ty D' ∧
      ∀ idx, InShape ty.shape idx → tensorOf ty D' idx = XC.quantR ot (f.apply (it.deq (tensorOf ty D idx))) := by
  obtain ⟨hc, hcc⟩ := const_estep (sem := sem) hg (tableBytes f it ot) ⟨[256], 1⟩ (length_table f it ot)
  have hv' := hv.mono hg hc.ext
  have hl : (lookupKernel [D, tableBytes f it ot]).length = ty.size := by
    simp only [lookupKernel, List.getD_cons_zero, List.length_map]
    exact hv.len
  refine ⟨lookupKernel [D, tableBytes f it ot], ?_, ?_⟩
  · have := other_estep (sem := sem) hc.good true key ty [(v, ty, D), ((e.emit ⟨.const (tableBytes f it ot), [], ⟨[256], 1⟩⟩).2, ⟨[256], 1⟩, tableBytes f it ot)]
      (by
        intro z hz
        simp only [List.mem_cons, List.not_mem_nil, or_false] at hz
        rcases hz with rfl | rfl
        · exact hv'
        · exact hc.holds)
      (by
        intro _ z hz
        simp only [List.mem_cons, List.not_mem_nil, or_false] at hz
        rcases hz with rfl | rfl
        · exact Or.inr (le_refl _)
        · exact Or.inl hcc)
      (hkey _) hl
    exact hc.trans this
  · intro idx hidx
    have hlt := ravel_lt_len hty hv.len hidx
    rw [tensorOf_get ty hty _ hl idx hidx, tensorOf_get ty hty _ hv.len idx hidx]
    have hq := s8_range (D.getD (ravel ty.shape idx) 0)
    rw [← table_entry f it ot hs _ (hfit _ hq.1 hq.2)]
    simp only [lookupKernel, List.getD_cons_zero, List.getD_cons_succ]
    congr 1
    rw [List.getD_eq_getElem?_getD, List.getElem?_map, List.getElem?_eq_getElem hlt, List.getD_eq_getElem?_getD (l := D), List.getElem?_eq_getElem hlt]
    rfl

/-- An explicit broadcast. -/
theorem broadcast_estep {e : Exp} (hg : EGood iv e) (a out : Ty) (ha : a.d = 1) (hout : out.d = 1) (hb : TFL.Broadcastable a.shape out.shape) (v : Nat) {D : List Byte}
    (hv : EHolds sem iv e v a D) :
    ∃ D', EStep sem iv e (expandBroadcast e (a, v) out) out D' ∧
      ∀ idx, InShape out.shape idx → tensorOf out D' idx = broadcastT a.shape (tensorOf a D) idx := by
  have hiff := TFL.hasSameShape_iff a.shape out.shape
  have ho : (⟨out.shape, a.d⟩ : Ty) = out := by rw [ha, ← hout]
  unfold expandBroadcast
  by_cases hs : a.shape = out.shape
  · rw [if_pos (hiff.2 hs)]
    have hao : a = out := by rw [← ho, ← hs]
    subst hao
    exact ⟨D, estep_same hg hv, fun idx hidx => (TFL.broadcastT_self _ _ _ hidx).symm⟩
  · rw [if_neg (fun h => hs (hiff.1 h))]
    simp only
    rw [ho]
    have hok : Kind.broadcast.OK ([(v, a, D)].map fun z => (e.ctx iv).getD z.1 (⟨[], 0⟩, false)) out := by
      refine ⟨a, ((e.ctx iv).getD v (⟨[], 0⟩, false)).2, ?_, by rw [ha, hout], hb.1⟩
      simp only [List.map_cons, List.map_nil]
      rw [← hv.ctx hg]
    have hstep := emit_estep (sem := sem) hg .broadcast out [(v, a, D)] (by simpa using hv) hok
      (length_eval .broadcast out _ _ hok (by
        simp only [List.map_cons, List.map_nil]
        rw [hv.ctx hg]))
    refine ⟨_, hstep, ?_⟩
    intro idx hidx
    show s8 ((elemAt out (bytesOf out (broadcastT a.shape (elemAt a D))) idx).headD 0) = _
    rw [elemAt_bytesOf out _ (fun i _ => by unfold broadcastT; rw [length_elemAt, ha, hout]) idx hidx]
    rfl

/-- The fused activation as an operator of its own. -/
theorem act_estep {e : Exp} (hg : EGood iv e) (key : Nat) (act : TFL.Act) (ot : XC.QI8)
    (hkey : ∀ ins, sem key ins = actKernel ot ins act)
    (hok : QOK ot) (h6 : act = .relu6 → 6 ≤ 2147483647 * ot.scale) (v : Nat) (ty : Ty) (hty : ty.d = 1) {D : List Byte} (hv : EHolds sem iv e v ty D) :
    ∃ D', EStep sem iv e (expandAct e key act ot v ty) ty D' ∧
      ∀ idx, InShape ty.shape idx → tensorOf ty D' idx = XC.quantR ot (fusedReal act (ot.deq (tensorOf ty D idx))) := by
  have hs := hok.pos
  have hdeq : ∀ q : ℤ, -128 ≤ q → q ≤ 127 → |max (ot.deq q) 0| ≤ 255 * ot.scale := by
    intro q h1 h2
    have := hok.zp
    have hq : |(q : ℝ) - ot.zp| ≤ 255 := by
      have : |q - ot.zp| ≤ 255 := by rw [abs_le]; omega
      exact_mod_cast this
    have hd : |ot.deq q| ≤ 255 * ot.scale := by
      unfold XC.QI8.deq
      rw [abs_mul, abs_of_pos hs, mul_comm]
      exact mul_le_mul_of_nonneg_right hq hs.le
    rw [abs_le] at hd ⊢
    constructor
    · have := le_max_right (ot.deq q) 0
      nlinarith
    · exact max_le hd.2 (by positivity)
  cases act with
  | none =>
    refine ⟨D, estep_same hg hv, ?_⟩
    intro idx _
    exact (quantR_deq ot hs _ (tensorOf_range _ _ _)).symm
  | relu =>
    obtain ⟨D', h1, h2⟩ := lookup_estep hg key hkey .relu ot ot hs (fun q a b => (hdeq q a b).trans (by nlinarith)) v ty hty hv
    refine ⟨D', h1, fun idx hidx => ?_⟩
    rw [h2 idx hidx]
    simp only [XC.Activation.apply, fusedReal, max_comm]
  | relu6 =>
    obtain ⟨D', h1, h2⟩ := lookup_estep hg key hkey .relu6 ot ot hs (fun q a b => by
      have h6 := h6 rfl
      simp only [XC.Activation.apply]
      rw [abs_of_nonneg (le_min (le_max_right _ _) (by norm_num))]
      exact (min_le_right _ _).trans h6) v ty hty hv
    refine ⟨D', h1, fun idx hidx => ?_⟩
    rw [h2 idx hidx]
    congr 1
    simp only [XC.Activation.apply, fusedReal]
    rcases le_total (ot.deq (tensorOf ty D idx)) 0 with h | h
    · rw [max_eq_right h, min_eq_left (by norm_num : (0:ℝ) ≤ 6), max_eq_left ((min_le_right _ _).trans h)]
    · rw [max_eq_left h, max_eq_right (le_min (by norm_num) h), min_comm]
  | relu1 =>
    have hl : (D.map fun x => toByte (XC.quantR ot (fusedReal .relu1 (ot.deq (s8 x))))).length = ty.size := by rw [List.length_map, hv.len]
    have hstep := other_estep (sem := sem) hg false key ty [(v, ty, D)] (by simpa using hv) (by intro h; cases h) (hkey _) hl
    refine ⟨D.map fun x => toByte (XC.quantR ot (fusedReal .relu1 (ot.deq (s8 x)))), hstep, fun idx hidx => ?_⟩
    have hlt := ravel_lt_len hty hv.len hidx
    rw [tensorOf_get ty hty _ hl idx hidx, tensorOf_get ty hty _ hv.len idx hidx]
    rw [List.getD_eq_getElem?_getD, List.getElem?_map, List.getElem?_eq_getElem hlt, List.getD_eq_getElem?_getD (l := D), List.getElem?_eq_getElem hlt]
    simp only [Option.map_some, Option.getD_some]
    exact s8_toByte (quantR_range _ _)

/-- One element of the xcore operator. -/
theorem xcBinary_near {R : Rt} {dom : MulArgs → Prop} (hR : R.OK dom) (op : BinOp) (lt rt ot : XC.QI8) (hl : QOK lt) (hr : QOK rt) (ho : QOK ot)
    (hop : BinDom dom lt rt ot op)
    (x y : ℤ) (hx : -128 ≤ x ∧ x ≤ 127) (hy : -128 ≤ y ∧ y ≤ 127) :
    (-128 ≤ xcBinary R op lt rt ot x y ∧ xcBinary R op lt rt ot x y ≤ 127) ∧
    |xcBinary R op lt rt ot x y - XC.quantR ot (binReal op lt rt x y)| ≤ 1 := by
  cases op with
  | add =>
    refine ⟨?_, XC.C39_accuracy lt rt ot hl.pos hr.pos ho.pos false R.rnd hR.rnd x y hx hy hop.1 hop.2⟩
    simp only [xcBinary, XC.addKernel]
    omega
  | sub =>
    refine ⟨?_, XC.C39_accuracy lt rt ot hl.pos hr.pos ho.pos true R.rnd hR.rnd x y hx hy hop.1 hop.2⟩
    simp only [xcBinary, XC.addKernel]
    omega
  | mul => exact hR.mul _ x y hop hx hy

theorem binary_estep {R : Rt} {dom : MulArgs → Prop} (hR : R.OK dom) {e : Exp} (hg : EGood iv e) (k0 k1 : Nat) (op : BinOp) (act : TFL.Act) (lt rt ot : XC.QI8)
    (hk0 : ∀ ins, sem k0 ins = List.zipWith (fun x y => toByte (xcBinary R op lt rt ot (s8 x) (s8 y))) (ins.getD 0 []) (ins.getD 1 []))
    (hk1 : ∀ ins, sem k1 ins = actKernel ot ins act)
    (hl : QOK lt) (hr : QOK rt) (ho : QOK ot)
    (hop : BinDom dom lt rt ot op)
    (h6 : act = .relu6 → 6 ≤ 2147483647 * ot.scale)
    (a b ty : Ty) (ha : a.d = 1) (hb : b.d = 1) (hty : ty.d = 1) (hba : TFL.Broadcastable a.shape ty.shape) (hbb : TFL.Broadcastable b.shape ty.shape)
    (va vb : Nat) {Da Db : List Byte} (hva : EHolds sem iv e va a Da) (hvb : EHolds sem iv e vb b Db) :
    let x := expandBroadcast e (a, va) ty
    let y := expandBroadcast x.1 (b, vb) ty
    let z := y.1.emit ⟨.other true k0, [x.2, y.2], ty⟩
    ∃ D, EStep sem iv e (expandAct z.1 k1 act ot z.2 ty) ty D ∧ ∀ idx, InShape ty.shape idx →
      |tensorOf ty D idx - XC.quantR ot (fusedReal act (binReal op lt rt (broadcastT a.shape (tensorOf a Da) idx) (broadcastT b.shape (tensorOf b Db) idx)))| ≤ 1 := by
  intro x y z
  obtain ⟨Dx, hx, ex⟩ := broadcast_estep (sem := sem) hg a ty ha hty hba va hva
  obtain ⟨Dy, hy, ey⟩ := broadcast_estep (sem := sem) hx.good b ty hb hty hbb vb (hvb.mono hg hx.ext)
  have hx' : EHolds sem iv y.1 x.2 ty Dx := hx.holds.mono hx.good hy.ext
  have hlen : (List.zipWith (fun x y => toByte (xcBinary R op lt rt ot (s8 x) (s8 y))) Dx Dy).length = ty.size := by
    rw [List.length_zipWith, hx.holds.len, hy.holds.len]
    simp
  have hz : EStep sem iv y.1 z ty (List.zipWith (fun x y => toByte (xcBinary R op lt rt ot (s8 x) (s8 y))) Dx Dy) :=
    other_estep (sem := sem) hy.good true k0 ty [(x.2, ty, Dx), (y.2, ty, Dy)]
      (by
        intro w hw
        simp only [List.mem_cons, List.not_mem_nil, or_false] at hw
        rcases hw with rfl | rfl
        · exact hx'
        · exact hy.holds)
      (by
        intro _ w hw
        simp only [List.mem_cons, List.not_mem_nil, or_false] at hw
        rcases hw with rfl | rfl <;> exact Or.inr (le_refl _))
      (hk0 _) hlen
  obtain ⟨D, hD, eD⟩ := act_estep (sem := sem) hz.good k1 act ot hk1 ho h6 z.2 ty hty hz.holds
  refine ⟨D, ((hx.trans hy).trans hz).trans hD, ?_⟩
  intro idx hidx
  rw [eD idx hidx]
  have hq : tensorOf ty (List.zipWith (fun x y => toByte (xcBinary R op lt rt ot (s8 x) (s8 y))) Dx Dy) idx =
      xcBinary R op lt rt ot (broadcastT a.shape (tensorOf a Da) idx) (broadcastT b.shape (tensorOf b Db) idx) := by
    rw [← ex idx hidx, ← ey idx hidx, tensorOf_get ty hty _ hlen idx hidx, tensorOf_get ty hty _ hx.holds.len idx hidx, tensorOf_get ty hty _ hy.holds.len idx hidx]
    have l1 := ravel_lt_len hty hx.holds.len hidx
    have l2 := ravel_lt_len hty hy.holds.len hidx
    rw [List.getD_eq_getElem?_getD, List.getElem?_zipWith, List.getElem?_eq_getElem l1, List.getElem?_eq_getElem l2,
      List.getD_eq_getElem?_getD (l := Dx), List.getElem?_eq_getElem l1, List.getD_eq_getElem?_getD (l := Dy), List.getElem?_eq_getElem l2]
    exact s8_toByte (xcBinary_near hR op lt rt ot hl hr ho hop _ _ (s8_range _) (s8_range _)).1
  have hbr : ∀ (t : Ty) (d : List Byte), -128 ≤ broadcastT t.shape (tensorOf t d) idx ∧ broadcastT t.shape (tensorOf t d) idx ≤ 127 :=
    fun t d => tensorOf_range _ _ _
  obtain ⟨k1, k2⟩ := xcBinary_near hR op lt rt ot hl hr ho hop _ _ (hbr a Da) (hbr b Db)
  rw [hq]
  exact fused_near ot ho.pos act _ k1 _ k2

end Verif.Net
