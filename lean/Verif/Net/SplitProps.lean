import Verif.Net.SplitLemmas
/-!
C100: the splitting pass keeps the meaning of the whole network.
-/
namespace Verif.Net
open Verif.Tensor Verif.Move Verif.MemPlan Verif.Image Verif.OpSplit

variable {sem : Sem} {iv : List (Ty × List Byte)}
variable {tb : Table} {F : Nat → Nat → Nat → List (List Byte) → (Int → Int → Px) → Px} {G : Nat → Px → Px → Px}

/-! ### Slices above a convolution -/

theorem raise_facts {w : WOp} (hf : w.Fits) (hd : w.dh = 1) (hdw : w.dw = 1) {b s : Nat} (hs : 1 ≤ s) (hbs : b + s ≤ w.oh)
    (h0 : 0 ≤ (w.raised b s).begin_) (h1 : 1 ≤ (w.raised b s).size) (h2 : (w.raised b s).begin_ + (w.raised b s).size ≤ w.ih) :
    (0 ≤ (w.raised b s).padTop ∧ 0 ≤ (w.raised b s).padBottom ∧ 0 ≤ (w.raised b s).padLeft ∧ 0 ≤ (w.raised b s).padRight) ∧
    (w.same = false → (w.raised b s).padTop = 0 ∧ (w.raised b s).padBottom = 0 ∧ (w.raised b s).padLeft = 0 ∧ (w.raised b s).padRight = 0) ∧
    raisedTypeHeight w.win (w.raised b s) = s ∧ raisedTypeWidth w.win (w.raised b s) w.iw = w.ow ∧
    ∀ (K : (Int → Int → Px) → Px), WindowFn w.win K → ∀ X : Img Px, X.h = w.ih → X.w = w.iw →
      (raisedConv (List.replicate w.ic (List.replicate w.idd (UInt8.ofInt w.zp))) w.win K (w.raised b s) X).Same (sliceRows b s (w.apply K X)) := by
  obtain ⟨z, hz⟩ : ∃ z, z = List.replicate w.ic (List.replicate w.idd (UInt8.ofInt w.zp)) := ⟨_, rfl⟩
  have ok := hf.ok
  obtain ⟨-, ⟨i1, i2, i3⟩, -, f1, f2⟩ := hf
  have key : ∀ (K : (Int → Int → Px) → Px), WindowFn w.win K → ∀ X : Img Px, X.h = w.ih → X.w = w.iw →
      (0 ≤ (w.raised b s).padTop ∧ 0 ≤ (w.raised b s).padBottom ∧ 0 ≤ (w.raised b s).padLeft ∧ 0 ≤ (w.raised b s).padRight) ∧
      (w.same = false → (w.raised b s).padTop = 0 ∧ (w.raised b s).padBottom = 0 ∧ (w.raised b s).padLeft = 0 ∧ (w.raised b s).padRight = 0) ∧
      raisedTypeHeight w.win (w.raised b s) = s ∧ raisedTypeWidth w.win (w.raised b s) w.iw = w.ow ∧
      (raisedConv z w.win K (w.raised b s) X).Same (sliceRows b s (w.apply K X)) := by
    intro K hK X hX hW
    cases hsame : w.same with
    | false =>
      rw [hsame] at f1 f2
      simp only [Bool.false_eq_true, if_false] at f1 f2
      have eh : (convValid w.win K X).h = w.oh := by rw [f1, ← hX]; rfl
      have ew : (convValid w.win K X).w = w.ow := by rw [f2, ← hW]; rfl
      have er : raiseSliceConv X.h X.w w.win (convValid w.win K X).h .valid b s = w.raised b s := by
        rw [eh, hX, hW]; unfold WOp.raised WOp.pad; rw [hsame]; rfl
      have h := C10_raise_slice_valid_partial z w.win ok (by simp [WOp.win, hd]) (by simp [WOp.win, hdw]) K hK X b s (by omega) (by omega) (by rw [eh]; omega)
      simp only at h
      rw [er] at h
      obtain ⟨-, j2, j3, j4⟩ := h
      have hp : (w.raised b s).padTop = 0 ∧ (w.raised b s).padBottom = 0 ∧ (w.raised b s).padLeft = 0 ∧ (w.raised b s).padRight = 0 := by
        rw [← er]; exact ⟨rfl, rfl, rfl, rfl⟩
      refine ⟨by omega, fun _ => hp, j3, ?_, ?_⟩
      · rw [← ew, ← hW]; exact j4
      · unfold WOp.apply; rw [hsame]; exact j2
    | true =>
      rw [hsame] at f1 f2
      simp only [if_true] at f1 f2
      have eh : (convSame w.win z K X).h = w.oh := by rw [f1, ← hX]; rfl
      have ew : (convSame w.win z K X).w = w.ow := by rw [f2, ← hW]; rfl
      have er : raiseSliceConv X.h X.w w.win (convSame w.win z K X).h .same b s = w.raised b s := by
        rw [eh, hX, hW]; unfold WOp.raised WOp.pad; rw [hsame]; rfl
      have hin : SliceOK (raiseSliceConv X.h X.w w.win (convSame w.win z K X).h .same b s).begin_
          (raiseSliceConv X.h X.w w.win (convSame w.win z K X).h .same b s).size X := by
        rw [er]; exact ⟨h0, by omega, by rw [hX]; exact h2⟩
      have h := C11_raise_slice_same_partial z w.win ok (by simp [WOp.win, hd]) (by simp [WOp.win, hdw]) K hK X (by omega) (by omega) b s (by omega) (by omega)
        (by rw [eh]; omega) (clear_of_inside w.win K z X b s hin)
      have hp := raise_pads_nonneg w.win ok X.h X.w (convSame w.win z K X).h b s (by omega) (by omega)
      simp only at h hp
      rw [er] at h hp
      obtain ⟨-, j2, j3, j4⟩ := h
      refine ⟨hp, (fun e => Bool.noConfusion e), j3, ?_, ?_⟩
      · rw [← ew, ← hW]; exact j4
      · unfold WOp.apply; rw [hsame, ← hz]; exact j2
  rw [← hz]
  obtain ⟨k1, k2, k3, k4, -⟩ := key (fun _ => []) (fun _ _ _ => rfl) ⟨w.ih, w.iw, fun _ _ => []⟩ rfl rfl
  exact ⟨k1, k2, k3, k4, fun K hK X hX hW => (key K hK X hX hW).2.2.2.2⟩

/-- The clone is well formed. -/
theorem clone_fits {w : WOp} (hf : w.Fits) (hd : w.dh = 1) (hdw : w.dw = 1) {r : Raised} {s : Nat} (h1 : 1 ≤ r.size)
    (hp : 0 ≤ r.padTop ∧ 0 ≤ r.padBottom ∧ 0 ≤ r.padLeft ∧ 0 ≤ r.padRight)
    (hh : raisedTypeHeight w.win r = s) (hw : raisedTypeWidth w.win r w.iw = w.ow) : (w.clone r).Fits ∧ (w.clone r).oh = s ∧ (w.clone r).ow = w.ow := by
  obtain ⟨q1, ⟨i1, i2, i3⟩, q3, -, -⟩ := hf
  have e1 : (w.clone r).oh = s := by show (raisedTypeHeight w.win r).toNat = s; rw [hh]; simp
  have e2 : (w.clone r).ow = w.ow := by show (raisedTypeWidth w.win r w.iw).toNat = w.ow; rw [hw]; simp
  refine ⟨⟨q1, ⟨?_, ?_, i3⟩, q3, ?_, ?_⟩, e1, e2⟩
  · show 1 ≤ (r.size + r.padTop + r.padBottom).toNat
    omega
  · show 1 ≤ ((w.iw : Int) + r.padLeft + r.padRight).toNat
    omega
  · rw [e1, ← hh]
    show raisedTypeHeight w.win r = ((((r.size + r.padTop + r.padBottom).toNat : Nat) : Int) - eff w.kh w.dh + w.sh) / w.sh
    rw [Int.toNat_of_nonneg (by omega), hd]
    unfold raisedTypeHeight eff WOp.win
    congr 1
    push_cast
    ring
  · rw [e2, ← hw]
    show raisedTypeWidth w.win r w.iw = (((((w.iw : Int) + r.padLeft + r.padRight).toNat : Nat) : Int) - eff w.kw w.dw + w.sw) / w.sw
    rw [Int.toNat_of_nonneg (by omega), hdw]
    unfold raisedTypeWidth eff WOp.win
    congr 1
    push_cast
    ring

theorem sliceFits4 {h n w c b : Nat} (hb : b + n ≤ h) : SliceFits [1, h, w, c] [1, n, w, c] [0, b, 0, 0] := ⟨by omega, hb, by omega, by omega, trivial⟩

theorem pos4 {h w c : Nat} (h1 : 1 ≤ h) (h2 : 1 ≤ w) (h3 : 1 ≤ c) : ∀ n ∈ [1, h, w, c], 0 < n := by
  intro n hn
  simp only [List.mem_cons, List.not_mem_nil, or_false] at hn
  omega

/-- A slice of rows. -/
theorem rowSlice_step {e : Exp} (hg : EGood iv e) {v b n h w c d : Nat} {D : List Byte} (hv : EHolds sem iv e v (ty4 h w c d) D) (hb : b + n ≤ h) (h1 : 1 ≤ h)
    (h2 : 1 ≤ w) (h3 : 1 ≤ c) :
    EStep sem iv e (e.emit (rowSlice v b n w c d)) (ty4 n w c d) (eval sem (.slice [0, b, 0, 0] [1, n, w, c]) (ty4 n w c d) [(ty4 h w c d, D)]) :=
  unary_step hg _ _ hv fun c' => ⟨_, c', rfl, rfl, sliceFits4 hb, rfl, pos4 h1 h2 h3⟩

theorem length_slice4 (sem : Sem) (b s : List Nat) (n h w c d : Nat) (D : List Byte) :
    (eval sem (.slice b s) (ty4 n w c d) [(ty4 h w c d, D)]).length = (ty4 n w c d).size :=
  length_bytesOf (ty4 n w c d) (sliceT b (elemAt (ty4 h w c d) D)) fun _ => length_elemAt _ _ _

/-- An opaque operator, with its remaining operands taken from an earlier network. -/
theorem opaque_step {e0 e : Exp} (hg0 : EGood iv e0) (hg : EGood iv e) (he : ∃ extra, e = ⟨e0.n0, e0.nodes ++ extra⟩) (key : Nat) (ty : Ty) {v : Nat} {t : Ty} {D : List Byte}
    (hv : EHolds sem iv e v t D) (rest : List Nat) (f : Nat → Ty × List Byte) (hr : ∀ a ∈ rest, EHolds sem iv e0 a (f a).1 (f a).2) :
    EStep sem iv e (e.emit ⟨.other false key, v :: rest, ty⟩) ty (eval sem (.other false key) ty ((t, D) :: rest.map f)) := by
  have h := emit_estep (sem := sem) hg (.other false key) ty ((v, t, D) :: rest.map fun a => (a, f a)) (by
    intro z hz
    rw [List.mem_cons, List.mem_map] at hz
    rcases hz with rfl | ⟨a, ha, rfl⟩
    · exact hv
    · exact (hr a ha).mono hg0 he) (fun h => by cases h) (length_eval_other _ _ _ _)
  simpa [List.map_map, Function.comp_def] using h

theorem raiseConvP_sound (hF : Windowed F) : (raiseConvP tb).SoundFor (Meaning tb F G) := by
  intro sem iv pre n ns r hC hiv hg h
  obtain ⟨k, args, ty⟩ := n
  unfold raiseConvP at h
  simp only at h
  split at h
  case h_2 => cases h
  rename_i b s sw sc v
  split at h
  case h_2 => cases h
  rename_i key x rest dty hd
  split at h
  case h_2 => cases h
  rename_i w hl
  split at h
  case isFalse => cases h
  rename_i hguard
  obtain ⟨hf, hdty, hxty, hty, hs, hdh, hdw, h0, h1, h2⟩ := hguard
  subst hdty
  obtain ⟨⟨c, a, c', ha, g1, g2, g3, g4⟩, hdk, hh, hval⟩ := matched hiv hg rfl hd sem
  obtain ⟨rfl, rfl⟩ : w.out = a ∧ c = c' := by simpa using ha
  simp only at g1 g2 hty
  have hbs : b + s ≤ w.oh := by
    rw [hty] at g2
    exact g2.2.1
  refine ⟨rfl, ?_⟩
  obtain ⟨p1, p2, p3, p4, p5⟩ := raise_facts hf hdh hdw hs hbs h0 h1 h2
  obtain ⟨r0, hr0⟩ : ∃ r0, r0 = w.raised b s := ⟨_, rfl⟩
  rw [← hr0] at h h0 h1 h2 p1 p2 p3 p4 p5
  obtain ⟨cf, ch, cw⟩ := clone_fits hf hdh hdw h1 p1 p3 p4
  obtain ⟨w1, hw1⟩ : ∃ w1, w1 = w.clone r0 := ⟨_, rfl⟩
  have ew : w1.win = w.win ∧ w1.id = w.id ∧ w1.kh = w.kh ∧ w1.kw = w.kw ∧ w1.oc = w.oc ∧ w1.od = w.od ∧ w1.ic = w.ic ∧ w1.idd = w.idd ∧ w1.same = false ∧
      w1.ih = (r0.size + r0.padTop + r0.padBottom).toNat ∧ w1.iw = ((w.iw : Int) + r0.padLeft + r0.padRight).toNat := by
    rw [hw1]; exact ⟨rfl, rfl, rfl, rfl, rfl, rfl, rfl, rfl, rfl, rfl, rfl⟩
  obtain ⟨ew1, ew2, ew3, ew4, ew5, ew6, ew7, ew8, ew9, ew10, ew11⟩ := ew
  rw [← hw1] at cf ch cw h
  have hty1 : w1.out = ty := by rw [hty]; unfold WOp.out; rw [ch, cw, ew5, ew6]
  have hx := hh x (by simp)
  rw [hxty] at hx
  simp only at hh hval
  obtain ⟨D, hD⟩ : ∃ D, D = ((evalNodes sem pre iv).getD x dfl).2 := ⟨_, rfl⟩
  obtain ⟨f, hfd⟩ : ∃ f : Nat → Ty × List Byte, f = fun x => (tyOf (iv.map (·.1)) pre x, ((evalNodes sem pre iv).getD x dfl).2) := ⟨_, rfl⟩
  rw [← hD] at hx
  have hrest : ∀ a ∈ rest, EHolds sem iv ⟨iv.length, pre⟩ a (f a).1 (f a).2 := by
    rw [hfd]; intro a ha; exact hh a (by simp [ha])
  rw [hval]
  simp only [List.map_cons]
  rw [hxty, ← hD, ← hfd]
  -- the slice
  have step1 := rowSlice_step (good_prefix hg) (v := x) (b := r0.begin_.toNat) (n := r0.size.toNat) hx (by omega) hf.2.1.1 hf.2.1.2.1 hf.2.1.2.2
  obtain ⟨D1, hD1⟩ : ∃ D1, D1 = eval sem (.slice [0, r0.begin_.toNat, 0, 0] [1, r0.size.toNat, w.iw, w.ic]) (ty4 r0.size.toNat w.iw w.ic w.idd) [(ty4 w.ih w.iw w.ic w.idd, D)] := ⟨_, rfl⟩
  have hD1l : D1.length = (ty4 r0.size.toNat w.iw w.ic w.idd).size := by rw [hD1]; exact length_slice4 sem _ _ _ _ _ _ _ D
  have img1 := img_slice sem r0.begin_.toNat r0.size.toNat w.ih w.iw w.ic w.idd [1, r0.size.toNat, w.iw, w.ic] D
  rw [← hD1] at step1 img1
  rw [Int.toNat_of_nonneg h0, Int.toNat_of_nonneg (by omega)] at img1
  -- the value, given the operand of the clone
  have hK := hF.norm w (rest.map fun a => bytesOf (f a).1 (elemAt (f a).1 (f a).2))
  have fin : ∀ D2 : List Byte, D2.length = w1.inp.size →
      (imgOf w1.ih w1.iw w1.ic w1.idd D2).Same (Image.pad (List.replicate w.ic (List.replicate w.idd (UInt8.ofInt w.zp))) r0.padTop r0.padBottom r0.padLeft r0.padRight
        (sliceRows r0.begin_ r0.size (imgOf w.ih w.iw w.ic w.idd D))) →
      eval sem (.other false (tb.name (.win w1))) w1.out ((w1.inp, D2) :: rest.map f) =
        eval sem (.slice [0, b, 0, 0] [1, s, sw, sc]) ty [(w.out, eval sem (.other false key) w.out ((w.inp, D) :: rest.map f))] := by
    intro D2 hl2 hi2
    rw [hty1, hty]
    refine bytes_of_same (length_eval_other _ _ _ _) (length_slice4 sem _ _ s w.oh w.ow w.oc w.od _) ?_
    have l := (img_slice sem b s w.oh w.ow w.oc w.od [1, s, sw, sc] (eval sem (.other false key) w.out ((w.inp, D) :: rest.map f)))
    have l2 := img_win hC hl hf D hx.len (rest.map f)
    have r2 := img_win hC (tb.named (.win w1)) cf D2 hl2 (rest.map f)
    rw [hty1, hty, ch, cw, ew5, ew6, ew2, ew3, ew4] at r2
    refine Img.Same.trans ?_ l.symm
    refine Img.Same.trans ?_ (sliceRows_congr l2 ⟨by omega, by omega, by show (b : Int) + s ≤ (w.oh : Int); omega⟩).symm
    refine r2.trans ?_
    unfold WOp.apply
    rw [ew9, ew1]
    simp only [Bool.false_eq_true, if_false, List.map_map, Function.comp_def]
    exact (convValid_congr w.win hf.ok hK hi2).trans (p5 _ hK _ rfl rfl)
  split at h
  · -- `SAME`
    obtain ⟨rfl, rfl⟩ := Prod.mk.inj (Option.some.inj h)
    obtain ⟨t, ht⟩ : ∃ t : Nat, r0.padTop = t := ⟨_, (Int.toNat_of_nonneg p1.1).symm⟩
    obtain ⟨bo, hbo⟩ : ∃ t : Nat, r0.padBottom = t := ⟨_, (Int.toNat_of_nonneg p1.2.1).symm⟩
    obtain ⟨l, hll⟩ : ∃ t : Nat, r0.padLeft = t := ⟨_, (Int.toNat_of_nonneg p1.2.2.1).symm⟩
    obtain ⟨rr, hrr⟩ : ∃ t : Nat, r0.padRight = t := ⟨_, (Int.toNat_of_nonneg p1.2.2.2).symm⟩
    have ein : w1.inp = ty4 (r0.size.toNat + t + bo) (w.iw + l + rr) (w.ic + 0 + 0) w.idd := by
      unfold WOp.inp
      rw [ew7, ew8, ew10, ew11, ht, hbo, hll, hrr]
      congr 1 <;> omega
    have eih : w1.ih = r0.size.toNat + t + bo ∧ w1.iw = w.iw + l + rr := by
      rw [ew10, ew11, ht, hbo, hll, hrr]
      constructor <;> omega
    rw [ht, hbo, hll, hrr] at fin ⊢
    simp only [Int.toNat_natCast] at fin ⊢
    have step2 := unary_step step1.good (.pad w.q8 w.zp [0, 0, t, bo, l, rr, 0, 0]) w1.inp step1.holds (by
      intro c
      rw [ein]
      refine ⟨_, c, rfl, rfl, ?_, ?_, ?_⟩
      · refine ⟨?_, ?_, ?_, ?_, trivial⟩ <;> simp [evens, odds] <;> omega
      · exact pos4 (by omega) hf.2.1.2.1 hf.2.1.2.2
      · intro hq
        exact ⟨hf.2.2.1 hq, fun _ => .inl rfl⟩)
    have img2 := img_pad sem w.q8 w.zp t bo l rr 0 0 r0.size.toNat w.iw w.ic w.idd D1
    rw [← ein] at img2
    obtain ⟨D2, hD2⟩ : ∃ D2, D2 = eval sem (.pad w.q8 w.zp [0, 0, t, bo, l, rr, 0, 0]) w1.inp [(ty4 r0.size.toNat w.iw w.ic w.idd, D1)] := ⟨_, rfl⟩
    rw [← hD2] at step2 img2
    have step3 := opaque_step (good_prefix hg) step2.good (step1.trans step2).ext (tb.name (.win w1)) w1.out step2.holds rest f hrest
    rw [fin D2 step2.holds.len (by
      rw [eih.1, eih.2, ew7, ew8]
      refine img2.trans (pad_congr ((imgT_chan_id _ _ _ _ _).trans img1)))] at step3
    have := (step1.trans step2).trans step3
    rw [hty1] at this
    simpa [Exp.emit, rowSlice, ← hty1, Nat.add_assoc] using this
  · -- `VALID`
    rename_i hsame
    obtain ⟨rfl, rfl⟩ := Prod.mk.inj (Option.some.inj h)
    obtain ⟨q1, q2, q3, q4⟩ := p2 (by simpa using hsame)
    rw [q1, q2, q3, q4] at fin
    have eih : w1.ih = r0.size.toNat ∧ w1.iw = w.iw := by
      rw [ew10, ew11, q1, q2, q3, q4]
      constructor <;> omega
    have ein : w1.inp = ty4 r0.size.toNat w.iw w.ic w.idd := by
      unfold WOp.inp
      rw [eih.1, eih.2, ew7, ew8]
    have step2 := opaque_step (good_prefix hg) step1.good step1.ext (tb.name (.win w1)) w1.out step1.holds rest f hrest
    rw [← ein, fin D1 (by rw [ein]; exact hD1l) (by
      rw [eih.1, eih.2, ew7, ew8]
      exact img1.trans (pad_nothing _ _).symm)] at step2
    have := step1.trans step2
    rw [hty1] at this
    simpa [Exp.emit, rowSlice, ← hty1, Nat.add_assoc] using this

/-! ### Slices above a pad -/

theorem chan_slice (sem : Sem) (z : List Byte) (cl b n h w c c' d : Nat) (sz : List Nat) (D : List Byte) :
    (imgT n w c' (chanT z cl c (elemAt (ty4 n w c d) (eval sem (.slice [0, b, 0, 0] sz) (ty4 n w c d) [(ty4 h w c d, D)])))).Same
      (sliceRows b n (imgT h w c' (chanT z cl c (elemAt (ty4 h w c d) D)))) := by
  refine Img.Same.trans ?_ (imgT_chan_slice z cl c b n h w c' (elemAt (ty4 h w c d) D))
  have e : eval sem (.slice [0, b, 0, 0] sz) (ty4 n w c d) [(ty4 h w c d, D)] = bytesOf (ty4 n w c d) (sliceT [0, b, 0, 0] (elemAt (ty4 h w c d) D)) := rfl
  rw [e]
  refine imgT_congr fun i j k h1 h2 _ => ?_
  simp only [chanT]
  split
  · rename_i hc
    refine elemAt_bytesOf (ty4 n w c d) (sliceT [0, b, 0, 0] (elemAt (ty4 h w c d) D)) (fun _ _ => length_elemAt _ _ _) _ ?_
    simp only [List.getD_cons_zero, List.getD_cons_succ] at hc ⊢
    exact inShape4_mk h1 h2 (by omega)
  · rfl

theorem raisePadP_sound (C : Sem → Prop) : raisePadP.SoundFor C := by
  intro sem iv pre n ns r hC hiv hg h
  obtain ⟨k, args, ty⟩ := n
  unfold raisePadP at h
  simp only at h
  split at h
  case h_2 => cases h
  rename_i b s sw sc v
  split at h
  case h_2 => cases h
  rename_i q8 zp t bo l rr cl cr x dty hd
  split at h
  case h_2 => cases h
  rename_i ih iw ic d hxty
  split at h
  case isFalse => cases h
  rename_i hguard
  obtain ⟨hdty, hty, hs, b1, b2, b3, b4, h0, h1, h2⟩ := hguard
  subst hdty
  obtain ⟨⟨c, a, c', ha, g1, g2, g3, g4⟩, hdk, hh, hval⟩ := matched hiv hg rfl hd sem
  obtain ⟨rfl, rfl⟩ : ty4 (ih + t + bo) (iw + l + rr) (ic + cl + cr) d = a ∧ c = c' := by simpa using ha
  simp only at g1 g2 hty
  have hbs : b + s ≤ ih + t + bo := by
    rw [hty] at g2
    exact g2.2.1
  obtain ⟨xa, xc, hxa, k1, k2, k3, k4⟩ := hdk
  have hxt : xa = ty4 ih iw ic d := by
    have := congrArg (fun l => l.map (·.1)) hxa
    simp only [List.map_cons, List.map_nil, List.cons.injEq, and_true] at this
    rw [← this, tyOf_ctx, hxty]
    rfl
  subst hxt
  have hpos : 1 ≤ ih ∧ 1 ≤ iw ∧ 1 ≤ ic := ⟨k3 ih (by simp [ty4]), k3 iw (by simp [ty4]), k3 ic (by simp [ty4])⟩
  refine ⟨rfl, ?_⟩
  have hx := hh x (by simp)
  rw [hxty] at hx
  simp only at hh hval
  obtain ⟨D, hD⟩ : ∃ D, D = ((evalNodes sem pre iv).getD x dfl).2 := ⟨_, rfl⟩
  rw [← hD] at hx
  have hx' : EHolds sem iv ⟨iv.length, pre⟩ x (ty4 ih iw ic d) D := hx
  rw [hval]
  simp only [List.map_cons, List.map_nil]
  rw [hxty, ← hD, show (⟨[1, ih, iw, ic], d⟩ : Ty) = ty4 ih iw ic d from rfl]
  obtain ⟨z, hz⟩ : ∃ z, z = List.replicate d (UInt8.ofInt zp) := ⟨_, rfl⟩
  obtain ⟨X, hX⟩ : ∃ X, X = imgT ih iw (ic + cl + cr) (chanT z cl ic (elemAt (ty4 ih iw ic d) D)) := ⟨_, rfl⟩
  have hXh : X.h = ih := by rw [hX]; rfl
  have hXw : X.w = iw := by rw [hX]; rfl
  obtain ⟨r0, hr0⟩ : ∃ r0, r0 = raiseSlicePad ih iw (ih + t + bo : Nat) (iw + l + rr : Nat) b s := ⟨_, rfl⟩
  rw [← hr0] at h h0 h1 h2
  have er : raiseSlicePad X.h X.w (X.h + t + bo) (X.w + l + rr) b s = r0 := by rw [hXh, hXw, hr0]; push_cast; rfl
  have key := raisePad_step (List.replicate (ic + cl + cr) z) t bo l rr b s (.input X) (by omega) (by omega)
    (by show SliceOK (raiseSlicePad X.h X.w (X.h + t + bo) (X.w + l + rr) b s).begin_ (raiseSlicePad X.h X.w (X.h + t + bo) (X.w + l + rr) b s).size X
        rw [er]; exact ⟨h0, by omega, by rw [hXh]; exact h2⟩)
    (by show 1 ≤ (raiseSlicePad X.h X.w (X.h + t + bo) (X.w + l + rr) b s).size
        rw [er]; exact h1)
    ⟨⟨trivial, by omega, by omega, by omega, by omega⟩, ⟨by omega, by omega, by show (b : Int) + s ≤ X.h + t + bo; rw [hXh]; omega⟩, by omega⟩
  have ek : (raisePadExpr (List.replicate (ic + cl + cr) z) t bo l rr b s (.input X)).eval =
      Image.pad (List.replicate (ic + cl + cr) z) r0.padTop r0.padBottom r0.padLeft r0.padRight (sliceRows r0.begin_ r0.size X) := by rw [← er]; rfl
  obtain ⟨⟨-, n1, n2, n3, n4⟩, key⟩ := key
  rw [ek] at key
  have er' : raiseSlicePad (Expr.input X).eval.h (Expr.input X).eval.w (Expr.pad (List.replicate (ic + cl + cr) z) t bo l rr (.input X)).eval.h
      (Expr.pad (List.replicate (ic + cl + cr) z) t bo l rr (.input X)).eval.w b s = r0 := er
  rw [er'] at n1 n2 n3 n4
  have kh : r0.size + r0.padTop + r0.padBottom = s := key.1
  have kw : (iw : Int) + r0.padLeft + r0.padRight = iw + l + rr := by
    have := key.2.1
    simp only [Image.pad, sliceRows, Expr.eval] at this
    rw [hXw] at this
    exact this
  -- the slice
  have step1 := rowSlice_step (good_prefix hg) (v := x) (b := r0.begin_.toNat) (n := r0.size.toNat) hx' (by omega) hpos.1 hpos.2.1 hpos.2.2
  obtain ⟨D1, hD1⟩ : ∃ D1, D1 = eval sem (.slice [0, r0.begin_.toNat, 0, 0] [1, r0.size.toNat, iw, ic]) (ty4 r0.size.toNat iw ic d) [(ty4 ih iw ic d, D)] := ⟨_, rfl⟩
  have img1 := chan_slice sem z cl r0.begin_.toNat r0.size.toNat ih iw ic (ic + cl + cr) d [1, r0.size.toNat, iw, ic] D
  rw [← hD1] at step1 img1
  rw [Int.toNat_of_nonneg h0, Int.toNat_of_nonneg (by omega), ← hX] at img1
  obtain ⟨t', ht⟩ : ∃ t : Nat, r0.padTop = t := ⟨_, (Int.toNat_of_nonneg n1).symm⟩
  obtain ⟨bo', hbo⟩ : ∃ t : Nat, r0.padBottom = t := ⟨_, (Int.toNat_of_nonneg n2).symm⟩
  obtain ⟨l', hll⟩ : ∃ t : Nat, r0.padLeft = t := ⟨_, (Int.toNat_of_nonneg n3).symm⟩
  obtain ⟨rr', hrr⟩ : ∃ t : Nat, r0.padRight = t := ⟨_, (Int.toNat_of_nonneg n4).symm⟩
  rw [ht, hbo] at kh
  rw [hll, hrr] at kw
  rw [ht, hbo, hll, hrr] at h key
  obtain ⟨rfl, rfl⟩ := Prod.mk.inj (Option.some.inj h)
  have ety : ty4 (r0.size + (t' : Int) + bo').toNat ((iw : Int) + l' + rr').toNat (ic + cl + cr) d = ty := by
    rw [hty]
    congr 1 <;> omega
  have ety2 : ty = ty4 (r0.size.toNat + t' + bo') (iw + l' + rr') (ic + cl + cr) d := by
    rw [hty]
    congr 1 <;> omega
  rw [ety]
  simp only [Int.toNat_natCast]
  have step2 := unary_step step1.good (.pad q8 zp [0, 0, t', bo', l', rr', cl, cr]) ty step1.holds (by
    intro c
    rw [ety2]
    refine ⟨_, c, rfl, rfl, ?_, ?_, ?_⟩
    · refine ⟨?_, ?_, ?_, ?_, trivial⟩ <;> simp [evens, odds] <;> omega
    · exact pos4 (by omega) hpos.2.1 hpos.2.2
    · intro hq
      exact ⟨(k4 hq).1, fun _ => (k4 hq).2 rfl⟩)
  have e2 : eval sem (.pad q8 zp [0, 0, t', bo', l', rr', cl, cr]) ty [(ty4 r0.size.toNat iw ic d, D1)] =
      eval sem (.slice [0, b, 0, 0] [1, s, sw, sc]) ty [(ty4 (ih + t + bo) (iw + l + rr) (ic + cl + cr) d,
        eval sem (.pad q8 zp [0, 0, t, bo, l, rr, cl, cr]) (ty4 (ih + t + bo) (iw + l + rr) (ic + cl + cr) d) [(ty4 ih iw ic d, D)])] := by
    have hl2 := step2.holds.len
    rw [hty] at hl2 ⊢
    refine bytes_of_same hl2 (length_slice4 sem _ _ s _ _ _ _ _) ?_
    have q1 := img_pad sem q8 zp t' bo' l' rr' cl cr r0.size.toNat iw ic d D1
    rw [← ety2, hty, ← hz] at q1
    have q2 := img_pad sem q8 zp t bo l rr cl cr ih iw ic d D
    rw [← hz, ← hX] at q2
    have q3 := img_slice sem b s (ih + t + bo) (iw + l + rr) (ic + cl + cr) d [1, s, sw, sc]
      (eval sem (.pad q8 zp [0, 0, t, bo, l, rr, cl, cr]) (ty4 (ih + t + bo) (iw + l + rr) (ic + cl + cr) d) [(ty4 ih iw ic d, D)])
    have w1 : r0.size.toNat + t' + bo' = s := by omega
    have w2 : iw + l' + rr' = iw + l + rr := by omega
    rw [w1, w2] at q1
    refine q1.trans ?_
    refine Img.Same.trans ?_ q3.symm
    refine Img.Same.trans ?_ (sliceRows_congr q2 ⟨by omega, by omega, by show (b : Int) + s ≤ ((ih + t + bo : Nat) : Int); omega⟩).symm
    exact (pad_congr img1).trans key
  rw [e2] at step2
  have := step1.trans step2
  revert this
  generalize eval sem (.slice [0, b, 0, 0] [1, s, sw, sc]) ty [(ty4 (ih + t + bo) (iw + l + rr) (ic + cl + cr) d,
        eval sem (.pad q8 zp [0, 0, t, bo, l, rr, cl, cr]) (ty4 (ih + t + bo) (iw + l + rr) (ic + cl + cr) d) [(ty4 ih iw ic d, D)])] = V
  intro this
  simpa [Exp.emit, rowSlice, Nat.add_assoc] using this

/-! ### Slices of slices -/

theorem combineP_sound (C : Sem → Prop) (j : Nat) : (combineP j).SoundFor C := by
  intro sem iv pre n ns r hC hiv hg h
  obtain ⟨k, args, ty⟩ := n
  unfold combineP at h
  simp only at h
  split at h
  case h_2 => cases h
  rename_i b s w c x cb cs w' c' x' jt hd
  split at h
  case isFalse => cases h
  rename_i hguard
  obtain ⟨rfl, rfl, rfl, hjt, hty, hw, hc, hcs, hb, hbs⟩ := hguard
  obtain ⟨i, rfl, hi⟩ := defOf_some hd
  obtain ⟨-, hnk⟩ := last_ok hg
  obtain ⟨-, hjk, hjv⟩ := node_value (sem := sem) (good_prefix hg) hi
  simp only [List.length_map, List.map_cons, List.map_nil] at hjv hnk hjk ⊢
  refine ⟨rfl, ?_⟩
  have hil : i < pre.length := by
    rcases Nat.lt_or_ge i pre.length with h | h
    · exact h
    · rw [List.getElem?_eq_none h] at hi; cases hi
  have hj : EHolds sem iv ⟨iv.length, pre⟩ (iv.length + i) (tyOf (iv.map (·.1)) pre (iv.length + i)) _ := holds_value (sem := sem) (good_prefix hg) hiv (by simp only; omega)
  have etj : tyOf (iv.map (·.1)) pre (iv.length + i) = jt := by
    have := tyOf_def (inputs := iv.map (·.1)) hi
    rw [List.length_map] at this
    exact this
  rw [hjv, etj] at hj
  simp only at hj
  obtain ⟨D, hD⟩ : ∃ D, D = (evalNodes sem pre iv).getD x' dfl := ⟨_, rfl⟩
  rw [← hD] at hj ⊢
  obtain ⟨a, ca, ha, a1, a2, a3, a4⟩ := hnk
  have hDt : D.1 = a := by
    have := congrArg (fun l => l.map (·.1)) ha
    simp only [List.map_cons, List.map_nil, List.cons.injEq, and_true] at this
    rw [← this, hD]
    exact (ctx_type (good_prefix hg) sem x').symm
  split at h
  · rename_i he
    obtain ⟨rfl, rfl⟩ := he
    obtain ⟨rfl, rfl⟩ := Prod.mk.inj (Option.some.inj h)
    have e : jt = ty := by rw [hjt]; exact hty.symm
    rw [e] at hj
    have := estep_same (good_prefix hg) hj
    simpa using this
  · obtain ⟨rfl, rfl⟩ := Prod.mk.inj (Option.some.inj h)
    subst hjt
    have step1 := rowSlice_step (good_prefix hg) (v := iv.length + i) (b := b - cb) (n := s) hj (by omega) (by omega) hw hc
    rw [← hty] at step1
    have e : eval sem (.slice [0, b - cb, 0, 0] [1, s, w', c']) ty [(ty4 cs w' c' ty.d, eval sem (.slice [0, cb, 0, 0] [1, cs, w', c']) (ty4 cs w' c' ty.d) [D])] =
        eval sem (.slice [0, b, 0, 0] [1, s, w', c']) ty [D] := by
      show bytesOf ty (sliceT [0, b - cb, 0, 0] (elemAt (ty4 cs w' c' ty.d) (bytesOf (ty4 cs w' c' ty.d) (sliceT [0, cb, 0, 0] (elemAt D.1 D.2))))) =
        bytesOf ty (sliceT [0, b, 0, 0] (elemAt D.1 D.2))
      refine bytesOf_congr fun idx hidx => ?_
      rw [hty] at hidx
      obtain ⟨i', j', k', rfl, q1, q2, q3⟩ := inShape4 hidx
      have h1 := elemAt_bytesOf (ty4 cs w' c' ty.d) (sliceT [0, cb, 0, 0] (elemAt D.1 D.2)) (fun _ _ => by unfold sliceT; rw [length_elemAt, hDt]; exact a1)
        [0, b - cb + i', j', k'] (inShape4_mk (by omega) q2 q3)
      have e1 : ∀ (f : T) (y : Nat), sliceT [0, y, 0, 0] f [0, i', j', k'] = f [0, y + i', j', k'] := by intro f y; simp [sliceT]
      rw [e1, e1, h1]
      simp only [sliceT, List.zipWith, Nat.zero_add]
      rw [show cb + (b - cb + i') = b + i' by omega]
    rw [e] at step1
    simpa [Exp.emit, rowSlice] using step1

end Verif.Net
