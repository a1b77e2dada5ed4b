import Verif.Net.SplitProps
/-!
C100: slices above binary operators, and the split itself.
-/
namespace Verif.Net
open Verif.Tensor Verif.Move Verif.MemPlan Verif.Image Verif.OpSplit

variable {sem : Sem} {iv : List (Ty × List Byte)}
variable {tb : Table} {F : Nat → Nat → Nat → List (List Byte) → (Int → Int → Px) → Px} {G : Nat → Px → Px → Px}

/-! ### Slices above a binary operator -/

/-- An operand of a raised binary operator. -/
theorem operand_step {e : Exp} (hg : EGood iv e) (fl : Bool) {v h w c d b s oh : Nat} {D : List Byte} (hv : EHolds sem iv e v (ty4 h w c d) D)
    (h1 : fl = true → h = oh) (h0 : fl = false → h = 1) (hb : b + s ≤ oh) (hs : 1 ≤ s) (hp : 1 ≤ h ∧ 1 ≤ w ∧ 1 ≤ c) :
    ∃ D', EStep sem iv e (if fl then e.emit (rowSlice v b s w c d) else (e, v)) (ty4 (if fl then s else h) w c d) D' ∧
      ∀ (ow : Int) (i j : Int), 0 ≤ i → i < s → 0 ≤ j → (j < w ∨ w = 1) →
        (bcast s ow (imgOf (if fl then s else h) w c d D')).px i j = (bcast oh ow (imgOf h w c d D)).px (b + i) j := by
  cases fl with
  | false =>
    refine ⟨D, by simpa using estep_same hg hv, ?_⟩
    intro ow i j _ _ _ _
    have := h0 rfl
    subst this
    simp [bcast, imgOf, imgT]
  | true =>
    have := h1 rfl
    subst this
    refine ⟨_, by simpa using rowSlice_step hg hv hb hp.1 hp.2.1 hp.2.2, ?_⟩
    intro ow i j i1 i2 j1 j2
    simp only [if_true]
    have q := img_slice sem b s h w c d [1, s, w, c] D
    obtain ⟨D', hD'⟩ : ∃ D', D' = eval sem (.slice [0, b, 0, 0] [1, s, w, c]) (ty4 s w c d) [(ty4 h w c d, D)] := ⟨_, rfl⟩
    rw [← hD'] at q ⊢
    obtain ⟨-, -, q⟩ := q
    have ei : (if ((s : Nat) : Int) = 1 then (0 : Int) else i) = i := by split <;> omega
    have eh : (if ((h : Nat) : Int) = 1 then (0 : Int) else b + i) = b + i := by split <;> omega
    have hj : (0 : Int) ≤ (if ((w : Nat) : Int) = 1 then (0 : Int) else j) ∧ (if ((w : Nat) : Int) = 1 then (0 : Int) else j) < w := by split <;> omega
    have := q i (if ((w : Nat) : Int) = 1 then (0 : Int) else j) i1 (by simpa [imgOf, imgT] using i2) hj.1 (by simpa [imgOf, imgT] using hj.2)
    show (imgOf s w c d D').px (if ((s : Nat) : Int) = 1 then (0 : Int) else i) (if ((w : Nat) : Int) = 1 then (0 : Int) else j) =
      (imgOf h w c d D).px (if ((h : Nat) : Int) = 1 then (0 : Int) else b + i) (if ((w : Nat) : Int) = 1 then (0 : Int) else j)
    rw [ei, eh]
    exact this

theorem BOp.slices_iff {o : BOp} {h w c : Nat} : o.slices h w c = true ↔ h = o.oh ∧ w = o.ow ∧ c = o.oc := by simp [BOp.slices]

theorem raiseBinP_sound : (raiseBinP tb).SoundFor (Meaning tb F G) := by
  intro sem iv pre n ns r hC hiv hg h
  obtain ⟨k, args, ty⟩ := n
  unfold raiseBinP at h
  simp only at h
  split at h
  case h_2 => cases h
  rename_i b s sw sc v
  split at h
  case h_2 => cases h
  rename_i key x y dty hd
  split at h
  case h_2 => cases h
  rename_i o hl
  split at h
  case isFalse => cases h
  rename_i hguard
  obtain ⟨hf, hdty, hxty, hyty, hty, hs, hxf, hyf⟩ := hguard
  subst hdty
  obtain ⟨⟨c, a, c', ha, g1, g2, g3, g4⟩, hdk, hh, hval⟩ := matched hiv hg rfl hd sem
  obtain ⟨rfl, rfl⟩ : o.out = a ∧ c = c' := by simpa using ha
  simp only at g1 g2 hty
  have hbs : b + s ≤ o.oh := by
    rw [hty] at g2
    exact g2.2.1
  refine ⟨rfl, ?_⟩
  have hx := hh x (by simp)
  have hy := hh y (by simp)
  rw [hxty] at hx
  rw [hyty] at hy
  rw [hval]
  simp only [List.map_cons, List.map_nil]
  rw [hxty, hyty]
  obtain ⟨A, hA⟩ : ∃ A, A = ((evalNodes sem pre iv).getD x dfl).2 := ⟨_, rfl⟩
  obtain ⟨B, hB⟩ : ∃ B, B = ((evalNodes sem pre iv).getD y dfl).2 := ⟨_, rfl⟩
  rw [← hA] at hx ⊢
  rw [← hB] at hy ⊢
  obtain ⟨fx, hfx⟩ : ∃ fx, fx = o.slices o.ah o.aw o.ac := ⟨_, rfl⟩
  obtain ⟨fy, hfy⟩ : ∃ fy, fy = o.slices o.bh o.bw o.bc := ⟨_, rfl⟩
  obtain ⟨o1, ho1⟩ : ∃ o1, o1 = o.clone s := ⟨_, rfl⟩
  have e1 : o1.id = o.id ∧ o1.oh = s ∧ o1.ow = o.ow ∧ o1.oc = o.oc ∧ o1.od = o.od := by rw [ho1]; exact ⟨rfl, rfl, rfl, rfl, rfl⟩
  have ea : o1.ah = (if fx then s else o.ah) ∧ o1.aw = o.aw ∧ o1.ac = o.ac ∧ o1.ad = o.ad := by rw [ho1, hfx]; exact ⟨rfl, rfl, rfl, rfl⟩
  have eb : o1.bh = (if fy then s else o.bh) ∧ o1.bw = o.bw ∧ o1.bc = o.bc ∧ o1.bd = o.bd := by rw [ho1, hfy]; exact ⟨rfl, rfl, rfl, rfl⟩
  rw [← hfx, ← hfy, ← ho1] at h
  rw [← hfx] at hxf
  rw [← hfy] at hyf
  obtain ⟨⟨p1, p2, p3, p4, p5, p6⟩, f1, f2, f3, f4⟩ := id hf
  have hxt : fx = true → o.ah = o.oh := by rw [hfx, BOp.slices_iff]; exact fun h => h.1
  have hyt : fy = true → o.bh = o.oh := by rw [hfy, BOp.slices_iff]; exact fun h => h.1
  have hxn : fx = false → o.ah = 1 := fun e => hxf.resolve_left (by rw [e]; exact Bool.noConfusion)
  have hyn : fy = false → o.bh = 1 := fun e => hyf.resolve_left (by rw [e]; exact Bool.noConfusion)
  have cf : o1.Fits := by
    unfold BOp.Fits
    rw [ea.1, ea.2.1, ea.2.2.1, eb.1, eb.2.1, eb.2.2.1, e1.2.1, e1.2.2.1]
    refine ⟨⟨?_, p2, p3, ?_, p5, p6⟩, ?_, f2, ?_, f4⟩
    · split <;> omega
    · split <;> omega
    · cases fx with
      | false => right; simpa using hxn rfl
      | true => left; simp
    · cases fy with
      | false => right; simpa using hyn rfl
      | true => left; simp
  obtain ⟨A', stepA, pxA⟩ := operand_step (good_prefix hg) fx (b := b) (s := s) hx hxt hxn hbs hs ⟨p1, p2, p3⟩
  obtain ⟨rx, hrx⟩ : ∃ rx : Exp × Nat, rx = (if fx then (⟨iv.length, pre⟩ : Exp).emit (rowSlice x b s o.aw o.ac o.ad) else (⟨iv.length, pre⟩, x)) := ⟨_, rfl⟩
  rw [← hrx] at stepA
  obtain ⟨B', stepB, pxB⟩ := operand_step stepA.good fy (b := b) (s := s) (hy.mono (good_prefix hg) stepA.ext) hyt hyn hbs hs ⟨p4, p5, p6⟩
  obtain ⟨ry, hry⟩ : ∃ ry : Exp × Nat, ry = (if fy then rx.1.emit (rowSlice y b s o.bw o.bc o.bd) else (rx.1, y)) := ⟨_, rfl⟩
  rw [← hry] at stepB
  have tA : ty4 (if fx then s else o.ah) o.aw o.ac o.ad = o1.lhs := by unfold BOp.lhs; rw [ea.1, ea.2.1, ea.2.2.1, ea.2.2.2]
  have tB : ty4 (if fy then s else o.bh) o.bw o.bc o.bd = o1.rhs := by unfold BOp.rhs; rw [eb.1, eb.2.1, eb.2.2.1, eb.2.2.2]
  have tO : o1.out = ty := by rw [hty]; unfold BOp.out; rw [e1.2.1, e1.2.2.1, e1.2.2.2.1, e1.2.2.2.2]
  rw [tA] at stepA
  rw [tB] at stepB
  have step3 := emit_estep (sem := sem) stepB.good (.other false (tb.name (.bin o1))) ty [(rx.2, o1.lhs, A'), (ry.2, o1.rhs, B')] (by
    intro z hz
    rw [List.mem_cons, List.mem_singleton] at hz
    rcases hz with rfl | rfl
    · exact stepA.holds.mono stepA.good stepB.ext
    · exact stepB.holds) (fun h => by cases h) (length_eval_other _ _ _ _)
  simp only [List.map_cons, List.map_nil] at step3
  have val : eval sem (.other false (tb.name (.bin o1))) ty [(o1.lhs, A'), (o1.rhs, B')] =
      eval sem (.slice [0, b, 0, 0] [1, s, sw, sc]) ty [(o.out, eval sem (.other false key) o.out [(o.lhs, A), (o.rhs, B)])] := by
    have l2 := img_bin hC hl hf A B hx.len hy.len
    have r2 := img_bin hC (tb.named (.bin o1)) cf A' B' stepA.holds.len stepB.holds.len
    rw [tO, e1.1, e1.2.1, e1.2.2.1, e1.2.2.2.1, e1.2.2.2.2, ea.1, ea.2.1, ea.2.2.1, ea.2.2.2, eb.1, eb.2.1, eb.2.2.1, eb.2.2.2] at r2
    rw [hty] at r2 ⊢
    refine bytes_of_same (length_eval_other _ _ _ _) (length_slice4 sem _ _ s o.oh o.ow o.oc o.od _) ?_
    have l := img_slice sem b s o.oh o.ow o.oc o.od [1, s, sw, sc] (eval sem (.other false key) o.out [(o.lhs, A), (o.rhs, B)])
    refine Img.Same.trans ?_ l.symm
    refine Img.Same.trans ?_ (sliceRows_congr l2 ⟨by omega, by omega, by show (b : Int) + s ≤ (o.oh : Int); omega⟩).symm
    refine r2.trans ⟨rfl, rfl, ?_⟩
    intro i j i1 i2 j1 j2
    simp only [ewise] at i2 j2
    simp only [ewise, sliceRows]
    rw [pxA o.ow i j i1 i2 j1 (by omega), pxB o.ow i j i1 i2 j1 (by omega)]
  rw [val] at step3
  have fin := (stepA.trans stepB).trans step3
  obtain ⟨rfl, rfl⟩ := Prod.mk.inj (Option.some.inj h)
  revert fin
  generalize eval sem (.slice [0, b, 0, 0] [1, s, sw, sc]) ty [(o.out, eval sem (.other false key) o.out [(o.lhs, A), (o.rhs, B)])] = V
  intro fin
  subst hry hrx
  rw [tO]
  cases fx <;> cases fy <;> simpa [Exp.emit, rowSlice, Nat.add_assoc] using fin

/-! ### The split -/

theorem row_steps {v h w c d : Nat} {D : List Byte} (h1 : 1 ≤ h) (h2 : 1 ≤ w) (h3 : 1 ≤ c) : ∀ (bs : List (Nat × Nat)) (e : Exp), EGood iv e →
    EHolds sem iv e v (ty4 h w c d) D → (∀ x ∈ bs, x.1 + x.2 ≤ h) →
    EGood iv ⟨e.n0, e.nodes ++ bs.map fun x => rowSlice v x.1 x.2 w c d⟩ ∧
    ∀ (i : Nat) (x : Nat × Nat), bs[i]? = some x → EHolds sem iv ⟨e.n0, e.nodes ++ bs.map fun x => rowSlice v x.1 x.2 w c d⟩ (e.n0 + e.nodes.length + i)
      (ty4 x.2 w c d) (eval sem (.slice [0, x.1, 0, 0] [1, x.2, w, c]) (ty4 x.2 w c d) [(ty4 h w c d, D)])
  | [], e, hg, _, _ => ⟨by simpa using hg, by simp⟩
  | x :: bs, e, hg, hv, hb => by
    have s1 := rowSlice_step hg hv (hb x (by simp)) h1 h2 h3
    have ih := row_steps h1 h2 h3 bs (e.emit (rowSlice v x.1 x.2 w c d)).1 s1.good (hv.mono hg ⟨_, rfl⟩) fun y hy => hb y (by simp [hy])
    have ee : (⟨(e.emit (rowSlice v x.1 x.2 w c d)).1.n0, (e.emit (rowSlice v x.1 x.2 w c d)).1.nodes ++ bs.map fun x => rowSlice v x.1 x.2 w c d⟩ : Exp) =
        ⟨e.n0, e.nodes ++ (x :: bs).map fun x => rowSlice v x.1 x.2 w c d⟩ := by simp [Exp.emit]
    rw [ee] at ih
    refine ⟨ih.1, ?_⟩
    intro i y hy
    cases i with
    | zero =>
      simp only [List.getElem?_cons_zero, Option.some.injEq] at hy
      subst hy
      refine s1.holds.mono s1.good ⟨bs.map fun x => rowSlice v x.1 x.2 w c d, ?_⟩
      rw [← ee]
    | succ i =>
      have := ih.2 i y (by simpa using hy)
      simp only [Exp.emit, List.length_append, List.length_cons, List.length_nil] at this
      rw [show e.n0 + e.nodes.length + (i + 1) = e.n0 + (e.nodes.length + (0 + 1)) + i by omega]
      exact this

theorem chain_sum : ∀ (bs : List (Nat × Nat)) (s e : Nat), Chain s e bs → s + (bs.map (·.2)).sum = e
  | [], s, e, h => by have : s = e := h; simpa using this
  | (b, n) :: bs, s, e, h => by
    obtain ⟨rfl, h2⟩ := h
    have := chain_sum bs _ _ h2
    simp only [List.map_cons, List.sum_cons]
    omega

/-- The concatenation of consecutive slices. -/
theorem concat_rows (sem : Sem) {h w c d : Nat} (D : List Byte) : ∀ (bs : List (Nat × Nat)) (s e : Nat), Chain s e bs → ∀ i j k : Nat, i < e - s → j < w → k < c →
    concatT 1 (cIn 1 (bs.map fun x => (ty4 x.2 w c d, eval sem (.slice [0, x.1, 0, 0] [1, x.2, w, c]) (ty4 x.2 w c d) [(ty4 h w c d, D)]))) [0, i, j, k] =
      elemAt (ty4 h w c d) D [0, s + i, j, k]
  | [], s, e, hc, i, j, k, hi, _, _ => by
    have : s = e := hc
    omega
  | (b, n) :: bs, s, e, hc, i, j, k, hi, hj, hk => by
    obtain ⟨rfl, h2⟩ := hc
    have ih := concat_rows sem (h := h) (w := w) (c := c) (d := d) D bs (b + n) e h2
    simp only [cIn, List.map_cons] at ih ⊢
    have cc := concatT_cons 1 ((ty4 n w c d).shape.getD 1 0)
      (elemAt (ty4 n w c d) (eval sem (.slice [0, b, 0, 0] [1, n, w, c]) (ty4 n w c d) [(ty4 h w c d, D)]))
      ((bs.map fun x => (ty4 x.2 w c d, eval sem (.slice [0, x.1, 0, 0] [1, x.2, w, c]) (ty4 x.2 w c d) [(ty4 h w c d, D)])).map
        fun z => (z.1.shape.getD 1 0, elemAt z.1 z.2)) [0] i [j, k] rfl
    simp only [List.singleton_append] at cc
    rw [cc]
    rw [show (ty4 n w c d).shape.getD 1 0 = n from rfl]
    split
    · rename_i hin
      have e1 : eval sem (.slice [0, b, 0, 0] [1, n, w, c]) (ty4 n w c d) [(ty4 h w c d, D)] = bytesOf (ty4 n w c d) (sliceT [0, b, 0, 0] (elemAt (ty4 h w c d) D)) := rfl
      rw [e1, elemAt_bytesOf (ty4 n w c d) (sliceT [0, b, 0, 0] (elemAt (ty4 h w c d) D)) (fun _ _ => length_elemAt _ _ _) _ (inShape4_mk hin hj hk)]
      simp [sliceT]
    · rename_i hin
      rw [ih (i - n) j k (by omega) hj hk]
      rw [show b + n + (i - n) = b + i by omega]

theorem splitP_sound (C : Sem → Prop) (k : Nat) : (splitP k).SoundFor C := by
  intro sem iv pre n ns r hC hiv hg hP
  unfold splitP at hP
  split at hP
  case h_2 => cases hP
  rename_i h w c hcst hsh
  split at hP
  case isFalse => cases hP
  rename_i hguard
  obtain ⟨hk, hkh, hw, hcc⟩ := hguard
  obtain ⟨rfl, rfl⟩ := Prod.mk.inj (Option.some.inj hP)
  refine ⟨hcst, ?_⟩
  have hty : n.ty = ty4 h w c n.ty.d := by
    generalize n.ty = ty at hsh
    cases ty
    simp only at hsh
    rw [hsh]
    rfl
  obtain ⟨d, hd⟩ : ∃ d, d = n.ty.d := ⟨_, rfl⟩
  rw [← hd] at hty ⊢
  obtain ⟨m, hm⟩ : ∃ m, m = iv.length + pre.length := ⟨_, rfl⟩
  have hml : (iv.map (·.1)).length + pre.length = m := by simp [hm]
  obtain ⟨D, hD⟩ : ∃ D, D = eval sem n.kind n.ty (n.args.map fun v => (evalNodes sem pre iv).getD v dfl) := ⟨_, rfl⟩
  have hholds : EHolds sem iv ⟨iv.length, pre ++ [n]⟩ m (ty4 h w c d) D := by
    have hv := holds_value (sem := sem) hg hiv (v := m) (by simp [hm])
    have e1 : (evalNodes sem (pre ++ [n]) iv).getD m dfl = (n.ty, D) := by
      have hl := length_evalNodes sem pre iv
      rw [evalNodes_append]
      simp only [evalNodes]
      rw [show m = (evalNodes sem pre iv).length by rw [hl, hm], hD]
      simp
    have e2 : tyOf (iv.map (·.1)) (pre ++ [n]) m = n.ty := by
      have := tyOf_def (inputs := iv.map (·.1)) (pre := pre ++ [n]) (i := pre.length) (d := n) (by simp)
      rw [List.length_map, ← hm] at this
      exact this
    simp only at hv
    rw [e1, e2, hty] at hv
    exact hv
  rw [hml, ← hD]
  obtain ⟨bs, hbs⟩ : ∃ bs, bs = opSplitSlices h k := ⟨_, rfl⟩
  have hch : Chain 0 h bs := by rw [hbs]; exact opSplit_chain h k hk
  have hlen : bs.length = k := by rw [hbs]; exact slicesFrom_length _ _ _ _ _
  rw [← hbs]
  obtain ⟨hge, hhe⟩ := row_steps (sem := sem) (by omega) hw hcc bs ⟨iv.length, pre ++ [n]⟩ hg hholds fun x hx => (chain_mem hch x hx).2
  obtain ⟨e1, he1⟩ : ∃ e1 : Exp, e1 = ⟨iv.length, (pre ++ [n]) ++ bs.map fun x => rowSlice m x.1 x.2 w c d⟩ := ⟨_, rfl⟩
  simp only at hge hhe
  rw [← he1] at hge hhe
  obtain ⟨ys, hys⟩ : ∃ ys : List (Nat × Ty × List Byte), ys = bs.mapIdx fun i x =>
    (m + 1 + i, ty4 x.2 w c d, eval sem (.slice [0, x.1, 0, 0] [1, x.2, w, c]) (ty4 x.2 w c d) [(ty4 h w c d, D)]) := ⟨_, rfl⟩
  have hyh : ∀ y ∈ ys, EHolds sem iv e1 y.1 y.2.1 y.2.2 := by
    intro y hy
    rw [hys] at hy
    obtain ⟨i, hi, rfl⟩ := List.mem_mapIdx.1 hy
    have := hhe i _ (List.getElem?_eq_getElem hi)
    rw [show iv.length + (pre ++ [n]).length + i = m + 1 + i by simp [hm]; omega] at this
    exact this
  have hy1 : ys.map (·.1) = List.range' (m + 1) k := by
    apply List.ext_getElem?
    intro i
    rw [hys, List.getElem?_map, List.getElem?_mapIdx]
    rcases Nat.lt_or_ge i bs.length with hi | hi
    · rw [List.getElem?_eq_getElem hi, List.getElem?_range' (by omega)]
      simp
    · rw [List.getElem?_eq_none hi, List.getElem?_eq_none (by simpa [← hlen] using hi)]
      rfl
  have hy2 : ys.map (·.2) = bs.map fun x => (ty4 x.2 w c d, eval sem (.slice [0, x.1, 0, 0] [1, x.2, w, c]) (ty4 x.2 w c d) [(ty4 h w c d, D)]) := by
    apply List.ext_getElem?
    intro i
    rw [hys, List.getElem?_map, List.getElem?_mapIdx, List.getElem?_map]
    cases bs[i]? <;> rfl
  have hfit : ConcatFits [1] [w, c] d ((ys.map (·.2)).map (·.1)) (ty4 h w c d) := by
    rw [hy2]
    refine ⟨?_, ?_⟩
    · intro a ha
      simp only [List.map_map, List.mem_map, Function.comp_def] at ha
      obtain ⟨x, -, rfl⟩ := ha
      exact ⟨x.2, rfl⟩
    · have hsum := chain_sum bs 0 h hch
      simp only [List.map_map, Function.comp_def]
      have e2 : (bs.map fun x => (ty4 x.2 w c d).shape.getD [1].length 0) = bs.map (·.2) := List.map_congr_left fun _ _ => rfl
      rw [e2, show (bs.map (·.2)).sum = h by omega]
      rfl
  have hyt : ((ys.map fun z => (e1.ctx iv).getD z.1 (⟨[], 0⟩, false)).map (·.1)) = (ys.map (·.2)).map (·.1) := by
    simp only [List.map_map]
    apply List.map_congr_left
    intro y hy
    exact (hyh y hy).ctx hge
  have hok : (Kind.concat 1).OK (ys.map fun z => (e1.ctx iv).getD z.1 (⟨[], 0⟩, false)) (ty4 h w c d) :=
    ⟨[1], [w, c], by rw [hyt]; exact hfit, .inl rfl⟩
  have hstep := emit_estep (sem := sem) hge (.concat 1) (ty4 h w c d) ys hyh hok (length_eval (sem := sem) _ _ _ _ hok hyt)
  have hv : eval sem (.concat 1) (ty4 h w c d) (ys.map (·.2)) = D := by
    rw [(eval_concat sem [1] [w, c] d (ty4 h w c d) _ 1 hfit (.inl rfl)).1, hy2]
    rw [← bytesOf_elemAt _ _ hholds.len]
    refine bytesOf_congr fun idx hidx => ?_
    obtain ⟨i, j, l, rfl, q1, q2, q3⟩ := inShape4 hidx
    have := concat_rows sem (h := h) (d := d) D bs 0 h hch i j l (by omega) q2 q3
    rw [Nat.zero_add] at this
    rw [bytesOf_elemAt _ _ hholds.len]
    exact this
  rw [hv, hy1, ← hty] at hstep
  have hen : e1.n0 + e1.nodes.length = m + 1 + k := by rw [he1]; simp [hlen, hm]; omega
  refine ⟨⟨_, rfl⟩, ?_, ?_⟩
  · have := hstep.good
    rw [he1] at this
    simp only [Exp.emit] at this
    simpa [List.append_assoc] using this
  · have := hstep.holds
    simp only [Exp.emit, hen] at this
    rw [he1] at this
    simpa [List.append_assoc] using this

end Verif.Net
