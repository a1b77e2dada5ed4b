import Verif.Net.SplitQConv
/-! C115: one step of the splitting pass on a quantised network. -/
namespace Verif.Net
open Verif.Tensor Verif.Move Verif.MemPlan Verif.Quant Verif.Image Verif.OpSplit

section
variable {R : Rt} {dom : MulArgs → Prop} {Q : QNetwork}

theorem producer_eq {v : Nat} {p : QNode} (h : Q.producer v = some p) : ∃ j, v = Q.inputs.length + j ∧ Q.nodes[j]? = some p := by
  unfold QNetwork.producer at h
  split at h
  · cases h
  · exact ⟨v - Q.inputs.length, by omega, h⟩

theorem ctxOf_types {i v : Nat} (hv : v < Q.inputs.length + i) :
    ((ctxOf Q.inputs (Q.seen.nodes.take i)).getD v (⟨[], 0⟩, false)).1 = Q.types.getD v ⟨[], 0⟩ := by
  unfold ctxOf QNetwork.types
  rcases Nat.lt_or_ge v Q.inputs.length with h | h
  · rw [List.getD_append _ _ _ _ (by simpa using h), List.getD_append _ _ _ _ h]
    simp only [List.getD_eq_getElem?_getD, List.getElem?_map]
    cases Q.inputs[v]? <;> rfl
  · rw [List.getD_append_right _ _ _ _ (by simpa using h), List.getD_append_right _ _ _ _ h]
    simp only [List.getD_eq_getElem?_getD, List.getElem?_map, List.length_map]
    rw [List.getElem?_take_of_lt (by omega), getElem?_seen]
    cases Q.nodes[v - Q.inputs.length]? <;> rfl

/-- Typing of an operator, in terms of the types of the values. -/
theorem ok_at (hQ : Q.OK R dom) {i : Nat} {q : QNode} (hi : Q.nodes[i]? = some q) : (∀ v ∈ q.args, v < Q.inputs.length + i) ∧
    ∃ f : Nat → Bool, q.kind.OK R dom (q.args.map fun v => (Q.types.getD v ⟨[], 0⟩, f v)) q.ty := by
  obtain ⟨b, ok⟩ := (qnodesOK_iff _ _).1 hQ.nodes i q hi
  refine ⟨by simpa using b, fun v => ((Q.inputs.map fun t => (t, false)) ++ Q.nodes.map fun n => (n.ty, n.kind.isConst)).getD v (⟨[], 0⟩, false) |>.2, ?_⟩
  convert ok using 3 with v
  refine Prod.ext ?_ rfl
  unfold QNetwork.types
  rw [show ∀ (l : List (Ty × Bool)) (v : Nat), (l.getD v (⟨[], 0⟩, false)).1 = (l.map (·.1)).getD v ⟨[], 0⟩ from fun l v => by
    simp only [List.getD_eq_getElem?_getD, List.getElem?_map]
    cases l[v]? <;> rfl]
  simp [List.map_map, Function.comp_def]

/-- A slice of rows in a network. -/
theorem rows_value (sem : Sem) {b s h w c : Nat} {sz : List Nat} (D : List Byte) {y xx o : Nat} (hy : y < s) (hx : xx < w) (ho : o < c) :
    tensorOf (ty4 s w c 1) (eval sem (.slice [0, b, 0, 0] sz) (ty4 s w c 1) [(ty4 h w c 1, D)]) [0, y, xx, o] = tensorOf (ty4 h w c 1) D [0, b + y, xx, o] := by
  have e : eval sem (.slice [0, b, 0, 0] sz) (ty4 s w c 1) [(ty4 h w c 1, D)] = bytesOf (ty4 s w c 1) (sliceT [0, b, 0, 0] (elemAt (ty4 h w c 1) D)) := rfl
  unfold tensorOf
  rw [e, elemAt_bytesOf (ty4 s w c 1) (sliceT [0, b, 0, 0] (elemAt (ty4 h w c 1) D)) (fun i _ => length_elemAt _ _ _) [0, y, xx, o] (show InShape [1, s, w, c] [0, y, xx, o] from ⟨by omega, hy, hx, ho, trivial⟩)]
  unfold sliceT
  simp

theorem index4 {h w c : Nat} {idx : List Nat} (hidx : InShape [1, h, w, c] idx) : ∃ y xx o, idx = [0, y, xx, o] ∧ y < h ∧ xx < w ∧ o < c := by
  match idx, hidx with
  | [n, y, xx, o], ⟨h0, h1, h2, h3, _⟩ => exact ⟨y, xx, o, by rw [show n = 0 by omega], h1, h2, h3⟩

theorem getD_of {ts : List Ty} {v : Nat} {t : Ty} (h : ts[v]? = some t) : ts.getD v ⟨[], 0⟩ = t := by
  rw [List.getD_eq_getElem?_getD, h]; rfl

/-- **A slice above a convolution.** -/
theorem raiseConvQ_step (hR : R.OK dom) (hQ : Q.OK R dom) {e : Nat → ℝ} (he : Q.Enough R e) {g : Conv.Compile.Net} {i j : Nat} {ns : List Node} {n : QNode}
    (h : raiseConvQ Q g i = some (ns, n, j)) (hc : n.Compiled) :
    (Q.raise i ns n).OK R dom ∧ (Q.raise i ns n).Enough R (Function.update (carried (Q.insert i ns) e) (i + ns.length) (e j)) ∧
    (Q.raise i ns n).inputs = Q.inputs ∧ (Q.raise i ns n).outputs.length = Q.outputs.length ∧
    ∀ ref, Q.Reference R e ref →
      ∃ ref', (Q.raise i ns n).Reference R (Function.update (carried (Q.insert i ns) e) (i + ns.length) (e j)) ref' ∧
        ref'.take Q.inputs.length = ref.take Q.inputs.length ∧
        ((Q.raise i ns n).outputs.map fun v => ref'.getD v []) = Q.outputs.map fun v => ref.getD v [] := by
  unfold raiseConvQ at h
  split at h
  case h_2 => cases h
  rename_i b s sw sc v ty hi
  split at h
  case h_2 => cases h
  rename_i t l g0 x dty hp
  dsimp only at h
  split at h
  case isFalse => cases h
  rename_i hguard
  obtain ⟨hty, hs, hdh, hdw, h0, h1, h2⟩ := hguard
  obtain ⟨j', hv, hj⟩ := producer_eq hp
  obtain ⟨w, hw⟩ : ∃ w, w = wopOf t l := ⟨_, rfl⟩
  obtain ⟨r, hr⟩ : ∃ r, r = w.raised b s := ⟨_, rfl⟩
  obtain ⟨w1, hw1⟩ : ∃ w1, w1 = w.clone r := ⟨_, rfl⟩
  rw [← hw, ← hr] at h h0 h1 h2
  rw [← hw1] at h
  obtain ⟨hns, hn, hjj⟩ : raisedOperand w r x (Q.inputs.length + i) = ns ∧
      (⟨.conv t (raisedLeaf l w1) g, [Q.inputs.length + i + (raisedOperand w r x (Q.inputs.length + i)).length - 1], ty⟩ : QNode) = n ∧ v - Q.inputs.length = j := by
    simpa only [Option.some.injEq, Prod.mk.injEq] using h
  have hjj : j' = j := by omega
  subst hjj
  rw [hns] at hn
  -- typing of the slice and of the convolution
  obtain ⟨bi, fi, oki⟩ := ok_at hQ hi
  obtain ⟨bj, fj, okj⟩ := ok_at hQ hj
  have hji : j' < i := by have := bi v (List.mem_singleton.2 rfl); omega
  have hx : x < Q.inputs.length + j' := bj x (List.mem_singleton.2 rfl)
  obtain ⟨a, c, ha, hax, hdty, tok, hsrc, hl, hic, hoh, how, hact, hscale, -⟩ := okj
  have hxt : Q.types.getD x ⟨[], 0⟩ = ty4 l.ih l.iw l.ic 1 := by
    have : Q.types.getD x ⟨[], 0⟩ = a := by simpa using congrArg (fun z => (z.getD 0 (⟨[], 0⟩, false)).1) ha
    rw [this, hax]; rfl
  have hdty : dty = ty4 l.oh l.ow l.oc 1 := hdty
  have hvt : Q.types.getD v ⟨[], 0⟩ = ty4 l.oh l.ow l.oc 1 := by rw [hv, getD_of (types_at hj)]; exact hdty
  have hty : ty = ty4 s l.ow l.oc 1 := hty
  obtain ⟨a', c', ha', -, hfit, -, -⟩ := oki
  have hbs : b + s ≤ l.oh := by
    have : a' = ty4 l.oh l.ow l.oc 1 := by
      have := congrArg (fun z => (z.getD 0 (⟨[], 0⟩, false)).1) ha'
      simp only [List.map_cons, List.map_nil, List.getD_cons_zero] at this
      rw [← this, hvt]
    rw [this, show (⟨.base (.slice [0, b, 0, 0] [1, s, sw, sc]), [v], ty⟩ : QNode).ty = ty4 s l.ow l.oc 1 from hty] at hfit
    exact hfit.2.1
  have hf : w.Fits := by rw [hw]; exact fits_wopOf hl hic
  obtain ⟨p1, p2, p3, p4, -⟩ := raise_facts hf (by rw [hw]; exact hdh) (by rw [hw]; exact hdw) hs (b := b) (by rw [hw]; exact hbs) (by rw [← hr]; exact h0) (by rw [← hr]; exact h1)
    (by rw [← hr]; exact h2)
  rw [← hr] at p1 p2 p3 p4
  obtain ⟨cf, ch, cw⟩ := clone_fits hf (by rw [hw]; exact hdh) (by rw [hw]; exact hdw) h1 p1 p3 p4
  rw [← hw1] at cf ch cw
  have ew : w.ih = l.ih ∧ w.iw = l.iw ∧ w.ic = l.ic ∧ w.idd = 1 ∧ w.zp = t.zpi ∧ w.ow = l.ow ∧ w.q8 = true := by rw [hw]; exact ⟨rfl, rfl, rfl, rfl, rfl, rfl, rfl⟩
  obtain ⟨ew1, ew2, ew3, ew4, ew5, ew6, ew7⟩ := ew
  have en : w1.ih = (r.size + r.padTop + r.padBottom).toNat ∧ w1.iw = ((l.iw : Int) + r.padLeft + r.padRight).toNat ∧ w1.ic = l.ic ∧ w1.idd = 1 := by
    rw [hw1, ← ew2, ← ew3, ← ew4]; exact ⟨rfl, rfl, rfl, rfl⟩
  obtain ⟨en1, en2, en3, en4⟩ := en
  rw [hw] at h2
  have h2 : r.begin_ + r.size ≤ l.ih := h2
  -- the new operators are typed
  have hxi : x < Q.inputs.length + i := by omega
  have hilt : i < Q.nodes.length := (List.getElem?_eq_some_iff.1 hi).1
  have hlen : (ctxOf Q.inputs (Q.seen.nodes.take i)).length = Q.inputs.length + i := by
    unfold ctxOf
    simp only [List.length_append, List.length_map, List.length_take]
    have : Q.seen.nodes.length = Q.nodes.length := by simp [QNetwork.seen]
    omega
  have hnsl : 1 ≤ ns.length := by rw [← hns]; simp [raisedOperand]
  have hctx : ∃ c0, (ctxOf Q.inputs (Q.seen.nodes.take i)).getD x (⟨[], 0⟩, false) = (ty4 l.ih l.iw l.ic 1, c0) :=
    ⟨_, Prod.ext ((ctxOf_types hxi).trans hxt) rfl⟩
  obtain ⟨c0, hctx⟩ := hctx
  have hsl : Kind.OK [(ty4 l.ih l.iw l.ic 1, c0)] (ty4 r.size.toNat l.iw l.ic 1) (.slice [0, r.begin_.toNat, 0, 0] [1, r.size.toNat, l.iw, l.ic]) :=
    ⟨_, c0, rfl, rfl, sliceFits4 (by omega), rfl, pos4 hl.ih hl.iw hic⟩
  have hkey : ∀ n ∈ ns, n.kind.key = none ∧ ∀ k, n.kind ≠ .elementwise k := by
    rw [← hns]
    intro n hn
    unfold raisedOperand rowSlice at hn
    rw [List.mem_cons] at hn
    rcases hn with rfl | hn
    · exact ⟨rfl, fun k hk => by cases hk⟩
    · split at hn
      · rw [List.mem_singleton] at hn
        subst hn
        exact ⟨rfl, fun k hk => by cases hk⟩
      · cases hn
  have hfirst : ns[0]? = some (rowSlice x r.begin_.toNat r.size.toNat l.iw l.ic 1) := by rw [← hns, ← ew2, ← ew3, ← ew4]; rfl
  have hlastTy : ∃ k, ns[ns.length - 1]? = some k ∧ k.ty = ty4 w1.ih w1.iw l.ic 1 := by
    rw [← hns]
    unfold raisedOperand
    split
    · refine ⟨_, rfl, ?_⟩
      show (w.clone r).inp = _
      rw [← hw1]
      unfold WOp.inp
      rw [en3, en4]
    · next hsame =>
      obtain ⟨q1, q2, q3, q4⟩ := p2 (by simpa using hsame)
      refine ⟨_, rfl, ?_⟩
      show ty4 _ w.iw w.ic w.idd = _
      rw [en1, en2, q1, q2, q3, q4, ew2, ew3, ew4]
      congr 1 <;> omega
  obtain ⟨nl, hnl, hnlt⟩ := hlastTy
  have hnty : (Q.rewritten (Q.insert i ns)).types.getD (Q.inputs.length + i + ns.length - 1) ⟨[], 0⟩ = ty4 w1.ih w1.iw l.ic 1 := by
    rw [show Q.inputs.length + i + ns.length - 1 = Q.inputs.length + (i + (ns.length - 1)) by omega, insert_newType hi hkey hnl, hnlt]
  have padTyped : ∀ c1, w.same = true → Kind.OK [(ty4 r.size.toNat w.iw w.ic w.idd, c1)] (w.clone r).inp
      (.pad w.q8 w.zp [0, 0, r.padTop.toNat, r.padBottom.toNat, r.padLeft.toNat, r.padRight.toNat, 0, 0]) := by
    intro c1 _
    refine ⟨_, c1, rfl, ?_, ?_, ?_, ?_⟩
    · rfl
    · show PadFits [1, r.size.toNat, w.iw, w.ic] [1, (r.size + r.padTop + r.padBottom).toNat, ((w.iw : Int) + r.padLeft + r.padRight).toNat, w.ic]
        [0, r.padTop.toNat, r.padLeft.toNat, 0] [0, r.padBottom.toNat, r.padRight.toNat, 0]
      refine ⟨by omega, by omega, by omega, by omega, trivial⟩
    · exact pos4 (by omega) hf.2.1.2.1 hf.2.1.2.2
    · intro hq
      exact ⟨hf.2.2.1 hq, fun _ => .inl rfl⟩
  have hnsOK : NodesOK ns (ctxOf Q.inputs (Q.seen.nodes.take i)) := by
    rw [← hns]
    unfold raisedOperand
    refine ⟨?_, ?_, ?_⟩
    · intro u hu
      rw [List.mem_singleton.1 hu, hlen]
      exact hxi
    · show Kind.OK [(ctxOf Q.inputs (Q.seen.nodes.take i)).getD x (⟨[], 0⟩, false)] _ _
      rw [hctx, ew2, ew3, ew4]
      exact hsl
    · split
      · next hsame =>
        refine ⟨?_, ?_, trivial⟩
        · intro u hu
          rw [List.mem_singleton.1 hu, List.length_append, hlen]
          simp
        · show Kind.OK [(_ ++ [_]).getD (Q.inputs.length + i) (⟨[], 0⟩, false)] _ _
          rw [List.getD_append_right _ _ _ _ (by omega), hlen, Nat.sub_self]
          exact padTyped _ hsame
      · trivial
  -- the clone
  have hokl : (raisedLeaf l w1).OK [1, w1.ih, w1.iw, l.ic] := by
    rw [hw1, hw]
    rw [hw] at p3 p4
    exact raisedLeaf_ok hsrc hl hic hdh hdw h1 p1 p3 p4
  have ch' : w1.oh = s := ch
  have cw' : w1.ow = l.ow := by rw [cw, ew6]
  have hargs : n.args = [Q.inputs.length + i + ns.length - 1] := by rw [← hn]
  have hnty' : n.ty = ty := by rw [← hn]
  have hkind : n.kind = .conv t (raisedLeaf l w1) g := by rw [← hn]
  have hpipe : ∃ limit, Conv.Compile.Pipeline limit (.conv (raisedLeaf l w1)) g := by
    unfold QNode.Compiled at hc
    rw [hkind] at hc
    exact hc
  refine raise_step hR hQ he hi rfl hnsOK hkey (by rw [hkind]; intro b hb; cases hb) hnty' ?_ ?_ ?_ ?_
  · rw [hargs]
    intro u hu
    rw [List.mem_singleton.1 hu]
    omega
  · rw [hargs, hkind, hnty']
    refine ⟨_, false, rfl, ?_, ?_, tok, hsrc, hokl, hic, ?_, ?_, hact, hscale, hpipe⟩
    · exact hnty
    · rw [hty]
      show ty4 s l.ow l.oc 1 = ty4 w1.oh w1.ow l.oc 1
      rw [ch', cw']
    · show 1 ≤ w1.oh
      omega
    · show 1 ≤ w1.ow
      omega
  · have := he j' _ hj
    unfold QNode.refErr at this ⊢
    rw [hkind]
    exact this
  · intro ref hRef
    have hvalj := hRef.within j' _ ((insert_before hi hji).trans hj)
    rw [carried_before hi hji hj (by intro b hb; cases hb), insert_inputs] at hvalj
    have hvali := hRef.within _ _ (insert_last hi)
    have hval0 := hRef.within _ _ (insert_new hi hkey hfirst)
    rw [insert_inputs] at hvali hval0
    have hxt' : (Q.rewritten (Q.insert i ns)).types.getD x ⟨[], 0⟩ = ty4 l.ih l.iw l.ic 1 := (insert_types hi hxi).trans hxt
    have hvt' : (Q.rewritten (Q.insert i ns)).types.getD v ⟨[], 0⟩ = ty4 l.oh l.ow l.oc 1 := (insert_types hi (by omega)).trans hvt
    obtain ⟨D, hD⟩ : ∃ D, D = ref.getD x [] := ⟨_, rfl⟩
    obtain ⟨V, hV⟩ : ∃ V, V = ref.getD v [] := ⟨_, rfl⟩
    have hvali : ref.getD (Q.inputs.length + (i + ns.length)) [] = eval R.ext (.slice [0, b, 0, 0] [1, s, sw, sc]) (ty4 s l.ow l.oc 1) [(ty4 l.oh l.ow l.oc 1, V)] := by
      rw [hV, ← hvt', ← hty]
      exact hvali
    have hval0 : ref.getD (Q.inputs.length + i) [] = eval R.ext (.slice [0, r.begin_.toNat, 0, 0] [1, r.size.toNat, l.iw, l.ic]) (ty4 r.size.toNat l.iw l.ic 1)
        [(ty4 l.ih l.iw l.ic 1, D)] := by
      rw [hD, ← hxt']
      exact hval0
    have hvalj : ∀ idx, InShape (ty4 l.oh l.ow l.oc 1).shape idx →
        |((tensorOf (ty4 l.oh l.ow l.oc 1) V idx : ℤ) : ℝ) - (Conv.Compile.tflConv R.r t l (tensorOf (ty4 l.ih l.iw l.ic 1) D) idx : ℤ)| ≤ e j' := by
      rw [hD, ← hxt', hV, hv, ← hdty]
      exact hvalj
    -- the operand of the clone
    obtain ⟨D2, hD2⟩ : ∃ D2, D2 = ref.getD (Q.inputs.length + i + ns.length - 1) [] := ⟨_, rfl⟩
    have img1 := img_slice R.ext r.begin_.toNat r.size.toNat l.ih l.iw l.ic 1 [1, r.size.toNat, l.iw, l.ic] D
    rw [← hval0, Int.toNat_of_nonneg h0, Int.toNat_of_nonneg (by omega)] at img1
    have himg : (imgOf w1.ih w1.iw l.ic 1 D2).Same (Image.pad (List.replicate l.ic (List.replicate 1 (UInt8.ofInt t.zpi))) r.padTop r.padBottom r.padLeft r.padRight
        (sliceRows r.begin_ r.size (imgOf l.ih l.iw l.ic 1 D))) := by
      by_cases hsame : w.same = true
      · have hns2 : ns = [rowSlice x r.begin_.toNat r.size.toNat w.iw w.ic w.idd,
            ⟨.pad w.q8 w.zp [0, 0, r.padTop.toNat, r.padBottom.toNat, r.padLeft.toNat, r.padRight.toNat, 0, 0], [Q.inputs.length + i], (w.clone r).inp⟩] := by
          rw [← hns]
          unfold raisedOperand
          rw [if_pos hsame]
        have hl2 : ns.length = 2 := by rw [hns2]; rfl
        have hval1 := hRef.within _ _ (insert_new hi hkey (k := 1) (by rw [hns2]; rfl))
        rw [insert_inputs] at hval1
        obtain ⟨tp, ht⟩ : ∃ t : Nat, r.padTop = t := ⟨_, (Int.toNat_of_nonneg p1.1).symm⟩
        obtain ⟨bo, hbo⟩ : ∃ t : Nat, r.padBottom = t := ⟨_, (Int.toNat_of_nonneg p1.2.1).symm⟩
        obtain ⟨lf, hll⟩ : ∃ t : Nat, r.padLeft = t := ⟨_, (Int.toNat_of_nonneg p1.2.2.1).symm⟩
        obtain ⟨rr, hrr⟩ : ∃ t : Nat, r.padRight = t := ⟨_, (Int.toNat_of_nonneg p1.2.2.2).symm⟩
        have eih : w1.ih = r.size.toNat + tp + bo ∧ w1.iw = l.iw + lf + rr := by
          rw [en1, en2, ht, hbo, hll, hrr]
          constructor <;> omega
        have hm : (Q.rewritten (Q.insert i ns)).types.getD (Q.inputs.length + i) ⟨[], 0⟩ = ty4 r.size.toNat l.iw l.ic 1 := by
          have := insert_newType hi hkey hfirst
          exact this
        have einp : (w.clone r).inp = ty4 (r.size.toNat + tp + bo) (l.iw + lf + rr) (l.ic + 0 + 0) 1 := by
          rw [← hw1]
          unfold WOp.inp
          rw [eih.1, eih.2, en3, en4]
          rfl
        have hD2v : D2 = eval R.ext (.pad true t.zpi [0, 0, tp, bo, lf, rr, 0, 0]) (ty4 (r.size.toNat + tp + bo) (l.iw + lf + rr) (l.ic + 0 + 0) 1)
            [(ty4 r.size.toNat l.iw l.ic 1, ref.getD (Q.inputs.length + i) [])] := by
          rw [hD2, hl2, show Q.inputs.length + i + 2 - 1 = Q.inputs.length + (i + 1) by omega, ← hm, ← einp, ← ew7, ← ew5]
          rw [ht, hbo, hll, hrr] at hval1
          simp only [Int.toNat_natCast] at hval1
          exact hval1
        have img2 := img_pad R.ext true t.zpi tp bo lf rr 0 0 r.size.toNat l.iw l.ic 1 (ref.getD (Q.inputs.length + i) [])
        rw [← hD2v] at img2
        rw [eih.1, eih.2, ht, hbo, hll, hrr]
        exact img2.trans (pad_congr ((imgT_chan_id _ _ _ _ _).trans img1))
      · obtain ⟨q1, q2, q3, q4⟩ := p2 (by simpa using hsame)
        have hl1 : ns.length = 1 := by rw [← hns]; unfold raisedOperand; rw [if_neg hsame]; rfl
        have eih : w1.ih = r.size.toNat ∧ w1.iw = l.iw := by
          rw [en1, en2, q1, q2, q3, q4]
          constructor <;> omega
        rw [hD2, hl1, show Q.inputs.length + i + 1 - 1 = Q.inputs.length + i by omega, eih.1, eih.2, q1, q2, q3, q4]
        exact img1.trans (pad_nothing _ _).symm
    unfold QNode.Within
    rw [hkind, hargs, hnty']
    simp only [List.map_cons, List.map_nil, List.getD_cons_zero]
    rw [hnty, ← hD2, hvali, hty]
    intro idx hidx
    obtain ⟨y, xx, o, rfl, hy, hxx, ho⟩ := index4 (show InShape [1, s, l.ow, l.oc] idx from hidx)
    rw [rows_value R.ext V hy hxx ho]
    have hcr := conv_raised hR.r tok (hact.imp id (·.1)) hsrc hl hic hdh hdw hs hbs (by rw [← hw, ← hr]; exact h0) (by rw [← hw, ← hr]; exact h1)
      (by rw [← hw, ← hr]; exact h2) (w1 := w1) (by rw [← hw, ← hr]; exact hw1) (D := D) (D2 := D2) (by rw [← hw, ← hr]; exact himg) hy hxx ho
    rw [hcr]
    exact hvalj _ ⟨by omega, by omega, hxx, ho, trivial⟩

theorem broadcastable4 {h w c oh ow oc : Nat} : TFL.Broadcastable [1, h, w, c] [1, oh, ow, oc] ↔ (h = 1 ∨ h = oh) ∧ (w = 1 ∨ w = ow) ∧ (c = 1 ∨ c = oc) := by
  unfold TFL.Broadcastable
  simp

theorem broadcast_rows {f g : List Nat → ℤ} {h oh ow oc b s y xx o : Nat} (hy : y < s) (hx : xx < ow) (ho : o < oc) (hbs : b + s ≤ oh) (hh : h = oh)
    (hfg : f [0, y, xx, o] = g [0, b + y, xx, o]) : broadcastT [1, s, ow, oc] f [0, y, xx, o] = broadcastT [1, h, ow, oc] g [0, b + y, xx, o] := by
  have e1 : (if s = 1 then 0 else y) = y := by split <;> omega
  have e2 : (if ow = 1 then 0 else xx) = xx := by split <;> omega
  have e3 : (if oc = 1 then 0 else o) = o := by split <;> omega
  have e4 : (if h = 1 then 0 else b + y) = b + y := by split <;> omega
  unfold broadcastT
  simp [e1, e2, e3, e4, hfg]

theorem broadcast_one {f : List Nat → ℤ} {w c b y xx o : Nat} : broadcastT [1, 1, w, c] f [0, y, xx, o] = broadcastT [1, 1, w, c] f [0, b + y, xx, o] := by
  unfold broadcastT
  simp

/-- One operand of the clone. -/
theorem bin_operand {i : Nat} {ns : List Node} {q : QNode} (hi : Q.nodes[i]? = some q) (hkey : ∀ n ∈ ns, n.kind.key = none ∧ ∀ k, n.kind ≠ .elementwise k)
    {x x' k b s h w c oh ow oc : Nat} {cnd : Bool} (hx : x < Q.inputs.length + i) (hxt : Q.types.getD x ⟨[], 0⟩ = ty4 h w c 1)
    (hc : cnd = decide (h = oh ∧ w = ow ∧ c = oc)) (hor : cnd = true ∨ h = 1) (hbs : b + s ≤ oh) (hs : 1 ≤ s)
    (hbc : TFL.Broadcastable [1, h, w, c] [1, oh, ow, oc]) (hx' : x' = if cnd then Q.inputs.length + (i + k) else x) (hk : cnd = true → ns[k]? = some (rowSlice x b s w c 1)) :
    x' < Q.inputs.length + i + ns.length ∧ ∃ h', (Q.rewritten (Q.insert i ns)).types.getD x' ⟨[], 0⟩ = ty4 h' w c 1 ∧
      TFL.Broadcastable [1, h', w, c] [1, s, ow, oc] ∧
      ∀ e ref, (Q.rewritten (Q.insert i ns)).Reference R e ref → ∀ y xx o, y < s → xx < ow → o < oc →
        broadcastT [1, h', w, c] (tensorOf (ty4 h' w c 1) (ref.getD x' [])) [0, y, xx, o] =
          broadcastT [1, h, w, c] (tensorOf (ty4 h w c 1) (ref.getD x [])) [0, b + y, xx, o] := by
  have hxt' : (Q.rewritten (Q.insert i ns)).types.getD x ⟨[], 0⟩ = ty4 h w c 1 := (insert_types hi hx).trans hxt
  cases hcc : cnd with
  | true =>
    rw [hcc] at hx' hc
    simp only [if_true] at hx'
    obtain ⟨rfl, rfl, rfl⟩ : h = oh ∧ w = ow ∧ c = oc := by simpa using hc.symm
    have hk := hk hcc
    have hlt := (List.getElem?_eq_some_iff.1 hk).1
    subst hx'
    refine ⟨by omega, s, insert_newType hi hkey hk, broadcastable4.2 ⟨.inr rfl, .inr rfl, .inr rfl⟩, fun e ref hr y xx o hy hxx ho => ?_⟩
    have hval := hr.within _ _ (insert_new hi hkey hk)
    rw [insert_inputs] at hval
    have hval : ref.getD (Q.inputs.length + (i + k)) [] = eval R.ext (.slice [0, b, 0, 0] [1, s, w, c]) (ty4 s w c 1) [(ty4 h w c 1, ref.getD x [])] := by
      rw [← hxt']
      exact hval
    refine broadcast_rows hy hxx ho hbs rfl ?_
    rw [hval]
    exact rows_value R.ext _ hy hxx ho
  | false =>
    rw [hcc] at hx' hor
    simp only [Bool.false_eq_true, if_false] at hx'
    have h1 : h = 1 := by simpa using hor
    subst hx' h1
    obtain ⟨-, b2, b3⟩ := broadcastable4.1 hbc
    exact ⟨by omega, 1, hxt', broadcastable4.2 ⟨.inl rfl, b2, b3⟩, fun e ref _ y xx o _ _ _ => broadcast_one⟩

/-- **A slice above an addition, subtraction or multiplication.** -/
theorem raiseBinQ_step (hR : R.OK dom) (hQ : Q.OK R dom) {e : Nat → ℝ} (he : Q.Enough R e) {i j : Nat} {ns : List Node} {n : QNode}
    (h : raiseBinQ Q i = some (ns, n, j)) :
    (Q.raise i ns n).OK R dom ∧ (Q.raise i ns n).Enough R (Function.update (carried (Q.insert i ns) e) (i + ns.length) (e j)) ∧
    (Q.raise i ns n).inputs = Q.inputs ∧ (Q.raise i ns n).outputs.length = Q.outputs.length ∧
    ∀ ref, Q.Reference R e ref →
      ∃ ref', (Q.raise i ns n).Reference R (Function.update (carried (Q.insert i ns) e) (i + ns.length) (e j)) ref' ∧
        ref'.take Q.inputs.length = ref.take Q.inputs.length ∧
        ((Q.raise i ns n).outputs.map fun v => ref'.getD v []) = Q.outputs.map fun v => ref.getD v [] := by
  unfold raiseBinQ at h
  split at h
  case h_2 => cases h
  rename_i b s sw sc v ty hi
  split at h
  case h_2 => cases h
  rename_i op act lt rt ot x y oh ow oc od hp
  split at h
  case h_2 => cases h
  rename_i ah aw ac ad bh bw bc bd hxt hyt
  dsimp only at h
  split at h
  case isFalse => cases h
  rename_i hguard
  obtain ⟨hfits, hty, hs, hora, horb⟩ := hguard
  obtain ⟨j', hv, hj⟩ := producer_eq hp
  obtain ⟨ca, hca⟩ : ∃ ca, ca = decide (ah = oh ∧ aw = ow ∧ ac = oc) := ⟨_, rfl⟩
  obtain ⟨cb, hcb⟩ : ∃ cb, cb = decide (bh = oh ∧ bw = ow ∧ bc = oc) := ⟨_, rfl⟩
  unfold BOp.slices at h hora horb
  dsimp only at h hora horb
  rw [← hca, ← hcb] at h
  rw [← hca] at hora
  rw [← hcb] at horb
  obtain ⟨bi, fi, oki⟩ := ok_at hQ hi
  obtain ⟨bj, fj, okj⟩ := ok_at hQ hj
  have hji : j' < i := by have := bi v (List.mem_singleton.2 rfl); omega
  have hx : x < Q.inputs.length + j' := bj x (by simp)
  have hy : y < Q.inputs.length + j' := bj y (by simp)
  obtain ⟨a, fa, b', fb, hab, had, hbd, hod, hba, hbb, q1, q2, q3, hdom, hr6⟩ := okj
  simp only [List.map_cons, List.map_nil, List.cons.injEq, Prod.mk.injEq, and_true] at hab
  obtain ⟨⟨ha, -⟩, hb', -⟩ := hab
  rw [← ha, hxt] at had hba
  rw [← hb', hyt] at hbd hbb
  have had : ad = 1 := had
  have hbd : bd = 1 := hbd
  have hod : od = 1 := hod
  subst had hbd hod
  have hxt : Q.types.getD x ⟨[], 0⟩ = ty4 ah aw ac 1 := hxt
  have hyt : Q.types.getD y ⟨[], 0⟩ = ty4 bh bw bc 1 := hyt
  have hvt : Q.types.getD v ⟨[], 0⟩ = ty4 oh ow oc 1 := by rw [hv, getD_of (types_at hj)]; rfl
  have hty : ty = ty4 s ow oc 1 := hty
  obtain ⟨a', c', ha', -, hfit, -, -⟩ := oki
  have hbs : b + s ≤ oh := by
    have : a' = ty4 oh ow oc 1 := by
      have := congrArg (fun z => (z.getD 0 (⟨[], 0⟩, false)).1) ha'
      simp only [List.map_cons, List.map_nil, List.getD_cons_zero] at this
      rw [← this, hvt]
    rw [this, show (⟨.base (.slice [0, b, 0, 0] [1, s, sw, sc]), [v], ty⟩ : QNode).ty = ty4 s ow oc 1 from hty] at hfit
    exact hfit.2.1
  obtain ⟨sx, hsx⟩ : ∃ sx, sx = if ca = true then [rowSlice x b s aw ac 1] else [] := ⟨_, rfl⟩
  obtain ⟨sy, hsy⟩ : ∃ sy, sy = if cb = true then [rowSlice y b s bw bc 1] else [] := ⟨_, rfl⟩
  rw [← hsx, ← hsy] at h
  obtain ⟨x', hx'⟩ : ∃ x', x' = if ca = true then Q.inputs.length + i else x := ⟨_, rfl⟩
  obtain ⟨y', hy'⟩ : ∃ y', y' = if cb = true then Q.inputs.length + i + sx.length else y := ⟨_, rfl⟩
  rw [← hx', ← hy'] at h
  obtain ⟨hns, hn, hjj⟩ : sx ++ sy = ns ∧ (⟨.binary op act lt rt ot, [x', y'], ty⟩ : QNode) = n ∧ v - Q.inputs.length = j := by
    simpa only [Option.some.injEq, Prod.mk.injEq] using h
  have hjj : j' = j := by omega
  subst hjj
  have hkey : ∀ n ∈ ns, n.kind.key = none ∧ ∀ k, n.kind ≠ .elementwise k := by
    rw [← hns, hsx, hsy]
    intro n hn
    rw [List.mem_append] at hn
    rcases hn with hn | hn
    all_goals
      split at hn
      · rw [List.mem_singleton] at hn
        subst hn
        exact ⟨rfl, fun k hk => by cases hk⟩
      · cases hn
  have hilt : i < Q.nodes.length := (List.getElem?_eq_some_iff.1 hi).1
  have hlen : (ctxOf Q.inputs (Q.seen.nodes.take i)).length = Q.inputs.length + i := by
    unfold ctxOf
    simp only [List.length_append, List.length_map, List.length_take]
    have : Q.seen.nodes.length = Q.nodes.length := by simp [QNetwork.seen]
    omega
  obtain ⟨⟨f1, f2, f3, f4, f5, f6⟩, -⟩ := hfits
  dsimp only at f1 f2 f3 f4 f5 f6
  have typed : ∀ (u h w c : Nat) (ctx : List (Ty × Bool)), (ctx.getD u (⟨[], 0⟩, false)).1 = ty4 h w c 1 → u < ctx.length → b + s ≤ h → 1 ≤ h → 1 ≤ w → 1 ≤ c →
      NodesOK [rowSlice u b s w c 1] ctx := by
    intro u h w c ctx hu hlt hb h1 h2 h3
    refine ⟨fun z hz => by rw [List.mem_singleton.1 hz]; exact hlt, ?_, trivial⟩
    show Kind.OK [ctx.getD u (⟨[], 0⟩, false)] (ty4 s w c 1) (.slice [0, b, 0, 0] [1, s, w, c])
    exact ⟨ty4 h w c 1, (ctx.getD u (⟨[], 0⟩, false)).2, by rw [← hu], rfl, sliceFits4 hb, rfl, pos4 h1 h2 h3⟩
  have hnsOK : NodesOK ns (ctxOf Q.inputs (Q.seen.nodes.take i)) := by
    rw [← hns, nodesOK_append]
    constructor
    · rw [hsx]
      split
      · next hc =>
        obtain ⟨e1, -, -⟩ : ah = oh ∧ aw = ow ∧ ac = oc := by rw [hca] at hc; simpa using hc
        exact typed x ah aw ac _ ((ctxOf_types (by omega)).trans hxt) (by omega) (by omega) f1 f2 f3
      · trivial
    · rw [hsy]
      split
      · next hc =>
        obtain ⟨e1, -, -⟩ : bh = oh ∧ bw = ow ∧ bc = oc := by rw [hcb] at hc; simpa using hc
        refine typed y bh bw bc _ ?_ (by rw [List.length_append, hlen]; omega) (by omega) f4 f5 f6
        rw [List.getD_append _ _ _ _ (by omega)]
        exact (ctxOf_types (by omega)).trans hyt
      · trivial
  have hA := bin_operand (R := R) (k := 0) hi hkey (by omega) hxt hca hora hbs hs hba hx' (by
    intro hc
    rw [← hns, hsx, if_pos hc]
    rfl)
  have hB := bin_operand (R := R) (x' := y') (k := sx.length) hi hkey (by omega) hyt hcb horb hbs hs hbb (by rw [← Nat.add_assoc]; exact hy') (by
    intro hc
    rw [← hns, List.getElem?_append_right (le_refl _), Nat.sub_self, hsy, if_pos hc]
    rfl)
  obtain ⟨hxl, ha', hxt', hba', hva⟩ := hA
  obtain ⟨hyl, hb', hyt', hbb', hvb⟩ := hB
  have hargs : n.args = [x', y'] := by rw [← hn]
  have hnty' : n.ty = ty := by rw [← hn]
  have hkind : n.kind = .binary op act lt rt ot := by rw [← hn]
  refine raise_step hR hQ he hi rfl hnsOK hkey (by rw [hkind]; intro b hb; cases hb) hnty' ?_ ?_ ?_ ?_
  · rw [hargs]
    intro u hu
    simp only [List.mem_cons, List.not_mem_nil, or_false] at hu
    rcases hu with rfl | rfl
    · exact hxl
    · exact hyl
  · rw [hargs, hkind, hnty']
    simp only [List.map_cons, List.map_nil]
    rw [hxt', hyt', hty]
    exact ⟨_, false, _, false, rfl, rfl, rfl, rfl, hba', hbb', q1, q2, q3, hdom, hr6⟩
  · have := he j' _ hj
    unfold QNode.refErr at this ⊢
    rw [hkind]
    exact this
  · intro ref hRef
    have hvalj := hRef.within j' _ ((insert_before hi hji).trans hj)
    rw [carried_before hi hji hj (by intro b hb; cases hb), insert_inputs] at hvalj
    have hvali := hRef.within _ _ (insert_last hi)
    rw [insert_inputs] at hvali
    have hxt0 : (Q.rewritten (Q.insert i ns)).types.getD x ⟨[], 0⟩ = ty4 ah aw ac 1 := (insert_types hi (by omega)).trans hxt
    have hyt0 : (Q.rewritten (Q.insert i ns)).types.getD y ⟨[], 0⟩ = ty4 bh bw bc 1 := (insert_types hi (by omega)).trans hyt
    have hvt' : (Q.rewritten (Q.insert i ns)).types.getD v ⟨[], 0⟩ = ty4 oh ow oc 1 := (insert_types hi (by omega)).trans hvt
    have hvali : ref.getD (Q.inputs.length + (i + ns.length)) [] = eval R.ext (.slice [0, b, 0, 0] [1, s, sw, sc]) (ty4 s ow oc 1) [(ty4 oh ow oc 1, ref.getD v [])] := by
      rw [← hvt', ← hty]
      exact hvali
    unfold QNode.Within at hvalj ⊢
    rw [hkind, hargs, hnty']
    simp only [List.map_cons, List.map_nil, List.getD_cons_zero, List.getD_cons_succ] at hvalj ⊢
    rw [hxt0, hyt0, ← hv] at hvalj
    rw [hxt', hyt', hvali, hty]
    intro idx hidx
    obtain ⟨y0, xx, o, rfl, hy0, hxx, ho⟩ := index4 (show InShape [1, s, ow, oc] idx from hidx)
    rw [rows_value R.ext _ hy0 hxx ho, show (ty4 ha' aw ac 1).shape = [1, ha', aw, ac] from rfl, show (ty4 hb' bw bc 1).shape = [1, hb', bw, bc] from rfl,
      hva _ ref hRef y0 xx o hy0 hxx ho, hvb _ ref hRef y0 xx o hy0 hxx ho]
    exact hvalj _ ⟨by omega, by omega, hxx, ho, trivial⟩

end

end Verif.Net
