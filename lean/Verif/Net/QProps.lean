import Verif.Net.BinBits
import Verif.Net.QTconv
import Verif.Net.QConv16
import Verif.Net.QBlob
import Verif.Net.BlobExample
/-! C84: whole networks with quantised arithmetic. -/
namespace Verif.Net
open Verif.Tensor Verif.Move Verif.MemPlan Verif.Quant

variable {sem : Sem} {iv : List (Ty × List Byte)}

/-- A value of the source network: type, bytes, number in the expanded network, constness. -/
structure QW where
  ty : Ty
  bytes : List Byte
  dev : Nat
  c : Bool

structure QWOK (sem : Sem) (iv : List (Ty × List Byte)) (e : Exp) (w : QW) : Prop where
  holds : EHolds sem iv e w.dev w.ty w.bytes
  const : w.c = true → ((e.ctx iv).getD w.dev (⟨[], 0⟩, false)).2 = true

theorem QWOK.mono {e e' : Exp} (hg : EGood iv e) (he : ∃ extra, e' = ⟨e.n0, e.nodes ++ extra⟩) {w : QW} (h : QWOK sem iv e w) : QWOK sem iv e' w := by
  refine ⟨h.holds.mono hg he, ?_⟩
  rw [ctx_old hg he h.holds.bound]
  exact h.const

def qdummy : QW := ⟨⟨[], 0⟩, [], 0, false⟩

/-- Typing rules need constants only for operators in place. -/
theorem kindOK_flags {k : Kind} {ty : Ty} {as as' : List (Ty × Bool)} (h : k.OK as ty) (ht : as'.map (·.1) = as.map (·.1))
    (hc : ∀ (i : Nat) (a a' : Ty × Bool), as[i]? = some a → as'[i]? = some a' → a.2 = true → a'.2 = true) : k.OK as' ty := by
  have hone : ∀ {a : Ty} {c : Bool}, as = [(a, c)] → ∃ c', as' = [(a, c')] := by
    intro a c h
    rw [h] at ht
    match as', ht with
    | [(x, c')], ht => simp at ht; exact ⟨c', by rw [ht]⟩
  cases k with
  | const data =>
    obtain ⟨h1, h2⟩ := h
    rw [h1] at ht
    exact ⟨by simpa using ht, h2⟩
  | slice b s => obtain ⟨a, c, h1, h2⟩ := h; obtain ⟨c', h'⟩ := hone h1; exact ⟨a, c', h', h2⟩
  | strided b e' bm em sm => obtain ⟨a, c, h1, h2⟩ := h; obtain ⟨c', h'⟩ := hone h1; exact ⟨a, c', h', h2⟩
  | pad q8 zp p => obtain ⟨a, c, h1, h2⟩ := h; obtain ⟨c', h'⟩ := hone h1; exact ⟨a, c', h', h2⟩
  | broadcast => obtain ⟨a, c, h1, h2⟩ := h; obtain ⟨c', h'⟩ := hone h1; exact ⟨a, c', h', h2⟩
  | reshape => obtain ⟨a, c, h1, h2⟩ := h; obtain ⟨c', h'⟩ := hone h1; exact ⟨a, c', h', h2⟩
  | transpose _ => obtain ⟨a, c, h1, h2⟩ := h; obtain ⟨c', h'⟩ := hone h1; exact ⟨a, c', h', h2⟩
  | elementwise _ => obtain ⟨a, c, h1, h2⟩ := h; obtain ⟨c', h'⟩ := hone h1; exact ⟨a, c', h', h2⟩
  | concat axis =>
    obtain ⟨pre, post, h1, h2⟩ := h
    refine ⟨pre, post, by rw [ht]; exact h1, ?_⟩
    have : as'.length = as.length := by simpa using congrArg List.length ht
    rw [this]
    exact h2
  | other ip n =>
    intro hip a' ha'
    obtain ⟨i, hi, rfl⟩ := List.getElem_of_mem ha'
    have hl : as'.length = as.length := by simpa using congrArg List.length ht
    have hi2 : i < as.length := by omega
    have e1 : as'[i].1 = as[i].1 := by
      have := congrArg (fun l => l[i]?) ht
      simpa [List.getElem?_map, List.getElem?_eq_getElem hi, List.getElem?_eq_getElem hi2] using this
    rcases h hip as[i] (List.getElem_mem hi2) with h | h
    · exact .inl (hc i _ _ (List.getElem?_eq_getElem hi2) (List.getElem?_eq_getElem hi) h)
    · exact .inr (by rw [e1]; exact h)

/-- An operator that is kept. -/
theorem base_estep {e : Exp} (hg : EGood iv e) (k : Kind) (ty : Ty) (ws : List QW) (hw : ∀ w ∈ ws, QWOK sem iv e w) (hok : k.OK (ws.map fun w => (w.ty, w.c)) ty) :
    EStep sem iv e (e.emit ⟨k, ws.map (·.dev), ty⟩) ty (eval sem k ty (ws.map fun w => (w.ty, w.bytes))) := by
  have hty : ((ws.map fun w => (e.ctx iv).getD w.dev (⟨[], 0⟩, false)).map (·.1)) = (ws.map fun w => (w.ty, w.c)).map (·.1) := by
    rw [List.map_map, List.map_map]
    apply List.map_congr_left
    intro w hw'
    exact (hw w hw').holds.ctx hg
  have hok' : k.OK (ws.map fun w => (e.ctx iv).getD w.dev (⟨[], 0⟩, false)) ty := by
    refine kindOK_flags hok hty ?_
    intro i a a' h1 h2 h3
    rw [List.getElem?_map] at h1 h2
    cases hwi : ws[i]? with
    | none => rw [hwi] at h1; cases h1
    | some w =>
      rw [hwi] at h1 h2
      have h1 := Option.some.inj h1
      have h2 := Option.some.inj h2
      subst h1
      subst h2
      exact (hw w (List.mem_of_getElem? hwi)).const h3
  have := emit_estep (sem := sem) hg k ty (ws.map fun w => (w.dev, w.ty, w.bytes)) (by
    intro z hz
    obtain ⟨w, hw', rfl⟩ := List.mem_map.1 hz
    exact (hw w hw').holds) (by rw [List.map_map]; exact hok') (by
    refine length_eval (sem := sem) k ty _ _ hok' ?_
    rw [hty]
    simp [List.map_map, Function.comp_def])
  rw [List.map_map, List.map_map] at this
  exact this

theorem eval_sem (sem sem' : Sem) (k : Kind) (ty : Ty) (args : List (Ty × List Byte)) (h : ∀ ip n, k ≠ .other ip n) (h' : ∀ n, k ≠ .elementwise n) :
    eval sem k ty args = eval sem' k ty args := by
  cases k with
  | other ip n => exact absurd rfl (h ip n)
  | elementwise n => exact absurd rfl (h' n)
  | _ => rfl

theorem emit_flag {e : Exp} (hg : EGood iv e) (n : Node) : (((e.emit n).1.ctx iv).getD (e.emit n).2 (⟨[], 0⟩, false)).2 = n.kind.isConst := by
  unfold Exp.ctx Exp.emit
  simp only [List.map_append]
  rw [← List.append_assoc]
  have : (iv.map (fun x => (x.1, false)) ++ e.nodes.map fun n => (n.ty, n.kind.isConst)).length = e.n0 + e.nodes.length := by
    rw [List.length_append, List.length_map, List.length_map, hg.n0]
  rw [← this]
  simp

theorem node_estep {R : Rt} {dom : MulArgs → Prop} (hR : R.OK dom) (j : Nat) {e : Exp} (hg : EGood iv e) (n : QNode) (ws : List QW) (hw : ∀ w ∈ ws, QWOK sem iv e w)
    (hok : n.kind.OK R dom (ws.map fun w => (w.ty, w.c)) n.ty) (hsem : ∀ m ins, sem (Nat.pair j m) ins = n.kind.kernel R j m ins) :
    ∃ D, EStep sem iv e (expandNode R j e (ws.map fun w => (w.ty, w.dev)) n) n.ty D ∧
      (n.kind.isConst = true → (((expandNode R j e (ws.map fun w => (w.ty, w.dev)) n).1.ctx iv).getD
        (expandNode R j e (ws.map fun w => (w.ty, w.dev)) n).2 (⟨[], 0⟩, false)).2 = true) ∧
      n.Meets R (ws.map fun w => (w.ty, w.bytes)) D := by
  obtain ⟨kind, args, ty⟩ := n
  dsimp only at hok hsem ⊢
  cases kind with
  | base k =>
    have keep : (∀ ip m, k ≠ .other ip m) → (∀ m, k ≠ .elementwise m) → ∃ D, EStep sem iv e (e.emit ⟨k, (ws.map fun w => (w.ty, w.dev)).map (·.2), ty⟩) ty D ∧
        (k.isConst = true → (((e.emit ⟨k, (ws.map fun w => (w.ty, w.dev)).map (·.2), ty⟩).1.ctx iv).getD
          (e.emit ⟨k, (ws.map fun w => (w.ty, w.dev)).map (·.2), ty⟩).2 (⟨[], 0⟩, false)).2 = true) ∧ D = eval R.ext k ty (ws.map fun w => (w.ty, w.bytes)) := by
      intro hk hk'
      refine ⟨_, ?_, ?_, eval_sem sem R.ext k ty _ hk hk'⟩
      · rw [List.map_map]
        exact base_estep hg k ty ws hw hok
      · intro h
        rw [emit_flag hg]
        exact h
    cases k with
    | other ip m =>
      refine ⟨eval sem (.other ip (Nat.pair j 0)) ty (ws.map fun w => (w.ty, w.bytes)), ?_, ?_, ?_⟩
      · unfold expandNode
        dsimp only
        rw [List.map_map]
        exact base_estep hg (.other ip (Nat.pair j 0)) ty ws hw hok
      · intro h; cases h
      · show bytesOf ty (elemAt ty (sem (Nat.pair j 0) _)) = bytesOf ty (elemAt ty (R.ext m _))
        rw [hsem]
        rfl
    | const _ => exact keep (by intro _ _ h; cases h) (by intro _ h; cases h)
    | slice _ _ => exact keep (by intro _ _ h; cases h) (by intro _ h; cases h)
    | strided _ _ _ _ _ => exact keep (by intro _ _ h; cases h) (by intro _ h; cases h)
    | pad _ _ _ => exact keep (by intro _ _ h; cases h) (by intro _ h; cases h)
    | broadcast => exact keep (by intro _ _ h; cases h) (by intro _ h; cases h)
    | concat _ => exact keep (by intro _ _ h; cases h) (by intro _ h; cases h)
    | reshape => exact keep (by intro _ _ h; cases h) (by intro _ h; cases h)
    | transpose _ => exact keep (by intro _ _ h; cases h) (by intro _ h; cases h)
    | elementwise m =>
      refine ⟨eval sem (.elementwise (Nat.pair j 0)) ty (ws.map fun w => (w.ty, w.bytes)), ?_, ?_, ?_⟩
      · unfold expandNode
        dsimp only
        rw [List.map_map]
        exact base_estep hg (.elementwise (Nat.pair j 0)) ty ws hw hok
      · intro h; cases h
      · show bytesOf ty (fun idx => fit ty.d (sem (Nat.pair j 0) _)) = bytesOf ty (fun idx => fit ty.d (R.ext m _))
        congr 1
        funext idx
        rw [hsem]
        rfl
  | binary op act lt rt ot =>
    obtain ⟨a, ca, b, cb, h1, ha, hb, hty, hba, hbb, hl, hr, ho, hop, h6⟩ := hok
    match ws, h1, hw with
    | [wa, wb], h1, hw =>
      simp only [List.map_cons, List.map_nil, List.cons.injEq, Prod.mk.injEq, and_true] at h1
      obtain ⟨⟨rfl, -⟩, rfl, -⟩ := h1
      obtain ⟨D, hD, eD⟩ := binary_estep (sem := sem) hR hg (Nat.pair j 0) (Nat.pair j 1) op act lt rt ot (fun ins => by rw [hsem]; unfold QKind.kernel; dsimp only; rw [if_pos rfl])
        (fun ins => by rw [hsem]; unfold QKind.kernel; dsimp only; rw [if_neg (by decide)]) hl hr ho hop h6 wa.ty wb.ty ty ha hb hty hba hbb wa.dev wb.dev (hw wa (by simp)).holds (hw wb (by simp)).holds
      exact ⟨D, hD, (fun h => by cases h), eD⟩
  | activation f it ot =>
    obtain ⟨a, c, h1, ha, rfl, hi, ho, hfit⟩ := hok
    match ws, h1, hw with
    | [wa], h1, hw =>
      simp only [List.map_cons, List.map_nil, List.cons.injEq, Prod.mk.injEq, and_true] at h1
      obtain ⟨rfl, -⟩ := h1
      obtain ⟨D, hD, eD⟩ := lookup_estep (sem := sem) hg (Nat.pair j 0) (fun ins => hsem 0 ins) f it ot ho.pos hfit wa.dev wa.ty ha (hw wa (by simp)).holds
      refine ⟨D, hD, (fun h => by cases h), ?_⟩
      intro idx hidx
      show XC.Best ot (f.apply (it.deq (tensorOf wa.ty wa.bytes idx))) (tensorOf wa.ty D idx)
      rw [eD idx hidx]
      exact XC.best_clamp ot ho.pos _
  | conv t l g =>
    obtain ⟨a, c, h1, rfl, rfl, ht, hsrc, ok, hic, hoh, how, hact, hsc, limit, hp⟩ := hok
    match ws, h1, hw with
    | [], h1, _ => simp at h1
    | _ :: _ :: _, h1, _ => simp at h1
    | [wa], h1, hw =>
      simp only [List.map_cons, List.map_nil, List.cons.injEq, Prod.mk.injEq, and_true] at h1
      obtain ⟨hwt, -⟩ := h1
      have hh := (hw wa (by simp)).holds
      rw [hwt] at hh
      obtain ⟨D, hD, eD⟩ := conv_estep hR t ht (hact.imp_right fun h => h.1) j l hsrc ok hic hoh how hp hg wa.dev hh hsem
      refine ⟨D, hD, (fun h => by cases h), ?_⟩
      intro idx hidx
      have := Conv.Compile.C80_convolution_compiled R.cfg R.lib hR.lib hR.thr R.r hR.r t ht.inS ht.outS ht.zpi ht.zpo l hsrc ok hact hsc limit g hp
        (tensorOf ⟨[1, l.ih, l.iw, l.ic], 1⟩ wa.bytes) (fun i _ => tensorOf_range _ _ _) idx hidx
      simp only [List.map_cons, List.getD_cons_zero]
      rw [eD idx hidx, hwt]
      exact this
  | avgPool t p h w oh ow depth g =>
    obtain ⟨a, c, h1, rfl, rfl, ht, hact, hpad, hfh, hfw, hsh, hsw, hs1, hs2, hh1, hw1, hoh1, how1, hd, hoh, how, limit, hp⟩ := hok
    match ws, h1, hw with
    | [], h1, _ => simp at h1
    | _ :: _ :: _, h1, _ => simp at h1
    | [wa], h1, hw =>
      simp only [List.map_cons, List.map_nil, List.cons.injEq, Prod.mk.injEq, and_true] at h1
      obtain ⟨hwt, -⟩ := h1
      have hh := (hw wa (by simp)).holds
      rw [hwt] at hh
      have ok := Conv.Compile.poolLeaf_ok p hpad h w oh ow depth hfh hfw hsh hsw hh1 hw1 hd hoh how hs1 hs2
      obtain ⟨D, hD, eD⟩ := conv_estep hR t ht (hact.imp_right fun h => h.1) j (Conv.Compile.poolLeaf p h w oh ow depth) rfl ok hd hoh1 how1 hp hg wa.dev hh hsem
      refine ⟨D, hD, (fun h => by cases h), ?_⟩
      intro idx hidx
      have := Conv.Compile.C81_average_pool_compiled R.cfg R.lib hR.lib hR.thr hR.fac R.r hR.r t ht.inS ht.outS ht.zpi ht.zpo hact p hpad h w oh ow depth hfh hfw hsh hsw
        hh1 hw1 hd hoh how hs1 hs2 limit g hp (tensorOf ⟨[1, h, w, depth], 1⟩ wa.bytes) (fun i _ => tensorOf_range _ _ _) idx hidx
      have e1 : tensorOf ⟨[1, oh, ow, depth], 1⟩ D idx = g.eval (fun l' => l'.run R.cfg R.lib R.r t (tensorOf ⟨[1, h, w, depth], 1⟩ wa.bytes)) idx := eD idx hidx
      simp only [List.map_cons, List.getD_cons_zero]
      rw [e1, hwt]
      exact this
  | fc t f B g =>
    obtain ⟨a, c, pre, h1, rfl, hpre, htd, hsz, hout, ht, hact, hdata, hc, hB, hq, hb, hs, limit, hp⟩ := hok
    match ws, h1, hw with
    | [], h1, _ => simp at h1
    | _ :: _ :: _, h1, _ => simp at h1
    | [wa], h1, hw =>
      simp only [List.map_cons, List.map_nil, List.cons.injEq, Prod.mk.injEq, and_true] at h1
      obtain ⟨hwt, -⟩ := h1
      have hh := (hw wa (by simp)).holds
      rw [hwt] at hh
      obtain ⟨D, hD, l1, e1⟩ := fc_estep hR t ht hact j f B hB hdata hc hq hb hs hp pre hpre ty htd hsz hout hg wa.dev hh hsem
      refine ⟨D, ?_, (fun h => by cases h), l1, e1⟩
      unfold expandNode
      simp only [List.map_cons, List.map_nil, List.getD_cons_zero]
      rw [hwt]
      exact hD
  | maxPool p =>
    obtain ⟨a, c, h1, rfl, rfl, ok, hv, -⟩ := hok
    match ws, h1, hw with
    | [], h1, _ => simp at h1
    | _ :: _ :: _, h1, _ => simp at h1
    | [wa], h1, hw =>
      simp only [List.map_cons, List.map_nil, List.cons.injEq, Prod.mk.injEq, and_true] at h1
      obtain ⟨hwt, -⟩ := h1
      have hh := (hw wa (by simp)).holds
      rw [hwt] at hh
      obtain ⟨D, hD, e1⟩ := maxPool_estep hR j p ok hv hg wa.dev hh hsem
      refine ⟨D, hD, (fun h => by cases h), ?_⟩
      intro y x c hy hx hc
      simp only [List.map_cons, List.getD_cons_zero]
      rw [hwt]
      exact e1 y x c hy hx hc
  | reduce sum ti tq axes shape =>
    obtain ⟨a, c, h1, rfl, htd, hsz, hti, htq, hlo, hhi, hnd, -, hdef⟩ := hok
    match ws, h1, hw with
    | [], h1, _ => simp at h1
    | _ :: _ :: _, h1, _ => simp at h1
    | [wa], h1, hw =>
      simp only [List.map_cons, List.map_nil, List.cons.injEq, Prod.mk.injEq, and_true] at h1
      obtain ⟨hwt, -⟩ := h1
      have hh := (hw wa (by simp)).holds
      rw [hwt] at hh
      obtain ⟨D, hD, l1, e1⟩ := reduce_estep hR j sum ti tq htq hlo hhi axes hnd shape hdef ty htd hsz hg wa.dev hh (fun ins => hsem 0 ins)
      refine ⟨D, hD, (fun h => by cases h), l1, ?_⟩
      intro idx hidx
      simp only [List.map_cons, List.getD_cons_zero]
      rw [hwt]
      exact e1 idx hidx
  | tconv t h w oh ow op ps =>
    obtain ⟨a, c, h1, rfl, rfl, ht, hact, hh1, hw1, hc1, ho1, ok, hsame⟩ := hok
    match ws, h1, hw with
    | [], h1, _ => simp at h1
    | _ :: _ :: _, h1, _ => simp at h1
    | [wa], h1, hw =>
      simp only [List.map_cons, List.map_nil, List.cons.injEq, Prod.mk.injEq, and_true] at h1
      obtain ⟨hwt, -⟩ := h1
      have hh := (hw wa (by simp)).holds
      rw [hwt] at hh
      obtain ⟨D, hD, e1⟩ := tconv_estep hR t ht hact j h w oh ow hh1 hw1 op hc1 ho1 ps ok hsame hg wa.dev hh hsem
      refine ⟨D, hD, (fun h => by cases h), ?_⟩
      intro idx hidx
      simp only [List.map_cons, List.getD_cons_zero]
      rw [hwt]
      exact e1 idx hidx
  | blob op act =>
    have h1 : (ws.map fun w => (w.ty, w.dev)) = (ws.map fun w => (w.dev, w.ty, w.bytes)).map fun z => (z.2.1, z.1) := by
      rw [List.map_map]; rfl
    have h2 : (ws.map fun w => (w.ty, w.bytes)) = (ws.map fun w => (w.dev, w.ty, w.bytes)).map (·.2) := by
      rw [List.map_map]; rfl
    have h3 : (ws.map fun w => (w.ty, w.c)).map (·.1) = (ws.map fun w => (w.dev, w.ty, w.bytes)).map (·.2.1) := by
      rw [List.map_map, List.map_map]; rfl
    have hok : op.OK ((ws.map fun w => (w.ty, w.c)).map (·.1)) ty act := hok
    rw [h3] at hok
    obtain ⟨D, hD, eD⟩ := bop_estep hR.b j hg op act ty ⟨.blob op act, args, ty⟩ rfl rfl (ws.map fun w => (w.dev, w.ty, w.bytes)) (by
      intro z hz
      obtain ⟨w, hw', rfl⟩ := List.mem_map.1 hz
      exact (hw w hw').holds) hok hsem
    rw [h1, h2]
    exact ⟨D, hD, (fun h => by cases h), eD⟩
  | conv16 t l g =>
    obtain ⟨a, c, h1, rfl, rfl, ht, hdw, hsrc, ok, hic, hoh, how, hsc, htop, hfit, limit, hp⟩ := hok
    match ws, h1, hw with
    | [], h1, _ => simp at h1
    | _ :: _ :: _, h1, _ => simp at h1
    | [wa], h1, hw =>
      simp only [List.map_cons, List.map_nil, List.cons.injEq, Prod.mk.injEq, and_true] at h1
      obtain ⟨hwt, -⟩ := h1
      have hh := (hw wa (by simp)).holds
      rw [hwt] at hh
      obtain ⟨D, hD, eD⟩ := conv16_estep hR t ht j l hsrc ok hic hoh how hp hg wa.dev hh hsem
      refine ⟨D, hD, (fun h => by cases h), ?_⟩
      intro idx hidx
      have := Conv.Compile.C110_convolution16_compiled_partial R.cfg R.lib R.lib16 hR.lib16 R.r hR.r t ht.inS ht.outS ht.zpi ht.zpo ht.act l hdw hsrc ok hsc htop hfit
        limit g hp (tensor16 ⟨[1, l.ih, l.iw, l.ic], 2⟩ wa.bytes) (fun i _ => s16_range _) idx hidx
      simp only [List.map_cons, List.getD_cons_zero]
      unfold Near16
      rw [eD idx hidx, hwt]
      exact this
  | fc16 t f B g =>
    obtain ⟨a, c, pre, h1, rfl, hpre, htd, hsz, hout, ht, hdata, hc, hB, hq, hb, hs, htop, hfit, limit, hp⟩ := hok
    match ws, h1, hw with
    | [], h1, _ => simp at h1
    | _ :: _ :: _, h1, _ => simp at h1
    | [wa], h1, hw =>
      simp only [List.map_cons, List.map_nil, List.cons.injEq, Prod.mk.injEq, and_true] at h1
      obtain ⟨hwt, -⟩ := h1
      have hh := (hw wa (by simp)).holds
      rw [hwt] at hh
      obtain ⟨D, hD, l1, e1⟩ := fc16_estep hR t ht j f B hB hdata hc hq hb hs htop hfit hp pre hpre ty htd hsz hout hg wa.dev hh hsem
      refine ⟨D, ?_, (fun h => by cases h), l1, e1⟩
      unfold expandNode
      simp only [List.map_cons, List.map_nil, List.getD_cons_zero]
      rw [hwt]
      exact hD
  | bsign zp =>
    obtain ⟨a, c, pre, w, h1, rfl, rfl, hz1, hz2⟩ := hok
    match ws, h1, hw with
    | [], h1, _ => simp at h1
    | _ :: _ :: _, h1, _ => simp at h1
    | [wa], h1, hw =>
      simp only [List.map_cons, List.map_nil, List.cons.injEq, Prod.mk.injEq, and_true] at h1
      obtain ⟨hwt, -⟩ := h1
      have hh := (hw wa (by simp)).holds
      rw [hwt] at hh
      obtain ⟨D, hD, eD⟩ := bsign_estep hR j zp pre w hg wa.dev hh hsem
      refine ⟨D, hD, (fun h => by cases h), ?_⟩
      intro k hk
      simp only [List.map_cons, List.getD_cons_zero] at hk ⊢
      rw [hwt] at hk
      exact eD k hk
  | bconv L =>
    obtain ⟨a, c, h1, rfl, rfl, ok⟩ := hok
    match ws, h1, hw with
    | [], h1, _ => simp at h1
    | _ :: _ :: _, h1, _ => simp at h1
    | [wa], h1, hw =>
      simp only [List.map_cons, List.map_nil, List.cons.injEq, Prod.mk.injEq, and_true] at h1
      obtain ⟨hwt, -⟩ := h1
      have hh := (hw wa (by simp)).holds
      rw [hwt] at hh
      obtain ⟨D, hD, eD⟩ := bconv_estep hR j ok hg wa.dev hh hsem
      exact ⟨D, hD, (fun h => by cases h), eD⟩

/-! ### All operators -/

theorem map_getD_ws {β : Type} (f : QW → β) (ws : List QW) (args : List Nat) (d : β) (h : ∀ v ∈ args, v < ws.length) :
    (args.map fun v => (ws.map f).getD v d) = (args.map fun v => ws.getD v qdummy).map f := by
  rw [List.map_map]
  apply List.map_congr_left
  intro v hv
  have := h v hv
  simp [List.getD_eq_getElem?_getD, List.getElem?_eq_getElem this]

/-- From the values `ws`, the operators from number `j` on. -/
theorem qnodes_step {R : Rt} {dom : MulArgs → Prop} (hR : R.OK dom) : ∀ (ns : List QNode) (j : Nat) (e : Exp) (ws : List QW), EGood iv e →
    (∀ w ∈ ws, QWOK sem iv e w) → QNodesOK R dom ns (ws.map fun w => (w.ty, w.c)) →
    (∀ (i : Nat) (n : QNode), ns[i]? = some n → ∀ m ins, sem (Nat.pair (j + i) m) ins = n.kind.kernel R (j + i) m ins) →
    ∃ ws' : List QW, (expandNodes R ns j e (ws.map fun w => (w.ty, w.dev))).2 = (ws ++ ws').map (fun w => (w.ty, w.dev)) ∧
      EGood iv (expandNodes R ns j e (ws.map fun w => (w.ty, w.dev))).1 ∧
      (∀ w ∈ ws ++ ws', QWOK sem iv (expandNodes R ns j e (ws.map fun w => (w.ty, w.dev))).1 w) ∧
      ws'.map (·.ty) = ns.map (·.ty) ∧ (expandNodes R ns j e (ws.map fun w => (w.ty, w.dev))).1.n0 = e.n0 ∧
      ∀ (i : Nat) (n : QNode), ns[i]? = some n → n.Meets R (n.args.map fun v => ((ws ++ ws').map fun w => (w.ty, w.bytes)).getD v (⟨[], 0⟩, [])) ((ws'.getD i qdummy).bytes)
  | [], j, e, ws, hg, hw, _, _ => ⟨[], by simp [expandNodes], hg, by simpa [expandNodes] using hw, rfl, rfl, by intro i n h; simp at h⟩
  | n :: ns, j, e, ws, hg, hw, hok, hsem => by
    obtain ⟨h1, h2, h3⟩ := hok
    have hb : ∀ v ∈ n.args, v < ws.length := by simpa using h1
    have hws : ∀ w ∈ n.args.map fun v => ws.getD v qdummy, QWOK sem iv e w := by
      intro w hw'
      obtain ⟨v, hv, rfl⟩ := List.mem_map.1 hw'
      have := hb v hv
      simp only [List.getD_eq_getElem?_getD, List.getElem?_eq_getElem this, Option.getD_some]
      exact hw _ (List.getElem_mem this)
    rw [map_getD_ws _ ws n.args _ hb] at h2
    obtain ⟨D, hD, hflag, hmeets⟩ := node_estep (sem := sem) hR j hg n _ hws h2 (hsem 0 n rfl)
    obtain ⟨r, hr⟩ : ∃ r, r = expandNode R j e ((n.args.map fun v => ws.getD v qdummy).map fun w => (w.ty, w.dev)) n := ⟨_, rfl⟩
    rw [← hr] at hD hflag
    let w : QW := ⟨n.ty, D, r.2, n.kind.isConst⟩
    have hw1 : ∀ x ∈ ws ++ [w], QWOK sem iv r.1 x := by
      intro x hx
      rcases List.mem_append.1 hx with hx | hx
      · exact (hw x hx).mono hg hD.ext
      · rw [List.mem_singleton.1 hx]
        exact ⟨hD.holds, hflag⟩
    obtain ⟨ws', g1, g2, g3, g4, g5, g6⟩ := qnodes_step hR ns (j + 1) r.1 (ws ++ [w]) hD.good hw1 (by simpa using h3) (by
      intro i n' hn'
      have := hsem (i + 1) n' (by simpa using hn')
      rw [show j + 1 + i = j + (i + 1) by omega]
      exact this)
    have hexp : expandNodes R (n :: ns) j e (ws.map fun w => (w.ty, w.dev)) = expandNodes R ns (j + 1) r.1 ((ws ++ [w]).map fun w => (w.ty, w.dev)) := by
      simp only [expandNodes]
      rw [map_getD_ws _ ws n.args _ hb, ← hr, List.map_append]
      rfl
    have happ : ws ++ [w] ++ ws' = ws ++ (w :: ws') := by simp
    rw [happ] at g1 g3 g6
    refine ⟨w :: ws', ?_, ?_, ?_, ?_, ?_, ?_⟩
    · rw [hexp]; exact g1
    · rw [hexp]; exact g2
    · rw [hexp]; exact g3
    · rw [List.map_cons, List.map_cons, g4]
    · rw [hexp, g5]
      obtain ⟨x, hx⟩ := hD.ext
      rw [hx]
    · intro i n' hn'
      cases i with
      | zero =>
        have : n = n' := by simpa using hn'
        subst this
        have hm : (n.args.map fun v => ((ws ++ (w :: ws')).map fun w => (w.ty, w.bytes)).getD v (⟨[], 0⟩, [])) =
            (n.args.map fun v => ws.getD v qdummy).map fun w => (w.ty, w.bytes) := by
          rw [← map_getD_ws _ ws n.args (⟨[], 0⟩, []) hb]
          apply List.map_congr_left
          intro v hv
          have := hb v hv
          rw [List.map_append, List.getD_eq_getElem?_getD, List.getElem?_append_left (by simpa using this), ← List.getD_eq_getElem?_getD]
        rw [hm]
        exact hmeets
      | succ i => exact g6 i n' (by simpa using hn')

/-! ### C84 -/

theorem zip_types : ∀ (ts : List Ty) (bs : List (List Byte)), bs.length = ts.length → (ts.zip bs).map (·.1) = ts ∧ (ts.zip bs).map (·.2) = bs
  | [], [], _ => ⟨rfl, rfl⟩
  | [], _ :: _, h => by simp at h
  | _ :: _, [], h => by simp at h
  | t :: ts, b :: bs, h => by
    obtain ⟨h1, h2⟩ := zip_types ts bs (by simpa using h)
    simp [h1, h2]

/-- The expanded network on given inputs: it is well typed, and all values of the source network are in it. -/
theorem expand_values {R : Rt} {dom : MulArgs → Prop} (hR : R.OK dom) (N : QNetwork) (hN : N.OK R dom) (inputs : List (List Byte))
    (hin : inputs.map List.length = N.inputs.map Ty.size) :
    (N.expand R).OK ∧ ∃ vals : List (List Byte), vals.length = N.inputs.length + N.nodes.length ∧ vals.take N.inputs.length = inputs ∧
      (N.expand R).result (N.sem R) inputs = (N.outputs.map fun v => vals.getD v []) ∧
      (∀ (j : Nat) (n : QNode), N.nodes[j]? = some n →
        n.Meets R (n.args.map fun v => (N.types.getD v ⟨[], 0⟩, vals.getD v [])) (vals.getD (N.inputs.length + j) [])) ∧
      vals.map List.length = N.types.map Ty.size := by
  have hlen : inputs.length = N.inputs.length := by simpa using congrArg List.length hin
  let iv := N.inputs.zip inputs
  have hiv : iv.length = N.inputs.length := by simp [iv, hlen]
  let ws : List QW := iv.zipIdx.map fun x => ⟨x.1.1, x.1.2, x.2, false⟩
  have hwl : ws.length = N.inputs.length := by simp [ws, hiv]
  have hg : EGood iv ⟨N.inputs.length, []⟩ := ⟨hiv, trivial⟩
  have hw : ∀ w ∈ ws, QWOK (N.sem R) iv ⟨N.inputs.length, []⟩ w := by
    intro w hw
    obtain ⟨⟨⟨t, D⟩, v⟩, hx, rfl⟩ := List.mem_map.1 hw
    have hx' := List.mem_zipIdx hx
    have hv : v < iv.length := by omega
    have htd : (t, D) = iv[v] := by simpa using hx'.2.2
    refine ⟨⟨by simp only [List.length_nil]; omega, ?_, ?_⟩, by intro h; cases h⟩
    · show iv.getD v dfl = (t, D)
      rw [List.getD_eq_getElem?_getD, List.getElem?_eq_getElem hv, ← htd]
      rfl
    · have h1 : t = N.inputs[v]'(by omega) := by
        have := congrArg Prod.fst htd
        simpa [iv] using this
      have h2 : D = inputs[v]'(by omega) := by
        have := congrArg Prod.snd htd
        simpa [iv] using this
      have := congrArg (fun l => l[v]?) hin
      simp only [List.getElem?_map, List.getElem?_eq_getElem (show v < inputs.length by omega), List.getElem?_eq_getElem (show v < N.inputs.length by omega),
        Option.map_some, Option.some.injEq] at this
      exact (congrArg List.length h2).trans (this.trans (congrArg Ty.size h1).symm)
  have hwt : (ws.map fun w => (w.ty, w.c)) = N.inputs.map fun t => (t, false) := by
    have h1 := (zip_types N.inputs inputs hlen).1
    have : (ws.map fun w => (w.ty, w.c)) = (iv.map (·.1)).map fun t => (t, false) := by
      simp only [ws, List.map_map]
      rw [show ((fun w : QW => (w.ty, w.c)) ∘ fun x : (Ty × List Byte) × Nat => (⟨x.1.1, x.1.2, x.2, false⟩ : QW)) =
        ((fun t => (t, false)) ∘ fun x : Ty × List Byte => x.1) ∘ Prod.fst from rfl, ← List.map_map, List.zipIdx_map_fst]
    rw [this, h1]
  have hwb : ws.map (·.bytes) = inputs := by
    have h1 := (zip_types N.inputs inputs hlen).2
    have : ws.map (·.bytes) = iv.map (·.2) := by
      simp only [ws, List.map_map]
      rw [show ((fun w : QW => w.bytes) ∘ fun x : (Ty × List Byte) × Nat => (⟨x.1.1, x.1.2, x.2, false⟩ : QW)) = (fun x : Ty × List Byte => x.2) ∘ Prod.fst from rfl,
        ← List.map_map, List.zipIdx_map_fst]
    rw [this, h1]
  have hwv : (ws.map fun w => (w.ty, w.dev)) = N.inputs.zipIdx := by
    apply List.ext_getElem
    · simp [ws, hiv]
    · intro i h1 h2
      simp [ws, iv]
  obtain ⟨ws', g1, g2, g3, g4, g5, g6⟩ := qnodes_step (sem := N.sem R) (iv := iv) hR N.nodes 0 ⟨N.inputs.length, []⟩ ws hg hw (by rw [hwt]; exact hN.nodes) (by
    intro i n hn m ins
    rw [Nat.zero_add]
    unfold QNetwork.sem
    rw [Nat.unpair_pair]
    dsimp only
    rw [hn])
  rw [hwv] at g1 g2 g3 g5
  have hexp : expandNodes R N.nodes 0 ⟨N.inputs.length, []⟩ N.inputs.zipIdx = N.expanded R := rfl
  rw [hexp] at g1 g2 g3 g5
  have hl' : ws'.length = N.nodes.length := by simpa using congrArg List.length g4
  have hall : (ws ++ ws').length = N.inputs.length + N.nodes.length := by rw [List.length_append, hwl, hl']
  have hout : ∀ v ∈ N.outputs, ∃ w ∈ ws ++ ws', (ws ++ ws')[v]? = some w ∧ ((N.expanded R).2.getD v (⟨[], 0⟩, 0)).2 = w.dev := by
    intro v hv
    have hlt : v < (ws ++ ws').length := by rw [hall]; exact hN.outs v hv
    refine ⟨(ws ++ ws')[v], List.getElem_mem hlt, List.getElem?_eq_getElem hlt, ?_⟩
    rw [g1, List.getD_eq_getElem?_getD, List.getElem?_map, List.getElem?_eq_getElem hlt]
    rfl
  have hfst : (iv.map fun x => (x.1, false)) = N.inputs.map fun t => (t, false) := by
    have h1 := (zip_types N.inputs inputs hlen).1
    rw [show (fun x : Ty × List Byte => (x.1, false)) = (fun t => (t, false)) ∘ fun x : Ty × List Byte => x.1 from rfl, ← List.map_map, h1]
  have htys : N.types = (ws ++ ws').map (·.ty) := by
    unfold QNetwork.types
    rw [List.map_append, g4]
    have := congrArg (List.map Prod.fst) hwt
    simp only [List.map_map] at this
    rw [show (Prod.fst ∘ fun w : QW => (w.ty, w.c)) = fun w => w.ty from rfl, show (Prod.fst ∘ fun t : Ty => (t, false)) = id from rfl, List.map_id] at this
    rw [← this]
  refine ⟨⟨?_, ?_⟩, (ws ++ ws').map (·.bytes), ?_, ?_, ?_, ?_, ?_⟩
  rotate_left 6
  · rw [htys, List.map_map, List.map_map]
    apply List.map_congr_left
    intro w hw
    exact (g3 w hw).holds.len
  · have := g2.ok
    rw [hfst] at this
    exact this
  · intro x hx
    obtain ⟨v, hv, rfl⟩ := List.mem_map.1 hx
    obtain ⟨w, hw, -, h2⟩ := hout v hv
    rw [h2]
    have := (g3 w hw).holds.bound
    rw [g5] at this
    exact this
  · rw [List.length_map, hall]
  · rw [List.map_append, hwb, ← hlen, List.take_left]
  · unfold Network.result
    show ((N.outputs.map fun v => ((N.expanded R).2.getD v (⟨[], 0⟩, 0)).2).map fun v => ((evalNodes (N.sem R) (N.expanded R).1.nodes iv).getD v (⟨[], 0⟩, [])).2) = _
    rw [List.map_map]
    apply List.map_congr_left
    intro v hv
    obtain ⟨w, hw, h1, h2⟩ := hout v hv
    simp only [Function.comp]
    rw [h2, (g3 w hw).holds.value, List.getD_eq_getElem?_getD, List.getElem?_map, h1]
    rfl
  · intro j n hn
    have key := g6 j n hn
    have htypes : ∀ v, ((ws ++ ws').map fun w => (w.ty, w.bytes)).getD v (⟨[], 0⟩, []) = (N.types.getD v ⟨[], 0⟩, ((ws ++ ws').map (·.bytes)).getD v []) := by
      intro v
      have ht : N.types = (ws ++ ws').map (·.ty) := by
        unfold QNetwork.types
        rw [List.map_append, g4]
        have := congrArg (List.map Prod.fst) hwt
        simp only [List.map_map] at this
        rw [show (Prod.fst ∘ fun w : QW => (w.ty, w.c)) = fun w => w.ty from rfl, show (Prod.fst ∘ fun t : Ty => (t, false)) = id from rfl, List.map_id] at this
        rw [← this]
      rw [ht]
      by_cases hv : v < (ws ++ ws').length
      · rw [List.getD_eq_getElem?_getD, List.getD_eq_getElem?_getD, List.getD_eq_getElem?_getD, List.getElem?_map, List.getElem?_map, List.getElem?_map,
          List.getElem?_eq_getElem hv]
        rfl
      · rw [List.getD_eq_getElem?_getD, List.getD_eq_getElem?_getD, List.getD_eq_getElem?_getD, List.getElem?_map, List.getElem?_map, List.getElem?_map,
          List.getElem?_eq_none (by omega)]
        rfl
    rw [List.map_congr_left fun v _ => htypes v] at key
    have hj : j < ws'.length := by rw [hl']; exact (List.getElem?_eq_some_iff.1 hn).1
    rw [List.map_append, List.getD_eq_getElem?_getD (l := ws.map _ ++ _), List.getElem?_append_right (by rw [List.length_map, hwl]; omega), List.length_map, hwl, Nat.add_sub_cancel_left,
      List.getElem?_map, List.getElem?_eq_getElem hj]
    rw [List.getD_eq_getElem?_getD (l := ws'), List.getElem?_eq_getElem hj] at key
    simpa [List.map_append] using key

/-- **C84.** For every well-typed network of 8-bit additions, subtractions, multiplications with fused activations, activation functions,
(depthwise) convolutions, transposed convolutions, average and maximum pools, fully connected layers, means, sums, data movement and arbitrary other operators: the compiled function can be planned as soon as it has a tensor in
the arena; if it is planned, every tensor fits in the advertised arena, and after running it in that arena on any inputs and any initial
memory the operands of the return are values of the network's tensors such that every operator's result is what TensorFlow Lite
specifies for its operands, within the operator's tolerance. -/
theorem C84_quantised_network (R : Rt) (dom : MulArgs → Prop) (hR : R.OK dom) (N : QNetwork) (hN : N.OK R dom) (skip : Nat → Bool) :
    (∀ v, ((N.expand R).func skip).Arena v → ∃ a, planMemory ((N.expand R).func skip) = some a) ∧
    ∀ a, planMemory ((N.expand R).func skip) = some a →
      Fits ((N.expand R).func skip) a.offsets a.peakUsage ∧
      ∀ (inputs : List (List Byte)), inputs.map List.length = N.inputs.map Ty.size →
        ∃ vals : List (List Byte), vals.length = N.inputs.length + N.nodes.length ∧ vals.take N.inputs.length = inputs ∧
          vals.map List.length = N.types.map Ty.size ∧
          (∀ (j : Nat) (n : QNode), N.nodes[j]? = some n →
            n.Meets R (n.args.map fun v => (N.types.getD v ⟨[], 0⟩, vals.getD v [])) (vals.getD (N.inputs.length + j) [])) ∧
          ∀ (m : Mem) (c : Env),
            (arenaTrace ((N.expand R).func skip) (devKernels (N.sem R) ((N.expand R).compile skip).1.ops) a.offsets ((N.expand R).func skip).ops 0
              (loadInputs a.offsets inputs m) c).getLast? = some (N.outputs.map fun v => vals.getD v []) := by
  have hok := (expand_values hR N hN (N.inputs.map fun t => List.replicate t.size 0) (by simp [List.map_map, Function.comp_def])).1
  obtain ⟨h1, h2⟩ := C83_network_compiled (N.expand R) hok skip
  refine ⟨h1, ?_⟩
  intro a ha
  obtain ⟨h3, h4⟩ := h2 a ha
  refine ⟨h3, ?_⟩
  intro inputs hin
  obtain ⟨-, vals, v1, v2, v3, v4, v5⟩ := expand_values hR N hN inputs hin
  refine ⟨vals, v1, v2, v5, v4, ?_⟩
  intro m c
  rw [h4 (N.sem R) inputs m c hin, v3]

/-! ### A concrete network -/

/-- Exact kernels. -/
noncomputable def exRt : Rt where
  rnd := XC.roundR
  mul := fun p x y => XC.quantR ⟨p.outputScale, p.outputZeroPoint⟩ (p.lhsScale * (x - p.lhsZeroPoint) * (p.rhsScale * (y - p.rhsZeroPoint)))
  cfg := Conv.defaultCfg
  lib := Conv.exactLib
  r := Conv.exactLib.round
  redRound := Conv.exactLib.round
  scratchSize := fun _ => 64
  poolScratch := fun _ => 64
  scratch := fun _ => List.replicate 64 7
  weights := fun lo => lo.mb.filter.map toByte
  muls := fun lo => lo.mb.bias.flatMap le32
  conv := fun lo oh ow ins => bytesOf ⟨[1, oh, ow, lo.oc], 1⟩ fun idx =>
    [toByte (lo.run Conv.exactLib (tensorOf ⟨[1, lo.ih, lo.iw, lo.ic], 1⟩ (ins.getD 0 [])) idx)]
  tflConv := fun t l ins => bytesOf ⟨[1, l.oh, l.ow, l.oc], 1⟩ fun idx =>
    [toByte (({ l with src := [] } : Conv.Compile.Leaf).value (Conv.Compile.rqT t Conv.exactLib.round) t.zpi
      (tensorOf ⟨[1, l.ih, l.iw, l.ic], 1⟩ (ins.getD 0 [])) idx)]
  cts := fun _ d => if d = 0 then [] else [(0, d)]
  threads := 1
  maxPool := fun k oh ow ins => bytesOf ⟨[1, oh, ow, k.inDepth], 1⟩ fun idx =>
    [toByte (((k.reads (idx.getD 1 0) (idx.getD 2 0) (idx.getD 3 0)).map fun i => s8 ((ins.getD 0 []).getD i 0)).max?.getD 0)]
  phaseScratch := fun _ _ => 32
  phase := fun lo fc _ oh ow _ ins => bytesOf ⟨[1, oh, ow, lo.oc], 1⟩ fun idx =>
    [if idx.getD 1 0 % fc.strideH = fc.subH ∧ idx.getD 2 0 % fc.strideW = fc.subW then
      toByte (Conv.Compile.phaseRun Conv.exactLib lo fc ((ins.getD 0 []).map s8) (idx.getD 1 0, idx.getD 2 0, idx.getD 3 0))
    else (ins.getD 3 []).getD ((idx.getD 1 0 * ow + idx.getD 2 0) * lo.oc + idx.getD 3 0) 0]
  ext := fun _ _ => []
  b := exB
  bin := exBinLib
  lib16 := Conv.Compile.exactLib16
  expand16 := fun w => w.flatMap fun b => bytes16 (s8 b)
  conv16 := fun lo oh ow ins => bytesOf ⟨[1, oh, ow, lo.oc], 2⟩ fun idx =>
    bytes16 (lo.run16 Conv.Compile.exactLib16 (tensor16 ⟨[1, lo.ih, lo.iw, lo.ic], 2⟩ (ins.getD 0 [])) idx)
  tflConv16 := fun t l ins => bytesOf ⟨[1, l.oh, l.ow, l.oc], 2⟩ fun idx =>
    bytes16 (({ l with src := [] } : Conv.Compile.Leaf).value (Conv.Compile.rqT16 t Conv.exactLib.round) t.zpi
      (tensor16 ⟨[1, l.ih, l.iw, l.ic], 2⟩ (ins.getD 0 [])) idx)

theorem exRt_phase_get (lo : Conv.Lowered) (fc : Conv.FakeConv) (rs : List Threads.Region) (oh ow : Nat) (ch : Bool) (ins : List (List Byte)) (y x o : Nat)
    (hy : y < oh) (hx : x < ow) (ho : o < lo.oc) : (exRt.phase lo fc rs oh ow ch ins).getD ((y * ow + x) * lo.oc + o) 0 =
      if y % fc.strideH = fc.subH ∧ x % fc.strideW = fc.subW then toByte (Conv.Compile.phaseRun Conv.exactLib lo fc ((ins.getD 0 []).map s8) (y, x, o))
      else (ins.getD 3 []).getD ((y * ow + x) * lo.oc + o) 0 := by
  have h1 := tensorOf_bytes ⟨[1, oh, ow, lo.oc], 1⟩ rfl (fun idx => if idx.getD 1 0 % fc.strideH = fc.subH ∧ idx.getD 2 0 % fc.strideW = fc.subW then
      toByte (Conv.Compile.phaseRun Conv.exactLib lo fc ((ins.getD 0 []).map s8) (idx.getD 1 0, idx.getD 2 0, idx.getD 3 0))
    else (ins.getD 3 []).getD ((idx.getD 1 0 * ow + idx.getD 2 0) * lo.oc + idx.getD 3 0) 0) [0, y, x, o] (by simp [InShape]; omega)
  rw [tensorOf4] at h1
  simp only [List.getD_cons_succ, List.getD_cons_zero] at h1
  have := congrArg toByte h1
  rw [toByte_s8, toByte_s8] at this
  exact this

theorem exRt_ok : exRt.OK fun _ => True where
  rnd := XC.roundR_near
  mul := fun p x y _ _ _ => ⟨quantR_range _ _, by simp [exRt]⟩
  lib := Conv.exactLib_faithful
  thr := by norm_num [exRt, Conv.defaultCfg]
  fac := by norm_num [exRt, Conv.defaultCfg]
  r := Conv.exactLib_faithful.round
  redRound := Conv.exactLib_faithful.round
  conv := fun _ _ _ _ _ => rfl
  tflConv := fun _ _ _ => rfl
  split := Conv.C55_example.2.2.1
  threads := le_refl _
  b := exB_ok
  bin := exBinLib_ok
  lib16 := Conv.Compile.exactLib16_ok
  expand16 := by
    intro w
    show (w.flatMap fun b => bytes16 (s8 b)).length = _
    rw [List.length_flatMap]
    simp [bytes16]
  conv16 := fun _ _ _ _ => rfl
  tflConv16 := fun _ _ _ => rfl
  phase := by
    intro lo fc rs oh ow ch data rest
    refine ⟨?_, ?_⟩
    · show (bytesOf _ _).length = _
      rw [length_bytesOf _ _ (fun _ => rfl)]
      simp [Ty.size, Nat.mul_assoc]
    · intro y x o hy hx ho hph _
      rw [exRt_phase_get _ _ _ _ _ _ _ y x o hy hx ho, if_pos hph, s8_toByte]
      · rfl
      · unfold Conv.Compile.phaseRun clamp
        dsimp only
        omega
  phaseKeeps := by
    intro lo fc rs oh ow data prev rest y x o hy hx ho hph
    rw [exRt_phase_get _ _ _ _ _ _ _ y x o hy hx ho, if_neg hph]
    rfl
  maxPool := by
    intro k oh ow data rest
    have hl : (exRt.maxPool k oh ow (data :: rest)).length = oh * ow * k.inDepth := by
      show (bytesOf _ _).length = _
      rw [length_bytesOf _ _ (fun _ => rfl)]
      simp [Ty.size, Nat.mul_assoc]
    refine ⟨hl, ?_⟩
    intro y x c hy hx hc _ hne _
    obtain ⟨v, hv⟩ : ∃ v, ((k.reads y x c).map fun i => s8 (data.getD i 0)).max? = some v := by
      cases h : ((k.reads y x c).map fun i => s8 (data.getD i 0)).max? with
      | none => rw [List.max?_eq_none_iff] at h; simp [hne] at h
      | some v => exact ⟨v, rfl⟩
    have hm := List.max?_eq_some_iff.1 hv
    have hval : s8 ((exRt.maxPool k oh ow (data :: rest)).getD ((y * ow + x) * k.inDepth + c) 0) = v := by
      have h1 := tensorOf_bytes ⟨[1, oh, ow, k.inDepth], 1⟩ rfl (fun idx => toByte (((k.reads (idx.getD 1 0) (idx.getD 2 0) (idx.getD 3 0)).map
        fun i => s8 (data.getD i 0)).max?.getD 0)) [0, y, x, c] (by simp [InShape]; omega)
      rw [tensorOf_unflat] at h1
      simp only [List.getD_cons_succ, List.getD_cons_zero] at h1
      rw [hv, Option.getD_some, s8_toByte (by obtain ⟨i, -, rfl⟩ := List.mem_map.1 hm.1; exact s8_range _)] at h1
      unfold Conv.unflat at h1
      rw [Conv.ravel4] at h1
      rw [← h1, ← getD_map_s8]
      simp only [Nat.zero_mul, Nat.zero_add]
      rfl
    rw [hval]
    unfold Conv.XCMaxPool.Gives
    obtain ⟨h1, h2⟩ := hm
    constructor
    · obtain ⟨i, hi, e⟩ := List.mem_map.1 h1
      exact ⟨i, hi, e⟩
    · rintro u ⟨i, hi, rfl⟩
      exact h2 _ (List.mem_map.2 ⟨i, hi, rfl⟩)

noncomputable def exQ (s : ℝ) (z : ℤ) : XC.QI8 := ⟨s, z⟩

theorem exQ_ok {s : ℝ} {z : ℤ} (hs : 0 < s) (hz : -128 ≤ z ∧ z ≤ 127) : QOK (exQ s z) := ⟨hs, hz⟩

/-- The pools, the layer and the types at the end of the example. -/
def exMax : Conv.MaxPool := { fh := 2, fw := 2, sh := 1, sw := 1, padding := .valid, act := .none, h := 3, w := 3, depth := 6, oh := 2, ow := 2 }
def exAvg : Conv.AvgPool := ⟨2, 2, 1, 1, .valid⟩
def exFC : Conv.FC := ⟨2, 6, [1, -2, 3, -4, 5, -6, 7, -8, 9, -10, 11, -12], .perTensor (1 / 8) 0, some ⟨[10, -20], .perTensor (1 / 1000) 0⟩⟩
def exT2 : Conv.Compile.Types := ⟨1 / 40, -128, 1 / 20, -128, .relu⟩
def exT3 : Conv.Compile.Types := ⟨1 / 20, -128, 1 / 10, 5, .none⟩

/-- A convolution with RELU, a multiplication with a broadcast constant, a hyperbolic tangent, an addition with RELU6; then a maximum pool,
an average pool with RELU, a reshape and a fully connected layer; and the mean and the sum of the result of the addition over two axes. -/
noncomputable def exampleQ (g g2 g3 : Conv.Compile.Net) : QNetwork where
  inputs := [⟨[1, 5, 5, 3], 1⟩]
  nodes := [⟨.conv Conv.Compile.exTypes Conv.Compile.exLeaf g, [0], ⟨[1, 3, 3, 6], 1⟩⟩,
    ⟨.base (.const [1, 2, 3, 4, 5, 6]), [], ⟨[6], 1⟩⟩,
    ⟨.binary .mul .none (exQ (1 / 5) 0) (exQ (1 / 10) 3) (exQ (1 / 4) 1), [1, 2], ⟨[1, 3, 3, 6], 1⟩⟩,
    ⟨.activation .tanh (exQ (1 / 4) 1) (exQ (1 / 128) 0), [3], ⟨[1, 3, 3, 6], 1⟩⟩,
    ⟨.binary .add .relu6 (exQ (1 / 4) 1) (exQ (1 / 128) 0) (exQ (6 / 255) (-128)), [3, 4], ⟨[1, 3, 3, 6], 1⟩⟩,
    ⟨.maxPool exMax, [5], ⟨[1, 2, 2, 6], 1⟩⟩,
    ⟨.avgPool exT2 exAvg 2 2 1 1 6 g2, [6], ⟨[1, 1, 1, 6], 1⟩⟩,
    ⟨.base .reshape, [7], ⟨[1, 6], 1⟩⟩,
    ⟨.fc exT3 exFC 1 g3, [8], ⟨[1, 2], 1⟩⟩,
    ⟨.reduce false ⟨6 / 255, -128, -128, 127⟩ ⟨1 / 40, -128, -128, 127⟩ [1, 2] [1, 3, 3, 6], [5], ⟨[1, 6], 1⟩⟩,
    ⟨.reduce true ⟨6 / 255, -128, -128, 127⟩ ⟨1 / 4, -128, -128, 127⟩ [1, 2] [1, 3, 3, 6], [5], ⟨[1, 1, 1, 6], 1⟩⟩]
  outputs := [9, 10, 11]

theorem exampleQ_ok (g g2 g3 : Conv.Compile.Net) (hg : Conv.Compile.Pipeline 100 (.conv Conv.Compile.exLeaf) g)
    (hg2 : Conv.Compile.Pipeline 8192 (.conv (Conv.Compile.poolLeaf exAvg 2 2 1 1 6)) g2)
    (hg3 : Conv.Compile.Pipeline 8192 (.conv (Conv.Compile.fcLeaf exFC 1)) g3) : (exampleQ g g2 g3).OK exRt fun _ => True := by
  have hB1 : TFL.Broadcastable [1, 3, 3, 6] [1, 3, 3, 6] := by unfold TFL.Broadcastable; decide
  have hB2 : TFL.Broadcastable [6] [1, 3, 3, 6] := by unfold TFL.Broadcastable; decide
  refine ⟨?_, by simp [exampleQ]⟩
  refine ⟨by simp [exampleQ], ?_, by simp, ⟨rfl, rfl⟩, by simp [exampleQ], ?_, by simp [exampleQ], ?_, by simp [exampleQ], ?_,
    by simp [exampleQ], ?_, by simp [exampleQ], ?_, by simp [exampleQ], ?_, by simp [exampleQ], ?_, by simp [exampleQ], ?_, by simp [exampleQ], ?_, trivial⟩
  · refine ⟨_, _, rfl, rfl, rfl, ⟨by norm_num [Conv.Compile.exTypes], by norm_num [Conv.Compile.exTypes], by decide, by decide⟩, rfl, Conv.Compile.exLeaf_ok,
      by decide, by decide, by decide, Conv.Compile.C80_example.2.1, Conv.Compile.C80_example.1, 100, hg⟩
  · refine ⟨_, _, _, _, rfl, rfl, rfl, rfl, hB1, hB2, exQ_ok (by norm_num) (by decide),
      exQ_ok (by norm_num) (by decide), exQ_ok (by norm_num) (by decide), trivial, (fun h => by cases h)⟩
  · refine ⟨_, _, rfl, rfl, rfl, exQ_ok (by norm_num) (by decide), exQ_ok (by norm_num) (by decide), ?_⟩
    intro q h1 h2
    refine (XC.apply_bound _ _).trans ?_
    have hq : |(q : ℝ) - 1| ≤ 129 := by
      have : |q - 1| ≤ 129 := by rw [abs_le]; omega
      exact_mod_cast this
    refine max_le ?_ (by norm_num [exQ])
    unfold XC.QI8.deq exQ
    dsimp only
    rw [abs_mul, abs_of_pos (by norm_num)]
    push_cast
    nlinarith
  · refine ⟨_, _, _, _, rfl, rfl, rfl, rfl, hB1, hB1, exQ_ok (by norm_num) (by decide),
      exQ_ok (by norm_num) (by decide), exQ_ok (by norm_num) (by decide), ?_, (fun _ => by norm_num [exQ])⟩
    constructor <;> norm_num [exQ]
  · exact ⟨_, _, rfl, rfl, rfl, by constructor <;> decide, rfl, rfl⟩
  · exact ⟨_, _, rfl, rfl, rfl, ⟨by norm_num [exT2], by norm_num [exT2], by decide, by decide⟩, .inr ⟨rfl, rfl⟩, rfl, by decide, by decide, by decide,
      by decide, by decide, by decide, by decide, by decide, by decide, by decide, by decide, by decide, by decide, 8192, hg2⟩
  · exact ⟨_, _, rfl, rfl⟩
  · refine ⟨_, _, [], rfl, rfl, rfl, rfl, rfl, rfl, ⟨by norm_num [exT3], by norm_num [exT3], by decide, by decide⟩, .inl rfl, rfl, by decide, by decide,
      trivial, ?_, ?_, 8192, hg3⟩
    · intro b hb
      have := Option.some.inj hb
      subst this
      exact ⟨rfl, trivial⟩
    · intro o _
      refine ⟨rfl, by norm_num [exFC, Conv.QP.scale], by norm_num [exFC, Conv.QP.scale, exRt, Conv.defaultCfg], ?_⟩
      intro o' _
      norm_num [exFC, Conv.QP.scale, exRt, Conv.defaultCfg]
  · exact ⟨_, _, rfl, rfl, rfl, by decide, by norm_num, by norm_num, rfl, rfl, by decide, by decide, by decide⟩
  · exact ⟨_, _, rfl, rfl, rfl, by decide, by norm_num, by norm_num, rfl, rfl, by decide, by decide, by decide⟩

/-- **C84** applies to the example: the passes split its convolution into two, they have a result for the pool and the layer, and the compiled
function has a plan. -/
theorem C84_example : ∃ s l1 l2 g2 g3 a, Conv.Compile.Pipeline 100 (.conv Conv.Compile.exLeaf) (.slice s (.cat 4 (.conv l1) (.cat 4 (.conv l2) .nil))) ∧
    (exampleQ (.slice s (.cat 4 (.conv l1) (.cat 4 (.conv l2) .nil))) g2 g3).OK exRt (fun _ => True) ∧
    planMemory (((exampleQ (.slice s (.cat 4 (.conv l1) (.cat 4 (.conv l2) .nil))) g2 g3).expand exRt).func fun _ => false) = some a := by
  obtain ⟨-, -, s, l1, l2, hg, -⟩ := Conv.Compile.C80_example
  obtain ⟨_, _, g2, _, _, _, _, _, _, hg2⟩ := Conv.Compile.C80_reached 8192 (Conv.Compile.poolLeaf exAvg 2 2 1 1 6)
    (Conv.Compile.poolLeaf_ok _ rfl 2 2 1 1 6 (by decide) (by decide) (by decide) (by decide) (by decide) (by decide) (by decide) (by decide) (by decide)
      (by decide) (by decide))
  obtain ⟨_, _, g3, _, _, _, _, _, _, hg3⟩ := Conv.Compile.C80_reached 8192 (Conv.Compile.fcLeaf exFC 1)
    (fcLeaf_ok exFC 1 (by decide) rfl (by decide) trivial (by
      intro b hb
      have := Option.some.inj hb
      subst this
      exact ⟨rfl, trivial⟩) (fun _ _ => rfl) (fun _ _ => by norm_num [exFC, Conv.QP.scale]))
  have hok := exampleQ_ok _ g2 g3 hg hg2 hg3
  obtain ⟨a, ha⟩ := (C84_quantised_network exRt _ exRt_ok _ hok fun _ => false).1 0 ⟨by
    show 0 < List.length _
    simp [Func.decls, Network.func, toFunc, QNetwork.expand, exampleQ], by
    simp [Func.decl, Func.decls, Network.func, toFunc, QNetwork.expand, exampleQ]⟩
  exact ⟨s, l1, l2, g2, g3, a, hg, hok, ha⟩

/-- A `VALID` transposed convolution from 2x3 to 5x7 pixels, with bias and RELU, and a `SAME` one to 10x14 pixels. -/
def exTS : Conv.ConvOp := { Conv.Compile.exTC with padding := .same, bias := none }

def exampleTC : QNetwork where
  inputs := [⟨[1, 2, 3, 4], 1⟩]
  nodes := [⟨.tconv Conv.Compile.exTTypes 2 3 5 7 Conv.Compile.exTC (Conv.refReorder Conv.Compile.exTC.filter 2 2), [0], ⟨[1, 5, 7, 4], 1⟩⟩,
    ⟨.tconv ⟨1 / 5, -128, 1 / 3, 7, .none⟩ 5 7 10 14 exTS (Conv.refReorder exTS.filter 2 2), [1], ⟨[1, 10, 14, 4], 1⟩⟩]
  outputs := [2]

/-- The hypotheses of C84 are met by a network of transposed convolutions; the first becomes a pad and four phases, the second a pad, four
phases and a slice. -/
theorem C84_transposed_example : exampleTC.OK exRt (fun _ => True) ∧ (tplan 5 7 10 14 exTS).slice = some ([0, 0, 0, 0], [1, 10, 14, 4]) ∧
    (Conv.fakeConvs false 3 Conv.Compile.exTC (Conv.refReorder Conv.Compile.exTC.filter 2 2)).length = 4 ∧ (tpads 5 7 4 (Conv.refReorder exTS.filter 2 2)).length = 1 ∧
    ∃ a, planMemory ((exampleTC.expand exRt).func fun _ => false) = some a := by
  have hscale : ∀ o o' : Nat, Conv.Compile.exTC.filter.qp.scale o ≤ exRt.cfg.factor * Conv.Compile.exTC.filter.qp.scale o' := by
    intro o o'
    norm_num [Conv.Compile.exTC, Conv.QP.scale, exRt, Conv.defaultCfg]
  have hok : exampleTC.OK exRt (fun _ => True) := by
    refine ⟨⟨by simp [exampleTC], ?_, by simp [exampleTC], ?_, trivial⟩, by simp [exampleTC]⟩
    · refine ⟨_, _, rfl, rfl, rfl, ⟨by norm_num [Conv.Compile.exTTypes], by norm_num [Conv.Compile.exTTypes], by decide, by decide⟩, .inr ⟨rfl, rfl⟩, by decide,
        by decide, by decide, by decide, ⟨by decide, by decide, by decide, Conv.refReorder_spec _ _ _, by decide, by decide, by decide, by decide, fun _ _ => rfl, fun o _ o' _ => hscale o o',
        Conv.Compile.allLowered_exact rfl (by decide) (by decide)⟩, (fun h => by cases h)⟩
    · refine ⟨_, _, rfl, rfl, rfl, ⟨by norm_num, by norm_num, by decide, by decide⟩, .inl rfl, by decide,
        by decide, by decide, by decide, ⟨by decide, by decide, by decide, Conv.refReorder_spec _ _ _, by decide, by decide, by decide, by decide, fun _ _ => rfl, fun o _ o' _ => hscale o o',
        Conv.Compile.allLowered_exact rfl (by decide) (by decide)⟩, (fun _ => by decide)⟩
  refine ⟨hok, by decide, by decide, by decide, ?_⟩
  exact (C84_quantised_network exRt _ exRt_ok _ hok fun _ => false).1 0 ⟨by
    show 0 < List.length _
    simp [Func.decls, Network.func, toFunc, QNetwork.expand, exampleTC], by
    simp [Func.decl, Func.decls, Network.func, toFunc, QNetwork.expand, exampleTC]⟩

end Verif.Net
