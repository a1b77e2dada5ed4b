import Verif.Net.QConv
/-! C84: pools, fully connected layers and reductions in the expanded network. -/
namespace Verif.Net
open Verif.Tensor Verif.Move Verif.MemPlan Verif.Quant Verif.Conv.Compile

variable {sem : Sem} {iv : List (Ty × List Byte)}

theorem tensorOf_unflat (s : List Nat) (D : List Byte) : tensorOf ⟨s, 1⟩ D = Conv.unflat s (D.map s8) := by
  funext idx
  unfold tensorOf elemAt Conv.unflat
  dsimp only
  rw [fit_head, Nat.mul_one, List.getD_eq_getElem?_getD, List.getElem?_map]
  by_cases h : ravel s idx < D.length
  · rw [List.drop_eq_getElem_cons h, List.getElem?_eq_getElem h]
    rfl
  · rw [List.drop_eq_nil_of_le (by omega), List.getElem?_eq_none (by omega)]
    rfl

theorem getD_map_s8 (D : List Byte) (k : Nat) : (D.map s8).getD k 0 = s8 (D.getD k 0) := by
  rw [List.getD_eq_getElem?_getD, List.getElem?_map, List.getD_eq_getElem?_getD]
  cases D[k]? <;> rfl

theorem flat_tensorOf (s : List Nat) (D : List Byte) (h : D.length = s.prod) : flat s (tensorOf ⟨s, 1⟩ D) = D.map s8 := by
  rw [tensorOf_unflat]
  apply List.ext_getElem
  · rw [length_flat, List.length_map, h]
  · intro k h1 h2
    have hk : k < s.prod := by rw [length_flat] at h1; exact h1
    unfold Conv.unflat
    have e : flat s (fun idx => (D.map s8).getD (ravel s idx) 0) = (List.range s.prod).map fun k => (D.map s8).getD k 0 := by
      rw [← ravel_flat, XC.flat_map]
    simp only [e, List.getElem_map, List.getElem_range]
    rw [List.getD_eq_getElem?_getD, List.getElem?_eq_getElem h2, Option.getD_some, List.getElem_map]

/-- A reshape keeps the bytes. -/
theorem reshape_estep {e : Exp} (hg : EGood iv e) {v : Nat} {a ty : Ty} {D : List Byte} (h : EHolds sem iv e v a D) (hs : a.size = ty.size) :
    EStep sem iv e (e.emit ⟨.reshape, [v], ty⟩) ty D := by
  have hl := h.len
  have he : eval sem .reshape ty [(a, D)] = D := by
    show bytesOf ty (elemAt ty (bytesOf a (elemAt a D))) = D
    rw [bytesOf_elemAt _ _ hl, bytesOf_elemAt _ _ (hl.trans hs)]
  have := emit_estep (sem := sem) hg .reshape ty [(v, a, D)] (by simpa using h) ⟨a, ((e.ctx iv).getD v (⟨[], 0⟩, false)).2, by
    have hc := h.ctx hg
    simp only [List.map_cons, List.map_nil, List.cons.injEq, and_true]
    rw [← hc], hs⟩ (by simp only [List.map_cons, List.map_nil]; rw [he, hl, hs])
  simp only [List.map_cons, List.map_nil] at this
  rwa [he] at this

/-- All operators that a convolution has become. -/
theorem conv_estep {R : Rt} {dom : MulArgs → Prop} (hR : R.OK dom) (t : Types) (ht : t.OK) (hact : t.act = .none ∨ t.act = .relu) (j : Nat) (l : Leaf)
    (hsrc : l.src = []) (ok : l.OK [1, l.ih, l.iw, l.ic]) (hic : 1 ≤ l.ic) (hoh : 1 ≤ l.oh) (how : 1 ≤ l.ow) {limit : Nat} {g : Conv.Compile.Net}
    (hp : Pipeline limit (.conv l) g) {e : Exp} (hg : EGood iv e) (v : Nat) {B : List Byte} (hh : EHolds sem iv e v ⟨[1, l.ih, l.iw, l.ic], 1⟩ B)
    (hsem : ∀ m ins, sem (Nat.pair j m) ins = graphKernel R t g j m ins) :
    ∃ D, EStep sem iv e (expandConv R t j l.oh l.ow g 0 e v) ⟨[1, l.oh, l.ow, l.oc], 1⟩ D ∧
      ∀ idx, InShape [1, l.oh, l.ow, l.oc] idx → tensorOf ⟨[1, l.oh, l.ow, l.oc], 1⟩ D idx =
        g.eval (fun l' => l'.run R.cfg R.lib R.r t (tensorOf ⟨[1, l.ih, l.iw, l.ic], 1⟩ B)) idx := by
  have hsh : Shaped [1, l.ih, l.iw, l.ic] l.oh l.ow (.conv l) := ⟨ok, rfl, rfl, by intro p hp; rw [hsrc] at hp; cases hp⟩
  obtain ⟨s1, s2, s3⟩ := pipeline_shaped rfl hp hsh
  obtain ⟨D, hD, eD⟩ := (net_estep (sem := sem) hR t ⟨ht.inS, ht.outS, ht.zpi, ht.zpo, hact⟩ j (s0 := [1, l.ih, l.iw, l.ic]) rfl (by
    intro n hn
    have := ok.ih
    have := ok.iw
    simp only [List.mem_cons, List.not_mem_nil, or_false] at hn
    omega) hoh how g 0 e v B hg hh s1 (by
    intro k l' hl'
    refine ⟨fun ins => ?_, fun ins => ?_⟩
    · rw [hsem]
      unfold graphKernel
      rw [show 3 * (0 + k) / 3 = k by omega, hl']
      dsimp only
      rw [if_pos (by omega)]
    · rw [hsem]
      unfold graphKernel
      rw [show (3 * (0 + k) + 2) / 3 = k by omega, hl']
      dsimp only
      rw [if_neg (by omega), if_neg (by omega)])) s3
  rw [s2] at hD eD
  exact ⟨D, hD, eD⟩

/-! ### Fully connected layers -/

theorem fcLeaf_ok (f : Conv.FC) (B : Nat) (hB : 1 ≤ B) (hdata : f.data.length = f.o * f.c) (hc : 0 < f.c) (hq : f.qp.Fits f.o)
    (hb : ∀ b, f.bias = some b → b.data.length = f.o ∧ b.qp.Fits f.o) (hz : ∀ o < f.o, f.qp.zp o = 0) (hpos : ∀ o < f.o, 0 < f.qp.scale o) :
    (fcLeaf f B).OK [1, 1, B, f.c] := by
  refine ⟨rfl, rfl, fun _ => ⟨?_, hc, hq, hb⟩, (fun h => by cases h), le_refl _, le_refl _, le_refl _, le_refl _, le_refl _, le_refl _, le_refl _, hB, ?_, ?_,
    hpos, hz, ⟨(by show ((1 : Nat) : Int) * ((1 : Nat) : Int) < 32768; decide), (by show ((1 : Nat) : Int) * ((1 : Nat) : Int) < 32768; decide)⟩⟩
  · unfold Conv.Filter.OK Conv.Filter.shape fcLeaf Conv.fcToConv
    simp [hdata]
  · show ((1 : Nat) : Int) = Conv.outSize .valid 1 1 1 1
    decide
  · show (B : Int) = Conv.outSize .valid B 1 1 1
    unfold Conv.outSize Image.eff
    dsimp only
    push_cast
    omega

theorem fc_estep {R : Rt} {dom : MulArgs → Prop} (hR : R.OK dom) (t : Types) (ht : t.OK) (hact : t.act = .none ∨ t.act = .relu) (j : Nat) (f : Conv.FC) (B : Nat)
    (hB : 1 ≤ B) (hdata : f.data.length = f.o * f.c) (hc : 1 ≤ f.c) (hq : f.qp.Fits f.o)
    (hb : ∀ b, f.bias = some b → b.data.length = f.o ∧ b.qp.Fits f.o)
    (hs : ∀ o < f.o, f.qp.zp o = 0 ∧ 0 < f.qp.scale o ∧ f.qp.scale o ≤ R.cfg.factor ∧ ∀ o' < f.o, f.qp.scale o ≤ R.cfg.factor * f.qp.scale o')
    {limit : Nat} {g : Conv.Compile.Net} (hp : Pipeline limit (.conv (fcLeaf f B)) g) (pre : List Nat) (hpre : pre.prod = 1) (ty : Ty) (htd : ty.d = 1)
    (hsz : ty.shape.prod = B * f.o) (hout : Conv.fcOutputShape ty.shape = ty.shape) {e : Exp} (hg : EGood iv e) (v : Nat) {D : List Byte}
    (hh : EHolds sem iv e v ⟨pre ++ [B, f.c], 1⟩ D) (hsem : ∀ m ins, sem (Nat.pair j m) ins = graphKernel R t g j m ins) :
    ∃ D', EStep sem iv e (
      let x := e.emit ⟨.reshape, [v], ⟨(Conv.fcInputShape (pre ++ [B, f.c])).getD [], 1⟩⟩
      let y := expandConv R t j 1 B g 0 x.1 x.2
      y.1.emit ⟨.reshape, [y.2], ⟨Conv.fcOutputShape ty.shape, ty.d⟩⟩) ty D' ∧ D'.length = B * f.o ∧ ∀ k < B * f.o,
        Near R (s8 (D'.getD k 0)) ((Conv.fullyConnected (rqT t R.r) t.zpi f B (D.map s8)).getD k 0) := by
  have hlen : D.length = (pre ++ [B, f.c]).prod := by
    have := hh.len
    unfold Ty.size at this
    rw [this, Nat.mul_one]
  have hprod : (pre ++ [B, f.c]).prod = B * f.c := by rw [List.prod_append, hpre]; simp
  obtain ⟨s, hs', hC⟩ := C82_fully_connected_compiled R.cfg R.lib hR.lib hR.thr R.r hR.r t ht.inS ht.outS ht.zpi ht.zpo hact f hdata hc hq hb (fun o h => (hs o h).1)
    (fun o h => (hs o h).2.1) (fun o h => (hs o h).2.2) pre hpre B hB (D.map s8) (by rw [List.length_map]; exact hlen) (by
      intro x hx
      obtain ⟨b, _, rfl⟩ := List.mem_map.1 hx
      exact s8_range b) limit g hp
  have hs4 : s = [1, 1, B, f.c] := by
    unfold Conv.fcInputShape at hs'
    rw [if_pos (by simp)] at hs'
    have := Option.some.inj hs'
    rw [← this]
    simp
  subst hs4
  dsimp only at hC ⊢
  rw [hs', Option.getD_some, hout]
  obtain ⟨x, hx⟩ : ∃ x, x = e.emit ⟨.reshape, [v], ⟨[1, 1, B, f.c], 1⟩⟩ := ⟨_, rfl⟩
  rw [← hx]
  have h1 : EStep sem iv e x ⟨[1, 1, B, f.c], 1⟩ D := by
    rw [hx]
    refine reshape_estep hg hh ?_
    show (pre ++ [B, f.c]).prod * 1 = [1, 1, B, f.c].prod * 1
    rw [hprod]
    simp
  obtain ⟨D2, h2, e2⟩ := conv_estep hR t ht hact j (fcLeaf f B) rfl (fcLeaf_ok f B hB hdata hc hq hb (fun o h => (hs o h).1) (fun o h => (hs o h).2.1)) hc (le_refl _)
    hB hp h1.good x.2 (B := D) h1.holds hsem
  have h2' : EStep sem iv x.1 (expandConv R t j 1 B g 0 x.1 x.2) ⟨[1, 1, B, f.o], 1⟩ D2 := h2
  have h3 : EStep sem iv (expandConv R t j 1 B g 0 x.1 x.2).1 ((expandConv R t j 1 B g 0 x.1 x.2).1.emit ⟨.reshape, [(expandConv R t j 1 B g 0 x.1 x.2).2], ty⟩) ty D2 := by
    refine reshape_estep h2'.good h2'.holds ?_
    unfold Ty.size
    dsimp only
    rw [htd, hsz]
    simp
  have hD2 : D2.length = B * f.o := by
    have := h3.holds.len
    unfold Ty.size at this
    rw [this, htd, hsz, Nat.mul_one]
  have hty : (⟨ty.shape, ty.d⟩ : Ty) = ty := rfl
  rw [hty]
  refine ⟨D2, (h1.trans h2').trans h3, hD2, ?_⟩
  obtain ⟨c1, c2, c3⟩ := hC
  intro k hk
  have hgot : Tensor.flat [1, 1, B, f.o] (g.eval fun l => l.run R.cfg R.lib R.r t (Conv.unflat [1, 1, B, f.c] (D.map s8))) = D2.map s8 := by
    rw [← flat_tensorOf [1, 1, B, f.o] D2 (by rw [hD2]; simp)]
    apply flat_congr
    intro idx hidx
    rw [← tensorOf_unflat]
    exact (e2 idx hidx).symm
  have hk1 : k < (D2.map s8).length := by rw [List.length_map, hD2]; exact hk
  have := c3 k (by rw [hgot]; exact hk1) (by rw [c2]; exact hk)
  simp only [hgot] at this
  rw [List.getElem_map] at this
  have e1 : D2.getD k 0 = D2[k]'(by rw [hD2]; exact hk) := by rw [List.getD_eq_getElem?_getD, List.getElem?_eq_getElem (by rw [hD2]; exact hk), Option.getD_some]
  have e3 : (Conv.fullyConnected (rqT t R.r) t.zpi f B (D.map s8)).getD k 0 = (Conv.fullyConnected (rqT t R.r) t.zpi f B (D.map s8))[k]'(by rw [c2]; exact hk) := by
    rw [List.getD_eq_getElem?_getD, List.getElem?_eq_getElem (by rw [c2]; exact hk), Option.getD_some]
  rw [e1, e3]
  exact this

/-! ### Maximum pools -/

theorem maxPool_estep {R : Rt} {dom : MulArgs → Prop} (hR : R.OK dom) (j : Nat) (p : Conv.MaxPool) (ok : p.OK) (hv : p.padding = .valid) {e : Exp} (hg : EGood iv e)
    (v : Nat) {D : List Byte} (hh : EHolds sem iv e v ⟨[1, p.h, p.w, p.depth], 1⟩ D)
    (hsem : ∀ m ins, sem (Nat.pair j m) ins = (QKind.maxPool p).kernel R j m ins) :
    ∃ D', EStep sem iv e (match Conv.lowerMaxPool R.cts R.threads p with
        | some k => expandScratch e ((R.poolScratch (p.fw * p.fh) + 32) * k.regions.length) (Nat.pair j 0) (Nat.pair j 1) [v] ⟨[1, p.oh, p.ow, p.depth], 1⟩
        | none => (e, v)) ⟨[1, p.oh, p.ow, p.depth], 1⟩ D' ∧
      ∀ y x c, y < p.oh → x < p.ow → c < p.depth →
        Conv.IsMaxPool p (tensorOf ⟨[1, p.h, p.w, p.depth], 1⟩ D) 0 y x c (tensorOf ⟨[1, p.oh, p.ow, p.depth], 1⟩ D' [0, y, x, c]) := by
  obtain ⟨k, hk, hcov, hval⟩ := Conv.C55_maxpool_valid_partial R.cts hR.split R.threads hR.threads p ok hv
  rw [hk]
  dsimp only
  have hdep : k.inDepth = p.depth := by
    unfold Conv.lowerMaxPool at hk
    obtain ⟨rs, -, rfl⟩ := Option.map_eq_some_iff.1 hk
    rfl
  have hkk : k.kh = p.fh ∧ k.kw = p.fw := by
    unfold Conv.lowerMaxPool at hk
    obtain ⟨rs, -, rfl⟩ := Option.map_eq_some_iff.1 hk
    exact ⟨rfl, rfl⟩
  have hlen : D.length = p.h * p.w * p.depth := by
    have := hh.len
    unfold Ty.size at this
    rw [this]
    simp [Nat.mul_assoc]
  have hneed : ∀ rest, (R.maxPool k p.oh p.ow (D :: rest)).length = p.oh * p.ow * p.depth := by
    intro rest
    rw [(hR.maxPool k p.oh p.ow D rest).1, hdep]
  -- the result does not matter outside the image, but it may depend on the scratch buffer
  obtain ⟨D', hstep, rest, hD'⟩ : ∃ D', EStep sem iv e (expandScratch e ((R.poolScratch (p.fw * p.fh) + 32) * k.regions.length) (Nat.pair j 0) (Nat.pair j 1) [v]
      ⟨[1, p.oh, p.ow, p.depth], 1⟩) ⟨[1, p.oh, p.ow, p.depth], 1⟩ D' ∧ ∃ rest, D' = R.maxPool k p.oh p.ow (D :: rest) := by
    have hkey : ∀ ins, sem (Nat.pair j 0) ins = R.maxPool k p.oh p.ow ins := by
      intro ins
      rw [hsem]
      unfold QKind.kernel
      dsimp only
      rw [hk]
      dsimp only
      rw [if_pos rfl]
    have hl : ∀ rest, (R.maxPool k p.oh p.ow (D :: rest)).length = (⟨[1, p.oh, p.ow, p.depth], 1⟩ : Ty).size := by
      intro rest
      rw [hneed]
      simp [Ty.size, Nat.mul_assoc]
    unfold expandScratch
    generalize (R.poolScratch (p.fw * p.fh) + 32) * k.regions.length = sc
    by_cases hs : 0 < sc
    · rw [if_pos hs]
      have h1 := emit_estep (sem := sem) hg (.other false (Nat.pair j 1)) ⟨[sc], 1⟩ [] (by simp) (by intro h; cases h) (length_eval_other _ _ _ _)
      have h2 := other_estep (sem := sem) h1.good false (Nat.pair j 0) ⟨[1, p.oh, p.ow, p.depth], 1⟩ [(v, _, D), (_, ⟨[sc], 1⟩, _)] (by
          intro z hz
          simp only [List.mem_cons, List.not_mem_nil, or_false] at hz
          rcases hz with rfl | rfl
          · exact hh.mono hg h1.ext
          · exact h1.holds) (by intro h; cases h) (hkey _) (hl _)
      exact ⟨_, h1.trans h2, _, rfl⟩
    · rw [if_neg hs]
      exact ⟨_, other_estep (sem := sem) hg false (Nat.pair j 0) _ [(v, _, D)] (by simpa using hh) (by intro h; cases h) (hkey _) (hl []), [], rfl⟩
  refine ⟨D', hstep, ?_⟩
  intro y x c hy hx hc
  obtain ⟨h1, h2⟩ := hval y x c hy hx hc
  refine (h2 (tensorOf ⟨[1, p.h, p.w, p.depth], 1⟩ D) (fun i => s8 (D.getD i 0)) _ ?_).1 ?_
  · intro iy ix c' hiy hix hc'
    rw [tensorOf_unflat]
    unfold Conv.unflat
    rw [Conv.ravel4, getD_map_s8, Nat.zero_mul, Nat.zero_add]
  · rw [tensorOf_unflat, hD']
    unfold Conv.unflat
    rw [Conv.ravel4, getD_map_s8, Nat.zero_mul, Nat.zero_add]
    have := (hR.maxPool k p.oh p.ow D rest).2 y x c hy hx (by rw [hdep]; exact hc) (by rw [hcov, if_pos ⟨hy, hx, hc⟩]) (by
      intro h
      have hmem : k.addr y x c 0 0 ∈ k.reads y x c := by
        unfold Conv.XCMaxPool.reads
        simp only [List.mem_flatMap, List.mem_map, List.mem_range, hkk.1, hkk.2]
        exact ⟨0, ok.fh, 0, ok.fw, rfl⟩
      rw [h] at hmem
      cases hmem) (by intro i hi; rw [hlen]; exact h1 i hi)
    rw [hdep] at this
    exact this

/-! ### Reductions -/

theorem q_range (r : ℚ → ℤ) (tq : QType) (h1 : tq.lo = -128) (h2 : tq.hi = 127) (v : ℚ) : -128 ≤ tq.q r v ∧ tq.q r v ≤ 127 := by
  unfold QType.q clamp
  rw [h1, h2]
  omega

theorem q_near {r r' : ℚ → ℤ} (hr : Nearest r) (hr' : Nearest r') (tq : QType) (h1 : tq.lo = -128) (h2 : tq.hi = 127) (v : ℚ) : |tq.q r v - tq.q r' v| ≤ 1 := by
  have e1 := hr (v / tq.scale)
  have e2 := hr' (v / tq.scale)
  have : |r (v / tq.scale) - r' (v / tq.scale)| ≤ 1 := by
    have h : |((r (v / tq.scale) - r' (v / tq.scale) : ℤ) : ℚ)| ≤ 1 := by
      push_cast
      rw [abs_le] at *
      constructor <;> linarith
    exact_mod_cast h
  unfold QType.q QType.raw clamp
  rw [h1, h2]
  rw [abs_le] at *
  omega

theorem reduceSpec_range (r : ℚ → ℤ) (sum : Bool) (ti tq : QType) (h1 : tq.lo = -128) (h2 : tq.hi = 127) (axes : List Int) (shape : List Nat) (x : List Nat → ℤ)
    (idx : List Nat) : -128 ≤ reduceSpec r sum ti tq axes shape x idx ∧ reduceSpec r sum ti tq axes shape x idx ≤ 127 := by
  unfold reduceSpec
  split
  · exact q_range _ _ h1 h2 _
  · exact q_range _ _ h1 h2 _

/-- The bytes of the reduction kernel are those of the specification with the kernel's rounding. -/
theorem reduceKernel_eq (R : Rt) (sum : Bool) (ti tq : QType) (hto : 0 < tq.scale) (axes : List Int) (hnd : axes.Nodup) (shape : List Nat)
    (hdef : XC.reduceDims axes shape ≠ .undefined) (data : List Byte) (hd : data.length = shape.prod) :
    ∃ r, (r = R.redRound ∨ r = R.r) ∧ reduceKernel R sum ti tq axes shape data =
      (flat (XC.keptShape (XC.reduced axes) 0 shape) (reduceSpec r sum ti tq axes shape (tensorOf ⟨shape, 1⟩ data))).map toByte := by
  unfold reduceKernel
  cases h : XC.reduceDims axes shape with
  | undefined => exact absurd h hdef
  | noMatch => exact ⟨R.r, .inr rfl, rfl⟩
  | dims s m e =>
    refine ⟨R.redRound, .inl rfl, ?_⟩
    dsimp only
    rw [← flat_tensorOf shape data hd]
    congr 1
    cases sum with
    | true =>
      simp only [if_true]
      rw [XC.C36_sum_partial R.redRound ti tq (ne_of_gt hto) axes hnd shape _ s m e h]
      rfl
    | false =>
      simp only [Bool.false_eq_true, if_false]
      rw [XC.C36_mean_partial R.redRound ti tq (ne_of_gt hto) axes hnd shape _ s m e h]
      rfl

theorem reduce_estep {R : Rt} {dom : MulArgs → Prop} (hR : R.OK dom) (j : Nat) (sum : Bool) (ti tq : QType) (hto : 0 < tq.scale) (hlo : tq.lo = -128) (hhi : tq.hi = 127)
    (axes : List Int) (hnd : axes.Nodup) (shape : List Nat) (hdef : XC.reduceDims axes shape ≠ .undefined) (ty : Ty) (htd : ty.d = 1)
    (hsz : ty.shape.prod = (XC.keptShape (XC.reduced axes) 0 shape).prod) {e : Exp} (hg : EGood iv e) (v : Nat) {D : List Byte} (hh : EHolds sem iv e v ⟨shape, 1⟩ D)
    (hsem : ∀ ins, sem (Nat.pair j 0) ins = reduceKernel R sum ti tq axes shape (ins.getD 0 [])) :
    ∃ D', EStep sem iv e (e.emit ⟨.other false (Nat.pair j 0), [v], ty⟩) ty D' ∧ D'.length = (XC.keptShape (XC.reduced axes) 0 shape).prod ∧
      ∀ idx, InShape (XC.keptShape (XC.reduced axes) 0 shape) idx →
        |tensorOf ⟨XC.keptShape (XC.reduced axes) 0 shape, 1⟩ D' idx - reduceSpec R.r sum ti tq axes shape (tensorOf ⟨shape, 1⟩ D) idx| ≤ 1 := by
  have hlen : D.length = shape.prod := by
    have := hh.len
    unfold Ty.size at this
    rw [this, Nat.mul_one]
  obtain ⟨r, hr, hk⟩ := reduceKernel_eq R sum ti tq hto axes hnd shape hdef D hlen
  have hlk : (reduceKernel R sum ti tq axes shape D).length = (XC.keptShape (XC.reduced axes) 0 shape).prod := by rw [hk, List.length_map, length_flat]
  refine ⟨_, other_estep (sem := sem) hg false (Nat.pair j 0) ty [(v, _, D)] (by simpa using hh) (by intro h; cases h) (hsem _) ?_, hlk, ?_⟩
  · show (reduceKernel R sum ti tq axes shape D).length = _
    rw [hlk, Ty.size, htd, hsz, Nat.mul_one]
  · intro idx hidx
    show |tensorOf _ (reduceKernel R sum ti tq axes shape D) idx - _| ≤ 1
    rw [hk, tensorOf_unflat, List.map_map]
    have hid : (flat (XC.keptShape (XC.reduced axes) 0 shape) (reduceSpec r sum ti tq axes shape (tensorOf ⟨shape, 1⟩ D))).map (s8 ∘ toByte) =
        flat (XC.keptShape (XC.reduced axes) 0 shape) (reduceSpec r sum ti tq axes shape (tensorOf ⟨shape, 1⟩ D)) := by
      rw [XC.flat_map]
      apply flat_congr
      intro i _
      exact s8_toByte (reduceSpec_range r sum ti tq hlo hhi axes shape _ i)
    rw [hid]
    unfold Conv.unflat
    rw [List.getD_eq_getElem?_getD, flat_getElem _ _ idx hidx, Option.getD_some]
    have hrN : Nearest r := by rcases hr with rfl | rfl; exacts [hR.redRound, hR.r]
    unfold reduceSpec
    split
    · exact q_near hrN hR.r tq hlo hhi _
    · exact q_near hrN hR.r tq hlo hhi _

end Verif.Net
