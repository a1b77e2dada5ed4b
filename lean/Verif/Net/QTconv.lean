import Verif.Net.QOps
/-! C84: transposed convolutions in the expanded network. -/
namespace Verif.Net
open Verif.Tensor Verif.Move Verif.MemPlan Verif.Quant Verif.Conv.Compile Verif.Conv

variable {sem : Sem} {iv : List (Ty × List Byte)}

/-- Like `scratch_estep`, for kernels whose result may depend on the scratch buffer. -/
theorem scratch_estep' {e : Exp} (hg : EGood iv e) (sc key skey : Nat) (ty : Ty) (zs : List (Nat × Ty × List Byte))
    (hz : ∀ z ∈ zs, EHolds sem iv e z.1 z.2.1 z.2.2) (hl : ∀ rest, (sem key (zs.map (·.2.2) ++ rest)).length = ty.size) :
    ∃ rest, EStep sem iv e (expandScratch e sc key skey (zs.map (·.1)) ty) ty (sem key (zs.map (·.2.2) ++ rest)) := by
  unfold expandScratch
  by_cases hs : 0 < sc
  · rw [if_pos hs]
    have h1 := emit_estep (sem := sem) hg (.other false skey) ⟨[sc], 1⟩ [] (by simp) (by intro h; cases h) (length_eval_other _ _ _ _)
    refine ⟨[eval sem (.other false skey) ⟨[sc], 1⟩ []], ?_⟩
    have h2 := other_estep (sem := sem) h1.good false key ty (zs ++ [(_, ⟨[sc], 1⟩, eval sem (.other false skey) ⟨[sc], 1⟩ [])]) (by
        intro z hz'
        rcases List.mem_append.1 hz' with hz' | hz'
        · exact (hz z hz').mono hg h1.ext
        · rw [List.mem_singleton.1 hz']
          exact h1.holds) (by intro h; cases h) (D := _) rfl (by rw [List.map_append]; exact hl _)
    simp only [List.map_append, List.map_cons, List.map_nil] at h2
    exact h1.trans h2
  · rw [if_neg hs]
    refine ⟨[], ?_⟩
    have := other_estep (sem := sem) hg false key ty zs hz (by intro h; cases h) (D := sem key (zs.map (·.2.2))) rfl (by simpa using hl [])
    rw [List.append_nil]
    exact this

/-- What the phases leave in an element that holds `v` before them. -/
def phasesVal (R : Rt) (t : Types) (h w : Nat) (ps : List ConvParams) (p : TPlan) (mem : List Int) (l : List FakeConv) (y x o : Nat) (v : Int) : Int :=
  l.foldl (fun v fc => if y % fc.strideH = fc.subH ∧ x % fc.strideW = fc.subW then
    phaseValue R.cfg R.lib t h w p.vh p.vw p.op ps mem fc (y, x, o) else v) v

theorem tensorOf4 (a b c : Nat) (D : List Byte) (y x o : Nat) : tensorOf ⟨[1, a, b, c], 1⟩ D [0, y, x, o] = s8 (D.getD ((y * b + x) * c + o) 0) := by
  rw [tensorOf_unflat]
  unfold Conv.unflat
  rw [Conv.ravel4', getD_map_s8]

theorem phases_estep {R : Rt} {dom : MulArgs → Prop} (hR : R.OK dom) (t : Types) (h w : Nat) (ps : List ConvParams) (p : TPlan) (j x : Nat) (tx : Ty)
    (Dx : List Byte) : ∀ (l : List FakeConv) (i : Nat) (e : Exp) (prev : Option Nat) (Dp : List Byte), EGood iv e → EHolds sem iv e x tx Dx →
    (∀ v, prev = some v → EHolds sem iv e v ⟨[1, p.vh, p.vw, p.op.filter.o], 1⟩ Dp) → (prev = none → i = 0) → (∀ v, prev = some v → 0 < i) →
    (∀ (k : Nat) (fc : FakeConv), l[k]? = some fc → (fakeConvs false w p.op ps)[i + k]? = some fc) →
    (∀ fc ∈ l, (p.lower R t h w ps fc).isSome ∧ ∃ rs, Threads.getImageRegionThreadSplits R.cts R.threads (p.params fc) = some rs ∧
      ∀ y x o, y < p.vh → x < p.vw → o < p.op.filter.o → y % fc.strideH = fc.subH ∧ x % fc.strideW = fc.subW → Threads.coverage rs y x o = 1) →
    (∀ m ins, sem (Nat.pair j m) ins = phaseKernel R t h w ps p j m ins) → (prev = none → l ≠ []) →
    ∃ v D, (expandPhases R t h w ps p j x l i e prev).2 = some v ∧
      EStep sem iv e ((expandPhases R t h w ps p j x l i e prev).1, v) ⟨[1, p.vh, p.vw, p.op.filter.o], 1⟩ D ∧
      ∀ y xx o, y < p.vh → xx < p.vw → o < p.op.filter.o → ∃ v0 : Int, (prev.isSome = true → v0 = tensorOf ⟨[1, p.vh, p.vw, p.op.filter.o], 1⟩ Dp [0, y, xx, o]) ∧
        tensorOf ⟨[1, p.vh, p.vw, p.op.filter.o], 1⟩ D [0, y, xx, o] = phasesVal R t h w ps p (Dx.map s8) l y xx o v0
  | [], i, e, none, Dp, _, _, _, _, _, _, _, _, hne => absurd rfl (hne rfl)
  | [], i, e, some v, Dp, hg, _, hp, _, _, _, _, _, _ =>
    ⟨v, Dp, rfl, estep_same hg (hp v rfl), fun y xx o _ _ _ => ⟨_, fun _ => rfl, rfl⟩⟩
  | fc :: l, i, e, prev, Dp, hg, hx, hp, hi0, hi1, hnum, hall, hsem, _ => by
    obtain ⟨hlo, rs, hrs, hcov⟩ := hall fc (by simp)
    obtain ⟨lo, hlo⟩ := Option.isSome_iff_exists.1 hlo
    have hoc : lo.oc = p.op.filter.o := (lower_dims hlo).2.2.2
    unfold expandPhases
    rw [hlo]
    dsimp only
    obtain ⟨c, hc⟩ : ∃ c, c = expandConsts [R.weights lo, R.muls lo] e := ⟨_, rfl⟩
    rw [← hc]
    obtain ⟨c1, c2, zs, c3, c4, c5⟩ := consts_estep (sem := sem) [R.weights lo, R.muls lo] e hg
    rw [← hc] at c1 c2 c3 c5
    have hkey : ∀ ins, sem (Nat.pair j (2 * i)) ins = R.phase lo fc rs p.vh p.vw (decide (0 < i)) ins := by
      intro ins
      rw [hsem]
      unfold phaseKernel
      rw [show 2 * i / 2 = i by omega, show (fakeConvs false w p.op ps)[i]? = some fc from hnum 0 fc rfl]
      dsimp only
      rw [if_pos (by omega), hlo, hrs]
    -- operands
    obtain ⟨pz, hpz1, hpz2, hpz3⟩ : ∃ pz : List (Nat × Ty × List Byte), pz.map (·.1) = prev.toList ∧ (∀ z ∈ pz, EHolds sem iv c.1 z.1 z.2.1 z.2.2) ∧
        pz.map (·.2.2) = prev.toList.map fun _ => Dp := by
      cases prev with
      | none => exact ⟨[], rfl, by simp, rfl⟩
      | some v =>
        refine ⟨[(v, ⟨[1, p.vh, p.vw, p.op.filter.o], 1⟩, Dp)], rfl, ?_, rfl⟩
        intro z hz
        rw [List.mem_singleton.1 hz]
        exact (hp v rfl).mono hg c1
    have hzs := scratch_estep' (sem := sem) c2 (R.phaseScratch lo fc) (Nat.pair j (2 * i)) (Nat.pair j (2 * i + 1)) ⟨[1, p.vh, p.vw, p.op.filter.o], 1⟩
      ((x, tx, Dx) :: (zs ++ pz)) (by
        intro z hz
        rcases List.mem_cons.1 hz with rfl | hz
        · exact hx.mono hg c1
        · rcases List.mem_append.1 hz with hz | hz
          · exact c5 z hz
          · exact hpz2 z hz) (by
        intro rest
        rw [hkey]
        simp only [List.map_cons, List.map_append, c4, List.cons_append, List.nil_append]
        rw [(hR.phase lo fc rs p.vh p.vw _ Dx _).1, hoc]
        simp [Ty.size, Nat.mul_assoc])
    obtain ⟨rest, hstep⟩ := hzs
    rw [hkey] at hstep
    simp only [List.map_cons, List.map_append, c4, c3, hpz1, hpz3, List.cons_append, List.nil_append] at hstep
    obtain ⟨o, ho⟩ : ∃ o, o = expandScratch c.1 (R.phaseScratch lo fc) (Nat.pair j (2 * i)) (Nat.pair j (2 * i + 1)) (x :: c.2 ++ prev.toList)
      ⟨[1, p.vh, p.vw, p.op.filter.o], 1⟩ := ⟨_, rfl⟩
    rw [← ho]
    rw [show (x :: (c.2 ++ prev.toList)) = (x :: c.2 ++ prev.toList) from rfl, ← ho] at hstep
    obtain ⟨D1, hD1⟩ : ∃ D1, D1 = R.phase lo fc rs p.vh p.vw (decide (0 < i)) (Dx :: R.weights lo :: R.muls lo :: ((prev.toList.map fun _ => Dp) ++ rest)) := ⟨_, rfl⟩
    rw [← hD1] at hstep
    have hext : ∃ extra, o.1 = ⟨e.n0, e.nodes ++ extra⟩ := by
      obtain ⟨x1, h1⟩ := c1
      obtain ⟨x2, h2⟩ := hstep.ext
      refine ⟨x1 ++ x2, ?_⟩
      rw [h2, h1]
      simp
    obtain ⟨v, D, g1, g2, g3⟩ := phases_estep hR t h w ps p j x tx Dx l (i + 1) o.1 (some o.2) D1 hstep.good (hx.mono hg hext)
      (by intro v hv; rw [← Option.some.inj hv]; exact hstep.holds) (by intro h; cases h) (by intro _ _; omega)
      (by intro k fc' hk; have := hnum (k + 1) fc' (by simpa using hk); rwa [show i + (k + 1) = i + 1 + k by omega] at this)
      (fun fc' h => hall fc' (by simp [h])) hsem (by intro h; cases h)
    refine ⟨v, D, g1, ⟨?_, g2.good, g2.holds⟩, ?_⟩
    · obtain ⟨x1, h1⟩ := hext
      obtain ⟨x2, h2⟩ := g2.ext
      refine ⟨x1 ++ x2, ?_⟩
      rw [h2, h1]
      simp
    intro y xx oo hy hxx hoo
    obtain ⟨v0, e0, e1⟩ := g3 y xx oo hy hxx hoo
    rw [e0 rfl] at e1
    rw [e1]
    by_cases hph : y % fc.strideH = fc.subH ∧ xx % fc.strideW = fc.subW
    · refine ⟨tensorOf ⟨[1, p.vh, p.vw, p.op.filter.o], 1⟩ Dp [0, y, xx, oo], fun _ => rfl, ?_⟩
      have hval : tensorOf ⟨[1, p.vh, p.vw, p.op.filter.o], 1⟩ D1 [0, y, xx, oo] =
          phaseValue R.cfg R.lib t h w p.vh p.vw p.op ps (Dx.map s8) fc (y, xx, oo) := by
        rw [tensorOf4, hD1, ← hoc, (hR.phase lo fc rs p.vh p.vw _ Dx _).2 y xx oo hy hxx (by rw [hoc]; exact hoo) hph (hcov y xx oo hy hxx hoo hph)]
        unfold phaseValue
        rw [show lower R.cfg R.lib (phaseFake t h w p.vh p.vw p.op ps fc) = some lo from hlo]
      unfold phasesVal
      rw [List.foldl_cons, if_pos hph, hval]
    · refine ⟨tensorOf ⟨[1, p.vh, p.vw, p.op.filter.o], 1⟩ D1 [0, y, xx, oo], ?_, ?_⟩
      · intro hs
        obtain ⟨u, rfl⟩ := Option.isSome_iff_exists.1 hs
        rw [tensorOf4, tensorOf4, hD1, ← hoc]
        have hpos := hi1 u rfl
        simp only [Option.toList_some, List.map_cons, List.map_nil, List.cons_append, List.nil_append]
        rw [show decide (0 < i) = true by simpa using hpos, hR.phaseKeeps lo fc rs p.vh p.vw Dx Dp rest y xx oo hy hxx (by rw [hoc]; exact hoo) hph]
      · unfold phasesVal
        rw [List.foldl_cons, if_neg hph]

/-- The padded operand. -/
theorem tpads_estep (zpi : Int) (hz : -128 ≤ zpi ∧ zpi ≤ 127) (h w c : Nat) (hh : 1 ≤ h) (hw : 1 ≤ w) (hc : 1 ≤ c) (ps : List ConvParams) {e : Exp} (hg : EGood iv e)
    (v : Nat) {D : List Byte} (hv : EHolds sem iv e v ⟨[1, h, w, c], 1⟩ D) :
    ∃ tx D', EStep sem iv e (expandPads true 1 zpi (tpads h w c ps) e v) tx D' ∧ D'.map s8 = padForTranspose zpi h w c ps (tensorOf ⟨[1, h, w, c], 1⟩ D) := by
  have hpos : ∀ n ∈ [1, h, w, c], 0 < n := by
    intro n hn
    simp only [List.mem_cons, List.not_mem_nil, or_false] at hn
    omega
  have hlen : ∀ (s : List Nat) (D : List Byte), D.length = (⟨s, 1⟩ : Ty).size → D.length = s.prod := by
    intro s D h
    rw [h, Ty.size, Nat.mul_one]
  unfold tpads padForTranspose
  by_cases hp : vPad ps > 0 ∨ hPad ps > 0
  · rw [if_pos hp, if_pos hp]
    obtain ⟨D', h1, h2⟩ := pads_estep8 (sem := sem) zpi hz [⟨[0, 0, vPad ps, vPad ps, hPad ps, hPad ps, 0, 0], [1, h, w, c]⟩] [1, h, w, c]
      [1, h + 2 * vPad ps, w + 2 * hPad ps, c] rfl hpos ⟨rfl, rfl, by simp [TFL.padded, PadsOK]; omega⟩ (by simp) e hg v D hv
    refine ⟨_, D', h1, ?_⟩
    rw [← flat_tensorOf [1, h + 2 * vPad ps, w + 2 * hPad ps, c] D' (hlen _ _ h1.holds.len)]
    apply flat_congr
    intro idx hidx
    exact h2 idx hidx
  · rw [if_neg hp, if_neg hp]
    exact ⟨_, D, estep_same hg hv, (flat_tensorOf [1, h, w, c] D (hlen _ _ hv.len)).symm⟩

theorem slice_estep4 {e : Exp} (hg : EGood iv e) (a b c a' b' u q : Nat) (ha : 0 < a) (hb : 0 < b) (hc : 0 < c) (hu : u + a' ≤ a) (hq : q + b' ≤ b)
    (v : Nat) {D : List Byte} (hv : EHolds sem iv e v ⟨[1, a, b, c], 1⟩ D) :
    ∃ D', EStep sem iv e (e.emit ⟨.slice [0, u, q, 0] [1, a', b', c], [v], ⟨[1, a', b', c], 1⟩⟩) ⟨[1, a', b', c], 1⟩ D' ∧
      ∀ idx, InShape [1, a', b', c] idx → tensorOf ⟨[1, a', b', c], 1⟩ D' idx = sliceT [0, u, q, 0] (tensorOf ⟨[1, a, b, c], 1⟩ D) idx := by
  have hok : (Kind.slice [0, u, q, 0] [1, a', b', c]).OK ([(v, (⟨[1, a, b, c], 1⟩ : Ty), D)].map fun z => (e.ctx iv).getD z.1 (⟨[], 0⟩, false)) ⟨[1, a', b', c], 1⟩ := by
    refine ⟨⟨[1, a, b, c], 1⟩, ((e.ctx iv).getD v (⟨[], 0⟩, false)).2, ?_, rfl, ?_, rfl, ?_⟩
    · simp only [List.map_cons, List.map_nil]
      rw [← hv.ctx hg]
    · exact ⟨by omega, by omega, by omega, by omega, trivial⟩
    · intro n hn
      simp only [List.mem_cons, List.not_mem_nil, or_false] at hn
      omega
  have hlen := length_eval (sem := sem) (.slice [0, u, q, 0] [1, a', b', c]) ⟨[1, a', b', c], 1⟩ [((⟨[1, a, b, c], 1⟩ : Ty), D)] _ hok (by
    simp only [List.map_cons, List.map_nil]
    rw [hv.ctx hg])
  have hstep := emit_estep (sem := sem) hg (.slice [0, u, q, 0] [1, a', b', c]) ⟨[1, a', b', c], 1⟩ [(v, ⟨[1, a, b, c], 1⟩, D)] (by simpa using hv) hok hlen
  refine ⟨_, hstep, ?_⟩
  intro idx hidx
  show s8 ((elemAt ⟨[1, a', b', c], 1⟩ (bytesOf ⟨[1, a', b', c], 1⟩ (sliceT [0, u, q, 0] (elemAt ⟨[1, a, b, c], 1⟩ D))) idx).headD 0) = _
  rw [elemAt_bytesOf (⟨[1, a', b', c], 1⟩ : Ty) (sliceT [0, u, q, 0] (elemAt ⟨[1, a, b, c], 1⟩ D)) (fun i _ => length_elemAt (⟨[1, a, b, c], 1⟩ : Ty) _ _) idx hidx]
  rfl

/-- Pad and phases of a `VALID` transposed convolution. -/
theorem phases_near {R : Rt} {dom : MulArgs → Prop} (hR : R.OK dom) (t : Types) (ht : t.OK) (hact : t.act = .none ∨ t.act = .relu ∧ t.zpo = -128) (j h w : Nat)
    (hh : 1 ≤ h) (hw : 1 ≤ w) (p : TPlan) (hc : 1 ≤ p.op.filter.c) (ps : List ConvParams) (ok : TConvOK R t h w p.vh p.vw p.op ps) {e : Exp} (hg : EGood iv e) (v : Nat)
    {D : List Byte} (hv : EHolds sem iv e v ⟨[1, h, w, p.op.filter.c], 1⟩ D) (hsem : ∀ m ins, sem (Nat.pair j m) ins = phaseKernel R t h w ps p j m ins) :
    ∃ u D', (expandPhases R t h w ps p j (expandPads true 1 t.zpi (tpads h w p.op.filter.c ps) e v).2 (fakeConvs false w p.op ps) 0
        (expandPads true 1 t.zpi (tpads h w p.op.filter.c ps) e v).1 none).2 = some u ∧
      EStep sem iv e ((expandPhases R t h w ps p j (expandPads true 1 t.zpi (tpads h w p.op.filter.c ps) e v).2 (fakeConvs false w p.op ps) 0
        (expandPads true 1 t.zpi (tpads h w p.op.filter.c ps) e v).1 none).1, u) ⟨[1, p.vh, p.vw, p.op.filter.o], 1⟩ D' ∧
      ∀ y x o, y < p.vh → x < p.vw → o < p.op.filter.o → Net.Near R (tensorOf ⟨[1, p.vh, p.vw, p.op.filter.o], 1⟩ D' [0, y, x, o])
        (tconv (rqT t R.r) t.zpi h w p.vh p.vw p.op (tensorOf ⟨[1, h, w, p.op.filter.c], 1⟩ D) [0, y, x, o]) := by
  obtain ⟨tx, Dx, s1, e1⟩ := tpads_estep (sem := sem) t.zpi ht.zpi h w p.op.filter.c hh hw hc ps hg v hv
  have hvalid : p.op.padding = .valid := by
    have := ok.applies
    unfold tconvMatches at this
    simp only [decide_eq_true_eq] at this
    exact this.1
  have hphase : ∀ fc ∈ fakeConvs false w p.op ps, (p.lower R t h w ps fc).isSome ∧ ∃ rs, Threads.getImageRegionThreadSplits R.cts R.threads (p.params fc) = some rs ∧
      ∀ y x o, y < p.vh → x < p.vw → o < p.op.filter.o → y % fc.strideH = fc.subH ∧ x % fc.strideW = fc.subW → Threads.coverage rs y x o = 1 := by
    intro fc hfc
    refine ⟨ok.hall fc hfc, ?_⟩
    obtain ⟨q, hq, rfl⟩ := List.mem_map.1 hfc
    obtain ⟨r1, r2⟩ := ok.hps.range q hq
    have := ok.hoh1
    have := ok.how1
    have := ok.hsh
    have := ok.hsw
    obtain ⟨rs, a1, -, -, a4⟩ := Threads.C08_strided_regions_cover_phase_partial R.cts hR.split R.threads
      (p.params { kernel := { q.kernel with qp := p.op.filter.qp }, bias := p.op.bias, subH := q.subH, subW := q.subW, strideH := p.op.sh, strideW := p.op.sw, inputOffset := inputOffset false w p.op.filter.c ps q })
      hR.threads (by show 1 ≤ p.vh; omega) (by show 1 ≤ p.vw; omega) r1 r2
      (fun _ => ⟨ok.hoh1.1, ok.hoh1.2.imp id fun h => by show p.vh % p.op.sh ≤ q.subH; omega⟩) (fun _ => ⟨ok.how1.1, ok.how1.2.imp id fun h => by show p.vw % p.op.sw ≤ q.subW; omega⟩)
    refine ⟨rs, a1, ?_⟩
    intro y x o hy hx ho hph
    rw [a4 y x o (by
      unfold Threads.Params.InPhase TPlan.params
      dsimp only
      rw [Nat.mod_eq_of_lt r1, Nat.mod_eq_of_lt r2]
      exact hph), if_pos ⟨hy, hx, ho⟩]
  have hne : fakeConvs false w p.op ps ≠ [] := by
    obtain ⟨q, hq, -⟩ := ok.hps.cover 0 0 ok.hsh ok.hsw
    intro h
    unfold fakeConvs at h
    rw [List.map_eq_nil_iff] at h
    rw [h] at hq
    cases hq
  obtain ⟨u, D', g1, g2, g3⟩ := phases_estep (sem := sem) hR t h w ps p j _ tx Dx (fakeConvs false w p.op ps) 0 _ none [] s1.good s1.holds (by intro v h; cases h) (fun _ => rfl)
    (by intro v h; cases h) (by intro k fc hk; rw [Nat.zero_add]; exact hk) hphase hsem (fun _ => hne)
  refine ⟨u, D', g1, s1.trans g2, ?_⟩
  intro y x o hy hx ho
  obtain ⟨v0, -, e2⟩ := g3 y x o hy hx ho
  rw [e2, e1]
  unfold phasesVal
  refine foldl_phase _ (fun fc : FakeConv => y % fc.strideH = fc.subH ∧ x % fc.strideW = fc.subW) _ _
    (fun v => Net.Near R v (tconv (rqT t R.r) t.zpi h w p.vh p.vw p.op _ [0, y, x, o])) ?_ ?_
  · obtain ⟨q, hq, hq1, hq2⟩ := ok.hps.cover (y % p.op.sh) (x % p.op.sw) (Nat.mod_lt _ ok.hsh) (Nat.mod_lt _ ok.hsw)
    exact ⟨_, List.mem_map_of_mem hq, hq1.symm, hq2.symm⟩
  · intro fc hfc hph
    exact phase_near hR.lib hR.r ht.inS ht.outS ht.zpi hact hvalid hh hw ok.hsh ok.hsw ok.hps ok.hoh ok.how ok.hzp ok.hscale ok.hall
      (fun i _ => tensorOf_range _ _ _) ⟨by decide, hy, hx, ho, trivial⟩ hfc hph

theorem tplan_cases (h w oh ow : Nat) (op : ConvOp) :
    (op.padding ≠ .same ∧ tplan h w oh ow op = ⟨oh, ow, op, none⟩) ∨
    ∃ sv, op.padding = .same ∧ sameToValid h w [1, oh, ow, op.filter.o] op = some sv ∧ sv.op.filter = op.filter ∧
      tplan h w oh ow op = ⟨sv.vh.toNat, sv.vw.toNat, sv.op, sv.slice.map fun s => (s.1.map Int.toNat, s.2.map Int.toNat)⟩ := by
  unfold tplan
  by_cases hp : op.padding = .same
  · right
    have : sameToValid h w [1, oh, ow, op.filter.o] op ≠ none := by
      unfold sameToValid
      rw [if_neg (by simpa using hp)]
      intro h
      cases h
    obtain ⟨sv, hsv⟩ := Option.ne_none_iff_exists'.1 this
    refine ⟨sv, hp, hsv, ?_, by rw [hsv]⟩
    unfold sameToValid at hsv
    rw [if_neg (by simpa using hp)] at hsv
    obtain rfl := Option.some.inj hsv
    rfl
  · left
    refine ⟨hp, ?_⟩
    unfold sameToValid
    rw [if_pos hp]

/-- A transposed convolution. -/
theorem tconv_estep {R : Rt} {dom : MulArgs → Prop} (hR : R.OK dom) (t : Types) (ht : t.OK) (hact : t.act = .none ∨ t.act = .relu ∧ t.zpo = -128) (j h w oh ow : Nat)
    (hh : 1 ≤ h) (hw : 1 ≤ w) (op : ConvOp) (hc : 1 ≤ op.filter.c) (ho : 1 ≤ op.filter.o) (ps : List ConvParams)
    (ok : TConvOK R t h w (tplan h w oh ow op).vh (tplan h w oh ow op).vw (tplan h w oh ow op).op ps)
    (hsame : op.padding = .same → oh = h * op.sh ∧ ow = w * op.sw ∧ op.sh ≤ op.filter.kh ∧ op.sw ≤ op.filter.kw) {e : Exp} (hg : EGood iv e) (v : Nat)
    {D : List Byte} (hv : EHolds sem iv e v ⟨[1, h, w, op.filter.c], 1⟩ D)
    (hsem : ∀ m ins, sem (Nat.pair j m) ins = phaseKernel R t h w ps (tplan h w oh ow op) j m ins) :
    ∃ D', EStep sem iv e (expandTconv R t h w ps (tplan h w oh ow op) j e v ⟨[1, oh, ow, op.filter.o], 1⟩) ⟨[1, oh, ow, op.filter.o], 1⟩ D' ∧
      ∀ idx, InShape [1, oh, ow, op.filter.o] idx → Net.Near R (tensorOf ⟨[1, oh, ow, op.filter.o], 1⟩ D' idx)
        (tconv (rqT t R.r) t.zpi h w oh ow op (tensorOf ⟨[1, h, w, op.filter.c], 1⟩ D) idx) := by
  have four : ∀ {a b c : Nat} {idx : List Nat}, InShape [1, a, b, c] idx → ∃ y x o, idx = [0, y, x, o] ∧ y < a ∧ x < b ∧ o < c := by
    intro a b c idx h
    match idx, h with
    | [n, y, x, o], ⟨h0, h1, h2, h3, _⟩ =>
      obtain rfl : n = 0 := by omega
      exact ⟨y, x, o, rfl, h1, h2, h3⟩
  rcases tplan_cases h w oh ow op with ⟨-, hp⟩ | ⟨sv, hsm, hsv, hf, hp⟩
  · rw [hp] at ok hsem ⊢
    obtain ⟨u, D', g1, g2, g3⟩ := phases_near (sem := sem) hR t ht hact j h w hh hw ⟨oh, ow, op, none⟩ hc ps ok hg v hv hsem
    refine ⟨D', ?_, ?_⟩
    · unfold expandTconv
      dsimp only at g1 g2 ⊢
      rw [g1]
      exact g2
    · intro idx hidx
      obtain ⟨y, x, o, rfl, hy, hx, ho⟩ := four hidx
      exact g3 y x o hy hx ho
  · obtain ⟨s1, s2, s3, s4⟩ := hsame hsm
    rw [hp] at ok hsem ⊢
    have hsh : 1 ≤ op.sh ∧ 1 ≤ op.sw := by
      have h1 := ok.hsh
      have h2 := ok.hsw
      have : sv.op = { op with padding := .valid } := by
        unfold sameToValid at hsv
        rw [if_neg (by simpa using hsm)] at hsv
        obtain rfl := Option.some.inj hsv
        rfl
      dsimp only at h1 h2
      rw [this] at h1 h2
      exact ⟨h1, h2⟩
    subst s1 s2
    obtain ⟨u, D', g1, g2, g3⟩ := phases_near (sem := sem) hR t ht hact j h w hh hw
      ⟨sv.vh.toNat, sv.vw.toNat, sv.op, sv.slice.map fun s => (s.1.map Int.toNat, s.2.map Int.toNat)⟩ (by rw [hf]; exact hc) ps ok hg v (by rw [hf]; exact hv) hsem
    obtain ⟨c1, c2, c3, c4⟩ := C49_same_to_valid (rqT t R.r) t.zpi h w op (tensorOf ⟨[1, h, w, op.filter.c], 1⟩ D) sv hh hw hsh.1 hsh.2 s3 s4 hsv
    dsimp only at g1 g2 g3
    have hsl : sv.slice = none ∧ sv.vh.toNat = h * op.sh ∧ sv.vw.toNat = w * op.sw ∨ ∃ u q : Nat, sv.slice = some ([0, (u : Int), (q : Int), 0], [1, ((h * op.sh : Nat) : Int), ((w * op.sw : Nat) : Int), (op.filter.o : Int)]) ∧
        u + h * op.sh ≤ sv.vh.toNat ∧ q + w * op.sw ≤ sv.vw.toNat := by
      cases hs : sv.slice with
      | none =>
        left
        unfold SameToValid.shape at c2
        rw [hs] at c2
        simp only [List.cons.injEq, and_true, true_and] at c2
        exact ⟨rfl, by omega, by omega⟩
      | some s =>
        right
        obtain ⟨b, sz⟩ := s
        unfold SameToValid.shape at c2
        unfold SameToValid.Inside at c3
        rw [hs] at c2 c3
        dsimp only at c2 c3
        have hb : ∃ u q : Int, b = [0, u, q, 0] := by
          unfold sameToValid at hsv
          rw [if_neg (by simpa using hsm)] at hsv
          obtain rfl := Option.some.inj hsv
          dsimp only at hs
          split at hs
          · cases hs
          · have := Option.some.inj hs
            exact ⟨_, _, (congrArg Prod.fst this).symm⟩
        obtain ⟨u, q, rfl⟩ := hb
        rw [c2] at c3
        cases c3 with
        | cons _ c3 =>
          cases c3 with
          | cons x1 c3 =>
            cases c3 with
            | cons x2 _ =>
              dsimp only at x1 x2
              refine ⟨u.toNat, q.toNat, ?_, by omega, by omega⟩
              rw [c2, Int.toNat_of_nonneg x1.1, Int.toNat_of_nonneg x2.1]
    unfold expandTconv
    dsimp only
    rcases hsl with ⟨hs, v1, v2⟩ | ⟨a, b, hs, v1, v2⟩
    · refine ⟨D', ?_, ?_⟩
      · rw [hs] at g1 g2 ⊢
        dsimp only [Option.map_none] at g1 g2 ⊢
        rw [g1]
        rw [v1, v2, hf] at g2
        rw [v1, v2, hf]
        exact g2
      · intro idx hidx
        rw [← c4 idx hidx]
        obtain ⟨y, x, o, rfl, hy, hx, ho⟩ := four hidx
        have := g3 y x o (by omega) (by omega) (by rw [hf]; exact ho)
        unfold SameToValid.run
        rw [hs]
        dsimp only
        rw [hf] at this
        rw [v1, v2] at this ⊢
        exact this
    · have h1 := hsh.1
      have h2 := hsh.2
      have hp1 : 0 < sv.vh.toNat := by have := Nat.mul_pos hh h1; omega
      have hp2 : 0 < sv.vw.toNat := by have := Nat.mul_pos hw h2; omega
      rw [hf] at g2
      obtain ⟨D2, k1, k2⟩ := slice_estep4 (sem := sem) g2.good sv.vh.toNat sv.vw.toNat op.filter.o (h * op.sh) (w * op.sw) a b hp1 hp2 ho v1 v2 u g2.holds
      refine ⟨D2, ?_, ?_⟩
      · have k := g2.trans k1
        rw [hs] at g1 k ⊢
        dsimp only [Option.map_some] at g1 k ⊢
        rw [g1]
        rw [← hf] at k
        simp only [List.map_cons, List.map_nil, Int.toNat_natCast, Int.toNat_zero, Int.toNat_one] at k ⊢
        rw [hf] at k ⊢
        exact k
      · intro idx hidx
        rw [k2 idx hidx, ← c4 idx hidx]
        obtain ⟨y, x, o, rfl, hy, hx, ho⟩ := four hidx
        have := g3 (a + y) (b + x) o (by omega) (by omega) (by rw [hf]; exact ho)
        unfold SameToValid.run
        rw [hs]
        dsimp only
        unfold sliceT
        simp only [List.map_cons, List.map_nil, List.zipWith_cons_cons, List.zipWith_nil_right, Int.toNat_zero, Nat.zero_add, Int.toNat_natCast]
        rw [hf] at this
        exact this

end Verif.Net
