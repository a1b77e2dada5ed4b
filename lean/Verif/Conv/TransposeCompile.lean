import Verif.Conv.Threaded
import Verif.Conv.Same
import Verif.Conv.CompileProps
import Verif.Move.Lemmas
/-!
C97: an 8-bit transposed convolution from the TensorFlow Lite operator to the device: `SAME` made `VALID` (C49), the chain of phases with
their sub-kernels (C40), each phase lowered to an XC convolution (as in C51), the regions of its threads (C08) and their runs in any
interleaving (C64).

Not modelled here, as in `Conv/Lower.lean`: lib_nn's kernels (contract `Lowered.phaseRun`) and 16-bit convolutions.
-/
namespace Verif.Conv.Compile
open Verif.Tensor Verif.Move Verif.Quant Verif.Threads Verif.Conv

/-! ### Model -/

/-- The operator that ReplaceConv2D sees for one phase (xformer/Transforms/ReplaceTransposeConv.cpp 204-226): operand is the padded input,
the result has the shape of the transposed convolution, stride and dilation are 1, padding is that of the transposed convolution (`VALID`),
the fused activation is copied. -/
def phaseFake (t : Types) (h w oh ow : Nat) (op : ConvOp) (ps : List ConvParams) (fc : FakeConv) : Fake :=
  { dw := false, bits := 8, ih := h + 2 * vPad ps, iw := w + 2 * hPad ps, ic := op.filter.c, oh := oh, ow := ow, oc := op.filter.o
    inS := t.inS, zpi := t.zpi, outS := t.outS, zpo := t.zpo, filter := fc.kernel, bias := fc.bias.map (·.data), pad := .tfl op.padding
    sh := 1, sw := 1, dh := 1, dwf := 1, act := t.act }

/-- The output transform that the compiler chose (contract, external): lib_nn's quantisation per group or per channel, as in `Lowered.run`. -/
def applyOT (lib : Lib) (ot : OT) (m : MB) (o : Nat) (acc : Int) : ℚ :=
  match ot with
  | .group => lib.group m o acc
  | .channelwise => lib.chan m o acc

/-- Contract of the XC convolution kernel with output strides (external): as `Lowered.run`, but the window of output pixel `(y, x)` of the
phase starts in the input memory `mem`, whose rows have `iw` pixels of `ic` channels, `inputOffset` elements behind pixel
`(y / strideH, x / strideW)`. -/
def phaseRun (lib : Lib) (lo : Lowered) (fc : FakeConv) (mem : List Int) (e : Elem) : Int :=
  let acc := lo.mb.dot e.2.2 fun a b c =>
    mem.getD (fc.inputOffset + ((((e.1 / fc.strideH + a) * lo.iw + (e.2.1 / fc.strideW + b)) * lo.ic + c : Nat) : Int)).toNat 0
  clamp (-128) 127 (lib.round (applyOT lib lo.ot lo.mb e.2.2 acc))

/-- ReplaceTransposeConv.cpp 38-91 for 8-bit types: which transposed convolutions are replaced. -/
def tconvMatches (op : ConvOp) : Bool := op.padding = .valid ∧ op.filter.c % 4 = 0 ∧ op.filter.o % 4 = 0

/-- The value that a phase computes for an element, if the phase is replaced (ReplaceConv2D.cpp 49-220). -/
def phaseValue (cfg : Cfg) (lib : Lib) (t : Types) (h w oh ow : Nat) (op : ConvOp) (ps : List ConvParams) (mem : List Int) (fc : FakeConv)
    (e : Elem) : Int :=
  match lower cfg lib (phaseFake t h w oh ow op ps fc) with
  | some lo => phaseRun lib lo fc mem e
  | none => 0

/-- Every phase is replaced.  (One that is not becomes a plain convolution, `C61_transposed_refuted`.) -/
def AllLowered (cfg : Cfg) (lib : Lib) (t : Types) (h w oh ow : Nat) (op : ConvOp) (ps : List ConvParams) : Prop :=
  ∀ fc ∈ fakeConvs false w op ps, (lower cfg lib (phaseFake t h w oh ow op ps fc)).isSome

/-- A run of the compiled transposed convolution on one image `x`: the phases in order, each by the threads of the compiler's regions in
any interleaving; `m` is the memory before, `m'` the one after. -/
def RunsTo (cfg : Cfg) (lib : Lib) (cts : Nat → Nat → List (Nat × Nat)) (threads B : Nat) (t : Types) (h w oh ow : Nat) (op : ConvOp)
    (ps : List ConvParams) (x : Tensor) (m m' : TMem) : Prop :=
  ThreadedChain cts threads oh ow op.filter.o B
    (phaseValue cfg lib t h w oh ow op ps (padForTranspose t.zpi h w op.filter.c ps x)) (fakeConvs false w op ps) m m'

/-! ### Lemmas -/

/-- What the threads of a chain leave in an element, whatever the values are. -/
theorem threadedChain_val (cts : Nat → Nat → List (Nat × Nat)) (hcalc : CalcContract cts) (threads oh ow oc B : Nat) (hn : 1 ≤ threads)
    (hoh : 1 ≤ oh) (how : 1 ≤ ow) (val : FakeConv → Elem → Int) (l : List FakeConv)
    (hl : ∀ fc ∈ l, fc.subH < fc.strideH ∧ fc.subW < fc.strideW ∧ fc.strideH ≤ oh ∧ (oh % 2 = 1 ∨ oh % fc.strideH = 0) ∧
      fc.strideW ≤ ow ∧ (ow % 2 = 1 ∨ ow % fc.strideW = 0)) (m m' : TMem)
    (h : ThreadedChain cts threads oh ow oc B val l m m') (y x o : Nat) (hy : y < oh) (hx : x < ow) (ho : o < oc) :
    m'.out (y, x, o) = l.foldl (fun v fc => if y % fc.strideH = fc.subH ∧ x % fc.strideW = fc.subW then val fc (y, x, o) else v)
      (m.out (y, x, o)) := by
  induction h with
  | nil m => rfl
  | @cons fc rest rs ws s m m1 m2 h1 h2 h3 h4 h5 _ ih =>
    obtain ⟨a1, a2, a3, a4, a5, a6⟩ := hl fc (by simp)
    obtain ⟨rs', e1, _, e3⟩ := C64_phase_partial cts hcalc threads ⟨oh, ow, oc, fc.subH, fc.subW, fc.strideH, fc.strideW⟩ hn hoh how a1 a2
      (fun _ => ⟨a3, a4.imp id fun h => by dsimp only; omega⟩) (fun _ => ⟨a5, a6.imp id fun h => by dsimp only; omega⟩) B (val fc)
    rw [h1] at e1
    obtain rfl := Option.some.inj e1
    have g := (e3 ws h2 h3 s h4 m).1 y x o ⟨hy, hx, ho⟩
    rw [← h5] at g
    rw [ih fun fc hfc => hl fc (by simp [hfc]), List.foldl_cons, g]
    congr 1
    have hph : Params.InPhase ⟨oh, ow, oc, fc.subH, fc.subW, fc.strideH, fc.strideW⟩ y x ↔
        (y % fc.strideH = fc.subH ∧ x % fc.strideW = fc.subW) := by
      unfold Params.InPhase
      dsimp only
      rw [Nat.mod_eq_of_lt a1, Nat.mod_eq_of_lt a2]
    exact if_congr hph rfl rfl

/-- One of the phases is the element's, and no other, so its value is what is left. -/
theorem foldl_phase {α : Type} (l : List α) (P : α → Prop) [DecidablePred P] (f : α → Int) (v : Int) (Q : Int → Prop)
    (hex : ∃ a ∈ l, P a) (h : ∀ a ∈ l, P a → Q (f a)) : Q (l.foldl (fun v a => if P a then f a else v) v) := by
  have key : ∀ (l : List α) (v : Int), (∀ a ∈ l, P a → Q (f a)) → (Q v ∨ ∃ a ∈ l, P a) → Q (l.foldl (fun v a => if P a then f a else v) v) := by
    intro l
    induction l with
    | nil => rintro v _ (h | ⟨a, ha, _⟩)
             · exact h
             · simp at ha
    | cons b l ih =>
      intro v hl hv
      rw [List.foldl_cons]
      apply ih _ fun a ha => hl a (List.mem_cons_of_mem _ ha)
      by_cases hb : P b
      · rw [if_pos hb]; exact .inl (hl b List.mem_cons_self hb)
      · rw [if_neg hb]
        rcases hv with hv | ⟨a, ha, hpa⟩
        · exact .inl hv
        · rcases List.mem_cons.1 ha with rfl | ha
          · exact absurd hpa hb
          · exact .inr ⟨a, ha, hpa⟩
  exact key l v h (.inr hex)

/-- What a replaced 8-bit convolution knows about its output transform. -/
theorem lower_facts {cfg : Cfg} {lib : Lib} {f : Fake} (hb : f.bits = 8) (hd : f.dw = false) {l : Lowered} (h : lower cfg lib f = some l) :
    l.mb = mulsBias cfg f ∧ l.iw = f.iw ∧ l.ic = f.ic ∧
    (l.ot = .group ∧ lib.groupErr l.mb ≤ cfg.threshold ∨ l.ot = .channelwise ∧ lib.chanErr l.mb ≤ cfg.threshold) := by
  unfold lower at h
  cases hp : getPads f with
  | none => rw [hp] at h; cases h
  | some q =>
    rw [hp] at h
    dsimp only at h
    cases hk : kernelType f (toBePadded q) with
    | none => rw [hk] at h; cases h
    | some kt =>
      rw [hk] at h
      dsimp only at h
      have hkt : kt ≠ .validDirectI16 := by
        rintro rfl
        unfold kernelType at hk
        rw [if_neg (by simp [hd]), if_neg (by rw [hb]; decide)] at hk
        split at hk
        · cases hk
        · split at hk <;> cases hk
      rw [if_neg hkt] at h
      unfold chooseOT at h
      by_cases h1 : lib.groupErr (mulsBias cfg f) ≤ cfg.threshold
      · rw [if_pos h1] at h
        obtain rfl := Option.some.inj h
        exact ⟨rfl, rfl, rfl, .inl ⟨rfl, h1⟩⟩
      · rw [if_neg h1] at h
        by_cases h2 : lib.chanErr (mulsBias cfg f) ≤ cfg.threshold
        · rw [if_pos h2] at h
          obtain rfl := Option.some.inj h
          exact ⟨rfl, rfl, rfl, .inr ⟨rfl, h2⟩⟩
        · rw [if_neg h2] at h; cases h

/-- The output transform on any patch of 8-bit values, against TensorFlow Lite's requantisation of the accumulator.  The patch is given
for all positions; only those of the kernel matter. -/
theorem transform_near {cfg : Cfg} {lib : Lib} (hlib : lib.Faithful) {r : ℚ → ℤ} (hr : Nearest r) {t : Types} (hi : 0 < t.inS) (ho : 0 < t.outS)
    (hact : t.act = .none ∨ t.act = .relu ∧ t.zpo = -128) {f : Fake} (hd : f.dw = false) (ht : f.inS = t.inS ∧ f.zpi = t.zpi ∧ f.outS = t.outS ∧ f.zpo = t.zpo)
    (hs : f.filter.shape = [f.oc, f.filter.kh, f.filter.kw, f.ic]) {m : MB} (hm : m = mulsBias cfg f) {ot : OT}
    (hot : ot = .group ∧ lib.groupErr m ≤ cfg.threshold ∨ ot = .channelwise ∧ lib.chanErr m ≤ cfg.threshold) (p : Nat → Nat → Nat → Int)
    (hp : ∀ a b c, -128 ≤ p a b c ∧ p a b c ≤ 127) {o : Nat} (hoc : o < f.oc)
    (hrange : ∀ o' < f.oc, f.filter.qp.scale o ≤ cfg.factor * f.filter.qp.scale o') (bs : Option ℚ) :
    Near cfg.threshold
      (clamp (-128) 127 (lib.round (applyOT lib ot m o (m.dot o p))))
      (rqT t r (f.filter.qp.scale o) bs ((f.bias.getD []).getD o 0 + ∑ a ∈ Finset.range f.filter.kh, ∑ b ∈ Finset.range f.filter.kw,
        ∑ c ∈ Finset.range f.ic, (p a b c - t.zpi) * f.filter.at o a b c)) := by
  obtain ⟨t1, t2, t3, t4⟩ := ht
  have hs' := hs
  unfold Filter.shape at hs'
  simp only [List.cons.injEq, and_true] at hs'
  have hmul : m.mul o = t.inS * f.filter.qp.scale o / t.outS := by
    rw [hm]
    unfold MB.mul mulsBias
    dsimp only
    unfold effMuls
    rw [hd, if_neg (by decide), hs'.1, t1, t3]
    refine unclamped_at cfg.factor f.oc _ o hoc ?_
    intro o' ho'
    have := hrange o' ho'
    rw [← mul_div_assoc]
    apply div_le_div_of_nonneg_right _ ho.le
    nlinarith
  have hkh : m.kh = f.filter.kh := by rw [hm]; unfold MB.kh mulsBias libShape; simp [hd]
  have hkw : m.kw = f.filter.kw := by rw [hm]; unfold MB.kw mulsBias libShape; simp [hd]
  have hnc : m.nc = f.ic := by rw [hm]; unfold MB.nc mulsBias libShape; simp [hd]
  have hw : ∀ a b c, m.w o a b c = f.filter.at o a b c := by
    intro a b c
    rw [hm]
    unfold MB.w mulsBias Filter.at libShape
    simp only [hd, Bool.false_eq_true, if_false]
    rw [hs]
  have hb : m.biasAt o = (f.bias.getD []).getD o 0 := by
    rw [hm]
    unfold MB.biasAt mulsBias
    dsimp only
    cases f.bias with
    | some d => rfl
    | none =>
      simp only [Option.getD_none]
      rw [List.getD_eq_getElem?_getD, List.getElem?_replicate]
      split <;> rfl
  obtain ⟨acc, hacc⟩ : ∃ acc : Int, acc = (f.bias.getD []).getD o 0 + ∑ a ∈ Finset.range f.filter.kh, ∑ b ∈ Finset.range f.filter.kw,
        ∑ c ∈ Finset.range f.ic, (p a b c - t.zpi) * f.filter.at o a b c := ⟨_, rfl⟩
  rw [← hacc]
  have hdot : m.dot o p - t.zpi * m.dot o (fun _ _ _ => 1) = ∑ a ∈ Finset.range f.filter.kh, ∑ b ∈ Finset.range f.filter.kw,
        ∑ c ∈ Finset.range f.ic, (p a b c - t.zpi) * f.filter.at o a b c := by
    unfold MB.dot
    rw [hkh, hkw, hnc, Finset.mul_sum, ← Finset.sum_sub_distrib]
    refine Finset.sum_congr rfl fun a _ => ?_
    rw [Finset.mul_sum, ← Finset.sum_sub_distrib]
    refine Finset.sum_congr rfl fun b _ => ?_
    rw [Finset.mul_sum, ← Finset.sum_sub_distrib]
    refine Finset.sum_congr rfl fun c _ => ?_
    rw [hw]
    ring
  have hex : m.exact o (m.dot o p) = m.mul o * (acc : ℚ) + t.zpo := by
    have z1 : m.zpi = t.zpi := by rw [hm]; exact t2
    have z2 : m.zpo = t.zpo := by rw [hm]; exact t4
    unfold MB.exact
    rw [z1, z2, hb, hacc, ← hdot]
    push_cast
    ring
  have herr : |(applyOT lib ot m o (m.dot o p)) -
      (t.inS * f.filter.qp.scale o / t.outS * (acc : ℚ) + t.zpo)| ≤ cfg.threshold := by
    rw [← hmul, ← hex]
    rcases hot with ⟨e, he⟩ | ⟨e, he⟩ <;> subst e
    · exact le_trans (hlib.group _ _ _ hp) he
    · exact le_trans (hlib.chan _ _ _ hp) he
  unfold rqT
  have hlo : actLo t.act r t.outS t.zpo = -128 := by
    rcases hact with e | ⟨e, e2⟩
    · rw [e]; rfl
    · rw [e, e2]; rfl
  have hhi : actHi t.act r t.outS t.zpo = 127 := by
    rcases hact with e | ⟨e, _⟩ <;> rw [e] <;> rfl
  rw [hlo, hhi]
  have key : ((|clamp (-128) 127 (lib.round (applyOT lib ot m o (m.dot o p))) -
      clamp (-128) 127 (t.zpo + r (t.inS * f.filter.qp.scale o / t.outS * (acc : ℚ)))| : ℤ) : ℚ) ≤ cfg.threshold + 1 := by
    refine le_trans (Int.cast_le.2 (clamp_dist _ _ _ _)) ?_
    have hr' : Nearest fun v : ℚ => t.zpo + r (v - t.zpo) := by
      intro v
      have := hr (v - t.zpo)
      push_cast
      rw [show (t.zpo : ℚ) + r (v - t.zpo) - v = r (v - t.zpo) - (v - t.zpo) by ring]
      exact this
    have := round_dist hlib.round hr' herr
    rw [add_sub_cancel_right] at this
    exact_mod_cast this
  refine ⟨key, fun hth => ?_⟩
  have : ((|clamp (-128) 127 (lib.round (applyOT lib ot m o (m.dot o p))) -
      clamp (-128) 127 (t.zpo + r (t.inS * f.filter.qp.scale o / t.outS * (acc : ℚ)))| : ℤ) : ℚ) < 2 := by linarith
  have : |clamp (-128) 127 (lib.round (applyOT lib ot m o (m.dot o p))) -
      clamp (-128) 127 (t.zpo + r (t.inS * f.filter.qp.scale o / t.outS * (acc : ℚ)))| < 2 := by exact_mod_cast this
  omega

/-- All values in the padded input are 8-bit values. -/
theorem padded_range {zpi : Int} (hz : -128 ≤ zpi ∧ zpi ≤ 127) (h w c : Nat) (ps : List ConvParams) (x : Tensor)
    (hx : ∀ i, InShape [1, h, w, c] i → -128 ≤ x i ∧ x i ≤ 127) : ∀ k, -128 ≤ (padForTranspose zpi h w c ps x).getD k 0 ∧
      (padForTranspose zpi h w c ps x).getD k 0 ≤ 127 := by
  intro k
  rw [List.getD_eq_getElem?_getD]
  cases hk : (padForTranspose zpi h w c ps x)[k]? with
  | none => simp
  | some v =>
    rw [Option.getD_some]
    have hv := List.mem_of_getElem? hk
    unfold padForTranspose at hv
    split at hv
    · obtain ⟨idx, hidx, rfl⟩ := mem_flat hv
      exact padT_range (fun v : Int => -128 ≤ v ∧ v ≤ 127) zpi hz _ _ _ _ (by simp) (by simpa using Verif.Move.length_inShape hidx) (fun i hi => hx i hi)
    · obtain ⟨idx, hidx, rfl⟩ := mem_flat hv
      exact hx idx hidx

/-- One phase on a pixel of it. -/
theorem phase_near {cfg : Cfg} {lib : Lib} (hlib : lib.Faithful) {r : ℚ → ℤ} (hr : Nearest r) {t : Types} (hi : 0 < t.inS) (ho : 0 < t.outS)
    (hzi : -128 ≤ t.zpi ∧ t.zpi ≤ 127) (hact : t.act = .none ∨ t.act = .relu ∧ t.zpo = -128) {h w oh ow : Nat} {op : ConvOp}
    (hv : op.padding = .valid) (hh : 1 ≤ h) (hw : 1 ≤ w) (hsh : 0 < op.sh) (hsw : 0 < op.sw) {ps : List ConvParams}
    (hps : Reordered op.filter op.sh op.sw ps) (hoh : oh ≤ (h - 1) * op.sh + max op.filter.kh op.sh)
    (how : ow ≤ (w - 1) * op.sw + max op.filter.kw op.sw) (hzp : ∀ o < op.filter.o, op.filter.qp.zp o = 0)
    (hscale : ∀ o < op.filter.o, ∀ o' < op.filter.o, op.filter.qp.scale o ≤ cfg.factor * op.filter.qp.scale o')
    (hall : AllLowered cfg lib t h w oh ow op ps) {x : Tensor} (hx : ∀ i, InShape [1, h, w, op.filter.c] i → -128 ≤ x i ∧ x i ≤ 127)
    {y xx o : Nat} (hidx : InShape [1, oh, ow, op.filter.o] [0, y, xx, o]) {fc : FakeConv} (hfc : fc ∈ fakeConvs false w op ps)
    (hph : y % fc.strideH = fc.subH ∧ xx % fc.strideW = fc.subW) :
    Near cfg.threshold (phaseValue cfg lib t h w oh ow op ps (padForTranspose t.zpi h w op.filter.c ps x) fc (y, xx, o))
      (tconv (rqT t r) t.zpi h w oh ow op x [0, y, xx, o]) := by
  obtain ⟨_, hy, hxx, hoo, _⟩ := hidx
  obtain ⟨lo, hlo⟩ := Option.isSome_iff_exists.1 (hall fc hfc)
  obtain ⟨p, hp, rfl⟩ := List.mem_map.1 hfc
  dsimp only at hph
  obtain ⟨s1, s2, s3, s4⟩ := hps.shape p hp
  obtain ⟨l1, l2, l3, l4⟩ := lower_facts rfl rfl hlo
  have hrun := fakeConv_run (rqT t r) t.zpi false h w op hv hh hw hsh hsw ps hps x p hp (fun _ _ _ => 0) y xx o oh ow (by omega) (by omega) hoo
  rw [if_pos hph] at hrun
  unfold FakeConv.run at hrun
  dsimp only at hrun
  rw [if_pos hph, hzp o hoo] at hrun
  rw [← hrun]
  unfold phaseValue
  rw [hlo]
  unfold phaseRun
  dsimp only
  have hb : (((op.bias.map (·.data)).getD []).getD o 0 : Int) = biasAt op.bias o := by
    unfold biasAt
    cases op.bias <;> simp
  rw [l2, l3]
  have key := transform_near (cfg := cfg) hlib hr hi ho hact (f := phaseFake t h w oh ow op ps { kernel := { p.kernel with qp := op.filter.qp }, bias := op.bias, subH := p.subH, subW := p.subW, strideH := op.sh, strideW := op.sw, inputOffset := inputOffset false w op.filter.c ps p }) rfl ⟨rfl, rfl, rfl, rfl⟩
    (by unfold phaseFake Filter.shape; dsimp only; rw [s1, s2]) l1 l4
    (fun a b c => (padForTranspose t.zpi h w op.filter.c ps x).getD (inputOffset false w op.filter.c ps p +
      ((((y / op.sh + a) * (w + 2 * hPad ps) + (xx / op.sw + b)) * op.filter.c + c : Nat) : Int)).toNat 0)
    (fun a b c => padded_range hzi h w op.filter.c ps x hx _) hoo (fun o' ho' => hscale o hoo o' ho')
    (op.bias.map fun b => b.qp.scale o)
  refine cast ?_ key
  simp only [phaseFake, hb, s2, Bool.false_eq_true, if_false, Nat.cast_one, Int.ediv_one, sub_zero]

/-- **C97.** A transposed convolution that the compiler replaces, with the type and size conditions below, in a run with any number of threads and
any interleaving, from any memory: every output element is within the error threshold plus one (one quantum if the threshold is below 1)
of what TensorFlow Lite computes. -/
theorem C97_transposed_compiled_partial (cfg : Cfg) (lib : Lib) (hlib : lib.Faithful) (r : ℚ → ℤ) (hr : Nearest r) (t : Types) (hi : 0 < t.inS)
    (ho : 0 < t.outS) (hzi : -128 ≤ t.zpi ∧ t.zpi ≤ 127) (hact : t.act = .none ∨ t.act = .relu ∧ t.zpo = -128) (h w oh ow : Nat) (op : ConvOp)
    (hm : tconvMatches op = true) (hh : 1 ≤ h) (hw : 1 ≤ w) (hsh : 0 < op.sh) (hsw : 0 < op.sw) (ps : List ConvParams)
    (hps : Reordered op.filter op.sh op.sw ps) (hoh : oh ≤ (h - 1) * op.sh + max op.filter.kh op.sh)
    (how : ow ≤ (w - 1) * op.sw + max op.filter.kw op.sw) (hoh1 : op.sh ≤ oh ∧ (oh % 2 = 1 ∨ oh % op.sh = 0))
    (how1 : op.sw ≤ ow ∧ (ow % 2 = 1 ∨ ow % op.sw = 0)) (hzp : ∀ o < op.filter.o, op.filter.qp.zp o = 0)
    (hscale : ∀ o < op.filter.o, ∀ o' < op.filter.o, op.filter.qp.scale o ≤ cfg.factor * op.filter.qp.scale o')
    (hall : AllLowered cfg lib t h w oh ow op ps) (x : Tensor) (hx : ∀ i, InShape [1, h, w, op.filter.c] i → -128 ≤ x i ∧ x i ≤ 127)
    (cts : Nat → Nat → List (Nat × Nat)) (hcalc : CalcContract cts) (threads B : Nat) (hn : 1 ≤ threads) (m m' : TMem)
    (hrun : RunsTo cfg lib cts threads B t h w oh ow op ps x m m') (y xx o : Nat) (hidx : InShape [1, oh, ow, op.filter.o] [0, y, xx, o]) :
    Near cfg.threshold (m'.out (y, xx, o)) (tconv (rqT t r) t.zpi h w oh ow op x [0, y, xx, o]) := by
  have hv : op.padding = .valid := by
    unfold tconvMatches at hm
    simp only [decide_eq_true_eq] at hm
    exact hm.1
  obtain ⟨_, hy, hxx, hoo, _⟩ := id hidx
  have hl : ∀ fc ∈ fakeConvs false w op ps, fc.subH < fc.strideH ∧ fc.subW < fc.strideW ∧ fc.strideH ≤ oh ∧
      (oh % 2 = 1 ∨ oh % fc.strideH = 0) ∧ fc.strideW ≤ ow ∧ (ow % 2 = 1 ∨ ow % fc.strideW = 0) := by
    intro fc hfc
    obtain ⟨p, hp, rfl⟩ := List.mem_map.1 hfc
    obtain ⟨r1, r2⟩ := hps.range p hp
    exact ⟨r1, r2, hoh1.1, hoh1.2, how1.1, how1.2⟩
  rw [threadedChain_val cts hcalc threads oh ow op.filter.o B hn (by omega) (by omega) _ _ hl m m' hrun y xx o hy hxx hoo]
  refine foldl_phase _ (fun fc : FakeConv => y % fc.strideH = fc.subH ∧ xx % fc.strideW = fc.subW) _ _
    (fun v => Near cfg.threshold v (tconv (rqT t r) t.zpi h w oh ow op x [0, y, xx, o])) ?_ ?_
  · obtain ⟨p, hp, hp1, hp2⟩ := hps.cover (y % op.sh) (xx % op.sw) (Nat.mod_lt _ hsh) (Nat.mod_lt _ hsw)
    exact ⟨_, List.mem_map_of_mem hp, hp1.symm, hp2.symm⟩
  · intro fc hfc hph
    exact phase_near hlib hr hi ho hzi hact hv hh hw hsh hsw hps hoh how hzp hscale hall hx hidx hfc hph

/-- When all phases are replaced: lib_nn has for each an output transform within the threshold. -/
theorem allLowered_iff (cfg : Cfg) (lib : Lib) (t : Types) {h w oh ow : Nat} {op : ConvOp} (hv : op.padding = .valid)
    (hh : 1 ≤ h) (hw : 1 ≤ w) {ps : List ConvParams} : AllLowered cfg lib t h w oh ow op ps ↔ ∀ fc ∈ fakeConvs false w op ps,
      lib.groupErr (mulsBias cfg (phaseFake t h w oh ow op ps fc)) ≤ cfg.threshold ∨
      lib.chanErr (mulsBias cfg (phaseFake t h w oh ow op ps fc)) ≤ cfg.threshold := by
  refine forall_congr' fun fc => forall_congr' fun hfc => ?_
  obtain ⟨p, hp, rfl⟩ := List.mem_map.1 hfc
  have hP : p.kernel.kh ≤ vPad ps + 1 := padAmount_ge (List.mem_map_of_mem (f := fun p => p.kernel.kh) hp)
  have hQ : p.kernel.kw ≤ hPad ps + 1 := padAmount_ge (List.mem_map_of_mem (f := fun p => p.kernel.kw) hp)
  obtain ⟨f, hf⟩ : ∃ f, f = phaseFake t h w oh ow op ps { kernel := { p.kernel with qp := op.filter.qp }, bias := op.bias, subH := p.subH, subW := p.subW, strideH := op.sh, strideW := op.sw, inputOffset := inputOffset false w op.filter.c ps p } := ⟨_, rfl⟩
  rw [← hf]
  have hpads : getPads f = some ⟨0, 0, 0, 0⟩ := by
    rw [hf]
    unfold getPads phaseFake
    dsimp only
    rw [hv]
    unfold windowed
    dsimp only
    have e1 : ¬ (((h + 2 * vPad ps : Nat) : Int) - (((p.kernel.kh : Int) - 1) * (1 : Nat) + 1) + (1 : Nat)) / (1 : Nat) < 0 := by
      rw [Nat.cast_one, Int.ediv_one, mul_one]; omega
    have e2 : ¬ (((w + 2 * hPad ps : Nat) : Int) - (((p.kernel.kw : Int) - 1) * (1 : Nat) + 1) + (1 : Nat)) / (1 : Nat) < 0 := by
      rw [Nat.cast_one, Int.ediv_one, mul_one]; omega
    rw [if_neg (show ¬ (1 < 1 ∨ 1 < 1) by decide), if_neg (show ¬ (1 < 1 ∨ 1 < 1) by decide), if_neg e1, if_neg e2]
  have hk : ∃ kt, kernelType f (toBePadded ⟨0, 0, 0, 0⟩) = some kt ∧ kt ≠ .validDirectI16 := by
    unfold kernelType
    rw [show f.dw = false by rw [hf]; rfl, show f.bits = 8 by rw [hf]; rfl]
    rw [if_neg (by decide), if_neg (by decide), if_neg (by decide)]
    split
    · exact ⟨_, rfl, by decide⟩
    · exact ⟨_, rfl, by decide⟩
  obtain ⟨kt, hk, hkt⟩ := hk
  unfold lower
  rw [hpads]
  dsimp only
  rw [hk]
  dsimp only
  rw [if_neg hkt]
  unfold chooseOT
  by_cases h1 : lib.groupErr (mulsBias cfg f) ≤ cfg.threshold
  · simp [h1]
  · by_cases h2 : lib.chanErr (mulsBias cfg f) ≤ cfg.threshold
    · simp [h1, h2]
    · simp [h1, h2]

/-- The slice behind a transposed convolution that was `SAME` (C49): which element of the memory is read. -/
def slicedElem (r : SameToValid) (y x o : Nat) : Elem :=
  match r.slice with
  | none => (y, x, o)
  | some (b, _) => ((b.getD 1 0).toNat + y, (b.getD 2 0).toNat + x, o)

/-- **C97, `SAME`.** With `SAME` padding (the output is the stride times the input, the kernel at least the stride), the compiled operator
with its slice. -/
theorem C97_same_compiled_partial (cfg : Cfg) (lib : Lib) (hlib : lib.Faithful) (r : ℚ → ℤ) (hr : Nearest r) (t : Types) (hi : 0 < t.inS)
    (ho : 0 < t.outS) (hzi : -128 ≤ t.zpi ∧ t.zpi ≤ 127) (hact : t.act = .none ∨ t.act = .relu ∧ t.zpo = -128) (h w : Nat) (op : ConvOp)
    (hh : 1 ≤ h) (hw : 1 ≤ w) (hsh : 0 < op.sh) (hsw : 0 < op.sw) (hkh : op.sh ≤ op.filter.kh) (hkw : op.sw ≤ op.filter.kw) (sv : SameToValid)
    (hsv : sameToValid h w [1, h * op.sh, w * op.sw, op.filter.o] op = some sv) (hm : tconvMatches sv.op = true) (ps : List ConvParams)
    (hps : Reordered op.filter op.sh op.sw ps) (hoh1 : sv.vh.toNat % 2 = 1 ∨ sv.vh.toNat % op.sh = 0)
    (how1 : sv.vw.toNat % 2 = 1 ∨ sv.vw.toNat % op.sw = 0) (hzp : ∀ o < op.filter.o, op.filter.qp.zp o = 0)
    (hscale : ∀ o < op.filter.o, ∀ o' < op.filter.o, op.filter.qp.scale o ≤ cfg.factor * op.filter.qp.scale o')
    (hall : AllLowered cfg lib t h w sv.vh.toNat sv.vw.toNat sv.op ps) (x : Tensor)
    (hx : ∀ i, InShape [1, h, w, op.filter.c] i → -128 ≤ x i ∧ x i ≤ 127)
    (cts : Nat → Nat → List (Nat × Nat)) (hcalc : CalcContract cts) (threads B : Nat) (hn : 1 ≤ threads) (m m' : TMem)
    (hrun : RunsTo cfg lib cts threads B t h w sv.vh.toNat sv.vw.toNat sv.op ps x m m') (y xx o : Nat)
    (hidx : InShape [1, h * op.sh, w * op.sw, op.filter.o] [0, y, xx, o]) :
    Near cfg.threshold (m'.out (slicedElem sv y xx o)) (tconv (rqT t r) t.zpi h w (h * op.sh) (w * op.sw) op x [0, y, xx, o]) := by
  obtain ⟨c1, c2, c3, c4⟩ := C49_same_to_valid (rqT t r) t.zpi h w op x sv hh hw hsh hsw hkh hkw hsv
  rw [← c4 _ hidx]
  have eop : sv.op = { op with padding := .valid } ∧ sv.vh = ((h : Int) - 1) * op.sh + op.filter.kh ∧
      sv.vw = ((w : Int) - 1) * op.sw + op.filter.kw ∧
      (sv.slice = none ∧ op.filter.kh = op.sh ∧ op.filter.kw = op.sw ∨ ∃ s, sv.slice = some ([0, (((op.filter.kh : Int) - op.sh)).tdiv 2, (((op.filter.kw : Int) - op.sw)).tdiv 2, 0], s)) := by
    unfold sameToValid at hsv
    split at hsv
    · cases hsv
    · obtain rfl := Option.some.inj hsv
      refine ⟨rfl, rfl, rfl, ?_⟩
      dsimp only
      split
      · exact .inl ⟨rfl, by omega, by omega⟩
      · exact .inr ⟨_, rfl⟩
  obtain ⟨e1, e2, e3, e4⟩ := eop
  have size : ∀ (n s k : Nat), 1 ≤ n → s ≤ k → (((n : Int) - 1) * s + k).toNat = (n - 1) * s + k ∧ (n - 1) * s + s = n * s := by
    intro n s k hn hk
    obtain ⟨g, rfl⟩ : ∃ g, n = g + 1 := ⟨n - 1, by omega⟩
    refine ⟨?_, by rw [Nat.add_sub_cancel]; ring⟩
    rw [Nat.add_sub_cancel]
    push_cast
    rw [add_sub_cancel_right]
    have : ((g : Int) * s + k) = ((g * s + k : Nat) : Int) := by push_cast; rfl
    rw [this, Int.toNat_natCast]
  obtain ⟨v1, v1'⟩ := size h op.sh op.filter.kh hh hkh
  obtain ⟨v2, v2'⟩ := size w op.sw op.filter.kw hw hkw
  rw [← e2] at v1
  rw [← e3] at v2
  rw [v1] at hoh1
  rw [v2] at how1
  rw [v1, v2, e1] at hrun hall
  rw [e1] at hm
  obtain ⟨_, hy, hxx, hoo, _⟩ := hidx
  have key : ∀ y' x', y' < (h - 1) * op.sh + op.filter.kh → x' < (w - 1) * op.sw + op.filter.kw → Near cfg.threshold (m'.out (y', x', o))
      (tconv (rqT t r) t.zpi h w ((h - 1) * op.sh + op.filter.kh) ((w - 1) * op.sw + op.filter.kw) { op with padding := .valid } x [0, y', x', o]) := by
    intro y' x' hy' hx'
    exact C97_transposed_compiled_partial cfg lib hlib r hr t hi ho hzi hact h w _ _ { op with padding := .valid } hm hh hw hsh hsw ps hps
      (Nat.add_le_add_left (le_max_left _ _) _) (Nat.add_le_add_left (le_max_left _ _) _) ⟨by dsimp only; omega, hoh1⟩ ⟨by dsimp only; omega, how1⟩ hzp hscale hall x hx cts
      hcalc threads B hn m m' hrun y' x' o ⟨by decide, hy', hx', hoo, trivial⟩
  unfold SameToValid.run slicedElem
  rcases e4 with ⟨e4, k1, k2⟩ | ⟨s, e4⟩
  · rw [e4]
    dsimp only
    rw [v1, v2, e1]
    exact key y xx (by omega) (by omega)
  · rw [e4]
    dsimp only
    rw [v1, v2, e1]
    have q : ∀ k s : Nat, s ≤ k → ((k : Int) - s).tdiv 2 ≤ k - s := by
      intro k s hk
      rw [Int.tdiv_eq_ediv_of_nonneg (by omega)]
      omega
    have q1 := q _ _ hkh
    have q2 := q _ _ hkw
    unfold sliceT
    simp only [List.map_cons, List.map_nil, List.zipWith_cons_cons, List.zipWith_nil_right, List.getD_cons_zero,
        List.getD_cons_succ, Int.toNat_zero, Nat.zero_add]
    exact key _ _ (by omega) (by omega)

/-- For strides 1 and 2 the conditions on the parity of the output hold for every size. -/
theorem small_stride {s n : Nat} (hs : s = 1 ∨ s = 2) : n % 2 = 1 ∨ n % s = 0 := by
  rcases hs with rfl | rfl <;> omega

/-! ### Example and refutation -/

/-- A 3x3 transposed convolution with stride 2 and 4 channels, with bias, from 2x3 to 5x7 pixels. -/
def exTC : ConvOp :=
  { padding := .valid, sh := 2, sw := 2, dh := 1, dw := 1
    filter := { o := 4, kh := 3, kw := 3, c := 4, data := (List.range 144).map fun i => (i % 7 : Nat) - 3, qp := .perTensor (1 / 2) 0 }
    bias := some { data := [1, 2, 3, 4], qp := .perTensor (1 / 20) 0 } }

def exTTypes : Types := { inS := 1 / 10, zpi := 3, outS := 1 / 5, zpo := -128, act := .relu }

/-- One thread column: the contract of lib_nn's split is met. -/
def exCts : Nat → Nat → List (Nat × Nat) := fun _ d => if d = 0 then [] else [(0, d)]

theorem allLowered_exact {t : Types} {h w oh ow : Nat} {op : ConvOp} (hv : op.padding = .valid) (hh : 1 ≤ h) (hw : 1 ≤ w) {ps : List ConvParams} :
    AllLowered defaultCfg exactLib t h w oh ow op ps :=
  (allLowered_iff _ _ _ hv hh hw).2 fun _ _ => .inl (by norm_num [exactLib, defaultCfg])

/-- The hypotheses of C97 can be met, with 4 threads. -/
theorem C97_example : ∃ m', RunsTo defaultCfg exactLib exCts 4 0 exTTypes 2 3 5 7 exTC (refReorder exTC.filter 2 2) (fun _ => 1)
      ⟨fun _ => 0, fun _ => 0⟩ m' ∧
    tconvMatches exTC = true ∧ Reordered exTC.filter exTC.sh exTC.sw (refReorder exTC.filter 2 2) ∧ CalcContract exCts ∧
    AllLowered defaultCfg exactLib exTTypes 2 3 5 7 exTC (refReorder exTC.filter 2 2) ∧
    (2 - 1) * exTC.sh + max exTC.filter.kh exTC.sh = 5 ∧ (3 - 1) * exTC.sw + max exTC.filter.kw exTC.sw = 7 ∧
    (∀ o < 4, ∀ o' < 4, exTC.filter.qp.scale o ≤ defaultCfg.factor * exTC.filter.qp.scale o') ∧
    (fakeConvs false 3 exTC (refReorder exTC.filter 2 2)).length = 4 := by
  obtain ⟨m', hm'⟩ := threadedChain_exists exCts C55_example.2.2.1 4 5 7 exTC.filter.o (by decide) (by decide)
    (by decide) (phaseValue defaultCfg exactLib exTTypes 2 3 5 7 exTC (refReorder exTC.filter 2 2)
      (padForTranspose exTTypes.zpi 2 3 exTC.filter.c (refReorder exTC.filter 2 2) fun _ => 1))
    (fakeConvs false 3 exTC (refReorder exTC.filter 2 2)) (by decide) ⟨fun _ => 0, fun _ => 0⟩
  refine ⟨m', hm', by decide, refReorder_spec _ _ _, C55_example.2.2.1, allLowered_exact rfl (by decide) (by decide), by decide, by decide, ?_, by decide⟩
  intro o _ o' _
  norm_num [exTC, QP.scale, defaultCfg]

/-- The fused activation is not looked at: the run is that of the operator without it. -/
theorem C97_activation_ignored (cfg : Cfg) (lib : Lib) (cts : Nat → Nat → List (Nat × Nat)) (threads B : Nat) (t : Types) (h w oh ow : Nat)
    (op : ConvOp) (ps : List ConvParams) (x : Tensor) (m m' : TMem) :
    RunsTo cfg lib cts threads B t h w oh ow op ps x m m' ↔ RunsTo cfg lib cts threads B { t with act := .none } h w oh ow op ps x m m' :=
  Iff.rfl

/-- 1x1 transposed convolution with the identity as kernel. -/
def exTId : ConvOp :=
  { padding := .valid, sh := 1, sw := 1, dh := 1, dw := 1
    filter := { o := 4, kh := 1, kw := 1, c := 4, data := [1, 0, 0, 0, 0, 1, 0, 0, 0, 0, 1, 0, 0, 0, 0, 1], qp := .perTensor 1 0 }, bias := none }

/-- **C97 refuted for fused activations**: RELU with output zero point 0 on the input -100.  TensorFlow Lite gives 0; the compiled operator, in
every run, with every faithful lib_nn, at most -99. -/
theorem C97_activation_refuted (cfg : Cfg) (lib : Lib) (hlib : lib.Faithful) (h1 : cfg.threshold < 1) (h2 : 1 ≤ cfg.factor)
    (ps : List ConvParams) (hps : Reordered exTId.filter 1 1 ps) (hall : AllLowered cfg lib ⟨1, 0, 1, 0, .relu⟩ 1 1 1 1 exTId ps)
    (cts : Nat → Nat → List (Nat × Nat)) (hcalc : CalcContract cts) (threads B : Nat) (hn : 1 ≤ threads) (m m' : TMem)
    (hrun : RunsTo cfg lib cts threads B ⟨1, 0, 1, 0, .relu⟩ 1 1 1 1 exTId ps (fun _ => -100) m m') :
    tconvMatches exTId = true ∧ tconv (rqT ⟨1, 0, 1, 0, .relu⟩ roundAway) 0 1 1 1 1 exTId (fun _ => -100) [0, 0, 0, 0] = 0 ∧
    m'.out (0, 0, 0) ≤ -99 := by
  have hq : (1 : ℚ) ≤ cfg.factor := by exact_mod_cast h2
  have hnear := (C97_transposed_compiled_partial cfg lib hlib roundAway roundAway_nearest ⟨1, 0, 1, 0, .none⟩ (by norm_num) (by norm_num) (by decide)
    (.inl rfl) 1 1 1 1 exTId (by decide) (by decide) (by decide) (by decide) (by decide) ps hps (by decide) (by decide) (by decide) (by decide)
    (fun _ _ => rfl) (by intro o _ o' _; simpa [exTId, QP.scale] using hq) hall (fun _ => -100) (fun _ _ => by decide) cts hcalc threads B hn m m'
    hrun 0 0 0 ⟨by decide, by decide, by decide, by decide, trivial⟩).2 h1
  have e1 : tconv (rqT ⟨1, 0, 1, 0, .none⟩ roundAway) 0 1 1 1 1 exTId (fun _ => -100) [0, 0, 0, 0] = -100 := by decide +kernel
  rw [e1, abs_le] at hnear
  exact ⟨by decide, by decide +kernel, by omega⟩

end Verif.Conv.Compile
