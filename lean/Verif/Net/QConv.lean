import Verif.Net.QShape
/-! C84: the graph made of a convolution computes what `Net.eval` says. -/
namespace Verif.Net
open Verif.Tensor Verif.Move Verif.MemPlan Verif.Quant Verif.Conv Verif.Conv.Compile

variable {sem : Sem} {iv : List (Ty × List Byte)}

/-! ### Pads -/

theorem padT_map {α β : Type} (g : α → β) (z : α) : ∀ (s n : List Nat) (f : List Nat → α) (idx : List Nat),
    g (padT z s n f idx) = padT (g z) s n (fun i => g (f i)) idx
  | s :: ss, n :: ns, f, i :: idx => by
    unfold padT
    split
    · exact padT_map g z ss ns (fun r => f ((i - s) :: r)) idx
    · rfl
  | [], _, f, _ => by simp [padT]
  | _ :: _, [], f, _ => by simp [padT]
  | _ :: _, _ :: _, f, [] => by simp [padT]

theorem lows_evens : ∀ (v : List Nat) (s : List Nat), v.length = 2 * s.length → TFL.lows v = evens v ∧ PadFits s (TFL.padded s v) (evens v) (odds v)
  | [], [], _ => ⟨rfl, trivial⟩
  | [], _ :: _, h => by simp at h
  | [_], s, h => by simp at h; omega
  | _ :: _ :: _, [], h => by simp at h
  | a :: b :: v, n :: s, h => by
    obtain ⟨h1, h2⟩ := lows_evens v s (by simp at h; omega)
    refine ⟨by simp only [TFL.lows, evens, h1], ?_⟩
    simp only [TFL.padded, evens, odds, PadFits]
    exact ⟨by omega, h2⟩

theorem padded_pos : ∀ (s v : List Nat), v.length = 2 * s.length → (∀ n ∈ s, 0 < n) → ∀ n ∈ TFL.padded s v, 0 < n
  | [], [], _, _ => by simp [TFL.padded]
  | [], _ :: _, h, _ => by simp at h
  | _ :: _, [], h, _ => by simp at h
  | _ :: _, [_], h, _ => by simp at h; omega
  | m :: s, a :: b :: v, h, hp => by
    intro n hn
    simp only [TFL.padded, List.mem_cons] at hn
    rcases hn with rfl | hn
    · have := hp m (by simp); omega
    · exact padded_pos s v (by simp at h; omega) (fun n hn => hp n (by simp [hn])) n hn

/-- The integers in a tensor, `dec` gives the value of the bytes of an element. -/
def tens (dec : List Byte → Int) (t : Ty) (data : List Byte) : Conv.Tensor := fun idx => dec (elemAt t data idx)

/-- What is needed of the encoding with `d` bytes. -/
structure Decodes (d : Nat) (dec : List Byte → Int) : Prop where
  fit : ∀ l, dec (Verif.Net.fit d l) = dec l
  nil : dec [] = 0

def dec8 (l : List Byte) : Int := s8 (l.headD 0)

theorem dec8_ok : Decodes 1 dec8 := ⟨fun l => by cases l <;> rfl, rfl⟩

theorem dec16_ok : Decodes 2 s16 := ⟨fun l => by
  match l with
  | [] => rfl
  | [_] => rfl
  | _ :: _ :: _ => rfl, rfl⟩

theorem pad_estep (dec : List Byte → Int) {d : Nat} {q8 : Bool} (hq : q8 = true → d = 1) {e : Exp} (hg : EGood iv e) (zpi : Int)
    (hz : dec (List.replicate d (UInt8.ofInt zpi)) = zpi) (s : List Nat) (hs : s.length = 4) (hpos : ∀ n ∈ s, 0 < n)
    (vals : List Nat) (hv8 : vals.length = 8) (h6 : vals.getD 6 0 = 0) (v : Nat) {D : List Byte} (hv : EHolds sem iv e v ⟨s, d⟩ D) :
    ∃ D', EStep sem iv e (e.emit ⟨.pad q8 zpi vals, [v], ⟨TFL.padded s vals, d⟩⟩) ⟨TFL.padded s vals, d⟩ D' ∧
      ∀ idx, InShape (TFL.padded s vals) idx → tens dec ⟨TFL.padded s vals, d⟩ D' idx = padT zpi (TFL.lows vals) s (tens dec ⟨s, d⟩ D) idx := by
  obtain ⟨hl, hfit⟩ := lows_evens vals s (by omega)
  have hok : (Kind.pad q8 zpi vals).OK ([(v, (⟨s, d⟩ : Ty), D)].map fun z => (e.ctx iv).getD z.1 (⟨[], 0⟩, false)) ⟨TFL.padded s vals, d⟩ := by
    refine ⟨⟨s, d⟩, ((e.ctx iv).getD v (⟨[], 0⟩, false)).2, ?_, rfl, hfit, hpos, fun h => ⟨hq h, fun _ => .inl h6⟩⟩
    simp only [List.map_cons, List.map_nil]
    rw [← hv.ctx hg]
  have hlen := length_eval (sem := sem) (.pad q8 zpi vals) ⟨TFL.padded s vals, d⟩ [((⟨s, d⟩ : Ty), D)] _ hok (by
    simp only [List.map_cons, List.map_nil]
    rw [hv.ctx hg])
  have hstep := emit_estep (sem := sem) hg (.pad q8 zpi vals) ⟨TFL.padded s vals, d⟩ [(v, ⟨s, d⟩, D)] (by simpa using hv) hok hlen
  refine ⟨_, hstep, ?_⟩
  intro idx hidx
  show dec (elemAt ⟨TFL.padded s vals, d⟩ (bytesOf ⟨TFL.padded s vals, d⟩ (padT (List.replicate d (UInt8.ofInt zpi)) (evens vals) s (elemAt ⟨s, d⟩ D))) idx) = _
  rw [elemAt_bytesOf (⟨TFL.padded s vals, d⟩ : Ty) _ (fun i _ => length_padT (d := d) (by simp) _ _ _ _ fun i => length_elemAt _ _ _) idx hidx]
  rw [padT_map dec, hz, hl]
  rfl

theorem pads_estep (dec : List Byte → Int) {d : Nat} {q8 : Bool} (hq : q8 = true → d = 1) (zpi : Int)
    (hz : dec (List.replicate d (UInt8.ofInt zpi)) = zpi) : ∀ (ps : List PadStep) (s u : List Nat), s.length = 4 → (∀ n ∈ s, 0 < n) → PadsOK s ps u →
    (∀ p ∈ ps, p.vals.getD 6 0 = 0) → ∀ (e : Exp), EGood iv e → ∀ (v : Nat) (D : List Byte), EHolds sem iv e v ⟨s, d⟩ D →
    ∃ D', EStep sem iv e (expandPads q8 d zpi ps e v) ⟨u, d⟩ D' ∧
      ∀ idx, InShape u idx → tens dec ⟨u, d⟩ D' idx = srcVal zpi ps (tens dec ⟨s, d⟩ D) idx
  | [], s, u, _, _, hp, _, e, hg, v, D, hv => by
    have : s = u := hp
    subst this
    exact ⟨D, estep_same hg hv, fun _ _ => rfl⟩
  | p :: ps, s, u, hs, hpos, hp, h6, e, hg, v, D, hv => by
    obtain ⟨h1, h2, h3⟩ := hp
    obtain ⟨D1, hs1, ht1⟩ := pad_estep (sem := sem) dec hq hg zpi hz s hs hpos p.vals h2 (h6 p (by simp)) v hv
    have hl : (TFL.padded s p.vals).length = 4 := by rw [padded_length s _ (by omega)]; exact hs
    obtain ⟨D2, hs2, ht2⟩ := pads_estep dec hq zpi hz ps _ u hl (padded_pos s p.vals (by omega) hpos) h3 (fun q hq => h6 q (by simp [hq])) _ hs1.good _ D1 hs1.holds
    unfold expandPads
    rw [h1]
    refine ⟨D2, hs1.trans hs2, ?_⟩
    intro idx hidx
    rw [ht2 idx hidx]
    simp only [srcVal]
    rw [h1]
    exact srcVal_congr zpi ps _ u _ _ hl h3 ht1 idx hidx

theorem pads_estep8 (zpi : Int) (hz : -128 ≤ zpi ∧ zpi ≤ 127) (ps : List PadStep) (s u : List Nat) (hs : s.length = 4) (hpos : ∀ n ∈ s, 0 < n) (hp : PadsOK s ps u)
    (h6 : ∀ p ∈ ps, p.vals.getD 6 0 = 0) (e : Exp) (hg : EGood iv e) (v : Nat) (D : List Byte) (hv : EHolds sem iv e v ⟨s, 1⟩ D) :
    ∃ D', EStep sem iv e (expandPads true 1 zpi ps e v) ⟨u, 1⟩ D' ∧
      ∀ idx, InShape u idx → tensorOf ⟨u, 1⟩ D' idx = srcVal zpi ps (tensorOf ⟨s, 1⟩ D) idx :=
  pads_estep dec8 (fun _ => rfl) zpi (by
    show s8 (UInt8.ofInt zpi) = zpi
    rw [← toByte_ofInt, s8_toByte hz]) ps s u hs hpos hp h6 e hg v D hv

/-! ### One convolution -/

theorem lowered_congr (lib : Lib) (lo : Lowered) (x y : Tensor) (bt yy xx o : Nat) (nc : Nat) (hnc : lo.mb.nc ≤ nc) (n : Nat)
    (ho : lo.mb.dw = true → o < n) (hc : lo.mb.dw = false → nc ≤ n) (hbt : bt < 1)
    (h : ∀ i, InShape [1, lo.ih, lo.iw, n] i → y i = x i) : lo.run lib y [bt, yy, xx, o] = lo.run lib x [bt, yy, xx, o] := by
  unfold Lowered.run
  simp only [List.getD_cons_zero, List.getD_cons_succ]
  have : (lo.mb.dot o fun a b c => lo.patch y bt yy xx o a b c) = lo.mb.dot o fun a b c => lo.patch x bt yy xx o a b c := by
    unfold MB.dot
    refine Finset.sum_congr rfl fun a ha => Finset.sum_congr rfl fun b hb => Finset.sum_congr rfl fun c hc' => ?_
    have hc' := Finset.mem_range.1 hc'
    congr 1
    unfold Lowered.patch
    beta_reduce
    by_cases hin : lo.Inside (lo.row yy a) (lo.col xx b)
    · rw [if_pos hin, if_pos hin]
      apply h
      obtain ⟨⟨i1, i2⟩, j1, j2⟩ := hin
      refine ⟨hbt, by omega, by omega, ?_, trivial⟩
      cases hd : lo.mb.dw with
      | true => simp only [if_true]; exact ho hd
      | false =>
        simp only [Bool.false_eq_true, if_false]
        have := hc hd
        omega
    · rw [if_neg hin, if_neg hin]
  rw [this]

theorem core_congr {cfg : Cfg} {lib : Lib} {r : ℚ → ℤ} {t : Types} (hin : 0 < t.inS) (hout : 0 < t.outS) {s0 : List Nat} {l : Leaf} (ok : l.OK s0) (x y : Tensor)
    (h : ∀ i, InShape [1, l.ih, l.iw, l.ic] i → y i = srcVal t.zpi l.src x i) (idx : List Nat) (hidx : InShape [1, l.oh, l.ow, l.oc] idx) :
    ({ l with src := [] } : Leaf).core cfg lib r t y idx = l.core cfg lib r t x idx := by
  have ok' : ({ l with src := [] } : Leaf).OK [1, l.ih, l.iw, l.ic] :=
    ⟨rfl, ok.ch, ok.conv, ok.dwise, ok.kh, ok.kw, ok.sh, ok.sw, ok.dh, ok.dwf, ok.ih, ok.iw, ok.oh, ok.ow, ok.scales, ok.zp, ok.small⟩
  unfold Leaf.core
  have hf : ({ l with src := [] } : Leaf).fake t = l.fake t := rfl
  rw [hf]
  cases hl : (if fakeApplies (l.fake t) then lower cfg lib (l.fake t) else none) with
  | none =>
    show ({ l with src := [] } : Leaf).value (rqT t r) t.zpi y idx = l.value (rqT t r) t.zpi x idx
    obtain ⟨bt, yy, xx, o, rfl, hbt, hy, hxx, ho⟩ := in4 hidx
    have ho' : o < ({ l with src := [] } : Leaf).oc := ho
    rw [value_eq ok _ _ x ho, value_eq ok' _ _ y ho']
    dsimp only [srcVal]
    congr 2
    apply accum_congr
    intro a ha b hb iy ix hiy hix c hc
    rw [h [bt, iy, ix, if l.dw then o else c] ⟨hbt, tap_lt hiy, tap_lt hix, chan_lt ok ho hc, trivial⟩]
  | some lo =>
    have hlo : lower cfg lib (l.fake t) = some lo := by
      by_cases h : fakeApplies (l.fake t) = true
      · rwa [if_pos h] at hl
      · rw [if_neg h] at hl; cases hl
    obtain ⟨-, -, -, -, -, -, e1, e2, -, -, -, -, emb, -⟩ := lower_spec (fake_ok ok hin hout) hlo
    obtain ⟨bt, yy, xx, o, rfl, hbt, hy, hxx, ho⟩ := in4 hidx
    show lo.run lib y _ = lo.run lib (srcVal t.zpi l.src x) _
    have ei : lo.ih = l.ih := e1
    have ew : lo.iw = l.iw := e2
    have hdw : lo.mb.dw = l.dw := by rw [emb]; rfl
    refine lowered_congr lib lo _ _ bt yy xx o lo.mb.nc (le_refl _) l.ic ?_ ?_ hbt (by rw [ei, ew]; exact h)
    · intro hd
      rw [hdw] at hd
      unfold Leaf.oc at ho
      rw [hd] at ho
      rw [ok.ch]
      simpa using ho
    · intro hd
      rw [hdw] at hd
      rw [emb]
      unfold mulsBias MB.nc libShape Leaf.fake
      simp [hd]

theorem value_range' {s0 : List Nat} {l : Leaf} (ok : l.OK s0) (t : Types) (ht : t.act = .none ∨ t.act = .relu) (hz : -128 ≤ t.zpo ∧ t.zpo ≤ 127) (r : ℚ → ℤ)
    (x : Tensor) {oh ow : Nat} (idx : List Nat)
    (hidx : InShape [1, oh, ow, l.oc] idx) : -128 ≤ l.value (rqT t r) t.zpi x idx ∧ l.value (rqT t r) t.zpi x idx ≤ 127 := by
  obtain ⟨bt, y, xx, o, rfl, hbt, hy, hxx, ho⟩ := in4 hidx
  rw [value_eq ok _ _ x ho]
  unfold rqT actLo actHi clamp
  rcases ht with ht | ht <;> rw [ht] <;> dsimp only <;> omega

theorem core_range {cfg : Cfg} {lib : Lib} {s0 : List Nat} {l : Leaf} (ok : l.OK s0) (t : Types) (ht : t.act = .none ∨ t.act = .relu)
    (hz : -128 ≤ t.zpo ∧ t.zpo ≤ 127) (r : ℚ → ℤ) (x : Tensor) (idx : List Nat) (hidx : InShape [1, l.oh, l.ow, l.oc] idx) :
    -128 ≤ l.core cfg lib r t x idx ∧ l.core cfg lib r t x idx ≤ 127 := by
  unfold Leaf.core
  cases (if fakeApplies (l.fake t) then lower cfg lib (l.fake t) else none) with
  | none => exact value_range' ok t ht hz r x idx hidx
  | some lo => exact lowered_range _ _ _ _

theorem relu_quant (t : Types) (ho : 0 < t.outS) (hz : -128 ≤ t.zpo ∧ t.zpo ≤ 127) (q : Int) (hq : -128 ≤ q ∧ q ≤ 127) :
    XC.quantR ⟨t.outS, t.zpo⟩ (XC.Activation.relu.apply ((⟨t.outS, t.zpo⟩ : XC.QI8).deq q)) = reluVal t q := by
  have hs : (0 : ℝ) < (t.outS : ℝ) := by exact_mod_cast ho
  rw [reluVal_eq t ho hz q hq]
  have hrelu : XC.Activation.relu.apply ((⟨t.outS, t.zpo⟩ : XC.QI8).deq q) = (⟨t.outS, t.zpo⟩ : XC.QI8).deq (max q t.zpo) := by
    unfold XC.Activation.apply XC.QI8.deq
    dsimp only
    rcases le_total q t.zpo with h | h
    · rw [max_eq_right h, sub_self, mul_zero]
      apply max_eq_right
      have : (q : ℝ) ≤ t.zpo := by exact_mod_cast h
      nlinarith
    · rw [max_eq_left h]
      apply max_eq_left
      have : (t.zpo : ℝ) ≤ q := by exact_mod_cast h
      nlinarith
  rw [hrelu]
  exact quantR_deq _ hs _ (by omega)

/-- Contracts of the kernels of convolution number `i`. -/
def KeyOK (sem : Sem) (R : Rt) (t : Types) (j i : Nat) (l : Leaf) : Prop :=
  (∀ ins, sem (Nat.pair j (3 * i)) ins = convKernel R t l ins) ∧ ∀ ins, sem (Nat.pair j (3 * i + 2)) ins = lookupKernel ins

/-- The value of one convolution on its (padded) operand. -/
def convValue (R : Rt) (t : Types) (l : Leaf) (data : List Byte) : List Byte :=
  bytesOf ⟨[1, l.oh, l.ow, l.oc], 1⟩ fun idx =>
    [toByte (({ l with src := [] } : Leaf).core R.cfg R.lib R.r (coreTypes t l) (tensorOf ⟨[1, l.ih, l.iw, l.ic], 1⟩ data) idx)]

theorem lower_dims {cfg : Cfg} {lib : Lib} {f : Fake} {lo : Lowered} (h : lower cfg lib f = some lo) :
    lo.ih = f.ih ∧ lo.iw = f.iw ∧ lo.ic = f.ic ∧ lo.oc = f.oc := by
  unfold lower at h
  split at h
  · cases h
  · split at h
    · cases h
    · split at h
      · cases h
      · have := Option.some.inj h
        subst this
        exact ⟨rfl, rfl, rfl, rfl⟩

/-- The kernel of a convolution on its data and its constants. -/
theorem convKernel_value {R : Rt} {dom : MulArgs → Prop} (hR : R.OK dom) (t : Types) (l : Leaf) (data : List Byte) (rest : List (List Byte))
    (hrest : loweredLeaf R t l = none → rest = []) : convKernel R t l (data :: (leafConsts R t l ++ rest)) = convValue R t l data := by
  unfold convKernel leafConsts convValue Leaf.core
  have hf : ({ l with src := [] } : Leaf).fake (coreTypes t l) = l.fake (coreTypes t l) := rfl
  rw [hf]
  cases hl : loweredLeaf R t l with
  | none =>
    have hl' := hl
    unfold loweredLeaf at hl'
    rw [hl']
    rw [hrest hl, List.append_nil]
    exact hR.tflConv _ _ _
  | some lo =>
    have hl' := hl
    unfold loweredLeaf at hl'
    rw [hl']
    have hd : lo.ih = l.ih ∧ lo.iw = l.iw ∧ lo.ic = l.ic ∧ lo.oc = l.oc := by
      split at hl'
      · exact lower_dims hl'
      · cases hl'
    have := hR.conv lo l.oh l.ow data rest
    rw [hd.1, hd.2.1, hd.2.2.1, hd.2.2.2] at this
    exact this

/-- Constants. -/
theorem consts_estep : ∀ (cs : List (List Byte)) (e : Exp), EGood iv e → (∃ extra, (expandConsts cs e).1 = ⟨e.n0, e.nodes ++ extra⟩) ∧
    EGood iv (expandConsts cs e).1 ∧ ∃ zs : List (Nat × Ty × List Byte), zs.map (·.1) = (expandConsts cs e).2 ∧ zs.map (·.2.2) = cs ∧
      ∀ z ∈ zs, EHolds sem iv (expandConsts cs e).1 z.1 z.2.1 z.2.2
  | [], e, hg => ⟨⟨[], by simp [expandConsts]⟩, hg, [], rfl, rfl, by simp⟩
  | c :: cs, e, hg => by
    obtain ⟨⟨x1, h1⟩, h2, zs, h3, h4, h5⟩ := consts_estep cs e hg
    have hc := (const_estep (sem := sem) h2 c ⟨[c.length], 1⟩ (by simp [Ty.size])).1
    refine ⟨?_, hc.good, ((expandConsts (c :: cs) e).2.headD 0, ⟨[c.length], 1⟩, c) :: zs, ?_, ?_, ?_⟩
    · obtain ⟨x2, h6⟩ := hc.ext
      refine ⟨x1 ++ x2, ?_⟩
      unfold expandConsts
      dsimp only
      rw [h6, h1]
      simp
    · unfold expandConsts
      dsimp only
      rw [List.map_cons, h3]
      rfl
    · rw [List.map_cons, h4]
    · intro z hz
      rcases List.mem_cons.1 hz with rfl | hz
      · exact hc.holds
      · exact (h5 z hz).mono h2 hc.ext

/-- An operator with a scratch buffer. -/
theorem scratch_estep {e : Exp} (hg : EGood iv e) (sc key skey : Nat) (ty : Ty) (zs : List (Nat × Ty × List Byte))
    (hz : ∀ z ∈ zs, EHolds sem iv e z.1 z.2.1 z.2.2) {D : List Byte} (h : ∀ rest, (sc = 0 → rest = []) → sem key (zs.map (·.2.2) ++ rest) = D)
    (hl : D.length = ty.size) : EStep sem iv e (expandScratch e sc key skey (zs.map (·.1)) ty) ty D := by
  unfold expandScratch
  by_cases hs : 0 < sc
  · rw [if_pos hs]
    have h1 := emit_estep (sem := sem) hg (.other false skey) ⟨[sc], 1⟩ [] (by simp) (by intro h; cases h) (length_eval_other _ _ _ _)
    have h2 := other_estep (sem := sem) h1.good false key ty (zs ++ [(_, ⟨[sc], 1⟩, _)]) (by
        intro z hz'
        rcases List.mem_append.1 hz' with hz' | hz'
        · exact (hz z hz').mono hg h1.ext
        · rw [List.mem_singleton.1 hz']
          exact h1.holds) (by intro h; cases h) (D := D) (by
        rw [List.map_append]
        exact h _ (by omega)) hl
    rw [List.map_append] at h2
    exact h1.trans h2
  · rw [if_neg hs]
    refine other_estep (sem := sem) hg false key ty zs hz (by intro h; cases h) ?_ hl
    have := h [] (fun _ => rfl)
    rwa [List.append_nil] at this

/-- What is assumed of the types of a convolution. -/
structure TypesOK (t : Types) : Prop where
  inS : 0 < t.inS
  outS : 0 < t.outS
  zpi : -128 ≤ t.zpi ∧ t.zpi ≤ 127
  zpo : -128 ≤ t.zpo ∧ t.zpo ≤ 127
  act : t.act = .none ∨ t.act = .relu

theorem leaf_estep {R : Rt} {dom : MulArgs → Prop} (hR : R.OK dom) (t : Types) (ht : TypesOK t) (j i : Nat) {s0 : List Nat} (hs0 : s0.length = 4) (hpos : ∀ n ∈ s0, 0 < n) {l : Leaf} (ok : l.OK s0)
    (pb : PadsBehind l) (hk : KeyOK sem R t j i l) {e : Exp} (hg : EGood iv e) (v : Nat) {D : List Byte} (hv : EHolds sem iv e v ⟨s0, 1⟩ D) :
    ∃ D', EStep sem iv e (expandLeaf R t j i l e v) ⟨[1, l.oh, l.ow, l.oc], 1⟩ D' ∧
      ∀ idx, InShape [1, l.oh, l.ow, l.oc] idx → tensorOf ⟨[1, l.oh, l.ow, l.oc], 1⟩ D' idx = l.run R.cfg R.lib R.r t (tensorOf ⟨s0, 1⟩ D) idx := by
  obtain ⟨D1, hs1, ht1⟩ := pads_estep8 (sem := sem) t.zpi ht.zpi l.src s0 _ hs0 hpos ok.pads pb e hg v D hv
  set p := expandPads true 1 t.zpi l.src e v with hp
  set ty : Ty := ⟨[1, l.oh, l.ow, l.oc], 1⟩ with hty
  have hkl : (convValue R t l D1).length = ty.size := length_bytesOf _ _ fun _ => rfl
  -- the constants
  obtain ⟨w1, w2, zs, w3, w4, w5⟩ := consts_estep (sem := sem) (leafConsts R t l) p.1 hs1.good
  obtain ⟨w, hw⟩ : ∃ w, w = expandConsts (leafConsts R t l) p.1 := ⟨_, rfl⟩
  rw [← hw] at w1 w2 w3 w5
  -- the convolution
  have hc : EStep sem iv w.1 (expandScratch w.1 (scratchOf R (loweredLeaf R t l)) (Nat.pair j (3 * i)) (Nat.pair j (3 * i + 1)) (p.2 :: w.2) ty) ty (convValue R t l D1) := by
    rw [← w3]
    refine scratch_estep (sem := sem) w2 _ _ _ ty ((p.2, ⟨[1, l.ih, l.iw, l.ic], 1⟩, D1) :: zs) ?_ ?_ hkl
    · intro z hz
      rcases List.mem_cons.1 hz with rfl | hz
      · exact hs1.holds.mono hs1.good w1
      · exact w5 z hz
    · intro rest hrest
      rw [hk.1, List.map_cons, w4, List.cons_append]
      refine convKernel_value hR t l D1 rest fun hn => hrest ?_
      rw [hn]
      rfl
  have hc : EStep sem iv p.1 (expandScratch w.1 (scratchOf R (loweredLeaf R t l)) (Nat.pair j (3 * i)) (Nat.pair j (3 * i + 1)) (p.2 :: w.2) ty) ty (convValue R t l D1) := by
    obtain ⟨x1, h1⟩ := w1
    obtain ⟨x2, h2⟩ := hc.ext
    refine ⟨⟨x1 ++ x2, ?_⟩, hc.good, hc.holds⟩
    rw [h2, h1]
    simp
  have hct : (coreTypes t l).act = .none ∨ (coreTypes t l).act = .relu := by
    unfold coreTypes
    split
    · exact .inl rfl
    · exact ht.act
  have hct' : (coreTypes t l).inS = t.inS ∧ (coreTypes t l).outS = t.outS ∧ (coreTypes t l).zpi = t.zpi ∧ (coreTypes t l).zpo = t.zpo := by
    unfold coreTypes
    split <;> exact ⟨rfl, rfl, rfl, rfl⟩
  have hval : ∀ idx, InShape [1, l.oh, l.ow, l.oc] idx → tensorOf ty (convValue R t l D1) idx = l.core R.cfg R.lib R.r (coreTypes t l) (tensorOf ⟨s0, 1⟩ D) idx := by
    intro idx hidx
    unfold convValue
    rw [tensorOf_bytes ty rfl _ idx hidx, core_congr (by rw [hct'.1]; exact ht.inS) (by rw [hct'.2.1]; exact ht.outS) ok (tensorOf ⟨s0, 1⟩ D) _
      (by rw [hct'.2.2.1]; exact ht1) idx hidx]
    exact s8_toByte (core_range ok _ hct (by rw [hct'.2.2.2]; exact ht.zpo) _ _ idx hidx)
  unfold expandLeaf
  dsimp only
  rw [← hp, ← hw]
  by_cases hr : reluSplitOff (l.fake t) = true
  · rw [if_pos hr]
    have hs : (0 : ℝ) < (t.outS : ℝ) := by exact_mod_cast ht.outS
    obtain ⟨D2, hs2, ht2⟩ := lookup_estep (sem := sem) hc.good (Nat.pair j (3 * i + 2)) hk.2 .relu ⟨t.outS, t.zpo⟩ ⟨t.outS, t.zpo⟩ hs (by
      intro q h1 h2
      unfold XC.Activation.apply XC.QI8.deq
      dsimp only
      have := ht.zpo
      have hq : |(q : ℝ) - t.zpo| ≤ 255 := by
        have : |q - t.zpo| ≤ 255 := by rw [abs_le]; omega
        exact_mod_cast this
      rw [abs_of_nonneg (le_max_right _ _)]
      apply max_le
      · rw [abs_le] at hq; nlinarith
      · positivity) _ ty rfl hc.holds
    refine ⟨D2, (hs1.trans hc).trans hs2, ?_⟩
    intro idx hidx
    rw [ht2 idx hidx, hval idx hidx]
    unfold Leaf.run
    rw [if_pos hr]
    have hcore : coreTypes t l = { t with act := .none } := by unfold coreTypes; rw [if_pos hr]
    rw [hcore]
    exact relu_quant t ht.outS ht.zpo _ (core_range ok { t with act := .none } (.inl rfl) ht.zpo _ _ idx hidx)
  · rw [if_neg hr]
    refine ⟨_, hs1.trans hc, ?_⟩
    intro idx hidx
    rw [hval idx hidx]
    unfold Leaf.run
    rw [if_neg hr]
    have hcore : coreTypes t l = t := by unfold coreTypes; rw [if_neg hr]
    rw [hcore]

/-! ### The graph -/

theorem fit_head (l : List Byte) : (fit 1 l).headD 0 = l.headD 0 := by
  cases l <;> rfl

theorem concat_dec {d : Nat} {dec : List Byte → Int} (hd : Decodes d dec) (ax : Nat) : ∀ (zs : List (Nat × T)) (idx : List Nat),
    dec (concatT ax zs idx) = concatT ax (zs.map fun z => (z.1, fun i => dec (z.2 i))) idx
  | [], idx => hd.nil
  | z :: zs, idx => by
    obtain ⟨n, f⟩ := z
    simp only [concatT, List.map_cons]
    split
    · rfl
    · exact concat_dec hd ax zs _

theorem concat_estep {d : Nat} {dec : List Byte → Int} (hd : Decodes d dec) {e : Exp} (hg : EGood iv e) (oh ow c : Nat) (zs : List (Nat × Ty × List Byte)) (hz : ∀ z ∈ zs, EHolds sem iv e z.1 z.2.1 z.2.2)
    (hty : ∀ z ∈ zs, ∃ n, z.2.1 = ⟨[1, oh, ow, n], d⟩) (hc : (zs.map fun z => z.2.1.shape.getD 3 0).sum = c) :
    ∃ D, EStep sem iv e (e.emit ⟨.concat 3, zs.map (·.1), ⟨[1, oh, ow, c], d⟩⟩) ⟨[1, oh, ow, c], d⟩ D ∧
      ∀ idx, InShape [1, oh, ow, c] idx →
        tens dec ⟨[1, oh, ow, c], d⟩ D idx = concatT 3 (zs.map fun z => (z.2.1.shape.getD 3 0, tens dec z.2.1 z.2.2)) idx := by
  have hmap : ((zs.map fun z => (e.ctx iv).getD z.1 (⟨[], 0⟩, false)).map (·.1)) = zs.map (·.2.1) := by
    rw [List.map_map]
    apply List.map_congr_left
    intro z hz'
    exact (hz z hz').ctx hg
  have hok : (Kind.concat 3).OK (zs.map fun z => (e.ctx iv).getD z.1 (⟨[], 0⟩, false)) ⟨[1, oh, ow, c], d⟩ := by
    refine ⟨[1, oh, ow], [], ⟨?_, ?_⟩, .inl rfl⟩
    · rw [hmap]
      intro a ha
      obtain ⟨z, hz', rfl⟩ := List.mem_map.1 ha
      obtain ⟨n, hn⟩ := hty z hz'
      exact ⟨n, hn⟩
    · rw [hmap, List.map_map]
      show _ = (⟨[1, oh, ow, (zs.map fun z => z.2.1.shape.getD 3 0).sum], d⟩ : Ty)
      rw [hc]
  have hlen := length_eval (sem := sem) (.concat 3) ⟨[1, oh, ow, c], d⟩ (zs.map (·.2)) _ hok (by rw [hmap, List.map_map]; rfl)
  have hstep := emit_estep (sem := sem) hg (.concat 3) ⟨[1, oh, ow, c], d⟩ zs hz hok hlen
  refine ⟨_, hstep, ?_⟩
  intro idx hidx
  show dec (elemAt ⟨[1, oh, ow, c], d⟩ (bytesOf ⟨[1, oh, ow, c], d⟩ (fun idx => fit d (concatT 3
    (((zs.map (·.2)).map fun x => (x.1, elemAt x.1 x.2)).map fun x => (x.1.shape.getD 3 0, x.2)) idx))) idx) = _
  rw [elemAt_bytesOf (⟨[1, oh, ow, c], d⟩ : Ty) _ (fun i _ => length_fit _ _) idx hidx, hd.fit, concat_dec hd, List.map_map, List.map_map, List.map_map]
  rfl

theorem slice_estep {d : Nat} (dec : List Byte → Int) {e : Exp} (hg : EGood iv e) (oh ow c c' : Nat) (hoh : 0 < oh) (how : 0 < ow) (hc' : 0 < c') (hc : c ≤ c') (size : List Nat) (hsz : size.length = 4)
    (v : Nat) {D : List Byte} (hv : EHolds sem iv e v ⟨[1, oh, ow, c'], d⟩ D) :
    ∃ D', EStep sem iv e (e.emit ⟨.slice [0, 0, 0, 0] size, [v], ⟨[1, oh, ow, c], d⟩⟩) ⟨[1, oh, ow, c], d⟩ D' ∧
      ∀ idx, InShape [1, oh, ow, c] idx → tens dec ⟨[1, oh, ow, c], d⟩ D' idx = sliceT [0, 0, 0, 0] (tens dec ⟨[1, oh, ow, c'], d⟩ D) idx := by
  have hok : (Kind.slice [0, 0, 0, 0] size).OK ([(v, (⟨[1, oh, ow, c'], d⟩ : Ty), D)].map fun z => (e.ctx iv).getD z.1 (⟨[], 0⟩, false)) ⟨[1, oh, ow, c], d⟩ := by
    refine ⟨⟨[1, oh, ow, c'], d⟩, ((e.ctx iv).getD v (⟨[], 0⟩, false)).2, ?_, rfl, ?_, by rw [hsz]; rfl, ?_⟩
    · simp only [List.map_cons, List.map_nil]
      rw [← hv.ctx hg]
    · exact ⟨by omega, by omega, by omega, by omega, trivial⟩
    · intro n hn
      simp only [List.mem_cons, List.not_mem_nil, or_false] at hn
      omega
  have hlen := length_eval (sem := sem) (.slice [0, 0, 0, 0] size) ⟨[1, oh, ow, c], d⟩ [((⟨[1, oh, ow, c'], d⟩ : Ty), D)] _ hok (by
    simp only [List.map_cons, List.map_nil]
    rw [hv.ctx hg])
  have hstep := emit_estep (sem := sem) hg (.slice [0, 0, 0, 0] size) ⟨[1, oh, ow, c], d⟩ [(v, ⟨[1, oh, ow, c'], d⟩, D)] (by simpa using hv) hok hlen
  refine ⟨_, hstep, ?_⟩
  intro idx hidx
  show dec (elemAt ⟨[1, oh, ow, c], d⟩ (bytesOf ⟨[1, oh, ow, c], d⟩ (sliceT [0, 0, 0, 0] (elemAt ⟨[1, oh, ow, c'], d⟩ D))) idx) = _
  rw [elemAt_bytesOf (⟨[1, oh, ow, c], d⟩ : Ty) (sliceT [0, 0, 0, 0] (elemAt ⟨[1, oh, ow, c'], d⟩ D)) (fun i _ => length_elemAt (⟨[1, oh, ow, c'], d⟩ : Ty) _ _) idx hidx]
  rfl

/-- The operators made of a convolution compute what `Net.eval` says, if those made of each part do. -/
theorem graph_estep {d : Nat} {dec : List Byte → Int} (hd : Decodes d dec) (leaf : Nat → Leaf → Exp → Nat → Exp × Nat) (run : Leaf → Tensor) {s0 : List Nat} {oh ow : Nat}
    (hoh : 0 < oh) (how : 0 < ow) (D : List Byte) (g : Conv.Compile.Net) : ∀ (i : Nat) (e : Exp) (v : Nat), EGood iv e → EHolds sem iv e v ⟨s0, d⟩ D → Shaped s0 oh ow g →
    (∀ k l, (leaves g)[k]? = some l → Shaped s0 oh ow (.conv l) → ∀ (e : Exp) (v : Nat), EGood iv e → EHolds sem iv e v ⟨s0, d⟩ D →
      ∃ D', EStep sem iv e (leaf (i + k) l e v) ⟨[1, l.oh, l.ow, l.oc], d⟩ D' ∧
        ∀ idx, InShape [1, l.oh, l.ow, l.oc] idx → tens dec ⟨[1, l.oh, l.ow, l.oc], d⟩ D' idx = run l idx) →
    (¬ isNil g → ∃ D', EStep sem iv e (expandGraph leaf d oh ow g i e v) ⟨[1, oh, ow, channels g], d⟩ D' ∧
      ∀ idx, InShape [1, oh, ow, channels g] idx → tens dec ⟨[1, oh, ow, channels g], d⟩ D' idx = g.eval run idx) ∧
    (isChain g → ∃ zs : List (Nat × Ty × List Byte), zs.map (·.1) = (expandCats leaf d oh ow g i e v).2 ∧
      (∃ extra, (expandCats leaf d oh ow g i e v).1 = ⟨e.n0, e.nodes ++ extra⟩) ∧ EGood iv (expandCats leaf d oh ow g i e v).1 ∧
      (∀ z ∈ zs, EHolds sem iv (expandCats leaf d oh ow g i e v).1 z.1 z.2.1 z.2.2) ∧ (∀ z ∈ zs, ∃ n, z.2.1 = ⟨[1, oh, ow, n], d⟩) ∧
      (zs.map fun z => z.2.1.shape.getD 3 0).sum = channels g ∧
      ∀ idx, InShape [1, oh, ow, channels g] idx → concatT 3 (zs.map fun z => (z.2.1.shape.getD 3 0, tens dec z.2.1 z.2.2)) idx = g.eval run idx) := by
  induction g with
  | conv l =>
    intro i e v hg hv hs hk
    refine ⟨fun _ => ?_, fun h => h.elim⟩
    have h := hk 0 l rfl hs e v hg hv
    obtain ⟨ok, rfl, rfl, pb⟩ := hs
    exact h
  | slice s g ih =>
    intro i e v hg hv hs hk
    refine ⟨fun _ => ?_, fun h => h.elim⟩
    obtain ⟨h1, h2, h3, h4, h5, h6⟩ := hs
    obtain ⟨D1, hs1, ht1⟩ := (ih i e v hg hv h6 hk).1 h5
    obtain ⟨D2, hs2, ht2⟩ := slice_estep (sem := sem) dec hs1.good oh ow (s.size.getD 3 0) (channels g) hoh how h3 h4 s.size h2 _ hs1.holds
    refine ⟨D2, ?_, ?_⟩
    · unfold expandGraph
      dsimp only
      rw [h1]
      exact hs1.trans hs2
    · intro idx hidx
      simp only [channels] at hidx ⊢
      rw [ht2 idx hidx]
      obtain ⟨bt, y, xx, o, rfl, hbt, hy, hxx, ho⟩ := in4 hidx
      simp only [Conv.Compile.Net.eval, sliceT, h1, List.zipWith_cons_cons, List.zipWith_nil_right, Nat.zero_add]
      exact ht1 [bt, y, xx, o] ⟨hbt, hy, hxx, by omega, trivial⟩
  | nil =>
    intro i e v hg hv hs hk
    refine ⟨fun h => absurd trivial h, fun _ => ⟨[], rfl, ⟨[], by simp [expandCats]⟩, hg, by simp, by simp, rfl, ?_⟩⟩
    intro idx _
    rfl
  | cat n a b iha ihb =>
    intro i e v hg hv hs hk
    obtain ⟨h1, h2, h3, h4, h5⟩ := hs
    obtain ⟨D1, hs1, ht1⟩ := (iha i e v hg hv h3 (by
      intro k l hl
      refine hk k l ?_
      simp only [leaves]
      rw [List.getElem?_append_left (by
        obtain ⟨hlt, _⟩ := List.getElem?_eq_some_iff.1 hl
        exact hlt)]
      exact hl)).1 h2
    rw [h1] at hs1 ht1
    obtain ⟨zs, z1, z2, z3, z4, z5, z6, z7⟩ := (ihb (i + (leaves a).length) (expandGraph leaf d oh ow a i e v).1 v hs1.good (hv.mono hg hs1.ext) h5 (by
      intro k l hl
      have := hk ((leaves a).length + k) l (by
        simp only [leaves]
        rw [List.getElem?_append_right (by omega), Nat.add_sub_cancel_left]
        exact hl)
      rw [Nat.add_assoc]
      exact this)).2 h4
    -- the operands of the concatenation
    have hall : ∃ zs' : List (Nat × Ty × List Byte), zs' = ((expandGraph leaf d oh ow a i e v).2, ⟨[1, oh, ow, n], d⟩, D1) :: zs := ⟨_, rfl⟩
    obtain ⟨zs', hzs'⟩ := hall
    have y1 : zs'.map (·.1) = (expandGraph leaf d oh ow a i e v).2 :: (expandCats leaf d oh ow b (i + (leaves a).length) (expandGraph leaf d oh ow a i e v).1 v).2 := by
      rw [hzs', List.map_cons, z1]
    have y2 : ∃ extra, (expandCats leaf d oh ow b (i + (leaves a).length) (expandGraph leaf d oh ow a i e v).1 v).1 = ⟨e.n0, e.nodes ++ extra⟩ := by
      obtain ⟨x1, hx1⟩ := hs1.ext
      obtain ⟨x2, hx2⟩ := z2
      refine ⟨x1 ++ x2, ?_⟩
      rw [hx2, hx1]
      simp
    have y4 : ∀ z ∈ zs', EHolds sem iv (expandCats leaf d oh ow b (i + (leaves a).length) (expandGraph leaf d oh ow a i e v).1 v).1 z.1 z.2.1 z.2.2 := by
      intro z hz
      rw [hzs'] at hz
      rcases List.mem_cons.1 hz with rfl | hz
      · exact hs1.holds.mono hs1.good z2
      · exact z4 z hz
    have y5 : ∀ z ∈ zs', ∃ n, z.2.1 = ⟨[1, oh, ow, n], d⟩ := by
      intro z hz
      rw [hzs'] at hz
      rcases List.mem_cons.1 hz with rfl | hz
      · exact ⟨n, rfl⟩
      · exact z5 z hz
    have y6 : (zs'.map fun z => z.2.1.shape.getD 3 0).sum = n + channels b := by
      rw [hzs', List.map_cons, List.sum_cons, z6]
      rfl
    have y7 : ∀ idx, InShape [1, oh, ow, n + channels b] idx →
        concatT 3 (zs'.map fun z => (z.2.1.shape.getD 3 0, tens dec z.2.1 z.2.2)) idx =
          (Conv.Compile.Net.cat n a b).eval run idx := by
      intro idx hidx
      obtain ⟨bt, y, xx, o, rfl, hbt, hy, hxx, ho⟩ := in4 hidx
      rw [hzs']
      simp only [List.map_cons, concatT, Conv.Compile.Net.eval, List.getD_cons_zero, List.getD_cons_succ, List.set_cons_succ, List.set_cons_zero]
      by_cases hc : o < n
      · rw [if_pos hc, if_pos hc]
        exact ht1 [bt, y, xx, o] ⟨hbt, hy, hxx, hc, trivial⟩
      · rw [if_neg hc, if_neg hc]
        exact z7 [bt, y, xx, o - n] ⟨hbt, hy, hxx, by omega, trivial⟩
    refine ⟨fun _ => ?_, fun _ => ?_⟩
    · obtain ⟨D2, hs2, ht2⟩ := concat_estep (sem := sem) hd z3 oh ow (n + channels b) zs' y4 y5 y6
      refine ⟨D2, ?_, ?_⟩
      · unfold expandGraph
        dsimp only
        rw [← y1]
        obtain ⟨x1, hx1⟩ := y2
        obtain ⟨x2, hx2⟩ := hs2.ext
        refine ⟨⟨x1 ++ x2, ?_⟩, hs2.good, hs2.holds⟩
        rw [hx2, hx1]
        simp
      · intro idx hidx
        simp only [channels] at hidx ⊢
        rw [ht2 idx hidx]
        exact y7 idx hidx
    · refine ⟨zs', ?_, ?_, ?_, ?_, y5, y6, y7⟩
      · unfold expandCats; exact y1
      · unfold expandCats; exact y2
      · unfold expandCats; exact z3
      · unfold expandCats; exact y4

theorem net_estep {R : Rt} {dom : MulArgs → Prop} (hR : R.OK dom) (t : Types) (ht : TypesOK t) (j : Nat) {s0 : List Nat} (hs0 : s0.length = 4) (hpos : ∀ n ∈ s0, 0 < n) {oh ow : Nat} (hoh : 0 < oh)
    (how : 0 < ow) (g : Conv.Compile.Net) (i : Nat) (e : Exp) (v : Nat) (D : List Byte) (hg : EGood iv e) (hv : EHolds sem iv e v ⟨s0, 1⟩ D) (hs : Shaped s0 oh ow g)
    (hk : ∀ k l, (leaves g)[k]? = some l → KeyOK sem R t j (i + k) l) (hn : ¬ isNil g) :
    ∃ D', EStep sem iv e (expandConv R t j oh ow g i e v) ⟨[1, oh, ow, channels g], 1⟩ D' ∧
      ∀ idx, InShape [1, oh, ow, channels g] idx →
        tensorOf ⟨[1, oh, ow, channels g], 1⟩ D' idx = g.eval (fun l => l.run R.cfg R.lib R.r t (tensorOf ⟨s0, 1⟩ D)) idx :=
  (graph_estep dec8_ok (expandLeaf R t j) (fun l => l.run R.cfg R.lib R.r t (tensorOf ⟨s0, 1⟩ D)) hoh how D g i e v hg hv hs fun k l hl hs e v hg hv => by
    obtain ⟨ok, rfl, rfl, pb⟩ := hs
    exact leaf_estep hR t ht j _ hs0 hpos ok pb (hk k l hl) hg v hv).1 hn

end Verif.Net
