import Verif.Net.QOps
import Mathlib.Logic.Encodable.Basic
import Mathlib.Logic.Equiv.List
/-! C113: proofs about binarised operators. -/
namespace Verif.Net
open Verif.Tensor Verif.Move Verif.MemPlan Verif.Quant Verif.Conv Verif.Conv.Compile Verif.Image

variable {sem : Sem} {iv : List (Ty × List Byte)}

/-! ### The operand -/

theorem LConv.padded_eq {L : LConv} (ok : L.OK) (hv : L.f.valid = false) : ∃ b1 a1 b2 a2 : Nat,
    (b1 : Int) = sameBefore L.f.ih L.f.kh L.f.sh L.f.dh ∧ (a1 : Int) = sameAfter L.f.ih L.f.kh L.f.sh L.f.dh ∧
    (b2 : Int) = sameBefore L.f.iw L.f.kw L.f.sw L.f.dw ∧ (a2 : Int) = sameAfter L.f.iw L.f.kw L.f.sw L.f.dw ∧
    L.pads = [⟨[0, 0, b1, a1, b2, a2, 0, 0], [1, L.f.ih, L.f.iw, L.f.words]⟩] ∧
    L.inner = { L.f with valid := true, ih := L.f.ih + b1 + a1, iw := L.f.iw + b2 + a2 } := by
  have hih := ok.ih; have hiw := ok.iw; have hkh := ok.kh; have hkw := ok.kw
  have hsh := ok.sh; have hsw := ok.sw; have hdh := ok.dh; have hdw := ok.dw
  have hp : L.padded = true := by unfold LConv.padded; rw [hv, ok.pad hv]; rfl
  obtain ⟨-, -, -, f1, f2, -⟩ := samePad_facts (n := (L.f.ih : Int)) (k := L.f.kh) (s := L.f.sh) (d := L.f.dh)
    (by omega) (by omega) (by omega) (by omega)
  obtain ⟨-, -, -, g1, g2, -⟩ := samePad_facts (n := (L.f.iw : Int)) (k := L.f.kw) (s := L.f.sw) (d := L.f.dw)
    (by omega) (by omega) (by omega) (by omega)
  have e : ∀ m k d s : Int, TFL.windowedSame m k d s = (sameOut m s, sameBefore m k s d, sameAfter m k s d) := fun _ _ _ _ => rfl
  refine ⟨(sameBefore L.f.ih L.f.kh L.f.sh L.f.dh).toNat, (sameAfter L.f.ih L.f.kh L.f.sh L.f.dh).toNat,
    (sameBefore L.f.iw L.f.kw L.f.sw L.f.dw).toNat, (sameAfter L.f.iw L.f.kw L.f.sw L.f.dw).toNat,
    by omega, by omega, by omega, by omega, ?_, ?_⟩
  · unfold LConv.pads LConv.padding TFL.getConvPaddingValues
    rw [if_pos hp]
    simp only [List.getD_cons_succ, List.getD_cons_zero, e, List.map_cons, List.map_nil, Int.toNat_zero]
  · unfold LConv.inner LConv.padding TFL.getConvPaddingValues
    rw [if_pos hp]
    simp only [List.getD_cons_succ, List.getD_cons_zero, e, BConv.mk.injEq, true_and, and_true]
    constructor <;> omega

theorem LConv.inner_valid {L : LConv} (hv : L.f.valid = true) : L.pads = [] ∧ L.inner = L.f := by
  have hp : L.padded = false := by unfold LConv.padded; rw [hv]; rfl
  unfold LConv.pads LConv.inner
  rw [hp]
  exact ⟨rfl, rfl⟩

theorem LConv.inner_same {L : LConv} (ok : L.OK) : L.inner = { L.f with valid := true, ih := L.inner.ih, iw := L.inner.iw } := by
  cases hv : L.f.valid with
  | true =>
    rw [(LConv.inner_valid hv).2]
    conv_rhs => rw [← hv]
  | false =>
    obtain ⟨b1, a1, b2, a2, -, -, -, -, -, h⟩ := LConv.padded_eq ok hv
    rw [h]

theorem valid_lt {n k s d out y a : Nat} (hs : 1 ≤ s) (hout : (out : Int) = ((n : Int) - eff k d + s) / s) (hy : y < out) (ha : a < k) :
    y * s + a * d < n := by
  have hle : ((y : Int) + 1) * s ≤ (n : Int) - eff k d + s := (Int.le_ediv_iff_mul_le (by omega)).1 (by omega)
  have e1 : ((y : Int) + 1) * s = y * s + s := by ring
  have pa2 : (a : Int) * d ≤ ((k : Int) - 1) * d := Int.mul_le_mul_of_nonneg_right (by omega) (by omega)
  unfold eff at hle
  have : ((y * s + a * d : Nat) : Int) < n := by push_cast; omega
  exact_mod_cast this

theorem tap_valid_some {n k s d y a : Nat} (h : y * s + a * d < n) : tap .valid n k s d y a = some (y * s + a * d) := by
  unfold tap padBefore
  dsimp only
  have e : (y : Int) * s + a * d - 0 = ((y * s + a * d : Nat) : Int) := by push_cast; ring
  rw [e, if_pos ⟨by omega, by omega⟩, Int.toNat_natCast]

/-- An encoding of bytes that tells them apart, zero for a zero word. -/
def tag (l : List Byte) : Int := (Encodable.encode (l.map UInt8.toNat) : Int) - (Encodable.encode ((List.replicate 4 (0 : Byte)).map UInt8.toNat) : Int)

theorem tag_inj {a b : List Byte} (h : tag a = tag b) : a = b := by
  unfold tag at h
  have h : (Encodable.encode (a.map UInt8.toNat) : Int) = Encodable.encode (b.map UInt8.toNat) := by omega
  have h := Encodable.encode_injective (Int.ofNat.inj h)
  exact List.map_injective_iff.2 (fun x y h => UInt8.toNat_inj.1 h) h

theorem tag_zero : tag (List.replicate 4 (UInt8.ofInt 0)) = 0 := by
  show tag (List.replicate 4 0) = 0
  unfold tag
  exact sub_self _

theorem bitOf_zero (k : Nat) : bitOf (List.replicate 4 (0 : Byte)) k = false := by
  unfold bitOf
  have : (List.replicate 4 (0 : Byte)).getD (k / 8) 0 = 0 := by
    rw [List.getD_eq_getElem?_getD, List.getElem?_replicate]
    split <;> rfl
  rw [this]
  exact Nat.zero_testBit _

theorem bconv_pads {L : LConv} (ok : L.OK) {e : Exp} (hg : EGood iv e) (v : Nat) {D : List Byte} (hh : EHolds sem iv e v ⟨[1, L.f.ih, L.f.iw, L.f.words], 4⟩ D) :
    ∃ D', EStep sem iv e (expandPads false 4 0 L.pads e v) ⟨[1, L.inner.ih, L.inner.iw, L.f.words], 4⟩ D' ∧
      ∀ y x a b, y < L.f.oh → x < L.f.ow → a < L.f.kh → b < L.f.kw → y * L.f.sh + a * L.f.dh < L.inner.ih ∧ x * L.f.sw + b * L.f.dw < L.inner.iw ∧
        ∀ c < L.f.cin, bitAt L.inner.ih L.inner.iw L.f.words D' (y * L.f.sh + a * L.f.dh) (x * L.f.sw + b * L.f.dw) c = L.window D y x a b c := by
  have hoh := ok.oh
  have how := ok.ow
  cases hv : L.f.valid with
  | true =>
    rw [hv, if_pos rfl] at hoh how
    obtain ⟨h1, h2⟩ := LConv.inner_valid hv
    rw [h1, h2]
    refine ⟨D, estep_same hg hh, ?_⟩
    intro y x a b hy hx ha hb
    have ly := valid_lt ok.sh hoh hy ha
    have lx := valid_lt ok.sw how hx hb
    refine ⟨ly, lx, ?_⟩
    intro c _
    unfold LConv.window
    rw [hv]
    simp only [if_true]
    rw [tap_valid_some ly, tap_valid_some lx]
  | false =>
    rw [hv] at hoh how
    simp only [Bool.false_eq_true, if_false] at hoh how
    obtain ⟨b1, a1, b2, a2, e1, e2, e3, e4, h1, h2⟩ := LConv.padded_eq ok hv
    have hpos : ∀ n ∈ [1, L.f.ih, L.f.iw, L.f.words], 0 < n := by
      have := ok.ih; have := ok.iw; have := ok.words
      intro n hn
      simp only [List.mem_cons, List.not_mem_nil, or_false] at hn
      omega
    obtain ⟨D', hs, ht⟩ := pad_estep (sem := sem) (iv := iv) tag (d := 4) (q8 := false) (by intro h; cases h) hg 0 tag_zero [1, L.f.ih, L.f.iw, L.f.words] rfl hpos
      [0, 0, b1, a1, b2, a2, 0, 0] rfl rfl v hh
    have hsh : TFL.padded [1, L.f.ih, L.f.iw, L.f.words] [0, 0, b1, a1, b2, a2, 0, 0] = [1, L.f.ih + b1 + a1, L.f.iw + b2 + a2, L.f.words] := by
      simp [TFL.padded]
    rw [hsh] at hs ht
    rw [h1, h2]
    refine ⟨D', ?_, ?_⟩
    · unfold expandPads
      dsimp only
      rw [hsh]
      exact hs
    · intro y x a b hy hx ha hb
      obtain ⟨p1, p2, p3⟩ := tap_same_valid ok.ih ok.kh ok.sh ok.dh hoh e1 (n' := L.f.ih + b1 + a1) (by push_cast; omega) hy ha
      obtain ⟨q1, q2, q3⟩ := tap_same_valid ok.iw ok.kw ok.sw ok.dw how e3 (n' := L.f.iw + b2 + a2) (by push_cast; omega) hx hb
      refine ⟨p2, q2, ?_⟩
      intro c hc
      have hcw : c / 32 < L.f.words := by have := ok.cin; omega
      have key := ht [0, y * L.f.sh + a * L.f.dh, x * L.f.sw + b * L.f.dw, c / 32] ⟨by omega, p2, q2, hcw, trivial⟩
      rw [pad_hw 0 b1 a1 b2 a2 L.f.ih L.f.iw L.f.words _ hcw] at key
      unfold LConv.window
      rw [hv]
      simp only [Bool.false_eq_true, if_false]
      rw [p3, q3]
      generalize y * L.f.sh + a * L.f.dh = i at *
      generalize x * L.f.sw + b * L.f.dw = j at *
      unfold bitAt
      by_cases hin : (b1 ≤ i ∧ i < b1 + L.f.ih) ∧ b2 ≤ j ∧ j < b2 + L.f.iw
      · rw [if_pos hin] at key
        rw [if_pos hin.1, if_pos hin.2]
        rw [tag_inj key]
      · rw [if_neg hin] at key
        have : elemAt ⟨[1, L.f.ih + b1 + a1, L.f.iw + b2 + a2, L.f.words], 4⟩ D' [0, i, j, c / 32] = List.replicate 4 0 := tag_inj (key.trans tag_zero.symm)
        rw [this, bitOf_zero]
        by_cases hi : b1 ≤ i ∧ i < b1 + L.f.ih
        · rw [if_neg (fun h => hin ⟨hi, h⟩)]
          split <;> simp_all
        · rw [if_neg hi]

/-! ### The lowered operator -/

theorem bArgs_depth (f : BConv) : (bArgs f).inputDepth = f.words * 32 ∧ (bArgs f).outputDepth = (if f.outQ8.isSome then f.outDim else f.outDim * 32) := by
  unfold bArgs
  cases f.outQ8 with
  | none => exact ⟨rfl, rfl⟩
  | some q => exact ⟨rfl, rfl⟩

theorem bconv_lower {cts : Nat → Nat → List (Nat × Nat)} (hc : Threads.CalcContract cts) {threads : Nat} (ht : 1 ≤ threads) {L : LConv} (ok : L.OK) :
    ∃ k lo rs, L.lower cts threads = some k ∧ bLower L.inner = some lo ∧ k = ⟨lo, L.inner.ih, L.inner.iw, L.f.words, L.f.kh, L.f.kw, L.f.oh, L.f.ow, rs⟩ ∧
      lo = ⟨bKernelType (bArgs L.inner), bArgs L.inner, (0, 0), L.f.sh, L.f.sw, L.f.dh, L.f.dw⟩ ∧ k.DepthOK ∧
      (lo.kt = .directBinary ∨ lo.kt = .indirectBinary ↔ L.f.outQ8 = none) ∧
      ∀ y x o, y < L.f.oh → x < L.f.ow → o < L.oc → Threads.coverage rs y x o = 1 := by
  have hi := LConv.inner_same ok
  have hval : checkValid L.inner = true := by
    rw [hi]
    unfold checkValid
    simp only [decide_eq_true_eq]
    refine ⟨ok.filterI32, ok.out, fun h => (ok.relu h).1, trivial, ?_, fun h => (ok.relu h).2⟩
    rw [ok.cin]
    omega
  have hlo : bLower L.inner = some ⟨bKernelType (bArgs L.inner), bArgs L.inner, (0, 0), L.f.sh, L.f.sw, L.f.dh, L.f.dw⟩ := by
    unfold bLower
    rw [if_pos hval, hi]
  have hq : L.inner.outQ8 = L.f.outQ8 := by rw [hi]
  have hw : L.inner.words = L.f.words := by rw [hi]
  have hoh : L.inner.oh = L.f.oh := by rw [hi]
  have how : L.inner.ow = L.f.ow := by rw [hi]
  have hkh : L.inner.kh = L.f.kh := by rw [hi]
  have hkw : L.inner.kw = L.f.kw := by rw [hi]
  have hod : L.inner.outDim = L.f.outDim := by rw [hi]
  obtain ⟨d1, d2⟩ := bArgs_depth L.inner
  rw [hw] at d1
  rw [hq, hod] at d2
  obtain ⟨k1, k2⟩ := C54_kernel _ _ hlo
  rw [hq] at k2
  obtain ⟨rs, r1, -, -, r2⟩ := Threads.C07_regions_partition_image cts hc threads L.f.oh L.f.ow (bArgs L.inner).outputDepth ht ok.oh1 ok.ow1
  refine ⟨_, _, rs, ?_, hlo, rfl, rfl, ⟨d1, ?_, ?_, ?_⟩, k2, ?_⟩
  · unfold LConv.lower
    rw [hlo, Option.bind_some, hoh, how, r1, hw, hkh, hkw]
    rfl
  · dsimp only at k1 ⊢
    rw [d1, ← hw]
    exact k1
  · intro h
    have := k2.1 h
    rw [this] at d2
    dsimp only
    rw [d2]
    show L.f.outDim * 32 % 32 = 0
    omega
  · intro h
    dsimp only at h ⊢
    have hs : L.f.outQ8.isSome = true := by
      cases e : L.f.outQ8 with
      | some _ => rfl
      | none =>
        exfalso
        have := k2.2 e
        dsimp only at this
        rcases h with h | h <;> rw [h] at this <;> rcases this with h | h <;> cases h
    rw [d2, if_pos hs]
    exact (ok.relu hs).2
  · intro y x o hy hx ho
    rw [r2, d2]
    exact if_pos ⟨hy, hx, ho⟩

/-! ### Steps -/

/-- An operator with a scratch buffer, whose result may depend on the buffer. -/
theorem scratch_any {e : Exp} (hg : EGood iv e) (sc key skey : Nat) (ty : Ty) (zs : List (Nat × Ty × List Byte))
    (hz : ∀ z ∈ zs, EHolds sem iv e z.1 z.2.1 z.2.2) (hl : ∀ rest, (sem key (zs.map (·.2.2) ++ rest)).length = ty.size) :
    ∃ rest, EStep sem iv e (expandScratch e sc key skey (zs.map (·.1)) ty) ty (sem key (zs.map (·.2.2) ++ rest)) := by
  unfold expandScratch
  by_cases hs : 0 < sc
  · rw [if_pos hs]
    have h1 := emit_estep (sem := sem) hg (.other false skey) ⟨[sc], 1⟩ [] (by simp) (by intro h; cases h) (length_eval_other _ _ _ _)
    have h2 := other_estep (sem := sem) h1.good false key ty (zs ++ [(_, ⟨[sc], 1⟩, _)]) (by
        intro z hz'
        rcases List.mem_append.1 hz' with hz' | hz'
        · exact (hz z hz').mono hg h1.ext
        · rw [List.mem_singleton.1 hz']
          exact h1.holds) (by intro h; cases h) (by rw [List.map_append]) (hl _)
    rw [List.map_append] at h2
    exact ⟨_, h1.trans h2⟩
  · rw [if_neg hs]
    refine ⟨[], other_estep (sem := sem) hg false key ty zs hz (by intro h; cases h) ?_ ?_⟩
    · rw [List.append_nil]
    · exact hl []

theorem window_patch {L : LConv} {D D' : List Byte} {rs : List Threads.Region} {lo : BLowered}
    (hlo : lo = ⟨bKernelType (bArgs L.inner), bArgs L.inner, (0, 0), L.f.sh, L.f.sw, L.f.dh, L.f.dw⟩) {k : XBConv}
    (hk : k = ⟨lo, L.inner.ih, L.inner.iw, L.f.words, L.f.kh, L.f.kw, L.f.oh, L.f.ow, rs⟩)
    (ht : ∀ y x a b, y < L.f.oh → x < L.f.ow → a < L.f.kh → b < L.f.kw → y * L.f.sh + a * L.f.dh < L.inner.ih ∧ x * L.f.sw + b * L.f.dw < L.inner.iw ∧
        ∀ c < L.f.cin, bitAt L.inner.ih L.inner.iw L.f.words D' (y * L.f.sh + a * L.f.dh) (x * L.f.sw + b * L.f.dw) c = L.window D y x a b c)
    {y x : Nat} (hy : y < L.f.oh) (hx : x < L.f.ow) :
    k.Inside y x ∧ ∀ a b c, a < L.f.kh → b < L.f.kw → c < L.f.cin → k.lo.patch (k.image D') y x a b c = L.window D y x a b c := by
  subst hk hlo
  constructor
  · intro a b ha hb
    obtain ⟨h1, h2, -⟩ := ht y x a b hy hx ha hb
    dsimp only
    rw [add_zero, add_zero]
    exact ⟨⟨by positivity, by exact_mod_cast h1⟩, by positivity, by exact_mod_cast h2⟩
  · intro a b c ha hb hc
    obtain ⟨-, -, h3⟩ := ht y x a b hy hx ha hb
    rw [← h3 c hc]
    unfold BLowered.patch XBConv.image
    dsimp only
    rw [add_zero, add_zero]
    have e1 : ((y : Int) * L.f.sh + a * L.f.dh).toNat = y * L.f.sh + a * L.f.dh := by
      have : ((y : Int) * L.f.sh + a * L.f.dh) = ((y * L.f.sh + a * L.f.dh : Nat) : Int) := by push_cast; ring
      rw [this, Int.toNat_natCast]
    have e2 : ((x : Int) * L.f.sw + b * L.f.dw).toNat = x * L.f.sw + b * L.f.dw := by
      have : ((x : Int) * L.f.sw + b * L.f.dw) = ((x * L.f.sw + b * L.f.dw : Nat) : Int) := by push_cast; ring
      rw [this, Int.toNat_natCast]
    rw [e1, e2]

theorem mismatches_congr {kh kw n : Nat} {x x' w : Nat → Nat → Nat → Bool} (h : ∀ a b c, a < kh → b < kw → c < n → x a b c = x' a b c) :
    mismatches kh kw n x w = mismatches kh kw n x' w := by
  unfold mismatches
  refine Finset.sum_congr rfl fun a ha => Finset.sum_congr rfl fun b hb => Finset.sum_congr rfl fun c hc => ?_
  rw [h a b c (Finset.mem_range.1 ha) (Finset.mem_range.1 hb) (Finset.mem_range.1 hc)]

/-- The result of the kernel meets the specification. -/
theorem bconv_meets {R : Rt} {dom : MulArgs → Prop} (hR : R.OK dom) {L : LConv} (ok : L.OK) {D D' : List Byte} {rs : List Threads.Region} {lo : BLowered}
    (hl : bLower L.inner = some lo)
    (hlo : lo = ⟨bKernelType (bArgs L.inner), bArgs L.inner, (0, 0), L.f.sh, L.f.sw, L.f.dh, L.f.dw⟩) {k : XBConv}
    (hk : k = ⟨lo, L.inner.ih, L.inner.iw, L.f.words, L.f.kh, L.f.kw, L.f.oh, L.f.ow, rs⟩) (hd : k.DepthOK)
    (hkt : lo.kt = .directBinary ∨ lo.kt = .indirectBinary ↔ L.f.outQ8 = none)
    (hcov : ∀ y x o, y < L.f.oh → x < L.f.ow → o < L.oc → Threads.coverage rs y x o = 1)
    (ht : ∀ y x a b, y < L.f.oh → x < L.f.ow → a < L.f.kh → b < L.f.kw → y * L.f.sh + a * L.f.dh < L.inner.ih ∧ x * L.f.sw + b * L.f.dw < L.inner.iw ∧
        ∀ c < L.f.cin, bitAt L.inner.ih L.inner.iw L.f.words D' (y * L.f.sh + a * L.f.dh) (x * L.f.sw + b * L.f.dw) c = L.window D y x a b c)
    (rest : List (List Byte)) :
    (R.bin.conv k (D' :: R.bin.weights k L.filter :: R.bin.muls k L.filter L.thr :: rest)).length = L.ty.size ∧
    L.Meets R.bin.err D (R.bin.conv k (D' :: R.bin.weights k L.filter :: R.bin.muls k L.filter L.thr :: rest)) := by
  have hi := LConv.inner_same ok
  have hq : L.inner.outQ8 = L.f.outQ8 := by rw [hi]
  have hw : L.inner.words = L.f.words := by rw [hi]
  have hod : L.inner.outDim = L.f.outDim := by rw [hi]
  obtain ⟨d1, d2⟩ := bArgs_depth L.inner
  rw [hw] at d1
  rw [hq, hod] at d2
  have hka : k.lo.args = bArgs L.inner := by rw [hk]; dsimp only; rw [hlo]
  have hkl : k.lo = lo := by rw [hk]
  have k1 : k.kh = L.f.kh := by rw [hk]
  have k2 : k.kw = L.f.kw := by rw [hk]
  have k3 : k.words = L.f.words := by rw [hk]
  have k4 : k.oh = L.f.oh := by rw [hk]
  have k5 : k.ow = L.f.ow := by rw [hk]
  have k6 : k.regions = rs := by rw [hk]
  have hin : k.lo.args.inputDepth = L.f.cin := by rw [hka, d1, ok.cin]
  have hout : k.lo.args.outputDepth = L.oc := by rw [hka, d2]; rfl
  cases hq8 : L.f.outQ8 with
  | none =>
    have hoc : L.oc = L.f.outDim * 32 := by unfold LConv.oc; rw [hq8]; rfl
    obtain ⟨l1, l2⟩ := hR.bin.conv1 k D' L.filter L.thr rest (by rw [hkl]; exact hkt.2 hq8) hd
    generalize R.bin.conv k (D' :: R.bin.weights k L.filter :: R.bin.muls k L.filter L.thr :: rest) = out at *
    constructor
    · rw [l1, hout, k4, k5, hoc]
      unfold LConv.ty Ty.size
      rw [hq8]
      simp only [List.prod_cons, List.prod_nil, Option.isSome_none, Bool.false_eq_true, if_false, one_mul, mul_one]
      have : L.f.outDim * 32 / 8 = L.f.outDim * 4 := by omega
      rw [this]
      ring
    · unfold LConv.Meets
      rw [hq8]
      dsimp only
      intro y x o hy hx ho
      obtain ⟨w1, w2⟩ := window_patch (D := D) (D' := D') hlo hk ht hy hx
      have := l2 y x o (by rw [k4]; exact hy) (by rw [k5]; exact hx) (by rw [hout]; exact ho) (by rw [k6]; exact hcov y x o hy hx ho) w1
      rw [hout, hoc, Nat.mul_div_cancel _ (by omega), k4, k5, k1, k2, k3, hin, ← hoc, mismatches_congr (x' := L.window D y x) w2] at this
      exact this
  | some q =>
    obtain ⟨scale, zp⟩ := q
    have hoc : L.oc = L.f.outDim := by unfold LConv.oc; rw [hq8]; rfl
    have hkt8 : k.lo.kt = .directInt8 ∨ k.lo.kt = .indirectInt8 := by
      rw [hkl]
      cases h : lo.kt with
      | directBinary => rw [hkt.1 (.inl h)] at hq8; cases hq8
      | indirectBinary => rw [hkt.1 (.inr h)] at hq8; cases hq8
      | directInt8 => exact .inl rfl
      | indirectInt8 => exact .inr rfl
    obtain ⟨l1, l2⟩ := hR.bin.conv8 k D' L.filter L.thr rest hkt8 hd
    generalize R.bin.conv k (D' :: R.bin.weights k L.filter :: R.bin.muls k L.filter L.thr :: rest) = out at *
    have hty : L.ty = ⟨[1, L.f.oh, L.f.ow, L.f.outDim], 1⟩ := by unfold LConv.ty; rw [hq8]; rfl
    constructor
    · rw [l1, hout, k4, k5, hoc, hty]
      unfold Ty.size
      simp only [List.prod_cons, List.prod_nil, one_mul, mul_one]
      ring
    · unfold LConv.Meets
      rw [hq8]
      dsimp only
      intro y x o hy hx ho
      obtain ⟨w1, w2⟩ := window_patch (D := D) (D' := D') hlo hk ht hy hx
      have := l2 y x o (by rw [k4]; exact hy) (by rw [k5]; exact hx) (by rw [hout]; exact ho) (by rw [k6]; exact hcov y x o hy hx ho) w1
      have hval : k.lo.value k.kh k.kw o (k.lo.patch (k.image D') y x) (filterBit k.lo.args.outputDepth k.kh k.kw k.words L.filter o) =
          (L.f.postMul.getD o 0 * (max 0 (L.sum D y x o) : ℤ) + L.f.postBias.getD o 0) / scale + zp := by
        rw [hkl]
        -- the image of the specification: the window itself
        have hc := C54_bconv L.inner lo hl scale zp (by rw [hq]; exact hq8) (by rw [hi]; exact ok.cin) (by rw [hi]; exact ok.small)
          (k.image D') (filterBit L.oc L.f.kh L.f.kw L.f.words L.filter o) y x o (by rw [hod, ← hoc]; exact ho)
        rw [← hkl, hout, k1, k2, k3]
        have e1 : L.inner.kh = L.f.kh := by rw [hi]
        have e2 : L.inner.kw = L.f.kw := by rw [hi]
        rw [e1, e2, ← hkl] at hc
        rw [hc]
        unfold bconvReal
        have e3 : L.inner.postMul = L.f.postMul := by rw [hi]
        have e4 : L.inner.postBias = L.f.postBias := by rw [hi]
        have e5 : L.inner.cin = L.f.cin := by rw [hi]
        have e6 : bconvSum L.inner (k.image D') (filterBit L.oc L.f.kh L.f.kw L.f.words L.filter o) y x = L.sum D y x o := by
          unfold bconvSum LConv.sum
          rw [e1, e2, e5]
          refine Finset.sum_congr rfl fun a ha => Finset.sum_congr rfl fun b hb => Finset.sum_congr rfl fun c hc => ?_
          have := w2 a b c (Finset.mem_range.1 ha) (Finset.mem_range.1 hb) (Finset.mem_range.1 hc)
          rw [← this]
          unfold BLowered.patch LConv.weight
          have s1 : L.inner.sh = k.lo.sh := by rw [hkl, hlo, hi]
          have s2 : L.inner.sw = k.lo.sw := by rw [hkl, hlo, hi]
          have s3 : L.inner.dh = k.lo.dh := by rw [hkl, hlo, hi]
          have s4 : L.inner.dw = k.lo.dw := by rw [hkl, hlo, hi]
          have s5 : k.lo.start = (0, 0) := by rw [hkl, hlo]
          rw [s1, s2, s3, s4, s5]
          simp only [add_zero]
        rw [e3, e4, e6]
      rw [hval] at this
      have hidx : s8 ((elemAt L.ty out [0, y, x, o]).headD 0) = s8 (out.getD ((y * k.ow + x) * k.lo.args.outputDepth + o) 0) := by
        rw [hty]
        show tensorOf ⟨[1, L.f.oh, L.f.ow, L.f.outDim], 1⟩ out [0, y, x, o] = _
        rw [tensorOf_unflat]
        unfold Conv.unflat
        rw [Conv.ravel4, getD_map_s8, Nat.zero_mul, Nat.zero_add, k5, hout, hoc]
      rw [hidx]
      have h2 : (L.real scale zp D y x o) = max (-128) (min 127 ((L.f.postMul.getD o 0 * (max 0 (L.sum D y x o) : ℤ) + L.f.postBias.getD o 0) / scale + zp)) := rfl
      rw [← h2] at this
      exact_mod_cast this

theorem bconv_estep {R : Rt} {dom : MulArgs → Prop} (hR : R.OK dom) (j : Nat) {L : LConv} (ok : L.OK) {e : Exp} (hg : EGood iv e) (v : Nat) {D : List Byte}
    (hh : EHolds sem iv e v ⟨[1, L.f.ih, L.f.iw, L.f.words], 4⟩ D) (hsem : ∀ m ins, sem (Nat.pair j m) ins = (QKind.bconv L).kernel R j m ins) :
    ∃ D', EStep sem iv e (expandBconv R L j e v L.ty) L.ty D' ∧ L.Meets R.bin.err D D' := by
  obtain ⟨k, lo, rs, h1, h2, h3, h4, h5, h6, h7⟩ := bconv_lower hR.split hR.threads ok
  obtain ⟨D1, hs1, ht1⟩ := bconv_pads (sem := sem) ok hg v hh
  have hkey : ∀ ins, sem (Nat.pair j 0) ins = R.bin.conv k ins := by
    intro ins
    rw [hsem]
    unfold QKind.kernel
    dsimp only
    rw [h1]
    dsimp only
    rw [if_pos rfl]
  unfold expandBconv
  rw [h1]
  dsimp only
  obtain ⟨w1, w2, zs, w3, w4, w5⟩ := consts_estep (sem := sem) [R.bin.weights k L.filter, R.bin.muls k L.filter L.thr] _ hs1.good
  have hm := bconv_meets hR ok h2 h4 h3 h5 h6 h7 ht1
  obtain ⟨rest, hc⟩ := scratch_any (sem := sem) w2 (k.scratch R.bin) (Nat.pair j 0) (Nat.pair j 1) L.ty
    (((expandPads false 4 0 L.pads e v).2, ⟨[1, L.inner.ih, L.inner.iw, L.f.words], 4⟩, D1) :: zs) (by
      intro z hz
      rcases List.mem_cons.1 hz with rfl | hz
      · exact hs1.holds.mono hs1.good w1
      · exact w5 z hz) (by
      intro rest
      rw [hkey, List.map_cons, w4]
      exact (hm rest).1)
  rw [List.map_cons, w3, hkey, List.map_cons, w4] at hc
  refine ⟨_, ⟨?_, hc.good, hc.holds⟩, (hm rest).2⟩
  obtain ⟨x0, g0⟩ := hs1.ext
  obtain ⟨x1, g1⟩ := w1
  obtain ⟨x2, g2⟩ := hc.ext
  refine ⟨x0 ++ x1 ++ x2, ?_⟩
  rw [g2, g1, g0]
  simp

theorem bsign_estep {R : Rt} {dom : MulArgs → Prop} (hR : R.OK dom) (j : Nat) (zp : ℤ) (pre : List Nat) (w : Nat) {e : Exp} (hg : EGood iv e) (v : Nat) {D : List Byte}
    (hh : EHolds sem iv e v ⟨pre ++ [w * 32], 1⟩ D) (hsem : ∀ m ins, sem (Nat.pair j m) ins = (QKind.bsign zp).kernel R j m ins) :
    ∃ D', EStep sem iv e (e.emit ⟨.other false (Nat.pair j 0), [v], ⟨pre ++ [w], 4⟩⟩) ⟨pre ++ [w], 4⟩ D' ∧
      ∀ k < (⟨pre ++ [w * 32], 1⟩ : Ty).size, bitOf D' k = decide (s8 (D.getD k 0) < zp) := by
  have hlen := hh.len
  have hsz : (⟨pre ++ [w * 32], 1⟩ : Ty).size = pre.prod * w * 32 := by simp [Ty.size, List.prod_append, mul_assoc]
  have hsz' : (⟨pre ++ [w], 4⟩ : Ty).size = pre.prod * w * 4 := by simp [Ty.size, List.prod_append]
  rw [hsz] at hlen ⊢
  obtain ⟨h1, h2⟩ := hR.bin.bsign zp D (by omega)
  refine ⟨R.bin.bsign zp [D], other_estep (sem := sem) hg false (Nat.pair j 0) _ [(v, _, D)] (by simpa using hh) (by intro h; cases h) (hsem 0 [D]) ?_, ?_⟩
  · rw [h1, hlen, hsz']
    omega
  · intro k hk
    exact h2 k (by omega)

end Verif.Net
