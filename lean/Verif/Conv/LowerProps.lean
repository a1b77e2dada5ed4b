import Verif.Conv.Lower
import Mathlib.Data.List.MinMax
import Mathlib.Tactic.IntervalCases
/-!
C51–C53: 8-bit convolutions lowered to XC convolutions.
-/
namespace Verif.Conv
open Verif.Tensor Verif.Image Verif.Quant

/-! ### Specification -/

/-- Range of the results of an 8-bit operator with a fused activation (TensorFlow Lite `CalculateActivationRange`). -/
def actLo (a : Act) (r : ℚ → ℤ) (outS : ℚ) (zpo : Int) : Int :=
  match a with
  | .none => -128
  | .relu | .relu6 => max (-128) zpo
  | .reluN1 => max (-128) (zpo + r (-1 / outS))
def actHi (a : Act) (r : ℚ → ℤ) (outS : ℚ) (zpo : Int) : Int :=
  match a with
  | .none | .relu => 127
  | .relu6 => min 127 (zpo + r (6 / outS))
  | .reluN1 => min 127 (zpo + r (1 / outS))

/-- TensorFlow Lite's requantisation of the accumulator: scale, round to nearest, add the zero point, clamp. -/
def tflRequant (r : ℚ → ℤ) (f : Fake) : Requant := fun s _ acc =>
  clamp (actLo f.act r f.outS f.zpo) (actHi f.act r f.outS f.zpo) (f.zpo + r (f.inS * s / f.outS * acc))

/-- The TensorFlow Lite operator a fake convolution stands for. -/
def Fake.op (f : Fake) (p : Padding) : ConvOp :=
  { padding := p, sh := f.sh, sw := f.sw, dh := f.dh, dw := f.dwf, filter := f.filter
    bias := f.bias.map fun d => { data := d, qp := .perTensor 1 0 } }

def Fake.ref (r : ℚ → ℤ) (f : Fake) (p : Padding) (x : Tensor) (idx : List Nat) : Int :=
  if f.dw then dwconv (tflRequant r f) f.zpi f.ih f.iw (f.op p) x idx
  else conv2d (tflRequant r f) f.zpi f.ih f.iw f.ic (f.op p) x idx

/-- TensorFlow's output size. -/
def outSize (p : Padding) (n k s d : Nat) : Int :=
  match p with
  | .valid => ((n : Int) - eff k d + s) / s
  | .same => sameOut n s

/-- Rows (columns) of padding after the input. -/
def padAfter (p : Padding) (n k s d : Nat) : Int :=
  match p with
  | .valid => 0
  | .same => sameAfter n k s d

/-- A well-formed 8-bit convolution with padding kind `p`. -/
structure Fake.OK (f : Fake) (p : Padding) : Prop where
  bits : f.bits = 8
  pad : f.pad = .tfl p
  kh : 1 ≤ f.filter.kh
  kw : 1 ≤ f.filter.kw
  sh : 1 ≤ f.sh
  sw : 1 ≤ f.sw
  dh : 1 ≤ f.dh
  dwf : 1 ≤ f.dwf
  ih : 1 ≤ f.ih
  iw : 1 ≤ f.iw
  oh : (f.oh : Int) = outSize p f.ih f.filter.kh f.sh f.dh
  ow : (f.ow : Int) = outSize p f.iw f.filter.kw f.sw f.dwf
  inS : 0 < f.inS
  outS : 0 < f.outS
  scales : ∀ o < f.oc, 0 < f.filter.qp.scale o
  /-- The filter's shape fits input and output; depth multiplier 1. -/
  filter : f.filter.shape = if f.dw then [1, f.filter.kh, f.filter.kw, f.oc] else [f.oc, f.filter.kh, f.filter.kw, f.ic]
  dwc : f.dw = true → f.ic = f.oc
  zp : ∀ o < f.oc, f.filter.qp.zp o = 0
  /-- Kernel extents fit 16 bits. -/
  small : (f.filter.kh : Int) * f.dh < 32768 ∧ (f.filter.kw : Int) * f.dwf < 32768

/-! ### Proofs -/

theorem toI16_id {z : Int} (h0 : 0 ≤ z) (h1 : z < 32768) : toI16 z = z := by unfold toI16; omega

theorem windowed_eq {n k d s : Nat} (hs : 1 ≤ s) (hd : 1 ≤ d) {p : Padding} {r : Int × Int × Int}
    (h : windowed n k d s p = some r) :
    r.2.1 = padBefore p n k s d ∧ r.2.2 = padAfter p n k s d := by
  unfold windowed at h
  rw [if_neg (by omega)] at h
  cases p with
  | valid =>
    dsimp only at h
    split at h
    · cases h
    · cases h; exact ⟨rfl, rfl⟩
  | same =>
    dsimp only at h
    split at h
    · cases h
    · cases h; exact ⟨rfl, rfl⟩

/-- Rows of the kernel window lie inside the input if there is no padding. -/
theorem in_bounds {p : Padding} {n k s d out : Nat} (hn : 1 ≤ n) (hk : 1 ≤ k) (hs : 1 ≤ s) (hd : 1 ≤ d)
    (ho : (out : Int) = outSize p n k s d) (h0 : padBefore p n k s d = 0)
    (h1 : padAfter p n k s d = 0) {y a : Nat} (hy : y < out) (ha : a < k) :
    0 ≤ (y : Int) * s + 0 + a * d ∧ (y : Int) * s + 0 + a * d < n := by
  have pa : (0 : Int) ≤ (a : Int) * d := Int.mul_nonneg (by omega) (by omega)
  have py : (0 : Int) ≤ (y : Int) * s := Int.mul_nonneg (by omega) (by omega)
  have pa2 : (a : Int) * d ≤ ((k : Int) - 1) * d := Int.mul_le_mul_of_nonneg_right (by omega) (by omega)
  cases p with
  | valid =>
    unfold outSize at ho
    dsimp only at ho
    have hle : ((y : Int) + 1) * s ≤ (n : Int) - eff k d + s :=
      (Int.le_ediv_iff_mul_le (by omega)).1 (by omega)
    have e : ((y : Int) + 1) * s = y * s + s := by ring
    unfold eff at hle
    omega
  | same =>
    unfold outSize at ho
    dsimp only at ho
    obtain ⟨f1, f2, f3, f4, f5, f6, f7, f8, f9, f10⟩ :=
      samePad_facts (n := (n : Int)) (k := k) (s := s) (d := d) (by omega) (by omega) (by omega) (by omega)
    unfold padBefore at h0
    unfold padAfter at h1
    dsimp only at h0 h1
    have e : (y : Int) * s ≤ (sameOut n s - 1) * s := Int.mul_le_mul_of_nonneg_right (by omega) (by omega)
    unfold eff at *
    omega

theorem foldl_min_le (l : List ℚ) : ∀ a : ℚ, l.foldl min a ≤ a ∧ ∀ x ∈ l, l.foldl min a ≤ x := by
  induction l with
  | nil => intro a; exact ⟨le_refl _, fun _ h => by cases h⟩
  | cons b t ih =>
    intro a
    obtain ⟨h1, h2⟩ := ih (min a b)
    refine ⟨le_trans h1 (min_le_left _ _), ?_⟩
    intro x hx
    rcases List.mem_cons.1 hx with rfl | hx
    · exact le_trans h1 (min_le_right _ _)
    · exact h2 x hx

theorem foldl_min_mem (l : List ℚ) : ∀ a : ℚ, l.foldl min a ∈ a :: l := by
  induction l with
  | nil => intro a; simp
  | cons b t ih =>
    intro a
    have := ih (min a b)
    rcases List.mem_cons.1 this with h | h
    · rcases min_choice a b with e | e
      · rw [List.foldl_cons, h, e]; simp
      · rw [List.foldl_cons, h, e]; simp
    · rw [List.foldl_cons]
      exact List.mem_cons_of_mem _ (List.mem_cons_of_mem _ h)

/-- **C52.** The multipliers given to the kernel: never above the exact one, never below the smallest exact one, and none
more than `factor` times another. -/
theorem C52_multipliers (factor : Nat) (l : List ℚ) (hpos : ∀ m ∈ l, 0 < m) (hf : 1 ≤ factor) :
    (clampMuls factor l).length = l.length ∧
    (∀ i (h : i < l.length) (h' : i < (clampMuls factor l).length), (clampMuls factor l)[i] ≤ l[i] ∧
      ∃ m ∈ l, m ≤ (clampMuls factor l)[i]) ∧
    ∀ m ∈ clampMuls factor l, ∀ m' ∈ clampMuls factor l, m ≤ factor * m' := by
  have hfq : (1 : ℚ) ≤ factor := by exact_mod_cast hf
  cases l with
  | nil => exact ⟨rfl, fun i h => absurd h (by simp), fun m hm => by simp [clampMuls] at hm⟩
  | cons a t =>
    have hmin := foldl_min_le t a
    have hmem := foldl_min_mem t a
    have hp := hpos _ hmem
    have hle : ∀ x ∈ a :: t, t.foldl min a ≤ x := by
      intro x hx
      rcases List.mem_cons.1 hx with rfl | hx
      · exact hmin.1
      · exact hmin.2 x hx
    refine ⟨by simp [clampMuls], ?_, ?_⟩
    · intro i h h'
      simp only [clampMuls, List.getElem_map]
      refine ⟨min_le_left _ _, t.foldl min a, hmem, le_min (hle _ (List.getElem_mem _)) ?_⟩
      nlinarith
    · intro m hm m' hm'
      simp only [clampMuls, List.mem_map] at hm hm'
      obtain ⟨u, hu, rfl⟩ := hm
      obtain ⟨v, hv, rfl⟩ := hm'
      have h1 : min u (t.foldl min a * factor) ≤ t.foldl min a * factor := min_le_right _ _
      have h2 : t.foldl min a ≤ min v (t.foldl min a * factor) := le_min (hle _ hv) (by nlinarith)
      nlinarith

/-- Multipliers that differ by at most the factor are used as they are. -/
theorem C52_unclamped (factor : Nat) (l : List ℚ) (h : ∀ m ∈ l, ∀ m' ∈ l, m ≤ factor * m') : clampMuls factor l = l := by
  cases l with
  | nil => rfl
  | cons a t =>
    unfold clampMuls
    dsimp only
    conv_rhs => rw [← List.map_id (a :: t)]
    apply List.map_congr_left
    intro m hm
    apply min_eq_left
    have := h m hm _ (foldl_min_mem t a)
    rw [mul_comm]; exact this

theorem getD_map_range (n i : Nat) (g : Nat → ℚ) (h : i < n) : ((List.range n).map g).getD i 0 = g i := by
  rw [List.getD_eq_getElem?_getD, List.getElem?_map, List.getElem?_range h]
  rfl

theorem clamp_dist (lo hi a b : ℤ) : |clamp lo hi a - clamp lo hi b| ≤ |a - b| := by
  unfold clamp
  rw [abs_le]
  rcases abs_cases (a - b) with h | h <;> omega

/-- Two nearest roundings of numbers at distance at most `e` differ by at most `e + 1`. -/
theorem round_dist {r r' : ℚ → ℤ} (hr : Nearest r) (hr' : Nearest r') {u v e : ℚ} (h : |u - v| ≤ e) :
    |((r u - r' v : ℤ) : ℚ)| ≤ e + 1 := by
  have h1 := abs_le.1 (hr u)
  have h2 := abs_le.1 (hr' v)
  have h3 := abs_le.1 h
  push_cast
  rw [abs_le]; constructor <;> linarith

/-- Inside/outside as in the reference. -/
theorem tap_eq (p : Padding) (n k s d y a : Nat) :
    tap p n k s d y a =
      if 0 ≤ (y : Int) * s + -padBefore p n k s d + a * d ∧ (y : Int) * s + -padBefore p n k s d + a * d < n then
        some ((y : Int) * s + -padBefore p n k s d + a * d).toNat else none := by
  unfold tap
  dsimp only
  rw [show (y : Int) * s + a * d - padBefore p n k s d = (y : Int) * s + -padBefore p n k s d + a * d by ring]

/-- Facts about a lowered convolution. -/
theorem lower_spec {cfg : Cfg} {lib : Lib} {f : Fake} {p : Padding} (ok : f.OK p) {l : Lowered}
    (h : lower cfg lib f = some l) :
    l.startRow = -padBefore p f.ih f.filter.kh f.sh f.dh ∧ l.startCol = -padBefore p f.iw f.filter.kw f.sw f.dwf ∧
    l.sh = f.sh ∧ l.sw = f.sw ∧ l.dh = f.dh ∧ l.dwf = f.dwf ∧ l.ih = f.ih ∧ l.iw = f.iw ∧ l.kh = f.filter.kh ∧
    l.kw = f.filter.kw ∧ l.ic = f.ic ∧ l.oc = f.oc ∧ l.mb = mulsBias cfg f ∧
    (l.ot = .group ∧ lib.groupErr l.mb ≤ cfg.threshold ∨ l.ot = .channelwise ∧ lib.chanErr l.mb ≤ cfg.threshold) ∧
    (l.kt.padded = false → padBefore p f.ih f.filter.kh f.sh f.dh = 0 ∧
      padAfter p f.ih f.filter.kh f.sh f.dh = 0 ∧
      padBefore p f.iw f.filter.kw f.sw f.dwf = 0 ∧
      padAfter p f.iw f.filter.kw f.sw f.dwf = 0) ∧
    (l.kt = .validDirect → l.ic % 32 = 0 ∧ l.oc % 16 = 0) ∧
    (l.kt = .validDirectI16 → l.ic % 16 = 0 ∧ l.oc % 16 = 0) := by
  unfold lower at h
  cases hp : getPads f with
  | none => rw [hp] at h; cases h
  | some q =>
    rw [hp] at h
    dsimp only at h
    have hq : q.top = padBefore p f.ih f.filter.kh f.sh f.dh ∧
        q.bottom = padAfter p f.ih f.filter.kh f.sh f.dh ∧
        q.left = padBefore p f.iw f.filter.kw f.sw f.dwf ∧
        q.right = padAfter p f.iw f.filter.kw f.sw f.dwf := by
      unfold getPads at hp
      rw [ok.pad] at hp
      dsimp only at hp
      cases e1 : windowed f.ih f.filter.kh f.dh f.sh p with
      | none => rw [e1] at hp; cases hp
      | some r1 =>
        cases e2 : windowed f.iw f.filter.kw f.dwf f.sw p with
        | none => rw [e1, e2] at hp; cases hp
        | some r2 =>
          rw [e1, e2] at hp
          obtain ⟨a1, a2, a3⟩ := r1
          obtain ⟨b1, b2, b3⟩ := r2
          cases hp
          have w1 := windowed_eq ok.sh ok.dh e1
          have w2 := windowed_eq ok.sw ok.dwf e2
          exact ⟨w1.1, w1.2, w2.1, w2.2⟩
    have range : ∀ n k s d : Nat, 1 ≤ n → 1 ≤ k → 1 ≤ s → 1 ≤ d → (k : Int) * d < 32768 →
        0 ≤ padBefore p n k s d ∧ padBefore p n k s d < 32768 := by
      intro n k s d hn hk hs hd hlt
      cases p with
      | valid => exact ⟨le_refl _, by unfold padBefore; dsimp only; omega⟩
      | same =>
        obtain ⟨f1, f2, f3, f4, f5, f6, f7, f8, f9, f10⟩ :=
          samePad_facts (n := (n : Int)) (k := k) (s := s) (d := d) (by omega) (by omega) (by omega) (by omega)
        unfold padBefore
        dsimp only
        have : ((k : Int) - 1) * d = k * d - d := by ring
        omega
    have r1 := range _ _ _ _ ok.ih ok.kh ok.sh ok.dh ok.small.1
    have r2 := range _ _ _ _ ok.iw ok.kw ok.sw ok.dwf ok.small.2
    have ei1 : toI16 q.top = padBefore p f.ih f.filter.kh f.sh f.dh := by rw [hq.1]; exact toI16_id r1.1 r1.2
    have ei2 : toI16 q.left = padBefore p f.iw f.filter.kw f.sw f.dwf := by rw [hq.2.2.1]; exact toI16_id r2.1 r2.2
    cases hk : kernelType f (toBePadded q) with
    | none => rw [hk] at h; cases h
    | some kt =>
      rw [hk] at h
      dsimp only at h
      have hk16 : kt ≠ .validDirectI16 := by
        intro e
        subst e
        unfold kernelType at hk
        rw [if_neg (c := f.bits = 16) (by rw [ok.bits]; decide)] at hk
        by_cases hd : f.dw = true
        · rw [if_pos hd] at hk
          by_cases hb : toBePadded q = true
          · rw [if_pos hb] at hk; cases hk
          · rw [if_neg hb] at hk; cases hk
        · rw [if_neg hd] at hk
          by_cases hb : toBePadded q = true
          · rw [if_pos hb] at hk; cases hk
          · rw [if_neg hb] at hk
            by_cases hc : f.ic % 32 = 0 ∧ f.oc % 16 = 0
            · rw [if_pos hc] at hk; cases hk
            · rw [if_neg hc] at hk; cases hk
      rw [if_neg hk16] at h
      cases ho : chooseOT cfg lib (mulsBias cfg f) with
      | none => rw [ho] at h; cases h
      | some ot =>
        rw [ho] at h
        have h := Option.some.inj h
        subst h
        dsimp only
        rw [ei1, ei2]
        refine ⟨rfl, rfl, rfl, rfl, rfl, rfl, rfl, rfl, rfl, rfl, rfl, rfl, rfl, ?_, ?_, ?_, fun e => absurd e hk16⟩
        · unfold chooseOT at ho
          by_cases hc : lib.groupErr (mulsBias cfg f) ≤ cfg.threshold
          · rw [if_pos hc] at ho; cases ho; exact .inl ⟨rfl, hc⟩
          · rw [if_neg hc] at ho
            by_cases hc2 : lib.chanErr (mulsBias cfg f) ≤ cfg.threshold
            · rw [if_pos hc2] at ho; cases ho; exact .inr ⟨rfl, hc2⟩
            · rw [if_neg hc2] at ho; cases ho
        · intro hpad
          have hb : toBePadded q = false := by
            unfold kernelType at hk
            by_contra hb
            have hb : toBePadded q = true := by simpa using hb
            rw [hb] at hk
            rw [if_neg (c := f.bits = 16) (by rw [ok.bits]; decide)] at hk
            simp only [if_true] at hk
            by_cases hd : f.dw = true
            · rw [if_pos hd] at hk; cases hk; cases hpad
            · rw [if_neg hd] at hk; cases hk; cases hpad
          unfold toBePadded at hb
          simp only [ne_eq, decide_eq_false_iff_not, not_or, not_not] at hb
          rw [hq.1, hq.2.1, hq.2.2.1, hq.2.2.2] at hb
          exact ⟨hb.1, hb.2.1, hb.2.2.1, hb.2.2.2⟩
        · intro e
          subst e
          unfold kernelType at hk
          rw [if_neg (c := f.bits = 16) (by rw [ok.bits]; decide)] at hk
          by_cases hd : f.dw = true
          · rw [if_pos hd] at hk
            by_cases hb : toBePadded q = true
            · rw [if_pos hb] at hk; cases hk
            · rw [if_neg hb] at hk; cases hk
          · rw [if_neg hd] at hk
            by_cases hb : toBePadded q = true
            · rw [if_pos hb] at hk; cases hk
            · rw [if_neg hb] at hk
              by_cases hc : f.ic % 32 = 0 ∧ f.oc % 16 = 0
              · exact hc
              · rw [if_neg hc] at hk; cases hk

/-- **C53.** The kernel chosen for an 8-bit convolution can run on it: kernels without padding only ever read inside the
input, and the direct kernel gets channel counts that are multiples of 32 and 16. -/
theorem C53_kernel_usable_partial {cfg : Cfg} {lib : Lib} {f : Fake} {p : Padding} (ok : f.OK p) {l : Lowered}
    (h : lower cfg lib f = some l) : l.Usable f.oh f.ow := by
  obtain ⟨h1, h2, h3, h4, h5, h6, h7, h8, h9, h10, h11, h12, h13, h14, h15, h16, h17⟩ := lower_spec ok h
  refine ⟨?_, h16, h17⟩
  intro hp y hy x hx a ha b hb
  obtain ⟨z1, z2, z3, z4⟩ := h15 hp
  rw [h9] at ha
  rw [h10] at hb
  unfold Lowered.Inside Lowered.row Lowered.col
  rw [h1, h2, h3, h4, h5, h6, h7, h8, z1, z3]
  exact ⟨in_bounds ok.ih ok.kh ok.sh ok.dh ok.oh z1 z2 hy ha, in_bounds ok.iw ok.kw ok.sw ok.dwf ok.ow z3 z4 hx hb⟩

theorem mb_w {cfg : Cfg} {f : Fake} {p : Padding} (ok : f.OK p) {o : Nat} (a b c : Nat) :
    (mulsBias cfg f).w o a b c = if f.dw then f.filter.at 0 a b o else f.filter.at o a b c := by
  have hs := ok.filter
  unfold MB.w mulsBias Filter.at libShape
  dsimp only
  cases hd : f.dw with
  | true =>
    rw [hd] at hs
    simp only [if_true] at hs ⊢
    rw [hs, ok.dwc hd]
  | false =>
    rw [hd] at hs
    simp only [Bool.false_eq_true, if_false] at hs ⊢
    rw [hs]

/-- The kernel's exact value is the requantised TensorFlow Lite accumulator. -/
theorem exact_eq {cfg : Cfg} {f : Fake} {p : Padding} (ok : f.OK p) (l : Lowered) (hmb : l.mb = mulsBias cfg f)
    (h1 : l.startRow = -padBefore p f.ih f.filter.kh f.sh f.dh) (h2 : l.startCol = -padBefore p f.iw f.filter.kw f.sw f.dwf)
    (h3 : l.sh = f.sh) (h4 : l.sw = f.sw) (h5 : l.dh = f.dh) (h6 : l.dwf = f.dwf) (h7 : l.ih = f.ih) (h8 : l.iw = f.iw)
    (x : Tensor) (bt y xx o : Nat) (acc : Int)
    (hacc : acc = biasAt (f.op p).bias o +
      accum (fun a => tap p f.ih f.filter.kh f.sh f.dh y a) (fun b => tap p f.iw f.filter.kw f.sw f.dwf xx b)
        f.filter.kh f.filter.kw (if f.dw then 1 else f.ic)
        (fun iy ix c => x [bt, iy, ix, if f.dw then o else c] - f.zpi)
        (fun a b c => if f.dw then f.filter.at 0 a b o else f.filter.at o a b c)) :
    l.mb.exact o (l.mb.dot o fun a b c => l.patch x bt y xx o a b c) = l.mb.mul o * (acc : ℚ) + f.zpo := by
  have hzpi : l.mb.zpi = f.zpi := by rw [hmb]; rfl
  have hzpo : l.mb.zpo = f.zpo := by rw [hmb]; rfl
  have hdw : l.mb.dw = f.dw := by rw [hmb]; rfl
  have hkh : l.mb.kh = f.filter.kh := by
    rw [hmb]; unfold MB.kh mulsBias libShape; dsimp only; by_cases hd : f.dw = true <;> simp [hd]
  have hkw : l.mb.kw = f.filter.kw := by
    rw [hmb]; unfold MB.kw mulsBias libShape; dsimp only; by_cases hd : f.dw = true <;> simp [hd]
  have hnc : l.mb.nc = if f.dw then 1 else f.ic := by
    rw [hmb]; unfold MB.nc mulsBias libShape; dsimp only; by_cases hd : f.dw = true <;> simp [hd]
  have hb : l.mb.biasAt o = biasAt (f.op p).bias o := by
    rw [hmb]
    unfold MB.biasAt mulsBias biasAt Fake.op
    dsimp only
    cases f.bias with
    | some d => rfl
    | none =>
      simp only [Option.map_none, Option.getD_none]
      rw [List.getD_eq_getElem?_getD, List.getElem?_replicate]
      split <;> rfl
  have hdot : l.mb.dot o (fun a b c => l.patch x bt y xx o a b c) - f.zpi * l.mb.dot o (fun _ _ _ => 1) =
      accum (fun a => tap p f.ih f.filter.kh f.sh f.dh y a) (fun b => tap p f.iw f.filter.kw f.sw f.dwf xx b)
        f.filter.kh f.filter.kw (if f.dw then 1 else f.ic)
        (fun iy ix c => x [bt, iy, ix, if f.dw then o else c] - f.zpi)
        (fun a b c => if f.dw then f.filter.at 0 a b o else f.filter.at o a b c) := by
    unfold MB.dot accum
    rw [hkh, hkw, hnc, Finset.mul_sum, ← Finset.sum_sub_distrib]
    apply Finset.sum_congr rfl
    intro a _
    rw [Finset.mul_sum, ← Finset.sum_sub_distrib]
    apply Finset.sum_congr rfl
    intro b _
    rw [Finset.mul_sum, ← Finset.sum_sub_distrib]
    have hw : ∀ c, l.mb.w o a b c = if f.dw then f.filter.at 0 a b o else f.filter.at o a b c := by
      intro c; rw [hmb]; exact mb_w ok a b c
    dsimp only
    rw [tap_eq p f.ih, tap_eq p f.iw]
    have hpt : ∀ c, l.patch x bt y xx o a b c =
        if (0 ≤ (y : Int) * f.sh + -padBefore p f.ih f.filter.kh f.sh f.dh + a * f.dh ∧
            (y : Int) * f.sh + -padBefore p f.ih f.filter.kh f.sh f.dh + a * f.dh < f.ih) ∧
            0 ≤ (xx : Int) * f.sw + -padBefore p f.iw f.filter.kw f.sw f.dwf + b * f.dwf ∧
            (xx : Int) * f.sw + -padBefore p f.iw f.filter.kw f.sw f.dwf + b * f.dwf < f.iw then
          x [bt, ((y : Int) * f.sh + -padBefore p f.ih f.filter.kh f.sh f.dh + a * f.dh).toNat,
            ((xx : Int) * f.sw + -padBefore p f.iw f.filter.kw f.sw f.dwf + b * f.dwf).toNat, if f.dw then o else c]
        else f.zpi := by
      intro c
      have er : l.row y a = (y : Int) * f.sh + -padBefore p f.ih f.filter.kh f.sh f.dh + a * f.dh := by
        unfold Lowered.row; rw [h1, h3, h5]
      have ec : l.col xx b = (xx : Int) * f.sw + -padBefore p f.iw f.filter.kw f.sw f.dwf + b * f.dwf := by
        unfold Lowered.col; rw [h2, h4, h6]
      unfold Lowered.patch
      rw [er, ec, hzpi, hdw]
      apply if_congr _ rfl rfl
      unfold Lowered.Inside
      rw [h7, h8]
    simp only [hpt]
    generalize (y : Int) * f.sh + -padBefore p f.ih f.filter.kh f.sh f.dh + a * f.dh = i
    generalize (xx : Int) * f.sw + -padBefore p f.iw f.filter.kw f.sw f.dwf + b * f.dwf = j
    by_cases hi : 0 ≤ i ∧ i < (f.ih : Int)
    · by_cases hj : 0 ≤ j ∧ j < (f.iw : Int)
      · rw [if_pos hi, if_pos hj]
        apply Finset.sum_congr rfl
        intro c _
        rw [if_pos ⟨hi, hj⟩, hw]
        ring
      · rw [if_pos hi, if_neg hj]
        apply Finset.sum_eq_zero
        intro c _
        rw [if_neg (fun h => hj h.2)]
        ring
    · rw [if_neg hi]
      apply Finset.sum_eq_zero
      intro c _
      rw [if_neg (fun h => hi h.1)]
      ring
  unfold MB.exact
  rw [hzpi, hzpo, hb, hacc, ← hdot]
  push_cast
  ring

/-- A channel whose multiplier is within the factor of every other one is not clamped. -/
theorem unclamped_at (factor : Nat) (n : Nat) (g : Nat → ℚ) (o : Nat) (ho : o < n) (h : ∀ o' < n, g o ≤ factor * g o') :
    (clampMuls factor ((List.range n).map g)).getD o 0 = g o := by
  have key : ∀ l : List ℚ, ∀ i, (hi : i < l.length) → (∀ m ∈ l, l[i] ≤ factor * m) → (clampMuls factor l).getD i 0 = l[i] := by
    intro l i hi hl
    cases l with
    | nil => simp at hi
    | cons a t =>
      unfold clampMuls
      dsimp only
      rw [List.getD_eq_getElem?_getD, List.getElem?_map, List.getElem?_eq_getElem hi]
      simp only [Option.map_some, Option.getD_some]
      apply min_eq_left
      have := hl _ (foldl_min_mem t a)
      rw [mul_comm]; exact this
  have := key ((List.range n).map g) o (by simpa using ho) (by
    intro m hm
    obtain ⟨u, hu, rfl⟩ := List.mem_map.1 hm
    simpa using h u (List.mem_range.1 hu))
  simpa using this

/-- C51 for one output channel: only this channel's filter scale has to be within the factor of the others. -/
theorem conv_lowered_at (cfg : Cfg) (lib : Lib) (hlib : lib.Faithful) (r : ℚ → ℤ) (hr : Nearest r) (f : Fake) (p : Padding)
    (ok : f.OK p) (hact : f.act = .none ∨ f.act = .relu ∧ f.zpo = -128) (l : Lowered) (h : lower cfg lib f = some l) (B : Nat) (x : Tensor)
    (hx : ∀ i, InShape [B, f.ih, f.iw, f.ic] i → -128 ≤ x i ∧ x i ≤ 127) (hz : -128 ≤ f.zpi ∧ f.zpi ≤ 127) (idx : List Nat)
    (hidx : InShape [B, f.oh, f.ow, f.oc] idx)
    (hrange : ∀ o' < f.oc, f.filter.qp.scale (idx.getD 3 0) ≤ cfg.factor * f.filter.qp.scale o') :
    (|l.run lib x idx - f.ref r p x idx| : ℤ) ≤ cfg.threshold + 1 ∧
    (cfg.threshold < 1 → |l.run lib x idx - f.ref r p x idx| ≤ 1) := by
  obtain ⟨h1, h2, h3, h4, h5, h6, h7, h8, h9, h10, h11, h12, h13, h14, h15, h16, h17⟩ := lower_spec ok h
  obtain ⟨bt, y, xx, o, rfl, hbt, hy, hxx, ho⟩ := in4 hidx
  have hnum : (if f.dw then f.filter.c else f.filter.o) = f.oc := by
    have hs := ok.filter
    unfold Filter.shape at hs
    by_cases hd : f.dw = true
    · rw [if_pos hd] at hs ⊢; simp at hs; exact hs.2
    · rw [if_neg hd] at hs ⊢; simp at hs; exact hs.1
  -- the multiplier is not clamped
  have hmul : l.mb.mul o = f.inS * f.filter.qp.scale o / f.outS := by
    rw [h13]
    unfold MB.mul mulsBias
    dsimp only
    unfold effMuls
    rw [hnum]
    refine unclamped_at cfg.factor f.oc _ o ho ?_
    intro o' ho'
    have := hrange o' ho'
    simp only [List.getD_cons_zero, List.getD_cons_succ] at this
    have hi := ok.inS
    have ho := ok.outS
    rw [← mul_div_assoc]
    apply div_le_div_of_nonneg_right _ ho.le
    nlinarith
  -- reference accumulator
  let acc : Int := biasAt (f.op p).bias o +
      accum (fun a => tap p f.ih f.filter.kh f.sh f.dh y a) (fun b => tap p f.iw f.filter.kw f.sw f.dwf xx b)
        f.filter.kh f.filter.kw (if f.dw then 1 else f.ic)
        (fun iy ix c => x [bt, iy, ix, if f.dw then o else c] - f.zpi)
        (fun a b c => if f.dw then f.filter.at 0 a b o else f.filter.at o a b c)
  have hex := exact_eq ok l h13 h1 h2 h3 h4 h5 h6 h7 h8 x bt y xx o acc rfl
  have href : f.ref r p x [bt, y, xx, o] = tflRequant r f (f.filter.qp.scale o) ((f.op p).bias.map fun b => b.qp.scale o) acc := by
    unfold Fake.ref
    have hzp := ok.zp o ho
    have hs := ok.filter
    unfold Filter.shape at hs
    by_cases hd : f.dw = true
    · rw [if_pos hd]
      unfold dwconv
      simp only [List.getD_cons_zero, List.getD_cons_succ]
      show tflRequant r f _ _ _ = tflRequant r f _ _ acc
      congr 2
      simp only [Fake.op, hd, if_true, hzp, Int.sub_zero]
    · rw [if_neg hd]
      rw [if_neg hd] at hs
      simp at hs
      unfold conv2d
      simp only [List.getD_cons_zero, List.getD_cons_succ]
      have hg : o / (f.filter.o / (f.ic / f.filter.c)) = 0 := by
        rw [hs.2, hs.1]
        exact group_zero (div_self_le_one _) ho
      show tflRequant r f _ _ _ = tflRequant r f _ _ acc
      have hd' : f.dw = false := by simpa using hd
      simp only [acc, Fake.op, hd', Bool.false_eq_true, if_false, hzp, Int.sub_zero, hg, Nat.zero_mul, Nat.zero_add]
      rw [hs.2]
  -- the patch holds 8-bit values
  have hpatch : ∀ a b c, -128 ≤ l.patch x bt y xx o a b c ∧ l.patch x bt y xx o a b c ≤ 127 ∨ ¬ (f.dw = true ∨ c < f.ic) := by
    intro a b c
    by_cases hc : f.dw = true ∨ c < f.ic
    swap
    · exact .inr hc
    left
    unfold Lowered.patch
    have hdw : l.mb.dw = f.dw := by rw [h13]; rfl
    by_cases hin : l.Inside (l.row y a) (l.col xx b)
    · rw [if_pos hin]
      apply hx
      unfold Lowered.Inside at hin
      rw [h7, h8] at hin
      refine ⟨hbt, by omega, by omega, ?_, trivial⟩
      rw [hdw]
      by_cases hd : f.dw = true
      · rw [if_pos hd, ok.dwc hd]; exact ho
      · rw [if_neg hd]; exact hc.resolve_left hd
    · rw [if_neg hin]
      have : l.mb.zpi = f.zpi := by rw [h13]; rfl
      rw [this]; exact hz
  -- error of the output transform
  have hdotc : l.mb.dot o (fun a b c => l.patch x bt y xx o a b c) =
      l.mb.dot o (fun a b c => if f.dw = true ∨ c < f.ic then l.patch x bt y xx o a b c else 0) := by
    unfold MB.dot
    apply Finset.sum_congr rfl
    intro a _
    apply Finset.sum_congr rfl
    intro b _
    apply Finset.sum_congr rfl
    intro c hc
    have hnc : l.mb.nc = if f.dw then 1 else f.ic := by
      rw [h13]; unfold MB.nc mulsBias libShape; dsimp only; by_cases hd : f.dw = true <;> simp [hd]
    rw [hnc, Finset.mem_range] at hc
    have hc' : f.dw = true ∨ c < f.ic := by
      by_cases hd : f.dw = true
      · exact .inl hd
      · rw [if_neg hd] at hc; exact .inr hc
    dsimp only
    rw [if_pos hc']
  have hpatch' : ∀ a b c, -128 ≤ (if f.dw = true ∨ c < f.ic then l.patch x bt y xx o a b c else 0) ∧
      (if f.dw = true ∨ c < f.ic then l.patch x bt y xx o a b c else 0) ≤ 127 := by
    intro a b c
    by_cases hc : f.dw = true ∨ c < f.ic
    · rw [if_pos hc]; exact (hpatch a b c).resolve_right (fun h => h hc)
    · rw [if_neg hc]; omega
  have herr : |(match l.ot with
      | .group => lib.group l.mb o (l.mb.dot o fun a b c => l.patch x bt y xx o a b c)
      | .channelwise => lib.chan l.mb o (l.mb.dot o fun a b c => l.patch x bt y xx o a b c)) -
      (f.inS * f.filter.qp.scale o / f.outS * (acc : ℚ) + f.zpo)| ≤ cfg.threshold := by
    rw [← hmul, ← hex]
    rcases h14 with ⟨e, he⟩ | ⟨e, he⟩
    · rw [e]
      dsimp only
      rw [hdotc]
      exact le_trans (hlib.group _ _ _ hpatch') he
    · rw [e]
      dsimp only
      rw [hdotc]
      exact le_trans (hlib.chan _ _ _ hpatch') he
  have key : (|l.run lib x [bt, y, xx, o] - f.ref r p x [bt, y, xx, o]| : ℤ) ≤ cfg.threshold + 1 := by
    rw [href]
    unfold tflRequant
    have hlo : actLo f.act r f.outS f.zpo = -128 := by
      rcases hact with e | ⟨e, e2⟩
      · rw [e]; rfl
      · rw [e, e2]; rfl
    have hhi : actHi f.act r f.outS f.zpo = 127 := by
      rcases hact with e | ⟨e, _⟩ <;> rw [e] <;> rfl
    rw [hlo, hhi]
    unfold Lowered.run
    simp only [List.getD_cons_zero, List.getD_cons_succ]
    refine le_trans (Int.cast_le.2 (clamp_dist _ _ _ _)) ?_
    have hr' : Nearest fun v : ℚ => f.zpo + r (v - f.zpo) := by
      intro v
      have := hr (v - f.zpo)
      push_cast
      rw [show (f.zpo : ℚ) + r (v - f.zpo) - v = r (v - f.zpo) - (v - f.zpo) by ring]
      exact this
    have := round_dist hlib.round hr' herr
    rw [add_sub_cancel_right] at this
    exact_mod_cast this
  refine ⟨key, ?_⟩
  intro ht
  have : (|l.run lib x [bt, y, xx, o] - f.ref r p x [bt, y, xx, o]| : ℤ) < (2 : ℚ) := by linarith
  have : |l.run lib x [bt, y, xx, o] - f.ref r p x [bt, y, xx, o]| < 2 := by exact_mod_cast this
  omega

/-- **C51.** An 8-bit convolution or depthwise convolution that is replaced computes, at every output position, the value
of the TensorFlow Lite operator up to `threshold + 1` steps; with a threshold below one (the default is 0.25) that is one
step.  Assumed: the dynamic range of the filter scales is within `--xcore-conv-multiplier-factor` (default 2^32 - 1), and
the fused activation is none, or RELU with output zero point -128. -/
theorem C51_conv_lowered_partial (cfg : Cfg) (lib : Lib) (hlib : lib.Faithful) (r : ℚ → ℤ) (hr : Nearest r) (f : Fake) (p : Padding)
    (ok : f.OK p) (hrange : ∀ o < f.oc, ∀ o' < f.oc, f.filter.qp.scale o ≤ cfg.factor * f.filter.qp.scale o')
    (hact : f.act = .none ∨ f.act = .relu ∧ f.zpo = -128) (l : Lowered) (h : lower cfg lib f = some l) (B : Nat) (x : Tensor)
    (hx : ∀ i, InShape [B, f.ih, f.iw, f.ic] i → -128 ≤ x i ∧ x i ≤ 127) (hz : -128 ≤ f.zpi ∧ f.zpi ≤ 127) (idx : List Nat)
    (hidx : InShape [B, f.oh, f.ow, f.oc] idx) :
    (|l.run lib x idx - f.ref r p x idx| : ℤ) ≤ cfg.threshold + 1 ∧
    (cfg.threshold < 1 → |l.run lib x idx - f.ref r p x idx| ≤ 1) := by
  obtain ⟨bt, y, xx, o, rfl, hbt, hy, hxx, ho⟩ := in4 hidx
  exact conv_lowered_at cfg lib hlib r hr f p ok hact l h B x hx hz _ hidx fun o' ho' => hrange o ho o' ho'

/-- **C51, any activation.** The replacement always computes the convolution *without* fused activation. -/
theorem C51_activation_ignored (cfg : Cfg) (lib : Lib) (hlib : lib.Faithful) (r : ℚ → ℤ) (hr : Nearest r) (f : Fake)
    (p : Padding) (ok : f.OK p)
    (hrange : ∀ o < f.oc, ∀ o' < f.oc, f.filter.qp.scale o ≤ cfg.factor * f.filter.qp.scale o')
    (l : Lowered) (h : lower cfg lib f = some l) (hthr : cfg.threshold < 1) (B : Nat) (x : Tensor)
    (hx : ∀ i, InShape [B, f.ih, f.iw, f.ic] i → -128 ≤ x i ∧ x i ≤ 127) (hz : -128 ≤ f.zpi ∧ f.zpi ≤ 127) (idx : List Nat)
    (hidx : InShape [B, f.oh, f.ow, f.oc] idx) :
    |l.run lib x idx - ({ f with act := .none } : Fake).ref r p x idx| ≤ 1 := by
  have ok' : ({ f with act := .none } : Fake).OK p :=
    ⟨ok.bits, ok.pad, ok.kh, ok.kw, ok.sh, ok.sw, ok.dh, ok.dwf, ok.ih, ok.iw, ok.oh, ok.ow, ok.inS, ok.outS, ok.scales,
      ok.filter, ok.dwc, ok.zp, ok.small⟩
  exact (C51_conv_lowered_partial cfg lib hlib r hr { f with act := .none } p ok' hrange (.inl rfl) l h B x hx hz idx hidx).2 hthr

/-! ### Examples and refutations -/

/-- lib_nn with exact output transforms. -/
def exactLib : Lib :=
  { group := fun m o acc => m.exact o acc, groupErr := fun _ => 0, chan := fun m o acc => m.exact o acc
    chanErr := fun _ => 0, round := roundAway }

theorem exactLib_faithful : exactLib.Faithful :=
  ⟨fun m o p _ => by simp [exactLib], fun m o p _ => by simp [exactLib], roundAway_nearest⟩

def defaultCfg : Cfg := { threshold := 1 / 4, factor := 4294967295 }

/-- A `SAME` 3x3 convolution with stride 2 from 5x5x4 to 3x3x4, per-channel scales. -/
def exFake : Fake :=
  { dw := false, bits := 8, ih := 5, iw := 5, ic := 4, oh := 3, ow := 3, oc := 4, inS := 1 / 10, zpi := 3, outS := 1 / 5
    zpo := -128, filter := { o := 4, kh := 3, kw := 3, c := 4, data := (List.range 144).map fun i => (i % 7 : Nat) - 3
                             qp := .perAxis [1 / 2, 1 / 3, 1 / 4, 1 / 5] [0, 0, 0, 0] }
    bias := some [1, 2, 3, 4], pad := .tfl .same, sh := 2, sw := 2, dh := 1, dwf := 1, act := .relu }

theorem exFake_ok : exFake.OK .same := by
  refine ⟨rfl, rfl, by decide, by decide, by decide, by decide, by decide, by decide, by decide, by decide, by decide,
    by decide, by norm_num [exFake], by norm_num [exFake], ?_, rfl, by decide, ?_, by decide⟩
  · intro o ho
    have ho : o < 4 := ho
    interval_cases o <;> norm_num [exFake, QP.scale]
  · intro o ho
    have ho : o < 4 := ho
    interval_cases o <;> rfl

/-- The hypotheses of C51–C53 can be met: the example is replaced, with padding and the group transform. -/
theorem C51_example : ∃ l, lower defaultCfg exactLib exFake = some l ∧ l.kt = .paddedIndirect ∧ l.ot = .group ∧
    l.startRow = -1 ∧ (∀ o < exFake.oc, ∀ o' < exFake.oc, exFake.filter.qp.scale o ≤ defaultCfg.factor * exFake.filter.qp.scale o') ∧
    (exFake.act = .none ∨ exFake.act = .relu ∧ exFake.zpo = -128) ∧ fakeApplies exFake = true ∧ reluSplitOff exFake = false := by
  have hp : getPads exFake = some ⟨1, 1, 1, 1⟩ := by decide
  have hk : kernelType exFake true = some .paddedIndirect := by decide
  have ho : chooseOT defaultCfg exactLib (mulsBias defaultCfg exFake) = some .group := by
    unfold chooseOT
    rw [if_pos (by norm_num [exactLib, defaultCfg])]
  unfold lower
  rw [hp]
  simp only [show toBePadded ⟨1, 1, 1, 1⟩ = true by decide, hk]
  rw [if_neg (by decide), ho]
  refine ⟨_, rfl, rfl, rfl, rfl, ?_, .inr ⟨rfl, rfl⟩, by decide, by decide⟩
  intro o ho o' ho'
  have ho : o < 4 := ho
  have ho' : o' < 4 := ho'
  interval_cases o <;> interval_cases o' <;> norm_num [exFake, QP.scale, defaultCfg]

/-- A depthwise convolution with fused RELU and output zero point 0: identity filter. -/
def exDwRelu : Fake :=
  { dw := true, bits := 8, ih := 1, iw := 1, ic := 4, oh := 1, ow := 1, oc := 4, inS := 1, zpi := 0, outS := 1, zpo := 0
    filter := { o := 1, kh := 1, kw := 1, c := 4, data := [1, 1, 1, 1], qp := .perTensor 1 0 }
    bias := some [0, 0, 0, 0], pad := .tfl .valid, sh := 1, sw := 1, dh := 1, dwf := 1, act := .relu }

/-- **C51 refuted for other activations.** A depthwise convolution with fused RELU and an output zero point other than -128
is replaced, and the RELU is lost: for the input -100 TensorFlow Lite gives 0, the replacement -101 to -99, whatever
faithful output transform lib_nn uses.  (The pattern that splits RELU off, ConvPatterns.td 11–16, is for `Conv2D` only.) -/
theorem C51_activation_refuted (lib : Lib) (hlib : lib.Faithful) (cfg : Cfg) (h1 : cfg.threshold < 1) (h2 : 1 ≤ cfg.factor)
    (l : Lowered) (hl : lower cfg lib exDwRelu = some l) :
    exDwRelu.ref roundAway .valid (fun _ => -100) [0, 0, 0, 0] = 0 ∧
    l.run lib (fun _ => -100) [0, 0, 0, 0] ≤ -99 ∧ fakeApplies exDwRelu = true ∧ reluSplitOff exDwRelu = false := by
  have ok : exDwRelu.OK .valid := by
    refine ⟨rfl, rfl, by decide, by decide, by decide, by decide, by decide, by decide, by decide, by decide, by decide,
      by decide, by norm_num [exDwRelu], by norm_num [exDwRelu], ?_, rfl, by decide, ?_, by decide⟩
    · intro o _; norm_num [exDwRelu, QP.scale]
    · intro o _; rfl
  have hq : (1 : ℚ) ≤ cfg.factor := by exact_mod_cast h2
  have key := C51_activation_ignored cfg lib hlib roundAway roundAway_nearest exDwRelu .valid ok
    (by intro o _ o' _; simpa [exDwRelu, QP.scale] using hq) l hl h1 1 (fun _ => -100)
    (by intro i _; omega) (by decide) [0, 0, 0, 0] ⟨by decide, by decide, by decide, by decide, trivial⟩
  have e : ({ exDwRelu with act := .none } : Fake).ref roundAway .valid (fun _ => -100) [0, 0, 0, 0] = -100 := by decide +kernel
  rw [e] at key
  have := abs_le.1 key
  exact ⟨by decide +kernel, by omega, by decide, by decide⟩

/-- ... and it is replaced (with exact output transforms, default options). -/
theorem C51_activation_refuted_reached : (lower defaultCfg exactLib exDwRelu).isSome = true := by
  have hp : getPads exDwRelu = some ⟨0, 0, 0, 0⟩ := by decide
  have ho : chooseOT defaultCfg exactLib (mulsBias defaultCfg exDwRelu) = some .group := by
    unfold chooseOT
    rw [if_pos (by norm_num [exactLib, defaultCfg])]
  unfold lower
  rw [hp]
  simp only [show toBePadded ⟨0, 0, 0, 0⟩ = false by decide, show kernelType exDwRelu false = some .depthwiseValidDirect by decide]
  rw [if_neg (by decide), ho]
  rfl

/-- **C52 refuted as a statement about values**: with a small factor the larger multiplier is changed tenfold. -/
theorem C52_clamping_changes : clampMuls 10 [1, 100] = [1, 10] := by
  norm_num [clampMuls]

/-- A 16-bit `SAME` convolution. -/
def exI16 : Fake := { exFake with bits := 16, ic := 16, oc := 16, zpi := 0, zpo := 0, act := .none
                                  filter := { exFake.filter with o := 16, c := 16, qp := .perTensor 1 0 }, bias := none }

/-- **C53 refuted for 16-bit convolutions with padding**: the 16-bit kernel is chosen without looking at the padding
(ConvPatternsTFL.cpp 200–207) and would read outside the input.  (In the normal pipeline `SAME` has been rewritten to an
explicit pad before, see C34.) -/
theorem C53_i16_padding_refuted (cfg : Cfg) (lib : Lib) :
    ∃ l, lower cfg lib exI16 = some l ∧ l.kt = .validDirectI16 ∧ ¬ l.Usable exI16.oh exI16.ow := by
  have hp : getPads exI16 = some ⟨1, 1, 1, 1⟩ := by decide
  unfold lower
  rw [hp]
  simp only [show toBePadded ⟨1, 1, 1, 1⟩ = true by decide, show kernelType exI16 true = some .validDirectI16 by decide]
  rw [if_pos trivial]
  refine ⟨_, rfl, rfl, ?_⟩
  intro hu
  have := (hu.1 rfl 0 (by decide) 0 (by decide) 0 (by show 0 < 3; decide) 0 (by show 0 < 3; decide)).1.1
  unfold Lowered.row at this
  dsimp only at this
  revert this
  decide

end Verif.Conv
