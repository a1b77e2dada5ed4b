import Verif.Conv.TransposeModel
import Verif.Conv.Props
import Mathlib.Data.List.ProdSigma
import Mathlib.Data.List.Nodup
import Mathlib.Data.List.Range
/-!
C40: the chain of strided convolutions that replaces a transposed convolution computes it.
-/
namespace Verif.Conv
open Verif.Tensor Verif.Move

theorem phaseCount_lt {k s sub t : Nat} (hs : 0 < s) : t < phaseCount k s sub ↔ sub + t * s < k := by
  unfold phaseCount
  rw [← Nat.not_le, ← Nat.lt_succ_iff, Nat.div_lt_iff_lt_mul hs]
  have : t.succ * s = t * s + s := by rw [Nat.succ_eq_add_one]; ring
  omega

/-- One dimension: only every `s`-th kernel position reaches output row `y`. -/
theorem sum_phase {n s y k : Nat} (hs : 0 < s) (G : Nat → Option Nat → Int) (hG : ∀ a, G a none = 0) :
    ∑ a ∈ Finset.range k, G a (ttap n s 0 y a) =
    ∑ t ∈ Finset.range (phaseCount k s (y % s)),
      G (y % s + t * s) (if t ≤ y / s ∧ y / s - t < n then some (y / s - t) else none) := by
  have hym : s * (y / s) + y % s = y := Nat.div_add_mod y s
  have hlt := Nat.mod_lt y hs
  have htap : ∀ t, ttap n s 0 y (y % s + t * s) = if t ≤ y / s ∧ y / s - t < n then some (y / s - t) else none := by
    intro t
    unfold ttap
    by_cases ht : t ≤ y / s
    · obtain ⟨d, hd⟩ := Nat.exists_eq_add_of_le ht
      have e : y + 0 - (y % s + t * s) = d * s := by
        have : s * (y / s) = t * s + d * s := by rw [hd]; ring
        omega
      have e2 : y / s - t = d := by omega
      rw [e, e2, Nat.mul_mod_left, Nat.mul_div_cancel _ hs]
      have h1 : y % s + t * s ≤ y + 0 := by
        have : s * (y / s) = t * s + d * s := by rw [hd]; ring
        omega
      by_cases hn : d < n
      · rw [if_pos ⟨h1, rfl, hn⟩, if_pos ⟨ht, hn⟩]
      · rw [if_neg (fun h => hn h.2.2), if_neg (fun h => hn h.2)]
    · have h1 : ¬ (y % s + t * s ≤ y + 0) := by
        have : (y / s + 1) * s ≤ t * s := Nat.mul_le_mul_right _ (by omega)
        have e : (y / s + 1) * s = s * (y / s) + s := by ring
        omega
      rw [if_neg (fun h => h1 h.1), if_neg (fun h => ht h.1)]
  have hinj : Set.InjOn (fun t => y % s + t * s) (Finset.range (phaseCount k s (y % s)) : Set Nat) := by
    intro a _ b _ hab
    have : a * s = b * s := by
      have : y % s + a * s = y % s + b * s := hab
      omega
    exact Nat.eq_of_mul_eq_mul_right hs this
  rw [show (∑ t ∈ Finset.range (phaseCount k s (y % s)),
      G (y % s + t * s) (if t ≤ y / s ∧ y / s - t < n then some (y / s - t) else none)) =
      ∑ t ∈ Finset.range (phaseCount k s (y % s)), (fun a => G a (ttap n s 0 y a)) (y % s + t * s) from
    Finset.sum_congr rfl fun t _ => (congrArg (G (y % s + t * s)) (htap t).symm), ← Finset.sum_image (f := fun a => G a (ttap n s 0 y a)) hinj]
  symm
  apply Finset.sum_subset
  · intro a ha
    obtain ⟨t, ht, rfl⟩ := Finset.mem_image.1 ha
    exact Finset.mem_range.2 ((phaseCount_lt hs).1 (Finset.mem_range.1 ht))
  · intro a ha hna
    have : ttap n s 0 y a = none := by
      unfold ttap
      rw [if_neg]
      rintro ⟨h1, h2, _⟩
      apply hna
      rw [Nat.add_zero] at h1 h2
      obtain ⟨d, hd⟩ := Nat.dvd_of_mod_eq_zero h2
      have hy : y = a + s * d := by omega
      have hm : y % s = a % s := by rw [hy, Nat.add_mul_mod_self_left]
      refine Finset.mem_image.2 ⟨a / s, ?_, ?_⟩
      · rw [Finset.mem_range, phaseCount_lt hs, hm]
        have := Nat.div_add_mod a s
        have e : a / s * s = s * (a / s) := Nat.mul_comm _ _
        have := Finset.mem_range.1 ha
        omega
      · show y % s + a / s * s = a
        rw [hm]
        have := Nat.div_add_mod a s
        have e : a / s * s = s * (a / s) := Nat.mul_comm _ _
        omega
    rw [this]; exact hG a

/-- The accumulator of a transposed convolution, phase by phase and with the reversed sub-kernel. -/
theorem accum_phase {h w sh sw y x kh kw nc : Nat} (hsh : 0 < sh) (hsw : 0 < sw) (X : Nat → Nat → Nat → Int)
    (W : Nat → Nat → Nat → Int) :
    accum (fun a => ttap h sh 0 y a) (fun b => ttap w sw 0 x b) kh kw nc X W =
    ∑ a ∈ Finset.range (phaseCount kh sh (y % sh)), ∑ b ∈ Finset.range (phaseCount kw sw (x % sw)),
      (if (phaseCount kh sh (y % sh) - 1 - a ≤ y / sh ∧ y / sh - (phaseCount kh sh (y % sh) - 1 - a) < h) ∧
          (phaseCount kw sw (x % sw) - 1 - b ≤ x / sw ∧ x / sw - (phaseCount kw sw (x % sw) - 1 - b) < w) then
        ∑ c ∈ Finset.range nc, X (y / sh - (phaseCount kh sh (y % sh) - 1 - a)) (x / sw - (phaseCount kw sw (x % sw) - 1 - b)) c *
          W (y % sh + (phaseCount kh sh (y % sh) - 1 - a) * sh) (x % sw + (phaseCount kw sw (x % sw) - 1 - b) * sw) c
      else 0) := by
  unfold accum
  let G2 : Nat → Option Nat → Nat → Option Nat → Int := fun a oy b ox =>
    match oy, ox with
    | some iy, some ix => ∑ c ∈ Finset.range nc, X iy ix c * W a b c
    | _, _ => 0
  have hG2 : ∀ a oy b, G2 a oy b none = 0 := by intro a oy b; cases oy <;> rfl
  have s1 := sum_phase (n := h) (y := y) (k := kh) hsh
    (fun a oy => ∑ b ∈ Finset.range kw, G2 a oy b (ttap w sw 0 x b)) (fun a => Finset.sum_eq_zero fun b _ => rfl)
  refine Eq.trans s1 ?_
  rw [← Finset.sum_range_reflect]
  apply Finset.sum_congr rfl
  intro a _
  have s2 := sum_phase (n := w) (y := x) (k := kw) hsw
    (fun b ox => G2 (y % sh + (phaseCount kh sh (y % sh) - 1 - a) * sh)
      (if phaseCount kh sh (y % sh) - 1 - a ≤ y / sh ∧ y / sh - (phaseCount kh sh (y % sh) - 1 - a) < h then
        some (y / sh - (phaseCount kh sh (y % sh) - 1 - a)) else none) b ox)
    (fun b => hG2 _ _ b)
  rw [s2, ← Finset.sum_range_reflect]
  apply Finset.sum_congr rfl
  intro b _
  by_cases h1 : phaseCount kh sh (y % sh) - 1 - a ≤ y / sh ∧ y / sh - (phaseCount kh sh (y % sh) - 1 - a) < h
  · by_cases h2 : phaseCount kw sw (x % sw) - 1 - b ≤ x / sw ∧ x / sw - (phaseCount kw sw (x % sw) - 1 - b) < w
    · rw [if_pos h1, if_pos h2, if_pos ⟨h1, h2⟩]
    · rw [if_pos h1, if_neg h2, if_neg (fun hh => h2 hh.2)]
  · refine Eq.trans ?_ (if_neg (fun hh => h1 hh.1)).symm
    rw [if_neg h1]

theorem foldl_max_ge (l : List Nat) (m0 : Int) : m0 ≤ l.foldl (fun m k => max m ((k : Int) - 1)) m0 ∧
    ∀ k ∈ l, (k : Int) - 1 ≤ l.foldl (fun m k => max m ((k : Int) - 1)) m0 := by
  induction l generalizing m0 with
  | nil => exact ⟨le_refl _, fun k hk => by simp at hk⟩
  | cons a l ih =>
    obtain ⟨h1, h2⟩ := ih (max m0 ((a : Int) - 1))
    refine ⟨le_trans (le_max_left _ _) h1, ?_⟩
    intro k hk
    rcases List.mem_cons.1 hk with rfl | hk
    · exact le_trans (le_max_right _ _) h1
    · exact h2 k hk

theorem padAmount_ge {l : List Nat} {k : Nat} (hk : k ∈ l) : k ≤ padAmount l + 1 := by
  have h := (foldl_max_ge l 0).2 k hk
  unfold padAmount
  omega

theorem ravel4' (B H W C r q c : Nat) : ravel [B, H, W, C] [0, r, q, c] = (r * W + q) * C + c := by
  rw [ravel4]; ring

/-- Contents of the (padded) input memory. -/
theorem padForTranspose_getD (zpi : Int) (h w c : Nat) (ps : List ConvParams) (x : Tensor) {r q ch : Nat}
    (hr : r < h + 2 * vPad ps) (hq : q < w + 2 * hPad ps) (hc : ch < c) :
    (padForTranspose zpi h w c ps x).getD ((r * (w + 2 * hPad ps) + q) * c + ch) 0 =
    if (vPad ps ≤ r ∧ r < vPad ps + h) ∧ (hPad ps ≤ q ∧ q < hPad ps + w) then x [0, r - vPad ps, q - hPad ps, ch] else zpi := by
  unfold padForTranspose
  by_cases hp : vPad ps > 0 ∨ hPad ps > 0
  · rw [if_pos hp, List.getD_eq_getElem?_getD, ← ravel4' 1 (h + 2 * vPad ps), flat_getElem _ _ _ (show InShape [1, _, _, c] [0, r, q, ch] from ⟨by omega, hr, hq, hc, trivial⟩)]
    simp only [Option.getD_some, padT, Nat.le_refl, Nat.zero_add, Nat.zero_lt_one, Nat.zero_le, and_self, if_true, true_and,
      Nat.sub_zero, hc]
    by_cases h1 : vPad ps ≤ r ∧ r < vPad ps + h
    · by_cases h2 : hPad ps ≤ q ∧ q < hPad ps + w
      · rw [if_pos h1, if_pos h2, if_pos ⟨h1, h2⟩]
      · rw [if_pos h1, if_neg h2, if_neg (fun hh => h2 hh.2)]
    · rw [if_neg h1, if_neg (fun hh => h1 hh.1)]
  · have e1 : vPad ps = 0 := by omega
    have e2 : hPad ps = 0 := by omega
    rw [if_neg hp, e2, Nat.mul_zero, Nat.add_zero, List.getD_eq_getElem?_getD, ← ravel4' 1 h,
      flat_getElem _ _ _ (show InShape [1, h, w, c] [0, r, q, ch] from ⟨by omega, by omega, by omega, hc, trivial⟩), e1, if_pos (by omega)]
    rfl

/-- The quotient of an output coordinate is bounded by input and sub-kernel size. -/
theorem quot_lt {h s k y : Nat} (hh : 1 ≤ h) (hs : 0 < s) (h0 : 0 < phaseCount k s (y % s))
    (hy : y < (h - 1) * s + max k s) : y / s + 2 ≤ h + phaseCount k s (y % s) := by
  have hlt := Nat.mod_lt y hs
  by_cases hks : k < s
  · have : y < h * s := by
      obtain ⟨g, rfl⟩ : ∃ g, h = g + 1 := ⟨h - 1, by omega⟩
      rw [max_eq_right (by omega)] at hy
      simpa [Nat.add_mul] using hy
    have := (Nat.div_lt_iff_lt_mul hs).2 this
    omega
  rw [max_eq_left (by omega)] at hy
  by_contra hc
  have hc : h - 1 + phaseCount k s (y % s) ≤ y / s := by omega
  have h1 : ¬ (y % s + phaseCount k s (y % s) * s < k) := fun hh => Nat.lt_irrefl _ ((phaseCount_lt hs).2 hh)
  have h2 := Nat.mul_le_mul_right s hc
  have h3 := Nat.div_add_mod y s
  have e : (h - 1 + phaseCount k s (y % s)) * s = (h - 1) * s + phaseCount k s (y % s) * s := by ring
  have e2 : y / s * s = s * (y / s) := Nat.mul_comm _ _
  omega

/-- One entry of the chain computes the transposed convolution on the pixels of its phase. -/
theorem fakeConv_run (rq : Requant) (zpi : Int) (i16 : Bool) (h w : Nat) (op : ConvOp) (hv : op.padding = .valid)
    (hh : 1 ≤ h) (hw : 1 ≤ w) (hsh : 0 < op.sh) (hsw : 0 < op.sw)
    (ps : List ConvParams) (hps : Reordered op.filter op.sh op.sw ps) (x : Tensor) (p : ConvParams) (hp : p ∈ ps)
    (prev : Nat → Nat → Nat → Int) (y xx o : Nat) (oh ow : Nat)
    (hy : y < (h - 1) * op.sh + max op.filter.kh op.sh) (hx : xx < (w - 1) * op.sw + max op.filter.kw op.sw)
    (ho : o < op.filter.o) :
    FakeConv.run
      { kernel := { p.kernel with qp := op.filter.qp }, bias := op.bias, subH := p.subH, subW := p.subW, strideH := op.sh,
        strideW := op.sw, inputOffset := inputOffset i16 w op.filter.c ps p }
      rq zpi (if i16 then 2 else 1) (w + 2 * hPad ps) op.filter.c (padForTranspose zpi h w op.filter.c ps x) prev y xx o =
    if y % op.sh = p.subH ∧ xx % op.sw = p.subW then
      tconv rq zpi h w oh ow op x [0, y, xx, o]
    else prev y xx o := by
  unfold FakeConv.run
  dsimp only
  by_cases hc : y % op.sh = p.subH ∧ xx % op.sw = p.subW
  swap
  · rw [if_neg hc, if_neg hc]
  rw [if_pos hc, if_pos hc]
  obtain ⟨hs1, hs2, hs3, hs4⟩ := hps.shape p hp
  have hwt := hps.weights p hp
  have hP : p.kernel.kh ≤ vPad ps + 1 := padAmount_ge (List.mem_map_of_mem (f := fun p => p.kernel.kh) hp)
  have hQ : p.kernel.kw ≤ hPad ps + 1 := padAmount_ge (List.mem_map_of_mem (f := fun p => p.kernel.kw) hp)
  unfold tconv
  simp only [List.getD_cons_zero, List.getD_cons_succ]
  have e0 : ∀ out k s, tbefore op.padding out k s = 0 := by rw [hv]; exact fun _ _ _ => rfl
  rw [e0, e0, accum_phase hsh hsw, hc.1, hc.2, ← hs3, ← hs4, hs2]
  congr 2
  apply Finset.sum_congr rfl
  intro a ha
  have ha := Finset.mem_range.1 ha
  apply Finset.sum_congr rfl
  intro b hb
  have hb := Finset.mem_range.1 hb
  have qy2 := quot_lt (k := op.filter.kh) hh hsh (by rw [hc.1, ← hs3]; omega) hy
  have qx2 := quot_lt (k := op.filter.kw) hw hsw (by rw [hc.2, ← hs4]; omega) hx
  rw [hc.1, ← hs3] at qy2
  rw [hc.2, ← hs4] at qx2
  -- the address
  have haddr : ∀ ch : Nat, (inputOffset i16 w op.filter.c ps p / ((if i16 then 2 else 1 : Nat) : Int) +
      ((((y / op.sh + a) * (w + 2 * hPad ps) + (xx / op.sw + b)) * op.filter.c + ch : Nat) : Int)).toNat =
      ((vPad ps + 1 - p.kernel.kh + y / op.sh + a) * (w + 2 * hPad ps) + (hPad ps + 1 - p.kernel.kw + xx / op.sw + b)) *
        op.filter.c + ch := by
    intro ch
    have eo : inputOffset i16 w op.filter.c ps p / ((if i16 then 2 else 1 : Nat) : Int) =
        (((vPad ps + 1 - p.kernel.kh) * (w + 2 * hPad ps) + (hPad ps + 1 - p.kernel.kw)) * op.filter.c : Nat) := by
      obtain ⟨d1, hd1⟩ := Nat.exists_eq_add_of_le hP
      obtain ⟨d2, hd2⟩ := Nat.exists_eq_add_of_le hQ
      have f1 : vPad ps + 1 - p.kernel.kh = d1 := by omega
      have f2 : hPad ps + 1 - p.kernel.kw = d2 := by omega
      have g1 : (vPad ps : Int) - ((p.kernel.kh : Int) - 1) = d1 := by omega
      have g2 : (hPad ps : Int) - ((p.kernel.kw : Int) - 1) = d2 := by omega
      rw [f1, f2]
      unfold inputOffset
      dsimp only
      rw [g1, g2]
      cases i16 with
      | true =>
        simp only [if_true]
        rw [show ((2 : Nat) : Int) = 2 from rfl, Int.mul_ediv_cancel _ (by decide)]
        push_cast; ring
      | false =>
        simp only [Bool.false_eq_true, if_false]
        rw [show ((1 : Nat) : Int) = 1 from rfl, Int.ediv_one]
        push_cast; ring
    rw [eo, ← Nat.cast_add, Int.toNat_natCast]
    ring
  have hrow : vPad ps + 1 - p.kernel.kh + y / op.sh + a < h + 2 * vPad ps := by omega
  have hcol : hPad ps + 1 - p.kernel.kw + xx / op.sw + b < w + 2 * hPad ps := by omega
  have c1 : (vPad ps ≤ vPad ps + 1 - p.kernel.kh + y / op.sh + a ∧ vPad ps + 1 - p.kernel.kh + y / op.sh + a < vPad ps + h) ↔
      (p.kernel.kh - 1 - a ≤ y / op.sh ∧ y / op.sh - (p.kernel.kh - 1 - a) < h) := by omega
  have c2 : (hPad ps ≤ hPad ps + 1 - p.kernel.kw + xx / op.sw + b ∧ hPad ps + 1 - p.kernel.kw + xx / op.sw + b < hPad ps + w) ↔
      (p.kernel.kw - 1 - b ≤ xx / op.sw ∧ xx / op.sw - (p.kernel.kw - 1 - b) < w) := by omega
  by_cases hin : (p.kernel.kh - 1 - a ≤ y / op.sh ∧ y / op.sh - (p.kernel.kh - 1 - a) < h) ∧
      (p.kernel.kw - 1 - b ≤ xx / op.sw ∧ xx / op.sw - (p.kernel.kw - 1 - b) < w)
  · rw [if_pos hin]
    apply Finset.sum_congr rfl
    intro ch hch
    have hch := Finset.mem_range.1 hch
    rw [haddr, padForTranspose_getD zpi h w _ ps x hrow hcol hch, if_pos ⟨c1.2 hin.1, c2.2 hin.2⟩]
    have r1 : vPad ps + 1 - p.kernel.kh + y / op.sh + a - vPad ps = y / op.sh - (p.kernel.kh - 1 - a) := by omega
    have r2 : hPad ps + 1 - p.kernel.kw + xx / op.sw + b - hPad ps = xx / op.sw - (p.kernel.kw - 1 - b) := by omega
    rw [r1, r2]
    have hat : ∀ kf : Filter, kf = { p.kernel with c := op.filter.c, qp := op.filter.qp } →
        kf.at o a b ch = p.kernel.at o a b ch := by
      intro kf hkf
      subst hkf
      unfold Filter.at Filter.shape
      rw [hs2]
    rw [hat _ rfl, hwt o a b ch ho ha hb hch]
  · rw [if_neg hin]
    apply Finset.sum_eq_zero
    intro ch hch
    have hch := Finset.mem_range.1 hch
    rw [haddr, padForTranspose_getD zpi h w _ ps x hrow hcol hch, if_neg (fun hcc => hin ⟨c1.1 hcc.1, c2.1 hcc.2⟩)]
    simp

/-- Folding: a pixel has the right value as soon as one entry of its phase has run. -/
theorem runChain_value {rq : Requant} {zpi : Int} {eb w c : Nat} {m : List Int} {val : Int} {y x o : Nat}
    (l : List FakeConv) (init : Nat → Nat → Nat → Int)
    (h : ∀ fc ∈ l, ∀ prev, fc.run rq zpi eb w c m prev y x o =
      if y % fc.strideH = fc.subH ∧ x % fc.strideW = fc.subW then val else prev y x o)
    (hinit : init y x o = val ∨ ∃ fc ∈ l, y % fc.strideH = fc.subH ∧ x % fc.strideW = fc.subW) :
    runChain rq zpi eb w c m l init y x o = val := by
  unfold runChain
  induction l generalizing init with
  | nil =>
    rcases hinit with h | ⟨fc, hfc, _⟩
    · exact h
    · simp at hfc
  | cons f l ih =>
    rw [List.foldl_cons]
    apply ih
    · exact fun fc hfc => h fc (List.mem_cons_of_mem _ hfc)
    · by_cases hc : y % f.strideH = f.subH ∧ x % f.strideW = f.subW
      · left
        rw [h f (by simp), if_pos hc]
      · rcases hinit with hi | ⟨fc, hfc, hfc2⟩
        · left
          rw [h f (by simp), if_neg hc, hi]
        · rcases List.mem_cons.1 hfc with rfl | hfc
          · exact absurd hfc2 hc
          · exact .inr ⟨fc, hfc, hfc2⟩

theorem filter_length_one {α β : Type} [DecidableEq β] (l : List α) (f : α → β) (hn : (l.map f).Nodup) (b : β)
    (hb : ∃ a ∈ l, f a = b) : (l.filter fun a => f a = b).length = 1 := by
  induction l with
  | nil => obtain ⟨a, ha, _⟩ := hb; simp at ha
  | cons a l ih =>
    rw [List.map_cons, List.nodup_cons] at hn
    by_cases hc : f a = b
    · rw [List.filter_cons_of_pos (by simp [hc]), List.length_cons, List.filter_eq_nil_iff.2]
      · rfl
      · intro a' ha'
        simp only [decide_eq_true_eq]
        intro h
        exact hn.1 (List.mem_map.2 ⟨a', ha', h.trans hc.symm⟩)
    · rw [List.filter_cons_of_neg (by simp [hc])]
      apply ih hn.2
      obtain ⟨a', ha', h⟩ := hb
      rcases List.mem_cons.1 ha' with rfl | ha'
      · exact absurd h hc
      · exact ⟨a', ha', h⟩

/-- C40.  Let `ps` be what lib_nn's re-ordering of the kernel returns (`Reordered`).  On the padded input memory, whatever
the output buffer holds initially, the chain of convolutions leaves in every output element the value of the `VALID`
transposed convolution of any output size up to `(in - 1) * stride + max kernel stride` (what TensorFlow and Keras
use; the kernel may be smaller than the stride), for 8-bit and
16-bit elements; and every output pixel is written by exactly one convolution of the chain. -/
theorem C40_transpose_conv_chain (rq : Requant) (zpi : Int) (i16 : Bool) (h w : Nat) (op : ConvOp)
    (hv : op.padding = .valid) (hh : 1 ≤ h) (hw : 1 ≤ w) (hsh : 0 < op.sh) (hsw : 0 < op.sw)
    (ps : List ConvParams) (hps : Reordered op.filter op.sh op.sw ps) (x : Tensor) (init : Nat → Nat → Nat → Int) (oh ow : Nat)
    (hoh : oh ≤ (h - 1) * op.sh + max op.filter.kh op.sh) (how : ow ≤ (w - 1) * op.sw + max op.filter.kw op.sw) (y xx o : Nat)
    (hidx : InShape [1, oh, ow, op.filter.o] [0, y, xx, o]) :
    runChain rq zpi (if i16 then 2 else 1) (w + 2 * hPad ps) op.filter.c (padForTranspose zpi h w op.filter.c ps x)
        (fakeConvs i16 w op ps) init y xx o =
      tconv rq zpi h w oh ow op x [0, y, xx, o] ∧
    ((fakeConvs i16 w op ps).filter fun fc => (fc.subH, fc.subW) = (y % fc.strideH, xx % fc.strideW)).length = 1 := by
  obtain ⟨_, hy, hx, ho, _⟩ := hidx
  obtain ⟨p, hp, hp1, hp2⟩ := hps.cover (y % op.sh) (xx % op.sw) (Nat.mod_lt _ hsh) (Nat.mod_lt _ hsw)
  constructor
  · apply runChain_value
    · intro fc hfc prev
      obtain ⟨q, hq, rfl⟩ := List.mem_map.1 hfc
      exact fakeConv_run rq zpi i16 h w op hv hh hw hsh hsw ps hps x q hq prev y xx o oh ow (by omega) (by omega) ho
    · exact .inr ⟨_, List.mem_map_of_mem hp, hp1.symm, hp2.symm⟩
  · unfold fakeConvs
    rw [List.filter_map, List.length_map]
    exact filter_length_one ps (fun p => (p.subH, p.subW)) hps.once (y % op.sh, xx % op.sw) ⟨p, hp, by rw [hp1, hp2]⟩

/-! ### The contract of the re-ordering can be met -/

/-- A re-ordering: for every phase the rows and columns of the kernel in steps of the stride, reversed. -/
def refPhase (f : Filter) (sh sw i j : Nat) : ConvParams :=
  { kernel := { o := f.o, kh := phaseCount f.kh sh i, kw := phaseCount f.kw sw j, c := f.c, qp := f.qp,
                data := flat [f.o, phaseCount f.kh sh i, phaseCount f.kw sw j, f.c] fun idx =>
                  f.at (idx.getD 0 0) (i + (phaseCount f.kh sh i - 1 - idx.getD 1 0) * sh)
                    (j + (phaseCount f.kw sw j - 1 - idx.getD 2 0) * sw) (idx.getD 3 0) },
    subH := i, subW := j }

def refReorder (f : Filter) (sh sw : Nat) : List ConvParams :=
  (List.range sh).flatMap fun i => (List.range sw).map fun j => refPhase f sh sw i j

theorem mem_refReorder {f : Filter} {sh sw : Nat} {p : ConvParams} :
    p ∈ refReorder f sh sw ↔ ∃ i j, i < sh ∧ j < sw ∧ refPhase f sh sw i j = p := by
  unfold refReorder
  simp only [List.mem_flatMap, List.mem_range, List.mem_map]
  constructor
  · rintro ⟨i, hi, j, hj, h⟩; exact ⟨i, j, hi, hj, h⟩
  · rintro ⟨i, j, hi, hj, h⟩; exact ⟨i, hi, j, hj, h⟩

theorem refReorder_spec (f : Filter) (sh sw : Nat) : Reordered f sh sw (refReorder f sh sw) := by
  refine ⟨?_, ?_, ?_, ?_, ?_⟩
  · intro i j hi hj
    exact ⟨_, mem_refReorder.2 ⟨i, j, hi, hj, rfl⟩, rfl, rfl⟩
  · intro p hp
    obtain ⟨i, j, hi, hj, rfl⟩ := mem_refReorder.1 hp
    exact ⟨hi, hj⟩
  · have e : (refReorder f sh sw).map (fun p => (p.subH, p.subW)) = List.product (List.range sh) (List.range sw) := by
      unfold refReorder List.product
      rw [List.map_flatMap]
      apply flatMap_congr'
      intro i _
      rw [List.map_map]
      rfl
    rw [e]
    exact List.nodup_range.product List.nodup_range
  · intro p hp
    obtain ⟨i, j, hi, hj, rfl⟩ := mem_refReorder.1 hp
    exact ⟨rfl, rfl, rfl, rfl⟩
  · intro p hp o a b c ho ha hb hc
    obtain ⟨i, j, hi, hj, rfl⟩ := mem_refReorder.1 hp
    show List.getD (flat _ _) (ravel _ [o, a, b, c]) 0 = _
    rw [List.getD_eq_getElem?_getD]
    show (flat [f.o, phaseCount f.kh sh i, phaseCount f.kw sw j, f.c] _)[ravel [f.o, phaseCount f.kh sh i, phaseCount f.kw sw j, f.c] [o, a, b, c]]?.getD 0 = _
    rw [flat_getElem _ _ _ (show InShape [f.o, phaseCount f.kh sh i, phaseCount f.kw sw j, f.c] [o, a, b, c] from ⟨ho, ha, hb, hc, trivial⟩)]
    rfl

def exTV : ConvOp :=
  { padding := .valid, sh := 2, sw := 3, dh := 1, dw := 1,
    filter := { o := 1, kh := 3, kw := 4, c := 1, data := [1, 2, 3, 4, 5, 6, 7, 8, 9, 10, 11, 12], qp := .perTensor 1 0 },
    bias := none }

/-- A 2x2 kernel with stride 2. -/
def exT22 : ConvOp :=
  { padding := .valid, sh := 2, sw := 2, dh := 1, dw := 1,
    filter := { o := 1, kh := 2, kw := 2, c := 1, data := [1, 1, 1, 1], qp := .perTensor 1 0 }, bias := none }

/-- C40 fails for larger outputs, which TensorFlow accepts (Keras' `output_padding`): a 2x2 input, a 2x2 kernel with stride
2 and an output of 5x5, whose forward convolution gives 2x2 again.  Row 4 is computed from row 2 of the unpadded 2-row input,
behind the end of the tensor (here the memory behind it holds zeros, which are not the zero point). -/
theorem C40_output_padding_refuted :
    let ps := refReorder exT22.filter exT22.sh exT22.sw
    (5 - exT22.filter.kh) / exT22.sh + 1 = 2 ∧ vPad ps = 0 ∧
    (∃ fc ∈ fakeConvs false 2 exT22 ps, fc.subH = 0 ∧ fc.subW = 0 ∧ fc.kernel.kh = 1 ∧ fc.inputOffset = 0) ∧
    (padForTranspose 5 2 2 1 ps fun _ => 6).length = 4 ∧ 4 ≤ (4 / exT22.sh) * 2 ∧
    runChain (fun _ _ a => a) 5 1 2 1 (padForTranspose 5 2 2 1 ps fun _ => 6) (fakeConvs false 2 exT22 ps) (fun _ _ _ => 0) 4 0 0 = -5 ∧
    tconv (fun _ _ a => a) 5 2 2 5 5 exT22 (fun _ => 6) [0, 4, 0, 0] = 0 := by
  refine ⟨by decide, by decide, ?_, by decide, by decide, by decide +kernel, by decide +kernel⟩
  exact ⟨_, List.mem_map_of_mem (mem_refReorder.2 ⟨0, 0, by decide, by decide, rfl⟩), by decide, by decide, by decide, by decide⟩

/-- The hypotheses of C40 hold for a 3x4 kernel with strides 2 and 3, which has six phases. -/
example : exTV.padding = .valid ∧ 5 ≤ (2 - 1) * exTV.sh + max exTV.filter.kh exTV.sh ∧
    7 ≤ (2 - 1) * exTV.sw + max exTV.filter.kw exTV.sw ∧ Reordered exTV.filter exTV.sh exTV.sw (refReorder exTV.filter exTV.sh exTV.sw) ∧
    (refReorder exTV.filter exTV.sh exTV.sw).length = 6 :=
  ⟨rfl, by decide, by decide, refReorder_spec _ _ _, by decide⟩

end Verif.Conv
