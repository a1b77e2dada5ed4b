import Verif.Conv.Model
import Mathlib.Tactic.Linarith
/-!
C13 (channel-wise split), C14 (channel padding), C49 (SAME to VALID transposed convolution).
-/
namespace Verif.Conv
open Verif.Tensor Verif.Move Verif.Image

/-! ### Accumulator lemmas -/

theorem accum_congr {py px : Nat → Option Nat} {kh kw nc : Nat} {x x' w w' : Nat → Nat → Nat → Int}
    (h : ∀ a < kh, ∀ b < kw, ∀ iy ix, py a = some iy → px b = some ix → ∀ c < nc, x iy ix c * w a b c = x' iy ix c * w' a b c) :
    accum py px kh kw nc x w = accum py px kh kw nc x' w' := by
  unfold accum
  apply Finset.sum_congr rfl
  intro a ha
  apply Finset.sum_congr rfl
  intro b hb
  cases hy : py a with
  | none => rfl
  | some iy =>
    cases hx : px b with
    | none => rfl
    | some ix =>
      apply Finset.sum_congr rfl
      intro c hc
      exact h a (Finset.mem_range.1 ha) b (Finset.mem_range.1 hb) iy ix hy hx c (Finset.mem_range.1 hc)

/-- Channels whose products vanish do not count. -/
theorem accum_add {py px : Nat → Option Nat} {kh kw nc p : Nat} {x w : Nat → Nat → Nat → Int}
    (h : ∀ a < kh, ∀ b < kw, ∀ iy ix, py a = some iy → px b = some ix → ∀ c, nc ≤ c → c < nc + p → x iy ix c * w a b c = 0) :
    accum py px kh kw (nc + p) x w = accum py px kh kw nc x w := by
  unfold accum
  apply Finset.sum_congr rfl
  intro a ha
  apply Finset.sum_congr rfl
  intro b hb
  cases hy : py a with
  | none => rfl
  | some iy =>
    cases hx : px b with
    | none => rfl
    | some ix =>
      show ∑ c ∈ Finset.range (nc + p), x iy ix c * w a b c = ∑ c ∈ Finset.range nc, x iy ix c * w a b c
      rw [Finset.sum_range_add, Finset.sum_eq_zero (s := Finset.range p), add_zero]
      intro c hc
      exact h a (Finset.mem_range.1 ha) b (Finset.mem_range.1 hb) iy ix hy hx _ (by omega)
        (by have := Finset.mem_range.1 hc; omega)

theorem tap_lt {p : Padding} {n k s d y a i : Nat} (h : tap p n k s d y a = some i) : i < n := by
  unfold tap at h
  dsimp only at h
  generalize ((y : Int) * s + a * d - padBefore p n k s d) = t at h
  by_cases hc : 0 ≤ t ∧ t < (n : Int)
  · rw [if_pos hc] at h
    have := Option.some.inj h
    omega
  · rw [if_neg hc] at h; cases h

theorem ttap_lt {n s bf y a i : Nat} (h : ttap n s bf y a = some i) : i < n := by
  unfold ttap at h
  split at h
  · rename_i hc
    have := Option.some.inj h
    omega
  · cases h

/-! ### List lemmas -/

theorem getElem?_flatMap_range {β : Type} (g : Nat → List β) (m n j r : Nat) (hg : ∀ i, i < n → (g i).length = m)
    (hj : j < n) (hr : r < m) : ((List.range n).flatMap g)[j * m + r]? = (g j)[r]? := by
  induction j generalizing n g with
  | zero =>
    obtain ⟨n, rfl⟩ : ∃ n', n = n' + 1 := ⟨n - 1, by omega⟩
    rw [List.range_succ_eq_map, List.flatMap_cons, List.getElem?_append_left (by rw [hg 0 (by omega)]; omega)]
    simp
  | succ j ih =>
    obtain ⟨n, rfl⟩ : ∃ n', n = n' + 1 := ⟨n - 1, by omega⟩
    have e : (j + 1) * m + r = m + (j * m + r) := by ring
    rw [List.range_succ_eq_map, List.flatMap_cons, e, List.getElem?_append_right (by rw [hg 0 (by omega)]; omega),
      hg 0 (by omega), Nat.add_sub_cancel_left, List.flatMap_map]
    exact ih (fun i => g (i + 1)) n (fun i hi => hg (i + 1) (by omega)) (by omega)

theorem runs_count {k n : Nat} (hk : 0 < k) : (n * k + k - 1) / k = n := by
  rw [Nat.div_eq_iff hk]
  have : (n + 1) * k = n * k + k := by ring
  constructor <;> omega

theorem padRuns_length {k p n : Nat} (hk : 0 < k) {l : List Int} (hl : l.length = n * k) :
    (padRuns k p l).length = n * (k + p) := by
  unfold padRuns
  rw [hl, runs_count hk, length_flatMap_const (n := k + p)]
  · simp
  · intro j hj
    have hj : j < n := by simpa using hj
    have : (j + 1) * k ≤ n * k := Nat.mul_le_mul_right _ hj
    have e : (j + 1) * k = j * k + k := by ring
    simp only [List.length_append, List.length_take, List.length_drop, List.length_replicate, hl]
    omega

theorem padRuns_getD {k p n j r : Nat} (hk : 0 < k) {l : List Int} (hl : l.length = n * k) (hj : j < n) (hr : r < k + p) :
    (padRuns k p l).getD (j * (k + p) + r) 0 = if r < k then l.getD (j * k + r) 0 else 0 := by
  have hlen : ∀ i, i < n → ((l.drop (i * k)).take k ++ List.replicate p (0 : Int)).length = k + p := by
    intro i hi
    have : (i + 1) * k ≤ n * k := Nat.mul_le_mul_right _ hi
    have e : (i + 1) * k = i * k + k := by ring
    simp only [List.length_append, List.length_take, List.length_drop, List.length_replicate, hl]
    omega
  have hjk : j * k + k ≤ n * k := by
    have : (j + 1) * k ≤ n * k := Nat.mul_le_mul_right _ hj
    have e : (j + 1) * k = j * k + k := by ring
    omega
  unfold padRuns
  rw [hl, runs_count hk, List.getD_eq_getElem?_getD, getElem?_flatMap_range _ (k + p) n j r hlen hj hr]
  by_cases hc : r < k
  · rw [if_pos hc, List.getElem?_append_left (by simp only [List.length_take, List.length_drop]; omega),
      List.getElem?_take_of_lt hc, List.getElem?_drop, List.getD_eq_getElem?_getD]
  · have hlk : ((l.drop (j * k)).take k).length = k := by simp only [List.length_take, List.length_drop]; omega
    rw [if_neg hc, List.getElem?_append_right (by omega), hlk, List.getElem?_replicate_of_lt (by omega)]
    rfl

/-! ### Filters -/

theorem ravel4 (O KH KW C o a b c : Nat) :
    ravel [O, KH, KW, C] [o, a, b, c] = ((o * KH + a) * KW + b) * C + c := by
  simp [ravel]; ring

theorem prod4 (O KH KW C : Nat) : [O, KH, KW, C].prod = O * KH * KW * C := by simp [Nat.mul_assoc]

theorem run_lt {O KH KW o a b : Nat} (ho : o < O) (ha : a < KH) (hb : b < KW) : (o * KH + a) * KW + b < O * KH * KW := by
  have h1 : o * KH + a < O * KH := by
    have : (o + 1) * KH ≤ O * KH := Nat.mul_le_mul_right _ ho
    have e : (o + 1) * KH = o * KH + KH := by ring
    omega
  have : (o * KH + a + 1) * KW ≤ O * KH * KW := Nat.mul_le_mul_right _ h1
  have e : (o * KH + a + 1) * KW = (o * KH + a) * KW + KW := by ring
  omega

theorem padFilter3_at {qd p : Nat} {f : Filter} (ok : f.OK) (hc0 : 0 < f.c) {o a b c : Nat} (ho : o < f.o) (ha : a < f.kh)
    (hb : b < f.kw) (hc : c < f.c + p) :
    (padFilter3 qd p f).at o a b c = if c < f.c then f.at o a b c else 0 := by
  unfold Filter.at Filter.shape padFilter3
  dsimp only
  rw [ravel4, ravel4]
  refine padRuns_getD hc0 (n := f.o * f.kh * f.kw) ?_ (run_lt ho ha hb) hc
  rw [ok]; exact prod4 _ _ _ _

theorem padFilter3_ok {qd p : Nat} {f : Filter} (ok : f.OK) (hc0 : 0 < f.c) : (padFilter3 qd p f).OK := by
  unfold Filter.OK Filter.shape padFilter3
  dsimp only
  rw [padRuns_length hc0 (n := f.o * f.kh * f.kw) (by rw [ok]; exact prod4 _ _ _ _), prod4]

theorem padFilter0_at {qd p : Nat} {f : Filter} (ok : f.OK) {o a b c : Nat} (ho : o < f.o) (ha : a < f.kh)
    (hb : b < f.kw) (hc : c < f.c) : (padFilter0 qd p f).at o a b c = f.at o a b c := by
  unfold Filter.at Filter.shape padFilter0
  dsimp only
  rw [ravel4, ravel4, List.getD_eq_getElem?_getD, List.getElem?_append_left, List.getD_eq_getElem?_getD]
  rw [ok]
  unfold Filter.shape
  rw [prod4]
  have h1 := run_lt ho ha hb
  have : ((o * f.kh + a) * f.kw + b + 1) * f.c ≤ f.o * f.kh * f.kw * f.c := Nat.mul_le_mul_right _ h1
  have e : ((o * f.kh + a) * f.kw + b + 1) * f.c = ((o * f.kh + a) * f.kw + b) * f.c + f.c := by ring
  omega

theorem padFilter0_ok {qd p : Nat} {f : Filter} (ok : f.OK) : (padFilter0 qd p f).OK := by
  unfold Filter.OK Filter.shape padFilter0 at *
  dsimp only
  rw [List.length_append, ok, List.length_replicate, prod4, prod4]
  ring

theorem getD_append_lt {α : Type} {l m : List α} {i : Nat} {z : α} (h : i < l.length) : (l ++ m).getD i z = l.getD i z := by
  rw [List.getD_eq_getElem?_getD, List.getElem?_append_left h, List.getD_eq_getElem?_getD]

theorem padQP_scale {p n o : Nat} {q : QP} (hq : q.Fits n) (ho : o < n) : (padQP p q).scale o = q.scale o := by
  cases q with
  | perTensor _ _ => rfl
  | perAxis ss zs => exact getD_append_lt (by rw [hq.1]; exact ho)

theorem padQP_zp {p n o : Nat} {q : QP} (hq : q.Fits n) (ho : o < n) : (padQP p q).zp o = q.zp o := by
  cases q with
  | perTensor _ _ => rfl
  | perAxis ss zs => exact getD_append_lt (by rw [hq.2]; exact ho)

theorem padQP_fits {p n : Nat} {q : QP} (hq : q.Fits n) : (padQP p q).Fits (n + p) := by
  cases q with
  | perTensor _ _ => trivial
  | perAxis ss zs => exact ⟨by simp [hq.1], by simp [hq.2]⟩

/-! ### Padding amount -/

theorem alignPad_spec {al n : Nat} (hal : 0 < al) :
    al ∣ n + alignPad al n ∧ alignPad al n < al ∧ ∀ q, al ∣ n + q → alignPad al n ≤ q := by
  unfold alignPad
  have h1 : al * ((n + al - 1) / al) + (n + al - 1) % al = n + al - 1 := Nat.div_add_mod _ _
  have h2 := Nat.mod_lt (n + al - 1) hal
  rw [Nat.mul_comm] at h1
  have h3 : n + ((n + al - 1) / al * al - n) = (n + al - 1) / al * al := by omega
  refine ⟨by rw [h3]; exact Dvd.intro_left _ rfl, by omega, ?_⟩
  rintro q ⟨m, hm⟩
  rw [Nat.mul_comm] at hm
  have : (n + al - 1) / al ≤ m := by
    apply Nat.le_of_lt_succ
    rw [Nat.div_lt_iff_lt_mul hal]
    have : m.succ * al = m * al + al := by rw [Nat.succ_eq_add_one]; ring
    omega
  have := Nat.mul_le_mul_right al this
  omega

/-- Operators the patterns are meant for: filter and bias constants are complete. -/
structure ConvOp.OK (op : ConvOp) : Prop where
  filter : op.filter.OK
  depth : 0 < op.filter.c
  fq : op.filter.qp.Fits op.filter.o
  bias : ∀ b, op.bias = some b → b.data.length = op.filter.o ∧ b.qp.Fits op.filter.o

theorem padT_inside (zpi : Int) (B h w ic : Nat) (x : Tensor) {b iy ix c : Nat} (hb : b < B) (hy : iy < h) (hx : ix < w)
    (hc : c < ic) : padInputT zpi [B, h, w, ic] x [b, iy, ix, c] = x [b, iy, ix, c] := by
  simp [padInputT, padT, hb, hy, hx, hc]

theorem padT_outside (zpi : Int) (B h w ic : Nat) (x : Tensor) {b iy ix c : Nat} (hb : b < B) (hy : iy < h) (hx : ix < w)
    (hc : ic ≤ c) : padInputT zpi [B, h, w, ic] x [b, iy, ix, c] = zpi := by
  simp [padInputT, padT, hb, hy, hx, hc]

theorem in4 {B H W C : Nat} {idx : List Nat} (h : InShape [B, H, W, C] idx) :
    ∃ b y x c, idx = [b, y, x, c] ∧ b < B ∧ y < H ∧ x < W ∧ c < C := by
  match idx, h with
  | [b, y, x, c], h => exact ⟨b, y, x, c, rfl, h.1, h.2.1, h.2.2.1, h.2.2.2.1⟩

theorem group_zero {o O g : Nat} (hg : g ≤ 1) (ho : o < O) : o / (O / g) = 0 := by
  rcases Nat.le_one_iff_eq_zero_or_eq_one.1 hg with rfl | rfl
  · simp
  · rw [Nat.div_one]; exact Nat.div_eq_of_lt ho

theorem div_self_le_one (c : Nat) : c / c ≤ 1 := by
  rcases Nat.eq_zero_or_pos c with h | h
  · subst h; simp
  · rw [Nat.div_self h]

/-- C14, input channels, `CONV_2D` (one group).  The padded convolution on the padded input gives every output element of
the original, the new channel count is a multiple of the alignment, and no smaller padding reaches a multiple. -/
theorem C14_input_padding_partial (rq : Requant) (zpi : Int) (al B h w oh ow : Nat) (hal : 0 < al) (op op' : ConvOp) (ok : op.OK)
    (p : Nat) (hp : padConvInput al op.filter.c op = some (p, op')) (x : Tensor) :
    (∀ idx, InShape [B, oh, ow, op.filter.o] idx →
      conv2d rq zpi h w (op.filter.c + p) op' (padInputT zpi [B, h, w, op.filter.c] x) idx =
      conv2d rq zpi h w op.filter.c op x idx) ∧
    op'.filter.OK ∧ op'.filter.c = op.filter.c + p ∧ op'.filter.o = op.filter.o ∧
    al ∣ op.filter.c + p ∧ p < al ∧ ∀ q, al ∣ op.filter.c + q → p ≤ q := by
  unfold padConvInput at hp
  dsimp only at hp
  by_cases hz : alignPad al op.filter.c = 0
  · rw [if_pos hz] at hp; cases hp
  rw [if_neg hz] at hp
  have hp := Option.some.inj hp
  obtain ⟨hpe, rfl⟩ := Prod.mk.inj hp
  have hs := alignPad_spec (n := op.filter.c) hal
  rw [hpe] at hs
  rw [hpe]
  refine ⟨?_, padFilter3_ok ok.filter ok.depth, rfl, rfl, hs⟩
  intro idx hidx
  obtain ⟨b, y, xx, o, rfl, hb, hy, hx, ho⟩ := in4 hidx
  unfold conv2d
  dsimp only
  have e0 : (padFilter3 0 p op.filter).qp = op.filter.qp := rfl
  have e1 : (padFilter3 0 p op.filter).c = op.filter.c + p := rfl
  have e2 : (padFilter3 0 p op.filter).o = op.filter.o := rfl
  have e3 : (padFilter3 0 p op.filter).kh = op.filter.kh := rfl
  have e4 : (padFilter3 0 p op.filter).kw = op.filter.kw := rfl
  rw [e0, e1, e2, e3, e4]
  simp only [List.getD_cons_zero, List.getD_cons_succ]
  rw [group_zero (div_self_le_one _) ho, group_zero (div_self_le_one _) ho]
  simp only [Nat.zero_mul, Nat.zero_add]
  congr 2
  rw [accum_add]
  · apply accum_congr
    intro a ha bb hbb iy ix hiy hix c hc
    rw [padT_inside zpi B h w _ x hb (tap_lt hiy) (tap_lt hix) hc, padFilter3_at ok.filter ok.depth ho ha hbb (by omega),
      if_pos hc]
  · intro a ha bb hbb iy ix hiy hix c hc1 hc2
    rw [padT_outside zpi B h w _ x hb (tap_lt hiy) (tap_lt hix) hc1]
    simp

/-- C14, input channels, `TRANSPOSE_CONV`. -/
theorem C14_input_padding_transpose_partial (rq : Requant) (zpi : Int) (al B h w oh ow : Nat) (op op' : ConvOp)
    (ok : op.OK) (p : Nat) (hp : padConvInput al op.filter.c op = some (p, op')) (x : Tensor) :
    (∀ idx, InShape [B, oh, ow, op.filter.o] idx →
      tconv rq zpi h w oh ow op' (padInputT zpi [B, h, w, op.filter.c] x) idx = tconv rq zpi h w oh ow op x idx) ∧
    op'.filter.OK ∧ op'.filter.c = op.filter.c + p ∧ op'.filter.o = op.filter.o := by
  unfold padConvInput at hp
  dsimp only at hp
  by_cases hz : alignPad al op.filter.c = 0
  · rw [if_pos hz] at hp; cases hp
  rw [if_neg hz] at hp
  have hp := Option.some.inj hp
  obtain ⟨hpe, rfl⟩ := Prod.mk.inj hp
  rw [hpe]
  refine ⟨?_, padFilter3_ok ok.filter ok.depth, rfl, rfl⟩
  intro idx hidx
  obtain ⟨b, y, xx, o, rfl, hb, hy, hx, ho⟩ := in4 hidx
  unfold tconv
  dsimp only
  have e0 : (padFilter3 0 p op.filter).qp = op.filter.qp := rfl
  have e1 : (padFilter3 0 p op.filter).c = op.filter.c + p := rfl
  have e3 : (padFilter3 0 p op.filter).kh = op.filter.kh := rfl
  have e4 : (padFilter3 0 p op.filter).kw = op.filter.kw := rfl
  rw [e0, e1, e3, e4]
  simp only [List.getD_cons_zero, List.getD_cons_succ]
  congr 2
  rw [accum_add]
  · apply accum_congr
    intro a ha bb hbb iy ix hiy hix c hc
    rw [padT_inside zpi B h w _ x hb (ttap_lt hiy) (ttap_lt hix) hc, padFilter3_at ok.filter ok.depth ho ha hbb (by omega),
      if_pos hc]
  · intro a ha bb hbb iy ix hiy hix c hc1 hc2
    rw [padT_outside zpi B h w _ x hb (ttap_lt hiy) (ttap_lt hix) hc1]
    simp

/-- When the pattern does nothing the channel count is already aligned. -/
theorem C14_input_padding_skipped (al : Nat) (hal : 0 < al) (ic : Nat) (op : ConvOp) :
    padConvInput al ic op = none ↔ al ∣ ic := by
  have hs := alignPad_spec (n := ic) hal
  unfold padConvInput
  dsimp only
  by_cases hz : alignPad al ic = 0
  · rw [if_pos hz]
    rw [hz] at hs
    refine Iff.intro (fun _ => ?_) (fun _ => rfl)
    have h := hs.1
    rwa [Nat.add_zero] at h
  · rw [if_neg hz]
    refine ⟨fun h => (by cases h), fun h => ?_⟩
    have := hs.2.2 0 (by simpa using h)
    omega

/-- **C14** (which multiple).  With the alignment that the patterns use for `inBits`-bit inputs and `outBits`-bit outputs, the
input channels become a multiple of 16 when both are 16 bits wide and of 4 otherwise, by fewer than 16 (4) added channels;
nothing happens exactly when they already are. -/
theorem C14_hardware_multiple (inBits outBits ic : Nat) (op : ConvOp) :
    let m := if inBits = 16 ∧ outBits = 16 then 16 else 4
    match padConvInput (alignOf inBits outBits) ic op with
    | none => m ∣ ic
    | some (p, op') => ¬ m ∣ ic ∧ m ∣ ic + p ∧ 0 < p ∧ p < m ∧ op'.filter.c = op.filter.c + p := by
  intro m
  have ha : alignOf inBits outBits = m := rfl
  rw [ha]
  have hm : 0 < m := by
    show 0 < if inBits = 16 ∧ outBits = 16 then 16 else 4
    split <;> decide
  have hs := alignPad_spec (n := ic) hm
  have hn := C14_input_padding_skipped m hm ic op
  by_cases hz : m ∣ ic
  · rw [hn.2 hz]; exact hz
  · have hz' : alignPad m ic ≠ 0 := by
      intro h
      apply hz
      have := hs.1
      rwa [h, Nat.add_zero] at this
    have he : padConvInput m ic op = some (alignPad m ic, { op with filter := padFilter3 0 (alignPad m ic) op.filter }) := by
      unfold padConvInput
      exact if_neg hz'
    rw [he]
    exact ⟨hz, hs.1, by omega, hs.2.1, rfl⟩

theorem biasAt_pad {op : ConvOp} (ok : op.OK) {p o : Nat} (ho : o < op.filter.o) :
    biasAt (op.bias.map (padBias p)) o = biasAt op.bias o ∧
    ((op.bias.map (padBias p)).map fun b => b.qp.scale o) = op.bias.map fun b => b.qp.scale o := by
  cases hb : op.bias with
  | none => exact ⟨rfl, rfl⟩
  | some b =>
    obtain ⟨h1, h2⟩ := ok.bias b hb
    refine ⟨getD_append_lt (by rw [h1]; exact ho), ?_⟩
    show some _ = some _
    exact congrArg some (padQP_scale h2 ho)

/-- C14, output channels: the slice of the wider convolution is the original result (batch 1), the slice lies inside the
wider result, the wider filter and bias are complete, and the padding is the least. -/
theorem C14_output_padding_partial (rq : Requant) (zpi : Int) (al h w oh ow : Nat) (hal : 0 < al) (op op' : ConvOp) (ok : op.OK)
    (p : Nat) (sl : SliceAttr) (hp : padConvOutput al [1, oh, ow, op.filter.o] op = some (p, op', sl)) (x : Tensor) :
    (∀ idx, InShape [1, oh, ow, op.filter.o] idx →
      sliceT sl.begin_ (conv2d rq zpi h w op.filter.c op' x) idx = conv2d rq zpi h w op.filter.c op x idx ∧
      sliceT sl.begin_ (tconv rq zpi h w oh ow op' x) idx = tconv rq zpi h w oh ow op x idx) ∧
    sl.size = [1, oh, ow, op.filter.o] ∧ sl.begin_ = [0, 0, 0, 0] ∧
    op'.OK ∧ op'.filter.o = op.filter.o + p ∧ op'.filter.c = op.filter.c ∧
    al ∣ op.filter.o + p ∧ p < al ∧ ∀ q, al ∣ op.filter.o + q → p ≤ q := by
  unfold padConvOutput at hp
  simp only [List.getD_cons_zero, List.getD_cons_succ] at hp
  by_cases hz : alignPad al op.filter.o = 0
  · rw [if_pos hz] at hp; cases hp
  rw [if_neg hz] at hp
  have hp := Option.some.inj hp
  obtain ⟨hpe, hp⟩ := Prod.mk.inj hp
  obtain ⟨rfl, rfl⟩ := Prod.mk.inj hp
  have hs := alignPad_spec (n := op.filter.o) hal
  rw [hpe] at hs
  rw [hpe]
  refine ⟨?_, rfl, rfl, ?_, rfl, rfl, hs⟩
  · intro idx hidx
    obtain ⟨b, y, xx, o, rfl, hb, hy, hx, ho⟩ := in4 hidx
    have e0 : (padFilter0 0 p op.filter).qp = padQP p op.filter.qp := rfl
    have e1 : (padFilter0 0 p op.filter).c = op.filter.c := rfl
    have e2 : (padFilter0 0 p op.filter).o = op.filter.o + p := rfl
    have e3 : (padFilter0 0 p op.filter).kh = op.filter.kh := rfl
    have e4 : (padFilter0 0 p op.filter).kw = op.filter.kw := rfl
    obtain ⟨hb1, hb2⟩ := biasAt_pad ok (p := p) ho
    constructor
    · unfold sliceT conv2d
      simp only [List.zipWith_cons_cons, List.zipWith_nil_right, List.getD_cons_zero, List.getD_cons_succ, Nat.zero_add]
      rw [e0, e1, e2, e3, e4, hb1, hb2, padQP_scale ok.fq ho, padQP_zp ok.fq ho,
        group_zero (div_self_le_one _) ho, group_zero (div_self_le_one _) (by omega)]
      congr 2
      apply accum_congr
      intro a ha bb hbb iy ix hiy hix c hc
      rw [padFilter0_at ok.filter ho ha hbb hc]
    · unfold sliceT tconv
      simp only [List.zipWith_cons_cons, List.zipWith_nil_right, List.getD_cons_zero, List.getD_cons_succ, Nat.zero_add]
      rw [e0, e1, e3, e4, hb1, hb2, padQP_scale ok.fq ho, padQP_zp ok.fq ho]
      congr 2
      apply accum_congr
      intro a ha bb hbb iy ix hiy hix c hc
      rw [padFilter0_at ok.filter ho ha hbb hc]
  · refine ⟨padFilter0_ok ok.filter, ok.depth, padQP_fits ok.fq, ?_⟩
    intro b hb
    dsimp only at hb
    cases hbb : op.bias with
    | none => rw [hbb] at hb; cases hb
    | some b0 =>
      rw [hbb] at hb
      have := Option.some.inj hb
      subst this
      obtain ⟨h1, h2⟩ := ok.bias b0 hbb
      exact ⟨by show (b0.data ++ List.replicate p (0 : Int)).length = op.filter.o + p; simp [h1], padQP_fits h2⟩

/-- The slice behind a padded convolution is written for batch size 1. -/
theorem C14_output_batch_refuted (al B oh ow : Nat) (op op' : ConvOp) (p : Nat) (sl : SliceAttr)
    (hp : padConvOutput al [B, oh, ow, op.filter.o] op = some (p, op', sl)) (hB : B ≠ 1) :
    sl.size ≠ [B, oh, ow, op.filter.o] := by
  unfold padConvOutput at hp
  dsimp only at hp
  split at hp
  · cases hp
  have hp := Option.some.inj hp
  obtain ⟨_, hp⟩ := Prod.mk.inj hp
  obtain ⟨_, rfl⟩ := Prod.mk.inj hp
  intro h
  exact hB (List.cons.inj h).1.symm

/-- A depthwise operator's constants. -/
structure ConvOp.DwOK (op : ConvOp) : Prop where
  filter : op.filter.OK
  one : op.filter.o = 1
  depth : 0 < op.filter.c
  fq : op.filter.qp.Fits op.filter.c
  bias : ∀ b, op.bias = some b → b.data.length = op.filter.c ∧ b.qp.Fits op.filter.c

/-- C14, depthwise convolution: pad, convolve, slice is the original result (batch 1). -/
theorem C14_depthwise_padding (rq : Requant) (zpi : Int) (h w oh ow : Nat) (op op' : ConvOp) (ok : op.DwOK)
    (p : Nat) (sl : SliceAttr) (hp : padDepthwise op.filter.c [1, oh, ow, op.filter.c] op = some (p, op', sl)) (x : Tensor) :
    (∀ idx, InShape [1, oh, ow, op.filter.c] idx →
      sliceT sl.begin_ (dwconv rq zpi h w op' (padInputT zpi [1, h, w, op.filter.c] x)) idx = dwconv rq zpi h w op x idx) ∧
    sl.size = [1, oh, ow, op.filter.c] ∧ sl.begin_ = [0, 0, 0, 0] ∧
    op'.DwOK ∧ op'.filter.c = op.filter.c + p ∧ 4 ∣ op.filter.c + p ∧ p < 4 ∧ ∀ q, 4 ∣ op.filter.c + q → p ≤ q := by
  unfold padDepthwise at hp
  simp only [List.getD_cons_zero, List.getD_cons_succ, ne_eq, not_true_eq_false, if_false] at hp
  have hal : (op.filter.c + 3) / 4 * 4 - op.filter.c = alignPad 4 op.filter.c := rfl
  rw [hal] at hp
  by_cases hz : alignPad 4 op.filter.c = 0
  · rw [if_pos hz] at hp; cases hp
  rw [if_neg hz] at hp
  have hp := Option.some.inj hp
  obtain ⟨hpe, hp⟩ := Prod.mk.inj hp
  obtain ⟨rfl, rfl⟩ := Prod.mk.inj hp
  have hs := alignPad_spec (al := 4) (n := op.filter.c) (by decide)
  rw [hpe] at hs
  rw [hpe]
  refine ⟨?_, rfl, rfl, ?_, rfl, hs⟩
  · intro idx hidx
    obtain ⟨b, y, xx, o, rfl, hb, hy, hx, ho⟩ := in4 hidx
    have e0 : (padFilter3 3 p op.filter).qp = padQP p op.filter.qp := rfl
    have e3 : (padFilter3 3 p op.filter).kh = op.filter.kh := rfl
    have e4 : (padFilter3 3 p op.filter).kw = op.filter.kw := rfl
    have hb1 : biasAt (op.bias.map (padBias p)) o = biasAt op.bias o ∧
        ((op.bias.map (padBias p)).map fun b => b.qp.scale o) = op.bias.map fun b => b.qp.scale o := by
      cases hb : op.bias with
      | none => exact ⟨rfl, rfl⟩
      | some b =>
        obtain ⟨h1, h2⟩ := ok.bias b hb
        refine ⟨getD_append_lt (by rw [h1]; exact ho), ?_⟩
        show some _ = some _
        exact congrArg some (padQP_scale h2 ho)
    unfold sliceT dwconv
    simp only [List.zipWith_cons_cons, List.zipWith_nil_right, List.getD_cons_zero, List.getD_cons_succ, Nat.zero_add]
    rw [e0, e3, e4, hb1.1, hb1.2, padQP_scale ok.fq ho, padQP_zp ok.fq ho]
    congr 2
    apply accum_congr
    intro a ha bb hbb iy ix hiy hix c hc
    rw [padT_inside zpi 1 h w _ x hb (tap_lt hiy) (tap_lt hix) ho,
      padFilter3_at ok.filter ok.depth (by rw [ok.one]; omega) ha hbb (by omega), if_pos ho]
  · refine ⟨padFilter3_ok ok.filter ok.depth, ok.one, ?_, padQP_fits ok.fq, ?_⟩
    · show 0 < op.filter.c + p
      have := ok.depth; omega
    intro b hb
    dsimp only at hb
    cases hbb : op.bias with
    | none => rw [hbb] at hb; cases hb
    | some b0 =>
      rw [hbb] at hb
      have := Option.some.inj hb
      subst this
      obtain ⟨h1, h2⟩ := ok.bias b0 hbb
      exact ⟨by show (b0.data ++ List.replicate p (0 : Int)).length = op.filter.c + p; simp [h1], padQP_fits h2⟩

end Verif.Conv
