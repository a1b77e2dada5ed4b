import Verif.Conv.Compile
/-!
C80: proofs.
-/
namespace Verif.Conv.Compile
open Verif.Tensor Verif.Move Verif.Image Verif.Quant Verif.Conv Verif.TFL

/-! ### Pads -/

theorem padT_congr {α : Type} (z : α) : ∀ (ss ns idx : List Nat) (f g : List Nat → α), ss.length = ns.length →
    idx.length = ns.length → (∀ i, InShape ns i → f i = g i) → padT z ss ns f idx = padT z ss ns g idx
  | [], [], idx, f, g, _, _, h => by simp only [padT]; exact h [] trivial
  | s :: ss, n :: ns, i :: idx, f, g, h1, h2, h => by
    simp only [padT]
    by_cases hc : s ≤ i ∧ i < s + n
    · rw [if_pos hc, if_pos hc]
      exact padT_congr z ss ns idx _ _ (by simpa using h1) (by simpa using h2) fun r hr => h _ ⟨by omega, hr⟩
    · rw [if_neg hc, if_neg hc]
  | _ :: _, _ :: _, [], _, _, _, h2, _ => by simp at h2
  | [], _ :: _, _, _, _, h1, _, _ => by simp at h1
  | _ :: _, [], _, _, _, h1, _, _ => by simp at h1

theorem padT_range {α : Type} (P : α → Prop) (z : α) (hz : P z) : ∀ (ss ns idx : List Nat) (f : List Nat → α),
    ss.length = ns.length → idx.length = ns.length → (∀ i, InShape ns i → P (f i)) → P (padT z ss ns f idx)
  | [], [], idx, f, _, _, h => by simp only [padT]; exact h [] trivial
  | s :: ss, n :: ns, i :: idx, f, h1, h2, h => by
    simp only [padT]
    by_cases hc : s ≤ i ∧ i < s + n
    · rw [if_pos hc]
      exact padT_range P z hz ss ns idx _ (by simpa using h1) (by simpa using h2) fun r hr => h _ ⟨by omega, hr⟩
    · rw [if_neg hc]; exact hz
  | _ :: _, _ :: _, [], _, _, h2, _ => by simp at h2
  | [], _ :: _, _, _, h1, _, _ => by simp at h1
  | _ :: _, [], _, _, h1, _, _ => by simp at h1

theorem lows_length : ∀ v : List Nat, (lows v).length = v.length / 2
  | [] => rfl
  | [_] => by simp [lows]
  | _ :: _ :: r => by simp only [lows, List.length_cons, lows_length r]; omega

theorem padded_length : ∀ (s v : List Nat), v.length = 2 * s.length → (padded s v).length = s.length
  | [], [], _ => rfl
  | [], _ :: _, h => by simp at h
  | _ :: _, [], h => by simp at h
  | _ :: _, [_], h => by simp only [List.length_cons, List.length_nil] at h; omega
  | _ :: s, _ :: _ :: v, h => by
    simp only [padded, List.length_cons] at h ⊢
    rw [padded_length s v (by omega)]

theorem srcVal_append (zpi : Int) : ∀ (a b : List PadStep) (x : Tensor), srcVal zpi (a ++ b) x = srcVal zpi b (srcVal zpi a x)
  | [], _, _ => rfl
  | p :: a, b, x => by rw [List.cons_append, srcVal, srcVal, srcVal_append zpi a b]

theorem padsOK_append : ∀ (a b : List PadStep) (s u : List Nat), PadsOK s (a ++ b) u ↔ ∃ m, PadsOK s a m ∧ PadsOK m b u
  | [], b, s, u => by simp [PadsOK]
  | p :: a, b, s, u => by
    simp only [List.cons_append, PadsOK, padsOK_append a b, and_assoc]
    constructor
    · rintro ⟨h1, h2, m, h3⟩; exact ⟨m, h1, h2, h3⟩
    · rintro ⟨m, h1, h2, h3⟩; exact ⟨h1, h2, m, h3⟩

theorem srcVal_congr (zpi : Int) : ∀ (ps : List PadStep) (s u : List Nat) (f g : Tensor), s.length = 4 → PadsOK s ps u →
    (∀ i, InShape s i → f i = g i) → ∀ i, InShape u i → srcVal zpi ps f i = srcVal zpi ps g i
  | [], s, u, f, g, _, hp, h => by
    have : s = u := hp
    subst this; exact h
  | p :: ps, s, u, f, g, hs, hp, h => by
    obtain ⟨h1, h2, h3⟩ := hp
    have hl : (padded s p.vals).length = 4 := by rw [padded_length s _ (by omega)]; exact hs
    refine srcVal_congr zpi ps _ u _ _ hl h3 ?_
    intro i hi
    have := inShape_length _ _ hi
    exact padT_congr zpi _ _ _ _ _ (by rw [lows_length, h2, h1, hs]) (by rw [this, hl, h1, hs]) (by rw [h1]; exact h)

theorem srcVal_range (zpi : Int) (hz : -128 ≤ zpi ∧ zpi ≤ 127) : ∀ (ps : List PadStep) (s u : List Nat) (f : Tensor),
    s.length = 4 → PadsOK s ps u → (∀ i, InShape s i → -128 ≤ f i ∧ f i ≤ 127) →
    ∀ i, InShape u i → -128 ≤ srcVal zpi ps f i ∧ srcVal zpi ps f i ≤ 127
  | [], s, u, f, _, hp, h => by
    have : s = u := hp
    subst this; exact h
  | p :: ps, s, u, f, hs, hp, h => by
    obtain ⟨h1, h2, h3⟩ := hp
    have hl : (padded s p.vals).length = 4 := by rw [padded_length s _ (by omega)]; exact hs
    refine srcVal_range zpi hz ps _ u _ hl h3 ?_
    intro i hi
    have := inShape_length _ _ hi
    exact padT_range (fun v => -128 ≤ v ∧ v ≤ 127) zpi hz _ _ _ _ (by rw [lows_length, h2, h1, hs])
      (by rw [this, hl, h1, hs]) (by rw [h1]; exact h)

/-! ### Values of convolutions -/

/-- What both kinds of convolution compute. -/
theorem value_eq {s0 : List Nat} {l : Leaf} (ok : l.OK s0) (rq : Requant) (zpi : Int) (x : Tensor) {bt y xx o : Nat} (ho : o < l.oc) :
    l.value rq zpi x [bt, y, xx, o] =
      rq (l.op.filter.qp.scale o) (l.op.bias.map fun b => b.qp.scale o) (biasAt l.op.bias o +
        accum (fun a => tap l.op.padding l.ih l.op.filter.kh l.op.sh l.op.dh y a)
          (fun b => tap l.op.padding l.iw l.op.filter.kw l.op.sw l.op.dw xx b) l.op.filter.kh l.op.filter.kw
          (if l.dw then 1 else l.op.filter.c)
          (fun iy ix c => srcVal zpi l.src x [bt, iy, ix, if l.dw then o else c] - zpi)
          (fun a b c => if l.dw then l.op.filter.at 0 a b o - l.op.filter.qp.zp o else l.op.filter.at o a b c - l.op.filter.qp.zp o)) := by
  unfold Leaf.value
  unfold Leaf.oc at ho
  cases hd : l.dw with
  | true =>
    simp only [if_true]
    unfold dwconv
    simp only [List.getD_cons_zero, List.getD_cons_succ]
  | false =>
    rw [hd] at ho
    simp only [Bool.false_eq_true, if_false] at ho ⊢
    unfold conv2d
    simp only [List.getD_cons_zero, List.getD_cons_succ]
    rw [ok.ch, group_zero (div_self_le_one _) ho]
    simp only [Nat.zero_mul, Nat.zero_add]

theorem chan_lt {s0 : List Nat} {l : Leaf} (ok : l.OK s0) {o c : Nat} (ho : o < l.oc) (hc : c < if l.dw then 1 else l.op.filter.c) :
    (if l.dw then o else c) < l.ic := by
  unfold Leaf.oc at ho
  rw [ok.ch]
  cases hd : l.dw with
  | true => rw [hd] at ho; simpa using ho
  | false => rw [hd] at hc; simpa using hc

/-- A convolution only reads inside its operand. -/
theorem value_congr {s0 : List Nat} {l : Leaf} (ok : l.OK s0) (rq : Requant) (zpi : Int) {l' : Leaf} (ok' : l'.OK s0)
    (h1 : l'.dw = l.dw) (h2 : l'.ih = l.ih) (h3 : l'.iw = l.iw) (h5 : l'.op = l.op) (x x' : Tensor)
    (h : ∀ i, InShape [1, l.ih, l.iw, l.ic] i → srcVal zpi l'.src x' i = srcVal zpi l.src x i) {oh ow : Nat} (idx : List Nat)
    (hidx : InShape [1, oh, ow, l.oc] idx) : l'.value rq zpi x' idx = l.value rq zpi x idx := by
  obtain ⟨bt, y, xx, o, rfl, hbt, hy, hxx, ho⟩ := in4 hidx
  have ho' : o < l'.oc := by unfold Leaf.oc at ho ⊢; rw [h1, h5]; exact ho
  rw [value_eq ok rq zpi x ho, value_eq ok' rq zpi x' ho', h1, h2, h3, h5]
  congr 2
  apply accum_congr
  intro a ha b hb iy ix hiy hix c hc
  have hin : InShape [1, l.ih, l.iw, l.ic] [bt, iy, ix, if l.dw then o else c] :=
    ⟨hbt, tap_lt hiy, tap_lt hix, chan_lt ok ho hc, trivial⟩
  rw [h _ hin]

/-! ### SAME padding made explicit -/

theorem same_dim {n k s d : Int} (hn : 1 ≤ n) (hk : 1 ≤ k) (hs : 1 ≤ s) (hd : 1 ≤ d) :
    sameOut n s = (n + sameBefore n k s d + sameAfter n k s d - eff k d + s) / s :=
  (convSame_eq_pad_valid ⟨k, k, s, s, d, d⟩ ⟨hk, hk, hs, hs, hd, hd⟩ (0 : Int) (fun _ => (0 : Int)) ⟨n, n, fun _ _ => 0⟩ hn hn).1

/-- One direction: the taps of the `VALID` window on the padded extent, and which of them lie in the original extent. -/
theorem tap_same_valid {n k s d out b n' : Nat} (hn : 1 ≤ n) (hk : 1 ≤ k) (hs : 1 ≤ s) (hd : 1 ≤ d)
    (hout : (out : Int) = sameOut n s) (hb : (b : Int) = sameBefore n k s d) (hn' : (n' : Int) = n + sameBefore n k s d + sameAfter n k s d)
    {y a : Nat} (hy : y < out) (ha : a < k) :
    tap .valid n' k s d y a = some (y * s + a * d) ∧ y * s + a * d < n' ∧
    tap .same n k s d y a = if b ≤ y * s + a * d ∧ y * s + a * d < b + n then some (y * s + a * d - b) else none := by
  have hlt : y * s + a * d < n' := by
    have e := same_dim (n := (n : Int)) (k := k) (s := s) (d := d) (by omega) (by omega) (by omega) (by omega)
    rw [← hn', ← hout] at e
    have hle : ((y : Int) + 1) * s ≤ (n' : Int) - eff k d + s := (Int.le_ediv_iff_mul_le (by omega)).1 (by omega)
    have e1 : ((y : Int) + 1) * s = y * s + s := by ring
    have pa2 : (a : Int) * d ≤ ((k : Int) - 1) * d := Int.mul_le_mul_of_nonneg_right (by omega) (by omega)
    unfold eff at hle
    have : ((y * s + a * d : Nat) : Int) < n' := by push_cast; omega
    exact_mod_cast this
  refine ⟨?_, hlt, ?_⟩
  · unfold tap padBefore
    dsimp only
    have e : (y : Int) * s + a * d - 0 = ((y * s + a * d : Nat) : Int) := by push_cast; ring
    rw [e, if_pos ⟨by omega, by omega⟩, Int.toNat_natCast]
  · unfold tap padBefore
    dsimp only
    rw [← hb]
    have e : (y : Int) * s + a * d = ((y * s + a * d : Nat) : Int) := by push_cast; ring
    rw [e]
    generalize y * s + a * d = m
    by_cases hc : b ≤ m ∧ m < b + n
    · rw [if_pos hc, if_pos (by omega)]
      congr 1
      omega
    · rw [if_neg hc, if_neg (by omega)]

theorem accum_same_valid {n m kh kw sh sw dh dw oh ow b1 b2 n' m' nc y xx : Nat} (hn : 1 ≤ n) (hm : 1 ≤ m) (hkh : 1 ≤ kh) (hkw : 1 ≤ kw)
    (hsh : 1 ≤ sh) (hsw : 1 ≤ sw) (hdh : 1 ≤ dh) (hdw : 1 ≤ dw) (ho1 : (oh : Int) = sameOut n sh) (ho2 : (ow : Int) = sameOut m sw)
    (hb1 : (b1 : Int) = sameBefore n kh sh dh) (hb2 : (b2 : Int) = sameBefore m kw sw dw)
    (hn' : (n' : Int) = n + sameBefore n kh sh dh + sameAfter n kh sh dh)
    (hm' : (m' : Int) = m + sameBefore m kw sw dw + sameAfter m kw sw dw) (hy : y < oh) (hx : xx < ow)
    (X X' w : Nat → Nat → Nat → Int)
    (hX : ∀ i j c, i < n' → j < m' → c < nc →
      X' i j c = if (b1 ≤ i ∧ i < b1 + n) ∧ b2 ≤ j ∧ j < b2 + m then X (i - b1) (j - b2) c else 0) :
    accum (fun a => tap .valid n' kh sh dh y a) (fun b => tap .valid m' kw sw dw xx b) kh kw nc X' w =
    accum (fun a => tap .same n kh sh dh y a) (fun b => tap .same m kw sw dw xx b) kh kw nc X w := by
  unfold accum
  apply Finset.sum_congr rfl
  intro a ha
  apply Finset.sum_congr rfl
  intro b hb
  rw [Finset.mem_range] at ha hb
  obtain ⟨p1, p2, p3⟩ := tap_same_valid hn hkh hsh hdh ho1 hb1 hn' hy ha
  obtain ⟨q1, q2, q3⟩ := tap_same_valid hm hkw hsw hdw ho2 hb2 hm' hx hb
  dsimp only
  rw [p1, p3, q1, q3]
  generalize y * sh + a * dh = i at *
  generalize xx * sw + b * dw = j at *
  dsimp only
  by_cases h1 : b1 ≤ i ∧ i < b1 + n
  · by_cases h2 : b2 ≤ j ∧ j < b2 + m
    · rw [if_pos h1, if_pos h2]
      apply Finset.sum_congr rfl
      intro c hc
      rw [hX i j c p2 q2 (Finset.mem_range.1 hc), if_pos ⟨h1, h2⟩]
    · rw [if_pos h1, if_neg h2]
      apply Finset.sum_eq_zero
      intro c hc
      rw [hX i j c p2 q2 (Finset.mem_range.1 hc), if_neg (fun h => h2 h.2), zero_mul]
  · rw [if_neg h1]
    apply Finset.sum_eq_zero
    intro c hc
    rw [hX i j c p2 q2 (Finset.mem_range.1 hc), if_neg (fun h => h1 h.1), zero_mul]

theorem pad_hw (zpi : Int) (b1 a1 b2 a2 h w ic : Nat) (f : Tensor) {i j c : Nat} (hc : c < ic) :
    padT zpi (lows [0, 0, b1, a1, b2, a2, 0, 0]) [1, h, w, ic] f [0, i, j, c] =
      if (b1 ≤ i ∧ i < b1 + h) ∧ b2 ≤ j ∧ j < b2 + w then f [0, i - b1, j - b2, c] else zpi := by
  simp only [lows, padT]
  rw [if_pos (by omega)]
  by_cases h1 : b1 ≤ i ∧ i < b1 + h
  · rw [if_pos h1]
    by_cases h2 : b2 ≤ j ∧ j < b2 + w
    · rw [if_pos h2, if_pos (by omega), if_pos ⟨h1, h2⟩]
      rfl
    · rw [if_neg h2, if_neg (fun h => h2 h.2)]
  · rw [if_neg h1, if_neg (fun h => h1 h.1)]

/-- What `explicitPad` makes. -/
theorem explicitPad_some {s0 : List Nat} {l l' : Leaf} (ok : l.OK s0) (h : explicitPad l = some l') :
    l.op.padding = .same ∧ ∃ b1 a1 b2 a2 : Nat,
      (b1 : Int) = sameBefore l.ih l.op.filter.kh l.op.sh l.op.dh ∧ (a1 : Int) = sameAfter l.ih l.op.filter.kh l.op.sh l.op.dh ∧
      (b2 : Int) = sameBefore l.iw l.op.filter.kw l.op.sw l.op.dw ∧ (a2 : Int) = sameAfter l.iw l.op.filter.kw l.op.sw l.op.dw ∧
      l' = { l with src := l.src ++ [⟨[0, 0, b1, a1, b2, a2, 0, 0], [1, l.ih, l.iw, l.ic]⟩]
                    ih := l.ih + b1 + a1, iw := l.iw + b2 + a2, op := { l.op with padding := .valid } } := by
  unfold explicitPad at h
  by_cases hp : l.op.padding = .same
  swap
  · rw [if_neg hp] at h; cases h
  rw [if_pos hp] at h
  have h := Option.some.inj h
  have hih := ok.ih; have hiw := ok.iw; have hkh := ok.kh; have hkw := ok.kw
  have hsh := ok.sh; have hsw := ok.sw; have hdh := ok.dh; have hdw := ok.dwf
  obtain ⟨-, -, -, f1, f2, -⟩ := samePad_facts (n := (l.ih : Int)) (k := l.op.filter.kh) (s := l.op.sh) (d := l.op.dh)
    (by omega) (by omega) (by omega) (by omega)
  obtain ⟨-, -, -, g1, g2, -⟩ := samePad_facts (n := (l.iw : Int)) (k := l.op.filter.kw) (s := l.op.sw) (d := l.op.dw)
    (by omega) (by omega) (by omega) (by omega)
  refine ⟨hp, (sameBefore l.ih l.op.filter.kh l.op.sh l.op.dh).toNat, (sameAfter l.ih l.op.filter.kh l.op.sh l.op.dh).toNat,
    (sameBefore l.iw l.op.filter.kw l.op.sw l.op.dw).toNat, (sameAfter l.iw l.op.filter.kw l.op.sw l.op.dw).toNat,
    by omega, by omega, by omega, by omega, ?_⟩
  rw [← h]
  have e : ∀ m k d s : Int, windowedSame m k d s = (sameOut m s, sameBefore m k s d, sameAfter m k s d) := fun _ _ _ _ => rfl
  unfold getConvPaddingValues
  simp only [List.getD_cons_succ, List.getD_cons_zero, e, List.map_cons, List.map_nil, Int.toNat_zero, Leaf.mk.injEq, true_and, and_true]
  constructor <;> omega

theorem explicitPad_ok {s0 : List Nat} {l l' : Leaf} (ok : l.OK s0) (h : explicitPad l = some l') :
    l'.OK s0 ∧ l'.oh = l.oh ∧ l'.ow = l.ow ∧ l'.dw = l.dw ∧ l'.op.filter = l.op.filter ∧ l'.op.padding = .valid := by
  obtain ⟨hp, b1, a1, b2, a2, e1, e2, e3, e4, rfl⟩ := explicitPad_some ok h
  have hoh := ok.oh
  have how := ok.ow
  rw [hp] at hoh how
  have hih := ok.ih; have hiw := ok.iw; have hkh := ok.kh; have hkw := ok.kw
  have hsh := ok.sh; have hsw := ok.sw; have hdh := ok.dh; have hdw := ok.dwf
  refine ⟨⟨?_, ok.ch, fun hd => ⟨(ok.conv hd).filter, (ok.conv hd).depth, (ok.conv hd).fq, (ok.conv hd).bias⟩,
    fun hd => ⟨(ok.dwise hd).filter, (ok.dwise hd).one, (ok.dwise hd).depth, (ok.dwise hd).fq, (ok.dwise hd).bias⟩,
    ok.kh, ok.kw, ok.sh, ok.sw, ok.dh, ok.dwf, ?_, ?_, ?_, ?_, ok.scales, ok.zp, ok.small⟩, rfl, rfl, rfl, rfl, rfl⟩
  · rw [padsOK_append]
    refine ⟨_, ok.pads, rfl, rfl, ?_⟩
    simp only [padded, PadsOK, Nat.add_zero]
  · dsimp only; omega
  · dsimp only; omega
  · unfold outSize at hoh ⊢
    dsimp only at hoh ⊢
    rw [hoh, same_dim (n := (l.ih : Int)) (k := l.op.filter.kh) (s := l.op.sh) (d := l.op.dh) (by omega) (by omega) (by omega) (by omega)]
    push_cast
    rw [e1, e2]
  · unfold outSize at how ⊢
    dsimp only at how ⊢
    rw [how, same_dim (n := (l.iw : Int)) (k := l.op.filter.kw) (s := l.op.sw) (d := l.op.dw) (by omega) (by omega) (by omega) (by omega)]
    push_cast
    rw [e3, e4]

theorem explicitPad_value {s0 : List Nat} {l l' : Leaf} (ok : l.OK s0) (h : explicitPad l = some l') (rq : Requant) (zpi : Int)
    (x : Tensor) (idx : List Nat) (hidx : InShape [1, l.oh, l.ow, l.oc] idx) : l'.value rq zpi x idx = l.value rq zpi x idx := by
  have ok' := (explicitPad_ok ok h).1
  obtain ⟨hp, b1, a1, b2, a2, e1, e2, e3, e4, rfl⟩ := explicitPad_some ok h
  obtain ⟨bt, y, xx, o, rfl, hbt, hy, hxx, ho⟩ := in4 hidx
  have hbt : bt = 0 := by omega
  subst hbt
  rw [value_eq ok rq zpi x ho, value_eq ok' rq zpi x ho]
  dsimp only
  congr 2
  have hoh := ok.oh
  have how := ok.ow
  rw [hp] at hoh how ⊢
  refine accum_same_valid ok.ih ok.iw ok.kh ok.kw ok.sh ok.sw ok.dh ok.dwf hoh how e1 e3 (by push_cast; omega) (by push_cast; omega) hy hxx _ _ _ ?_
  intro i j c hi hj hc
  rw [srcVal_append]
  simp only [srcVal]
  rw [pad_hw zpi b1 a1 b2 a2 l.ih l.iw l.ic _ (chan_lt ok ho hc)]
  by_cases hh : (b1 ≤ i ∧ i < b1 + l.ih) ∧ b2 ≤ j ∧ j < b2 + l.iw
  · rw [if_pos hh, if_pos hh]
  · rw [if_neg hh, if_neg hh, sub_self]

/-! ### Swapping pads -/

theorem swap_ok {s0 : List Nat} (hs0 : s0.length = 4) {l : Leaf} (ok : l.OK s0) {pre post : List PadStep} {a b : PadStep} {t : TwoPads}
    (hsrc : l.src = pre ++ a :: b :: post) (ht : swapPads a.inp ⟨a.vals, b.inp, b.vals, padded b.inp b.vals⟩ = some t) (zpi : Int) :
    let l' : Leaf := { l with src := pre ++ ⟨t.inner, a.inp⟩ :: ⟨t.outer, t.mid⟩ :: post }
    l'.OK s0 ∧ ∀ x i, InShape [1, l.ih, l.iw, l.ic] i → srcVal zpi l'.src x i = srcVal zpi l.src x i := by
  intro l'
  have hp := ok.pads
  rw [hsrc, padsOK_append] at hp
  obtain ⟨m, h1, h2, h3, h4, h5, h6⟩ := hp
  have hm : m.length = 4 := by
    have key : ∀ (ps : List PadStep) (s u : List Nat), s.length = 4 → PadsOK s ps u → u.length = 4 := by
      intro ps
      induction ps with
      | nil => intro s u hs h; have : s = u := h; rw [← this]; exact hs
      | cons q ps ih =>
        intro s u hs h
        exact ih _ _ (by rw [padded_length _ _ (by rw [h.2.1, hs])]; exact hs) h.2.2
    exact key _ _ _ hs0 h1
  obtain ⟨c1, c2, c3, c4⟩ := C43_pads_swapped zpi (fun _ : List Nat => (0 : Int)) a.inp _ t (by rw [h2]; exact hm) (by rw [h4, h2]) rfl ht
  have hv : t.inner = b.vals ∧ t.outer = a.vals := by
    unfold swapPads at ht
    split at ht
    · have := Option.some.inj ht; rw [← this]; exact ⟨rfl, rfl⟩
    · cases ht
  have hpads : PadsOK s0 l'.src [1, l.ih, l.iw, l.ic] := by
    show PadsOK s0 (pre ++ ⟨t.inner, a.inp⟩ :: ⟨t.outer, t.mid⟩ :: post) _
    rw [padsOK_append]
    refine ⟨m, h1, h2, by show t.inner.length = 8; rw [hv.1]; exact h5, ?_, by show t.outer.length = 8; rw [hv.2]; exact h3, ?_⟩
    · show t.mid = padded m t.inner
      rw [c1, h2]
    · show PadsOK (padded (padded m t.inner) t.outer) post _
      rw [← h2, ← c1, ← c2, c3]
      dsimp only
      rw [h4]; exact h6
  refine ⟨⟨hpads, ok.ch, ok.conv, ok.dwise, ok.kh, ok.kw, ok.sh, ok.sw, ok.dh, ok.dwf, ok.ih, ok.iw, ok.oh, ok.ow, ok.scales, ok.zp, ok.small⟩, ?_⟩
  intro x
  show ∀ i, InShape [1, l.ih, l.iw, l.ic] i → srcVal zpi (pre ++ ⟨t.inner, a.inp⟩ :: ⟨t.outer, t.mid⟩ :: post) x i = srcVal zpi l.src x i
  rw [hsrc, srcVal_append, srcVal_append]
  simp only [srcVal]
  obtain ⟨d1, d2, d3, d4⟩ := C43_pads_swapped zpi (srcVal zpi pre x) a.inp _ t (by rw [h2]; exact hm) (by rw [h4, h2]) rfl ht
  refine srcVal_congr zpi post (padded b.inp b.vals) _ _ _ ?_ (by rw [h4]; exact h6) ?_
  · have e1 : (padded m a.vals).length = 4 := by rw [padded_length _ _ (by rw [h3, hm])]; exact hm
    rw [h4, padded_length _ _ (by rw [h5, e1])]; exact e1
  · intro i hi
    exact d4 i hi

/-! ### Invariants -/

/-- The graph computes `[1, oh, ow, c]`; of its channels the first `v` reach the result, and their filter scales are within the factor of
every scale in the same convolution, and of 1. -/
def Net.Inv (F : Nat) (s0 : List Nat) (oh ow : Nat) : Net → Nat → Nat → Prop
  | .conv l, c, v => l.OK s0 ∧ l.oh = oh ∧ l.ow = ow ∧ l.oc = c ∧
      ∀ o < v, l.op.filter.qp.scale o ≤ F ∧ ∀ o' < c, l.op.filter.qp.scale o ≤ F * l.op.filter.qp.scale o'
  | .slice s e, c, v => s.begin_ = [0, 0, 0, 0] ∧ ∃ c', c ≤ c' ∧ e.Inv F s0 oh ow c' v
  | .cat n a b, c, v => ∃ m, c = n + m ∧ a.Inv F s0 oh ow n (min v n) ∧ b.Inv F s0 oh ow m (v - n)
  | .nil, c, _ => c = 0

def Net.All (Q : Leaf → Prop) : Net → Prop
  | .conv l => Q l
  | .slice _ e => e.All Q
  | .cat _ a b => a.All Q ∧ b.All Q
  | .nil => True

theorem Net.All.mono {Q Q' : Leaf → Prop} (h : ∀ l, Q l → Q' l) : ∀ n : Net, n.All Q → n.All Q'
  | .conv l, hn => h l hn
  | .slice _ e, hn => Net.All.mono h e hn
  | .cat _ a b, hn => ⟨Net.All.mono h a hn.1, Net.All.mono h b hn.2⟩
  | .nil, _ => trivial

theorem all_true : ∀ n : Net, n.All fun _ => True
  | .conv _ => trivial
  | .slice _ e => all_true e
  | .cat _ a b => ⟨all_true a, all_true b⟩
  | .nil => trivial

/-- A set of patterns keeps the invariants and the meaning of a single convolution. -/
def Sound (F : Nat) (s0 : List Nat) (oh ow : Nat) (Q : Leaf → Prop) (R : Leaf → Net → Prop) : Prop :=
  ∀ (l : Leaf) (n : Net) (c v : Nat), v ≤ c → R l n → (Net.conv l).Inv F s0 oh ow c v → Q l →
    n.Inv F s0 oh ow c v ∧ n.All Q ∧
    ∀ (rq : Requant) (zpi : Int) (x : Tensor) (idx : List Nat), InShape [1, oh, ow, c] idx →
      n.eval (fun l => l.value rq zpi x) idx = l.value rq zpi x idx

theorem step_sound {F : Nat} {s0 : List Nat} {oh ow : Nat} {Q : Leaf → Prop} {R : Leaf → Net → Prop} (hR : Sound F s0 oh ow Q R)
    {a b : Net} (h : Step R a b) : ∀ c v, v ≤ c → a.Inv F s0 oh ow c v → a.All Q →
    b.Inv F s0 oh ow c v ∧ b.All Q ∧
    ∀ (rq : Requant) (zpi : Int) (x : Tensor) (idx : List Nat), InShape [1, oh, ow, c] idx →
      b.eval (fun l => l.value rq zpi x) idx = a.eval (fun l => l.value rq zpi x) idx := by
  induction h with
  | here h => intro c v hv hi ha; exact hR _ _ c v hv h hi ha
  | slice _ ih =>
    intro c v hv hi ha
    obtain ⟨h1, c', h2, h3⟩ := hi
    obtain ⟨g1, g2, g3⟩ := ih c' v (by omega) h3 ha
    refine ⟨⟨h1, c', h2, g1⟩, g2, ?_⟩
    intro rq zpi x idx hidx
    obtain ⟨bt, y, xx, o, rfl, hbt, hy, hxx, ho⟩ := in4 hidx
    simp only [Net.eval, sliceT, h1, List.zipWith_cons_cons, List.zipWith_nil_right, Nat.zero_add]
    exact g3 rq zpi x _ ⟨hbt, hy, hxx, by omega, trivial⟩
  | left _ ih =>
    intro c v hv hi ha
    obtain ⟨m, h1, h2, h3⟩ := hi
    obtain ⟨g1, g2, g3⟩ := ih _ _ (by omega) h2 ha.1
    refine ⟨⟨m, h1, g1, h3⟩, ⟨g2, ha.2⟩, ?_⟩
    intro rq zpi x idx hidx
    obtain ⟨bt, y, xx, o, rfl, hbt, hy, hxx, ho⟩ := in4 hidx
    simp only [Net.eval, List.getD_cons_zero, List.getD_cons_succ]
    split
    next hc => exact g3 rq zpi x _ ⟨hbt, hy, hxx, hc, trivial⟩
    next => rfl
  | right _ ih =>
    intro c v hv hi ha
    obtain ⟨m, h1, h2, h3⟩ := hi
    obtain ⟨g1, g2, g3⟩ := ih _ _ (by omega) h3 ha.2
    refine ⟨⟨m, h1, h2, g1⟩, ⟨ha.1, g2⟩, ?_⟩
    intro rq zpi x idx hidx
    obtain ⟨bt, y, xx, o, rfl, hbt, hy, hxx, ho⟩ := in4 hidx
    simp only [Net.eval, List.getD_cons_zero, List.getD_cons_succ, List.set_cons_succ, List.set_cons_zero]
    split
    next => rfl
    next hc => exact g3 rq zpi x _ ⟨hbt, hy, hxx, by omega, trivial⟩

theorem steps_sound {F : Nat} {s0 : List Nat} {oh ow : Nat} {Q : Leaf → Prop} {R : Leaf → Net → Prop} (hR : Sound F s0 oh ow Q R)
    {a b : Net} (h : Steps R a b) (c v : Nat) (hv : v ≤ c) (hi : a.Inv F s0 oh ow c v) (ha : a.All Q) :
    b.Inv F s0 oh ow c v ∧ b.All Q ∧
    ∀ (rq : Requant) (zpi : Int) (x : Tensor) (idx : List Nat), InShape [1, oh, ow, c] idx →
      b.eval (fun l => l.value rq zpi x) idx = a.eval (fun l => l.value rq zpi x) idx := by
  induction h with
  | refl => exact ⟨hi, ha, fun _ _ _ _ _ => rfl⟩
  | tail _ hs ih =>
    obtain ⟨h1, h2, h3⟩ := ih
    obtain ⟨g1, g2, g3⟩ := step_sound hR hs c v hv h1 h2
    exact ⟨g1, g2, fun rq zpi x idx hidx => (g3 rq zpi x idx hidx).trans (h3 rq zpi x idx hidx)⟩

/-! ### The pattern sets are sound -/

theorem tfl_sound (F : Nat) (s0 : List Nat) (hs0 : s0.length = 4) (oh ow : Nat) : Sound F s0 oh ow (fun _ => True) TflRule := by
  intro l n c v hv hR hi _
  obtain ⟨ok, e1, e2, e3, hsc⟩ := hi
  cases hR with
  | same h =>
    obtain ⟨g1, g2, g3, g4, g5, g6⟩ := explicitPad_ok ok h
    refine ⟨⟨g1, by rw [g2, e1], by rw [g3, e2], by unfold Leaf.oc at e3 ⊢; rw [g4, g5]; exact e3, by rw [g5]; exact hsc⟩, trivial, ?_⟩
    intro rq zpi x idx hidx
    rw [← e1, ← e2, ← e3] at hidx
    exact explicitPad_value ok h rq zpi x idx hidx
  | swap hsrc ht =>
    refine ⟨⟨(swap_ok hs0 ok hsrc ht 0).1, e1, e2, e3, hsc⟩, trivial, ?_⟩
    intro rq zpi x idx hidx
    obtain ⟨ok', hval⟩ := swap_ok hs0 ok hsrc ht zpi
    rw [← e3] at hidx
    exact value_congr ok rq zpi ok' rfl rfl rfl rfl x x (hval x) idx hidx

/-- Scales and zero points of a widened annotation. -/
theorem padQP_cases {p n : Nat} {q : QP} (hq : q.Fits n) (o : Nat) (hn : 0 < n) (ho : o < n + p) :
    ((padQP p q).scale o = 1 ∧ (padQP p q).zp o = 0) ∨ ∃ o' < n, (padQP p q).scale o = q.scale o' ∧ (padQP p q).zp o = q.zp o' := by
  by_cases h : o < n
  · exact .inr ⟨o, h, padQP_scale hq h, padQP_zp hq h⟩
  · cases q with
    | perTensor s z => exact .inr ⟨0, hn, rfl, rfl⟩
    | perAxis ss zs =>
      left
      simp only [padQP, QP.scale, QP.zp]
      rw [List.getD_eq_getElem?_getD, List.getD_eq_getElem?_getD, List.getElem?_append_right (by rw [hq.1]; omega),
        List.getElem?_append_right (by rw [hq.2]; omega), hq.1, hq.2, List.getElem?_replicate, List.getElem?_replicate,
        if_pos (by omega), if_pos (by omega)]
      exact ⟨rfl, rfl⟩

theorem alignPad_zero {al : Nat} (hal : 0 < al) (c : Nat) (h : alignPad al c ≠ 0) : 0 < c := by
  rcases Nat.eq_zero_or_pos c with rfl | h0
  · exact absurd (by unfold alignPad; rw [Nat.zero_add, Nat.div_eq_of_lt (by omega)]; simp) h
  · exact h0

theorem widen_pads {s0 : List Nat} {l : Leaf} (ok : l.OK s0) (p : Nat) (op : ConvOp) :
    PadsOK s0 (l.widen p op).src [1, (l.widen p op).ih, (l.widen p op).iw, (l.widen p op).ic] := by
  unfold Leaf.widen
  rw [padsOK_append]
  refine ⟨_, ok.pads, rfl, rfl, ?_⟩
  simp only [padded, PadsOK, Nat.add_zero]

theorem widen_src (zpi : Int) (l : Leaf) (p : Nat) (op : ConvOp) (x : Tensor) :
    srcVal zpi (l.widen p op).src x = padInputT zpi [1, l.ih, l.iw, l.ic] (srcVal zpi l.src x) := by
  unfold Leaf.widen
  rw [srcVal_append]
  rfl

/-- Scales and zero points of the channels of a padded convolution, and which of them are within the factor. -/
theorem padded_scales {F : Nat} {q : QP} {c v p : Nat} (hc : 0 < c) (hv : v ≤ c) (hq : q.Fits c) (hs : ∀ o < c, 0 < q.scale o) (hz : ∀ o < c, q.zp o = 0)
    (hsc : ∀ o < v, q.scale o ≤ F ∧ ∀ o' < c, q.scale o ≤ F * q.scale o') :
    (∀ o < c + p, 0 < (padQP p q).scale o) ∧ (∀ o < c + p, (padQP p q).zp o = 0) ∧
    ∀ o < v, (padQP p q).scale o ≤ F ∧ ∀ o' < c + p, (padQP p q).scale o ≤ F * (padQP p q).scale o' := by
  refine ⟨?_, ?_, ?_⟩
  · intro o ho
    rcases padQP_cases hq o hc ho with ⟨e, _⟩ | ⟨o', h', e, _⟩
    · rw [e]; exact one_pos
    · rw [e]; exact hs o' h'
  · intro o ho
    rcases padQP_cases hq o hc ho with ⟨_, e⟩ | ⟨o', h', _, e⟩
    · exact e
    · rw [e]; exact hz o' h'
  · intro o ho
    rw [padQP_scale hq (by omega)]
    refine ⟨(hsc o ho).1, ?_⟩
    intro o' ho'
    rcases padQP_cases hq o' hc ho' with ⟨e, _⟩ | ⟨o'', h', e, _⟩
    · rw [e, mul_one]; exact (hsc o ho).1
    · rw [e]; exact (hsc o ho).2 o'' h'

/-- Padding keeps any property that depends only on the padding kind. -/
theorem pad_sound {al : Nat} (hal : 0 < al) (F : Nat) (s0 : List Nat) (oh ow : Nat) (Q : Padding → Prop) :
    Sound F s0 oh ow (fun l => Q l.op.padding) (PadRuleN al) := by
  intro l n c v hv hR hi hq
  obtain ⟨ok, e1, e2, e3, hsc⟩ := hi
  cases hR with
  | @input p op hd h =>
    have h0 := h
    rw [ok.ch] at h
    have okc := ok.conv hd
    have hop : op = { l.op with filter := padFilter3 0 p l.op.filter } := by
      unfold padConvInput at h
      dsimp only at h
      split at h
      · cases h
      · have h := Option.some.inj h; obtain ⟨rfl, rfl⟩ := Prod.mk.inj h; rfl
    subst hop
    have hoc : (l.widen p { l.op with filter := padFilter3 0 p l.op.filter }).oc = c := by
      rw [← e3]; unfold Leaf.oc Leaf.widen; dsimp only; rw [hd]; rfl
    refine ⟨⟨⟨widen_pads ok _ _, ?_, fun _ => ⟨padFilter3_ok okc.filter okc.depth, Nat.lt_of_lt_of_le okc.depth (Nat.le_add_right _ _), okc.fq, okc.bias⟩,
      fun h => ?_, ok.kh, ok.kw, ok.sh, ok.sw, ok.dh, ok.dwf, ok.ih, ok.iw, ok.oh, ok.ow, ?_, ?_, ok.small⟩, e1, e2, hoc, hsc⟩, hq, ?_⟩
    · show l.ic + p = l.op.filter.c + p; rw [ok.ch]
    · exact absurd (hd.symm.trans h) (by decide)
    · rw [hoc, ← e3]; exact ok.scales
    · rw [hoc, ← e3]; exact ok.zp
    · intro rq zpi x idx hidx
      have hoc' : c = l.op.filter.o := by rw [← e3]; unfold Leaf.oc; rw [hd]; rfl
      rw [hoc'] at hidx
      have key := (C14_input_padding_partial rq zpi al 1 l.ih l.iw oh ow hal l.op _ okc p h (srcVal zpi l.src x)).1 idx hidx
      have hd' : (l.widen p { l.op with filter := padFilter3 0 p l.op.filter }).dw = false := hd
      simp only [Net.eval]
      unfold Leaf.value
      rw [if_neg (by rw [hd']; decide), if_neg (by rw [hd]; decide), widen_src, ok.ch]
      rw [← key]
      show conv2d rq zpi l.ih l.iw (l.ic + p) _ _ idx = _
      rw [ok.ch]
      rfl
  | @output p op s hd h =>
    have okc := ok.conv hd
    have hoc' : c = l.op.filter.o := by rw [← e3]; unfold Leaf.oc; rw [hd]; rfl
    have hop : op = { l.op with filter := padFilter0 0 p l.op.filter, bias := l.op.bias.map (padBias p) } ∧ alignPad al l.op.filter.o ≠ 0 := by
      unfold padConvOutput at h
      simp only [List.getD_cons_zero, List.getD_cons_succ] at h
      split at h
      · cases h
      next hz => obtain ⟨hpe, h⟩ := Prod.mk.inj (Option.some.inj h); rw [← (Prod.mk.inj h).1, ← hpe]; exact ⟨rfl, hz⟩
    obtain ⟨hop, hz⟩ := hop
    have hpos := alignPad_zero hal _ hz
    have h14 := fun rq zpi x => C14_output_padding_partial rq zpi al l.ih l.iw l.oh l.ow hal l.op op okc p s h x
    obtain ⟨-, -, hb, okop, ho', -⟩ := h14 (fun _ _ a => a) 0 (fun _ => 0)
    have hsc' := padded_scales (F := F) (p := p) (by rw [hoc']; exact hpos) hv (by rw [hoc']; exact okc.fq)
      (by rw [← e3]; exact ok.scales) (by rw [← e3]; exact ok.zp) hsc
    have hqp : op.filter.qp = padQP p l.op.filter.qp := by rw [hop]; rfl
    have hoc : ({ l with op := op } : Leaf).oc = c + p := by
      unfold Leaf.oc; dsimp only; rw [hd, hoc']; exact ho'
    refine ⟨⟨hb, c + p, by omega, ⟨ok.pads, ?_, fun _ => okop, fun h => ?_, ?_, ?_, ?_, ?_, ?_, ?_, ok.ih, ok.iw, ?_, ?_, ?_, ?_, ?_⟩, e1, e2, hoc, ?_⟩, ?_, ?_⟩
    · show l.ic = op.filter.c; rw [hop, ok.ch]; rfl
    · exact absurd (hd.symm.trans h) (by decide)
    · show 1 ≤ op.filter.kh; rw [hop]; exact ok.kh
    · show 1 ≤ op.filter.kw; rw [hop]; exact ok.kw
    · show 1 ≤ op.sh; rw [hop]; exact ok.sh
    · show 1 ≤ op.sw; rw [hop]; exact ok.sw
    · show 1 ≤ op.dh; rw [hop]; exact ok.dh
    · show 1 ≤ op.dw; rw [hop]; exact ok.dwf
    · rw [hop]; exact ok.oh
    · rw [hop]; exact ok.ow
    · rw [hoc]; dsimp only; rw [hqp]; exact hsc'.1
    · rw [hoc]; dsimp only; rw [hqp]; exact hsc'.2.1
    · rw [hop]; exact ok.small
    · dsimp only; rw [hqp]; exact hsc'.2.2
    · show Q op.padding; rw [hop]; exact hq
    · intro rq zpi x idx hidx
      rw [← e1, ← e2, hoc'] at hidx
      have key := ((h14 rq zpi (srcVal zpi l.src x)).1 idx hidx).1
      simp only [Net.eval]
      unfold Leaf.value
      rw [if_neg (by rw [hd]; decide)]
      dsimp only
      rw [if_neg (by rw [hd]; decide), ok.ch]
      exact key
  | @depthwise p op s hd h =>
    have okd := ok.dwise hd
    have hoc' : c = l.op.filter.c := by rw [← e3]; unfold Leaf.oc; rw [hd]; rfl
    rw [e3, ok.ch, ← hoc', hoc'] at h
    have hop : op = { l.op with filter := padFilter3 3 p l.op.filter, bias := l.op.bias.map (padBias p) } ∧ alignPad 4 l.op.filter.c ≠ 0 := by
      unfold padDepthwise at h
      simp only [List.getD_cons_zero, List.getD_cons_succ, ne_eq, not_true_eq_false, if_false] at h
      split at h
      · cases h
      next hz => obtain ⟨hpe, h⟩ := Prod.mk.inj (Option.some.inj h); rw [← (Prod.mk.inj h).1, ← hpe]; exact ⟨rfl, hz⟩
    obtain ⟨hop, hz⟩ := hop
    have hpos := alignPad_zero (by decide) _ hz
    have h14 := fun rq zpi x => C14_depthwise_padding rq zpi l.ih l.iw l.oh l.ow l.op op okd p s h x
    obtain ⟨-, -, hb, okop, ho', -⟩ := h14 (fun _ _ a => a) 0 (fun _ => 0)
    have hsc' := padded_scales (F := F) (p := p) (by rw [hoc']; exact hpos) hv (by rw [hoc']; exact okd.fq)
      (by rw [← e3]; exact ok.scales) (by rw [← e3]; exact ok.zp) hsc
    have hqp : op.filter.qp = padQP p l.op.filter.qp := by rw [hop]; rfl
    have hoc : (l.widen p op).oc = c + p := by
      unfold Leaf.oc Leaf.widen; dsimp only; rw [hd, hoc']; exact ho'
    refine ⟨⟨hb, c + p, by omega, ⟨widen_pads ok _ _, ?_, fun h => ?_, fun _ => okop, ?_, ?_, ?_, ?_, ?_, ?_, ok.ih, ok.iw, ?_, ?_, ?_, ?_, ?_⟩, e1, e2, hoc, ?_⟩, ?_, ?_⟩
    · show l.ic + p = op.filter.c; rw [hop, ok.ch]; rfl
    · exact absurd (hd.symm.trans h) (by decide)
    · show 1 ≤ op.filter.kh; rw [hop]; exact ok.kh
    · show 1 ≤ op.filter.kw; rw [hop]; exact ok.kw
    · show 1 ≤ op.sh; rw [hop]; exact ok.sh
    · show 1 ≤ op.sw; rw [hop]; exact ok.sw
    · show 1 ≤ op.dh; rw [hop]; exact ok.dh
    · show 1 ≤ op.dw; rw [hop]; exact ok.dwf
    · show (l.oh : Int) = outSize op.padding l.ih op.filter.kh op.sh op.dh; rw [hop]; exact ok.oh
    · show (l.ow : Int) = outSize op.padding l.iw op.filter.kw op.sw op.dw; rw [hop]; exact ok.ow
    · rw [hoc]; show ∀ o < c + p, 0 < op.filter.qp.scale o; rw [hqp]; exact hsc'.1
    · rw [hoc]; show ∀ o < c + p, op.filter.qp.zp o = 0; rw [hqp]; exact hsc'.2.1
    · show (op.filter.kh : Int) * op.dh < 32768 ∧ (op.filter.kw : Int) * op.dw < 32768; rw [hop]; exact ok.small
    · show ∀ o < v, op.filter.qp.scale o ≤ F ∧ ∀ o' < c + p, op.filter.qp.scale o ≤ F * op.filter.qp.scale o'; rw [hqp]; exact hsc'.2.2
    · show Q op.padding; rw [hop]; exact hq
    · intro rq zpi x idx hidx
      rw [← e1, ← e2, hoc'] at hidx
      have key := (h14 rq zpi (srcVal zpi l.src x)).1 idx hidx
      have hd' : (l.widen p op).dw = true := hd
      simp only [Net.eval]
      unfold Leaf.value
      rw [if_pos hd', if_pos hd, widen_src, ok.ch]
      exact key

/-- The concatenation of a split. -/
theorem eval_cats (l : Leaf) (leaf : Leaf → Tensor) : ∀ parts : List (Nat × ConvOp),
    (cats l parts).eval leaf = concatT 3 (parts.map fun q => (q.1, leaf { l with op := q.2 }))
  | [] => rfl
  | q :: qs => by
    funext idx
    simp only [cats, Net.eval, List.map_cons, concatT, eval_cats l leaf qs]

theorem cats_inv {F : Nat} {s0 : List Nat} {oh ow : Nat} {l : Leaf} (ok : l.OK s0) (hd : l.dw = false) (hpad : l.op.padding = .valid)
    (e1 : l.oh = oh) (e2 : l.ow = ow) {V : Nat} (hV : V ≤ l.op.filter.o)
    (hsc : ∀ o < V, l.op.filter.qp.scale o ≤ F ∧ ∀ o' < l.op.filter.o, l.op.filter.qp.scale o ≤ F * l.op.filter.qp.scale o') :
    ∀ (ns : List Nat) (e v : Nat), e + ns.sum ≤ l.op.filter.o → v ≤ V - e → (∀ m ∈ ns, 4 ∣ m) →
      (cats l (splitConvs l.op e ns)).Inv F s0 oh ow ns.sum v ∧
      (cats l (splitConvs l.op e ns)).All fun l => l.op.padding = .valid ∧ (l.dw = false → 4 ∣ l.op.filter.o)
  | [], e, v, _, _, _ => ⟨rfl, trivial⟩
  | n :: ns, e, v, hs, hv, h4 => by
    rw [List.sum_cons] at hs
    obtain ⟨i1, i2⟩ := cats_inv ok hd hpad e1 e2 hV hsc ns (e + n) (v - n) (by omega) (by omega) fun m hm => h4 m (by simp [hm])
    have okc := ok.conv hd
    have okp := splitConv_ok okc (e := e) (n := n) (by omega)
    have hoc : ({ l with op := splitConv l.op e n } : Leaf).oc = n := by unfold Leaf.oc; dsimp only; rw [hd]; rfl
    have hloc : l.oc = l.op.filter.o := by unfold Leaf.oc; rw [hd]; rfl
    have hq : ∀ o < n, (splitConv l.op e n).filter.qp.scale o = l.op.filter.qp.scale (e + o) ∧
        (splitConv l.op e n).filter.qp.zp o = l.op.filter.qp.zp (e + o) := fun o ho => ⟨splitQP_scale _ _ _ _ ho, splitQP_zp _ _ _ _ ho⟩
    refine ⟨⟨ns.sum, by rw [List.sum_cons], ⟨⟨ok.pads, ok.ch, fun _ => okp, fun h => absurd (hd.symm.trans h) (by decide), ok.kh, ok.kw, ok.sh, ok.sw,
      ok.dh, ok.dwf, ok.ih, ok.iw, ?_, ?_, ?_, ?_, ok.small⟩, e1, e2, hoc, ?_⟩, i1⟩, ⟨⟨rfl, fun _ => h4 n (by simp)⟩, i2⟩⟩
    · have := ok.oh; rw [hpad] at this; exact this
    · have := ok.ow; rw [hpad] at this; exact this
    · rw [hoc]; intro o ho; dsimp only; rw [(hq o ho).1]; exact ok.scales _ (by rw [hloc]; omega)
    · rw [hoc]; intro o ho; dsimp only; rw [(hq o ho).2]; exact ok.zp _ (by rw [hloc]; omega)
    · intro o ho
      dsimp only
      rw [(hq o (by omega)).1]
      refine ⟨(hsc _ (by omega)).1, ?_⟩
      intro o' ho'
      rw [(hq o' ho').1]
      exact (hsc _ (by omega)).2 _ (by omega)

theorem split_sound (F : Nat) (s0 : List Nat) (oh ow limit : Nat) :
    Sound F s0 oh ow (fun l => l.op.padding = .valid ∧ (l.dw = false → 4 ∣ l.op.filter.o)) (SplitRule limit) := by
  intro l n c v hv hR hi hq
  obtain ⟨ok, e1, e2, e3, hsc⟩ := hi
  cases hR with
  | @split parts hd h =>
    have okc := ok.conv hd
    have hoc' : l.op.filter.o = c := by rw [← e3]; unfold Leaf.oc; rw [hd]; rfl
    have h4 := hq.2 hd
    have h13 := fun rq zpi x => C13_channel_split_partial rq zpi limit 1 l.ih l.iw oh ow l.op okc hq.1 h4 parts h x
    obtain ⟨-, hsum, hall⟩ := h13 (fun _ _ a => a) 0 (fun _ => 0)
    obtain ⟨-, -, hparts⟩ := channelSplit_some h
    generalize splitSizes l.op.filter.o (numSplits l.op.filter.data.length limit) = ns at hparts
    subst hparts
    rw [splitConvs_fst] at hsum
    have key := cats_inv (F := F) ok hd hq.1 e1 e2 (V := v) (by omega) (by rw [hoc']; exact hsc) ns 0 v (by omega) (by omega) (by
      intro m hm
      rw [← splitConvs_fst l.op ns 0] at hm
      obtain ⟨q, hq, rfl⟩ := List.mem_map.1 hm
      exact (hall q hq).1)
    rw [hsum, hoc'] at key
    refine ⟨key.1, key.2, ?_⟩
    intro rq zpi x idx hidx
    rw [← hoc'] at hidx
    have := (h13 rq zpi (srcVal zpi l.src x)).1 idx hidx
    rw [eval_cats]
    unfold Leaf.value
    rw [if_neg (by rw [hd]; decide)]
    dsimp only
    rw [hd]
    simp only [Bool.false_eq_true, if_false]
    rw [ok.ch]
    exact this

/-! ### After the passes -/

theorem done_same : ∀ (n : Net), Done SameRule n → n.All fun l => l.op.padding = .valid
  | .conv l, h => by
    show l.op.padding = .valid
    cases hp : l.op.padding with
    | valid => rfl
    | same =>
      have : ∃ l', explicitPad l = some l' := by unfold explicitPad; rw [if_pos hp]; exact ⟨_, rfl⟩
      obtain ⟨l', hl⟩ := this
      exact absurd (.here (.same hl)) (h _)
  | .slice s e, h => done_same e fun n' hn => h _ (.slice hn)
  | .cat k a b, h => ⟨done_same a fun n' hn => h _ (.left hn),
      done_same b fun n' hn => h _ (.right hn)⟩
  | .nil, _ => trivial

theorem done_pad {al : Nat} (hal : 0 < al) (h4 : 4 ∣ al) : ∀ (n : Net), Done (PadRuleN al) n → n.All (fun l => l.op.padding = .valid) →
    n.All fun l => l.op.padding = .valid ∧ (l.dw = false → 4 ∣ l.op.filter.o)
  | .conv l, h, hv => by
    refine ⟨hv, fun hd => ?_⟩
    cases hp : padConvOutput al [1, l.oh, l.ow, l.op.filter.o] l.op with
    | some q =>
      obtain ⟨p, op, s⟩ := q
      exact absurd (.here (.output hd hp)) (h _)
    | none =>
      unfold padConvOutput at hp
      simp only [List.getD_cons_zero, List.getD_cons_succ] at hp
      split at hp
      next hz =>
        have := (alignPad_spec (al := al) (n := l.op.filter.o) hal).1
        rw [hz, Nat.add_zero] at this
        exact dvd_trans h4 this
      next => cases hp
  | .slice s e, h, hv => done_pad hal h4 e (fun n' hn => h _ (.slice hn)) hv
  | .cat k a b, h, hv => ⟨done_pad hal h4 a (fun n' hn => h _ (.left hn)) hv.1, done_pad hal h4 b (fun n' hn => h _ (.right hn)) hv.2⟩
  | .nil, _, _ => trivial

theorem pipelineN_sound {al : Nat} (hal : 0 < al) (hal4 : 4 ∣ al) {F : Nat} {s0 : List Nat} (hs0 : s0.length = 4) {oh ow limit : Nat} {a e : Net}
    (h : PipelineN al limit a e) (c v : Nat) (hv : v ≤ c)
    (hi : a.Inv F s0 oh ow c v) :
    e.Inv F s0 oh ow c v ∧
    ∀ (rq : Requant) (zpi : Int) (x : Tensor) (idx : List Nat), InShape [1, oh, ow, c] idx →
      e.eval (fun l => l.value rq zpi x) idx = a.eval (fun l => l.value rq zpi x) idx := by
  obtain ⟨b, c1, d, d', h1, h2, h3, h4, h5, h6, h7⟩ := h
  obtain ⟨i1, -, v1⟩ := steps_sound (tfl_sound F s0 hs0 oh ow) h1 c v hv hi (all_true _)
  obtain ⟨i2, q2, v2⟩ := steps_sound (pad_sound hal F s0 oh ow (· = .valid)) h3 c v hv i1 (done_same _ h2)
  obtain ⟨i3, q3, v3⟩ := steps_sound (split_sound F s0 oh ow limit) h5 c v hv i2 (done_pad hal hal4 _ h4 q2)
  obtain ⟨i4, -, v4⟩ := steps_sound (pad_sound hal F s0 oh ow (fun _ => True)) h6 c v hv i3 (all_true _)
  obtain ⟨i5, -, v5⟩ := steps_sound (tfl_sound F s0 hs0 oh ow) h7 c v hv i4 (all_true _)
  refine ⟨i5, ?_⟩
  intro rq zpi x idx hidx
  rw [v5 rq zpi x idx hidx, v4 rq zpi x idx hidx, v3 rq zpi x idx hidx, v2 rq zpi x idx hidx, v1 rq zpi x idx hidx]

theorem pipeline_sound {F : Nat} {s0 : List Nat} (hs0 : s0.length = 4) {oh ow limit : Nat} {a e : Net} (h : Pipeline limit a e) (c v : Nat) (hv : v ≤ c)
    (hi : a.Inv F s0 oh ow c v) :
    e.Inv F s0 oh ow c v ∧
    ∀ (rq : Requant) (zpi : Int) (x : Tensor) (idx : List Nat), InShape [1, oh, ow, c] idx →
      e.eval (fun l => l.value rq zpi x) idx = a.eval (fun l => l.value rq zpi x) idx :=
  pipelineN_sound (by decide) (by decide) hs0 h c v hv hi

/-! ### Lowering -/

theorem fake_ok {s0 : List Nat} {l : Leaf} (ok : l.OK s0) {t : Types} (hi : 0 < t.inS) (ho : 0 < t.outS) : (l.fake t).OK l.op.padding := by
  refine ⟨rfl, rfl, ok.kh, ok.kw, ok.sh, ok.sw, ok.dh, ok.dwf, ok.ih, ok.iw, ok.oh, ok.ow, hi, ho, ok.scales, ?_, ?_, ok.zp, ok.small⟩
  · unfold Leaf.fake Filter.shape Leaf.oc
    dsimp only
    cases hd : l.dw with
    | true => simp only [if_true]; rw [(ok.dwise hd).one]
    | false => simp only [Bool.false_eq_true, if_false]; rw [ok.ch]
  · intro hd
    have hd : l.dw = true := hd
    unfold Leaf.fake Leaf.oc
    dsimp only
    rw [hd, if_pos rfl, ok.ch]

theorem ref_eq {s0 : List Nat} {l : Leaf} (ok : l.OK s0) (t : Types) (r : ℚ → ℤ) (x : Tensor) {oh ow : Nat} (idx : List Nat)
    (hidx : InShape [1, oh, ow, l.oc] idx) :
    (l.fake t).ref r l.op.padding (srcVal t.zpi l.src x) idx = l.value (rqT t r) t.zpi x idx := by
  obtain ⟨bt, y, xx, o, rfl, hbt, hy, hxx, ho⟩ := in4 hidx
  have hb : biasAt ((l.fake t).op l.op.padding).bias o = biasAt l.op.bias o := by
    unfold Fake.op Leaf.fake
    cases l.op.bias <;> rfl
  unfold Fake.ref Leaf.value
  have hd : (l.fake t).dw = l.dw := rfl
  rw [hd]
  cases l.dw with
  | true =>
    simp only [if_true]
    unfold dwconv
    simp only [List.getD_cons_zero, List.getD_cons_succ]
    rw [hb]
    rfl
  | false =>
    simp only [Bool.false_eq_true, if_false]
    unfold conv2d
    simp only [List.getD_cons_zero, List.getD_cons_succ]
    rw [hb]
    rfl

/-- The table for RELU between equal types. -/
theorem reluVal_eq (t : Types) (ho : 0 < t.outS) (hz : -128 ≤ t.zpo ∧ t.zpo ≤ 127) (q : Int) (hq : -128 ≤ q ∧ q ≤ 127) :
    reluVal t q = max q t.zpo := by
  have hs : (0 : ℝ) < (t.outS : ℝ) := by exact_mod_cast ho
  have hrelu : XC.Activation.relu.apply ((⟨t.outS, t.zpo⟩ : XC.QI8).deq q) = (⟨t.outS, t.zpo⟩ : XC.QI8).deq (max q t.zpo) := by
    unfold XC.Activation.apply XC.QI8.deq
    dsimp only
    rcases le_total q t.zpo with h | h
    · rw [max_eq_right h, sub_self, mul_zero]
      apply max_eq_right
      have : (q : ℝ) ≤ t.zpo := by exact_mod_cast h
      nlinarith
    · rw [max_eq_left h]
      apply max_eq_left
      have : (t.zpo : ℝ) ≤ q := by exact_mod_cast h
      nlinarith
  have hfit : |XC.Activation.relu.apply ((⟨t.outS, t.zpo⟩ : XC.QI8).deq q)| ≤ 2147483647 * (⟨t.outS, t.zpo⟩ : XC.QI8).scale := by
    rw [hrelu]
    unfold XC.QI8.deq
    dsimp only
    rw [abs_mul, abs_of_pos hs]
    have h1 : |((max q t.zpo : ℤ) : ℝ) - t.zpo| ≤ 255 := by
      have : |max q t.zpo - t.zpo| ≤ 255 := by rcases abs_cases (max q t.zpo - t.zpo) with h | h <;> omega
      exact_mod_cast this
    nlinarith
  obtain ⟨-, b, hb, -, hbest⟩ := XC.C35_lookup_table .relu ⟨t.outS, t.zpo⟩ ⟨t.outS, t.zpo⟩ hs q hq.1 hq.2 hfit
  unfold reluVal
  rw [hb]
  simp only [Option.map_some, Option.getD_some]
  rw [hrelu] at hbest
  have h0 := hbest.2 (max q t.zpo) (by omega) (by omega)
  rw [sub_self, abs_zero] at h0
  have h1 := abs_eq_zero.1 (le_antisymm h0 (abs_nonneg _))
  unfold XC.QI8.deq at h1
  dsimp only at h1
  have h2 : (t.outS : ℝ) * ((XC.ofU8 b : ℝ) - ((max q t.zpo : ℤ) : ℝ)) = 0 := by
    rw [← h1]; ring
  rcases mul_eq_zero.1 h2 with h | h
  · exact absurd h hs.ne'
  · have : (XC.ofU8 b : ℝ) = ((max q t.zpo : ℤ) : ℝ) := by linarith
    exact_mod_cast this

/-- Both errors of a compiled convolution. -/
def Near (thr : ℚ) (a b : Int) : Prop := (|a - b| : ℤ) ≤ thr + 1 ∧ (thr < 1 → |a - b| ≤ 1)

theorem near_refl {thr : ℚ} (h : 0 ≤ thr) (a : Int) : Near thr a a := by
  refine ⟨?_, fun _ => ?_⟩
  · rw [sub_self, abs_zero, Int.cast_zero]; linarith
  · rw [sub_self, abs_zero]; decide

theorem core_near {cfg : Cfg} {lib : Lib} (hlib : lib.Faithful) (hthr : 0 ≤ cfg.threshold) {r : ℚ → ℤ} (hr : Nearest r) {t : Types}
    (hin : 0 < t.inS) (hout : 0 < t.outS) (hzi : -128 ≤ t.zpi ∧ t.zpi ≤ 127) (hact : t.act = .none ∨ t.act = .relu ∧ t.zpo = -128)
    {s0 : List Nat} (hs0 : s0.length = 4) {l : Leaf} (ok : l.OK s0) {x : Tensor} (hx : ∀ i, InShape s0 i → -128 ≤ x i ∧ x i ≤ 127)
    {idx : List Nat} (hidx : InShape [1, l.oh, l.ow, l.oc] idx)
    (hsc : ∀ o' < l.oc, l.op.filter.qp.scale (idx.getD 3 0) ≤ cfg.factor * l.op.filter.qp.scale o') :
    Near cfg.threshold (l.core cfg lib r t x idx) (l.value (rqT t r) t.zpi x idx) := by
  unfold Leaf.core
  cases hl : (if fakeApplies (l.fake t) then lower cfg lib (l.fake t) else none) with
  | none => exact near_refl hthr _
  | some lo =>
    dsimp only
    have hlo : lower cfg lib (l.fake t) = some lo := by
      by_cases h : fakeApplies (l.fake t) = true
      · rwa [if_pos h] at hl
      · rw [if_neg h] at hl; cases hl
    rw [← ref_eq ok t r x idx hidx]
    have h1 := srcVal_range t.zpi hzi l.src s0 _ x hs0 ok.pads hx
    exact conv_lowered_at cfg lib hlib r hr (l.fake t) l.op.padding (fake_ok ok hin hout) hact lo hlo 1 (srcVal t.zpi l.src x) h1 hzi idx hidx hsc

theorem lowered_range (lib : Lib) (lo : Lowered) (x : Tensor) (idx : List Nat) : -128 ≤ lo.run lib x idx ∧ lo.run lib x idx ≤ 127 := by
  unfold Lowered.run clamp
  dsimp only
  omega

theorem value_range {s0 : List Nat} {l : Leaf} (ok : l.OK s0) (t : Types) (ht : t.act = .none) (r : ℚ → ℤ) (x : Tensor) {oh ow : Nat} (idx : List Nat)
    (hidx : InShape [1, oh, ow, l.oc] idx) : -128 ≤ l.value (rqT t r) t.zpi x idx ∧ l.value (rqT t r) t.zpi x idx ≤ 127 := by
  obtain ⟨bt, y, xx, o, rfl, hbt, hy, hxx, ho⟩ := in4 hidx
  rw [value_eq ok _ _ x ho]
  unfold rqT actLo actHi clamp
  rw [ht]
  dsimp only
  omega

/-- A compiled convolution is close to the TensorFlow Lite operator. -/
theorem run_near {cfg : Cfg} {lib : Lib} (hlib : lib.Faithful) (hthr : 0 ≤ cfg.threshold) {r : ℚ → ℤ} (hr : Nearest r) {t : Types}
    (hin : 0 < t.inS) (hout : 0 < t.outS) (hzi : -128 ≤ t.zpi ∧ t.zpi ≤ 127) (hzo : -128 ≤ t.zpo ∧ t.zpo ≤ 127)
    {s0 : List Nat} (hs0 : s0.length = 4) {l : Leaf} (hact : t.act = .none ∨ t.act = .relu ∧ (t.zpo = -128 ∨ l.dw = false))
    (ok : l.OK s0) {x : Tensor} (hx : ∀ i, InShape s0 i → -128 ≤ x i ∧ x i ≤ 127)
    {idx : List Nat} (hidx : InShape [1, l.oh, l.ow, l.oc] idx)
    (hsc : ∀ o' < l.oc, l.op.filter.qp.scale (idx.getD 3 0) ≤ cfg.factor * l.op.filter.qp.scale o') :
    Near cfg.threshold (l.run cfg lib r t x idx) (l.value (rqT t r) t.zpi x idx) := by
  unfold Leaf.run
  by_cases hs : reluSplitOff (l.fake t) = true
  · rw [if_pos hs]
    have hs' : l.dw = false ∧ t.act = .relu ∧ t.zpo ≠ -128 := by
      unfold reluSplitOff Leaf.fake at hs
      simp only [Bool.decide_and, Bool.and_eq_true, decide_eq_true_eq, Bool.not_eq_true'] at hs
      exact ⟨hs.1, hs.2.2.1, hs.2.2.2⟩
    obtain ⟨h1, h2, h3⟩ := hs'
    have key := core_near hlib hthr hr (t := { t with act := .none }) hin hout hzi (.inl rfl) hs0 ok hx hidx hsc
    have hvr := value_range ok { t with act := .none } rfl r x idx hidx
    have hcr : -128 ≤ l.core cfg lib r { t with act := .none } x idx ∧ l.core cfg lib r { t with act := .none } x idx ≤ 127 := by
      unfold Leaf.core
      cases (if fakeApplies (l.fake { t with act := .none }) then lower cfg lib (l.fake { t with act := .none }) else none) with
      | none => exact hvr
      | some lo => exact lowered_range _ _ _ _
    rw [reluVal_eq t hout hzo _ hcr]
    have href : l.value (rqT t r) t.zpi x idx = max (l.value (rqT { t with act := .none } r) t.zpi x idx) t.zpo := by
      obtain ⟨bt, y, xx, o, rfl, hbt, hy, hxx, ho⟩ := in4 hidx
      rw [value_eq ok _ _ x ho, value_eq ok _ _ x ho]
      unfold rqT actLo actHi clamp
      rw [h2]
      dsimp only
      omega
    rw [href]
    have hd : ∀ a b z : Int, |max a z - max b z| ≤ |a - b| := by
      intro a b z
      rcases abs_cases (a - b) with h | h <;> rcases abs_cases (max a z - max b z) with g | g <;> omega
    obtain ⟨k1, k2⟩ := key
    refine ⟨le_trans (Int.cast_le.2 (hd _ _ _)) k1, fun h => le_trans (hd _ _ _) (k2 h)⟩
  · rw [if_neg hs]
    have hact' : t.act = .none ∨ t.act = .relu ∧ t.zpo = -128 := by
      rcases hact with h | ⟨h, g⟩
      · exact .inl h
      · right
        refine ⟨h, ?_⟩
        by_contra hne
        apply hs
        have hd := g.resolve_left hne
        unfold reluSplitOff Leaf.fake
        simp [hd, h, hne]
    exact core_near hlib hthr hr hin hout hzi hact' hs0 ok hx hidx hsc

theorem net_near {cfg : Cfg} {lib : Lib} (hlib : lib.Faithful) (hthr : 0 ≤ cfg.threshold) {r : ℚ → ℤ} (hr : Nearest r) {t : Types}
    (hin : 0 < t.inS) (hout : 0 < t.outS) (hzi : -128 ≤ t.zpi ∧ t.zpi ≤ 127) (hzo : -128 ≤ t.zpo ∧ t.zpo ≤ 127)
    {s0 : List Nat} (hs0 : s0.length = 4) {x : Tensor} (hx : ∀ i, InShape s0 i → -128 ≤ x i ∧ x i ≤ 127) {oh ow : Nat} :
    ∀ (n : Net) (c v : Nat), v ≤ c → n.Inv cfg.factor s0 oh ow c v →
      n.All (fun l => t.act = .none ∨ t.act = .relu ∧ (t.zpo = -128 ∨ l.dw = false)) →
      ∀ idx, InShape [1, oh, ow, v] idx →
      Near cfg.threshold (n.eval (fun l => l.run cfg lib r t x) idx) (n.eval (fun l => l.value (rqT t r) t.zpi x) idx)
  | .conv l, c, v, hv, hi, ha, idx, hidx => by
    obtain ⟨ok, rfl, rfl, rfl, hsc⟩ := hi
    obtain ⟨bt, y, xx, o, rfl, hbt, hy, hxx, ho⟩ := in4 hidx
    exact run_near hlib hthr hr hin hout hzi hzo hs0 ha ok hx ⟨hbt, hy, hxx, by omega, trivial⟩ (hsc o ho).2
  | .slice s e, c, v, hv, hi, ha, idx, hidx => by
    obtain ⟨h1, c', h2, h3⟩ := hi
    obtain ⟨bt, y, xx, o, rfl, hbt, hy, hxx, ho⟩ := in4 hidx
    have := net_near hlib hthr hr hin hout hzi hzo hs0 hx e c' v (by omega) h3 ha _ hidx
    simpa only [Net.eval, sliceT, h1, List.zipWith_cons_cons, List.zipWith_nil_right, Nat.zero_add] using this
  | .cat n a b, c, v, hv, hi, ha, idx, hidx => by
    obtain ⟨m, h1, h2, h3⟩ := hi
    obtain ⟨bt, y, xx, o, rfl, hbt, hy, hxx, ho⟩ := in4 hidx
    simp only [Net.eval, List.getD_cons_zero, List.getD_cons_succ, List.set_cons_succ, List.set_cons_zero]
    by_cases hc : o < n
    · rw [if_pos hc, if_pos hc]
      exact net_near hlib hthr hr hin hout hzi hzo hs0 hx a n _ (by omega) h2 ha.1 _ ⟨hbt, hy, hxx, by omega, trivial⟩
    · rw [if_neg hc, if_neg hc]
      exact net_near hlib hthr hr hin hout hzi hzo hs0 hx b m _ (by omega) h3 ha.2 _ ⟨hbt, hy, hxx, by omega, trivial⟩
  | .nil, c, v, hv, hi, _, idx, hidx => by
    have : c = 0 := hi
    obtain ⟨bt, y, xx, o, rfl, hbt, hy, hxx, ho⟩ := in4 hidx
    omega

theorem step_all {R : Leaf → Net → Prop} {Q : Leaf → Prop} (hR : ∀ l n, R l n → Q l → n.All Q) {a b : Net} (h : Step R a b) : a.All Q → b.All Q := by
  induction h with
  | here h => exact hR _ _ h
  | slice _ ih => exact ih
  | left _ ih => exact fun h => ⟨ih h.1, h.2⟩
  | right _ ih => exact fun h => ⟨h.1, ih h.2⟩

theorem steps_all {R : Leaf → Net → Prop} {Q : Leaf → Prop} (hR : ∀ l n, R l n → Q l → n.All Q) {a b : Net} (h : Steps R a b) (ha : a.All Q) : b.All Q := by
  induction h with
  | refl => exact ha
  | tail _ hs ih => exact step_all hR hs ih

theorem cats_all (Q : Leaf → Prop) (l : Leaf) (hQ : ∀ op, Q { l with op := op }) : ∀ parts, (cats l parts).All Q
  | [] => trivial
  | _ :: qs => ⟨hQ _, cats_all Q l hQ qs⟩

theorem pipeline_dw {al limit : Nat} {a e : Net} (h : PipelineN al limit a e) (d : Bool) (ha : a.All fun l => l.dw = d) : e.All fun l => l.dw = d := by
  obtain ⟨b, c1, c2, d', h1, h2, h3, h4, h5, h6, h7⟩ := h
  have tf : ∀ l n, TflRule l n → l.dw = d → n.All fun l => l.dw = d := by
    intro l n h hd
    cases h with
    | same h =>
      unfold explicitPad at h
      split at h
      · have := Option.some.inj h; rw [← this]; exact hd
      · cases h
    | swap _ _ => exact hd
  have pd : ∀ l n, PadRuleN al l n → l.dw = d → n.All fun l => l.dw = d := by
    intro l n h hd
    cases h with
    | input _ _ => exact hd
    | output _ _ => exact hd
    | depthwise _ _ => exact hd
  have sp : ∀ l n, SplitRule limit l n → l.dw = d → n.All fun l => l.dw = d := by
    intro l n h hd
    cases h with
    | split _ _ => exact cats_all _ _ (fun _ => hd) _
  exact steps_all tf h7 (steps_all pd h6 (steps_all sp h5 (steps_all pd h3 (steps_all tf h1 ha))))

/-! ### C80 -/

/-- The TensorFlow Lite operator on the original input. -/
def tflConv (r : ℚ → ℤ) (t : Types) (l : Leaf) (x : Tensor) (idx : List Nat) : Int :=
  if l.dw then dwconv (rqT t r) t.zpi l.ih l.iw l.op x idx else conv2d (rqT t r) t.zpi l.ih l.iw l.ic l.op x idx

/-- **C80.** A whole 8-bit convolution or depthwise convolution, from the TensorFlow Lite operator to the operators that run on the
device: whatever patterns the passes apply and in whatever order within a pass (explicit padding, padding of channels, splitting, swapping
of pads), at every output position the compiled graph computes the value of the TensorFlow Lite operator up to `threshold + 1` steps, and up
to one step with a threshold below one (the default is 0.25).  Assumed: one group (depth multiplier 1), batch 1, filter zero points 0;
filter scales of at most `--xcore-conv-multiplier-factor` and within that factor of each other; fused activation none or RELU, for
depthwise convolutions RELU only with output zero point -128; lib_nn reports its errors correctly. -/
theorem C80_convolution_compiled (cfg : Cfg) (lib : Lib) (hlib : lib.Faithful) (hthr : 0 ≤ cfg.threshold) (r : ℚ → ℤ) (hr : Nearest r) (t : Types)
    (hin : 0 < t.inS) (hout : 0 < t.outS) (hzi : -128 ≤ t.zpi ∧ t.zpi ≤ 127) (hzo : -128 ≤ t.zpo ∧ t.zpo ≤ 127)
    (l : Leaf) (hsrc : l.src = []) (ok : l.OK [1, l.ih, l.iw, l.ic])
    (hact : t.act = .none ∨ t.act = .relu ∧ (t.zpo = -128 ∨ l.dw = false))
    (hrange : ∀ o < l.oc, l.op.filter.qp.scale o ≤ cfg.factor ∧ ∀ o' < l.oc, l.op.filter.qp.scale o ≤ cfg.factor * l.op.filter.qp.scale o')
    (limit : Nat) (g : Net) (hg : Pipeline limit (.conv l) g) (x : Tensor)
    (hx : ∀ i, InShape [1, l.ih, l.iw, l.ic] i → -128 ≤ x i ∧ x i ≤ 127) (idx : List Nat) (hidx : InShape [1, l.oh, l.ow, l.oc] idx) :
    (|g.eval (fun l => l.run cfg lib r t x) idx - tflConv r t l x idx| : ℤ) ≤ cfg.threshold + 1 ∧
    (cfg.threshold < 1 → |g.eval (fun l => l.run cfg lib r t x) idx - tflConv r t l x idx| ≤ 1) := by
  have hi : (Net.conv l).Inv cfg.factor [1, l.ih, l.iw, l.ic] l.oh l.ow l.oc l.oc := ⟨ok, rfl, rfl, rfl, hrange⟩
  obtain ⟨h1, h2⟩ := pipeline_sound (F := cfg.factor) rfl hg l.oc l.oc (le_refl _) hi
  have ha : g.All (fun l => t.act = .none ∨ t.act = .relu ∧ (t.zpo = -128 ∨ l.dw = false)) := by
    refine Net.All.mono ?_ g (pipeline_dw hg l.dw rfl)
    intro l' hd
    rcases hact with h | ⟨h, h'⟩
    · exact .inl h
    · exact .inr ⟨h, h'.imp_right fun e => hd.trans e⟩
  have key := net_near hlib hthr hr hin hout hzi hzo rfl hx g l.oc l.oc (le_refl _) h1 ha idx hidx
  rw [h2 (rqT t r) t.zpi x idx hidx] at key
  have e : (Net.conv l).eval (fun l => l.value (rqT t r) t.zpi x) idx = tflConv r t l x idx := by
    simp only [Net.eval]
    unfold Leaf.value tflConv
    rw [hsrc]
    simp only [srcVal]
    split <;> rfl
  rw [e] at key
  exact key

/-- **C80, exact part.** What the passes before the lowering do to the graph changes nothing at all: padding, splitting, slicing and
concatenating give the value of the original operator at every position, for any requantisation and activation. -/
theorem C80_rewrites_exact (l : Leaf) (hsrc : l.src = []) (ok : l.OK [1, l.ih, l.iw, l.ic]) (limit : Nat) (g : Net)
    (hg : Pipeline limit (.conv l) g) (rq : Requant) (zpi : Int) (x : Tensor) (idx : List Nat) (hidx : InShape [1, l.oh, l.ow, l.oc] idx) :
    g.eval (fun l => l.value rq zpi x) idx =
      if l.dw then dwconv rq zpi l.ih l.iw l.op x idx else conv2d rq zpi l.ih l.iw l.ic l.op x idx := by
  have hi : (Net.conv l).Inv 0 [1, l.ih, l.iw, l.ic] l.oh l.ow l.oc 0 := ⟨ok, rfl, rfl, rfl, fun o ho => absurd ho (by omega)⟩
  obtain ⟨h1, h2⟩ := pipeline_sound (F := 0) rfl hg l.oc 0 (by omega) hi
  rw [h2 rq zpi x idx hidx]
  simp only [Net.eval]
  unfold Leaf.value
  rw [hsrc]
  simp only [srcVal]
  split <;> rfl

/-! ### The passes reach a result -/

theorem alignPad_dvd {al c : Nat} (hal : 0 < al) (h : al ∣ c) : alignPad al c = 0 := by
  obtain ⟨k, rfl⟩ := h
  unfold alignPad
  rw [show al * k + al - 1 = al - 1 + al * k by omega, Nat.add_mul_div_left _ _ hal, Nat.div_eq_of_lt (by omega), Nat.zero_add, Nat.mul_comm]
  omega

theorem done_pad_conv {al : Nat} (hal : 0 < al) (hal4 : 4 ∣ al) {l : Leaf} (h1 : al ∣ l.ic) (h2 : al ∣ l.oc) : Done (PadRuleN al) (.conv l) := by
  have key : ∀ c, al ∣ c → alignPad al c = 0 := fun c hc => alignPad_dvd hal hc
  have h1' := dvd_trans hal4 h1
  intro n hn
  cases hn with
  | here h =>
    cases h with
    | input hd h =>
      unfold padConvInput at h
      dsimp only at h
      rw [if_pos (key _ h1)] at h; cases h
    | output hd h =>
      have h2 : al ∣ l.op.filter.o := by unfold Leaf.oc at h2; rwa [hd] at h2
      unfold padConvOutput at h
      simp only [List.getD_cons_zero, List.getD_cons_succ] at h
      rw [if_pos (key _ h2)] at h; cases h
    | depthwise hd h =>
      unfold padDepthwise at h
      split at h
      · cases h
      · dsimp only at h
        rw [if_pos (show (l.ic + 3) / 4 * 4 - l.ic = 0 by omega)] at h; cases h

theorem done_slice {R : Leaf → Net → Prop} {s : SliceAttr} {e : Net} (h : Done R e) : Done R (.slice s e) := by
  intro n hn
  cases hn with
  | slice hs => exact h _ hs

theorem pad_output_reach {al : Nat} (hal : 0 < al) (hal4 : 4 ∣ al) (l : Leaf) (hd : l.dw = false) (h1 : al ∣ l.ic) :
    ∃ c, Steps (PadRuleN al) (.conv l) c ∧ Done (PadRuleN al) c := by
  have hs := (alignPad_spec (al := al) (n := l.op.filter.o) hal).1
  by_cases hz : alignPad al l.op.filter.o = 0
  · rw [hz, Nat.add_zero] at hs
    exact ⟨_, .refl, done_pad_conv hal hal4 h1 (by unfold Leaf.oc; rw [hd]; exact hs)⟩
  · have : padConvOutput al [1, l.oh, l.ow, l.op.filter.o] l.op = some (alignPad al l.op.filter.o,
        { l.op with filter := padFilter0 0 (alignPad al l.op.filter.o) l.op.filter, bias := l.op.bias.map (padBias (alignPad al l.op.filter.o)) },
        { begin_ := [0, 0, 0, 0], size := [1, l.oh, l.ow, l.op.filter.o] }) := by
      unfold padConvOutput
      simp only [List.getD_cons_zero, List.getD_cons_succ]
      rw [if_neg hz]
    refine ⟨_, .single (.here (.output hd this)), done_slice (done_pad_conv hal hal4 h1 ?_)⟩
    unfold Leaf.oc
    dsimp only
    rw [hd]
    exact hs

theorem pad_reachN {al : Nat} (hal : 0 < al) (hal4 : 4 ∣ al) (l : Leaf) (hd : l.dw = false) : ∃ c, Steps (PadRuleN al) (.conv l) c ∧ Done (PadRuleN al) c := by
  have hs := (alignPad_spec (al := al) (n := l.ic) hal).1
  by_cases hz : alignPad al l.ic = 0
  · rw [hz, Nat.add_zero] at hs
    exact pad_output_reach hal hal4 l hd hs
  · have : padConvInput al l.ic l.op = some (alignPad al l.ic, { l.op with filter := padFilter3 0 (alignPad al l.ic) l.op.filter }) := by
      unfold padConvInput
      dsimp only
      rw [if_neg hz]
    obtain ⟨c, h1, h2⟩ := pad_output_reach hal hal4 (l.widen _ _) hd hs
    exact ⟨c, .head (.here (.input hd this)) h1, h2⟩

theorem pad_reach {s0 : List Nat} (l : Leaf) (ok : l.OK s0) : ∃ c, Steps PadRule (.conv l) c ∧ Done PadRule c := by
  have hs := (alignPad_spec (al := 4) (n := l.ic) (by decide)).1
  cases hd : l.dw with
  | false => exact pad_reachN (by decide) (by decide) l hd
  | true =>
    have hoc : l.oc = l.ic := by unfold Leaf.oc; rw [hd, ok.ch]; rfl
    by_cases hz : alignPad 4 l.ic = 0
    · rw [hz, Nat.add_zero] at hs
      exact ⟨_, .refl, done_pad_conv (by decide) (by decide) hs (by rw [hoc]; exact hs)⟩
    · have : padDepthwise l.ic [1, l.oh, l.ow, l.oc] l.op = some (alignPad 4 l.ic,
          { l.op with filter := padFilter3 3 (alignPad 4 l.ic) l.op.filter, bias := l.op.bias.map (padBias (alignPad 4 l.ic)) },
          { begin_ := [0, 0, 0, 0], size := [1, l.oh, l.ow, l.oc] }) := by
        unfold padDepthwise
        simp only [List.getD_cons_zero, List.getD_cons_succ]
        rw [hoc, if_neg (by simp)]
        exact if_neg hz
      refine ⟨_, .single (.here (.depthwise hd this)), done_slice (done_pad_conv (by decide) (by decide) hs ?_)⟩
      have hoc : (l.widen (alignPad 4 l.ic) { l.op with filter := padFilter3 3 (alignPad 4 l.ic) l.op.filter, bias := l.op.bias.map (padBias (alignPad 4 l.ic)) }).oc =
          l.op.filter.c + alignPad 4 l.ic := by
        unfold Leaf.oc Leaf.widen
        dsimp only
        rw [hd]
        rfl
      rw [hoc, ← ok.ch]
      exact hs

/-- Splitting comes to an end. -/
theorem split_reach (limit : Nat) : ∀ (k : Nat) (l : Leaf), l.op.filter.o ≤ k → l.op.OK → l.op.padding = .valid → 4 ∣ l.op.filter.o →
    ∃ d, Steps (SplitRule limit) (.conv l) d ∧ Done (SplitRule limit) d := by
  have leftS : ∀ {R : Leaf → Net → Prop} {a a' : Net} (n : Nat) (b : Net), Steps R a a' → Steps R (.cat n a b) (.cat n a' b) := by
    intro R a a' n b h
    induction h with
    | refl => exact .refl
    | tail _ h ih => exact ih.tail (.left h)
  have rightS : ∀ {R : Leaf → Net → Prop} {b b' : Net} (n : Nat) (a : Net), Steps R b b' → Steps R (.cat n a b) (.cat n a b') := by
    intro R b b' n a h
    induction h with
    | refl => exact .refl
    | tail _ h ih => exact ih.tail (.right h)
  have doneDw : ∀ l : Leaf, l.dw = true → Done (SplitRule limit) (.conv l) := by
    intro l hd n hn
    cases hn with
    | here h =>
      cases h with
      | split hd' _ => exact absurd (hd.symm.trans hd') (by decide)
  intro k
  induction k using Nat.strong_induction_on with
  | _ k ih =>
    intro l hk ok hv h4
    cases hd : l.dw with
    | true => exact ⟨_, .refl, doneDw l hd⟩
    | false =>
      cases hc : channelSplit limit l.op with
      | none =>
        refine ⟨_, .refl, ?_⟩
        intro n hn
        cases hn with
        | here h =>
          cases h with
          | split hd' h => rw [hc] at h; cases h
      | some parts =>
        have hall := (C13_channel_split_partial (fun _ _ a => a) 0 limit 1 l.ih l.iw l.oh l.ow l.op ok hv h4 parts hc (fun _ => 0)).2.2
        have hval : ∀ q ∈ parts, q.2.padding = .valid := by
          obtain ⟨-, -, rfl⟩ := channelSplit_some hc
          have key : ∀ (ns : List Nat) (e : Nat), ∀ q ∈ splitConvs l.op e ns, q.2.padding = .valid := by
            intro ns
            induction ns with
            | nil => intro e q hq; cases hq
            | cons n ns ih =>
              intro e q hq
              rcases List.mem_cons.1 hq with rfl | hq
              · rfl
              · exact ih _ q hq
          exact key _ _
        have hcats : ∀ ps : List (Nat × ConvOp), (∀ q ∈ ps, q ∈ parts) → ∃ d, Steps (SplitRule limit) (cats l ps) d ∧ Done (SplitRule limit) d := by
          intro ps
          induction ps with
          | nil =>
            intro _
            refine ⟨.nil, .refl, ?_⟩
            intro n hn
            cases hn
          | cons q qs ihq =>
            intro hm
            obtain ⟨d2, s2, n2⟩ := ihq fun q' hq' => hm q' (List.mem_cons_of_mem _ hq')
            have hq := hm q (by simp)
            obtain ⟨a1, a2, a3, a4⟩ := hall q hq
            obtain ⟨d1, s1, n1⟩ := ih q.2.filter.o (by omega) { l with op := q.2 } (le_refl _) a3 (hval q hq) (by rw [a4]; exact a1)
            refine ⟨.cat q.1 d1 d2, (leftS q.1 _ s1).trans (rightS q.1 _ s2), ?_⟩
            intro n hn
            cases hn with
            | left h => exact n1 _ h
            | right h => exact n2 _ h
        obtain ⟨d, s, n⟩ := hcats parts fun _ h => h
        exact ⟨d, .head (.here (.split hd hc)) s, n⟩

theorem reachedN {al : Nat} (hal : 0 < al) (hal4 : 4 ∣ al) (limit : Nat) (l : Leaf) (ok : l.OK [1, l.ih, l.iw, l.ic])
    (hpad : ∀ l1 : Leaf, l1.OK [1, l.ih, l.iw, l.ic] → l1.dw = l.dw → ∃ c, Steps (PadRuleN al) (.conv l1) c ∧ Done (PadRuleN al) c) :
    ∃ b c d, Steps TflRule (.conv l) b ∧ Done SameRule b ∧ Steps (PadRuleN al) b c ∧ Done (PadRuleN al) c ∧ Steps (SplitRule limit) c d ∧
      Done (SplitRule limit) d ∧ PipelineN al limit (.conv l) d := by
  have hdw' : ∀ l', explicitPad l = some l' → l'.dw = l.dw := by
    intro l' h
    unfold explicitPad at h
    split at h
    · have := Option.some.inj h; rw [← this]
    · cases h
  have h1 : ∃ l1 : Leaf, l1.OK [1, l.ih, l.iw, l.ic] ∧ Steps TflRule (.conv l) (.conv l1) ∧ l1.op.padding = .valid ∧ l1.dw = l.dw := by
    cases hp : l.op.padding with
    | valid => exact ⟨l, ok, .refl, hp, rfl⟩
    | same =>
      have : ∃ l', explicitPad l = some l' := by unfold explicitPad; rw [if_pos hp]; exact ⟨_, rfl⟩
      obtain ⟨l', hl⟩ := this
      obtain ⟨g1, -, -, -, -, g6⟩ := explicitPad_ok ok hl
      exact ⟨l', g1, .single (.here (.same hl)), g6, hdw' _ hl⟩
  obtain ⟨l1, ok1, s1, hv, hdw1⟩ := h1
  have d1 : Done SameRule (.conv l1) := by
    intro n hn
    cases hn with
    | here h =>
      cases h with
      | same h =>
        unfold explicitPad at h
        rw [if_neg (by rw [hv]; decide)] at h
        cases h
  obtain ⟨c, s2, d2⟩ := hpad l1 ok1 hdw1
  have hi : (Net.conv l1).Inv 0 [1, l.ih, l.iw, l.ic] l1.oh l1.ow l1.oc 0 := ⟨ok1, rfl, rfl, rfl, fun o ho => absurd ho (by omega)⟩
  obtain ⟨i2, q2, -⟩ := steps_sound (pad_sound hal 0 [1, l.ih, l.iw, l.ic] l1.oh l1.ow (· = .valid)) s2 l1.oc 0 (by omega) hi hv
  have q3 := done_pad hal hal4 _ d2 q2
  have sliceS : ∀ {R : Leaf → Net → Prop} {a a' : Net} (s : SliceAttr), Steps R a a' → Steps R (.slice s a) (.slice s a') := by
    intro R a a' s h
    induction h with
    | refl => exact .refl
    | tail _ h ih => exact ih.tail (.slice h)
  have leftS : ∀ {R : Leaf → Net → Prop} {a a' : Net} (n : Nat) (b : Net), Steps R a a' → Steps R (.cat n a b) (.cat n a' b) := by
    intro R a a' n b h
    induction h with
    | refl => exact .refl
    | tail _ h ih => exact ih.tail (.left h)
  have rightS : ∀ {R : Leaf → Net → Prop} {b b' : Net} (n : Nat) (a : Net), Steps R b b' → Steps R (.cat n a b) (.cat n a b') := by
    intro R b b' n a h
    induction h with
    | refl => exact .refl
    | tail _ h ih => exact ih.tail (.right h)
  have key : ∀ (n : Net) (k v : Nat), n.Inv 0 [1, l.ih, l.iw, l.ic] l1.oh l1.ow k v →
      n.All (fun l => l.op.padding = .valid ∧ (l.dw = false → 4 ∣ l.op.filter.o)) →
      ∃ d, Steps (SplitRule limit) n d ∧ Done (SplitRule limit) d := by
    intro n
    induction n with
    | conv l' =>
      intro k v hi hq
      cases hd : l'.dw with
      | false => exact split_reach limit _ l' (le_refl _) (hi.1.conv hd) hq.1 (hq.2 hd)
      | true =>
        refine ⟨_, .refl, ?_⟩
        intro n hn
        cases hn with
        | here h =>
          cases h with
          | split hd' _ => exact absurd (hd.symm.trans hd') (by decide)
    | slice s e ih =>
      intro k v hi hq
      obtain ⟨_, c', _, h3⟩ := hi
      obtain ⟨d, sd, dd⟩ := ih c' v h3 hq
      exact ⟨.slice s d, sliceS s sd, done_slice dd⟩
    | cat n a b iha ihb =>
      intro k v hi hq
      obtain ⟨m, _, h2, h3⟩ := hi
      obtain ⟨da, sa, na⟩ := iha _ _ h2 hq.1
      obtain ⟨db, sb, nb⟩ := ihb _ _ h3 hq.2
      refine ⟨.cat n da db, (leftS n _ sa).trans (rightS n _ sb), ?_⟩
      intro n' hn
      cases hn with
      | left h => exact na _ h
      | right h => exact nb _ h
    | nil =>
      intro k v _ _
      refine ⟨.nil, .refl, ?_⟩
      intro n' hn
      cases hn
  obtain ⟨d, s3, d3⟩ := key c _ _ i2 q3
  exact ⟨.conv l1, c, d, s1, d1, s2, d2, s3, d3, .conv l1, c, d, d, s1, d1, s2, d2, s3, .refl, .refl⟩

/-- **C80, the passes come to an end**: for every well-formed convolution there is a compiled graph, with splitting carried out as far
as it goes, so C80 is about every convolution. -/
theorem C80_reached (limit : Nat) (l : Leaf) (ok : l.OK [1, l.ih, l.iw, l.ic]) :
    ∃ b c d, Steps TflRule (.conv l) b ∧ Done SameRule b ∧ Steps PadRule b c ∧ Done PadRule c ∧ Steps (SplitRule limit) c d ∧
      Done (SplitRule limit) d ∧ Pipeline limit (.conv l) d :=
  reachedN (by decide) (by decide) limit l ok fun l1 ok1 _ => pad_reach l1 ok1

/-! ### Example -/

/-- A `SAME` 3x3 convolution with stride 2 from 5x5x3 to 3x3x6 with RELU and output zero point 0: every stage has work to do. -/
def exLeaf : Leaf :=
  { dw := false, src := [], ih := 5, iw := 5, ic := 3, oh := 3, ow := 3
    op := { padding := .same, sh := 2, sw := 2, dh := 1, dw := 1
            filter := { o := 6, kh := 3, kw := 3, c := 3, data := (List.range 162).map fun i => (i % 7 : Nat) - 3
                        qp := .perAxis [1 / 2, 1 / 3, 1 / 4, 1 / 5, 1 / 6, 1 / 7] [0, 0, 0, 0, 0, 0] }
            bias := some { data := [1, 2, 3, 4, 5, 6], qp := .perTensor 1 0 } } }

def exTypes : Types := { inS := 1 / 10, zpi := 3, outS := 1 / 5, zpo := 0, act := .relu }

theorem exLeaf_ok : exLeaf.OK [1, exLeaf.ih, exLeaf.iw, exLeaf.ic] := by
  refine ⟨rfl, rfl, fun _ => ⟨by unfold Filter.OK; decide +kernel, by decide, ⟨by decide, by decide⟩, ?_⟩, (fun h => by cases h), by decide, by decide, by decide,
    by decide, by decide, by decide, by decide, by decide, by decide, by decide, ?_, ?_, by decide⟩
  · intro b hb
    have := Option.some.inj hb
    subst this
    exact ⟨by decide, trivial⟩
  · intro o ho
    have ho : o < 6 := ho
    interval_cases o <;> norm_num [exLeaf, QP.scale]
  · intro o ho
    have ho : o < 6 := ho
    interval_cases o <;> rfl

/-- The hypotheses of C80 are met by the example, and the graph made for it has a slice and two convolutions with four output channels each. -/
theorem C80_example :
    (∀ o < exLeaf.oc, exLeaf.op.filter.qp.scale o ≤ defaultCfg.factor ∧
      ∀ o' < exLeaf.oc, exLeaf.op.filter.qp.scale o ≤ defaultCfg.factor * exLeaf.op.filter.qp.scale o') ∧
    (exTypes.act = .none ∨ exTypes.act = .relu ∧ (exTypes.zpo = -128 ∨ exLeaf.dw = false)) ∧
    ∃ s l1 l2, Pipeline 100 (.conv exLeaf) (.slice s (.cat 4 (.conv l1) (.cat 4 (.conv l2) .nil))) ∧
      l1.ih = 7 ∧ l1.ic = 4 ∧ l1.oc = 4 ∧ reluSplitOff (l1.fake exTypes) = true ∧ fakeApplies (l1.fake exTypes) = true := by
  refine ⟨?_, .inr ⟨rfl, .inr rfl⟩, ?_⟩
  · intro o ho
    have ho : o < 6 := ho
    refine ⟨by interval_cases o <;> norm_num [exLeaf, QP.scale, defaultCfg], ?_⟩
    intro o' ho'
    have ho' : o' < 6 := ho'
    interval_cases o <;> interval_cases o' <;> norm_num [exLeaf, QP.scale, defaultCfg]
  · let a1 : Leaf := { exLeaf with src := [⟨[0, 0, 1, 1, 1, 1, 0, 0], [1, 5, 5, 3]⟩], ih := 7, iw := 7, op := { exLeaf.op with padding := .valid } }
    have e1 : explicitPad exLeaf = some a1 := rfl
    let a2 : Leaf := a1.widen 1 { a1.op with filter := padFilter3 0 1 a1.op.filter }
    have e2 : padConvInput 4 a1.ic a1.op = some (1, { a1.op with filter := padFilter3 0 1 a1.op.filter }) := by decide +kernel
    let a3 : Leaf := { a2 with op := { a2.op with filter := padFilter0 0 2 a2.op.filter, bias := a2.op.bias.map (padBias 2) } }
    let s : SliceAttr := { begin_ := [0, 0, 0, 0], size := [1, 3, 3, 6] }
    have e3 : padConvOutput 4 [1, a2.oh, a2.ow, a2.op.filter.o] a2.op = some (2, a3.op, s) := by decide +kernel
    have e4 : channelSplit 100 a3.op = some [(4, splitConv a3.op 0 4), (4, splitConv a3.op 4 4)] := by decide +kernel
    refine ⟨s, { a3 with op := splitConv a3.op 0 4 }, { a3 with op := splitConv a3.op 4 4 }, ?_, rfl, rfl, rfl, by decide, by decide⟩
    refine ⟨.conv a1, .slice s (.conv a3), .slice s (cats a3 [(4, splitConv a3.op 0 4), (4, splitConv a3.op 4 4)]), _, .single (.here (.same e1)), ?_,
      .head (.here (.input rfl e2)) (.single (.here (.output rfl e3))), done_slice (done_pad_conv (by decide) (by decide) ?_ ?_), .single (.slice (.here (.split rfl e4))), .refl, .refl⟩
    · intro n hn
      cases hn with
      | here h =>
        cases h with
        | same h => cases h
    · decide
    · decide

end Verif.Conv.Compile
