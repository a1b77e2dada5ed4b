import Verif.TFL.Model
/-!
C34, C43-C48: the TensorFlow Lite patterns keep the meaning of what they rewrite.
-/
namespace Verif.TFL
open Verif.Quant Verif.Image Verif.Move Verif.Tensor

/-! ### C34 -/

/-- **C34.** The pad operator built for a `SAME` convolution (any window function, so also depthwise and binarised ones)
pads only height and width, its declared result shape is the shape of the padded input, and the `VALID` operator on it
gives the output of the `SAME` operator. -/
theorem C34_same_padding_explicit (g : Win) (ok : g.OK) {α β : Type} (z : α) (F : (Int → Int → α) → β) (x : Img α)
    (hh : 1 ≤ x.h) (hw : 1 ≤ x.w) (n c o ci : Int) :
    let r := getConvPaddingValues [n, x.h, x.w, c] [o, g.kh, g.kw, ci] g.dh g.dw g.sh g.sw
    let at_ := fun i => r.1.getD i 0
    let padded := pad z (at_ 2) (at_ 3) (at_ 4) (at_ 5) x
    r.1.length = 8 ∧ at_ 0 = 0 ∧ at_ 1 = 0 ∧ at_ 6 = 0 ∧ at_ 7 = 0 ∧ (∀ p ∈ r.1, 0 ≤ p) ∧
    r.2 = [n, padded.h, padded.w, c] ∧ (convSame g z F x).Same (convValid g F padded) := by
  intro r at_ padded
  have e : ∀ m k d s : Int, windowedSame m k d s = (sameOut m s, sameBefore m k s d, sameAfter m k s d) := fun _ _ _ _ => rfl
  have hr : r = ([0, 0, sameBefore x.h g.kh g.sh g.dh, sameAfter x.h g.kh g.sh g.dh,
      sameBefore x.w g.kw g.sw g.dw, sameAfter x.w g.kw g.sw g.dw, 0, 0],
      [n, x.h + sameBefore x.h g.kh g.sh g.dh + sameAfter x.h g.kh g.sh g.dh,
       x.w + sameBefore x.w g.kw g.sw g.dw + sameAfter x.w g.kw g.sw g.dw, c]) := by
    show getConvPaddingValues _ _ _ _ _ _ = _
    unfold getConvPaddingValues
    simp only [List.getD_cons_succ, List.getD_cons_zero, e]
  obtain ⟨-, -, -, a1, a2, -⟩ := samePad_facts hh ok.kh ok.sh ok.dh
  obtain ⟨-, -, -, b1, b2, -⟩ := samePad_facts hw ok.kw ok.sw ok.dw
  have key := convSame_eq_pad_valid g ok z F x hh hw
  have hat : ∀ i, at_ i = r.1.getD i 0 := fun _ => rfl
  have hp : padded = pad z (sameBefore x.h g.kh g.sh g.dh) (sameAfter x.h g.kh g.sh g.dh)
      (sameBefore x.w g.kw g.sw g.dw) (sameAfter x.w g.kw g.sw g.dw) x := by
    show pad z (at_ 2) (at_ 3) (at_ 4) (at_ 5) x = _
    simp only [hat, hr]
    rfl
  refine ⟨by rw [hr]; rfl, by rw [hat, hr]; rfl, by rw [hat, hr]; rfl, by rw [hat, hr]; rfl, by rw [hat, hr]; rfl, ?_, ?_, ?_⟩
  · rw [hr]
    intro p hp
    simp only [List.mem_cons, List.not_mem_nil, or_false] at hp
    rcases hp with h | h | h | h | h | h | h | h <;> omega
  · rw [hr, hp]; rfl
  · rw [hp]; exact key

example : getConvPaddingValues [1, 5, 8, 3] [4, 3, 2, 3] 1 1 2 1 = ([0, 0, 1, 1, 0, 1, 0, 0], [1, 7, 9, 3]) := by decide

/-! ### C43 -/

theorem padT_const {α : Type} (z : α) : ∀ (ss ns idx : List Nat), padT z ss ns (fun _ => z) idx = z
  | [], _, _ => by simp [padT]
  | _ :: _, [], _ => by simp [padT]
  | _ :: _, _ :: _, [] => by simp [padT]
  | s :: ss, n :: ns, i :: idx => by
    rw [padT]
    split
    · exact padT_const z ss ns idx
    · rfl

/-- Lower paddings (even positions) and resulting shape of a pad operator. -/
def lows : List Nat → List Nat
  | a :: _ :: r => a :: lows r
  | _ => []

def padded : List Nat → List Nat → List Nat
  | n :: ns, a :: b :: r => (n + a + b) :: padded ns r
  | _, _ => []

/-- Padding twice is padding once with the sum of the lower paddings, whatever the sizes in between. -/
theorem padT_padT {α : Type} (z : α) : ∀ (p q ns idx : List Nat) (f : List Nat → α), ns.length = idx.length →
    p.length = 2 * ns.length → q.length = 2 * ns.length → InShape (padded (padded ns p) q) idx →
    padT z (lows q) (padded ns p) (padT z (lows p) ns f) idx = padT z (List.zipWith (· + ·) (lows p) (lows q)) ns f idx
  | p, q, [], idx, f, h, hp, hq, _ => by
    have : idx = [] := by cases idx <;> simp_all
    have : p = [] := List.eq_nil_of_length_eq_zero (by rw [hp]; rfl)
    have : q = [] := List.eq_nil_of_length_eq_zero (by rw [hq]; rfl)
    subst_vars
    simp [lows, padT]
  | p, q, n :: ns, [], f, h, _, _, _ => by simp at h
  | [], _, _ :: _, _ :: _, _, _, hp, _, _ => by simp only [List.length_cons, List.length_nil] at hp; omega
  | [_], _, _ :: _, _ :: _, _, _, hp, _, _ => by simp only [List.length_cons, List.length_nil] at hp; omega
  | _ :: _ :: _, [], _ :: _, _ :: _, _, _, _, hq, _ => by simp only [List.length_cons, List.length_nil] at hq; omega
  | _ :: _ :: _, [_], _ :: _, _ :: _, _, _, _, hq, _ => by simp only [List.length_cons, List.length_nil] at hq; omega
  | a :: b :: p, c :: d :: q, n :: ns, i :: idx, f, h, hp, hq, hin => by
    simp only [padded, InShape] at hin
    simp only [lows, padded, List.zipWith_cons_cons]
    rw [padT]
    have hfun : (fun r => padT z (a :: lows p) (n :: ns) f ((i - c) :: r)) =
        if a ≤ i - c ∧ i - c < a + n then padT z (lows p) ns (fun r => f ((i - c - a) :: r)) else fun _ => z := by
      funext r
      rw [padT]
      split <;> rfl
    rw [hfun]
    conv_rhs => rw [padT]
    by_cases hc : c ≤ i ∧ i < c + (n + a + b)
    · rw [if_pos hc]
      by_cases ha : a ≤ i - c ∧ i - c < a + n
      · rw [if_pos ha, if_pos (by omega), padT_padT z p q ns idx _ (by simpa using h) (by simpa [Nat.mul_add] using hp)
          (by simpa [Nat.mul_add] using hq) hin.2]
        rw [show i - (a + c) = i - c - a by omega]
      · rw [if_neg ha, if_neg (by omega), padT_const]
    · rw [if_neg hc, if_neg (by omega)]

/-- **C43.** When the pattern that moves a channel pad below a spatial pad applies, the new pair of pads has the declared
shapes and gives the same tensor. -/
theorem C43_pads_swapped {α : Type} (z : α) (f : List Nat → α) (input : List Nat) (t t' : TwoPads)
    (hrank : input.length = 4) (hmid : t.mid = padded input t.inner) (hout : t.out = padded t.mid t.outer)
    (h : swapPads input t = some t') :
    t'.mid = padded input t'.inner ∧ t'.out = padded t'.mid t'.outer ∧ t'.out = t.out ∧
    ∀ idx, InShape t.out idx →
      padT z (lows t'.outer) t'.mid (padT z (lows t'.inner) input f) idx =
      padT z (lows t.outer) t.mid (padT z (lows t.inner) input f) idx := by
  unfold swapPads at h
  split at h
  next hc =>
    simp only [Bool.and_eq_true] at hc
    obtain ⟨hs, hch⟩ := hc
    simp only [Option.some.injEq] at h
    obtain ⟨inner, mid, outer, out⟩ := t
    simp only at hs hch hmid hout h
    unfold hasOnlySpatialPadding at hs
    unfold hasOnlyChannelPadding at hch
    split at hs
    · simp at hs
    split at hch
    · simp at hch
    next hl1 hl2 =>
      obtain ⟨n0, n1, n2, n3, rfl⟩ : ∃ a b c d, input = [a, b, c, d] := by
        match input, hrank with
        | [a, b, c, d], _ => exact ⟨a, b, c, d, rfl⟩
      have len8 : ∀ l : List Nat, ¬ l.length ≠ 8 → ∃ a b c d e f g h, l = [a, b, c, d, e, f, g, h] := by
        intro l hl
        match l, hl with
        | [a, b, c, d, e, f, g, h], _ => exact ⟨a, b, c, d, e, f, g, h, rfl⟩
        | [], hl => exact absurd (by simp) hl
        | [_], hl => exact absurd (by simp) hl
        | [_, _], hl => exact absurd (by simp) hl
        | [_, _, _], hl => exact absurd (by simp) hl
        | [_, _, _, _], hl => exact absurd (by simp) hl
        | [_, _, _, _, _], hl => exact absurd (by simp) hl
        | [_, _, _, _, _, _], hl => exact absurd (by simp) hl
        | [_, _, _, _, _, _, _], hl => exact absurd (by simp) hl
        | _ :: _ :: _ :: _ :: _ :: _ :: _ :: _ :: _ :: l, hl => exact absurd (by simp) hl
      obtain ⟨a0, a1, a2, a3, a4, a5, a6, a7, rfl⟩ := len8 inner hl1
      obtain ⟨b0, b1, b2, b3, b4, b5, b6, b7, rfl⟩ := len8 outer hl2
      simp only [List.getD_cons_succ, List.getD_cons_zero, Bool.and_eq_true, beq_iff_eq] at hs hch
      obtain ⟨⟨⟨rfl, rfl⟩, rfl⟩, rfl⟩ := hs
      obtain ⟨⟨⟨⟨⟨rfl, rfl⟩, rfl⟩, rfl⟩, rfl⟩, rfl⟩ := hch
      subst hmid
      subst hout
      subst h
      refine ⟨by simp [padded], by simp [padded], rfl, ?_⟩
      intro idx hidx
      have hlen : idx.length = 4 := by
        simp only [padded] at hidx
        match idx, hidx with
        | [_, _, _, _], _ => rfl
      rw [padT_padT z _ _ _ idx f (by simp [hlen]) (by simp) (by simp) hidx]
      have hm : [[n0, n1, n2, n3].getD 0 0, [n0, n1, n2, n3].getD 1 0, [n0, n1, n2, n3].getD 2 0,
          (padded (padded [n0, n1, n2, n3] [0, 0, a2, a3, a4, a5, 0, 0]) [0, 0, 0, 0, 0, 0, b6, b7]).getD 3 0] =
          padded [n0, n1, n2, n3] [0, 0, 0, 0, 0, 0, b6, b7] := by simp [padded]
      simp only
      rw [hm, padT_padT z _ _ _ idx f (by simp [hlen]) (by simp) (by simp) (by simpa [padded] using hidx)]
      simp [lows]
  next => simp at h

/-- **C43, progress.** After a swap the pattern applies again only if all sixteen padding values are zero (a pair of empty
pads, which the pattern swaps for ever). -/
theorem C43_no_ping_pong (input : List Nat) (t t' : TwoPads) (h : swapPads input t = some t') :
    (swapPads input t').isSome = true ↔ (∀ p ∈ t.inner, p = 0) ∧ (∀ p ∈ t.outer, p = 0) := by
  unfold swapPads at h
  split at h
  next hc =>
    simp only [Bool.and_eq_true] at hc
    simp only [Option.some.injEq] at h
    subst h
    obtain ⟨hs, hch⟩ := hc
    unfold swapPads
    have all0 : ∀ l : List Nat, l.length = 8 → ((∀ p ∈ l, p = 0) ↔ ∀ i, i < 8 → l.getD i 0 = 0) := by
      intro l hl
      constructor
      · intro h i hi
        rw [List.getD_eq_getElem?_getD, List.getElem?_eq_getElem (by omega)]
        exact h _ (List.getElem_mem _)
      · intro h p hp
        obtain ⟨i, hi, rfl⟩ := List.mem_iff_getElem.1 hp
        have := h i (by omega)
        rwa [List.getD_eq_getElem?_getD, List.getElem?_eq_getElem hi] at this
    have key : ∀ l : List Nat, hasOnlySpatialPadding l = true → (hasOnlyChannelPadding l = true ↔ ∀ p ∈ l, p = 0) := by
      intro l hl
      unfold hasOnlySpatialPadding at hl
      unfold hasOnlyChannelPadding
      by_cases h8 : l.length = 8
      · rw [if_neg (by omega)] at hl
        rw [if_neg (by omega), all0 l h8]
        simp only [Bool.and_eq_true, beq_iff_eq] at hl ⊢
        constructor
        · intro h i hi
          have hcase : i = 0 ∨ i = 1 ∨ i = 2 ∨ i = 3 ∨ i = 4 ∨ i = 5 ∨ i = 6 ∨ i = 7 := by omega
          rcases hcase with rfl | rfl | rfl | rfl | rfl | rfl | rfl | rfl <;> simp_all
        · intro h
          exact ⟨⟨⟨⟨⟨h 0 (by omega), h 1 (by omega)⟩, h 2 (by omega)⟩, h 3 (by omega)⟩, h 4 (by omega)⟩, h 5 (by omega)⟩
      · rw [if_pos (by omega)] at hl
        simp at hl
    have key2 : ∀ l : List Nat, hasOnlyChannelPadding l = true → (hasOnlySpatialPadding l = true ↔ ∀ p ∈ l, p = 0) := by
      intro l hl
      unfold hasOnlyChannelPadding at hl
      unfold hasOnlySpatialPadding
      by_cases h8 : l.length = 8
      · rw [if_neg (by omega)] at hl
        rw [if_neg (by omega), all0 l h8]
        simp only [Bool.and_eq_true, beq_iff_eq] at hl ⊢
        constructor
        · intro h i hi
          have hcase : i = 0 ∨ i = 1 ∨ i = 2 ∨ i = 3 ∨ i = 4 ∨ i = 5 ∨ i = 6 ∨ i = 7 := by omega
          rcases hcase with rfl | rfl | rfl | rfl | rfl | rfl | rfl | rfl <;> simp_all
        · intro h
          exact ⟨⟨⟨h 0 (by omega), h 1 (by omega)⟩, h 6 (by omega)⟩, h 7 (by omega)⟩
      · rw [if_pos (by omega)] at hl
        simp at hl
    by_cases hz : hasOnlySpatialPadding t.outer && hasOnlyChannelPadding t.inner
    · rw [if_pos hz]
      simp only [Bool.and_eq_true] at hz
      simp only [Option.isSome_some, true_iff]
      exact ⟨(key _ hs).1 hz.2, (key2 _ hch).1 hz.1⟩
    · rw [if_neg hz]
      simp only [Bool.and_eq_true] at hz
      simp only [Option.isSome_none, Bool.false_eq_true, false_iff]
      rintro ⟨h1, h2⟩
      exact hz ⟨(key2 _ hch).2 h2, (key _ hs).2 h1⟩
  next => simp at h

example : swapPads [1, 2, 2, 3] ⟨[0, 0, 1, 1, 2, 0, 0, 0], [1, 4, 4, 3], [0, 0, 0, 0, 0, 0, 0, 1], [1, 4, 4, 4]⟩ =
    some ⟨[0, 0, 0, 0, 0, 0, 0, 1], [1, 2, 2, 4], [0, 0, 1, 1, 2, 0, 0, 0], [1, 4, 4, 4]⟩ := by decide

/-! ### C44 -/

/-- Result of a chain of quantisations of the real number `x`. -/
def runChain (r : ℚ → ℤ) : List QType → ℚ → ℤ
  | [], _ => 0
  | [t], x => t.q r x
  | t :: ts, x => runChain r ts (t.deq (t.q r x))

/-- **C44.** Removing the inner quantisation changes the result by at most one plus half an inner step (in outer steps), if
the inner type can represent the value; and not at all if the value is exactly representable in the inner type. -/
theorem C44_quantize_fusion (r : ℚ → ℤ) (hr : Nearest r) (t1 t2 : QType) (ok1 : t1.OK) (ok2 : t2.OK) (c' : Chain)
    (h : fuseQuantize ⟨[t1, t2]⟩ = some c') (x : ℚ) :
    (t1.InRange (t1.raw r x) →
      ((|runChain r c'.types x - runChain r [t1, t2] x| : ℤ) : ℚ) ≤ t1.scale / (2 * t2.scale) + 1) ∧
    (∀ q, t1.InRange q → x = t1.deq q → runChain r c'.types x = runChain r [t1, t2] x) := by
  simp only [fuseQuantize, Option.some.injEq] at h
  subst h
  simp only [runChain]
  have hs1 := ok1.scale_pos
  have hs2 := ok2.scale_pos
  constructor
  · intro hin
    have h1 := t1.deq_q_err ok1 hr hin
    have h2 := t2.q_dist ok2 hr x (t1.deq (t1.q r x))
    refine le_trans h2 ?_
    rw [abs_sub_comm] at h1
    have : |x - t1.deq (t1.q r x)| / t2.scale ≤ t1.scale / 2 / t2.scale := div_le_div_of_nonneg_right h1 hs2.le
    have e : t1.scale / 2 / t2.scale = t1.scale / (2 * t2.scale) := by field_simp
    linarith
  · intro q hq hx
    rw [hx, t1.q_deq ok1 hr hq]

/-- **C44, refuted part.** If the inner type saturates, the fusion changes the result by as much as one likes. -/
theorem C44_saturation_refuted (r : ℚ → ℤ) (hr : Nearest r) (n : ℕ) :
    ∃ (t1 t2 : QType) (x : ℚ) (c' : Chain), t1.OK ∧ t2.OK ∧ fuseQuantize ⟨[t1, t2]⟩ = some c' ∧
      runChain r c'.types x - runChain r [t1, t2] x = n := by
  refine ⟨⟨1, 0, -128, 127⟩, ⟨1, 0, -1000 - n, 1000 + n⟩, 127 + n, ⟨[⟨1, 0, -1000 - n, 1000 + n⟩]⟩,
    ⟨by norm_num, by norm_num, by norm_num⟩, ⟨by norm_num, by show -1000 - (n : ℤ) ≤ 0; omega, by show 0 ≤ 1000 + (n : ℤ); omega⟩, rfl, ?_⟩
  have h1 : r (127 + (n : ℚ)) = 127 + (n : ℤ) := by
    have := hr.int (127 + (n : ℤ))
    push_cast at this
    exact this
  have h2 : r 127 = 127 := by
    have := hr.int 127
    push_cast at this
    exact this
  simp only [runChain, QType.q, QType.raw, QType.deq, clamp, div_one, h1]
  have e1 : max (-128) (min 127 (0 + (127 + (n : ℤ)))) = 127 := by omega
  rw [e1]
  norm_num
  rw [h2]
  omega

/-- The pattern for `Quantize(Reshape())` never applies: no type has 8 and 16 bits. -/
theorem C44_quantize_reshape_dead (bits : Nat) : quantizeReshapeApplies bits = false := by
  unfold quantizeReshapeApplies
  by_cases h : bits = 8
  · subst h; rfl
  · simp [h]

example : (⟨1 / 4, -3, -128, 127⟩ : QType).OK ∧ (⟨1 / 4, -3, -128, 127⟩ : QType).InRange 100 :=
  ⟨⟨by norm_num, by norm_num, by norm_num⟩, by norm_num, by norm_num⟩

/-! ### C45 -/

/-- The activation on reals. -/
def actR : Act → ℚ → ℚ
  | .none, x => x
  | .relu, x => max 0 x
  | .relu1, x => max (-1) (min 1 x)
  | .relu6, x => max 0 (min 6 x)

/-- Range to which an integer kernel with a fused activation clamps its result (TensorFlow Lite,
`CalculateActivationRangeQuantized`). -/
def actRange (t : QType) (r : ℚ → ℤ) : Act → ℤ × ℤ
  | .none => (t.lo, t.hi)
  | .relu => (max t.lo (t.raw r 0), t.hi)
  | .relu1 => (max t.lo (t.raw r (-1)), min t.hi (t.raw r 1))
  | .relu6 => (max t.lo (t.raw r 0), min t.hi (t.raw r 6))

/-- Operator with fused activation: the real result `x` of the operator is rounded and clamped to the range. -/
def fusedOp (t : QType) (r : ℚ → ℤ) (a : Act) (x : ℚ) : ℤ := clamp (actRange t r a).1 (actRange t r a).2 (t.raw r x)

/-- Separate activation operator from type `t1` to type `t2`. -/
def actOp (t1 t2 : QType) (r : ℚ → ℤ) (a : Act) (q : ℤ) : ℤ := t2.q r (actR a (t1.deq q))

theorem Nearest.mono {r : ℚ → ℤ} (hr : Nearest r) {x y : ℚ} (h : x ≤ y) : r x ≤ r y := by
  rcases eq_or_lt_of_le h with h | h
  · rw [h]
  · have h1 := abs_le.1 (hr x)
    have h2 := abs_le.1 (hr y)
    have : (r x : ℚ) < r y + 1 := by linarith
    have : r x < r y + 1 := by exact_mod_cast this
    omega

theorem raw_mono (t : QType) (ok : t.OK) {r : ℚ → ℤ} (hr : Nearest r) {x y : ℚ} (h : x ≤ y) : t.raw r x ≤ t.raw r y := by
  unfold QType.raw
  have := Nearest.mono hr (div_le_div_of_nonneg_right h ok.scale_pos.le)
  omega

/-- Clamping in the integers is the activation in the reals. -/
theorem fusedOp_eq (t : QType) (ok : t.OK) (r : ℚ → ℤ) (hr : Nearest r) (a : Act) (x : ℚ) :
    fusedOp t r a x = t.q r (actR a x) := by
  have h0 : t.raw r 0 = t.zp := by
    unfold QType.raw
    have := hr.int 0
    push_cast at this
    rw [zero_div, this]; omega
  have z1 := ok.zp_lo
  have z2 := ok.zp_hi
  have m := fun {x y : ℚ} (h : x ≤ y) => raw_mono t ok hr h
  cases a with
  | none => rfl
  | relu =>
    unfold fusedOp QType.q actRange actR clamp
    simp only
    rcases le_total 0 x with h | h
    · rw [max_eq_right h]; have := m h; omega
    · rw [max_eq_left h]; have := m h; omega
  | relu1 =>
    unfold fusedOp QType.q actRange actR clamp
    simp only
    have n1 : t.raw r (-1) ≤ t.zp := h0 ▸ m (by norm_num)
    have n2 : t.zp ≤ t.raw r 1 := h0 ▸ m (by norm_num)
    rcases le_total 1 x with h | h
    · rw [min_eq_left h, max_eq_right (show (-1 : ℚ) ≤ 1 by norm_num)]; have := m h; omega
    · rw [min_eq_right h]
      have := m h
      rcases le_total (-1) x with g | g
      · rw [max_eq_right g]; have := m g; omega
      · rw [max_eq_left g]; have := m g; omega
  | relu6 =>
    unfold fusedOp QType.q actRange actR clamp
    simp only
    have n2 : t.zp ≤ t.raw r 6 := h0 ▸ m (by norm_num)
    rcases le_total 6 x with h | h
    · rw [min_eq_left h, max_eq_right (show (0 : ℚ) ≤ 6 by norm_num)]; have := m h; omega
    · rw [min_eq_right h]
      have := m h
      rcases le_total 0 x with g | g
      · rw [max_eq_right g]; have := m g; omega
      · rw [max_eq_left g]; have := m g; omega

theorem actOp_eq (t : QType) (ok : t.OK) (r : ℚ → ℤ) (hr : Nearest r) (a : Act) (q : ℤ) :
    actOp t t r a q = clamp (actRange t r a).1 (actRange t r a).2 q := by
  unfold actOp
  rw [← fusedOp_eq t ok r hr]
  unfold fusedOp
  rw [t.raw_deq ok hr]

theorem actRange_sub (t : QType) (ok : t.OK) (r : ℚ → ℤ) (hr : Nearest r) (a : Act) :
    t.lo ≤ (actRange t r a).1 ∧ (actRange t r a).1 ≤ (actRange t r a).2 ∧ (actRange t r a).2 ≤ t.hi := by
  have h0 : t.raw r 0 = t.zp := by
    unfold QType.raw
    have := hr.int 0
    push_cast at this
    rw [zero_div, this]; omega
  have z1 := ok.zp_lo
  have z2 := ok.zp_hi
  have m := fun {x y : ℚ} (h : x ≤ y) => raw_mono t ok hr h
  have n1 : t.raw r (-1) ≤ t.zp := h0 ▸ m (by norm_num)
  have n2 : t.zp ≤ t.raw r 1 := h0 ▸ m (by norm_num)
  have n3 : t.zp ≤ t.raw r 6 := h0 ▸ m (by norm_num)
  cases a <;> simp only [actRange] <;> omega

/-- Result of a binary operator with its activations; `x` is its exact real result. -/
def runBin (t : QType) (r : ℚ → ℤ) (b : BinAct) (x : ℚ) : ℤ := b.post.foldl (fun q a => actOp t t r a q) (fusedOp t r b.fused x)

/-- **C45.** Moving the fused activation of an add, subtract or multiply into a separate operator never changes the result;
the rewrite leaves no fused activation, so it happens once. -/
theorem C45_unfuse_activation (t : QType) (ok : t.OK) (r : ℚ → ℤ) (hr : Nearest r) (b b' : BinAct)
    (h : unfuse b = some b') (x : ℚ) : runBin t r b' x = runBin t r b x ∧ unfuse b' = none := by
  obtain ⟨fused, post⟩ := b
  have key : ∀ a : Act, actOp t t r a (fusedOp t r .none x) = fusedOp t r a x := by
    intro a
    rw [actOp_eq t ok r hr]
    have := actRange_sub t ok r hr a
    unfold fusedOp clamp
    simp only [actRange] at *
    omega
  cases fused <;> simp only [unfuse, Option.some.injEq, reduceCtorEq] at h <;> subst h <;>
    exact ⟨by simp only [runBin, List.foldl_cons, key], rfl⟩

/-- **C45, convolution.** Merging a `Relu` into the convolution before it: exact if both results have the same quantised
type; otherwise at most one plus half a step of the convolution's type, unless that type saturates. -/
theorem C45_merge_relu (t1 t2 : QType) (ok1 : t1.OK) (ok2 : t2.OK) (r : ℚ → ℤ) (hr : Nearest r) (fused act : Act)
    (t : QType) (h : mergeRelu fused t1 t2 = some (act, t)) (x : ℚ) :
    let before := actOp t1 t2 r .relu (fusedOp t1 r fused x)
    let after := fusedOp t r act x
    (t1 = t2 → after = before) ∧
    (t1.InRange (t1.raw r x) → ((|after - before| : ℤ) : ℚ) ≤ t1.scale / (2 * t2.scale) + 1) := by
  unfold mergeRelu at h
  split at h
  · next hf =>
    simp only [Option.some.injEq, Prod.mk.injEq] at h
    obtain ⟨rfl, rfl⟩ := h
    subst hf
    intro before after
    have hs2 := ok2.scale_pos
    constructor
    · rintro rfl
      show fusedOp t1 r .relu x = actOp t1 t1 r .relu (fusedOp t1 r .none x)
      rw [actOp_eq t1 ok1 r hr]
      have := actRange_sub t1 ok1 r hr .relu
      unfold fusedOp clamp
      simp only [actRange] at *
      omega
    · intro hin
      have ha : after = t2.q r (max 0 x) := fusedOp_eq t2 ok2 r hr .relu x
      have hb : before = t2.q r (max 0 (t1.deq (t1.q r x))) := rfl
      rw [ha, hb]
      have h1 := t1.deq_q_err ok1 hr hin
      have h2 := t2.q_dist ok2 hr (max 0 x) (max 0 (t1.deq (t1.q r x)))
      refine le_trans h2 ?_
      have h3 : |max 0 x - max 0 (t1.deq (t1.q r x))| ≤ t1.scale / 2 := by
        rw [abs_sub_comm] at h1
        refine le_trans ?_ h1
        generalize t1.deq (t1.q r x) = y
        rcases le_total 0 x with a | a <;> rcases le_total 0 y with b | b <;>
          simp only [max_eq_left, max_eq_right, a, b]
        · exact le_refl _
        · rw [abs_le]; have := le_abs_self (x - y); constructor <;> linarith
        · rw [abs_le]; have := neg_abs_le (x - y); constructor <;> linarith
        · simp
      have : |max 0 x - max 0 (t1.deq (t1.q r x))| / t2.scale ≤ t1.scale / 2 / t2.scale :=
        div_le_div_of_nonneg_right h3 hs2.le
      have e : t1.scale / 2 / t2.scale = t1.scale / (2 * t2.scale) := by field_simp
      linarith
  · simp at h

example : unfuse ⟨.relu6, []⟩ = some ⟨.none, [.relu6]⟩ := rfl

/-! ### C46 -/

/-- **C46.** Quantising the operands of a concatenation instead of its result gives the same tensor, when the operands
have the type of the concatenation's result (which integer concatenation requires) and nothing is clamped by a fused
activation (which integer concatenation does not support). -/
theorem C46_quantize_above_concat (requant : QType → QType → Int → Int) (c : Concat) (qtype : QType)
    (htypes : ∀ o ∈ c.operands, o.2.2 = c.type) (idx : List Nat)
    (hidx : idx.getD c.axis 0 < (c.operands.map (·.1)).sum) (hax : c.axis < idx.length) :
    let c' := hoistQuantize requant c qtype
    let val := fun c : Concat => concatT c.axis (c.operands.map fun o => (o.1, o.2.1))
    val c' idx = requant c.type qtype (val c idx) ∧ c'.type = qtype ∧ (∀ o ∈ c'.operands, o.2.2 = c'.type) ∧
    c'.operands.map (·.1) = c.operands.map (·.1) := by
  obtain ⟨axis, operands, type⟩ := c
  simp only at htypes hidx hax
  refine ⟨?_, rfl, ?_, by simp [hoistQuantize, Function.comp_def]⟩
  · simp only [hoistQuantize, List.map_map, Function.comp_def]
    induction operands generalizing idx with
    | nil => simp at hidx
    | cons o l ih =>
      simp only [List.map_cons, concatT]
      by_cases hlt : idx.getD axis 0 < o.1
      · rw [if_pos hlt, if_pos hlt, htypes o (by simp)]
      · rw [if_neg hlt, if_neg hlt]
        apply ih _ (fun o ho => htypes o (List.mem_cons_of_mem _ ho))
        · simp only [List.map_cons, List.sum_cons] at hidx
          rw [List.getD_eq_getElem?_getD, List.getElem?_set_self hax]
          simp only [Option.getD_some]
          omega
        · rwa [List.length_set]
  · intro o ho
    simp only [hoistQuantize, List.mem_map] at ho
    obtain ⟨a, _, rfl⟩ := ho
    rfl

example : (hoistQuantize (fun _ _ q => 2 * q) ⟨1, [(1, fun _ => 3, ⟨1, 0, -128, 127⟩), (2, fun _ => 4, ⟨1, 0, -128, 127⟩)],
    ⟨1, 0, -128, 127⟩⟩ ⟨1 / 2, 0, -128, 127⟩).operands.map (fun o => o.2.1 []) = [6, 8] := by decide

/-! ### C47 -/

/-- `s` can be broadcast to `out`. -/
def Broadcastable (s out : List Nat) : Prop :=
  s.length ≤ out.length ∧ ∀ x ∈ List.zip s (out.drop (out.length - s.length)), x.1 = 1 ∨ x.1 = x.2

/-- Binary operator with the implicit broadcasting of its operands. -/
def binary {α β : Type} (op : α → α → β) (a b : Operand α) (idx : List Nat) : β :=
  op (broadcastT a.shape a.val idx) (broadcastT b.shape b.val idx)

theorem hasSameShape_iff (a b : List Nat) : hasSameShape (a.map some) (b.map some) = true ↔ a = b := by
  unfold hasSameShape
  constructor
  · intro h
    split at h
    · simp at h
    · next hl =>
      simp only [List.length_map, ne_eq, not_not] at hl
      rw [List.all_eq_true] at h
      apply List.ext_getElem hl
      intro i h1 h2
      have := h i (by simpa using h1)
      simpa [List.getD_eq_getElem?_getD, h1, h2] using this
  · rintro rfl
    rw [if_neg (by simp)]
    simp

theorem inShape_length : ∀ (s idx : List Nat), InShape s idx → idx.length = s.length
  | [], [], _ => rfl
  | [], _ :: _, h => by simp [InShape] at h
  | _ :: _, [], h => by simp [InShape] at h
  | _ :: s, _ :: idx, h => by
    simp only [InShape] at h
    simp [inShape_length s idx h.2]

/-- Broadcasting to the own shape does nothing. -/
theorem broadcastT_self {α : Type} (s : List Nat) (f : List Nat → α) (idx : List Nat) (h : InShape s idx) :
    broadcastT s f idx = f idx := by
  unfold broadcastT
  rw [inShape_length s idx h]
  simp only [Nat.sub_self, List.drop_zero]
  congr 1
  clear f
  induction s generalizing idx with
  | nil => cases idx <;> simp_all [InShape]
  | cons n s ih =>
    cases idx with
    | nil => simp [InShape] at h
    | cons i idx =>
      simp only [InShape] at h
      simp only [List.zipWith_cons_cons, ih idx h.2]
      split
      · congr 1; omega
      · rfl

/-- **C47.** Making the broadcast of an operand explicit does not change any element of the result; and after at most two
applications both operands have the output's shape and the patterns do not apply any more. -/
theorem C47_explicit_broadcast {α β : Type} (op : α → α → β) (out : List Nat) (a b : Operand α) :
    (∀ a' b', addBroadcast out a b = some (a', b') →
      (∀ idx, InShape out idx → binary op a' b' idx = binary op a b idx) ∧
      ((if a'.shape = out then 0 else 1) + (if b'.shape = out then 0 else 1) <
        (if a.shape = out then 0 else 1) + (if b.shape = out then 0 else (1 : Nat)))) ∧
    (addBroadcast out a b = none ↔ a.shape = out ∧ b.shape = out) := by
  have ha := hasSameShape_iff a.shape out
  have hb := hasSameShape_iff b.shape out
  unfold addBroadcast
  by_cases h1 : a.shape = out
  · rw [if_neg (by simp [ha.2 h1])]
    by_cases h2 : b.shape = out
    · rw [if_neg (by simp [hb.2 h2])]
      simp [h1, h2]
    · have hb' : hasSameShape (b.shape.map some) (out.map some) = false := by
        rw [← Bool.not_eq_true, hb]; exact h2
      rw [if_pos (by simp [hb'])]
      refine ⟨?_, by simp [h2]⟩
      intro a' b' h
      simp only [Option.some.injEq, Prod.mk.injEq] at h
      obtain ⟨rfl, rfl⟩ := h
      refine ⟨?_, by simp [h2]⟩
      intro idx hidx
      simp only [binary]
      rw [broadcastT_self out _ idx hidx]
  · have ha' : hasSameShape (a.shape.map some) (out.map some) = false := by
      rw [← Bool.not_eq_true, ha]; exact h1
    rw [if_pos (by simp [ha'])]
    refine ⟨?_, by simp [h1]⟩
    intro a' b' h
    simp only [Option.some.injEq, Prod.mk.injEq] at h
    obtain ⟨rfl, rfl⟩ := h
    refine ⟨?_, by simp [h1]⟩
    intro idx hidx
    simp only [binary]
    rw [broadcastT_self out _ idx hidx]

example : (addBroadcast [2, 3] ⟨[3], fun i => i.sum⟩ ⟨[2, 3], fun i => i.sum⟩).isSome = true := by decide

/-! ### C48 -/

/-- **C48.** The removed minimum had no effect on 8-bit values, and no other constant would have been safe. -/
theorem C48_minimum_removed (splat : Int) (hs : -128 ≤ splat ∧ splat ≤ 127) :
    dropMinimum splat = true ↔ ∀ q : Int, -128 ≤ q → q ≤ 127 → min q splat = q := by
  unfold dropMinimum
  rw [beq_iff_eq]
  constructor
  · rintro rfl q _ h2; omega
  · intro h
    have := h 127 (by omega) (by omega)
    omega

end Verif.TFL
