import Mathlib.Tactic.Ring
/-!
Reference semantics of the tensor operators that several passes rearrange (specification, not code of /repo).

An image has a height, a width and a pixel at every position; a pixel is an arbitrary value (all channels of an NHWC
position, batch 1).  A convolution-like operator is an arbitrary function `F` of its window, so every statement holds for
`Conv2D`, `DepthwiseConv2D`, pooling and any arithmetic, rounding and fused activation.
-/
namespace Verif.Image

structure Img (α : Type) where
  h : Int
  w : Int
  px : Int → Int → α

/-- Same tensor: equal shape and equal pixels inside. -/
def Img.Same {α : Type} (a b : Img α) : Prop :=
  a.h = b.h ∧ a.w = b.w ∧ ∀ i j, 0 ≤ i → i < a.h → 0 ≤ j → j < a.w → a.px i j = b.px i j

theorem Img.Same.refl {α : Type} (a : Img α) : a.Same a := ⟨rfl, rfl, fun _ _ _ _ _ _ => rfl⟩

theorem Img.Same.symm {α : Type} {a b : Img α} (h : a.Same b) : b.Same a :=
  ⟨h.1.symm, h.2.1.symm, fun i j h1 h2 h3 h4 => (h.2.2 i j h1 (h.1 ▸ h2) h3 (h.2.1 ▸ h4)).symm⟩

theorem Img.Same.trans {α : Type} {a b c : Img α} (h : a.Same b) (g : b.Same c) : a.Same c :=
  ⟨h.1.trans g.1, h.2.1.trans g.2.1, fun i j h1 h2 h3 h4 =>
    (h.2.2 i j h1 h2 h3 h4).trans (g.2.2 i j h1 (h.1 ▸ h2) h3 (h.2.1 ▸ h4))⟩

/-- Pixel with the value `z` outside. -/
def Img.at {α : Type} (z : α) (x : Img α) (i j : Int) : α :=
  if 0 ≤ i ∧ i < x.h ∧ 0 ≤ j ∧ j < x.w then x.px i j else z

theorem Img.at_pos {α : Type} (z : α) (x : Img α) {i j : Int} (h : 0 ≤ i ∧ i < x.h ∧ 0 ≤ j ∧ j < x.w) :
    x.at z i j = x.px i j := if_pos h

theorem Img.at_eq {α : Type} (z : α) {x y : Img α} {i j i' j' : Int}
    (hiff : (0 ≤ i ∧ i < x.h ∧ 0 ≤ j ∧ j < x.w) ↔ (0 ≤ i' ∧ i' < y.h ∧ 0 ≤ j' ∧ j' < y.w))
    (h : (0 ≤ i ∧ i < x.h ∧ 0 ≤ j ∧ j < x.w) → x.px i j = y.px i' j') : x.at z i j = y.at z i' j' := by
  unfold Img.at
  by_cases hc : 0 ≤ i ∧ i < x.h ∧ 0 ≤ j ∧ j < x.w
  · rw [if_pos hc, if_pos (hiff.1 hc), h hc]
  · rw [if_neg hc, if_neg (fun h => hc (hiff.2 h))]

/-- `tfl.pad` with value `z`. -/
def pad {α : Type} (z : α) (t b l r : Int) (x : Img α) : Img α :=
  ⟨x.h + t + b, x.w + l + r, fun i j => x.at z (i - t) (j - l)⟩

/-- `tfl.slice` along the height. -/
def sliceRows {α : Type} (b n : Int) (x : Img α) : Img α := ⟨n, x.w, fun i j => x.px (b + i) j⟩

/-- The slice stays inside its input (otherwise the operator is ill-formed). -/
def SliceOK {α : Type} (b n : Int) (x : Img α) : Prop := 0 ≤ b ∧ 0 ≤ n ∧ b + n ≤ x.h

/-- Concatenation along the height. -/
def vcat {α : Type} (a b : Img α) : Img α :=
  ⟨a.h + b.h, a.w, fun i j => if i < a.h then a.px i j else b.px (i - a.h) j⟩

def concatRows {α : Type} [Inhabited α] (w : Int) (l : List (Img α)) : Img α :=
  l.foldr vcat ⟨0, w, fun _ _ => default⟩

/-- Geometry of a windowed operator: kernel, stride and dilation in both directions. -/
structure Win where
  kh : Int
  kw : Int
  sh : Int
  sw : Int
  dh : Int := 1
  dw : Int := 1

structure Win.OK (g : Win) : Prop where
  kh : 1 ≤ g.kh
  kw : 1 ≤ g.kw
  sh : 1 ≤ g.sh
  sw : 1 ≤ g.sw
  dh : 1 ≤ g.dh
  dw : 1 ≤ g.dw

/-- Extent of a dilated kernel. -/
def eff (k d : Int) : Int := (k - 1) * d + 1

/-- `F` only looks at its window. -/
def WindowFn (g : Win) {α β : Type} (F : (Int → Int → α) → β) : Prop :=
  ∀ u v : Int → Int → α, (∀ a b, 0 ≤ a → a < g.kh → 0 ≤ b → b < g.kw → u a b = v a b) → F u = F v

/-- Windowed operator with `VALID` padding (TensorFlow: output size `(in - eff + stride) / stride`). -/
def convValid (g : Win) {α β : Type} (F : (Int → Int → α) → β) (x : Img α) : Img β :=
  ⟨(x.h - eff g.kh g.dh + g.sh) / g.sh, (x.w - eff g.kw g.dw + g.sw) / g.sw,
   fun i j => F fun a b => x.px (i * g.sh + a * g.dh) (j * g.sw + b * g.dw)⟩

/-- TensorFlow `SAME` output size and total padding. -/
def sameOut (n s : Int) : Int := (n + s - 1) / s
def samePad (n k s d : Int) : Int := max 0 ((sameOut n s - 1) * s + eff k d - n)
/-- Padding before (the smaller half) and after. -/
def sameBefore (n k s d : Int) : Int := samePad n k s d / 2
def sameAfter (n k s d : Int) : Int := samePad n k s d - sameBefore n k s d

/-- Windowed operator with `SAME` padding, border value `z`. -/
def convSame (g : Win) {α β : Type} (z : α) (F : (Int → Int → α) → β) (x : Img α) : Img β :=
  ⟨sameOut x.h g.sh, sameOut x.w g.sw,
   fun i j => F fun a b => x.at z (i * g.sh + a * g.dh - sameBefore x.h g.kh g.sh g.dh)
                            (j * g.sw + b * g.dw - sameBefore x.w g.kw g.sw g.dw)⟩

/-- Arithmetic facts about `SAME` sizes. -/
theorem samePad_facts {n k s d : Int} (hn : 1 ≤ n) (hk : 1 ≤ k) (hs : 1 ≤ s) (hd : 1 ≤ d) :
    1 ≤ sameOut n s ∧ (sameOut n s - 1) * s < n ∧ n ≤ sameOut n s * s ∧
    0 ≤ sameBefore n k s d ∧ sameBefore n k s d ≤ sameAfter n k s d ∧ sameAfter n k s d ≤ sameBefore n k s d + 1 ∧
    sameBefore n k s d + sameAfter n k s d = samePad n k s d ∧ samePad n k s d ≤ (k - 1) * d ∧
    (sameOut n s - 1) * s + eff k d ≤ n + samePad n k s d ∧
    (0 < samePad n k s d → (sameOut n s - 1) * s + eff k d = n + samePad n k s d) := by
  have h1 : s * ((n + s - 1) / s) + (n + s - 1) % s = n + s - 1 := Int.mul_ediv_add_emod _ _
  have h2 := Int.emod_nonneg (n + s - 1) (by omega : s ≠ 0)
  have h3 := Int.emod_lt_of_pos (n + s - 1) (by omega : 0 < s)
  have hkd : 0 ≤ (k - 1) * d := Int.mul_nonneg (by omega) (by omega)
  have e1 : (sameOut n s - 1) * s = s * ((n + s - 1) / s) - s := by unfold sameOut; ring
  have e2 : sameOut n s * s = s * ((n + s - 1) / s) := by unfold sameOut; ring
  have h4 : 1 ≤ sameOut n s := by
    unfold sameOut
    rw [Int.le_ediv_iff_mul_le (by omega)]
    omega
  unfold sameAfter sameBefore samePad
  rw [e1, e2]
  unfold eff
  generalize s * ((n + s - 1) / s) = q at *
  generalize (k - 1) * d = kd at *
  refine ⟨h4, ?_, ?_, ?_, ?_, ?_, ?_, ?_, ?_, ?_⟩ <;> omega

/-- `SAME` operator = explicit padding followed by the `VALID` operator. -/
theorem convSame_eq_pad_valid (g : Win) (ok : g.OK) {α β : Type} (z : α) (F : (Int → Int → α) → β)
    (x : Img α) (hh : 1 ≤ x.h) (hw : 1 ≤ x.w) :
    (convSame g z F x).Same
      (convValid g F (pad z (sameBefore x.h g.kh g.sh g.dh) (sameAfter x.h g.kh g.sh g.dh)
        (sameBefore x.w g.kw g.sw g.dw) (sameAfter x.w g.kw g.sw g.dw) x)) := by
  have dimEq : ∀ n k s d : Int, 1 ≤ n → 1 ≤ k → 1 ≤ s → 1 ≤ d →
      sameOut n s = (n + sameBefore n k s d + sameAfter n k s d - eff k d + s) / s := by
    intro n k s d hn hk hs hd
    obtain ⟨f1, f2, f3, f4, f5, f6, f7, f8, f9, f10⟩ := samePad_facts hn hk hs hd
    symm
    rw [show n + sameBefore n k s d + sameAfter n k s d = n + samePad n k s d by omega]
    have hub : n + samePad n k s d - eff k d < sameOut n s * s := by
      have : (sameOut n s - 1) * s + s = sameOut n s * s := by ring
      unfold eff at *
      rcases lt_or_ge 0 (samePad n k s d) with h | h
      · have := f10 h; omega
      · have : 0 ≤ (k - 1) * d := Int.mul_nonneg (by omega) (by omega)
        omega
    have hr : (sameOut n s - 1) * s + s = sameOut n s * s := by ring
    rw [Int.ediv_eq_iff_of_pos (by omega)]
    constructor
    · omega
    · have : (sameOut n s + 1) * s = sameOut n s * s + s := by ring
      omega
  exact ⟨dimEq _ _ _ _ hh ok.kh ok.sh ok.dh, dimEq _ _ _ _ hw ok.kw ok.sw ok.dw, fun i j _ _ _ _ => rfl⟩

theorem convValid_congr (g : Win) (ok : g.OK) {α β : Type} {F : (Int → Int → α) → β} (hF : WindowFn g F)
    {x y : Img α} (h : x.Same y) : (convValid g F x).Same (convValid g F y) := by
  obtain ⟨h1, h2, h3⟩ := h
  have bound : ∀ n k s d i a : Int, 1 ≤ k → 1 ≤ s → 1 ≤ d → 0 ≤ i → i < (n - eff k d + s) / s → 0 ≤ a → a < k →
      0 ≤ i * s + a * d ∧ i * s + a * d < n := by
    intro n k s d i a hk hs hd hi hi2 ha ha2
    have hle : (i + 1) * s ≤ n - eff k d + s :=
      (Int.le_ediv_iff_mul_le (by omega)).1 (by omega)
    have e : (i + 1) * s = i * s + s := by ring
    have p1 : 0 ≤ i * s := Int.mul_nonneg hi (by omega)
    have p2 : 0 ≤ a * d := Int.mul_nonneg ha (by omega)
    have p3 : a * d ≤ (k - 1) * d := Int.mul_le_mul_of_nonneg_right (by omega) (by omega)
    unfold eff at hle
    omega
  refine ⟨by simp [convValid, h1], by simp [convValid, h2], ?_⟩
  intro i j hi hi2 hj hj2
  apply hF
  intro a b ha ha2 hb hb2
  obtain ⟨g1, g2⟩ := bound _ _ _ _ i a ok.kh ok.sh ok.dh hi hi2 ha ha2
  obtain ⟨g3, g4⟩ := bound _ _ _ _ j b ok.kw ok.sw ok.dw hj hj2 hb hb2
  exact h3 _ _ g1 g2 g3 g4

end Verif.Image
