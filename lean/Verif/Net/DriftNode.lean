import Verif.Net.DriftLemmas
/-! C112: two runs of one operator on operands that are close. -/
namespace Verif.Net
open Verif.Tensor Verif.Move Verif.MemPlan Verif.Quant

/-! ### Elements -/

theorem closeEl_refl (L : BLib) (d : Nat) {δ : ℝ} (hδ : 0 ≤ δ) (a : List Byte) : CloseEl L d δ a a := by
  unfold CloseEl
  split_ifs
  · simpa using hδ
  · simpa using hδ
  · exact Or.inl rfl
  · rfl

theorem closeEl_mono {L : BLib} {d : Nat} {δ η : ℝ} (h : δ ≤ η) {a b : List Byte} (hc : CloseEl L d δ a b) : CloseEl L d η a b := by
  unfold CloseEl at hc ⊢
  split_ifs at hc ⊢
  · exact hc.trans h
  · exact hc.trans h
  · rcases hc with hc | ⟨h1, h2⟩
    · exact Or.inl hc
    · exact Or.inr ⟨h1.trans_le h, h2.trans h⟩
  · exact hc

theorem close_mono {L : BLib} {t : Ty} {δ η : ℝ} (h : δ ≤ η) {x y : List Byte} (hc : Close L t δ x y) : Close L t η x y :=
  fun k hk => closeEl_mono h (hc k hk)

theorem close_refl (L : BLib) (t : Ty) {δ : ℝ} (hδ : 0 ≤ δ) (x : List Byte) : Close L t δ x x := fun _ _ => closeEl_refl L _ hδ _

theorem s8_inj {a b : Byte} (h : s8 a = s8 b) : a = b := by
  unfold s8 XC.ofU8 at h
  have h1 := a.toNat_lt
  have h2 := b.toNat_lt
  apply UInt8.toNat_inj.1
  split_ifs at h <;> omega

theorem closeEl_zero {L : BLib} {d : Nat} {a b : List Byte} (ha : a.length = d) (hb : b.length = d) (hc : CloseEl L d 0 a b) : a = b := by
  unfold CloseEl at hc
  split_ifs at hc with h1 h2 h4
  · subst h1
    match a, b, ha, hb with
    | [x], [y], _, _ =>
      have := abs_nonpos_iff.1 hc
      have e : ((s8 x : ℤ) : ℝ) = (s8 y : ℤ) := sub_eq_zero.1 this
      have e : s8 x = s8 y := by exact_mod_cast e
      rw [s8_inj e]
  · subst h2
    match a, b, ha, hb with
    | [x, x'], [y, y'], _, _ =>
      have := abs_nonpos_iff.1 hc
      have e : ((s16 [x, x'] : ℤ) : ℝ) = (s16 [y, y'] : ℤ) := sub_eq_zero.1 this
      have e : s16 [x, x'] = s16 [y, y'] := by exact_mod_cast e
      have e' : (x.toNat : ℤ) + 256 * s8 x' = y.toNat + 256 * s8 y' := e
      have b1 := x.toNat_lt
      have b2 := y.toNat_lt
      have e1 : s8 x' = s8 y' := by omega
      have e2 : x.toNat = y.toNat := by omega
      rw [s8_inj e1, UInt8.toNat_inj.1 e2]
  · rcases hc with hc | ⟨h, _⟩
    · exact hc
    · exact absurd h (lt_irrefl _)
  · exact hc

theorem length_word (d : Nat) (x : List Byte) (k : Nat) : (word d x k).length = d := length_fit _ _

theorem word_out (d : Nat) (x : List Byte) (k : Nat) (h : x.length ≤ k * d) : word d x k = fit d [] := by
  unfold word
  rw [List.drop_eq_nil_of_le h, List.take_nil]

/-- Outside the buffers, both elements are zero. -/
theorem close_word {L : BLib} {t : Ty} {δ : ℝ} (hδ : 0 ≤ δ) {x y : List Byte} (hx : x.length = t.size) (hy : y.length = t.size) (hc : Close L t δ x y)
    (k : Nat) : CloseEl L t.d δ (word t.d x k) (word t.d y k) := by
  by_cases hk : k < t.shape.prod
  · exact hc k hk
  · have h : t.size ≤ k * t.d := Nat.mul_le_mul_right _ (not_lt.1 hk)
    rw [word_out _ _ _ (hx ▸ h), word_out _ _ _ (hy ▸ h)]
    exact closeEl_refl L _ hδ _

theorem close_elemAt {L : BLib} {t : Ty} {δ : ℝ} (hδ : 0 ≤ δ) {x y : List Byte} (hx : x.length = t.size) (hy : y.length = t.size) (hc : Close L t δ x y)
    (idx : List Nat) : CloseEl L t.d δ (elemAt t x idx) (elemAt t y idx) := close_word hδ hx hy hc (ravel t.shape idx)

theorem ravel_unravel (s : List Nat) (k : Nat) (hk : k < s.prod) : ravel s (unravel s k) = k := by
  have h1 := flat_getElem s id _ (unravel_inShape s k hk)
  have h2 : (flat s id)[k]? = some (unravel s k) := by
    have hl : k < (flat s id).length := by rw [length_flat]; exact hk
    unfold unravel
    rw [List.getD_eq_getElem?_getD, List.getElem?_eq_getElem hl]
    rfl
  have h3 := flat_getElem s (ravel s) _ (unravel_inShape s k hk)
  have h4 : (flat s (ravel s))[k]? = some k := by rw [ravel_flat, List.getElem?_range hk]
  have h5 : (flat s (ravel s))[k]? = ((flat s id)[k]?).map (ravel s) := by
    rw [← List.getElem?_map, XC.flat_map]
    rfl
  rw [h2, h4] at h5
  simpa using h5.symm

/-- It suffices to compare elements by their multi-indices. -/
theorem close_of_elemAt {L : BLib} {t : Ty} {δ : ℝ} {x y : List Byte} (h : ∀ idx, InShape t.shape idx → CloseEl L t.d δ (elemAt t x idx) (elemAt t y idx)) :
    Close L t δ x y := by
  intro k hk
  have := h _ (unravel_inShape t.shape k hk)
  unfold elemAt at this
  rw [ravel_unravel _ _ hk] at this
  exact this

theorem close_eq {L : BLib} {t : Ty} {x y : List Byte} (hx : x.length = t.size) (hy : y.length = t.size) (hc : Close L t 0 x y) : x = y := by
  rw [← bytesOf_elemAt t x hx, ← bytesOf_elemAt t y hy]
  exact bytesOf_congr fun idx _ => closeEl_zero (length_elemAt _ _ _) (length_elemAt _ _ _) (close_elemAt le_rfl hx hy hc idx)

/-! ### The integers in buffers -/

theorem close8 {L : BLib} {t : Ty} (ht : t.d = 1) {δ : ℝ} (hδ : 0 ≤ δ) {x y : List Byte} (hx : x.length = t.size) (hy : y.length = t.size)
    (hc : Close L t δ x y) (idx : List Nat) : |((tensorOf t x idx : ℤ) : ℝ) - (tensorOf t y idx : ℤ)| ≤ δ := by
  have := close_elemAt hδ hx hy hc idx
  rw [ht] at this
  unfold CloseEl at this
  rw [if_pos rfl] at this
  exact this

theorem close16 {L : BLib} {t : Ty} (ht : t.d = 2) {δ : ℝ} (hδ : 0 ≤ δ) {x y : List Byte} (hx : x.length = t.size) (hy : y.length = t.size)
    (hc : Close L t δ x y) (idx : List Nat) : |((tensor16 t x idx : ℤ) : ℝ) - (tensor16 t y idx : ℤ)| ≤ δ := by
  have := close_elemAt hδ hx hy hc idx
  rw [ht] at this
  unfold CloseEl at this
  rw [if_neg (by norm_num), if_pos rfl] at this
  exact this

theorem word_one (x : List Byte) (k : Nat) : (word 1 x k).headD 0 = x.getD k 0 := by
  unfold word
  rw [fit_head, Nat.mul_one, List.getD_eq_getElem?_getD]
  by_cases h : k < x.length
  · rw [List.drop_eq_getElem_cons h, List.getElem?_eq_getElem h]
    rfl
  · rw [List.drop_eq_nil_of_le (by omega), List.getElem?_eq_none (by omega)]
    rfl

theorem close8_getD {L : BLib} {t : Ty} (ht : t.d = 1) {δ : ℝ} (hδ : 0 ≤ δ) {x y : List Byte} (hx : x.length = t.size) (hy : y.length = t.size)
    (hc : Close L t δ x y) (k : Nat) : |((s8 (x.getD k 0) : ℤ) : ℝ) - (s8 (y.getD k 0) : ℤ)| ≤ δ := by
  have := close_word hδ hx hy hc k
  rw [ht] at this
  unfold CloseEl at this
  rw [if_pos rfl, word_one, word_one] at this
  exact this

theorem close8_map {L : BLib} {t : Ty} (ht : t.d = 1) {δ : ℝ} (hδ : 0 ≤ δ) {x y : List Byte} (hx : x.length = t.size) (hy : y.length = t.size)
    (hc : Close L t δ x y) (k : Nat) : |(((x.map s8).getD k 0 : ℤ) : ℝ) - ((y.map s8).getD k 0 : ℤ)| ≤ δ := by
  rw [getD_map_s8, getD_map_s8]
  exact close8_getD ht hδ hx hy hc k

theorem vals16_getD (D : List Byte) (h : D.length % 2 = 0) (k : Nat) : (vals16 D).getD k 0 = val16 D k := by
  by_cases hk : k < D.length / 2
  · exact getD_vals16 D hk
  · rw [val16_out D (by omega), List.getD_eq_getElem?_getD, List.getElem?_eq_none (by rw [length_vals16]; omega)]
    rfl

theorem close16_vals {L : BLib} {t : Ty} (ht : t.d = 2) {δ : ℝ} (hδ : 0 ≤ δ) {x y : List Byte} (hx : x.length = t.size) (hy : y.length = t.size)
    (hc : Close L t δ x y) (k : Nat) : |(((vals16 x).getD k 0 : ℤ) : ℝ) - ((vals16 y).getD k 0 : ℤ)| ≤ δ := by
  have he : t.size % 2 = 0 := by unfold Ty.size; rw [ht]; omega
  rw [vals16_getD x (hx ▸ he), vals16_getD y (hy ▸ he)]
  have := close_word hδ hx hy hc k
  rw [ht] at this
  unfold CloseEl at this
  rw [if_neg (by norm_num), if_pos rfl] at this
  exact this

theorem close_of8 {L : BLib} {t : Ty} (ht : t.d = 1) {δ : ℝ} {x y : List Byte}
    (h : ∀ idx, InShape t.shape idx → |((tensorOf t x idx : ℤ) : ℝ) - (tensorOf t y idx : ℤ)| ≤ δ) : Close L t δ x y := by
  apply close_of_elemAt
  intro idx hi
  rw [ht]
  unfold CloseEl
  rw [if_pos rfl]
  exact h idx hi

theorem close_of16 {L : BLib} {t : Ty} (ht : t.d = 2) {δ : ℝ} {x y : List Byte}
    (h : ∀ idx, InShape t.shape idx → |((tensor16 t x idx : ℤ) : ℝ) - (tensor16 t y idx : ℤ)| ≤ δ) : Close L t δ x y := by
  apply close_of_elemAt
  intro idx hi
  rw [ht]
  unfold CloseEl
  rw [if_neg (by norm_num), if_pos rfl]
  exact h idx hi

theorem close_of8_getD {L : BLib} {t : Ty} (ht : t.d = 1) {δ : ℝ} {x y : List Byte}
    (h : ∀ k < t.shape.prod, |((s8 (x.getD k 0) : ℤ) : ℝ) - (s8 (y.getD k 0) : ℤ)| ≤ δ) : Close L t δ x y := by
  intro k hk
  rw [ht]
  unfold CloseEl
  rw [if_pos rfl, word_one, word_one]
  exact h k hk

theorem close_of16_val {L : BLib} {t : Ty} (ht : t.d = 2) {δ : ℝ} {x y : List Byte}
    (h : ∀ k < t.shape.prod, |((val16 x k : ℤ) : ℝ) - (val16 y k : ℤ)| ≤ δ) : Close L t δ x y := by
  intro k hk
  rw [ht]
  unfold CloseEl
  rw [if_neg (by norm_num), if_pos rfl]
  exact h k hk

theorem close_trivial8 {L : BLib} {t : Ty} (ht : t.d = 1) {δ : ℝ} (hδ : 255 ≤ δ) (x y : List Byte) : Close L t δ x y := by
  apply close_of8 ht
  intro idx _
  refine le_trans ?_ hδ
  have h1 := s8_range ((elemAt t x idx).headD 0)
  have h2 := s8_range ((elemAt t y idx).headD 0)
  have : |tensorOf t x idx - tensorOf t y idx| ≤ 255 := by
    unfold tensorOf
    rw [abs_le]
    constructor <;> linarith [h1.1, h1.2, h2.1, h2.2]
  exact_mod_cast this

theorem close_trivial16 {L : BLib} {t : Ty} (ht : t.d = 2) {δ : ℝ} (hδ : 65535 ≤ δ) (x y : List Byte) : Close L t δ x y := by
  apply close_of16 ht
  intro idx _
  refine le_trans ?_ hδ
  have h1 := s16_range (elemAt t x idx)
  have h2 := s16_range (elemAt t y idx)
  have : |tensor16 t x idx - tensor16 t y idx| ≤ 65535 := by
    unfold tensor16
    rw [abs_le]
    constructor <;> linarith [h1.1, h1.2, h2.1, h2.2]
  exact_mod_cast this

/-! ### Data movement -/

theorem padT_close {P : List Byte → List Byte → Prop} {z : List Byte} (hz : P z z) : ∀ (s n : List Nat) (f g : List Nat → List Byte) (idx : List Nat),
    (∀ i, P (f i) (g i)) → P (padT z s n f idx) (padT z s n g idx)
  | s :: ss, n :: ns, f, g, i :: idx, h => by
    unfold padT
    split
    · exact padT_close hz ss ns _ _ idx fun r => h _
    · exact hz
  | [], _, f, g, _, h => by unfold padT; exact h _
  | _ :: _, [], f, g, _, h => by unfold padT; exact h _
  | _ :: _, _ :: _, f, g, [], h => by unfold padT; exact h _

theorem concatT_close {P : List Byte → List Byte → Prop} (h0 : P [] []) (ax : Nat) : ∀ (l : List (Nat × (List Nat → List Byte) × (List Nat → List Byte)))
    (idx : List Nat), (∀ p ∈ l, ∀ i, P (p.2.1 i) (p.2.2 i)) →
    P (concatT ax (l.map fun p => (p.1, p.2.1)) idx) (concatT ax (l.map fun p => (p.1, p.2.2)) idx)
  | [], idx, h => h0
  | (n, f, g) :: l, idx, h => by
    simp only [List.map_cons]
    unfold concatT
    split
    · exact h _ List.mem_cons_self _
    · exact concatT_close h0 ax l _ fun p hp => h p (List.mem_cons_of_mem _ hp)

/-- Elements of exactly `d` bytes. -/
theorem closeEl_fit {L : BLib} {d : Nat} {δ : ℝ} {a b : List Byte} (ha : a.length = d) (hb : b.length = d) (h : CloseEl L d δ a b) :
    CloseEl L d δ (fit d a) (fit d b) := by rw [fit_eq ha, fit_eq hb]; exact h

theorem padT_length {z : List Byte} {d : Nat} (hz : z.length = d) (s n : List Nat) (f : List Nat → List Byte) (idx : List Nat)
    (h : ∀ i, (f i).length = d) : (padT z s n f idx).length = d :=
  padT_close (P := fun a _ => a.length = d) hz s n f f idx h

/-- Row-major bytes of tensors that are close. -/
theorem close_bytesOf {L : BLib} {t : Ty} {δ : ℝ} {f g : T} (hf : ∀ i, InShape t.shape i → (f i).length = t.d) (hg : ∀ i, InShape t.shape i → (g i).length = t.d)
    (h : ∀ i, InShape t.shape i → CloseEl L t.d δ (f i) (g i)) : Close L t δ (bytesOf t f) (bytesOf t g) := by
  apply close_of_elemAt
  intro idx hi
  rw [elemAt_bytesOf t f hf idx hi, elemAt_bytesOf t g hg idx hi]
  exact h idx hi

theorem map_one {α : Type} {f : Nat → α} {l : List Nat} {p : α} (h : l.map f = [p]) : ∃ v, l = [v] ∧ f v = p := by
  match l, h with
  | [v], h => exact ⟨v, rfl, by simpa using h⟩

theorem map_two {α : Type} {f : Nat → α} {l : List Nat} {p q : α} (h : l.map f = [p, q]) : ∃ v w, l = [v, w] ∧ f v = p ∧ f w = q := by
  match l, h with
  | [v, w], h =>
    simp only [List.map_cons, List.map_nil, List.cons.injEq, and_true] at h
    exact ⟨v, w, rfl, h.1, h.2⟩

/-- Operators that move data, and others on equal operands. -/
theorem base_close (L : BLib) (sem : Sem) (k : Kind) (args : List Nat) (ty : Ty) (T : Nat → Ty) (c : Nat → Bool) (X Y : Nat → List Byte) (D : Nat → ℝ)
    (hok : k.OK (args.map fun v => (T v, c v)) ty) (hX : ∀ v ∈ args, (X v).length = (T v).size) (hY : ∀ v ∈ args, (Y v).length = (T v).size)
    (hD : ∀ v ∈ args, 0 ≤ D v) (hC : ∀ v ∈ args, Close L (T v) (D v) (X v) (Y v)) {δ : ℝ} (h0 : 0 ≤ δ)
    (tame : QNode.Tame ⟨.base k, args, ty⟩ (args.map T) (args.map D) δ) (hδ : QNode.grow ⟨.base k, args, ty⟩ (args.map D) ≤ δ) :
    Close L ty δ (eval sem k ty (args.map fun v => (T v, X v))) (eval sem k ty (args.map fun v => (T v, Y v))) := by
  have same : (∀ d ∈ args.map D, d = 0) → (args.map fun v => (T v, X v)) = args.map fun v => (T v, Y v) := by
    intro hz
    apply List.map_congr_left
    intro v hv
    have h1 := hC v hv
    rw [hz (D v) (List.mem_map_of_mem hv)] at h1
    rw [close_eq (hX v hv) (hY v hv) h1]
  have one : ∀ v, args = [v] → peak (args.map D) ≤ δ → ∀ idx, CloseEl L (T v).d δ (elemAt (T v) (X v) idx) (elemAt (T v) (Y v) idx) := by
    intro v hv hp idx
    have hm : v ∈ args := by rw [hv]; exact List.mem_singleton.2 rfl
    exact closeEl_mono ((le_peak (List.mem_map_of_mem hm)).trans hp) (close_elemAt (hD v hm) (hX v hm) (hY v hm) (hC v hm) idx)
  unfold eval
  cases k with
  | const data => exact close_refl L ty h0 _
  | slice b s =>
    obtain ⟨a, ca, h1, hd, _⟩ := hok
    obtain ⟨v, rfl, h2⟩ := map_one h1
    obtain ⟨rfl, rfl⟩ := Prod.mk.inj h2
    have := one v rfl hδ
    rw [hd] at this
    exact close_bytesOf (fun i _ => (length_elemAt _ _ _).trans hd) (fun i _ => (length_elemAt _ _ _).trans hd) fun i _ => this _
  | strided b e bm em sm =>
    obtain ⟨a, ca, h1, hd, _⟩ := hok
    obtain ⟨v, rfl, h2⟩ := map_one h1
    obtain ⟨rfl, rfl⟩ := Prod.mk.inj h2
    have := one v rfl hδ
    rw [hd] at this
    exact close_bytesOf (fun i _ => (length_elemAt _ _ _).trans hd) (fun i _ => (length_elemAt _ _ _).trans hd) fun i _ => this _
  | pad q8 zp p =>
    obtain ⟨a, ca, h1, hd, _⟩ := hok
    obtain ⟨v, rfl, h2⟩ := map_one h1
    obtain ⟨rfl, rfl⟩ := Prod.mk.inj h2
    have := one v rfl hδ
    rw [hd] at this
    have hz : (List.replicate (T v).d (UInt8.ofInt zp)).length = ty.d := by rw [List.length_replicate, hd]
    exact close_bytesOf (fun i _ => padT_length hz _ _ _ _ fun i => (length_elemAt _ _ _).trans hd)
      (fun i _ => padT_length hz _ _ _ _ fun i => (length_elemAt _ _ _).trans hd) fun i _ => padT_close (closeEl_refl L _ h0 _) _ _ _ _ _ fun i => this i
  | broadcast =>
    obtain ⟨a, ca, h1, hd, _⟩ := hok
    obtain ⟨v, rfl, h2⟩ := map_one h1
    obtain ⟨rfl, rfl⟩ := Prod.mk.inj h2
    have := one v rfl hδ
    rw [hd] at this
    exact close_bytesOf (fun i _ => (length_elemAt _ _ _).trans hd) (fun i _ => (length_elemAt _ _ _).trans hd) fun i _ => this _
  | concat axis =>
    obtain ⟨pre, post, ⟨hf, _⟩, _⟩ := hok
    have hd : ∀ v ∈ args, (T v).d = ty.d := by
      intro v hv
      obtain ⟨n, hn⟩ := hf (T v) (by simpa [Function.comp_def] using ⟨v, hv, rfl⟩)
      rw [hn]
    have hp : ∀ v ∈ args, D v ≤ δ := fun v hv => (le_peak (List.mem_map_of_mem hv)).trans hδ
    refine close_bytesOf (fun i _ => length_fit _ _) (fun i _ => length_fit _ _) fun i _ => ?_
    have key := concatT_close (P := fun a b => CloseEl L ty.d δ (fit ty.d a) (fit ty.d b)) (closeEl_refl L _ h0 _)
      (if axis < 0 then ty.shape.length + axis else axis).toNat
      (args.map fun v => ((T v).shape.getD (if axis < 0 then ty.shape.length + axis else axis).toNat 0, elemAt (T v) (X v), elemAt (T v) (Y v))) i (by
        intro p hp' j
        obtain ⟨v, hv, rfl⟩ := List.mem_map.1 hp'
        have h1 := closeEl_mono (hp v hv) (close_elemAt (hD v hv) (hX v hv) (hY v hv) (hC v hv) j)
        rw [hd v hv] at h1
        exact closeEl_fit ((length_elemAt _ _ _).trans (hd v hv)) ((length_elemAt _ _ _).trans (hd v hv)) h1)
    simp only [List.map_map, Function.comp_def] at key
    simp only [denote, List.map_map, Function.comp_def]
    exact key
  | reshape =>
    obtain ⟨a, ca, h1, hs⟩ := hok
    obtain ⟨v, rfl, h2⟩ := map_one h1
    obtain ⟨rfl, rfl⟩ := Prod.mk.inj h2
    have hm : v ∈ [v] := List.mem_singleton.2 rfl
    have hd : (T v).d = ty.d := tame (T v) (List.mem_map_of_mem hm)
    have e : ∀ Z : Nat → List Byte, (Z v).length = (T v).size →
        bytesOf ty (denote sem .reshape ty (([v].map fun v => (T v, Z v)).map fun x => (x.1, elemAt x.1 x.2))) = Z v := by
      intro Z hZ
      show bytesOf ty (elemAt ty (bytesOf (T v) (elemAt (T v) (Z v)))) = Z v
      rw [bytesOf_elemAt _ _ hZ, bytesOf_elemAt _ _ (hZ.trans hs)]
    rw [e X (hX v hm), e Y (hY v hm)]
    intro k _
    have h3 := closeEl_mono ((le_peak (List.mem_map_of_mem hm)).trans hδ) (close_word (hD v hm) (hX v hm) (hY v hm) (hC v hm) k)
    rw [hd] at h3
    exact h3
  | transpose perm =>
    obtain ⟨a, ca, h1, hd, _⟩ := hok
    obtain ⟨v, rfl, h2⟩ := map_one h1
    obtain ⟨rfl, rfl⟩ := Prod.mk.inj h2
    have := one v rfl hδ
    rw [hd] at this
    exact close_bytesOf (fun i _ => (length_elemAt _ _ _).trans hd) (fun i _ => (length_elemAt _ _ _).trans hd) fun i _ => this _
  | elementwise j => rw [same tame]; exact close_refl L ty h0 _
  | other ip j => rw [same tame]; exact close_refl L ty h0 _

end Verif.Net
