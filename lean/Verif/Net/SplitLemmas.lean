import Verif.Net.Split
import Verif.Net.RewriteProps
/-!
Lemmas for C100: rows of stored tensors.
-/
namespace Verif.Net
open Verif.Tensor Verif.Move Verif.MemPlan Verif.Image Verif.OpSplit

variable {sem : Sem}

theorem inShape4 {h w c : Nat} {idx : List Nat} (hi : InShape [1, h, w, c] idx) : ∃ i j k, idx = [0, i, j, k] ∧ i < h ∧ j < w ∧ k < c := by
  match idx, hi with
  | [a, i, j, k], ⟨h1, h2, h3, h4, _⟩ =>
    have : a = 0 := by omega
    subst this
    exact ⟨i, j, k, rfl, h2, h3, h4⟩

theorem inShape4_mk {h w c i j k : Nat} (h1 : i < h) (h2 : j < w) (h3 : k < c) : InShape [1, h, w, c] [0, i, j, k] :=
  ⟨by omega, h1, h2, h3, trivial⟩

theorem imgT_congr {h w c : Nat} {f g : T} (e : ∀ i j k, i < h → j < w → k < c → f [0, i, j, k] = g [0, i, j, k]) : (imgT h w c f).Same (imgT h w c g) := by
  refine ⟨rfl, rfl, ?_⟩
  intro i j h1 h2 h3 h4
  simp only [imgT] at h2 h4 ⊢
  apply List.map_congr_left
  intro k hk
  rw [List.mem_range] at hk
  exact e _ _ _ (by omega) (by omega) hk

theorem of_same {h w c : Nat} {f g : T} (e : (imgT h w c f).Same (imgT h w c g)) {idx : List Nat} (hi : InShape [1, h, w, c] idx) : f idx = g idx := by
  obtain ⟨i, j, k, rfl, h1, h2, h3⟩ := inShape4 hi
  have := e.2.2 i j (by omega) (by simp [imgT]; omega) (by omega) (by simp [imgT]; omega)
  simp only [imgT, Int.toNat_natCast] at this
  exact List.map_eq_map_iff.1 this k (List.mem_range.2 h3)

/-- Tensors with equal images have equal bytes. -/
theorem bytes_of_same {h w c d : Nat} {D D' : List Byte} (hD : D.length = (ty4 h w c d).size) (hD' : D'.length = (ty4 h w c d).size)
    (e : (imgOf h w c d D).Same (imgOf h w c d D')) : D = D' := by
  rw [← bytesOf_elemAt _ _ hD, ← bytesOf_elemAt _ _ hD']
  exact bytesOf_congr fun idx hi => of_same e hi

theorem img_bytes {h w c d : Nat} {f : T} (hf : ∀ i, InShape [1, h, w, c] i → (f i).length = d) : (imgOf h w c d (bytesOf (ty4 h w c d) f)).Same (imgT h w c f) :=
  imgT_congr fun i j k h1 h2 h3 => elemAt_bytesOf (ty4 h w c d) f hf _ (inShape4_mk h1 h2 h3)

/-! ### The operators on rows -/

theorem img_slice (sem : Sem) (b n h w c d : Nat) (s : List Nat) (D : List Byte) :
    (imgOf n w c d (eval sem (.slice [0, b, 0, 0] s) (ty4 n w c d) [(ty4 h w c d, D)])).Same (sliceRows b n (imgOf h w c d D)) := by
  have e : eval sem (.slice [0, b, 0, 0] s) (ty4 n w c d) [(ty4 h w c d, D)] = bytesOf (ty4 n w c d) (sliceT [0, b, 0, 0] (elemAt (ty4 h w c d) D)) := rfl
  rw [e]
  refine (img_bytes (f := sliceT [0, b, 0, 0] (elemAt (ty4 h w c d) D)) fun i _ => length_elemAt _ _ _).trans ⟨rfl, rfl, ?_⟩
  intro i j h1 h2 h3 h4
  simp only [imgT, sliceRows, imgOf, sliceT, List.zipWith, Nat.zero_add]
  rw [show ((b : Int) + i).toNat = b + i.toNat by omega]

/-- Channels of a pad. -/
def chanT (z : List Byte) (cl c : Nat) (f : T) : T := fun idx => if cl ≤ idx.getD 3 0 ∧ idx.getD 3 0 < cl + c then f (idx.set 3 (idx.getD 3 0 - cl)) else z

theorem imgT_chan_slice (z : List Byte) (cl c b n h w c' : Nat) (f : T) :
    (imgT n w c' (chanT z cl c (sliceT [0, b, 0, 0] f))).Same (sliceRows b n (imgT h w c' (chanT z cl c f))) := by
  refine ⟨rfl, rfl, ?_⟩
  intro i j h1 h2 h3 h4
  simp only [imgT, sliceRows]
  apply List.map_congr_left
  intro k _
  simp only [chanT, sliceT]
  rw [show ((b : Int) + i).toNat = b + i.toNat by omega]
  simp

theorem img_pad (sem : Sem) (q8 : Bool) (zp : Int) (t bo l rr cl cr h w c d : Nat) (D : List Byte) :
    (imgOf (h + t + bo) (w + l + rr) (c + cl + cr) d
      (eval sem (.pad q8 zp [0, 0, t, bo, l, rr, cl, cr]) (ty4 (h + t + bo) (w + l + rr) (c + cl + cr) d) [(ty4 h w c d, D)])).Same
    (Image.pad (List.replicate (c + cl + cr) (List.replicate d (UInt8.ofInt zp))) t bo l rr
      (imgT h w (c + cl + cr) (chanT (List.replicate d (UInt8.ofInt zp)) cl c (elemAt (ty4 h w c d) D)))) := by
  obtain ⟨z, hz⟩ : ∃ z, z = List.replicate d (UInt8.ofInt zp) := ⟨_, rfl⟩
  have e : eval sem (.pad q8 zp [0, 0, t, bo, l, rr, cl, cr]) (ty4 (h + t + bo) (w + l + rr) (c + cl + cr) d) [(ty4 h w c d, D)] =
      bytesOf (ty4 (h + t + bo) (w + l + rr) (c + cl + cr) d) (padT z [0, t, l, cl] [1, h, w, c] (elemAt (ty4 h w c d) D)) := by rw [hz]; rfl
  rw [e, ← hz]
  refine (img_bytes fun i _ => length_padT (d := d) (by rw [hz]; simp) _ _ _ _ fun i => length_elemAt _ _ _).trans ⟨?_, ?_, ?_⟩
  · simp [imgT, Image.pad]
  · simp [imgT, Image.pad]
  · intro i j h1 h2 h3 h4
    have ee : ∀ k, padT z [0, t, l, cl] [1, h, w, c] (elemAt (ty4 h w c d) D) [0, i.toNat, j.toNat, k] =
        if t ≤ i.toNat ∧ i.toNat < t + h then
          if l ≤ j.toNat ∧ j.toNat < l + w then
            if cl ≤ k ∧ k < cl + c then elemAt (ty4 h w c d) D [0, i.toNat - t, j.toNat - l, k - cl] else z
          else z
        else z := by
      intro k
      simp only [padT]
      rfl
    obtain ⟨X, hX⟩ : ∃ X, X = imgT h w (c + cl + cr) (chanT z cl c (elemAt (ty4 h w c d) D)) := ⟨_, rfl⟩
    have hXh : X.h = h := by rw [hX]; rfl
    have hXw : X.w = w := by rw [hX]; rfl
    rw [← hX]
    show ((List.range (c + cl + cr)).map fun k => padT z [0, t, l, cl] [1, h, w, c] (elemAt (ty4 h w c d) D) [0, i.toNat, j.toNat, k]) =
      X.at (List.replicate (c + cl + cr) z) (i - t) (j - l)
    simp only [ee]
    unfold Img.at
    by_cases c1 : t ≤ i.toNat ∧ i.toNat < t + h
    · by_cases c2 : l ≤ j.toNat ∧ j.toNat < l + w
      · rw [if_pos (by omega)]
        rw [hX]
        simp only [imgT]
        apply List.map_congr_left
        intro k _
        rw [if_pos c1, if_pos c2]
        simp only [chanT]
        rw [show (i - (t : Int)).toNat = i.toNat - t by omega, show (j - (l : Int)).toNat = j.toNat - l by omega]
        simp
      · rw [if_neg (by omega)]
        simp only [if_pos c1, if_neg c2]
        simp
    · rw [if_neg (by omega)]
      simp only [if_neg c1]
      simp

theorem imgT_chan_id (z : List Byte) (h w c : Nat) (f : T) : (imgT h w (c + 0 + 0) (chanT z 0 c f)).Same (imgT h w c f) := by
  refine imgT_congr fun i j k _ _ hk => ?_
  simp only [chanT]
  rw [if_pos (by simpa using hk)]
  simp

/-! ### Windowed and binary operators -/

/-- A kernel's result cut to the channels and bytes of the result. -/
def norm (c d : Nat) (p : Px) : Px := (List.range c).map fun k => fit d (p.getD k [])

theorem bytes_pixels (t : Ty) (d : Nat) (hd : t.d = d) (x : Img Px) : bytesOf t (elemAt t (bytesOf t (pixels d x))) = bytesOf t (pixels d x) := by
  subst hd
  exact bytesOf_elemAt _ _ (length_bytesOf t (pixels t.d x) fun i => length_fit _ _)

theorem img_pixels (h w c d : Nat) (x : Img Px) (hh : x.h = h) (hw : x.w = w) :
    (imgOf h w c d (bytesOf (ty4 h w c d) (pixels d x))).Same ⟨h, w, fun i j => norm c d (x.px i j)⟩ := by
  refine (img_bytes fun i _ => length_fit _ _).trans ⟨rfl, rfl, ?_⟩
  intro i j h1 h2 h3 h4
  simp only [imgT, pixels, norm]
  apply List.map_congr_left
  intro k _
  simp only [List.getD_cons_zero, List.getD_cons_succ]
  rw [Int.toNat_of_nonneg h1, Int.toNat_of_nonneg h3]

variable {tb : Table} {F : Nat → Nat → Nat → List (List Byte) → (Int → Int → Px) → Px} {G : Nat → Px → Px → Px}

theorem WOp.Fits.ok {w : WOp} (h : w.Fits) : w.win.OK := by
  obtain ⟨⟨h1, h2, h3, h4, h5, h6⟩, -⟩ := h
  constructor <;> simp [WOp.win] <;> omega

theorem Windowed.norm (hF : Windowed F) (w : WOp) (rest : List (List Byte)) : WindowFn w.win (fun u => norm w.oc w.od (F w.id w.kh w.kw rest u)) := by
  intro u v h
  simp only
  rw [hF w.id w.kh w.kw rest u v h]

/-- The image that a windowed operator computes. -/
theorem img_win (hm : Meaning tb F G sem) {key : Nat} {w : WOp} (hl : tb.look key = some (.win w)) (hf : w.Fits) (D : List Byte) (hD : D.length = w.inp.size)
    (rest : List (Ty × List Byte)) :
    (imgOf w.oh w.ow w.oc w.od (eval sem (.other false key) w.out ((w.inp, D) :: rest))).Same
      (w.apply (fun u => norm w.oc w.od (F w.id w.kh w.kw (rest.map fun x => bytesOf x.1 (elemAt x.1 x.2)) u)) (imgOf w.ih w.iw w.ic w.idd D)) := by
  have e : eval sem (.other false key) w.out ((w.inp, D) :: rest) =
      bytesOf w.out (elemAt w.out (sem key (bytesOf w.inp (elemAt w.inp D) :: rest.map fun x => bytesOf x.1 (elemAt x.1 x.2)))) := by
    simp [eval, denote, List.map_map, Function.comp_def]
  rw [e, bytesOf_elemAt _ _ hD, hm.win key w hl hf D _ hD, bytes_pixels w.out w.od rfl]
  obtain ⟨-, -, -, h1, h2⟩ := hf
  refine (img_pixels w.oh w.ow w.oc w.od _ ?_ ?_).trans ⟨?_, ?_, ?_⟩
  · rw [h1]
    unfold WOp.apply
    split <;> rfl
  · rw [h2]
    unfold WOp.apply
    split <;> rfl
  · simp only
    rw [h1]
    unfold WOp.apply
    split <;> rfl
  · simp only
    rw [h2]
    unfold WOp.apply
    split <;> rfl
  · intro i j _ _ _ _
    simp only
    unfold WOp.apply
    split <;> rfl

theorem img_bin (hm : Meaning tb F G sem) {key : Nat} {o : BOp} (hl : tb.look key = some (.bin o)) (hf : o.Fits) (A B : List Byte) (hA : A.length = o.lhs.size)
    (hB : B.length = o.rhs.size) :
    (imgOf o.oh o.ow o.oc o.od (eval sem (.other false key) o.out [(o.lhs, A), (o.rhs, B)])).Same
      (ewise (fun p q => norm o.oc o.od (G o.id p q)) o.oh o.ow (imgOf o.ah o.aw o.ac o.ad A) (imgOf o.bh o.bw o.bc o.bd B)) := by
  have e : eval sem (.other false key) o.out [(o.lhs, A), (o.rhs, B)] =
      bytesOf o.out (elemAt o.out (sem key [bytesOf o.lhs (elemAt o.lhs A), bytesOf o.rhs (elemAt o.rhs B)])) := rfl
  rw [e, bytesOf_elemAt _ _ hA, bytesOf_elemAt _ _ hB, hm.bin key o hl hf A B hA hB, bytes_pixels o.out o.od rfl]
  exact (img_pixels o.oh o.ow o.oc o.od _ rfl rfl).trans ⟨rfl, rfl, fun _ _ _ _ _ _ => rfl⟩

end Verif.Net
