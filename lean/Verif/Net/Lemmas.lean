import Verif.Net.Model
/-! Lemmas for C83: each operator on its own. -/
namespace Verif.Net
open Verif.Tensor Verif.Move Verif.MemPlan

theorem length_fit (d : Nat) (l : List Byte) : (fit d l).length = d := by unfold fit; simp

theorem fit_eq {d : Nat} {l : List Byte} (h : l.length = d) : fit d l = l := by
  unfold fit
  rw [List.take_append_of_le_length (by omega), List.take_of_length_le (by omega)]

theorem length_elemAt (t : Ty) (data : List Byte) (idx : List Nat) : (elemAt t data idx).length = t.d := length_fit _ _

theorem length_bytesOf (t : Ty) (f : T) (hf : ∀ i, (f i).length = t.d) : (bytesOf t f).length = t.size := length_bytes t.shape f t.d hf

/-- Reading a buffer element by element gives the buffer. -/
theorem flatten_chunks (d : Nat) : ∀ (n : Nat) (l : List Byte), l.length = n * d →
    ((List.range n).map fun k => (l.drop (k * d)).take d).flatten = l
  | 0, l, h => by
    have : l = [] := List.length_eq_zero_iff.1 (by simpa using h)
    simp [this]
  | n + 1, l, h => by
    have e : (n + 1) * d = d + n * d := by rw [Nat.succ_mul, Nat.add_comm]
    rw [List.range_succ_eq_map, List.map_cons, List.map_map, List.flatten_cons]
    have ih := flatten_chunks d n (l.drop d) (by rw [List.length_drop]; omega)
    have e2 : ((List.range n).map ((fun k => (l.drop (k * d)).take d) ∘ Nat.succ)) = (List.range n).map fun k => ((l.drop d).drop (k * d)).take d := by
      apply List.map_congr_left
      intro k _
      simp only [Function.comp, List.drop_drop]
      rw [Nat.succ_mul, Nat.add_comm d]
    rw [e2, ih]
    simp

theorem ravel_flat (s : List Nat) : flat s (ravel s) = List.range s.prod := by
  apply List.ext_getElem
  · rw [length_flat]; simp
  · intro k h1 h2
    have hk : k < s.prod := by simpa using h2
    rw [List.getElem_range]
    have hi := unravel_inShape s k hk
    have hu : unravel s k = (flat s id)[k]'(by rw [length_flat]; exact hk) := by
      unfold unravel
      rw [List.getD_eq_getElem?_getD, List.getElem?_eq_getElem (by rw [length_flat]; exact hk)]
      rfl
    have h3 : (flat s (ravel s))[k] = ravel s (unravel s k) := by
      have := flat_map s id (ravel s)
      simp only [id] at this
      rw [hu]
      simp only [this, List.getElem_map]
    have h4 := flat_getElem s id (unravel s k) hi
    have hlt : ravel s (unravel s k) < (flat s id).length := by
      by_contra hc
      rw [List.getElem?_eq_none (by omega)] at h4
      cases h4
    rw [h3]
    -- positions of equal entries of a list without duplicates
    have hnd : (flat s id).Nodup := by
      clear h1 h2 hk hi hu h3 h4 hlt
      induction s with
      | nil => simp [flat]
      | cons n s ih =>
        rw [flat, List.nodup_flatMap]
        refine ⟨?_, ?_⟩
        · intro i _
          have := flat_map s id fun idx => i :: idx
          simp only [id] at this ⊢
          rw [this]
          exact ih.map fun a b h => by simpa using h
        · refine List.Pairwise.imp ?_ (List.nodup_range (n := n))
          intro a b hab
          rw [Function.onFun, List.disjoint_left]
          intro x hx hy
          obtain ⟨i1, _, e1⟩ := mem_flat hx
          obtain ⟨i2, _, e2⟩ := mem_flat hy
          have : a :: i1 = b :: i2 := by rw [← e2] at e1; exact e1
          exact hab (by injection this)
    have h5 : (flat s id)[ravel s (unravel s k)] = (flat s id)[k]'(by rw [length_flat]; exact hk) := by
      rw [List.getElem?_eq_getElem hlt] at h4
      have := Option.some.inj h4
      rw [this, ← hu]; rfl
    exact (hnd.getElem_inj_iff).1 h5

theorem bytesOf_elemAt (t : Ty) (data : List Byte) (h : data.length = t.size) : bytesOf t (elemAt t data) = data := by
  unfold bytesOf
  have e : flat t.shape (elemAt t data) = (List.range t.shape.prod).map fun k => (data.drop (k * t.d)).take t.d := by
    rw [← ravel_flat]
    refine (flat_map t.shape (ravel t.shape) (fun k => fit t.d ((data.drop (k * t.d)).take t.d))).trans ?_
    apply List.map_congr_left
    intro k hk
    rw [ravel_flat, List.mem_range] at hk
    apply fit_eq
    have : (k + 1) * t.d ≤ t.shape.prod * t.d := Nat.mul_le_mul_right _ hk
    unfold Ty.size at h
    rw [List.length_take, List.length_drop, h]
    rw [Nat.succ_mul] at this
    omega
  rw [e]
  exact flatten_chunks t.d _ data h


theorem inShape_append {s : List Nat} : ∀ {idx : List Nat}, InShape s idx → idx.length = s.length := fun h => length_inShape h

theorem ravel_lt : ∀ (s idx : List Nat), InShape s idx → ravel s idx < s.prod
  | [], [], _ => by simp [ravel]
  | n :: s, i :: idx, h => by
    have h1 := ravel_lt s idx h.2
    have h2 : i + 1 ≤ n := h.1
    have h3 : (i + 1) * s.prod ≤ n * s.prod := Nat.mul_le_mul_right _ h2
    rw [Nat.succ_mul] at h3
    simp only [ravel, List.prod_cons]
    omega
  | [], _ :: _, h => h.elim
  | _ :: _, [], h => h.elim

/-- An element of the row-major bytes. -/
theorem elemAt_bytesOf (t : Ty) (f : T) (hf : ∀ i, InShape t.shape i → (f i).length = t.d) (idx : List Nat) (h : InShape t.shape idx) :
    elemAt t (bytesOf t f) idx = f idx := by
  have hg := flat_getElem t.shape f idx h
  have hlt := ravel_lt _ _ h
  have hall : ∀ e ∈ flat t.shape f, e.length = t.d := by
    intro e he
    obtain ⟨i, hi, rfl⟩ := mem_flat he
    exact hf i hi
  have key : ∀ (l : List (List Byte)) (k : Nat) (e : List Byte), (∀ x ∈ l, x.length = t.d) → l[k]? = some e →
      (l.flatten.drop (k * t.d)).take t.d = e := by
    intro l
    induction l with
    | nil => intro k e _ h; simp at h
    | cons x l ih =>
      intro k e hx hk
      have hxl := hx x (by simp)
      cases k with
      | zero =>
        simp only [List.getElem?_cons_zero, Option.some.injEq] at hk
        subst hk
        rw [List.flatten_cons, Nat.zero_mul, List.drop_zero, List.take_append_of_le_length (by omega), List.take_of_length_le (by omega)]
      | succ k =>
        simp only [List.getElem?_cons_succ] at hk
        have := ih k e (fun y hy => hx y (by simp [hy])) hk
        rw [List.flatten_cons, show (k + 1) * t.d = x.length + k * t.d by rw [hxl, Nat.succ_mul, Nat.add_comm], ← List.drop_drop,
          List.drop_left]
        exact this
  unfold elemAt bytesOf
  rw [key _ _ _ hall hg]
  exact fit_eq (hf idx h)

theorem bytesOf_congr {t : Ty} {f g : T} (h : ∀ idx, InShape t.shape idx → f idx = g idx) : bytesOf t f = bytesOf t g := by
  unfold bytesOf; rw [flat_congr h]

theorem length_bytesOf' (t : Ty) (f : T) (hf : ∀ i, InShape t.shape i → (f i).length = t.d) : (bytesOf t f).length = t.size := by
  unfold bytesOf Ty.size
  rw [length_flatten_const (d := t.d) (by intro e he; obtain ⟨i, hi, rfl⟩ := mem_flat he; exact hf i hi), length_flat]

theorem length_padT {z : List Byte} {d : Nat} (hz : z.length = d) : ∀ (s n : List Nat) (f : T) (idx : List Nat), (∀ i, (f i).length = d) →
    (padT z s n f idx).length = d
  | s :: ss, n :: ns, f, i :: idx, hf => by
    unfold padT
    split
    · exact length_padT hz ss ns _ idx fun j => hf _
    · exact hz
  | [], _, f, _, hf => by simp [padT, hf]
  | _ :: _, [], f, _, hf => by simp [padT, hf]
  | _ :: _, _ :: _, f, [], hf => by simp [padT, hf]

/-! ### Slices, pads and broadcasts on their own -/

theorem slice_value (d : Nat) (a ty : Ty) (ha : a.d = d) (hty : ty.d = d) (b s : List Nat) (hfit : SliceFits a.shape ty.shape b)
    (hs : s.length = a.shape.length) (hpos : ∀ n ∈ a.shape, 0 < n) (D : List Byte) (hD : D.length = a.size) :
    match lowerSlice d (zipAxes a.shape ty.shape b s) with
    | .noop => bytesOf ty (sliceT b (elemAt a D)) = D
    | .op p => sliceKernel p.start p.offset p.size p.numCopies D = bytesOf ty (sliceT b (elemAt a D))
    | _ => True := by
  have h := C20_lowered_slice d a.shape ty.shape b s hfit hs hpos (elemAt a D) (fun i => by rw [length_elemAt, ha])
  have hm : (flat a.shape (elemAt a D)).flatten = D := bytesOf_elemAt a D hD
  simp only [hm] at h
  revert h
  cases lowerSlice d (zipAxes a.shape ty.shape b s) with
  | noop => exact id
  | op p => exact fun h => h.1
  | _ => exact fun _ => trivial

theorem ofNat_lane (zp : Int) : UInt8.ofNat (zp % 256).toNat = UInt8.ofInt zp := by
  rfl

theorem pad_value (a ty : Ty) (hty : a.d = ty.d) (zp : Int) (p : List Nat) (hfit : PadFits a.shape ty.shape (evens p) (odds p))
    (hpos : ∀ n ∈ a.shape, 0 < n) (D : List Byte) (hD : D.length = a.size) :
    match lowerPad a.d zp a.shape ty.shape p with
    | .noop => bytesOf ty (padT (List.replicate a.d (UInt8.ofInt zp)) (evens p) a.shape (elemAt a D)) = D
    | .op q => padKernel (UInt8.ofNat (lane q.zeroPoint 0)) q.start q.padSize q.size q.numCopies q.end_ D =
        bytesOf ty (padT (List.replicate a.d (UInt8.ofInt zp)) (evens p) a.shape (elemAt a D))
    | _ => True := by
  have h := lowered_pad (UInt8.ofInt zp) a.d zp a.shape ty.shape p hfit hpos (elemAt a D) (fun i => length_elemAt a D i)
  have hm : (flat a.shape (elemAt a D)).flatten = D := bytesOf_elemAt a D hD
  simp only [hm] at h
  revert h
  cases lowerPad a.d zp a.shape ty.shape p with
  | noop => exact id
  | op q =>
    intro h
    show _ = _
    rw [h.2.1, broadcast_lanes zp 0 (by omega), ofNat_lane]
    exact h.1
  | _ => exact fun _ => trivial

theorem padT_singleton {α : Type} (z : α) : ∀ (s n : List Nat) (x : List Nat → α) (idx : List Nat),
    padT [z] s n (fun i => [x i]) idx = [padT z s n x idx]
  | s :: ss, n :: ns, x, i :: idx => by
    unfold padT
    split
    · exact padT_singleton z ss ns (fun r => x ((i - s) :: r)) idx
    · rfl
  | [], _, x, _ => by simp [padT]
  | _ :: _, [], x, _ => by simp [padT]
  | _ :: _, _ :: _, x, [] => by simp [padT]

theorem flatten_flat_singleton {α : Type} (s : List Nat) (x : List Nat → α) : (flat s fun i => [x i]).flatten = flat s x := by
  have := flat_map s x fun a => [a]
  rw [this]
  induction flat s x with
  | nil => rfl
  | cons a l ih => simp [ih]

theorem padFits_length : ∀ (i o s e : List Nat), PadFits i o s e → i.length = s.length ∧ o.length = s.length
  | [], [], [], [], _ => ⟨rfl, rfl⟩
  | _ :: i, _ :: o, _ :: s, _ :: e, h => by
    have := padFits_length i o s e h.2
    simp [this.1, this.2]

theorem pad34_value (a ty : Ty) (h1 : a.d = 1) (h2 : ty.d = 1) (zp : Int) (p : List Nat) (hfit : PadFits a.shape ty.shape (evens p) (odds p))
    (h6 : p.length = 8 → p.getD 6 0 = 0 ∨ a.shape.getD 3 0 ≠ 3) (v : BitVec 32) (hv : XC.pad3To4 a.shape ty.shape p zp = some v)
    (D : List Byte) (hD : D.length = a.size) :
    XC.pad34Kernel (UInt8.ofBitVec (v.extractLsb' 0 8)) D =
      bytesOf ty (padT (List.replicate a.d (UInt8.ofInt zp)) (evens p) a.shape (elemAt a D)) := by
  unfold XC.pad3To4 at hv
  by_cases hc : (TFL.hasOnlyChannelPadding p && (a.shape.getD 3 0 == 3 && ty.shape.getD 3 0 == 4)) = true
  swap
  · rw [if_neg hc] at hv; cases hv
  rw [if_pos hc] at hv
  have hv := Option.some.inj hv
  subst hv
  rw [show (XC.padValue zp true).extractLsb' 0 8 = BitVec.ofInt 8 zp from XC.C50_pad_value zp 0 (by omega)]
  simp only [Bool.and_eq_true, beq_iff_eq] at hc
  obtain ⟨hp, h3, h4⟩ := hc
  have hl : p.length = 8 := by
    unfold TFL.hasOnlyChannelPadding at hp
    by_contra hl
    rw [if_pos hl] at hp
    cases hp
  have h60 : p.getD 6 0 = 0 := (h6 hl).resolve_right (fun h => h h3)
  match p, hl with
  | [p0, p1, p2, p3, p4, p5, p6, p7], _ =>
    simp [TFL.hasOnlyChannelPadding] at hp
    obtain ⟨⟨⟨⟨⟨e0, e1⟩, e2⟩, e3⟩, e4⟩, e5⟩ := hp
    simp at h60
    subst e0 e1 e2 e3 e4 e5 h60
    obtain ⟨sh, d⟩ := a
    obtain ⟨sh', d'⟩ := ty
    simp only at *
    subst h1 h2
    have hlen := padFits_length _ _ _ _ hfit
    match sh, sh', hfit, hlen.1, hlen.2 with
    | [n, h, w, c], [n', h', w', c'], hfit, _, _ =>
      simp [PadFits, evens, odds] at hfit
      obtain ⟨en, eh, ew, ec⟩ := hfit
      simp at h3 h4
      subst en eh ew h3 h4
      have hx : ∀ i, elemAt ⟨[n', h', w', 3], 1⟩ D i = [(elemAt ⟨[n', h', w', 3], 1⟩ D i).headD 0] := by
        intro i
        have := length_elemAt ⟨[n', h', w', 3], 1⟩ D i
        match elemAt ⟨[n', h', w', 3], 1⟩ D i, this with
        | [x], _ => rfl
      have hDx : flat [n', h', w', 3] (fun i => (elemAt ⟨[n', h', w', 3], 1⟩ D i).headD 0) = D := by
        rw [← flatten_flat_singleton]
        have := bytesOf_elemAt ⟨[n', h', w', 3], 1⟩ D hD
        unfold bytesOf at this
        rw [show elemAt ⟨[n', h', w', 3], 1⟩ D = fun i => [(elemAt ⟨[n', h', w', 3], 1⟩ D i).headD 0] from funext hx] at this
        exact this
      have hk := XC.flat_pad34 (UInt8.ofBitVec (BitVec.ofInt 8 zp)) [n', h', w'] (fun i => (elemAt ⟨[n', h', w', 3], 1⟩ D i).headD 0) []
      rw [List.append_nil] at hk
      have hk' : XC.pad34Kernel (UInt8.ofBitVec (BitVec.ofInt 8 zp)) (flat [n', h', w', 3] (fun i => (elemAt ⟨[n', h', w', 3], 1⟩ D i).headD 0)) = _ := hk
      rw [hDx] at hk'
      rw [hk']
      have hz : UInt8.ofBitVec (BitVec.ofInt 8 zp) = UInt8.ofInt zp := by
        apply UInt8.eq_of_toBitVec_eq
        apply BitVec.eq_of_toNat_eq
        simp [UInt8.ofInt, BitVec.toNat_ofInt]
        omega
      unfold bytesOf
      rw [show elemAt ⟨[n', h', w', 3], 1⟩ D = fun i => [(elemAt ⟨[n', h', w', 3], 1⟩ D i).headD 0] from funext hx]
      simp only [List.replicate_one]
      rw [show (padT [UInt8.ofInt zp] (evens [0, 0, 0, 0, 0, 0, 0, p7]) [n', h', w', 3] fun i => [(elemAt ⟨[n', h', w', 3], 1⟩ D i).headD 0]) =
        fun idx => [padT (UInt8.ofInt zp) (evens [0, 0, 0, 0, 0, 0, 0, p7]) [n', h', w', 3] (fun i => (elemAt ⟨[n', h', w', 3], 1⟩ D i).headD 0) idx] from
        funext fun idx => padT_singleton _ _ _ _ _, flatten_flat_singleton, hz]
      simp [XC.pad34Kernel, evens]

theorem broadcast_value (a ty : Ty) (hr : a.shape.length ≤ ty.shape.length) (D : List Byte) (hD : D.length = a.size) :
    match lowerBroadcast a.d a.shape ty.shape with
    | .noop => bytesOf ty (broadcastT a.shape (elemAt a D)) = D
    | .op p => broadcastKernel p.size p.numCopies p.numBroadcasts D = bytesOf ty (broadcastT a.shape (elemAt a D))
    | _ => True := by
  have h := C22_lowered_broadcast a.d a.shape ty.shape hr (elemAt a D) (fun i => length_elemAt a D i)
  have hm : (flat a.shape (elemAt a D)).flatten = D := bytesOf_elemAt a D hD
  simp only [hm] at h
  revert h
  cases lowerBroadcast a.d a.shape ty.shape with
  | noop => exact id
  | op p => exact fun h => h.1
  | _ => exact fun _ => trivial

end Verif.Net
