import Verif.Net.Lemmas2
/-! C83: running the emitted operators, one after the other, each result in its own memory. -/
namespace Verif.Net
open Verif.Tensor Verif.Move Verif.MemPlan

/-- All values of the compiled function. -/
def runOps (sem : Sem) : List DOp → List (List Byte) → List (List Byte)
  | [], vs => vs
  | o :: os, vs => runOps sem os (vs ++ [fit o.ty.size (o.kind.run sem o.ty (o.args.map fun a => vs.getD a []))])

theorem runOps_append (sem : Sem) : ∀ (l1 l2 : List DOp) (vs : List (List Byte)), runOps sem (l1 ++ l2) vs = runOps sem l2 (runOps sem l1 vs)
  | [], _, _ => rfl
  | o :: l1, l2, vs => by rw [List.cons_append, runOps, runOps, runOps_append sem l1 l2]

theorem length_runOps (sem : Sem) : ∀ (l : List DOp) (vs : List (List Byte)), (runOps sem l vs).length = vs.length + l.length
  | [], vs => rfl
  | o :: l, vs => by rw [runOps, length_runOps sem l]; simp; omega

theorem runOps_old (sem : Sem) : ∀ (l : List DOp) (vs : List (List Byte)) (v : Nat), v < vs.length → (runOps sem l vs).getD v [] = vs.getD v []
  | [], _, _, _ => rfl
  | o :: l, vs, v, h => by
    rw [runOps, runOps_old sem l _ v (by simp; omega)]
    simp [List.getElem?_append_left h]

theorem length_value (sem : Sem) (l : List DOp) (vs : List (List Byte)) (i : Nat) (p : DOp) (h : l[i]? = some p) :
    ((runOps sem l vs).getD (vs.length + i) []).length = p.ty.size := by
  induction l generalizing vs i with
  | nil => simp at h
  | cons o l ih =>
    rw [runOps]
    cases i with
    | zero =>
      simp only [List.getElem?_cons_zero, Option.some.injEq] at h
      subst h
      rw [runOps_old _ _ _ _ (by simp)]
      simp [length_fit]
    | succ i =>
      have := ih (vs ++ [fit o.ty.size (o.kind.run sem o.ty (o.args.map fun a => vs.getD a []))]) i (by simpa using h)
      rw [← this]
      congr 2
      simp
      omega

/-- Well-formed emitted code: operators read earlier values, constants read nothing, and an in-place operator is at least as large as each
operand that is made by an in-place operator. -/
def Good (o : Out) : Prop :=
  ∀ j d, o.ops[j]? = some d → (∀ a ∈ d.args, a < o.n0 + j) ∧ (d.kind.isConst = true → d.args = []) ∧
    (d.kind.inPlace = true → ∀ i p, o.n0 + i ∈ d.args → o.ops[i]? = some p → p.kind.inPlace = true → p.ty.size ≤ d.ty.size)

/-- `r` extends `o`, is well formed, and its value is `bytes`. -/
structure Step (sem : Sem) (ins : List (List Byte)) (o : Out) (r : Out × Nat) (bytes : List Byte) : Prop where
  ext : ∃ extra, r.1 = ⟨o.n0, o.ops ++ extra⟩
  good : Good r.1
  bound : r.2 < r.1.n0 + r.1.ops.length
  value : (runOps sem r.1.ops ins).getD r.2 [] = bytes

/-- An operand of the code emitted so far. -/
structure Holds (sem : Sem) (ins : List (List Byte)) (o : Out) (a : Nat) (bytes : List Byte) : Prop where
  bound : a < o.n0 + o.ops.length
  value : (runOps sem o.ops ins).getD a [] = bytes

theorem Holds.mono {sem : Sem} {ins : List (List Byte)} {o o' : Out} {a : Nat} {bytes : List Byte} (hn : ins.length = o.n0)
    (he : ∃ extra, o' = ⟨o.n0, o.ops ++ extra⟩) (h : Holds sem ins o a bytes) : Holds sem ins o' a bytes := by
  obtain ⟨extra, rfl⟩ := he
  refine ⟨?_, ?_⟩
  · have := h.bound
    simp only [List.length_append]
    omega
  · simp only
    rw [runOps_append, runOps_old _ _ _ _ (by rw [length_runOps]; have := h.bound; omega)]
    exact h.value

theorem Step.holds {sem : Sem} {ins : List (List Byte)} {o : Out} {r : Out × Nat} {bytes : List Byte} (h : Step sem ins o r bytes) :
    Holds sem ins r.1 r.2 bytes := ⟨h.bound, h.value⟩

theorem Step.trans {sem : Sem} {ins : List (List Byte)} {o : Out} {r r' : Out × Nat} {x y : List Byte} (h : Step sem ins o r x) (h' : Step sem ins r.1 r' y) :
    Step sem ins o r' y := by
  obtain ⟨e1, h1⟩ := h.ext
  obtain ⟨e2, h2⟩ := h'.ext
  refine ⟨⟨e1 ++ e2, ?_⟩, h'.good, h'.bound, h'.value⟩
  rw [h2, h1]
  simp

theorem step_same {sem : Sem} {ins : List (List Byte)} {o : Out} (hg : Good o) {a : Nat} {bytes : List Byte} (h : Holds sem ins o a bytes) :
    Step sem ins o (o, a) bytes := ⟨⟨[], by simp⟩, hg, h.bound, h.value⟩

theorem emit_step {sem : Sem} {ins : List (List Byte)} {o : Out} (hg : Good o) (hn : ins.length = o.n0) (d : DOp) {bytes : List Byte}
    (hargs : ∀ a ∈ d.args, a < o.n0 + o.ops.length) (hc : d.kind.isConst = true → d.args = [])
    (hip : d.kind.inPlace = true → ∀ i p, o.n0 + i ∈ d.args → o.ops[i]? = some p → p.kind.inPlace = true → p.ty.size ≤ d.ty.size)
    (hv : fit d.ty.size (d.kind.run sem d.ty (d.args.map fun a => (runOps sem o.ops ins).getD a [])) = bytes) :
    Step sem ins o (o.emit d) bytes := by
  refine ⟨⟨[d], rfl⟩, ?_, ?_, ?_⟩
  · intro j d' hj
    have hlt : j < o.ops.length + 1 := by
      by_contra hc
      simp only [Out.emit] at hj
      rw [List.getElem?_eq_none (by simp; omega)] at hj
      cases hj
    simp only [Out.emit] at hj ⊢
    rcases Nat.lt_or_ge j o.ops.length with hl | hl
    · rw [List.getElem?_append_left hl] at hj
      obtain ⟨h1, h2, h3⟩ := hg j d' hj
      refine ⟨h1, h2, fun h i p hi hp hpi => h3 h i p hi ?_ hpi⟩
      have := h1 _ hi
      rwa [List.getElem?_append_left (by omega)] at hp
    · have : j = o.ops.length := by omega
      subst this
      simp only [List.getElem?_concat_length, Option.some.injEq] at hj
      subst hj
      refine ⟨hargs, hc, fun h i p hi hp hpi => hip h i p hi ?_ hpi⟩
      have := hargs _ hi
      rwa [List.getElem?_append_left (by omega)] at hp
  · simp [Out.emit]
  · simp only [Out.emit]
    rw [runOps_append]
    have hl : (runOps sem o.ops ins).length = o.n0 + o.ops.length := by rw [length_runOps, hn]
    simp only [runOps]
    rw [← hl]
    simpa using hv

/-- An operator whose operands hold the given bytes. -/
theorem emit_holds {sem : Sem} {ins : List (List Byte)} {o : Out} (hg : Good o) (hn : ins.length = o.n0) (k : DKind) (ty : Ty)
    (zs : List (Val × List Byte)) (hh : ∀ z ∈ zs, Holds sem ins o z.1.dev z.2) {bytes : List Byte} (hc : k.isConst = true → zs = [])
    (hip : k.inPlace = true → ∀ i p, o.n0 + i ∈ zs.map (·.1.dev) → o.ops[i]? = some p → p.kind.inPlace = true → p.ty.size ≤ ty.size)
    (hv : k.run sem ty (zs.map (·.2)) = bytes) (hl : bytes.length = ty.size) : Step sem ins o (o.emit ⟨k, zs.map (·.1.dev), ty⟩) bytes := by
  apply emit_step hg hn
  · intro a ha
    obtain ⟨z, hz, rfl⟩ := List.mem_map.1 ha
    exact (hh z hz).bound
  · intro h
    simp [hc h]
  · exact hip
  · have : ((zs.map (·.1.dev)).map fun a => (runOps sem o.ops ins).getD a []) = zs.map (·.2) := by
      rw [List.map_map]
      apply List.map_congr_left
      intro z hz
      exact (hh z hz).value
    show fit ty.size (k.run sem ty ((zs.map (·.1.dev)).map fun a => (runOps sem o.ops ins).getD a [])) = bytes
    rw [this, hv]
    exact fit_eq hl

/-! ### Each operator -/

/-- An operand as its typed bytes. -/
def src (z : Val × List Byte) : Ty × List Byte := (z.1.ty, z.2)

/-- A TensorFlow Lite operator that stays. -/
theorem tfl_step {sem : Sem} {ins : List (List Byte)} {o : Out} (hg : Good o) (hn : ins.length = o.n0) (k : Kind) (ty : Ty)
    (zs : List (Val × List Byte)) (hh : ∀ z ∈ zs, Holds sem ins o z.1.dev z.2)
    (hip : ∀ b n, k = .other b n → b = true → ∀ i p, o.n0 + i ∈ zs.map (·.1.dev) → o.ops[i]? = some p → p.kind.inPlace = true → p.ty.size ≤ ty.size)
    (hl : (eval sem k ty (zs.map src)).length = ty.size) :
    Step sem ins o (o.emit ⟨.tfl k (zs.map (·.1.ty)), zs.map (·.1.dev), ty⟩) (eval sem k ty (zs.map src)) := by
  apply emit_holds hg hn _ _ _ hh
  · intro h; simp [DKind.isConst] at h
  · intro h
    cases k with
    | other b n => exact hip b n rfl (by simpa [DKind.inPlace] using h)
    | _ => simp [DKind.inPlace] at h
  · show eval sem k ty ((zs.map (·.1.ty)).zip (zs.map (·.2))) = _
    rw [List.zip_map']
    rfl
  · exact hl

/-- The number of bytes of a value made by an emitted operator. -/
theorem made_size {sem : Sem} {ins : List (List Byte)} {o : Out} (hn : ins.length = o.n0) {i : Nat} {p : DOp} {D : List Byte}
    (hp : o.ops[i]? = some p) (h : Holds sem ins o (o.n0 + i) D) : p.ty.size = D.length := by
  rw [← h.value, ← hn]
  exact (length_value sem o.ops ins i p hp).symm

theorem slice_step {sem : Sem} {ins : List (List Byte)} {o : Out} (hg : Good o) (hn : ins.length = o.n0) (skip : Bool) (a : Val) (D : List Byte)
    (hh : Holds sem ins o a.dev D) (hD : D.length = a.ty.size) (ty : Ty) (b s : List Nat) (hd : a.ty.d = ty.d)
    (hfit : SliceFits a.ty.shape ty.shape b) (hs : s.length = a.ty.shape.length) (hpos : ∀ n ∈ a.ty.shape, 0 < n) :
    Step sem ins o (compileSlice skip o a ty b s) (bytesOf ty (sliceT b (elemAt a.ty D))) := by
  have hv := slice_value a.ty.d a.ty ty rfl hd.symm b s hfit hs hpos D hD
  have hl : (bytesOf ty (sliceT b (elemAt a.ty D))).length = ty.size :=
    length_bytesOf _ _ fun i => by rw [sliceT, length_elemAt, hd]
  have ht : Step sem ins o (o.emit ⟨.tfl (.slice b s) [a.ty], [a.dev], ty⟩) (bytesOf ty (sliceT b (elemAt a.ty D))) :=
    tfl_step hg hn (.slice b s) ty [(a, D)] (by simpa using hh) (by intro _ _ h; cases h) hl
  unfold compileSlice
  cases h : lowerSlice a.ty.d (zipAxes a.ty.shape ty.shape b s) with
  | noop =>
    simp only [h] at hv ⊢
    rw [hv]
    exact step_same hg hh
  | op p =>
    simp only [h] at hv ⊢
    cases skip with
    | true => exact ht
    | false => exact emit_holds hg hn (.xcSlice p) ty [(a, D)] (by simpa using hh) (by intro h; cases h) (by intro h; cases h) hv hl
  | fail => exact ht
  | undef => exact ht

theorem pad_step {sem : Sem} {ins : List (List Byte)} {o : Out} (hg : Good o) (hn : ins.length = o.n0) (skip : Bool) (a : Val) (D : List Byte)
    (hh : Holds sem ins o a.dev D) (hD : D.length = a.ty.size) (ty : Ty) (q8 : Bool) (zp : Int) (p : List Nat) (hd : a.ty.d = ty.d)
    (hfit : PadFits a.ty.shape ty.shape (evens p) (odds p)) (hpos : ∀ n ∈ a.ty.shape, 0 < n)
    (hq : q8 = true → a.ty.d = 1 ∧ (p.length = 8 → p.getD 6 0 = 0 ∨ a.ty.shape.getD 3 0 ≠ 3)) :
    Step sem ins o (compilePad skip o a ty q8 zp p) (bytesOf ty (padT (List.replicate a.ty.d (UInt8.ofInt zp)) (evens p) a.ty.shape (elemAt a.ty D))) := by
  have hv := pad_value a.ty ty hd zp p hfit hpos D hD
  generalize hX : bytesOf ty (padT (List.replicate a.ty.d (UInt8.ofInt zp)) (evens p) a.ty.shape (elemAt a.ty D)) = X at hv ⊢
  have hl : X.length = ty.size := by
    rw [← hX]
    exact length_bytesOf _ _ fun i => by rw [length_padT (d := a.ty.d) (by simp) _ _ _ _ fun i => length_elemAt _ _ _, hd]
  have hsize : D.length ≤ ty.size := by
    rw [hD]
    unfold Ty.size
    rw [hd]
    apply Nat.mul_le_mul_right
    clear hv hX hD hh hpos hq
    have : ∀ (i o s e : List Nat), PadFits i o s e → i.prod ≤ o.prod := by
      intro i
      induction i with
      | nil => intro o s e h; cases o <;> simp_all [PadFits]
      | cons n i ih =>
        intro o s e h
        match o, s, e, h with
        | m :: o, _ :: s, _ :: e, h =>
          rw [List.prod_cons, List.prod_cons]
          exact Nat.mul_le_mul (by have := h.1; omega) (ih _ _ _ h.2)
    exact this _ _ _ _ hfit
  have hin : ∀ i q, o.n0 + i ∈ [a.dev] → o.ops[i]? = some q → q.kind.inPlace = true → q.ty.size ≤ ty.size := by
    intro i q hi hq' _
    rw [List.mem_singleton] at hi
    rw [made_size hn hq' (by rw [hi]; exact hh)]
    exact hsize
  have ht : Step sem ins o (o.emit ⟨.tfl (.pad q8 zp p) [a.ty], [a.dev], ty⟩) X := by
    have he : eval sem (.pad q8 zp p) ty ([(a, D)].map src) = X := hX
    have := tfl_step hg hn (.pad q8 zp p) ty [(a, D)] (by simpa using hh) (by intro _ _ h; cases h) (by rw [he]; exact hl)
    rw [he] at this
    exact this
  have hrest : Step sem ins o (match (if q8 then XC.pad3To4 a.ty.shape ty.shape p zp else none) with
    | some v => o.emit ⟨.xcPad34 v, [a.dev], ty⟩
    | none => o.emit ⟨.tfl (.pad q8 zp p) [a.ty], [a.dev], ty⟩) X := by
    cases hc : (if q8 then XC.pad3To4 a.ty.shape ty.shape p zp else none) with
    | none => exact ht
    | some v =>
      have hq8 : q8 = true := by
        cases q8
        · simp at hc
        · rfl
      rw [hq8, if_pos rfl] at hc
      obtain ⟨h1, h6⟩ := hq hq8
      have := pad34_value a.ty ty h1 (by omega) zp p hfit h6 v hc D hD
      rw [hX] at this
      exact emit_holds hg hn (.xcPad34 v) ty [(a, D)] (by simpa using hh) (by intro h; cases h) (fun _ => hin) this hl
  unfold compilePad
  cases h : lowerPad a.ty.d zp a.ty.shape ty.shape p with
  | noop =>
    simp only [h] at hv ⊢
    rw [hv]
    exact step_same hg hh
  | op q =>
    simp only [h] at hv ⊢
    cases skip with
    | true => exact hrest
    | false => exact emit_holds hg hn (.xcPad q) ty [(a, D)] (by simpa using hh) (by intro h; cases h) (fun _ => hin) hv hl
  | fail => exact hrest
  | undef => exact hrest

theorem broadcast_step {sem : Sem} {ins : List (List Byte)} {o : Out} (hg : Good o) (hn : ins.length = o.n0) (skip : Bool) (a : Val) (D : List Byte)
    (hh : Holds sem ins o a.dev D) (hD : D.length = a.ty.size) (ty : Ty) (hd : a.ty.d = ty.d) (hr : a.ty.shape.length ≤ ty.shape.length) :
    Step sem ins o (compileBroadcast skip o a ty) (bytesOf ty (broadcastT a.ty.shape (elemAt a.ty D))) := by
  have hv := broadcast_value a.ty ty hr D hD
  have hl : (bytesOf ty (broadcastT a.ty.shape (elemAt a.ty D))).length = ty.size :=
    length_bytesOf _ _ fun i => by rw [broadcastT, length_elemAt, hd]
  have ht : Step sem ins o (o.emit ⟨.tfl .broadcast [a.ty], [a.dev], ty⟩) (bytesOf ty (broadcastT a.ty.shape (elemAt a.ty D))) :=
    tfl_step hg hn .broadcast ty [(a, D)] (by simpa using hh) (by intro _ _ h; cases h) hl
  unfold compileBroadcast
  cases h : lowerBroadcast a.ty.d a.ty.shape ty.shape with
  | noop =>
    simp only [h] at hv ⊢
    rw [hv]
    exact step_same hg hh
  | op p =>
    simp only [h] at hv ⊢
    cases skip with
    | true => exact ht
    | false => exact emit_holds hg hn (.xcBroadcast p) ty [(a, D)] (by simpa using hh) (by intro h; cases h) (by intro h; cases h) hv hl
  | fail => exact ht
  | undef => exact ht

theorem emitConcat_step {sem : Sem} {ins : List (List Byte)} {o : Out} (hg : Good o) (hn : ins.length = o.n0) (zs : List (Val × List Byte))
    (hh : ∀ z ∈ zs, Holds sem ins o z.1.dev z.2) (hD : ∀ z ∈ zs, z.2.length = z.1.ty.size) (ty : Ty) (axis : Int) (pre post : List Nat)
    (hc : ConcatFits pre post ty.d (zs.map (·.1.ty)) ty) (hax : axis = pre.length ∨ axis = (pre.length : Int) - (pre.length + 1 + post.length))
    (hlen : zs.length ≤ 13) :
    Step sem ins o (emitConcat o (zs.map (·.1)) ty axis) (eval sem (.concat axis) ty (zs.map src)) := by
  have hc' : ConcatFits pre post ty.d ((zs.map src).map (·.1)) ty := by rw [List.map_map]; exact hc
  obtain ⟨e1, e2⟩ := eval_concat sem pre post ty.d ty (zs.map src) axis hc' hax
  have hl : (eval sem (.concat axis) ty (zs.map src)).length = ty.size := by rw [e1]; exact length_bytesOf' _ _ e2
  obtain ⟨p, h1, h2⟩ := concat_value sem pre post ty (zs.map src) axis hc' hax (by simpa using hlen) (by
    intro z hz
    obtain ⟨y, hy, rfl⟩ := List.mem_map.1 hz
    exact hD y hy)
  unfold emitConcat
  have hs : ((zs.map (·.1)).map (·.ty.shape)) = (zs.map src).map (·.1.shape) := by simp [src, List.map_map, Function.comp_def]
  rw [hs, h1]
  simp only [List.map_map]
  apply emit_holds hg hn (.xcConcat p) ty zs hh (by intro h; cases h) (by intro h; cases h) _ hl
  rw [← h2, List.map_map]
  rfl

theorem concat_step {sem : Sem} {ins : List (List Byte)} (axis : Int) (pre post : List Nat)
    (ty : Ty) : ∀ (n : Nat) (o : Out) (zs : List (Val × List Byte)), zs.length = n → Good o → ins.length = o.n0 →
    (∀ z ∈ zs, Holds sem ins o z.1.dev z.2) → (∀ z ∈ zs, z.2.length = z.1.ty.size) →
    ConcatFits pre post ty.d (zs.map (·.1.ty)) ty →
    (axis = pre.length ∨ axis = (pre.length : Int) - (pre.length + 1 + post.length) ∧ (zs.length ≤ 13 ∨ axis = -1)) →
    Step sem ins o (compileConcat o (zs.map (·.1)) ty axis) (eval sem (.concat axis) ty (zs.map src)) := by
  intro n
  induction n using Nat.strong_induction_on with
  | _ n ih =>
    intro o zs hzn hg hn hh hD hc hax
    have hax' : axis = pre.length ∨ axis = (pre.length : Int) - (pre.length + 1 + post.length) := hax.imp id And.left
    rw [compileConcat]
    by_cases hle : zs.length ≤ 13
    · rw [if_pos (by simpa [concatMax] using hle)]
      exact emitConcat_step hg hn zs hh hD ty axis pre post hc hax' hle
    rw [if_neg (by simpa [concatMax] using hle)]
    have hrank : ty.shape.length = pre.length + 1 + post.length := by
      rw [hc.2]; simp; omega
    have hsa : splitConcatAxis ty.shape.length axis = pre.length := by
      unfold splitConcatAxis
      rw [hrank]
      rcases hax with h | ⟨h, h' | h'⟩
      · rw [if_neg (by omega), h]
      · omega
      · rw [if_pos h']; push_cast; omega
    simp only [hsa, Int.toNat_natCast]
    let z1 := zs.take 13
    let z2 := zs.drop 13
    have hz : zs = z1 ++ z2 := (List.take_append_drop 13 zs).symm
    have hf : ((zs.map (·.1)).take concatMax) = z1.map (·.1) := by simp [z1, concatMax, List.map_take]
    have hr : ((zs.map (·.1)).drop concatMax) = z2.map (·.1) := by simp [z2, concatMax, List.map_drop]
    rw [hf, hr]
    let fty : Ty := ⟨pre ++ ((z1.map (·.1.ty)).map fun a => a.shape.getD pre.length 0).sum :: post, ty.d⟩
    have hfty : (⟨splitShape ty.shape (pre.length : Int) ((z1.map (·.1)).map fun a => a.ty.shape.getD pre.length 0).sum, ty.d⟩ : Ty) = fty := by
      have : splitShape ty.shape (pre.length : Int) ((z1.map (·.1)).map fun a => a.ty.shape.getD pre.length 0).sum =
          pre ++ ((z1.map (·.1)).map fun a => a.ty.shape.getD pre.length 0).sum :: post := by
        conv_lhs => rw [hc.2]
        exact splitShape_eq _ _ _ _
      rw [this]
      simp only [fty, List.map_map]
      rfl
    rw [hfty]
    have hm1 : ∀ z ∈ z1, z ∈ zs := fun z h => List.mem_of_mem_take h
    have hm2 : ∀ z ∈ z2, z ∈ zs := fun z h => List.mem_of_mem_drop h
    have hcf : ConcatFits pre post ty.d (z1.map (·.1.ty)) fty := by
      refine ⟨?_, rfl⟩
      intro a ha
      obtain ⟨z, hz, rfl⟩ := List.mem_map.1 ha
      exact hc.1 _ (List.mem_map_of_mem (hm1 z hz))
    have s1 := emitConcat_step (sem := sem) hg hn z1 (fun z h => hh z (hm1 z h)) (fun z h => hD z (hm1 z h)) fty axis pre post hcf hax' (by simp [z1])
    obtain ⟨a1, a2⟩ := concat_assoc sem pre post ty fty (z1.map src) (z2.map src) axis
      (by rw [← List.map_append, ← hz, List.map_map]; exact hc) (by rw [List.map_map]; exact hcf) hax'
    rw [← List.map_append, ← hz] at a2
    rw [← a2]
    have hn' : ins.length = (emitConcat o (z1.map (·.1)) fty axis).1.n0 := by
      obtain ⟨e, he⟩ := s1.ext
      rw [he, hn]
    let nz : Val × List Byte := (⟨fty, (emitConcat o (z1.map (·.1)) fty axis).2⟩, eval sem (.concat axis) fty (z1.map src))
    have s2 := ih (nz :: z2).length (by simp [z2]; omega) (emitConcat o (z1.map (·.1)) fty axis).1 (nz :: z2) rfl s1.good hn' (by
        intro z hz'
        rcases List.mem_cons.1 hz' with h | h
        · rw [h]; exact s1.holds
        · exact (hh z (hm2 z h)).mono hn s1.ext) (by
        intro z hz'
        rcases List.mem_cons.1 hz' with h | h
        · rw [h]
          show (eval sem (.concat axis) fty (z1.map src)).length = fty.size
          obtain ⟨e1, e2⟩ := eval_concat sem pre post ty.d fty (z1.map src) axis (by rw [List.map_map]; exact hcf) hax'
          rw [e1]; exact length_bytesOf' _ _ e2
        · exact hD z (hm2 z h)) (by
        have := a1
        rw [List.map_cons, List.map_map] at this
        exact this) (by
        rcases hax with h | ⟨h, h' | h'⟩
        · exact Or.inl h
        · omega
        · exact Or.inr ⟨h, Or.inr h'⟩)
    exact s1.trans s2

end Verif.Net
