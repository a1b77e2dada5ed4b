import Verif.Net.Run
/-! C83: a whole network of data-movement operators, compiled, planned and run in the arena. -/
namespace Verif.Net
open Verif.Tensor Verif.Move Verif.MemPlan

theorem map_range_getD {α : Type} (l : List α) (d : α) (r : Nat → α) (h : ∀ i < l.length, l[i]? = some (r i)) : l = (List.range l.length).map r := by
  apply List.ext_getElem?
  intro i
  by_cases hi : i < l.length
  · rw [h i hi]; simp [hi]
  · rw [List.getElem?_eq_none (by omega), List.getElem?_eq_none (by simp; omega)]

theorem range_fits (bm em sm : Bool) (dim b e : Int) (hd : 0 ≤ dim) (h : AxisArgsOK bm em sm dim b e) :
    0 ≤ (tfRange bm em sm dim b e).1 ∧ 0 ≤ (tfRange bm em sm dim b e).2 ∧ (tfRange bm em sm dim b e).1 + (tfRange bm em sm dim b e).2 ≤ dim := by
  unfold AxisArgsOK at h
  unfold tfRange
  simp only at h ⊢
  generalize hpb : (if b < 0 then dim + b else b) = pb at *
  generalize hpe : (if e < 0 then dim + e else e) = pe at *
  cases bm <;> cases em <;> cases sm <;>
    simp only [Bool.false_eq_true, if_true, if_false, reduceCtorEq, IsEmpty.forall_iff, true_and, forall_const, false_and] at h ⊢ <;> omega

theorem strided_step {sem : Sem} {ins : List (List Byte)} {o : Out} (hg : Good o) (hn : ins.length = o.n0) (skip : Bool) (a : Val) (D : List Byte)
    (hh : Holds sem ins o a.dev D) (hD : D.length = a.ty.size) (ty : Ty) (b e : List Int) (bm em sm : Nat) (hd : a.ty.d = ty.d)
    (hb : b.length = a.ty.shape.length) (he : e.length = a.ty.shape.length) (hpos : ∀ n ∈ a.ty.shape, 0 < n)
    (hok : ∀ i < a.ty.shape.length, AxisArgsOK (bm.testBit i) (em.testBit i) (sm.testBit i) ((a.ty.shape.getD i 0 : Nat) : Int) (b.getD i 0) (e.getD i 0))
    (hsm : sm < 2 ^ a.ty.shape.length)
    (hty : (ty.shape.map fun (n : Nat) => (n : Int)) = shrinkShape sm 0 ((List.range a.ty.shape.length).map fun i =>
        (tfRange (bm.testBit i) (em.testBit i) (sm.testBit i) ((a.ty.shape.getD i 0 : Nat) : Int) (b.getD i 0) (e.getD i 0)).2)) :
    Step sem ins o (compileStrided skip o a ty b e bm em sm) (bytesOf ty fun idx => elemAt a.ty D (stridedIdx bm em sm 0 a.ty.shape b e idx)) := by
  have hget : ∀ i, i < a.ty.shape.length → (a.ty.shape.map fun (n : Nat) => (n : Int)).getD i 0 = ((a.ty.shape.getD i 0 : Nat) : Int) := by
    intro i hi
    rw [List.getD_eq_getElem?_getD, List.getElem?_map, List.getD_eq_getElem?_getD, List.getElem?_eq_getElem hi]
    rfl
  let r := fun j => tfRange (bm.testBit j) (em.testBit j) (sm.testBit j) ((a.ty.shape.getD j 0 : Nat) : Int) (b.getD j 0) (e.getD j 0)
  obtain ⟨slices, final, h1, h2, h3, _⟩ := C23_strided_slice_partial (a.ty.shape.map fun (n : Nat) => (n : Int)) b e (a.ty.shape.map fun _ => 1) bm em sm
    (by simpa using hb) (by simpa using he) (by simp) (by
      intro i hi
      rw [List.length_map] at hi
      rw [hget i hi]
      exact hok i hi)
  rw [List.length_map] at h2
  have hsl : slices = (List.range a.ty.shape.length).map r := by
    have := map_range_getD slices (0, 0) r (by
      intro i hi
      rw [h2] at hi
      rw [h3 i (by simpa using hi), hget i hi])
    rw [h2] at this
    exact this
  have hfin : final = shrinkShape sm 0 (slices.map (·.2)) := by
    have := h1
    unfold lowerStrided at this
    split at this
    · simp only [Option.some.injEq, Prod.mk.injEq] at this
      rw [← this.1, this.2]
    · cases this
  have hnn : ∀ j < a.ty.shape.length, 0 ≤ (r j).1 ∧ 0 ≤ (r j).2 ∧ (r j).1 + (r j).2 ≤ (a.ty.shape.getD j 0 : Nat) := by
    intro j hj
    exact range_fits _ _ _ _ _ _ (Int.natCast_nonneg _) (hok j hj)
  have hshape : ty.shape = (shrinkShape sm 0 (((List.range a.ty.shape.length).map r).map (·.2))).map (·.toNat) := by
    have : ty.shape = (ty.shape.map fun (n : Nat) => (n : Int)).map (·.toNat) := by
      rw [List.map_map]
      conv_lhs => rw [← List.map_id ty.shape]
      apply List.map_congr_left
      intro n _
      simp
    rw [this, hty, List.map_map]
    rfl
  have hwant : bytesOf ty (fun idx => elemAt a.ty D (stridedIdx bm em sm 0 a.ty.shape b e idx)) =
      bytesOf ⟨slices.map (·.2.toNat), ty.d⟩ (sliceT (slices.map (·.1.toNat)) (elemAt a.ty D)) := by
    have := strided_flat bm em sm 0 a.ty.shape b e (elemAt a.ty D) hb he (by
      intro j hj
      rw [Nat.zero_add]
      exact (hnn j hj).2.1)
    simp only [Nat.zero_add] at this
    unfold bytesOf
    rw [hsl, hshape]
    exact congrArg List.flatten this
  have hsf : ∀ (shape : List Nat) (rs : List (Int × Int)), rs.length = shape.length →
      (∀ j < shape.length, ∀ x, rs[j]? = some x → 0 ≤ x.1 ∧ 0 ≤ x.2 ∧ x.1 + x.2 ≤ (shape.getD j 0 : Nat)) →
      SliceFits shape (rs.map (·.2.toNat)) (rs.map (·.1.toNat)) := by
    intro shape
    induction shape with
    | nil => intro rs h _; cases rs <;> simp_all [SliceFits]
    | cons n shape ih =>
      intro rs hl hx
      match rs, hl with
      | x :: rs, hl =>
        refine ⟨?_, ih rs (by simpa using hl) ?_⟩
        · have := hx 0 (by simp) x rfl
          simp only [List.getD_cons_zero] at this
          show x.1.toNat + x.2.toNat ≤ n
          omega
        · intro j hj y hy
          have := hx (j + 1) (by simpa using hj) y (by simpa using hy)
          simpa using this
  have hs := slice_step (sem := sem) hg hn skip a D hh hD ⟨slices.map (·.2.toNat), a.ty.d⟩ (slices.map (·.1.toNat)) (slices.map (·.2.toNat)) rfl
    (hsf _ _ h2 (by
      intro j hj x hx
      rw [hsl, List.getElem?_map, List.getElem?_range hj] at hx
      simp only [Option.map_some, Option.some.injEq] at hx
      rw [← hx]
      exact hnn j hj))
    (by simpa using h2) hpos
  rw [hd] at hs
  rw [hwant]
  unfold compileStrided
  rw [h1]
  simp only
  rw [hd]
  by_cases h0 : sm = 0
  · rw [if_pos h0]
    exact hs
  rw [if_neg h0]
  apply hs.trans
  have hn' : ins.length = (compileSlice skip o a ⟨slices.map (·.2.toNat), ty.d⟩ (slices.map (·.1.toNat)) (slices.map (·.2.toNat))).1.n0 := by
    obtain ⟨x, hx⟩ := hs.ext
    rw [hx, hn]
  have hX : (bytesOf ⟨slices.map (·.2.toNat), ty.d⟩ (sliceT (slices.map (·.1.toNat)) (elemAt a.ty D))).length = ty.size := by
    rw [← hwant]
    exact length_bytesOf _ _ fun i => by rw [length_elemAt, hd]
  generalize hXe : bytesOf ⟨slices.map (·.2.toNat), ty.d⟩ (sliceT (slices.map (·.1.toNat)) (elemAt a.ty D)) = X at hs hX ⊢
  have hft : (⟨final.map (·.toNat), ty.d⟩ : Ty) = ty := by
    rw [hfin, hsl, ← hshape]
  rw [hft]
  have hX2 : X.length = (⟨slices.map (·.2.toNat), ty.d⟩ : Ty).size := by
    rw [← hXe]
    exact length_bytesOf _ _ fun i => by rw [sliceT, length_elemAt, hd]
  have hev : eval sem .reshape ty ([((⟨⟨slices.map (·.2.toNat), ty.d⟩, (compileSlice skip o a ⟨slices.map (·.2.toNat), ty.d⟩ (slices.map (·.1.toNat)) (slices.map (·.2.toNat))).2⟩ : Val), X)].map src) = X := by
    show bytesOf ty (elemAt ty (bytesOf ⟨slices.map (·.2.toNat), ty.d⟩ (elemAt ⟨slices.map (·.2.toNat), ty.d⟩ X))) = X
    rw [bytesOf_elemAt _ _ hX2, bytesOf_elemAt _ _ hX]
  have := tfl_step (sem := sem) hs.good hn' .reshape ty [((⟨⟨slices.map (·.2.toNat), ty.d⟩, (compileSlice skip o a ⟨slices.map (·.2.toNat), ty.d⟩ (slices.map (·.1.toNat)) (slices.map (·.2.toNat))).2⟩ : Val), X)]
    (by simpa using hs.holds) (by intro _ _ h; cases h) (by rw [hev]; exact hX)
  rw [hev] at this
  exact this


/-- A value of the network during compilation: where it is, its bytes, and whether it is a constant. -/
structure W where
  val : Val
  bytes : List Byte
  const : Bool

def W.dflt : W := ⟨dummy, [], false⟩

def W.pair (w : W) : Val × List Byte := (w.val, w.bytes)

/-- What is known about a value of the network. -/
structure WOK (sem : Sem) (ins : List (List Byte)) (o : Out) (w : W) : Prop where
  holds : Holds sem ins o w.val.dev w.bytes
  len : w.bytes.length = w.val.ty.size
  const : w.const = true → ∃ i p, w.val.dev = o.n0 + i ∧ o.ops[i]? = some p ∧ p.kind.isConst = true

theorem WOK.mono {sem : Sem} {ins : List (List Byte)} {o o' : Out} {w : W} (hn : ins.length = o.n0)
    (he : ∃ extra, o' = ⟨o.n0, o.ops ++ extra⟩) (h : WOK sem ins o w) : WOK sem ins o' w := by
  refine ⟨h.holds.mono hn he, h.len, fun hc => ?_⟩
  obtain ⟨i, p, h1, h2, h3⟩ := h.const hc
  obtain ⟨extra, rfl⟩ := he
  refine ⟨i, p, h1, ?_, h3⟩
  have : i < o.ops.length := by
    by_contra hge
    rw [List.getElem?_eq_none (by omega)] at h2
    cases h2
  rw [List.getElem?_append_left this]
  exact h2

/-- One operator of the network. -/
theorem node_step {sem : Sem} {ins : List (List Byte)} {o : Out} (hg : Good o) (hn : ins.length = o.n0) (skip : Bool) (ws : List W)
    (hw : ∀ w ∈ ws, WOK sem ins o w) (n : Node) (hargs : ∀ v ∈ n.args, v < ws.length)
    (hok : n.kind.OK (n.args.map fun v => (ws.map fun w => (w.val.ty, w.const)).getD v (⟨[], 0⟩, false)) n.ty) :
    let bytes := eval sem n.kind n.ty (n.args.map fun v => (ws.map fun w => (w.val.ty, w.bytes)).getD v (⟨[], 0⟩, []))
    let r := compileNode skip o (ws.map (·.val)) n
    Step sem ins o r bytes ∧ bytes.length = n.ty.size ∧
      (n.kind.isConst = true → ∃ i p, r.2 = r.1.n0 + i ∧ r.1.ops[i]? = some p ∧ p.kind.isConst = true) := by
  let us := n.args.map fun v => ws.getD v W.dflt
  have hus : ∀ u ∈ us, WOK sem ins o u := by
    intro u hu
    obtain ⟨v, hv, rfl⟩ := List.mem_map.1 hu
    apply hw
    have := hargs v hv
    rw [List.getD_eq_getElem?_getD, List.getElem?_eq_getElem this]
    exact List.getElem_mem this
  have hmap : ∀ {α : Type} (f : W → α) (d : α), (n.args.map fun v => (ws.map f).getD v d) = us.map f := by
    intro α f d
    rw [List.map_map]
    apply List.map_congr_left
    intro v hv
    have := hargs v hv
    simp [List.getD_eq_getElem?_getD, List.getElem?_eq_getElem this]
  rw [hmap] at hok ⊢
  clear_value us
  intro bytes r
  have hbytes : bytes = eval sem n.kind n.ty ((us.map W.pair).map src) := by
    show eval sem n.kind n.ty _ = _
    rw [List.map_map]
    rfl
  have has : (n.args.map fun v => (ws.map (·.val)).getD v dummy) = (us.map W.pair).map (·.1) := by
    rw [hmap, List.map_map]
    rfl
  have hpair : ∀ z ∈ us.map W.pair, Holds sem ins o z.1.dev z.2 := by
    intro z hz
    obtain ⟨u, hu, rfl⟩ := List.mem_map.1 hz
    exact (hus u hu).holds
  have hlen : ∀ z ∈ us.map W.pair, z.2.length = z.1.ty.size := by
    intro z hz
    obtain ⟨u, hu, rfl⟩ := List.mem_map.1 hz
    exact (hus u hu).len
  have hr : r = compileNode skip o (ws.map (·.val)) n := rfl
  clear_value r bytes
  unfold compileNode at hr
  simp only at hr
  rw [has] at hr
  obtain ⟨kind, args, ty⟩ := n
  simp only at *
  have hone : ∀ {x : Ty} {c : Bool}, us.map (fun w => (w.val.ty, w.const)) = [(x, c)] → ∃ u, us = [u] ∧ u.val.ty = x := by
    intro x c h
    match us, h with
    | [u], h => simp at h; exact ⟨u, rfl, h.1⟩
  cases kind with
  | const data =>
    obtain ⟨h1, h2⟩ := hok
    have hu : us = [] := by simpa using h1
    rw [hu] at hbytes
    have hb : bytes = data := by rw [hbytes]; exact bytesOf_elemAt ty data h2
    refine ⟨?_, by rw [hb, h2], fun _ => ?_⟩
    · rw [hr]
      exact emit_holds hg hn (.const data) ty [] (by simp) (by simp) (by intro h; cases h) hb.symm (by rw [hb, h2])
    · rw [hr]
      exact ⟨o.ops.length, ⟨.const data, [], ty⟩, rfl, by simp [Out.emit], rfl⟩
  | slice b s =>
    obtain ⟨x, c, h1, hd, hfit, hs, hpos⟩ := hok
    obtain ⟨u, hu, rfl⟩ := hone h1
    rw [hu] at hbytes hr hpair hlen
    have hb : bytes = bytesOf ty (sliceT b (elemAt u.val.ty u.bytes)) := hbytes
    refine ⟨?_, ?_, by intro h; cases h⟩
    · rw [hr, hb]
      exact slice_step hg hn skip u.val u.bytes (hpair u.pair (by simp)) (hlen u.pair (by simp)) ty b s hd hfit hs hpos
    · rw [hb]
      exact length_bytesOf _ _ fun i => by rw [sliceT, length_elemAt, hd]
  | strided b e bm em sm =>
    obtain ⟨x, c, h1, hd, hb', he, hpos, hax, hsm, hty⟩ := hok
    obtain ⟨u, hu, rfl⟩ := hone h1
    rw [hu] at hbytes hr hpair hlen
    have hb : bytes = bytesOf ty (fun idx => elemAt u.val.ty u.bytes (stridedIdx bm em sm 0 u.val.ty.shape b e idx)) := hbytes
    refine ⟨?_, ?_, by intro h; cases h⟩
    · rw [hr, hb]
      exact strided_step hg hn skip u.val u.bytes (hpair u.pair (by simp)) (hlen u.pair (by simp)) ty b e bm em sm hd hb' he hpos hax hsm hty
    · rw [hb]
      exact length_bytesOf _ _ fun i => by rw [length_elemAt, hd]
  | pad q8 zp p =>
    obtain ⟨x, c, h1, hd, hfit, hpos, hq⟩ := hok
    obtain ⟨u, hu, rfl⟩ := hone h1
    rw [hu] at hbytes hr hpair hlen
    have hb : bytes = bytesOf ty (padT (List.replicate u.val.ty.d (UInt8.ofInt zp)) (evens p) u.val.ty.shape (elemAt u.val.ty u.bytes)) := hbytes
    refine ⟨?_, ?_, by intro h; cases h⟩
    · rw [hr, hb]
      exact pad_step hg hn skip u.val u.bytes (hpair u.pair (by simp)) (hlen u.pair (by simp)) ty q8 zp p hd hfit hpos hq
    · rw [hb]
      exact length_bytesOf _ _ fun i => by rw [length_padT (d := u.val.ty.d) (by simp) _ _ _ _ fun i => length_elemAt _ _ _, hd]
  | broadcast =>
    obtain ⟨x, c, h1, hd, hl⟩ := hok
    obtain ⟨u, hu, rfl⟩ := hone h1
    rw [hu] at hbytes hr hpair hlen
    have hb : bytes = bytesOf ty (broadcastT u.val.ty.shape (elemAt u.val.ty u.bytes)) := hbytes
    refine ⟨?_, ?_, by intro h; cases h⟩
    · rw [hr, hb]
      exact broadcast_step hg hn skip u.val u.bytes (hpair u.pair (by simp)) (hlen u.pair (by simp)) ty hd hl
    · rw [hb]
      exact length_bytesOf _ _ fun i => by rw [broadcastT, length_elemAt, hd]
  | concat axis =>
    obtain ⟨pre, post, hc, hax⟩ := hok
    have hty : (us.map fun w => (w.val.ty, w.const)).map (·.1) = (us.map W.pair).map (·.1.ty) := by
      simp [List.map_map, Function.comp_def, W.pair]
    rw [hty] at hc
    have hsc : ConcatFits pre post ty.d (((us.map W.pair).map src).map (·.1)) ty := by
      rw [List.map_map]; exact hc
    have hax' := hax.imp id And.left
    refine ⟨?_, ?_, by intro h; cases h⟩
    · rw [hr, hbytes]
      exact concat_step axis pre post ty _ o _ rfl hg hn hpair hlen hc (by simpa using hax)
    · obtain ⟨e1, e2⟩ := eval_concat sem pre post ty.d ty _ axis hsc hax'
      rw [hbytes, e1]
      exact length_bytesOf' _ _ e2
  | reshape =>
    have hl : bytes.length = ty.size := by
      rw [hbytes]
      exact length_bytesOf _ _ fun i => length_elemAt _ _ _
    refine ⟨?_, hl, by intro h; cases h⟩
    have hr' : r = o.emit ⟨.tfl .reshape ((us.map W.pair).map (·.1.ty)), (us.map W.pair).map (·.1.dev), ty⟩ := by
      rw [hr]
      simp only [List.map_map]
      rfl
    rw [hr', hbytes]
    exact tfl_step hg hn .reshape ty (us.map W.pair) hpair (by intro _ _ h; cases h) (by rw [← hbytes]; exact hl)
  | transpose perm =>
    obtain ⟨x, c, h1, hd, -⟩ := hok
    obtain ⟨u, hu, rfl⟩ := hone h1
    have hl : bytes.length = ty.size := by
      rw [hbytes]
      rw [hu]
      exact length_bytesOf _ _ fun i => (length_elemAt _ _ _).trans hd
    refine ⟨?_, hl, by intro h; cases h⟩
    have hr' : r = o.emit ⟨.tfl (.transpose perm) ((us.map W.pair).map (·.1.ty)), (us.map W.pair).map (·.1.dev), ty⟩ := by
      rw [hr]
      simp only [List.map_map]
      rfl
    rw [hr', hbytes]
    exact tfl_step hg hn (.transpose perm) ty (us.map W.pair) hpair (by intro _ _ h; cases h) (by rw [← hbytes]; exact hl)
  | elementwise k =>
    have hl : bytes.length = ty.size := by
      rw [hbytes]
      exact length_bytesOf _ _ fun i => length_fit _ _
    refine ⟨?_, hl, by intro h; cases h⟩
    have hr' : r = o.emit ⟨.tfl (.elementwise k) ((us.map W.pair).map (·.1.ty)), (us.map W.pair).map (·.1.dev), ty⟩ := by
      rw [hr]
      simp only [List.map_map]
      rfl
    rw [hr', hbytes]
    exact tfl_step hg hn (.elementwise k) ty (us.map W.pair) hpair (by intro _ _ h; cases h) (by rw [← hbytes]; exact hl)
  | other ip k =>
    have hl : bytes.length = ty.size := by
      rw [hbytes]
      exact length_bytesOf _ _ fun i => length_elemAt _ _ _
    refine ⟨?_, hl, by intro h; cases h⟩
    have hr' : r = o.emit ⟨.tfl (.other ip k) ((us.map W.pair).map (·.1.ty)), (us.map W.pair).map (·.1.dev), ty⟩ := by
      rw [hr]
      simp only [List.map_map]
      rfl
    rw [hr', hbytes]
    apply tfl_step hg hn (.other ip k) ty (us.map W.pair) hpair _ (by rw [← hbytes]; exact hl)
    intro ip' k' he hip i p hi hp hpi
    cases he
    obtain ⟨z, hz, hdev⟩ := List.mem_map.1 hi
    obtain ⟨u, hu, rfl⟩ := List.mem_map.1 hz
    have hk := hok hip (u.val.ty, u.const) (List.mem_map_of_mem (f := fun w : W => (w.val.ty, w.const)) hu)
    rcases hk with hk | hk
    · obtain ⟨i', p', g1, g2, g3⟩ := (hus u hu).const hk
      have : i = i' := by
        have h1 : u.val.dev = o.n0 + i := hdev
        omega
      subst this
      rw [g2] at hp
      cases hp
      cases hpk : p.kind <;> simp [hpk, DKind.isConst, DKind.inPlace] at g3 hpi
    · have hsz := made_size hn hp (D := u.bytes) (by
        have h1 : u.val.dev = o.n0 + i := hdev
        rw [← h1]; exact (hus u hu).holds)
      rw [hsz, (hus u hu).len]
      exact hk

/-- All operators: the compiled function holds every value of the network. -/
theorem nodes_step {sem : Sem} {ins : List (List Byte)} (skip : Nat → Bool) : ∀ (ns : List Node) (o : Out) (ws : List W), Good o → ins.length = o.n0 →
    (∀ w ∈ ws, WOK sem ins o w) → NodesOK ns (ws.map fun w => (w.val.ty, w.const)) →
    ∃ ws' : List W, (compileNodes skip ns o (ws.map (·.val))).2 = ws'.map (·.val) ∧
      evalNodes sem ns (ws.map fun w => (w.val.ty, w.bytes)) = ws'.map (fun w => (w.val.ty, w.bytes)) ∧
      ws'.length = ws.length + ns.length ∧ Good (compileNodes skip ns o (ws.map (·.val))).1 ∧
      (compileNodes skip ns o (ws.map (·.val))).1.n0 = o.n0 ∧
      ∀ w ∈ ws', WOK sem ins (compileNodes skip ns o (ws.map (·.val))).1 w
  | [], o, ws, hg, _, hw, _ => ⟨ws, rfl, rfl, rfl, hg, rfl, hw⟩
  | n :: ns, o, ws, hg, hn, hw, hok => by
    obtain ⟨h1, h2, h3⟩ := hok
    have hs := node_step hg hn (skip (ws.map (·.val)).length) ws hw n (by simpa using h1) h2
    simp only at hs
    generalize hbe : eval sem n.kind n.ty (n.args.map fun v => (ws.map fun w => (w.val.ty, w.bytes)).getD v (⟨[], 0⟩, [])) = bytes at hs
    obtain ⟨s1, s2, s3⟩ := hs
    have hn' : ins.length = (compileNode (skip (ws.map (·.val)).length) o (ws.map (·.val)) n).1.n0 := by
      obtain ⟨x, hx⟩ := s1.ext
      rw [hx, hn]
    obtain ⟨ws', g1, g2, g3, g4, g5, g6⟩ := nodes_step skip ns (compileNode (skip (ws.map (·.val)).length) o (ws.map (·.val)) n).1
      (ws ++ [⟨⟨n.ty, (compileNode (skip (ws.map (·.val)).length) o (ws.map (·.val)) n).2⟩, bytes, n.kind.isConst⟩]) s1.good hn' (by
        intro w hwm
        rcases List.mem_append.1 hwm with h | h
        · exact (hw w h).mono hn s1.ext
        · rw [List.mem_singleton] at h
          rw [h]
          exact ⟨s1.holds, s2, s3⟩) (by simpa using h3)
    simp only [List.map_append, List.map_cons, List.map_nil] at g1 g2 g4 g5 g6
    refine ⟨ws', ?_, ?_, ?_, ?_, ?_, ?_⟩
    · rw [compileNodes]; exact g1
    · rw [evalNodes, hbe]; exact g2
    · rw [g3]; simp; omega
    · rw [compileNodes]; exact g4
    · rw [compileNodes, g5]
      omega
    · rw [compileNodes]; exact g6


/-! ### The compiled function -/

/-- An emitted operator as the memory planner sees it. -/
def DOp.planned (o : DOp) : Op := ⟨o.kind.isConst, false, o.kind.inPlace, o.args, [o.ty.size]⟩

def retOp (outs : List Nat) : Op := ⟨false, true, false, outs, []⟩

theorem toFunc_ops (inputs : List Ty) (ops : List DOp) (outs : List Nat) : (toFunc inputs ops outs).ops = ops.map DOp.planned ++ [retOp outs] := rfl

theorem toFunc_op {inputs : List Ty} {ops : List DOp} {outs : List Nat} {j : Nat} (hj : j < ops.length) :
    (toFunc inputs ops outs).op j = (ops[j]).planned := by
  unfold Func.op
  rw [toFunc_ops, List.getD_eq_getElem?_getD, List.getElem?_append_left (by simpa using hj)]
  simp [hj]

theorem toFunc_ret {inputs : List Ty} {ops : List DOp} {outs : List Nat} : (toFunc inputs ops outs).op ops.length = retOp outs := by
  unfold Func.op
  rw [toFunc_ops, List.getD_eq_getElem?_getD, List.getElem?_append_right (by simp)]
  simp

theorem toFunc_result0 {inputs : List Ty} {ops : List DOp} {outs : List Nat} {j : Nat} (hj : j ≤ ops.length) :
    (toFunc inputs ops outs).result0 j = inputs.length + j := by
  rw [result0_eq, toFunc_ops, List.take_append_of_le_length (by simpa using hj)]
  have : ∀ l : List DOp, resCount (l.map DOp.planned) = l.length := by
    intro l
    induction l with
    | nil => rfl
    | cons d l ih =>
      unfold resCount at *
      simp only [List.map_cons, List.sum_cons, ih, List.length_cons]
      simp [DOp.planned]
      omega
  rw [← List.map_take, this]
  simp [toFunc]
  omega

theorem toFunc_length {inputs : List Ty} {ops : List DOp} {outs : List Nat} : (toFunc inputs ops outs).ops.length = ops.length + 1 := by
  rw [toFunc_ops]; simp

theorem toFunc_defined {inputs : List Ty} {ops : List DOp} {outs : List Nat} {i : Nat} (hi : i < ops.length) :
    (toFunc inputs ops outs).DefinedAt (inputs.length + i) i := by
  rw [← toFunc_result0 (outs := outs) (Nat.le_of_lt hi)]
  apply result0_definedAt _ (by rw [toFunc_length]; omega)
  rw [toFunc_op hi]
  simp [DOp.planned]

theorem toFunc_raw {inputs : List Ty} {ops : List DOp} {outs : List Nat} {i : Nat} (hi : i < ops.length) :
    (toFunc inputs ops outs).raw (inputs.length + i) = (ops[i]).ty.size := by
  have h := decl_result (toFunc inputs ops outs) (j := i) (i := 0) (by rw [toFunc_length]; omega) (by rw [toFunc_op hi]; simp [DOp.planned])
  rw [toFunc_result0 (Nat.le_of_lt hi), Nat.add_zero] at h
  unfold Func.raw
  rw [h]
  simp [toFunc_op hi, DOp.planned]

theorem toFunc_argSizes {inputs : List Ty} {ops : List DOp} {outs : List Nat} : (toFunc inputs ops outs).argSizes.length = inputs.length := by
  simp [toFunc]

theorem toFunc_wf {inputs : List Ty} {o : Out} {outs : List Nat} (h0 : o.n0 = inputs.length) (hg : Good o)
    (ho : ∀ v ∈ outs, v < o.n0 + o.ops.length) : (toFunc inputs o.ops outs).WF := by
  constructor
  · intro j v hu
    obtain ⟨hj, hv⟩ := hu
    rw [toFunc_length] at hj
    have hlt : v < inputs.length + j ∧ j ≤ o.ops.length := by
      rcases Nat.lt_or_ge j o.ops.length with h | h
      · rw [toFunc_op h] at hv
        have := (hg j o.ops[j] (List.getElem?_eq_getElem h)).1 v hv
        omega
      · have : j = o.ops.length := by omega
        subst this
        rw [toFunc_ret] at hv
        have := ho v hv
        omega
    by_cases ha : v < inputs.length
    · exact Or.inl (by unfold Func.IsArg; rw [toFunc_argSizes]; exact ha)
    · refine Or.inr ⟨v - inputs.length, ?_, by omega⟩
      have := toFunc_defined (inputs := inputs) (ops := o.ops) (outs := outs) (i := v - inputs.length) (by omega)
      rwa [show inputs.length + (v - inputs.length) = v by omega] at this
  · intro j hc
    by_cases hj : j < o.ops.length
    · rw [toFunc_op hj] at hc ⊢
      exact (hg j o.ops[j] (List.getElem?_eq_getElem hj)).2.1 hc
    · by_cases he : j = o.ops.length
      · subst he
        rw [toFunc_ret] at hc
        cases hc
      · unfold Func.op
        rw [List.getD_eq_getElem?_getD, List.getElem?_eq_none (by rw [toFunc_length]; omega)]
        rfl

theorem toFunc_inPlace {inputs : List Ty} {o : Out} {outs : List Nat} (h0 : o.n0 = inputs.length) (hg : Good o) :
    (toFunc inputs o.ops outs).InPlaceOK := by
  have hlt : ∀ j, j < (toFunc inputs o.ops outs).ops.length → ((toFunc inputs o.ops outs).op j).overlappable = true → j < o.ops.length := by
    intro j hj ho
    rw [toFunc_length] at hj
    by_contra hc
    have : j = o.ops.length := by omega
    subst this
    rw [toFunc_ret] at ho
    cases ho
  constructor
  · intro j hj ho
    have hj' := hlt j hj ho
    rw [toFunc_op hj'] at ho ⊢
    refine ⟨?_, rfl, by simp [DOp.planned]⟩
    show (o.ops[j]).kind.isConst = false
    have ho' : (o.ops[j]).kind.inPlace = true := ho
    cases hk : (o.ops[j]).kind <;> simp [hk, DKind.isConst, DKind.inPlace] at ho' ⊢
  · intro i j hi hoi hj hoj hu
    have hi' := hlt i hi hoi
    have hj' := hlt j hj hoj
    rw [toFunc_result0 (Nat.le_of_lt hi')] at hu ⊢
    rw [toFunc_result0 (Nat.le_of_lt hj'), toFunc_raw hi', toFunc_raw hj']
    rw [toFunc_op hi'] at hoi
    rw [toFunc_op hj'] at hoj
    have hu' := hu.2
    rw [toFunc_op hj'] at hu'
    exact (hg j o.ops[j] (List.getElem?_eq_getElem hj')).2.2 hoj i o.ops[i] (by rw [h0]; exact hu') (List.getElem?_eq_getElem hi') hoi

theorem devKernels_fit (sem : Sem) (inputs : List Ty) (ops : List DOp) (outs : List Nat) : Kernels.Fit (toFunc inputs ops outs) (devKernels sem ops) := by
  intro j ins hj
  rw [toFunc_length] at hj
  unfold devKernels
  rcases Nat.lt_or_ge j ops.length with h | h
  · rw [List.getElem?_eq_getElem h, toFunc_op h]
    simp [DOp.planned, length_fit]
  · have : j = ops.length := by omega
    subst this
    rw [List.getElem?_eq_none (by omega), toFunc_ret]
    rfl

/-- Running the compiled function with private memory shows the return the values of `runOps`. -/
theorem refTrace_last (sem : Sem) (inputs : List Ty) (o : Out) (outs : List Nat) (h0 : o.n0 = inputs.length) (hg : Good o)
    (ho : ∀ v ∈ outs, v < o.n0 + o.ops.length) : ∀ (rest : List DOp) (j : Nat) (vs : List (List Byte)) (e : Env), o.ops.drop j = rest →
    j ≤ o.ops.length → vs.length = o.n0 + j → (∀ v < vs.length, e v = vs.getD v []) →
    (refTrace (toFunc inputs o.ops outs) (devKernels sem o.ops) (rest.map DOp.planned ++ [retOp outs]) j e).getLast? =
      some (outs.map fun v => (runOps sem rest vs).getD v [])
  | [], j, vs, e, hd, hj, hl, he => by
    have : j = o.ops.length := by
      have := List.drop_eq_nil_iff.1 hd
      omega
    subst this
    simp only [List.map_nil, List.nil_append, refTrace, List.getLast?_singleton, runOps]
    congr 1
    apply List.map_congr_left
    intro v hv
    exact he v (by rw [hl]; exact ho v hv)
  | d :: rest, j, vs, e, hd, hj, hl, he => by
    have hlt : j < o.ops.length := by
      by_contra hc
      rw [List.drop_eq_nil_of_le (by omega)] at hd
      cases hd
    rw [List.drop_eq_getElem_cons hlt] at hd
    injection hd with hd1 hd2
    rw [List.map_cons, List.cons_append, refTrace]
    have hins : (d.planned.operands.map e) = d.args.map fun a => vs.getD a [] := by
      apply List.map_congr_left
      intro a ha
      apply he
      rw [hl]
      exact (hg j o.ops[j] (List.getElem?_eq_getElem hlt)).1 a (by rw [hd1]; exact ha)
    have hk : devKernels sem o.ops j (d.args.map fun a => vs.getD a []) = [fit d.ty.size (d.kind.run sem d.ty (d.args.map fun a => vs.getD a []))] := by
      unfold devKernels
      rw [List.getElem?_eq_getElem hlt, hd1]
    rw [hins, hk, toFunc_result0 hj, List.getLast?_cons]
    have ih := refTrace_last sem inputs o outs h0 hg ho rest (j + 1) (vs ++ [fit d.ty.size (d.kind.run sem d.ty (d.args.map fun a => vs.getD a []))])
      (e.setFrom (inputs.length + j) [fit d.ty.size (d.kind.run sem d.ty (d.args.map fun a => vs.getD a []))]) hd2 (by omega) (by simp; omega) (by
        intro v hv
        rw [List.length_append, List.length_singleton] at hv
        rcases Nat.lt_or_ge v vs.length with h | h
        · rw [Env.setFrom_other _ _ _ _ (by omega), he v h]
          simp [List.getElem?_append_left h]
        · have : v = inputs.length + j + 0 := by omega
          subst this
          rw [Env.setFrom_same _ _ _ 0 (by simp)]
          rw [Nat.add_zero, show inputs.length + j = vs.length by omega]
          simp)
    rw [ih, runOps]
    rfl

theorem argVals_get (inputs : List Ty) (bytes : List (List Byte)) (h : bytes.length = inputs.length) :
    ∃ ws : List W, argVals inputs = ws.map (·.val) ∧ inputs.zip bytes = ws.map (fun w => (w.val.ty, w.bytes)) ∧
      (inputs.map fun t => (t, false)) = ws.map (fun w => (w.val.ty, w.const)) ∧ ws.length = inputs.length ∧
      ∀ w ∈ ws, ∃ v, ∃ hv : v < inputs.length, w = ⟨⟨inputs[v], v⟩, bytes.getD v [], false⟩ := by
  refine ⟨inputs.zipIdx.map fun x => ⟨⟨x.1, x.2⟩, bytes.getD x.2 [], false⟩, ?_, ?_, ?_, by simp, ?_⟩
  · unfold argVals; rw [List.map_map]; rfl
  · apply List.ext_getElem?
    intro i
    by_cases hi : i < inputs.length
    · simp [List.getElem?_zip_eq_some, hi, h ▸ hi, List.zip, List.getElem?_zipWith]
    · rw [List.getElem?_eq_none (by simp; omega), List.getElem?_eq_none (by simp; omega)]
  · apply List.ext_getElem?
    intro i
    by_cases hi : i < inputs.length
    · simp [hi]
    · rw [List.getElem?_eq_none (by simp; omega), List.getElem?_eq_none (by simp; omega)]
  · intro w hw
    obtain ⟨x, hx, rfl⟩ := List.mem_map.1 hw
    obtain ⟨t, v⟩ := x
    have hx' := List.mem_zipIdx hx
    have ht : t = inputs[v]'(by omega) := by simpa using hx'.2.2
    refine ⟨v, by omega, ?_⟩
    simp only [← ht]

/-- What the compiled function of a network is: well formed, and its values are those of the network. -/
theorem Network.compile_spec (N : Network) (hN : N.OK) (skip : Nat → Bool) : ∀ (sem : Sem) (inputs : List (List Byte)), inputs.map List.length = N.inputs.map Ty.size →
      Good (N.compile skip).1 ∧ (N.compile skip).1.n0 = N.inputs.length ∧ (∀ v ∈ N.outDev skip, v < (N.compile skip).1.n0 + (N.compile skip).1.ops.length) ∧
      ((N.outDev skip).map fun v => (runOps sem (N.compile skip).1.ops inputs).getD v []) = N.result sem inputs := by
  intro sem inputs hin
  have hlen : inputs.length = N.inputs.length := by simpa using congrArg List.length hin
  obtain ⟨ws, w1, w2, w3, w4, w5⟩ := argVals_get N.inputs inputs hlen
  have hg0 : Good ⟨N.inputs.length, []⟩ := by intro j d h; simp at h
  have hw : ∀ w ∈ ws, WOK sem inputs ⟨N.inputs.length, []⟩ w := by
    intro w hw
    obtain ⟨v, hv, rfl⟩ := w5 w hw
    refine ⟨⟨by simpa using hv, rfl⟩, ?_, by intro h; cases h⟩
    have hv' : v < inputs.length := by omega
    have := congrArg (fun l => l[v]?) hin
    simp only [List.getElem?_map, List.getElem?_eq_getElem hv, List.getElem?_eq_getElem hv', Option.map_some, Option.some.injEq] at this
    simp only [List.getD_eq_getElem?_getD, List.getElem?_eq_getElem hv', Option.getD_some]
    exact this
  obtain ⟨ws', g1, g2, g3, g4, g5, g6⟩ := nodes_step (sem := sem) (ins := inputs) skip N.nodes ⟨N.inputs.length, []⟩ ws hg0 hlen hw (by
    have := hN.nodes
    rw [w3] at this
    exact this)
  rw [← w1] at g1 g4 g5 g6
  have hout : ∀ v ∈ N.outputs, ∃ w ∈ ws', ((N.compile skip).2.getD v dummy).dev = w.val.dev ∧
      ((evalNodes sem N.nodes (N.inputs.zip inputs)).getD v (⟨[], 0⟩, [])).2 = w.bytes := by
    intro v hv
    have hlt : v < ws'.length := by rw [g3, w4]; exact hN.outs v hv
    refine ⟨ws'[v], List.getElem_mem hlt, ?_, ?_⟩
    · unfold Network.compile
      rw [g1]
      simp [List.getD_eq_getElem?_getD, List.getElem?_eq_getElem hlt]
    · rw [w2, g2]
      simp [List.getD_eq_getElem?_getD, List.getElem?_eq_getElem hlt]
  refine ⟨g4, g5, ?_, ?_⟩
  · intro x hx
    obtain ⟨v, hv, rfl⟩ := List.mem_map.1 hx
    obtain ⟨w, hw, h1, _⟩ := hout v hv
    rw [h1]
    exact (g6 w hw).holds.bound
  · unfold Network.outDev Network.result
    rw [List.map_map]
    apply List.map_congr_left
    intro v hv
    obtain ⟨w, hw, h1, h2⟩ := hout v hv
    simp only [Function.comp]
    rw [h1, h2]
    exact (g6 w hw).holds.value

/-- **C83.** For every well-typed network of data-movement operators and arbitrary other operators, any choice of operators left alone, any
meaning of the other operators, any inputs, any initial memory: the function that the compiler emits can be planned as soon as it has a
tensor in the arena; if it is planned, every tensor fits in the advertised arena, and after running it in that arena the operands of the
return are the outputs of the network. -/
theorem C83_network_compiled (N : Network) (hN : N.OK) (skip : Nat → Bool) :
    (∀ v, (N.func skip).Arena v → ∃ a, planMemory (N.func skip) = some a) ∧
    ∀ a, planMemory (N.func skip) = some a →
      Fits (N.func skip) a.offsets a.peakUsage ∧
      ∀ (sem : Sem) (inputs : List (List Byte)) (m : Mem) (c : Env), inputs.map List.length = N.inputs.map Ty.size →
        (arenaTrace (N.func skip) (devKernels sem (N.compile skip).1.ops) a.offsets (N.func skip).ops 0 (loadInputs a.offsets inputs m) c).getLast? =
          some (N.result sem inputs) := by
  have key := N.compile_spec hN skip
  obtain ⟨hg, h0, ho, _⟩ := key (fun _ _ => []) (N.inputs.map fun t => List.replicate t.size 0) (by simp [List.map_map, Function.comp_def])
  have wf : (N.func skip).WF := toFunc_wf h0 hg ho
  have ip : (N.func skip).InPlaceOK := toFunc_inPlace h0 hg
  refine ⟨?_, ?_⟩
  · intro v hv
    obtain ⟨p, hp⟩ := C03_plan_exists wf ip true hv
    obtain ⟨q, hq⟩ := C03_plan_exists wf ip false hv
    unfold planMemory
    rw [hp, hq]
    exact ⟨_, rfl⟩
  · intro a ha
    obtain ⟨c1, c2, _⟩ := C06_chosen_plan wf ip ha
    refine ⟨c2, ?_⟩
    intro sem inputs m c hin
    obtain ⟨_, _, _, hres⟩ := key sem inputs hin
    have hlen : inputs.length = N.inputs.length := by simpa using congrArg List.length hin
    rw [c1 (devKernels sem (N.compile skip).1.ops) inputs m c (devKernels_fit sem _ _ _) hin, ← hres]
    exact refTrace_last sem N.inputs (N.compile skip).1 (N.outDev skip) h0 hg ho (N.compile skip).1.ops 0 inputs (inputEnv inputs) rfl (by omega)
      (by omega) (fun v _ => rfl)


/-! ### A concrete network -/

/-- Pad three to four channels, take a row, concatenate it with a constant, apply some in-place operator, drop an axis, broadcast, reshape. -/
def exampleNet : Network where
  inputs := [⟨[1, 2, 2, 3], 1⟩]
  nodes := [⟨.pad true (-3) [0, 0, 0, 0, 0, 0, 0, 1], [0], ⟨[1, 2, 2, 4], 1⟩⟩,
    ⟨.slice [0, 1, 0, 0] [1, 1, 2, 4], [1], ⟨[1, 1, 2, 4], 1⟩⟩,
    ⟨.const (List.replicate 8 7), [], ⟨[1, 1, 2, 4], 1⟩⟩,
    ⟨.concat 1, [2, 3], ⟨[1, 2, 2, 4], 1⟩⟩,
    ⟨.other true 5, [4], ⟨[1, 2, 2, 4], 1⟩⟩,
    ⟨.strided [0, 1, 0, -4] [1, 2, 2, 4] 0 0 2, [5], ⟨[1, 2, 4], 1⟩⟩,
    ⟨.broadcast, [6], ⟨[3, 2, 4], 1⟩⟩,
    ⟨.reshape, [7], ⟨[6, 4], 1⟩⟩]
  outputs := [8, 5]

theorem exampleNet_ok : exampleNet.OK := by
  refine ⟨?_, by decide⟩
  refine ⟨by decide, ⟨_, _, rfl, rfl, ?_, by decide, by decide⟩, by decide, ⟨_, _, rfl, rfl, ?_, rfl, by decide⟩, by decide, ⟨rfl, rfl⟩, by decide,
    ⟨[1], [2, 4], ⟨?_, rfl⟩, Or.inl rfl⟩, by decide, ?_, by decide, ⟨_, _, rfl, rfl, rfl, rfl, by decide, ?_, by decide, by decide⟩, by decide,
    ⟨_, _, rfl, rfl, by decide⟩, by decide, ⟨_, _, rfl, rfl⟩, trivial⟩
  · simp [PadFits, evens, odds]
  · simp [SliceFits]
  · intro a ha
    simp at ha
    rcases ha with rfl | rfl
    · exact ⟨1, rfl⟩
    · exact ⟨1, rfl⟩
  · intro _ a ha
    simp at ha
    subst ha
    exact Or.inr (by decide)
  · intro i hi
    have : i < 4 := hi
    rcases i with _ | _ | _ | _ | i
    · simp [AxisArgsOK]
    · simp [AxisArgsOK, Nat.testBit]
    · simp [AxisArgsOK, Nat.testBit]
    · simp [AxisArgsOK, Nat.testBit]
    · omega

/-- The compiled operators of the example: the pad, slice, concatenation and broadcast become xcore operators, the strided slice becomes a
slice and a reshape. -/
example : (exampleNet.func fun _ => false).ops.map (fun o => (o.isConst, o.overlappable, o.operands, o.resultSizes)) =
    [(false, true, [0], [16]), (false, false, [1], [8]), (true, false, [], [8]), (false, false, [2, 3], [16]), (false, true, [4], [16]),
      (false, false, [5], [8]), (false, false, [6], [8]), (false, false, [7], [24]), (false, false, [8], [24]), (false, false, [9, 5], [])] := by
  decide +kernel

/-- The example's arena. -/
example : (planMemory (exampleNet.func fun _ => false)).map (fun a => (a.peakUsage, a.offsets)) = some (64, [8, 0, 24, -1, 48, 48, 8, 0, 24, 0]) := by
  decide +kernel

/-- What the example computes on one input; the padding element is the byte of -3 before the other operator adds one. -/
example : exampleNet.result (fun _ xs => (xs.getD 0 []).map (· + 1)) [(List.range 12).map UInt8.ofNat] =
    [List.replicate 24 8, [7, 8, 9, 254, 10, 11, 12, 254, 8, 8, 8, 8, 8, 8, 8, 8]] := by
  decide +kernel

/-- **C83** applies to the example: in that arena the run returns those bytes, whatever the memory held before. -/
theorem C83_example (m : Mem) (c : Env) :
    (arenaTrace (exampleNet.func fun _ => false) (devKernels (fun _ xs => (xs.getD 0 []).map (· + 1)) (exampleNet.compile fun _ => false).1.ops)
      [8, 0, 24, -1, 48, 48, 8, 0, 24, 0] (exampleNet.func fun _ => false).ops 0 (loadInputs [8, 0, 24, -1, 48, 48, 8, 0, 24, 0] [(List.range 12).map UInt8.ofNat] m) c).getLast? =
      some [List.replicate 24 8, [7, 8, 9, 254, 10, 11, 12, 254, 8, 8, 8, 8, 8, 8, 8, 8]] := by
  have hp : (planMemory (exampleNet.func fun _ => false)).map (fun a => a.offsets) = some [8, 0, 24, -1, 48, 48, 8, 0, 24, 0] := by decide +kernel
  cases ha : planMemory (exampleNet.func fun _ => false) with
  | none => rw [ha] at hp; cases hp
  | some a =>
    rw [ha] at hp
    have ho : a.offsets = [8, 0, 24, -1, 48, 48, 8, 0, 24, 0] := by simpa using hp
    have := ((C83_network_compiled exampleNet exampleNet_ok fun _ => false).2 a ha).2 (fun _ xs => (xs.getD 0 []).map (· + 1))
      [(List.range 12).map UInt8.ofNat] m c (by decide)
    rw [ho] at this
    rw [this]
    decide +kernel

end Verif.Net
