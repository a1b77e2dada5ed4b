import Verif.Net.FuseProps
/-! The compiled function of a well-typed network is well typed (for C107). -/
namespace Verif.Net
open Verif.Tensor Verif.Move Verif.MemPlan Verif.MemPlan.Conc

/-- Every emitted operator is typed. -/
def TypedAll (inputs : List Ty) (l : List DOp) : Prop :=
  ∀ (j : Nat) (d : DOp), l[j]? = some d → OpTyped (env0 inputs ++ (l.take j).map DOp.info) d

theorem TypedAll.push {inputs : List Ty} {l : List DOp} (h : TypedAll inputs l) {d : DOp} (hd : OpTyped (env0 inputs ++ l.map DOp.info) d) :
    TypedAll inputs (l ++ [d]) := by
  intro j e he
  by_cases hj : j < l.length
  · rw [List.getElem?_append_left hj] at he
    rw [List.take_append_of_le_length (by omega)]
    exact h j e he
  · have hlt := (List.getElem?_eq_some_iff.1 he).1
    rw [List.length_append, List.length_singleton] at hlt
    have hj' : j = l.length := by omega
    subst hj'
    rw [List.getElem?_append_right (by omega)] at he
    simp only [Nat.sub_self, List.getElem?_cons_zero, Option.some.injEq] at he
    subst he
    rw [List.take_append_of_le_length (by omega), List.take_length]
    exact hd

theorem ok_of_good {inputs : List Ty} : ∀ (l : List DOp), Good ⟨inputs.length, l⟩ → TypedAll inputs l → OpsOK l (env0 inputs) := by
  intro l
  induction l using List.reverseRecOn with
  | nil => intro _ _; trivial
  | append_singleton l d ih =>
    intro hg ht
    refine (OpsOK_append _ _ _).2 ⟨ih ?_ ?_, ⟨?_, ?_, ?_⟩, trivial⟩
    · intro j e he
      have hlt := (List.getElem?_eq_some_iff.1 he).1
      obtain ⟨g1, g2, g3⟩ := hg j e (by show (l ++ [d])[j]? = _; rw [List.getElem?_append_left hlt]; exact he)
      refine ⟨g1, g2, fun hip i p hi hp => g3 hip i p hi ?_⟩
      have hlt' := (List.getElem?_eq_some_iff.1 hp).1
      show (l ++ [d])[i]? = _
      rw [List.getElem?_append_left hlt']; exact hp
    · intro j e he
      have hlt := (List.getElem?_eq_some_iff.1 he).1
      have := ht j e (by rw [List.getElem?_append_left hlt]; exact he)
      rw [List.take_append_of_le_length (by omega)] at this
      exact this
    · intro a ha
      have := (hg l.length d (by simp)).1 a ha
      simpa [env0] using this
    · exact (hg l.length d (by simp)).2.1
    · have := ht l.length d (by simp)
      rw [List.take_append_of_le_length (by omega), List.take_length] at this
      exact this

/-- Operators about whose operands nothing is asked. -/
def Plain (d : DOp) : Prop := ∀ env, OpTyped env d

theorem emit_typed {inputs : List Ty} {o : Out} (h : TypedAll inputs o.ops) {d : DOp} (hd : OpTyped (env0 inputs ++ o.ops.map DOp.info) d) :
    TypedAll inputs (o.emit d).1.ops := h.push hd

theorem slice_typed {inputs : List Ty} {o : Out} (h : TypedAll inputs o.ops) (skip : Bool) (a : Val) (ty : Ty) (b s : List Nat) :
    TypedAll inputs (compileSlice skip o a ty b s).1.ops := by
  unfold compileSlice
  split
  · exact h
  · split <;> exact emit_typed h trivial
  · exact emit_typed h trivial

theorem emitConcat_typed {inputs : List Ty} {o : Out} (h : TypedAll inputs o.ops) (as : List Val) (ty : Ty) (axis : Int) :
    TypedAll inputs (emitConcat o as ty axis).1.ops := by
  unfold emitConcat
  split <;> exact emit_typed h trivial

theorem concat_typed {inputs : List Ty} (ty : Ty) (axis : Int) : ∀ (n : Nat) (o : Out) (as : List Val), as.length = n → TypedAll inputs o.ops →
    TypedAll inputs (compileConcat o as ty axis).1.ops := by
  intro n
  induction n using Nat.strongRecOn with
  | _ n ih =>
    intro o as hn h
    rw [compileConcat]
    split
    · exact emitConcat_typed h _ _ _
    · rename_i hl
      refine ih _ ?_ _ _ rfl (emitConcat_typed h _ _ _)
      simp only [List.length_cons, List.length_drop, concatMax] at hl ⊢
      omega

theorem prod_toNat : ∀ (l : List Int), (∀ x ∈ l, 0 ≤ x) → (((l.map Int.toNat).prod : Nat) : Int) = l.prod
  | [], _ => rfl
  | x :: l, h => by
    rw [List.map_cons, List.prod_cons, List.prod_cons, Nat.cast_mul, prod_toNat l fun y hy => h y (List.mem_cons_of_mem _ hy),
      Int.toNat_of_nonneg (h x List.mem_cons_self)]

theorem shrink_mem {sm : Nat} {x : Int} : ∀ {l : List Int} {i : Nat}, x ∈ shrinkShape sm i l → x ∈ l
  | [], _, h => h
  | n :: l, i, h => by
    unfold shrinkShape at h
    split at h
    · exact List.mem_cons_of_mem _ (shrink_mem h)
    · rcases List.mem_cons.1 h with rfl | h
      · exact List.mem_cons_self
      · exact List.mem_cons_of_mem _ (shrink_mem h)

theorem noop_shape : ∀ (i o b s : List Nat), o.length = i.length → b.length = i.length → s.length = i.length →
    checkSliceNoOp (zipAxes i o b s) = true → i = o
  | [], [], _, _, _, _, _, _ => rfl
  | n :: i, m :: o, x :: b, y :: s, h1, h2, h3, h => by
    simp only [zipAxes, checkSliceNoOp, List.all_cons, Bool.and_eq_true, decide_eq_true_eq] at h
    rw [h.1, noop_shape i o b s (by simpa using h1) (by simpa using h2) (by simpa using h3) h.2]
  | [], _ :: _, _, _, h, _, _, _ => by simp at h
  | _ :: _, [], _, _, h, _, _, _ => by simp at h
  | _ :: _, _ :: _, [], _, _, h, _, _ => by simp at h
  | _ :: _, _ :: _, _ :: _, [], _, _, h, _ => by simp at h

theorem envEmit_last {inputs : List Ty} {o : Out} (hn : o.n0 = inputs.length) (d : DOp) :
    szOf (env0 inputs ++ ((o.emit d).1.ops).map DOp.info) (o.emit d).2 = d.ty.size := by
  show szOf (env0 inputs ++ (o.ops ++ [d]).map DOp.info) (o.n0 + o.ops.length) = _
  rw [List.map_append, ← List.append_assoc, hn]
  have : inputs.length + o.ops.length = (env0 inputs ++ o.ops.map DOp.info).length := by simp [env0]
  rw [this]
  exact szOf_last _ _

theorem strided_typed {inputs : List Ty} {o : Out} (hn : o.n0 = inputs.length) (h : TypedAll inputs o.ops) (skip : Bool) (a : Val)
    (hsz : szOf (env0 inputs ++ o.ops.map DOp.info) a.dev = a.ty.size) (ty : Ty) (b e : List Int) (bm em sm : Nat)
    (hb : b.length = a.ty.shape.length) (he : e.length = a.ty.shape.length)
    (hok : ∀ i < a.ty.shape.length, AxisArgsOK (bm.testBit i) (em.testBit i) (sm.testBit i) ((a.ty.shape.getD i 0 : Nat) : Int) (b.getD i 0) (e.getD i 0)) :
    TypedAll inputs (compileStrided skip o a ty b e bm em sm).1.ops := by
  have hget : ∀ i, i < a.ty.shape.length → (a.ty.shape.map fun (n : Nat) => (n : Int)).getD i 0 = ((a.ty.shape.getD i 0 : Nat) : Int) := by
    intro i hi
    rw [List.getD_eq_getElem?_getD, List.getElem?_map, List.getD_eq_getElem?_getD, List.getElem?_eq_getElem hi]
    rfl
  obtain ⟨slices, final, h1, h2, h3, h4⟩ := C23_strided_slice_partial (a.ty.shape.map fun (n : Nat) => (n : Int)) b e (a.ty.shape.map fun _ => 1) bm em sm
    (by simpa using hb) (by simpa using he) (by simp) (by
      intro i hi
      rw [List.length_map] at hi
      rw [hget i hi]
      exact hok i hi)
  rw [List.length_map] at h2 h3
  have hfin : final = shrinkShape sm 0 (slices.map (·.2)) := by
    have := h1
    unfold lowerStrided at this
    split at this
    · simp only [Option.some.injEq, Prod.mk.injEq] at this
      rw [← this.1, this.2]
    · cases this
  have hnn : ∀ x ∈ slices.map (·.2), 0 ≤ x := by
    intro x hx
    obtain ⟨y, hy, rfl⟩ := List.mem_map.1 hx
    obtain ⟨i, hi, rfl⟩ := List.getElem_of_mem hy
    have := h3 i (by omega)
    rw [List.getElem?_eq_getElem hi, Option.some.injEq] at this
    rw [this, hget i (by omega)]
    exact (range_fits _ _ _ _ _ _ (Int.natCast_nonneg _) (hok i (by omega))).2.1
  have hprod : (final.map (·.toNat)).prod = (slices.map (·.2.toNat)).prod := by
    have e1 := prod_toNat final (by rw [hfin]; intro x hx; exact hnn x (shrink_mem hx))
    have e2 := prod_toNat _ hnn
    rw [List.map_map] at e2
    rw [h4] at e1
    exact Int.ofNat.inj (e1.trans e2.symm)
  unfold compileStrided
  rw [h1]
  simp only
  split
  · exact slice_typed h _ _ _ _ _
  · apply emit_typed (slice_typed h _ _ _ _ _)
    refine ⟨_, _, rfl, rfl, ?_, ?_⟩
    · unfold compileSlice
      split
      · rename_i hno
        have : checkSliceNoOp (zipAxes a.ty.shape (slices.map (·.2.toNat)) (slices.map (·.1.toNat)) (slices.map (·.2.toNat))) = true := by
          unfold lowerSlice at hno
          split at hno
          · assumption
          · split at hno <;> cases hno
        have := noop_shape _ _ _ _ (by simpa using h2) (by simpa using h2) (by simpa using h2) this
        simp only
        rw [hsz]
        unfold Ty.size
        rw [← this]
      · split <;> rw [envEmit_last hn]
      · rw [envEmit_last hn]
    · unfold Ty.size
      simp only
      rw [hprod]

theorem padFits_prod : ∀ (i o s e : List Nat), PadFits i o s e → i.prod ≤ o.prod := by
  intro i
  induction i with
  | nil => intro o s e h; cases o <;> simp_all [PadFits]
  | cons n i ih =>
    intro o s e h
    match o, s, e, h with
    | m :: o, _ :: s, _ :: e, h =>
      rw [List.prod_cons, List.prod_cons]
      exact Nat.mul_le_mul (by have := h.1; omega) (ih _ _ _ h.2)

theorem pad_typed {inputs : List Ty} {o : Out} (h : TypedAll inputs o.ops) (skip : Bool) (a : Val) (ty : Ty) (q8 : Bool) (zp : Int) (p : List Nat)
    (hsz : szOf (env0 inputs ++ o.ops.map DOp.info) a.dev ≤ ty.size) : TypedAll inputs (compilePad skip o a ty q8 zp p).1.ops := by
  have hp : ∀ x ∈ [a.dev], szOf (env0 inputs ++ o.ops.map DOp.info) x ≤ ty.size := by
    intro x hx
    rw [List.mem_singleton] at hx
    rw [hx]; exact hsz
  unfold compilePad
  simp only
  split
  · exact h
  · split
    · split
      · exact emit_typed h hp
      · exact emit_typed h trivial
    · exact emit_typed h hp
  · split
    · exact emit_typed h hp
    · exact emit_typed h trivial

/-- A value that is held has the size that its type says. -/
theorem holds_size {sem : Sem} {ins : List (List Byte)} {inputs : List Ty} {o : Out} (hin : ins.map List.length = inputs.map Ty.size) {u : W}
    (hu : WOK sem ins o u) : szOf (env0 inputs ++ o.ops.map DOp.info) u.val.dev = u.val.ty.size := by
  rw [← size_at (runOps_sizes sem o.ops (env0 inputs) ins (env0_sizes hin)), hu.holds.value]
  exact hu.len

theorem holds_const {sem : Sem} {ins : List (List Byte)} {inputs : List Ty} {o : Out} (hn : o.n0 = inputs.length) {u : W}
    (hu : WOK sem ins o u) (hc : u.const = true) : cstOf (env0 inputs ++ o.ops.map DOp.info) u.val.dev = true := by
  obtain ⟨i, p, h1, h2, h3⟩ := hu.const hc
  unfold cstOf
  rw [h1, hn, List.getD_eq_getElem?_getD, List.getElem?_append_right (by rw [env0_length]; omega), env0_length, Nat.add_sub_cancel_left,
    List.getElem?_map, h2]
  exact h3

theorem node_typed {sem : Sem} {ins : List (List Byte)} {inputs : List Ty} {o : Out} (hin : ins.map List.length = inputs.map Ty.size)
    (hn : o.n0 = inputs.length) (skip : Bool) (ws : List W) (hw : ∀ w ∈ ws, WOK sem ins o w) (n : Node) (hargs : ∀ v ∈ n.args, v < ws.length)
    (hok : n.kind.OK (n.args.map fun v => (ws.map fun w => (w.val.ty, w.const)).getD v (⟨[], 0⟩, false)) n.ty) (h : TypedAll inputs o.ops) :
    TypedAll inputs (compileNode skip o (ws.map (·.val)) n).1.ops := by
  obtain ⟨us, hus'⟩ : ∃ us, us = n.args.map fun v => ws.getD v W.dflt := ⟨_, rfl⟩
  have hus : ∀ u ∈ us, WOK sem ins o u := by
    intro u hu
    rw [hus'] at hu
    obtain ⟨v, hv, rfl⟩ := List.mem_map.1 hu
    apply hw
    have := hargs v hv
    rw [List.getD_eq_getElem?_getD, List.getElem?_eq_getElem this]
    exact List.getElem_mem this
  have hmap : ∀ {α : Type} (f : W → α) (d : α), (n.args.map fun v => (ws.map f).getD v d) = us.map f := by
    intro α f d
    rw [hus', List.map_map]
    apply List.map_congr_left
    intro v hv
    have := hargs v hv
    simp [List.getD_eq_getElem?_getD, List.getElem?_eq_getElem this]
  rw [hmap] at hok
  have has := hmap (·.val) dummy
  clear hmap hus'
  unfold compileNode
  simp only
  rw [has]
  obtain ⟨kind, args, ty⟩ := n
  simp only at *
  have hone : ∀ {x : Ty} {c : Bool}, us.map (fun w => (w.val.ty, w.const)) = [(x, c)] → ∃ u, us = [u] ∧ u.val.ty = x := by
    intro x c h
    match us, h with
    | [u], h => simp at h; exact ⟨u, rfl, h.1⟩
  cases kind with
  | const data => exact emit_typed h trivial
  | slice b s => exact slice_typed h _ _ _ _ _
  | strided b e bm em sm =>
    obtain ⟨x, c, h1, hd, hb', he, hpos, hax, hsm, hty⟩ := hok
    obtain ⟨u, hu, rfl⟩ := hone h1
    subst hu
    exact strided_typed hn h skip u.val (holds_size hin (hus u (by simp))) ty b e bm em sm hb' he hax
  | pad q8 zp p =>
    obtain ⟨x, c, h1, hd, hfit, hpos, hq⟩ := hok
    obtain ⟨u, hu, rfl⟩ := hone h1
    subst hu
    refine pad_typed h skip u.val ty q8 zp p ?_
    rw [holds_size hin (hus u (by simp))]
    unfold Ty.size
    rw [hd]
    exact Nat.mul_le_mul_right _ (padFits_prod _ _ _ _ hfit)
  | broadcast =>
    simp only
    unfold compileBroadcast
    split
    · exact h
    · split <;> exact emit_typed h trivial
    · exact emit_typed h trivial
  | concat axis => exact concat_typed ty axis _ o _ rfl h
  | reshape =>
    obtain ⟨x, c, h1, hd⟩ := hok
    obtain ⟨u, hu, rfl⟩ := hone h1
    subst hu
    exact emit_typed h ⟨u.val.dev, u.val.ty, rfl, rfl, (holds_size hin (hus u (by simp))).symm, hd⟩
  | transpose perm => exact emit_typed h trivial
  | elementwise k => exact emit_typed h trivial
  | other ip k =>
    apply emit_typed h
    refine ⟨?_, ?_⟩
    · simp only [List.map_map]
      apply List.map_congr_left
      intro u hu
      exact (holds_size hin (hus u hu)).symm
    · intro hip x hx
      obtain ⟨v, hv, rfl⟩ := List.mem_map.1 hx
      obtain ⟨u, hu, rfl⟩ := List.mem_map.1 hv
      rcases hok hip (u.val.ty, u.const) (List.mem_map_of_mem (f := fun w : W => (w.val.ty, w.const)) hu) with hk | hk
      · exact .inl (holds_const hn (hus u hu) hk)
      · right
        rw [holds_size hin (hus u hu)]
        exact hk

theorem nodes_typed {sem : Sem} {ins : List (List Byte)} {inputs : List Ty} (hin : ins.map List.length = inputs.map Ty.size) (skip : Nat → Bool) :
    ∀ (ns : List Node) (o : Out) (ws : List W), Good o → o.n0 = inputs.length → (∀ w ∈ ws, WOK sem ins o w) →
      NodesOK ns (ws.map fun w => (w.val.ty, w.const)) → TypedAll inputs o.ops → TypedAll inputs (compileNodes skip ns o (ws.map (·.val))).1.ops
  | [], _, _, _, _, _, _, h => h
  | n :: ns, o, ws, hg, hn, hw, hok, h => by
    obtain ⟨h1, h2, h3⟩ := hok
    have hlen : ins.length = inputs.length := by simpa using congrArg List.length hin
    have hs := node_step hg (hlen.trans hn.symm) (skip (ws.map (·.val)).length) ws hw n (by simpa using h1) h2
    have ht := node_typed hin hn (skip (ws.map (·.val)).length) ws hw n (by simpa using h1) h2 h
    simp only at hs
    generalize eval sem n.kind n.ty (n.args.map fun v => (ws.map fun w => (w.val.ty, w.bytes)).getD v (⟨[], 0⟩, [])) = bytes at hs
    obtain ⟨s1, s2, s3⟩ := hs
    have hn' : (compileNode (skip (ws.map (·.val)).length) o (ws.map (·.val)) n).1.n0 = inputs.length := by
      obtain ⟨x, hx⟩ := s1.ext
      rw [hx]; exact hn
    have := nodes_typed hin skip ns (compileNode (skip (ws.map (·.val)).length) o (ws.map (·.val)) n).1
      (ws ++ [⟨⟨n.ty, (compileNode (skip (ws.map (·.val)).length) o (ws.map (·.val)) n).2⟩, bytes, n.kind.isConst⟩]) s1.good hn' (by
        intro w hwm
        rcases List.mem_append.1 hwm with h | h
        · exact (hw w h).mono (hlen.trans hn.symm) s1.ext
        · rw [List.mem_singleton] at h
          rw [h]
          exact ⟨s1.holds, s2, s3⟩) (by simpa using h3) ht
    simp only [List.map_append, List.map_cons, List.map_nil] at this
    rw [compileNodes]
    exact this

/-- The compiled function of a well-typed network is well typed. -/
theorem Network.compiled_ok (N : Network) (hN : N.OK) (skip : Nat → Bool) : (N.compiled skip).OK := by
  obtain ⟨inputs, hinp⟩ : ∃ i : List (List Byte), i = N.inputs.map fun t => List.replicate t.size 0 := ⟨_, rfl⟩
  have hin : inputs.map List.length = N.inputs.map Ty.size := by rw [hinp]; simp [List.map_map, Function.comp_def]
  have hlen : inputs.length = N.inputs.length := by simpa using congrArg List.length hin
  obtain ⟨hg, h0, ho, -⟩ := N.compile_spec hN skip (fun _ _ => []) inputs hin
  obtain ⟨ws, w1, w2, w3, w4, w5⟩ := argVals_get N.inputs inputs hlen
  have hw : ∀ w ∈ ws, WOK (fun _ _ => []) inputs ⟨N.inputs.length, []⟩ w := by
    intro w hw
    obtain ⟨v, hv, rfl⟩ := w5 w hw
    refine ⟨⟨by simpa using hv, rfl⟩, ?_, by intro h; cases h⟩
    have hv' : v < inputs.length := by omega
    have := congrArg (fun l => l[v]?) hin
    simp only [List.getElem?_map, List.getElem?_eq_getElem hv, List.getElem?_eq_getElem hv', Option.map_some, Option.some.injEq] at this
    simp only [List.getD_eq_getElem?_getD, List.getElem?_eq_getElem hv', Option.getD_some]
    exact this
  have ht := nodes_typed (sem := fun _ _ => []) hin skip N.nodes ⟨N.inputs.length, []⟩ ws (by intro j d h; simp at h) rfl hw (by
    have := hN.nodes
    rw [w3] at this
    exact this) (by intro j d h; simp at h)
  rw [← w1] at ht
  rw [h0] at ho
  refine ⟨ok_of_good _ ?_ ht, ho⟩
  show Good ⟨N.inputs.length, (N.compile skip).1.ops⟩
  rw [← h0]
  exact hg

end Verif.Net
