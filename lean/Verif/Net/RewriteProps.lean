import Verif.Net.RewriteLemmas
import Mathlib.Logic.Relation
/-!
C95: the patterns keep the meaning of the whole network.
-/
namespace Verif.Net
open Verif.Tensor Verif.Move Verif.MemPlan

variable {sem : Sem} {iv : List (Ty × List Byte)}

/-! ### Transposed indices -/

theorem inShape_iff : ∀ (s idx : List Nat), InShape s idx ↔ idx.length = s.length ∧ ∀ i < s.length, idx.getD i 0 < s.getD i 0
  | [], [] => by simp [InShape]
  | [], _ :: _ => by simp [InShape]
  | _ :: _, [] => by simp [InShape]
  | n :: s, i :: idx => by
    simp only [InShape, inShape_iff s idx, List.length_cons, Nat.add_right_cancel_iff]
    constructor
    · rintro ⟨h1, h2, h3⟩
      refine ⟨h2, ?_⟩
      intro j hj
      cases j with
      | zero => simpa using h1
      | succ j => simpa using h3 j (by omega)
    · rintro ⟨h1, h2⟩
      refine ⟨by simpa using h2 0 (by omega), h1, ?_⟩
      intro j hj
      simpa using h2 (j + 1) (by omega)

/-- Where `transposeT` reads. -/
theorem transpose_inShape {perm s idx : List Nat} (hp : Transpose.IsPerm perm s.length) (h : InShape (Transpose.transposeShape perm s) idx) :
    InShape s ((List.range perm.length).map fun d => idx.getD (perm.idxOf d) 0) := by
  obtain ⟨h1, h2⟩ := (inShape_iff _ _).1 h
  refine (inShape_iff _ _).2 ⟨by simp [hp.1], ?_⟩
  intro i hi
  have hmem : i ∈ perm := hp.2 i hi
  have hlt : perm.idxOf i < perm.length := List.idxOf_lt_length_iff.2 hmem
  have h3 := h2 (perm.idxOf i) (by simpa [Transpose.transposeShape] using hlt)
  have e1 : (Transpose.transposeShape perm s).getD (perm.idxOf i) 0 = s.getD i 0 := by
    unfold Transpose.transposeShape
    rw [List.getD_eq_getElem?_getD, List.getElem?_map, List.getElem?_eq_getElem hlt]
    simp [List.getElem_idxOf]
  rw [e1] at h3
  rw [List.getD_eq_getElem?_getD (l := List.map _ _), List.getElem?_map, List.getElem?_range (by rw [hp.1]; exact hi)]
  simpa using h3

/-- The value of a transpose of a value that was computed by `g`. -/
theorem eval_transpose (sem : Sem) (perm : List Nat) (ty mt : Ty) (g : T) (hp : Transpose.IsPerm perm mt.shape.length)
    (hs : ty.shape = Transpose.transposeShape perm mt.shape) (hg : ∀ i, InShape mt.shape i → (g i).length = mt.d) :
    eval sem (.transpose perm) ty [(mt, bytesOf mt g)] = bytesOf ty (Transpose.transposeT perm g) := by
  unfold eval
  refine bytesOf_congr fun idx hidx => ?_
  show Transpose.transposeT perm (elemAt mt (bytesOf mt g)) idx = Transpose.transposeT perm g idx
  unfold Transpose.transposeT
  rw [hs] at hidx
  exact elemAt_bytesOf mt g hg _ (transpose_inShape hp hidx)

/-! ### Steps -/

theorem last_ok {n0 : Nat} {pre : List Node} {n : Node} (hg : EGood iv ⟨n0, pre ++ [n]⟩) :
    (∀ a ∈ n.args, a < n0 + pre.length) ∧ n.kind.OK (n.args.map fun v => ((⟨n0, pre⟩ : Exp).ctx iv).getD v dflF) n.ty := by
  obtain ⟨h1, h2, -⟩ := node_value (sem := fun _ _ => []) hg (show (⟨n0, pre ++ [n]⟩ : Exp).nodes[pre.length]? = some n by simp)
  refine ⟨h1, ?_⟩
  have e : (n.args.map fun v => ((⟨n0, pre ++ [n]⟩ : Exp).ctx iv).getD v dflF) = n.args.map fun v => ((⟨n0, pre⟩ : Exp).ctx iv).getD v dflF := by
    apply List.map_congr_left
    intro a ha
    exact ctx_old (good_prefix hg) ⟨[n], rfl⟩ (h1 a ha)
  rw [← e]
  exact h2

theorem defOf_some {n0 : Nat} {pre : List Node} {v : Nat} {d : Node} (h : defOf n0 pre v = some d) : ∃ i, v = n0 + i ∧ pre[i]? = some d := by
  unfold defOf at h
  split at h
  · cases h
  · exact ⟨v - n0, by omega, h⟩

theorem tyOf_def {inputs : List Ty} {pre : List Node} {i : Nat} {d : Node} (h : pre[i]? = some d) : tyOf inputs pre (inputs.length + i) = d.ty := by
  unfold tyOf
  rw [List.getD_eq_getElem?_getD, List.getElem?_append_right (by omega)]
  simp [h]

/-- An operator with one operand. -/
theorem unary_step {e : Exp} (hg : EGood iv e) (k : Kind) (ty : Ty) {v : Nat} {t : Ty} {D : List Byte} (hv : EHolds sem iv e v t D)
    (hok : ∀ c, k.OK [(t, c)] ty) : EStep sem iv e (e.emit ⟨k, [v], ty⟩) ty (eval sem k ty [(t, D)]) := by
  have h : k.OK ([(v, t, D)].map fun z => (e.ctx iv).getD z.1 (⟨[], 0⟩, false)) ty := by
    simp only [List.map_cons, List.map_nil]
    rw [show (e.ctx iv).getD v (⟨[], 0⟩, false) = (t, ((e.ctx iv).getD v (⟨[], 0⟩, false)).2) by rw [← hv.ctx hg]]
    exact hok _
  refine emit_estep hg k ty [(v, t, D)] (by simpa using hv) h ?_
  refine length_eval (sem := sem) k ty _ _ h ?_
  simp only [List.map_cons, List.map_nil]
  rw [hv.ctx hg]

/-- A matched operator with one operand, which is defined by an operator. -/
theorem matched {pre : List Node} {n d : Node} (hiv : ∀ x ∈ iv, x.2.length = x.1.size) (hg : EGood iv ⟨iv.length, pre ++ [n]⟩) {v : Nat} (hv : n.args = [v])
    (hd : defOf (iv.map (·.1)).length pre v = some d) (sem : Sem) :
    (∃ c, n.kind.OK [(d.ty, c)] n.ty) ∧
    d.kind.OK (d.args.map fun x => ((⟨iv.length, pre⟩ : Exp).ctx iv).getD x dflF) d.ty ∧
    (∀ x ∈ d.args, EHolds sem iv ⟨iv.length, pre⟩ x (tyOf (iv.map (·.1)) pre x) ((evalNodes sem pre iv).getD x dfl).2) ∧
    (n.args.map fun v => (evalNodes sem pre iv).getD v dfl) = [(d.ty, eval sem d.kind d.ty (d.args.map fun x => (tyOf (iv.map (·.1)) pre x, ((evalNodes sem pre iv).getD x dfl).2)))] := by
  obtain ⟨i, rfl, hi⟩ := defOf_some hd
  have hgp := good_prefix hg
  obtain ⟨hb, hk⟩ := last_ok hg
  obtain ⟨hdb, hdk, hdv⟩ := node_value (sem := sem) hgp hi
  have hil : i < pre.length := by
    rcases Nat.lt_or_ge i pre.length with h | h
    · exact h
    · rw [List.getElem?_eq_none h] at hi; cases hi
  have hty : ((⟨iv.length, pre⟩ : Exp).ctx iv).getD ((iv.map (·.1)).length + i) dflF = (d.ty, (((⟨iv.length, pre⟩ : Exp).ctx iv).getD ((iv.map (·.1)).length + i) dflF).2) := by
    have e := tyOf_ctx (iv := iv) (e := (⟨iv.length, pre⟩ : Exp)) ((iv.map (·.1)).length + i)
    rw [tyOf_def hi] at e
    rw [← e]
  have hh : ∀ x ∈ d.args, EHolds sem iv ⟨iv.length, pre⟩ x (tyOf (iv.map (·.1)) pre x) ((evalNodes sem pre iv).getD x dfl).2 := by
    intro x hx
    have := hdb x hx
    exact holds_value hgp hiv (by simp only at this ⊢; omega)
  refine ⟨?_, hdk, hh, ?_⟩
  · rw [hv] at hk
    simp only [List.map_cons, List.map_nil] at hk
    rw [hty] at hk
    exact ⟨_, hk⟩
  · rw [hv]
    simp only [List.map_cons, List.map_nil]
    simp only at hdv
    rw [List.length_map, hdv]
    congr 3
    apply List.map_congr_left
    intro x hx
    exact (hh x hx).value

/-! ### The patterns -/

theorem cancelP_sound : cancelP.Sound := by
  intro sem iv pre n ns r hiv hg h
  obtain ⟨k, args, ty⟩ := n
  unfold cancelP at h
  simp only at h
  split at h
  case h_2 => cases h
  rename_i p0 v
  split at h
  case h_2 => cases h
  rename_i p1 x mt hd
  split at h
  case isFalse => cases h
  rename_i hc
  obtain ⟨rfl, rfl⟩ := Prod.mk.inj (Option.some.inj h)
  obtain ⟨⟨c, a, c', ha, h1, h2, h3⟩, hdk, hh, hval⟩ := matched hiv hg rfl hd sem
  obtain ⟨rfl, rfl⟩ : mt = a ∧ c = c' := by simpa using ha
  refine ⟨rfl, ?_⟩
  have hx := hh x (by simp)
  obtain ⟨b, cb, hb, g1, g2, g3⟩ := hdk
  have hbt : b = tyOf (iv.map (·.1)) pre x := by
    have := congrArg (fun l => l.map (·.1)) hb
    simp only [List.map_cons, List.map_nil, List.cons.injEq, and_true] at this
    rw [← this, tyOf_ctx]
  subst hbt
  have hps : Transpose.IsPerm p0 (tyOf (iv.map (·.1)) pre x).shape.length := by
    have : mt.shape.length = (tyOf (iv.map (·.1)) pre x).shape.length := by
      rw [g3]; unfold Transpose.transposeShape; rw [List.length_map, g2.1]
    rw [← this]; exact h2
  have hsh := Transpose.C16_cancelled_is_identity (elemAt (tyOf (iv.map (·.1)) pre x) ((evalNodes sem pre iv).getD x dfl).2) _ p0 p1 hps g2 hc
  have hty : ty = tyOf (iv.map (·.1)) pre x := by
    have hs : ty.shape = (tyOf (iv.map (·.1)) pre x).shape := by rw [h3, g3]; exact hsh.1
    have hd' : ty.d = (tyOf (iv.map (·.1)) pre x).d := by rw [← h1, ← g1]
    cases ty
    cases hty : tyOf (iv.map (·.1)) pre x
    rw [hty] at hs hd'
    simp_all
  have hv2 : eval sem (.transpose p0) ty [(mt, eval sem (.transpose p1) mt [(tyOf (iv.map (·.1)) pre x, ((evalNodes sem pre iv).getD x dfl).2)])] =
      ((evalNodes sem pre iv).getD x dfl).2 := by
    have e1 : eval sem (.transpose p1) mt [(tyOf (iv.map (·.1)) pre x, ((evalNodes sem pre iv).getD x dfl).2)] =
        bytesOf mt (Transpose.transposeT p1 (elemAt (tyOf (iv.map (·.1)) pre x) ((evalNodes sem pre iv).getD x dfl).2)) := rfl
    rw [e1, eval_transpose sem p0 ty mt (Transpose.transposeT p1 (elemAt (tyOf (iv.map (·.1)) pre x) ((evalNodes sem pre iv).getD x dfl).2)) h2 h3
      (fun i _ => (length_elemAt _ _ _).trans g1)]
    refine (bytesOf_congr fun idx hidx => hsh.2 idx (by rw [hty] at hidx; exact hidx)).trans ?_
    rw [hty]
    exact bytesOf_elemAt _ _ hx.len
  rw [hval]
  simp only [List.map_cons, List.map_nil]
  rw [hv2]
  have := estep_same (good_prefix hg) hx
  rw [← hty] at this
  simpa using this

theorem pairs_eq {p : List Nat} {l : List (Int × Int)} (h : padRows p = l) (hl : (evens p).length = (odds p).length) :
    evens p = l.map (fun x => x.1.toNat) ∧ odds p = l.map (fun x => x.2.toNat) := by
  subst h
  unfold padRows
  generalize evens p = a at hl
  generalize odds p = b at hl
  induction a generalizing b with
  | nil => cases b <;> simp_all
  | cons x a ih =>
    cases b with
    | nil => simp at hl
    | cons y b =>
      have := ih b (by simpa using hl)
      simp [List.zipWith]
      exact ⟨by simpa using this.1, by simpa using this.2⟩

theorem padFits_zip : ∀ (i o s e : List Nat), PadFits i o s e → i.length = s.length ∧ o.length = s.length ∧ e.length = s.length
  | [], [], [], [], _ => ⟨rfl, rfl, rfl⟩
  | _ :: i, _ :: o, _ :: s, _ :: e, h => by
    have := padFits_zip i o s e h.2
    simp [this.1, this.2]

/-- A pad reads its operand inside the operand's shape only. -/
theorem padT_congr' {α : Type} (z : α) : ∀ (s n : List Nat) (f g : List Nat → α) (idx : List Nat), s.length = n.length → idx.length = n.length →
    (∀ j, InShape n j → f j = g j) → padT z s n f idx = padT z s n g idx
  | [], [], f, g, idx, _, _, h => by unfold padT; exact h [] trivial
  | s :: ss, n :: ns, f, g, i :: idx, h1, h2, h => by
    unfold padT
    split
    · rename_i hc
      exact padT_congr' z ss ns _ _ idx (by simpa using h1) (by simpa using h2) fun j hj => h _ ⟨by omega, hj⟩
    · rfl
  | _ :: _, [], _, _, _, h1, _, _ => by simp at h1
  | [], _ :: _, _, _, _, h1, _, _ => by simp at h1
  | _ :: _, _ :: _, _, _, [], _, h2, _ => by simp at h2

theorem hoistP_sound : hoistP.Sound := by
  intro sem iv pre n ns r hiv hg h
  obtain ⟨k, args, ty⟩ := n
  unfold hoistP at h
  simp only at h
  split at h
  case h_2 => cases h
  rename_i perm v
  split at h
  case h_2 => cases h
  rename_i q8 zp p x mt hd
  split at h
  case h_2 => cases h
  rename_i tshape pad' hho
  obtain ⟨rfl, rfl⟩ := Prod.mk.inj (Option.some.inj h)
  obtain ⟨⟨c, a, c', ha, h1, h2, h3⟩, hdk, hh, hval⟩ := matched hiv hg rfl hd sem
  obtain ⟨rfl, rfl⟩ : mt = a ∧ c = c' := by simpa using ha
  refine ⟨rfl, ?_⟩
  have hx := hh x (by simp)
  obtain ⟨b, cb, hb, g1, g2, g3, g4⟩ := hdk
  have hbt : b = tyOf (iv.map (·.1)) pre x := by
    have := congrArg (fun l => l.map (·.1)) hb
    simp only [List.map_cons, List.map_nil, List.cons.injEq, and_true] at this
    rw [← this, tyOf_ctx]
  subst hbt
  obtain ⟨xt, hxt⟩ : ∃ xt, xt = tyOf (iv.map (·.1)) pre x := ⟨_, rfl⟩
  obtain ⟨D, hD⟩ : ∃ D, D = ((evalNodes sem pre iv).getD x dfl).2 := ⟨_, rfl⟩
  rw [← hxt] at hho g1 g2 g3 g4
  rw [← hxt, ← hD] at hx
  obtain ⟨f1, f2, f3⟩ := padFits_zip _ _ _ _ g2
  have hho' := hho
  unfold Transpose.hoist at hho'
  split at hho'
  case isFalse => cases hho'
  rename_i hcond
  simp only [Bool.and_eq_true] at hcond
  obtain ⟨hperm, hpad⟩ := hcond
  have hperm : perm = [0, 2, 3, 1] := by
    unfold Transpose.isNWCH at hperm
    have := eq_of_beq hperm
    match perm, this with
    | [a, b, c, d], this =>
      simp only [List.map_cons, List.map_nil, List.cons.injEq, Int.ofNat_eq_natCast, and_true] at this
      obtain ⟨e1, e2, e3, e4⟩ := this
      have : a = 0 ∧ b = 2 ∧ c = 3 ∧ d = 1 := by omega
      obtain ⟨rfl, rfl, rfl, rfl⟩ := this
      rfl
  unfold Transpose.isPad11 at hpad
  have hpad := eq_of_beq hpad
  obtain ⟨he, hod⟩ := pairs_eq hpad f3.symm
  obtain ⟨ht, hpd⟩ := Prod.mk.inj (Option.some.inj hho')
  simp only [List.map_cons, List.map_nil] at he hod
  have hlen4 : xt.shape.length = 4 := by rw [f1, he]; rfl
  have hC15 := fun z : List Byte => Transpose.C15_hoist_transpose z (elemAt xt D) xt.shape hlen4 perm _ _ _ (hpad ▸ hho)
  -- shapes
  obtain ⟨xs, xd⟩ := xt
  simp only at hlen4 ht
  match xs, hlen4 with
  | [a, b, c2, e], _ =>
  subst hperm
  rw [he, hod] at g2
  obtain ⟨ms, md⟩ := mt
  simp only at g1 g2 g3 g4 h1 h2 h3
  match ms, g2 with
  | [m1, m2, m3, m4], g2 =>
  simp only [PadFits, and_true] at g2
  obtain ⟨j1, j2, j3, j4⟩ := g2
  simp only [Int.toNat_zero, Int.toNat_one, Nat.zero_add, Nat.add_zero] at j1 j2 j3 j4
  subst j1 j2
  obtain ⟨ts, td⟩ := ty
  simp only at h1 h3
  simp [Transpose.transposeShape] at h3
  simp only [List.getD_cons_zero, List.getD_cons_succ] at ht
  subst h3 h1 ht hpd g1
  have hpos : 0 < m1 ∧ 0 < m2 ∧ 0 < c2 ∧ 0 < e := ⟨g3 _ (by simp), g3 _ (by simp), g3 _ (by simp), g3 _ (by simp)⟩
  have hstep1 := unary_step (good_prefix hg) (.transpose [0, 2, 3, 1]) ⟨[m1, c2, e, m2], xd⟩ hx (by
    intro c
    refine ⟨_, c, rfl, rfl, ⟨rfl, ?_⟩, ?_⟩
    · intro d hd
      simp at hd
      have : d = 0 ∨ d = 1 ∨ d = 2 ∨ d = 3 := by omega
      rcases this with rfl | rfl | rfl | rfl <;> simp
    · rfl)
  have hstep2 := unary_step hstep1.good (.pad q8 zp (unRows [(0, 0), (1, 1), (1, 1), (0, 0)])) ⟨[m1, m3, m4, m2], xd⟩ hstep1.holds (by
    intro c
    refine ⟨_, c, rfl, rfl, ?_, ?_, ?_⟩
    · refine ⟨?_, ?_, ?_, ?_, trivial⟩ <;> simp [unRows, evens, odds] <;> omega
    · intro n hn
      simp only [List.mem_cons, List.not_mem_nil, or_false] at hn
      rcases hn with rfl | rfl | rfl | rfl <;> omega
    · intro hq
      exact ⟨(g4 hq).1, fun _ => .inl rfl⟩)
  have hfin := hstep1.trans hstep2
  rw [hval]
  simp only [List.map_cons, List.map_nil]
  rw [← hxt, ← hD]
  have hvaleq : eval sem (.transpose [0, 2, 3, 1]) ⟨[m1, m3, m4, m2], xd⟩ [((⟨[m1, m2, m3, m4], xd⟩ : Ty), eval sem (.pad q8 zp p) ⟨[m1, m2, m3, m4], xd⟩ [((⟨[m1, m2, c2, e], xd⟩ : Ty), D)])] =
      eval sem (.pad q8 zp (unRows [(0, 0), (1, 1), (1, 1), (0, 0)])) ⟨[m1, m3, m4, m2], xd⟩ [((⟨[m1, c2, e, m2], xd⟩ : Ty),
        eval sem (.transpose [0, 2, 3, 1]) ⟨[m1, c2, e, m2], xd⟩ [((⟨[m1, m2, c2, e], xd⟩ : Ty), D)])] := by
    have z := hC15 (List.replicate xd (UInt8.ofInt zp))
    have e1 : eval sem (.pad q8 zp p) ⟨[m1, m2, m3, m4], xd⟩ [((⟨[m1, m2, c2, e], xd⟩ : Ty), D)] =
        bytesOf ⟨[m1, m2, m3, m4], xd⟩ (padT (List.replicate xd (UInt8.ofInt zp)) (evens p) [m1, m2, c2, e] (elemAt ⟨[m1, m2, c2, e], xd⟩ D)) := rfl
    rw [e1, eval_transpose sem _ _ _ _ (by exact h2) (by simp [Transpose.transposeShape]) (fun i _ => length_padT (d := xd) (by simp) _ _ _ _ fun i => length_elemAt _ _ _)]
    unfold eval
    refine bytesOf_congr fun idx hidx => ?_
    rw [he]
    have hz := z.2.2 idx (by
      rw [z.2.1]
      simp only at hidx
      have e2 : Transpose.transposeShape [0, 2, 3, 1] (Transpose.padShape [(0, 0), (0, 0), (1, 1), (1, 1)] [m1, m2, c2, e]) = [m1, m3, m4, m2] := by
        simp [Transpose.padShape, Transpose.transposeShape]; omega
      rw [e2]
      exact hidx)
    refine hz.symm.trans ?_
    obtain ⟨g, hgdef⟩ : ∃ g, g = Transpose.transposeT [0, 2, 3, 1] (elemAt ⟨[m1, m2, c2, e], xd⟩ D) := ⟨_, rfl⟩
    have hgl : ∀ i, (g i).length = xd := by rw [hgdef]; intro i; exact length_elemAt _ _ _
    show padT _ [0, 1, 1, 0] [m1, c2, e, m2] (Transpose.transposeT [0, 2, 3, 1] (elemAt ⟨[m1, m2, c2, e], xd⟩ D)) idx =
      padT _ [0, 1, 1, 0] [m1, c2, e, m2] (elemAt ⟨[m1, c2, e, m2], xd⟩ (bytesOf ⟨[m1, c2, e, m2], xd⟩
        (Transpose.transposeT [0, 2, 3, 1] (elemAt ⟨[m1, m2, c2, e], xd⟩ D)))) idx
    rw [← hgdef]
    exact padT_congr' _ [0, 1, 1, 0] [m1, c2, e, m2] _ _ idx rfl (length_inShape hidx :) fun j hj =>
      (elemAt_bytesOf ⟨[m1, c2, e, m2], xd⟩ g (fun i _ => hgl i) j hj).symm
  rw [hvaleq]
  simpa [Exp.emit, Nat.add_assoc] using hfin

theorem lows_eq_evens : ∀ (p : List Nat), 2 ∣ p.length → TFL.lows p = evens p
  | [], _ => rfl
  | [_], h => by simp at h
  | a :: b :: r, h => by
    simp only [TFL.lows, evens]
    rw [lows_eq_evens r (by simp only [List.length_cons] at h; omega)]

theorem padFits_padded : ∀ (p ns out : List Nat), p.length = 2 * ns.length → (PadFits ns out (evens p) (odds p) ↔ out = TFL.padded ns p)
  | [], [], out, _ => by cases out <;> simp [PadFits, evens, odds, TFL.padded]
  | a :: b :: r, n :: ns, out, h => by
    cases out with
    | nil => simp [PadFits, evens, odds, TFL.padded]
    | cons o out =>
      simp only [evens, odds, PadFits, TFL.padded, List.cons.injEq]
      rw [padFits_padded r ns out (by simp only [List.length_cons] at h; omega)]
      constructor
      · rintro ⟨h1, h2⟩; exact ⟨by omega, h2⟩
      · rintro ⟨h1, h2⟩; exact ⟨by omega, h2⟩
  | [_], ns, _, h => by simp at h; omega
  | [], _ :: _, _, h => by simp at h
  | _ :: _ :: _, [], _, h => by simp at h

theorem swapP_sound : swapP.Sound := by
  intro sem iv pre n ns r hiv hg h
  obtain ⟨k, args, ty⟩ := n
  unfold swapP at h
  simp only at h
  split at h
  case h_2 => cases h
  rename_i q8 zp po v
  split at h
  case h_2 => cases h
  rename_i q8' zp' pi x mt hd
  split at h
  case isFalse => cases h
  rename_i hqz
  obtain ⟨rfl, rfl⟩ := hqz
  split at h
  case h_2 => cases h
  rename_i t hsw
  obtain ⟨rfl, rfl⟩ := Prod.mk.inj (Option.some.inj h)
  obtain ⟨⟨c, a, c', ha, h1, h2, h3, h4⟩, hdk, hh, hval⟩ := matched hiv hg rfl hd sem
  obtain ⟨rfl, rfl⟩ : mt = a ∧ c = c' := by simpa using ha
  refine ⟨rfl, ?_⟩
  have hx := hh x (by simp)
  obtain ⟨b, cb, hb, g1, g2, g3, g4⟩ := hdk
  have hbt : b = tyOf (iv.map (·.1)) pre x := by
    have := congrArg (fun l => l.map (·.1)) hb
    simp only [List.map_cons, List.map_nil, List.cons.injEq, and_true] at this
    rw [← this, tyOf_ctx]
  subst hbt
  obtain ⟨xt, hxt⟩ : ∃ xt, xt = tyOf (iv.map (·.1)) pre x := ⟨_, rfl⟩
  obtain ⟨D, hD⟩ : ∃ D, D = ((evalNodes sem pre iv).getD x dfl).2 := ⟨_, rfl⟩
  rw [← hxt] at hsw g1 g2 g3 g4
  rw [← hxt, ← hD] at hx
  obtain ⟨f1, f2, f3⟩ := padFits_zip _ _ _ _ g2
  obtain ⟨f1', f2', f3'⟩ := padFits_zip _ _ _ _ h2
  have hsw' := hsw
  unfold TFL.swapPads at hsw'
  split at hsw'
  case isFalse => cases hsw'
  rename_i hcond
  simp only [Bool.and_eq_true] at hcond
  obtain ⟨hsp, hch⟩ := hcond
  have hpil : pi.length = 8 := by
    unfold TFL.hasOnlySpatialPadding at hsp
    split at hsp
    · cases hsp
    · rename_i h8; simpa using h8
  have hpol : po.length = 8 := by
    unfold TFL.hasOnlyChannelPadding at hch
    split at hch
    · cases hch
    · rename_i h8; simpa using h8
  have hxl : xt.shape.length = 4 := by
    rw [f1]
    match pi, hpil with
    | [_, _, _, _, _, _, _, _], _ => rfl
  have hml : mt.shape.length = 4 := by rw [f2, ← f1, hxl]
  have hmid := (padFits_padded pi xt.shape mt.shape (by rw [hpil, hxl])).1 g2
  have hout := (padFits_padded po mt.shape ty.shape (by rw [hpol, hml])).1 h2
  have ht : t.inner = po ∧ t.outer = pi := by
    have := Option.some.inj hsw'
    rw [← this]
    exact ⟨rfl, rfl⟩
  have C := fun z : List Byte => TFL.C43_pads_swapped z (elemAt xt D) xt.shape ⟨pi, mt.shape, po, ty.shape⟩ t hxl hmid hout hsw
  obtain ⟨ti, tm, to_, tout⟩ := t
  simp only at ht C
  obtain ⟨rfl, rfl⟩ := ht
  obtain ⟨c1, c2, c3, -⟩ := C []
  rw [c3] at c2
  have hd1 : xt.d = ty.d := by rw [g1, h1]
  have htl : tm.length = 4 := by
    rw [c1]
    match xt.shape, hxl, ti, hpol with
    | [_, _, _, _], _, [_, _, _, _, _, _, _, _], _ => rfl
  have hch3 : mt.shape.getD 3 0 = xt.shape.getD 3 0 := by
    rw [hmid]
    unfold TFL.hasOnlySpatialPadding at hsp
    match xt.shape, hxl, to_, hpil with
    | [a, b, c, d], _, [p0, p1, p2, p3, p4, p5, p6, p7], _ =>
      simp at hsp
      simp [TFL.padded]
      omega
  have hp6 : to_.getD 6 0 = 0 := by
    unfold TFL.hasOnlySpatialPadding at hsp
    match to_, hpil with
    | [p0, p1, p2, p3, p4, p5, p6, p7], _ =>
      simp at hsp
      simp; omega
  have hstep1 := unary_step (good_prefix hg) (.pad q8' zp' ti) ⟨tm, ty.d⟩ hx (by
    intro c
    refine ⟨_, c, rfl, hd1, (padFits_padded ti xt.shape tm (by rw [hpol, hxl])).2 c1, g3, ?_⟩
    intro hq
    refine ⟨(g4 hq).1, fun hl => ?_⟩
    rw [← hch3]
    exact (h4 hq).2 hl)
  have hstep2 := unary_step hstep1.good (.pad q8' zp' to_) ty hstep1.holds (by
    intro c
    refine ⟨_, c, rfl, rfl, (padFits_padded to_ tm ty.shape (by rw [hpil, htl])).2 c2, ?_, ?_⟩
    · intro n hn
      simp only at hn
      rw [c1] at hn
      match hxs : xt.shape, hxl, ti, hpol with
      | [a, b, c, d], _, [p0, p1, p2, p3, p4, p5, p6, p7], _ =>
        rw [hxs] at hn g3
        have := g3 a (by simp)
        have := g3 b (by simp)
        have := g3 c (by simp)
        have := g3 d (by simp)
        simp [TFL.padded] at hn
        omega
    · intro hq
      exact ⟨by rw [← hd1]; exact (g4 hq).1, fun _ => .inl hp6⟩)
  have hfin := hstep1.trans hstep2
  rw [hval]
  simp only [List.map_cons, List.map_nil]
  rw [← hxt, ← hD]
  have hvaleq : eval sem (.pad q8' zp' ti) ty [(mt, eval sem (.pad q8' zp' to_) mt [(xt, D)])] =
      eval sem (.pad q8' zp' to_) ty [((⟨tm, ty.d⟩ : Ty), eval sem (.pad q8' zp' ti) ⟨tm, ty.d⟩ [(xt, D)])] := by
    obtain ⟨z, hz⟩ : ∃ z, z = List.replicate xt.d (UInt8.ofInt zp') := ⟨_, rfl⟩
    have hzl : z.length = xt.d := by rw [hz]; simp
    have e1 : eval sem (.pad q8' zp' to_) mt [(xt, D)] = bytesOf mt (padT z (evens to_) xt.shape (elemAt xt D)) := by rw [hz]; rfl
    have e2 : eval sem (.pad q8' zp' ti) ⟨tm, ty.d⟩ [(xt, D)] = bytesOf ⟨tm, ty.d⟩ (padT z (evens ti) xt.shape (elemAt xt D)) := by rw [hz]; rfl
    rw [e1, e2]
    have e3 : ∀ B, eval sem (.pad q8' zp' ti) ty [(mt, B)] = bytesOf ty (padT z (evens ti) mt.shape (elemAt mt B)) := by rw [hz, g1]; intro B; rfl
    have e4 : ∀ B, eval sem (.pad q8' zp' to_) ty [((⟨tm, ty.d⟩ : Ty), B)] = bytesOf ty (padT z (evens to_) tm (elemAt ⟨tm, ty.d⟩ B)) := by rw [hz, hd1]; intro B; rfl
    rw [e3, e4]
    refine bytesOf_congr fun idx hidx => ?_
    have hil := length_inShape hidx
    have hl1 : ∀ i, (padT z (evens to_) xt.shape (elemAt xt D) i).length = mt.d := fun i => (length_padT (d := xt.d) hzl _ _ _ _ fun i => length_elemAt _ _ _).trans g1
    have hl2 : ∀ i, (padT z (evens ti) xt.shape (elemAt xt D) i).length = ty.d := fun i => (length_padT (d := xt.d) hzl _ _ _ _ fun i => length_elemAt _ _ _).trans hd1
    have hev : ∀ q : List Nat, q.length = 8 → (evens q).length = 4 := by
      intro q hq
      match q, hq with
      | [_, _, _, _, _, _, _, _], _ => rfl
    have htyl : ty.shape.length = 4 := by rw [f2', ← f1', hml]
    rw [padT_congr' z (evens ti) mt.shape (elemAt mt _) (padT z (evens to_) xt.shape (elemAt xt D)) idx (by rw [hev _ hpol, hml]) (by rw [hil, htyl, hml])
      fun j hj => elemAt_bytesOf mt _ (fun i _ => hl1 i) j hj]
    rw [padT_congr' z (evens to_) tm (elemAt ⟨tm, ty.d⟩ _) (padT z (evens ti) xt.shape (elemAt xt D)) idx (by rw [hev _ hpil, htl]) (by rw [hil, htyl, htl])
      fun j hj => elemAt_bytesOf ⟨tm, ty.d⟩ _ (fun i _ => hl2 i) j hj]
    have := (C z).2.2.2 idx hidx
    rw [lows_eq_evens to_ (by rw [hpil]; decide), lows_eq_evens ti (by rw [hpol]; decide)] at this
    exact this.symm
  rw [hvaleq]
  simpa [Exp.emit, Nat.add_assoc] using hfin

/-! ### Quantise above a concatenation -/

/-- Element-wise operators on a list of values. -/
theorem elementwise_steps (k dd : Nat) : ∀ (zs : List (Nat × Ty × List Byte)) (e : Exp), EGood iv e → (∀ z ∈ zs, EHolds sem iv e z.1 z.2.1 z.2.2) →
    EGood iv ⟨e.n0, e.nodes ++ zs.map fun z => ⟨.elementwise k, [z.1], ⟨z.2.1.shape, dd⟩⟩⟩ ∧
    ∀ i z, zs[i]? = some z → EHolds sem iv ⟨e.n0, e.nodes ++ zs.map fun z => ⟨.elementwise k, [z.1], ⟨z.2.1.shape, dd⟩⟩⟩ (e.n0 + e.nodes.length + i)
      ⟨z.2.1.shape, dd⟩ (eval sem (.elementwise k) ⟨z.2.1.shape, dd⟩ [z.2])
  | [], e, hg, _ => ⟨by simpa using hg, by simp⟩
  | z :: zs, e, hg, hz => by
    have h1 := unary_step hg (.elementwise k) ⟨z.2.1.shape, dd⟩ (hz z (by simp)) (fun c => ⟨_, c, rfl, rfl⟩)
    have ih := elementwise_steps k dd zs (e.emit ⟨.elementwise k, [z.1], ⟨z.2.1.shape, dd⟩⟩).1 h1.good fun y hy => (hz y (by simp [hy])).mono hg ⟨_, rfl⟩
    have ee : (⟨(e.emit ⟨.elementwise k, [z.1], ⟨z.2.1.shape, dd⟩⟩).1.n0, (e.emit ⟨.elementwise k, [z.1], ⟨z.2.1.shape, dd⟩⟩).1.nodes ++
        zs.map fun z => ⟨.elementwise k, [z.1], ⟨z.2.1.shape, dd⟩⟩⟩ : Exp) = ⟨e.n0, e.nodes ++ (z :: zs).map fun z => ⟨.elementwise k, [z.1], ⟨z.2.1.shape, dd⟩⟩⟩ := by
      simp [Exp.emit]
    rw [ee] at ih
    refine ⟨ih.1, ?_⟩
    intro i y hy
    cases i with
    | zero =>
      simp only [List.getElem?_cons_zero, Option.some.injEq] at hy
      subst hy
      refine h1.holds.mono h1.good ⟨zs.map fun z => ⟨.elementwise k, [z.1], ⟨z.2.1.shape, dd⟩⟩, ?_⟩
      rw [← ee]
    | succ i =>
      have := ih.2 i y (by simpa using hy)
      simp only [Exp.emit, List.length_append, List.length_cons, List.length_nil] at this
      rw [show e.n0 + e.nodes.length + (i + 1) = e.n0 + (e.nodes.length + (0 + 1)) + i by omega]
      exact this

/-- An operator on elements, before or after a concatenation. -/
theorem concat_elementwise (sem : Sem) (k dd : Nat) (pre post : List Nat) (d : Nat) : ∀ (zs : List (Ty × List Byte)), (∀ z ∈ zs, ∃ n, z.1 = ⟨pre ++ n :: post, d⟩) →
    ∀ (u : List Nat) (i : Nat) (w : List Nat), InShape pre u → InShape post w → i < (zs.map fun z => z.1.shape.getD pre.length 0).sum →
    fit dd (sem k [concatT pre.length (cIn pre.length zs) (u ++ i :: w)]) =
      concatT pre.length (cIn pre.length (zs.map fun z => ((⟨z.1.shape, dd⟩ : Ty), eval sem (.elementwise k) ⟨z.1.shape, dd⟩ [z]))) (u ++ i :: w)
  | [], _, u, i, w, _, _, hi => by simp at hi
  | z :: zs, hz, u, i, w, hu, hw, hi => by
    obtain ⟨n, hn⟩ := hz z (by simp)
    have hsz : z.1.shape.getD pre.length 0 = n := by rw [hn]; simp
    simp only [cIn, List.map_cons]
    rw [concatT_cons _ _ _ _ _ _ _ (length_inShape hu), concatT_cons _ _ _ _ _ _ _ (length_inShape hu), hsz]
    split
    · rename_i hin
      have hin' : InShape z.1.shape (u ++ i :: w) := by rw [hn]; exact inShape_join _ _ _ _ _ _ hu hin hw
      unfold eval
      exact (elemAt_bytesOf ⟨z.1.shape, dd⟩ (fun j => fit dd (sem k [elemAt z.1 z.2 j])) (fun j _ => length_fit _ _) _ hin').symm
    · rename_i hin
      refine concat_elementwise sem k dd pre post d zs (fun y hy => hz y (by simp [hy])) u (i - n) w hu hw ?_
      simp only [List.map_cons, List.sum_cons, hsz] at hi
      omega

theorem quantP_sound : quantP.Sound := by
  intro sem iv pre n ns r hiv hg h
  obtain ⟨kk, args, ty⟩ := n
  unfold quantP at h
  simp only at h
  split at h
  case h_2 => cases h
  rename_i k v
  split at h
  case h_2 => cases h
  rename_i axis xs ct hd
  split at h
  case isTrue => cases h
  rename_i hne
  obtain ⟨rfl, rfl⟩ := Prod.mk.inj (Option.some.inj h)
  obtain ⟨⟨c, a, c', ha, h1⟩, hdk, hh, hval⟩ := matched hiv hg rfl hd sem
  obtain ⟨rfl, rfl⟩ : ct = a ∧ c = c' := by simpa using ha
  refine ⟨rfl, ?_⟩
  simp only at hdk hh hval
  obtain ⟨zs, hzs⟩ : ∃ zs : List (Nat × Ty × List Byte), zs = xs.map fun x => (x, tyOf (iv.map (·.1)) pre x, ((evalNodes sem pre iv).getD x dfl).2) := ⟨_, rfl⟩
  have hzh : ∀ z ∈ zs, EHolds sem iv ⟨iv.length, pre⟩ z.1 z.2.1 z.2.2 := by
    intro z hz
    rw [hzs] at hz
    obtain ⟨x, hx, rfl⟩ := List.mem_map.1 hz
    exact hh x hx
  obtain ⟨hge, hhe⟩ := elementwise_steps (sem := sem) k ty.d zs ⟨iv.length, pre⟩ (good_prefix hg) hzh
  obtain ⟨e1, he1⟩ : ∃ e1 : Exp, e1 = ⟨iv.length, pre ++ zs.map fun z => ⟨.elementwise k, [z.1], ⟨z.2.1.shape, ty.d⟩⟩⟩ := ⟨_, rfl⟩
  simp only at hge hhe
  rw [← he1] at hge hhe
  obtain ⟨m, hm⟩ : ∃ m, m = iv.length + pre.length := ⟨_, rfl⟩
  rw [← hm] at hhe
  -- the operands of the new concatenation
  obtain ⟨ys, hys⟩ : ∃ ys : List (Nat × Ty × List Byte), ys = zs.mapIdx fun i z => (m + i, (⟨z.2.1.shape, ty.d⟩ : Ty), eval sem (.elementwise k) ⟨z.2.1.shape, ty.d⟩ [z.2]) := ⟨_, rfl⟩
  have hyh : ∀ y ∈ ys, EHolds sem iv e1 y.1 y.2.1 y.2.2 := by
    intro y hy
    rw [hys] at hy
    obtain ⟨i, hi, rfl⟩ := List.mem_mapIdx.1 hy
    exact hhe i _ (List.getElem?_eq_getElem hi)
  have hy1 : ys.map (·.1) = List.range' m xs.length := by
    apply List.ext_getElem?
    intro i
    rw [hys, List.getElem?_map, List.getElem?_mapIdx]
    rcases Nat.lt_or_ge i zs.length with hi | hi
    · rw [List.getElem?_eq_getElem hi, List.getElem?_range' (by rw [hzs] at hi; simpa using hi)]
      simp
    · rw [List.getElem?_eq_none hi, List.getElem?_eq_none (by rw [hzs] at hi; simpa using hi)]
      rfl
  have hy2 : ys.map (·.2) = (zs.map (·.2)).map fun z => ((⟨z.1.shape, ty.d⟩ : Ty), eval sem (.elementwise k) ⟨z.1.shape, ty.d⟩ [z]) := by
    apply List.ext_getElem?
    intro i
    rw [hys, List.getElem?_map, List.getElem?_mapIdx, List.getElem?_map, List.getElem?_map]
    cases zs[i]? <;> rfl
  obtain ⟨cp, cq, hfit, hax⟩ := hdk
  have hct : (xs.map fun x => ((⟨iv.length, pre⟩ : Exp).ctx iv).getD x dflF).map (·.1) = (zs.map (·.2)).map (·.1) := by
    rw [hzs]
    simp only [List.map_map]
    apply List.map_congr_left
    intro x _
    exact tyOf_ctx (iv := iv) (e := ⟨iv.length, pre⟩) x
  rw [hct] at hfit
  have hfit' : ConcatFits cp cq ty.d ((ys.map (·.2)).map (·.1)) ⟨ct.shape, ty.d⟩ := by
    obtain ⟨q1, q2⟩ := hfit
    rw [hy2]
    refine ⟨?_, ?_⟩
    · intro a ha
      simp only [List.map_map, List.mem_map, Function.comp_def] at ha
      obtain ⟨z, hz, rfl⟩ := ha
      obtain ⟨n, hn⟩ := q1 z.2.1 (by simp only [List.map_map, List.mem_map, Function.comp_def]; exact ⟨z, hz, rfl⟩)
      exact ⟨n, by rw [hn]⟩
    · rw [q2]
      simp only [List.map_map, Function.comp_def]
  have hax' : axis = cp.length ∨ axis = (cp.length : Int) - (cp.length + 1 + cq.length) := by
    rcases hax with h | h
    · exact .inl h
    · exact .inr h.1
  have hyt : ((ys.map fun z => (e1.ctx iv).getD z.1 (⟨[], 0⟩, false)).map (·.1)) = (ys.map (·.2)).map (·.1) := by
    simp only [List.map_map]
    apply List.map_congr_left
    intro y hy
    exact (hyh y hy).ctx hge
  have hlen : ys.length = xs.length := by rw [hys, hzs]; simp
  have hok : (Kind.concat axis).OK (ys.map fun z => (e1.ctx iv).getD z.1 (⟨[], 0⟩, false)) ⟨ct.shape, ty.d⟩ := by
    refine ⟨cp, cq, by rw [hyt]; exact hfit', ?_⟩
    simpa [hlen] using hax
  have hstep := emit_estep (sem := sem) hge (.concat axis) ⟨ct.shape, ty.d⟩ ys hyh hok
    (length_eval (sem := sem) _ _ _ _ hok hyt)
  have hty : (⟨ct.shape, ty.d⟩ : Ty) = ty := by
    cases ty
    simp only at h1
    rw [h1]
  have hvaleq : eval sem (.elementwise k) ty [(ct, eval sem (.concat axis) ct (zs.map (·.2)))] = eval sem (.concat axis) ⟨ct.shape, ty.d⟩ (ys.map (·.2)) := by
    rw [(eval_concat sem cp cq ct.d ct _ axis hfit hax').1, (eval_concat sem cp cq ty.d ⟨ct.shape, ty.d⟩ _ axis hfit' hax').1]
    rw [show eval sem (.elementwise k) ty [(ct, bytesOf ct (concatT cp.length (cIn cp.length (zs.map (·.2)))))] =
      bytesOf ty (fun idx => fit ty.d (sem k [elemAt ct (bytesOf ct (concatT cp.length (cIn cp.length (zs.map (·.2))))) idx])) from rfl, hty]
    refine bytesOf_congr fun idx hidx => ?_
    have hidc : InShape ct.shape idx := by rw [h1]; exact hidx
    rw [elemAt_bytesOf ct _ (eval_concat sem cp cq ct.d ct _ axis hfit hax').2 idx hidc, hy2]
    obtain ⟨q1, q2⟩ := hfit
    rw [q2] at hidc
    obtain ⟨u, i, w, rfl, hu, hi, hw⟩ := inShape_split _ _ _ _ hidc
    refine concat_elementwise sem k ty.d cp cq ct.d (zs.map (·.2)) ?_ u i w hu hw (by simpa [List.map_map, Function.comp_def] using hi)
    intro z hz
    exact q1 z.1 (List.mem_map.2 ⟨z, hz, rfl⟩)
  rw [hval]
  simp only
  rw [show (xs.map fun x => (tyOf (iv.map (·.1)) pre x, ((evalNodes sem pre iv).getD x dfl).2)) = zs.map (·.2) by rw [hzs]; simp, hvaleq]
  rw [hty] at hstep ⊢
  refine ⟨⟨_, rfl⟩, ?_, ?_⟩
  · have := hstep.good
    rw [he1] at this
    simp only [Exp.emit] at this
    rw [hy1, hzs] at this
    simpa [Function.comp_def, hm, List.append_assoc] using this
  · have := hstep.holds
    rw [he1] at this
    simp only [Exp.emit] at this
    rw [hy1, hzs] at this
    simpa [Function.comp_def, hm, List.append_assoc, Nat.add_assoc] using this

/-! ### Any number of rewrites -/

theorem patterns_sound : ∀ P ∈ patterns, P.Sound := by
  intro P hP
  simp only [patterns, List.mem_cons, List.not_mem_nil, or_false] at hP
  rcases hP with rfl | rfl | rfl | rfl
  · exact hoistP_sound
  · exact cancelP_sound
  · exact swapP_sound
  · exact quantP_sound

theorem zip_lengths : ∀ {inputs : List Ty} {ins : List (List Byte)}, ins.map List.length = inputs.map Ty.size →
    (∀ x ∈ inputs.zip ins, x.2.length = x.1.size) ∧ (inputs.zip ins).map (·.1) = inputs ∧ (inputs.zip ins).length = inputs.length
  | [], ins, h => by simp
  | t :: inputs, [], h => by simp at h
  | t :: inputs, d :: ins, h => by
    simp only [List.map_cons, List.cons.injEq] at h
    obtain ⟨h1, h2, h3⟩ := zip_lengths h.2
    refine ⟨?_, by simp [h2], by simp [h3]⟩
    intro x hx
    simp only [List.zip_cons_cons, List.mem_cons] at hx
    rcases hx with rfl | hx
    · exact h.1
    · exact h1 x hx

theorem rw_stepC {C : Sem → Prop} {sem0 : Sem} (h0C : C sem0) {ps : List Pattern} (hps : ∀ P ∈ ps, P.SoundFor C) {N N' : Network} (h : Rw ps N N') (hN : N.OK) :
    N'.OK ∧ N'.inputs = N.inputs ∧ N'.outputs.length = N.outputs.length ∧
    ∀ (sem : Sem) (ins : List (List Byte)), C sem → ins.map List.length = N.inputs.map Ty.size → N'.result sem ins = N.result sem ins := by
  cases h with
  | apply P inputs pre n post outs ns r hP hm =>
    have hnodes := hN.nodes
    simp only at hnodes
    rw [show pre ++ n :: post = (pre ++ [n]) ++ post by simp, nodesOK_append] at hnodes
    have step : ∀ (sem : Sem) (ins : List (List Byte)), C sem → ins.map List.length = inputs.map Ty.size →
        n.kind.isConst = false ∧ EStep sem (inputs.zip ins) ⟨inputs.length, pre⟩ (⟨inputs.length, pre ++ ns⟩, r) n.ty
          (eval sem n.kind n.ty (n.args.map fun v => (evalNodes sem pre (inputs.zip ins)).getD v dfl)) := by
      intro sem ins hC hins
      obtain ⟨z1, z2, z3⟩ := zip_lengths hins
      have := hps P hP sem (inputs.zip ins) pre n ns r hC z1 ⟨rfl, by
        rw [show (inputs.zip ins).map (fun x => (x.1, false)) = inputs.map fun t => (t, false) by
          conv_rhs => rw [← z2]
          rw [List.map_map]; rfl]
        exact hnodes.1⟩ (by rw [z2]; exact hm)
      rw [z3] at this
      exact this
    have h0 := step sem0 (inputs.map fun t => List.replicate t.size 0) h0C (by simp [List.map_map, Function.comp_def])
    obtain ⟨z1, z2, z3⟩ := zip_lengths (inputs := inputs) (ins := inputs.map fun t => List.replicate t.size 0) (by simp [List.map_map, Function.comp_def])
    have := splice_specC C hN (fun _ => True) (fun _ _ _ _ => trivial) (fun _ _ => trivial) (ns := ns) (r := r) (by
      have := h0.2.good.ok
      simp only at this
      rw [show (inputs.zip (inputs.map fun t => List.replicate t.size (0 : Byte))).map (fun x => (x.1, false)) = inputs.map fun t => (t, false) by
          conv_rhs => rw [← z2]
          rw [List.map_map]; rfl] at this
      exact this) (fun _ => by
      refine ⟨?_, h0.1, ?_, ?_⟩
      · have := h0.2.holds.bound
        simp only [List.length_append] at this
        omega
      · have := h0.2.holds.ctx h0.2.good
        rw [tyOf_ctx, z2] at this
        exact this
      · intro sem ins hC hins
        exact (step sem ins hC hins).2.holds.value)
    exact ⟨this.1, rfl, by simp [splice], this.2⟩
  | dead inputs pre n post outs h1 h2 =>
    have hnodes := hN.nodes
    simp only at hnodes
    rw [nodesOK_append] at hnodes
    have := splice_specC C hN (fun v => v ≠ inputs.length + pre.length) (fun n' hn' v hv e => h1 n' hn' (e ▸ hv)) (fun v hv e => h2 (e ▸ hv)) (ns := []) (r := 0)
      (by simpa using hnodes.1) (fun h => absurd rfl h)
    exact ⟨this.1, rfl, by simp [splice], this.2⟩

theorem rw_step {ps : List Pattern} (hps : ∀ P ∈ ps, P.Sound) {N N' : Network} (h : Rw ps N N') (hN : N.OK) :
    N'.OK ∧ N'.inputs = N.inputs ∧ N'.outputs.length = N.outputs.length ∧
    ∀ (sem : Sem) (ins : List (List Byte)), ins.map List.length = N.inputs.map Ty.size → N'.result sem ins = N.result sem ins := by
  have := rw_stepC (C := fun _ => True) (sem0 := fun _ _ => []) trivial (fun P hP => (hps P hP).soundFor _) h hN
  exact ⟨this.1, this.2.1, this.2.2.1, fun sem ins => this.2.2.2 sem ins trivial⟩

/-- **C95.** However the driver applies the patterns and removes operators without users, the network stays well typed, keeps its
arguments and the number of results, and computes the same results. -/
theorem C95_rewrites_keep_network {N N' : Network} (h : Relation.ReflTransGen (Rw patterns) N N') (hN : N.OK) :
    N'.OK ∧ N'.inputs = N.inputs ∧ N'.outputs.length = N.outputs.length ∧
    ∀ (sem : Sem) (ins : List (List Byte)), ins.map List.length = N.inputs.map Ty.size → N'.result sem ins = N.result sem ins := by
  induction h with
  | refl => exact ⟨hN, rfl, rfl, fun _ _ _ => rfl⟩
  | tail _ hs ih =>
    obtain ⟨i1, i2, i3, i4⟩ := ih
    obtain ⟨j1, j2, j3, j4⟩ := rw_step patterns_sound hs i1
    refine ⟨j1, j2.trans i2, j3.trans i3, ?_⟩
    intro sem ins hins
    rw [j4 sem ins (by rw [i2]; exact hins), i4 sem ins hins]

/-- **C95.** The rewritten network, compiled, planned and run in the arena, returns the results of the original one. -/
theorem C95_rewritten_in_arena {N N' : Network} (h : Relation.ReflTransGen (Rw patterns) N N') (hN : N.OK) (skip : Nat → Bool) :
    (∀ v, (N'.func skip).Arena v → ∃ a, planMemory (N'.func skip) = some a) ∧
    ∀ a, planMemory (N'.func skip) = some a →
      ∀ (sem : Sem) (inputs : List (List Byte)) (m : Mem) (c : Env), inputs.map List.length = N.inputs.map Ty.size →
        (arenaTrace (N'.func skip) (devKernels sem (N'.compile skip).1.ops) a.offsets (N'.func skip).ops 0 (loadInputs a.offsets inputs m) c).getLast? =
          some (N.result sem inputs) := by
  obtain ⟨h1, h2, -, h4⟩ := C95_rewrites_keep_network h hN
  obtain ⟨g1, g2⟩ := C83_network_compiled N' h1 skip
  refine ⟨g1, ?_⟩
  intro a ha sem inputs m c hin
  rw [(g2 a ha).2 sem inputs m c (by rw [h2]; exact hin), h4 sem inputs hin]

end Verif.Net
