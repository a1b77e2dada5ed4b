import Verif.Net.QModel
/-! Lemmas on the network under construction: emitted nodes keep earlier values. -/
namespace Verif.Net
open Verif.Tensor Verif.Move Verif.MemPlan Verif.Quant

theorem checkBinary_self (s : List Nat) : checkBinary s s s = true := by
  unfold checkBinary
  rw [(TFL.hasSameShape_iff s s).2 rfl]
  rfl

/-- The check is what its message says: one operand has the shape of the result. -/
theorem checkBinary_iff (a b s : List Nat) : checkBinary a b s = true ↔ b = s ∨ a = s := by
  unfold checkBinary
  rw [← TFL.hasSameShape_iff b s, ← TFL.hasSameShape_iff a s]
  cases TFL.hasSameShape (b.map some) (s.map some) <;> cases TFL.hasSameShape (a.map some) (s.map some) <;> simp

/-! ### Bytes and integers -/

theorem s8_range (b : Byte) : -128 ≤ s8 b ∧ s8 b ≤ 127 := by
  unfold s8 XC.ofU8
  have := b.toNat_lt
  split <;> omega

theorem s8_toByte {v : ℤ} (h : -128 ≤ v ∧ v ≤ 127) : s8 (toByte v) = v := by
  unfold s8 toByte
  have : XC.toU8 v < 256 := by unfold XC.toU8; omega
  rw [UInt8.toNat_ofNat_of_lt' (by simpa using this)]
  exact XC.ofU8_toU8 v h.1 h.2

theorem toU8_s8 (b : Byte) : XC.toU8 (s8 b) = b.toNat := by
  unfold s8 XC.ofU8 XC.toU8
  have := b.toNat_lt
  split <;> omega

theorem toByte_s8 (b : Byte) : toByte (s8 b) = b := by
  unfold toByte
  rw [toU8_s8]
  simp

theorem toByte_ofInt (v : ℤ) : toByte v = UInt8.ofInt v := by
  unfold toByte XC.toU8
  exact ofNat_lane v

/-! ### Evaluation of the network under construction -/

abbrev dfl : Ty × List Byte := (⟨[], 0⟩, [])

theorem evalNodes_append (sem : Sem) : ∀ (l1 l2 : List Node) (vs : List (Ty × List Byte)), evalNodes sem (l1 ++ l2) vs = evalNodes sem l2 (evalNodes sem l1 vs)
  | [], _, _ => rfl
  | n :: l1, l2, vs => by simp only [List.cons_append, evalNodes]; exact evalNodes_append sem l1 l2 _

theorem length_evalNodes (sem : Sem) : ∀ (l : List Node) (vs : List (Ty × List Byte)), (evalNodes sem l vs).length = vs.length + l.length
  | [], _ => rfl
  | n :: l, vs => by simp only [evalNodes]; rw [length_evalNodes sem l]; simp; omega

theorem evalNodes_old (sem : Sem) : ∀ (l : List Node) (vs : List (Ty × List Byte)) (v : Nat), v < vs.length → (evalNodes sem l vs).getD v dfl = vs.getD v dfl
  | [], _, _, _ => rfl
  | n :: l, vs, v, h => by
    simp only [evalNodes]
    rw [evalNodes_old sem l _ v (by simp; omega)]
    simp [List.getD_eq_getElem?_getD, List.getElem?_append_left h]

/-- Types and constness of the values. -/
def Exp.ctx (iv : List (Ty × List Byte)) (e : Exp) : List (Ty × Bool) := iv.map (fun x => (x.1, false)) ++ e.nodes.map fun n => (n.ty, n.kind.isConst)

theorem nodesOK_append : ∀ (l1 l2 : List Node) (vs : List (Ty × Bool)),
    NodesOK (l1 ++ l2) vs ↔ NodesOK l1 vs ∧ NodesOK l2 (vs ++ l1.map fun n => (n.ty, n.kind.isConst))
  | [], _, _ => by simp [NodesOK]
  | n :: l1, l2, vs => by
    simp only [List.cons_append, NodesOK, nodesOK_append l1 l2, List.map_cons, List.append_assoc, List.singleton_append]
    tauto

theorem evalNodes_types (sem : Sem) : ∀ (l : List Node) (vs : List (Ty × List Byte)), (evalNodes sem l vs).map (·.1) = vs.map (·.1) ++ l.map (·.ty)
  | [], _ => by simp [evalNodes]
  | n :: l, vs => by simp only [evalNodes]; rw [evalNodes_types sem l]; simp

/-- The network under construction is well typed. -/
structure EGood (iv : List (Ty × List Byte)) (e : Exp) : Prop where
  n0 : iv.length = e.n0
  ok : NodesOK e.nodes (iv.map fun x => (x.1, false))

/-- Value `v` has type `t` and bytes `D`. -/
structure EHolds (sem : Sem) (iv : List (Ty × List Byte)) (e : Exp) (v : Nat) (t : Ty) (D : List Byte) : Prop where
  bound : v < e.n0 + e.nodes.length
  value : (evalNodes sem e.nodes iv).getD v dfl = (t, D)
  len : D.length = t.size

structure EStep (sem : Sem) (iv : List (Ty × List Byte)) (e : Exp) (r : Exp × Nat) (t : Ty) (D : List Byte) : Prop where
  ext : ∃ extra, r.1 = ⟨e.n0, e.nodes ++ extra⟩
  good : EGood iv r.1
  holds : EHolds sem iv r.1 r.2 t D

variable {sem : Sem} {iv : List (Ty × List Byte)}

theorem EHolds.mono {e e' : Exp} (hg : EGood iv e) (he : ∃ extra, e' = ⟨e.n0, e.nodes ++ extra⟩) {v : Nat} {t : Ty} {D : List Byte}
    (h : EHolds sem iv e v t D) : EHolds sem iv e' v t D := by
  obtain ⟨extra, rfl⟩ := he
  refine ⟨?_, ?_, h.len⟩
  · have := h.bound
    simp only [List.length_append]
    omega
  · simp only
    rw [evalNodes_append, evalNodes_old _ _ _ _ (by rw [length_evalNodes]; have := h.bound; have := hg.n0; omega)]
    exact h.value

theorem EStep.trans {e : Exp} {r r' : Exp × Nat} {t t' : Ty} {D D' : List Byte} (h : EStep sem iv e r t D) (h' : EStep sem iv r.1 r' t' D') :
    EStep sem iv e r' t' D' := by
  obtain ⟨e1, h1⟩ := h.ext
  obtain ⟨e2, h2⟩ := h'.ext
  refine ⟨⟨e1 ++ e2, ?_⟩, h'.good, h'.holds⟩
  rw [h2, h1]
  simp

theorem estep_same {e : Exp} (hg : EGood iv e) {v : Nat} {t : Ty} {D : List Byte} (h : EHolds sem iv e v t D) : EStep sem iv e (e, v) t D :=
  ⟨⟨[], by simp⟩, hg, h⟩

theorem length_ctx {e : Exp} (hg : EGood iv e) : (e.ctx iv).length = e.n0 + e.nodes.length := by
  unfold Exp.ctx
  rw [List.length_append, List.length_map, List.length_map, hg.n0]

theorem EHolds.ctx {e : Exp} {v : Nat} {t : Ty} {D : List Byte} (hg : EGood iv e) (h : EHolds sem iv e v t D) :
    ((e.ctx iv).getD v (⟨[], 0⟩, false)).1 = t := by
  have h1 : (e.ctx iv).map (·.1) = (evalNodes sem e.nodes iv).map (·.1) := by
    rw [evalNodes_types]
    unfold Exp.ctx
    simp [List.map_map, Function.comp_def]
  have h2 := congrArg (fun l => l[v]?) h1
  have hl := length_ctx (iv := iv) (e := e) hg
  have hb := h.bound
  have hl2 : v < (evalNodes sem e.nodes iv).length := by rw [length_evalNodes, hg.n0]; exact hb
  have hv := h.value
  simp only [List.getElem?_map, List.getElem?_eq_getElem (show v < (e.ctx iv).length by omega), List.getElem?_eq_getElem hl2, Option.map_some,
    Option.some.injEq] at h2
  rw [List.getD_eq_getElem?_getD, List.getElem?_eq_getElem hl2] at hv
  rw [List.getD_eq_getElem?_getD, List.getElem?_eq_getElem (show v < (e.ctx iv).length by omega)]
  simp only [Option.getD_some] at hv ⊢
  rw [h2, hv]

theorem ctx_old {e e' : Exp} (hg : EGood iv e) (he : ∃ extra, e' = ⟨e.n0, e.nodes ++ extra⟩) {v : Nat} (hv : v < e.n0 + e.nodes.length) :
    (e'.ctx iv).getD v (⟨[], 0⟩, false) = (e.ctx iv).getD v (⟨[], 0⟩, false) := by
  obtain ⟨extra, rfl⟩ := he
  unfold Exp.ctx
  simp only [List.map_append]
  rw [← List.append_assoc]
  rw [List.getD_eq_getElem?_getD, List.getElem?_append_left, ← List.getD_eq_getElem?_getD]
  simp only [List.length_append, List.length_map]
  have := hg.n0
  omega

/-- A value of the network on the operands `zs`. -/
theorem emit_estep {e : Exp} (hg : EGood iv e) (k : Kind) (ty : Ty) (zs : List (Nat × Ty × List Byte))
    (hz : ∀ z ∈ zs, EHolds sem iv e z.1 z.2.1 z.2.2)
    (hok : k.OK (zs.map fun z => (e.ctx iv).getD z.1 (⟨[], 0⟩, false)) ty)
    (hl : (eval sem k ty (zs.map (·.2))).length = ty.size) :
    EStep sem iv e (e.emit ⟨k, zs.map (·.1), ty⟩) ty (eval sem k ty (zs.map (·.2))) := by
  have hn := hg.n0
  refine ⟨⟨_, rfl⟩, ⟨hn, ?_⟩, ⟨by simp [Exp.emit], ?_, hl⟩⟩
  · simp only [Exp.emit]
    rw [nodesOK_append]
    refine ⟨hg.ok, ?_, ?_, trivial⟩
    · intro v hv
      obtain ⟨z, hz', rfl⟩ := List.mem_map.1 hv
      have := (hz z hz').bound
      simp only [List.length_append, List.length_map]
      omega
    · rw [List.map_map]
      exact hok
  · simp only [Exp.emit]
    rw [evalNodes_append]
    have hlen : (evalNodes sem e.nodes iv).length = e.n0 + e.nodes.length := by rw [length_evalNodes, hn]
    have harg : ((zs.map (·.1)).map fun v => (evalNodes sem e.nodes iv).getD v (⟨[], 0⟩, [])) = zs.map (·.2) := by
      rw [List.map_map]
      apply List.map_congr_left
      intro z hz'
      exact (hz z hz').value
    simp only [evalNodes]
    rw [harg, ← hlen]
    simp

/-! ### Lengths -/

theorem length_eval_other (ip : Bool) (k : Nat) (ty : Ty) (args : List (Ty × List Byte)) : (eval sem (.other ip k) ty args).length = ty.size :=
  length_bytesOf _ _ fun _ => length_elemAt _ _ _

theorem length_eval (k : Kind) (ty : Ty) (args : List (Ty × List Byte)) (as : List (Ty × Bool)) (hok : k.OK as ty) (has : as.map (·.1) = args.map (·.1)) :
    (eval sem k ty args).length = ty.size := by
  have hone : ∀ {x : Ty} {c : Bool}, as = [(x, c)] → ∃ D, args = [(x, D)] := by
    intro x c h
    subst h
    match args, has with
    | [(y, D)], has => simp at has; exact ⟨D, by rw [has]⟩
  cases k with
  | const data => exact length_bytesOf _ _ fun _ => length_elemAt _ _ _
  | slice b s =>
    obtain ⟨x, c, h1, hd, _⟩ := hok
    obtain ⟨D, rfl⟩ := hone h1
    exact length_bytesOf _ _ fun i => (length_elemAt _ _ _).trans hd
  | strided b e' bm em sm =>
    obtain ⟨x, c, h1, hd, _⟩ := hok
    obtain ⟨D, rfl⟩ := hone h1
    exact length_bytesOf _ _ fun i => (length_elemAt _ _ _).trans hd
  | pad q8 zp p =>
    obtain ⟨x, c, h1, hd, _⟩ := hok
    obtain ⟨D, rfl⟩ := hone h1
    exact length_bytesOf _ _ fun i => (length_padT (d := x.d) (by simp) _ _ _ _ fun i => length_elemAt _ _ _).trans hd
  | broadcast =>
    obtain ⟨x, c, h1, hd, _⟩ := hok
    obtain ⟨D, rfl⟩ := hone h1
    exact length_bytesOf _ _ fun i => (length_elemAt _ _ _).trans hd
  | concat axis => exact length_bytesOf _ _ fun i => length_fit _ _
  | reshape => exact length_bytesOf _ _ fun i => length_elemAt _ _ _
  | transpose perm =>
    obtain ⟨x, c, h1, hd, _⟩ := hok
    obtain ⟨D, rfl⟩ := hone h1
    exact length_bytesOf _ _ fun i => (length_elemAt _ _ _).trans hd
  | elementwise k => exact length_bytesOf _ _ fun i => length_fit _ _
  | other ip n => exact length_bytesOf _ _ fun i => length_elemAt _ _ _

/-- The result of an unknown operator whose kernel returns a buffer of the right size. -/
theorem eval_other (ip : Bool) (k : Nat) (ty : Ty) (args : List (Ty × List Byte)) (hargs : ∀ a ∈ args, a.2.length = a.1.size) {D : List Byte}
    (h : sem k (args.map (·.2)) = D) (hl : D.length = ty.size) : eval sem (.other ip k) ty args = D := by
  have : (args.map fun x => (x.1, elemAt x.1 x.2)).map (fun x => bytesOf x.1 x.2) = args.map (·.2) := by
    rw [List.map_map]
    apply List.map_congr_left
    intro a ha
    exact bytesOf_elemAt _ _ (hargs a ha)
  show bytesOf ty (elemAt ty (sem k ((args.map fun x => (x.1, elemAt x.1 x.2)).map fun x => bytesOf x.1 x.2))) = D
  rw [this, h, bytesOf_elemAt _ _ hl]

/-- The unknown operator number `key` on operands with the given bytes. -/
theorem other_estep {e : Exp} (hg : EGood iv e) (ip : Bool) (key : Nat) (ty : Ty) (zs : List (Nat × Ty × List Byte))
    (hz : ∀ z ∈ zs, EHolds sem iv e z.1 z.2.1 z.2.2)
    (hip : ip = true → ∀ z ∈ zs, ((e.ctx iv).getD z.1 (⟨[], 0⟩, false)).2 = true ∨ z.2.1.size ≤ ty.size)
    {D : List Byte} (h : sem key (zs.map (·.2.2)) = D) (hl : D.length = ty.size) :
    EStep sem iv e (e.emit ⟨.other ip key, zs.map (·.1), ty⟩) ty D := by
  have he : eval sem (.other ip key) ty (zs.map (·.2)) = D := by
    apply eval_other
    · intro a ha
      obtain ⟨z, hz', rfl⟩ := List.mem_map.1 ha
      exact (hz z hz').len
    · rw [List.map_map]
      exact h
    · exact hl
  have := emit_estep (sem := sem) hg (.other ip key) ty zs hz (by
    intro hi a ha
    obtain ⟨z, hz', rfl⟩ := List.mem_map.1 ha
    rcases hip hi z hz' with h | h
    · exact Or.inl h
    · right
      rw [(hz z hz').ctx hg]
      exact h) (by rw [he, hl])
  rwa [he] at this

theorem const_estep {e : Exp} (hg : EGood iv e) (data : List Byte) (ty : Ty) (hl : data.length = ty.size) :
    EStep sem iv e (e.emit ⟨.const data, [], ty⟩) ty data ∧
    (((e.emit ⟨.const data, [], ty⟩).1.ctx iv).getD (e.emit ⟨.const data, [], ty⟩).2 (⟨[], 0⟩, false)).2 = true := by
  have he : eval sem (.const data) ty [] = data := bytesOf_elemAt _ _ hl
  have := emit_estep (sem := sem) hg (.const data) ty [] (by simp) ⟨rfl, hl⟩ (by simp only [List.map_nil]; rw [he, hl])
  simp only [List.map_nil] at this
  rw [he] at this
  refine ⟨this, ?_⟩
  unfold Exp.ctx Exp.emit
  simp only [List.map_append]
  rw [← List.append_assoc]
  have : (iv.map (fun x => (x.1, false)) ++ e.nodes.map fun n => (n.ty, n.kind.isConst)).length = e.n0 + e.nodes.length := by
    rw [List.length_append, List.length_map, List.length_map, hg.n0]
  rw [← this]
  simp [Kind.isConst]

/-! ### Elements of 8-bit tensors -/

theorem tensorOf_bytes (t : Ty) (ht : t.d = 1) (f : List Nat → Byte) (idx : List Nat) (h : InShape t.shape idx) :
    tensorOf t (bytesOf t fun i => [f i]) idx = s8 (f idx) := by
  unfold tensorOf
  rw [elemAt_bytesOf t _ (fun i _ => by simp [ht]) idx h]
  rfl

theorem ravel_lt_len {t : Ty} (ht : t.d = 1) {D : List Byte} (hD : D.length = t.size) {idx : List Nat} (h : InShape t.shape idx) :
    ravel t.shape idx < D.length := by
  have := ravel_lt t.shape idx h
  rw [hD]
  unfold Ty.size
  rw [ht]
  omega

theorem tensorOf_get (t : Ty) (ht : t.d = 1) (D : List Byte) (hD : D.length = t.size) (idx : List Nat) (h : InShape t.shape idx) :
    tensorOf t D idx = s8 (D.getD (ravel t.shape idx) 0) := by
  unfold tensorOf elemAt
  have hlt := ravel_lt_len ht hD h
  rw [ht, Nat.mul_one, List.drop_eq_getElem_cons hlt, List.getD_eq_getElem?_getD, List.getElem?_eq_getElem hlt]
  rfl

theorem tensorOf_range (t : Ty) (D : List Byte) (idx : List Nat) : -128 ≤ tensorOf t D idx ∧ tensorOf t D idx ≤ 127 := s8_range _

end Verif.Net
