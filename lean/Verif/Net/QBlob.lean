import Verif.Net.QArith
import Verif.Net.BlobLemmas
/-! C109: the operators of `Verif.Net.Blob` in a network. -/
namespace Verif.Net
open Verif.Tensor Verif.Move Verif.MemPlan Verif.Quant

variable {sem : Sem} {iv : List (Ty × List Byte)}

theorem elemAt_word (t : Ty) {d : Nat} (ht : t.d = d) (D : List Byte) (idx : List Nat) : elemAt t D idx = word d D (ravel t.shape idx) := by
  subst ht
  rfl

theorem tensor16_val (t : Ty) (ht : t.d = 2) (D : List Byte) (idx : List Nat) : tensor16 t D idx = val16 D (ravel t.shape idx) := by
  unfold tensor16 val16
  rw [elemAt_word t ht]

/-- An explicit broadcast, of any element type. -/
theorem broadcast_estep_any {e : Exp} (hg : EGood iv e) (a out : Ty) (ha : a.d = out.d) (hb : TFL.Broadcastable a.shape out.shape) (v : Nat) {D : List Byte}
    (hv : EHolds sem iv e v a D) :
    ∃ D', EStep sem iv e (expandBroadcast e (a, v) out) out D' ∧
      ∀ idx, InShape out.shape idx → elemAt out D' idx = broadcastT a.shape (elemAt a D) idx := by
  have hiff := TFL.hasSameShape_iff a.shape out.shape
  have ho : (⟨out.shape, a.d⟩ : Ty) = out := by rw [ha]
  unfold expandBroadcast
  by_cases hs : a.shape = out.shape
  · rw [if_pos (hiff.2 hs)]
    have hao : a = out := by rw [← ho, ← hs]
    subst hao
    exact ⟨D, estep_same hg hv, fun idx hidx => (TFL.broadcastT_self _ _ _ hidx).symm⟩
  · rw [if_neg (fun h => hs (hiff.1 h))]
    simp only
    rw [ho]
    have hok : Kind.broadcast.OK ([(v, a, D)].map fun z => (e.ctx iv).getD z.1 (⟨[], 0⟩, false)) out := by
      refine ⟨a, ((e.ctx iv).getD v (⟨[], 0⟩, false)).2, ?_, ha, hb.1⟩
      simp only [List.map_cons, List.map_nil]
      rw [← hv.ctx hg]
    have hstep := emit_estep (sem := sem) hg .broadcast out [(v, a, D)] (by simpa using hv) hok
      (length_eval .broadcast out _ _ hok (by
        simp only [List.map_cons, List.map_nil]
        rw [hv.ctx hg]))
    refine ⟨_, hstep, ?_⟩
    intro idx hidx
    show elemAt out (bytesOf out (broadcastT a.shape (elemAt a D))) idx = _
    exact elemAt_bytesOf out _ (fun i _ => by unfold broadcastT; rw [length_elemAt, ha]) idx hidx

/-- The operator with its constant. -/
theorem blob_estep {R : Rt} {e : Exp} (hg : EGood iv e) (key : Nat) (op : BlobOp) (hkey : ∀ ins, sem key ins = op.kernel R.b ins)
    (ty : Ty) (zs : List (Nat × Ty × List Byte)) (hz : ∀ z ∈ zs, EHolds sem iv e z.1 z.2.1 z.2.2)
    (hip : op.inPlace = true → ∀ z ∈ zs, z.2.1.size ≤ ty.size)
    (hl : (op.kernel R.b (zs.map (·.2.2) ++ (op.const R.b).toList)).length = ty.size) :
    EStep sem iv e (expandBlob R e key op (zs.map (·.1)) ty) ty (op.kernel R.b (zs.map (·.2.2) ++ (op.const R.b).toList)) := by
  unfold expandBlob
  cases hc : op.const R.b with
  | none =>
    rw [hc] at hl
    simp only [Option.toList_none, List.append_nil] at hl ⊢
    exact other_estep (sem := sem) hg false key ty zs hz (by intro h; cases h) (hkey _) hl
  | some c =>
    rw [hc] at hl
    simp only [Option.toList_some] at hl ⊢
    obtain ⟨hC, hcc⟩ := const_estep (sem := sem) hg c ⟨[c.length], 1⟩ (by simp [Ty.size])
    have := other_estep (sem := sem) hC.good op.inPlace key ty (zs ++ [((e.emit ⟨.const c, [], ⟨[c.length], 1⟩⟩).2, ⟨[c.length], 1⟩, c)])
      (by
        intro z hz'
        rcases List.mem_append.1 hz' with h | h
        · exact (hz z h).mono hg hC.ext
        · rw [List.mem_singleton] at h
          subst h
          exact hC.holds)
      (by
        intro hi z hz'
        rcases List.mem_append.1 hz' with h | h
        · exact Or.inr (hip hi z h)
        · rw [List.mem_singleton] at h
          subst h
          exact Or.inl hcc)
      (hkey _) (by rw [List.map_append]; exact hl)
    rw [List.map_append, List.map_append] at this
    exact hC.trans this

theorem size_prod {t : Ty} {d : Nat} (ht : t.d = d) : t.size = t.shape.prod * d := by
  unfold Ty.size
  rw [ht]

theorem inPlace_not {op : BlobOp} (h : op.inPlace = false) {P : Prop} : op.inPlace = true → P := by rw [h]; intro h; cases h

/-- A 16-bit activation function between tensors of one type. -/
theorem fn_estep {R : Rt} (hL : R.b.OK) {e : Exp} (hg : EGood iv e) (key : Nat) (f : ActFn) (ti tq : QType) (hi : Sym16 ti) (ho : Sym16 tq)
    (hkey : ∀ ins, sem key ins = (BlobOp.fn f ti tq).kernel R.b ins) (v : Nat) (ty : Ty) (hty : ty.d = 2) {D : List Byte} (hv : EHolds sem iv e v ty D) :
    ∃ D', EStep sem iv e (expandBlob R e key (.fn f ti tq) [v] ty) ty D' ∧ ∀ idx, InShape ty.shape idx →
      |(tensor16 ty D' idx : ℝ) - sat16 tq (f.apply ((ti.deq (tensor16 ty D idx) : ℚ) : ℝ))| ≤ (BlobOp.fn f ti tq).tol R.b := by
  have hs := run_spec hL (.fn f ti tq) ty.shape.prod [D] ⟨hi, ho⟩ ⟨D, rfl, by rw [hv.len, size_prod hty]⟩
  have := blob_estep (sem := sem) (R := R) hg key (.fn f ti tq) hkey ty [(v, ty, D)] (by simpa using hv) (by simp) (by
    rw [size_prod hty]
    exact hs.1)
  refine ⟨_, this, fun idx hidx => ?_⟩
  have := hs.2 _ (ravel_lt _ _ hidx)
  rw [tensor16_val ty hty, tensor16_val ty hty]
  exact this

theorem fusedFn_apply {act : TFL.Act} {f : ActFn} (h : fusedFn act = some f) (x : ℝ) : f.apply x = fusedReal act x := by
  cases act <;> simp only [fusedFn, Option.some.injEq, reduceCtorEq] at h <;> subst h <;> simp only [ActFn.apply, XC.Activation.apply, fusedReal]
  · exact max_comm _ _
  · rcases le_total x 0 with h | h
    · rw [max_eq_right h, min_eq_left (by norm_num : (0:ℝ) ≤ 6), max_eq_left ((min_le_right _ _).trans h)]
    · rw [max_eq_left h, max_eq_right (le_min (by norm_num) h), min_comm]

/-- The operators with a constant, in a network. -/
theorem bop_estep {R : Rt} (hL : R.b.OK) (j : Nat) {e : Exp} (hg : EGood iv e) (op : BlobOp) (act : TFL.Act) (ty : Ty) (n : QNode) (hk : n.kind = .blob op act) (hn : n.ty = ty)
    (zs : List (Nat × Ty × List Byte)) (hz : ∀ z ∈ zs, EHolds sem iv e z.1 z.2.1 z.2.2) (hok : op.OK (zs.map (·.2.1)) ty act)
    (hsem : ∀ m ins, sem (Nat.pair j m) ins = n.kind.kernel R j m ins) :
    ∃ D, EStep sem iv e (expandNode R j e (zs.map fun z => (z.2.1, z.1)) n) ty D ∧
      op.Meets R.b act ty ((zs.map (·.2)).getD 0 (⟨[], 0⟩, [])) ((zs.map (·.2)).getD 1 (⟨[], 0⟩, [])) D := by
  obtain ⟨kind, args, ty'⟩ := n
  dsimp only at hk hn hsem
  subst hk
  subst hn
  have k0 : ∀ ins, sem (Nat.pair j 0) ins = op.kernel R.b ins := fun ins => by rw [hsem]; rfl
  have k1 : ∀ f, op.fused act = some f → ∀ ins, sem (Nat.pair j 1) ins = f.kernel R.b ins := fun f hf ins => by
    rw [hsem]
    unfold QKind.kernel
    dsimp only
    rw [if_neg (by decide), hf]
  obtain ⟨ht, hok⟩ := hok
  cases op with
  | binary o t1 t2 tq =>
    obtain ⟨a, b, h1, ha, hb, hty, hba, hbb⟩ := hok
    match zs, h1, hz with
    | [(va, a', Da), (vb, b', Db)], h1, hz =>
      simp only [List.map_cons, List.map_nil, List.cons.injEq, and_true] at h1
      obtain ⟨rfl, rfl⟩ := h1
      obtain ⟨Dx, hx, ex⟩ := broadcast_estep_any (sem := sem) hg a' ty' (by rw [ha, hty]) hba va (hz _ List.mem_cons_self)
      obtain ⟨Dy, hy, ey⟩ := broadcast_estep_any (sem := sem) hx.good b' ty' (by rw [hb, hty]) hbb vb ((hz (vb, b', Db) (by simp)).mono hg hx.ext)
      have hx' := hx.holds.mono hx.good hy.ext
      have hs := run_spec hL (.binary o t1 t2 tq) ty'.shape.prod [Dx, Dy] ht ⟨Dx, Dy, rfl, by rw [hx.holds.len, size_prod hty], by rw [hy.holds.len, size_prod hty]⟩
      have hz' := blob_estep (sem := sem) (R := R) hy.good (Nat.pair j 0) (.binary o t1 t2 tq) k0 ty' [(_, ty', Dx), (_, ty', Dy)]
        (by
          intro z hz'
          simp only [List.mem_cons, List.not_mem_nil, or_false] at hz'
          rcases hz' with rfl | rfl
          · exact hx'
          · exact hy.holds)
        (by simp) (by
          rw [size_prod hty]
          exact hs.1)
      have hv : ∀ idx, InShape ty'.shape idx → |(tensor16 ty' (BlobOp.kernel R.b (.binary o t1 t2 tq) ([Dx, Dy] ++ (BlobOp.const R.b (.binary o t1 t2 tq)).toList)) idx : ℝ) -
          sat16 tq ((o.real (t1.deq (broadcastT a'.shape (tensor16 a' Da) idx)) (t2.deq (broadcastT b'.shape (tensor16 b' Db) idx)) : ℚ) : ℝ)| ≤
          max (R.b.err : ℝ) R.b.tflErr := by
        intro idx hidx
        have h := hs.2 _ (ravel_lt _ _ hidx)
        simp only [List.getD_cons_zero, List.getD_cons_succ, ← tensor16_val ty' hty] at h
        have e1 : tensor16 ty' Dx idx = broadcastT a'.shape (tensor16 a' Da) idx := by
          show s16 _ = _
          rw [ex idx hidx]
          rfl
        have e2 : tensor16 ty' Dy idx = broadcastT b'.shape (tensor16 b' Db) idx := by
          show s16 _ = _
          rw [ey idx hidx]
          rfl
        rw [e1, e2] at h
        exact h
      cases hf : fusedFn act with
      | none =>
        have hact : act = .none := by cases act <;> first | rfl | cases hf
        subst hact
        refine ⟨_, (hx.trans hy).trans hz', ?_⟩
        exact hv
      | some f =>
        have hff : (BlobOp.binary o t1 t2 tq).fused act = some (.fn f tq tq) := by
          show (fusedFn act).map _ = _
          rw [hf]
          rfl
        obtain ⟨D, hD, eD⟩ := fn_estep (sem := sem) hL hz'.good (Nat.pair j 1) f tq tq ht.2.2 ht.2.2 (k1 _ hff) _ ty' hty hz'.holds
        have hexp : expandNode R j e [(a', va), (b', vb)] ⟨.blob (.binary o t1 t2 tq) act, args, ty'⟩ =
            expandBlob R (expandBlob R (expandBroadcast (expandBroadcast e (a', va) ty').1 (b', vb) ty').1 (Nat.pair j 0) (.binary o t1 t2 tq)
              [(expandBroadcast e (a', va) ty').2, (expandBroadcast (expandBroadcast e (a', va) ty').1 (b', vb) ty').2] ty').1 (Nat.pair j 1) (.fn f tq tq)
              [(expandBlob R (expandBroadcast (expandBroadcast e (a', va) ty').1 (b', vb) ty').1 (Nat.pair j 0) (.binary o t1 t2 tq)
              [(expandBroadcast e (a', va) ty').2, (expandBroadcast (expandBroadcast e (a', va) ty').1 (b', vb) ty').2] ty').2] ty' := by
          unfold expandNode
          simp only [hff]
          rfl
        refine ⟨D, ?_, ?_⟩
        · show EStep sem iv e (expandNode R j e [(a', va), (b', vb)] ⟨.blob (.binary o t1 t2 tq) act, args, ty'⟩) ty' D
          rw [hexp]
          exact ((hx.trans hy).trans hz').trans hD
        · intro idx hidx
          have hact : BlobOp.tolFused R.b (.binary o t1 t2 tq) act = max (R.b.err : ℝ) R.b.tflErr + max (R.b.limit : ℝ) R.b.tflErr := by
            cases act <;> first | rfl | cases hf
          rw [hact]
          have h1 := eD idx hidx
          have h2 := hv idx hidx
          rw [fusedFn_apply hf, deq_sym ht.2.2] at h1
          push_cast at h1
          have h3 := fused_sat ht.2.2 act (tensor16 ty' (BlobOp.kernel R.b (.binary o t1 t2 tq) ([Dx, Dy] ++ (BlobOp.const R.b (.binary o t1 t2 tq)).toList)) idx : ℝ)
            ((o.real (t1.deq (broadcastT a'.shape (tensor16 a' Da) idx)) (t2.deq (broadcastT b'.shape (tensor16 b' Db) idx)) : ℚ) : ℝ)
          have h4 := abs_add_le ((tensor16 ty' D idx : ℝ) - sat16 tq (fusedReal act (tq.scale * (tensor16 ty' (BlobOp.kernel R.b (.binary o t1 t2 tq)
            ([Dx, Dy] ++ (BlobOp.const R.b (.binary o t1 t2 tq)).toList)) idx : ℝ)))) (sat16 tq (fusedReal act (tq.scale * (tensor16 ty' (BlobOp.kernel R.b (.binary o t1 t2 tq)
            ([Dx, Dy] ++ (BlobOp.const R.b (.binary o t1 t2 tq)).toList)) idx : ℝ))) - sat16 tq (fusedReal act
            ((o.real (t1.deq (broadcastT a'.shape (tensor16 a' Da) idx)) (t2.deq (broadcastT b'.shape (tensor16 b' Db) idx)) : ℚ) : ℝ)))
          rw [sub_add_sub_cancel] at h4
          have h5 : (BlobOp.fn f tq tq).tol R.b = max (R.b.limit : ℝ) R.b.tflErr := rfl
          rw [h5] at h1
          calc _ ≤ _ := h4
            _ ≤ max (R.b.limit : ℝ) R.b.tflErr + max (R.b.err : ℝ) R.b.tflErr := add_le_add h1 (h3.trans h2)
            _ = _ := add_comm _ _
  | fn f ti tq =>
    obtain ⟨-, h1, hty⟩ := hok
    match zs, h1, hz with
    | [(va, a', Da)], h1, hz =>
      simp only [List.map_cons, List.map_nil, List.cons.injEq, and_true] at h1
      subst h1
      exact fn_estep hL hg _ f ti tq ht.1 ht.2 k0 va a' hty (hz _ List.mem_cons_self)
  | requantize ti tq =>
    obtain ⟨-, h1, hty⟩ := hok
    match zs, h1, hz with
    | [(va, a', Da)], h1, hz =>
      simp only [List.map_cons, List.map_nil, List.cons.injEq, and_true] at h1
      subst h1
      have hv : EHolds sem iv e va a' Da := hz _ List.mem_cons_self
      have hs := run_spec hL (.requantize ti tq) a'.shape.prod [Da] ht ⟨Da, rfl, by rw [hv.len, size_prod hty]⟩
      refine ⟨_, blob_estep (sem := sem) (R := R) hg _ (.requantize ti tq) k0 a' [(va, a', Da)] (by simpa using hv) (inPlace_not rfl) (by
        rw [size_prod hty]
        exact hs.1), fun idx hidx => ?_⟩
      rw [tensor16_val a' hty]
      simp only [List.map_cons, List.getD_cons_zero]
      rw [tensor16_val a' hty]
      exact hs.2 _ (ravel_lt _ _ hidx)
  | quantize tq =>
    obtain ⟨-, h1, hty⟩ := hok
    match zs, h1, hz with
    | [(va, a', Da)], h1, hz =>
      simp only [List.map_cons, List.map_nil, List.cons.injEq, and_true] at h1
      subst h1
      have hv : EHolds sem iv e va ⟨ty'.shape, 4⟩ Da := hz _ List.mem_cons_self
      have hs := run_spec hL (.quantize tq) ty'.shape.prod [Da] ht ⟨Da, rfl, by rw [hv.len]; rfl⟩
      refine ⟨_, blob_estep (sem := sem) (R := R) hg _ (.quantize tq) k0 ty' [(va, ⟨ty'.shape, 4⟩, Da)] (by simpa using hv) (inPlace_not rfl) (by
        rw [size_prod hty]
        exact hs.1), fun idx hidx => ?_⟩
      rw [tensor16_val ty' hty]
      exact hs.2 _ (ravel_lt _ _ hidx)
  | dequantize ti =>
    obtain ⟨-, h1, hty⟩ := hok
    match zs, h1, hz with
    | [(va, a', Da)], h1, hz =>
      simp only [List.map_cons, List.map_nil, List.cons.injEq, and_true] at h1
      subst h1
      have hv : EHolds sem iv e va ⟨ty'.shape, 2⟩ Da := hz _ List.mem_cons_self
      have hs := run_spec hL (.dequantize ti) ty'.shape.prod [Da] ht ⟨Da, rfl, by rw [hv.len]; rfl⟩
      refine ⟨_, blob_estep (sem := sem) (R := R) hg _ (.dequantize ti) k0 ty' [(va, ⟨ty'.shape, 2⟩, Da)] (by simpa using hv) (inPlace_not rfl) (by
        rw [size_prod hty]
        exact hs.1), fun idx hidx => ?_⟩
      rw [elemAt_word ty' hty]
      exact hs.2 _ (ravel_lt _ _ hidx)
  | softmax beta t shape =>
    obtain ⟨-, h1, rfl⟩ := hok
    match zs, h1, hz with
    | [(va, a', Da)], h1, hz =>
      simp only [List.map_cons, List.map_nil, List.cons.injEq, and_true] at h1
      subst h1
      have hv : EHolds sem iv e va ⟨shape, 1⟩ Da := hz _ List.mem_cons_self
      have hs := run_spec hL (.softmax beta t shape) shape.prod [Da] ht ⟨Da, rfl, by rw [hv.len]; simp [Ty.size], rfl⟩
      refine ⟨_, blob_estep (sem := sem) (R := R) hg _ (.softmax beta t shape) k0 ⟨shape, 1⟩ [(va, ⟨shape, 1⟩, Da)] (by simpa using hv) (inPlace_not rfl) (by
        rw [show (⟨shape, 1⟩ : Ty).size = shape.prod by simp [Ty.size]]
        exact hs.1), hs.1, hs.2⟩

end Verif.Net
