import Verif.MemPlan.OverlapOK
/-! Helper lemmas: simulation between the arena machine and the private-memory machine. -/
namespace Verif.MemPlan

/-! ### Memory -/

theorem Mem.read_congr {m m' : Mem} {off : Int} {n : Nat}
    (h : ∀ a, off ≤ a → a < off + n → m a = m' a) : m.read off n = m'.read off n := by
  induction n generalizing off with
  | zero => rfl
  | succ n ih =>
    simp only [Mem.read]
    rw [h off (le_refl _) (by omega), ih]
    intro a h1 h2
    exact h a (by omega) (by omega)

theorem Mem.write_other (m : Mem) (off : Int) (bs : List Byte) (a : Int)
    (h : a < off ∨ off + bs.length ≤ a) : m.write off bs a = m a := by
  induction bs generalizing m off with
  | nil => rfl
  | cons b bs ih =>
    simp only [Mem.write]
    simp only [List.length_cons] at h
    rw [ih _ (off + 1) (by omega)]
    have : a ≠ off := by omega
    simp [this]

theorem Mem.read_write_same (m : Mem) (off : Int) (bs : List Byte) :
    (m.write off bs).read off bs.length = bs := by
  induction bs generalizing m off with
  | nil => rfl
  | cons b bs ih =>
    simp only [Mem.write, List.length_cons, Mem.read]
    rw [ih, Mem.write_other _ _ _ _ (by omega)]
    simp

theorem Mem.read_write_disjoint (m : Mem) (off : Int) (bs : List Byte) (o : Int) (n : Nat)
    (h : RangesDisjoint o n off bs.length) : (m.write off bs).read o n = m.read o n := by
  apply Mem.read_congr
  intro a h1 h2
  apply Mem.write_other
  unfold RangesDisjoint at h
  omega

/-- Writing consecutive results does not disturb a disjoint range. -/
theorem writeResults_disjoint (offs : List Int) (r : Nat) (bss : List (List Byte)) (m : Mem)
    (o : Int) (n : Nat)
    (h : ∀ i, ∀ hi : i < bss.length, RangesDisjoint o n (offsetOf offs (r + i)) (bss[i].length)) :
    (writeResults offs r bss m).read o n = m.read o n := by
  induction bss generalizing r m with
  | nil => rfl
  | cons b bs ih =>
    simp only [writeResults]
    rw [ih (r + 1)]
    · exact Mem.read_write_disjoint _ _ _ _ _ (h 0 (by simp))
    · intro i hi
      have := h (i + 1) (by simpa using hi)
      simpa [Nat.add_assoc, Nat.add_comm 1 i] using this

/-- Each written result can be read back if the results are pairwise disjoint. -/
theorem writeResults_same (offs : List Int) (r : Nat) (bss : List (List Byte)) (m : Mem)
    (hd : ∀ i k, ∀ hi : i < bss.length, ∀ hk : k < bss.length, i ≠ k →
      RangesDisjoint (offsetOf offs (r + i)) (bss[i].length) (offsetOf offs (r + k)) (bss[k].length))
    (i : Nat) (hi : i < bss.length) :
    (writeResults offs r bss m).read (offsetOf offs (r + i)) (bss[i].length) = bss[i] := by
  induction bss generalizing r m i with
  | nil => simp at hi
  | cons b bs ih =>
    simp only [writeResults]
    cases i with
    | zero =>
      simp only [List.getElem_cons_zero, Nat.add_zero]
      rw [writeResults_disjoint]
      · exact Mem.read_write_same _ _ _
      · intro k hk
        have := hd 0 (k + 1) (by simp) (by simpa using hk) (by omega)
        simpa [Nat.add_assoc, Nat.add_comm 1 k] using this
    | succ i =>
      simp only [List.getElem_cons_succ]
      have := ih (r + 1) (m.write (offsetOf offs r) b) (fun a c ha hc hac => by
        have := hd (a + 1) (c + 1) (by simpa using ha) (by simpa using hc) (by omega)
        simpa [Nat.add_assoc, Nat.add_comm 1 a, Nat.add_comm 1 c] using this) i (by simpa using hi)
      simpa [Nat.add_assoc, Nat.add_comm 1 i] using this

theorem Env.setFrom_other (e : Env) (r : Nat) (bss : List (List Byte)) (v : Nat)
    (h : v < r ∨ r + bss.length ≤ v) : e.setFrom r bss v = e v := by
  induction bss generalizing e r with
  | nil => rfl
  | cons b bs ih =>
    simp only [Env.setFrom]
    simp only [List.length_cons] at h
    rw [ih _ (r + 1) (by omega)]
    have : v ≠ r := by omega
    simp [this]

theorem Env.setFrom_same (e : Env) (r : Nat) (bss : List (List Byte)) (i : Nat) (hi : i < bss.length) :
    e.setFrom r bss (r + i) = bss[i] := by
  induction bss generalizing e r i with
  | nil => simp at hi
  | cons b bs ih =>
    simp only [Env.setFrom]
    cases i with
    | zero => rw [Env.setFrom_other _ _ _ _ (by omega)]; simp
    | succ i =>
      have := ih (fun v => if v = r then b else e v) (r + 1) i (by simpa using hi)
      rw [show r + (i + 1) = r + 1 + i by omega, this]; simp

/-! ### Valid plans -/

/-- What the simulation needs from a plan. -/
structure PlanValid (f : Func) (offs : List Int) : Prop where
  args : ∀ v w, f.IsArg v → f.IsArg w → v ≠ w →
    RangesDisjoint (offsetOf offs v) (f.raw v) (offsetOf offs w) (f.raw w)
  results : ∀ v r j, f.Arena v → f.Arena r → v ≠ r → f.DefinedAt r j →
    (f.DefinedAt v j ∨ ((f.IsArg v ∨ ∃ i, f.DefinedAt v i ∧ i < j) ∧ ∃ q, j < q ∧ f.UsedAt v q)) →
    RangesDisjoint (offsetOf offs v) (f.raw v) (offsetOf offs r) (f.raw r)

theorem arg_arena (f : Func) {v : Nat} (h : f.IsArg v) : f.Arena v := by
  have : (f.decl v).isConst = false := by rw [decl_arg f h]
  exact ⟨decl_const_oob f this, this⟩

/-- The simulation invariant before the op at position `j`. -/
def Sim (f : Func) (offs : List Int) (j : Nat) (m : Mem) (c e : Env) : Prop :=
  ∀ v, (f.IsArg v ∨ ∃ i, f.DefinedAt v i ∧ i < j) → (∃ q, j ≤ q ∧ f.UsedAt v q) →
    arenaOperand f offs m c v = e v

theorem fit_getElem {bss : List (List Byte)} {sz : List Nat} (h : bss.map List.length = sz) (i : Nat)
    (hi : i < bss.length) : ∃ h' : i < sz.length, bss[i].length = sz[i] := by
  subst h
  exact ⟨by simpa using hi, by simp⟩

theorem sim_trace {f : Func} (wf : f.WF) {offs : List Int} (pv : PlanValid f offs) (k : Kernels)
    (hk : Kernels.Fit f k) (os : List Op) (j : Nat) (hos : os = f.ops.drop j) (m : Mem) (c e : Env)
    (h : Sim f offs j m c e) :
    arenaTrace f k offs os j m c = refTrace f k os j e := by
  induction os generalizing j m c e with
  | nil => rfl
  | cons o os ih =>
    have hj : j < f.ops.length := by
      by_contra hge
      rw [List.drop_eq_nil_of_le (by omega)] at hos
      simp at hos
    have hoj : f.op j = o ∧ os = f.ops.drop (j + 1) := by
      rw [List.drop_eq_getElem_cons hj] at hos
      injection hos with h1 h2
      exact ⟨by rw [op_eq f hj, h1], h2⟩
    obtain ⟨ho, hrest⟩ := hoj
    have hins : o.operands.map (arenaOperand f offs m c) = o.operands.map e := by
      apply List.map_congr_left
      intro v hv
      have hu : f.UsedAt v j := ⟨hj, by rw [ho]; exact hv⟩
      exact h v (wf.dominated j v hu) ⟨j, le_refl _, hu⟩
    have hlen := hk j (o.operands.map e) hj
    have hlen' : (k j (o.operands.map e)).length = (f.op j).resultSizes.length := by
      rw [← hlen]; simp
    simp only [arenaTrace, refTrace]
    rw [hins]
    have hres : ∀ i, ∀ hi : i < (k j (o.operands.map e)).length,
        f.DefinedAt (f.result0 j + i) j ∧
        f.raw (f.result0 j + i) = ((k j (o.operands.map e))[i]).length := by
      intro i hi
      obtain ⟨h1, h2⟩ := fit_getElem hlen i hi
      refine ⟨(definedAt_iff f _ j).2 ⟨hj, i, h1, rfl⟩, ?_⟩
      simp only [Func.raw]
      rw [decl_result f hj h1, h2]
    -- a value defined before `j` is not among the results of `j`
    have hout : ∀ v, (f.IsArg v ∨ ∃ i, f.DefinedAt v i ∧ i < j) → v < f.result0 j := by
      rintro v (ha | ⟨i, hi, hl⟩)
      · rw [result0_eq]; unfold Func.IsArg at ha; omega
      · obtain ⟨hil, i', hi', rfl⟩ := (definedAt_iff f v i).1 hi
        have h1 := resCount_take_succ f hil
        have h2 := result0_mono f (show i + 1 ≤ j by omega) (by omega)
        omega
    split
    · rename_i hc
      congr 1
      apply ih (j + 1) hrest
      intro v hd hu
      have hval : ∀ i, f.DefinedAt v i → i < j + 1 → i < j ∨ i = j := by intro i _ _; omega
      have hold : (f.IsArg v ∨ ∃ i, f.DefinedAt v i ∧ i < j) →
          arenaOperand f offs m (c.setFrom (f.result0 j) (k j (o.operands.map e))) v =
            e.setFrom (f.result0 j) (k j (o.operands.map e)) v := by
        intro hb
        have hlt := hout v hb
        have hs := h v hb (by obtain ⟨q, hq, hq'⟩ := hu; exact ⟨q, by omega, hq'⟩)
        rw [Env.setFrom_other _ _ _ _ (Or.inl hlt)]
        unfold arenaOperand at hs ⊢
        rw [Env.setFrom_other _ _ _ _ (Or.inl hlt)]
        exact hs
      rcases hd with ha | ⟨i, hi, hl⟩
      · exact hold (Or.inl ha)
      · rcases hval i hi hl with hl | rfl
        · exact hold (Or.inr ⟨i, hi, hl⟩)
        · obtain ⟨_, i', hi', rfl⟩ := (definedAt_iff f v i).1 hi
          have hcst : (f.decl (f.result0 i + i')).isConst = true := by
            rw [definedAt_isConst f hi, ho]; simpa using hc
          unfold arenaOperand
          rw [hcst]
          simp only [if_true]
          rw [Env.setFrom_same _ _ _ _ (by rw [hlen']; exact hi'),
            Env.setFrom_same _ _ _ _ (by rw [hlen']; exact hi')]
    · rename_i hc
      congr 1
      apply ih (j + 1) hrest
      intro v hd hu
      have hresA : ∀ i, i < (k j (o.operands.map e)).length → f.Arena (f.result0 j + i) := by
        intro i hi
        have h1 := (hres i hi).1
        have h2 := definedAt_isConst f h1
        have : (f.decl (f.result0 j + i)).isConst = false := by
          rw [h2, ho]; simpa using hc
        exact ⟨decl_const_oob f this, this⟩
      have hold : (f.IsArg v ∨ ∃ i, f.DefinedAt v i ∧ i < j) →
          arenaOperand f offs (writeResults offs (f.result0 j) (k j (o.operands.map e)) m) c v =
            e.setFrom (f.result0 j) (k j (o.operands.map e)) v := by
        intro hb
        have hlt := hout v hb
        have hs := h v hb (by obtain ⟨q, hq, hq'⟩ := hu; exact ⟨q, by omega, hq'⟩)
        rw [Env.setFrom_other _ _ _ _ (Or.inl hlt), ← hs]
        unfold arenaOperand
        split
        · rfl
        · rename_i hcv
          have hcv : (f.decl v).isConst = false := by simpa using hcv
          have hvA : f.Arena v := ⟨decl_const_oob f hcv, hcv⟩
          apply writeResults_disjoint
          intro i hi
          have h1 := hres i hi
          rw [← h1.2]
          apply pv.results v _ j hvA (hresA i hi) (by omega) h1.1
          right
          obtain ⟨q, hq, hq'⟩ := hu
          exact ⟨hb, q, by omega, hq'⟩
      rcases hd with ha | ⟨i, hi, hl⟩
      · exact hold (Or.inl ha)
      · by_cases hij : i < j
        · exact hold (Or.inr ⟨i, hi, hij⟩)
        · have : i = j := by omega
          subst this
          obtain ⟨_, i', hi', rfl⟩ := (definedAt_iff f v i).1 hi
          have hi'' : i' < (k i (o.operands.map e)).length := by rw [hlen']; exact hi'
          have hcst : (f.decl (f.result0 i + i')).isConst = false := (hresA i' hi'').2
          unfold arenaOperand
          rw [hcst]
          simp only [Bool.false_eq_true, if_false]
          rw [Env.setFrom_same _ _ _ _ hi'', (hres i' hi'').2]
          apply writeResults_same
          intro a b ha hb hab
          rw [← (hres a ha).2, ← (hres b hb).2]
          exact pv.results _ _ i (hresA a ha) (hresA b hb) (by omega) (hres b hb).1
            (Or.inl (hres a ha).1)

theorem runs_of_valid {f : Func} (wf : f.WF) {offs : List Int} (pv : PlanValid f offs) :
    ArenaRunsCorrectly f offs := by
  intro k inputs m c hk hin
  apply sim_trace wf pv k hk f.ops 0 (by simp)
  rintro v (ha | ⟨i, _, hl⟩) _
  · have hlen : inputs.length = f.argSizes.length := by rw [← hin]; simp
    have hv : v < inputs.length := by rw [hlen]; exact ha
    have hraw : ∀ i, ∀ hi : i < inputs.length, f.raw i = (inputs[i]).length := by
      intro i hi
      obtain ⟨h1, h2⟩ := fit_getElem hin i hi
      simp only [Func.raw]
      rw [decl_arg f h1, h2]
    unfold arenaOperand
    rw [(arg_arena f ha).2]
    simp only [Bool.false_eq_true, if_false, loadInputs, inputEnv]
    have := writeResults_same offs 0 inputs m (by
      intro a b ha hb hab
      simp only [Nat.zero_add]
      rw [← hraw a ha, ← hraw b hb]
      exact pv.args a b (by unfold Func.IsArg; omega) (by unfold Func.IsArg; omega) hab) v hv
    rw [hraw v hv]
    simp only [Nat.zero_add] at this
    rw [this]
    simp [List.getD_eq_getElem?_getD, hv]
  · omega

end Verif.MemPlan
