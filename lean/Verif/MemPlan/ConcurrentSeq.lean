import Verif.MemPlan.ConcurrentProps
import Mathlib.Tactic.ByContra
/-!
C102 continued: what a run with threads and scratch tensors returns is what the one-threaded arena machine of C02 returns, so everything
proved about that machine (C83, C84, C94, C99, C100) holds for runs with threads.
-/
namespace Verif.MemPlan.Conc

/-- The operands of an operator, put together from its data operands; scratch operands get the values `S`. -/
def merge (scr : Nat → Bool) (S : Nat → List Byte) : List Nat → List (List Byte) → List (List Byte)
  | [], _ => []
  | v :: vs, ins => if scr v then S v :: merge scr S vs ins else ins.headD [] :: merge scr S vs ins.tail

/-- What the kernel of the operator without code would write (any value would do). -/
def scratchValue (f : Func) (k : Kernels) (v : Nat) : List Byte :=
  match (f.decl v).defPos with
  | some j => (k j []).getD (v - f.result0 j) []
  | none => []

/-- The kernels as functions of the data operands. -/
def onData (f : Func) (impl : Nat → Impl) (k : Kernels) : Kernels := fun j ins =>
  k j (merge (isScratch f impl) (scratchValue f k) (f.op j).operands ins)

theorem merge_data (scr : Nat → Bool) (S : Nat → List Byte) (e : Env) (vs : List Nat) (h : ∀ v ∈ vs, scr v = true → e v = S v) :
    merge scr S vs ((vs.filter fun v => !scr v).map e) = vs.map e := by
  induction vs with
  | nil => rfl
  | cons v vs ih =>
    have ih := ih fun w hw => h w (List.mem_cons_of_mem _ hw)
    cases hs : scr v with
    | true =>
      rw [List.filter_cons_of_neg (by simp [hs])]
      simp only [merge, hs, if_true, List.map_cons, ih, h v List.mem_cons_self hs]
    | false =>
      rw [List.filter_cons_of_pos (by simp [hs])]
      simp only [merge, hs, List.map_cons, List.headD_cons, List.tail_cons, ih]
      rfl

theorem refRun_onData {f : Func} (wf : f.WF) {k : Kernels} (hk : Kernels.Fit f k) {impl : Nat → Impl}
    (hskip : ∀ j, j < f.ops.length → impl j = .skip → (f.op j).operands = []) {os : List Op} {j : Nat} (hos : os = f.ops.drop j) (e : Env)
    (h : ∀ v i, isScratch f impl v = true → f.DefinedAt v i → i < j → e v = scratchValue f k v) (hne : os ≠ [])
    (hlast : ∀ o, f.ops.getLast? = some o → ∀ v ∈ o.operands, isScratch f impl v = false) :
    (refRun f (onData f impl k) (isScratch f impl) os j e).getLast? = (refTrace f k os j e).getLast? := by
  induction os generalizing j e with
  | nil => exact absurd rfl hne
  | cons o os ih =>
    obtain ⟨hj, ho, hrest⟩ := drop_cons hos
    subst ho
    have hm : merge (isScratch f impl) (scratchValue f k) (f.op j).operands ((dataOperands (isScratch f impl) (f.op j)).map e) =
        (f.op j).operands.map e := by
      apply merge_data
      intro v hv hs
      rcases wf.dominated j v ⟨hj, hv⟩ with ha | ⟨i, hi, hl⟩
      · exfalso
        unfold isScratch at hs
        rw [decl_arg f ha] at hs
        simp at hs
      · exact h v i hs hi hl
    simp only [refRun, refTrace]
    unfold onData at ih ⊢
    rw [hm]
    by_cases hnil : os = []
    · subst hnil
      have hl : f.ops.getLast? = some (f.op j) := by
        have h1 : f.ops.drop (j + 1) = [] := hrest.symm
        have h2 : f.ops.length ≤ j + 1 := by simpa using h1
        have h3 : f.ops.length = j + 1 := by omega
        rw [List.getLast?_eq_getElem?, h3]
        simp only [Func.op, Nat.add_sub_cancel, List.getD_eq_getElem?_getD]
        rw [List.getElem?_eq_getElem hj]; rfl
      have hd : dataOperands (isScratch f impl) (f.op j) = (f.op j).operands := by
        unfold dataOperands
        exact List.filter_eq_self.2 fun v hv => by simp [hlast _ hl v hv]
      simp only [refRun, refTrace, hd]
    · have := ih hrest (e.setFrom (f.result0 j) (k j ((f.op j).operands.map e))) (by
        intro v i hs hi hl
        have hlen := congrArg List.length (hk j ((f.op j).operands.map e) hj)
        rw [List.length_map] at hlen
        by_cases hij : i < j
        · rw [Env.setFrom_other _ _ _ _ (Or.inl (before_result0 hj (Or.inr ⟨i, hi, hij⟩)))]
          exact h v i hs hi hij
        · have : i = j := by omega
          subst this
          have hsk : impl i = .skip := by
            unfold isScratch at hs
            unfold Func.DefinedAt at hi
            rw [hi] at hs
            simp only at hs
            split at hs
            · assumption
            · simp at hs
          rw [hskip i hj hsk] at hlen ⊢
          unfold scratchValue
          have hd := hi
          unfold Func.DefinedAt at hd
          rw [hd]
          obtain ⟨_, i', hi', rfl⟩ := (definedAt_iff f v i).1 hi
          simp only [List.map_nil] at hlen ⊢
          rw [Env.setFrom_same _ _ _ _ (by omega)]
          rw [Nat.add_sub_cancel_left, List.getD_eq_getElem?_getD, List.getElem?_eq_getElem (by omega)]
          rfl) hnil
      have hne1 : ∀ k' e', refRun f k' (isScratch f impl) os (j + 1) e' ≠ [] := by
        intro k' e' hc
        cases os with
        | nil => exact hnil rfl
        | cons _ _ => simp [refRun] at hc
      have hne2 : ∀ k' e', refTrace f k' os (j + 1) e' ≠ [] := by
        intro k' e' hc
        cases os with
        | nil => exact hnil rfl
        | cons _ _ => simp [refTrace] at hc
      rw [List.getLast?_cons_of_ne_nil (hne1 _ _), List.getLast?_cons_of_ne_nil (hne2 _ _)]
      exact this

theorem planMemory_plan {f : Func} {a : ModuleAttrs} (h : planMemory f = some a) :
    ∃ b p, getAllocatedOffsets f b = some p ∧ a.offsets = p.offsets := by
  unfold planMemory at h
  split at h
  · next w wo h1 h2 =>
    have := Option.some.inj h
    subst this
    by_cases hc : w.peakMemoryUsed ≤ wo.peakMemoryUsed
    · exact ⟨true, w, h1, by simp [hc]⟩
    · exact ⟨false, wo, h2, by simp [hc]⟩
  · cases h

/-- **C102, what a model returns.**  In the arena that the compiler plans, whatever the interleaving of the threads, the initial memory and the content of
the scratch tensors, the model returns what the machine of C02 returns that runs every operator in one piece. -/
theorem C102_as_sequential {f : Func} (wf : f.WF) (ip : f.InPlaceOK) {a : ModuleAttrs} (h : planMemory f = some a)
    (k : Kernels) (hk : Kernels.Fit f k) (impl : Nat → Impl) (ok : ImplOK f (onData f impl k) impl)
    (hskip : ∀ j, j < f.ops.length → impl j = .skip → (f.op j).operands = [])
    (hlast : ∃ o, f.ops.getLast? = some o ∧ o.isTerm = true) (inputs : List (List Byte))
    (hin : inputs.map List.length = f.argSizes) (m : Mem) (c : Env) (tr : List (List (List Byte)))
    (hrun : Run f (onData f impl k) impl a.offsets f.ops 0 (loadInputs a.offsets inputs m) c tr) (m' : Mem) (c' : Env) :
    tr.getLast? = (arenaTrace f k a.offsets f.ops 0 (loadInputs a.offsets inputs m') c').getLast? := by
  obtain ⟨b, p, hp, ho⟩ := planMemory_plan h
  rw [ho] at hrun ⊢
  have hk' : Kernels.Fit f (onData f impl k) := fun j ins hj => hk j _ hj
  rw [C102_any_schedule wf ip hp _ hk' impl ok inputs hin m c tr hrun, C02_arena_execution_correct_in_place wf ip hp k inputs m' c' hk hin]
  obtain ⟨o, ho1, ho2⟩ := hlast
  have hl : f.ops.length ≠ 0 := by
    intro hc
    rw [List.length_eq_zero_iff.1 hc] at ho1
    simp at ho1
  apply refRun_onData wf hk hskip (by simp) _ (by intro v i _ _ hi; omega) (by intro hc; exact hl (by rw [hc]; rfl))
  intro o' ho' v hv
  have : o' = o := by rw [ho1] at ho'; exact (Option.some.inj ho').symm
  subst this
  by_contra hs
  have hs : isScratch f impl v = true := by simpa using hs
  have hop : f.op (f.ops.length - 1) = o' := by
    rw [List.getLast?_eq_getElem?] at ho1
    simp only [Func.op, List.getD_eq_getElem?_getD, ho1]; rfl
  have := (ok.scratchUse v (f.ops.length - 1) hs ⟨by omega, by rw [hop]; exact hv⟩).1
  rw [hop, ho2] at this
  cases this

end Verif.MemPlan.Conc
