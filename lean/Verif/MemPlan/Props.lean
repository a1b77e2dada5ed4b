import Verif.MemPlan.Machine
/-!
Properties C01 - C06 of the arena planner, for every function.
`Spec.lean` has the vocabulary; the helper lemmas are in the other files of this directory.
-/
namespace Verif.MemPlan

/-! ### Decision procedure for the hypotheses, used only by the examples -/

def Func.wfCheck (f : Func) : Bool :=
  (List.range f.ops.length).all fun j =>
    (f.op j).operands.all (fun v => decide (v < f.argSizes.length) ||
      (List.range j).any fun i => decide ((f.decl v).defPos = some i)) &&
    (!(f.op j).isConst || (f.op j).operands.isEmpty)

theorem Func.wf_of_check {f : Func} (h : f.wfCheck = true) : f.WF := by
  simp only [Func.wfCheck, List.all_eq_true, List.mem_range, Bool.and_eq_true, Bool.or_eq_true,
    decide_eq_true_eq, List.any_eq_true, Bool.not_eq_true'] at h
  constructor
  · intro j v hu
    rcases (h j hu.1).1 v hu.2 with a | ⟨i, hi, hd⟩
    · exact Or.inl a
    · exact Or.inr ⟨i, hd, hi⟩
  · intro j hc
    by_cases hj : j < f.ops.length
    · rcases (h j hj).2 with a | a
      · rw [a] at hc; simp at hc
      · simpa using a
    · simp [Func.op, List.getD_eq_getElem?_getD, List.getElem?_eq_none (Nat.le_of_not_lt hj)]

def Func.inPlaceCheck (f : Func) : Bool :=
  (List.range f.ops.length).all fun j =>
    !(f.op j).overlappable ||
      (!(f.op j).isConst && !(f.op j).isTerm && !(f.op j).resultSizes.isEmpty &&
        (List.range f.ops.length).all fun i => !(f.op i).overlappable ||
          (!decide (f.result0 i ∈ (f.op j).operands) ||
            decide (f.raw (f.result0 i) ≤ f.raw (f.result0 j))))

theorem Func.inPlaceOK_of_check {f : Func} (h : f.inPlaceCheck = true) : f.InPlaceOK := by
  simp only [Func.inPlaceCheck, List.all_eq_true, List.mem_range, Bool.and_eq_true, Bool.or_eq_true,
    decide_eq_true_eq, Bool.not_eq_true', decide_eq_false_iff_not] at h
  constructor
  · intro j hj ho
    rcases h j hj with a | ⟨⟨⟨a, b⟩, c⟩, _⟩
    · rw [a] at ho; simp at ho
    · refine ⟨a, b, ?_⟩
      intro hn; rw [hn] at c; simp at c
  · intro i j hi ho hj ho' hu
    rcases h j hj with a | ⟨_, d⟩
    · rw [a] at ho'; simp at ho'
    · rcases d i hi with a | a | a
      · rw [a] at ho; simp at ho
      · exact absurd hu.2 a
      · exact a

/-- A small residual network: two inputs, a constant, an in-place pad followed by an in-place lookup, a
convolution, an in-place add and the return. -/
def exampleFunc : Func :=
  { argSizes := [100, 36]
    ops :=
      [ ⟨true, false, false, [], [64]⟩,          -- 2: constant weights
        ⟨false, false, true, [0], [120]⟩,        -- 3: pad, in place of 0
        ⟨false, false, true, [3], [120]⟩,        -- 4: lookup, in place of 3
        ⟨false, false, false, [4, 2], [36, 8]⟩,  -- 5, 6: convolution and scratch
        ⟨false, false, true, [5, 1], [36]⟩,      -- 7: add, in place of 5
        ⟨false, true, false, [7, 4], []⟩ ] }     -- return

theorem exampleFunc_wf : exampleFunc.WF := Func.wf_of_check (by decide)
theorem exampleFunc_inPlace : exampleFunc.InPlaceOK := Func.inPlaceOK_of_check (by decide)

/-! ### C01 -/

/-- **C01** Without overlapping, two arena tensors that are live during the same operation occupy disjoint
byte ranges (even when each range is rounded up to a multiple of 8). -/
theorem C01_live_tensors_disjoint {f : Func} (wf : f.WF) {p : Plan}
    (h : getAllocatedOffsets f false = some p) {v w t : Nat} (hv : f.Arena v) (hw : f.Arena w)
    (hne : v ≠ w) (hlv : f.LiveAt v t) (hlw : f.LiveAt w t) :
    RangesDisjoint (offsetOf p.offsets v) (roundUp8 (f.raw v))
      (offsetOf p.offsets w) (roundUp8 (f.raw w)) := by
  obtain ⟨al, pf⟩ := planFacts (ovOK_false (f := f)) h
  obtain ⟨r, o, hr⟩ := rootOf_exists (s := overlapPhase f false) v
  obtain ⟨r', o', hr'⟩ := rootOf_exists (s := overlapPhase f false) w
  obtain ⟨rfl, rfl⟩ := rootOf_false hr
  obtain ⟨rfl, rfl⟩ := rootOf_false hr'
  exact planFacts_disjoint ovOK_false pf hv hw hr hr' hne (live_meets wf hv hw hlv hlw)

/-! ### C05 -/

/-- **C05** With overlapping, two tensors live during the same operation share bytes only if one is reached
from the other through in-place operators whose inputs have no other reader. -/
theorem C05_sharing_only_along_in_place_chains {f : Func} (wf : f.WF) (ip : f.InPlaceOK) {b : Bool}
    {p : Plan} (h : getAllocatedOffsets f b = some p) {v w t : Nat} (hv : f.Arena v) (hw : f.Arena w)
    (hne : v ≠ w) (hlv : f.LiveAt v t) (hlw : f.LiveAt w t)
    (hvw : ¬ f.InPlaceChain v w) (hwv : ¬ f.InPlaceChain w v) :
    RangesDisjoint (offsetOf p.offsets v) (roundUp8 (f.raw v))
      (offsetOf p.offsets w) (roundUp8 (f.raw w)) := by
  obtain ⟨j, inv⟩ := overlapPhase_inv wf ip b
  have ok := ovOK_of_inv wf ip inv
  obtain ⟨al, pf⟩ := planFacts ok h
  obtain ⟨r, o, hr⟩ := rootOf_exists (s := overlapPhase f b) v
  obtain ⟨r', o', hr'⟩ := rootOf_exists (s := overlapPhase f b) w
  by_cases hrr : r = r'
  · subst hrr
    rcases sameRoot_chain inv hr hr' hne with h | h
    · exact absurd h hvw
    · exact absurd h hwv
  · exact planFacts_disjoint ok pf hv hw hr hr' hrr (live_meets wf hv hw hlv hlw)

/-! ### C02 -/

theorem planValid_of {f : Func} (wf : f.WF) {offs : List Int}
    (hd : ∀ v w t, f.Arena v → f.Arena w → v ≠ w → f.LiveAt v t → f.LiveAt w t →
      ¬ Before f v w → ¬ Before f w v →
      RangesDisjoint (offsetOf offs v) (roundUp8 (f.raw v)) (offsetOf offs w) (roundUp8 (f.raw w))) :
    PlanValid f offs := by
  have shrink : ∀ v w, RangesDisjoint (offsetOf offs v) (roundUp8 (f.raw v)) (offsetOf offs w)
      (roundUp8 (f.raw w)) → RangesDisjoint (offsetOf offs v) (f.raw v) (offsetOf offs w) (f.raw w) := by
    intro v w h
    have := roundUp8_ge (f.raw v)
    have := roundUp8_ge (f.raw w)
    unfold RangesDisjoint at *; omega
  constructor
  · intro v w hv hw hne
    apply shrink
    apply hd v w 0 (arg_arena f hv) (arg_arena f hw) hne (Or.inl ⟨hv, Or.inl rfl⟩)
      (Or.inl ⟨hw, Or.inl rfl⟩)
    · rintro ⟨j, hj, _⟩; exact definedAt_not_arg f hj hw
    · rintro ⟨j, hj, _⟩; exact definedAt_not_arg f hj hv
  · intro v r j hv hr hne hd' hc
    apply shrink
    have hlr : f.LiveAt r j := Or.inr ⟨j, hd', le_refl _, Or.inl rfl⟩
    rcases hc with hvj | ⟨hb, q, hq, hu⟩
    · apply hd v r j hv hr hne (Or.inr ⟨j, hvj, le_refl _, Or.inl rfl⟩) hlr
      · rintro ⟨j', hj', _, ha | ⟨i, hi, hl⟩⟩
        · exact definedAt_not_arg f hvj ha
        · have := definedAt_unique f hi hvj; have := definedAt_unique f hj' hd'; omega
      · rintro ⟨j', hj', _, ha | ⟨i, hi, hl⟩⟩
        · exact definedAt_not_arg f hd' ha
        · have := definedAt_unique f hi hd'; have := definedAt_unique f hj' hvj; omega
    · have hlv : f.LiveAt v j := by
        rcases hb with ha | ⟨i, hi, hl⟩
        · exact Or.inl ⟨ha, Or.inr ⟨q, by omega, hu⟩⟩
        · exact Or.inr ⟨i, hi, by omega, Or.inr ⟨q, by omega, hu⟩⟩
      apply hd v r j hv hr hne hlv hlr
      · rintro ⟨j', hj', hus, _⟩
        have := hus q hu
        have := definedAt_unique f hj' hd'; omega
      · rintro ⟨j', hj', _, ha | ⟨i, hi, hl⟩⟩
        · exact definedAt_not_arg f hd' ha
        · have h1 := definedAt_unique f hi hd'
          rcases hb with ha | ⟨i', hi', hl'⟩
          · exact definedAt_not_arg f hj' ha
          · have := definedAt_unique f hi' hj'; omega

/-- **C02** (plan without overlapping; no assumption on kernels beyond result sizes) -/
theorem C02_arena_execution_correct {f : Func} (wf : f.WF) {p : Plan}
    (h : getAllocatedOffsets f false = some p) : ArenaRunsCorrectly f p.offsets := by
  apply runs_of_valid wf
  apply planValid_of wf
  intro v w t hv hw hne hlv hlw _ _
  exact C01_live_tensors_disjoint wf h hv hw hne hlv hlw

/-- **C02** (in-place plan): kernels read their operands before their results are written. -/
theorem C02_arena_execution_correct_in_place {f : Func} (wf : f.WF) (ip : f.InPlaceOK) {b : Bool}
    {p : Plan} (h : getAllocatedOffsets f b = some p) : ArenaRunsCorrectly f p.offsets := by
  apply runs_of_valid wf
  apply planValid_of wf
  intro v w t hv hw hne hlv hlw h1 h2
  exact C05_sharing_only_along_in_place_chains wf ip h hv hw hne hlv hlw
    (fun hc => h1 (chain_before wf ip hc)) (fun hc => h2 (chain_before wf ip hc))

/-! ### C03 -/

/-- **C03** One offset per tensor, in id order; -1 exactly for constants; otherwise a non-negative multiple
of 8. -/
theorem C03_plan_shape {f : Func} (wf : f.WF) (ip : f.InPlaceOK) {b : Bool} {p : Plan}
    (h : getAllocatedOffsets f b = some p) :
    p.offsets.length = f.numValues ∧
    ∀ v, f.IsValue v →
      (f.Constant v ↔ offsetOf p.offsets v = -1) ∧
      (¬ f.Constant v → 0 ≤ offsetOf p.offsets v ∧ (8 : Int) ∣ offsetOf p.offsets v) := by
  have ok := ovOK wf ip b
  obtain ⟨al, pf⟩ := planFacts ok h
  refine ⟨pf.len, fun v hv => ?_⟩
  have hn : ¬ f.Constant v → 0 ≤ offsetOf p.offsets v ∧ (8 : Int) ∣ offsetOf p.offsets v := by
    intro hc
    have : (f.decl v).isConst = false := by simpa [Func.Constant] using hc
    exact planFacts_nonneg ok pf ⟨hv, this⟩
  refine ⟨⟨fun hc => pf.const v hv hc, fun he => ?_⟩, hn⟩
  by_contra hc
  have := (hn hc).1
  omega

/-- A plan is produced for every function that has an arena tensor: no undefined behaviour in the queue and
no failed assertion. -/
theorem C03_plan_exists {f : Func} (wf : f.WF) (ip : f.InPlaceOK) (b : Bool) {v : Nat}
    (hv : f.Arena v) : ∃ p, getAllocatedOffsets f b = some p := by
  have ok := ovOK wf ip b
  obtain ⟨r, o, hr⟩ := rootOf_exists (s := overlapPhase f b) v
  have hrq : r ∈ queueValues f (overlapPhase f b) := by
    rw [queueValues_mem ok]
    rcases hr with ⟨a, rfl, _⟩ | hm
    · exact ⟨hv, a⟩
    · exact ⟨ok.rootArena _ hm, ok.rootNotKey _ hm⟩
  have hq := queueOf_perm (overlapPhase f b).vi (queueValues f (overlapPhase f b))
  have hrq' := hq.mem_iff.2 hrq
  unfold getAllocatedOffsets
  simp only
  cases hal : allocate (overlapPhase f b).vi
      (queueOf (overlapPhase f b).vi (queueValues f (overlapPhase f b))) with
  | none =>
    cases hqq : queueOf (overlapPhase f b).vi (queueValues f (overlapPhase f b)) with
    | nil => rw [hqq] at hrq'; simp at hrq'
    | cons a l => rw [hqq] at hal; simp [allocate] at hal
  | some al =>
    have hk := (allocate_inv _ ok.sizeDvd _ al
      (hq.nodup_iff.2 (queueValues_nodup f _)) hal).2.trans hq
    obtain ⟨pt, hpt⟩ := patch_some (al := al) (io := (overlapPhase f b).inOut) (by
      intro e he
      exact hk.mem_iff.2 ((queueValues_mem ok _).2 ⟨ok.rootArena e he, ok.rootNotKey e he⟩))
    simp [hpt]

/-! ### C04 -/

/-- All arena tensors (rounded up to 8 bytes) fit in an arena of `n` bytes. -/
def Fits (f : Func) (offs : List Int) (n : Int) : Prop :=
  ∀ v, f.Arena v → offsetOf offs v + roundUp8 (f.raw v) ≤ n

/-- **C04** The reported peak is the least arena size in which the plan fits. -/
theorem C04_peak_is_least {f : Func} (wf : f.WF) (ip : f.InPlaceOK) {b : Bool} {p : Plan}
    (h : getAllocatedOffsets f b = some p) :
    Fits f p.offsets p.peakMemoryUsed ∧ ∀ n, Fits f p.offsets n → p.peakMemoryUsed ≤ n := by
  obtain ⟨h1, v, hv, h2⟩ := planFacts_peak (ovOK wf ip b) h
  refine ⟨h1, fun n hn => ?_⟩
  rw [← h2]; exact hn v hv

/-! ### C06 -/

/-- **C06** The plan attached to the model runs correctly, fits in the advertised `xc.peakusage`, and needs no
more memory than either of the two candidate plans. -/
theorem C06_chosen_plan {f : Func} (wf : f.WF) (ip : f.InPlaceOK) {a : ModuleAttrs}
    (h : planMemory f = some a) :
    ArenaRunsCorrectly f a.offsets ∧ Fits f a.offsets a.peakUsage ∧
    ∀ b p, getAllocatedOffsets f b = some p → ∀ n, Fits f p.offsets n → Fits f a.offsets n := by
  unfold planMemory at h
  split at h
  · rename_i w wo hw hwo
    simp only [Option.some.injEq] at h
    subst h
    have cw := C04_peak_is_least wf ip hw
    have cwo := C04_peak_is_least wf ip hwo
    simp only
    split
    · rename_i hle
      refine ⟨C02_arena_execution_correct_in_place wf ip hw, fun v hv => ?_, ?_⟩
      · exact le_trans (cw.1 v hv) hle
      · intro b p hp n hn v hv
        cases b with
        | true =>
          rw [hw] at hp; simp at hp; subst hp; exact hn v hv
        | false =>
          rw [hwo] at hp; simp at hp; subst hp
          exact le_trans (cw.1 v hv) (le_trans hle (cwo.2 n hn))
    · rename_i hlt
      refine ⟨C02_arena_execution_correct wf hwo, cwo.1, ?_⟩
      intro b p hp n hn v hv
      cases b with
      | true =>
        rw [hw] at hp; simp at hp; subst hp
        have := cw.2 n hn
        have := cwo.1 v hv
        omega
      | false =>
        rw [hwo] at hp; simp at hp; subst hp; exact hn v hv
  · simp at h

/-! ### The hypotheses are met by a non-trivial function -/

theorem exampleFunc_arena : exampleFunc.Arena 4 := ⟨by unfold Func.IsValue; decide, by decide⟩

example : ∃ p, getAllocatedOffsets exampleFunc false = some p ∧
    ArenaRunsCorrectly exampleFunc p.offsets := by
  obtain ⟨p, hp⟩ := C03_plan_exists exampleFunc_wf exampleFunc_inPlace false exampleFunc_arena
  exact ⟨p, hp, C02_arena_execution_correct exampleFunc_wf hp⟩

example : ∃ p, getAllocatedOffsets exampleFunc true = some p ∧
    ArenaRunsCorrectly exampleFunc p.offsets ∧
    Fits exampleFunc p.offsets p.peakMemoryUsed := by
  obtain ⟨p, hp⟩ := C03_plan_exists exampleFunc_wf exampleFunc_inPlace true exampleFunc_arena
  exact ⟨p, hp, C02_arena_execution_correct_in_place exampleFunc_wf exampleFunc_inPlace hp,
    (C04_peak_is_least exampleFunc_wf exampleFunc_inPlace hp).1⟩

/-- The two plans of the example, computed by the kernel: the in-place plan is smaller. -/
example : getAllocatedOffsets exampleFunc false =
    some ⟨[0, 240, -1, 120, 0, 160, 120, 120], 280, 2⟩ := by decide +kernel
example : getAllocatedOffsets exampleFunc true =
    some ⟨[24, 168, -1, 0, 0, 128, 208, 128], 216, 6⟩ := by decide +kernel
example : planMemory exampleFunc =
    some ⟨[24, 168, -1, 0, 0, 128, 208, 128], 280, 2⟩ := by decide +kernel

/-- Input 1 and tensor 4 are simultaneously live in the example (hypotheses of C01/C05). -/
example : exampleFunc.LiveAt 1 3 ∧ exampleFunc.LiveAt 4 3 :=
  ⟨Or.inl ⟨by unfold Func.IsArg; decide, Or.inr ⟨4, by decide, by constructor <;> decide⟩⟩,
   Or.inr ⟨2, by unfold Func.DefinedAt; decide, by decide, Or.inr ⟨3, by decide, by constructor <;> decide⟩⟩⟩

end Verif.MemPlan
