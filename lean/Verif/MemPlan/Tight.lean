import Verif.MemPlan.Props
import Mathlib.Order.Interval.Finset.Nat
import Mathlib.Data.Int.Interval
import Mathlib.Algebra.BigOperators.Ring.Finset
import Mathlib.Algebra.Order.BigOperators.Group.Finset
/-!
C62: the plan does not waste memory — lower and upper bounds on the advertised peak — and the meaning of the reported
`xc.peakopid`.
-/
namespace Verif.MemPlan

/-! ### First fit is tight -/

theorem getOffset_cases (vi : VMap) (v : Nat) (size : Int) (al : Alloc) (acc : Int) :
    getOffset vi v size al acc = acc ∨
      ∃ x ∈ al, Meets vi v x.1 ∧ getOffset vi v size al acc = x.2 + (vi x.1).size := by
  induction al generalizing acc with
  | nil => simp [getOffset]
  | cons x xs ih =>
    obtain ⟨a, ao⟩ := x
    have lift : ∀ acc', (getOffset vi v size xs acc' = acc' ∨
        ∃ x ∈ xs, Meets vi v x.1 ∧ getOffset vi v size xs acc' = x.2 + (vi x.1).size) →
        (getOffset vi v size xs acc' = acc' ∨ ∃ x ∈ (a, ao) :: xs, Meets vi v x.1 ∧
          getOffset vi v size xs acc' = x.2 + (vi x.1).size) := by
      rintro acc' (h | ⟨x, hx, h⟩)
      · exact Or.inl h
      · exact Or.inr ⟨x, by simp [hx], h⟩
    simp only [getOffset]
    split
    · exact lift _ (ih acc)
    · rename_i hm
      split
      · exact Or.inl rfl
      · split
        · rcases lift _ (ih (ao + (vi a).size)) with h | h
          · refine Or.inr ⟨(a, ao), by simp, ?_, h⟩
            exact fun hc => hm (Or.symm hc)
          · exact Or.inr h
        · exact lift _ (ih acc)

/-- Every entry is at 0 or directly above an entry with a meeting live range. -/
def TightInv (vi : VMap) (al : Alloc) : Prop :=
  ∀ x ∈ al, x.2 = 0 ∨ ∃ y ∈ al, y.1 ≠ x.1 ∧ Meets vi x.1 y.1 ∧ x.2 = y.2 + (vi y.1).size

theorem allocLoop_tight (vi : VMap) (q : List Nat) (al : Alloc) (h : TightInv vi al)
    (hn : (q ++ al.map Prod.fst).Nodup) : TightInv vi (allocLoop vi q al) := by
  induction q generalizing al with
  | nil => exact h
  | cons v q ih =>
    simp only [allocLoop]
    have hp := insertByOffset_perm (v, getOffset vi v (vi v).size al 0) al
    have hpk := hp.map Prod.fst
    simp only [List.map_cons] at hpk
    apply ih
    · intro x hx
      have hv : v ∉ al.map Prod.fst := by
        intro hm
        have := List.nodup_cons.1 hn
        exact this.1 (List.mem_append.2 (Or.inr hm))
      rcases List.mem_cons.1 (hp.mem_iff.1 hx) with rfl | hx
      · rcases getOffset_cases vi v (vi v).size al 0 with h0 | ⟨y, hy, hm, he⟩
        · exact Or.inl h0
        · refine Or.inr ⟨y, hp.mem_iff.2 (by simp [hy]), ?_, hm, he⟩
          intro hc
          exact hv (List.mem_map.2 ⟨y, hy, hc⟩)
      · rcases h x hx with h0 | ⟨y, hy, hm, he⟩
        · exact Or.inl h0
        · exact Or.inr ⟨y, hp.mem_iff.2 (by simp [hy]), hm, he⟩
    · have hperm : (q ++ (insertByOffset (v, getOffset vi v (vi v).size al 0) al).map Prod.fst).Perm
          (v :: q ++ al.map Prod.fst) :=
        ((hpk.append_left q)).trans List.perm_middle
      exact hperm.nodup_iff.2 hn

theorem allocLoop_sum (vi : VMap) (hsz : ∀ v, 0 ≤ (vi v).size) (q : List Nat) (al : Alloc)
    (S : Int) (hS : 0 ≤ S) (h : ∀ x ∈ al, x.2 + (vi x.1).size ≤ S) :
    ∀ x ∈ allocLoop vi q al, x.2 + (vi x.1).size ≤ S + (q.map fun v => (vi v).size).sum := by
  induction q generalizing al S with
  | nil => simpa [allocLoop] using h
  | cons v q ih =>
    simp only [allocLoop, List.map_cons, List.sum_cons]
    intro x hx
    have hv := hsz v
    have hp := insertByOffset_perm (v, getOffset vi v (vi v).size al 0) al
    have := ih _ (S + (vi v).size) (by omega) (by
      intro y hy
      rcases List.mem_cons.1 (hp.mem_iff.1 hy) with rfl | hy
      · rcases getOffset_cases vi v (vi v).size al 0 with h0 | ⟨z, hz, _, he⟩
        · rw [h0]; simp only; omega
        · have := h z hz
          simp only; omega
      · have := h y hy
        omega) x hx
    omega

theorem plan_entries {f : Func} {p : Plan} (h : getAllocatedOffsets f false = some p) :
    ∃ v q, queueOf f.vinfo (queueValues f (overlapPhase f false)) = v :: q ∧
      (∀ w, f.Arena w ↔ w ∈ v :: q) ∧ (v :: q).Nodup ∧
      ∀ w, f.Arena w → (w, offsetOf p.offsets w) ∈ allocLoop f.vinfo q [(v, 0)] := by
  have ok := ovOK_false (f := f)
  obtain ⟨al, pt, hal, hpt, ho, _⟩ := getAllocatedOffsets_unfold h
  have hvi : (overlapPhase f false).vi = f.vinfo := rfl
  have hio : (overlapPhase f false).inOut = [] := rfl
  have hq := queueOf_perm f.vinfo (queueValues f (overlapPhase f false))
  obtain ⟨hp1, _⟩ := patch_mem hpt
  have hnd := hq.nodup_iff.2 (queueValues_nodup f (overlapPhase f false))
  obtain ⟨_, hk⟩ := allocate_inv _ ok.sizeDvd _ al hnd hal
  have hperm := all_keys_perm ok (hk.trans hq) hp1
  have hmem : ∀ w, f.Arena w ↔ w ∈ queueOf f.vinfo (queueValues f (overlapPhase f false)) := by
    intro w
    rw [hq.mem_iff, queueValues_mem ok, hio]
    simp
  rw [hvi] at hal
  cases hqq : queueOf f.vinfo (queueValues f (overlapPhase f false)) with
  | nil => rw [hqq] at hal; simp [allocate] at hal
  | cons v q =>
    rw [hqq] at hal hmem hnd
    simp only [allocate, Option.some.injEq] at hal
    refine ⟨v, q, rfl, hmem, hnd, fun w hw => ?_⟩
    have : w ∈ al.map Prod.fst := by
      rw [hk.mem_iff]; exact hqq ▸ (hmem w).1 hw
    obtain ⟨⟨w', o⟩, hx, rfl⟩ := List.mem_map.1 this
    have hoff : offsetOf p.offsets w' = o := by
      rw [ho]; exact (sortById_lookup _ _ hperm w' o (by simp [hx])).2
    simp only
    rw [hoff, hal]; exact hx

/-- `v` and `w` are in memory at the same time: there are moments `p`, `q` at which they are live with no computing
(non-constant) operation between `p` and `q`. -/
def Func.SameTime (f : Func) (v w : Nat) : Prop :=
  ∃ p q, f.LiveAt v p ∧ f.LiveAt w q ∧ ∀ j, min p q ≤ j → j < max p q → (f.op j).isConst = true

theorem liveAt_startPos {f : Func} {v : Nat} (hv : f.Arena v) : f.LiveAt v (f.startPos v) := by
  rcases value_cases f hv.1 with ha | ⟨j, i, hj, hi, rfl⟩
  · rw [startPos_arg f ha]
    exact Or.inl ⟨ha, Or.inl rfl⟩
  · have hd : f.DefinedAt (f.result0 j + i) j := by
      rw [definedAt_iff]
      exact ⟨hj, i, hi, rfl⟩
    rw [startPos_def f hd]
    exact Or.inr ⟨j, hd, le_refl _, Or.inl rfl⟩

theorem liveAt_between {f : Func} {v p : Nat} (hv : f.Arena v) (h1 : f.startPos v ≤ p) (h2 : p ≤ f.endPos v) :
    f.LiveAt v p := by
  by_cases he : p = f.startPos v
  · subst he; exact liveAt_startPos hv
  · have hu : f.UsedAt v (f.endPos v) := by
      rcases endPos_cases f v with h | h
      · omega
      · exact h
    rcases value_cases f hv.1 with ha | ⟨j, i, hj, hi, rfl⟩
    · exact Or.inl ⟨ha, Or.inr ⟨_, h2, hu⟩⟩
    · have hd : f.DefinedAt (f.result0 j + i) j := by
        rw [definedAt_iff]
        exact ⟨hj, i, hi, rfl⟩
      have hs := startPos_def f hd
      exact Or.inr ⟨j, hd, by omega, Or.inr ⟨_, h2, hu⟩⟩

theorem cnt_succ (f : Func) (j : Nat) (hj : j < f.ops.length) :
    f.cnt (j + 1) = f.cnt j + (if (f.op j).isConst then 0 else 1) := by
  unfold Func.cnt
  rw [List.take_add_one, List.getElem?_eq_getElem hj, List.countP_append, op_eq f hj]
  cases h : (f.ops[j]).isConst <;> simp [h]

theorem const_between {f : Func} {p q : Nat} (_ : p ≤ q) (h : f.cnt p = f.cnt q) :
    ∀ j, p ≤ j → j < q → (f.op j).isConst = true := by
  intro j h1 h2
  by_cases hj : j < f.ops.length
  · have a := cnt_mono f h1
    have b := cnt_mono f (show j + 1 ≤ q by omega)
    have c := cnt_succ f j hj
    by_contra hc
    simp only [Bool.not_eq_true] at hc
    rw [hc] at c
    simp at c
    omega
  · simp [Func.op, List.getD_eq_getElem?_getD, List.getElem?_eq_none (Nat.le_of_not_lt hj)]

theorem meets_sameTime {f : Func} (wf : f.WF) {v w : Nat} (hv : f.Arena v) (hw : f.Arena w)
    (h : Meets f.vinfo v w) : f.SameTime v w := by
  unfold Meets at h
  rw [first_eq f hv, first_eq f hw, last_eq wf hv, last_eq wf hw] at h
  have s1 := startPos_le_endPos f v
  have s2 := startPos_le_endPos f w
  by_cases h1 : f.startPos v ≤ f.startPos w
  · by_cases h2 : f.startPos w ≤ f.endPos v
    · exact ⟨f.startPos w, f.startPos w, liveAt_between hv h1 h2, liveAt_startPos hw, by intros; omega⟩
    · have := cnt_mono f (show f.endPos v ≤ f.startPos w by omega)
      refine ⟨f.endPos v, f.startPos w, liveAt_between hv s1 (le_refl _), liveAt_startPos hw, ?_⟩
      intro j a b
      exact const_between (show f.endPos v ≤ f.startPos w by omega) (by omega) j (by omega) (by omega)
  · by_cases h2 : f.startPos v ≤ f.endPos w
    · exact ⟨f.startPos v, f.startPos v, liveAt_startPos hv, liveAt_between hw (by omega) h2, by intros; omega⟩
    · have := cnt_mono f (show f.endPos w ≤ f.startPos v by omega)
      refine ⟨f.startPos v, f.endPos w, liveAt_startPos hv, liveAt_between hw s2 (le_refl _), ?_⟩
      intro j a b
      exact const_between (show f.endPos w ≤ f.startPos v by omega) (by omega) j (by omega) (by omega)

/-- **C62** No arena tensor is placed higher than necessary: it is at offset 0, or it begins exactly where another tensor
that is in memory at the same time ends. -/
theorem C62_no_gratuitous_gap {f : Func} (wf : f.WF) {p : Plan} (h : getAllocatedOffsets f false = some p)
    {v : Nat} (hv : f.Arena v) :
    offsetOf p.offsets v = 0 ∨
      ∃ w, f.Arena w ∧ w ≠ v ∧ f.SameTime v w ∧
        offsetOf p.offsets v = offsetOf p.offsets w + roundUp8 (f.raw w) := by
  obtain ⟨v0, q, hq, hmem, hnd, hent⟩ := plan_entries h
  have ht := allocLoop_tight f.vinfo q [(v0, 0)] (by intro x hx; simp at hx; subst hx; simp) (by
    have : (q ++ [v0]).Perm (v0 :: q) := by simp
    exact this.nodup_iff.2 hnd)
  have hk := (allocLoop_inv f.vinfo (fun v => vinfo_size_dvd f v) q [(v0, 0)] ⟨by simp, by
      intro x hx y hy hne
      simp at hx hy
      subst hx; subst hy
      exact absurd rfl hne, by simp, by simp⟩ (by
    have : (q ++ [v0]).Perm (v0 :: q) := by simp
    exact this.nodup_iff.2 hnd)).2
  rcases ht _ (hent v hv) with h0 | ⟨y, hy, hne, hm, he⟩
  · exact Or.inl h0
  · right
    have hyA : f.Arena y.1 := by
      rw [hmem]
      have := hk.mem_iff.1 (List.mem_map.2 ⟨y, hy, rfl⟩)
      simpa [or_comm] using this
    have hnodup : ((allocLoop f.vinfo q [(v0, 0)]).map Prod.fst).Nodup := by
      rw [hk.nodup_iff]
      have : (q ++ [v0]).Perm (v0 :: q) := by simp
      exact this.nodup_iff.2 hnd
    have hyo : y.2 = offsetOf p.offsets y.1 := by
      have h2 := hent y.1 hyA
      have := List.inj_on_of_nodup_map hnodup hy h2 rfl
      exact congrArg Prod.snd this
    refine ⟨y.1, hyA, hne, meets_sameTime wf hv hyA hm, ?_⟩
    rw [← hyo, ← vinfo_size_eq]; exact he

/-- The arena tensors of a function. -/
def Func.arenaSet (f : Func) : Finset Nat := (Finset.range f.numValues).filter fun v => (f.decl v).isConst = false

theorem mem_arenaSet (f : Func) (v : Nat) : v ∈ f.arenaSet ↔ f.Arena v := by
  simp [Func.arenaSet, Func.Arena, Func.IsValue]

/-- **C62** The advertised peak never exceeds the memory needed when nothing is shared. -/
theorem C62_peak_at_most_sum {f : Func} (wf : f.WF) (ip : f.InPlaceOK) {a : ModuleAttrs} (h : planMemory f = some a) :
    a.peakUsage ≤ ∑ v ∈ f.arenaSet, (roundUp8 (f.raw v) : Int) := by
  unfold planMemory at h
  split at h
  · rename_i w wo hw hwo
    simp only [Option.some.injEq] at h
    subst h
    simp only
    apply (C04_peak_is_least wf ip hwo).2
    intro v hv
    obtain ⟨v0, q, hq, hmem, hnd, hent⟩ := plan_entries hwo
    have hs := allocLoop_sum f.vinfo (fun v => by rw [vinfo_size_eq]; omega) q [(v0, 0)] (f.vinfo v0).size
      (by rw [vinfo_size_eq]; omega) (by simp) _ (hent v hv)
    simp only at hs
    rw [vinfo_size_eq] at hs
    refine le_trans hs (le_of_eq ?_)
    have hset : f.arenaSet = (v0 :: q).toFinset := by
      ext w; rw [mem_arenaSet, hmem]; simp
    rw [hset, List.sum_toFinset _ hnd]
    simp only [List.map_cons, List.sum_cons, vinfo_size_eq]
  · simp at h

/-- **C62** The peak of the plan without overlapping is at least the total size of any set of tensors that are live during
the same operation: no plan that keeps live tensors apart can be smaller. -/
theorem C62_peak_at_least_live {f : Func} {offs : List Int} {n : Int} (hf : Fits f offs n)
    (hn : ∀ v, f.Arena v → 0 ≤ offsetOf offs v)
    (hd : ∀ v w t, f.Arena v → f.Arena w → v ≠ w → f.LiveAt v t → f.LiveAt w t →
      RangesDisjoint (offsetOf offs v) (roundUp8 (f.raw v)) (offsetOf offs w) (roundUp8 (f.raw w)))
    (S : Finset Nat) (t : Nat) (hS : ∀ v ∈ S, f.Arena v ∧ f.LiveAt v t) (hne : S.Nonempty) :
    ∑ v ∈ S, (roundUp8 (f.raw v) : Int) ≤ n := by
  let I : Nat → Finset Int := fun v => Finset.Ico (offsetOf offs v) (offsetOf offs v + roundUp8 (f.raw v))
  have hdis : (S : Set Nat).PairwiseDisjoint I := by
    intro v hv w hw hvw
    have := hd v w t (hS v hv).1 (hS w hw).1 hvw (hS v hv).2 (hS w hw).2
    rw [Function.onFun, Finset.disjoint_left]
    intro x hx hy
    simp only [I, Finset.mem_Ico] at hx hy
    unfold RangesDisjoint at this
    omega
  have hc := Finset.card_biUnion hdis
  have hsub : S.biUnion I ⊆ Finset.Ico 0 n := by
    intro x hx
    rw [Finset.mem_biUnion] at hx
    obtain ⟨v, hv, hx⟩ := hx
    simp only [I, Finset.mem_Ico] at hx
    have h1 := hn v (hS v hv).1
    have h2 := hf v (hS v hv).1
    rw [Finset.mem_Ico]
    omega
  have hle := Finset.card_le_card hsub
  rw [hc] at hle
  have hcard : ∀ v ∈ S, (I v).card = roundUp8 (f.raw v) := by
    intro v _; simp [I, Int.card_Ico]
  rw [Finset.sum_congr rfl hcard, Int.card_Ico] at hle
  obtain ⟨v, hv⟩ := hne
  have h1 := hn v (hS v hv).1
  have h2 := hf v (hS v hv).1
  have hn0 : 0 ≤ n := by omega
  have : ((∑ v ∈ S, roundUp8 (f.raw v) : Nat) : Int) ≤ ((n - 0).toNat : Int) := by exact_mod_cast hle
  rw [Int.toNat_of_nonneg (by omega), Int.sub_zero, Nat.cast_sum] at this
  exact this

/-- **C62** Applied to the plan without overlapping: its peak lies between the largest total size of tensors live at one
moment and the total size of all arena tensors. -/
theorem C62_peak_at_least_live_of_plan {f : Func} (wf : f.WF) {p : Plan} (h : getAllocatedOffsets f false = some p)
    (S : Finset Nat) (t : Nat) (hS : ∀ v ∈ S, f.Arena v ∧ f.LiveAt v t) (hne : S.Nonempty) :
    ∑ v ∈ S, (roundUp8 (f.raw v) : Int) ≤ p.peakMemoryUsed := by
  have ok := ovOK_false (f := f)
  obtain ⟨al, pf⟩ := planFacts ok h
  exact C62_peak_at_least_live (fun v hv => (planFacts_peak ok h).1 v hv)
    (fun v hv => (planFacts_nonneg ok pf hv).1)
    (fun v w t hv hw hne h1 h2 => C01_live_tensors_disjoint wf h hv hw hne h1 h2) S t hS hne

/-! ### The reported peak operation -/

theorem peak_op_fold (vi : VMap) (l : Alloc) (p0 : Peak) (hl : ∀ x ∈ l, (vi x.1).isConst = false → 0 ≤ (vi x.1).size + x.2)
    (hp : l.Pairwise fun x y => x.1 < y.1) :
    let pk := l.foldl (peakStep vi) p0
    pk.maxId = p0.maxId + l.countP (fun x => !(vi x.1).isConst) ∧
    ((pk.peakUsed = p0.peakUsed ∧ pk.peakOpId = p0.peakOpId ∧
        ∀ x ∈ l, (vi x.1).isConst = false → (vi x.1).size + x.2 < p0.peakUsed) ∨
      ∃ x ∈ l, (vi x.1).isConst = false ∧ pk.peakUsed = (vi x.1).size + x.2 ∧
        (∀ y ∈ l, x.1 < y.1 → (vi y.1).isConst = false → (vi y.1).size + y.2 < pk.peakUsed) ∧
        pk.peakOpId = p0.maxId + l.countP (fun y => !(vi y.1).isConst && decide (y.1 ≤ x.1))) := by
  induction l generalizing p0 with
  | nil => simp
  | cons x xs ih =>
    rw [List.pairwise_cons] at hp
    simp only [List.foldl_cons]
    obtain ⟨h1, h2⟩ := ih (peakStep vi p0 x) (fun y hy => hl y (by simp [hy])) hp.2
    cases hc : (vi x.1).isConst with
    | true =>
      have hst : peakStep vi p0 x = p0 := by simp [peakStep, hc]
      rw [hst] at h1 h2
      simp only [hst]
      refine ⟨by simp [h1, hc], ?_⟩
      rcases h2 with ⟨a, b, c⟩ | ⟨y, hy, a, b, c, d⟩
      · left
        refine ⟨a, b, ?_⟩
        intro z hz hzc
        rcases List.mem_cons.1 hz with rfl | hz
        · rw [hc] at hzc; simp at hzc
        · exact c z hz hzc
      · right
        refine ⟨y, by simp [hy], a, b, ?_, ?_⟩
        · intro z hz hlt hzc
          rcases List.mem_cons.1 hz with rfl | hz
          · rw [hc] at hzc; simp at hzc
          · exact c z hz hlt hzc
        · rw [d]; simp [hc]
    | false =>
      have hm : (peakStep vi p0 x).maxId = p0.maxId + 1 := by
        simp only [peakStep, hc, Bool.false_eq_true, if_false]
        split <;> rfl
      refine ⟨by rw [h1, hm]; simp [hc]; omega, ?_⟩
      rcases h2 with ⟨a, b, c⟩ | ⟨y, hy, a, b, c, d⟩
      · by_cases hge : (vi x.1).size + x.2 ≥ p0.peakUsed
        · have hst : peakStep vi p0 x = ⟨(vi x.1).size + x.2, p0.maxId + 1, p0.maxId + 1⟩ := by
            simp [peakStep, hc, hge]
          right
          rw [hst] at a b c
          refine ⟨x, by simp, hc, by rw [hst]; exact a, ?_, ?_⟩
          · intro z hz hlt hzc
            rcases List.mem_cons.1 hz with rfl | hz
            · omega
            · rw [hst, a]; exact c z hz hzc
          · rw [hst, b]
            simp only [List.countP_cons, hc, le_refl]
            have : List.countP (fun y => !(vi y.1).isConst && decide (y.1 ≤ x.1)) xs = 0 := by
              rw [List.countP_eq_zero]
              intro z hz
              have := hp.1 z hz
              simp; intro _; omega
            rw [this]; simp
        · have hst : peakStep vi p0 x = { p0 with maxId := p0.maxId + 1 } := by
            simp [peakStep, hc, hge]
          left
          rw [hst] at a b c
          rw [hst]
          refine ⟨a, b, ?_⟩
          intro z hz hzc
          rcases List.mem_cons.1 hz with rfl | hz
          · omega
          · exact c z hz hzc
      · right
        refine ⟨y, by simp [hy], a, b, ?_, ?_⟩
        · intro z hz hlt hzc
          rcases List.mem_cons.1 hz with rfl | hz
          · have := hp.1 y hy; omega
          · exact c z hz hlt hzc
        · rw [d, hm]
          have := hp.1 y hy
          simp only [List.countP_cons, hc]
          have hle : x.1 ≤ y.1 := by omega
          simp [hle]; omega

/-- **C62** `xc.peakopid` in the plan without overlapping: let `v` be the last arena tensor (in id order) whose end is the
peak; then the reported number is the number of arena tensors up to and including `v` — one more than the zero-based position
of `v` among the arena tensors, and not the id of an operation. -/
theorem C62_peak_op {f : Func} {p : Plan} (h : getAllocatedOffsets f false = some p) :
    ∃ v, f.Arena v ∧ offsetOf p.offsets v + roundUp8 (f.raw v) = p.peakMemoryUsed ∧
      (∀ w, f.Arena w → v < w → offsetOf p.offsets w + roundUp8 (f.raw w) < p.peakMemoryUsed) ∧
      p.peakOpId = (f.arenaSet.filter (· ≤ v)).card := by
  have ok := ovOK_false (f := f)
  obtain ⟨al0, pf⟩ := planFacts ok h
  have hpeak := planFacts_peak ok h
  simp only [getAllocatedOffsets] at h
  split at h
  · simp at h
  · rename_i al hal
    split at h
    · simp at h
    · rename_i pt hpt
      simp only [Option.some.injEq] at h
      have hvi : (overlapPhase f false).vi = f.vinfo := rfl
      have hq := queueOf_perm f.vinfo (queueValues f (overlapPhase f false))
      obtain ⟨hp1, _⟩ := patch_mem hpt
      obtain ⟨_, hk⟩ := allocate_inv _ ok.sizeDvd _ al
        (hq.nodup_iff.2 (queueValues_nodup f (overlapPhase f false))) hal
      have hperm := all_keys_perm ok (hk.trans hq) hp1
      generalize hL : sortById (al ++ pt ++ constEntries f (overlapPhase f false).vi) = L at h
      have hkeys : L.map Prod.fst = List.range f.numValues := by
        rw [← hL]; exact sortById_keys _ _ hperm
      have hoffs : p.offsets = L.map Prod.snd := by rw [← h]
      have hlook : ∀ x ∈ L, x.1 < f.numValues ∧ offsetOf p.offsets x.1 = x.2 := by
        intro x hx
        rw [hoffs, ← hL]
        exact sortById_lookup _ _ hperm x.1 x.2 ((sortById_spec _).1.mem_iff.1 (by rw [hL]; exact hx))
      have hA : ∀ x ∈ L, (f.vinfo x.1).isConst = false → f.Arena x.1 := fun x hx hc => ⟨(hlook x hx).1, hc⟩
      have hmemL : ∀ v, f.Arena v → ∃ x ∈ L, x.1 = v := by
        intro v hv
        have : v ∈ L.map Prod.fst := by rw [hkeys]; exact List.mem_range.2 hv.1
        obtain ⟨x, hx, hxv⟩ := List.mem_map.1 this
        exact ⟨x, hx, hxv⟩
      have hval : ∀ x ∈ L, (f.vinfo x.1).size + x.2 = offsetOf p.offsets x.1 + roundUp8 (f.raw x.1) := by
        intro x hx
        rw [(hlook x hx).2, vinfo_size_eq]; omega
      have hsorted : L.Pairwise fun x y => x.1 < y.1 := by
        have := List.pairwise_lt_range (n := f.numValues)
        rw [← hkeys, List.pairwise_map] at this
        exact this
      have hfold := peak_op_fold f.vinfo L ⟨0, 0, 0⟩ (by
        intro x hx hc
        rw [hval x hx]
        have := (planFacts_nonneg ok pf (hA x hx hc)).1
        omega) hsorted
      obtain ⟨_, hfold⟩ := hfold
      have hpk : p.peakMemoryUsed = (L.foldl (peakStep f.vinfo) ⟨0, 0, 0⟩).peakUsed := by rw [← h, hvi]
      have hpo : p.peakOpId = (L.foldl (peakStep f.vinfo) ⟨0, 0, 0⟩).peakOpId := by rw [← h, hvi]
      rw [← hpk, ← hpo] at hfold
      rcases hfold with ⟨_, _, hlt⟩ | ⟨x, hx, hc, hpe, hlast, hcount⟩
      · exfalso
        obtain ⟨v, hv, _⟩ := hpeak.2
        obtain ⟨x, hx, rfl⟩ := hmemL v hv
        have h1 := hlt x hx hv.2
        rw [hval x hx] at h1
        have := (planFacts_nonneg ok pf hv).1
        simp only at h1
        omega
      · refine ⟨x.1, hA x hx hc, by rw [← hval x hx, hpe], ?_, ?_⟩
        · intro w hw hlt
          obtain ⟨y, hy, rfl⟩ := hmemL w hw
          rw [← hval y hy]
          exact hlast y hy hlt hw.2
        · rw [hcount]
          have hset : f.arenaSet.filter (· ≤ x.1) =
              ((List.range f.numValues).filter fun w => !(f.vinfo w).isConst && decide (w ≤ x.1)).toFinset := by
            ext w
            simp only [Finset.mem_filter, mem_arenaSet, List.mem_toFinset, List.mem_filter, List.mem_range]
            simp [Func.Arena, Func.IsValue, Func.vinfo, and_assoc]
          rw [hset, List.toFinset_card_of_nodup (List.nodup_range.filter _), ← List.countP_eq_length_filter, ← hkeys,
            List.countP_map]
          simp only [Nat.zero_add]
          rfl

/-! ### The hypotheses are met -/

example : ∃ p, getAllocatedOffsets exampleFunc false = some p ∧ p.peakMemoryUsed = 280 ∧ p.peakOpId = 2 ∧
    exampleFunc.Arena 1 := by
  refine ⟨⟨[0, 240, -1, 120, 0, 160, 120, 120], 280, 2⟩, by decide +kernel, rfl, rfl, ?_⟩
  exact ⟨by unfold Func.IsValue; decide, by decide⟩

example : ∃ a, planMemory exampleFunc = some a := ⟨_, show _ = some ⟨[24, 168, -1, 0, 0, 128, 208, 128], 280, 2⟩ by decide +kernel⟩

/-- The three tensors 1, 3 and 4 are live during the second in-place operator; their total size is 280, the peak. -/
example : ∀ v ∈ ({1, 3, 4} : Finset Nat), exampleFunc.LiveAt v 2 := by
  intro v hv
  simp only [Finset.mem_insert, Finset.mem_singleton] at hv
  rcases hv with rfl | rfl | rfl
  · exact Or.inl ⟨by unfold Func.IsArg; decide, Or.inr ⟨4, by decide, by constructor <;> decide⟩⟩
  · exact Or.inr ⟨1, by unfold Func.DefinedAt; decide, by decide, Or.inr ⟨2, by decide, by constructor <;> decide⟩⟩
  · exact Or.inr ⟨2, by unfold Func.DefinedAt; decide, by decide, Or.inl rfl⟩

end Verif.MemPlan
