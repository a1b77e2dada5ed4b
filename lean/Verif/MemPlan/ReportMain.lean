import Verif.MemPlan.ReportProps

/-! C108: the memory analysis report is accurate (theorems). -/
namespace Verif.MemPlan

theorem foldl_max_spec {α β : Type} [LinearOrder β] (g : α → β) (l : List α) (m : β) :
    let r := l.foldl (fun m e => if g e > m then g e else m) m
    m ≤ r ∧ (∀ e ∈ l, g e ≤ r) ∧ (r = m ∨ ∃ e ∈ l, g e = r) := by
  induction l generalizing m with
  | nil => simp
  | cons a l ih =>
    simp only [List.foldl_cons]
    obtain ⟨h1, h2, h3⟩ := ih (if g a > m then g a else m)
    have hm : m ≤ (if g a > m then g a else m) ∧ g a ≤ (if g a > m then g a else m) := by
      split
      · rename_i h; exact ⟨le_of_lt h, le_refl _⟩
      · rename_i h; exact ⟨le_refl _, not_lt.1 h⟩
    refine ⟨le_trans hm.1 h1, ?_, ?_⟩
    · intro e he
      rcases List.mem_cons.1 he with rfl | he
      · exact le_trans hm.2 h1
      · exact h2 e he
    · rcases h3 with h | ⟨e, he, h⟩
      · rw [h]
        split
        · exact Or.inr ⟨a, List.mem_cons_self, rfl⟩
        · exact Or.inl rfl
      · exact Or.inr ⟨e, List.mem_cons_of_mem _ he, h⟩

theorem mem_nonConstantEntries (f : Func) (p : Plan) (e : Nat × Int) :
    e ∈ nonConstantEntries f p ↔ f.Arena e.1 ∧ e.2 = offsetOf p.offsets e.1 := by
  unfold nonConstantEntries Func.Arena Func.IsValue
  rw [List.mem_map]
  constructor
  · rintro ⟨v, hv, rfl⟩
    rw [List.mem_filter] at hv
    refine ⟨⟨List.mem_range.1 hv.1, ?_⟩, rfl⟩
    have : (f.vinfo v).isConst = (f.decl v).isConst := rfl
    simpa [this] using hv.2
  · rintro ⟨⟨h1, h2⟩, h3⟩
    refine ⟨e.1, List.mem_filter.2 ⟨List.mem_range.2 h1, ?_⟩, by rw [← h3]⟩
    have : (f.vinfo e.1).isConst = (f.decl e.1).isConst := rfl
    simp [this, h2]

theorem nonConstantEntries_rank (f : Func) (p : Plan) {v : Nat} (hv : f.Arena v) :
    (nonConstantEntries f p)[f.arenaRank v]? = some (v, offsetOf p.offsets v) := by
  unfold nonConstantEntries
  rw [List.getElem?_map]
  have : ((List.range f.numValues).filter fun v => !(f.vinfo v).isConst)[f.arenaRank v]? = some v := by
    rw [filter_range_get]
    refine ⟨hv.1, ?_, rfl⟩
    have h2 := hv.2
    show (!(f.decl v).isConst) = true
    rw [h2]; rfl
  rw [this]; rfl

theorem mapM_range_spec {α : Type} (g : Nat → Option α) (P : Nat → α → Prop) (n : Nat)
    (h : ∀ t, t < n → ∃ r, g t = some r ∧ P t r) :
    ∃ rows, (List.range n).mapM g = some rows ∧ rows.length = n ∧
      ∀ (k : Nat) (r : α), rows[k]? = some r → P k r := by
  induction n with
  | zero => exact ⟨[], by simp, rfl, by simp⟩
  | succ n ih =>
    obtain ⟨rows, h1, h2, h3⟩ := ih fun t ht => h t (by omega)
    obtain ⟨r, hr, hp⟩ := h n (by omega)
    refine ⟨rows ++ [r], ?_, by simp [h2], ?_⟩
    · rw [List.range_succ, List.mapM_append, h1]
      simp [hr]
    · intro k x hx
      by_cases hk : k < rows.length
      · rw [List.getElem?_append_left hk] at hx
        exact h3 k x hx
      · rw [List.getElem?_append_right (by omega)] at hx
        have hk0 := (List.getElem?_eq_some_iff.1 hx).1
        have : k = n := by simp at hk0; omega
        subst this
        rw [h2] at hx
        simp at hx
        subst hx
        exact hp

/-- The facts about the plan the report relies on. -/
structure ReportFacts (f : Func) (p : Plan) : Prop where
  nonneg : ∀ v, f.Arena v → 0 ≤ offsetOf p.offsets v
  fits : ∀ v, f.Arena v → offsetOf p.offsets v + roundUp8 (f.raw v) ≤ p.peakMemoryUsed
  attained : ∃ v, f.Arena v ∧ offsetOf p.offsets v + roundUp8 (f.raw v) = p.peakMemoryUsed
  apart : ∀ v w, f.Arena v → f.Arena w → v ≠ w → Meets f.vinfo v w →
    RangesDisjoint (offsetOf p.offsets v) (roundUp8 (f.raw v)) (offsetOf p.offsets w) (roundUp8 (f.raw w))

theorem reportFacts {f : Func} {p : Plan} (h : getAllocatedOffsets f false = some p) : ReportFacts f p := by
  have ok := ovOK_false (f := f)
  obtain ⟨al, pf⟩ := planFacts ok h
  obtain ⟨h1, v, hv, h2⟩ := planFacts_peak ok h
  refine ⟨fun v hv => (planFacts_nonneg ok pf hv).1, h1, ⟨v, hv, h2⟩, ?_⟩
  intro v w hv hw hne hm
  obtain ⟨r, o, hr⟩ := rootOf_exists (s := overlapPhase f false) v
  obtain ⟨r', o', hr'⟩ := rootOf_exists (s := overlapPhase f false) w
  obtain ⟨rfl, rfl⟩ := rootOf_false hr
  obtain ⟨rfl, rfl⟩ := rootOf_false hr'
  exact planFacts_disjoint ok pf hv hw hr hr' hne hm

theorem reportMaxSize_eq {f : Func} {p : Plan} (rf : ReportFacts f p) :
    reportMaxSize f.vinfo (nonConstantEntries f p) = max 60 p.peakMemoryUsed := by
  have := foldl_max_spec (fun e : Nat × Int => e.2 + (f.vinfo e.1).size) (nonConstantEntries f p) (kLineWidth : Int)
  obtain ⟨h1, h2, h3⟩ := this
  have k60 : (kLineWidth : Int) = 60 := rfl
  show List.foldl (fun m (e : Nat × Int) => if e.2 + (f.vinfo e.1).size > m then e.2 + (f.vinfo e.1).size else m) _ _ = _
  have g : ∀ e ∈ nonConstantEntries f p, e.2 + (f.vinfo e.1).size ≤ p.peakMemoryUsed := by
    intro e he
    obtain ⟨a, b⟩ := (mem_nonConstantEntries f p e).1 he
    rw [b, vinfo_size_eq]
    exact rf.fits _ a
  obtain ⟨v, hv, hp⟩ := rf.attained
  have hm := h2 (v, offsetOf p.offsets v) ((mem_nonConstantEntries f p _).2 ⟨hv, rfl⟩)
  simp only [vinfo_size_eq] at hm
  rw [hp] at hm
  simp only [vinfo_size_eq] at h1 h3 g ⊢
  rw [k60] at h1 h3 hm ⊢
  rcases h3 with h | ⟨e, he, h⟩
  · omega
  · have := g e he
    omega

/-- One line of the report. -/
theorem reportRow_spec {f : Func} (wf : f.WF) {p : Plan} (rf : ReportFacts f p)
    (hsz : p.peakMemoryUsed * 60 < 2147483648) {t j : Nat} (ht : f.OpAt t j) :
    ∃ r, reportRow f (nonConstantEntries f p) (max 60 p.peakMemoryUsed) t = some r ∧ r.time = t ∧
      RowSpec f p.offsets (max 60 p.peakMemoryUsed) r := by
  obtain ⟨A, hA⟩ : ∃ A, A = max 60 p.peakMemoryUsed := ⟨_, rfl⟩
  rw [← hA]
  have hpk : 0 ≤ p.peakMemoryUsed := by
    obtain ⟨v, hv, e⟩ := rf.attained
    have := rf.nonneg v hv
    omega
  have live : ∀ v, f.Arena v → (liveEntry f.vinfo t (v, offsetOf p.offsets v) = true ↔ f.InUse v t) := by
    intro v hv
    rw [inUse_iff wf hv ht]
    unfold liveEntry
    simp
  have meets : ∀ v w, f.InUse v t → f.InUse w t → Meets f.vinfo v w := by
    intro v w h1 h2
    have a := (inUse_iff wf h1.1 ht).1 h1
    have b := (inUse_iff wf h2.1 ht).1 h2
    unfold Meets; omega
  let S : Finset Nat := (((List.range f.numValues).filter fun v => !(f.vinfo v).isConst).filter
    fun v => decide ((f.vinfo v).first ≤ t ∧ t ≤ (f.vinfo v).last)).toFinset
  have hS : ∀ v, v ∈ S ↔ f.InUse v t := by
    intro v
    simp only [S, List.mem_toFinset, List.mem_filter, List.mem_range, decide_eq_true_eq]
    constructor
    · rintro ⟨⟨a, b⟩, c⟩
      have ha : f.Arena v := ⟨a, by
        have : (f.vinfo v).isConst = (f.decl v).isConst := rfl
        simpa [this] using b⟩
      exact (inUse_iff wf ha ht).2 c
    · intro h
      refine ⟨⟨h.1.1, ?_⟩, (inUse_iff wf h.1 ht).1 h⟩
      have : (f.vinfo v).isConst = (f.decl v).isConst := rfl
      simp [this, h.1.2]
  have hsum : liveSum f.vinfo t (nonConstantEntries f p) = ∑ v ∈ S, (roundUp8 (f.raw v) : Int) := by
    have hnd : (((List.range f.numValues).filter fun v => !(f.vinfo v).isConst).filter
        fun v => decide ((f.vinfo v).first ≤ t ∧ t ≤ (f.vinfo v).last)).Nodup :=
      (List.nodup_range.filter _).filter _
    simp only [S]
    rw [List.sum_toFinset _ hnd]
    unfold liveSum nonConstantEntries
    rw [List.filter_map, List.map_map]
    congr 1
    apply List.map_congr_left
    intro v _
    exact vinfo_size_eq f v
  have sumle : ∀ k : Int, 0 ≤ k → (∀ v, f.InUse v t → offsetOf p.offsets v + roundUp8 (f.raw v) ≤ k) →
      ∑ v ∈ S, (roundUp8 (f.raw v) : Int) ≤ k := by
    intro k hk h
    refine disjoint_sum_le (offsetOf p.offsets) (fun v => (roundUp8 (f.raw v) : Int)) k hk S ?_ ?_
    · intro v hv
      have hu := (hS v).1 hv
      have := rf.nonneg v hu.1
      have := h v hu
      refine ⟨by omega, by omega, by omega⟩
    · intro v hv w hw hne
      exact rf.apart v w ((hS v).1 hv).1 ((hS w).1 hw).1 hne (meets v w ((hS v).1 hv) ((hS w).1 hw))
  have huse := sumle p.peakMemoryUsed hpk (fun v h => rf.fits v h.1)
  have ent : ∀ e ∈ nonConstantEntries f p, 0 ≤ e.2 ∧ 0 ≤ (f.vinfo e.1).size ∧ e.2 + (f.vinfo e.1).size ≤ A := by
    intro e he
    obtain ⟨a, b⟩ := (mem_nonConstantEntries f p e).1 he
    rw [b, vinfo_size_eq]
    have := rf.nonneg _ a
    have := rf.fits _ a
    refine ⟨by omega, by omega, by omega⟩
  have pw : (nonConstantEntries f p).Pairwise fun x e => liveEntry f.vinfo t x = true →
      liveEntry f.vinfo t e = true → RangesDisjoint x.2 (f.vinfo x.1).size e.2 (f.vinfo e.1).size := by
    have hlt : (nonConstantEntries f p).Pairwise fun x e => x.1 < e.1 := by
      unfold nonConstantEntries
      rw [List.pairwise_map]
      exact List.Pairwise.filter _ (List.pairwise_lt_range)
    refine hlt.imp_of_mem ?_
    intro x e hx he hl h1 h2
    obtain ⟨a, b⟩ := (mem_nonConstantEntries f p x).1 hx
    obtain ⟨c, d⟩ := (mem_nonConstantEntries f p e).1 he
    have u1 : f.InUse x.1 t := (live x.1 a).1 (by rw [← b]; exact h1)
    have u2 : f.InUse e.1 t := (live e.1 c).1 (by rw [← d]; exact h2)
    rw [b, d, vinfo_size_eq, vinfo_size_eq]
    exact rf.apart _ _ a c (by omega) (meets _ _ u1 u2)
  obtain ⟨s, hs, inv⟩ := lineLoop_inv (vi := f.vinfo) (A := A) (t := t) (by omega) (by omega)
    (nonConstantEntries f p) [] ⟨List.replicate kLineWidth '.', 0, 0⟩
    ⟨by simp [kLineWidth], by simp, (by
      intro n hn _
      show (List.replicate 60 '.')[n]? = _
      rw [List.getElem?_replicate, if_pos hn]), by simp [liveSum], by simp, Or.inl rfl⟩
    (by simpa using ent) (by simpa using pw) (by rw [List.nil_append, hsum]; omega)
  rw [List.nil_append] at inv
  have hs : lineLoop f.vinfo A t 0 (nonConstantEntries f p) ⟨List.replicate kLineWidth '.', 0, 0⟩ = some s := hs
  have hge : ∀ v, f.InUse v t → offsetOf p.offsets v + roundUp8 (f.raw v) ≤ s.peakSize := by
    intro v hv
    have := inv.peakGe (v, offsetOf p.offsets v) ((mem_nonConstantEntries f p _).2 ⟨hv.1, rfl⟩) ((live v hv.1).2 hv)
    rwa [vinfo_size_eq] at this
  have heq : s.peakSize = 0 ∨ ∃ v, f.InUse v t ∧ offsetOf p.offsets v + roundUp8 (f.raw v) = s.peakSize := by
    rcases inv.peakEq with h | ⟨e, he, hl, h⟩
    · exact Or.inl h
    · obtain ⟨a, b⟩ := (mem_nonConstantEntries f p e).1 he
      refine Or.inr ⟨e.1, (live e.1 a).1 (by rw [← b]; exact hl), ?_⟩
      rw [← b, ← vinfo_size_eq]; exact h
  have hpk0 : 0 ≤ s.peakSize ∧ s.peakSize ≤ p.peakMemoryUsed := by
    rcases heq with h | ⟨v, hv, h⟩
    · omega
    · have := rf.nonneg v hv.1
      have := rf.fits v hv.1
      omega
  have hu0 : 0 ≤ ∑ v ∈ S, (roundUp8 (f.raw v) : Int) := Finset.sum_nonneg fun v _ => by omega
  have hup := sumle s.peakSize hpk0.1 hge
  unfold reportRow
  rw [hs]
  simp only [Option.bind_eq_bind, Option.bind_some]
  rw [(operations_get f t j).2 ht]
  simp only [Option.bind_some]
  rw [inv.use, hsum, int32_ok (by omega) (by omega), int32_ok (x := s.peakSize + 1023) (by omega) (by omega)]
  simp only [Option.bind_some]
  rw [Int.tdiv_eq_ediv_of_nonneg (by omega), Int.tdiv_eq_ediv_of_nonneg (by omega)]
  refine ⟨_, rfl, rfl, ht, inv.width, ?_, ?_, ⟨S, hS, rfl⟩, ⟨s.peakSize, rfl, hge, heq⟩, ?_⟩
  · intro n hn v hv hsh
    have hv : f.InUse v t := hv
    refine inv.shown n hn _ _ (nonConstantEntries_rank f p hv.1) ((live v hv.1).2 hv) ?_
    rw [vinfo_size_eq]; exact hsh
  · intro n hn hb
    have hb : ∀ v, f.InUse v t → ¬ ShownAt A (offsetOf p.offsets v) (roundUp8 (f.raw v)) n := hb
    refine inv.blank n hn ?_
    intro e he hl
    obtain ⟨a, b⟩ := (mem_nonConstantEntries f p e).1 he
    rw [b, vinfo_size_eq]
    exact hb _ ((live e.1 a).1 (by rw [← b]; exact hl))
  · show (_ : Int) / 1024 ≤ (_ : Int) / 1024
    omega

/-- **C108** For every function, after planning without overlap, the memory analysis report is printed without undefined
behaviour (for arenas of less than 2^31/60 bytes), has one line for each operation up to the last one during which an arena
tensor is in use, and every line is an accurate picture of the arena: see `RowSpec`.  The largest peak shown is the peak of
the plan. -/
theorem C108_report_partial {f : Func} (wf : f.WF) (hret : ∃ j, j < f.ops.length ∧ (f.op j).isConst = false) {p : Plan}
    (h : getAllocatedOffsets f false = some p) (hsz : p.peakMemoryUsed * 60 < 2147483648) :
    ∃ rows, printMemoryPlan f p = some rows ∧
      (∀ (k : Nat) (r : ReportRow), rows[k]? = some r →
        r.time = k ∧ RowSpec f p.offsets (max 60 p.peakMemoryUsed) r) ∧
      (∀ v t, f.InUse v t → t < rows.length) ∧ (∃ v, f.InUse v (rows.length - 1)) ∧
      (∃ r ∈ rows, r.peakK = (p.peakMemoryUsed + 1023) / 1024) ∧
      ∀ r ∈ rows, r.peakK ≤ (p.peakMemoryUsed + 1023) / 1024 := by
  have rf := reportFacts h
  have hT := foldl_max_spec (fun e : Nat × Int => (f.vinfo e.1).last) (nonConstantEntries f p) 0
  obtain ⟨-, t2, t3⟩ := hT
  obtain ⟨T, eT⟩ : ∃ T, T = reportMaxTime f.vinfo (nonConstantEntries f p) := ⟨_, rfl⟩
  have eT' : T = List.foldl (fun m (e : Nat × Int) => if (f.vinfo e.1).last > m then (f.vinfo e.1).last else m) 0
    (nonConstantEntries f p) := eT
  rw [← eT'] at t2 t3
  have hle : ∀ v, f.Arena v → (f.vinfo v).last ≤ T := fun v hv =>
    t2 (v, offsetOf p.offsets v) ((mem_nonConstantEntries f p _).2 ⟨hv, rfl⟩)
  obtain ⟨v0, hv0, hpk⟩ := rf.attained
  have hlast : ∃ v, f.Arena v ∧ (f.vinfo v).last = T := by
    rcases t3 with h | ⟨e, he, h⟩
    · have := hle v0 hv0
      exact ⟨v0, hv0, by omega⟩
    · exact ⟨e.1, ((mem_nonConstantEntries f p e).1 he).1, h⟩
  have fl : ∀ v, f.Arena v → (f.vinfo v).first ≤ (f.vinfo v).last := by
    intro v hv
    rw [first_eq f hv, last_eq wf hv]
    exact cnt_mono f (startPos_le_endPos f v)
  obtain ⟨vl, hvl, hvT⟩ := hlast
  obtain ⟨rows, r1, r2, r3⟩ := mapM_range_spec
    (reportRow f (nonConstantEntries f p) (max 60 p.peakMemoryUsed))
    (fun t r => r.time = t ∧ RowSpec f p.offsets (max 60 p.peakMemoryUsed) r) (T + 1) (by
      intro t ht
      obtain ⟨j, hj⟩ := last_opAt wf hret hvl (t := t) (by omega)
      exact reportRow_spec wf rf hsz hj)
  have opAt : ∀ t, t ≤ T → ∃ j, f.OpAt t j := fun t ht => last_opAt wf hret hvl (by omega)
  refine ⟨rows, ?_, r3, ?_, ?_, ?_, ?_⟩
  · unfold printMemoryPlan
    simp only
    rw [reportMaxSize_eq rf, ← eT]; exact r1
  · intro v t hu
    rw [r2]
    have : t ≤ (f.vinfo v).last := by
      rcases hu.2 with ⟨-, rfl⟩ | ⟨j, hj, -⟩
      · omega
      · exact ((inUse_iff wf hu.1 hj).1 hu).2
    have := hle v hu.1
    omega
  · obtain ⟨j, hj⟩ := opAt T (le_refl _)
    refine ⟨vl, ?_⟩
    rw [r2, Nat.add_sub_cancel, inUse_iff wf hvl hj]
    have := fl vl hvl
    omega
  · have hf := fl v0 hv0
    have hl := hle v0 hv0
    obtain ⟨j, hj⟩ := opAt (f.vinfo v0).first (by omega)
    obtain ⟨r, hr⟩ : ∃ r, rows[(f.vinfo v0).first]? = some r := by
      exact ⟨_, List.getElem?_eq_getElem (by omega)⟩
    obtain ⟨e1, sp⟩ := r3 _ r hr
    refine ⟨r, List.mem_of_getElem? hr, ?_⟩
    obtain ⟨k, k1, k2, k3⟩ := sp.peak
    have hu : f.InUse v0 r.time := by
      rw [e1, inUse_iff wf hv0 hj]; omega
    have := k2 v0 hu
    have hk : k = p.peakMemoryUsed := by
      rcases k3 with h | ⟨w, hw, h⟩
      · have := rf.nonneg v0 hv0
        omega
      · have := rf.fits w hw.1
        omega
    rw [k1, hk]
  · intro r hr
    obtain ⟨k, hk⟩ := List.getElem?_of_mem hr
    obtain ⟨-, sp⟩ := r3 k r hk
    obtain ⟨k, k1, k2, k3⟩ := sp.peak
    rw [k1]
    rcases k3 with h | ⟨w, hw, h⟩
    · have := rf.nonneg v0 hv0
      omega
    · have := rf.fits w hw.1
      omega

theorem ordinal_ne_bang (i : Nat) : getOrdinalCharacter i ≠ '!' := by
  by_cases h : i < 62
  · have : ∀ i : Fin 62, getOrdinalCharacter i ≠ '!' := by decide
    exact this ⟨i, h⟩
  · unfold getOrdinalCharacter
    rw [if_neg (by omega), if_neg (by omega), if_neg h]
    decide

/-- **C108** The clash mark `!` never appears in the report. -/
theorem C108_no_clash {f : Func} (wf : f.WF) (hret : ∃ j, j < f.ops.length ∧ (f.op j).isConst = false) {p : Plan}
    (h : getAllocatedOffsets f false = some p) (hsz : p.peakMemoryUsed * 60 < 2147483648) {rows : List ReportRow}
    (hr : printMemoryPlan f p = some rows) : ∀ r ∈ rows, '!' ∉ r.line := by
  obtain ⟨rows', h1, h2, -⟩ := C108_report_partial wf hret h hsz
  rw [hr] at h1
  obtain rfl := Option.some.inj h1
  intro r hm hb
  obtain ⟨k, hk⟩ := List.getElem?_of_mem hm
  obtain ⟨-, sp⟩ := h2 k r hk
  obtain ⟨n, hn⟩ := List.getElem?_of_mem hb
  have hlt := (List.getElem?_eq_some_iff.1 hn).1
  rw [sp.width] at hlt
  by_cases hex : ∃ v, f.InUse v r.time ∧ ShownAt (max 60 p.peakMemoryUsed) (offsetOf p.offsets v) (roundUp8 (f.raw v)) n
  · obtain ⟨v, hv, hs⟩ := hex
    rw [sp.shown n hlt v hv hs] at hn
    exact ordinal_ne_bang _ (Option.some.inj hn)
  · rw [sp.blank n hlt (fun v hv hs => hex ⟨v, hv, hs⟩)] at hn
    exact absurd (Option.some.inj hn) (by decide)

/-- **C108** The first 62 arena tensors have different letters, none of which is the blank or the overflow mark. -/
theorem C108_letters {i j : Nat} (hi : i < 62) (hj : j < 62) (h : getOrdinalCharacter i = getOrdinalCharacter j) :
    i = j := by
  have : ∀ i j : Fin 62, getOrdinalCharacter i = getOrdinalCharacter j → i = j := by decide +kernel
  exact congrArg Fin.val (this ⟨i, hi⟩ ⟨j, hj⟩ h)

/-- **C108** They are the digits, the small and the capital letters in order. -/
theorem C108_alphabet {i : Nat} (hi : i < 62) :
    "0123456789abcdefghijklmnopqrstuvwxyzABCDEFGHIJKLMNOPQRSTUVWXYZ".toList[i]? = some (getOrdinalCharacter i) := by
  have : ∀ i : Fin 62, "0123456789abcdefghijklmnopqrstuvwxyzABCDEFGHIJKLMNOPQRSTUVWXYZ".toList[i.val]? = some (getOrdinalCharacter i) := by decide +kernel
  exact this ⟨i, hi⟩

/-- **C108** From the 63rd on they cannot be told apart. -/
theorem C108_letters_refuted : ∃ i j, i ≠ j ∧ getOrdinalCharacter i = getOrdinalCharacter j :=
  ⟨62, 63, by decide, rfl⟩

/-- A function whose two 40 MB tensors are in memory together. -/
def bigFunc : Func :=
  { argSizes := [40000000]
    ops := [⟨false, false, false, [0], [40000000]⟩, ⟨false, true, false, [1], []⟩] }

/-- **C108** The full statement, without the bound on the arena, fails: with an arena of more than 2^31/60 bytes (here two
tensors of 40 MB) the `int` product `(offset + size) * kLineWidth` overflows. -/
theorem C108_large_arena_refuted : bigFunc.WF ∧ (∃ j, j < bigFunc.ops.length ∧ (bigFunc.op j).isConst = false) ∧
    ∃ p, getAllocatedOffsets bigFunc false = some p ∧ printMemoryPlan bigFunc p = none := by
  refine ⟨Func.wf_of_check (by decide), ⟨0, by decide, by decide⟩, ⟨[40000000, 0], 80000000, 1⟩, ?_, ?_⟩
  · decide +kernel
  · decide +kernel

/-- The report of the example network of `Props.lean`: five operations, an arena of 280 bytes. -/
theorem C108_example : exampleFunc.WF ∧ (∃ j, j < exampleFunc.ops.length ∧ (exampleFunc.op j).isConst = false) ∧
    ∃ p, getAllocatedOffsets exampleFunc false = some p ∧ p.peakMemoryUsed * 60 < 2147483648 ∧
      printMemoryPlan exampleFunc p = some
        [⟨1, 0, "0000000000000000000000...22222222222222222222222222111111111".toList, 1, 1⟩,
         ⟨2, 1, "333333333333333333333333322222222222222222222222222111111111".toList, 1, 1⟩,
         ⟨3, 2, "333333333333333333333333355.......44444444.........111111111".toList, 1, 1⟩,
         ⟨4, 3, "333333333333333333333333366666666644444444.........111111111".toList, 1, 1⟩,
         ⟨5, 4, "3333333333333333333333333666666666..........................".toList, 1, 1⟩] := by
  refine ⟨exampleFunc_wf, ⟨1, by decide, by decide⟩, ⟨[0, 240, -1, 120, 0, 160, 120, 120], 280, 2⟩, ?_, ?_, ?_⟩
  · decide +kernel
  · decide
  · decide +kernel

end Verif.MemPlan
