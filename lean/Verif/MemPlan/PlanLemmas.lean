import Verif.MemPlan.Decls
/-! Helper lemmas: from a consistent overlap state to a safe plan. -/
namespace Verif.MemPlan

/-- `v` shares its buffer with the chain whose last output is `r`: either `v = r` or `v` is mapped into `r`. -/
def RootOf (s : OvState) (v r : Nat) (off : Int) : Prop :=
  (v ∉ s.inOut.map Prod.fst ∧ r = v ∧ off = 0) ∨ (v, (r, off)) ∈ s.inOut

/-- Consistency of the state after the overlap phase. -/
structure OvOK (f : Func) (s : OvState) : Prop where
  isConst : ∀ v, (s.vi v).isConst = (f.decl v).isConst
  sizeDvd : ∀ v, (8 : Int) ∣ (s.vi v).size
  keysNodup : (s.inOut.map Prod.fst).Nodup
  keyArena : ∀ e ∈ s.inOut, f.Arena e.1
  rootArena : ∀ e ∈ s.inOut, f.Arena e.2.1
  rootNotKey : ∀ e ∈ s.inOut, e.2.1 ∉ s.inOut.map Prod.fst
  keySize : ∀ e ∈ s.inOut, (s.vi e.1).size = (f.vinfo e.1).size
  offNonneg : ∀ e ∈ s.inOut, 0 ≤ e.2.2
  offDvd : ∀ e ∈ s.inOut, (8 : Int) ∣ e.2.2
  fits : ∀ v r off, f.Arena v → RootOf s v r off → off + (f.vinfo v).size ≤ (s.vi r).size
  covers : ∀ v r off, f.Arena v → RootOf s v r off →
    (s.vi r).first ≤ (f.vinfo v).first ∧ (f.vinfo v).last ≤ (s.vi r).last
  tight : ∀ r, f.Arena r → r ∉ s.inOut.map Prod.fst →
    ∃ v off, f.Arena v ∧ RootOf s v r off ∧ (s.vi r).size = off + (f.vinfo v).size

theorem decl_const_oob (f : Func) {v : Nat} (h : (f.decl v).isConst = false) : v < f.numValues := by
  by_contra hv
  rw [decl_oob f hv] at h; simp at h

theorem rootOf_exists {s : OvState} (v : Nat) : ∃ r off, RootOf s v r off := by
  by_cases h : v ∈ s.inOut.map Prod.fst
  · obtain ⟨e, he, rfl⟩ := List.mem_map.1 h
    exact ⟨e.2.1, e.2.2, Or.inr he⟩
  · exact ⟨v, 0, Or.inl ⟨h, rfl, rfl⟩⟩

theorem patch_mem {al : Alloc} {io : InOut} {pt : Alloc} (h : patch al io = some pt) :
    pt.map Prod.fst = io.map Prod.fst ∧
    ∀ e ∈ io, ∃ p ∈ al, p.1 = e.2.1 ∧ (e.1, p.2 + e.2.2) ∈ pt := by
  induction io generalizing pt with
  | nil => simp [patch] at h; subst h; simp
  | cons e io ih =>
    obtain ⟨i, out, off⟩ := e
    simp only [patch] at h
    split at h
    · simp at h
    · rename_i p hp
      cases hr : patch al io with
      | none => simp [hr] at h
      | some t =>
        simp [hr] at h
        subst h
        obtain ⟨h1, h2⟩ := ih hr
        refine ⟨by simp [h1], ?_⟩
        intro e he
        rcases List.mem_cons.1 he with rfl | he
        · refine ⟨p, List.mem_of_find?_eq_some hp, ?_, by simp⟩
          have := List.find?_some hp
          simpa using this
        · obtain ⟨q, hq, hq1, hq2⟩ := h2 e he
          exact ⟨q, hq, hq1, by simp [hq2]⟩

theorem patch_some {al : Alloc} {io : InOut} (h : ∀ e ∈ io, e.2.1 ∈ al.map Prod.fst) :
    ∃ pt, patch al io = some pt := by
  induction io with
  | nil => exact ⟨[], rfl⟩
  | cons e io ih =>
    obtain ⟨i, out, off⟩ := e
    obtain ⟨t, ht⟩ := ih fun e he => h e (by simp [he])
    have := h (i, out, off) (by simp)
    simp only [patch]
    split
    · rename_i hn
      obtain ⟨p, hp, hp1⟩ := List.mem_map.1 this
      have := List.find?_eq_none.1 hn p hp
      simp at this hp1
      exact absurd hp1 this
    · simp [ht]

theorem queueValues_mem {f : Func} {s : OvState} (ok : OvOK f s) (v : Nat) :
    v ∈ queueValues f s ↔ f.Arena v ∧ v ∉ s.inOut.map Prod.fst := by
  simp only [queueValues, List.mem_filter, List.mem_range, Bool.and_eq_true, decide_eq_true_eq,
    Bool.not_eq_true', ok.isConst]
  unfold Func.Arena Func.IsValue
  tauto

theorem queueValues_nodup (f : Func) (s : OvState) : (queueValues f s).Nodup :=
  List.nodup_range.filter _

/-- The facts about a successfully computed plan that all property theorems are derived from. -/
structure PlanFacts (f : Func) (s : OvState) (al : Alloc) (offs : List Int) : Prop where
  inv : AllocInv s.vi al
  keys : (al.map Prod.fst).Perm (queueValues f s)
  len : offs.length = f.numValues
  const : ∀ v, v < f.numValues → (f.decl v).isConst = true → offsetOf offs v = -1
  placed : ∀ v r off, f.Arena v → RootOf s v r off →
    ∃ p ∈ al, p.1 = r ∧ offsetOf offs v = p.2 + off

theorem getAllocatedOffsets_unfold {f : Func} {b : Bool} {p : Plan}
    (h : getAllocatedOffsets f b = some p) :
    ∃ al pt, allocate (overlapPhase f b).vi
        (queueOf (overlapPhase f b).vi (queueValues f (overlapPhase f b))) = some al ∧
      patch al (overlapPhase f b).inOut = some pt ∧
      p.offsets = (sortById (al ++ pt ++ constEntries f (overlapPhase f b).vi)).map Prod.snd ∧
      p.peakMemoryUsed = ((sortById (al ++ pt ++ constEntries f (overlapPhase f b).vi)).foldl
        (peakStep (overlapPhase f b).vi) ⟨0, 0, 0⟩).peakUsed := by
  simp only [getAllocatedOffsets] at h
  split at h
  · simp at h
  · rename_i al hal
    split at h
    · simp at h
    · rename_i pt hpt
      simp only [Option.some.injEq] at h
      subst h
      exact ⟨al, pt, hal, hpt, rfl, rfl⟩

theorem all_keys_perm {f : Func} {s : OvState} (ok : OvOK f s) {al pt : Alloc}
    (hal : (al.map Prod.fst).Perm (queueValues f s)) (hpt : pt.map Prod.fst = s.inOut.map Prod.fst) :
    ((al ++ pt ++ constEntries f s.vi).map Prod.fst).Perm (List.range f.numValues) := by
  rw [List.perm_ext_iff_of_nodup]
  · intro v
    simp only [List.map_append, List.mem_append, hal.mem_iff, hpt, queueValues_mem ok,
      constEntries, List.map_map, List.mem_range]
    have hc : v ∈ List.map (Prod.fst ∘ fun v => (v, (-1 : Int)))
        (List.filter (fun v => (s.vi v).isConst) (List.range f.numValues)) ↔
        v < f.numValues ∧ (f.decl v).isConst = true := by
      simp [ok.isConst]
    rw [hc]
    constructor
    · rintro ((h | h) | h)
      · exact h.1.1
      · obtain ⟨e, he, rfl⟩ := List.mem_map.1 h
        exact (ok.keyArena e he).1
      · exact h.1
    · intro h
      by_cases hk : v ∈ s.inOut.map Prod.fst
      · exact Or.inl (Or.inr hk)
      · cases hcv : (f.decl v).isConst
        · exact Or.inl (Or.inl ⟨⟨h, hcv⟩, hk⟩)
        · exact Or.inr ⟨h, rfl⟩
  · simp only [List.map_append, hpt]
    rw [List.nodup_append, List.nodup_append]
    refine ⟨⟨hal.nodup_iff.2 (queueValues_nodup f s), ok.keysNodup, ?_⟩, ?_, ?_⟩
    · intro a ha b hb hab
      subst hab
      exact ((queueValues_mem ok a).1 (hal.mem_iff.1 ha)).2 hb
    · simp only [constEntries, List.map_map]
      refine List.Nodup.map_on ?_ (List.nodup_range.filter _)
      simp
    · intro a ha b hb hab
      subst hab
      simp only [constEntries, List.map_map, List.mem_map, List.mem_filter] at hb
      obtain ⟨c, ⟨_, hc⟩, hca⟩ := hb
      simp at hca; subst hca
      rw [ok.isConst] at hc
      rcases List.mem_append.1 ha with ha | ha
      · have := ((queueValues_mem ok c).1 (hal.mem_iff.1 ha)).1.2
        rw [this] at hc; simp at hc
      · obtain ⟨e, he, he'⟩ := List.mem_map.1 ha
        have := (ok.keyArena e he).2
        rw [he'] at this
        rw [this] at hc; simp at hc
  · exact List.nodup_range

theorem planFacts {f : Func} {b : Bool} {p : Plan} (ok : OvOK f (overlapPhase f b))
    (h : getAllocatedOffsets f b = some p) :
    ∃ al, PlanFacts f (overlapPhase f b) al p.offsets := by
  obtain ⟨al, pt, hal, hpt, ho, _⟩ := getAllocatedOffsets_unfold h
  generalize hs : overlapPhase f b = s at *
  have hq := queueOf_perm s.vi (queueValues f s)
  obtain ⟨inv, hk⟩ := allocate_inv s.vi ok.sizeDvd _ al (hq.nodup_iff.2 (queueValues_nodup f s)) hal
  have hk := hk.trans hq
  obtain ⟨hp1, hp2⟩ := patch_mem hpt
  have hperm := all_keys_perm ok hk hp1
  refine ⟨al, inv, hk, ?_, ?_, ?_⟩
  · rw [ho]
    have := congrArg List.length (sortById_keys _ _ hperm)
    simpa using this
  · intro v hv hc
    rw [ho]
    refine (sortById_lookup _ _ hperm v (-1) ?_).2
    simp [constEntries, ok.isConst, hv, hc]
  · intro v r off hv hr
    rcases hr with ⟨hnk, rfl, rfl⟩ | hm
    · have : r ∈ al.map Prod.fst := hk.mem_iff.2 ((queueValues_mem ok r).2 ⟨hv, hnk⟩)
      obtain ⟨⟨r', o⟩, hx, hx'⟩ := List.mem_map.1 this
      simp at hx'; subst hx'
      refine ⟨(r', o), hx, rfl, ?_⟩
      rw [ho, (sortById_lookup _ _ hperm r' o (by simp [hx])).2]
      simp
    · obtain ⟨q, hq, hq1, hq2⟩ := hp2 _ hm
      refine ⟨q, hq, hq1, ?_⟩
      rw [ho]
      exact (sortById_lookup _ _ hperm v _ (by simp [hq2])).2

theorem vinfo_size_eq (f : Func) (v : Nat) : (f.vinfo v).size = (roundUp8 (f.raw v) : Int) := by
  rw [← align8_eq]; rfl

/-- Values in different buffers with meeting live ranges get disjoint (aligned) ranges. -/
theorem planFacts_disjoint {f : Func} {s : OvState} (ok : OvOK f s) {al : Alloc} {offs : List Int}
    (pf : PlanFacts f s al offs) {v w r r' : Nat} {o o' : Int} (hv : f.Arena v) (hw : f.Arena w)
    (hr : RootOf s v r o) (hr' : RootOf s w r' o') (hne : r ≠ r') (hm : Meets f.vinfo v w) :
    RangesDisjoint (offsetOf offs v) (roundUp8 (f.raw v)) (offsetOf offs w) (roundUp8 (f.raw w)) := by
  obtain ⟨p, hp, rfl, hpo⟩ := pf.placed v r o hv hr
  obtain ⟨q, hq, rfl, hqo⟩ := pf.placed w r' o' hw hr'
  have c1 := ok.covers v _ o hv hr
  have c2 := ok.covers w _ o' hw hr'
  have hm' : Meets s.vi p.1 q.1 := by unfold Meets at *; omega
  have hd := pf.inv.safe p hp q hq hne hm'
  have f1 := ok.fits v _ o hv hr
  have f2 := ok.fits w _ o' hw hr'
  have n1 : 0 ≤ o := by
    rcases hr with ⟨_, _, rfl⟩ | hm
    · exact le_refl _
    · exact ok.offNonneg _ hm
  have n2 : 0 ≤ o' := by
    rcases hr' with ⟨_, _, rfl⟩ | hm
    · exact le_refl _
    · exact ok.offNonneg _ hm
  rw [vinfo_size_eq] at f1 f2
  unfold RangesDisjoint at *
  rw [hpo, hqo]
  omega

theorem planFacts_nonneg {f : Func} {s : OvState} (ok : OvOK f s) {al : Alloc} {offs : List Int}
    (pf : PlanFacts f s al offs) {v : Nat} (hv : f.Arena v) :
    0 ≤ offsetOf offs v ∧ (8 : Int) ∣ offsetOf offs v := by
  obtain ⟨r, o, hr⟩ := rootOf_exists (s := s) v
  obtain ⟨p, hp, rfl, hpo⟩ := pf.placed v r o hv hr
  have h1 := pf.inv.nonneg p hp
  have h2 := pf.inv.dvd p hp
  rw [hpo]
  rcases hr with ⟨_, _, rfl⟩ | hm
  · simp [h1, h2]
  · have := ok.offNonneg _ hm
    have := ok.offDvd _ hm
    simp at *
    exact ⟨by omega, Int.dvd_add h2 this⟩

/-! ### Peak -/

theorem peak_fold (vi : VMap) (l : Alloc) (p0 : Peak) :
    let pk := (l.foldl (peakStep vi) p0).peakUsed
    p0.peakUsed ≤ pk ∧ (∀ x ∈ l, (vi x.1).isConst = false → (vi x.1).size + x.2 ≤ pk) ∧
      (pk = p0.peakUsed ∨ ∃ x ∈ l, (vi x.1).isConst = false ∧ pk = (vi x.1).size + x.2) := by
  induction l generalizing p0 with
  | nil => simp
  | cons x xs ih =>
    simp only [List.foldl_cons]
    obtain ⟨h1, h2, h3⟩ := ih (peakStep vi p0 x)
    have hst : p0.peakUsed ≤ (peakStep vi p0 x).peakUsed ∧
        ((vi x.1).isConst = false → (vi x.1).size + x.2 ≤ (peakStep vi p0 x).peakUsed) ∧
        ((peakStep vi p0 x).peakUsed = p0.peakUsed ∨
          ((vi x.1).isConst = false ∧ (peakStep vi p0 x).peakUsed = (vi x.1).size + x.2)) := by
      unfold peakStep
      split
      · rename_i h; simp [h]
      · rename_i h
        simp only [Bool.not_eq_true] at h
        simp only
        split
        · simp [h]; omega
        · simp [h]; omega
    refine ⟨le_trans hst.1 h1, ?_, ?_⟩
    · intro y hy hc
      rcases List.mem_cons.1 hy with rfl | hy
      · exact le_trans (hst.2.1 hc) h1
      · exact h2 y hy hc
    · rcases h3 with h3 | ⟨y, hy, h3⟩
      · rcases hst.2.2 with h | ⟨hc, h⟩
        · left; rw [h3, h]
        · right; exact ⟨x, by simp, hc, by rw [h3, h]⟩
      · right; exact ⟨y, by simp [hy], h3⟩

/-- The reported peak bounds every tensor of the arena and is attained. -/
theorem planFacts_peak {f : Func} {b : Bool} {p : Plan} (ok : OvOK f (overlapPhase f b))
    (h : getAllocatedOffsets f b = some p) :
    (∀ v, f.Arena v → offsetOf p.offsets v + roundUp8 (f.raw v) ≤ p.peakMemoryUsed) ∧
    (∃ v, f.Arena v ∧ offsetOf p.offsets v + roundUp8 (f.raw v) = p.peakMemoryUsed) := by
  obtain ⟨al, pf⟩ := planFacts ok h
  obtain ⟨al', pt, hal, hpt, ho, hpk⟩ := getAllocatedOffsets_unfold h
  generalize hs : overlapPhase f b = s at *
  have hq := queueOf_perm s.vi (queueValues f s)
  obtain ⟨inv, hk⟩ := allocate_inv s.vi ok.sizeDvd _ al' (hq.nodup_iff.2 (queueValues_nodup f s)) hal
  have hk := hk.trans hq
  obtain ⟨hp1, hp2⟩ := patch_mem hpt
  have hperm := all_keys_perm ok hk hp1
  have hso := (sortById_spec (al' ++ pt ++ constEntries f s.vi)).1
  obtain ⟨h1, h2, h3⟩ := peak_fold s.vi (sortById (al' ++ pt ++ constEntries f s.vi)) ⟨0, 0, 0⟩
  rw [← hpk] at h1 h2 h3
  -- entry of every value
  have hent : ∀ v, f.Arena v → ∀ r off, RootOf s v r off →
      ∃ o, (r, o) ∈ al' ∧ offsetOf p.offsets v = o + off ∧ offsetOf p.offsets r = o := by
    intro v hv r off hr
    have hrA : f.Arena r ∧ r ∉ s.inOut.map Prod.fst := by
      rcases hr with ⟨a, rfl, rfl⟩ | hm
      · exact ⟨hv, a⟩
      · exact ⟨ok.rootArena _ hm, ok.rootNotKey _ hm⟩
    have : r ∈ al'.map Prod.fst := hk.mem_iff.2 ((queueValues_mem ok r).2 hrA)
    obtain ⟨⟨r', o⟩, hx, hx'⟩ := List.mem_map.1 this
    simp at hx'; subst hx'
    have hro : offsetOf p.offsets r' = o := by
      rw [ho]; exact (sortById_lookup _ _ hperm r' o (by simp [hx])).2
    refine ⟨o, hx, ?_, hro⟩
    rcases hr with ⟨a, rfl, rfl⟩ | hm
    · simp [hro]
    · obtain ⟨q, hq, hq1, hq2⟩ := hp2 _ hm
      have e1 : offsetOf p.offsets v = q.2 + off := by
        rw [ho]; exact (sortById_lookup _ _ hperm v _ (by simp [hq2])).2
      have e2 : offsetOf p.offsets r' = q.2 := by
        rw [ho]
        refine (sortById_lookup _ _ hperm r' q.2 ?_).2
        simp only [List.mem_append]
        left; left
        have : q = (r', q.2) := by
          ext
          · exact hq1
          · rfl
        rw [← this]; exact hq
      rw [e1, ← e2, hro]
  have hub : ∀ v, f.Arena v → offsetOf p.offsets v + roundUp8 (f.raw v) ≤ p.peakMemoryUsed := by
    intro v hv
    obtain ⟨r, off, hr⟩ := rootOf_exists (s := s) v
    obtain ⟨o, ho1, ho2, _⟩ := hent v hv r off hr
    have hf := ok.fits v r off hv hr
    have hrA : f.Arena r := by
      rcases hr with ⟨a, rfl, rfl⟩ | hm
      · exact hv
      · exact ok.rootArena _ hm
    have := h2 (r, o) (hso.mem_iff.2 (by simp [ho1])) (by rw [ok.isConst]; exact hrA.2)
    simp at this
    rw [vinfo_size_eq] at hf
    omega
  refine ⟨hub, ?_⟩
  -- tightness: from an allocated root
  have htight : ∀ r o, (r, o) ∈ al' →
      ∃ v, f.Arena v ∧ offsetOf p.offsets v + roundUp8 (f.raw v) = (s.vi r).size + o := by
    intro r o hx
    have hr := (queueValues_mem ok r).1 (hk.mem_iff.1 (List.mem_map.2 ⟨_, hx, rfl⟩))
    obtain ⟨v, off, hv, hvr, hsz⟩ := ok.tight r hr.1 hr.2
    obtain ⟨o', h1', h2', h3'⟩ := hent v hv r off hvr
    have : offsetOf p.offsets r = o := by
      rw [ho]; exact (sortById_lookup _ _ hperm r o (by simp [hx])).2
    refine ⟨v, hv, ?_⟩
    rw [vinfo_size_eq] at hsz
    omega
  rcases h3 with h3 | ⟨x, hx, hc, h3⟩
  · -- peak 0: any allocated value
    have hne : al' ≠ [] := by
      intro hnil
      subst hnil
      cases hq' : queueOf s.vi (queueValues f s) with
      | nil => rw [hq'] at hal; simp [allocate] at hal
      | cons a l =>
        have := hk.length_eq
        have h2 := hq.length_eq
        rw [hq'] at h2
        simp at this h2
        omega
    obtain ⟨⟨r, o⟩, hx⟩ := List.exists_mem_of_ne_nil _ hne
    obtain ⟨v, hv, he⟩ := htight r o hx
    refine ⟨v, hv, ?_⟩
    have h4 := hub v hv
    have h5 := (planFacts_nonneg ok pf hv).1
    simp at h3
    omega
  · have hx := hso.mem_iff.1 hx
    simp only [List.mem_append] at hx
    rcases hx with (hx | hx) | hx
    · obtain ⟨v, hv, he⟩ := htight x.1 x.2 hx
      exact ⟨v, hv, by omega⟩
    · -- a chain input: its own entry
      have hkey : x.1 ∈ s.inOut.map Prod.fst := by
        rw [← hp1]; exact List.mem_map.2 ⟨x, hx, rfl⟩
      obtain ⟨e, he, he1⟩ := List.mem_map.1 hkey
      have hA := ok.keyArena e he
      rw [he1] at hA
      have hoff : offsetOf p.offsets x.1 = x.2 := by
        rw [ho]; exact (sortById_lookup _ _ hperm x.1 x.2 (by simp [hx])).2
      -- its planner size can only be its own aligned size or less than the root: use the bound
      have hroot := hent x.1 hA e.2.1 e.2.2 (Or.inr (by rw [← he1]; exact he))
      obtain ⟨o, hr1, hr2, hr3⟩ := hroot
      obtain ⟨v, hv, hve⟩ := htight e.2.1 o hr1
      have hb := hub v hv
      have hsize : (s.vi x.1).size = (f.vinfo x.1).size := by
        rw [← he1]; exact ok.keySize e he
      rw [vinfo_size_eq] at hsize
      exact ⟨x.1, hA, by omega⟩
    · simp only [constEntries, List.mem_map, List.mem_filter] at hx
      obtain ⟨v, ⟨_, hv⟩, rfl⟩ := hx
      simp at hc
      rw [hc] at hv; simp at hv

end Verif.MemPlan
