import Verif.MemPlan.Tight
/-!
Where the planner puts a tensor: at 0, or above as many bytes as it has itself, unless it shares its buffer with a larger tensor that is computed in its place (C104).
-/
namespace Verif.MemPlan

theorem insertQueue_sorted (vi : VMap) (x : Nat) (q : List Nat) (h : q.Pairwise fun a b => (vi b).size ≤ (vi a).size) :
    (insertQueue vi x q).Pairwise fun a b => (vi b).size ≤ (vi a).size := by
  induction q with
  | nil => simp [insertQueue]
  | cons y ys ih =>
    obtain ⟨h1, h2⟩ := List.pairwise_cons.1 h
    simp only [insertQueue]
    split
    · rename_i hp
      have hxy : (vi y).size ≤ (vi x).size := by
        unfold popsBefore at hp
        split at hp
        · have := of_decide_eq_true hp; omega
        · omega
      refine List.pairwise_cons.2 ⟨?_, h⟩
      intro b hb
      rcases List.mem_cons.1 hb with rfl | hb
      · exact hxy
      · exact le_trans (h1 b hb) hxy
    · rename_i hp
      have hxy : (vi x).size ≤ (vi y).size := by
        unfold popsBefore at hp
        split at hp
        · simp only [decide_eq_true_eq] at hp; omega
        · omega
      refine List.pairwise_cons.2 ⟨?_, ih h2⟩
      intro b hb
      rcases List.mem_cons.1 ((insertQueue_perm vi x ys).mem_iff.1 hb) with rfl | hb
      · exact hxy
      · exact h1 b hb

theorem queueOf_sorted (vi : VMap) (vs : List Nat) : (queueOf vi vs).Pairwise fun a b => (vi b).size ≤ (vi a).size := by
  unfold queueOf
  suffices ∀ q : List Nat, (q.Pairwise fun a b => (vi b).size ≤ (vi a).size) →
      (vs.foldl (fun q v => insertQueue vi v q) q).Pairwise fun a b => (vi b).size ≤ (vi a).size from this [] List.Pairwise.nil
  induction vs with
  | nil => intro q h; exact h
  | cons v vs ih => intro q h; exact ih _ (insertQueue_sorted vi v q h)

/-- First fit in decreasing order of sizes: a buffer is at 0 or above at least its own size. -/
theorem allocLoop_place (vi : VMap) (q : List Nat) (al : Alloc) (h0 : ∀ x ∈ al, 0 ≤ x.2) (hsz : ∀ v, 0 ≤ (vi v).size)
    (hq : q.Pairwise fun a b => (vi b).size ≤ (vi a).size) (hal : ∀ x ∈ al, ∀ v ∈ q, (vi v).size ≤ (vi x.1).size)
    (h : ∀ x ∈ al, x.2 = 0 ∨ (vi x.1).size ≤ x.2) : ∀ x ∈ allocLoop vi q al, x.2 = 0 ∨ (vi x.1).size ≤ x.2 := by
  induction q generalizing al with
  | nil => exact h
  | cons v q ih =>
    simp only [allocLoop]
    have hp := insertByOffset_perm (v, getOffset vi v (vi v).size al 0) al
    obtain ⟨q1, q2⟩ := List.pairwise_cons.1 hq
    have hnew : getOffset vi v (vi v).size al 0 = 0 ∨ (vi v).size ≤ getOffset vi v (vi v).size al 0 := by
      rcases getOffset_cases vi v (vi v).size al 0 with h | ⟨y, hy, -, he⟩
      · exact Or.inl h
      · right
        have := h0 y hy
        have := hal y hy v List.mem_cons_self
        omega
    apply ih
    · intro x hx
      rcases List.mem_cons.1 (hp.mem_iff.1 hx) with rfl | hx
      · simp only
        have := hsz v
        omega
      · exact h0 x hx
    · exact q2
    · intro x hx w hw
      rcases List.mem_cons.1 (hp.mem_iff.1 hx) with rfl | hx
      · exact q1 w hw
      · exact hal x hx w (List.mem_cons_of_mem _ hw)
    · intro x hx
      rcases List.mem_cons.1 (hp.mem_iff.1 hx) with rfl | hx
      · exact hnew
      · exact h x hx

theorem allocate_place (vi : VMap) (hsz : ∀ v, 0 ≤ (vi v).size) (vs : List Nat) (al : Alloc) (h : allocate vi (queueOf vi vs) = some al) :
    ∀ x ∈ al, x.2 = 0 ∨ (vi x.1).size ≤ x.2 := by
  have hs := queueOf_sorted vi vs
  cases hq : queueOf vi vs with
  | nil => rw [hq] at h; simp [allocate] at h
  | cons v q =>
    rw [hq] at h hs
    simp only [allocate, Option.some.injEq] at h
    subst h
    obtain ⟨h1, h2⟩ := List.pairwise_cons.1 hs
    refine allocLoop_place vi q _ ?_ hsz h2 ?_ ?_
    · simp
    · intro x hx w hw
      rw [List.mem_singleton] at hx
      subst hx
      exact h1 w hw
    · simp

theorem chainOffset_eq (f : Func) {o i : Nat} (h : f.raw i ≤ f.raw o) : chainOffset f o i = roundUp8 (f.raw o - f.raw i) := by
  unfold chainOffset alignOff roundUp8
  rw [Int.tdiv_eq_ediv_of_nonneg (by omega)]
  split <;> omega

theorem plan_place {f : Func} (wf : f.WF) (ip : f.InPlaceOK) {b : Bool} {p : Plan} (h : getAllocatedOffsets f b = some p) {v : Nat} (hv : f.Arena v) :
    offsetOf p.offsets v = 0 ∨ (f.raw v : Int) ≤ offsetOf p.offsets v ∨
      ∃ w, f.InPlaceChain v w ∧ f.raw v ≤ f.raw w ∧ offsetOf p.offsets v = roundUp8 (f.raw w - f.raw v) := by
  have ok := ovOK wf ip b
  obtain ⟨j, inv⟩ := overlapPhase_inv wf ip b
  obtain ⟨al, pt, hal, hpt, ho, _⟩ := getAllocatedOffsets_unfold h
  generalize hs : overlapPhase f b = s at *
  have hq := queueOf_perm s.vi (queueValues f s)
  obtain ⟨-, hk⟩ := allocate_inv s.vi ok.sizeDvd _ al (hq.nodup_iff.2 (queueValues_nodup f s)) hal
  have hk := hk.trans hq
  obtain ⟨hp1, hp2⟩ := patch_mem hpt
  have hperm := all_keys_perm ok hk hp1
  have hsz : ∀ v, 0 ≤ (s.vi v).size := by
    intro v
    have := inv.viSize v
    rw [vinfo_size_eq] at this
    omega
  have hpl := allocate_place s.vi hsz _ al hal
  have hraw : (f.raw v : Int) ≤ (f.vinfo v).size := by rw [vinfo_size_eq]; unfold roundUp8; split <;> omega
  obtain ⟨r, off, hr⟩ := rootOf_exists (s := s) v
  have hfit := ok.fits v r off hv hr
  rcases hr with ⟨hnk, rfl, rfl⟩ | hm
  · have : r ∈ al.map Prod.fst := hk.mem_iff.2 ((queueValues_mem ok r).2 ⟨hv, hnk⟩)
    obtain ⟨⟨r', o⟩, hx, hx'⟩ := List.mem_map.1 this
    simp at hx'; subst hx'
    rw [ho, (sortById_lookup _ _ hperm r' o (by simp [hx])).2]
    rcases hpl _ hx with h0 | h0
    · exact Or.inl h0
    · right; left; simp only at h0; omega
  · obtain ⟨q, hq', hq1, hq2⟩ := hp2 _ hm
    rw [ho, (sortById_lookup _ _ hperm v (q.2 + off) (by simp [hq2])).2]
    have e1 := inv.keyRaw _ hm
    have e2 := inv.keyOff _ hm
    have e3 := chainOffset_eq f e1
    simp only at e1 e2 e3 hq1
    have e4 := chainOffset_nonneg f e1
    rcases hpl _ hq' with h0 | h0
    · right; right
      refine ⟨r, inv.keyChain _ hm, e1, ?_⟩
      rw [h0, e2, e3, Int.zero_add]
    · right; left
      rw [hq1] at h0
      omega

/-- **C104, place of a tensor.**  In the plan of a model a tensor is at offset 0, or at least as far up as it is long, unless it is computed in place of: then it
may be at the end of the larger tensor that replaces it. -/
theorem C104_place {f : Func} (wf : f.WF) (ip : f.InPlaceOK) {a : ModuleAttrs} (h : planMemory f = some a) {v : Nat} (hv : f.Arena v) :
    offsetOf a.offsets v = 0 ∨ (f.raw v : Int) ≤ offsetOf a.offsets v ∨
      ∃ w, f.InPlaceChain v w ∧ f.raw v ≤ f.raw w ∧ offsetOf a.offsets v = roundUp8 (f.raw w - f.raw v) := by
  unfold planMemory at h
  split at h
  · rename_i w wo hw hwo
    simp only [Option.some.injEq] at h
    subst h
    simp only
    split
    · exact plan_place wf ip hw hv
    · exact plan_place wf ip hwo hv
  · cases h

/-! ### C05: where the members of a chain are -/

theorem root_offset {f : Func} (wf : f.WF) (ip : f.InPlaceOK) {b : Bool} {p : Plan} (h : getAllocatedOffsets f b = some p) {v r : Nat} {off : Int} (hv : f.Arena v)
    (hr : RootOf (overlapPhase f b) v r off) :
    (v = r ∨ f.InPlaceChain v r) ∧ f.raw v ≤ f.raw r ∧ offsetOf p.offsets v = offsetOf p.offsets r + roundUp8 (f.raw r - f.raw v) := by
  obtain ⟨j, inv⟩ := overlapPhase_inv wf ip b
  have ok := ovOK_of_inv wf ip inv
  obtain ⟨al, pf⟩ := planFacts ok h
  rcases hr with ⟨hn, rfl, rfl⟩ | hm
  · exact ⟨.inl rfl, le_rfl, by simp [roundUp8]⟩
  · have e1 := inv.keyRaw _ hm
    have e2 := inv.keyOff _ hm
    simp only at e1 e2
    refine ⟨.inr (inv.keyChain _ hm), e1, ?_⟩
    obtain ⟨q, hq, hq1, hq2⟩ := pf.placed v r off hv (.inr hm)
    obtain ⟨q', hq', hq1', hq2'⟩ := pf.placed r r 0 (ok.rootArena _ hm) (.inl ⟨ok.rootNotKey _ hm, rfl, rfl⟩)
    have hnd : (al.map Prod.fst).Nodup := pf.keys.nodup_iff.2 (queueValues_nodup f _)
    have : q = q' := List.inj_on_of_nodup_map hnd hq hq' (by rw [hq1, hq1'])
    rw [hq2, hq2', this, e2, chainOffset_eq f e1, Int.add_zero]

/-- **C05** Tensors that are live together and share bytes belong to one chain of in-place operators; both lie in the buffer of its last output `r`:
each ends, up to the alignment of 8, where that output ends. -/
theorem C05_members_inside {f : Func} (wf : f.WF) (ip : f.InPlaceOK) {b : Bool} {p : Plan} (h : getAllocatedOffsets f b = some p) {v w t : Nat} (hv : f.Arena v)
    (hw : f.Arena w) (hlv : f.LiveAt v t) (hlw : f.LiveAt w t)
    (hs : ¬ RangesDisjoint (offsetOf p.offsets v) (roundUp8 (f.raw v)) (offsetOf p.offsets w) (roundUp8 (f.raw w))) :
    ∃ r, f.Arena r ∧ ∀ u, u = v ∨ u = w → (u = r ∨ f.InPlaceChain u r) ∧
      offsetOf p.offsets r ≤ offsetOf p.offsets u ∧ offsetOf p.offsets u + f.raw u < offsetOf p.offsets r + f.raw r + 8 ∧
      offsetOf p.offsets r + f.raw r ≤ offsetOf p.offsets u + f.raw u := by
  obtain ⟨j, inv⟩ := overlapPhase_inv wf ip b
  have ok := ovOK_of_inv wf ip inv
  obtain ⟨al, pf⟩ := planFacts ok h
  obtain ⟨r, o, hr⟩ := rootOf_exists (s := overlapPhase f b) v
  obtain ⟨r', o', hr'⟩ := rootOf_exists (s := overlapPhase f b) w
  by_cases hrr : r = r'
  · subst hrr
    refine ⟨r, ?_, ?_⟩
    · rcases hr with ⟨-, rfl, -⟩ | hm
      · exact hv
      · exact ok.rootArena _ hm
    · rintro u (rfl | rfl)
      · obtain ⟨h1, h2, h3⟩ := root_offset wf ip h hv hr
        refine ⟨h1, ?_⟩
        have : f.raw r - f.raw u ≤ roundUp8 (f.raw r - f.raw u) ∧ roundUp8 (f.raw r - f.raw u) < f.raw r - f.raw u + 8 := by
          unfold roundUp8; split <;> omega
        omega
      · obtain ⟨h1, h2, h3⟩ := root_offset wf ip h hw hr'
        refine ⟨h1, ?_⟩
        have : f.raw r - f.raw u ≤ roundUp8 (f.raw r - f.raw u) ∧ roundUp8 (f.raw r - f.raw u) < f.raw r - f.raw u + 8 := by
          unfold roundUp8; split <;> omega
        omega
  · exact absurd (planFacts_disjoint ok pf hv hw hr hr' hrr (live_meets wf hv hw hlv hlw)) hs

/-- The input 0 and the padded tensor 3 of the example are live together at the pad and share bytes: the hypotheses of `C05_members_inside`. -/
example : exampleFunc.LiveAt 0 1 ∧ exampleFunc.LiveAt 3 1 ∧
    ∃ p, getAllocatedOffsets exampleFunc true = some p ∧
      ¬ RangesDisjoint (offsetOf p.offsets 0) (roundUp8 (exampleFunc.raw 0)) (offsetOf p.offsets 3) (roundUp8 (exampleFunc.raw 3)) := by
  refine ⟨Or.inl ⟨by unfold Func.IsArg; decide, Or.inr ⟨1, by decide, by constructor <;> decide⟩⟩,
    Or.inr ⟨1, by unfold Func.DefinedAt; decide, by decide, Or.inl rfl⟩,
    ⟨[24, 168, -1, 0, 0, 128, 208, 128], 216, 6⟩, by decide +kernel, ?_⟩
  unfold RangesDisjoint; decide

end Verif.MemPlan
