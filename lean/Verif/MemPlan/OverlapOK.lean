import Verif.MemPlan.Overlap
/-! Helper lemmas: the overlap phase always delivers a consistent state. -/
namespace Verif.MemPlan

theorem ovInv_init (f : Func) : OvInv f 0 ⟨f.vinfo, [], []⟩ := by
  constructor <;> try simp
  · intro v; rfl
  · intro v; exact vinfo_size_dvd f v

theorem foldl_inv {f : Func} (wf : f.WF) (ip : f.InPlaceOK) (l : List Nat) (j : Nat) (s : OvState)
    (hs : l.Pairwise (· < ·)) (hge : ∀ x ∈ l, j ≤ x) (hlt : ∀ x ∈ l, x < f.ops.length)
    (h : OvInv f j s) : ∃ j', OvInv f j' (l.foldl (overlapStep f) s) := by
  induction l generalizing j s with
  | nil => exact ⟨j, h⟩
  | cons x xs ih =>
    rw [List.pairwise_cons] at hs
    simp only [List.foldl_cons]
    refine ih (x + 1) _ hs.2 (fun y hy => hs.1 y hy) (fun y hy => hlt y (by simp [hy])) ?_
    exact overlapStep_inv wf ip (hlt x (by simp)) (ovInv_weaken h (hge x (by simp)))

theorem overlapPhase_inv {f : Func} (wf : f.WF) (ip : f.InPlaceOK) (b : Bool) :
    ∃ j, OvInv f j (overlapPhase f b) := by
  unfold overlapPhase
  simp only
  split
  · refine foldl_inv wf ip _ 0 _ ?_ (by simp) ?_ (ovInv_init f)
    · exact List.Pairwise.filter _ List.pairwise_lt_range
    · intro x hx
      simp only [Func.opPositions, List.mem_filter, List.mem_range] at hx
      exact hx.1
  · exact ⟨0, ovInv_init f⟩

theorem ovOK_of_inv {f : Func} (wf : f.WF) (ip : f.InPlaceOK) {j : Nat} {s : OvState}
    (h : OvInv f j s) : OvOK f s := by
  refine ⟨h.viConst, h.viDvd, h.keysNodup, h.keyArena, ?_, h.rootNotKey, ?_, ?_, ?_, ?_, ?_, ?_⟩
  · intro e he; exact chain_arena ip (h.keyChain e he)
  · intro e he
    rw [h.viOther]
    intro hm
    obtain ⟨e', he', hee⟩ := List.mem_map.1 hm
    exact h.rootNotKey e' he' (List.mem_map.2 ⟨e, he, hee.symm⟩)
  · intro e he
    rw [h.keyOff e he]; exact chainOffset_nonneg f (h.keyRaw e he)
  · intro e he
    rw [h.keyOff e he]; exact chainOffset_dvd f _ _
  · rintro v r off hv (⟨_, rfl, rfl⟩ | hm)
    · have := h.viSize r; omega
    · exact h.viSizeKey _ hm
  · rintro v r off hv (⟨_, rfl, rfl⟩ | hm)
    · exact ⟨h.viFirst r, le_of_eq (h.viLast r).symm⟩
    · refine ⟨h.viFirstKey _ hm, ?_⟩
      have h1 := chain_ranges wf ip hv (h.keyChain _ hm)
      have h2 := arena_first_le_last wf (chain_arena ip (h.keyChain _ hm))
      have h3 := h.viLast r
      simp only at h1 h2
      omega
  · intro r hr hnk
    rcases h.viTight r with a | ⟨e, he, a, b⟩
    · exact ⟨r, 0, hr, Or.inl ⟨hnk, rfl, rfl⟩, by omega⟩
    · refine ⟨e.1, e.2.2, h.keyArena e he, Or.inr ?_, b⟩
      rw [← a]; exact he

/-- Without overlapping no hypothesis on in-place operators is needed. -/
theorem ovOK_false {f : Func} : OvOK f (overlapPhase f false) := by
  refine ⟨fun _ => rfl, fun v => vinfo_size_dvd f v, by simp [overlapPhase], by simp [overlapPhase],
    by simp [overlapPhase], by simp [overlapPhase], by simp [overlapPhase], by simp [overlapPhase],
    by simp [overlapPhase], ?_, ?_, ?_⟩
  · rintro v r off hv (⟨_, rfl, rfl⟩ | hm)
    · simp [overlapPhase]
    · simp [overlapPhase] at hm
  · rintro v r off hv (⟨_, rfl, rfl⟩ | hm)
    · simp [overlapPhase]
    · simp [overlapPhase] at hm
  · intro r hr hnk
    exact ⟨r, 0, hr, Or.inl ⟨hnk, rfl, rfl⟩, by simp [overlapPhase]⟩

theorem ovOK {f : Func} (wf : f.WF) (ip : f.InPlaceOK) (b : Bool) : OvOK f (overlapPhase f b) := by
  obtain ⟨j, h⟩ := overlapPhase_inv wf ip b
  exact ovOK_of_inv wf ip h

theorem rootOf_false {f : Func} {v r : Nat} {o : Int} (h : RootOf (overlapPhase f false) v r o) :
    r = v ∧ o = 0 := by
  rcases h with ⟨_, rfl, rfl⟩ | hm
  · exact ⟨rfl, rfl⟩
  · simp [overlapPhase] at hm

/-- Values sharing a buffer are related by a chain of in-place operators. -/
theorem sameRoot_chain {f : Func} {j : Nat} {s : OvState} (h : OvInv f j s) {v w r : Nat} {o o' : Int}
    (hv : RootOf s v r o) (hw : RootOf s w r o') (hne : v ≠ w) :
    f.InPlaceChain v w ∨ f.InPlaceChain w v := by
  rcases hv with ⟨_, rfl, rfl⟩ | hv <;> rcases hw with ⟨_, rfl, rfl⟩ | hw
  · exact absurd rfl hne
  · exact Or.inr (h.keyChain _ hw)
  · exact Or.inl (h.keyChain _ hv)
  · rcases h.sameRoot _ hv _ hw rfl with a | a
    · exact absurd a hne
    · exact a

end Verif.MemPlan
