import Verif.Net.SplitQ
/-! C115: steps of the splitting pass as splices that keep the opaque operators. -/
namespace Verif.Net
open Verif.Tensor Verif.Move Verif.MemPlan Verif.Quant Verif.Image Verif.OpSplit

/-- The pattern puts no opaque operator in but the one it has taken out. -/
def KeepsOps (P : Pattern) : Prop := ∀ (inputs : List Ty) (pre : List Node) (n : Node) (ns : List Node) (r : Nat), P inputs pre n = some (ns, r) →
  (∀ n' ∈ ns, n'.kind.key = none ∨ n' = n) ∧ (ns.filterMap fun n => n.kind.key).Sublist ([n].filterMap fun n => n.kind.key) ∧
  ∀ n' ∈ ns, ∀ k, n'.kind = .elementwise k → n.kind = .elementwise k

theorem keeps_of_none {P : Pattern} (h : ∀ (inputs : List Ty) (pre : List Node) (n : Node) (ns : List Node) (r : Nat), P inputs pre n = some (ns, r) →
    ∀ n' ∈ ns, n'.kind.key = none ∧ ∀ k, n'.kind ≠ .elementwise k) : KeepsOps P := by
  intro inputs pre n ns r hP
  have h := h inputs pre n ns r hP
  refine ⟨fun n' hn' => .inl (h n' hn').1, ?_, fun n' hn' k hk => absurd hk ((h n' hn').2 k)⟩
  rw [List.filterMap_eq_nil_iff.2 fun n' hn' => (h n' hn').1]
  exact List.nil_sublist _

theorem inv_pattern {P : Pattern} (hs : P.SoundFor fun _ => True) (hk : KeepsOps P) {Q : QNetwork} {N N' : Network} (h : Rw [P] N N') (hI : Inv Q N) :
    Inv Q N' ∧ N'.outputs.length = N.outputs.length ∧
    ∀ (sem : Sem) (ins : List (List Byte)), ins.map List.length = N.inputs.map Ty.size → N'.result sem ins = N.result sem ins := by
  obtain ⟨ok, -, hout, hres⟩ := rw_stepC (C := fun _ => True) (sem0 := fun _ _ => []) trivial (by intro P' hP'; rw [List.mem_singleton] at hP'; subst hP'; exact hs) h hI.ok
  refine ⟨?_, hout, fun sem ins hin => hres sem ins trivial hin⟩
  cases h with
  | apply P' inputs pre n post outs ns r hP hm =>
    rw [List.mem_singleton] at hP
    subst hP
    obtain ⟨k1, k2, k3⟩ := hk inputs pre n ns r hm
    refine inv_splice ok hI k1 k2 k3 fun _ _ _ => ?_
    have hnodes := hI.ok.nodes
    simp only at hnodes
    rw [show pre ++ n :: post = (pre ++ [n]) ++ post by simp, nodesOK_append] at hnodes
    obtain ⟨z1, z2, z3⟩ := zip_lengths (inputs := inputs) (ins := inputs.map fun t => List.replicate t.size 0) (by simp [List.map_map, Function.comp_def])
    have := hs (fun _ _ => []) (inputs.zip (inputs.map fun t => List.replicate t.size 0)) pre n ns r trivial z1 ⟨rfl, by
        rw [show (inputs.zip (inputs.map fun t => List.replicate t.size (0 : Byte))).map (fun x => (x.1, false)) = inputs.map fun t => (t, false) by
          conv_rhs => rw [← z2]
          rw [List.map_map]; rfl]
        exact hnodes.1⟩ (by rw [z2]; exact hm)
    rw [z3] at this
    have hb := this.2.holds.bound
    have ht := this.2.holds.ctx this.2.good
    rw [tyOf_ctx, z2] at ht
    simp only [List.length_append] at hb
    exact ⟨by omega, ht⟩
  | dead inputs pre n post outs h1 h2 =>
    exact inv_splice ok hI (by simp) (List.nil_sublist _) (by simp) fun n' hn' hm => absurd hm (h1 n' hn')

theorem splitP_keeps (k : Nat) : KeepsOps (splitP k) := by
  intro inputs pre n ns r h
  unfold splitP at h
  split at h
  · split at h
    · dsimp only at h
      rename_i hh ww cc _ _ _
      obtain ⟨rfl, -⟩ := Prod.mk.inj (Option.some.inj h)
      have hmem : ∀ n' ∈ (opSplitSlices hh k).map (fun bs => rowSlice (inputs.length + pre.length) bs.1 bs.2 ww cc n.ty.d) ++
          [(⟨.concat 1, List.range' (inputs.length + pre.length + 1) k, n.ty⟩ : Node)], n'.kind.key = none ∧ ∀ k, n'.kind ≠ .elementwise k := by
        intro n' hn'
        rcases List.mem_append.1 hn' with hn' | hn'
        · obtain ⟨bs, -, rfl⟩ := List.mem_map.1 hn'
          exact ⟨rfl, fun k h => by cases h⟩
        · obtain rfl := List.mem_singleton.1 hn'
          exact ⟨rfl, fun k h => by cases h⟩
      refine ⟨?_, ?_, ?_⟩
      · intro n' hn'
        rw [List.cons_append, List.mem_cons] at hn'
        rcases hn' with rfl | hn'
        · exact .inr rfl
        · exact .inl (hmem n' hn').1
      · rw [List.cons_append, show ∀ (l : List Node), n :: l = [n] ++ l from fun _ => rfl, List.filterMap_append,
          List.filterMap_eq_nil_iff.2 fun n' hn' => (hmem n' hn').1, List.append_nil]
      · intro n' hn' k hk
        rw [List.cons_append, List.mem_cons] at hn'
        rcases hn' with rfl | hn'
        · exact hk
        · exact absurd hk ((hmem n' hn').2 k)
    · cases h
  · cases h

theorem combineP_keeps (j : Nat) : KeepsOps (combineP j) := by
  apply keeps_of_none
  intro inputs pre n ns r h
  unfold combineP at h
  split at h
  · split at h
    · split at h
      · obtain ⟨rfl, -⟩ := Prod.mk.inj (Option.some.inj h)
        simp
      · obtain ⟨rfl, -⟩ := Prod.mk.inj (Option.some.inj h)
        intro n' hn'
        obtain rfl := List.mem_singleton.1 hn'
        exact ⟨rfl, fun k h => by cases h⟩
    · cases h
  · cases h

theorem raisePadP_keeps : KeepsOps raisePadP := by
  apply keeps_of_none
  intro inputs pre n ns r h
  unfold raisePadP at h
  split at h
  case h_2 => cases h
  split at h
  case h_2 => cases h
  split at h
  case h_2 => cases h
  dsimp only at h
  split at h
  case isFalse => cases h
  obtain ⟨rfl, -⟩ := Prod.mk.inj (Option.some.inj h)
  intro n' hn'
  simp only [List.mem_cons, List.not_mem_nil, or_false] at hn'
  rcases hn' with rfl | rfl
  · exact ⟨rfl, fun k h => by cases h⟩
  · exact ⟨rfl, fun k h => by cases h⟩

theorem movePattern_facts {P : Pattern} (h : MovePattern P) : (P.SoundFor fun _ => True) ∧ KeepsOps P := by
  cases h with
  | split k => exact ⟨splitP_sound _ k, splitP_keeps k⟩
  | combine j => exact ⟨combineP_sound _ j, combineP_keeps j⟩
  | raisePad => exact ⟨raisePadP_sound _, raisePadP_keeps⟩

/-! ### Operators in front of an operator -/

/-- The context of operator `pre.length`. -/
def ctxOf (inputs : List Ty) (pre : List Node) : List (Ty × Bool) := (inputs.map fun t => (t, false)) ++ pre.map fun n => (n.ty, n.kind.isConst)

/-- Data movement inserted in front of an operator. -/
noncomputable def insertP (ns : List Node) : Pattern := fun inputs pre n =>
  open Classical in
  if NodesOK ns (ctxOf inputs pre) ∧ (∀ n' ∈ ns, n'.kind.key = none ∧ ∀ k, n'.kind ≠ .elementwise k) ∧ n.kind.isConst = false then
    some (ns ++ [n], inputs.length + pre.length + ns.length) else none

theorem insertP_keeps (ns : List Node) : KeepsOps (insertP ns) := by
  intro inputs pre n ns' r h
  unfold insertP at h
  split at h
  case isFalse => cases h
  rename_i hc
  obtain ⟨rfl, -⟩ := Prod.mk.inj (Option.some.inj h)
  refine ⟨?_, ?_, ?_⟩
  · intro n' hn'
    rcases List.mem_append.1 hn' with hn' | hn'
    · exact .inl (hc.2.1 n' hn').1
    · exact .inr (List.mem_singleton.1 hn')
  · rw [List.filterMap_append, List.filterMap_eq_nil_iff.2 fun n' hn' => (hc.2.1 n' hn').1, List.nil_append]
  · intro n' hn' k hk
    rcases List.mem_append.1 hn' with hn' | hn'
    · exact absurd hk ((hc.2.1 n' hn').2 k)
    · rw [List.mem_singleton.1 hn'] at hk
      exact hk

theorem insertP_sound (ns : List Node) : (insertP ns).SoundFor fun _ => True := by
  intro sem iv pre n ns' r _ hiv hg h
  unfold insertP at h
  split at h
  case isFalse => cases h
  rename_i hc
  obtain ⟨h1, -, h3⟩ := hc
  obtain ⟨rfl, rfl⟩ := Prod.mk.inj (Option.some.inj h)
  refine ⟨h3, ?_⟩
  have hgp := good_prefix hg
  have hctx : ctxOf (iv.map (·.1)) pre = (iv.map fun x => (x.1, false)) ++ pre.map fun n => (n.ty, n.kind.isConst) := by
    unfold ctxOf
    rw [List.map_map]; rfl
  have hctxl : (ctxOf (iv.map (·.1)) pre).length = iv.length + pre.length := by simp [ctxOf]
  have hnok := ((nodesOK_append _ _ _).1 hg.ok).2
  rw [← hctx] at hnok
  obtain ⟨hb, hok, -⟩ := hnok
  have hgood : EGood iv ⟨iv.length, pre ++ (ns ++ [n])⟩ := by
    refine ⟨rfl, ?_⟩
    show NodesOK (pre ++ (ns ++ [n])) _
    rw [nodesOK_append]
    refine ⟨hgp.ok, ?_⟩
    rw [← hctx, nodesOK_append]
    refine ⟨h1, ?_, ?_, trivial⟩
    · intro v hv
      have := hb v hv
      rw [List.length_append]
      omega
    · convert hok using 1
      apply List.map_congr_left
      intro v hv
      rw [List.getD_append _ _ _ _ (hb v hv)]
  have hat : (pre ++ (ns ++ [n]))[pre.length + ns.length]? = some n := by
    rw [← List.append_assoc, List.getElem?_append_right (by simp)]
    simp
  obtain ⟨-, -, hval⟩ := node_value (sem := sem) hgood (i := pre.length + ns.length) hat
  simp only at hval
  have hargs : (n.args.map fun v => (evalNodes sem (pre ++ (ns ++ [n])) iv).getD v dfl) = n.args.map fun v => (evalNodes sem pre iv).getD v dfl := by
    apply List.map_congr_left
    intro v hv
    have := hb v hv
    rw [evalNodes_append, evalNodes_old _ _ _ _ (by rw [length_evalNodes]; omega)]
  rw [hargs] at hval
  have hv := holds_value (sem := sem) hgood hiv (v := iv.length + (pre.length + ns.length)) (by simp)
  refine ⟨⟨ns ++ [n], rfl⟩, hgood, ?_, ?_, ?_⟩
  · simp; omega
  · simp only [List.length_map]
    rw [Nat.add_assoc]
    exact hval
  · have := hv.len
    have ht := hv.value
    simp only at this ht
    rw [hval] at this ht
    obtain ⟨ht, -⟩ := Prod.mk.inj ht
    rw [← ht] at this
    exact this

end Verif.Net
