import Verif.Net.SplitQNet
/-! C115: an operator in place of a slice, with new operators in front of it. -/
namespace Verif.Net
open Verif.Tensor Verif.Move Verif.MemPlan Verif.Quant Verif.Image Verif.OpSplit

theorem kindOf_seen {Q : QNetwork} {i : Nat} {q : QNode} (hq : Q.nodes[i]? = some q) : Q.kindOf (q.kind.seen i) = q.kind := by
  obtain ⟨kind, args, ty⟩ := q
  have hj : (2 * i + 1) / 2 = i := by omega
  cases kind with
  | base k => cases k <;> simp [QKind.seen, QNetwork.kindOf, hj, hq]
  | _ => simp [QKind.seen, QNetwork.kindOf, hj, hq]

theorem kindOf_base {Q : QNetwork} {k : Kind} (h1 : k.key = none) (h2 : ∀ m, k ≠ .elementwise m) : Q.kindOf k = .base k := by
  cases k with
  | other ip key => cases h1
  | elementwise m => exact absurd rfl (h2 m)
  | _ => rfl

section
variable {R : Rt} {dom : MulArgs → Prop} {Q : QNetwork} {i : Nat} {ns : List Node} {q : QNode}

theorem insert_nodes (hi : Q.nodes[i]? = some q) : (Q.insert i ns).nodes = Q.seen.nodes.take i ++ (ns ++ [⟨q.kind.seen i, q.args, q.ty⟩]) ++
    (Q.seen.nodes.drop (i + 1)).map (Node.rename (renum (Q.inputs.length + (Q.seen.nodes.take i).length) (ns.length + 1) (Q.inputs.length + i + ns.length))) ∧
    (Q.seen.nodes.take i).length = i ∧ Q.seen = ⟨Q.inputs, Q.seen.nodes.take i ++ ⟨q.kind.seen i, q.args, q.ty⟩ :: Q.seen.nodes.drop (i + 1), Q.outputs⟩ ∧
    Q.insert i ns = splice Q.inputs (Q.seen.nodes.take i) (ns ++ [⟨q.kind.seen i, q.args, q.ty⟩]) (Q.seen.nodes.drop (i + 1)) Q.outputs (Q.inputs.length + i + ns.length) := by
  have hs : Q.seen.nodes[i]? = some ⟨q.kind.seen i, q.args, q.ty⟩ := by rw [getElem?_seen, hi]; rfl
  obtain ⟨hlt, hget⟩ := List.getElem?_eq_some_iff.1 hs
  have hd : Q.seen.nodes.drop i = ⟨q.kind.seen i, q.args, q.ty⟩ :: Q.seen.nodes.drop (i + 1) := by rw [List.drop_eq_getElem_cons hlt, hget]
  have h4 : Q.insert i ns = splice Q.inputs (Q.seen.nodes.take i) (ns ++ [⟨q.kind.seen i, q.args, q.ty⟩]) (Q.seen.nodes.drop (i + 1)) Q.outputs (Q.inputs.length + i + ns.length) := by
    unfold QNetwork.insert
    rw [hd]
    rfl
  refine ⟨?_, ?_, ?_, h4⟩
  · rw [h4]
    unfold splice
    simp
  · rw [List.length_take]
    omega
  · rw [← hd, List.take_append_drop]
    rfl

/-- The network with the new operators in it. -/
theorem insert_step (hQ : Q.OK R dom) (hi : Q.nodes[i]? = some q) (hc : q.kind.isConst = false) (hns : NodesOK ns (ctxOf Q.inputs (Q.seen.nodes.take i)))
    (hkey : ∀ n ∈ ns, n.kind.key = none ∧ ∀ k, n.kind ≠ .elementwise k) :
    Inv Q (Q.insert i ns) ∧ (Q.insert i ns).outputs.length = Q.outputs.length ∧
    ∀ (sem : Sem) (ins : List (List Byte)), ins.map List.length = Q.inputs.map Ty.size → (Q.insert i ns).result sem ins = Q.seen.result sem ins := by
  obtain ⟨-, h2, h3, h4⟩ := insert_nodes (ns := ns) hi
  have hr : Rw [insertP ns] Q.seen (Q.insert i ns) := by
    rw [h4]
    conv => arg 2; rw [h3]
    refine Rw.apply (insertP ns) _ _ _ _ _ _ _ (List.mem_singleton.2 rfl) ?_
    unfold insertP
    rw [if_pos ⟨hns, hkey, by rw [seen_const]; exact hc⟩, h2]
  exact inv_pattern (insertP_sound ns) (insertP_keeps ns) hr (inv_start hQ)

theorem insert_before (hi : Q.nodes[i]? = some q) {k : Nat} (hk : k < i) : (Q.rewritten (Q.insert i ns)).nodes[k]? = Q.nodes[k]? := by
  obtain ⟨h1, h2, -, -⟩ := insert_nodes (ns := ns) hi
  unfold QNetwork.rewritten
  simp only [List.getElem?_map]
  rw [h1, List.append_assoc, List.getElem?_append_left (by omega), List.getElem?_take_of_lt hk, getElem?_seen]
  cases hq : Q.nodes[k]? with
  | none => rfl
  | some q' => simp [kindOf_seen hq]

theorem insert_new (hi : Q.nodes[i]? = some q) (hkey : ∀ n ∈ ns, n.kind.key = none ∧ ∀ k, n.kind ≠ .elementwise k) {k : Nat} {n : Node} (hn : ns[k]? = some n) :
    (Q.rewritten (Q.insert i ns)).nodes[i + k]? = some ⟨.base n.kind, n.args, n.ty⟩ := by
  obtain ⟨h1, h2, -, -⟩ := insert_nodes (ns := ns) hi
  have hk : k < ns.length := (List.getElem?_eq_some_iff.1 hn).1
  unfold QNetwork.rewritten
  simp only [List.getElem?_map]
  rw [h1, List.append_assoc, List.getElem?_append_right (by omega), h2, Nat.add_sub_cancel_left, List.append_assoc, List.getElem?_append_left hk, hn]
  have := hkey n (List.mem_of_getElem? hn)
  simp [kindOf_base this.1 this.2]

theorem insert_last (hi : Q.nodes[i]? = some q) : (Q.rewritten (Q.insert i ns)).nodes[i + ns.length]? = some q := by
  obtain ⟨h1, h2, -, -⟩ := insert_nodes (ns := ns) hi
  unfold QNetwork.rewritten
  simp only [List.getElem?_map]
  rw [h1, List.append_assoc, List.getElem?_append_right (by omega), h2, Nat.add_sub_cancel_left, List.append_assoc, List.getElem?_append_right (le_refl _)]
  simp [kindOf_seen hi]

theorem insert_inputs (Q : QNetwork) (i : Nat) (ns : List Node) : (Q.rewritten (Q.insert i ns)).inputs = Q.inputs := rfl

theorem insert_types (hi : Q.nodes[i]? = some q) {v : Nat} (hv : v < Q.inputs.length + i) :
    (Q.rewritten (Q.insert i ns)).types.getD v ⟨[], 0⟩ = Q.types.getD v ⟨[], 0⟩ := by
  rcases Nat.lt_or_ge v Q.inputs.length with h | h
  · unfold QNetwork.types
    rw [List.getD_append _ _ _ _ h, List.getD_append _ _ _ _ (by rw [insert_inputs]; exact h), insert_inputs]
  · obtain ⟨k, rfl⟩ : ∃ k, v = Q.inputs.length + k := ⟨v - Q.inputs.length, by omega⟩
    have hk : k < i := by omega
    have hlt := (List.getElem?_eq_some_iff.1 hi).1
    have hq : Q.nodes[k]? = some Q.nodes[k] := List.getElem?_eq_getElem (by omega)
    have h1 := types_at hq
    have h2 := types_at ((insert_before (ns := ns) hi hk).trans hq)
    rw [insert_inputs] at h2
    rw [List.getD_eq_getElem?_getD, List.getD_eq_getElem?_getD, h1, h2]

theorem insert_newType (hi : Q.nodes[i]? = some q) (hkey : ∀ n ∈ ns, n.kind.key = none ∧ ∀ k, n.kind ≠ .elementwise k) {k : Nat} {n : Node} (hn : ns[k]? = some n) :
    (Q.rewritten (Q.insert i ns)).types.getD (Q.inputs.length + (i + k)) ⟨[], 0⟩ = n.ty := by
  have := types_at (insert_new hi hkey hn)
  rw [insert_inputs] at this
  rw [List.getD_eq_getElem?_getD, this]
  rfl

theorem carried_before (hi : Q.nodes[i]? = some q) {j : Nat} (hj : j < i) {p : QNode} (hp : Q.nodes[j]? = some p) (hb : ∀ b, p.kind ≠ .base b) (e : Nat → ℝ) :
    carried (Q.insert i ns) e j = e j := by
  obtain ⟨h1, h2, -, -⟩ := insert_nodes (ns := ns) hi
  unfold carried
  rw [h1, List.append_assoc, List.getElem?_append_left (by omega), List.getElem?_take_of_lt hj, getElem?_seen, hp]
  simp only [Option.map_some, seen_opaque hb]
  rw [show (2 * j + 1) / 2 = j by omega]

/-- A slice replaced by an operator on new operands: the step is right if the new operator's result is the slice's, for all values of the operands. -/
theorem raise_step (hR : R.OK dom) (hQ : Q.OK R dom) {e : Nat → ℝ} (he : Q.Enough R e) {n : QNode} {ε : ℝ} (hi : Q.nodes[i]? = some q) (hc : q.kind.isConst = false)
    (hns : NodesOK ns (ctxOf Q.inputs (Q.seen.nodes.take i))) (hkey : ∀ n ∈ ns, n.kind.key = none ∧ ∀ k, n.kind ≠ .elementwise k)
    (hb : ∀ b, n.kind ≠ .base b) (hty : n.ty = q.ty) (hargs : ∀ v ∈ n.args, v < Q.inputs.length + i + ns.length)
    (hok : n.kind.OK R dom (n.args.map fun v => ((Q.rewritten (Q.insert i ns)).types.getD v ⟨[], 0⟩, false)) n.ty) (hε : n.refErr R ≤ ε)
    (hw : ∀ ref, (Q.rewritten (Q.insert i ns)).Reference R (carried (Q.insert i ns) e) ref →
      n.Within R ε (n.args.map fun v => ((Q.rewritten (Q.insert i ns)).types.getD v ⟨[], 0⟩, ref.getD v [])) (ref.getD (Q.inputs.length + (i + ns.length)) [])) :
    (Q.raise i ns n).OK R dom ∧ (Q.raise i ns n).Enough R (Function.update (carried (Q.insert i ns) e) (i + ns.length) ε) ∧
    (Q.raise i ns n).inputs = Q.inputs ∧ (Q.raise i ns n).outputs.length = Q.outputs.length ∧
    ∀ ref, Q.Reference R e ref →
      ∃ ref', (Q.raise i ns n).Reference R (Function.update (carried (Q.insert i ns) e) (i + ns.length) ε) ref' ∧
        ref'.take Q.inputs.length = ref.take Q.inputs.length ∧
        ((Q.raise i ns n).outputs.map fun v => ref'.getD v []) = Q.outputs.map fun v => ref.getD v [] := by
  obtain ⟨hI, hout, hres⟩ := insert_step hQ hi hc hns hkey
  have hok1 := rewritten_ok hQ hI
  have hlast := insert_last (ns := ns) hi
  have hconst : n.kind.isConst = q.kind.isConst := by
    rw [hc]
    cases hk : n.kind with
    | base b => exact absurd hk (hb b)
    | _ => rfl
  refine ⟨replace_ok hok1 hlast hty hconst ?_ ?_, replace_enough hlast (enough_kept hI he) hε, rfl, hout, fun ref hr => ?_⟩
  · rw [insert_inputs, ← Nat.add_assoc]
    exact hargs
  · refine qok_types hb ?_ hok
    rw [List.map_map, List.map_map]
    apply List.map_congr_left
    intro v _
    simp only [Function.comp]
    unfold QNetwork.types
    rw [show ∀ (l : List (Ty × Bool)) (v : Nat), (l.getD v (⟨[], 0⟩, false)).1 = (l.map (·.1)).getD v ⟨[], 0⟩ from fun l v => by
      simp only [List.getD_eq_getElem?_getD, List.getElem?_map]
      cases l[v]? <;> rfl]
    simp [List.map_map, Function.comp_def]
  · obtain ⟨ref', h1, h2, h3⟩ := reference_kept hR hQ hI hres he hr
    exact ⟨ref', replace_reference hlast hty h1 (hw ref' h1), h2, h3⟩

end

end Verif.Net
