import Verif.Net.RewriteProps
/-!
C95: the moves of transposes and quantisations end; a transpose of an argument folded into the argument.
-/
namespace Verif.Net
open Verif.Tensor Verif.Move Verif.MemPlan

/-! ### Termination -/

/-- Number of pads and concatenations that a transpose or a quantisation of the value of `n` could still be moved over. -/
def weight (ds : List Nat) (n : Node) : Nat :=
  match n.kind with
  | .pad _ _ _ => 1 + (n.args.map fun v => ds.getD v 0).sum
  | .concat _ => 1 + (n.args.map fun v => ds.getD v 0).sum
  | .transpose _ => (n.args.map fun v => ds.getD v 0).sum
  | .elementwise _ => (n.args.map fun v => ds.getD v 0).sum
  | _ => 0

def Kind.moves : Kind → Bool
  | .transpose _ => true
  | .elementwise _ => true
  | _ => false

/-- The weights of all transposes and quantisations together. -/
def cost : List Node → List Nat → Nat
  | [], _ => 0
  | n :: ns, ds => (if n.kind.moves then weight ds n else 0) + cost ns (ds ++ [weight ds n])

/-- The weights of all values. -/
def weights : List Node → List Nat → List Nat
  | [], ds => ds
  | n :: ns, ds => weights ns (ds ++ [weight ds n])

theorem cost_append : ∀ (l1 l2 : List Node) (ds : List Nat), cost (l1 ++ l2) ds = cost l1 ds + cost l2 (weights l1 ds)
  | [], _, _ => by simp [cost, weights]
  | n :: l1, l2, ds => by simp only [List.cons_append, cost, weights, cost_append l1 l2]; omega

theorem weights_append : ∀ (l1 l2 : List Node) (ds : List Nat), weights (l1 ++ l2) ds = weights l2 (weights l1 ds)
  | [], _, _ => rfl
  | n :: l1, l2, ds => by simp only [List.cons_append, weights, weights_append l1 l2]

theorem length_weights : ∀ (l : List Node) (ds : List Nat), (weights l ds).length = ds.length + l.length
  | [], _ => rfl
  | n :: l, ds => by simp only [weights]; rw [length_weights l]; simp; omega

theorem weights_old : ∀ (l : List Node) (ds : List Nat) (v : Nat), v < ds.length → (weights l ds).getD v 0 = ds.getD v 0
  | [], _, _, _ => rfl
  | n :: l, ds, v, h => by
    simp only [weights]
    rw [weights_old l _ v (by simp; omega), List.getD_append _ _ _ _ h]

theorem weight_congr {ds ds' : List Nat} {f : Nat → Nat} {n : Node} (h : ∀ v ∈ n.args, ds'.getD (f v) 0 = ds.getD v 0) : weight ds' (n.rename f) = weight ds n := by
  have e : ((n.rename f).args.map fun v => ds'.getD v 0) = n.args.map fun v => ds.getD v 0 := by
    simp only [Node.rename, List.map_map]
    exact List.map_congr_left h
  unfold weight
  simp only [e]
  rfl

theorem weights_node {l : List Node} {ds : List Nat} {i : Nat} {d : Node} (hd : l[i]? = some d) (hb : ∀ v ∈ d.args, v < ds.length + i) :
    (weights l ds).getD (ds.length + i) 0 = weight (weights l ds) d := by
  induction l generalizing ds i with
  | nil => simp at hd
  | cons n l ih =>
    simp only [weights]
    cases i with
    | zero =>
      simp only [List.getElem?_cons_zero, Option.some.injEq] at hd
      subst hd
      rw [weights_old _ _ _ (by simp)]
      have := weight_congr (f := id) (n := n) (ds := ds) (ds' := weights l (ds ++ [weight ds n])) (by
        intro v hv
        have := hb v hv
        rw [id, weights_old _ _ _ (by simp; omega), List.getD_append _ _ _ _ (by omega)])
      rw [show n.rename id = n by cases n; simp [Node.rename]] at this
      rw [this]
      simp
    | succ i =>
      have := ih (ds := ds ++ [weight ds n]) (i := i) (by simpa using hd) (by
        intro v hv
        have := hb v hv
        simp; omega)
      simp only [List.length_append, List.length_cons, List.length_nil] at this
      rw [show ds.length + (i + 1) = ds.length + (0 + 1) + i by omega]
      exact this

theorem sim_cost (f : Nat → Nat) (U : Nat → Prop) : ∀ (post : List Node) (old new : List Nat),
    (∀ v, v < old.length → U v → new.getD (f v) 0 = old.getD v 0) →
    (∀ v, v < old.length → U v → f v < new.length) →
    (∀ i, i < post.length → f (old.length + i) = new.length + i) →
    (∀ n ∈ post, ∀ v ∈ n.args, U v) →
    (∀ i (n : Node), post[i]? = some n → ∀ v ∈ n.args, v < old.length + i) →
    cost (post.map (Node.rename f)) new = cost post old
  | [], _, _, _, _, _, _, _ => rfl
  | n :: post, old, new, h1, h2, h3, h4, h5 => by
    have h30 : f old.length = new.length := h3 0 (by simp)
    have hw : weight new (n.rename f) = weight old n := weight_congr fun v hv => h1 v (h5 0 n rfl v hv) (h4 n (by simp) v hv)
    simp only [List.map_cons, cost]
    rw [hw]
    congr 1
    refine sim_cost f U post _ _ ?_ ?_ ?_ (fun n' hn' => h4 n' (by simp [hn'])) ?_
    · intro w hw hwu
      rcases Nat.lt_or_ge w old.length with hlt | hge
      · rw [List.getD_append _ _ _ _ hlt, List.getD_append _ _ _ _ (h2 w hlt hwu)]
        exact h1 w hlt hwu
      · have : w = old.length := by simp at hw; omega
        subst this
        rw [h30]
        simp
    · intro w hw hwu
      rcases Nat.lt_or_ge w old.length with hlt | hge
      · have := h2 w hlt hwu
        simp; omega
      · have : w = old.length := by simp at hw; omega
        subst this
        rw [h30]
        simp
    · intro i hi
      have := h3 (i + 1) (by simp; omega)
      simp only [List.length_append, List.length_cons, List.length_nil]
      rw [show old.length + (0 + 1) + i = old.length + (i + 1) by omega, this]
      omega
    · intro i n' hi a ha
      have := h5 (i + 1) n' (by simpa using hi) a ha
      simp only [List.length_append, List.length_cons, List.length_nil]
      omega

def Network.cost (N : Network) : Nat := Net.cost N.nodes (N.inputs.map fun _ => 0)

/-- What the replacement does to the cost. -/
theorem splice_cost {inputs : List Ty} {pre : List Node} {n : Node} {post : List Node} {outs : List Nat} {ns : List Node} {r : Nat}
    (hN : (Network.mk inputs (pre ++ n :: post) outs).OK) (U : Nat → Prop) (hU : ∀ n' ∈ post, ∀ v ∈ n'.args, U v)
    (hr : U (inputs.length + pre.length) → r < inputs.length + pre.length + ns.length ∧
      (weights (pre ++ ns) (inputs.map fun _ => 0)).getD r 0 = weight (weights pre (inputs.map fun _ => 0)) n) :
    (splice inputs pre ns post outs r).cost + (if n.kind.moves then weight (weights pre (inputs.map fun _ => 0)) n else 0) =
      (Network.mk inputs (pre ++ n :: post) outs).cost + Net.cost ns (weights pre (inputs.map fun _ => 0)) := by
  obtain ⟨hnodes, -⟩ := hN
  simp only at hnodes
  rw [nodesOK_append] at hnodes
  obtain ⟨-, -, -, okpost⟩ := hnodes
  obtain ⟨m, hm⟩ : ∃ m, m = inputs.length + pre.length := ⟨_, rfl⟩
  obtain ⟨W, hW⟩ : ∃ W, W = weights pre (inputs.map fun _ => 0) := ⟨_, rfl⟩
  have hWl : W.length = m := by rw [hW, length_weights, hm]; simp
  unfold Network.cost
  simp only [splice]
  rw [cost_append, cost_append, cost_append, weights_append, ← hW, ← hm]
  simp only [Net.cost]
  rw [← hm, weights_append, ← hW] at hr
  have hNl : (weights ns W).length = m + ns.length := by rw [length_weights, hWl]
  rw [sim_cost (renum m ns.length r) U post (W ++ [weight W n]) (weights ns W) ?_ ?_ ?_ hU ?_]
  · omega
  · intro v hv hu
    rw [List.length_append, hWl] at hv
    by_cases e : v = m
    · subst e
      have e2 : renum v ns.length r v = r := by unfold renum; simp
      rw [e2, (hr hu).2, ← hWl]
      simp
    · have hlt : v < m := by simp at hv; omega
      have e2 : renum m ns.length r v = v := by unfold renum; simp [hlt]
      rw [e2, List.getD_append _ _ _ _ (by rw [hWl]; exact hlt), weights_old _ _ _ (by rw [hWl]; exact hlt)]
  · intro v hv hu
    rw [List.length_append, hWl] at hv
    rw [hNl]
    by_cases e : v = m
    · subst e
      have e2 : renum v ns.length r v = r := by unfold renum; simp
      rw [e2]
      exact (hr hu).1
    · have hlt : v < m := by simp at hv; omega
      have e2 : renum m ns.length r v = v := by unfold renum; simp [hlt]
      rw [e2]
      omega
  · intro i _
    rw [List.length_append, hWl, hNl]
    unfold renum
    simp only [List.length_cons, List.length_nil]
    rw [if_neg (by omega), if_neg (by omega)]
    omega
  · intro i n' hi v hv
    have := nodesOK_bound _ _ okpost i n' hi v hv
    rw [List.length_append, hWl]
    simp only [List.length_append, List.length_map, List.length_cons, List.length_nil] at this ⊢
    omega

/-- The patterns that move transposes and quantisations. -/
def movePatterns : List Pattern := [hoistP, cancelP, quantP]

theorem cost_elementwise (k dd : Nat) (tf : Nat → List Nat) : ∀ (xs : List Nat) (ds : List Nat), (∀ x ∈ xs, x < ds.length) →
    cost (xs.map fun x => ⟨.elementwise k, [x], ⟨tf x, dd⟩⟩) ds = (xs.map fun x => ds.getD x 0).sum ∧
    weights (xs.map fun x => ⟨.elementwise k, [x], ⟨tf x, dd⟩⟩) ds = ds ++ xs.map fun x => ds.getD x 0
  | [], ds, _ => by simp [cost, weights]
  | x :: xs, ds, h => by
    have hw : weight ds ⟨.elementwise k, [x], ⟨tf x, dd⟩⟩ = ds.getD x 0 := by simp [weight]
    simp only [List.map_cons, cost, weights, hw, Kind.moves, if_true, List.sum_cons]
    obtain ⟨i1, i2⟩ := cost_elementwise k dd tf xs (ds ++ [ds.getD x 0]) (fun y hy => by
      have := h y (by simp [hy])
      simp; omega)
    have e : (xs.map fun y => (ds ++ [ds.getD x 0]).getD y 0) = xs.map fun y => ds.getD y 0 := by
      apply List.map_congr_left
      intro y hy
      rw [List.getD_append _ _ _ _ (h y (by simp [hy]))]
    rw [i1, i2, e]
    refine ⟨rfl, by simp⟩

/-- Each step makes the cost smaller, or keeps it and makes the network smaller. -/
theorem rw_measure {N N' : Network} (h : Rw movePatterns N N') (hN : N.OK) : N'.cost < N.cost ∨ N'.cost ≤ N.cost ∧ N'.nodes.length < N.nodes.length := by
  cases h with
  | dead inputs pre n post outs h1 h2 =>
    right
    have := splice_cost (ns := []) (r := 0) hN (fun v => v ≠ inputs.length + pre.length) (fun n' hn' v hv e => h1 n' hn' (e ▸ hv)) (fun h => absurd rfl h)
    simp only [cost, Nat.add_zero] at this
    exact ⟨by omega, by simp [splice]⟩
  | apply P inputs pre n post outs ns r hP hm =>
    obtain ⟨W, hW⟩ : ∃ W, W = weights pre (inputs.map fun _ => 0) := ⟨_, rfl⟩
    have hWl : W.length = inputs.length + pre.length := by rw [hW, length_weights]; simp
    have hnodes := hN.nodes
    simp only at hnodes
    have hbd : ∀ i (d : Node), pre[i]? = some d → (∀ v ∈ d.args, v < inputs.length + i) ∧ i < pre.length := by
      intro i d hd
      have hi : i < pre.length := by
        rcases Nat.lt_or_ge i pre.length with h | h
        · exact h
        · rw [List.getElem?_eq_none h] at hd; cases hd
      refine ⟨?_, hi⟩
      intro v hv
      have := nodesOK_bound _ _ hnodes i d (by rw [List.getElem?_append_left hi]; exact hd) v hv
      simpa using this
    have hdef : ∀ v d, defOf inputs.length pre v = some d → (∀ x ∈ d.args, x < inputs.length + pre.length) ∧ W.getD v 0 = weight W d := by
      intro v d hd
      obtain ⟨i, rfl, hi⟩ := defOf_some hd
      obtain ⟨h1, h2⟩ := hbd i d hi
      refine ⟨fun x hx => by have := h1 x hx; omega, ?_⟩
      have := weights_node (ds := inputs.map fun _ => 0) hi (by simpa using h1)
      rw [← hW] at this
      simpa using this
    have spl := fun hr => splice_cost (ns := ns) (r := r) hN (fun _ => True) (fun _ _ _ _ => trivial) (fun _ => hr)
    rw [← hW] at spl
    obtain ⟨k, args, ty⟩ := n
    simp only [movePatterns, List.mem_cons, List.not_mem_nil, or_false] at hP
    rcases hP with rfl | rfl | rfl
    · unfold hoistP at hm
      simp only at hm
      split at hm
      case h_2 => cases hm
      rename_i perm v
      split at hm
      case h_2 => cases hm
      rename_i q8 zp p x mt hd
      split at hm
      case h_2 => cases hm
      rename_i tshape pad' hho
      obtain ⟨rfl, rfl⟩ := Prod.mk.inj (Option.some.inj hm)
      obtain ⟨hx, hv⟩ := hdef v _ hd
      have hx := hx x (by simp)
      have := spl ⟨by simp, by
        rw [weights_append, ← hW]
        simp only [weights]
        rw [← hWl]
        simp only [weight, List.map_cons, List.map_nil, List.sum_cons, List.sum_nil, Nat.add_zero, hv]
        rw [List.getD_eq_getElem?_getD, List.getElem?_append_right (by simp)]
        simp⟩
      left
      simp only [Net.cost, Kind.moves, weight, List.map_cons, List.map_nil, List.sum_cons, List.sum_nil, Nat.add_zero, hv, if_true,
        Bool.false_eq_true, if_false] at this
      omega
    · unfold cancelP at hm
      simp only at hm
      split at hm
      case h_2 => cases hm
      rename_i p0 v
      split at hm
      case h_2 => cases hm
      rename_i p1 x mt hd
      split at hm
      case isFalse => cases hm
      obtain ⟨rfl, rfl⟩ := Prod.mk.inj (Option.some.inj hm)
      obtain ⟨hx, hv⟩ := hdef v _ hd
      have hx := hx x (by simp)
      have := spl ⟨by simpa using hx, by
        rw [List.append_nil, ← hW]
        simp only [weight, List.map_cons, List.map_nil, List.sum_cons, List.sum_nil, Nat.add_zero, hv]⟩
      right
      simp only [Net.cost, Nat.add_zero] at this
      exact ⟨by omega, by simp [splice]⟩
    · unfold quantP at hm
      simp only at hm
      split at hm
      case h_2 => cases hm
      rename_i k v
      split at hm
      case h_2 => cases hm
      rename_i axis xs ct hd
      split at hm
      case isTrue => cases hm
      obtain ⟨rfl, rfl⟩ := Prod.mk.inj (Option.some.inj hm)
      obtain ⟨hx, hv⟩ := hdef v _ hd
      simp only at hx
      obtain ⟨c1, c2⟩ := cost_elementwise k ty.d (fun x => (tyOf inputs pre x).shape) xs W (by rw [hWl]; exact hx)
      have hcat : ((List.range' (inputs.length + pre.length) xs.length).map fun v => (W ++ xs.map fun x => W.getD x 0).getD v 0) = xs.map fun x => W.getD x 0 := by
        apply List.ext_getElem?
        intro i
        rw [List.getElem?_map]
        rcases Nat.lt_or_ge i xs.length with hi | hi
        · rw [List.getElem?_range' hi, ← hWl]
          simp [List.getD_eq_getElem?_getD, List.getElem?_append_right]
          rw [List.getElem?_eq_getElem hi]
          exact ⟨_, rfl, rfl⟩
        · rw [List.getElem?_eq_none (by simpa using hi), List.getElem?_eq_none (by simpa using hi)]
          rfl
      have := spl ⟨by simp, by
        rw [weights_append, weights_append, ← hW, c2]
        simp only [weights]
        rw [List.getD_eq_getElem?_getD, List.getElem?_append_right (by simp [hWl])]
        simp only [weight, hcat, List.map_cons, List.map_nil, List.sum_cons, List.sum_nil, Nat.add_zero, hv]
        simp [hWl]⟩
      left
      rw [cost_append, c1, c2] at this
      simp only [Net.cost, Kind.moves, weight, List.map_cons, List.map_nil, List.sum_cons, List.sum_nil, Nat.add_zero, hv, if_true,
        Bool.false_eq_true, if_false] at this
      omega

/-- **C95.** Transposes and quantisations are moved and cancelled, and unused operators removed, a finite number of times only. -/
theorem C95_moves_end : ¬ ∃ s : Nat → Network, (s 0).OK ∧ ∀ i, Rw movePatterns (s i) (s (i + 1)) := by
  rintro ⟨s, h0, hs⟩
  have hsound : ∀ P ∈ movePatterns, P.Sound := by
    intro P hP
    apply patterns_sound
    simp only [movePatterns, patterns, List.mem_cons, List.not_mem_nil, or_false] at hP ⊢
    tauto
  have hok : ∀ i, (s i).OK := by
    intro i
    induction i with
    | zero => exact h0
    | succ i ih => exact (rw_step hsound (hs i) ih).1
  have wf : WellFounded (fun a b : Nat × Nat => Prod.Lex (· < ·) (· < ·) a b) := (Prod.lex Nat.lt_wfRel Nat.lt_wfRel).wf
  have hdec : ∀ i, Prod.Lex (· < ·) (· < ·) ((s (i + 1)).cost, (s (i + 1)).nodes.length) ((s i).cost, (s i).nodes.length) := by
    intro i
    rcases rw_measure (hs i) (hok i) with h | ⟨h1, h2⟩
    · exact Prod.Lex.left _ _ h
    · rcases Nat.lt_or_eq_of_le h1 with h | h
      · exact Prod.Lex.left _ _ h
      · rw [h]; exact Prod.Lex.right _ h2
  exact (RelEmbedding.not_wellFounded (r := fun a b : Nat × Nat => Prod.Lex (· < ·) (· < ·) a b) (RelEmbedding.natGT (fun i => ((s i).cost, (s i).nodes.length)) hdec)) wf

/-- Two empty pads are swapped for ever (the driver stops after a fixed number of rounds). -/
theorem C95_empty_pads_loop : ∃ N : Network, N.OK ∧ Relation.TransGen (Rw patterns) N N := by
  let t : Ty := ⟨[1, 2, 2, 4], 1⟩
  let z : List Nat := [0, 0, 0, 0, 0, 0, 0, 0]
  let N : Network := ⟨[t], [⟨.pad true 0 z, [0], t⟩, ⟨.pad true 0 z, [1], t⟩], [2]⟩
  refine ⟨N, ⟨⟨by simp [N], ⟨t, false, rfl, rfl, by simp [t, z, PadFits, evens, odds], by simp [t], by simp [t, z]⟩,
    by simp [N], ⟨t, false, rfl, rfl, by simp [t, z, PadFits, evens, odds], by simp [t], by simp [t, z]⟩, trivial⟩, by simp [N]⟩, ?_⟩
  refine Relation.TransGen.tail (b := ⟨[t], [⟨.pad true 0 z, [0], t⟩, ⟨.pad true 0 z, [0], t⟩, ⟨.pad true 0 z, [2], t⟩], [3]⟩)
    (.single (.apply swapP [t] [⟨.pad true 0 z, [0], t⟩] ⟨.pad true 0 z, [1], t⟩ [] [2] [⟨.pad true 0 z, [0], t⟩, ⟨.pad true 0 z, [2], t⟩] 3 (by simp [patterns]) rfl)) ?_
  exact .dead [t] [] ⟨.pad true 0 z, [0], t⟩ [⟨.pad true 0 z, [0], t⟩, ⟨.pad true 0 z, [2], t⟩] [3] (by simp) (by simp)

/-! ### The transpose of an argument -/

theorem rename_id (l : List Node) : l.map (Node.rename id) = l := by
  induction l with
  | nil => rfl
  | cons n l ih => cases n; simp [Node.rename, ih]

theorem getD_set_ne {α : Type} (l : List α) (i v : Nat) (x d : α) (h : v ≠ i) : (l.set i x).getD v d = l.getD v d := by
  simp only [List.getD_eq_getElem?_getD, List.getElem?_set, if_neg (Ne.symm h)]

theorem zip_set {α β : Type} : ∀ (l : List α) (l' : List β) (i : Nat) (a : α) (b : β), (l.set i a).zip (l'.set i b) = (l.zip l').set i (a, b)
  | [], _, _, _, _ => by simp
  | _ :: _, [], _, _, _ => by simp
  | _ :: _, _ :: _, 0, _, _ => by simp
  | _ :: l, _ :: l', i + 1, a, b => by simp [zip_set l l' i a b]

/-- **C95.** With input modification allowed, the network whose argument `i` has the transposed type, run on the transposed argument, gives
the results of the original network. -/
theorem C95_input_transposed {N N' : Network} {i : Nat} (h : FoldInput N i N') (hN : N.OK) :
    ∃ ty : Ty, N'.OK ∧ N'.inputs = N.inputs.set i ty ∧ ty.shape = Transpose.transposeShape [0, 2, 3, 1] (N.inputs.getD i ⟨[], 0⟩).shape ∧
      ty.d = (N.inputs.getD i ⟨[], 0⟩).d ∧
      ∀ (sem : Sem) (ins : List (List Byte)), ins.map List.length = N.inputs.map Ty.size →
        N'.result sem (ins.set i (bytesOf ty (Transpose.transposeT [0, 2, 3, 1] (elemAt (N.inputs.getD i ⟨[], 0⟩) (ins.getD i []))))) = N.result sem ins := by
  cases h with
  | fold inputs pre i ty post outs hi hu ho =>
  obtain ⟨hnodes, houts⟩ := hN
  simp only at hnodes houts ⊢
  obtain ⟨m, hm⟩ : ∃ m, m = inputs.length + pre.length := ⟨_, rfl⟩
  rw [nodesOK_append] at hnodes
  obtain ⟨okpre, hnb, hnk, okpost⟩ := hnodes
  simp only at hnk okpost
  have hctxlen : ((inputs.map fun t => (t, false)) ++ pre.map fun n => (n.ty, n.kind.isConst)).length = m := by rw [hm]; simp
  obtain ⟨a, c, ha, k1, k2, k3⟩ := hnk
  have ha' : inputs.getD i ⟨[], 0⟩ = a := by
    simp only [List.map_cons, List.map_nil, List.cons.injEq, and_true] at ha
    rw [List.getD_append _ _ _ _ (by simpa using hi)] at ha
    rw [List.getD_eq_getElem?_getD, List.getElem?_map, List.getElem?_eq_getElem hi] at ha
    rw [List.getD_eq_getElem?_getD, List.getElem?_eq_getElem hi]
    simpa using congrArg Prod.fst ha
  have hf : ∀ v, v < m → renum m 0 i v = v := by
    intro v hv
    unfold renum
    simp [hv]
  have hf2 : renum m 0 i m = i := by unfold renum; simp
  have hf3 : ∀ j, renum m 0 i (m + 1 + j) = m + j := by
    intro j
    unfold renum
    rw [if_neg (by omega), if_neg (by omega)]
    omega
  have hset : (inputs.set i ty).length = inputs.length := by simp
  have hpre2 : NodesOK pre ((inputs.set i ty).map fun t => (t, false)) := by
    rw [← rename_id pre]
    refine sim_ok id (fun v => v ≠ i) pre _ _ ?_ ?_ ?_ ?_ okpre
    · intro v hv hvi
      rw [List.map_set, id, getD_set_ne _ _ _ _ _ hvi]
      exact ⟨rfl, fun h => h⟩
    · intro v hv _
      simpa using hv
    · intro j _
      simp
    · intro n hn v hv e
      exact hu n (by simp [hn]) (e ▸ hv)
  refine ⟨ty, ⟨?_, ?_⟩, ?_, ?_, ?_, ?_⟩
  · simp only [splice, List.length_nil, hset, ← hm]
    rw [nodesOK_append]
    refine ⟨by simpa using hpre2, ?_⟩
    simp only [List.append_nil]
    refine sim_ok _ (fun v => v ≠ i) post _ _ ?_ ?_ ?_ (fun n hn v hv e => hu n (by simp [hn]) (e ▸ hv)) okpost
    · intro v hv hvi
      rw [List.length_append, hctxlen] at hv
      by_cases e : v = m
      · subst e
        have e3 : ((inputs.map fun t => (t, false)) ++ pre.map (fun n => (n.ty, n.kind.isConst)) ++ [(ty, (Kind.transpose [0, 2, 3, 1]).isConst)]).getD v dflF = (ty, false) := by
          rw [← hctxlen]; simp [Kind.isConst]
        rw [hf2, e3]
        rw [List.getD_append _ _ _ _ (by simpa using hi), List.map_set]
        refine ⟨?_, fun h => by cases h⟩
        rw [List.getD_eq_getElem?_getD, List.getElem?_set]
        simp [hi]
      · have hlt : v < m := by simp at hv; omega
        have e7 : ((inputs.map fun t => (t, false)) ++ pre.map (fun n => (n.ty, n.kind.isConst)) ++ [(ty, (Kind.transpose [0, 2, 3, 1]).isConst)]).getD v dflF =
            ((inputs.map fun t => (t, false)) ++ pre.map (fun n => (n.ty, n.kind.isConst))).getD v dflF := List.getD_append _ _ _ _ (by rw [hctxlen]; exact hlt)
        rw [hf v hlt, e7, List.map_set]
        have e4 : ((inputs.map fun t => (t, false)).set i (ty, false) ++ pre.map fun n => (n.ty, n.kind.isConst)) =
            ((inputs.map fun t => (t, false)) ++ pre.map fun n => (n.ty, n.kind.isConst)).set i (ty, false) := by
          rw [List.set_append_left _ _ (by simpa using hi)]
        rw [e4, getD_set_ne _ _ _ _ _ hvi]
        exact ⟨rfl, fun h => h⟩
    · intro v hv _
      rw [List.length_append, hctxlen] at hv
      simp only [List.length_append, List.length_map, hset]
      rw [← hm]
      by_cases e : v = m
      · subst e
        rw [hf2]; omega
      · have hlt : v < m := by simp at hv; omega
        rw [hf v hlt]; exact hlt
    · intro j _
      rw [List.length_append, hctxlen]
      simp only [List.length_append, List.length_map, hset, List.length_cons, List.length_nil]
      rw [hf3 j, ← hm]
  · intro v hv
    simp only [splice, List.length_nil, hset, List.mem_map, List.length_append, List.length_map] at hv ⊢
    obtain ⟨w, hw, rfl⟩ := hv
    have := houts w hw
    simp only [List.length_append, List.length_cons] at this
    rw [← hm]
    unfold renum
    split
    · omega
    · split <;> omega
  · simp [splice]
  · rw [ha']; exact k3
  · rw [ha']; exact k1.symm
  · intro sem ins hins
    rw [ha']
    obtain ⟨z1, z2, z3⟩ := zip_lengths hins
    have hil : i < ins.length := by
      have := congrArg List.length hins
      simp at this
      omega
    obtain ⟨B, hB⟩ : ∃ B, B = bytesOf ty (Transpose.transposeT [0, 2, 3, 1] (elemAt a (ins.getD i []))) := ⟨_, rfl⟩
    rw [← hB]
    have hzip : (inputs.set i ty).zip (ins.set i B) = (inputs.zip ins).set i (ty, B) := by
      exact zip_set _ _ _ _ _
    unfold Network.result
    simp only [splice, List.map_map, List.length_nil, hset, ← hm, List.append_nil]
    rw [hzip]
    apply List.map_congr_left
    intro w hw
    simp only [Function.comp_def]
    have hwb := houts w hw
    simp only [List.length_append, List.length_cons] at hwb
    have hl : (evalNodes sem pre (inputs.zip ins)).length = m := by rw [length_evalNodes, z3, hm]
    have hl2 : (evalNodes sem pre ((inputs.zip ins).set i (ty, B))).length = m := by rw [length_evalNodes, List.length_set, z3, hm]
    have hpre3 : ∀ v, v < m → v ≠ i → (evalNodes sem pre ((inputs.zip ins).set i (ty, B))).getD v dfl = (evalNodes sem pre (inputs.zip ins)).getD v dfl := by
      intro v hv hvi
      have := sim_eval sem id (fun v => v ≠ i) pre (inputs.zip ins) ((inputs.zip ins).set i (ty, B)) ?_ ?_ ?_ ?_ ?_ v (by rw [z3, ← hm]; exact hv) hvi
      · rw [rename_id] at this
        exact this
      · intro v _ hvi
        rw [id, getD_set_ne _ _ _ _ _ hvi]
      · intro v hv _
        simpa using hv
      · intro j _
        simp
      · intro n hn v hv e
        exact hu n (by simp [hn]) (e ▸ hv)
      · intro j n hn v hv
        have := nodesOK_bound _ _ okpre j n hn v hv
        rw [z3]
        simpa using this
    rw [evalNodes_append sem pre (post.map _), evalNodes_append sem pre (_ :: post)]
    simp only [evalNodes]
    rw [sim_eval sem (renum m 0 i) (fun v => v ≠ i) post _ _ ?_ ?_ ?_ (fun n hn v hv e => hu n (by simp [hn]) (e ▸ hv)) ?_ w ?_ (fun e => ho (e ▸ hw))]
    · intro v hv hvi
      rw [List.length_append, hl] at hv
      by_cases e : v = m
      · subst e
        have e5 : (evalNodes sem pre (inputs.zip ins)).getD i dfl = (a, ins.getD i []) := by
          rw [evalNodes_old _ _ _ _ (by rw [z3]; exact hi), List.getD_eq_getElem?_getD, List.getElem?_eq_getElem (by rw [z3]; exact hi)]
          simp only [List.getElem_zip, Option.getD_some]
          rw [← ha', List.getD_eq_getElem?_getD, List.getElem?_eq_getElem hi, List.getD_eq_getElem?_getD, List.getElem?_eq_getElem hil]
          rfl
        have e6 : (evalNodes sem pre ((inputs.zip ins).set i (ty, B))).getD i dfl = (ty, B) := by
          rw [evalNodes_old _ _ _ _ (by rw [List.length_set, z3]; exact hi), List.getD_eq_getElem?_getD, List.getElem?_set]
          simp [hil, hi]
        rw [hf2, e6, ← hl]
        simp only [List.map_cons, List.map_nil]
        rw [e5, hB]
        simp
        rfl
      · have hlt : v < m := by simp at hv; omega
        rw [hf v hlt, List.getD_append _ _ _ _ (by rw [hl]; exact hlt)]
        exact hpre3 v hlt hvi
    · intro v hv _
      rw [List.length_append, hl] at hv
      rw [hl2]
      by_cases e : v = m
      · subst e
        rw [hf2]; omega
      · have hlt : v < m := by simp at hv; omega
        rw [hf v hlt]; exact hlt
    · intro j _
      rw [List.length_append, hl, hl2]
      exact hf3 j
    · intro j n hn v hv
      have := nodesOK_bound _ _ okpost j n hn v hv
      rw [List.length_append, hctxlen] at this
      rw [List.length_append, hl]
      exact this
    · rw [List.length_append, hl]
      simp only [List.length_cons, List.length_nil]
      omega

/-! ### Examples -/

/-- What a PyTorch export looks like: to channels first, a spatial pad there, back to channels last, then an operator. -/
def exampleR : Network :=
  ⟨[⟨[1, 2, 4, 8], 1⟩],
   [⟨.transpose [0, 3, 1, 2], [0], ⟨[1, 8, 2, 4], 1⟩⟩, ⟨.pad true 5 [0, 0, 0, 0, 1, 1, 1, 1], [1], ⟨[1, 8, 4, 6], 1⟩⟩,
    ⟨.transpose [0, 2, 3, 1], [2], ⟨[1, 4, 6, 8], 1⟩⟩, ⟨.other false 0, [3], ⟨[1, 4], 1⟩⟩], [4]⟩

/-- Both transposes are gone, the pad is a spatial pad of channels-last data. -/
def exampleR' : Network :=
  ⟨[⟨[1, 2, 4, 8], 1⟩], [⟨.pad true 5 [0, 0, 1, 1, 1, 1, 0, 0], [0], ⟨[1, 4, 6, 8], 1⟩⟩, ⟨.other false 0, [1], ⟨[1, 4], 1⟩⟩], [2]⟩

theorem isPerm_of {perm : List Nat} {n : Nat} (h : perm.length = n ∧ (List.range n).all (fun d => perm.contains d) = true) : Transpose.IsPerm perm n := by
  refine ⟨h.1, ?_⟩
  intro d hd
  have := List.all_eq_true.1 h.2 d (List.mem_range.2 hd)
  simpa using this

theorem exampleR_ok : exampleR.OK := by
  refine ⟨⟨by decide, ⟨⟨[1, 2, 4, 8], 1⟩, false, rfl, rfl, isPerm_of (by decide), rfl⟩,
    by decide, ⟨⟨[1, 8, 2, 4], 1⟩, false, rfl, rfl, by simp [PadFits, evens, odds], by simp, fun _ => ⟨rfl, fun _ => .inr (by decide)⟩⟩,
    by decide, ⟨⟨[1, 8, 4, 6], 1⟩, false, rfl, rfl, isPerm_of (by decide), rfl⟩,
    by decide, fun h => Bool.noConfusion h, trivial⟩, by simp [exampleR]⟩

theorem C95_example : exampleR.OK ∧ Relation.ReflTransGen (Rw movePatterns) exampleR exampleR' := by
  refine ⟨exampleR_ok, ?_⟩
  let t1 : Node := ⟨.transpose [0, 3, 1, 2], [0], ⟨[1, 8, 2, 4], 1⟩⟩
  let p1 : Node := ⟨.pad true 5 [0, 0, 0, 0, 1, 1, 1, 1], [1], ⟨[1, 8, 4, 6], 1⟩⟩
  let p2 : Nat → Node := fun v => ⟨.pad true 5 [0, 0, 1, 1, 1, 1, 0, 0], [v], ⟨[1, 4, 6, 8], 1⟩⟩
  let o : Nat → Node := fun v => ⟨.other false 0, [v], ⟨[1, 4], 1⟩⟩
  let ins : List Ty := [⟨[1, 2, 4, 8], 1⟩]
  have s1 : Rw movePatterns exampleR ⟨ins, [t1, p1, ⟨.transpose [0, 2, 3, 1], [1], ⟨[1, 2, 4, 8], 1⟩⟩, p2 3, o 4], [5]⟩ :=
    .apply hoistP ins [t1, p1] ⟨.transpose [0, 2, 3, 1], [2], ⟨[1, 4, 6, 8], 1⟩⟩ [o 3] [4] [⟨.transpose [0, 2, 3, 1], [1], ⟨[1, 2, 4, 8], 1⟩⟩, p2 3] 4
      (by simp [movePatterns]) (by decide +kernel)
  have s2 : Rw movePatterns ⟨ins, [t1, p1, ⟨.transpose [0, 2, 3, 1], [1], ⟨[1, 2, 4, 8], 1⟩⟩, p2 3, o 4], [5]⟩ ⟨ins, [t1, p1, p2 0, o 3], [4]⟩ :=
    .apply cancelP ins [t1, p1] ⟨.transpose [0, 2, 3, 1], [1], ⟨[1, 2, 4, 8], 1⟩⟩ [p2 3, o 4] [5] [] 0 (by simp [movePatterns]) (by decide +kernel)
  have s3 : Rw movePatterns ⟨ins, [t1, p1, p2 0, o 3], [4]⟩ ⟨ins, [t1, p2 0, o 2], [3]⟩ :=
    .dead ins [t1] p1 [p2 0, o 3] [4] (by decide) (by decide)
  have s4 : Rw movePatterns ⟨ins, [t1, p2 0, o 2], [3]⟩ exampleR' :=
    .dead ins [] t1 [p2 0, o 2] [3] (by decide) (by decide)
  exact (((Relation.ReflTransGen.single s1).tail s2).tail s3).tail s4

/-- A quantisation of a concatenation. -/
example : Rw movePatterns
    ⟨[⟨[2, 1], 1⟩, ⟨[2, 3], 1⟩], [⟨.concat 1, [0, 1], ⟨[2, 4], 1⟩⟩, ⟨.elementwise 7, [2], ⟨[2, 4], 2⟩⟩], [3]⟩
    ⟨[⟨[2, 1], 1⟩, ⟨[2, 3], 1⟩], [⟨.concat 1, [0, 1], ⟨[2, 4], 1⟩⟩, ⟨.elementwise 7, [0], ⟨[2, 1], 2⟩⟩, ⟨.elementwise 7, [1], ⟨[2, 3], 2⟩⟩,
      ⟨.concat 1, [3, 4], ⟨[2, 4], 2⟩⟩], [5]⟩ :=
  .apply quantP [⟨[2, 1], 1⟩, ⟨[2, 3], 1⟩] [⟨.concat 1, [0, 1], ⟨[2, 4], 1⟩⟩] ⟨.elementwise 7, [2], ⟨[2, 4], 2⟩⟩ [] [3]
    [⟨.elementwise 7, [0], ⟨[2, 1], 2⟩⟩, ⟨.elementwise 7, [1], ⟨[2, 3], 2⟩⟩, ⟨.concat 1, [3, 4], ⟨[2, 4], 2⟩⟩] 5 (by simp [movePatterns]) (by decide +kernel)

/-- A channels-first argument becomes channels-last. -/
example : FoldInput ⟨[⟨[1, 4, 3, 3], 1⟩], [⟨.transpose [0, 2, 3, 1], [0], ⟨[1, 3, 3, 4], 1⟩⟩, ⟨.other false 0, [1], ⟨[1, 4], 1⟩⟩], [2]⟩ 0
    ⟨[⟨[1, 3, 3, 4], 1⟩], [⟨.other false 0, [0], ⟨[1, 4], 1⟩⟩], [1]⟩ :=
  .fold [⟨[1, 4, 3, 3], 1⟩] [] 0 ⟨[1, 3, 3, 4], 1⟩ [⟨.other false 0, [1], ⟨[1, 4], 1⟩⟩] [2] (by decide) (by decide) (by decide)

end Verif.Net
