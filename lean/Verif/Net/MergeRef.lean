import Verif.Net.DriftMain
/-!
C114: a run of the reference on a network gives one on the network after the rewrites (the other direction of C99).
-/
namespace Verif.Net
open Verif.Tensor Verif.Move Verif.MemPlan Verif.Quant

theorem within_mono {R : Rt} {n : QNode} {e e' : ℝ} (h : e ≤ e') {args : List (Ty × List Byte)} {out : List Byte} (hw : n.Within R e args out) :
    n.Within R e' args out := by
  obtain ⟨kind, as, ty⟩ := n
  cases kind with
  | base k => exact hw
  | binary op act lt rt ot => exact fun idx hi => (hw idx hi).trans h
  | activation f it ot => exact fun idx hi => (hw idx hi).trans h
  | conv t l g => exact fun idx hi => (hw idx hi).trans h
  | avgPool t p h' w oh ow depth g => exact fun idx hi => (hw idx hi).trans h
  | fc t f B g => exact fun idx hi => (hw idx hi).trans h
  | maxPool p => exact fun y x c hy hx hc => let ⟨v, h1, h2⟩ := hw y x c hy hx hc; ⟨v, h1, h2.trans h⟩
  | reduce sum ti tq axes shape => exact fun idx hi => (hw idx hi).trans h
  | tconv t h' w oh ow op ps => exact fun idx hi => (hw idx hi).trans h
  | blob op act =>
    cases op with
    | binary o t1 t2 tq => exact fun idx hi => (hw idx hi).trans h
    | fn f ti tq => exact fun idx hi => (hw idx hi).trans h
    | requantize ti tq => exact fun idx hi => (hw idx hi).trans h
    | quantize tq => exact fun idx hi hf => (hw idx hi hf).trans h
    | dequantize ti => exact fun idx hi => (hw idx hi).trans h
    | softmax beta t shape => exact fun k hk => (hw k hk).trans h
  | conv16 t l g => exact fun idx hi => (hw idx hi).trans h
  | fc16 t f B g => exact fun idx hi => (hw idx hi).trans h
  | bsign zp => exact hw
  | bconv L =>
    have hw : L.Meets e (args.getD 0 (⟨[], 0⟩, [])).2 out := hw
    show L.Meets e' (args.getD 0 (⟨[], 0⟩, [])).2 out
    unfold LConv.Meets at hw ⊢
    cases hq : L.f.outQ8 with
    | some q =>
      rw [hq] at hw
      exact fun y x o hy hx ho => (hw y x o hy hx ho).trans h
    | none =>
      rw [hq] at hw
      exact hw

theorem within_congr {R : Rt} {a b : QNode} (hk : a.kind = b.kind) (ht : a.ty = b.ty) {e : ℝ} {args : List (Ty × List Byte)} {out : List Byte}
    (h : a.Within R e args out) : b.Within R e args out := by
  obtain ⟨k, as, t⟩ := a
  obtain ⟨k', bs, t'⟩ := b
  simp only at hk ht
  subst hk
  subst ht
  exact h

/-- Errors large enough for results that are rounded to the nearest step. -/
def QNetwork.Enough (R : Rt) (Q : QNetwork) (e : Nat → ℝ) : Prop := ∀ (j : Nat) (n : QNode), Q.nodes[j]? = some n → n.refErr R ≤ e j

/-- The errors of the operators after a rewrite: opaque operators keep theirs, data movement has none. -/
def carried (N : Network) (e : Nat → ℝ) (i : Nat) : ℝ :=
  match N.nodes[i]?.map Node.kind with
  | some (Kind.other _ key) => e (key / 2)
  | _ => 0

/-- A meaning for the opaque operators under which the network has the values of the reference. -/
noncomputable def asReference (R : Rt) (Q : QNetwork) (e : Nat → ℝ) (ref : List (List Byte)) : Sem := fun key ins =>
  open Classical in
  if key % 2 = 0 then R.ext (key / 2) ins else
  match Q.nodes[key / 2]? with
  | none => []
  | some q =>
    if q.args.map (fun v => ref.getD v []) = ins then ref.getD (Q.inputs.length + key / 2) []
    else if h : ∃ out, out.length = q.ty.size ∧ q.Within R (e (key / 2)) ((q.args.map fun v => Q.types.getD v ⟨[], 0⟩).zip ins) out then h.choose
    else []

theorem asReference_even (R : Rt) (Q : QNetwork) (e : Nat → ℝ) (ref : List (List Byte)) (k : Nat) (ins : List (List Byte)) :
    asReference R Q e ref (2 * k) ins = R.ext k ins := by
  unfold asReference
  rw [if_pos (by omega), show 2 * k / 2 = k by omega]

theorem asReference_value {R : Rt} {Q : QNetwork} {e : Nat → ℝ} {ref : List (List Byte)} {j : Nat} {q : QNode} (hq : Q.nodes[j]? = some q) :
    asReference R Q e ref (2 * j + 1) (q.args.map fun v => ref.getD v []) = ref.getD (Q.inputs.length + j) [] := by
  have hj : (2 * j + 1) / 2 = j := by omega
  unfold asReference
  rw [if_neg (by omega), hj, hq]
  simp only [if_true]

theorem asReference_within {R : Rt} {dom : MulArgs → Prop} (hR : R.OK dom) {Q : QNetwork} (hQ : Q.OK R dom) {e : Nat → ℝ} (he : Q.Enough R e)
    {ref : List (List Byte)} (hr : Q.Reference R e ref) {j : Nat} {q : QNode} (hq : Q.nodes[j]? = some q) (ins : List (List Byte))
    (hins : ins.map List.length = q.args.map fun v => (Q.types.getD v ⟨[], 0⟩).size) :
    (asReference R Q e ref (2 * j + 1) ins).length = q.ty.size ∧
    q.Within R (e j) ((q.args.map fun v => Q.types.getD v ⟨[], 0⟩).zip ins) (asReference R Q e ref (2 * j + 1) ins) := by
  have hj : (2 * j + 1) / 2 = j := by omega
  by_cases hex : q.args.map (fun v => ref.getD v []) = ins
  · subst hex
    rw [asReference_value hq]
    refine ⟨?_, ?_⟩
    · rw [sizes_getD hr.sizes, List.getD_eq_getElem?_getD, types_at hq]
      rfl
    · rw [← map_pair]
      exact hr.within j q hq
  · obtain ⟨c, hok⟩ := (nodeOK hQ hq).2
    have hl : ins.length = q.args.length := by simpa using congrArg List.length hins
    -- the operands as a function
    have hz : ∃ out, out.length = q.ty.size ∧ q.Within R (e j) ((q.args.map fun v => Q.types.getD v ⟨[], 0⟩).zip ins) out := by
      obtain ⟨m, hm⟩ : ∃ m : QNode, m = ⟨q.kind, List.range q.args.length, q.ty⟩ := ⟨_, rfl⟩
      have hk : m.kind = q.kind := by rw [hm]
      have ht : m.ty = q.ty := by rw [hm]
      have hargs : ∀ {α : Type} (f : Nat → α), (m.args.map fun i => f (q.args.getD i 0)) = q.args.map f := by
        intro α f
        rw [hm]
        apply List.ext_getElem
        · simp
        · intro i h1 h2
          simp only [List.length_map] at h2
          simp [List.getD_eq_getElem?_getD, List.getElem?_eq_getElem h2]
      have hin : (m.args.map fun i => ins.getD i []) = ins := by
        rw [hm]
        apply List.ext_getElem
        · simp [hl]
        · intro i h1 h2
          simp [List.getD_eq_getElem?_getD, List.getElem?_eq_getElem h2]
      have hpair : (m.args.map fun i => (Q.types.getD (q.args.getD i 0) ⟨[], 0⟩, ins.getD i [])) = (q.args.map fun v => Q.types.getD v ⟨[], 0⟩).zip ins := by
        rw [map_pair, hin, hargs fun v => Q.types.getD v ⟨[], 0⟩]
      have hX : ∀ i ∈ m.args, (ins.getD i []).length = (Q.types.getD (q.args.getD i 0) ⟨[], 0⟩).size := by
        intro i hi
        have h1 : i < q.args.length := by rw [hm] at hi; simpa using hi
        have := congrArg (fun l => l[i]?) hins
        simp only [List.getElem?_map, List.getElem?_eq_getElem h1, List.getElem?_eq_getElem (show i < ins.length by omega), Option.map_some, Option.some.injEq] at this
        simp only [List.getD_eq_getElem?_getD, List.getElem?_eq_getElem h1, List.getElem?_eq_getElem (show i < ins.length by omega), Option.getD_some]
        rw [this, List.getD_eq_getElem?_getD]
      have hokm : m.kind.OK R dom (m.args.map fun i => (Q.types.getD (q.args.getD i 0) ⟨[], 0⟩, c (q.args.getD i 0))) m.ty := by
        rw [hargs fun v => (Q.types.getD v ⟨[], 0⟩, c v), hk, ht]
        exact hok
      obtain ⟨out, h1, h2⟩ := node_ref hR m (fun i => Q.types.getD (q.args.getD i 0) ⟨[], 0⟩) (fun i => c (q.args.getD i 0)) (fun i => ins.getD i []) hokm hX (by
        intro kd hkd
        rw [hkd] at hokm
        refine length_eval kd m.ty _ _ hokm ?_
        simp [List.map_map, Function.comp_def])
      rw [hpair] at h2
      refine ⟨out, by rw [h1, ht], within_congr hk ht (within_mono ?_ h2)⟩
      have : m.refErr R = q.refErr R := by rw [hm]; rfl
      rw [this]
      exact he j q hq
    have hval : asReference R Q e ref (2 * j + 1) ins = hz.choose := by
      unfold asReference
      rw [if_neg (by omega), hj, hq]
      simp only
      rw [if_neg hex, dif_pos hz]
    rw [hval]
    exact hz.choose_spec

/-- A run of the reference on a network gives one on a network with the same operators that computes the same. -/
theorem reference_kept {R : Rt} {dom : MulArgs → Prop} (hR : R.OK dom) {Q : QNetwork} (hQ : Q.OK R dom) {N : Network} (hI : Inv Q N)
    (hres : ∀ (sem : Sem) (ins : List (List Byte)), ins.map List.length = Q.inputs.map Ty.size → N.result sem ins = Q.seen.result sem ins)
    {e : Nat → ℝ} (he : Q.Enough R e) {ref : List (List Byte)} (hr : Q.Reference R e ref) :
    ∃ ref', (Q.rewritten N).Reference R (carried N e) ref' ∧ ref'.take Q.inputs.length = ref.take Q.inputs.length ∧
      (N.outputs.map fun v => ref'.getD v []) = Q.outputs.map fun v => ref.getD v [] := by
  obtain ⟨inputs, hinp⟩ : ∃ i, i = ref.take Q.inputs.length := ⟨_, rfl⟩
  have hin : inputs.map List.length = Q.inputs.map Ty.size := by
    rw [hinp, List.map_take, hr.sizes, ← List.map_take]
    unfold QNetwork.types
    rw [List.take_left]
  have hlenI : inputs.length = Q.inputs.length := by simpa using congrArg List.length hin
  obtain ⟨F, hF⟩ : ∃ F, F = asReference R Q e ref := ⟨_, rfl⟩
  have htl : Q.types.length = Q.inputs.length + Q.nodes.length := by simp [QNetwork.types]
  have hsl : Q.seen.nodes.length = Q.nodes.length := by simp [QNetwork.seen]
  have hget : ∀ v, v < Q.inputs.length + Q.nodes.length → (Q.types.zip ref).getD v dfl = (Q.types.getD v ⟨[], 0⟩, ref.getD v []) := by
    intro v hlt
    have := hr.length
    simp only [List.getD_eq_getElem?_getD]
    rw [List.getElem?_eq_getElem (by rw [List.length_zip, htl, this]; omega), List.getElem_zip, List.getElem?_eq_getElem (by omega), List.getElem?_eq_getElem (by omega)]
    rfl
  -- the network under this meaning
  have heval : evalNodes F Q.seen.nodes (Q.inputs.zip inputs) = Q.types.zip ref := by
    have hz : (Q.inputs.zip inputs).length = Q.inputs.length := by simp [hlenI]
    apply eval_unique
    · rw [List.length_zip, htl, hr.length, hz, hsl]; omega
    · rw [hz, take_zip', ← hinp]
      unfold QNetwork.types
      rw [List.take_left]
    · intro i n hn
      rw [hz]
      rw [getElem?_seen] at hn
      cases hq : Q.nodes[i]? with
      | none => rw [hq] at hn; cases hn
      | some q =>
        rw [hq] at hn
        simp only [Option.map_some, Option.some.injEq] at hn
        subst hn
        have hi : i < Q.nodes.length := (List.getElem?_eq_some_iff.1 hq).1
        have hb := (nodeOK hQ hq).1
        refine ⟨hb, ?_⟩
        have hargs : (q.args.map fun v => (Q.types.zip ref).getD v dfl) = q.args.map fun v => (Q.types.getD v ⟨[], 0⟩, ref.getD v []) := by
          apply List.map_congr_left
          intro v hv'
          have := hb v hv'
          rw [hget v (by omega)]
        rw [hget _ (by omega)]
        show (_, _) = (_, eval F (q.kind.seen i) q.ty (q.args.map fun v => (Q.types.zip ref).getD v dfl))
        rw [hargs, List.getD_eq_getElem?_getD (l := Q.types), types_at hq, Option.getD_some]
        congr 1
        have hm := hr.within i q hq
        have hsz := sizes_getD hr.sizes (Q.inputs.length + i)
        rw [List.getD_eq_getElem?_getD (l := Q.types), types_at hq, Option.getD_some] at hsz
        have hopaque : ∀ ip, q.kind.seen i = .other ip (2 * i + 1) →
            ref.getD (Q.inputs.length + i) [] = eval F (q.kind.seen i) q.ty (q.args.map fun v => (Q.types.getD v ⟨[], 0⟩, ref.getD v [])) := by
          intro ip hk
          have hsnd : ((q.args.map fun v => (Q.types.getD v ⟨[], 0⟩, ref.getD v [])).map (·.2)) = q.args.map fun v => ref.getD v [] := by
            rw [List.map_map]; rfl
          have hval := asReference_value (R := R) (e := e) (ref := ref) hq
          rw [hk, eval_opaque]
          · rw [hsnd, hF, hval]
          · intro a ha'
            obtain ⟨v, -, rfl⟩ := List.mem_map.1 ha'
            exact sizes_getD hr.sizes v
          · rw [hsnd, hF, hval]
            exact hsz
        cases hqk : q.kind with
        | base b =>
          cases hb' : b with
          | other ip k => rw [hqk, hb'] at hopaque; exact hopaque ip rfl
          | elementwise k =>
            unfold QNode.Within at hm
            rw [hqk, hb'] at hm
            simp only at hm
            rw [hm]
            apply eval_elem
            intro x
            rw [hF, asReference_even]
          | _ =>
            unfold QNode.Within at hm
            rw [hqk, hb'] at hm
            simp only at hm
            rw [hm]
            exact eval_base _ _ _ _ _ rfl (fun e h => by cases h)
        | _ => rw [hqk] at hopaque; exact hopaque false rfl
  -- the rewritten network
  have hinN : inputs.map List.length = N.inputs.map Ty.size := by rw [hI.inputs]; exact hin
  obtain ⟨z1, z2, z3⟩ := zip_lengths hinN
  have hgood : EGood (N.inputs.zip inputs) ⟨N.inputs.length, N.nodes⟩ := ⟨z3, by
    rw [show (N.inputs.zip inputs).map (fun x => (x.1, false)) = N.inputs.map fun t => (t, false) by
      conv_rhs => rw [← z2]
      rw [List.map_map]; rfl]
    exact hI.ok.nodes⟩
  obtain ⟨E, hE⟩ : ∃ E, E = evalNodes F N.nodes (N.inputs.zip inputs) := ⟨_, rfl⟩
  have hEl : E.length = N.inputs.length + N.nodes.length := by rw [hE, length_evalNodes, z3]
  have hnt : (Q.rewritten N).types = N.inputs ++ N.nodes.map (·.ty) := by
    simp [QNetwork.types, QNetwork.rewritten, List.map_map, Function.comp_def]
  have hEt : E.map (·.1) = (Q.rewritten N).types := by
    rw [hE, evalNodes_types, z2, hnt]
  have hEd : ∀ v, E.getD v dfl = ((Q.rewritten N).types.getD v ⟨[], 0⟩, (E.map (·.2)).getD v []) := by
    intro v
    rw [← hEt]
    simp only [List.getD_eq_getElem?_getD, List.getElem?_map]
    cases E[v]? <;> rfl
  have hsizes : (E.map (·.2)).map List.length = (Q.rewritten N).types.map Ty.size := by
    apply List.ext_getElem
    · simp [hEl, hnt]
    · intro v h1 h2
      simp only [List.length_map] at h1
      have := (holds_value (sem := F) hgood z1 (v := v) (by simp only; omega)).len
      rw [z2, ← rewritten_types Q N v, ← hE, hEd v] at this
      simp only [List.getD_eq_getElem?_getD, List.getElem?_map, List.getElem?_eq_getElem h1] at this
      have hlt : v < (Q.rewritten N).types.length := by rw [← hEt]; simpa using h1
      rw [List.getElem?_eq_getElem hlt] at this
      simpa using this
  refine ⟨E.map (·.2), ⟨by rw [List.length_map, hEl]; simp [QNetwork.rewritten], hsizes, ?_⟩, ?_, ?_⟩
  · intro i n' hn'
    simp only [QNetwork.rewritten, List.getElem?_map] at hn'
    cases hn : N.nodes[i]? with
    | none => rw [hn] at hn'; cases hn'
    | some n =>
      rw [hn] at hn'
      simp only [Option.map_some, Option.some.injEq] at hn'
      subst hn'
      obtain ⟨hb, -, hval⟩ := node_value (sem := F) hgood (i := i) hn
      simp only [← hE] at hval
      rw [hEd] at hval
      have hval2 := congrArg Prod.snd hval
      simp only at hval2
      rw [List.map_congr_left (fun v _ => hEd v)] at hval2
      show QNode.Within R _ _ (n.args.map _) ((E.map (·.2)).getD (N.inputs.length + i) [])
      rw [hval2]
      obtain ⟨A, hA⟩ : ∃ A, A = n.args.map fun v => ((Q.rewritten N).types.getD v ⟨[], 0⟩, (E.map (·.2)).getD v []) := ⟨_, rfl⟩
      rw [← hA]
      have hAs : ∀ a ∈ A, a.2.length = a.1.size := by
        rw [hA]
        intro a ha
        obtain ⟨v, -, rfl⟩ := List.mem_map.1 ha
        exact sizes_getD hsizes v
      have hmem := List.mem_of_getElem? hn
      cases hk : n.kind with
      | other ip key =>
        obtain ⟨j, q, rfl, hq, hs, ht, ha⟩ := hI.other n hmem ip key hk
        have hty : (n.args.map fun v => (Q.rewritten N).types.getD v ⟨[], 0⟩) = q.args.map fun v => Q.types.getD v ⟨[], 0⟩ := by
          rw [← ha]
          exact List.map_congr_left fun v _ => rewritten_types Q N v
        have hins : (A.map (·.2)).map List.length = q.args.map fun v => (Q.types.getD v ⟨[], 0⟩).size := by
          have h1 := congrArg (List.map Ty.size) hty
          rw [List.map_map, List.map_map] at h1
          rw [show (q.args.map fun v => (Q.types.getD v ⟨[], 0⟩).size) = _ from h1.symm, hA, List.map_map, List.map_map]
          exact List.map_congr_left fun v _ => sizes_getD hsizes v
        have hm := asReference_within hR hQ he hr hq (A.map (·.2)) hins
        have hz : (q.args.map fun v => Q.types.getD v ⟨[], 0⟩).zip (A.map (·.2)) = A := by
          rw [← hty, hA, List.map_map]
          exact (map_pair (fun v => (Q.rewritten N).types.getD v ⟨[], 0⟩) (fun v => (E.map (·.2)).getD v []) n.args).symm
        rw [hz, ← hF] at hm
        rw [eval_opaque F ip _ _ _ hAs (by rw [ht]; exact hm.1)]
        have hc : carried N e i = e j := by
          unfold carried
          rw [hn]
          simp only [Option.map_some, hk]
          rw [show (2 * j + 1) / 2 = j by omega]
        rw [hc]
        exact within_congr (kindOf_other hq).symm ht.symm hm.2
      | elementwise k =>
        obtain ⟨k', rfl⟩ := hI.elem n hmem k hk
        show eval _ _ _ _ = eval _ _ _ _
        apply eval_elem
        intro x
        rw [hF, asReference_even, show 2 * k' / 2 = k' by omega]
      | _ =>
        exact eval_base _ _ _ _ _ rfl (fun e h => by cases h)
  · rw [← hinp]
    apply List.ext_getElem?
    intro i
    rw [List.getElem?_take]
    split
    · rename_i hi
      rw [← hI.inputs] at hi
      have e1 := evalNodes_old F N.nodes (N.inputs.zip inputs) i (by rw [z3]; exact hi)
      rw [← hE] at e1
      have e2 : i < E.length := by omega
      simp only [List.getD_eq_getElem?_getD, List.getElem?_eq_getElem e2, List.getElem?_eq_getElem (show i < (N.inputs.zip inputs).length by omega), Option.getD_some] at e1
      rw [List.getElem?_map, List.getElem?_eq_getElem e2, e1, List.getElem?_eq_getElem (by rw [hlenI, ← hI.inputs]; exact hi)]
      simp
    · rename_i hi
      rw [List.getElem?_eq_none (by omega)]
  · have hr' := hres F inputs hin
    unfold Network.result at hr'
    rw [show evalNodes F Q.seen.nodes (Q.seen.inputs.zip inputs) = _ from heval, ← hE] at hr'
    have e1 : (N.outputs.map fun v => (E.getD v (⟨[], 0⟩, [])).2) = N.outputs.map fun v => (E.map (·.2)).getD v [] := by
      apply List.map_congr_left
      intro v _
      rw [hEd v]
    rw [e1] at hr'
    rw [hr']
    apply List.map_congr_left
    intro v hv'
    rw [hget v (hQ.outs v hv')]

/-- A run of the reference on a network gives one on the rewritten network, with the same inputs and outputs. -/
theorem reference_forward {R : Rt} {dom : MulArgs → Prop} (hR : R.OK dom) {Q : QNetwork} (hQ : Q.OK R dom) {N : Network}
    (h : Relation.ReflTransGen (Rw patterns) Q.seen N) {e : Nat → ℝ} (he : Q.Enough R e) {ref : List (List Byte)} (hr : Q.Reference R e ref) :
    ∃ ref', (Q.rewritten N).Reference R (carried N e) ref' ∧ ref'.take Q.inputs.length = ref.take Q.inputs.length ∧
      (N.outputs.map fun v => ref'.getD v []) = Q.outputs.map fun v => ref.getD v [] :=
  reference_kept hR hQ (inv_rewrites hQ h) (C95_rewrites_keep_network h (seen_ok hQ)).2.2.2 he hr

/-- The errors stay large enough. -/
theorem enough_kept {R : Rt} {Q : QNetwork} {N : Network} (hI : Inv Q N) {e : Nat → ℝ} (he : Q.Enough R e) : (Q.rewritten N).Enough R (carried N e) := by
  intro i n' hn'
  simp only [QNetwork.rewritten, List.getElem?_map] at hn'
  cases hn : N.nodes[i]? with
  | none => rw [hn] at hn'; cases hn'
  | some n =>
    rw [hn] at hn'
    simp only [Option.map_some, Option.some.injEq] at hn'
    subst hn'
    unfold carried
    rw [hn]
    simp only [Option.map_some]
    cases hk : n.kind with
    | other ip key =>
      obtain ⟨j, q, rfl, hq, hs, ht, ha⟩ := hI.other n (List.mem_of_getElem? hn) ip key hk
      simp only [show (2 * j + 1) / 2 = j by omega]
      have := he j q hq
      unfold QNode.refErr at this ⊢
      simp only [kindOf_other hq]
      exact this
    | _ => exact le_refl _

theorem enough_rewritten {R : Rt} {dom : MulArgs → Prop} {Q : QNetwork} (hQ : Q.OK R dom) {N : Network}
    (h : Relation.ReflTransGen (Rw patterns) Q.seen N) {e : Nat → ℝ} (he : Q.Enough R e) : (Q.rewritten N).Enough R (carried N e) :=
  enough_kept (inv_rewrites hQ h) he

end Verif.Net
