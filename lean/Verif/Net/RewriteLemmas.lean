import Verif.Net.Rewrite
import Verif.Net.QProps
import Verif.Transpose.Props
import Verif.TFL.Props
import Mathlib.Data.List.GetD
/-!
Lemmas for C95: renumbering, and the soundness of each pattern in its place.
-/
namespace Verif.Net
open Verif.Tensor Verif.Move Verif.MemPlan

abbrev dflF : Ty × Bool := (⟨[], 0⟩, false)

/-! ### Renumbering -/

/-- Operators behind the replaced one compute the same values from renumbered operands. -/
theorem sim_eval (sem : Sem) (f : Nat → Nat) (U : Nat → Prop) : ∀ (post : List Node) (old new : List (Ty × List Byte)),
    (∀ v, v < old.length → U v → new.getD (f v) dfl = old.getD v dfl) →
    (∀ v, v < old.length → U v → f v < new.length) →
    (∀ i, i < post.length → f (old.length + i) = new.length + i) →
    (∀ n ∈ post, ∀ v ∈ n.args, U v) →
    (∀ i (n : Node), post[i]? = some n → ∀ v ∈ n.args, v < old.length + i) →
    ∀ v, v < old.length + post.length → U v → (evalNodes sem (post.map (Node.rename f)) new).getD (f v) dfl = (evalNodes sem post old).getD v dfl
  | [], old, new, h1, _, _, _, _, v, hv, hu => h1 v (by simpa using hv) hu
  | n :: post, old, new, h1, h2, h3, h4, h5, v, hv, hu => by
    have h30 : f old.length = new.length := h3 0 (by simp)
    have harg : (n.rename f).args.map (fun v => new.getD v dfl) = n.args.map fun v => old.getD v dfl := by
      simp only [Node.rename, List.map_map]
      apply List.map_congr_left
      intro a ha
      exact h1 a (h5 0 n rfl a ha) (h4 n (by simp) a ha)
    simp only [List.map_cons, evalNodes]
    have e : (fun v => new.getD v ((⟨[], 0⟩ : Ty), ([] : List Byte))) = fun v => new.getD v dfl := rfl
    rw [e, harg]
    refine sim_eval sem f U post _ _ ?_ ?_ ?_ (fun n' hn' => h4 n' (by simp [hn'])) ?_ v (by simp at hv ⊢; omega) hu
    · intro w hw hwu
      rcases Nat.lt_or_ge w old.length with hlt | hge
      · rw [List.getD_append _ _ _ _ hlt, List.getD_append _ _ _ _ (h2 w hlt hwu)]
        exact h1 w hlt hwu
      · have : w = old.length := by simp at hw; omega
        subst this
        rw [h30]
        simp [Node.rename]
    · intro w hw hwu
      rcases Nat.lt_or_ge w old.length with hlt | hge
      · have := h2 w hlt hwu
        simp; omega
      · have : w = old.length := by simp at hw; omega
        subst this
        rw [h30]
        simp
    · intro i hi
      have := h3 (i + 1) (by simp; omega)
      simp only [List.length_append, List.length_cons, List.length_nil]
      rw [show old.length + (0 + 1) + i = old.length + (i + 1) by omega, this]
      omega
    · intro i n' hi a ha
      have := h5 (i + 1) n' (by simpa using hi) a ha
      simp only [List.length_append, List.length_cons, List.length_nil]
      omega

/-- Typing of operators behind the replaced one. -/
theorem sim_ok (f : Nat → Nat) (U : Nat → Prop) : ∀ (post : List Node) (old new : List (Ty × Bool)),
    (∀ v, v < old.length → U v → (new.getD (f v) dflF).1 = (old.getD v dflF).1 ∧ ((old.getD v dflF).2 = true → (new.getD (f v) dflF).2 = true)) →
    (∀ v, v < old.length → U v → f v < new.length) →
    (∀ i, i < post.length → f (old.length + i) = new.length + i) →
    (∀ n ∈ post, ∀ v ∈ n.args, U v) →
    NodesOK post old → NodesOK (post.map (Node.rename f)) new
  | [], _, _, _, _, _, _, _ => trivial
  | n :: post, old, new, h1, h2, h3, h4, h5 => by
    have h30 : f old.length = new.length := h3 0 (by simp)
    obtain ⟨hb, hk, hr⟩ := h5
    refine ⟨?_, ?_, ?_⟩
    · intro v hv
      simp only [Node.rename, List.mem_map] at hv
      obtain ⟨a, ha, rfl⟩ := hv
      exact h2 a (hb a ha) (h4 n (by simp) a ha)
    · refine kindOK_flags hk ?_ ?_
      · simp only [Node.rename, List.map_map]
        apply List.map_congr_left
        intro a ha
        exact (h1 a (hb a ha) (h4 n (by simp) a ha)).1
      · intro i a a' e1 e2 e3
        simp only [Node.rename, List.map_map, List.getElem?_map] at e1 e2
        cases hi : n.args[i]? with
        | none => rw [hi] at e1; cases e1
        | some w =>
          rw [hi] at e1 e2
          have e1 := Option.some.inj e1
          have e2 := Option.some.inj e2
          subst e1
          subst e2
          have hw := List.mem_of_getElem? hi
          exact (h1 w (hb w hw) (h4 n (by simp) w hw)).2 e3
    · refine sim_ok f U post _ _ ?_ ?_ ?_ (fun n' hn' => h4 n' (by simp [hn'])) hr
      · intro w hw hwu
        rcases Nat.lt_or_ge w old.length with hlt | hge
        · rw [List.getD_append _ _ _ _ hlt, List.getD_append _ _ _ _ (h2 w hlt hwu)]
          exact h1 w hlt hwu
        · have : w = old.length := by simp at hw; omega
          subst this
          rw [h30]
          simp [Node.rename]
      · intro w hw hwu
        rcases Nat.lt_or_ge w old.length with hlt | hge
        · have := h2 w hlt hwu
          simp; omega
        · have : w = old.length := by simp at hw; omega
          subst this
          rw [h30]
          simp
      · intro i hi
        have := h3 (i + 1) (by simp; omega)
        simp only [List.length_append, List.length_cons, List.length_nil]
        rw [show old.length + (0 + 1) + i = old.length + (i + 1) by omega, this]
        omega

theorem nodesOK_bound : ∀ (l : List Node) (vs : List (Ty × Bool)), NodesOK l vs → ∀ i (n : Node), l[i]? = some n → ∀ v ∈ n.args, v < vs.length + i
  | n :: l, vs, h, 0, n', hn, v, hv => by
    simp only [List.getElem?_cons_zero, Option.some.injEq] at hn
    subst hn
    exact h.1 v hv
  | n :: l, vs, h, i + 1, n', hn, v, hv => by
    have := nodesOK_bound l _ h.2.2 i n' (by simpa using hn) v hv
    simp at this
    omega

/-! ### Values of a well-typed network -/

variable {sem : Sem} {iv : List (Ty × List Byte)}

/-- The value of an operator, from the values of its operands. -/
theorem node_value {e : Exp} (hg : EGood iv e) {i : Nat} {d : Node} (hd : e.nodes[i]? = some d) :
    (∀ a ∈ d.args, a < e.n0 + i) ∧ d.kind.OK (d.args.map fun v => (e.ctx iv).getD v dflF) d.ty ∧
    (evalNodes sem e.nodes iv).getD (e.n0 + i) dfl = (d.ty, eval sem d.kind d.ty (d.args.map fun v => (evalNodes sem e.nodes iv).getD v dfl)) := by
  have hi : i < e.nodes.length := by
    rcases Nat.lt_or_ge i e.nodes.length with h | h
    · exact h
    · rw [List.getElem?_eq_none h] at hd; cases hd
  have hsplit : e.nodes = e.nodes.take i ++ d :: e.nodes.drop (i + 1) := by
    rw [List.getElem?_eq_getElem hi] at hd
    rw [← Option.some.inj hd, ← List.drop_eq_getElem_cons hi, List.take_append_drop]
  obtain ⟨l1, h1⟩ : ∃ l1, l1 = e.nodes.take i := ⟨_, rfl⟩
  obtain ⟨l2, h2⟩ : ∃ l2, l2 = e.nodes.drop (i + 1) := ⟨_, rfl⟩
  have hl1 : l1.length = i := by rw [h1]; simp; omega
  rw [← h1, ← h2] at hsplit
  have hok := hg.ok
  rw [hsplit, nodesOK_append] at hok
  obtain ⟨ok1, hb, hk, -⟩ := hok
  have hn0 := hg.n0
  have hb' : ∀ a ∈ d.args, a < e.n0 + i := by
    intro a ha
    have := hb a ha
    simp only [List.length_append, List.length_map] at this
    omega
  refine ⟨hb', ?_, ?_⟩
  · have e1 : (d.args.map fun v => (e.ctx iv).getD v dflF) =
        d.args.map fun v => (iv.map (fun x => (x.1, false)) ++ l1.map fun n => (n.ty, n.kind.isConst)).getD v dflF := by
      apply List.map_congr_left
      intro a ha
      unfold Exp.ctx
      rw [hsplit, List.map_append, ← List.append_assoc, List.getD_append _ _ _ _ (hb a ha)]
    rw [e1]
    exact hk
  · rw [hsplit, evalNodes_append]
    simp only [evalNodes]
    have hlen : (evalNodes sem l1 iv).length = e.n0 + i := by rw [length_evalNodes, hn0, hl1]
    have e1 : (d.args.map fun v => (evalNodes sem l2 (evalNodes sem l1 iv ++
          [(d.ty, eval sem d.kind d.ty (d.args.map fun v => (evalNodes sem l1 iv).getD v dfl))])).getD v dfl) =
        d.args.map fun v => (evalNodes sem l1 iv).getD v dfl := by
      apply List.map_congr_left
      intro a ha
      have := hb' a ha
      rw [evalNodes_old _ _ _ _ (by rw [List.length_append, hlen]; omega), List.getD_append _ _ _ _ (by rw [hlen]; exact this)]
    rw [e1, evalNodes_old _ _ _ _ (by rw [List.length_append, hlen]; simp), ← hlen]
    simp

theorem ctx_types {e : Exp} (_hg : EGood iv e) (sem : Sem) : (e.ctx iv).map (·.1) = (evalNodes sem e.nodes iv).map (·.1) := by
  rw [evalNodes_types]
  unfold Exp.ctx
  simp [List.map_map, Function.comp_def]

theorem ctx_type {e : Exp} (hg : EGood iv e) (sem : Sem) (v : Nat) : ((e.ctx iv).getD v dflF).1 = ((evalNodes sem e.nodes iv).getD v dfl).1 := by
  have h := congrArg (fun l => l[v]?) (ctx_types hg sem)
  simp only [List.getElem?_map] at h
  simp only [List.getD_eq_getElem?_getD]
  cases h1 : (e.ctx iv)[v]? <;> cases h2 : (evalNodes sem e.nodes iv)[v]? <;> rw [h1, h2] at h <;> simp_all

theorem tyOf_ctx {e : Exp} (v : Nat) : ((e.ctx iv).getD v dflF).1 = tyOf (iv.map (·.1)) e.nodes v := by
  unfold tyOf Exp.ctx
  have : (iv.map (·.1) ++ e.nodes.map (·.ty)) = (iv.map (fun x => (x.1, false)) ++ e.nodes.map fun n => (n.ty, n.kind.isConst)).map (·.1) := by
    simp [List.map_map, Function.comp_def]
  rw [this]
  simp only [List.getD_eq_getElem?_getD, List.getElem?_map]
  cases (iv.map (fun x => (x.1, false)) ++ e.nodes.map fun n => (n.ty, n.kind.isConst))[v]? <;> rfl

/-- Every value has its type and the right number of bytes. -/
theorem holds_value {e : Exp} (hg : EGood iv e) (hiv : ∀ x ∈ iv, x.2.length = x.1.size) {v : Nat} (hv : v < e.n0 + e.nodes.length) :
    EHolds sem iv e v (tyOf (iv.map (·.1)) e.nodes v) ((evalNodes sem e.nodes iv).getD v dfl).2 := by
  have hty : ((evalNodes sem e.nodes iv).getD v dfl).1 = tyOf (iv.map (·.1)) e.nodes v := by rw [← ctx_type hg, tyOf_ctx]
  refine ⟨hv, by rw [← hty], ?_⟩
  rw [← hty]
  rcases Nat.lt_or_ge v e.n0 with h | h
  · rw [evalNodes_old _ _ _ _ (by rw [hg.n0]; exact h), List.getD_eq_getElem?_getD, List.getElem?_eq_getElem (by rw [hg.n0]; exact h)]
    exact hiv _ (List.getElem_mem _)
  · obtain ⟨i, rfl⟩ : ∃ i, v = e.n0 + i := ⟨v - e.n0, by omega⟩
    obtain ⟨-, hk, hval⟩ := node_value (sem := sem) hg (List.getElem?_eq_getElem (show i < e.nodes.length by omega))
    rw [hval]
    refine length_eval (sem := sem) _ _ _ _ hk ?_
    rw [List.map_map, List.map_map]
    apply List.map_congr_left
    intro a _
    exact ctx_type hg sem a

/-- What a pattern must guarantee where it applies. -/
def Pattern.Sound (P : Pattern) : Prop :=
  ∀ (sem : Sem) (iv : List (Ty × List Byte)) (pre : List Node) (n : Node) (ns : List Node) (r : Nat),
    (∀ x ∈ iv, x.2.length = x.1.size) → EGood iv ⟨iv.length, pre ++ [n]⟩ → P (iv.map (·.1)) pre n = some (ns, r) →
    n.kind.isConst = false ∧
    EStep sem iv ⟨iv.length, pre⟩ (⟨iv.length, pre ++ ns⟩, r) n.ty (eval sem n.kind n.ty (n.args.map fun v => (evalNodes sem pre iv).getD v dfl))

/-- The same, where the unknown operators have a meaning in `C`. -/
def Pattern.SoundFor (C : Sem → Prop) (P : Pattern) : Prop :=
  ∀ (sem : Sem) (iv : List (Ty × List Byte)) (pre : List Node) (n : Node) (ns : List Node) (r : Nat), C sem →
    (∀ x ∈ iv, x.2.length = x.1.size) → EGood iv ⟨iv.length, pre ++ [n]⟩ → P (iv.map (·.1)) pre n = some (ns, r) →
    n.kind.isConst = false ∧
    EStep sem iv ⟨iv.length, pre⟩ (⟨iv.length, pre ++ ns⟩, r) n.ty (eval sem n.kind n.ty (n.args.map fun v => (evalNodes sem pre iv).getD v dfl))

theorem Pattern.Sound.soundFor {P : Pattern} (h : P.Sound) (C : Sem → Prop) : P.SoundFor C := fun sem iv pre n ns r _ => h sem iv pre n ns r

theorem renum_lt {m k r v t : Nat} (hr : r < m + k) (hv : v < m + 1 + t) : renum m k r v < m + k + t := by
  unfold renum
  split
  · omega
  · split <;> omega

theorem good_prefix {n0 : Nat} {l1 l2 : List Node} (h : EGood iv ⟨n0, l1 ++ l2⟩) : EGood iv ⟨n0, l1⟩ := by
  obtain ⟨h1, h2⟩ := h
  exact ⟨h1, ((nodesOK_append _ _ _).1 h2).1⟩

/-- Replacing an operator by others that give the same value. -/
theorem splice_specC (C : Sem → Prop) {inputs : List Ty} {pre : List Node} {n : Node} {post : List Node} {outs : List Nat} {ns : List Node} {r : Nat}
    (hN : (Network.mk inputs (pre ++ n :: post) outs).OK) (U : Nat → Prop)
    (hU : ∀ n' ∈ post, ∀ v ∈ n'.args, U v) (hUo : ∀ v ∈ outs, U v)
    (hok : NodesOK (pre ++ ns) (inputs.map fun t => (t, false)))
    (hr : U (inputs.length + pre.length) → r < inputs.length + pre.length + ns.length ∧ n.kind.isConst = false ∧ tyOf inputs (pre ++ ns) r = n.ty ∧
      ∀ (sem : Sem) (ins : List (List Byte)), C sem → ins.map List.length = inputs.map Ty.size →
        (evalNodes sem (pre ++ ns) (inputs.zip ins)).getD r dfl = (n.ty, eval sem n.kind n.ty (n.args.map fun v => (evalNodes sem pre (inputs.zip ins)).getD v dfl))) :
    (splice inputs pre ns post outs r).OK ∧
    ∀ (sem : Sem) (ins : List (List Byte)), C sem → ins.map List.length = inputs.map Ty.size →
      (splice inputs pre ns post outs r).result sem ins = (Network.mk inputs (pre ++ n :: post) outs).result sem ins := by
  obtain ⟨hnodes, houts⟩ := hN
  simp only at hnodes houts
  obtain ⟨m, hm⟩ : ∃ m, m = inputs.length + pre.length := ⟨_, rfl⟩
  rw [← hm] at hr
  have hflt : ∀ v t, v < m + 1 + t → U v → renum m ns.length r v < m + ns.length + t := by
    intro v t hv hu
    by_cases e : v = m
    · subst e
      have := (hr hu).1
      unfold renum
      simp only [Nat.lt_irrefl, if_false, if_true]
      omega
    · unfold renum
      rw [if_neg e]
      split <;> omega
  have hf3 : ∀ i, renum m ns.length r (m + 1 + i) = m + ns.length + i := by
    intro i
    unfold renum
    rw [if_neg (by omega), if_neg (by omega)]
    omega
  have hsp := hnodes
  rw [nodesOK_append] at hsp
  obtain ⟨okpre, hnb, hnk, okpost⟩ := hsp
  have hctxlen : ((inputs.map fun t => (t, false)) ++ pre.map fun n => (n.ty, n.kind.isConst)).length = m := by
    rw [hm]; simp
  refine ⟨⟨?_, ?_⟩, ?_⟩
  · simp only [splice]
    rw [nodesOK_append]
    refine ⟨hok, ?_⟩
    rw [← hm]
    refine sim_ok _ U post _ _ ?_ ?_ ?_ hU okpost
    · intro v hv hu
      rw [List.length_append, hctxlen] at hv
      rw [List.map_append, ← List.append_assoc]
      by_cases e : v = m
      · subst e
        obtain ⟨h1, h2, h3, -⟩ := hr hu
        have e2 : renum v ns.length r v = r := by unfold renum; simp
        have e3 : ((inputs.map fun t => (t, false)) ++ pre.map (fun n => (n.ty, n.kind.isConst)) ++ [(n.ty, n.kind.isConst)]).getD v dflF = (n.ty, n.kind.isConst) := by
          rw [← hctxlen]; simp
        rw [e2, e3]
        refine ⟨?_, fun h => by rw [h2] at h; cases h⟩
        rw [← h3]
        unfold tyOf
        have : inputs ++ (pre ++ ns).map (·.ty) = ((inputs.map fun t => (t, false)) ++ pre.map (fun n => (n.ty, n.kind.isConst)) ++
            ns.map fun n => (n.ty, n.kind.isConst)).map (·.1) := by simp [List.map_map, Function.comp_def]
        rw [this]
        simp only [List.getD_eq_getElem?_getD, List.getElem?_map]
        cases ((inputs.map fun t => (t, false)) ++ pre.map (fun n => (n.ty, n.kind.isConst)) ++ ns.map fun n => (n.ty, n.kind.isConst))[r]? <;> rfl
      · have hlt : v < m := by simp at hv; omega
        have e2 : renum m ns.length r v = v := by unfold renum; simp [hlt]
        have e4 : ∀ l : List (Ty × Bool), ((inputs.map fun t => (t, false)) ++ pre.map (fun n => (n.ty, n.kind.isConst)) ++ l).getD v dflF =
            ((inputs.map fun t => (t, false)) ++ pre.map (fun n => (n.ty, n.kind.isConst))).getD v dflF :=
          fun l => List.getD_append _ _ _ _ (by rw [hctxlen]; exact hlt)
        rw [e2, e4, e4]
        exact ⟨rfl, id⟩
    · intro v hv hu
      rw [List.length_append, hctxlen] at hv
      have := hflt v 0 (by simpa using hv) hu
      simp only [List.length_append, List.length_map, List.map_append] at hctxlen ⊢
      omega
    · intro i _
      rw [List.length_append, hctxlen]
      have := hf3 i
      simp only [List.length_cons, List.length_nil]
      rw [this]
      simp only [List.length_append, List.length_map, List.map_append] at hctxlen ⊢
      omega
  · intro v hv
    simp only [splice, List.mem_map] at hv ⊢
    obtain ⟨a, ha, rfl⟩ := hv
    have h1 := houts a ha
    simp only [List.length_append, List.length_cons] at h1
    have := hflt a post.length (by omega) (hUo a ha)
    simp only [List.length_append, List.length_map]
    rw [← hm]
    omega
  · intro sem ins hC hins
    have hzl : (inputs.zip ins).length = inputs.length := by
      have := congrArg List.length hins
      simp at this
      simp [this]
    unfold Network.result
    simp only [splice, List.map_map]
    apply List.map_congr_left
    intro a ha
    simp only [Function.comp_def]
    rw [← hm]
    have hl : (evalNodes sem pre (inputs.zip ins)).length = m := by rw [length_evalNodes, hzl, hm]
    have hl2 : (evalNodes sem (pre ++ ns) (inputs.zip ins)).length = m + ns.length := by rw [length_evalNodes, hzl, hm]; simp; omega
    have h1 := houts a ha
    simp only [List.length_append, List.length_cons] at h1
    rw [evalNodes_append sem (pre ++ ns), evalNodes_append sem pre (n :: post)]
    simp only [evalNodes]
    rw [sim_eval sem (renum m ns.length r) U post _ _ ?_ ?_ ?_ hU ?_ a ?_ (hUo a ha)]
    · intro v hv hu
      rw [List.length_append, hl] at hv
      by_cases e : v = m
      · subst e
        obtain ⟨h1, h2, h3, h4⟩ := hr hu
        have e2 : renum v ns.length r v = r := by unfold renum; simp
        rw [e2, h4 sem ins hC hins, ← hl]
        simp
      · have hlt : v < m := by simp at hv; omega
        have e2 : renum m ns.length r v = v := by unfold renum; simp [hlt]
        rw [e2, List.getD_append _ _ _ _ (by rw [hl]; exact hlt), evalNodes_append, evalNodes_old _ _ _ _ (by rw [hl]; exact hlt)]
    · intro v hv hu
      rw [List.length_append, hl] at hv
      rw [hl2]
      have := hflt v 0 (by simpa using hv) hu
      omega
    · intro i _
      rw [List.length_append, hl, hl2]
      exact hf3 i
    · intro i n' hi v hv
      have := nodesOK_bound _ _ okpost i n' hi v hv
      rw [List.length_append, hctxlen] at this
      rw [List.length_append, hl]
      exact this
    · rw [List.length_append, hl]
      simp only [List.length_cons, List.length_nil]
      omega

theorem splice_spec {inputs : List Ty} {pre : List Node} {n : Node} {post : List Node} {outs : List Nat} {ns : List Node} {r : Nat}
    (hN : (Network.mk inputs (pre ++ n :: post) outs).OK) (U : Nat → Prop)
    (hU : ∀ n' ∈ post, ∀ v ∈ n'.args, U v) (hUo : ∀ v ∈ outs, U v)
    (hok : NodesOK (pre ++ ns) (inputs.map fun t => (t, false)))
    (hr : U (inputs.length + pre.length) → r < inputs.length + pre.length + ns.length ∧ n.kind.isConst = false ∧ tyOf inputs (pre ++ ns) r = n.ty ∧
      ∀ (sem : Sem) (ins : List (List Byte)), ins.map List.length = inputs.map Ty.size →
        (evalNodes sem (pre ++ ns) (inputs.zip ins)).getD r dfl = (n.ty, eval sem n.kind n.ty (n.args.map fun v => (evalNodes sem pre (inputs.zip ins)).getD v dfl))) :
    (splice inputs pre ns post outs r).OK ∧
    ∀ (sem : Sem) (ins : List (List Byte)), ins.map List.length = inputs.map Ty.size →
      (splice inputs pre ns post outs r).result sem ins = (Network.mk inputs (pre ++ n :: post) outs).result sem ins := by
  have h := splice_specC (fun _ => True) hN U hU hUo hok fun u => ⟨(hr u).1, (hr u).2.1, (hr u).2.2.1, fun sem ins _ => (hr u).2.2.2 sem ins⟩
  exact ⟨h.1, fun sem ins => h.2 sem ins trivial⟩

end Verif.Net
