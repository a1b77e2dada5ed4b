import Verif.Net.FuseLemmas
/-! C107: rewriting of compiled functions preserves what they compute. -/
namespace Verif.Net
open Verif.Tensor Verif.Move Verif.MemPlan Verif.MemPlan.Conc

/-- What a rewrite keeps. -/
structure Keeps (F G : DFun) : Prop where
  ok : G.OK
  inputs : G.inputs = F.inputs
  result : ∀ (sem : Sem) (ins : List (List Byte)), ins.map List.length = F.inputs.map Ty.size → G.result sem ins = F.result sem ins

theorem env0_length (inputs : List Ty) : (env0 inputs).length = inputs.length := List.length_map _

theorem env0_sizes {inputs : List Ty} {ins : List (List Byte)} (h : ins.map List.length = inputs.map Ty.size) :
    ins.map List.length = (env0 inputs).map (·.2) := by
  rw [h]; simp [env0]

theorem mapArgs_id (l : List DOp) : l.map (DOp.mapArgs fun u => u) = l := by
  conv_rhs => rw [← List.map_id l]
  apply List.map_congr_left
  intro d _
  show (⟨d.kind, d.args.map (fun u => u), d.ty⟩ : DOp) = d
  rw [List.map_id']

theorem split_ops {inputs : List Ty} {pre l : List DOp} {outs : List Nat} (h : (⟨inputs, pre ++ l, outs⟩ : DFun).OK) :
    OpsOK pre (env0 inputs) ∧ OpsOK l (env0 inputs ++ pre.map DOp.info) := (OpsOK_append _ _ _).1 h.ops

/-- An operator is replaced by one with the same value. -/
theorem replace_keeps {inputs : List Ty} {pre post : List DOp} {outs : List Nat} {d d' : DOp} (h : (⟨inputs, pre ++ d :: post, outs⟩ : DFun).OK)
    (hok : OpOK (env0 inputs ++ pre.map DOp.info) d') (hsz : d'.ty.size = d.ty.size) (hc : d.kind.isConst = true → d'.kind.isConst = true)
    (hv : ∀ (sem : Sem) (vs : List (List Byte)), vs.map List.length = (env0 inputs ++ pre.map DOp.info).map (·.2) →
      (∀ (i : Nat) (p : DOp), pre[i]? = some p → vs.getD (inputs.length + i) [] = fit p.ty.size (p.kind.run sem p.ty (p.args.map fun a => vs.getD a []))) →
      fit d'.ty.size (d'.kind.run sem d'.ty (d'.args.map fun a => vs.getD a [])) = fit d.ty.size (d.kind.run sem d.ty (d.args.map fun a => vs.getD a []))) :
    Keeps ⟨inputs, pre ++ d :: post, outs⟩ ⟨inputs, pre ++ d' :: post, outs⟩ := by
  have h1 := split_ops h
  refine ⟨⟨?_, ?_⟩, rfl, ?_⟩
  · show OpsOK _ (env0 inputs)
    refine (OpsOK_append _ _ _).2 ⟨h1.1, hok, ?_⟩
    rw [← mapArgs_id post]
    refine OpsOK.map (U := fun _ => True) ?_ (by intro i; simp) (by simp) h1.2.2
    intro u hu _
    simp only [List.length_append, List.length_cons, List.length_nil] at hu ⊢
    refine ⟨by simpa using hu, ?_⟩
    by_cases hlt : u < (env0 inputs ++ pre.map DOp.info).length
    · rw [szOf_old _ hlt, szOf_old _ hlt, cstOf_old _ hlt, cstOf_old _ hlt]
      exact ⟨rfl, id⟩
    · have : u = (env0 inputs ++ pre.map DOp.info).length := by simp only [List.length_append] at hlt ⊢; omega
      rw [this, szOf_last, szOf_last, cstOf_last, cstOf_last]
      exact ⟨hsz, hc⟩
  · intro v hv
    have := h.outs v hv
    simpa using this
  · intro sem ins hin
    unfold DFun.result
    apply List.map_congr_left
    intro v _
    congr 1
    simp only [runOps_append, runOps]
    congr 1
    have hl : (runOps sem pre ins).map List.length = _ := runOps_sizes sem pre (env0 inputs) ins (env0_sizes hin)
    rw [hv sem _ hl]
    intro i p hp
    have hn : ins.length = inputs.length := by simpa using congrArg List.length hin
    rw [← hn]
    apply runOps_value sem pre ins hp
    intro a ha
    have := (h1.1.get hp).bound a ha
    have hlt : i < pre.length := (List.getElem?_eq_some_iff.1 hp).1
    rw [hn]
    simp only [List.length_append, env0_length, List.length_map, List.length_take] at this
    omega

/-- What an operator before reads is known after it, too. -/
theorem OpsOK.get' {ds : List DOp} {env : List (Bool × Nat)} (h : OpsOK ds env) {i : Nat} {d : DOp} (hd : ds[i]? = some d) :
    OpOK (env ++ ds.map DOp.info) d := by
  have h1 := h.get hd
  have he : env ++ ds.map DOp.info = (env ++ (ds.take i).map DOp.info) ++ (ds.drop i).map DOp.info := by
    rw [List.append_assoc, ← List.map_append, List.take_append_drop]
  rw [he]
  refine ⟨?_, h1.const, h1.typed.mono _ h1.bound⟩
  intro a ha
  have := h1.bound a ha
  rw [List.length_append]
  omega

/-- The size of the result of an operator before. -/
theorem size_op {inputs : List Ty} {pre : List DOp} {v : Nat} {p : DOp} (hv : inputs.length ≤ v) (hp : pre[v - inputs.length]? = some p) :
    szOf (env0 inputs ++ pre.map DOp.info) v = p.ty.size := by
  unfold szOf
  rw [List.getD_eq_getElem?_getD, List.getElem?_append_right (by rw [env0_length]; exact hv), env0_length, List.getElem?_map, hp]
  rfl

theorem size_ty {inputs : List Ty} {pre : List DOp} {v : Nat} : szOf (env0 inputs ++ pre.map DOp.info) v = (DFun.tyOf inputs pre v).size := by
  unfold szOf DFun.tyOf
  rw [List.getD_eq_getElem?_getD, List.getD_eq_getElem?_getD]
  have : (env0 inputs ++ pre.map DOp.info)[v]?.map (·.2) = ((inputs ++ pre.map (·.ty))[v]?).map Ty.size := by
    rw [← List.getElem?_map, ← List.getElem?_map]
    simp [env0, Function.comp_def, DOp.info]
  cases h1 : (env0 inputs ++ pre.map DOp.info)[v]? <;> cases h2 : (inputs ++ pre.map (·.ty))[v]? <;> simp_all [Ty.size]

theorem lt_pre {inputs : List Ty} {pre : List DOp} {v : Nat} {p : DOp} (hv : inputs.length ≤ v) (hp : pre[v - inputs.length]? = some p) :
    v < (env0 inputs ++ pre.map DOp.info).length := by
  have := (List.getElem?_eq_some_iff.1 hp).1
  simp only [List.length_append, env0_length, List.length_map]
  omega

theorem eval_folds {k : Kind} (h : k.folds = true) (sem sem' : Sem) (ty : Ty) (args : List (Ty × List Byte)) : eval sem k ty args = eval sem' k ty args := by
  cases k <;> first | rfl | cases h

theorem swapped_lt {p u n : Nat} (h : u < n) (hp : p + 1 < n) : swapped p u < n := by
  unfold swapped; split
  · omega
  · split <;> omega

/-- Rewrites keep the results. -/
theorem rw_keeps {conv : Nat → Prop} {F G : DFun} (h : DRw conv F G) (hF : F.OK) : Keeps F G := by
  cases h with
  | @fuseIn inputs pre post outs k t ts v as ty t' a rt hk hv hp =>
    have h1 := split_ops hF
    obtain ⟨x, y, e1, e2, e3, e4⟩ := (h1.1.get' hp).typed
    have hb := (h1.1.get' hp).bound
    simp only [List.cons.injEq, and_true] at e1 e2
    subst e1; subst e2
    have hc := h1.2.1
    have hct := hc.typed.1
    simp only [List.map_cons, List.cons.injEq] at hct
    have hsv := size_op hv hp
    refine replace_keeps hF ⟨?_, (by intro h; cases h), ?_⟩ rfl id ?_
    · intro b hb'
      rcases List.mem_cons.1 hb' with rfl | hb'
      · exact hb b (by simp)
      · exact hc.bound b (List.mem_cons_of_mem _ hb')
    · refine ⟨?_, (by intro h; cases h)⟩
      simp only [List.map_cons, List.cons.injEq]
      exact ⟨e3, hct.2⟩
    · intro sem vs hl hvs
      have hl2 : ts.map Ty.size = (as.map fun a => vs.getD a []).map List.length := by
        rw [hct.2, List.map_map]
        exact List.map_congr_left fun a _ => (size_at hl a).symm
      have hrs : vs.getD v [] = vs.getD a [] := by
        have := hvs _ _ hp
        rw [Nat.add_sub_cancel' hv] at this
        rw [this]
        exact reshape_run ((size_at hl a).trans e3.symm) e4
      show fit ty.size (DKind.run sem (.tfl (.other false k) (t' :: ts)) ty (vs.getD a [] :: as.map fun a => vs.getD a [])) =
        fit ty.size (DKind.run sem (.tfl (.other false k) (t :: ts)) ty (vs.getD v [] :: as.map fun a => vs.getD a []))
      rw [other_run, other_run, hrs]
      · simp only [List.map_cons, List.cons.injEq]
        exact ⟨by rw [size_at hl]; exact hct.1, hl2⟩
      · simp only [List.map_cons, List.cons.injEq]
        exact ⟨by rw [size_at hl]; exact e3, hl2⟩
  | @fuseOut inputs pre post outs k ts as t v ty ct hk hv hp =>
    have h1 := split_ops hF
    have hc := h1.1.get' hp
    have hct := hc.typed.1
    obtain ⟨x, y, e1, e2, e3, e4⟩ := h1.2.1.typed
    simp only [List.cons.injEq, and_true] at e1 e2
    subst e1; subst e2
    have hsv := size_op hv hp
    refine replace_keeps hF ⟨hc.bound, (by intro h; cases h), hct, (by intro h; cases h)⟩ rfl id ?_
    intro sem vs hl hvs
    have hl2 : ts.map Ty.size = (as.map fun a => vs.getD a []).map List.length := by
      rw [hct, List.map_map]
      exact List.map_congr_left fun a _ => (size_at hl a).symm
    have hrs := hvs _ _ hp
    rw [Nat.add_sub_cancel' hv] at hrs
    show fit ty.size (DKind.run sem (.tfl (.other false k) ts) ty (as.map fun a => vs.getD a [])) =
      fit ty.size (DKind.run sem (.tfl .reshape [t]) ty [vs.getD v []])
    rw [reshape_run ((size_at hl v).trans e3.symm) e4, hrs, other_run hl2]
    have hcs : ct.size = ty.size := by rw [← e4, e3, hsv]
    rw [← hcs]
    exact (other_run hl2).symm
  | @combine inputs pre post outs t t' v a ty rt hv hp =>
    have h1 := split_ops hF
    obtain ⟨x, y, e1, e2, e3, e4⟩ := (h1.1.get' hp).typed
    have hb := (h1.1.get' hp).bound
    simp only [List.cons.injEq, and_true] at e1 e2
    subst e1; subst e2
    obtain ⟨x, y, f1, f2, f3, f4⟩ := h1.2.1.typed
    simp only [List.cons.injEq, and_true] at f1 f2
    subst f1; subst f2
    have hsv := size_op hv hp
    have hty : t'.size = ty.size := by
      rw [← f4, f3, hsv]; exact e4
    refine replace_keeps hF ⟨hb, (by intro h; cases h), a, t', rfl, rfl, e3, hty⟩ rfl id ?_
    intro sem vs hl hvs
    have hrs : vs.getD v [] = vs.getD a [] := by
      have := hvs _ _ hp
      rw [Nat.add_sub_cancel' hv] at this
      rw [this]
      exact reshape_run ((size_at hl a).trans e3.symm) e4
    show fit ty.size (DKind.run sem (.tfl .reshape [t']) ty [vs.getD a []]) = fit ty.size (DKind.run sem (.tfl .reshape [t]) ty [vs.getD v []])
    rw [reshape_run ((size_at hl v).trans f3.symm) f4, reshape_run ((size_at hl a).trans e3.symm) hty, hrs]
  | @same inputs pre post outs t a ty hty huse =>
    have h1 := split_ops hF
    obtain ⟨x, y, e1, e2, e3, e4⟩ := h1.2.1.typed
    have hb := h1.2.1.bound
    simp only [List.cons.injEq, and_true] at e1 e2
    subst e1; subst e2
    have ha := hb a (by simp)
    have hlen : (env0 inputs ++ pre.map DOp.info).length = inputs.length + pre.length := by simp [env0]
    have hred : ∀ u, u < inputs.length + pre.length → redirect (inputs.length + pre.length) a u = u := by
      intro u hu; unfold redirect; rw [if_neg (by omega)]
    have hredv : redirect (inputs.length + pre.length) a (inputs.length + pre.length) = a := by unfold redirect; rw [if_pos rfl]
    have hred' : ∀ u, inputs.length + pre.length < u → redirect (inputs.length + pre.length) a u = u := by
      intro u hu; unfold redirect; rw [if_neg (by omega)]
    refine ⟨⟨?_, ?_⟩, rfl, ?_⟩
    · show OpsOK _ (env0 inputs)
      refine (OpsOK_append _ _ _).2 ⟨h1.1, h1.2.1, ?_⟩
      refine OpsOK.map (U := fun _ => True) ?_ ?_ (by simp) h1.2.2
      · intro u hu _
        rw [List.length_append, List.length_singleton] at hu ⊢
        by_cases hlt : u < (env0 inputs ++ pre.map DOp.info).length
        · rw [hred u (by omega)]
          exact ⟨by omega, rfl, id⟩
        · have : u = inputs.length + pre.length := by omega
          rw [this, hredv]
          refine ⟨by rw [hlen] at ha ⊢; omega, ?_, ?_⟩
          · rw [szOf_old _ ha, ← hlen, szOf_last, ← e3]; exact e4
          · rw [← hlen, cstOf_last]; intro h; cases h
      · intro i
        apply hred'
        rw [List.length_append, hlen, List.length_singleton]; omega
    · intro v hv
      obtain ⟨u, hu, rfl⟩ := List.mem_map.1 hv
      have := hF.outs u hu
      simp only [List.length_append, List.length_cons, List.length_map] at this ⊢
      unfold redirect
      split
      · rw [hlen] at ha; omega
      · exact this
    · intro sem ins hin
      have hn : ins.length = inputs.length := by simpa using congrArg List.length hin
      have hl : (runOps sem pre ins).map List.length = _ := runOps_sizes sem pre (env0 inputs) ins (env0_sizes hin)
      have hll : (runOps sem pre ins).length = inputs.length + pre.length := by rw [length_runOps, hn]
      unfold DFun.result
      simp only [List.map_map]
      apply List.map_congr_left
      intro v hv
      simp only [Function.comp, runOps_append, runOps]
      have hrs : fit ty.size (DKind.run sem (.tfl .reshape [t]) ty (List.map (fun a => (runOps sem pre ins).getD a []) [a])) = (runOps sem pre ins).getD a [] :=
        reshape_run ((size_at hl a).trans e3.symm) e4
      rw [hrs]
      have hlv := hF.outs v hv
      simp only [List.length_append, List.length_cons] at hlv
      refine (runOps_map sem (U := fun _ => True) (env := env0 inputs ++ pre.map DOp.info ++ [(⟨.tfl .reshape [t], [a], ty⟩ : DOp).info]) ?_ h1.2.2 ?_ ?_ (by simp) v ?_ trivial).2
      · rw [List.length_append, hlen, List.length_append, hll]; rfl
      · intro u hu _
        rw [List.length_append, List.length_singleton, hll] at hu ⊢
        by_cases hlt : u < inputs.length + pre.length
        · rw [hred u hlt]
          exact ⟨by omega, rfl⟩
        · have : u = inputs.length + pre.length := by omega
          rw [this, hredv]
          rw [hlen] at ha
          refine ⟨by omega, ?_⟩
          rw [List.getD_eq_getElem?_getD, List.getElem?_append_left (by omega), List.getD_eq_getElem?_getD, List.getD_eq_getElem?_getD,
            List.getElem?_append_right (by omega), hll]
          simp
      · intro i
        apply hred'
        rw [List.length_append, hll, List.length_singleton]; omega
      · rw [List.length_append, hll, List.length_singleton]; omega
  | @fold inputs pre post outs k tys as ty data hk hcs =>
    refine replace_keeps hF ⟨by simp, by simp, trivial⟩ rfl (by intro h; cases h) ?_
    intro sem vs hl hvs
    have hd : (as.map fun a => vs.getD a []) = data := by
      clear hF
      induction hcs with
      | nil => rfl
      | @cons a x as data ha hr ih =>
        obtain ⟨h1, dd, args, t, h2, rfl⟩ := ha
        have := hvs _ _ h2
        rw [Nat.add_sub_cancel' h1] at this
        rw [List.map_cons, ih, this]
        rfl
    show fit ty.size (eval (fun _ _ => []) k ty (tys.zip data)) = fit ty.size (eval sem k ty (tys.zip (as.map fun a => vs.getD a [])))
    rw [hd, eval_folds hk _ sem]
  | @erase inputs pre d post outs hu ho =>
    have h1 := split_ops hF
    have hlen : (env0 inputs ++ pre.map DOp.info).length = inputs.length + pre.length := by simp [env0]
    have hlt : ∀ u, u < inputs.length + pre.length → without (inputs.length + pre.length) u = u := by
      intro u hu; unfold without; rw [if_neg (by omega)]
    have hgt : ∀ u, inputs.length + pre.length < u → without (inputs.length + pre.length) u = u - 1 := by
      intro u hu; unfold without; rw [if_pos hu]
    refine ⟨⟨?_, ?_⟩, rfl, ?_⟩
    · show OpsOK _ (env0 inputs)
      refine (OpsOK_append _ _ _).2 ⟨h1.1, ?_⟩
      refine OpsOK.map (U := fun u => u ≠ inputs.length + pre.length) ?_ ?_ ?_ h1.2.2
      · intro u hu hU
        rw [List.length_append, List.length_singleton] at hu
        rw [hlt u (by omega)]
        rw [szOf_old (env := env0 inputs ++ pre.map DOp.info) _ (by omega), cstOf_old (env := env0 inputs ++ pre.map DOp.info) _ (by omega)]
        exact ⟨by omega, rfl, id⟩
      · intro i
        rw [List.length_append, List.length_singleton, hlen, hgt _ (by omega)]; omega
      · intro e he a ha h
        exact hu e he (h ▸ ha)
    · intro v hv
      obtain ⟨u, hu', rfl⟩ := List.mem_map.1 hv
      have := hF.outs u hu'
      have hne : u ≠ inputs.length + pre.length := fun h => ho (h ▸ hu')
      simp only [List.length_append, List.length_cons, List.length_map] at this ⊢
      unfold without
      split <;> omega
    · intro sem ins hin
      have hn : ins.length = inputs.length := by simpa using congrArg List.length hin
      have hll : (runOps sem pre ins).length = inputs.length + pre.length := by rw [length_runOps, hn]
      unfold DFun.result
      simp only [List.map_map]
      apply List.map_congr_left
      intro v hv
      have hne : v ≠ inputs.length + pre.length := fun h => ho (h ▸ hv)
      simp only [Function.comp, runOps_append, runOps]
      have hlv := hF.outs v hv
      simp only [List.length_append, List.length_cons] at hlv
      refine (runOps_map sem (U := fun u => u ≠ inputs.length + pre.length) (env := env0 inputs ++ pre.map DOp.info ++ [d.info]) ?_ h1.2.2 ?_ ?_ ?_ v ?_ hne).2
      · rw [List.length_append, hlen, List.length_append, hll]; rfl
      · intro u hu hU
        rw [List.length_append, List.length_singleton, hll] at hu
        rw [hlt u (by omega), hll]
        refine ⟨by omega, ?_⟩
        rw [List.getD_eq_getElem?_getD, List.getD_eq_getElem?_getD, List.getElem?_append_left (by omega)]
      · intro i
        rw [List.length_append, List.length_singleton, hll, hgt _ (by omega)]; omega
      · intro e he a ha h
        exact hu e he (h ▸ ha)
      · rw [List.length_append, hll, List.length_singleton]; omega

/-- Moves keep the results. -/
theorem swap_keeps {F G : DFun} (h : DSwap F G) (hF : F.OK) : Keeps F G := by
  cases h with
  | @swap inputs pre d e post outs hu =>
    have h1 := split_ops hF
    obtain ⟨hpre, hd, he, hpost⟩ := h1
    have hlen : (env0 inputs ++ pre.map DOp.info).length = inputs.length + pre.length := by simp [env0]
    obtain ⟨q, hq⟩ : ∃ q, q = inputs.length + pre.length := ⟨_, rfl⟩
    rw [← hq] at hu hlen ⊢
    have hlt : ∀ u, u < q → swapped q u = u := by
      intro u hu; unfold swapped; rw [if_neg (by omega), if_neg (by omega)]
    have hgt : ∀ u, q + 1 < u → swapped q u = u := by
      intro u hu; unfold swapped; rw [if_neg (by omega), if_neg (by omega)]
    have hq0 : swapped q q = q + 1 := by unfold swapped; rw [if_pos rfl]
    have hq1 : swapped q (q + 1) = q := by unfold swapped; rw [if_neg (by omega), if_pos rfl]
    have hnone : ∀ (l : List Nat), (∀ a ∈ l, a < q) → l.map (swapped q) = l := by
      intro l hl
      conv_rhs => rw [← List.map_id l]
      exact List.map_congr_left fun a ha => hlt a (hl a ha)
    have heb : ∀ a ∈ e.args, a < q := by
      intro a ha
      have := he.bound a ha
      rw [List.length_append, hlen, List.length_singleton] at this
      have : a ≠ q := fun h => hu (h ▸ ha)
      omega
    have hdb : ∀ a ∈ d.args, a < q := by
      intro a ha
      have := hd.bound a ha
      omega
    have heid : e.mapArgs (swapped q) = e := by unfold DOp.mapArgs; rw [hnone _ heb]
    have hdid : d.mapArgs (swapped q) = d := by unfold DOp.mapArgs; rw [hnone _ hdb]
    refine ⟨⟨?_, ?_⟩, rfl, ?_⟩
    · show OpsOK _ (env0 inputs)
      refine (OpsOK_append _ _ _).2 ⟨hpre, ?_, ?_, ?_⟩
      · rw [← heid]
        refine he.map (U := fun u => u < q) ?_ heb
        intro u hu hU
        rw [hlt u hU, szOf_old (env := env0 inputs ++ pre.map DOp.info) _ (by omega), cstOf_old (env := env0 inputs ++ pre.map DOp.info) _ (by omega)]
        exact ⟨by omega, rfl, id⟩
      · rw [← hdid]
        refine hd.map (U := fun u => u < q) ?_ hdb
        intro u hu hU
        rw [hlt u hU, List.length_append, szOf_old (env := env0 inputs ++ pre.map DOp.info) _ (by omega), cstOf_old (env := env0 inputs ++ pre.map DOp.info) _ (by omega)]
        exact ⟨by omega, rfl, id⟩
      · refine OpsOK.map (U := fun _ => True) ?_ ?_ (by simp) hpost
        · intro u hu _
          simp only [List.length_append, List.length_singleton] at hu hlen ⊢
          by_cases h : u < q
          · have hin : u < (env0 inputs ++ pre.map DOp.info).length := by rw [List.length_append]; omega
            rw [hlt u h, List.append_assoc, List.append_assoc _ [d.info], szOf_old _ hin, szOf_old _ hin, cstOf_old _ hin, cstOf_old _ hin]
            exact ⟨by omega, rfl, id⟩
          have hlen' : (env0 inputs ++ pre.map DOp.info).length = q := by simpa using hlen
          have key : ∀ (x y : Bool × Nat), (env0 inputs ++ pre.map DOp.info ++ [x] ++ [y]).getD q (false, 0) = x ∧
              (env0 inputs ++ pre.map DOp.info ++ [x] ++ [y]).getD (q + 1) (false, 0) = y := by
            intro x y
            constructor
            · rw [List.getD_eq_getElem?_getD, List.getElem?_append_left (by rw [List.length_append, hlen', List.length_singleton]; omega), List.getElem?_append_right (by omega), hlen']
              simp
            · rw [List.getD_eq_getElem?_getD, List.getElem?_append_right (by rw [List.length_append, hlen', List.length_singleton]), List.length_append, hlen']
              simp
          have hcase : u = q ∨ u = q + 1 := by omega
          unfold szOf cstOf
          rcases hcase with rfl | rfl
          · rw [hq0, (key _ _).1, (key _ _).2]; exact ⟨by omega, rfl, id⟩
          · rw [hq1, (key _ _).1, (key _ _).2]; exact ⟨by omega, rfl, id⟩
        · intro i
          simp only [List.length_append, List.length_singleton] at hlen ⊢
          rw [hlen]
          apply hgt
          omega
    · intro v hv
      obtain ⟨u, hu', rfl⟩ := List.mem_map.1 hv
      have := hF.outs u hu'
      simp only [List.length_append, List.length_cons, List.length_map] at this ⊢
      exact swapped_lt (by omega) (by omega)
    · intro sem ins hin
      have hn : ins.length = inputs.length := by simpa using congrArg List.length hin
      have hll : (runOps sem pre ins).length = q := by rw [length_runOps, hn, hq]
      unfold DFun.result
      simp only [List.map_map]
      apply List.map_congr_left
      intro v hv
      simp only [Function.comp, runOps_append, runOps]
      generalize runOps sem pre ins = vs at hll ⊢
      have hold : ∀ (x : List Byte) (l : List Nat), (∀ a ∈ l, a < q) → (l.map fun a => (vs ++ [x]).getD a []) = l.map fun a => vs.getD a [] := by
        intro x l hl
        apply List.map_congr_left
        intro a ha
        have := hl a ha
        rw [List.getD_eq_getElem?_getD, List.getD_eq_getElem?_getD, List.getElem?_append_left (by omega)]
      rw [hold _ _ heb, hold _ _ hdb]
      generalize fit d.ty.size (d.kind.run sem d.ty (d.args.map fun a => vs.getD a [])) = xd
      generalize fit e.ty.size (e.kind.run sem e.ty (e.args.map fun a => vs.getD a [])) = xe
      have hlv := hF.outs v hv
      simp only [List.length_append, List.length_cons] at hlv
      have key : ∀ (x y : List Byte), (vs ++ [x] ++ [y]).getD q [] = x ∧ (vs ++ [x] ++ [y]).getD (q + 1) [] = y := by
        intro x y
        constructor
        · rw [List.getD_eq_getElem?_getD, List.getElem?_append_left (by rw [List.length_append, hll, List.length_singleton]; omega), List.getElem?_append_right (by omega), hll]
          simp
        · rw [List.getD_eq_getElem?_getD, List.getElem?_append_right (by rw [List.length_append, hll, List.length_singleton]), List.length_append, hll]
          simp
      refine (runOps_map sem (U := fun _ => True) (env := env0 inputs ++ pre.map DOp.info ++ [d.info] ++ [e.info]) ?_ hpost ?_ ?_ (by simp) v ?_ trivial).2
      · simp only [List.length_append, List.length_singleton, hll] at hlen ⊢; omega
      · intro u hu _
        simp only [List.length_append, List.length_singleton, hll] at hu ⊢
        by_cases h : u < q
        · rw [hlt u h]
          refine ⟨by omega, ?_⟩
          simp only [List.getD_eq_getElem?_getD]
          rw [List.getElem?_append_left (by simp; omega), List.getElem?_append_left (by omega), List.getElem?_append_left (by simp; omega),
            List.getElem?_append_left (by omega)]
        have hcase : u = q ∨ u = q + 1 := by omega
        rcases hcase with rfl | rfl
        · rw [hq0, (key _ _).1, (key _ _).2]; exact ⟨by omega, rfl⟩
        · rw [hq1, (key _ _).1, (key _ _).2]; exact ⟨by omega, rfl⟩
      · intro i
        rw [List.length_append, List.length_append, List.length_append, List.length_append, hll]
        apply hgt
        show q + 1 < q + 1 + 1 + i
        omega
      · rw [List.length_append, List.length_append, hll]
        show v < q + 1 + 1 + _
        omega

/-- Any number of rewrites. -/
theorem cleaned_keeps {conv : Nat → Prop} {F G : DFun} (h : Cleaned conv F G) (hF : F.OK) : Keeps F G := by
  induction h with
  | refl => exact ⟨hF, rfl, fun _ _ _ => rfl⟩
  | @tail A B _ hs ih =>
    have hk : Keeps A B := by
      rcases hs with hs | hs
      · exact rw_keeps hs ih.ok
      · exact swap_keeps hs ih.ok
    exact ⟨hk.ok, hk.inputs.trans ih.inputs, fun sem ins hin => (hk.result sem ins (by rw [ih.inputs]; exact hin)).trans (ih.result sem ins hin)⟩

end Verif.Net
