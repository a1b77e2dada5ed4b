import Verif.Net.FuseCompile
/-! # C107: the compiled function after clean-up -/
namespace Verif.Net
open Verif.Tensor Verif.Move Verif.MemPlan Verif.MemPlan.Conc

theorem DFun.withWeights_ok {F : DFun} (hF : F.OK) {cfg : WCfg} {calls order : List Nat} {consts : Nat → Weights.Const} {W : WFun}
    (hW : W = F.withWeights cfg calls order consts) (hv : W.Visited) (hs : W.Stored) : W.OK := by
  subst hW
  exact ⟨hF.ops.good, hF.outs, hv, hs⟩

/-- The cleaned-up function returns the results of the network. -/
theorem cleaned_result {N : Network} (hN : N.OK) {skip : Nat → Bool} {conv : Nat → Prop} {F : DFun} (h : Cleaned conv (N.compiled skip) F)
    (sem : Sem) (inputs : List (List Byte)) (hin : inputs.map List.length = N.inputs.map Ty.size) : F.result sem inputs = N.result sem inputs := by
  rw [(cleaned_keeps h (N.compiled_ok hN skip)).result sem inputs hin]
  exact (N.compile_spec hN skip sem inputs hin).2.2.2

/-- **C107.** For every well-typed network, and every sequence of clean-up rewrites of its compiled function (reshapes fused with the
convolutions before and after them, reshapes combined, reshapes to the same type and unused operators removed, constants folded, operators
moved): the function that remains, with its constants moved to the weights file, can be planned as soon as it has a tensor in the arena; if
it is planned, every tensor fits in the advertised arena, and running it there returns the outputs of the network. -/
theorem C107_cleaned_network (N : Network) (hN : N.OK) (skip : Nat → Bool) (conv : Nat → Prop) (F : DFun) (h : Cleaned conv (N.compiled skip) F)
    (cfg : WCfg) (calls order : List Nat) (consts : Nat → Weights.Const) (W : WFun) (hW : W = F.withWeights cfg calls order consts)
    (hv : W.Visited) (hs : W.Stored) :
    (∀ v, W.func.Arena v → ∃ a, planMemory W.func = some a) ∧
    ∀ a, planMemory W.func = some a →
      Fits W.func a.offsets a.peakUsage ∧
      ∀ (sem : Sem) (inputs : List (List Byte)) (m : Mem) (c : Env), inputs.map List.length = N.inputs.map Ty.size →
        (arenaTrace W.func (W.kernels sem W.file) a.offsets W.func.ops 0 (loadInputs a.offsets inputs m) c).getLast? = some (N.result sem inputs) := by
  have hk := cleaned_keeps h (N.compiled_ok hN skip)
  have hok := DFun.withWeights_ok hk.ok hW hv hs
  have wf := WFun.wf hok
  have ip := WFun.inPlace hok
  refine ⟨?_, ?_⟩
  · intro v hv
    obtain ⟨p, hp⟩ := C03_plan_exists wf ip true hv
    obtain ⟨q, hq⟩ := C03_plan_exists wf ip false hv
    unfold planMemory
    rw [hp, hq]
    exact ⟨_, rfl⟩
  · intro a ha
    refine ⟨(C06_chosen_plan wf ip ha).2.1, ?_⟩
    intro sem inputs m c hin
    have hin' : inputs.map List.length = W.inputs.map Ty.size := by
      rw [hW]; show _ = F.inputs.map Ty.size; rw [hk.inputs]; exact hin
    rw [(WFun.runs hok ha sem inputs m c hin').2, ← cleaned_result hN h sem inputs hin]
    subst hW
    rfl

/-- **C107**, the whole pipeline (C106 with the clean-up in it): a quantised network, rewritten by the transpose patterns in any order, its
operators replaced, its compiled function cleaned up in any way, its constants in the weights file and its arena planned, computes on threads,
in whatever order they advance and whatever the arena holds before, values that meet the reference semantics of the network as it was given to
the compiler. -/
theorem C107_compiled_network (R : Rt) (dom : MulArgs → Prop) (hR : R.OK dom) (Q : QNetwork) (hQ : Q.OK R dom) (N : Network)
    (h : Relation.ReflTransGen (Rw patterns) Q.seen N) (skip : Nat → Bool) (conv : Nat → Prop) (F : DFun)
    (hc : Cleaned conv (((Q.rewritten N).expand R).compiled skip) F)
    (cfg : WCfg) (calls order : List Nat) (consts : Nat → Weights.Const) (W : WFun) (hW : W = F.withWeights cfg calls order consts)
    (hv : W.Visited) (hs : W.Stored) (a : ModuleAttrs) (ha : planMemory W.func = some a) (impl : Nat → Impl)
    (ok : ImplOK W.func (onData W.func impl (W.kernels ((Q.rewritten N).sem R) W.file)) impl)
    (hskip : ∀ j, j < W.func.ops.length → impl j = .skip → (W.func.op j).operands = []) (inputs : List (List Byte))
    (hin : inputs.map List.length = Q.inputs.map Ty.size) :
    ∃ vals : List (List Byte), Q.Values R inputs vals ∧
      ∀ (m : Mem) (c : Env) (tr : List (List (List Byte))),
        Run W.func (onData W.func impl (W.kernels ((Q.rewritten N).sem R) W.file)) impl a.offsets W.func.ops 0 (loadInputs a.offsets inputs m) c tr →
          tr.getLast? = some (Q.outputs.map fun v => vals.getD v []) := by
  have hI := inv_rewrites hQ h
  have hok := rewritten_ok hQ hI
  have hin' : inputs.map List.length = (Q.rewritten N).inputs.map Ty.size := by rw [hin]; simp [QNetwork.rewritten, hI.inputs]
  obtain ⟨hE, vals, v1, v2, v3, v4, v5⟩ := expand_values hR _ hok inputs hin'
  obtain ⟨vals', w1, w2⟩ := values_transfer hR hQ h hin ⟨v1, v2, v5, v4⟩
  refine ⟨vals', w1, ?_⟩
  intro m c tr hrun
  have hwk := DFun.withWeights_ok (cleaned_keeps hc (Network.compiled_ok _ hE skip)).ok hW hv hs
  have hinW : inputs.map List.length = W.inputs.map Ty.size := by
    rw [hW]; show _ = F.inputs.map Ty.size; rw [(cleaned_keeps hc (Network.compiled_ok _ hE skip)).inputs]; exact hin'
  have hseq := ((C107_cleaned_network _ hE skip conv F hc cfg calls order consts W hW hv hs).2 a ha).2 ((Q.rewritten N).sem R) inputs m c hin'
  have : tr.getLast? = some (((Q.rewritten N).expand R).result ((Q.rewritten N).sem R) inputs) := by
    rw [← hseq]
    apply C102_as_sequential (WFun.wf hwk) (WFun.inPlace hwk) ha _ (W.kernels_fit _ _) impl ok hskip ?_ inputs hinW m c tr hrun
    obtain ⟨pre, hp⟩ := W.last_item
    refine ⟨W.planned (.op W.ops.length), by show (List.map _ W.items).getLast? = _; rw [hp]; simp, ?_⟩
    simp [WFun.planned]
  rw [this, v3, w2]
  rfl

/-! ### Clean-up ends -/

def DOp.cost (d : DOp) : Nat :=
  match d.kind with
  | .const _ => 0
  | .tfl .reshape _ => 2
  | _ => 1

/-- Operators (reshapes count twice, constants not), then all operators, then the numbers of the values that are used. -/
def DFun.measure (F : DFun) : Nat × Nat × Nat := ((F.ops.map DOp.cost).sum, F.ops.length, (F.ops.map fun d => d.args.sum).sum + F.outs.sum)

def Less : Nat × Nat × Nat → Nat × Nat × Nat → Prop := Prod.Lex (· < ·) (Prod.Lex (· < ·) (· < ·))

theorem less_wf : WellFounded Less := (Prod.lex (WellFoundedRelation.mk _ Nat.lt_wfRel.wf) (Prod.lex Nat.lt_wfRel Nat.lt_wfRel)).wf

theorem Less.of_first {a b : Nat} {x y : Nat × Nat} (h : a < b) : Less (a, x) (b, y) := Prod.Lex.left _ _ h

theorem Less.of_second {a a' b b' c c' : Nat} (h : a ≤ a') (h2 : b < b') : Less (a, b, c) (a', b', c') := by
  rcases Nat.lt_or_eq_of_le h with h | rfl
  · exact Prod.Lex.left _ _ h
  · exact Prod.Lex.right _ (Prod.Lex.left _ _ h2)

theorem Less.of_third {a b c c' : Nat} (h : c < c') : Less (a, b, c) (a, b, c') := Prod.Lex.right _ (Prod.Lex.right _ h)

theorem mapArgs_cost (f : Nat → Nat) (l : List DOp) : (l.map (DOp.mapArgs f)).map DOp.cost = l.map DOp.cost := by
  rw [List.map_map]; rfl

theorem sum_redirect_le {v a : Nat} (h : a < v) : ∀ l : List Nat, (l.map (redirect v a)).sum ≤ l.sum ∧ (v ∈ l → (l.map (redirect v a)).sum < l.sum)
  | [] => by simp
  | u :: l => by
    have := sum_redirect_le h l
    simp only [List.map_cons, List.sum_cons, List.mem_cons]
    have hr : redirect v a u = if u = v then a else u := rfl
    rw [hr]
    split
    · rename_i e; refine ⟨by subst e; omega, fun _ => by subst e; omega⟩
    · rename_i e
      refine ⟨by omega, ?_⟩
      rintro (h' | h')
      · exact absurd h'.symm e
      · have := this.2 h'; omega

theorem sum_ops_redirect_le {v a : Nat} (h : a < v) : ∀ l : List DOp, ((l.map (DOp.mapArgs (redirect v a))).map fun d => d.args.sum).sum ≤ (l.map fun d => d.args.sum).sum ∧
    ((∃ d ∈ l, v ∈ d.args) → ((l.map (DOp.mapArgs (redirect v a))).map fun d => d.args.sum).sum < (l.map fun d => d.args.sum).sum)
  | [] => by simp
  | d :: l => by
    have h1 := sum_ops_redirect_le h l
    have h2 := sum_redirect_le h d.args
    simp only [List.map_cons, List.sum_cons]
    have h3 : (DOp.mapArgs (redirect v a) d).args = d.args.map (redirect v a) := rfl
    rw [h3]
    refine ⟨by omega, ?_⟩
    rintro ⟨e, he, hv⟩
    rcases List.mem_cons.1 he with rfl | he
    · have := h2.2 hv; omega
    · have := h1.2 ⟨e, he, hv⟩; omega

theorem rw_less {conv : Nat → Prop} {F G : DFun} (h : DRw conv F G) (hF : F.OK) : Less G.measure F.measure := by
  have hop : ∀ {inputs : List Ty} {pre l : List DOp} {outs : List Nat} {v a : Nat} {k : DKind} {as : List Nat} {rt : Ty},
      (⟨inputs, pre ++ l, outs⟩ : DFun).OK → inputs.length ≤ v → pre[v - inputs.length]? = some ⟨k, as, rt⟩ → a ∈ as → a < v := by
    intro inputs pre l outs v a k as rt hF hv hp ha
    have := ((split_ops hF).1.get hp).bound a ha
    simp only [List.length_append, env0_length, List.length_map, List.length_take] at this
    omega
  cases h with
  | fuseIn hk hv hp =>
    have := hop hF hv hp (List.mem_singleton_self _)
    unfold DFun.measure
    simp only [List.map_append, List.map_cons, List.sum_append, List.sum_cons, List.length_append, List.length_cons, DOp.cost]
    apply Less.of_third
    omega
  | fuseOut hk hv hp =>
    apply Less.of_first
    simp only [List.map_append, List.map_cons, List.sum_append, List.sum_cons, DOp.cost]
    omega
  | combine hv hp =>
    have := hop hF hv hp (List.mem_singleton_self _)
    unfold DFun.measure
    simp only [List.map_append, List.map_cons, List.sum_append, List.sum_cons, List.length_append, List.length_cons, DOp.cost]
    apply Less.of_third
    simp only [List.sum_nil]
    omega
  | @same inputs pre post outs t a ty hty hu =>
    have ha : a < inputs.length + pre.length := by
      have := (split_ops hF).2.1.bound a (by simp)
      simpa [env0] using this
    have h1 := sum_ops_redirect_le ha post
    have h2 := sum_redirect_le ha outs
    unfold DFun.measure
    simp only [List.map_append, List.map_cons, List.sum_append, List.sum_cons, List.length_append, List.length_cons, mapArgs_cost, List.length_map]
    apply Less.of_third
    rcases hu with hu | hu
    · have := h1.2 hu; omega
    · have := h2.2 hu; omega
  | @fold inputs pre post outs k tys as ty data hk hcs =>
    apply Less.of_first
    simp only [List.map_append, List.map_cons, List.sum_append, List.sum_cons]
    have h0 : DOp.cost ⟨.const (eval (fun _ _ => []) k ty (tys.zip data)), [], ty⟩ = 0 := rfl
    have h1 : 0 < DOp.cost ⟨.tfl k tys, as, ty⟩ := by
      cases k <;> simp [DOp.cost]
    omega
  | erase hu ho =>
    apply Less.of_second
    · simp only [List.map_append, List.map_cons, List.sum_append, List.sum_cons, mapArgs_cost]
      omega
    · simp only [List.length_append, List.length_cons, List.length_map]
      omega

/-- Every sequence of rewrites of a well-typed compiled function ends. -/
theorem C107_terminates (conv : Nat → Prop) : WellFounded fun G F : DFun => F.OK ∧ DRw conv F G :=
  Subrelation.wf (fun h => rw_less h.2 h.1) (InvImage.wf DFun.measure less_wf)

/-- So there is a function to which no rewrite applies. -/
theorem C107_reaches_normal_form (N : Network) (hN : N.OK) (skip : Nat → Bool) (conv : Nat → Prop) :
    ∃ F, Cleaned conv (N.compiled skip) F ∧ ∀ G, ¬ DRw conv F G := by
  have key : ∀ F : DFun, F.OK → ∃ F', Cleaned conv F F' ∧ ∀ G, ¬ DRw conv F' G := by
    intro F
    induction F using (C107_terminates conv).induction with
    | _ F ih =>
      intro hF
      by_cases h : ∃ G, DRw conv F G
      · obtain ⟨G, hG⟩ := h
        obtain ⟨F', h1, h2⟩ := ih G ⟨hF, hG⟩ (rw_keeps hG hF).ok
        exact ⟨F', Relation.ReflTransGen.head (.inl hG) h1, h2⟩
      · exact ⟨F, Relation.ReflTransGen.refl, fun G hG => h ⟨G, hG⟩⟩
  exact key _ (N.compiled_ok hN skip)

theorem split_at {l : List DOp} {j : Nat} {d : DOp} (h : l[j]? = some d) : l = l.take j ++ d :: l.drop (j + 1) ∧ (l.take j).length = j := by
  have hlt := (List.getElem?_eq_some_iff.1 h).1
  refine ⟨?_, by rw [List.length_take]; omega⟩
  conv_lhs => rw [← List.take_append_drop j l]
  rw [List.drop_eq_getElem_cons hlt]
  rw [List.getElem?_eq_getElem hlt] at h
  cases h
  rfl

/-- In a well-typed function to which no rewrite applies no convolution reads a reshape, and reshapes read neither convolutions nor reshapes
nor constants, change the type, and are used. -/
theorem C107_normal_form {conv : Nat → Prop} {F : DFun} (hF : F.OK) (hn : ∀ G, ¬ DRw conv F G) (j : Nat) (d : DOp) (hj : F.ops[j]? = some d) :
    (∀ k tys v as, conv k → d.kind = .tfl (.other false k) tys → d.args = v :: as →
      ∀ p, F.inputs.length ≤ v → F.ops[v - F.inputs.length]? = some p → ∀ ts, p.kind ≠ .tfl .reshape ts) ∧
    (∀ tys v, d.kind = .tfl .reshape tys → d.args = [v] →
      DFun.tyOf F.inputs F.ops v ≠ d.ty ∧
      ∀ p, F.inputs.length ≤ v → F.ops[v - F.inputs.length]? = some p →
        (∀ k ts, conv k → p.kind ≠ .tfl (.other false k) ts) ∧ (∀ ts, p.kind ≠ .tfl .reshape ts) ∧ p.kind.isConst = false) ∧
    (F.inputs.length + j ∈ F.outs ∨ ∃ (i : Nat) (e : DOp), F.ops[i]? = some e ∧ F.inputs.length + j ∈ e.args) := by
  obtain ⟨inputs, ops, outs⟩ := F
  simp only at hj ⊢
  obtain ⟨hsp, hlen⟩ := split_at hj
  have hpre : ∀ {v : Nat} {p : DOp}, v ∈ d.args → inputs.length ≤ v → ops[v - inputs.length]? = some p → (ops.take j)[v - inputs.length]? = some p := by
    intro v p hv h1 h2
    have := (hF.ops.get hj).bound v hv
    simp only [List.length_append, env0_length, List.length_map, hlen] at this
    rw [List.getElem?_take, if_pos (by omega)]
    exact h2
  have hreshape : ∀ {v : Nat} {p : DOp} {ts : List Ty}, ops[v]? = some p → p.kind = .tfl .reshape ts → ∃ a t, p = ⟨.tfl .reshape [t], [a], p.ty⟩ := by
    intro v p ts hp hk
    have := (hF.ops.get hp).typed
    unfold OpTyped at this
    rw [hk] at this
    obtain ⟨a, t, h1, h2, -, -⟩ := this
    refine ⟨a, t, ?_⟩
    obtain ⟨pk, pa, pt⟩ := p
    simp only at h1 hk ⊢
    rw [hk, h1, h2]
  refine ⟨?_, ?_, ?_⟩
  · intro k tys v as hk hd ha p hv hp ts hpk
    obtain ⟨a, t, hp'⟩ := hreshape hp hpk
    have ht := (hF.ops.get hj).typed
    unfold OpTyped at ht
    rw [hd] at ht
    obtain ⟨d1, d2, d3⟩ := d
    simp only at hd ha ht
    subst hd; subst ha
    match tys, ht with
    | [], ht => simp at ht
    | t0 :: tys, ht =>
      rw [hsp] at hn
      exact hn _ (.fuseIn hk hv (by rw [hpre (by simp) hv hp, hp']))
  · intro tys v hd ha
    obtain ⟨a, t, hd'⟩ := hreshape hj hd
    have hav : a = v := by rw [hd'] at ha; simpa using ha
    subst hav
    have hvlt : a < inputs.length + j := by
      have := (hF.ops.get hj).bound a (by rw [ha]; simp)
      simp only [List.length_append, env0_length, List.length_map, hlen] at this
      exact this
    refine ⟨?_, ?_⟩
    · intro hty
      have hty' : DFun.tyOf inputs (ops.take j) a = d.ty := by
        rw [← hty]
        unfold DFun.tyOf
        rw [List.getD_eq_getElem?_getD, List.getD_eq_getElem?_getD]
        congr 1
        rw [List.getElem?_append, List.getElem?_append]
        split
        · rfl
        · rw [List.getElem?_map, List.getElem?_map, List.getElem?_take, if_pos (by omega)]
      by_cases hu : (∃ e ∈ ops.drop (j + 1), inputs.length + j ∈ e.args) ∨ inputs.length + j ∈ outs
      · rw [hsp, hd'] at hn
        refine hn _ (.same hty' ?_)
        rw [hlen]; exact hu
      · have hu := not_or.1 hu
        rw [hsp] at hn
        refine hn _ (.erase ?_ ?_)
        · intro e he hm
          rw [hlen] at hm
          exact hu.1 ⟨e, he, hm⟩
        · rw [hlen]; exact hu.2
    · intro p hv hp
      have hp2 := hpre (by rw [ha]; simp) hv hp
      refine ⟨?_, ?_, ?_⟩
      · intro k ts hk hpk
        rw [hsp, hd'] at hn
        obtain ⟨p1, p2, p3⟩ := p
        simp only at hpk
        subst hpk
        exact hn _ (.fuseOut hk hv hp2)
      · intro ts hpk
        obtain ⟨b, t', hp'⟩ := hreshape hp hpk
        rw [hsp, hd'] at hn
        exact hn _ (.combine hv (by rw [hp2, hp']))
      · cases hc : p.kind.isConst with
        | false => rfl
        | true =>
          obtain ⟨p1, p2, p3⟩ := p
          cases p1 <;> simp [DKind.isConst] at hc
          rw [hsp, hd'] at hn
          exact absurd (DRw.fold rfl (List.Forall₂.cons ⟨hv, _, _, _, hp2, rfl⟩ .nil)) (hn _)
  · by_cases hu : (∃ e ∈ ops.drop (j + 1), inputs.length + j ∈ e.args) ∨ inputs.length + j ∈ outs
    · rcases hu with ⟨e, he, hm⟩ | hu
      · right
        obtain ⟨i, hi, rfl⟩ := List.getElem_of_mem he
        refine ⟨j + 1 + i, _, ?_, hm⟩
        rw [← List.getElem?_drop, List.getElem?_eq_getElem hi]
      · exact .inl hu
    · have hu := not_or.1 hu
      rw [hsp] at hn
      exact absurd (DRw.erase (by
        intro e he hm
        rw [hlen] at hm
        exact hu.1 ⟨e, he, hm⟩) (by rw [hlen]; exact hu.2)) (hn _)

/-! ### A fully connected layer -/

/-- A fully connected layer as `ReplaceFCWithConv2D` leaves it, for any types of the right sizes: reshape, convolution, reshape. -/
def fcNet (ti t2 t3 to' tw : Ty) (w : List Byte) (k : Nat) : Network where
  inputs := [ti]
  nodes := [⟨.const w, [], tw⟩, ⟨.reshape, [0], t2⟩, ⟨.other false k, [2, 1], t3⟩, ⟨.reshape, [3], to'⟩]
  outputs := [4]

/-- Both reshapes disappear: what is left is the constant and one convolution from the layer's operand to its result; it returns what the layer
returns, for every meaning of the convolution. -/
theorem C107_fully_connected (ti t2 t3 to' tw : Ty) (w : List Byte) (k : Nat) (h1 : ti.size = t2.size) (h2 : t3.size = to'.size) (hw : w.length = tw.size)
    (skip : Nat → Bool) :
    (fcNet ti t2 t3 to' tw w k).OK ∧
    Cleaned (· = k) ((fcNet ti t2 t3 to' tw w k).compiled skip) ⟨[ti], [⟨.const w, [], tw⟩, ⟨.tfl (.other false k) [ti, tw], [0, 1], to'⟩], [2]⟩ := by
  refine ⟨⟨⟨by simp, ⟨rfl, hw⟩, by simp [fcNet], ⟨ti, false, rfl, h1⟩, by simp [fcNet], (by intro h; cases h), by simp [fcNet], ⟨t3, false, rfl, h2⟩, trivial⟩,
    by simp [fcNet]⟩, ?_⟩
  have s0 : (fcNet ti t2 t3 to' tw w k).compiled skip =
      ⟨[ti], [⟨.const w, [], tw⟩, ⟨.tfl .reshape [ti], [0], t2⟩, ⟨.tfl (.other false k) [t2, tw], [2, 1], t3⟩, ⟨.tfl .reshape [t3], [3], to'⟩], [4]⟩ := rfl
  rw [s0]
  have s1 : DRw (· = k)
      ⟨[ti], [⟨.const w, [], tw⟩, ⟨.tfl .reshape [ti], [0], t2⟩, ⟨.tfl (.other false k) [t2, tw], [2, 1], t3⟩, ⟨.tfl .reshape [t3], [3], to'⟩], [4]⟩
      ⟨[ti], [⟨.const w, [], tw⟩, ⟨.tfl .reshape [ti], [0], t2⟩, ⟨.tfl (.other false k) [ti, tw], [0, 1], t3⟩, ⟨.tfl .reshape [t3], [3], to'⟩], [4]⟩ :=
    .fuseIn (pre := [⟨.const w, [], tw⟩, ⟨.tfl .reshape [ti], [0], t2⟩]) (v := 2) rfl (by simp) rfl
  have s2 : DRw (· = k)
      ⟨[ti], [⟨.const w, [], tw⟩, ⟨.tfl .reshape [ti], [0], t2⟩, ⟨.tfl (.other false k) [ti, tw], [0, 1], t3⟩, ⟨.tfl .reshape [t3], [3], to'⟩], [4]⟩
      ⟨[ti], [⟨.const w, [], tw⟩, ⟨.tfl .reshape [ti], [0], t2⟩, ⟨.tfl (.other false k) [ti, tw], [0, 1], t3⟩, ⟨.tfl (.other false k) [ti, tw], [0, 1], to'⟩], [4]⟩ :=
    .fuseOut (pre := [⟨.const w, [], tw⟩, ⟨.tfl .reshape [ti], [0], t2⟩, ⟨.tfl (.other false k) [ti, tw], [0, 1], t3⟩]) (v := 3) rfl (by simp) rfl
  have s3 : DRw (· = k)
      ⟨[ti], [⟨.const w, [], tw⟩, ⟨.tfl .reshape [ti], [0], t2⟩, ⟨.tfl (.other false k) [ti, tw], [0, 1], t3⟩, ⟨.tfl (.other false k) [ti, tw], [0, 1], to'⟩], [4]⟩
      ⟨[ti], [⟨.const w, [], tw⟩, ⟨.tfl .reshape [ti], [0], t2⟩, ⟨.tfl (.other false k) [ti, tw], [0, 1], to'⟩], [3]⟩ :=
    .erase (pre := [⟨.const w, [], tw⟩, ⟨.tfl .reshape [ti], [0], t2⟩]) (post := [⟨.tfl (.other false k) [ti, tw], [0, 1], to'⟩]) (by simp) (by simp)
  have s4 : DRw (· = k)
      ⟨[ti], [⟨.const w, [], tw⟩, ⟨.tfl .reshape [ti], [0], t2⟩, ⟨.tfl (.other false k) [ti, tw], [0, 1], to'⟩], [3]⟩
      ⟨[ti], [⟨.const w, [], tw⟩, ⟨.tfl (.other false k) [ti, tw], [0, 1], to'⟩], [2]⟩ :=
    .erase (pre := [⟨.const w, [], tw⟩]) (post := [⟨.tfl (.other false k) [ti, tw], [0, 1], to'⟩]) (by simp) (by simp)
  exact .head (.inl s1) (.head (.inl s2) (.head (.inl s3) (.head (.inl s4) .refl)))

theorem DFun.dense_stored (F : DFun) (cfg : WCfg) (calls order : List Nat) : (F.withWeights cfg calls order (denseConsts F.ops)).Stored := by
  intro p data args ty h
  have h' : F.ops[p]? = some ⟨.const data, args, ty⟩ := h
  show (Weights.constBytes (denseConsts F.ops p)).map UInt8.ofInt = _
  unfold denseConsts
  rw [h']
  simp only [Weights.constBytes, List.map_map]
  have : (UInt8.ofInt ∘ fun b : Byte => (b.toNat : Int)) = id := by
    funext b
    simp only [UInt8.ofInt, Function.comp]
    have h1 : ((b.toNat : Int) % (2 : Int) ^ 8).toNat = b.toNat := by have := b.toNat_lt; omega
    rw [h1]
    exact UInt8.ofNat_toNat
  rw [this, List.map_id]

/-- Every network with a tensor in the arena, cleaned up in any way, can be compiled and run as `C107_cleaned_network` and
`C107_compiled_network` describe, with two threads for every operator that does not work in place, whatever the options and the order in which
the driver looks at the constants. -/
theorem C107_compiles (N : Network) (hN : N.OK) (skip : Nat → Bool) (conv : Nat → Prop) (F : DFun) (h : Cleaned conv (N.compiled skip) F)
    (cfg : WCfg) (calls : List Nat) (hin : N.inputs ≠ []) (sem : Sem) :
    ∃ (consts : Nat → Weights.Const) (W : WFun) (a : ModuleAttrs) (impl : Nat → Impl),
      W = F.withWeights cfg calls calls consts ∧ W.Visited ∧ W.Stored ∧ planMemory W.func = some a ∧
      ImplOK W.func (onData W.func impl (W.kernels sem W.file)) impl ∧
      (∀ j, (W.func.op j).overlappable = false → ∃ p q, impl j = .threads none 0 [p, q]) ∧
      (∀ j, impl j ≠ .skip) ∧
      ∀ m c, ∃ tr, Run W.func (onData W.func impl (W.kernels sem W.file)) impl a.offsets W.func.ops 0 m c tr := by
  obtain ⟨W, hW⟩ : ∃ W, W = F.withWeights cfg calls calls (denseConsts F.ops) := ⟨_, rfl⟩
  have hv : W.Visited := by rw [hW]; exact selected_calls _ _ _
  have hs : W.Stored := by rw [hW]; exact F.dense_stored _ _ _
  obtain ⟨a, ha⟩ := (C107_cleaned_network N hN skip conv F h cfg calls calls _ W hW hv hs).1 0 (by
    have hl : 0 < W.func.argSizes.length := by
      rw [hW]
      show 0 < (List.map _ F.inputs).length
      rw [(cleaned_keeps h (N.compiled_ok hN skip)).inputs, List.length_map]
      exact List.length_pos_iff.2 hin
    refine ⟨?_, ?_⟩
    · show 0 < W.func.decls.length
      simp only [Func.decls, List.length_append, List.length_map]; omega
    · simp only [Func.decl, Func.decls]
      rw [List.getD_eq_getElem?_getD, List.getElem?_append_left (by simpa using hl), List.getElem?_map, List.getElem?_eq_getElem hl]
      rfl)
  refine ⟨_, W, a, halves W.func (W.kernels sem W.file), hW, hv, hs, ha, halves_ok _ _ (W.kernels_fit _ _), ?_, ?_, ?_⟩
  · intro j hj
    exact ⟨_, _, by unfold halves; rw [if_neg (by simp [hj])]⟩
  · intro j hj
    unfold halves at hj
    split at hj <;> cases hj
  · intro m c
    exact C102_runs_exist _ _ _ _ _ _ _ _

/-- A layer with 6 operands and 2 results: three operators remain (constant, convolution, return), and they return what the layer returns. -/
theorem C107_example (w : List Byte) (hw : w.length = 12) (sem : Sem) (x : List Byte) (hx : x.length = 6) :
    let N := fcNet ⟨[1, 6], 1⟩ ⟨[1, 1, 1, 6], 1⟩ ⟨[1, 1, 1, 2], 1⟩ ⟨[1, 2], 1⟩ ⟨[2, 6], 1⟩ w 7
    ∃ (F : DFun) (W : WFun) (a : ModuleAttrs), Cleaned (· = 7) (N.compiled fun _ => false) F ∧ W = F.withWeights ⟨0, 0, false, 0⟩ [] [] (denseConsts F.ops) ∧
      W.func.ops.length = 3 ∧ planMemory W.func = some a ∧ N.result sem [x] = [fit 2 (sem 7 [x, w])] ∧
      ∀ m c, (arenaTrace W.func (W.kernels sem W.file) a.offsets W.func.ops 0 (loadInputs a.offsets [x] m) c).getLast? = some [fit 2 (sem 7 [x, w])] := by
  intro N
  obtain ⟨hN, hc⟩ := C107_fully_connected ⟨[1, 6], 1⟩ ⟨[1, 1, 1, 6], 1⟩ ⟨[1, 1, 1, 2], 1⟩ ⟨[1, 2], 1⟩ ⟨[2, 6], 1⟩ w 7 (by decide) (by decide) (by rw [hw]; rfl)
    (fun _ => false)
  obtain ⟨F, hF⟩ : ∃ F : DFun, F = ⟨[⟨[1, 6], 1⟩], [⟨.const w, [], ⟨[2, 6], 1⟩⟩, ⟨.tfl (.other false 7) [⟨[1, 6], 1⟩, ⟨[2, 6], 1⟩], [0, 1], ⟨[1, 2], 1⟩⟩], [2]⟩ := ⟨_, rfl⟩
  rw [← hF] at hc
  obtain ⟨W, hW⟩ : ∃ W, W = F.withWeights ⟨0, 0, false, 0⟩ [] [] (denseConsts F.ops) := ⟨_, rfl⟩
  have hv : W.Visited := by rw [hW]; exact selected_calls _ _ _
  have hs : W.Stored := by rw [hW]; exact F.dense_stored _ _ _
  have main := C107_cleaned_network _ hN _ _ F hc _ _ _ _ W hW hv hs
  obtain ⟨a, ha⟩ := main.1 0 ⟨by rw [hW, hF]; exact Nat.zero_lt_succ _, by rw [hW, hF]; rfl⟩
  have hin : [x].map List.length = N.inputs.map Ty.size := by simp [hx, N, fcNet, Ty.size]
  have hres : N.result sem [x] = [fit 2 (sem 7 [x, w])] := by
    rw [← cleaned_result hN hc sem [x] hin, hF]
    show [fit 2 (DKind.run sem (.tfl (.other false 7) [⟨[1, 6], 1⟩, ⟨[2, 6], 1⟩]) ⟨[1, 2], 1⟩ [x, fit 12 w])] = _
    rw [fit_eq hw]
    congr 1
    exact other_run (ty := ⟨[1, 2], 1⟩) (by simp [hx, hw, Ty.size])
  refine ⟨F, W, a, hc, hW, by rw [hW, hF]; rfl, ha, hres, ?_⟩
  intro m c
  rw [(main.2 a ha).2 sem [x] m c hin, hres]

end Verif.Net
