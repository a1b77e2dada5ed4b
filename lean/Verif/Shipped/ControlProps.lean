import Verif.Shipped.Control
/-! C117: theorems. -/
namespace Verif.Shipped.Control

theorem stops_false (s : Status) : stops s = false := by simp [stops]

theorem run_trace {σ : Type} (T : Tabs) (op : Nat → σ → Act σ) : ∀ n (task : Task σ) (st st' : St σ) (s : Status), run T op n task st = some (st', s) →
    st'.cur = st.cur ∧ match task with
      | .nodes l => s = .ok ∧ ∃ c, st'.log = st.log ++ c ∧ OpsTrace T l c
      | .act i _ => ∃ b, st'.log = st.log ++ (b ++ [.done 2 i s]) ∧ BodyTrace T i b := by
  intro n
  induction n with
  | zero => intro task st st' s h; simp [run] at h
  | succ n ih =>
    intro task st st' s h
    match task with
    | .nodes [] =>
      simp only [run, Option.some.injEq, Prod.mk.injEq] at h
      obtain ⟨rfl, rfl⟩ := h
      exact ⟨rfl, rfl, [], by simp, .nil⟩
    | .nodes (i :: is) =>
      rw [run] at h
      split at h
      · cases h
      · rename_i st1 s1 h1
        rw [stops_false] at h
        obtain ⟨c1, b, l1, t1⟩ := ih _ _ _ _ h1
        obtain ⟨c2, e2, c, l2, t2⟩ := ih _ _ _ _ h
        refine ⟨c2.trans c1, e2, _, ?_, OpsTrace.cons (s := s1) t1 t2⟩
        rw [l2, l1]
        simp
    | .act i (.ret m s') =>
      simp only [run, Option.some.injEq, Prod.mk.injEq] at h
      obtain ⟨rfl, rfl⟩ := h
      exact ⟨rfl, [], by simp, .nil⟩
    | .act i (.lookup t k) =>
      rw [run] at h
      obtain ⟨c1, b, l1, t1⟩ := ih _ _ _ _ h
      refine ⟨c1, _, ?_, .looked (t := t) (p := T.position st.cur t) t1⟩
      rw [l1]
      simp
    | .act i (.call g m k) =>
      rw [run] at h
      split at h
      · cases h
      · rename_i st1 s1 h1
        obtain ⟨c1, e1, c, l1, t1⟩ := ih _ _ _ _ h1
        obtain ⟨c2, b, l2, t2⟩ := ih _ _ _ _ h
        refine ⟨c2, _, ?_, .call t1 t2⟩
        rw [l2, l1]
        simp

theorem own_append {T : Tabs} {a b : List Ev} : Own T (a ++ b) ↔ Own T a ∧ Own T b := by
  unfold Own
  constructor
  · intro h
    exact ⟨fun i t p hm => h i t p (List.mem_append_left _ hm), fun i t p hm => h i t p (List.mem_append_right _ hm)⟩
  · rintro ⟨h1, h2⟩ i t p hm
    rcases List.mem_append.1 hm with hm | hm
    · exact h1 i t p hm
    · exact h2 i t p hm

theorem own_none {T : Tabs} {a : List Ev} (h : ∀ i t p, Ev.looked i t p ∉ a) : Own T a := fun i t p hm => absurd hm (h i t p)

theorem run_own {σ : Type} (T : Tabs) (op : Nat → σ → Act σ) : ∀ n (task : Task σ) (st st' : St σ) (s : Status), run T op n task st = some (st', s) →
    (match task with
      | .nodes l => ∀ i ∈ l, i ∈ T.nodesOf st.cur
      | .act i _ => i ∈ T.nodesOf st.cur) → Own T st.log → Own T st'.log := by
  intro n
  induction n with
  | zero => intro task st st' s h; simp [run] at h
  | succ n ih =>
    intro task st st' s h hg hl
    match task with
    | .nodes [] =>
      simp only [run, Option.some.injEq, Prod.mk.injEq] at h
      obtain ⟨rfl, rfl⟩ := h
      exact hl
    | .nodes (i :: is) =>
      rw [run] at h
      split at h
      · cases h
      · rename_i st1 s1 h1
        rw [stops_false] at h
        have hc := (run_trace T op _ _ _ _ _ h1).1
        have h2 := ih _ _ _ _ h1 (hg i (by simp)) (own_append.2 ⟨hl, own_none (by simp)⟩)
        refine ih _ _ _ _ h ?_ h2
        intro j hj
        rw [hc]
        exact hg j (List.mem_cons_of_mem _ hj)
    | .act i (.ret m s') =>
      simp only [run, Option.some.injEq, Prod.mk.injEq] at h
      obtain ⟨rfl, rfl⟩ := h
      exact own_append.2 ⟨hl, own_none (by simp)⟩
    | .act i (.lookup t k) =>
      rw [run] at h
      refine ih _ _ _ _ h hg (own_append.2 ⟨hl, ?_⟩)
      intro i' t' p' hm
      simp only [List.mem_singleton, Ev.looked.injEq] at hm
      obtain ⟨rfl, rfl, rfl⟩ := hm
      exact ⟨st.cur, hg, rfl⟩
    | .act i (.call g m k) =>
      rw [run] at h
      split at h
      · cases h
      · rename_i st1 s1 h1
        have h2 := ih _ _ _ _ h1 (fun j hj => hj) (own_append.2 ⟨hl, own_none (by simp)⟩)
        exact ih _ _ _ _ h hg (own_append.2 ⟨h2, own_none (by simp)⟩)

/-- **C117.** `model_invoke`, when it returns: every operator of the model's first subgraph has been called once, in order, and likewise for each subgraph that an operator has
called; threads have been set up before and taken down after; the current subgraph is what it was. -/
theorem C117_invoke {σ : Type} (T : Tabs) (op : Nat → σ → Act σ) (n : Nat) (st st' : St σ) (s : Status) (h : modelInvoke T op n st = some (st', s)) :
    st'.cur = st.cur ∧ ∃ c, OpsTrace T (T.nodesOf 0) c ∧ st'.log = st.log ++ [.threads true, .enter 0] ++ c ++ [.leave 0, .threads false] := by
  unfold modelInvoke at h
  split at h
  · cases h
  · rename_i st1 s1 h1
    simp only [Option.some.injEq, Prod.mk.injEq] at h
    obtain ⟨rfl, rfl⟩ := h
    obtain ⟨-, -, c, l1, t1⟩ := run_trace T op _ _ _ _ _ h1
    exact ⟨rfl, c, t1, by simp [l1]⟩

/-- **C117.** Whatever subgraphs call each other, an operator's tensors are those of its own subgraph. -/
theorem C117_own_tensors {σ : Type} (T : Tabs) (op : Nat → σ → Act σ) (n : Nat) (st st' : St σ) (s : Status) (h : modelInvoke T op n st = some (st', s))
    (hl : Own T st.log) : Own T st'.log := by
  unfold modelInvoke at h
  split at h
  · cases h
  · rename_i st1 s1 h1
    simp only [Option.some.injEq, Prod.mk.injEq] at h
    obtain ⟨rfl, rfl⟩ := h
    have := run_own T op _ _ _ _ _ h1 (fun j hj => hj) (own_append.2 ⟨hl, own_none (by simp)⟩)
    exact own_append.2 ⟨this, own_none (by simp)⟩

theorem mem_nodesOf {T : Tabs} {g i : Nat} : i ∈ T.nodesOf g ↔ T.nodes.getD g 0 ≤ i ∧ i < T.nodes.getD (g + 1) 0 := by
  unfold Tabs.nodesOf
  simp only [List.mem_map, List.mem_range]
  constructor
  · rintro ⟨a, ha, rfl⟩; omega
  · intro h
    exact ⟨i - T.nodes.getD g 0, by omega, by omega⟩

/-- An operator belongs to one subgraph only, so that `Own` leaves no choice. -/
theorem C117_one_subgraph {T : Tabs} (hT : T.OK) {g g' i : Nat} (h : i ∈ T.nodesOf g) (h' : i ∈ T.nodesOf g') : g = g' := by
  have key : ∀ g g' : Nat, g < g' → i ∈ T.nodesOf g → i ∈ T.nodesOf g' → False := by
    intro g g' hlt h h'
    rw [mem_nodesOf] at h h'
    have hlen : g' + 1 < T.nodes.length := by
      by_contra hc
      have : T.nodes.getD (g' + 1) 0 = 0 := by
        rw [List.getD_eq_getElem?_getD, List.getElem?_eq_none (by omega)]; rfl
      omega
    have hle : T.nodes.getD (g + 1) 0 ≤ T.nodes.getD g' 0 := by
      rw [List.getD_eq_getElem?_getD, List.getD_eq_getElem?_getD, List.getElem?_eq_getElem (by omega), List.getElem?_eq_getElem (by omega)]
      show T.nodes[g + 1] ≤ T.nodes[g']
      rcases Nat.lt_or_ge (g + 1) g' with hc | hc
      · exact (List.pairwise_iff_getElem.1 hT.nodes) (g + 1) g' (by omega) (by omega) hc
      · have : g + 1 = g' := by omega
        subst this
        exact le_refl _
    omega
  rcases Nat.lt_trichotomy g g' with hc | hc | hc
  · exact (key _ _ hc h h').elim
  · exact hc
  · exact (key _ _ hc h' h).elim

/-! ### Errors -/

/-- **C117.** `model_invoke` never reports an error. -/
theorem C117_always_ok {σ : Type} (T : Tabs) (op : Nat → σ → Act σ) (n : Nat) (st st' : St σ) (s : Status) (h : modelInvoke T op n st = some (st', s)) : s = .ok := by
  unfold modelInvoke at h
  split at h
  · cases h
  · simp only [Option.some.injEq, Prod.mk.injEq] at h
    exact h.2.symm

/-- Three operators in one subgraph; the second fails. -/
def exT : Tabs := ⟨[0, 3], [0, 4], [0], [0, 1], [3], [0, 1]⟩
def exOp (i : Nat) (m : List Nat) : Act (List Nat) := .lookup i fun _ => .ret (m ++ [i]) (if i = 1 then .error 1 else .ok)

/-- **C117, refuted part.** An operator fails; the next operators run nevertheless, and `model_invoke` returns `kTfLiteOk`. -/
theorem C117_error_lost_refuted : ∃ st', modelInvoke exT exOp 10 ⟨0, [], []⟩ = some (st', .ok) ∧ Ev.done 2 1 (.error 1) ∈ st'.log ∧ st'.mem = [0, 1, 2] := by
  refine ⟨_, rfl, ?_, rfl⟩
  decide

/-! ### It returns -/

/-- Calls of the operator go to subgraphs below rank `k`. -/
inductive Act.Below {σ : Type} (r : Nat → Nat) (k : Nat) : Act σ → Prop
  | ret {m : σ} {s : Status} : Act.Below r k (.ret m s)
  | lookup {t : Nat} {c : Nat → Act σ} : (∀ p, Act.Below r k (c p)) → Act.Below r k (.lookup t c)
  | call {g : Nat} {m : σ} {c : σ → Status → Act σ} : r g < k → (∀ m' s, Act.Below r k (c m' s)) → Act.Below r k (.call g m c)

theorem run_mono {σ : Type} (T : Tabs) (op : Nat → σ → Act σ) : ∀ n (task : Task σ) (st : St σ) r, run T op n task st = some r → run T op (n + 1) task st = some r := by
  intro n
  induction n with
  | zero => intro task st r h; simp [run] at h
  | succ n ih =>
    intro task st r h
    match task with
    | .nodes [] => simpa only [run] using h
    | .nodes (i :: is) =>
      rw [run] at h ⊢
      split at h
      · cases h
      · rename_i st1 s1 h1
        rw [ih _ _ _ h1]
        dsimp only
        rw [stops_false] at h ⊢
        exact ih _ _ _ h
    | .act i (.ret m s') => simpa only [run] using h
    | .act i (.lookup t k) =>
      rw [run] at h ⊢
      exact ih _ _ _ h
    | .act i (.call g m k) =>
      rw [run] at h ⊢
      split at h
      · cases h
      · rename_i st1 s1 h1
        rw [ih _ _ _ h1]
        exact ih _ _ _ h

theorem run_le {σ : Type} (T : Tabs) (op : Nat → σ → Act σ) {n n' : Nat} (hn : n ≤ n') {task : Task σ} {st : St σ} {r} (h : run T op n task st = some r) :
    run T op n' task st = some r := by
  induction hn with
  | refl => exact h
  | step _ ih => exact run_mono _ _ _ _ _ _ ih

theorem run_returns {σ : Type} (T : Tabs) (op : Nat → σ → Act σ) (r : Nat → Nat) (hop : ∀ g, ∀ i ∈ T.nodesOf g, ∀ m, (op i m).Below r (r g)) :
    ∀ k, (∀ (i : Nat) (a : Act σ), a.Below r k → ∀ st, ∃ n x, run T op n (.act i a) st = some x) := by
  intro k
  induction k using Nat.strong_induction_on with
  | _ k ihk =>
    intro i a ha
    induction ha with
    | ret => intro st; exact ⟨1, _, rfl⟩
    | lookup _ ih =>
      intro st
      obtain ⟨n, x, hx⟩ := ih _ _
      exact ⟨n + 1, x, by rw [run]; exact hx⟩
    | @call g m c hg _ ih =>
      intro st
      have hl : ∀ (l : List Nat), (∀ j ∈ l, j ∈ T.nodesOf g) → ∀ st, ∃ n x, run T op n (.nodes l) st = some x := by
        intro l
        induction l with
        | nil => intro _ st; exact ⟨1, _, rfl⟩
        | cons j js ihl =>
          intro hj st
          obtain ⟨n1, x1, h1⟩ := ihk (r g) hg j (op j st.mem) (hop g j (hj j (by simp)) _) { st with log := st.log ++ [.start 2 j] }
          obtain ⟨n2, x2, h2⟩ := ihl (fun u hu => hj u (List.mem_cons_of_mem _ hu)) x1.1
          refine ⟨max n1 n2 + 1, x2, ?_⟩
          rw [run, run_le T op (Nat.le_max_left n1 n2) h1]
          dsimp only
          rw [stops_false]
          exact run_le T op (Nat.le_max_right n1 n2) h2
      obtain ⟨n1, x1, h1⟩ := hl (T.nodesOf g) (fun _ h => h) { cur := g, mem := m, log := st.log ++ [.enter g] }
      obtain ⟨n2, x2, h2⟩ := ih x1.1.mem x1.2 { cur := st.cur, mem := x1.1.mem, log := x1.1.log ++ [.leave g] }
      refine ⟨max n1 n2 + 1, x2, ?_⟩
      rw [run, run_le T op (Nat.le_max_left n1 n2) h1]
      exact run_le T op (Nat.le_max_right n1 n2) h2

/-- **C117.** `model_invoke` returns if subgraphs do not call themselves, directly or through others (operators call only subgraphs of lower rank `r`). -/
theorem C117_returns {σ : Type} (T : Tabs) (op : Nat → σ → Act σ) (r : Nat → Nat) (hop : ∀ g, ∀ i ∈ T.nodesOf g, ∀ m, (op i m).Below r (r g)) (st : St σ) :
    ∃ n st', modelInvoke T op n st = some (st', .ok) := by
  obtain ⟨n, x, hx⟩ := run_returns T op r hop (r 0 + 1) 0 (.call 0 st.mem fun m _ => .ret m .ok) (.call (by omega) fun _ _ => .ret)
    { st with log := st.log ++ [.threads true] }
  match n, hx with
  | n + 1, hx =>
    rw [run] at hx
    split at hx
    · cases hx
    · rename_i st1 s1 h1
      refine ⟨n, { st1 with cur := st.cur, log := st1.log ++ [.leave 0, .threads false] }, ?_⟩
      unfold modelInvoke
      have : st.log ++ [Ev.threads true, .enter 0] = st.log ++ [.threads true] ++ [.enter 0] := by simp
      rw [this, h1]

/-! ### `model_init` -/

/-- The calls that have ended: phase, node and status. -/
def calls (log : List Ev) : List (Nat × Nat × Status) := log.filterMap fun
  | .done p i s => some (p, i, s)
  | _ => none

theorem calls_append (a b : List Ev) : calls (a ++ b) = calls a ++ calls b := by simp [calls]

theorem prep_run {σ : Type} (T : Tabs) (ph i : Nat) (p : Prep σ) : ∀ st : St σ, ((p.run T ph i st).1.cur = st.cur) ∧
    calls (p.run T ph i st).1.log = calls st.log ++ [(ph, i, (p.run T ph i st).2)] ∧
    (i ∈ T.nodesOf st.cur → Own T st.log → Own T (p.run T ph i st).1.log) := by
  induction p with
  | ret m s => intro st; exact ⟨rfl, by simp [Prep.run, calls_append, calls], fun _ h => own_append.2 ⟨h, own_none (by simp)⟩⟩
  | lookup t k ih =>
    intro st
    obtain ⟨h1, h2, h3⟩ := ih (T.position st.cur t) { st with log := st.log ++ [.looked i t (T.position st.cur t)] }
    refine ⟨h1, ?_, fun hi h => h3 hi (own_append.2 ⟨h, ?_⟩)⟩
    · rw [Prep.run, h2]
      simp [calls_append, calls]
    · intro i' t' p' hm
      simp only [List.mem_singleton, Ev.looked.injEq] at hm
      obtain ⟨rfl, rfl, rfl⟩ := hm
      exact ⟨st.cur, hi, rfl⟩

/-- What calls of `f` on the nodes `l` should give: each once in order, all successful if `s` is ok, otherwise up to the first that fails, with status `s`.
If statuses are not checked (`check = false`), all. -/
inductive Called (ph : Nat) (check : Bool) : List Nat → List (Nat × Nat × Status) → Status → Prop
  | all {l : List Nat} {c : List (Nat × Nat × Status)} : c.map (fun x => (x.1, x.2.1)) = l.map (fun i => (ph, i)) → (check = true → ∀ x ∈ c, x.2.2 = .ok) → Called ph check l c .ok
  | failed {l l' : List Nat} {i : Nat} {c : List (Nat × Nat × Status)} {s : Status} : check = true → s ≠ .ok → c.map (fun x => (x.1, x.2.1)) = l.map (fun i => (ph, i)) →
      (∀ x ∈ c, x.2.2 = .ok) → Called ph check (l ++ i :: l') (c ++ [(ph, i, s)]) s

theorem Called.append {ph : Nat} {check : Bool} {l l' : List Nat} {c c' : List (Nat × Nat × Status)} {s : Status} (h : Called ph check l c .ok) (h' : Called ph check l' c' s) :
    Called ph check (l ++ l') (c ++ c') s := by
  cases h with
  | failed h1 h2 => exact absurd rfl h2
  | all h1 h2 =>
    cases h' with
    | all h3 h4 => exact .all (by simp [h1, h3]) fun hc x hx => (List.mem_append.1 hx).elim (h2 hc x) (h4 hc x)
    | failed hc hs h3 h4 =>
      rw [← List.append_assoc, ← List.append_assoc]
      exact .failed hc hs (by simp [h1, h3]) fun x hx => (List.mem_append.1 hx).elim (h2 hc x) (h4 x)

theorem Called.unchecked {ph : Nat} {l : List Nat} {c : List (Nat × Nat × Status)} {s : Status} (h : Called ph false l c s) : s = .ok := by
  generalize hb : false = b at h
  cases h with
  | all => rfl
  | failed hc => subst hb; cases hc

theorem Called.stop {ph : Nat} {check : Bool} {l l' : List Nat} {c : List (Nat × Nat × Status)} {s : Status} (h : Called ph check l c s) (hs : s ≠ .ok) :
    Called ph check (l ++ l') c s := by
  cases h with
  | all => exact absurd rfl hs
  | failed h1 h2 h3 h4 =>
    rw [List.append_assoc]
    exact .failed h1 h2 h3 h4

theorem prepNodes_calls {σ : Type} (T : Tabs) (ph : Nat) (check : Bool) (f : Nat → Option (σ → Prep σ)) : ∀ (l : List Nat) (st : St σ),
    (prepNodes T ph check f l st).1.cur = st.cur ∧
    (∃ c, calls (prepNodes T ph check f l st).1.log = calls st.log ++ c ∧ Called ph check (l.filter fun i => (f i).isSome) c (prepNodes T ph check f l st).2) ∧
    ((∀ i ∈ l, i ∈ T.nodesOf st.cur) → Own T st.log → Own T (prepNodes T ph check f l st).1.log) := by
  intro l
  induction l with
  | nil => intro st; exact ⟨rfl, ⟨[], by simp [prepNodes], .all rfl (by simp)⟩, fun _ h => h⟩
  | cons i is ih =>
    intro st
    rw [prepNodes]
    cases hf : f i with
    | none =>
      obtain ⟨h1, ⟨c, h2, h2'⟩, h3⟩ := ih st
      refine ⟨h1, ⟨c, h2, ?_⟩, fun hm => h3 fun j hj => hm j (List.mem_cons_of_mem _ hj)⟩
      rw [List.filter_cons, hf]
      exact h2'
    | some p =>
      dsimp only
      obtain ⟨q1, q2, q3⟩ := prep_run T ph i (p st.mem) { st with log := st.log ++ [.start ph i] }
      obtain ⟨r, hr⟩ : ∃ r, r = (p st.mem).run T ph i { st with log := st.log ++ [.start ph i] } := ⟨_, rfl⟩
      rw [← hr] at q1 q2 q3 ⊢
      have q2 : calls r.1.log = calls st.log ++ [(ph, i, r.2)] := by rw [q2]; simp [calls_append, calls]
      have q3 : i ∈ T.nodesOf st.cur → Own T st.log → Own T r.1.log := fun hi ho => q3 hi (own_append.2 ⟨ho, own_none (by simp)⟩)
      have hfil : (i :: is).filter (fun i => (f i).isSome) = [i] ++ is.filter fun i => (f i).isSome := by rw [List.filter_cons, hf]; rfl
      rw [hfil]
      split
      · rename_i hstop
        rw [Bool.and_eq_true, decide_eq_true_eq] at hstop
        refine ⟨q1, ⟨_, q2, ?_⟩, fun hm => q3 (hm i (by simp))⟩
        exact Called.failed (l := []) (c := []) hstop.1 hstop.2 rfl (by simp)
      · rename_i hgo
        obtain ⟨h1, ⟨c, h2, h2'⟩, h3⟩ := ih r.1
        refine ⟨h1.trans q1, ⟨[(ph, i, r.2)] ++ c, by rw [h2, q2]; simp, Called.append (.all rfl ?_) h2'⟩, fun hm ho => h3 ?_ (q3 (hm i (by simp)) ho)⟩
        · intro hc x hx
          rw [List.mem_singleton] at hx
          subst hx
          by_contra hne
          exact hgo (by rw [hc]; simpa using hne)
        · intro j hj
          rw [q1]
          exact hm j (List.mem_cons_of_mem _ hj)

theorem prepGraphs_calls {σ : Type} (T : Tabs) (ph : Nat) (check : Bool) (f : Nat → Option (σ → Prep σ)) : ∀ (gs : List Nat) (st : St σ),
    (∃ c, calls (prepGraphs T ph check f gs st).1.log = calls st.log ++ c ∧
      Called ph check ((gs.flatMap T.nodesOf).filter fun i => (f i).isSome) c (prepGraphs T ph check f gs st).2) ∧
    (Own T st.log → Own T (prepGraphs T ph check f gs st).1.log) := by
  intro gs
  induction gs with
  | nil => intro st; exact ⟨⟨[], by simp [prepGraphs], .all rfl (by simp)⟩, fun h => h⟩
  | cons g gs ih =>
    intro st
    rw [prepGraphs]
    obtain ⟨-, ⟨c, q2, q2'⟩, q3⟩ := prepNodes_calls T ph check f (T.nodesOf g) { st with cur := g }
    obtain ⟨r, hr⟩ : ∃ r, r = prepNodes T ph check f (T.nodesOf g) { st with cur := g } := ⟨_, rfl⟩
    rw [← hr] at q2 q2' q3 ⊢
    have hfil : ((g :: gs).flatMap T.nodesOf).filter (fun i => (f i).isSome) =
        (T.nodesOf g).filter (fun i => (f i).isSome) ++ (gs.flatMap T.nodesOf).filter fun i => (f i).isSome := by rw [List.flatMap_cons, List.filter_append]
    rw [hfil]
    split
    · rename_i hstop
      rw [Bool.and_eq_true, decide_eq_true_eq] at hstop
      exact ⟨⟨c, q2, q2'.stop hstop.2⟩, q3 fun _ h => h⟩
    · rename_i hgo
      obtain ⟨⟨c', h2, h2'⟩, h3⟩ := ih r.1
      have hok : r.2 = .ok := by
        cases hc : check with
        | false => rw [hc] at q2'; exact q2'.unchecked
        | true =>
          by_contra hs
          exact hgo (by rw [hc]; simpa using hs)
      rw [hok] at q2'
      exact ⟨⟨c ++ c', by rw [h2, q2]; simp, q2'.append h2'⟩, fun ho => h3 (q3 (fun _ h => h) ho)⟩

theorem init_calls {σ : Type} (T : Tabs) (init prepare : Nat → Option (σ → Prep σ)) (st : St σ) :
    (∃ ci cp, calls (modelInit T init prepare st).1.log = calls st.log ++ ci ++ cp ∧
      Called 0 false (((List.range T.numSubgraphs).flatMap T.nodesOf).filter fun i => (init i).isSome) ci .ok ∧
      Called 1 true (((List.range T.numSubgraphs).flatMap T.nodesOf).filter fun i => (prepare i).isSome) cp (modelInit T init prepare st).2) ∧
    ((modelInit T init prepare st).2 = .ok → (modelInit T init prepare st).1.cur = 0) ∧
    (Own T st.log → Own T (modelInit T init prepare st).1.log) := by
  unfold modelInit
  dsimp only
  obtain ⟨⟨ci, h1, h1'⟩, h2⟩ := prepGraphs_calls T 0 false init (List.range T.numSubgraphs) st
  obtain ⟨r, hr⟩ : ∃ r, r = prepGraphs T 0 false init (List.range T.numSubgraphs) st := ⟨_, rfl⟩
  rw [← hr] at h1 h1' h2 ⊢
  have hok : r.2 = .ok := h1'.unchecked
  rw [hok] at h1'
  obtain ⟨⟨cp, h3, h3'⟩, h4⟩ := prepGraphs_calls T 1 true prepare (List.range T.numSubgraphs) { r.1 with cur := 0 }
  obtain ⟨q, hq⟩ : ∃ q, q = prepGraphs T 1 true prepare (List.range T.numSubgraphs) { r.1 with cur := 0 } := ⟨_, rfl⟩
  rw [← hq] at h3 h3' h4 ⊢
  have h3 : calls q.1.log = calls st.log ++ ci ++ cp := by rw [h3, ← h1]
  split
  · rename_i hne
    exact ⟨⟨ci, cp, h3, h1', h3'⟩, fun h => absurd h hne, fun ho => h4 (h2 ho)⟩
  · rename_i he
    have he : q.2 = .ok := by simpa using he
    rw [he] at h3'
    exact ⟨⟨ci, cp, h3, h1', h3'⟩, fun _ => rfl, fun ho => h4 (h2 ho)⟩

theorem nodes_upto (T : Tabs) (h0 : T.nodes.getD 0 0 = 0) (hm : T.nodes.Pairwise (· ≤ ·)) : ∀ n, n < T.nodes.length →
    (List.range n).flatMap T.nodesOf = List.range (T.nodes.getD n 0)
  | 0, _ => by rw [h0]; rfl
  | n + 1, hn => by
    have hle : T.nodes.getD n 0 ≤ T.nodes.getD (n + 1) 0 := by
      rw [List.getD_eq_getElem?_getD, List.getD_eq_getElem?_getD, List.getElem?_eq_getElem (by omega), List.getElem?_eq_getElem hn]
      exact (List.pairwise_iff_getElem.1 hm) n (n + 1) (by omega) hn (by omega)
    rw [List.range_succ, List.flatMap_append, nodes_upto T h0 hm n (by omega)]
    simp only [List.flatMap_cons, List.flatMap_nil, List.append_nil, Tabs.nodesOf]
    rw [← List.range_add]
    congr 1
    omega

theorem all_nodes {T : Tabs} (hT : T.OK) : (List.range T.numSubgraphs).flatMap T.nodesOf = List.range T.numNodes := by
  unfold Tabs.numSubgraphs Tabs.numNodes
  rw [← hT.same]
  cases hl : T.nodes with
  | nil => simp
  | cons x l =>
    rw [← hl, nodes_upto T hT.nodes0 hT.nodes _ (by rw [hl]; simp), List.getLast?_eq_getElem?, List.getD_eq_getElem?_getD]

/-- **C117.** `model_init`: every operator's `init`, subgraph after subgraph, then every operator's `prepare` in the same order up to the first that fails, whose
status is returned; without a failure all are called, the status is ok and subgraph 0 is the current one.  All find the tensors of their own subgraph. -/
theorem C117_init {σ : Type} {T : Tabs} (hT : T.OK) (init prepare : Nat → Option (σ → Prep σ)) (st : St σ) :
    (∃ ci cp, calls (modelInit T init prepare st).1.log = calls st.log ++ ci ++ cp ∧
      Called 0 false ((List.range T.numNodes).filter fun i => (init i).isSome) ci .ok ∧
      Called 1 true ((List.range T.numNodes).filter fun i => (prepare i).isSome) cp (modelInit T init prepare st).2) ∧
    ((modelInit T init prepare st).2 = .ok → (modelInit T init prepare st).1.cur = 0) ∧
    (Own T st.log → Own T (modelInit T init prepare st).1.log) := by
  rw [← all_nodes hT]
  exact init_calls T init prepare st

/-! ### Inputs, outputs and shapes -/

/-- **C117.** The model's inputs and outputs are those of its first subgraph. -/
theorem C117_inputs {T : Tabs} (hT : T.OK) (i : Nat) : T.modelIn i = T.graphIn 0 i ∧ T.modelOut i = T.graphOut 0 i := by
  unfold Tabs.modelIn Tabs.graphIn Tabs.modelOut Tabs.graphOut
  rw [hT.tensors0, hT.ins0, hT.outs0]
  simp

/-- **C117, refuted part.** An index that is too large is not noticed: `model_input(1)` of a model with one input and a second subgraph is some tensor of the model. -/
theorem C117_index_refuted : ∃ T : Tabs, T.OK ∧ T.numIn 0 = 1 ∧ T.modelIn 1 = 2 ∧ T.graphIn 1 0 = 12 :=
  ⟨⟨[0, 1, 2], [0, 10, 20], [0, 2], [0, 1, 2], [1, 3], [0, 1, 2]⟩, ⟨by decide, rfl, rfl, rfl, rfl, rfl⟩, rfl, rfl, rfl⟩

/-- **C117, refuted part.** The accessors of the shape leave out the first dimension and return it as the number of dimensions. -/
theorem C117_dims (d : Nat) (ds : List Nat) : dimsLen (d :: ds) = d ∧ dimsPtr (d :: ds) = ds := ⟨rfl, rfl⟩

theorem C117_dims_refuted : dimsLen [1, 1, 257] ≠ [1, 1, 257].length ∧ (dimsPtr [1, 1, 257]).take (dimsLen [1, 1, 257]) = [1] := by decide

/-- The accessors give the shape only if the first dimension is the number of the others. -/
theorem C117_dims_exactly (dims : List Nat) : (dimsLen dims = (dimsPtr dims).length ∧ dims ≠ []) ↔ ∃ d ds, dims = d :: ds ∧ d = ds.length := by
  cases dims with
  | nil => simp
  | cons d ds => simp [dimsLen, dimsPtr]

/-! ### An example with two subgraphs -/

/-- Subgraph 0 has operators 0 and 1, subgraph 1 has operator 2.  Operator 0 looks at its tensor, calls subgraph 1 twice and looks again. -/
def exT2 : Tabs := ⟨[0, 2, 3], [0, 10, 20], [0, 2], [0, 1, 2], [1, 3], [0, 1, 2]⟩
def exOp2 (i : Nat) (m : List Nat) : Act (List Nat) :=
  if i = 0 then .lookup 5 fun _ => .call 1 m fun m1 _ => .call 1 m1 fun m2 _ => .lookup 6 fun _ => .ret m2 .ok
  else .lookup 7 fun p => .ret (m ++ [p]) .ok

theorem C117_example : exT2.OK ∧ (∀ g, ∀ i ∈ exT2.nodesOf g, ∀ m, (exOp2 i m).Below (fun g => 1 - g) (1 - g)) ∧
    ∃ st', modelInvoke exT2 exOp2 20 ⟨0, [], []⟩ = some (st', .ok) ∧ st'.mem = [17, 17, 7] ∧ st'.log =
      [.threads true, .enter 0, .start 2 0, .looked 0 5 5, .enter 1, .start 2 2, .looked 2 7 17, .done 2 2 .ok, .leave 1, .enter 1, .start 2 2, .looked 2 7 17, .done 2 2 .ok, .leave 1,
        .looked 0 6 6, .done 2 0 .ok, .start 2 1, .looked 1 7 7, .done 2 1 .ok, .leave 0, .threads false] := by
  refine ⟨⟨by decide, rfl, rfl, rfl, rfl, rfl⟩, ?_, ?_⟩
  · intro g i hi m
    unfold exOp2
    split
    · rename_i h0
      have : g = 0 := by
        rw [mem_nodesOf] at hi
        match g with
        | 0 => rfl
        | 1 => have := hi.1; simp [exT2] at this; omega
        | 2 => have := hi.2; simp [exT2] at this
        | g + 3 => have := hi.2; simp [exT2] at this
      subst this
      exact .lookup fun _ => .call (by decide) fun _ _ => .call (by decide) fun _ _ => .lookup fun _ => .ret
    · exact .lookup fun _ => .ret
  · exact ⟨_, rfl, rfl, by decide⟩

/-! ### Tables of any model -/

theorem starts_get (l : List Nat) (g : Nat) (h : g ≤ l.length) : (starts l).getD g 0 = (l.take g).sum := by
  unfold starts
  rw [List.getD_eq_getElem?_getD, List.getElem?_map, List.getElem?_range (by omega)]
  rfl

theorem take_succ_sum (l : List Nat) (g n : Nat) (h : l[g]? = some n) : (l.take (g + 1)).sum = (l.take g).sum + n := by
  rw [List.take_add_one, h]
  simp

theorem flat_get (f : Sub → List Nat) : ∀ (gs : List Sub) (g i : Nat) (s : Sub), gs[g]? = some s → i < (f s).length →
    (gs.flatMap f).getD (((gs.map fun s => (f s).length).take g).sum + i) 0 = (f s).getD i 0
  | [], g, i, s, h, _ => by simp at h
  | x :: gs, 0, i, s, h, hi => by
    simp only [List.getElem?_cons_zero, Option.some.injEq] at h
    subst h
    simp [List.getD_eq_getElem?_getD, List.getElem?_append_left hi]
  | x :: gs, g + 1, i, s, h, hi => by
    have := flat_get f gs g i s (by simpa using h) hi
    simp only [List.map_cons, List.take_succ_cons, List.sum_cons, List.flatMap_cons]
    rw [List.getD_eq_getElem?_getD, List.getElem?_append_right (by omega), ← this, List.getD_eq_getElem?_getD]
    congr 2
    omega

theorem starts_length (l : List Nat) : (starts l).length = l.length + 1 := by simp [starts]

theorem starts_sorted (l : List Nat) : (starts l).Pairwise (· ≤ ·) := by
  unfold starts
  rw [List.pairwise_map]
  refine List.Pairwise.imp ?_ List.pairwise_lt_range
  intro a b h
  obtain ⟨c, rfl⟩ := Nat.exists_eq_add_of_lt h
  rw [show a + c + 1 = a + (c + 1) by omega, List.take_add]
  simp

/-- **C117.** The tables of any model: they meet the conditions of the theorems, and the runtime finds in them the subgraphs, and of each subgraph its
operators, the number of its inputs and outputs, and its tensors that these are. -/
theorem C117_tables (gs : List Sub) :
    (tables gs).OK ∧ (tables gs).numSubgraphs = gs.length ∧ (tables gs).numNodes = (gs.map (·.nodes)).sum ∧
    ∀ (g : Nat) (s : Sub), gs[g]? = some s →
      (tables gs).nodesOf g = List.range' (((gs.map (·.nodes)).take g).sum) s.nodes ∧
      (tables gs).numIn g = s.ins.length ∧ (tables gs).numOut g = s.outs.length ∧
      (∀ (i t : Nat), s.ins[i]? = some t → (tables gs).graphIn g i = ((gs.map (·.tensors)).take g).sum + t) ∧
      (∀ (i t : Nat), s.outs[i]? = some t → (tables gs).graphOut g i = ((gs.map (·.tensors)).take g).sum + t) := by
  refine ⟨⟨starts_sorted _, ?_, ?_, ?_, ?_, ?_⟩, ?_, ?_, ?_⟩
  · exact (starts_get _ 0 (by omega)).trans rfl
  · simp [tables, starts_length]
  · exact (starts_get _ 0 (by omega)).trans rfl
  · exact (starts_get _ 0 (by omega)).trans rfl
  · exact (starts_get _ 0 (by omega)).trans rfl
  · simp [tables, Tabs.numSubgraphs, starts_length]
  · have h := starts_get (gs.map (·.nodes)) (gs.map (·.nodes)).length (le_refl _)
    rw [List.take_length] at h
    rw [← h]
    unfold Tabs.numNodes tables
    simp only [List.getLast?_eq_getElem?, starts_length, List.getD_eq_getElem?_getD, Nat.add_sub_cancel]
  · intro g s hs
    have hg : g < gs.length := (List.getElem?_eq_some_iff.1 hs).1
    have sz : ∀ f : Sub → Nat, (starts (gs.map f)).getD (g + 1) 0 = ((gs.map f).take g).sum + f s ∧
        (starts (gs.map f)).getD g 0 = ((gs.map f).take g).sum := by
      intro f
      refine ⟨?_, starts_get _ _ (by simp; omega)⟩
      rw [starts_get _ _ (by simp; omega), take_succ_sum _ _ (f s) (by simp [hs])]
    refine ⟨?_, ?_, ?_, ?_, ?_⟩
    · unfold Tabs.nodesOf tables
      simp only [(sz (·.nodes)).1, (sz (·.nodes)).2, Nat.add_sub_cancel_left]
      rw [List.range'_eq_map_range]
    · unfold Tabs.numIn tables
      simp only [(sz (·.ins.length)).1, (sz (·.ins.length)).2, Nat.add_sub_cancel_left]
    · unfold Tabs.numOut tables
      simp only [(sz (·.outs.length)).1, (sz (·.outs.length)).2, Nat.add_sub_cancel_left]
    · intro i t ht
      have hi := (List.getElem?_eq_some_iff.1 ht).1
      unfold Tabs.graphIn tables
      simp only [(sz (·.ins.length)).2, (sz (·.tensors)).2]
      rw [flat_get (·.ins) gs g i s hs hi, List.getD_eq_getElem?_getD, ht]
      rfl
    · intro i t ht
      have hi := (List.getElem?_eq_some_iff.1 ht).1
      unfold Tabs.graphOut tables
      simp only [(sz (·.outs.length)).2, (sz (·.tensors)).2]
      rw [flat_get (·.outs) gs g i s hs hi, List.getD_eq_getElem?_getD, ht]
      rfl

/-- The shipped model's tables (model_audioi16.tflite.cpp 13438-13455) are of this form, with one subgraph. -/
theorem C117_shipped : tables [⟨89, 181, [0, 1], [179, 180]⟩] = ⟨[0, 89], [0, 181], [0, 1], [0, 2], [179, 180], [0, 2]⟩ := rfl

end Verif.Shipped.Control
