import Verif.MemPlan.PlanLemmas
import Mathlib.Order.MinMax
import Mathlib.Order.Lattice
import Mathlib.Algebra.Order.Group.Int
/-! Helper lemmas: the in-place (overlap) analysis. -/
namespace Verif.MemPlan

theorem maxCases (a b : Int) : (max a b = a ∧ b ≤ a) ∨ (max a b = b ∧ a < b) := by omega

/-! ### Uses -/

theorem sum_two {α : Type} (g : α → Nat) (l : List α) (i j : Nat) (hij : i < j) (hj : j < l.length)
    (h1 : 1 ≤ g (l[i])) (h2 : 1 ≤ g (l[j])) : 2 ≤ (l.map g).sum := by
  induction l generalizing i j with
  | nil => simp at hj
  | cons x xs ih =>
    have one : ∀ (l : List α) (k : Nat) (hk : k < l.length), 1 ≤ g (l[k]) → 1 ≤ (l.map g).sum := by
      intro l
      induction l with
      | nil => intro k hk; simp at hk
      | cons y ys ih =>
        intro k hk h
        cases k with
        | zero => simp at h ⊢; omega
        | succ k =>
          have := ih k (by simpa using hk) (by simpa using h)
          simp at this ⊢; omega
    cases j with
    | zero => omega
    | succ j =>
      cases i with
      | zero =>
        have := one xs j (by simpa using hj) (by simpa using h2)
        simp at h1 this ⊢; omega
      | succ i =>
        have := ih i j (by omega) (by simpa using hj) (by simpa using h1) (by simpa using h2)
        simp at this ⊢; omega

theorem numUses_unique {f : Func} {v i j : Nat} (h : f.numUses v = 1) (hi : f.UsedAt v i)
    (hj : f.UsedAt v j) : i = j := by
  have key : ∀ i j, i < j → f.UsedAt v i → f.UsedAt v j → False := by
    intro i j hij hi hj
    have h1 : 1 ≤ (f.ops[i]'hi.1).operands.count v := by
      have := hi.2; rw [op_eq f hi.1] at this; exact List.count_pos_iff.2 this
    have h2 : 1 ≤ (f.ops[j]'hj.1).operands.count v := by
      have := hj.2; rw [op_eq f hj.1] at this; exact List.count_pos_iff.2 this
    have := sum_two (fun o : Op => o.operands.count v) f.ops i j hij hj.1 h1 h2
    unfold Func.numUses at h; omega
  rcases Nat.lt_trichotomy i j with h' | h' | h'
  · exact (key i j h' hi hj).elim
  · exact h'
  · exact (key j i h' hj hi).elim

theorem userOf_used {f : Func} {v j : Nat} (h : f.userOf v = some j) : f.UsedAt v j := by
  unfold Func.userOf at h
  obtain ⟨hj, h1, _⟩ := List.findIdx?_eq_some_iff_getElem.1 h
  refine ⟨hj, ?_⟩
  rw [op_eq f hj]
  simpa using h1

theorem userOf_of_used {f : Func} {v j : Nat} (h : f.UsedAt v j) (h1 : f.numUses v = 1) :
    f.userOf v = some j := by
  cases hu : f.userOf v with
  | none =>
    unfold Func.userOf at hu
    have := List.findIdx?_eq_none_iff.1 hu (f.ops[j]'h.1) (List.getElem_mem _)
    have h2 := h.2; rw [op_eq f h.1] at h2
    simp [h2] at this
  | some i =>
    rw [numUses_unique h1 (userOf_used hu) h]

/-! ### In-place steps and chains -/

theorem InPlaceChain.trans {f : Func} {a b c : Nat} (h1 : f.InPlaceChain a b)
    (h2 : f.InPlaceChain b c) : f.InPlaceChain a c := by
  induction h1 with
  | single h => exact .cons h h2
  | cons h _ ih => exact .cons h (ih h2)

/-- `v` is dead once `w` is produced, and exists before. -/
def Before (f : Func) (v w : Nat) : Prop :=
  ∃ j, f.DefinedAt w j ∧ (∀ q, f.UsedAt v q → q ≤ j) ∧ (f.IsArg v ∨ ∃ i, f.DefinedAt v i ∧ i < j)

theorem step_before {f : Func} (wf : f.WF) (ip : f.InPlaceOK) {v w : Nat} (h : f.InPlaceStep v w) :
    Before f v w := by
  obtain ⟨j, hu, ho, hq, rfl⟩ := h
  exact ⟨j, result0_definedAt f hu.1 (ip.proper j hu.1 ho).2.2, fun q h => le_of_eq (hq q h),
    wf.dominated j v hu⟩

theorem chain_before {f : Func} (wf : f.WF) (ip : f.InPlaceOK) {v w : Nat} (h : f.InPlaceChain v w) :
    Before f v w := by
  induction h with
  | single h => exact step_before wf ip h
  | @cons v u w h _ ih =>
    obtain ⟨j, hd, hu, hdef⟩ := step_before wf ip h
    obtain ⟨j', hd', _, hdef'⟩ := ih
    have hlt : j < j' := by
      rcases hdef' with ha | ⟨i, hi, hlt⟩
      · exact absurd ha (definedAt_not_arg f hd)
      · rw [definedAt_unique f hd hi]; exact hlt
    refine ⟨j', hd', fun q h => le_trans (hu q h) (le_of_lt hlt), ?_⟩
    rcases hdef with ha | ⟨i, hi, hl⟩
    · exact Or.inl ha
    · exact Or.inr ⟨i, hi, lt_trans hl hlt⟩

theorem before_irrefl {f : Func} {v : Nat} (h : Before f v v) : False := by
  obtain ⟨j, hd, _, hdef⟩ := h
  rcases hdef with ha | ⟨i, hi, hl⟩
  · exact definedAt_not_arg f hd ha
  · have := definedAt_unique f hd hi; omega

theorem arena_first_le_last {f : Func} (wf : f.WF) {v : Nat} (hv : f.Arena v) :
    (f.vinfo v).first ≤ (f.vinfo v).last := by
  rw [first_eq f hv, last_eq wf hv]
  exact cnt_mono f (startPos_le_endPos f v)

theorem result0_arena {f : Func} (ip : f.InPlaceOK) {j : Nat} (hj : j < f.ops.length)
    (ho : (f.op j).overlappable = true) : f.Arena (f.result0 j) := by
  obtain ⟨h1, h2, h3⟩ := ip.proper j hj ho
  have hd := result0_definedAt f hj h3
  have hc := definedAt_isConst f hd
  rw [h1, h2] at hc
  exact ⟨decl_const_oob f (by simpa using hc), by simpa using hc⟩

theorem step_ranges {f : Func} (wf : f.WF) (ip : f.InPlaceOK) {v w : Nat} (hv : f.Arena v)
    (h : f.InPlaceStep v w) : (f.vinfo v).last = (f.vinfo w).first := by
  obtain ⟨j, hu, ho, hq, rfl⟩ := h
  have hw := result0_arena ip hu.1 ho
  have hd := result0_definedAt f hu.1 (ip.proper j hu.1 ho).2.2
  rw [last_eq wf hv, first_eq f hw, startPos_def f hd]
  have h1 := endPos_use f hu
  rcases endPos_cases f v with h | h
  · have : f.startPos v ≤ j := by
      rcases wf.dominated j v hu with ha | ⟨i, hi, hl⟩
      · rw [startPos_arg f ha]; omega
      · rw [startPos_def f hi]; omega
    rw [show f.endPos v = j by omega]
  · rw [hq _ h]

theorem chain_arena {f : Func} (ip : f.InPlaceOK) {v w : Nat} (h : f.InPlaceChain v w) : f.Arena w := by
  induction h with
  | single h =>
    obtain ⟨j, hu, ho, _, rfl⟩ := h
    exact result0_arena ip hu.1 ho
  | cons _ _ ih => exact ih

theorem step_arena {f : Func} (ip : f.InPlaceOK) {v w : Nat} (h : f.InPlaceStep v w) : f.Arena w :=
  chain_arena ip (.single h)

theorem chain_ranges {f : Func} (wf : f.WF) (ip : f.InPlaceOK) {v w : Nat} (hv : f.Arena v)
    (h : f.InPlaceChain v w) : (f.vinfo v).last ≤ (f.vinfo w).first := by
  induction h with
  | single h => exact le_of_eq (step_ranges wf ip hv h)
  | @cons v u w h _ ih =>
    have hu := step_arena ip h
    have := step_ranges wf ip hv h
    have h2 := arena_first_le_last wf hu
    have h3 := ih hu
    omega

/-! ### The chain-extending loop -/

/-- What `chainLoop` delivers, for a start in `[inVal]`, output `result0 j`. -/
structure ChainSpec (f : Func) (j : Nat) (vis0 : List Nat) (x : Nat) (c : Chain) : Prop where
  head : ∃ t, c.inputs = x :: t
  nodupChain : c.inputs.Nodup
  /-- every input leads to the output -/
  toOut : ∀ u ∈ c.inputs, f.InPlaceChain u c.out
  fromHead : ∀ u ∈ c.inputs, u = x ∨ f.InPlaceChain x u
  comparable : ∀ u ∈ c.inputs, ∀ w ∈ c.inputs, u = w ∨ f.InPlaceChain u w ∨ f.InPlaceChain w u
  rawLe : ∀ u ∈ c.inputs, f.raw u ≤ f.raw c.out
  rawStep : ∀ u ∈ c.inputs, ∀ q, f.UsedAt u q → f.raw u ≤ f.raw (f.result0 q)
  visMono : ∀ q ∈ vis0, q ∈ c.visited
  visNew : ∀ q ∈ c.visited, q ∈ vis0 ∨ j ≤ q
  visLt : ∀ q ∈ c.visited, q ∈ vis0 ∨ q < f.ops.length
  /-- inputs: single use by a newly visited op -/
  inUser : ∀ u ∈ c.inputs, f.numUses u = 1 ∧ ∃ q, f.UsedAt u q ∧ q ∈ c.visited ∧ q ∉ vis0 ∧ j ≤ q
  /-- produced values: results of newly visited ops -/
  inProd : ∀ u ∈ c.inputs, u = x ∨ ∃ q, u = f.result0 q ∧ q ∈ c.visited ∧ q ∉ vis0 ∧ j ≤ q ∧
    q < f.ops.length ∧ (f.op q).overlappable = true
  outProd : ∃ q, c.out = f.result0 q ∧ q ∈ c.visited ∧ q ∉ vis0 ∧ j ≤ q ∧
    q < f.ops.length ∧ (f.op q).overlappable = true
  closed : f.numUses c.out = 1 → ∀ q, f.UsedAt c.out q → (f.op q).overlappable = true → q ∈ c.visited

/-- Loop invariant: as `ChainSpec` without `closed`. -/
structure ChainInv (f : Func) (j : Nat) (vis0 : List Nat) (x : Nat) (inVal outVal : Nat)
    (inputs visited : List Nat) : Prop where
  head : ∃ t, inputs = x :: t
  nodupChain : inputs.Nodup
  inMem : inVal ∈ inputs
  toOut : ∀ u ∈ inputs, f.InPlaceChain u outVal
  fromHead : ∀ u ∈ inputs, u = x ∨ f.InPlaceChain x u
  comparable : ∀ u ∈ inputs, ∀ w ∈ inputs, u = w ∨ f.InPlaceChain u w ∨ f.InPlaceChain w u
  rawLe : ∀ u ∈ inputs, f.raw u ≤ f.raw outVal
  rawStep : ∀ u ∈ inputs, ∀ q, f.UsedAt u q → f.raw u ≤ f.raw (f.result0 q)
  visMono : ∀ q ∈ vis0, q ∈ visited
  visNew : ∀ q ∈ visited, q ∈ vis0 ∨ j ≤ q
  visLt : ∀ q ∈ visited, q ∈ vis0 ∨ q < f.ops.length
  inUser : ∀ u ∈ inputs, f.numUses u = 1 ∧ ∃ q, f.UsedAt u q ∧ q ∈ visited ∧ q ∉ vis0 ∧ j ≤ q
  inProd : ∀ u ∈ inputs, u = x ∨ ∃ q, u = f.result0 q ∧ q ∈ visited ∧ q ∉ vis0 ∧ j ≤ q ∧
    q < f.ops.length ∧ (f.op q).overlappable = true
  outProd : ∃ q, outVal = f.result0 q ∧ q ∈ visited ∧ q ∉ vis0 ∧ j ≤ q ∧
    q < f.ops.length ∧ (f.op q).overlappable = true

theorem chainLoop_spec {f : Func} (wf : f.WF) (ip : f.InPlaceOK) (j : Nat) (vis0 : List Nat) (x : Nat)
    (inVal outVal : Nat) (inputs visited : List Nat)
    (h : ChainInv f j vis0 x inVal outVal inputs visited) :
    ChainSpec f j vis0 x (chainLoop f inVal outVal inputs visited) := by
  fun_induction chainLoop f inVal outVal inputs visited with
  | case1 inVal outVal inputs visited hu =>
    refine ⟨h.head, h.nodupChain, h.toOut, h.fromHead, h.comparable, h.rawLe, h.rawStep, h.visMono, h.visNew,
      h.visLt, h.inUser, h.inProd, h.outProd, ?_⟩
    intro h1 q hq _
    have := userOf_of_used hq h1
    rw [hu] at this; simp at this
  | case2 inVal outVal inputs visited nextOp hu hc ih =>
    apply ih
    obtain ⟨h1, hnv, hov, hraw⟩ := hc
    have hused := userOf_used hu
    obtain ⟨p, hp, hpv, hp0, hjp, hpl, hpo⟩ := h.outProd
    have hstep : f.InPlaceStep outVal (f.result0 nextOp) :=
      ⟨nextOp, hused, hov, fun q hq => numUses_unique h1 hq hused, rfl⟩
    have hpd : f.DefinedAt outVal p := by
      rw [hp]; exact result0_definedAt f hpl (ip.proper p hpl hpo).2.2
    have hlt : p < nextOp := by
      rcases wf.dominated nextOp outVal hused with ha | ⟨i, hi, hl⟩
      · exact absurd ha (definedAt_not_arg f hpd)
      · rw [definedAt_unique f hpd hi]; exact hl
    have hnew0 : nextOp ∉ vis0 := fun hm => hnv (h.visMono _ hm)
    have hrawn : f.raw outVal ≤ f.raw (f.result0 nextOp) := by
      rw [hp]
      exact ip.noShrink p nextOp hpl hpo hused.1 hov (by rw [← hp]; exact hused)
    have hnotin : outVal ∉ inputs := fun hm => before_irrefl (chain_before wf ip (h.toOut _ hm))
    refine ⟨?_, ?_, by simp, ?_, ?_, ?_, ?_, ?_, ?_, ?_, ?_, ?_, ?_, ?_⟩
    · obtain ⟨t, ht⟩ := h.head
      exact ⟨t ++ [outVal], by rw [ht]; simp⟩
    · rw [List.nodup_append]
      refine ⟨h.nodupChain, by simp, ?_⟩
      intro a ha b hb hab
      simp at hb; subst hb; subst hab
      exact hnotin ha
    · intro u hm
      rcases List.mem_append.1 hm with hm | hm
      · exact InPlaceChain.trans (h.toOut u hm) (.single hstep)
      · simp at hm; subst hm; exact .single hstep
    · intro u hm
      rcases List.mem_append.1 hm with hm | hm
      · exact h.fromHead u hm
      · simp at hm; subst hm
        obtain ⟨t, ht⟩ := h.head
        exact Or.inr (h.toOut x (by rw [ht]; simp))
    · intro u hm w hw
      rcases List.mem_append.1 hm with hm' | hm' <;> rcases List.mem_append.1 hw with hw' | hw'
      · exact h.comparable u hm' w hw'
      · simp at hw'; subst hw'; exact Or.inr (Or.inl (h.toOut u hm'))
      · simp at hm'; subst hm'; exact Or.inr (Or.inr (h.toOut w hw'))
      · simp at hm' hw'; subst hm'; subst hw'; exact Or.inl rfl
    · intro u hm
      rcases List.mem_append.1 hm with hm | hm
      · exact le_trans (h.rawLe u hm) hrawn
      · simp at hm; subst hm; exact hrawn
    · intro u hm q hq
      rcases List.mem_append.1 hm with hm | hm
      · exact h.rawStep u hm q hq
      · simp at hm; subst hm
        rw [numUses_unique h1 hq hused]; exact hrawn
    · intro q hq; exact List.mem_cons_of_mem _ (h.visMono q hq)
    · intro q hq
      rcases List.mem_cons.1 hq with rfl | hq
      · exact Or.inr (by omega)
      · exact h.visNew q hq
    · intro q hq
      rcases List.mem_cons.1 hq with rfl | hq
      · exact Or.inr hused.1
      · exact h.visLt q hq
    · intro u hm
      rcases List.mem_append.1 hm with hm | hm
      · obtain ⟨a, q, b, c, d, e⟩ := h.inUser u hm
        exact ⟨a, q, b, List.mem_cons_of_mem _ c, d, e⟩
      · simp at hm; subst hm
        exact ⟨h1, nextOp, hused, by simp, hnew0, by omega⟩
    · intro u hm
      rcases List.mem_append.1 hm with hm | hm
      · rcases h.inProd u hm with a | ⟨q, a, b, c, d, e, g⟩
        · exact Or.inl a
        · exact Or.inr ⟨q, a, List.mem_cons_of_mem _ b, c, d, e, g⟩
      · simp at hm; subst hm
        exact Or.inr ⟨p, hp, List.mem_cons_of_mem _ hpv, hp0, hjp, hpl, hpo⟩
    · exact ⟨nextOp, rfl, by simp, hnew0, by omega, hused.1, hov⟩
  | case3 inVal outVal inputs visited nextOp hu hc =>
    refine ⟨h.head, h.nodupChain, h.toOut, h.fromHead, h.comparable, h.rawLe, h.rawStep, h.visMono, h.visNew,
      h.visLt, h.inUser, h.inProd, h.outProd, ?_⟩
    intro h1 q hq ho
    have : q = nextOp := numUses_unique h1 hq (userOf_used hu)
    subst this
    by_contra hnv
    exact hc ⟨h1, hnv, ho, h.rawLe _ h.inMem⟩

/-! ### The loop over operations -/

theorem pickInput_spec {f : Func} {vi : VMap} {o : Op} {x : Nat} (h : pickInput f vi o = some x) :
    x ∈ o.operands ∧ f.numUses x = 1 ∧ (vi x).isConst = false := by
  unfold pickInput at h
  split at h
  · rename_i a ha
    split at h
    · rename_i hc; simp at h; subst h; simp [ha, hc]
    · simp at h
  · rename_i a b ha
    split at h
    · rename_i hc
      simp at h
      subst h
      split
      · rename_i h2
        rw [ha]
        rcases hc with hc | hc
        · rcases h2 with h2 | h2
          · exact absurd hc.1 h2
          · rw [hc.2] at h2; simp at h2
        · exact ⟨by simp, hc⟩
      · rename_i h2
        rw [ha]
        push Not at h2
        refine ⟨by simp, h2.1, by simpa using h2.2⟩
    · simp at h
  · simp at h

/-- Invariant of the loop over `operations`, when all positions `< j` have been processed. -/
structure OvInv (f : Func) (j : Nat) (s : OvState) : Prop where
  visLt : ∀ q ∈ s.visited, q < f.ops.length
  keysNodup : (s.inOut.map Prod.fst).Nodup
  keyArena : ∀ e ∈ s.inOut, f.Arena e.1
  keyChain : ∀ e ∈ s.inOut, f.InPlaceChain e.1 e.2.1
  sameRoot : ∀ e ∈ s.inOut, ∀ e' ∈ s.inOut, e.2.1 = e'.2.1 → e.1 = e'.1 ∨
    f.InPlaceChain e.1 e'.1 ∨ f.InPlaceChain e'.1 e.1
  keyOff : ∀ e ∈ s.inOut, e.2.2 = chainOffset f e.2.1 e.1
  keyRaw : ∀ e ∈ s.inOut, f.raw e.1 ≤ f.raw e.2.1
  keyStep : ∀ e ∈ s.inOut, ∀ q, f.UsedAt e.1 q → f.raw e.1 ≤ f.raw (f.result0 q)
  keyUser : ∀ e ∈ s.inOut, f.numUses e.1 = 1 ∧ ∃ q, f.UsedAt e.1 q ∧ q ∈ s.visited
  keyProd : ∀ e ∈ s.inOut, (∃ q, e.1 = f.result0 q ∧ q ∈ s.visited ∧ (f.op q).overlappable = true) ∨
    ∃ q, f.UsedAt e.1 q ∧ q < j
  rootProd : ∀ e ∈ s.inOut, ∃ q, e.2.1 = f.result0 q ∧ q ∈ s.visited ∧ (f.op q).overlappable = true
  rootClosed : ∀ e ∈ s.inOut, f.numUses e.2.1 = 1 → ∀ q, f.UsedAt e.2.1 q →
    (f.op q).overlappable = true → q ∈ s.visited
  rootNotKey : ∀ e ∈ s.inOut, e.2.1 ∉ s.inOut.map Prod.fst
  viOther : ∀ v, v ∉ s.inOut.map (fun e => e.2.1) → s.vi v = f.vinfo v
  viConst : ∀ v, (s.vi v).isConst = (f.decl v).isConst
  viLast : ∀ v, (s.vi v).last = (f.vinfo v).last
  viFirst : ∀ v, (s.vi v).first ≤ (f.vinfo v).first
  viFirstKey : ∀ e ∈ s.inOut, (s.vi e.2.1).first ≤ (f.vinfo e.1).first
  viSize : ∀ v, (f.vinfo v).size ≤ (s.vi v).size
  viSizeKey : ∀ e ∈ s.inOut, e.2.2 + (f.vinfo e.1).size ≤ (s.vi e.2.1).size
  viTight : ∀ v, (s.vi v).size = (f.vinfo v).size ∨
    ∃ e ∈ s.inOut, e.2.1 = v ∧ (s.vi v).size = e.2.2 + (f.vinfo e.1).size
  viDvd : ∀ v, (8 : Int) ∣ (s.vi v).size

theorem result0_inj {f : Func} (ip : f.InPlaceOK) {p q : Nat} (hp : p < f.ops.length)
    (hq : q < f.ops.length) (op : (f.op p).overlappable = true) (oq : (f.op q).overlappable = true)
    (h : f.result0 p = f.result0 q) : p = q := by
  have h1 := result0_definedAt f hp (ip.proper p hp op).2.2
  have h2 := result0_definedAt f hq (ip.proper q hq oq).2.2
  rw [h] at h1
  exact definedAt_unique f h1 h2

theorem maxSizeNeeded_spec (f : Func) (vi : VMap) (outV : Nat) (inputs : List Nat) :
    0 ≤ maxSizeNeeded f vi outV inputs ∧
    (∀ i ∈ inputs, (vi i).size + chainOffset f outV i ≤ maxSizeNeeded f vi outV inputs) ∧
    (maxSizeNeeded f vi outV inputs = 0 ∨ ∃ i ∈ inputs,
      maxSizeNeeded f vi outV inputs = (vi i).size + chainOffset f outV i) := by
  have : ∀ m : Int,
      let r := inputs.foldl (fun m inV => max ((vi inV).size + chainOffset f outV inV) m) m
      m ≤ r ∧ (∀ i ∈ inputs, (vi i).size + chainOffset f outV i ≤ r) ∧
      (r = m ∨ ∃ i ∈ inputs, r = (vi i).size + chainOffset f outV i) := by
    induction inputs with
    | nil => intro m; simp
    | cons a l ih =>
      intro m
      simp only [List.foldl_cons]
      obtain ⟨h1, h2, h3⟩ := ih (max ((vi a).size + chainOffset f outV a) m)
      refine ⟨by omega, ?_, ?_⟩
      · intro i hi
        rcases List.mem_cons.1 hi with rfl | hi
        · omega
        · exact h2 i hi
      · rcases h3 with h3 | ⟨i, hi, h3⟩
        · rw [h3]
          rcases maxCases ((vi a).size + chainOffset f outV a) m with h | h
          · right; exact ⟨a, by simp, h.1⟩
          · left; exact h.1
        · right; exact ⟨i, by simp [hi], h3⟩
  exact this 0

theorem chainOffset_nonneg (f : Func) {o i : Nat} (h : f.raw i ≤ f.raw o) : 0 ≤ chainOffset f o i := by
  unfold chainOffset alignOff
  rw [Int.tdiv_eq_ediv_of_nonneg (by omega)]
  omega

theorem chainOffset_dvd (f : Func) (o i : Nat) : (8 : Int) ∣ chainOffset f o i := by
  unfold chainOffset alignOff
  omega

theorem vinfo_size_dvd (f : Func) (v : Nat) : (8 : Int) ∣ (f.vinfo v).size := align8_dvd _

theorem vinfo_size_nonneg (f : Func) (v : Nat) : 0 ≤ (f.vinfo v).size := by
  rw [vinfo_size_eq]; omega

theorem ovInv_weaken {f : Func} {j j' : Nat} {s : OvState} (h : OvInv f j s) (hj : j ≤ j') :
    OvInv f j' s := by
  refine { h with keyProd := ?_ }
  intro e he
  rcases h.keyProd e he with a | ⟨q, a, b⟩
  · exact Or.inl a
  · exact Or.inr ⟨q, a, by omega⟩

theorem overlapStep_inv {f : Func} (wf : f.WF) (ip : f.InPlaceOK) {j : Nat} {s : OvState}
    (hj : j < f.ops.length) (h : OvInv f j s) : OvInv f (j + 1) (overlapStep f s j) := by
  unfold overlapStep
  simp only
  split
  case isFalse => exact ovInv_weaken h (by omega)
  case isTrue hc =>
  obtain ⟨hov, hnv⟩ := hc
  split
  · exact ovInv_weaken h (by omega)
  · rename_i x hx
    obtain ⟨hxo, hx1, hxc⟩ := pickInput_spec hx
    have hxu : f.UsedAt x j := ⟨hj, hxo⟩
    split
    case isFalse =>
      refine { ovInv_weaken h (Nat.le_succ j) with visLt := ?_, keyUser := ?_, keyProd := ?_,
                                                   rootProd := ?_, rootClosed := ?_ }
      · intro q hq
        rcases List.mem_cons.1 hq with rfl | hq
        · exact hj
        · exact h.visLt q hq
      · intro e he
        obtain ⟨a, q, b, c⟩ := h.keyUser e he
        exact ⟨a, q, b, List.mem_cons_of_mem _ c⟩
      · intro e he
        rcases h.keyProd e he with ⟨q, a, b, c⟩ | ⟨q, a, b⟩
        · exact Or.inl ⟨q, a, List.mem_cons_of_mem _ b, c⟩
        · exact Or.inr ⟨q, a, by omega⟩
      · intro e he
        obtain ⟨q, a, b, c⟩ := h.rootProd e he
        exact ⟨q, a, List.mem_cons_of_mem _ b, c⟩
      · intro e he h1 q hq ho
        exact List.mem_cons_of_mem _ (h.rootClosed e he h1 q hq ho)
    case isTrue hraw =>
      have hstep : f.InPlaceStep x (f.result0 j) :=
        ⟨j, hxu, hov, fun q hq => numUses_unique hx1 hq hxu, rfl⟩
      have hxA : f.Arena x := by
        rw [h.viConst] at hxc
        exact ⟨decl_const_oob f hxc, hxc⟩
      have hinit : ChainInv f j s.visited x x (f.result0 j) [x] (j :: s.visited) := by
        refine ⟨⟨[], rfl⟩, by simp, by simp, ?_, by simp, by simp, by simpa using hraw, ?_, ?_, ?_, ?_, ?_, ?_, ?_⟩
        · intro u hu; simp at hu; subst hu; exact .single hstep
        · intro u hu q hq; simp at hu; subst hu
          rw [numUses_unique hx1 hq hxu]; exact hraw
        · intro q hq; exact List.mem_cons_of_mem _ hq
        · intro q hq
          rcases List.mem_cons.1 hq with rfl | hq
          · exact Or.inr (le_refl _)
          · exact Or.inl hq
        · intro q hq
          rcases List.mem_cons.1 hq with rfl | hq
          · exact Or.inr hj
          · exact Or.inl hq
        · intro u hu; simp at hu; subst hu
          exact ⟨hx1, j, hxu, by simp, hnv, le_refl _⟩
        · intro u hu; simp at hu; exact Or.inl hu
        · exact ⟨j, rfl, by simp, hnv, le_refl _, hj, hov⟩
      have cs := chainLoop_spec wf ip j s.visited x x (f.result0 j) [x] (j :: s.visited) hinit
      generalize hcd : chainLoop f x (f.result0 j) [x] (j :: s.visited) = c at cs
      have hvlt : ∀ q ∈ c.visited, q < f.ops.length := by
        intro q hq
        rcases cs.visLt q hq with hq | hq
        · exact h.visLt q hq
        · exact hq
      -- inputs are not old keys
      have inNotKey : ∀ u ∈ c.inputs, u ∉ s.inOut.map Prod.fst := by
        intro u hu hk
        obtain ⟨e, he, rfl⟩ := List.mem_map.1 hk
        obtain ⟨_, q, hq, hqv⟩ := h.keyUser e he
        obtain ⟨h1, q', hq', _, hq0, _⟩ := cs.inUser _ hu
        rw [numUses_unique h1 hq' hq] at hq0
        exact hq0 hqv
      have inNotRoot : ∀ u ∈ c.inputs, u ∉ s.inOut.map (fun e => e.2.1) := by
        intro u hu hk
        obtain ⟨e, he, he'⟩ := List.mem_map.1 hk
        rcases cs.inProd u hu with hux | ⟨q, hq, _, hq0, _, hql, hqo⟩
        · subst hux
          have := h.rootClosed e he (by rw [he']; exact hx1) j (by rw [he']; exact hxu) hov
          exact hnv this
        · obtain ⟨p, hp, hpv, hpo⟩ := h.rootProd e he
          rw [he', hq] at hp
          rw [result0_inj ip hql (h.visLt p hpv) hqo hpo hp] at hq0
          exact hq0 hpv
      obtain ⟨oq, hoq, hoqv, hoq0, hoqj, hoql, hoqo⟩ := cs.outProd
      have outNotRoot : c.out ∉ s.inOut.map (fun e => e.2.1) := by
        intro hk
        obtain ⟨e, he, he'⟩ := List.mem_map.1 hk
        obtain ⟨p, hp, hpv, hpo⟩ := h.rootProd e he
        rw [he', hoq] at hp
        rw [result0_inj ip hoql (h.visLt p hpv) hoqo hpo hp] at hoq0
        exact hoq0 hpv
      have outDef : f.DefinedAt c.out oq := by
        rw [hoq]; exact result0_definedAt f hoql (ip.proper oq hoql hoqo).2.2
      have outNotKey : c.out ∉ s.inOut.map Prod.fst := by
        intro hk
        obtain ⟨e, he, he'⟩ := List.mem_map.1 hk
        rcases h.keyProd e he with ⟨p, hp, hpv, hpo⟩ | ⟨q, hq, hqj⟩
        · rw [he', hoq] at hp
          rw [result0_inj ip hoql (h.visLt p hpv) hoqo hpo hp] at hoq0
          exact hoq0 hpv
        · rw [he'] at hq
          rcases wf.dominated q _ hq with ha | ⟨i, hi, hl⟩
          · exact definedAt_not_arg f outDef ha
          · have := definedAt_unique f outDef hi; omega
      have outNotIn : c.out ∉ c.inputs := fun hm => before_irrefl (chain_before wf ip (cs.toOut _ hm))
      have rootNotIn : ∀ e ∈ s.inOut, e.2.1 ∉ c.inputs := by
        intro e he hm
        exact inNotRoot _ hm (List.mem_map.2 ⟨e, he, rfl⟩)
      have viIn : ∀ u ∈ c.inputs, s.vi u = f.vinfo u := fun u hu => h.viOther u (inNotRoot u hu)
      have viOut : s.vi c.out = f.vinfo c.out := h.viOther _ outNotRoot
      have keyNew : (c.inputs.map fun i => (i, (c.out, chainOffset f c.out i))).map Prod.fst = c.inputs := by
        simp [List.map_map, Function.comp_def]
      have memNew : ∀ e : Nat × (Nat × Int),
          e ∈ c.inputs.map (fun i => (i, (c.out, chainOffset f c.out i))) ↔
          e.1 ∈ c.inputs ∧ e.2 = (c.out, chainOffset f c.out e.1) := by
        intro e
        simp only [List.mem_map]
        constructor
        · rintro ⟨i, hi, rfl⟩; exact ⟨hi, rfl⟩
        · rintro ⟨hi, h2⟩; exact ⟨e.1, hi, by rw [← h2]⟩
      have inA : ∀ u ∈ c.inputs, f.Arena u := by
        intro u hu
        rcases cs.fromHead u hu with rfl | hch
        · exact hxA
        · exact chain_arena ip hch
      have outA : f.Arena c.out := by rw [hoq]; exact result0_arena ip hoql hoqo
      obtain ⟨ht, htl⟩ := cs.head
      have hhead : c.inputs.headD 0 = x := by rw [htl]; rfl
      have xin : x ∈ c.inputs := by rw [htl]; simp
      have wOther : ∀ v, v ≠ c.out → widenRoot f s.vi c.out c.inputs v = s.vi v := by
        intro v hv; simp [widenRoot, hv]
      have wOut : widenRoot f s.vi c.out c.inputs c.out =
          ⟨max (f.vinfo c.out).size (maxSizeNeeded f s.vi c.out c.inputs), (f.vinfo c.out).isConst,
            (f.vinfo x).first, (f.vinfo c.out).last⟩ := by
        simp only [widenRoot, if_true, hhead]
        rw [viOut, viIn x xin]
      obtain ⟨ms0, msUb, msAt⟩ := maxSizeNeeded_spec f s.vi c.out c.inputs
      have rootNe : ∀ e ∈ s.inOut, e.2.1 ≠ c.out := by
        intro e he heq
        exact outNotRoot (List.mem_map.2 ⟨e, he, heq⟩)
      have xFirst : ∀ u, u = c.out ∨ u ∈ c.inputs → (f.vinfo x).first ≤ (f.vinfo u).first := by
        intro u hu
        have hx2 := arena_first_le_last wf hxA
        rcases hu with rfl | hu
        · have := chain_ranges wf ip hxA (cs.toOut x xin); omega
        · rcases cs.fromHead u hu with rfl | hch
          · exact le_refl _
          · have := chain_ranges wf ip hxA hch; omega
      constructor
      all_goals dsimp only
      · exact hvlt
      · simp only [List.map_append, keyNew]
        rw [List.nodup_append]
        refine ⟨h.keysNodup, cs.nodupChain, ?_⟩
        intro a ha b hb hab
        subst hab
        exact inNotKey a hb ha
      · intro e he
        rcases List.mem_append.1 he with he | he
        · exact h.keyArena e he
        · exact inA _ ((memNew e).1 he).1
      · intro e he
        rcases List.mem_append.1 he with he | he
        · exact h.keyChain e he
        · obtain ⟨a, b⟩ := (memNew e).1 he
          rw [b]; exact cs.toOut _ a
      · intro e he e' he' hee
        rcases List.mem_append.1 he with he | he <;> rcases List.mem_append.1 he' with he' | he'
        · exact h.sameRoot e he e' he' hee
        · obtain ⟨a, b⟩ := (memNew e').1 he'
          rw [b] at hee; exact absurd hee (rootNe e he)
        · obtain ⟨a, b⟩ := (memNew e).1 he
          rw [b] at hee; exact absurd hee.symm (rootNe e' he')
        · exact cs.comparable _ ((memNew e).1 he).1 _ ((memNew e').1 he').1
      · intro e he
        rcases List.mem_append.1 he with he | he
        · exact h.keyOff e he
        · obtain ⟨a, b⟩ := (memNew e).1 he
          rw [b]
      · intro e he
        rcases List.mem_append.1 he with he | he
        · exact h.keyRaw e he
        · obtain ⟨a, b⟩ := (memNew e).1 he
          rw [b]; exact cs.rawLe _ a
      · intro e he
        rcases List.mem_append.1 he with he | he
        · exact h.keyStep e he
        · exact cs.rawStep _ ((memNew e).1 he).1
      · intro e he
        rcases List.mem_append.1 he with he | he
        · obtain ⟨a, q, b, d⟩ := h.keyUser e he
          exact ⟨a, q, b, cs.visMono q d⟩
        · obtain ⟨a, q, b, d, _⟩ := cs.inUser _ ((memNew e).1 he).1
          exact ⟨a, q, b, d⟩
      · intro e he
        rcases List.mem_append.1 he with he | he
        · rcases h.keyProd e he with ⟨q, a, b, d⟩ | ⟨q, a, b⟩
          · exact Or.inl ⟨q, a, cs.visMono q b, d⟩
          · exact Or.inr ⟨q, a, by omega⟩
        · rcases cs.inProd _ ((memNew e).1 he).1 with a | ⟨q, a, b, _, _, _, g⟩
          · exact Or.inr ⟨j, by rw [a]; exact hxu, by omega⟩
          · exact Or.inl ⟨q, a, b, g⟩
      · intro e he
        rcases List.mem_append.1 he with he | he
        · obtain ⟨q, a, b, d⟩ := h.rootProd e he
          exact ⟨q, a, cs.visMono q b, d⟩
        · obtain ⟨a, b⟩ := (memNew e).1 he
          rw [b]; exact ⟨oq, hoq, hoqv, hoqo⟩
      · intro e he h1 q hq ho
        rcases List.mem_append.1 he with he | he
        · exact cs.visMono q (h.rootClosed e he h1 q hq ho)
        · obtain ⟨a, b⟩ := (memNew e).1 he
          rw [b] at h1 hq
          exact cs.closed h1 q hq ho
      · intro e he hk
        simp only [List.map_append, keyNew, List.mem_append] at hk
        rcases List.mem_append.1 he with he | he
        · rcases hk with hk | hk
          · exact h.rootNotKey e he hk
          · exact rootNotIn e he hk
        · obtain ⟨a, b⟩ := (memNew e).1 he
          rw [b] at hk
          rcases hk with hk | hk
          · exact outNotKey hk
          · exact outNotIn hk
      · intro v hv
        simp only [List.map_append, List.mem_append, not_or] at hv
        have : v ≠ c.out := by
          rintro rfl
          apply hv.2
          simp only [List.map_map, List.mem_map, Function.comp]
          exact ⟨x, xin, trivial⟩
        rw [wOther v this]
        exact h.viOther v hv.1
      · intro v
        by_cases hv : v = c.out
        · subst hv; rw [wOut]; rfl
        · rw [wOther v hv]; exact h.viConst v
      · intro v
        by_cases hv : v = c.out
        · subst hv; rw [wOut]
        · rw [wOther v hv]; exact h.viLast v
      · intro v
        by_cases hv : v = c.out
        · subst hv; rw [wOut]; exact xFirst _ (Or.inl rfl)
        · rw [wOther v hv]; exact h.viFirst v
      · intro e he
        rcases List.mem_append.1 he with he | he
        · rw [wOther _ (rootNe e he)]; exact h.viFirstKey e he
        · obtain ⟨a, b⟩ := (memNew e).1 he
          rw [b]; simp only; rw [wOut]; exact xFirst _ (Or.inr a)
      · intro v
        by_cases hv : v = c.out
        · subst hv; rw [wOut]; exact le_max_left _ _
        · rw [wOther v hv]; exact h.viSize v
      · intro e he
        rcases List.mem_append.1 he with he | he
        · rw [wOther _ (rootNe e he)]; exact h.viSizeKey e he
        · obtain ⟨a, b⟩ := (memNew e).1 he
          rw [b]; simp only; rw [wOut]
          have := msUb _ a
          rw [viIn _ a] at this
          simp only
          omega
      · intro v
        by_cases hv : v = c.out
        · subst hv
          rw [wOut]
          simp only
          rcases maxCases (f.vinfo c.out).size (maxSizeNeeded f s.vi c.out c.inputs) with hm | hm
          · left; exact hm.1
          · right
            rcases msAt with h0 | ⟨i, hi, hi2⟩
            · have := vinfo_size_nonneg f c.out
              omega
            · refine ⟨(i, (c.out, chainOffset f c.out i)), ?_, rfl, ?_⟩
              · exact List.mem_append_right _ ((memNew _).2 ⟨hi, rfl⟩)
              · rw [hm.1, hi2, viIn i hi]; simp only; omega
        · rw [wOther v hv]
          rcases h.viTight v with a | ⟨e, he, a, b⟩
          · exact Or.inl a
          · exact Or.inr ⟨e, List.mem_append_left _ he, a, b⟩
      · intro v
        by_cases hv : v = c.out
        · subst hv
          rw [wOut]
          simp only
          rcases maxCases (f.vinfo c.out).size (maxSizeNeeded f s.vi c.out c.inputs) with hm | hm
          · rw [hm.1]; exact vinfo_size_dvd f _
          · rw [hm.1]
            rcases msAt with h0 | ⟨i, hi, hi2⟩
            · rw [h0]; exact Int.dvd_zero 8
            · rw [hi2, viIn i hi]
              exact Int.dvd_add (vinfo_size_dvd f _) (chainOffset_dvd f _ _)
        · rw [wOther v hv]; exact h.viDvd v

end Verif.MemPlan
