import Verif.MemPlan.Model
import Mathlib.Tactic.Ring
/-!
C30: the search for an operator-split configuration (xformer/XCoreOptMain.cpp 206-333) with `getNextBottomOpId`
(xformer/Analysis/MemoryPlan.cpp 426-450).  The measurement of a configuration (cloning the module, running the split and
planning passes) is an arbitrary function of the bottom operator, and of the number of splits in the second loop.
Peaks are natural numbers.
-/
namespace Verif.Host.Search

/-! ### Model -/

/-- `getNextBottomOpId` (MemoryPlan.cpp 426-450).  `lastUse[i]` is `operationIds` of the end operation of
`nonConstantAllocatedValues[i]`.  `none`: access outside of that vector; `some none`: the function returns -1. -/
def getNextBottomOpId (lastUse : List Nat) (opId : Nat) : Option (Option Nat) :=
  match lastUse[opId]? with
  | none => none
  | some nextOpId =>
    if nextOpId < opId then some none
    else
      let nextOpId := if nextOpId = opId then nextOpId + 1 else nextOpId
      match lastUse[nextOpId]? with
      | none => none
      | some nextNextOpId => some (some (if nextNextOpId ≠ nextOpId then nextNextOpId else nextOpId))

/-- Variables of the first loop (XCoreOptMain.cpp 206-251), and what has been measured, oldest first. -/
structure St where
  nextId : Option Nat
  peakUsage : Nat
  two : Bool
  lastGoodId : Nat
  lastGoodUsage : Nat
  measured : List (Nat × Nat)
deriving DecidableEq, Repr

inductive Res where
  | done (st : St)
  | running (st : St)
  | outOfRange
deriving DecidableEq, Repr

/-- At most `fuel` iterations of the first loop (XCoreOptMain.cpp 252-284). -/
def search (lastUse : List Nat) (measure : Nat → Nat) : Nat → St → Res
  | 0, st => match st.nextId with
    | none => .done st
    | some _ => .running st
  | fuel + 1, st =>
    match st.nextId with
    | none => .done st
    | some id =>
      let currentUsage := st.peakUsage
      let peakUsage := measure id
      let measured := st.measured ++ [(id, peakUsage)]
      if peakUsage ≥ currentUsage ∧ st.two = true then
        .done { st with peakUsage := peakUsage, measured := measured }
      else
        let st := if peakUsage ≥ currentUsage then { st with two := true }
          else { st with two := false, lastGoodId := id, lastGoodUsage := peakUsage }
        match getNextBottomOpId lastUse id with
        | none => .outOfRange
        | some next => search lastUse measure fuel { st with nextId := next, peakUsage := peakUsage, measured := measured }

/-- State before the loop (XCoreOptMain.cpp 206-207, 226, 249-251). -/
def start (peakOpId peakUsage : Nat) : St := ⟨some peakOpId, peakUsage, false, 0, 0, []⟩

/-- The second loop (XCoreOptMain.cpp 296-319) after `numSplits` and `currentUsage` are set: new number of splits is
measured; the loop goes on while the peak decreases.  Result: `lastGoodNumSplits` and the last number tried. -/
def splitLoop (measure : Nat → Nat) (numSplits currentUsage lastGood : Nat) : Nat × Nat :=
  if _h : measure (numSplits + 1) < currentUsage then
    splitLoop measure (numSplits + 1) (measure (numSplits + 1)) (numSplits + 1)
  else (lastGood, numSplits + 1)
termination_by currentUsage

/-- Printed number of splits (XCoreOptMain.cpp 286-320). -/
def numSplitsSearch (measure : Nat → Nat) (lastGoodUsage : Nat) : Nat × Nat := splitLoop measure 4 lastGoodUsage 4

/-! ### Specification -/

/-- The last measurement that is smaller than the one before it (the first one is compared with `init`). -/
def lastDecrease : Nat → List (Nat × Nat) → Option (Nat × Nat)
  | _, [] => none
  | init, x :: xs =>
    match lastDecrease x.2 xs with
    | some y => some y
    | none => if x.2 < init then some x else none

/-- The last measured peak, `init` if nothing has been measured. -/
def lastPeak : Nat → List (Nat × Nat) → Nat
  | init, [] => init
  | _, x :: xs => lastPeak x.2 xs

/-! ### Number of splits -/

theorem splitLoop_spec (measure : Nat → Nat) (n cur good : Nat) (hgood : good = n) (hcur : cur = measure n) :
    let r := splitLoop measure n cur good
    n ≤ r.1 ∧ r.2 = r.1 + 1 ∧ (∀ k, n ≤ k → k < r.1 → measure (k + 1) < measure k) ∧ measure r.1 ≤ measure r.2 := by
  induction cur using Nat.strong_induction_on generalizing n good with
  | _ cur ih =>
    subst hgood
    rw [splitLoop]
    split
    · next h =>
      obtain ⟨h1, h2, h3, h4⟩ := ih _ h (good + 1) (good + 1) rfl rfl
      refine ⟨by omega, h2, ?_, h4⟩
      intro k hk1 hk2
      by_cases hk : k = good
      · rw [hk]; omega
      · exact h3 k (by omega) hk2
    · next h =>
      refine ⟨Nat.le_refl _, rfl, ?_, ?_⟩
      · intro k h1 h2; simp only at h2; omega
      · simp only; omega

/-- **C30, number of splits.** The second loop stops for every measurement function; the printed number of splits has the
smallest peak of all numbers tried, and trying one more did not help. -/
theorem C30_num_splits (measure : Nat → Nat) :
    let r := numSplitsSearch measure (measure 4)
    4 ≤ r.1 ∧ r.2 = r.1 + 1 ∧ (∀ k, 4 ≤ k → k ≤ r.2 → measure r.1 ≤ measure k) ∧
    r.1 ≤ 4 + measure 4 := by
  intro r
  obtain ⟨h1, h2, h3, h4⟩ := splitLoop_spec measure 4 (measure 4) 4 rfl rfl
  change 4 ≤ r.1 at h1
  change r.2 = r.1 + 1 at h2
  change ∀ k, 4 ≤ k → k < r.1 → _ at h3
  change measure r.1 ≤ measure r.2 at h4
  have dec : ∀ d k, 4 ≤ k → k + d ≤ r.1 → measure (k + d) + d ≤ measure k := by
    intro d
    induction d with
    | zero => intro k _ _; simp
    | succ d ih =>
      intro k hk hkd
      have := ih k hk (by omega)
      have := h3 (k + d) (by omega) (by omega)
      have e : k + (d + 1) = k + d + 1 := by omega
      rw [e]
      omega
  refine ⟨h1, h2, ?_, ?_⟩
  · intro k hk1 hk2
    by_cases hk : k = r.2
    · rw [hk]; exact h4
    · have := dec (r.1 - k) k hk1 (by omega)
      rw [show k + (r.1 - k) = r.1 by omega] at this
      omega
  · have := dec (r.1 - 4) 4 (by omega) (by omega)
    omega

example : numSplitsSearch (fun n => if n = 5 then 90 else if n = 6 then 80 else 100) 100 = (6, 7) := by
  simp [numSplitsSearch, splitLoop]

/-! ### Bottom operator -/

theorem lastPeak_append (init : Nat) (l : List (Nat × Nat)) (x : Nat × Nat) : lastPeak init (l ++ [x]) = x.2 := by
  induction l generalizing init with
  | nil => rfl
  | cons y l ih => exact ih y.2

theorem lastDecrease_append (init : Nat) (l : List (Nat × Nat)) (x : Nat × Nat) :
    lastDecrease init (l ++ [x]) = if x.2 < lastPeak init l then some x else lastDecrease init l := by
  induction l generalizing init with
  | nil => rfl
  | cons y l ih =>
    rw [List.cons_append, lastDecrease, ih y.2, lastPeak, lastDecrease]
    by_cases h : x.2 < lastPeak y.2 l
    · rw [if_pos h, if_pos h]
    · rw [if_neg h, if_neg h]

/-- **C30, what is suggested.** When the first loop ends, the suggested bottom operator is the last one whose measured
peak was below the measurement before it, `lastGoodUsage` is its measured peak, and there is none (id 0) if no measurement
was below the one before. -/
theorem C30_suggestion_partial (lastUse : List Nat) (measure : Nat → Nat) (hpos : ∀ i, 0 < measure i)
    (peakOpId peakUsage fuel : Nat) (st : St) (h : search lastUse measure fuel (start peakOpId peakUsage) = .done st) :
    lastDecrease peakUsage st.measured = (if st.lastGoodUsage = 0 then none else some (st.lastGoodId, st.lastGoodUsage)) ∧
    (∀ m ∈ st.measured, m.2 = measure m.1) ∧ st.measured.head? = some (peakOpId, measure peakOpId) := by
  have key : ∀ (fuel : Nat) (s : St),
      s.peakUsage = lastPeak peakUsage s.measured →
      lastDecrease peakUsage s.measured = (if s.lastGoodUsage = 0 then none else some (s.lastGoodId, s.lastGoodUsage)) →
      (∀ m ∈ s.measured, m.2 = measure m.1) →
      (∀ id, s.nextId = some id → (s.measured ++ [(id, measure id)]).head? = some (peakOpId, measure peakOpId)) →
      (s.nextId = none → s.measured.head? = some (peakOpId, measure peakOpId)) →
      search lastUse measure fuel s = .done st →
      lastDecrease peakUsage st.measured = (if st.lastGoodUsage = 0 then none else some (st.lastGoodId, st.lastGoodUsage)) ∧
      (∀ m ∈ st.measured, m.2 = measure m.1) ∧ st.measured.head? = some (peakOpId, measure peakOpId) := by
    intro fuel
    induction fuel with
    | zero =>
      intro s h1 h2 h3 h4 h5 h
      rw [search] at h
      split at h
      · next hn => simp only [Res.done.injEq] at h; subst h; exact ⟨h2, h3, h5 hn⟩
      · simp at h
    | succ fuel ih =>
      intro s h1 h2 h3 h4 h5 h
      rw [search] at h
      split at h
      · next hn => simp only [Res.done.injEq] at h; subst h; exact ⟨h2, h3, h5 hn⟩
      · next id hn =>
        simp only at h
        have hmeas : ∀ m ∈ s.measured ++ [(id, measure id)], m.2 = measure m.1 := by
          intro m hm
          rcases List.mem_append.1 hm with hm | hm
          · exact h3 m hm
          · rw [List.mem_singleton.1 hm]
        have hld := lastDecrease_append peakUsage s.measured (id, measure id)
        rw [← h1] at hld
        simp only at hld
        by_cases hc : measure id ≥ s.peakUsage ∧ s.two = true
        · rw [if_pos hc] at h
          simp only [Res.done.injEq] at h
          subst h
          refine ⟨?_, hmeas, h4 id hn⟩
          simp only
          rw [hld, if_neg (by omega), h2]
        · rw [if_neg hc] at h
          cases hnext : getNextBottomOpId lastUse id with
          | none => rw [hnext] at h; simp at h
          | some next =>
            rw [hnext] at h
            simp only at h
            have hhead : ∀ x, (s.measured ++ [(id, measure id)] ++ [x]).head? = some (peakOpId, measure peakOpId) := by
              intro x
              have := h4 id hn
              cases hm : s.measured with
              | nil => rw [hm] at this; simpa using this
              | cons y ys => rw [hm] at this; simpa using this
            by_cases hge : measure id ≥ s.peakUsage
            · rw [if_pos hge] at h
              refine ih _ ?_ ?_ ?_ ?_ ?_ h
              · simp only [lastPeak_append]
              · simp only; rw [hld, if_neg (by omega), h2]
              · exact hmeas
              · intro j _; exact hhead _
              · intro _; exact h4 id hn
            · rw [if_neg hge] at h
              refine ih _ ?_ ?_ ?_ ?_ ?_ h
              · simp only [lastPeak_append]
              · simp only
                rw [hld, if_pos (by omega), if_neg (by have := hpos id; omega)]
              · exact hmeas
              · intro j _; exact hhead _
              · intro _; exact h4 id hn
  refine key fuel _ rfl rfl (by simp [start]) ?_ ?_ h
  · intro id hid
    simp only [start, Option.some.injEq] at hid
    subst hid
    rfl
  · intro hid; simp [start] at hid

/-- Peaks that first decrease strictly (below `init`), then never decrease again. -/
def DownThenUp (init : Nat) (l : List (Nat × Nat)) : Prop :=
  ∃ down up, l = down ++ up ∧ (init :: down.map (·.2)).Pairwise (· > ·) ∧
    ((lastPeak init down) :: up.map (·.2)).Pairwise (· ≤ ·)

/-- **C30, quality (partial).** If the measured peaks first go down and then up, the suggestion is the best configuration
measured and better than no split.  Missing for the full property: other sequences of peaks, for which it is false
(`C30_worse_refuted`). -/
theorem C30_best_partial (lastUse : List Nat) (measure : Nat → Nat) (hpos : ∀ i, 0 < measure i)
    (peakOpId peakUsage fuel : Nat) (st : St) (h : search lastUse measure fuel (start peakOpId peakUsage) = .done st)
    (hshape : DownThenUp peakUsage st.measured) (hgood : st.lastGoodUsage ≠ 0) :
    st.lastGoodUsage = measure st.lastGoodId ∧ st.lastGoodUsage < peakUsage ∧
    ∀ m ∈ st.measured, st.lastGoodUsage ≤ m.2 := by
  obtain ⟨h1, h2, -⟩ := C30_suggestion_partial lastUse measure hpos peakOpId peakUsage fuel st h
  rw [if_neg hgood] at h1
  obtain ⟨down, up, hm, hd, hu⟩ := hshape
  -- no decrease in `up`
  have noDec : ∀ (l : List (Nat × Nat)) (i : Nat), (i :: l.map (·.2)).Pairwise (· ≤ ·) → lastDecrease i l = none := by
    intro l
    induction l with
    | nil => intro i _; rfl
    | cons x l ih =>
      intro i hp
      rw [List.map_cons, List.pairwise_cons] at hp
      rw [lastDecrease, ih x.2 hp.2]
      simp only
      rw [if_neg]
      have := hp.1 x.2 (by simp)
      omega
  have app : ∀ (l1 l2 : List (Nat × Nat)) (i : Nat), lastDecrease (lastPeak i l1) l2 = none →
      lastDecrease i (l1 ++ l2) = lastDecrease i l1 := by
    intro l1
    induction l1 with
    | nil => intro l2 i h; exact h
    | cons x l1 ih =>
      intro l2 i h
      rw [List.cons_append, lastDecrease, lastDecrease]
      rw [ih l2 x.2 h]
  rw [hm, app down up peakUsage (noDec up _ hu)] at h1
  have isLast : ∀ (l : List (Nat × Nat)) (i : Nat), (i :: l.map (·.2)).Pairwise (· > ·) → lastDecrease i l = l.getLast? := by
    intro l
    induction l with
    | nil => intro i _; rfl
    | cons x l ih =>
      intro i hp
      rw [List.map_cons, List.pairwise_cons] at hp
      rw [lastDecrease, ih x.2 hp.2]
      cases l with
      | nil =>
        simp only [List.getLast?_nil, List.getLast?_singleton]
        rw [if_pos]
        have := hp.1 x.2 (by simp)
        omega
      | cons z l =>
        rw [List.getLast?_cons_cons]
        cases hg : (z :: l).getLast? with
        | none => simp at hg
        | some y => rfl
  rw [isLast down peakUsage hd] at h1
  have hmem : (st.lastGoodId, st.lastGoodUsage) ∈ down := List.mem_of_getLast? h1
  have hmm : (st.lastGoodId, st.lastGoodUsage) ∈ st.measured := by rw [hm]; exact List.mem_append_left _ hmem
  refine ⟨h2 _ hmm, ?_, ?_⟩
  · rw [List.pairwise_cons] at hd
    exact hd.1 _ (List.mem_map.2 ⟨_, hmem, rfl⟩)
  · intro m hmem2
    rw [hm] at hmem2
    rcases List.mem_append.1 hmem2 with hx | hx
    · -- in `down`: the last element is the smallest
      have : ∀ (l : List (Nat × Nat)), (l.map (·.2)).Pairwise (· > ·) → ∀ y, l.getLast? = some y → ∀ x ∈ l, y.2 ≤ x.2 := by
        intro l
        induction l with
        | nil => intro _ y _ x hx; simp at hx
        | cons z l ih =>
          intro hp y hy x hx
          rw [List.map_cons, List.pairwise_cons] at hp
          cases l with
          | nil =>
            simp only [List.getLast?_singleton, Option.some.injEq] at hy
            simp only [List.mem_singleton] at hx
            rw [hx, hy]
          | cons w l =>
            rw [List.getLast?_cons_cons] at hy
            rcases List.mem_cons.1 hx with hx | hx
            · have := hp.1 y.2 (List.mem_map.2 ⟨y, List.mem_of_getLast? hy, rfl⟩)
              rw [hx]; omega
            · exact ih hp.2 y hy x hx
      rw [List.pairwise_cons] at hd
      exact this down hd.2 _ h1 m hx
    · have lp : ∀ (l : List (Nat × Nat)) (i : Nat) (y : Nat × Nat), l.getLast? = some y → lastPeak i l = y.2 := by
        intro l
        induction l with
        | nil => intro i y h; simp at h
        | cons z l ih =>
          intro i y h
          cases l with
          | nil => simp only [List.getLast?_singleton, Option.some.injEq] at h; rw [← h]; rfl
          | cons w l => rw [List.getLast?_cons_cons] at h; exact ih z.2 y h
      rw [lp down peakUsage _ h1, List.pairwise_cons] at hu
      exact hu.1 _ (List.mem_map.2 ⟨m, hx, rfl⟩)

/-- The hypotheses are met by a chain of operators. -/
example : ∃ st, search [0, 1, 2, 3, 4, 5] (fun i => if i = 1 then 150 else if i = 2 then 80 else if i = 3 then 70 else 75) 5
    (start 1 200) = .done st ∧ st.lastGoodId = 3 ∧ st.measured = [(1, 150), (2, 80), (3, 70), (4, 75), (5, 75)] ∧
    DownThenUp 200 [(1, 150), (2, 80), (3, 70), (4, 75), (5, 75)] := by
  refine ⟨_, rfl, by decide, by decide, [(1, 150), (2, 80), (3, 70)], [(4, 75), (5, 75)], rfl, by decide, by decide⟩

/-- **C30, refuted part 1.** The suggestion can be worse than no split: every measured configuration needs more than the
100 bytes of the unsplit model, and one of them is suggested. -/
theorem C30_worse_refuted :
    ∃ (lastUse : List Nat) (measure : Nat → Nat) (fuel : Nat) (st : St),
      search lastUse measure fuel (start 1 100) = .done st ∧ st.lastGoodId = 2 ∧ st.lastGoodUsage = 140 ∧
      ∀ m ∈ st.measured, 100 < m.2 :=
  ⟨[0, 1, 2, 3, 4, 5, 6], fun i => if i = 2 then 140 else 150, 4, _, rfl, by decide, by decide, by decide⟩

/-- `lastUse` of a function of the planner's model: end operations of the non-constant values, in value order
(MemoryPlan.cpp 311-316, 429-432). -/
def lastUses (f : MemPlan.Func) : List Nat :=
  ((List.range f.numValues).filter fun v => !(f.vinfo v).isConst).map fun v => (f.vinfo v).last

/-- A function with three arguments on which the loop can go round in a circle: operators 1 and 2 feed operator 5, operator 3
feeds operator 4. -/
def loopFunc : MemPlan.Func :=
  { argSizes := [8, 8, 8]
    ops := [⟨false, false, false, [0], [8]⟩, ⟨false, false, false, [1], [8]⟩, ⟨false, false, false, [2], [8]⟩,
            ⟨false, false, false, [3], [8]⟩, ⟨false, false, false, [6], [8]⟩, ⟨false, false, false, [4, 5, 7], [8]⟩,
            ⟨false, true, false, [8], []⟩] }

/-- **C30, refuted part 2.** The first loop does not always stop: on this function, whenever splitting down to operator 4 is
measured smaller than splitting down to operator 5, it alternates between the two for ever. -/
theorem C30_may_not_stop (measure : Nat → Nat) (h : measure 4 < measure 5) (peakUsage fuel : Nat) :
    ∃ st, search (lastUses loopFunc) measure fuel (start 5 peakUsage) = .running st := by
  have hl : lastUses loopFunc = [0, 1, 2, 3, 5, 5, 4, 5, 6] := by decide
  rw [hl]
  have n5 : getNextBottomOpId [0, 1, 2, 3, 5, 5, 4, 5, 6] 5 = some (some 4) := by decide
  have n4 : getNextBottomOpId [0, 1, 2, 3, 5, 5, 4, 5, 6] 4 = some (some 5) := by decide
  have key : ∀ (fuel : Nat),
      (∀ st : St, st.nextId = some 5 → st.two = false → ∃ s, search [0, 1, 2, 3, 5, 5, 4, 5, 6] measure fuel st = .running s) ∧
      (∀ st : St, st.nextId = some 4 → measure 4 < st.peakUsage → ∃ s, search [0, 1, 2, 3, 5, 5, 4, 5, 6] measure fuel st = .running s) := by
    intro fuel
    induction fuel with
    | zero =>
      constructor
      · intro st hn _; rw [search, hn]; exact ⟨_, rfl⟩
      · intro st hn _; rw [search, hn]; exact ⟨_, rfl⟩
    | succ fuel ih =>
      constructor
      · intro st hn ht
        rw [search, hn]
        simp only [ht, n5]
        rw [if_neg (by simp)]
        apply ih.2
        · rfl
        · exact h
      · intro st hn ht
        rw [search, hn]
        simp only [n4]
        rw [if_neg (by omega), if_neg (by omega)]
        apply ih.1
        · rfl
        · rfl
  exact (key fuel).1 _ rfl rfl

/-- `n` operators in a chain. -/
def chainLastUses (n : Nat) : List Nat := List.range (n + 1)

/-- **C30, refuted part 3.** On a chain of operators whose measured peak keeps decreasing, the loop never finds "no next
operator": it ends with an access outside of the list of values. -/
theorem C30_chain_out_of_range (n : Nat) (measure : Nat → Nat) (hdec : ∀ i, measure (i + 1) < measure i ∨ n ≤ i)
    (peakOpId peakUsage : Nat) (hid : peakOpId ≤ n) (hpeak : measure peakOpId < peakUsage) :
    ∃ fuel, search (chainLastUses n) measure fuel (start peakOpId peakUsage) = .outOfRange := by
  have next : ∀ i, i ≤ n → getNextBottomOpId (chainLastUses n) i = if i < n then some (some (i + 1)) else none := by
    intro i hi
    unfold getNextBottomOpId chainLastUses
    rw [List.getElem?_range (by omega)]
    simp only [Nat.lt_irrefl, if_false, if_true]
    by_cases h : i < n
    · rw [List.getElem?_range (by omega), if_pos h]
      simp
    · rw [if_neg h, List.getElem?_eq_none (by simp; omega)]
  have key : ∀ (d i : Nat) (st : St), i + d = n → st.nextId = some i → measure i < st.peakUsage →
      search (chainLastUses n) measure (d + 1) st = .outOfRange := by
    intro d
    induction d with
    | zero =>
      intro i st hi hn hm
      rw [search, hn]
      simp only
      rw [if_neg (by omega), next i (by omega), if_neg (show ¬ i < n by omega)]
    | succ d ih =>
      intro i st hi hn hm
      rw [search, hn]
      simp only
      rw [if_neg (by omega), next i (by omega), if_pos (show i < n by omega), if_neg (by omega)]
      apply ih (i + 1)
      · omega
      · rfl
      · rcases hdec i with h | h
        · exact h
        · omega
  exact ⟨n - peakOpId + 1, key (n - peakOpId) peakOpId _ (by omega) rfl hpeak⟩

/-- The chain is the planner's model of a chain of three operators. -/
example : lastUses { argSizes := [8], ops := [⟨false, false, false, [0], [8]⟩, ⟨false, false, false, [1], [8]⟩,
    ⟨false, false, false, [2], [8]⟩, ⟨false, true, false, [3], []⟩] } = chainLastUses 3 := by decide

/-- **C30, when it stops (partial).** If the next operator is always a later one, the first loop ends (or leaves the list of
values) within as many iterations as there are values.  Missing for the full property: `C30_may_not_stop`. -/
theorem C30_stops_partial (lastUse : List Nat) (measure : Nat → Nat) (peakOpId peakUsage : Nat)
    (hfwd : ∀ i j, getNextBottomOpId lastUse i = some (some j) → i < j) :
    ∀ st, search lastUse measure (lastUse.length + 1) (start peakOpId peakUsage) ≠ .running st := by
  have bound : ∀ i r, getNextBottomOpId lastUse i = some r → i < lastUse.length := by
    intro i r h
    by_contra hc
    unfold getNextBottomOpId at h
    rw [List.getElem?_eq_none (by omega)] at h
    simp at h
  have key : ∀ (fuel : Nat) (s : St), (∀ id, s.nextId = some id → 1 ≤ fuel ∧ lastUse.length + 1 ≤ id + fuel) →
      ∀ st, search lastUse measure fuel s ≠ .running st := by
    intro fuel
    induction fuel with
    | zero =>
      intro s hs st h
      rw [search] at h
      split at h
      · simp at h
      · next id hn => have := hs id hn; omega
    | succ fuel ih =>
      intro s hs st h
      rw [search] at h
      split at h
      · simp at h
      · next id hn =>
        simp only at h
        split at h
        · simp at h
        · cases hnext : getNextBottomOpId lastUse id with
          | none => rw [hnext] at h; simp at h
          | some next =>
            rw [hnext] at h
            refine ih _ ?_ st h
            intro j hj
            simp only at hj
            subst hj
            have := hfwd id j hnext
            have := hs id hn
            have := bound id _ hnext
            omega
  exact key _ _ (by intro id _; omega)

end Verif.Host.Search
