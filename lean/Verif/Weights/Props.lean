import Verif.Weights.Model
/-! Specification and property theorems C24-C27. -/
namespace Verif.Weights

/-! ### Specification -/

/-- The bytes of a constant: all its elements. -/
def constBytes : Const → List Byte
  | .splat e n => (List.replicate n e).flatten
  | .dense r => r

/-- Result `i` of a weights load: the loader reads its results one after the other from `address` on. -/
def readWeights (file : List Byte) (address : Nat) (sizes : List Nat) (i : Nat) : List Byte :=
  (file.drop (address + (sizes.take i).sum)).take (sizes.getD i 0)

/-! ### C24 -/

theorem getTensorData_eq (c : Const) : getTensorData c = constBytes c := by
  have h : ∀ (n : Nat) (e : List Byte), (List.range n).foldl (fun acc _ => acc ++ e) [] = (List.replicate n e).flatten := by
    intro n e
    induction n with
    | zero => rfl
    | succ n ih => rw [List.range_succ, List.foldl_append, ih, List.replicate_succ']; simp
  cases c with
  | splat e n => exact h n e
  | dense r => simp [getTensorData, constBytes, Const.isSplat, Const.rawData]

theorem read_flatten (old : List Byte) (L : List (List Byte)) (j : Nat) (hj : j < L.length) :
    readWeights (old ++ L.flatten) old.length (L.map List.length) j = L[j] := by
  unfold readWeights
  rw [← List.drop_drop, List.drop_left]
  induction L generalizing j with
  | nil => simp at hj
  | cons a L ih =>
    cases j with
    | zero => simp
    | succ j =>
      have := ih j (by simpa using hj)
      simp only [List.map_cons, List.take_succ_cons, List.sum_cons, List.flatten_cons, List.getD_cons_succ,
        List.getElem_cons_succ]
      rw [← List.drop_drop, List.drop_left]
      exact this

/-- Result `i` of the load lies inside the file. -/
def InFile (file : List Byte) (address : Nat) (sizes : List Nat) (i : Nat) : Prop :=
  i < sizes.length ∧ address + (sizes.take i).sum + sizes.getD i 0 ≤ file.length

theorem read_append {file ext : List Byte} {a i : Nat} {s : List Nat} (h : InFile file a s i) :
    readWeights (file ++ ext) a s i = readWeights file a s i := by
  obtain ⟨_, h⟩ := h
  unfold readWeights
  rw [List.drop_append_of_le_length (by omega), List.take_append_of_le_length (by rw [List.length_drop]; omega)]

theorem sum_take_le (L : List Nat) (j : Nat) (hj : j < L.length) : (L.take j).sum + L.getD j 0 ≤ L.sum := by
  induction L generalizing j with
  | nil => simp at hj
  | cons a L ih =>
    cases j with
    | zero => simp
    | succ j => have := ih j (by simpa using hj); simp; simp at this; omega

/-- How a step may change an operand. -/
def StepRel (consts : Nat → Const) (file : List Byte) (created : List Created) (o : Nat) (cur new : Operand) : Prop :=
  new = cur ∨ ∃ k a s i, cur = .load k ∧ new = .weights a s i ∧ InFile file a s i ∧
    readWeights file a s i = constBytes (consts k) ∧ ∃ c ∈ created, c.address = a ∧ c.sizes = s ∧ c.before ≤ o

theorem rewriteOwner_rel (consts : Nat → Const) (old : List Byte) (created : List Created) (o : Nat) (l : List Operand)
    (pre : List (List Byte)) (L : List (List Byte))
    (hL : L = pre ++ (loadIds l).map fun j => getTensorData (consts j))
    (hc : ∃ c ∈ created, c.address = old.length ∧ c.sizes = L.map List.length ∧ c.before ≤ o) (i : Nat)
    (hi : i < l.length) :
    StepRel consts (old ++ L.flatten) created o (l.getD i .other)
      ((rewriteOwner old.length (L.map List.length) pre.length l).getD i .other) := by
  induction l generalizing pre i with
  | nil => simp at hi
  | cons x l ih =>
    cases x with
    | load k =>
      rw [rewriteOwner]
      cases i with
      | zero =>
        right
        have hlen : pre.length < L.length := by rw [hL]; simp [loadIds]
        refine ⟨k, _, _, _, rfl, rfl, ⟨by simpa using hlen, ?_⟩, ?_, hc⟩
        · have := sum_take_le (L.map List.length) pre.length (by simpa using hlen)
          rw [List.length_append, List.length_flatten]
          omega
        · rw [read_flatten old L pre.length hlen, ← getTensorData_eq]
          simp only [hL, loadIds, List.map_cons]
          rw [List.getElem_append_right (Nat.le_refl _)]
          simp
      | succ i =>
        have := ih (pre ++ [getTensorData (consts k)]) (by rw [hL]; simp [loadIds]) i (by simpa using hi)
        simpa using this
    | weights a s j =>
      rw [rewriteOwner]
      cases i with
      | zero => left; simp
      | succ i => simpa using ih pre (by rw [hL]; simp [loadIds]) i (by simpa using hi)
    | other =>
      rw [rewriteOwner]
      cases i with
      | zero => left; simp
      | succ i => simpa using ih pre (by rw [hL]; simp [loadIds]) i (by simpa using hi)

theorem rewriteOwner_length (a : Nat) (s : List Nat) (n : Nat) (l : List Operand) :
    (rewriteOwner a s n l).length = l.length := by
  induction l generalizing n with
  | nil => rfl
  | cons x l ih => cases x <;> simp [rewriteOwner, ih]

theorem rewriteOwner_no_load (a : Nat) (s : List Nat) (n k : Nat) (l : List Operand) :
    Operand.load k ∉ rewriteOwner a s n l := by
  induction l generalizing n with
  | nil => simp [rewriteOwner]
  | cons x l ih => cases x <;> simp [rewriteOwner, ih]

theorem mem_uses (k o : Nat) (ops : List (List Operand)) :
    o ∈ uses k ops ↔ o < ops.length ∧ Operand.load k ∈ ops.getD o [] := by
  unfold uses
  simp only [List.mem_flatMap, List.mem_map, List.mem_filter, decide_eq_true_eq, Prod.exists]
  constructor
  · rintro ⟨l, o', hm, x, ⟨hx, rfl⟩, rfl⟩
    have h := List.mk_mem_zipIdx_iff_getElem?.1 hm
    have hlt := (List.getElem?_eq_some_iff.1 h).1
    refine ⟨hlt, ?_⟩
    rw [List.getD_eq_getElem?_getD, h]; exact hx
  · rintro ⟨hlt, hm⟩
    refine ⟨ops[o], o, List.mk_mem_zipIdx_iff_getElem?.2 (List.getElem?_eq_getElem hlt), .load k, ⟨?_, rfl⟩, rfl⟩
    rwa [List.getD_eq_getElem?_getD, List.getElem?_eq_getElem hlt] at hm

theorem getD_ge {α : Type} (l : List α) (i : Nat) (d : α) (h : l.length ≤ i) : l.getD i d = d := by
  rw [List.getD_eq_getElem?_getD, List.getElem?_eq_none h]; rfl

theorem firstOwner_le (l : List Nat) : ∀ u ∈ l, firstOwner l ≤ u := by
  have h : ∀ (l : List Nat) (f : Nat), (l.foldl (fun first op => if op < first then op else first) f) ≤ f ∧
      ∀ u ∈ l, (l.foldl (fun first op => if op < first then op else first) f) ≤ u := by
    intro l
    induction l with
    | nil => simp
    | cons a l ih =>
      intro f
      obtain ⟨h1, h2⟩ := ih (if a < f then a else f)
      rw [List.foldl_cons]
      refine ⟨?_, ?_⟩
      · by_cases hc : a < f
        · simp only [if_pos hc] at h1 ⊢; omega
        · simp only [if_neg hc] at h1 ⊢; omega
      · intro u hu
        rcases List.mem_cons.1 hu with hu | hu
        · subst hu
          by_cases hc : u < f
          · simp only [if_pos hc] at h1 ⊢; omega
          · simp only [if_neg hc] at h1 ⊢; omega
        · exact h2 u hu
  cases l with
  | nil => simp
  | cons a l => intro u hu; exact (h (a :: l) a).2 u hu

def at_ (ops : List (List Operand)) (o i : Nat) : Operand := (ops.getD o []).getD i .other

/-- Same shape: number of operators and operands. -/
def SameShape (a b : List (List Operand)) : Prop := a.map List.length = b.map List.length

theorem sameShape_getD {a b : List (List Operand)} (h : SameShape a b) (o : Nat) :
    (a.getD o []).length = (b.getD o []).length := by
  have h1 : (a.map List.length)[o]? = (b.map List.length)[o]? := by rw [h]
  rw [List.getElem?_map, List.getElem?_map] at h1
  simp only [List.getD_eq_getElem?_getD]
  cases ha : a[o]? <;> cases hb : b[o]? <;> simp_all

/-- One application of the pattern: shape kept, every operand kept or resolved, and load `k` is gone. -/
theorem step_spec (ext : Bool) (consts : Nat → Const) (st : St) (k : Nat) :
    let st' := step ext consts st k
    SameShape st.ops st'.ops ∧ (∃ more, st'.blobs.flatten = st.blobs.flatten ++ more) ∧
    (∃ more, st'.created = st.created ++ more) ∧
    (∀ o i, StepRel consts st'.blobs.flatten st'.created o (at_ st.ops o i) (at_ st'.ops o i)) ∧
    (∀ o i, at_ st'.ops o i ≠ .load k) := by
  intro st'
  have haddr : (st.blobs.map List.length).sum = st.blobs.flatten.length := by rw [List.length_flatten]
  cases hu : uses k st.ops with
  | nil =>
    have hst : st' = st := by simp only [st', step, hu]
    rw [hst]
    refine ⟨rfl, ⟨[], by simp⟩, ⟨[], by simp⟩, fun o i => Or.inl rfl, ?_⟩
    intro o i h
    have : o ∈ uses k st.ops := by
      rw [mem_uses]
      unfold at_ at h
      have hi : i < (st.ops.getD o []).length := by
        by_contra hc
        rw [getD_ge _ _ _ (by omega)] at h
        exact absurd h (by simp)
      constructor
      · by_contra hc
        rw [getD_ge _ _ _ (by omega)] at hi
        simp at hi
      · rw [← h, List.getD_eq_getElem?_getD (l := st.ops.getD o []), List.getElem?_eq_getElem hi]
        exact List.getElem_mem hi
    rw [hu] at this
    simp at this
  | cons u us =>
    have humem : u ∈ uses k st.ops := by rw [hu]; simp
    have hult := (mem_uses k u st.ops).1 humem
    by_cases hone : us = [] ∧ ext = false
    · -- combined
      set owner := st.ops.getD u [] with howner
      set datas := (loadIds owner).map fun j => getTensorData (consts j) with hdatas
      have hst : st' = ⟨st.ops.set u (rewriteOwner (st.blobs.map List.length).sum (datas.map List.length) 0 owner),
          st.blobs ++ [datas.flatten], st.created ++ [⟨(st.blobs.map List.length).sum, datas.map List.length, u, false⟩]⟩ := by
        simp only [st', step, hu, if_pos hone]
        rfl
      rw [hst]
      rw [haddr]
      have hat : ∀ o i, at_ (st.ops.set u (rewriteOwner st.blobs.flatten.length (datas.map List.length) 0 owner)) o i =
          if o = u then (rewriteOwner st.blobs.flatten.length (datas.map List.length) 0 owner).getD i .other else at_ st.ops o i := by
        intro o i
        unfold at_
        by_cases ho : o = u
        · subst ho
          rw [if_pos rfl]
          congr 1
          rw [List.getD_eq_getElem?_getD, List.getElem?_set_self hult.1]
          rfl
        · rw [if_neg ho]
          congr 1
          rw [List.getD_eq_getElem?_getD, List.getElem?_set_ne (fun h => ho h.symm), List.getD_eq_getElem?_getD]
      refine ⟨?_, ⟨datas.flatten, by simp⟩, ⟨_, rfl⟩, ?_, ?_⟩
      · unfold SameShape
        rw [List.map_set, rewriteOwner_length]
        apply List.ext_getElem?
        intro j
        by_cases hj : j = u
        · subst hj
          rw [List.getElem?_set_self (by simpa using hult.1), howner, List.getElem?_map, List.getD_eq_getElem?_getD,
            List.getElem?_eq_getElem hult.1]
          rfl
        · rw [List.getElem?_set_ne (fun h => hj h.symm)]
      · intro o i
        rw [hat]
        by_cases ho : o = u
        · subst ho
          rw [if_pos rfl]
          by_cases hi : i < owner.length
          · have := rewriteOwner_rel consts st.blobs.flatten
              (st.created ++ [⟨st.blobs.flatten.length, datas.map List.length, o, false⟩]) o owner [] datas (by simp [hdatas])
              ⟨_, List.mem_append_right _ (List.mem_singleton.2 rfl), rfl, rfl, Nat.le_refl _⟩ i hi
            simp only [List.flatten_append, List.flatten_cons, List.flatten_nil, List.append_nil]
            exact this
          · left
            unfold at_
            rw [getD_ge _ _ _ (by rw [rewriteOwner_length]; omega), getD_ge (st.ops.getD o []) _ _ (by rw [← howner]; omega)]
        · rw [if_neg ho]; left; rfl
      · intro o i h
        rw [hat] at h
        by_cases ho : o = u
        · rw [if_pos ho] at h
          have hno := rewriteOwner_no_load st.blobs.flatten.length (datas.map List.length) 0 k owner
          by_cases hi : i < (rewriteOwner st.blobs.flatten.length (datas.map List.length) 0 owner).length
          · rw [List.getD_eq_getElem?_getD, List.getElem?_eq_getElem hi] at h
            simp only [Option.getD_some] at h
            exact hno (h ▸ List.getElem_mem hi)
          · rw [getD_ge _ _ _ (by omega)] at h
            exact absurd h (by simp)
        · rw [if_neg ho] at h
          unfold at_ at h
          have hi : i < (st.ops.getD o []).length := by
            by_contra hc
            rw [getD_ge _ _ _ (by omega)] at h
            exact absurd h (by simp)
          have holt : o < st.ops.length := by
            by_contra hc
            rw [getD_ge _ _ _ (by omega)] at hi
            simp at hi
          have : o ∈ uses k st.ops := by
            rw [mem_uses]
            refine ⟨holt, ?_⟩
            rw [← h, List.getD_eq_getElem?_getD (l := st.ops.getD o []), List.getElem?_eq_getElem hi]
            exact List.getElem_mem hi
          rw [hu, hone.1] at this
          exact ho (by simpa using this)
    · -- single load
      set data := getTensorData (consts k) with hdata
      obtain ⟨pad, hpad⟩ : ∃ pad, (if ext = true then data ++ List.replicate ((data.length + 31) / 32 * 32 - data.length) 0
          else data) = data ++ pad := by
        split
        · exact ⟨_, rfl⟩
        · exact ⟨[], by simp⟩
      have hst : st' = ⟨replaceLoad k (st.blobs.map List.length).sum [data.length] st.ops,
          st.blobs ++ [data ++ pad],
          st.created ++ [⟨(st.blobs.map List.length).sum, [data.length], firstOwner (u :: us), ext⟩]⟩ := by
        simp only [st', step, hu, if_neg hone, ← hdata, hpad]
      rw [hst, haddr]
      have hat : ∀ o i, at_ (replaceLoad k st.blobs.flatten.length [data.length] st.ops) o i =
          if at_ st.ops o i = .load k then .weights st.blobs.flatten.length [data.length] 0 else at_ st.ops o i := by
        intro o i
        unfold at_ replaceLoad
        simp only [List.getD_eq_getElem?_getD, List.getElem?_map]
        cases ho : st.ops[o]? with
        | none => simp
        | some l =>
          simp only [Option.map_some, Option.getD_some, List.getElem?_map]
          cases hi : l[i]? with
          | none => simp
          | some x => simp
      refine ⟨?_, ⟨data ++ pad, by simp⟩, ⟨_, rfl⟩, ?_, ?_⟩
      · unfold SameShape replaceLoad
        simp [List.map_map, Function.comp_def]
      · intro o i
        rw [hat]
        by_cases h : at_ st.ops o i = .load k
        · rw [if_pos h]
          right
          have hou : o ∈ uses k st.ops := by
            rw [mem_uses]
            unfold at_ at h
            have hi : i < (st.ops.getD o []).length := by
              by_contra hc
              rw [getD_ge _ _ _ (by omega)] at h
              exact absurd h (by simp)
            constructor
            · by_contra hc
              rw [getD_ge _ _ _ (by omega)] at hi
              simp at hi
            · rw [← h, List.getD_eq_getElem?_getD (l := st.ops.getD o []), List.getElem?_eq_getElem hi]
              exact List.getElem_mem hi
          refine ⟨k, _, _, _, h, rfl, ⟨by simp, by simp⟩, ?_,
            ⟨_, List.mem_append_right _ (List.mem_singleton.2 rfl), rfl, rfl, ?_⟩⟩
          · unfold readWeights
            simp [hdata, getTensorData_eq]
          · exact firstOwner_le _ o (hu ▸ hou)
        · rw [if_neg h]; left; rfl
      · intro o i h
        rw [hat] at h
        split at h
        · exact absurd h (by simp)
        · contradiction

/-- **C24.** For every function, all constants and every order in which the loads are visited that includes all of them:
afterwards every operand that was a loaded constant is a result of a weights load that lies inside the file, and the bytes
found there are exactly the bytes of the constant; every other operand is unchanged.  The weights load is placed before
every operator that uses it. -/
theorem C24_weights_found (ext : Bool) (consts : Nat → Const) (ops : List (List Operand)) (order : List Nat)
    (hall : ∀ o i k, at_ ops o i = .load k → k ∈ order) (o i : Nat) :
    let st := run ext consts ops order
    let file := flashFile st.blobs
    SameShape ops st.ops ∧
    match at_ ops o i with
    | .load k => ∃ a s j, at_ st.ops o i = .weights a s j ∧ j < s.length ∧
        a + (s.take j).sum + s.getD j 0 ≤ file.length ∧ readWeights file a s j = constBytes (consts k) ∧
        ∃ c ∈ st.created, c.address = a ∧ c.sizes = s ∧ c.before ≤ o
    | x => at_ st.ops o i = x := by
  intro st file
  have hfile : file = st.blobs.flatten := by
    have h : ∀ (l : List (List Byte)) (acc : List Byte), l.foldl (fun acc t => acc ++ t) acc = acc ++ l.flatten := by
      intro l
      induction l with
      | nil => simp
      | cons a l ih => intro acc; simp [ih]
    show flashFile st.blobs = _
    unfold flashFile
    rw [h]; simp
  -- invariant over the run
  have inv : ∀ (order : List Nat) (s0 : St), SameShape ops s0.ops →
      (∀ o i, StepRel consts s0.blobs.flatten s0.created o (at_ ops o i) (at_ s0.ops o i)) →
      let s1 := order.foldl (step ext consts) s0
      SameShape ops s1.ops ∧ (∀ o i, StepRel consts s1.blobs.flatten s1.created o (at_ ops o i) (at_ s1.ops o i)) ∧
        ∀ o i k, at_ s1.ops o i = .load k → at_ s0.ops o i = .load k ∧ k ∉ order := by
    intro order
    induction order with
    | nil => intro s0 h1 h2; exact ⟨h1, h2, fun o i k h => ⟨h, by simp⟩⟩
    | cons k order ih =>
      intro s0 h1 h2
      obtain ⟨g1, ⟨more, g2⟩, ⟨morec, g3⟩, g4, g5⟩ := step_spec ext consts s0 k
      have h2' : ∀ o i, StepRel consts (step ext consts s0 k).blobs.flatten (step ext consts s0 k).created o (at_ ops o i)
          (at_ (step ext consts s0 k).ops o i) := by
        intro o i
        rcases h2 o i with h | ⟨j, a, s, n, e1, e2, e3, e4, c, hc, e5⟩
        · rw [← h]; exact g4 o i
        · rcases g4 o i with g | ⟨j', a', s', n', f1, _⟩
          · right
            refine ⟨j, a, s, n, e1, by rw [g, e2], ?_, ?_, c, ?_, e5⟩
            · rw [g2]; exact ⟨e3.1, by rw [List.length_append]; have := e3.2; omega⟩
            · rw [g2, read_append e3, e4]
            · rw [g3]; exact List.mem_append_left _ hc
          · rw [e2] at f1; exact absurd f1 (by simp)
      obtain ⟨i1, i2, i3⟩ := ih (step ext consts s0 k) (h1.trans g1) h2'
      refine ⟨i1, i2, ?_⟩
      intro o i k' h
      obtain ⟨j1, j2⟩ := i3 o i k' h
      have hk : k' ≠ k := by intro e; subst e; exact g5 o i j1
      refine ⟨?_, by simp [hk, j2]⟩
      rcases g4 o i with g | ⟨_, _, _, _, _, f2, _⟩
      · rw [← g]; exact j1
      · rw [j1] at f2; exact absurd f2 (by simp)
  obtain ⟨i1, i2, i3⟩ := inv order ⟨ops, [], []⟩ rfl (fun o i => Or.inl rfl)
  refine ⟨i1, ?_⟩
  have hi2 := i2 o i
  have hi3 := i3 o i
  cases hx : at_ ops o i with
  | load k =>
    rcases hi2 with h | ⟨j, a, s, n, e1, e2, e3, e4, e5⟩
    · rw [hx] at h
      exact absurd (hall o i k hx) (hi3 k h).2
    · rw [hx] at e1
      cases e1
      refine ⟨a, s, n, e2, e3.1, ?_, ?_, e5⟩
      · rw [hfile]; exact e3.2
      · rw [hfile]; exact e4
  | weights a s n =>
    rcases hi2 with h | ⟨j, _, _, _, e1, _⟩
    · rw [hx] at h; exact h
    · rw [hx] at e1; exact absurd e1 (by simp)
  | other =>
    rcases hi2 with h | ⟨j, _, _, _, e1, _⟩
    · rw [hx] at h; exact h
    · rw [hx] at e1; exact absurd e1 (by simp)

/-- Two loads of one operator are combined; a third, shared one is loaded on its own. -/
example : (run false (fun k => .dense [k, k + 10]) [[.load 0, .other, .load 1], [.load 2], [.other, .load 2]] [0, 1, 2]).ops =
    [[.weights 0 [2, 2] 0, .other, .weights 0 [2, 2] 1], [.weights 4 [2] 0], [.other, .weights 4 [2] 0]] := by decide
example : (run true (fun _ => .splat [7] 3) [[.load 0, .load 1]] [1, 0]).created =
    [⟨0, [3], 0, true⟩, ⟨32, [3], 0, true⟩] := by decide

/-! ### C25 -/

/-- Blobs and created operators correspond one to one and follow each other from `start` on. -/
def Laid (ext : Bool) : Nat → List Created → List (List Byte) → Prop
  | _, [], [] => True
  | start, c :: cs, b :: bs =>
    c.address = start ∧ c.inDdr = ext ∧ c.sizes.sum ≤ b.length ∧ (ext = true → c.sizes.length = 1 ∧ 32 ∣ b.length) ∧
      Laid ext (start + b.length) cs bs
  | _, _, _ => False

theorem laid_snoc {ext : Bool} {start : Nat} {cs : List Created} {bs : List (List Byte)} (h : Laid ext start cs bs)
    (c : Created) (b : List Byte) (h1 : c.address = start + (bs.map List.length).sum) (h2 : c.inDdr = ext)
    (h3 : c.sizes.sum ≤ b.length) (h4 : ext = true → c.sizes.length = 1 ∧ 32 ∣ b.length) :
    Laid ext start (cs ++ [c]) (bs ++ [b]) := by
  induction cs generalizing start bs with
  | nil =>
    cases bs with
    | nil => exact ⟨by simpa using h1, h2, h3, h4, trivial⟩
    | cons _ _ => exact h.elim
  | cons a cs ih =>
    cases bs with
    | nil => exact h.elim
    | cons b0 bs =>
      obtain ⟨g1, g2, g3, g4, g5⟩ := h
      refine ⟨g1, g2, g3, g4, ih g5 ?_⟩
      rw [h1]; simp; omega

theorem run_laid (ext : Bool) (consts : Nat → Const) (order : List Nat) (st : St) (h : Laid ext 0 st.created st.blobs) :
    Laid ext 0 (order.foldl (step ext consts) st).created (order.foldl (step ext consts) st).blobs := by
  induction order generalizing st with
  | nil => exact h
  | cons k order ih =>
    apply ih
    unfold step
    cases uses k st.ops with
    | nil => exact h
    | cons u us =>
      simp only
      by_cases hc : us = [] ∧ ext = false
      · rw [if_pos hc]
        refine laid_snoc h _ _ (by simp) hc.2.symm ?_ ?_
        · rw [List.length_flatten]
        · intro he; rw [hc.2] at he; exact absurd he (by simp)
      · rw [if_neg hc]
        refine laid_snoc h _ _ (by simp) rfl ?_ ?_
        · split
          · simp
          · simp
        · intro he
          subst he
          refine ⟨rfl, ?_⟩
          rw [if_pos rfl, List.length_append, List.length_replicate]
          refine ⟨((getTensorData (consts k)).length + 31) / 32, ?_⟩
          omega

/-- **C25.** For every function and every order of visits: the byte ranges of distinct weights loads are disjoint and
inside the file, and in the order of creation; with weights in external memory every address and the length of the file
are multiples of 32, and every load has one result. -/
theorem C25_regions (ext : Bool) (consts : Nat → Const) (ops : List (List Operand)) (order : List Nat) :
    let st := run ext consts ops order
    let file := flashFile st.blobs
    st.created.Pairwise (fun c d => c.address + c.sizes.sum ≤ d.address) ∧
    (∀ c ∈ st.created, c.address + c.sizes.sum ≤ file.length ∧ c.inDdr = ext) ∧
    (ext = true → 32 ∣ file.length ∧ ∀ c ∈ st.created, 32 ∣ c.address ∧ c.sizes.length = 1) := by
  intro st file
  have hfile : file = st.blobs.flatten := by
    have h : ∀ (l : List (List Byte)) (acc : List Byte), l.foldl (fun acc t => acc ++ t) acc = acc ++ l.flatten := by
      intro l
      induction l with
      | nil => simp
      | cons a l ih => intro acc; simp [ih]
    show flashFile st.blobs = _
    unfold flashFile
    rw [h]; simp
  have hl : Laid ext 0 st.created st.blobs := run_laid ext consts order ⟨ops, [], []⟩ trivial
  have key : ∀ (cs : List Created) (bs : List (List Byte)) (start : Nat), Laid ext start cs bs →
      cs.Pairwise (fun c d => c.address + c.sizes.sum ≤ d.address) ∧
      (∀ c ∈ cs, start ≤ c.address ∧ c.address + c.sizes.sum ≤ start + bs.flatten.length ∧ c.inDdr = ext) ∧
      (ext = true → 32 ∣ start → 32 ∣ start + bs.flatten.length ∧ ∀ c ∈ cs, 32 ∣ c.address ∧ c.sizes.length = 1) := by
    intro cs
    induction cs with
    | nil =>
      intro bs start h
      cases bs with
      | nil => simp
      | cons _ _ => exact h.elim
    | cons c cs ih =>
      intro bs start h
      cases bs with
      | nil => exact h.elim
      | cons b bs =>
        obtain ⟨g1, g2, g3, g4, g5⟩ := h
        obtain ⟨i1, i2, i3⟩ := ih bs _ g5
        simp only [List.flatten_cons, List.length_append]
        refine ⟨List.Pairwise.cons (fun d hd => ?_) i1, ?_, ?_⟩
        · have := (i2 d hd).1; omega
        · intro d hd
          rcases List.mem_cons.1 hd with hd | hd
          · subst hd; exact ⟨by omega, by omega, g2⟩
          · have := i2 d hd; exact ⟨by omega, by omega, this.2.2⟩
        · intro he hs
          obtain ⟨j1, j2⟩ := g4 he
          obtain ⟨k1, k2⟩ := i3 he (Nat.dvd_add hs j2)
          refine ⟨by rw [← Nat.add_assoc]; exact k1, ?_⟩
          intro d hd
          rcases List.mem_cons.1 hd with hd | hd
          · subst hd; exact ⟨g1 ▸ hs, j1⟩
          · exact k2 d hd
  obtain ⟨k1, k2, k3⟩ := key _ _ _ hl
  rw [hfile]
  refine ⟨k1, ?_, ?_⟩
  · intro c hc
    have := k2 c hc
    exact ⟨by omega, this.2.2⟩
  · intro he
    have := k3 he (by simp)
    rw [Nat.zero_add] at this
    exact this

/-! ### C26 -/

/-- The numbers of an initialiser list. -/
def nums : List Tok → List Int
  | [] => []
  | .num n :: r => n :: nums r
  | .newline :: r => nums r

/-- Lengths of the lines. -/
def lineLengths : Nat → List Tok → List Nat
  | n, [] => [n]
  | n, .num _ :: r => lineLengths (n + 1) r
  | n, .newline :: r => n :: lineLengths 0 r

theorem nums_append (a b : List Tok) : nums (a ++ b) = nums a ++ nums b := by
  induction a with
  | nil => rfl
  | cons x a ih => cases x <;> simp [nums, ih]

theorem lineLengths_append (n : Nat) (a b : List Tok) : ∀ x ∈ lineLengths n (a ++ b), x ∈ lineLengths n a ∨
    ∃ m ∈ (lineLengths n a).getLast?, x ∈ lineLengths m b := by
  induction a generalizing n with
  | nil => intro x hx; right; exact ⟨n, by simp [lineLengths], hx⟩
  | cons t a ih =>
    cases t with
    | num v => exact ih (n + 1)
    | newline =>
      intro x hx
      simp only [List.cons_append, lineLengths, List.mem_cons] at hx
      rcases hx with hx | hx
      · left; simp [lineLengths, hx]
      · rcases ih 0 x hx with h | ⟨m, h1, h2⟩
        · left; simp [lineLengths, h]
        · right
          refine ⟨m, ?_, h2⟩
          rw [lineLengths, List.getLast?_cons]
          cases hg : (lineLengths 0 a).getLast? with
          | none => rw [hg] at h1; simp at h1
          | some v => rw [hg] at h1; simpa using h1

theorem getLast_num (n : Nat) (a : List Tok) (v : Int) (m : Nat) (h : (lineLengths n a).getLast? = some m) :
    (lineLengths n (a ++ [.num v])).getLast? = some (m + 1) := by
  induction a generalizing n with
  | nil => simp [lineLengths] at h ⊢; omega
  | cons t a ih =>
    cases t with
    | num w => exact ih (n + 1) h
    | newline =>
      simp only [List.cons_append, lineLengths, List.getLast?_cons] at h ⊢
      have hne : ∀ n (l : List Tok), lineLengths n l ≠ [] := by
        intro n l; induction l generalizing n with
        | nil => simp [lineLengths]
        | cons t l ih => cases t <;> simp [lineLengths, ih]
      cases hg : (lineLengths 0 a).getLast? with
      | none => exact absurd (List.getLast?_eq_none_iff.1 hg) (hne _ _)
      | some w =>
        rw [hg] at h
        simp only [Option.getD_some, Option.some.injEq] at h
        subst h
        rw [ih 0 hg]; rfl

theorem getLast_newline (n : Nat) (a : List Tok) : (lineLengths n (a ++ [.newline])).getLast? = some 0 := by
  induction a generalizing n with
  | nil => simp [lineLengths]
  | cons t a ih =>
    cases t with
    | num w => exact ih (n + 1)
    | newline => simp only [List.cons_append, lineLengths, List.getLast?_cons, ih 0]; rfl

/-- Invariant of the printing loop. -/
def PrintInv (s : PrintSt) : Prop :=
  s.weightsSize = (nums s.out).length ∧ s.lineEnding ≤ 80 ∧ (lineLengths 0 s.out).getLast? = some s.lineEnding ∧
  ∀ x ∈ lineLengths 0 s.out, x ≤ 81

theorem printByte_inv (s : PrintSt) (b : Byte) (h : PrintInv s) :
    PrintInv (printByte s b) ∧ nums (printByte s b).out = nums s.out ++ [b] := by
  obtain ⟨h1, h2, h3, h4⟩ := h
  have hl1 := getLast_num 0 s.out b s.lineEnding h3
  have hx1 : ∀ x ∈ lineLengths 0 (s.out ++ [Tok.num b]), x ≤ 81 := by
    intro x hx
    rcases lineLengths_append 0 s.out [.num b] x hx with hx | ⟨m, hm, hx⟩
    · exact h4 x hx
    · rw [h3] at hm
      simp only [Option.mem_def, Option.some.injEq] at hm
      subst hm
      simp only [lineLengths, List.mem_singleton] at hx
      omega
  unfold printByte
  simp only
  split
  · refine ⟨⟨?_, by simp, getLast_newline _ _, ?_⟩, ?_⟩
    · simp [nums_append, nums, h1]
    · intro x hx
      rcases lineLengths_append 0 (s.out ++ [.num b]) [.newline] x hx with hx | ⟨m, hm, hx⟩
      · exact hx1 x hx
      · rw [hl1] at hm
        simp only [Option.mem_def, Option.some.injEq] at hm
        subst hm
        simp only [lineLengths, List.mem_cons, List.not_mem_nil, or_false] at hx
        omega
    · simp [nums_append, nums]
  · refine ⟨⟨?_, by simp only; omega, hl1, hx1⟩, ?_⟩
    · simp [nums_append, nums, h1]
    · simp [nums_append, nums]

theorem print_tensor (t : List Byte) (s : PrintSt) (h : PrintInv s) :
    PrintInv (t.foldl printByte s) ∧ nums (t.foldl printByte s).out = nums s.out ++ t := by
  induction t generalizing s with
  | nil => simp [h]
  | cons b t ih =>
    obtain ⟨h1, h2⟩ := printByte_inv s b h
    obtain ⟨h3, h4⟩ := ih _ h1
    exact ⟨h3, by rw [List.foldl_cons, h4, h2]; simp⟩

theorem print_tensors (ts : List (List Byte)) (s : PrintSt) (h : PrintInv s) :
    PrintInv (ts.foldl (fun s t => t.foldl printByte s) s) ∧
      nums (ts.foldl (fun s t => t.foldl printByte s) s).out = nums s.out ++ ts.flatten := by
  induction ts generalizing s with
  | nil => simp [h]
  | cons t ts ih =>
    obtain ⟨h1, h2⟩ := print_tensor t s h
    obtain ⟨h3, h4⟩ := ih _ h1
    exact ⟨h3, by rw [List.foldl_cons, h4, h2]; simp⟩

/-- **C26.** For all weights: the emitted initialisers are exactly the bytes of the flash file, preceded by the 20-byte
server header when the weights are not placed in external memory; the declared `WEIGHTS_SIZE` is the number of
initialisers; no line has more than 81 of them.  The header starts with the version 1, 2 and its complement; its third word
(little endian) is the position of the first weight byte, so a load with address `a` finds its bytes at `header word + a`. -/
theorem C26_weights_array (tensors : List (List Byte)) (external : Bool) :
    let r := weightsArray tensors external
    nums r.1 = (if external then [] else
      [1, 2, -1 - 1, -1 - 2, 0, 0, 0, 0, 20, 0, 0, 0, 0, 0, 0, 0, 0, 0, 0, 0]) ++ tensors.flatten ∧ flashFile tensors = tensors.flatten ∧
    r.2 = (nums r.1).length ∧
    (∀ n ∈ lineLengths 0 r.1, n ≤ 81) ∧
    (external = false →
      let at_ := fun i => (nums r.1).getD i 0
      let paramsStart := at_ 8 + 256 * at_ 9 + 65536 * at_ 10 + 16777216 * at_ 11
      paramsStart = 20 ∧ (nums r.1).drop paramsStart.toNat = flashFile tensors) := by
  intro r
  have hf : ∀ (l : List (List Byte)) (acc : List Byte), l.foldl (fun acc t => acc ++ t) acc = acc ++ l.flatten := by
    intro l
    induction l with
    | nil => simp
    | cons a l ih => intro acc; simp [ih]
  have hff : flashFile tensors = tensors.flatten := by unfold flashFile; rw [hf]; simp
  have h0 : PrintInv ⟨[], 0, 0⟩ := ⟨rfl, by simp, by simp [lineLengths], by simp [lineLengths]⟩
  obtain ⟨h1, h2⟩ := print_tensors (if external then tensors else tileHeader :: tensors) ⟨[], 0, 0⟩ h0
  have hn : nums r.1 = (if external then [] else tileHeader) ++ flashFile tensors := by
    show nums (weightsArray tensors external).1 = _
    unfold weightsArray
    simp only
    rw [h2, hff]
    cases external <;> simp [nums]
  refine ⟨by rw [hn, hff]; rfl, hff, h1.1, h1.2.2.2, ?_⟩
  intro he
  subst he
  simp only [Bool.false_eq_true, if_false] at hn
  rw [hn]
  have hg : ∀ i, i < 20 → (tileHeader ++ flashFile tensors).getD i 0 = tileHeader.getD i 0 := by
    intro i hi
    rw [List.getD_eq_getElem?_getD, List.getElem?_append_left (by simpa [tileHeader] using hi), List.getD_eq_getElem?_getD]
  simp only
  rw [hg 8 (by omega), hg 9 (by omega), hg 10 (by omega), hg 11 (by omega)]
  refine ⟨by decide, ?_⟩
  rw [show (tileHeader.getD 8 0 + 256 * tileHeader.getD 9 0 + 65536 * tileHeader.getD 10 0 +
    16777216 * tileHeader.getD 11 0).toNat = tileHeader.length by decide]
  exact List.drop_left

example : weightsArray [[1, -2], [3]] true = ([.num 1, .num (-2), .num 3], 3) := by decide

/-! ### C27 -/

/-- Total size in bytes of the selected constants. -/
def selectedBytes (l : List (Nat × Bool)) : Nat := ((l.filter (·.2)).map fun x => x.1 / 8).sum

/-- **C27.** For every sequence of constants: a constant is selected only if it is larger than the threshold, and only
while the bytes counted before it are within the limit; so the selected constants without the last one fit the limit. -/
theorem C27_budget (maxSize ifLarger : Nat) (sizes : List Nat) :
    let calls := loadCalls maxSize ifLarger 0 sizes
    (∀ x ∈ calls, x.2 = true → ifLarger < x.1 / 8) ∧
    (∀ before x after, calls = before ++ x :: after → x.2 = true → selectedBytes before ≤ maxSize) ∧
    selectedBytes calls ≤ maxSize + (calls.map fun x => x.1 / 8).foldr max 0 := by
  intro calls
  have key : ∀ (sizes : List Nat) (total sel : Nat), sel ≤ total →
      (∀ x ∈ loadCalls maxSize ifLarger total sizes, x.2 = true → ifLarger < x.1 / 8) ∧
      (∀ before x after, loadCalls maxSize ifLarger total sizes = before ++ x :: after → x.2 = true →
        sel + selectedBytes before ≤ maxSize) ∧
      (sel + selectedBytes (loadCalls maxSize ifLarger total sizes) ≤
        max sel (maxSize + ((loadCalls maxSize ifLarger total sizes).map fun x => x.1 / 8).foldr max 0)) := by
    intro sizes
    induction sizes with
    | nil =>
      intro total sel _
      simp [loadCalls, selectedBytes]
    | cons b r ih =>
      intro total sel hs
      rw [loadCalls]
      by_cases ht : total > maxSize
      · have e : shouldLoad maxSize ifLarger total b = (false, total) := by unfold shouldLoad; rw [if_pos ht]
        rw [e]
        obtain ⟨i1, i2, i3⟩ := ih total sel hs
        refine ⟨?_, ?_, ?_⟩
        · intro x hx; rcases List.mem_cons.1 hx with hx | hx
          · subst hx; simp
          · exact i1 x hx
        · intro before x after h hx
          cases before with
          | nil => simp only [List.nil_append, List.cons.injEq] at h; rw [← h.1] at hx; simp at hx
          | cons y before =>
            simp only [List.cons_append, List.cons.injEq] at h
            have := i2 before x after h.2 hx
            rw [← h.1]
            simpa [selectedBytes] using this
        · simp only [selectedBytes, List.filter_cons, List.map_cons, List.foldr_cons] at i3 ⊢
          simp only [Bool.false_eq_true, if_false]
          omega
      · have e : shouldLoad maxSize ifLarger total b = (decide (b / 8 > ifLarger), total + b / 8) := by
          unfold shouldLoad; rw [if_neg ht]
        rw [e]
        by_cases hb : b / 8 > ifLarger
        · obtain ⟨i1, i2, i3⟩ := ih (total + b / 8) (sel + b / 8) (by omega)
          refine ⟨?_, ?_, ?_⟩
          · intro x hx; rcases List.mem_cons.1 hx with hx | hx
            · subst hx; intro _; exact hb
            · exact i1 x hx
          · intro before x after h hx
            cases before with
            | nil => simp [selectedBytes]; omega
            | cons y before =>
              simp only [List.cons_append, List.cons.injEq] at h
              have := i2 before x after h.2 hx
              rw [← h.1]
              simp only [selectedBytes, hb, decide_true, List.filter_cons, if_true, List.map_cons, List.sum_cons] at this ⊢
              omega
          · simp only [selectedBytes, hb, decide_true, List.filter_cons, if_true, List.map_cons, List.sum_cons,
              List.foldr_cons] at i3 ⊢
            omega
        · obtain ⟨i1, i2, i3⟩ := ih (total + b / 8) sel (by omega)
          refine ⟨?_, ?_, ?_⟩
          · intro x hx; rcases List.mem_cons.1 hx with hx | hx
            · subst hx; simp [hb]
            · exact i1 x hx
          · intro before x after h hx
            cases before with
            | nil => simp [selectedBytes]; omega
            | cons y before =>
              simp only [List.cons_append, List.cons.injEq] at h
              have := i2 before x after h.2 hx
              rw [← h.1]
              simpa [selectedBytes, hb] using this
          · simp only [selectedBytes, hb, decide_false, List.filter_cons, Bool.false_eq_true, if_false, List.map_cons,
              List.foldr_cons] at i3 ⊢
            omega
  obtain ⟨k1, k2, k3⟩ := key sizes 0 0 (Nat.le_refl _)
  refine ⟨k1, ?_, ?_⟩
  · intro before x after h hx; have := k2 before x after h hx; omega
  · have e : selectedBytes calls = selectedBytes (loadCalls maxSize ifLarger 0 sizes) := rfl
    have := k3
    show selectedBytes (loadCalls maxSize ifLarger 0 sizes) ≤
      maxSize + ((loadCalls maxSize ifLarger 0 sizes).map fun x => x.1 / 8).foldr max 0
    omega

/-- Completeness: while the counter is within the limit, every constant above the threshold is selected. -/
theorem C27_selects_when_within (maxSize ifLarger total bits : Nat) :
    (shouldLoad maxSize ifLarger total bits).1 = true ↔ total ≤ maxSize ∧ ifLarger < bits / 8 := by
  unfold shouldLoad
  split <;> simp <;> omega

/-- **C27, refuted part.** The documented limit of the external image can be exceeded by any amount. -/
theorem C27_limit_exceeded (maxSize ifLarger extra : Nat) :
    ∃ sizes, maxSize + extra < selectedBytes (loadCalls maxSize ifLarger 0 sizes) := by
  refine ⟨[8 * (maxSize + extra + ifLarger + 1)], ?_⟩
  simp only [loadCalls, shouldLoad, gt_iff_lt, Nat.not_lt_zero, if_false, selectedBytes]
  have : 8 * (maxSize + extra + ifLarger + 1) / 8 = maxSize + extra + ifLarger + 1 := Nat.mul_div_cancel_left _ (by omega)
  rw [this]
  simp [show ifLarger < maxSize + extra + ifLarger + 1 by omega]
  omega

/-- Constants that are not selected use up the limit too: here nothing is selected although both limits allow it. -/
theorem C27_rejected_count : selectedBytes (loadCalls 100 96 0 [8 * 60, 8 * 60, 8 * 97]) = 0 := by decide

example : loadCalls 1000 96 0 [800, 8000, 8008] = [(800, true), (8000, true), (8008, false)] := by decide

end Verif.Weights
