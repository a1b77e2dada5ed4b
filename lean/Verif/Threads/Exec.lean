import Verif.Threads.Props
import Mathlib.Data.List.Forall2
import Mathlib.Tactic.ByContra
import Mathlib.Algebra.Order.BigOperators.Group.List
import Mathlib.Algebra.Order.Ring.Nat
import Mathlib.Algebra.Order.Monoid.Canonical.Basic
import Mathlib.Algebra.Order.Group.Nat
/-!
Running a kernel with several threads.

The compiler gives every thread one region of the output (ReplaceConv2D.cpp 102–114, ReplaceMaxPool2D.cpp 44–45; ConvPatterns.h
290–308: one `AbstractKernel` per region), and one scratch buffer of `scratchBytes * number of regions` bytes for all of
them (ReplaceConv2D.cpp 141–146, 201–212).  The runtime (external) starts the threads at the same time; thread `t` works in the `t`-th
section of the scratch buffer.  Here a thread's program is a list of atomic steps, and a schedule is any interleaving of the
programs.
-/
namespace Verif.Threads

/-- Output element (row, column, channel). -/
abbrev Elem := Nat × Nat × Nat

/-- Memory written by the threads: scratch buffer and output tensor. -/
structure TMem where
  scratch : Nat → Int
  out : Elem → Int

/-- Atomic steps: write a byte of the own scratch section; compute an output element from the own scratch section. -/
inductive TStep where
  | put (k : Nat) (v : Int)
  | emit (e : Elem) (f : (Nat → Int) → Int)

/-- `base` is the start of the thread's scratch section. -/
def TStep.exec (base : Nat) (a : TStep) (m : TMem) : TMem :=
  match a with
  | .put k v => { m with scratch := fun i => if i = base + k then v else m.scratch i }
  | .emit e f => { m with out := fun e' => if e' = e then f (fun k => m.scratch (base + k)) else m.out e' }

/-- A schedule: which thread does which step. -/
def runSchedule (B : Nat) (s : List (Nat × TStep)) (m : TMem) : TMem :=
  s.foldl (fun m ta => ta.2.exec (ta.1 * B) m) m

/-- `s` is an interleaving of the programs `ps`: every thread does its own steps in their order. -/
inductive Interleaving {α : Type} : List (List α) → List (Nat × α) → Prop where
  | done {ps : List (List α)} : (∀ p ∈ ps, p = []) → Interleaving ps []
  | step {ps : List (List α)} {t : Nat} {a : α} {rest : List α} {s : List (Nat × α)} :
      ps[t]? = some (a :: rest) → Interleaving (ps.set t rest) s → Interleaving ps ((t, a) :: s)

/-- A piece of work: the bytes the thread first puts into its scratch section, then the elements it computes from them
(the kernels compute up to 16 channels from one patch; kernels without scratch have `B = 0`). -/
structure Job where
  patch : Nat → Int
  emits : List (Elem × ((Nat → Int) → Int))

def Job.steps (B : Nat) (j : Job) : List TStep :=
  (List.range B).map (fun k => .put k (j.patch k)) ++ j.emits.map fun ef => .emit ef.1 ef.2

def program (B : Nat) (w : List Job) : List TStep := w.flatMap (Job.steps B)

/-- The elements a thread computes, in order. -/
def elems (w : List Job) : List Elem := w.flatMap fun j => j.emits.map (·.1)

/-- The computation of each element looks only at the thread's section and gives `val`. -/
def Job.Computes (B : Nat) (val : Elem → Int) (j : Job) : Prop :=
  ∀ ef ∈ j.emits, (∀ u v : Nat → Int, (∀ k < B, u k = v k) → ef.2 u = ef.2 v) ∧ ef.2 j.patch = val ef.1

/-- `w` does the elements of region `r` in the phase of `p`, each once. -/
def DoesRegion (p : Params) (r : Region) (w : List Job) : Prop :=
  (elems w).Nodup ∧ ∀ y x c, (y, x, c) ∈ elems w ↔ r.Has y x c ∧ p.InPhase y x

/-- How often the schedule writes an element. -/
def writes (s : List (Nat × TStep)) (e : Elem) : Nat :=
  s.countP fun ta => match ta.2 with | .put _ _ => false | .emit e' _ => decide (e' = e)

/-- Scratch addresses written by the schedule. -/
def scratchWritten (B : Nat) (s : List (Nat × TStep)) : List Nat :=
  s.filterMap fun ta => match ta.2 with | .put k _ => some (ta.1 * B + k) | .emit _ _ => none

/-! ### Proofs -/

def TStep.emitsTo (e : Elem) : TStep → Bool
  | .put _ _ => false
  | .emit e' _ => decide (e' = e)

/-- Well-behaved steps of a thread. -/
def TStep.Ok (B : Nat) : TStep → Prop
  | .put k _ => k < B
  | .emit _ f => ∀ u v : Nat → Int, (∀ k < B, u k = v k) → f u = f v

/-- The two memories look the same to thread `t` and at element `e`. -/
def Agree (B t : Nat) (e : Elem) (m m' : TMem) : Prop :=
  (∀ k < B, m.scratch (t * B + k) = m'.scratch (t * B + k)) ∧ m.out e = m'.out e

def solo (B t : Nat) (l : List TStep) (m : TMem) : TMem := l.foldl (fun m a => a.exec (t * B) m) m

theorem exec_agree {B t : Nat} {e : Elem} {a : TStep} (ok : a.Ok B) {m m' : TMem} (h : Agree B t e m m') :
    Agree B t e (a.exec (t * B) m) (a.exec (t * B) m') := by
  cases a with
  | put k v =>
    refine ⟨fun k' hk' => ?_, h.2⟩
    simp only [TStep.exec]
    by_cases hc : t * B + k' = t * B + k
    · rw [if_pos hc, if_pos hc]
    · rw [if_neg hc, if_neg hc]; exact h.1 k' hk'
  | emit e' f =>
    refine ⟨h.1, ?_⟩
    simp only [TStep.exec]
    by_cases hc : e = e'
    · rw [if_pos hc, if_pos hc]
      exact ok _ _ fun k hk => h.1 k hk
    · rw [if_neg hc, if_neg hc]; exact h.2

theorem solo_agree {B t : Nat} {e : Elem} (l : List TStep) (ok : ∀ a ∈ l, a.Ok B) {m m' : TMem} (h : Agree B t e m m') :
    Agree B t e (solo B t l m) (solo B t l m') := by
  induction l generalizing m m' with
  | nil => exact h
  | cons a l ih => exact ih (fun a ha => ok a (by simp [ha])) (exec_agree (ok a (by simp)) h)

theorem section_ne {B t t' k k' : Nat} (ht : t ≠ t') (hk : k < B) (hk' : k' < B) : t * B + k ≠ t' * B + k' := by
  intro h
  rcases Nat.lt_or_gt_of_ne ht with h1 | h1
  · have : (t + 1) * B ≤ t' * B := Nat.mul_le_mul_right _ h1
    rw [Nat.succ_mul] at this
    omega
  · have : (t' + 1) * B ≤ t * B := Nat.mul_le_mul_right _ h1
    rw [Nat.succ_mul] at this
    omega

theorem exec_other {B t t' : Nat} {e : Elem} {a : TStep} (ok : a.Ok B) (ht : t' ≠ t) (he : a.emitsTo e = false) (m : TMem) :
    Agree B t e (a.exec (t' * B) m) m := by
  cases a with
  | put k v =>
    refine ⟨fun k' hk' => ?_, rfl⟩
    simp only [TStep.exec]
    rw [if_neg (section_ne (Ne.symm ht) hk' ok)]
  | emit e' f =>
    refine ⟨fun _ _ => rfl, ?_⟩
    simp only [TStep.exec]
    have : e' ≠ e := by simpa [TStep.emitsTo] using he
    rw [if_neg (Ne.symm this)]

theorem Agree.trans {B t : Nat} {e : Elem} {m1 m2 m3 : TMem} (h : Agree B t e m1 m2) (h' : Agree B t e m2 m3) : Agree B t e m1 m3 :=
  ⟨fun k hk => (h.1 k hk).trans (h'.1 k hk), h.2.trans h'.2⟩

/-- What thread `t` sees at the end, and an element only it computes, are as if it had run alone. -/
theorem interleaving_solo {B : Nat} {ps : List (List TStep)} {s : List (Nat × TStep)} (h : Interleaving ps s)
    (ok : ∀ p ∈ ps, ∀ a ∈ p, a.Ok B) (t : Nat) (p : List TStep) (hp : ps[t]? = some p) (e : Elem)
    (he : ∀ t', t' ≠ t → ∀ q, ps[t']? = some q → ∀ a ∈ q, a.emitsTo e = false) (m : TMem) :
    Agree B t e (runSchedule B s m) (solo B t p m) := by
  induction h generalizing p m with
  | @done ps hnil =>
    have : p = [] := hnil p (List.mem_of_getElem? hp)
    subst this
    exact ⟨fun _ _ => rfl, rfl⟩
  | @step ps t' a rest s ha hs ih =>
    have hlt : t' < ps.length := (List.getElem?_eq_some_iff.1 ha).1
    have ok' : ∀ p ∈ ps.set t' rest, ∀ a ∈ p, a.Ok B := by
      intro q hq b hb
      rcases List.mem_or_eq_of_mem_set hq with hq | rfl
      · exact ok q hq b hb
      · exact ok _ (List.mem_of_getElem? ha) b (by simp [hb])
    have oka : a.Ok B := ok _ (List.mem_of_getElem? ha) a (by simp)
    have he' : ∀ t'', t'' ≠ t → ∀ q, (ps.set t' rest)[t'']? = some q → ∀ a ∈ q, a.emitsTo e = false := by
      intro t'' h1 q hq b hb
      rw [List.getElem?_set] at hq
      by_cases h2 : t' = t''
      · subst h2
        rw [if_pos rfl, if_pos hlt] at hq
        obtain rfl := Option.some.inj hq
        exact he t' h1 _ ha b (by simp [hb])
      · rw [if_neg h2] at hq
        exact he t'' h1 q hq b hb
    show Agree B t e (runSchedule B s (a.exec (t' * B) m)) (solo B t p m)
    by_cases h2 : t' = t
    · subst h2
      rw [ha] at hp
      obtain rfl := Option.some.inj hp
      exact ih ok' rest (by rw [List.getElem?_set, if_pos rfl, if_pos hlt]) he' _
    · refine (ih ok' p (by rw [List.getElem?_set, if_neg h2]; exact hp) he' _).trans ?_
      exact solo_agree p (ok p (List.mem_of_getElem? hp)) (exec_other oka h2 (he t' h2 _ ha a (by simp)) m)

/-- Nobody computes the element: it keeps its value. -/
theorem interleaving_untouched {B : Nat} {ps : List (List TStep)} {s : List (Nat × TStep)} (h : Interleaving ps s) (e : Elem)
    (he : ∀ q ∈ ps, ∀ a ∈ q, a.emitsTo e = false) (m : TMem) : (runSchedule B s m).out e = m.out e := by
  induction h generalizing m with
  | done => rfl
  | @step ps t' a rest s ha hs ih =>
    show (runSchedule B s (a.exec (t' * B) m)).out e = m.out e
    rw [ih]
    · have h1 := he _ (List.mem_of_getElem? ha) a (by simp)
      cases a with
      | put k v => rfl
      | emit e' f =>
        have : e' ≠ e := by simpa [TStep.emitsTo] using h1
        simp only [TStep.exec]
        rw [if_neg (Ne.symm this)]
    · intro q hq b hb
      rcases List.mem_or_eq_of_mem_set hq with hq | rfl
      · exact he q hq b hb
      · exact he _ (List.mem_of_getElem? ha) b (by simp [hb])

theorem set_countP_sum {α : Type} (f : α → Bool) (ps : List (List α)) (t : Nat) (a : α) (rest : List α) (h : ps[t]? = some (a :: rest)) :
    (ps.map (·.countP f)).sum = ((ps.set t rest).map (·.countP f)).sum + if f a then 1 else 0 := by
  induction ps generalizing t with
  | nil => simp at h
  | cons p ps ih =>
    cases t with
    | zero =>
      have : p = a :: rest := by simpa using h
      subst this
      simp only [List.map_cons, List.sum_cons, List.set_cons_zero, List.countP_cons]
      omega
    | succ t =>
      have := ih t (by simpa using h)
      simp only [List.map_cons, List.sum_cons, List.set_cons_succ]
      omega

theorem interleaving_count {α : Type} (f : α → Bool) {ps : List (List α)} {s : List (Nat × α)} (h : Interleaving ps s) :
    s.countP (fun ta => f ta.2) = (ps.map (·.countP f)).sum := by
  induction h with
  | @done ps hnil =>
    have : ∀ ps : List (List α), (∀ p ∈ ps, p = []) → (ps.map (·.countP f)).sum = 0 := by
      intro ps h
      induction ps with
      | nil => rfl
      | cons p ps ih =>
        rw [List.map_cons, List.sum_cons, ih (fun q hq => h q (by simp [hq])), h p (by simp)]
        rfl
    rw [this ps hnil]
    rfl
  | @step ps t a rest s ha hs ih =>
    rw [List.countP_cons, ih, set_countP_sum f ps t a rest ha]

theorem interleaving_mem {α : Type} {ps : List (List α)} {s : List (Nat × α)} (h : Interleaving ps s) :
    ∀ ta ∈ s, ta.1 < ps.length ∧ ∃ p ∈ ps, ta.2 ∈ p := by
  induction h with
  | done => simp
  | @step ps t a rest s ha hs ih =>
    intro ta hta
    rcases List.mem_cons.1 hta with rfl | hta
    · exact ⟨(List.getElem?_eq_some_iff.1 ha).1, _, List.mem_of_getElem? ha, by simp⟩
    · obtain ⟨h1, q, hq, h2⟩ := ih ta hta
      refine ⟨by simpa using h1, ?_⟩
      rcases List.mem_or_eq_of_mem_set hq with hq | rfl
      · exact ⟨q, hq, h2⟩
      · exact ⟨_, List.mem_of_getElem? ha, by simp [h2]⟩

theorem program_ok {B : Nat} {val : Elem → Int} {w : List Job} (h : ∀ j ∈ w, j.Computes B val) : ∀ a ∈ program B w, a.Ok B := by
  intro a ha
  obtain ⟨j, hj, ha⟩ := List.mem_flatMap.1 ha
  rcases List.mem_append.1 ha with ha | ha
  · obtain ⟨k, hk, rfl⟩ := List.mem_map.1 ha
    exact List.mem_range.1 hk
  · obtain ⟨ef, hef, rfl⟩ := List.mem_map.1 ha
    exact (h j hj ef hef).1

theorem program_emits {B : Nat} {w : List Job} {e : Elem} : (∃ a ∈ program B w, a.emitsTo e = true) ↔ e ∈ elems w := by
  constructor
  · rintro ⟨a, ha, he⟩
    obtain ⟨j, hj, ha⟩ := List.mem_flatMap.1 ha
    rcases List.mem_append.1 ha with ha | ha
    · obtain ⟨k, hk, rfl⟩ := List.mem_map.1 ha
      cases he
    · obtain ⟨ef, hef, rfl⟩ := List.mem_map.1 ha
      have : ef.1 = e := by simpa [TStep.emitsTo] using he
      subst this
      exact List.mem_flatMap.2 ⟨j, hj, List.mem_map_of_mem hef⟩
  · intro he
    obtain ⟨j, hj, he⟩ := List.mem_flatMap.1 he
    obtain ⟨ef, hef, rfl⟩ := List.mem_map.1 he
    exact ⟨.emit ef.1 ef.2, List.mem_flatMap.2 ⟨j, hj, List.mem_append_right _ (List.mem_map_of_mem hef)⟩, by simp [TStep.emitsTo]⟩

theorem program_count {B : Nat} (w : List Job) (e : Elem) : (program B w).countP (TStep.emitsTo e) = (elems w).count e := by
  unfold program elems
  induction w with
  | nil => rfl
  | cons j w ih =>
    rw [List.flatMap_cons, List.flatMap_cons, List.countP_append, List.count_append, ih]
    congr 1
    unfold Job.steps
    rw [List.countP_append]
    have h1 : ((List.range B).map fun k => TStep.put k (j.patch k)).countP (TStep.emitsTo e) = 0 := by
      rw [List.countP_eq_zero]
      intro a ha
      obtain ⟨k, hk, rfl⟩ := List.mem_map.1 ha
      simp [TStep.emitsTo]
    rw [h1, Nat.zero_add, List.countP_map, List.count, List.countP_map]
    apply List.countP_congr
    intro x _
    simp [TStep.emitsTo]

theorem solo_append {B t : Nat} (l l' : List TStep) (m : TMem) : solo B t (l ++ l') m = solo B t l' (solo B t l m) := by
  unfold solo; rw [List.foldl_append]

theorem solo_puts {B t : Nat} (f : Nat → Int) (n : Nat) (m : TMem) :
    (∀ k, (solo B t ((List.range n).map fun k => .put k (f k)) m).scratch (t * B + k) = if k < n then f k else m.scratch (t * B + k)) ∧
    (solo B t ((List.range n).map fun k => .put k (f k)) m).out = m.out := by
  induction n with
  | zero => exact ⟨fun k => by simp [solo], rfl⟩
  | succ n ih =>
    rw [List.range_succ, List.map_append, solo_append]
    refine ⟨fun k => ?_, ih.2⟩
    show (if t * B + k = t * B + n then f n else _) = _
    rw [ih.1 k]
    by_cases h : k = n
    · subst h; simp
    · rw [if_neg (by omega)]
      by_cases h2 : k < n
      · rw [if_pos h2, if_pos (by omega)]
      · rw [if_neg h2, if_neg (by omega)]

theorem solo_emits {B t : Nat} {val : Elem → Int} (l : List (Elem × ((Nat → Int) → Int))) (m : TMem)
    (h : ∀ ef ∈ l, ef.2 (fun k => m.scratch (t * B + k)) = val ef.1) :
    (solo B t (l.map fun ef => .emit ef.1 ef.2) m).scratch = m.scratch ∧
    ∀ e, (solo B t (l.map fun ef => .emit ef.1 ef.2) m).out e = if e ∈ l.map (·.1) then val e else m.out e := by
  induction l generalizing m with
  | nil => exact ⟨rfl, fun e => by simp [solo]⟩
  | cons ef l ih =>
    obtain ⟨h1, h2⟩ := ih ((TStep.emit ef.1 ef.2).exec (t * B) m) (fun ef' hef' => h ef' (by simp [hef']))
    refine ⟨h1, fun e => ?_⟩
    have h3 := h2 e
    show (solo B t _ ((TStep.emit ef.1 ef.2).exec (t * B) m)).out e = _
    rw [h3]
    by_cases hm : e ∈ l.map (·.1)
    · rw [if_pos hm, if_pos (by rw [List.map_cons]; exact List.mem_cons_of_mem _ hm)]
    · rw [if_neg hm]
      by_cases he : e = ef.1
      · subst he
        rw [if_pos (by simp)]
        simp only [TStep.exec, if_pos]
        exact h ef (by simp)
      · rw [if_neg (by rw [List.map_cons]; simp only [List.mem_cons, not_or]; exact ⟨he, hm⟩)]
        simp only [TStep.exec]
        rw [if_neg he]

theorem solo_program {B t : Nat} {val : Elem → Int} (w : List Job) (h : ∀ j ∈ w, j.Computes B val) (m : TMem) (e : Elem) :
    (solo B t (program B w) m).out e = if e ∈ elems w then val e else m.out e := by
  induction w generalizing m with
  | nil => simp [program, elems, solo]
  | cons j w ih =>
    unfold program elems
    rw [List.flatMap_cons, List.flatMap_cons, solo_append]
    have key := ih (fun j' hj' => h j' (by simp [hj'])) (solo B t (j.steps B) m)
    unfold program elems at key
    rw [key]
    have hj := h j (by simp)
    have h2 : (solo B t (j.steps B) m).out e = if e ∈ j.emits.map (·.1) then val e else m.out e := by
      unfold Job.steps
      rw [solo_append]
      obtain ⟨p1, p2⟩ := solo_puts (B := B) (t := t) j.patch B m
      have := (solo_emits (B := B) (t := t) (val := val) j.emits (solo B t ((List.range B).map fun k => .put k (j.patch k)) m) ?_).2 e
      · rw [this, p2]
      · intro ef hef
        obtain ⟨a1, a2⟩ := hj ef hef
        rw [← a2]
        exact a1 _ _ fun k hk => by rw [p1 k, if_pos hk]
    rw [h2]
    by_cases h3 : e ∈ w.flatMap fun j => j.emits.map (·.1)
    · rw [if_pos h3, if_pos (List.mem_append_right _ h3)]
    · rw [if_neg h3]
      by_cases h4 : e ∈ j.emits.map (·.1)
      · rw [if_pos h4, if_pos (List.mem_append_left _ h4)]
      · rw [if_neg h4, if_neg (by rw [List.mem_append]; exact fun h => h.elim h4 h3)]

theorem writes_eq {B : Nat} (ws : List (List Job)) (s : List (Nat × TStep)) (hs : Interleaving (ws.map (program B)) s) (e : Elem) :
    writes s e = (ws.map fun w => (elems w).count e).sum := by
  have := interleaving_count (TStep.emitsTo e) hs
  unfold writes
  have e1 : s.countP (fun ta => match ta.2 with | .put _ _ => false | .emit e' _ => decide (e' = e)) =
      s.countP (fun ta => (TStep.emitsTo e) ta.2) := by
    apply List.countP_congr
    intro x _
    cases h : x.2 <;> simp [TStep.emitsTo]
  rw [e1, this, List.map_map]
  congr 1
  apply List.map_congr_left
  intro w _
  exact program_count w e

/-- Any number of threads whose works share no element. -/
theorem threads_compute {B : Nat} {val : Elem → Int} (ws : List (List Job)) (hval : ∀ w ∈ ws, ∀ j ∈ w, j.Computes B val)
    (s : List (Nat × TStep)) (hs : Interleaving (ws.map (program B)) s) (m : TMem) (e : Elem)
    (honce : (ws.map fun w => (elems w).count e).sum ≤ 1) :
    (runSchedule B s m).out e = (if ∃ w ∈ ws, e ∈ elems w then val e else m.out e) ∧
    writes s e = (ws.map fun w => (elems w).count e).sum := by
  have hok : ∀ p ∈ ws.map (program B), ∀ a ∈ p, a.Ok B := by
    intro p hp
    obtain ⟨w, hw, rfl⟩ := List.mem_map.1 hp
    exact program_ok (hval w hw)
  constructor
  · by_cases hex : ∃ w ∈ ws, e ∈ elems w
    · rw [if_pos hex]
      obtain ⟨w, hw, he⟩ := hex
      obtain ⟨t, ht, htw⟩ := List.getElem_of_mem hw
      have hother : ∀ t', t' ≠ t → ∀ q, (ws.map (program B))[t']? = some q → ∀ a ∈ q, a.emitsTo e = false := by
        intro t' hne q hq a ha
        rw [List.getElem?_map] at hq
        obtain ⟨w', hw', rfl⟩ := Option.map_eq_some_iff.1 hq
        by_contra hc
        have he' : e ∈ elems w' := program_emits.1 ⟨a, ha, by simpa using hc⟩
        -- two different works contain e
        have h2 : ∀ (l : List Nat) (i j : Nat), i ≠ j → ∀ a b, l[i]? = some a → l[j]? = some b → a + b ≤ l.sum := by
          intro l
          induction l with
          | nil => intro i j _ a b h; simp at h
          | cons x l ih =>
            intro i j hij a b hi hj
            cases i with
            | zero =>
              cases j with
              | zero => exact absurd rfl hij
              | succ j =>
                have h1 : x = a := by simpa using hi
                have h2 : b ≤ l.sum := List.le_sum_of_mem (List.mem_of_getElem? (by simpa using hj))
                rw [List.sum_cons]; omega
            | succ i =>
              cases j with
              | zero =>
                have h1 : x = b := by simpa using hj
                have h2 : a ≤ l.sum := List.le_sum_of_mem (List.mem_of_getElem? (by simpa using hi))
                rw [List.sum_cons]; omega
              | succ j =>
                have := ih i j (by omega) a b (by simpa using hi) (by simpa using hj)
                rw [List.sum_cons]; omega
        have h3 := h2 (ws.map fun w => (elems w).count e) t t' (Ne.symm hne) _ _ (by rw [List.getElem?_map, List.getElem?_eq_getElem ht]; rfl)
          (by rw [List.getElem?_map, hw']; rfl)
        have c1 : 0 < (elems ws[t]).count e := List.count_pos_iff.2 (htw ▸ he)
        have c2 : 0 < (elems w').count e := List.count_pos_iff.2 he'
        dsimp only at h3
        omega
      have := (interleaving_solo hs hok t (program B w) (by rw [List.getElem?_map, List.getElem?_eq_getElem ht, htw]; rfl) e hother m).2
      rw [this, solo_program w (hval w hw), if_pos he]
    · rw [if_neg hex]
      apply interleaving_untouched hs
      intro q hq a ha
      obtain ⟨w, hw, rfl⟩ := List.mem_map.1 hq
      by_contra hc
      exact hex ⟨w, hw, program_emits.1 ⟨a, ha, by simpa using hc⟩⟩
  · exact writes_eq ws s hs e

theorem count_regions (p : Params) (rs : List Region) (ws : List (List Job)) (h : List.Forall₂ (DoesRegion p) rs ws) (y x c : Nat) :
    (ws.map fun w => (elems w).count (y, x, c)).sum = if p.InPhase y x then coverage rs y x c else 0 := by
  induction h with
  | nil => simp [coverage]
  | @cons r w rs ws hrw _ ih =>
    rw [List.map_cons, List.sum_cons, ih]
    unfold coverage
    rw [List.countP_cons]
    have hc : (elems w).count (y, x, c) = if (y, x, c) ∈ elems w then 1 else 0 := by
      by_cases hm : (y, x, c) ∈ elems w
      · rw [if_pos hm, hrw.1.count, if_pos hm]
      · rw [if_neg hm, List.count_eq_zero_of_not_mem hm]
    rw [hc]
    simp only [hrw.2 y x c, decide_eq_true_eq]
    by_cases a1 : p.InPhase y x <;> by_cases a2 : r.Has y x c <;> simp [a1, a2] <;> omega

theorem scratch_inside {B : Nat} {val : Elem → Int} (ws : List (List Job)) (hval : ∀ w ∈ ws, ∀ j ∈ w, j.Computes B val)
    (s : List (Nat × TStep)) (hs : Interleaving (ws.map (program B)) s) : ∀ i ∈ scratchWritten B s, i < B * ws.length := by
  intro i hi
  obtain ⟨ta, hta, h⟩ := List.mem_filterMap.1 hi
  obtain ⟨h1, p, hp, h2⟩ := interleaving_mem hs ta hta
  rw [List.length_map] at h1
  obtain ⟨w, hw, rfl⟩ := List.mem_map.1 hp
  have hok := program_ok (hval w hw) ta.2 h2
  cases hta2 : ta.2 with
  | emit e f => rw [hta2] at h; cases h
  | put k v =>
    rw [hta2] at h hok
    obtain rfl := Option.some.inj h
    have : (ta.1 + 1) * B ≤ ws.length * B := Nat.mul_le_mul_right _ h1
    rw [Nat.succ_mul] at this
    have hok : k < B := hok
    rw [Nat.mul_comm B]
    omega

end Verif.Threads
