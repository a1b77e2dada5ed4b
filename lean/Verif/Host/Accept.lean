import Mathlib.Algebra.Order.Ring.Rat
import Mathlib.Data.Rat.Cast.Order
import Mathlib.Algebra.BigOperators.Group.List.Basic
import Mathlib.Data.Fintype.Basic
import Mathlib.Tactic.Linarith
import Mathlib.Tactic.Ring
import Mathlib.Tactic.FieldSimp

/-!
# C96: what a passing integration test says about the converted model

Model of the acceptance test `test_model` of `integration_tests/runner.py`: the
NumPy arithmetic on the outputs, the loop over the draws and the verdict.

Only signed integer outputs are modelled (the 8x8 and 16x8 models); floating point
outputs are not.  Arrays are flat; of NumPy's broadcasting only that of
one-element arrays is modelled.  Averages are exact rationals where the program
divides in double precision, and the running sums are unbounded where NumPy's
have 64 bits.
-/

namespace Verif.Host.Accept

/-! ## The program -/

/-- An output array: a NumPy array of signed integers of `bits` bits.
`integration_tests/runner.py` 227-232 (`XFHostInterpreter.predict`), 124-133. -/
structure Arr where
  bits : Nat
  data : List Int
deriving DecidableEq, Repr

/-- Two's complement wrap-around of NumPy's fixed-width integers. -/
def wrap (b : Nat) (x : Int) : Int := Int.bmod x (2 ^ b)

/-- `a - b`, `runner.py` 326: NumPy subtracts in the wider of the two types, wraps
around silently, and stretches one-element arrays; other lengths raise. -/
def sub (a b : Arr) : Option Arr :=
  let w := max a.bits b.bits
  if a.data.length = b.data.length then some ⟨w, List.zipWith (fun x y => wrap w (x - y)) a.data b.data⟩
  else if b.data.length = 1 then some ⟨w, a.data.map fun x => wrap w (x - b.data.headD 0)⟩
  else if a.data.length = 1 then some ⟨w, b.data.map fun y => wrap w (a.data.headD 0 - y)⟩
  else none

/-- `np.concatenate`, `runner.py` 325: the common type is the widest; an empty list
of arrays raises. -/
def concat (l : List Arr) : Option Arr :=
  if l = [] then none else some ⟨(l.map Arr.bits).foldr max 0, (l.map Arr.data).flatten⟩

/-- One run: the outputs of the reference and those of the converted model,
`runner.py` 322-323. -/
structure Run where
  ref : List Arr
  xf : List Arr
deriving Repr

/-- `errors`, `runner.py` 325-327; `zip` stops at the shorter list. -/
def errors (r : Run) : Option Arr :=
  ((r.ref.zip r.xf).mapM fun (ab : Arr × Arr) => sub ab.1 ab.2).bind concat

/-- `np.abs`, `runner.py` 334-335: the absolute value wraps, so that of the lowest
number is that number. -/
def npAbs (b : Nat) (x : Int) : Int := wrap b |x|

/-- The running totals, `runner.py` 316. -/
structure Totals where
  count : Nat := 0
  err : Int := 0
  absErr : Int := 0
  maxAbs : Int := 0
deriving DecidableEq, Repr

/-- The update of the totals with the errors of one run, `runner.py` 332-335. -/
def add (s : Totals) (e : Arr) : Totals where
  count := s.count + e.data.length
  err := s.err + e.data.sum
  absErr := s.absErr + (e.data.map (npAbs e.bits)).sum
  maxAbs := (e.data.map (npAbs e.bits)).foldr max s.maxAbs

/-- One iteration of the loop, `runner.py` 318-335 (`none`: an exception).  A run
with no elements is skipped by `continue`; adding its zero sums is the same. -/
def step (s : Totals) (r : Run) : Option Totals := (errors r).map (add s)

/-- The totals after `n` draws. -/
def totals (draws : Nat → Run) : Nat → Option Totals
  | 0 => some {}
  | n + 1 => (totals draws n).bind fun s => step s (draws n)

/-- The parameters of a test, `runner.py` 22-25 and 250-261. -/
structure Params where
  maxAbs : Rat := 1
  absAvg : Rat := 1 / 4
  avgAbs : Rat := 28 / 100
  required : Nat := 2048

/-- The verdict, `runner.py` 337-361 (dividing by a zero count raises). -/
def verdict (p : Params) (s : Totals) : Prop :=
  s.count ≠ 0 ∧ ¬ (s.maxAbs : Rat) > p.maxAbs ∧ ¬ |(s.err : Rat) / (s.count : Rat)| > p.absAvg ∧
    ¬ (s.absErr : Rat) / (s.count : Rat) > p.avgAbs

/-- The loop ends after exactly `n` draws with these totals, `runner.py` 317. -/
def EndsAt (p : Params) (draws : Nat → Run) (n : Nat) (s : Totals) : Prop :=
  totals draws n = some s ∧ p.required ≤ s.count ∧
    ∀ m < n, ∀ s', totals draws m = some s' → s'.count < p.required

/-- The test passes, having made `n` draws. -/
def Passes (p : Params) (draws : Nat → Run) (n : Nat) : Prop :=
  ∃ s, EndsAt p draws n s ∧ verdict p s

/-- One random element of an integer input, `runner.py` 274-275
(`np.random.randint(mn, high=mx)`: the upper end is excluded); `u` is the generator's
word. -/
def drawElem (b : Nat) (u : Nat) : Int := -(2 ^ (b - 1) : Nat) + ((u % (2 ^ b - 1) : Nat) : Int)

/-! ## The specification, in its own words -/

/-- The two runs' outputs have the same number, types and lengths. -/
def SameShape (r : Run) : Prop :=
  r.ref.map Arr.bits = r.xf.map Arr.bits ∧ r.ref.map (fun a => a.data.length) = r.xf.map (fun a => a.data.length)

/-- All pairs (reference value, converted model's value) of one run. -/
def pairs (r : Run) : List (Int × Int) :=
  (r.ref.zip r.xf).flatMap fun ab => ab.1.data.zip ab.2.data

/-- All pairs of the first `n` runs. -/
def allPairs (draws : Nat → Run) (n : Nat) : List (Int × Int) :=
  (List.range n).flatMap fun k => pairs (draws k)

/-- All outputs have `b` bits. -/
def AllBits (b : Nat) (r : Run) : Prop := (∀ a ∈ r.ref, a.bits = b) ∧ ∀ a ∈ r.xf, a.bits = b

/-- What one would like a passing test to mean: the outputs of every run correspond one
to one, no element is off by more than the bound, and the averages are in theirs,
over at least the required number of elements. -/
def Accepted (p : Params) (draws : Nat → Run) (n : Nat) : Prop :=
  (∀ k < n, SameShape (draws k)) ∧
  p.required ≤ (allPairs draws n).length ∧
  (∀ x ∈ allPairs draws n, ((|x.1 - x.2| : Int) : Rat) ≤ p.maxAbs) ∧
  |((((allPairs draws n).map fun x => x.1 - x.2).sum : Int) : Rat) / ((allPairs draws n).length : Rat)| ≤ p.absAvg ∧
  ((((allPairs draws n).map fun x => |x.1 - x.2|).sum : Int) : Rat) / ((allPairs draws n).length : Rat) ≤ p.avgAbs

/-! ## Wrap-around -/

theorem wrap_of_lt {b : Nat} {x : Int} (hb : 1 ≤ b) (h : |x| < 2 ^ (b - 1)) : wrap b x = x := by
  obtain ⟨c, rfl⟩ : ∃ c, b = c + 1 := ⟨b - 1, by omega⟩
  simp only [Nat.add_sub_cancel] at h
  have h2 := abs_lt.1 h
  unfold wrap
  obtain ⟨m, hm⟩ : ∃ m : Nat, m = 2 ^ c := ⟨_, rfl⟩
  have e : (2 : Nat) ^ (c + 1) = 2 * m := by rw [hm]; ring
  have e' : (2 : Int) ^ c = (m : Int) := by rw [hm]; push_cast; rfl
  rw [e]
  rw [e'] at h2
  apply Int.bmod_eq_of_le <;> omega

theorem wrap_range {b : Nat} (hb : 1 ≤ b) (x : Int) : -(2 ^ (b - 1) : Int) ≤ wrap b x ∧ wrap b x < 2 ^ (b - 1) := by
  obtain ⟨c, rfl⟩ : ∃ c, b = c + 1 := ⟨b - 1, by omega⟩
  simp only [Nat.add_sub_cancel]
  unfold wrap
  obtain ⟨m, hm⟩ : ∃ m : Nat, m = 2 ^ c := ⟨_, rfl⟩
  have e : (2 : Nat) ^ (c + 1) = 2 * m := by rw [hm]; ring
  have e' : (2 : Int) ^ c = (m : Int) := by rw [hm]; push_cast; rfl
  have h0 : 0 < m := by rw [hm]; exact Nat.pow_pos (by decide)
  rw [e, e']
  have h1 := @Int.le_bmod x (2 * m) (by omega)
  have h2 := @Int.bmod_lt x (2 * m) (by omega)
  constructor <;> omega

theorem wrap_congr (b : Nat) (x : Int) : ∃ k : Int, wrap b x = x - k * 2 ^ b := by
  refine ⟨Int.bdiv x (2 ^ b), ?_⟩
  unfold wrap
  have h := Int.bmod_add_bdiv x (2 ^ b)
  push_cast at h
  linarith [mul_comm ((2 : Int) ^ b) (Int.bdiv x (2 ^ b))]

/-! ## The totals, run by run -/

/-- The wrapped difference. -/
def dif (b : Nat) (x : Int × Int) : Int := wrap b (x.1 - x.2)

theorem sub_same {a b : Arr} (hb : a.bits = b.bits) (h : a.data.length = b.data.length) :
    sub a b = some ⟨a.bits, (a.data.zip b.data).map (dif a.bits)⟩ := by
  unfold sub
  simp only [hb, h, if_true, max_self, Option.some.injEq, Arr.mk.injEq, true_and]
  rw [List.map_zip_eq_zipWith]
  rfl

theorem errors_eq {b : Nat} : ∀ (l : List (Arr × Arr)),
    (∀ x ∈ l, x.1.bits = b ∧ x.2.bits = b ∧ x.1.data.length = x.2.data.length) →
    ∃ es, l.mapM (fun (ab : Arr × Arr) => sub ab.1 ab.2) = some es ∧ es.length = l.length ∧ (∀ e ∈ es, e.bits = b) ∧
      (es.map Arr.data).flatten = (l.flatMap fun ab => ab.1.data.zip ab.2.data).map (dif b)
  | [], _ => ⟨[], by simp⟩
  | x :: l, h => by
    obtain ⟨es, h1, h2, h3, h4⟩ := errors_eq l fun y hy => h y (List.mem_cons_of_mem _ hy)
    obtain ⟨b1, b2, b3⟩ := h x List.mem_cons_self
    refine ⟨⟨b, (x.1.data.zip x.2.data).map (dif b)⟩ :: es, ?_, by simp [h2], ?_, ?_⟩
    · rw [List.mapM_cons, sub_same (b1.trans b2.symm) b3, h1, b1]
      rfl
    · intro e he
      rcases List.mem_cons.1 he with rfl | he
      · rfl
      · exact h3 e he
    · simp [h4]

theorem zip_facts {b : Nat} : ∀ (l m : List Arr), l.map Arr.bits = m.map Arr.bits →
    l.map (fun a => a.data.length) = m.map (fun a => a.data.length) → (∀ a ∈ l, a.bits = b) →
    (∀ x ∈ l.zip m, x.1.bits = b ∧ x.2.bits = b ∧ x.1.data.length = x.2.data.length)
  | [], _, _, _, _ => by simp
  | a :: l, [], h, _, _ => by simp at h
  | a :: l, c :: m, h, h', hb => by
    intro x hx
    simp only [List.map_cons, List.cons.injEq] at h h'
    rw [List.zip_cons_cons] at hx
    rcases List.mem_cons.1 hx with rfl | hx
    · have := hb a List.mem_cons_self
      exact ⟨this, h.1 ▸ this, h'.1⟩
    · exact zip_facts l m h.2 h'.2 (fun y hy => hb y (List.mem_cons_of_mem _ hy)) x hx

theorem foldr_max_const {b : Nat} : ∀ (l : List Arr), l ≠ [] → (∀ e ∈ l, e.bits = b) → (l.map Arr.bits).foldr max 0 = b
  | [], h, _ => absurd rfl h
  | [a], _, h => by simp [h a]
  | a :: c :: l, _, h => by
    rw [List.map_cons, List.foldr_cons, foldr_max_const (c :: l) (by simp) fun e he => h e (List.mem_cons_of_mem _ he),
      h a List.mem_cons_self, max_self]

theorem errors_same {b : Nat} {r : Run} (hs : SameShape r) (hb : AllBits b r) (hne : r.ref ≠ []) :
    errors r = some ⟨b, (pairs r).map (dif b)⟩ := by
  obtain ⟨es, h1, h2, h3, h4⟩ := errors_eq (b := b) (r.ref.zip r.xf) (zip_facts _ _ hs.1 hs.2 hb.1)
  have hlen : r.ref.length = r.xf.length := by
    have := congrArg List.length hs.1
    simpa using this
  have hes : es ≠ [] := by
    intro h
    rw [h] at h2
    have h0 : r.ref.length ≠ 0 := by simpa using hne
    simp only [List.length_nil, List.length_zip] at h2
    omega
  unfold errors
  rw [h1]
  show concat es = _
  unfold concat
  rw [if_neg hes, foldr_max_const es hes h3, h4]
  rfl

theorem foldr_max_le (l : List Int) (m : Int) : m ≤ l.foldr max m ∧ ∀ x ∈ l, x ≤ l.foldr max m := by
  induction l with
  | nil => simp
  | cons a l ih =>
    refine ⟨le_trans ih.1 (le_max_right _ _), fun x hx => ?_⟩
    rcases List.mem_cons.1 hx with rfl | hx
    · exact le_max_left _ _
    · exact le_trans (ih.2 x hx) (le_max_right _ _)

theorem foldr_max_mem (l : List Int) (m : Int) : l.foldr max m = m ∨ l.foldr max m ∈ l := by
  induction l with
  | nil => simp
  | cons a l ih =>
    rw [List.foldr_cons]
    rcases max_choice a (l.foldr max m) with h | h
    · rw [h]; exact Or.inr List.mem_cons_self
    · rw [h]
      rcases ih with ih | ih
      · exact Or.inl ih
      · exact Or.inr (List.mem_cons_of_mem _ ih)

/-- The totals in terms of all pairs. -/
theorem totals_eq {b : Nat} {draws : Nat → Run} : ∀ n,
    (∀ k < n, SameShape (draws k) ∧ AllBits b (draws k) ∧ (draws k).ref ≠ []) →
    ∃ s, totals draws n = some s ∧ s.count = (allPairs draws n).length ∧
      s.err = ((allPairs draws n).map (dif b)).sum ∧
      s.absErr = ((allPairs draws n).map fun x => npAbs b (dif b x)).sum ∧
      (∀ x ∈ allPairs draws n, npAbs b (dif b x) ≤ s.maxAbs) ∧
      (s.maxAbs = 0 ∨ ∃ x ∈ allPairs draws n, s.maxAbs = npAbs b (dif b x))
  | 0, _ => ⟨{}, rfl, by simp [allPairs]⟩
  | n + 1, h => by
    obtain ⟨s, h1, h2, h3, h4, h5, h6⟩ := totals_eq n fun k hk => h k (by omega)
    obtain ⟨hs, hb, hne⟩ := h n (by omega)
    have ha : allPairs draws (n + 1) = allPairs draws n ++ pairs (draws n) := by
      unfold allPairs
      rw [List.range_succ, List.flatMap_append]
      simp
    refine ⟨add s ⟨b, (pairs (draws n)).map (dif b)⟩, ?_, ?_⟩
    · rw [totals, h1]
      show step s (draws n) = _
      unfold step
      rw [errors_same hs hb hne]
      rfl
    · rw [ha]
      unfold add
      dsimp only
      have hm := foldr_max_le (((pairs (draws n)).map (dif b)).map (npAbs b)) s.maxAbs
      have hc := foldr_max_mem (((pairs (draws n)).map (dif b)).map (npAbs b)) s.maxAbs
      refine ⟨by simp [h2], by simp [h3], by simp [h4, Function.comp_def], ?_, ?_⟩
      · intro x hx
        rcases List.mem_append.1 hx with hx | hx
        · exact le_trans (h5 x hx) hm.1
        · exact hm.2 _ (List.mem_map_of_mem (List.mem_map_of_mem hx))
      · rcases hc with hc | hc
        · rw [hc]
          rcases h6 with h6 | ⟨x, hx, h6⟩
          · exact Or.inl h6
          · exact Or.inr ⟨x, List.mem_append_left _ hx, h6⟩
        · obtain ⟨y, hy, e⟩ := List.mem_map.1 hc
          obtain ⟨x, hx, rfl⟩ := List.mem_map.1 hy
          exact Or.inr ⟨x, List.mem_append_right _ hx, e.symm⟩

/-- The outputs of the first `n` runs correspond and have `b` bits, and no two
corresponding elements differ by half the range of the type or more. -/
def NoWrap (b : Nat) (draws : Nat → Run) (n : Nat) : Prop :=
  (∀ k < n, SameShape (draws k) ∧ AllBits b (draws k) ∧ (draws k).ref ≠ []) ∧
    ∀ x ∈ allPairs draws n, |x.1 - x.2| < 2 ^ (b - 1)

theorem npAbs_of_lt {b : Nat} {x : Int} (hb : 1 ≤ b) (h : |x| < 2 ^ (b - 1)) : npAbs b x = |x| :=
  wrap_of_lt hb (by rwa [abs_abs])

/-- C96, the part that holds: where the outputs correspond and no difference reaches
half of the type's range, the test passes exactly when the outputs are as
specified; so it neither accepts a wrong model nor rejects a right one. -/
theorem C96_pass_means_accepted_partial {p : Params} {b : Nat} {draws : Nat → Run} {n : Nat} (hb : 1 ≤ b)
    (hw : NoWrap b draws n) (hp : 0 ≤ p.maxAbs) (hr : 0 < p.required)
    (hn : ∀ m < n, (allPairs draws m).length < p.required) :
    Passes p draws n ↔ Accepted p draws n := by
  obtain ⟨s, h1, h2, h3, h4, h5, h6⟩ := totals_eq n hw.1
  have ed : ∀ x ∈ allPairs draws n, dif b x = x.1 - x.2 := fun x hx => wrap_of_lt hb (hw.2 x hx)
  have en : ∀ x ∈ allPairs draws n, npAbs b (dif b x) = |x.1 - x.2| := fun x hx => by
    rw [ed x hx]; exact npAbs_of_lt hb (hw.2 x hx)
  have e3 : s.err = ((allPairs draws n).map fun x => x.1 - x.2).sum := by
    rw [h3]; exact congrArg _ (List.map_congr_left ed)
  have e4 : s.absErr = ((allPairs draws n).map fun x => |x.1 - x.2|).sum := by
    rw [h4]; exact congrArg _ (List.map_congr_left en)
  have key : verdict p s ∧ p.required ≤ s.count ↔ Accepted p draws n := by
    unfold verdict Accepted
    rw [← e3, ← e4, ← h2]
    simp only [not_lt, gt_iff_lt]
    constructor
    · rintro ⟨⟨a1, a2, a3, a4⟩, a5⟩
      refine ⟨fun k hk => (hw.1 k hk).1, a5, fun x hx => ?_, a3, a4⟩
      have := h5 x hx
      rw [en x hx] at this
      exact le_trans (by exact_mod_cast this) a2
    · rintro ⟨_, a5, a2, a3, a4⟩
      refine ⟨⟨by omega, ?_, a3, a4⟩, a5⟩
      rcases h6 with h6 | ⟨x, hx, h6⟩
      · rw [h6]; exact_mod_cast hp
      · rw [h6, en x hx]; exact a2 x hx
  rw [← key]
  constructor
  · rintro ⟨s', ⟨a1, a2, _⟩, a4⟩
    rw [h1] at a1
    cases a1
    exact ⟨a4, a2⟩
  · rintro ⟨a1, a2⟩
    refine ⟨s, ⟨h1, a2, fun m hm s' hs' => ?_⟩, a1⟩
    obtain ⟨s'', g1, g2, _⟩ := totals_eq (b := b) m fun k hk => hw.1 k (by omega)
    rw [g1] at hs'
    cases hs'
    rw [g2]
    exact hn m hm

/-- Whatever the differences, a passing test bounds them up to a multiple of the
type's range, except for those that are exactly half the range. -/
theorem C96_pass_bounds_modulo {p : Params} {b : Nat} {draws : Nat → Run} {n : Nat} (hb : 1 ≤ b)
    (hs : ∀ k < n, SameShape (draws k) ∧ AllBits b (draws k) ∧ (draws k).ref ≠ [])
    (h : Passes p draws n) : ∀ x ∈ allPairs draws n, ∃ k : Int,
      ((|x.1 - x.2 - k * 2 ^ b| : Int) : Rat) ≤ p.maxAbs ∨ x.1 - x.2 - k * 2 ^ b = -2 ^ (b - 1) := by
  obtain ⟨s, h1, h2, h3, h4, h5, h6⟩ := totals_eq n hs
  obtain ⟨s', ⟨a1, a2, _⟩, a4⟩ := h
  rw [h1] at a1
  cases a1
  intro x hx
  obtain ⟨k, hk⟩ := wrap_congr b (x.1 - x.2)
  refine ⟨k, ?_⟩
  rw [← hk]
  by_cases hd : wrap b (x.1 - x.2) = -2 ^ (b - 1)
  · exact Or.inr hd
  · refine Or.inl ?_
    have hr := wrap_range hb (x.1 - x.2)
    have hl : |wrap b (x.1 - x.2)| < 2 ^ (b - 1) := by
      rw [abs_lt]
      exact ⟨lt_of_le_of_ne hr.1 (Ne.symm hd), hr.2⟩
    have := h5 x hx
    have e : npAbs b (dif b x) = |wrap b (x.1 - x.2)| := npAbs_of_lt hb hl
    rw [e] at this
    exact le_trans (by exact_mod_cast this) (not_lt.1 a4.2.1)

/-- The loop ends: if no draw raises and each compares at least one element, it is
over after at most as many draws as elements are required. -/
theorem C96_loop_ends {p : Params} {draws : Nat → Run}
    (h : ∀ k, ∃ e, errors (draws k) = some e ∧ e.data ≠ []) : ∃ n ≤ p.required, ∃ s, EndsAt p draws n s := by
  have hc : ∀ n, ∃ s, totals draws n = some s ∧ n ≤ s.count := by
    intro n
    induction n with
    | zero => exact ⟨{}, rfl, by simp⟩
    | succ n ih =>
      obtain ⟨s, h1, h2⟩ := ih
      obtain ⟨e, h3, h4⟩ := h n
      have : 1 ≤ e.data.length := by
        have : e.data.length ≠ 0 := by simpa using h4
        omega
      refine ⟨add s e, ?_, ?_⟩
      · rw [totals, h1]
        show step s (draws n) = _
        unfold step
        rw [h3]
        rfl
      · show n + 1 ≤ s.count + e.data.length
        omega
  have hex : ∃ n, ∃ s, totals draws n = some s ∧ p.required ≤ s.count := ⟨p.required, hc p.required⟩
  classical
  refine ⟨Nat.find hex, Nat.find_min' hex (hc p.required), ?_⟩
  obtain ⟨s, h1, h2⟩ := Nat.find_spec hex
  refine ⟨s, h1, h2, fun m hm s' hs' => ?_⟩
  by_contra hlt
  exact Nat.find_min hex hm ⟨s', hs', by omega⟩

/-- A model without a single output element is never accepted nor rejected: the loop
does not end. -/
theorem C96_no_elements_loops {p : Params} {draws : Nat → Run} (hr : 0 < p.required)
    (h : ∀ k, ∃ e, errors (draws k) = some e ∧ e.data = []) : ∀ n s, ¬ EndsAt p draws n s := by
  have hc : ∀ n s, totals draws n = some s → s.count = 0 := by
    intro n
    induction n with
    | zero => rintro s hs; cases hs; rfl
    | succ n ih =>
      intro s hs
      rw [totals] at hs
      obtain ⟨s0, h1, h2⟩ := Option.bind_eq_some_iff.1 hs
      obtain ⟨e, h3, h4⟩ := h n
      unfold step at h2
      rw [h3] at h2
      cases h2
      simp [add, ih s0 h1, h4]
  rintro n s ⟨h1, h2, _⟩
  have := hc n s h1
  omega

/-- A random input element is in the type's range but never its largest value, however
the generator is seeded. -/
theorem C96_largest_input_never_drawn {b : Nat} (hb : 2 ≤ b) (u : Nat) :
    -(2 ^ (b - 1) : Int) ≤ drawElem b u ∧ drawElem b u < 2 ^ (b - 1) - 1 := by
  obtain ⟨c, rfl⟩ : ∃ c, b = c + 1 := ⟨b - 1, by omega⟩
  have hpos : 0 < 2 ^ c := Nat.pow_pos (by decide)
  have e : 2 ^ (c + 1) = 2 * 2 ^ c := by ring
  have h : u % (2 ^ (c + 1) - 1) < 2 ^ (c + 1) - 1 := Nat.mod_lt _ (by
    have : 2 ≤ 2 ^ c := Nat.le_self_pow (by omega) 2
    omega)
  unfold drawElem
  simp only [Nat.add_sub_cancel]
  obtain ⟨r, hr⟩ : ∃ r, r = u % (2 ^ (c + 1) - 1) := ⟨_, rfl⟩
  rw [← hr] at h ⊢
  push_cast
  rw [e] at h
  have h' : ((r : Int)) < 2 * 2 ^ c - 1 := by
    have : (r : Int) < ((2 * 2 ^ c - 1 : Nat) : Int) := by exact_mod_cast h
    rw [Nat.cast_sub (by omega)] at this
    push_cast at this
    exact this
  constructor <;> linarith [Int.natCast_nonneg r]

/-- Every value below the largest can be drawn. -/
theorem C96_other_inputs_drawn {b : Nat} (hb : 2 ≤ b) (x : Int) (h1 : -(2 ^ (b - 1) : Int) ≤ x)
    (h2 : x < 2 ^ (b - 1) - 1) : ∃ u, drawElem b u = x := by
  obtain ⟨c, rfl⟩ : ∃ c, b = c + 1 := ⟨b - 1, by omega⟩
  simp only [Nat.add_sub_cancel] at h1 h2
  refine ⟨(x + 2 ^ c).toNat, ?_⟩
  unfold drawElem
  simp only [Nat.add_sub_cancel]
  obtain ⟨m, hm⟩ : ∃ m : Nat, m = 2 ^ c := ⟨_, rfl⟩
  have e : (2 : Nat) ^ (c + 1) = 2 * m := by rw [hm]; ring
  have e' : (2 : Int) ^ c = (m : Int) := by rw [hm]; push_cast; rfl
  rw [e, ← hm]
  rw [e'] at h1 h2 ⊢
  clear e e' hm
  rw [Nat.mod_eq_of_lt (by omega)]
  omega

/-- So a converted model that is wrong only where an input element has the largest
value is indistinguishable from a correct one, for all draws. -/
theorem C96_wrong_at_largest_input {b : Nat} (hb : 2 ≤ b) (ref good bad : List Int → List Arr)
    (h : ∀ x, (∀ v ∈ x, v ≠ 2 ^ (b - 1) - 1) → bad x = good x) (p : Params) (seed : Nat → List Nat) (n : Nat) :
    Passes p (fun k => ⟨ref ((seed k).map (drawElem b)), bad ((seed k).map (drawElem b))⟩) n ↔
      Passes p (fun k => ⟨ref ((seed k).map (drawElem b)), good ((seed k).map (drawElem b))⟩) n := by
  have e : (fun k => (⟨ref ((seed k).map (drawElem b)), bad ((seed k).map (drawElem b))⟩ : Run)) =
      fun k => ⟨ref ((seed k).map (drawElem b)), good ((seed k).map (drawElem b))⟩ := by
    funext k
    rw [h]
    intro v hv
    obtain ⟨u, _, rfl⟩ := List.mem_map.1 hv
    exact ne_of_lt (C96_largest_input_never_drawn hb u).2
  rw [e]

/-! ## Why the property does not hold in full -/

/-- 64 runs of 32 elements each.  In the first, one element is off by 255 and another by
128; all others are right.  With the default bounds the test passes: the larger
difference is seen as -1, the other as -128. -/
def wrapped (k : Nat) : Run where
  ref := [⟨8, (if k = 0 then [127, 0] else [0, 0]) ++ List.replicate 30 9⟩]
  xf := [⟨8, (if k = 0 then [-128, -128] else [0, 0]) ++ List.replicate 30 9⟩]

theorem add_zeros (s : Totals) (h : 0 ≤ s.maxAbs) : add s ⟨8, List.replicate 32 0⟩ = { s with count := s.count + 32 } := by
  obtain ⟨c, e, a, m⟩ := s
  have e0 : (List.replicate 32 (0 : Int)).map (npAbs 8) = List.replicate 32 0 := by decide +kernel
  have em : ∀ n, (List.replicate n (0 : Int)).foldr max m = m := by
    intro n
    induction n with
    | zero => rfl
    | succ n ih => rw [List.replicate_succ, List.foldr_cons, ih]; exact max_eq_right h
  unfold add
  dsimp only
  rw [e0, em]
  have hs : (List.replicate 32 (0 : Int)).sum = 0 := by decide +kernel
  rw [hs, add_zero, add_zero, List.length_replicate]

theorem wrapped_totals (m : Nat) : totals wrapped (m + 1) = some ⟨32 * (m + 1), -129, -127, 1⟩ := by
  induction m with
  | zero => decide +kernel
  | succ m ih =>
    rw [totals, ih]
    show step _ (wrapped (m + 1)) = _
    have : errors (wrapped (m + 1)) = some ⟨8, List.replicate 32 0⟩ := by
      unfold wrapped
      rw [if_neg (by omega), if_neg (by omega)]
      decide +kernel
    unfold step
    rw [this, Option.map_some, add_zeros _ (by dsimp only; omega)]
    congr 1

theorem C96_wraparound_accepted : Passes {} wrapped 64 ∧ ¬ Accepted {} wrapped 64 := by
  constructor
  · refine ⟨⟨2048, -129, -127, 1⟩, ⟨wrapped_totals 63, le_refl _, ?_⟩, ?_⟩
    · intro m hm s' hs'
      cases m with
      | zero => cases hs'; decide
      | succ m =>
        rw [wrapped_totals] at hs'
        cases hs'
        show 32 * (m + 1) < 2048
        omega
    · unfold verdict
      decide +kernel
  · rintro ⟨_, _, h, _⟩
    have := h (127, -128) (List.mem_flatMap.2 ⟨0, by decide, by decide⟩)
    exact absurd this (by decide +kernel)

/-- A converted model that has lost an output passes too. -/
def lost : Run where
  ref := [⟨8, List.replicate 32 5⟩, ⟨8, [1]⟩]
  xf := [⟨8, List.replicate 32 5⟩]

theorem lost_totals (m : Nat) : totals (fun _ => lost) m = some ⟨32 * m, 0, 0, 0⟩ := by
  induction m with
  | zero => rfl
  | succ m ih =>
    rw [totals, ih]
    show step _ lost = _
    have : errors lost = some ⟨8, List.replicate 32 0⟩ := by decide +kernel
    unfold step
    rw [this, Option.map_some, add_zeros _ (by dsimp only; omega)]
    congr 1

theorem C96_lost_output_accepted : Passes {} (fun _ => lost) 64 ∧ ¬ SameShape lost := by
  constructor
  · refine ⟨⟨2048, 0, 0, 0⟩, ⟨lost_totals 64, le_refl _, ?_⟩, ?_⟩
    · intro m hm s' hs'
      rw [lost_totals] at hs'
      cases hs'
      show 32 * m < 2048
      omega
    · unfold verdict
      decide +kernel
  · intro h
    exact absurd (congrArg List.length h.1) (by decide)

/-! ## A case that meets the hypotheses -/

/-- Two outputs, with a quarter of the elements off by one. -/
def ordinary : Run where
  ref := [⟨8, (List.replicate 16 [0, 3, -7, 100]).flatten⟩, ⟨8, [127, -128]⟩]
  xf := [⟨8, (List.replicate 16 [0, 4, -7, 100]).flatten⟩, ⟨8, [126, -128]⟩]

theorem C96_example : NoWrap 8 (fun _ => ordinary) 2 ∧ Passes { required := 128 } (fun _ => ordinary) 2 := by
  have h : NoWrap 8 (fun _ => ordinary) 2 := by
    have h0 : SameShape ordinary ∧ AllBits 8 ordinary ∧ ordinary.ref ≠ [] :=
      ⟨⟨by decide +kernel, by decide +kernel⟩, ⟨by decide, by decide⟩, by decide⟩
    exact ⟨fun k _ => h0, by decide +kernel⟩
  refine ⟨h, (C96_pass_means_accepted_partial (b := 8) (by decide) h (by decide) (by decide) ?_).2 ?_⟩
  · intro m hm
    have : m = 0 ∨ m = 1 := by omega
    rcases this with rfl | rfl <;> decide +kernel
  · refine ⟨fun k hk => (h.1 k hk).1, by decide +kernel, by decide +kernel, ?_, ?_⟩ <;>
      decide +kernel

end Verif.Host.Accept
