import Mathlib.Tactic.Linarith
import Mathlib.Tactic.NormNum
import Mathlib.Tactic.Ring
import Mathlib.Tactic.Positivity
import Mathlib.Order.Nat
import Mathlib.Algebra.BigOperators.Group.List.Basic
import Mathlib.Algebra.Order.Field.Rat
import Mathlib.Algebra.Order.Field.Basic
import Mathlib.Algebra.Order.AbsoluteValue.Basic
import Mathlib.Algebra.Order.BigOperators.Group.List

/-!
# C128: what a pass of integration_tests/runner.py means

The test runs a reference interpreter and the compiled model on the same inputs until enough outputs have been compared, and asserts bounds on the errors.
Outputs are tensors of one signed integer type with values from `-h` to `h - 1` (`h = 128` for int8); `predict` has no state.
-/

namespace Verif.Host.TestRunner

/-- numpy's wrap-around in a signed type with values from `-h` to `h - 1`. -/
def wrap (h x : Int) : Int := (x + h) % (2 * h) - h

/-- `np.abs` of an array of that type: it stays in the type, so the most negative value is kept (runner.py 320, 321). -/
def npAbs (h x : Int) : Int := wrap h |x|

/-- The errors of one run (runner.py 311-313): `a - b` in the type of the outputs, flat. Tensors have the same shape on both sides; `zip` stops at the shorter list of outputs. -/
def errors (h : Int) (ref xc : List (List Int)) : List Int :=
  (List.zipWith (fun a b => List.zipWith (fun x y => wrap h (x - y)) a b) ref xc).flatten

/-- The counters of the loop (runner.py 303). -/
structure St where
  count : Nat := 0
  err : Int := 0
  absErr : Int := 0
  maxErr : Int := 0

/-- The body of the loop after the comparison (runner.py 315-321). `np.sum` of a small integer type is one of int64, exact here. -/
def St.step (h : Int) (s : St) (es : List Int) : St :=
  if es = [] then s
  else { count := s.count + es.length
         err := s.err + es.sum
         absErr := s.absErr + (es.map (npAbs h)).sum
         maxErr := (es.map (npAbs h)).foldl max s.maxErr }

/-- The parameters (runner.py 22-25, 233-243). -/
structure Params where
  maxAbs : Int := 1
  absAvg : ℚ := 1 / 4
  avgAbs : ℚ := 28 / 100
  required : Nat := 2048

abbrev Program := List (List Int) → List (List Int)

/-- The counters after `n` runs, the inputs of run `k` being `ins k` (runner.py 303-321). -/
def after (h : Int) (ref xc : Program) (ins : Nat → List (List Int)) : Nat → St
  | 0 => {}
  | n + 1 => (after h ref xc ins n).step h (errors h (ref (ins n)) (xc (ins n)))

/-- The loop stops after `n` runs (runner.py 304). -/
def Stops (p : Params) (h : Int) (ref xc : Program) (ins : Nat → List (List Int)) (n : Nat) : Prop :=
  p.required ≤ (after h ref xc ins n).count ∧ ∀ m < n, (after h ref xc ins m).count < p.required

/-- The three checks (runner.py 323-342); the divisions are exact here. -/
def St.passes (p : Params) (s : St) : Prop :=
  s.maxErr ≤ p.maxAbs ∧ |(s.err : ℚ) / s.count| ≤ p.absAvg ∧ (s.absErr : ℚ) / s.count ≤ p.avgAbs

/-- The test ends, and passes. -/
def Passes (p : Params) (h : Int) (ref xc : Program) (ins : Nat → List (List Int)) : Prop :=
  ∃ n, Stops p h ref xc ins n ∧ (after h ref xc ins n).passes p

/-- An input without a file: `np.random.randint(mn, high=mx)` draws below the maximum (runner.py 256-258). -/
def Drawn (h : Int) (t : List (List Int)) : Prop := ∀ a ∈ t, ∀ x ∈ a, -h ≤ x ∧ x < h - 1

/-! ### Specification -/

/-- The pairs of outputs compared in one run. -/
def compared (ref xc : List (List Int)) : List (Int × Int) := (List.zipWith List.zip ref xc).flatten

/-- The pairs compared in the first `n` runs. -/
def pairs (ref xc : Program) (ins : Nat → List (List Int)) (n : Nat) : List (Int × Int) :=
  (List.range n).flatMap fun k => compared (ref (ins k)) (xc (ins k))

/-- The bounds as the parameters describe them, of the real differences. -/
def Within (p : Params) (ps : List (Int × Int)) : Prop :=
  (∀ q ∈ ps, |q.1 - q.2| ≤ p.maxAbs) ∧
  |(((ps.map fun q => q.1 - q.2).sum : Int) : ℚ)| ≤ p.absAvg * ps.length ∧
  (((ps.map fun q => |q.1 - q.2|).sum : Int) : ℚ) ≤ p.avgAbs * ps.length

/-! ### Proofs -/

theorem wrap_id {h x : Int} (h1 : -h ≤ x) (h2 : x < h) : wrap h x = x := by
  rw [wrap, Int.emod_eq_of_lt (by omega) (by omega)]; omega

theorem wrap_high {h x : Int} (h1 : h ≤ x) (h2 : x < 3 * h) : wrap h x = x - 2 * h := by
  have : (x + h) % (2 * h) = x - h := by
    rw [← Int.sub_emod_right, Int.emod_eq_of_lt (by omega) (by omega)]; omega
  rw [wrap, this]; omega

theorem wrap_low {h x : Int} (h1 : -3 * h ≤ x) (h2 : x < -h) : wrap h x = x + 2 * h := by
  have : (x + h) % (2 * h) = x + 3 * h := by
    rw [← Int.add_emod_right, Int.emod_eq_of_lt (by omega) (by omega)]; omega
  rw [wrap, this]; omega

theorem errors_eq (h : Int) : ∀ ref xc : List (List Int),
    errors h ref xc = (compared ref xc).map fun q => wrap h (q.1 - q.2) := by
  intro ref
  induction ref with
  | nil => intro xc; simp [errors, compared]
  | cons a ref ih =>
    intro xc
    cases xc with
    | nil => simp [errors, compared]
    | cons b xc =>
      have e := ih xc
      simp only [errors, compared] at e
      simp only [errors, compared, List.zipWith_cons_cons, List.flatten_cons, List.map_append, e]
      congr 1
      rw [List.zip, List.map_zipWith]

theorem after_eq (h : Int) (ref xc : Program) (ins : Nat → List (List Int)) : ∀ n,
    after h ref xc ins n =
      { count := (pairs ref xc ins n).length
        err := ((pairs ref xc ins n).map fun q => wrap h (q.1 - q.2)).sum
        absErr := ((pairs ref xc ins n).map fun q => npAbs h (wrap h (q.1 - q.2))).sum
        maxErr := ((pairs ref xc ins n).map fun q => npAbs h (wrap h (q.1 - q.2))).foldl max 0 } := by
  intro n
  induction n with
  | zero => simp [after, pairs]
  | succ n ih =>
    have e : pairs ref xc ins (n + 1) = pairs ref xc ins n ++ compared (ref (ins n)) (xc (ins n)) := by
      simp [pairs, List.range_succ]
    rw [after, ih, errors_eq, e]
    obtain ⟨cs, ec⟩ : ∃ cs, cs = compared (ref (ins n)) (xc (ins n)) := ⟨_, rfl⟩
    rw [← ec]
    by_cases c : cs = []
    · subst c; simp [St.step]
    · simp [St.step, c, List.foldl_append, Function.comp_def]

theorem foldl_max_le {M : Int} : ∀ (l : List Int) (z : Int), l.foldl max z ≤ M ↔ z ≤ M ∧ ∀ e ∈ l, e ≤ M := by
  intro l
  induction l with
  | nil => intro z; simp
  | cons a l ih => intro z; simp [ih, and_assoc]

theorem npAbs_eq {h d : Int} (h1 : -h < d) (h2 : d < h) : npAbs h (wrap h d) = |d| := by
  rw [wrap_id (by omega) h2, npAbs]
  exact wrap_id (by have := abs_nonneg d; omega) (abs_lt.2 ⟨h1, h2⟩)

/-- C128: the test passes exactly when the real differences meet the documented bounds, provided no difference leaves the range of the type. `n` is the run at which the test stops. -/
theorem C128_exact_partial {p : Params} {h : Int} {ref xc : Program} {ins : Nat → List (List Int)} {n : Nat}
    (hp : 0 < p.required) (hM : 0 ≤ p.maxAbs) (hs : Stops p h ref xc ins n)
    (hr : ∀ q ∈ pairs ref xc ins n, -h < q.1 - q.2 ∧ q.1 - q.2 < h) :
    Passes p h ref xc ins ↔ Within p (pairs ref xc ins n) := by
  have hu : Passes p h ref xc ins ↔ (after h ref xc ins n).passes p := by
    constructor
    · rintro ⟨m, ⟨h1, h2⟩, h3⟩
      have : m = n := by
        rcases Nat.lt_trichotomy m n with c | c | c
        · have := hs.2 m c; omega
        · exact c
        · have := h2 n c; have := hs.1; omega
      rwa [← this]
    · exact fun h3 => ⟨n, hs, h3⟩
  have hc := hs.1
  rw [hu, after_eq]
  rw [after_eq] at hc
  obtain ⟨ps, e⟩ : ∃ ps, ps = pairs ref xc ins n := ⟨_, rfl⟩
  rw [← e] at hr hc ⊢
  have hl : (0 : ℚ) < ps.length := by
    have : 0 < ps.length := by simp only at hc; omega
    exact_mod_cast this
  have e1 : (ps.map fun q => wrap h (q.1 - q.2)) = ps.map fun q => q.1 - q.2 :=
    List.map_congr_left fun q hq => wrap_id (by have := hr q hq; omega) (hr q hq).2
  have e2 : (ps.map fun q => npAbs h (wrap h (q.1 - q.2))) = ps.map fun q => |q.1 - q.2| :=
    List.map_congr_left fun q hq => npAbs_eq (hr q hq).1 (hr q hq).2
  simp only [St.passes, e1, e2, Within, foldl_max_le, abs_div, Nat.abs_cast, div_le_iff₀ hl]
  constructor
  · rintro ⟨⟨_, a⟩, b, c⟩
    exact ⟨fun q hq => a _ (List.mem_map_of_mem (f := fun q : Int × Int => |q.1 - q.2|) hq), b, c⟩
  · rintro ⟨a, b, c⟩
    refine ⟨⟨hM, fun x hx => ?_⟩, b, c⟩
    obtain ⟨q, hq, rfl⟩ := List.mem_map.1 hx
    exact a q hq

/-- C128: without that condition, a pass says of each pair of outputs that was compared: they differ by at most the bound, or by at least the whole range less the bound, or by exactly half the range. -/
theorem C128_pass_means {p : Params} {h : Int} {ref xc : Program} {ins : Nat → List (List Int)}
    (hps : Passes p h ref xc ins) :
    ∃ n, p.required ≤ (pairs ref xc ins n).length ∧ ∀ q ∈ pairs ref xc ins n,
      (-h ≤ q.1 ∧ q.1 < h) → (-h ≤ q.2 ∧ q.2 < h) →
      |q.1 - q.2| ≤ p.maxAbs ∨ 2 * h - p.maxAbs ≤ |q.1 - q.2| ∨ |q.1 - q.2| = h := by
  obtain ⟨n, ⟨h1, _⟩, h3, _⟩ := hps
  rw [after_eq] at h1 h3
  refine ⟨n, h1, fun q hq r1 r2 => ?_⟩
  have hm := ((foldl_max_le _ _).1 h3).2 _ (List.mem_map_of_mem (f := fun q : Int × Int => npAbs h (wrap h (q.1 - q.2))) hq)
  obtain ⟨d, ed⟩ : ∃ d, d = q.1 - q.2 := ⟨_, rfl⟩
  rw [← ed] at hm ⊢
  by_cases c1 : |d| = h
  · exact .inr (.inr c1)
  by_cases c2 : |d| < h
  · rw [npAbs_eq (abs_lt.1 c2).1 (abs_lt.1 c2).2] at hm
    exact .inl hm
  · refine .inr (.inl ?_)
    rcases le_total 0 d with c | c
    · rw [abs_of_nonneg c] at c1 c2 ⊢
      rw [wrap_high (by omega) (by omega), npAbs, abs_of_nonpos (by omega), wrap_id (by omega) (by omega)] at hm
      omega
    · rw [abs_of_nonpos c] at c1 c2 ⊢
      rw [wrap_low (by omega) (by omega), npAbs, abs_of_nonneg (by omega), wrap_id (by omega) (by omega)] at hm
      omega

theorem sum_ge_count : ∀ ps : List (Int × Int),
    ((ps.countP fun q => q.1 ≠ q.2 : Nat) : Int) ≤ (ps.map fun q => |q.1 - q.2|).sum := by
  intro ps
  induction ps with
  | nil => simp
  | cons q ps ih =>
    rw [List.countP_cons, List.map_cons, List.sum_cons]
    by_cases c : q.1 = q.2
    · simp only [c, sub_self, abs_zero]; simpa using ih
    · have : 1 ≤ |q.1 - q.2| := Int.one_le_abs (sub_ne_zero.2 c)
      simp only [ne_eq, c, not_false_eq_true, decide_true, if_true]
      push_cast
      simp only [ne_eq] at ih
      omega

/-- C128: so with the default parameters, and no difference outside the type, at least 72 of 100 outputs are equal bit for bit. -/
theorem C128_share_equal {h : Int} {ref xc : Program} {ins : Nat → List (List Int)} {n : Nat}
    (hs : Stops {} h ref xc ins n) (hr : ∀ q ∈ pairs ref xc ins n, -h < q.1 - q.2 ∧ q.1 - q.2 < h)
    (hps : Passes {} h ref xc ins) :
    100 * (pairs ref xc ins n).countP (fun q => q.1 ≠ q.2) ≤ 28 * (pairs ref xc ins n).length := by
  have hw := ((C128_exact_partial (p := {}) (by decide) (by decide) hs hr).1 hps).2.2
  have := sum_ge_count (pairs ref xc ins n)
  have h2 : (((pairs ref xc ins n).countP (fun q => q.1 ≠ q.2) : Nat) : ℚ) ≤ (((pairs ref xc ins n).map fun q => |q.1 - q.2|).sum : Int) := by
    exact_mod_cast this
  have h3 : (100 * ((pairs ref xc ins n).countP (fun q => q.1 ≠ q.2) : Nat) : ℚ) ≤ 28 * (pairs ref xc ins n).length := by
    linarith
  exact_mod_cast h3

/-- C128: the verdict does not depend on what the compiled model does on inputs with the largest value of the type: they are never drawn. -/
theorem C128_blind_to_maximum {p : Params} {h : Int} {ref xc xc' : Program} {ins : Nat → List (List Int)}
    (hd : ∀ k, Drawn h (ins k)) (he : ∀ t : List (List Int), (∀ a ∈ t, ∀ x ∈ a, x ≠ h - 1) → xc t = xc' t) :
    Passes p h ref xc ins ↔ Passes p h ref xc' ins := by
  have e : ∀ n, after h ref xc ins n = after h ref xc' ins n := by
    intro n
    induction n with
    | zero => rfl
    | succ n ih =>
      rw [after, after, ih, he (ins n) fun a ha x hx => by have := hd n a ha x hx; omega]
  simp only [Passes, Stops, e]

theorem pairs_length {ref xc : Program} {ins : Nat → List (List Int)} {K : Nat}
    (hK : ∀ k, (compared (ref (ins k)) (xc (ins k))).length = K) : ∀ n, (pairs ref xc ins n).length = n * K := by
  intro n
  induction n with
  | zero => simp [pairs]
  | succ n ih =>
    have e : pairs ref xc ins (n + 1) = pairs ref xc ins n ++ compared (ref (ins n)) (xc (ins n)) := by
      simp [pairs, List.range_succ]
    rw [e, List.length_append, ih, hK]; ring

/-- C128: when each run compares `K` outputs the test ends, after as many runs as are needed, exactly if `K` is positive; a model with empty outputs is run for ever. -/
theorem C128_ends {p : Params} {h : Int} {ref xc : Program} {ins : Nat → List (List Int)} {K : Nat}
    (hp : 0 < p.required) (hK : ∀ k, (compared (ref (ins k)) (xc (ins k))).length = K) :
    (0 < K → Stops p h ref xc ins ((p.required + K - 1) / K)) ∧ (K = 0 → ∀ n, ¬ Stops p h ref xc ins n) := by
  have hc : ∀ n, (after h ref xc ins n).count = n * K := fun n => by rw [after_eq]; exact pairs_length hK n
  constructor
  · intro h0
    constructor
    · rw [hc]
      have := Nat.lt_div_mul_add (a := p.required + K - 1) h0
      omega
    · intro m hm
      rw [hc]
      have := (Nat.le_div_iff_mul_le h0).1 (Nat.succ_le_of_lt hm)
      rw [Nat.succ_mul] at this
      omega
  · intro h0 n hn
    have := hn.1
    rw [hc, h0] at this
    omega

theorem compared_self : ∀ r : List (List Int), compared r r = r.flatten.map fun x => (x, x) := by
  intro r
  induction r with
  | nil => rfl
  | cons a r ih =>
    simp only [compared, List.zipWith_cons_cons, List.flatten_cons, List.map_append] at ih ⊢
    rw [ih]
    congr 1
    induction a with
    | nil => rfl
    | cons x a ih2 => simp [ih2]

/-- C128: no false alarms. A compiled model that computes what the reference computes passes, whatever the inputs, if each run has an output element. -/
theorem C128_no_false_alarm {p : Params} {h : Int} {ref xc : Program} {ins : Nat → List (List Int)} (hh : 0 < h)
    (hp : 0 < p.required) (hM : 0 ≤ p.maxAbs) (hA : 0 ≤ p.absAvg) (hB : 0 ≤ p.avgAbs)
    (he : ∀ k, xc (ins k) = ref (ins k)) (hne : ∀ k, (ref (ins k)).flatten ≠ []) : Passes p h ref xc ins := by
  have hc : ∀ k, compared (ref (ins k)) (xc (ins k)) = (ref (ins k)).flatten.map fun x => (x, x) := fun k => by
    rw [he, compared_self]
  have hcount : ∀ n, n ≤ (after h ref xc ins n).count := by
    intro n
    rw [after_eq]
    show n ≤ (pairs ref xc ins n).length
    induction n with
    | zero => simp
    | succ n ih =>
      have e : pairs ref xc ins (n + 1) = pairs ref xc ins n ++ compared (ref (ins n)) (xc (ins n)) := by
        simp [pairs, List.range_succ]
      rw [e, List.length_append, hc, List.length_map]
      have := List.length_pos_iff.2 (hne n)
      omega
  have hex : ∃ n, p.required ≤ (after h ref xc ins n).count := ⟨_, hcount _⟩
  have hs : Stops p h ref xc ins (Nat.find hex) := ⟨Nat.find_spec hex, fun m hm => by have := Nat.find_min hex hm; omega⟩
  have hz : ∀ q ∈ pairs ref xc ins (Nat.find hex), q.1 - q.2 = 0 := by
    intro q hq
    obtain ⟨k, _, hk⟩ := List.mem_flatMap.1 hq
    rw [hc] at hk
    obtain ⟨x, _, rfl⟩ := List.mem_map.1 hk
    simp
  refine (C128_exact_partial hp hM hs fun q hq => by have := hz q hq; omega).2 ⟨fun q hq => by rw [hz q hq]; simpa using hM, ?_, ?_⟩
  · have e : ((pairs ref xc ins (Nat.find hex)).map fun q => q.1 - q.2).sum = 0 :=
      List.sum_eq_zero fun x hx => by obtain ⟨q, hq, rfl⟩ := List.mem_map.1 hx; exact hz q hq
    rw [e]; simp only [Int.cast_zero, abs_zero]; positivity
  · have e : ((pairs ref xc ins (Nat.find hex)).map fun q => |q.1 - q.2|).sum = 0 :=
      List.sum_eq_zero fun x hx => by obtain ⟨q, hq, rfl⟩ := List.mem_map.1 hx; simp [hz q hq]
    rw [e]; simp only [Int.cast_zero]; positivity

/-! ### Witnesses -/

/-- The counters for programs whose outputs do not depend on the inputs. -/
theorem after_const {h : Int} {r x : List (List Int)} {ins : Nat → List (List Int)} {k : Nat} {s a m : Int}
    (e : (St.step h {} (errors h r x)) = ⟨k, s, a, m⟩) (e' : St.step h ⟨0, 0, 0, m⟩ (errors h r x) = ⟨k, s, a, m⟩) (hne : errors h r x ≠ []) :
    ∀ n, after h (fun _ => r) (fun _ => x) ins (n + 1) = ⟨(n + 1) * k, (n + 1) * s, (n + 1) * a, m⟩ := by
  intro n
  induction n with
  | zero => simp [after, e]
  | succ n ih =>
    rw [after, ih]
    simp only [St.step, hne, if_false, St.mk.injEq] at e' ⊢
    obtain ⟨e1, e2, e3, e4⟩ := e'
    refine ⟨?_, ?_, ?_, e4⟩
    · rw [← e1]; ring
    · rw [← e2]; push_cast; ring
    · rw [← e3]; push_cast; ring

/-- Eight int8 outputs, two of them at the ends of the type. -/
def refEnds : List (List Int) := [[127, -128, 3, 0, 0, 0, 0, 0]]
/-- The outputs of a compiled model that saturates to the wrong end. -/
def xcEnds : List (List Int) := [[-128, 127, 3, 0, 0, 0, 0, 0]]

/-- C128 refuted in general: a model with a quarter of its int8 outputs wrong by 255, the largest error there is, passes with the default parameters. -/
theorem C128_refuted (ins : Nat → List (List Int)) : Passes {} 128 (fun _ => refEnds) (fun _ => xcEnds) ins ∧
    (compared refEnds xcEnds).length = 8 ∧ (compared refEnds xcEnds).countP (fun q => |q.1 - q.2| = 255) = 2 := by
  refine ⟨⟨256, (C128_ends (p := {}) (K := 8) (by decide) fun k => by decide +kernel).1 (by decide), ?_⟩, by decide +kernel, by decide +kernel⟩
  rw [after_const (k := 8) (s := 0) (a := 2) (m := 1) (by rw [St.step, if_neg (by decide +kernel), St.mk.injEq]; decide +kernel)
    (by rw [St.step, if_neg (by decide +kernel), St.mk.injEq]; decide +kernel) (by decide +kernel) 255]
  simp only [St.passes]; norm_num

/-- The reference and the compiled outputs of a model with 1024 outputs whose first is wrong by 128. -/
def refHalf : List (List Int) := [-128 :: List.replicate 1023 0]
def xcHalf : List (List Int) := [List.replicate 1024 0]

set_option maxRecDepth 20000 in
/-- The last case of `C128_pass_means` occurs too: an error of 128 counts as -128, which lowers the average. -/
theorem C128_refuted_half (ins : Nat → List (List Int)) : Passes {} 128 (fun _ => refHalf) (fun _ => xcHalf) ins := by
  refine ⟨2, (C128_ends (p := {}) (K := 1024) (by decide) fun k => by decide +kernel).1 (by decide), ?_⟩
  rw [after_const (k := 1024) (s := -128) (a := -128) (m := 0) (by rw [St.step, if_neg (by decide +kernel), St.mk.injEq]; decide +kernel)
    (by rw [St.step, if_neg (by decide +kernel), St.mk.injEq]; decide +kernel) (by decide +kernel) 1]
  simp only [St.passes]; norm_num [abs_le]

/-- A model with eight outputs, two of them wrong by one. -/
def refFour : List (List Int) := [[5, 5, 3, 0], [0, 0, 0, 100]]
def xcFour : List (List Int) := [[4, 6, 3, 0], [0, 0, 0, 100]]

/-- The hypotheses of `C128_exact_partial`, `C128_share_equal` and `C128_ends` are met: 256 runs, and the test passes. -/
theorem C128_case (ins : Nat → List (List Int)) : Stops {} 128 (fun _ => refFour) (fun _ => xcFour) ins 256 ∧
    (∀ q ∈ pairs (fun _ => refFour) (fun _ => xcFour) ins 256, -128 < q.1 - q.2 ∧ q.1 - q.2 < 128) ∧
    Passes {} 128 (fun _ => refFour) (fun _ => xcFour) ins := by
  have hs : Stops {} 128 (fun _ => refFour) (fun _ => xcFour) ins 256 :=
    (C128_ends (p := {}) (K := 8) (by decide) fun k => by decide +kernel).1 (by decide)
  refine ⟨hs, ?_, 256, hs, ?_⟩
  · intro q hq
    obtain ⟨k, _, hk⟩ := List.mem_flatMap.1 hq
    exact (by decide +kernel : ∀ q ∈ compared refFour xcFour, -128 < q.1 - q.2 ∧ q.1 - q.2 < 128) q hk
  · rw [after_const (k := 8) (s := 0) (a := 2) (m := 1) (by rw [St.step, if_neg (by decide +kernel), St.mk.injEq]; decide +kernel)
      (by rw [St.step, if_neg (by decide +kernel), St.mk.injEq]; decide +kernel) (by decide +kernel) 255]
    simp only [St.passes]; norm_num

/-- `C128_no_false_alarm` with models whose outputs depend on the inputs. -/
theorem C128_case_equal (ins : Nat → List (List Int)) (hi : ∀ k, (ins k).flatten ≠ []) :
    Passes {} 128 (fun t => [t.flatten.map (· / 2)]) (fun t => [t.flatten.map (· / 2)]) ins :=
  C128_no_false_alarm (by decide) (by decide) (by decide) (by norm_num) (by norm_num) (fun _ => rfl) fun k => by simpa using hi k

/-- Two models that differ only on the largest value, as in `C128_blind_to_maximum`. -/
theorem C128_case_maximum : Passes {} 128 id id (fun _ => [List.replicate 8 (126 : Int)]) ↔
    Passes {} 128 id (fun t => t.map fun a => a.map fun x => if x = 127 then 0 else x) (fun _ => [List.replicate 8 (126 : Int)]) := by
  refine C128_blind_to_maximum (fun _ => ?_) fun t ht => ?_
  · unfold Drawn; decide +kernel
  · refine (List.map_id _).symm.trans (List.map_congr_left fun a ha => ?_)
    exact (List.map_id _).symm.trans (List.map_congr_left fun x hx => by
      have : x ≠ 127 := fun e => ht a ha x hx (by rw [e]; norm_num)
      simp [this])

end Verif.Host.TestRunner
