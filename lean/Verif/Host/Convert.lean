import Mathlib.Tactic.Ring
import Mathlib.Data.List.Basic
import Mathlib.Data.List.Infix
/-!
C73, C74: `xmos_ai_tools.xformer.convert` (python/xmos_ai_tools/xformer/__init__.py): the command line it makes from its parameters
and the arena size it reads from the compiler's output.

Contract of `llvm::cl` (not in /repo): one or two dashes introduce an option; its value is what follows `=`, or, for an option that
requires a value and has no `=`, the next argument, whatever it is; other arguments are positional.
-/
namespace Verif.Host.Convert

abbrev Str := List Char

/-! ### Contract: the compiler's command line parser -/

inductive Kind | flag | value
deriving DecidableEq, Repr

structure Parsed where
  options : List (Str × Str) := []
  positional : List Str := []
deriving DecidableEq, Repr

/-- Name and value of an option argument without its dashes. -/
def nameValue (s : Str) : Str × Option Str :=
  (s.takeWhile (· ≠ '='), match s.dropWhile (· ≠ '=') with
    | [] => none
    | _ :: v => some v)

/-- An argument without its dashes, if it is an option: one or two dashes followed by something. -/
def optionText : Str → Option Str
  | '-' :: '-' :: c :: r => some (c :: r)
  | '-' :: '-' :: [] => none
  | '-' :: c :: r => some (c :: r)
  | _ => none

/-- The parser; `kinds` are the options that exist, `pending` is an option that waits for its value, `none` is an error message
and exit code 1. -/
def parse (kinds : Str → Option Kind) : Option Str → List Str → Option Parsed
  | none, [] => some {}
  | some _, [] => none
  | some name, v :: rest => (parse kinds none rest).map fun p => { p with options := (name, v) :: p.options }
  | none, arg :: rest =>
    match optionText arg with
    | none => (parse kinds none rest).map fun p => { p with positional := arg :: p.positional }
    | some t =>
      match kinds (nameValue t).1, (nameValue t).2 with
      | none, _ => none
      | some _, some v => (parse kinds none rest).map fun p => { p with options := ((nameValue t).1, v) :: p.options }
      | some .flag, none => (parse kinds none rest).map fun p => { p with options := ((nameValue t).1, []) :: p.options }
      | some .value, none => parse kinds (some (nameValue t).1) rest

/-! ### Model -/

/-- The argument for one parameter (xformer/__init__.py 20-28). -/
def argOf (key : Str) (val : Option Str) : Str :=
  let flag := (if 1 < key.length then ['-', '-'] else ['-']) ++ key
  match val with
  | none => flag
  | some v => if v = [] then flag else flag ++ '=' :: v

/-- The command line (xformer/__init__.py 17-30), without the program's name. -/
def args (filename outfile : Str) (params : List (Str × Option Str)) : List Str :=
  ['-', 'o'] :: outfile :: (params.map fun p => argOf p.1 p.2) ++ [filename]

/-- The text that the compiler prints before the arena size. -/
def marker : Str := "Tensor arena size :".toList

/-- The text after the last marker. -/
def lastMarker : Str → Option Str
  | [] => none
  | c :: r => (lastMarker r).or (if marker.isPrefixOf (c :: r) then some ((c :: r).drop marker.length) else none)

/-- `re.sub("((.|\n|\r)*)Tensor arena size :", "", s)` (xformer/__init__.py 42): everything up to the last marker is removed; nothing
if there is none. -/
def afterLast (s : Str) : Str := (lastMarker s).getD s

/-- `re.sub("(\n|\r)((.|\n|\r)*)", "", s)` (xformer/__init__.py 43): everything from the first line end on is removed. -/
def firstLine (s : Str) : Str := s.takeWhile fun c => c ≠ '\n' && c ≠ '\r'

def isSpace (c : Char) : Bool := c = ' ' || c = '\t'

/-- `strip` -/
def strip (s : Str) : Str := ((s.dropWhile isSpace).reverse.dropWhile isSpace).reverse

/-- `int` of decimal digits; `none` (an exception) for anything else.  Simplification: signs and underscores are not accepted. -/
def pyInt (s : Str) : Option Nat :=
  if s = [] ∨ ¬ s.all Char.isDigit then none else some (s.foldl (fun n c => n * 10 + (c.toNat - 48)) 0)

/-- The arena size that `convert` stores (xformer/__init__.py 41-44). -/
def arenaSize (output : Str) : Option Nat := pyInt (strip (firstLine (afterLast output)))

/-! ### C73: the command line -/

/-- Value that an option takes. -/
def given (val : Option Str) : Str := val.getD []

/-- The parameter can be written on a command line: a name without `=` that does not start with a dash, known to the compiler, and
with a non-empty value unless it is a flag. -/
structure ParamOK (kinds : Str → Option Kind) (p : Str × Option Str) : Prop where
  name : p.1 ≠ [] ∧ '=' ∉ p.1 ∧ p.1.head? ≠ some '-'
  known : ∃ k, kinds p.1 = some k ∧ (k = .value → given p.2 ≠ [])

theorem takeWhile_name {k : Str} (h : '=' ∉ k) (v : Str) : (k ++ '=' :: v).takeWhile (· ≠ '=') = k ∧
    (k ++ '=' :: v).dropWhile (· ≠ '=') = '=' :: v := by
  induction k with
  | nil => simp
  | cons c k ih =>
    have hc : c ≠ '=' := fun h' => h (by simp [h'])
    have hk : '=' ∉ k := fun h' => h (by simp [h'])
    obtain ⟨h1, h2⟩ := ih hk
    constructor
    · rw [List.cons_append, List.takeWhile_cons_of_pos (by simpa using hc), h1]
    · rw [List.cons_append, List.dropWhile_cons_of_pos (by simpa using hc), h2]

theorem takeWhile_all {k : Str} (h : '=' ∉ k) : k.takeWhile (· ≠ '=') = k ∧ k.dropWhile (· ≠ '=') = [] := by
  induction k with
  | nil => simp
  | cons c k ih =>
    have hc : c ≠ '=' := fun h' => h (by simp [h'])
    have hk : '=' ∉ k := fun h' => h (by simp [h'])
    obtain ⟨h1, h2⟩ := ih hk
    constructor
    · rw [List.takeWhile_cons_of_pos (by simpa using hc), h1]
    · rw [List.dropWhile_cons_of_pos (by simpa using hc), h2]

theorem optionText_flag {k : Str} (h1 : k ≠ []) (h2 : k.head? ≠ some '-') (tail : Str) :
    optionText ((if 1 < k.length then ['-', '-'] else ['-']) ++ k ++ tail) = some (k ++ tail) := by
  cases k with
  | nil => exact absurd rfl h1
  | cons c k =>
    have hc : c ≠ '-' := fun h => h2 (by simp [h])
    split
    · rfl
    · simp only [List.cons_append, List.nil_append]
      unfold optionText
      split
      · rename_i heq; simp only [List.cons.injEq, true_and] at heq; exact absurd heq.1 hc
      · rename_i heq; simp only [List.cons.injEq, true_and] at heq; exact absurd heq.1 hc
      · rename_i heq; simp only [List.cons.injEq, true_and] at heq; rw [heq.1, heq.2]
      · rename_i h3; exact absurd rfl (h3 c (k ++ tail))

theorem optionText_arg {kinds : Str → Option Kind} {p : Str × Option Str} (h : ParamOK kinds p) :
    ∃ t, optionText (argOf p.1 p.2) = some t ∧ (nameValue t).1 = p.1 ∧
      (nameValue t).2 = if given p.2 = [] then none else some (given p.2) := by
  obtain ⟨⟨h1, h2, h3⟩, _⟩ := h
  have bare : optionText ((if 1 < p.1.length then ['-', '-'] else ['-']) ++ p.1) = some p.1 := by
    have := optionText_flag h1 h3 []
    simpa using this
  unfold argOf
  cases hv : p.2 with
  | none =>
    refine ⟨p.1, bare, ?_, ?_⟩
    · exact (takeWhile_all h2).1
    · unfold nameValue; rw [(takeWhile_all h2).2]; rfl
  | some v =>
    dsimp only
    by_cases hv0 : v = []
    · subst hv0
      rw [if_pos rfl]
      refine ⟨p.1, bare, (takeWhile_all h2).1, ?_⟩
      unfold nameValue; rw [(takeWhile_all h2).2]; rfl
    · rw [if_neg hv0]
      refine ⟨p.1 ++ '=' :: v, optionText_flag h1 h3 _, (takeWhile_name h2 v).1, ?_⟩
      unfold nameValue; rw [(takeWhile_name h2 v).2]
      show some v = if v = [] then none else some v
      rw [if_neg hv0]

/-- **C73.** For every list of well-formed parameters and every output file name, the compiler sees exactly: the output file, every
parameter with its value (empty for flags), in order, and the input file. -/
theorem C73_command_line_partial (kinds : Str → Option Kind) (ho : kinds ['o'] = some .value) (filename outfile : Str)
    (hf : optionText filename = none) (params : List (Str × Option Str)) (hp : ∀ p ∈ params, ParamOK kinds p) :
    parse kinds none (args filename outfile params) =
      some ⟨(['o'], outfile) :: params.map fun p => (p.1, given p.2), [filename]⟩ := by
  have main : parse kinds none ((params.map fun p => argOf p.1 p.2) ++ [filename]) =
      some ⟨params.map fun p => (p.1, given p.2), [filename]⟩ := by
    induction params with
    | nil =>
      show parse kinds none [filename] = _
      rw [parse, hf]; rfl
    | cons p ps ih =>
      obtain ⟨t, h1, h2, h3⟩ := optionText_arg (hp p List.mem_cons_self)
      obtain ⟨k, hk1, hk2⟩ := (hp p List.mem_cons_self).known
      have ih := ih fun q hq => hp q (List.mem_cons_of_mem _ hq)
      rw [List.map_cons, List.cons_append, parse, h1]
      dsimp only
      rw [h2, hk1, h3, ih]
      by_cases hg : given p.2 = []
      · rw [if_pos hg]
        cases k with
        | flag => simp [hg]
        | value => exact absurd hg (hk2 rfl)
      · rw [if_neg hg]
        rfl
  have hn : (nameValue ['o']).1 = ['o'] ∧ (nameValue ['o']).2 = none := ⟨by decide, by decide⟩
  have ht : optionText ['-', 'o'] = some ['o'] := by decide
  show parse kinds none (['-', 'o'] :: outfile :: ((params.map fun p => argOf p.1 p.2) ++ [filename])) = _
  rw [parse, ht]
  dsimp only
  rw [hn.1, hn.2, ho]
  dsimp only
  rw [parse, main]
  rfl

/-- The options used in the examples. -/
def exampleKinds (s : Str) : Option Kind :=
  if s = ['o'] ∨ s = "xcore-thread-count".toList ∨ s = "xcore-weights-file".toList then some .value
  else if s = "xcore-op-split-tensor-arena".toList then some .flag else none

example : parse exampleKinds none (args "in.tflite".toList "out.tflite".toList
    [("xcore-thread-count".toList, some ['5']), ("xcore-op-split-tensor-arena".toList, none)]) =
    some ⟨[(['o'], "out.tflite".toList), ("xcore-thread-count".toList, ['5']), ("xcore-op-split-tensor-arena".toList, [])],
      ["in.tflite".toList]⟩ := by decide

/-- An empty value for an option that needs one: the next argument, here the input file, becomes its value. -/
theorem C73_empty_value_refuted (filename outfile : Str) (key : Str) (val : Option Str) (hval : given val = [])
    (kinds : Str → Option Kind) (ho : kinds ['o'] = some .value) (hk : kinds key = some .value)
    (h1 : key ≠ []) (h2 : '=' ∉ key) (h3 : key.head? ≠ some '-') :
    parse kinds none (args filename outfile [(key, val)]) = some ⟨[(['o'], outfile), (key, filename)], []⟩ := by
  have hn : (nameValue ['o']).1 = ['o'] ∧ (nameValue ['o']).2 = none := ⟨by decide, by decide⟩
  have ht : optionText ['-', 'o'] = some ['o'] := by decide
  obtain ⟨t, g1, g2, g3⟩ : ∃ t, optionText (argOf key val) = some t ∧ (nameValue t).1 = key ∧
      (nameValue t).2 = if given val = [] then none else some (given val) :=
    optionText_arg (kinds := fun _ => some .flag) (p := (key, val)) ⟨⟨h1, h2, h3⟩, .flag, rfl, fun h => by cases h⟩
  show parse kinds none (['-', 'o'] :: outfile :: argOf key val :: [filename]) = _
  rw [parse, ht]
  dsimp only
  rw [hn.1, hn.2, ho]
  dsimp only
  rw [parse, parse, g1]
  dsimp only
  rw [g2, hk, g3, if_pos hval]
  rfl

/-- An input file whose name starts with a dash is taken for an option. -/
theorem C73_dash_refuted : parse exampleKinds none (args "-in.tflite".toList "out.tflite".toList []) = none := by decide

/-! ### C74: the arena size -/

/-- Decimal digits of a number, as the compiler prints it. -/
def digits (n : Nat) : Str := Nat.toDigits 10 n

theorem lastMarker_skip {c : Char} (h : c ≠ 'T') (r : Str) : lastMarker (c :: r) = lastMarker r := by
  rw [lastMarker, if_neg, Option.or_none]
  have : marker = 'T' :: marker.tail := by decide
  rw [this, List.isPrefixOf]
  have : ('T' == c) = false := by simpa using fun h' => h h'.symm
  simp [this]

theorem lastMarker_skips (l r : Str) (h : ∀ c ∈ l, c ≠ 'T') : lastMarker (l ++ r) = lastMarker r := by
  induction l with
  | nil => rfl
  | cons c l ih =>
    rw [List.cons_append, lastMarker_skip (h c List.mem_cons_self), ih fun c' h' => h c' (List.mem_cons_of_mem _ h')]

theorem lastMarker_none {s : Str} (h : ¬ marker <:+: s) : lastMarker s = none := by
  induction s with
  | nil => rfl
  | cons c r ih =>
    have h1 : ¬ marker <:+: r := fun h' => h (h'.trans (List.suffix_cons c r).isInfix)
    rw [lastMarker, ih h1, Option.none_or, if_neg]
    intro h2
    exact h (List.isPrefixOf_iff_prefix.1 h2).isInfix

theorem lastMarker_append {s t : Str} (h : lastMarker s = some t) (pre : Str) : lastMarker (pre ++ s) = some t := by
  induction pre with
  | nil => exact h
  | cons c pre ih => rw [List.cons_append, lastMarker, ih]; rfl

theorem lastMarker_here {s : Str} (h : lastMarker s = none) : lastMarker (marker ++ s) = some s := by
  have h1 : marker = 'T' :: marker.tail := by decide
  have h2 : lastMarker (marker.tail ++ s) = none := by
    rw [lastMarker_skips _ _ (by decide), h]
  have h3 : marker ++ s = 'T' :: (marker.tail ++ s) := by
    conv_lhs => rw [h1]
    rfl
  rw [h3, lastMarker, h2, Option.none_or, ← h3, if_pos (List.isPrefixOf_iff_prefix.2 (List.prefix_append _ _)), List.drop_left]

theorem foldl_digits (n : Nat) : (digits n).foldl (fun n c => n * 10 + (c.toNat - 48)) 0 = n := by
  induction n using Nat.strongRecOn with
  | _ n ih =>
    unfold digits at *
    by_cases h : n < 10
    · rw [Nat.toDigits_of_lt_base h]
      simp [Nat.toNat_digitChar_sub_48_of_lt_ten h]
    · rw [Nat.toDigits_of_base_le (by omega) (by omega), List.foldl_append, ih (n / 10) (by omega)]
      simp only [List.foldl_cons, List.foldl_nil]
      rw [Nat.toNat_digitChar_sub_48_of_lt_ten (by omega)]
      omega

theorem digits_isDigit {n : Nat} {c : Char} (h : c ∈ digits n) : c.isDigit = true :=
  Nat.isDigit_of_mem_toDigits (by omega) (by omega) h

theorem isDigit_ne {c : Char} (h : c.isDigit = true) : c ≠ 'T' ∧ c ≠ '\n' ∧ c ≠ '\r' ∧ isSpace c = false := by
  refine ⟨?_, ?_, ?_, ?_⟩
  · rintro rfl; revert h; decide
  · rintro rfl; revert h; decide
  · rintro rfl; revert h; decide
  · unfold isSpace
    have h1 : c ≠ ' ' := by rintro rfl; revert h; decide
    have h2 : c ≠ '\t' := by rintro rfl; revert h; decide
    simp [h1, h2]

/-- **C74.** Whatever the compiler prints before the arena size (also text that looks like one), and whatever it prints afterwards
that does not look like one: `convert` stores the arena size that was printed. -/
theorem C74_arena_size (pre post : Str) (n : Nat) (h : ¬ marker <:+: post) :
    arenaSize (pre ++ "Tensor arena size : ".toList ++ digits n ++ '\n' :: post) = some n := by
  have h0 : "Tensor arena size : ".toList = marker ++ [' '] := by decide
  have e : pre ++ "Tensor arena size : ".toList ++ digits n ++ '\n' :: post =
      pre ++ (marker ++ (' ' :: digits n ++ '\n' :: post)) := by rw [h0]; simp
  have h1 : lastMarker (' ' :: digits n ++ '\n' :: post) = none := by
    rw [List.cons_append, lastMarker_skip (by decide), lastMarker_skips _ _ fun c hc => (isDigit_ne (digits_isDigit hc)).1,
      lastMarker_skip (by decide), lastMarker_none h]
  unfold arenaSize afterLast
  rw [e, lastMarker_append (lastMarker_here h1), Option.getD_some]
  have h2 : firstLine (' ' :: digits n ++ '\n' :: post) = ' ' :: digits n := by
    unfold firstLine
    rw [List.cons_append, List.takeWhile_cons_of_pos (by decide), List.takeWhile_append_of_pos]
    · rw [List.takeWhile_cons_of_neg (by decide), List.append_nil]
    · intro c hc
      obtain ⟨_, a, b, _⟩ := isDigit_ne (digits_isDigit hc)
      simp [a, b]
  have hne : digits n ≠ [] := Nat.toDigits_ne_nil
  have h3 : strip (' ' :: digits n) = digits n := by
    unfold strip
    rw [List.dropWhile_cons_of_pos (by decide)]
    have k1 : ∀ l : Str, (∀ c ∈ l, isSpace c = false) → l.dropWhile isSpace = l := by
      intro l hl
      cases l with
      | nil => rfl
      | cons c l => rw [List.dropWhile_cons_of_neg]; rw [hl c List.mem_cons_self]; simp
    rw [k1 _ fun c hc => (isDigit_ne (digits_isDigit hc)).2.2.2,
      k1 _ fun c hc => (isDigit_ne (digits_isDigit (List.mem_reverse.1 hc))).2.2.2, List.reverse_reverse]
  rw [h2, h3]
  unfold pyInt
  rw [if_neg, foldl_digits]
  rintro (h | h)
  · exact hne h
  · exact h (List.all_eq_true.2 fun c hc => digits_isDigit hc)

/-- A compiler that printed no arena size: an exception instead of a wrong size, unless its first line happens to be a number. -/
theorem C74_no_size (line post : Str) (h : ¬ marker <:+: (line ++ '\n' :: post)) (hl : ∀ c ∈ line, c ≠ '\n' ∧ c ≠ '\r') :
    arenaSize (line ++ '\n' :: post) = pyInt (strip line) := by
  unfold arenaSize afterLast
  rw [lastMarker_none h, Option.getD_none]
  unfold firstLine
  rw [List.takeWhile_append_of_pos]
  · rw [List.takeWhile_cons_of_neg (by decide), List.append_nil]
  · intro c hc
    obtain ⟨a, b⟩ := hl c hc
    simp [a, b]

example : arenaSize "Tensor arena size : 7\nwarning\nTensor arena size : 123456\ndone\n".toList = some 123456 := by decide +kernel

end Verif.Host.Convert
