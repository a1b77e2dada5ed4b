import Verif.XC.Lut
import Verif.TFL.Model
import Verif.Quant.Basic
import Verif.Move.Spec
import Mathlib.Tactic.Linarith
import Mathlib.Tactic.NormNum
/-!
Patterns of the XC pass (xformer/Transforms/XCPatterns.td, ApplyXCPatterns.cpp): three to four channels (C56), 16-bit
element-wise operators (C57), 16-bit lookup tables (C58), choice of the softmax kernel (C59).
-/
namespace Verif.XC
open Verif.Tensor Verif.Move Verif.Quant

/-! ### C56: pad three to four channels -/

/-- The pattern of XCPatterns.td 154–163 on a pad of an 8-bit tensor: `HasOnlyChannelPadding` and `Has3To4Channel`
(150–152).  The result is the pad value (ApplyXCPatterns.cpp 42–65). -/
def pad3To4 (inShape outShape padding : List Nat) (zp : Int) : Option (BitVec 32) :=
  if TFL.hasOnlyChannelPadding padding && (inShape.getD 3 0 == 3 && outShape.getD 3 0 == 4) then some (padValue zp true) else none

/-- Contract of the kernel (lib_nn `pad_3_to_4`): after every three bytes it writes one byte of the pad value. -/
def pad34Kernel {α : Type} (v : α) : List α → List α
  | a :: b :: c :: rest => a :: b :: c :: v :: pad34Kernel v rest
  | rest => rest

theorem pad34_append {α : Type} (v : α) (a b c : α) (rest : List α) :
    pad34Kernel v ([a, b, c] ++ rest) = [a, b, c, v] ++ pad34Kernel v rest := rfl

theorem pad34_flatMap {α ι : Type} (v : α) (l : List ι) (f : ι → List α) (g : ι → List α)
    (h : ∀ i ∈ l, ∀ rest, pad34Kernel v (f i ++ rest) = g i ++ pad34Kernel v rest) (rest : List α) :
    pad34Kernel v (l.flatMap f ++ rest) = l.flatMap g ++ pad34Kernel v rest := by
  induction l generalizing rest with
  | nil => rfl
  | cons i l ih =>
    rw [List.flatMap_cons, List.append_assoc, h i (by simp), ih (fun j hj => h j (by simp [hj])), List.flatMap_cons,
      List.append_assoc]

theorem flat_pad34 {α : Type} (z : α) (pre : List Nat) (x : List Nat → α) (rest : List α) :
    pad34Kernel z (flat (pre ++ [3]) x ++ rest) =
      flat (pre ++ [4]) (padT z ((pre ++ [3]).map fun _ => 0) (pre ++ [3]) x) ++
        pad34Kernel z rest := by
  induction pre generalizing x rest with
  | nil => rfl
  | cons n pre ih =>
    show pad34Kernel z ((List.range n).flatMap (fun i => flat (pre ++ [3]) fun idx => x (i :: idx)) ++ rest) =
      (List.range n).flatMap (fun i => flat (pre ++ [4]) fun idx => padT z (0 :: (pre ++ [3]).map fun _ => 0) (n :: (pre ++ [3])) x (i :: idx)) ++ _
    apply pad34_flatMap
    intro i hi rest
    rw [List.mem_range] at hi
    have e : (fun idx => padT z (0 :: (pre ++ [3]).map fun _ => 0) (n :: (pre ++ [3])) x (i :: idx)) =
        padT z ((pre ++ [3]).map fun _ => 0) (pre ++ [3]) (fun r => x (i :: r)) := by
      funext idx
      show (if 0 ≤ i ∧ i < 0 + n then _ else z) = _
      rw [if_pos (by omega)]
      rfl
    rw [e]
    exact ih _ _

/-- The amounts of padding before each axis of a flattened 4x2 padding attribute. -/
def padStarts (p : List Nat) : List Nat := [p.getD 0 0, p.getD 2 0, p.getD 4 0, p.getD 6 0]

/-- **C56.** A pad of a 4-d 8-bit tensor from three to four channels that the pattern takes and that has no padding before
the channels: the kernel, given the low byte of the pad value, turns the memory image of the input into that of the padded
tensor. -/
theorem C56_pad_3_to_4_partial (n h w : Nat) (padding : List Nat) (zp : Int) (v : BitVec 32) (x : List Nat → BitVec 8)
    (hp : pad3To4 [n, h, w, 3] [n, h, w, 4] padding zp = some v) (hafter : padding.getD 6 0 = 0) :
    pad34Kernel (v.extractLsb' 0 8) (flat [n, h, w, 3] x) =
      flat [n, h, w, 4] (padT (BitVec.ofInt 8 zp) (padStarts padding) [n, h, w, 3] x) := by
  unfold pad3To4 at hp
  by_cases hc : (TFL.hasOnlyChannelPadding padding && ([n, h, w, 3].getD 3 0 == 3 && [n, h, w, 4].getD 3 0 == 4)) = true
  swap
  · rw [if_neg hc] at hp; cases hp
  rw [if_pos hc] at hp
  have hp := Option.some.inj hp
  subst hp
  rw [C50_pad_value zp 0 (by omega)]
  have hz : padStarts padding = [0, 0, 0, 0] := by
    rw [Bool.and_eq_true] at hc
    have h1 := hc.1
    unfold TFL.hasOnlyChannelPadding at h1
    by_cases hl : padding.length ≠ 8
    · rw [if_pos hl] at h1; cases h1
    rw [if_neg hl] at h1
    simp only [Bool.and_eq_true, beq_iff_eq] at h1
    unfold padStarts
    rw [hafter, h1.1.1.1.1.1, h1.1.1.1.2, h1.1.2]
  rw [hz]
  have := flat_pad34 (BitVec.ofInt 8 zp) [n, h, w] x []
  rw [List.append_nil] at this
  rw [show [n, h, w, 3] = [n, h, w] ++ [3] from rfl, this]
  simp [pad34Kernel]

example : pad3To4 [1, 5, 7, 3] [1, 5, 7, 4] [0, 0, 0, 0, 0, 0, 0, 1] (-128) = some 0x80808080#32 := by decide

/-- **C56 refuted for padding before.** `HasOnlyChannelPadding` does not look at the channel's own two values, so padding
of one channel *before* the three others is taken as well (and the pad pass leaves it to this pattern, ReplacePad.cpp
105–107); the kernel puts the zero point last instead of first. -/
theorem C56_pad_before_refuted :
    ∃ v, pad3To4 [1, 1, 1, 3] [1, 1, 1, 4] [0, 0, 0, 0, 0, 0, 1, 0] 9 = some v ∧
      let x : List Nat → BitVec 8 := fun idx => BitVec.ofNat 8 (idx.getD 3 0)
      pad34Kernel (v.extractLsb' 0 8) (flat [1, 1, 1, 3] x) = [0#8, 1#8, 2#8, 9#8] ∧
      flat [1, 1, 1, 4] (padT 9#8 (padStarts [0, 0, 0, 0, 0, 0, 1, 0]) [1, 1, 1, 3] x) = [9#8, 0#8, 1#8, 2#8] := by
  exact ⟨_, rfl, by decide, by decide⟩

/-! ### C57: 16-bit element-wise operators -/

inductive BinOp where
  | add
  | sub
  | mul
  deriving DecidableEq, Repr

/-- What the patterns of XCPatterns.td 127–141 and `getBinaryI16Blob` (ApplyXCPatterns.cpp 256–336) make of a binary
operator: whether the multiplying kernel runs, and the three scales in the blob (subtraction: the negated scale, 310–314).
Zero points are not passed. -/
structure BinI16 where
  mul : Bool
  s1 : ℚ
  s2 : ℚ
  so : ℚ

def lowerBin (op : BinOp) (t1 t2 to_ : QType) : BinI16 :=
  match op with
  | .add => ⟨false, t1.scale, t2.scale, to_.scale⟩
  | .sub => ⟨false, t1.scale, -t2.scale, to_.scale⟩
  | .mul => ⟨true, t1.scale, t2.scale, to_.scale⟩

/-- The exact value that the kernel approximates, in output steps (lib_nn contract). -/
def BinI16.exact (b : BinI16) (q1 q2 : Int) : ℚ :=
  if b.mul then b.s1 * b.s2 * (q1 * q2) / b.so else (b.s1 * q1 + b.s2 * q2) / b.so

/-- `out` is a result of a kernel that is at most `e` steps from the saturated exact value. -/
def BinI16.Gives (b : BinI16) (lo hi : Int) (e : ℚ) (q1 q2 out : Int) : Prop :=
  |(out : ℚ) - max (lo : ℚ) (min hi (b.exact q1 q2))| ≤ e

/-- The real operation. -/
def BinOp.real : BinOp → ℚ → ℚ → ℚ
  | .add, a, b => a + b
  | .sub, a, b => a - b
  | .mul, a, b => a * b

theorem clampQ_dist (lo hi : ℚ) (x y : ℚ) : |max lo (min hi x) - max lo (min hi y)| ≤ |x - y| := by
  rcases le_total x y with h | h
  · have h1 : max lo (min hi x) ≤ max lo (min hi y) := max_le_max le_rfl (min_le_min le_rfl h)
    rw [abs_sub_comm, abs_of_nonneg (by linarith), abs_sub_comm, abs_of_nonneg (by linarith)]
    rcases le_total hi x with a | a <;> rcases le_total hi y with b | b <;>
      simp only [min_eq_left, min_eq_right, a, b] <;>
      rcases le_total lo x with c | c <;> rcases le_total lo y with d | d <;> rcases le_total lo hi with f | f <;>
      simp only [max_eq_left, max_eq_right, c, d, f] <;> linarith
  · have h1 : max lo (min hi y) ≤ max lo (min hi x) := max_le_max le_rfl (min_le_min le_rfl h)
    rw [abs_of_nonneg (by linarith), abs_of_nonneg (by linarith)]
    rcases le_total hi x with a | a <;> rcases le_total hi y with b | b <;>
      simp only [min_eq_left, min_eq_right, a, b] <;>
      rcases le_total lo x with c | c <;> rcases le_total lo y with d | d <;> rcases le_total lo hi with f | f <;>
      simp only [max_eq_left, max_eq_right, c, d, f] <;> linarith

/-- **C57.** For symmetric (zero point 0) 16-bit types the result of the replacement is within the kernel's error plus half
a step of the TensorFlow Lite result. -/
theorem C57_binary_i16_partial (op : BinOp) (t1 t2 t : QType) (h1 : t1.zp = 0) (h2 : t2.zp = 0) (h3 : t.zp = 0)
    (r : ℚ → ℤ) (hr : Nearest r) (e : ℚ) (q1 q2 out : Int) (hk : (lowerBin op t1 t2 t).Gives t.lo t.hi e q1 q2 out) :
    |(out : ℚ) - t.q r (op.real (t1.deq q1) (t2.deq q2))| ≤ e + 1 / 2 := by
  have hx : (lowerBin op t1 t2 t).exact q1 q2 = op.real (t1.deq q1) (t2.deq q2) / t.scale := by
    cases op <;> simp only [lowerBin, BinI16.exact, BinOp.real, QType.deq, h1, h2] <;> simp <;> ring
  have hq : ((t.q r (op.real (t1.deq q1) (t2.deq q2)) : ℤ) : ℚ) =
      max (t.lo : ℚ) (min t.hi ((r (op.real (t1.deq q1) (t2.deq q2) / t.scale) : ℤ) : ℚ)) := by
    unfold QType.q QType.raw clamp
    rw [h3, zero_add]
    push_cast
    rfl
  unfold BinI16.Gives at hk
  rw [hx] at hk
  rw [hq]
  generalize op.real (t1.deq q1) (t2.deq q2) / t.scale = v at *
  have h4 := clampQ_dist (t.lo : ℚ) t.hi v (r v)
  have h5 := hr v
  rw [abs_sub_comm] at h5
  have h6 : |(out : ℚ) - max (t.lo : ℚ) (min t.hi (r v : ℚ))| ≤ |(out : ℚ) - max (t.lo : ℚ) (min t.hi v)| +
      |max (t.lo : ℚ) (min t.hi v) - max (t.lo : ℚ) (min t.hi (r v : ℚ))| := by
    have := abs_add_le ((out : ℚ) - max (t.lo : ℚ) (min t.hi v)) (max (t.lo : ℚ) (min t.hi v) - max (t.lo : ℚ) (min t.hi (r v : ℚ)))
    simpa using this
  linarith

/-- A symmetric 16-bit type. -/
def exI16T (s : ℚ) : QType := ⟨s, 0, -32768, 32767⟩

/-- The hypotheses of C57 can be met: 1000 * 1/2 - 300 * 1/4 = 425 = 850 * 1/2. -/
example : (lowerBin .sub (exI16T (1 / 2)) (exI16T (1 / 4)) (exI16T (1 / 2))).Gives (-32768) 32767 0 1000 300 850 := by
  unfold BinI16.Gives lowerBin BinI16.exact exI16T
  norm_num

/-- **C57 refuted with zero points**: they are not passed to the kernel, so the sum of 5 and 5 with zero point 5 (real
value 0) becomes 10 instead of the zero point. -/
theorem C57_zero_point_refuted : ∃ t : QType, t.OK ∧
    (∀ out : Int, (lowerBin .add t t t).Gives t.lo t.hi 0 5 5 out → out = 10) ∧
    t.q roundAway (BinOp.real .add (t.deq 5) (t.deq 5)) = 5 := by
  refine ⟨⟨1, 5, -32768, 32767⟩, ⟨by norm_num, by norm_num, by norm_num⟩, ?_, ?_⟩
  · intro out h
    unfold BinI16.Gives lowerBin BinI16.exact at h
    norm_num at h
    have : (out : ℚ) = 10 := by linarith
    exact_mod_cast this
  · decide +kernel

/-- Element types of a unary operator's operand and result. -/
inductive ETy where
  | f32
  | q8
  | q16
  deriving DecidableEq, Repr

inductive UnOp where
  | quantize
  | requantize
  | dequantize
  deriving DecidableEq, Repr

/-- XCPatterns.td 105–118: which 16-bit unary operator a quantise (`isQuantize`) or dequantise becomes. -/
def lowerUn (isQuantize : Bool) (input output : ETy) : Option UnOp :=
  if isQuantize then
    if input = .f32 ∧ output = .q16 then some .quantize
    else if input = .q16 then some .requantize
    else none
  else if input = .q16 then some .dequantize
  else none

/-- `XC_UnaryI16Op`'s type constraint (IR/XCoreOps.td 225–238). -/
def unTypesOK (input output : ETy) : Bool := (input = .q16 ∨ input = .f32) ∧ (output = .q16 ∨ output = .f32)

/-- **C57, unary operators.** What is replaced has operand and result of the width that the chosen kernel reads and writes,
provided a 16-bit re-quantisation has a 16-bit result ... -/
theorem C57_unary_types_partial (isQ : Bool) (input output : ETy) (u : UnOp) (h : lowerUn isQ input output = some u)
    (hty : if isQ then output ≠ .f32 else output = .f32) (h16 : isQ = true → input = .q16 → output = .q16) :
    unTypesOK input output = true ∧
    (u = .quantize ↔ input = .f32) ∧ (u = .dequantize ↔ output = .f32) ∧ (u = .requantize ↔ input = .q16 ∧ output = .q16) := by
  revert h hty h16
  cases isQ <;> cases input <;> cases output <;> cases u <;> decide

/-- ... which the pattern does not check: a quantise from 16 to 8 bits becomes an operator whose type constraint it violates
(the compiler then stops with a verification error). -/
theorem C57_requantize_refuted : lowerUn true .q16 .q8 = some .requantize ∧ unTypesOK .q16 .q8 = false := by decide

/-! ### C58: 16-bit lookup tables -/

/-- Result of lib_nn's `quadratic_approximation_generator`: the table as the function it evaluates to, and `max_error`. -/
structure Quadratic where
  eval : Int → Int
  maxError : Int

/-- Contract: `generator fn inScale outScale` approximates, on every 16-bit value, the saturated exact value up to
`max_error` steps. -/
def QuadraticOK (gen : (ℝ → ℝ) → ℝ → ℝ → Quadratic) : Prop :=
  ∀ fn si so (q : Int), -32768 ≤ q → q ≤ 32767 →
    |((gen fn si so).eval q : ℝ) - max (-32768) (min 32767 (fn (si * q) / so))| ≤ (gen fn si so).maxError

/-- `getLookupTableI16` (ApplyXCPatterns.cpp 110–176): no table if the error exceeds the option. -/
def lookupI16 (gen : (ℝ → ℝ) → ℝ → ℝ → Quadratic) (limit : Int) (fn : ℝ → ℝ) (si so : ℝ) : Option Quadratic :=
  let t := gen fn si so
  if t.maxError > limit then none else some t

/-- **C58.** A 16-bit activation that is replaced by a table deviates from the saturated exact value by at most the
configured number of steps (`--xcore-quadratic-lookup-error`), for every input value; zero points are 0. -/
theorem C58_lookup_i16 (gen : (ℝ → ℝ) → ℝ → ℝ → Quadratic) (hg : QuadraticOK gen) (limit : Int) (fn : ℝ → ℝ) (si so : ℝ)
    (t : Quadratic) (h : lookupI16 gen limit fn si so = some t) (q : Int) (h1 : -32768 ≤ q) (h2 : q ≤ 32767) :
    |(t.eval q : ℝ) - max (-32768) (min 32767 (fn (si * q) / so))| ≤ limit := by
  unfold lookupI16 at h
  by_cases hc : (gen fn si so).maxError > limit
  · rw [if_pos hc] at h; cases h
  rw [if_neg hc] at h
  have h := Option.some.inj h
  subst h
  have := hg fn si so q h1 h2
  have hc : ((gen fn si so).maxError : ℝ) ≤ limit := by exact_mod_cast not_lt.1 hc
  linarith

/-- `ELU(Dequantize(int16))` (XCPatterns.td 83–93): the table goes from the dequantised tensor's scale to the scale of
result 0 of the operator that produces it; `none`: the tensor is a function argument, there is no such operator, and
`outputOp->getResult(0)` (ApplyXCPatterns.cpp 122–123) is undefined behaviour.  `results` are the producer's result scales
and `idx` the index of the dequantised tensor. -/
def eluScales (producer : Option (List ℝ × Nat)) (si : ℝ) : Option (ℝ × ℝ) :=
  producer.map fun p => (si, p.1.getD 0 0)

/-- Exponential linear unit. -/
noncomputable def elu (v : ℝ) : ℝ := if 0 ≤ v then v else Real.exp v - 1

theorem elu_abs (v : ℝ) : |elu v| ≤ |v| := by
  unfold elu
  by_cases h : 0 ≤ v
  · rw [if_pos h]
  · rw [if_neg h]
    have h1 := Real.add_one_le_exp v
    have h2 : Real.exp v ≤ 1 := Real.exp_le_one_iff.2 (by linarith)
    rw [abs_of_nonpos (by linarith), abs_of_neg (by linarith)]
    linarith

/-- **C58, ELU.** When the dequantised tensor is its producer's first result, dequantising the table's value gives the
exponential linear unit of the dequantised input up to the configured number of input steps: the input's own type always
holds the result. -/
theorem C58_elu_partial (gen : (ℝ → ℝ) → ℝ → ℝ → Quadratic) (hg : QuadraticOK gen) (limit : Int) (results : List ℝ) (si : ℝ)
    (hsi : 0 < si) (hfirst : results.getD 0 0 = si) (so : ℝ) (s : ℝ × ℝ) (hs : eluScales (some (results, 0)) si = some s)
    (hso : so = s.2) (t : Quadratic) (h : lookupI16 gen limit elu s.1 s.2 = some t) (q : Int) (h1 : -32767 ≤ q) (h2 : q ≤ 32767) :
    |so * t.eval q - elu (si * q)| ≤ limit * si := by
  have hs : (si, results.getD 0 0) = s := Option.some.inj hs
  subst hs
  dsimp only at *
  rw [hfirst] at hso h
  subst hso
  have key := C58_lookup_i16 gen hg limit elu so so t h q (by omega) h2
  have hb : |elu (so * q) / so| ≤ 32767 := by
    rw [abs_div, abs_of_pos hsi, div_le_iff₀ hsi]
    refine (elu_abs _).trans ?_
    rw [abs_mul, abs_of_pos hsi]
    have : |(q : ℝ)| ≤ 32767 := by rw [abs_le]; constructor <;> [exact_mod_cast h1; exact_mod_cast h2]
    nlinarith
  have hb := abs_le.1 hb
  rw [min_eq_right hb.2, max_eq_right (by linarith)] at key
  have e : so * t.eval q - elu (so * q) = so * (t.eval q - elu (so * q) / so) := by field_simp
  rw [e, abs_mul, abs_of_pos hsi]
  nlinarith

/-- **C58 refuted for ELU**: for a function argument the scale is undefined, and for the second result of an operator with
two results the table is made for the wrong scale. -/
theorem C58_elu_producer_refuted : eluScales none 1 = none ∧ eluScales (some ([4, 1], 1)) 1 = some (1, 4) := by
  exact ⟨rfl, rfl⟩

/-- The contract can be met (with an error bound of half a step). -/
noncomputable def exactGen (fn : ℝ → ℝ) (si so : ℝ) : Quadratic :=
  ⟨fun q => round (max (-32768) (min 32767 (fn (si * q) / so))), 1⟩

theorem exactGen_ok : QuadraticOK exactGen := by
  intro fn si so q _ _
  have := abs_sub_round (max (-32768) (min 32767 (fn (si * q) / so)))
  rw [abs_sub_comm] at this
  show |((round (max (-32768) (min 32767 (fn (si * q) / so))) : ℤ) : ℝ) - _| ≤ ((1 : ℤ) : ℝ)
  push_cast
  linarith

example : (lookupI16 exactGen 1 elu (1 / 100) (1 / 100)).isSome = true := by
  unfold lookupI16
  rw [if_neg (by show ¬ (1 : Int) > 1; decide)]
  rfl

/-! ### C59: softmax -/

inductive Softmax where
  | single
  | batched
  deriving DecidableEq, Repr

/-- XCPatterns.td 45–70: which softmax kernel an 8-bit softmax with this input shape gets. -/
def lowerSoftmax (beta : ℚ) (shape : List Nat) : Option Softmax :=
  if beta = 1 ∧ shape.length = 2 ∧ shape.getD 0 0 = 1 then some .single
  else if beta = 1 ∧ ((shape.length = 2 ∧ shape.getD 0 0 ≠ 1) ∨ (shape.length = 3 ∧ shape.getD 1 0 ≠ 1)) then some .batched
  else none

/-- **C59.** Only softmax operators with beta 1 are replaced; the kernel for a single segment is chosen exactly when the
2-d input has one row, in which case the whole tensor is one segment; tensors with several rows get the batched kernel or
stay as they are. -/
theorem C59_softmax (beta : ℚ) (shape : List Nat) (hpos : ∀ n ∈ shape, 1 ≤ n) :
    (lowerSoftmax beta shape ≠ none → beta = 1) ∧
    (lowerSoftmax beta shape = some .single → shape.dropLast.prod = 1) ∧
    (shape.length = 2 → beta = 1 → (lowerSoftmax beta shape = some .single ↔ shape.dropLast.prod = 1)) ∧
    (lowerSoftmax beta shape = some .batched → 1 < shape.dropLast.prod) := by
  unfold lowerSoftmax
  by_cases hb : beta = 1
  swap
  · simp [hb]
  match shape, hpos with
  | [], _ => simp
  | [_], _ => simp
  | [a, b], hpos =>
    have := hpos a (by simp)
    by_cases ha : a = 1 <;> simp [hb, ha] <;> omega
  | [a, b, c], hpos =>
    have h1 := hpos a (by simp)
    have h2 := hpos b (by simp)
    by_cases hb1 : b = 1
    · simp [hb, hb1]
    · simp [hb, hb1]
      have : 1 * 2 ≤ a * b := Nat.mul_le_mul h1 (by omega)
      omega
  | _ :: _ :: _ :: _ :: _, _ => simp

example : lowerSoftmax 1 [1, 10] = some .single ∧ lowerSoftmax 1 [4, 10] = some .batched ∧
    lowerSoftmax 1 [1, 4, 10] = some .batched ∧ lowerSoftmax 2 [1, 10] = none := by
  refine ⟨?_, ?_, ?_, ?_⟩ <;> norm_num [lowerSoftmax]

end Verif.XC
