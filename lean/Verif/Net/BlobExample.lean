import Verif.Net.BlobLemmas
import Mathlib.Data.Rat.Encodable
import Mathlib.Logic.Encodable.Basic
import Mathlib.Analysis.SpecialFunctions.Log.Basic
import Mathlib.Analysis.SpecialFunctions.Log.Deriv
/-!
C109: the contracts of `BLib` can be met.  Constants that determine what they were made for, kernels that decode them and round exactly, and
numbers of 32 bits with a sign and a logarithm in steps of 2^-22.
-/
namespace Verif.Net
open Verif.Tensor Verif.Move Verif.MemPlan Verif.Quant

/-! ### 16-bit integers -/

def build16 (n : Nat) (f : Nat → ℤ) : List Byte := (List.range n).flatMap fun k => bytes16 (f k)

theorem length_build16 (n : Nat) (f : Nat → ℤ) : (build16 n f).length = n * 2 := by
  unfold build16
  have h : ∀ k, (bytes16 (f k)).length = 2 := fun _ => rfl
  simp [List.length_flatMap, h]

theorem val_build16 {n : Nat} {f : Nat → ℤ} {k : Nat} (hk : k < n) (h : -32768 ≤ f k ∧ f k ≤ 32767) : val16 (build16 n f) k = f k := by
  unfold val16 build16
  rw [word_flatMap 2 _ _ (fun _ _ => rfl) k k (by rw [List.getElem?_range hk])]
  exact s16_bytes16 h

noncomputable def rnd16 (x : ℝ) : ℤ := round (max (-32768) (min 32767 x))

theorem rnd16_range (x : ℝ) : -32768 ≤ rnd16 x ∧ rnd16 x ≤ 32767 := by
  have h := abs_sub_round (max (-32768) (min 32767 x))
  have h1 : (-32768 : ℝ) ≤ max (-32768) (min 32767 x) := le_max_left _ _
  have h2 : max (-32768) (min 32767 x) ≤ (32767 : ℝ) := max_le (by norm_num) (min_le_left _ _)
  rw [abs_le] at h
  constructor
  · have : (-32769 : ℝ) < (rnd16 x : ℝ) := by unfold rnd16; linarith
    have : (-32769 : ℤ) < rnd16 x := by exact_mod_cast this
    omega
  · have : (rnd16 x : ℝ) < (32768 : ℝ) := by unfold rnd16; linarith
    have : rnd16 x < (32768 : ℤ) := by exact_mod_cast this
    omega

theorem rnd16_near (x : ℝ) : |(rnd16 x : ℝ) - max (-32768) (min 32767 x)| ≤ 1 / 2 := by
  rw [abs_sub_comm]
  exact abs_sub_round _

theorem build_rnd {n : Nat} (f : Nat → ℝ) {k : Nat} (hk : k < n) :
    |(val16 (build16 n fun k => rnd16 (f k)) k : ℝ) - max (-32768) (min 32767 (f k))| ≤ 1 / 2 := by
  rw [val_build16 hk (rnd16_range _)]
  exact rnd16_near _

/-! ### 8-bit integers -/

noncomputable def rnd8 (x : ℝ) : Byte := toByte (max (-128) (min 127 (round x)))

theorem s8_toByte' {v : ℤ} (h : -128 ≤ v ∧ v ≤ 127) : s8 (toByte v) = v := by
  unfold s8 toByte
  have : XC.toU8 v < 256 := by unfold XC.toU8; omega
  rw [UInt8.toNat_ofNat_of_lt' (by simpa using this)]
  exact XC.ofU8_toU8 v h.1 h.2

theorem rnd8_near {x : ℝ} (h1 : -128 ≤ x) (h2 : x ≤ 127) : |(s8 (rnd8 x) : ℝ) - x| ≤ 1 / 2 := by
  have h := abs_sub_round x
  have h' := abs_le.1 h
  have r1 : -128 ≤ round x := by
    have : (-129 : ℝ) < (round x : ℝ) := by linarith
    have : (-129 : ℤ) < round x := by exact_mod_cast this
    omega
  have r2 : round x ≤ 127 := by
    have : (round x : ℝ) < 128 := by linarith
    have : round x < (128 : ℤ) := by exact_mod_cast this
    omega
  unfold rnd8
  rw [s8_toByte' (by omega), min_eq_right r2, max_eq_right r1, abs_sub_comm]
  exact h

theorem soft_range (cols : Nat) (f : Nat → ℝ) (hf : ∀ i, 0 < f i) (k : Nat) :
    -128 ≤ min 127 (256 * (f k / ∑ c ∈ Finset.range cols, f (k / cols * cols + c)) - 128) ∧
    min 127 (256 * (f k / ∑ c ∈ Finset.range cols, f (k / cols * cols + c)) - 128) ≤ 127 := by
  refine ⟨le_min (by norm_num) ?_, min_le_left _ _⟩
  have : 0 ≤ f k / ∑ c ∈ Finset.range cols, f (k / cols * cols + c) := div_nonneg (hf k).le (Finset.sum_nonneg fun _ _ => (hf _).le)
  linarith

/-! ### Floats -/

def n32 (b : List Byte) : Nat := (b.getD 0 0).toNat + 256 * (b.getD 1 0).toNat + 65536 * (b.getD 2 0).toNat + 16777216 * (b.getD 3 0).toNat

def bytes32 (n : Nat) : List Byte := [UInt8.ofNat (n % 256), UInt8.ofNat (n / 256 % 256), UInt8.ofNat (n / 65536 % 256), UInt8.ofNat (n / 16777216 % 256)]

theorem n32_bytes32 {n : Nat} (h : n < 4294967296) : n32 (bytes32 n) = n := by
  unfold n32 bytes32
  simp only [List.getD_cons_zero, List.getD_cons_succ]
  rw [UInt8.toNat_ofNat_of_lt' (Nat.mod_lt _ (by decide)), UInt8.toNat_ofNat_of_lt' (Nat.mod_lt _ (by decide)), UInt8.toNat_ofNat_of_lt' (Nat.mod_lt _ (by decide)),
    UInt8.toNat_ofNat_of_lt' (Nat.mod_lt _ (by decide))]
  simp only [show UInt8.size = 256 from rfl]
  omega

noncomputable def exF32 (b : List Byte) : ℝ :=
  if n32 b = 0 then 0
  else if n32 b < 2147483648 then Real.exp ((n32 b - 1073741824) / 4194304)
  else -Real.exp ((n32 b - 2147483648 - 1073741824) / 4194304)

noncomputable def logCode (x : ℝ) : Nat := (round (4194304 * Real.log x) + 1073741824).toNat

noncomputable def exEnc (x : ℝ) : List Byte :=
  if x = 0 then bytes32 0 else if 0 < x then bytes32 (logCode x) else bytes32 (logCode (-x) + 2147483648)

theorem logCode_near {x : ℝ} (hx : 0 < x) (h : |Real.log x| ≤ 127) : 1 ≤ logCode x ∧ logCode x < 2147483648 ∧
    |Real.exp (((logCode x : ℝ) - 1073741824) / 4194304) - x| ≤ 1 / 4194304 * x := by
  have hr := abs_sub_round (4194304 * Real.log x)
  obtain ⟨r, er⟩ : ∃ r, r = round (4194304 * Real.log x) := ⟨_, rfl⟩
  unfold logCode
  rw [← er] at hr ⊢
  have hr' := abs_le.1 hr
  have hl := abs_le.1 h
  have b1 : -532676609 ≤ r := by
    have : (-532676610 : ℝ) < (r : ℝ) := by linarith
    have : (-532676610 : ℤ) < r := by exact_mod_cast this
    omega
  have b2 : r ≤ 532676609 := by
    have : (r : ℝ) < 532676610 := by linarith
    have : r < (532676610 : ℤ) := by exact_mod_cast this
    omega
  refine ⟨by omega, by omega, ?_⟩
  have hc : (((r + 1073741824).toNat : ℕ) : ℝ) = (r : ℝ) + 1073741824 := by
    have : (((r + 1073741824).toNat : ℕ) : ℤ) = r + 1073741824 := Int.toNat_of_nonneg (by omega)
    exact_mod_cast this
  rw [hc]
  have he : ((r : ℝ) + 1073741824 - 1073741824) / 4194304 = Real.log x + (r / 4194304 - Real.log x) := by ring
  rw [he, Real.exp_add, Real.exp_log hx]
  have hη : |(r : ℝ) / 4194304 - Real.log x| ≤ 1 / 8388608 := by
    rw [abs_le]
    constructor <;> linarith
  have h2 := Real.abs_exp_sub_one_le (hη.trans (by norm_num))
  have : x * Real.exp ((r : ℝ) / 4194304 - Real.log x) - x = x * (Real.exp ((r : ℝ) / 4194304 - Real.log x) - 1) := by ring
  rw [this, abs_mul, abs_of_pos hx, mul_comm]
  exact mul_le_mul_of_nonneg_right (h2.trans (by linarith)) hx.le

theorem exF32_exEnc {x : ℝ} (h : x = 0 ∨ |Real.log (|x|)| ≤ 127) : |exF32 (exEnc x) - x| ≤ 1 / 4194304 * |x| := by
  unfold exEnc
  by_cases h0 : x = 0
  · rw [if_pos h0, h0]
    have : n32 (bytes32 0) = 0 := n32_bytes32 (by norm_num)
    simp [exF32, this]
  rw [if_neg h0]
  have h := h.resolve_left h0
  by_cases hp : 0 < x
  · rw [if_pos hp]
    rw [abs_of_pos hp] at h ⊢
    obtain ⟨h1, h2, h3⟩ := logCode_near hp h
    unfold exF32
    rw [n32_bytes32 (by omega), if_neg (by omega), if_pos h2]
    exact h3
  · rw [if_neg hp]
    have hn : 0 < -x := by
      rcases lt_trichotomy x 0 with h | h | h
      · linarith
      · exact absurd h h0
      · exact absurd h hp
    rw [abs_of_neg (show x < 0 by linarith)] at h ⊢
    obtain ⟨h1, h2, h3⟩ := logCode_near hn h
    unfold exF32
    rw [n32_bytes32 (by omega), if_neg (by omega), if_neg (by omega)]
    push_cast
    rw [show (logCode (-x) : ℝ) + 2147483648 - 2147483648 - 1073741824 = (logCode (-x) : ℝ) - 1073741824 by ring]
    rw [show -Real.exp (((logCode (-x) : ℝ) - 1073741824) / 4194304) - x = -(Real.exp (((logCode (-x) : ℝ) - 1073741824) / 4194304) - -x) by ring, abs_neg]
    exact h3

theorem length_exEnc (x : ℝ) : (exEnc x).length = 4 := by
  unfold exEnc
  split
  · rfl
  · split <;> rfl

noncomputable def build32 (n : Nat) (f : Nat → ℝ) : List Byte := (List.range n).flatMap fun k => exEnc (f k)

theorem length_build32 (n : Nat) (f : Nat → ℝ) : (build32 n f).length = n * 4 := by
  unfold build32
  simp [List.length_flatMap, length_exEnc]

theorem word_build32 {n : Nat} {f : Nat → ℝ} {k : Nat} (hk : k < n) : word 4 (build32 n f) k = exEnc (f k) := by
  unfold build32
  exact word_flatMap 4 _ _ (fun _ _ => length_exEnc _) k k (by rw [List.getElem?_range hk])

/-- Products of a scale and a 16-bit integer are in the range of these floats. -/
theorem deq_log {s : ℚ} (h1 : 1 / 2 ^ 126 ≤ s) (h2 : s ≤ 2 ^ 111) {q : ℤ} (hq : -32768 ≤ q ∧ q ≤ 32767) :
    ((s * q : ℚ) : ℝ) = 0 ∨ |Real.log (|((s * q : ℚ) : ℝ)|)| ≤ 127 := by
  by_cases h0 : q = 0
  · left; simp [h0]
  right
  have hs : (0 : ℝ) < s := by
    have : (0 : ℚ) < s := lt_of_lt_of_le (by norm_num) h1
    exact_mod_cast this
  have g1 : (1 / 2 ^ 126 : ℝ) ≤ s := by
    have := (Rat.cast_le (K := ℝ)).2 h1
    push_cast at this
    exact this
  have g2 : (s : ℝ) ≤ 2 ^ 111 := by
    have := (Rat.cast_le (K := ℝ)).2 h2
    push_cast at this
    exact this
  have q1 : (1 : ℝ) ≤ |(q : ℝ)| := by
    have : 1 ≤ |q| := Int.one_le_abs h0
    exact_mod_cast this
  have q2 : |(q : ℝ)| ≤ 2 ^ 15 := by
    have : |q| ≤ 32768 := abs_le.2 (by omega)
    have : ((|q| : ℤ) : ℝ) ≤ ((32768 : ℤ) : ℝ) := by exact_mod_cast this
    push_cast at this
    linarith
  have e : |((s * q : ℚ) : ℝ)| = s * |(q : ℝ)| := by
    push_cast
    rw [abs_mul, abs_of_pos hs]
  rw [e]
  have l2 : 0 < Real.log 2 := Real.log_pos (by norm_num)
  have l3 : Real.log 2 ≤ 1 := by
    have := Real.log_le_sub_one_of_pos (show (0 : ℝ) < 2 by norm_num)
    linarith
  have lo : (1 / 2 ^ 126 : ℝ) ≤ s * |(q : ℝ)| := by nlinarith
  have hi : s * |(q : ℝ)| ≤ 2 ^ 126 := by
    have : s * |(q : ℝ)| ≤ 2 ^ 111 * 2 ^ 15 := mul_le_mul g2 q2 (abs_nonneg _) (by norm_num)
    exact this.trans (by norm_num)
  rw [abs_le]
  constructor
  · have := Real.log_le_log (by positivity) lo
    rw [Real.log_div (by norm_num) (by norm_num), Real.log_one, Real.log_pow] at this
    push_cast at this
    linarith
  · have := Real.log_le_log (by nlinarith) hi
    rw [Real.log_pow] at this
    push_cast at this
    linarith

/-! ### Constants -/

def blobCode : Blob → Nat × ℚ × ℚ × ℚ
  | .binary b => (if b.mul then 1 else 0, b.s1, b.s2, b.so)
  | .requantize si so => (2, si, so, 0)
  | .quantize so => (3, so, 0, 0)
  | .dequantize si => (4, si, 0, 0)

def exBlob (p : Blob) : List Byte := List.replicate (Encodable.encode (blobCode p)) 0

def exDecode (c : List Byte) : ℚ × ℚ × ℚ := ((Encodable.decode (α := Nat × ℚ × ℚ × ℚ) c.length).map (·.2)).getD (0, 0, 0)

theorem exDecode_exBlob (p : Blob) : exDecode (exBlob p) = (blobCode p).2 := by
  unfold exDecode exBlob
  rw [List.length_replicate, Encodable.encodek]
  rfl

/-! ### The library -/

@[irreducible] def tableSize : Nat := 65536

noncomputable def exAdd (a b c : List Byte) : List Byte :=
  build16 (a.length / 2) fun k => rnd16 ((((exDecode c).1 * val16 a k + (exDecode c).2.1 * val16 b k) / (exDecode c).2.2 : ℚ) : ℝ)

noncomputable def exMul (a b c : List Byte) : List Byte :=
  build16 (a.length / 2) fun k => rnd16 (((exDecode c).1 * (exDecode c).2.1 * (val16 a k * val16 b k) / (exDecode c).2.2 : ℚ) : ℝ)

/-- Exact kernels. -/
noncomputable def exB : BLib where
  blob := fun p => some (exBlob p)
  gen := XC.exactGen
  quadBytes := fun t => build16 tableSize fun i => t.eval ((i : ℤ) - 32768)
  limit := 1
  kern := fun code ins =>
    let a := ins.getD 0 []
    let b := ins.getD 1 []
    let c := ins.getD 2 []
    match code with
    | .add => exAdd a b c
    | .mul => exMul a b c
    | .requantize => build16 (a.length / 2) fun k => rnd16 (((exDecode b).1 * val16 a k / (exDecode b).2.1 : ℚ) : ℝ)
    | .quantize => build16 (a.length / 4) fun k => rnd16 (exF32 (word 4 a k) / (exDecode b).1)
    | .dequantize => build32 (a.length / 2) fun k => (((exDecode b).1 * val16 a k : ℚ) : ℝ)
    | .lookup => build16 (a.length / 2) fun k => val16 b (val16 a k + 32768).toNat
    | .softmax => (List.range a.length).map fun k => rnd8 (softOf exF32 b a.length a k)
    | .batchedSoftmax cols => (List.range a.length).map fun k => rnd8 (softOf exF32 b cols a k)
  tfl := fun op ins =>
    let a := ins.getD 0 []
    let b := ins.getD 1 []
    match op with
    | .binary o t1 t2 tq => build16 (a.length / 2) fun k => rnd16 (((o.real (t1.deq (val16 a k)) (t2.deq (val16 b k)) : ℚ) : ℝ) / tq.scale + tq.zp)
    | .fn f ti tq => build16 (a.length / 2) fun k => rnd16 (f.apply ((ti.deq (val16 a k) : ℚ) : ℝ) / tq.scale + tq.zp)
    | .requantize ti tq => build16 (a.length / 2) fun k => rnd16 (((ti.deq (val16 a k) : ℚ) : ℝ) / tq.scale + tq.zp)
    | .quantize tq => build16 (a.length / 4) fun k => rnd16 (exF32 (word 4 a k) / tq.scale + tq.zp)
    | .dequantize ti => build32 (a.length / 2) fun k => ((ti.deq (val16 a k) : ℚ) : ℝ)
    | .softmax beta t shape => (List.range a.length).map fun k => rnd8 (softReal beta t (shape.getLastD 0) a k)
  f32 := exF32
  finite := fun _ => True
  expf := fun x => exEnc (Real.exp x)
  err := 1 / 2
  tflErr := 1 / 2
  fErr := 1 / 4194304

theorem half (n : Nat) : n * 2 / 2 = n := by omega
theorem quarter (n : Nat) : n * 4 / 4 = n := by omega

theorem cast_half : (((1 / 2 : ℚ)) : ℝ) = 1 / 2 := by norm_num

theorem getD_map_range (n : Nat) (f : Nat → Byte) {k : Nat} (hk : k < n) : ((List.range n).map f).getD k 0 = f k := by
  rw [List.getD_eq_getElem?_getD, List.getElem?_map, List.getElem?_range hk]
  rfl

theorem exB_soft (c : List Byte) (cols n : Nat) (x : List Byte) (hpos : ∀ q : ℤ, -128 ≤ q → q ≤ 127 → 0 < entryOf exF32 c q) (hx : x.length = n) : ((List.range x.length).map fun k => rnd8 (softOf exF32 c cols x k)).length = n ∧
    ∀ k < n, |(s8 (((List.range x.length).map fun k => rnd8 (softOf exF32 c cols x k)).getD k 0) : ℝ) - softOf exF32 c cols x k| ≤ ((1 / 2 : ℚ) : ℝ) := by
  refine ⟨by rw [List.length_map, List.length_range, hx], fun k hk => ?_⟩
  rw [getD_map_range _ _ (by omega), cast_half]
  have := soft_range cols (fun i => entryOf exF32 c (s8 (x.getD i 0))) (fun i => hpos _ (s8_range' _).1 (s8_range' _).2) k
  exact rnd8_near this.1 this.2

theorem exB_add (x y c : List Byte) : exB.kern .add [x, y, c] = exAdd x y c := by
  simp only [exB, List.getD_cons_zero, List.getD_cons_succ]

theorem exB_mul (x y c : List Byte) : exB.kern .mul [x, y, c] = exMul x y c := by
  simp only [exB, List.getD_cons_zero, List.getD_cons_succ]

theorem exB_binary {b : XC.BinI16} {c x y : List Byte} {n : Nat} (hd : exDecode c = (b.s1, b.s2, b.so)) (hx : x.length = n * 2) :
    exB.kern (if b.mul then .mul else .add) [x, y, c] = build16 n fun k => rnd16 ((b.exact (val16 x k) (val16 y k) : ℚ) : ℝ) := by
  by_cases hm : b.mul = true
  · simp only [XC.BinI16.exact, if_pos hm]
    rw [exB_mul, exMul, hd, hx, half]
  · simp only [XC.BinI16.exact, if_neg hm]
    rw [exB_add, exAdd, hd, hx, half]

theorem exB_gives (b : XC.BinI16) (q1 q2 : ℤ) {z : ℤ}
    (h : |(z : ℝ) - max (-32768) (min 32767 ((b.exact q1 q2 : ℚ) : ℝ))| ≤ 1 / 2) : b.Gives (-32768) 32767 exB.err q1 q2 z := by
  unfold XC.BinI16.Gives
  have e : exB.err = 1 / 2 := rfl
  rw [e]
  apply (Rat.cast_le (K := ℝ)).1
  rw [cast_half]
  push_cast
  exact h

theorem exB_ok : exB.OK where
  fErr := by norm_num [exB]
  gen := XC.exactGen_ok
  genRange := fun fn si so q _ _ => rnd16_range (fn (si * q) / so)
  lookup := by
    intro t n a ht ha
    have e : exB.kern .lookup [a, exB.quadBytes t] = build16 n fun k => val16 (build16 tableSize fun i => t.eval ((i : ℤ) - 32768)) (val16 a k + 32768).toNat := by
      show build16 (a.length / 2) _ = _
      rw [ha, half]
      rfl
    rw [e]
    refine ⟨length_build16 _ _, fun k hk => ?_⟩
    have hr := val16_range a k
    have hv : val16 (build16 tableSize fun i => t.eval ((i : ℤ) - 32768)) (val16 a k + 32768).toNat = t.eval (val16 a k) := by
      rw [val_build16 (f := fun i => t.eval ((i : ℤ) - 32768)) (by unfold tableSize; omega)]
      · congr 1
        omega
      · exact ht _ (by omega) (by omega)
    rw [val_build16 (f := fun k => val16 (build16 tableSize fun i => t.eval ((i : ℤ) - 32768)) (val16 a k + 32768).toNat) hk]
    · exact hv
    · exact val16_range _ _
  binary := by
    intro b c n x y hb hx hy
    have hb : c = exBlob (.binary b) := (Option.some.inj hb).symm
    have hd : exDecode c = (b.s1, b.s2, b.so) := by rw [hb, exDecode_exBlob]; rfl
    rw [exB_binary hd hx]
    refine ⟨length_build16 _ _, fun k hk => ?_⟩
    exact exB_gives b _ _ (build_rnd (fun k => ((b.exact (val16 x k) (val16 y k) : ℚ) : ℝ)) hk)
  requantize := by
    intro si so c n x hb hx
    have hb : c = exBlob (.requantize si so) := (Option.some.inj hb).symm
    have hd : exDecode c = (si, so, 0) := by rw [hb, exDecode_exBlob]; rfl
    have key : exB.kern .requantize [x, c] = build16 n fun k => rnd16 ((si * val16 x k / so : ℚ) : ℝ) := by
      show build16 (x.length / 2) (fun k => rnd16 (((exDecode c).1 * val16 x k / (exDecode c).2.1 : ℚ) : ℝ)) = _
      rw [hd, hx, half]
    rw [key]
    refine ⟨length_build16 _ _, fun k hk => ?_⟩
    show _ ≤ ((1 / 2 : ℚ) : ℝ)
    rw [cast_half]
    exact build_rnd (fun k => ((si * val16 x k / so : ℚ) : ℝ)) hk
  quantize := by
    intro so c n x hb hx
    have hb : c = exBlob (.quantize so) := (Option.some.inj hb).symm
    have hd : exDecode c = (so, 0, 0) := by rw [hb, exDecode_exBlob]; rfl
    have key : exB.kern .quantize [x, c] = build16 n fun k => rnd16 (exF32 (word 4 x k) / so) := by
      show build16 (x.length / 4) (fun k => rnd16 (exF32 (word 4 x k) / (exDecode c).1)) = _
      rw [hd, hx, quarter]
    rw [key]
    refine ⟨length_build16 _ _, fun k hk _ => ?_⟩
    show _ ≤ ((1 / 2 : ℚ) : ℝ)
    rw [cast_half]
    exact build_rnd (fun k => exF32 (word 4 x k) / so) hk
  dequantize := by
    intro si c n x hb h1 h2 hx
    have hb : c = exBlob (.dequantize si) := (Option.some.inj hb).symm
    have hd : exDecode c = (si, 0, 0) := by rw [hb, exDecode_exBlob]; rfl
    have key : exB.kern .dequantize [x, c] = build32 n fun k => ((si * val16 x k : ℚ) : ℝ) := by
      show build32 (x.length / 2) (fun k => (((exDecode c).1 * val16 x k : ℚ) : ℝ)) = _
      rw [hd, hx, half]
    rw [key]
    refine ⟨length_build32 _ _, fun k hk => ?_⟩
    rw [word_build32 hk]
    have := exF32_exEnc (deq_log h1 h2 (val16_range x k))
    show _ ≤ ((1 / 4194304 : ℚ) : ℝ) * _
    rw [show ((1 / 4194304 : ℚ) : ℝ) = 1 / 4194304 by norm_num]
    exact this
  expf4 := fun x => length_exEnc _
  expf := by
    intro x hx
    have := exF32_exEnc (x := Real.exp x) (Or.inr (by rw [abs_of_pos (Real.exp_pos x), Real.log_exp]; linarith))
    rw [abs_of_pos (Real.exp_pos x)] at this
    show _ ≤ ((1 / 4194304 : ℚ) : ℝ) * _
    rw [show ((1 / 4194304 : ℚ) : ℝ) = 1 / 4194304 by norm_num]
    exact this
  softmax := by
    intro c n x _ hpos hx
    have := exB_soft c x.length n x hpos hx
    rw [hx] at this
    have e : exB.kern .softmax [x, c] = (List.range n).map fun k => rnd8 (softOf exF32 c n x k) := by
      show (List.range x.length).map (fun k => rnd8 (softOf exF32 c x.length x k)) = _
      rw [hx]
    rw [e]
    exact this
  batched := by
    intro c cols n x _ hpos hx _ _
    exact exB_soft c cols n x hpos hx
  tfl := by
    intro op n ins ht hs
    cases op with
    | binary o t1 t2 tq =>
      obtain ⟨a, b, rfl, ha, hb⟩ := hs
      have key : exB.tfl (.binary o t1 t2 tq) [a, b] =
          build16 n fun k => rnd16 (((o.real (t1.deq (val16 a k)) (t2.deq (val16 b k)) : ℚ) : ℝ) / tq.scale + tq.zp) := by
        show build16 (a.length / 2) _ = _
        rw [ha, half]
        rfl
      rw [key]
      refine ⟨length_build16 _ _, fun k hk => ?_⟩
      show _ ≤ ((1 / 2 : ℚ) : ℝ)
      rw [cast_half]
      exact build_rnd (fun k => ((o.real (t1.deq (val16 a k)) (t2.deq (val16 b k)) : ℚ) : ℝ) / tq.scale + tq.zp) hk
    | fn f ti tq =>
      obtain ⟨a, rfl, ha⟩ := hs
      have key : exB.tfl (.fn f ti tq) [a] = build16 n fun k => rnd16 (f.apply ((ti.deq (val16 a k) : ℚ) : ℝ) / tq.scale + tq.zp) := by
        show build16 (a.length / 2) _ = _
        rw [ha, half]
        rfl
      rw [key]
      refine ⟨length_build16 _ _, fun k hk => ?_⟩
      show _ ≤ ((1 / 2 : ℚ) : ℝ)
      rw [cast_half]
      exact build_rnd (fun k => f.apply ((ti.deq (val16 a k) : ℚ) : ℝ) / tq.scale + tq.zp) hk
    | requantize ti tq =>
      obtain ⟨a, rfl, ha⟩ := hs
      have key : exB.tfl (.requantize ti tq) [a] = build16 n fun k => rnd16 (((ti.deq (val16 a k) : ℚ) : ℝ) / tq.scale + tq.zp) := by
        show build16 (a.length / 2) _ = _
        rw [ha, half]
        rfl
      rw [key]
      refine ⟨length_build16 _ _, fun k hk => ?_⟩
      show _ ≤ ((1 / 2 : ℚ) : ℝ)
      rw [cast_half]
      exact build_rnd (fun k => ((ti.deq (val16 a k) : ℚ) : ℝ) / tq.scale + tq.zp) hk
    | quantize tq =>
      obtain ⟨a, rfl, ha⟩ := hs
      have key : exB.tfl (.quantize tq) [a] = build16 n fun k => rnd16 (exF32 (word 4 a k) / tq.scale + tq.zp) := by
        show build16 (a.length / 4) _ = _
        rw [ha, quarter]
        rfl
      rw [key]
      refine ⟨length_build16 _ _, fun k hk _ => ?_⟩
      show _ ≤ ((1 / 2 : ℚ) : ℝ)
      rw [cast_half]
      exact build_rnd (fun k => exF32 (word 4 a k) / tq.scale + tq.zp) hk
    | dequantize ti =>
      obtain ⟨a, rfl, ha⟩ := hs
      obtain ⟨h0, h1, h2⟩ := ht
      have key : exB.tfl (.dequantize ti) [a] = build32 n fun k => ((ti.deq (val16 a k) : ℚ) : ℝ) := by
        show build32 (a.length / 2) _ = _
        rw [ha, half]
        rfl
      rw [key]
      refine ⟨length_build32 _ _, fun k hk => ?_⟩
      rw [word_build32 hk]
      show |exF32 (exEnc ((ti.deq (val16 a k) : ℚ) : ℝ)) - ((ti.deq (val16 a k) : ℚ) : ℝ)| ≤ ((1 / 4194304 : ℚ) : ℝ) * |((ti.deq (val16 a k) : ℚ) : ℝ)|
      rw [show ((1 / 4194304 : ℚ) : ℝ) = 1 / 4194304 by norm_num, deq_sym h0]
      exact exF32_exEnc (deq_log h1 h2 (val16_range a k))
    | softmax beta t shape =>
      obtain ⟨a, rfl, ha, hn⟩ := hs
      obtain ⟨h1, h2, h3⟩ := ht
      have hcols : 1 ≤ shape.getLastD 0 := by
        rw [List.getLastD_eq_getLast?, List.getLast?_eq_getLast_of_ne_nil h2, Option.getD_some]
        exact h3 _ (List.getLast_mem h2)
      have key : exB.tfl (.softmax beta t shape) [a] = (List.range a.length).map fun k => rnd8 (softReal beta t (shape.getLastD 0) a k) := rfl
      rw [key]
      refine ⟨by rw [List.length_map, List.length_range, ha], fun k hk => ?_⟩
      rw [getD_map_range _ _ (by omega)]
      show _ ≤ ((1 / 2 : ℚ) : ℝ)
      rw [cast_half]
      have := soft_range (shape.getLastD 0) (fun i => Real.exp (beta * t.deq (s8 (a.getD i 0)))) (fun _ => Real.exp_pos _) k
      exact rnd8_near this.1 this.2

end Verif.Net
