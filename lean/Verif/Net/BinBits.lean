import Verif.Net.BinProps
import Verif.Net.BlobLemmas
import Verif.Net.QBlob
import Verif.Net.QTconv
import Mathlib.Tactic.IntervalCases
import Mathlib.Algebra.Order.Round
import Mathlib.Data.Rat.Floor
/-! C113: packed bits, and kernels that meet the contracts. -/
namespace Verif.Net
open Verif.Tensor Verif.Move Verif.MemPlan Verif.Quant

theorem getD_word (d : Nat) (data : List Byte) (q i : Nat) (hi : i < d) : (word d data q).getD i 0 = data.getD (q * d + i) 0 := by
  unfold word fit
  rw [List.getD_eq_getElem?_getD, List.getD_eq_getElem?_getD, List.getElem?_take_of_lt hi]
  by_cases h : q * d + i < data.length
  · rw [List.getElem?_append_left (by rw [List.length_take, List.length_drop]; omega), List.getElem?_take_of_lt hi, List.getElem?_drop]
  · rw [List.getElem?_eq_none (by omega : data.length ≤ q * d + i), List.getElem?_append_right (by rw [List.length_take, List.length_drop]; omega), List.getElem?_replicate]
    split <;> rfl

/-- Bit `i` of word `q`. -/
theorem bitOf_word (data : List Byte) (q i : Nat) (hi : i < 32) : bitOf (word 4 data q) i = bitOf data (q * 32 + i) := by
  unfold bitOf
  rw [getD_word 4 data q _ (by omega)]
  have e1 : (q * 32 + i) / 8 = q * 4 + i / 8 := by omega
  have e2 : (q * 32 + i) % 8 = i % 8 := by omega
  rw [e1, e2]

/-- A packed image has its bits in the order of pixels and channels. -/
theorem bitAt_flat (h w words : Nat) (data : List Byte) (y x c : Nat) : bitAt h w words data y x c = bitOf data ((y * w + x) * (words * 32) + c) := by
  unfold bitAt
  rw [elemAt_word _ rfl, Conv.ravel4, bitOf_word _ _ _ (Nat.mod_lt _ (by norm_num))]
  congr 1
  have e : ((0 * h + y) * w + x) * words * 32 = (y * w + x) * (words * 32) := by ring
  have := Nat.div_add_mod c 32
  rw [Nat.add_mul, e]
  omega

theorem byte_ext {a b : Byte} (h : ∀ k < 8, a.toNat.testBit k = b.toNat.testBit k) : a = b := by
  apply UInt8.toNat_inj.1
  apply Nat.eq_of_testBit_eq
  intro i
  by_cases hi : i < 8
  · exact h i hi
  · have h1 : a.toNat < 2 ^ i := lt_of_lt_of_le a.toNat_lt (Nat.pow_le_pow_right (by norm_num) (by omega))
    have h2 : b.toNat < 2 ^ i := lt_of_lt_of_le b.toNat_lt (Nat.pow_le_pow_right (by norm_num) (by omega))
    rw [Nat.testBit_lt_two_pow h1, Nat.testBit_lt_two_pow h2]

theorem bits_ext {a b : List Byte} (hl : a.length = b.length) (h : ∀ k < a.length * 8, bitOf a k = bitOf b k) : a = b := by
  apply List.ext_getElem hl
  intro i h1 h2
  apply byte_ext
  intro k hk
  have := h (i * 8 + k) (by omega)
  unfold bitOf at this
  have e1 : (i * 8 + k) / 8 = i := by omega
  have e2 : (i * 8 + k) % 8 = k := by omega
  rw [e1, e2, List.getD_eq_getElem?_getD, List.getD_eq_getElem?_getD, List.getElem?_eq_getElem h1, List.getElem?_eq_getElem h2] at this
  exact this

/-- A byte with the given bits. -/
def byte8 (f : Nat → Bool) : Byte :=
  UInt8.ofNat ((f 0).toNat + 2 * (f 1).toNat + 4 * (f 2).toNat + 8 * (f 3).toNat + 16 * (f 4).toNat + 32 * (f 5).toNat + 64 * (f 6).toNat + 128 * (f 7).toNat)

theorem byte8_all : ∀ b0 b1 b2 b3 b4 b5 b6 b7 : Bool, ∀ k : Fin 8,
    (UInt8.ofNat (b0.toNat + 2 * b1.toNat + 4 * b2.toNat + 8 * b3.toNat + 16 * b4.toNat + 32 * b5.toNat + 64 * b6.toNat + 128 * b7.toNat)).toNat.testBit k =
      [b0, b1, b2, b3, b4, b5, b6, b7].getD k false := by decide +kernel

theorem byte8_bit (f : Nat → Bool) (k : Nat) (hk : k < 8) : (byte8 f).toNat.testBit k = f k := by
  have h := byte8_all (f 0) (f 1) (f 2) (f 3) (f 4) (f 5) (f 6) (f 7) ⟨k, hk⟩
  unfold byte8
  rw [h]
  clear h
  have : k = 0 ∨ k = 1 ∨ k = 2 ∨ k = 3 ∨ k = 4 ∨ k = 5 ∨ k = 6 ∨ k = 7 := by omega
  rcases this with h | h | h | h | h | h | h | h <;> subst h <;> rfl

/-- `n` bytes with the given bits. -/
def packBits (n : Nat) (f : Nat → Bool) : List Byte := (List.range n).map fun i => byte8 fun b => f (i * 8 + b)

theorem length_packBits (n : Nat) (f : Nat → Bool) : (packBits n f).length = n := by simp [packBits]

theorem bitOf_packBits (n : Nat) (f : Nat → Bool) (k : Nat) (hk : k < n * 8) : bitOf (packBits n f) k = f k := by
  unfold bitOf packBits
  rw [List.getD_eq_getElem?_getD, List.getElem?_map, List.getElem?_range (by omega)]
  simp only [Option.map_some, Option.getD_some]
  rw [byte8_bit _ _ (Nat.mod_lt _ (by norm_num))]
  congr 1
  omega

theorem pixel_bits {h w n y x o : Nat} (hy : y < h) (hx : x < w) (ho : o < n) : (y * w + x) * n + o < h * w * n ∧
    ((y * w + x) * n + o) % n = o ∧ ((y * w + x) * n + o) / n % w = x ∧ ((y * w + x) * n + o) / n / w = y := by
  have e1 : ((y * w + x) * n + o) / n = y * w + x := by
    rw [Nat.mul_comm (y * w + x) n, Nat.mul_add_div (by omega), Nat.div_eq_of_lt ho, Nat.add_zero]
  have e2 : (y * w + x) / w = y := by
    rw [Nat.mul_comm y w, Nat.mul_add_div (by omega), Nat.div_eq_of_lt hx, Nat.add_zero]
  refine ⟨?_, ?_, ?_, ?_⟩
  · have h1 : y * w + x + 1 ≤ h * w := by
      calc y * w + x + 1 ≤ y * w + w := by omega
        _ = (y + 1) * w := by ring
        _ ≤ h * w := Nat.mul_le_mul_right _ hy
    calc (y * w + x) * n + o < (y * w + x) * n + n := by omega
      _ = (y * w + x + 1) * n := by ring
      _ ≤ h * w * n := Nat.mul_le_mul_right _ h1
  · rw [Nat.mul_comm, Nat.mul_add_mod, Nat.mod_eq_of_lt ho]
  · rw [e1, Nat.mul_comm y w, Nat.mul_add_mod, Nat.mod_eq_of_lt hx]
  · rw [e1, e2]

/-! ### Exact kernels -/

/-- The result of the 8-bit kernels. -/
def exBin8 (k : XBConv) (d filter : List Byte) : List Byte :=
  bytesOf ⟨[1, k.oh, k.ow, k.lo.args.outputDepth], 1⟩ fun idx => [toByte (round (max (-128) (min 127 (k.lo.value k.kh k.kw (idx.getD 3 0)
    (k.lo.patch (k.image d) (idx.getD 1 0) (idx.getD 2 0)) (filterBit k.lo.args.outputDepth k.kh k.kw k.words filter (idx.getD 3 0))))))]

/-- The result of the binary kernels. -/
def exBin1 (k : XBConv) (d filter : List Byte) (thr : List ℤ) : List Byte :=
  packBits (k.oh * k.ow * (k.lo.args.outputDepth / 8)) fun b =>
    decide (thr.getD (b % k.lo.args.outputDepth) 0 < Conv.mismatches k.kh k.kw k.lo.args.inputDepth
      (k.lo.patch (k.image d) (b / k.lo.args.outputDepth / k.ow : Nat) (b / k.lo.args.outputDepth % k.ow : Nat))
      (filterBit k.lo.args.outputDepth k.kh k.kw k.words filter (b % k.lo.args.outputDepth)))

/-- Thresholds as the example stores them. -/
def exThr (ins : List Byte) : List ℤ := (Encodable.decode ins.length).getD []

def exBinConv (k : XBConv) (ins : List (List Byte)) : List Byte :=
  if k.lo.kt = .directInt8 ∨ k.lo.kt = .indirectInt8 then exBin8 k (ins.getD 0 []) (ins.getD 1 [])
  else exBin1 k (ins.getD 0 []) (ins.getD 1 []) (exThr (ins.getD 2 []))

def exBinLib : BinLib where
  bsign := fun zp ins => packBits ((ins.getD 0 []).length / 8) fun k => decide (s8 ((ins.getD 0 []).getD k 0) < zp)
  weights := fun _ filter => filter
  muls := fun _ _ thr => List.replicate (Encodable.encode thr) 0
  scratchBytes := fun n => n + 32
  conv := exBinConv
  err := 1 / 2

theorem round_clamp8 (s : ℚ) : (-128 ≤ round (max (-128) (min 127 s)) ∧ round (max (-128) (min 127 s)) ≤ 127) ∧
    |((round (max (-128) (min 127 s)) : ℤ) : ℚ) - max (-128) (min 127 s)| ≤ 1 / 2 := by
  have h1 : (-128 : ℚ) ≤ max (-128) (min 127 s) := le_max_left _ _
  have h2 : max (-128) (min 127 s) ≤ 127 := max_le (by norm_num) (min_le_left _ _)
  obtain ⟨z, ez⟩ : ∃ z, z = max (-128) (min 127 s) := ⟨_, rfl⟩
  rw [← ez] at h1 h2 ⊢
  have h3 := abs_le.1 (abs_sub_round z)
  refine ⟨⟨?_, ?_⟩, by rw [abs_sub_comm]; exact abs_sub_round z⟩
  · have : ((-129 : ℤ) : ℚ) < round z := by push_cast; linarith [h3.2]
    have : (-129 : ℤ) < round z := by exact_mod_cast this
    omega
  · have : (round z : ℚ) < ((128 : ℤ) : ℚ) := by push_cast; linarith [h3.1]
    have : round z < (128 : ℤ) := by exact_mod_cast this
    omega

theorem exBin8_ok (k : XBConv) (data filter : List Byte) : (exBin8 k data filter).length = k.oh * k.ow * k.lo.args.outputDepth ∧
    ∀ y x o, y < k.oh → x < k.ow → o < k.lo.args.outputDepth →
      (|(s8 ((exBin8 k data filter).getD ((y * k.ow + x) * k.lo.args.outputDepth + o) 0) : ℚ) -
        max (-128) (min 127 (k.lo.value k.kh k.kw o (k.lo.patch (k.image data) y x)
          (filterBit k.lo.args.outputDepth k.kh k.kw k.words filter o)))| : ℚ) ≤ 1 / 2 := by
  constructor
  · unfold exBin8
    rw [length_bytesOf _ _ (fun _ => rfl)]
    simp [Ty.size, Nat.mul_assoc]
  · intro y x o hy hx ho
    have h1 := tensorOf_bytes ⟨[1, k.oh, k.ow, k.lo.args.outputDepth], 1⟩ rfl (fun idx => toByte (round (max (-128) (min 127 (k.lo.value k.kh k.kw (idx.getD 3 0)
        (k.lo.patch (k.image data) (idx.getD 1 0) (idx.getD 2 0)) (filterBit k.lo.args.outputDepth k.kh k.kw k.words filter (idx.getD 3 0))))))) [0, y, x, o]
        (by simp [InShape]; omega)
    rw [tensorOf4] at h1
    simp only [List.getD_cons_succ, List.getD_cons_zero] at h1
    obtain ⟨q, eq⟩ : ∃ q, q = k.lo.value k.kh k.kw o (k.lo.patch (k.image data) y x) (filterBit k.lo.args.outputDepth k.kh k.kw k.words filter o) := ⟨_, rfl⟩
    rw [← eq] at h1 ⊢
    rw [s8_toByte (round_clamp8 q).1] at h1
    unfold exBin8
    rw [h1]
    exact (round_clamp8 q).2

theorem exBin1_ok (k : XBConv) (data filter : List Byte) (thr : List ℤ) (h32 : k.lo.args.outputDepth % 32 = 0) :
    (exBin1 k data filter thr).length = k.oh * k.ow * (k.lo.args.outputDepth / 8) ∧
    ∀ y x o, y < k.oh → x < k.ow → o < k.lo.args.outputDepth →
      bitAt k.oh k.ow (k.lo.args.outputDepth / 32) (exBin1 k data filter thr) y x o =
        decide (thr.getD o 0 < Conv.mismatches k.kh k.kw k.lo.args.inputDepth (k.lo.patch (k.image data) y x)
          (filterBit k.lo.args.outputDepth k.kh k.kw k.words filter o)) := by
  refine ⟨length_packBits _ _, ?_⟩
  intro y x o hy hx ho
  obtain ⟨p1, p2, p3, p4⟩ := pixel_bits hy hx ho
  have e1 : k.lo.args.outputDepth / 32 * 32 = k.lo.args.outputDepth := by omega
  have e2 : k.lo.args.outputDepth / 8 * 8 = k.lo.args.outputDepth := by omega
  unfold exBin1
  rw [bitAt_flat, e1, bitOf_packBits _ _ _ (by rw [Nat.mul_assoc, e2]; exact p1), p2, p3, p4]

theorem exBinLib_bsign (zp : ℤ) (data : List Byte) (h : data.length % 32 = 0) : (exBinLib.bsign zp [data]).length = data.length / 8 ∧
    ∀ k < data.length, bitOf (exBinLib.bsign zp [data]) k = decide (s8 (data.getD k 0) < zp) := by
  have e : exBinLib.bsign zp [data] = packBits (data.length / 8) fun k => decide (s8 (data.getD k 0) < zp) := rfl
  rw [e]
  refine ⟨length_packBits _ _, ?_⟩
  intro k hk
  rw [bitOf_packBits _ _ _ (by omega)]

theorem exThr_eq (thr : List ℤ) : exThr (List.replicate (Encodable.encode thr) (0 : Byte)) = thr := by
  unfold exThr
  rw [List.length_replicate, Encodable.encodek]
  rfl

theorem exBinConv8 (k : XBConv) (ins : List (List Byte)) (hk : k.lo.kt = .directInt8 ∨ k.lo.kt = .indirectInt8) :
    exBinConv k ins = exBin8 k (ins.getD 0 []) (ins.getD 1 []) := if_pos hk

theorem exBinConv1 (k : XBConv) (ins : List (List Byte)) (hk : k.lo.kt = .directBinary ∨ k.lo.kt = .indirectBinary) :
    exBinConv k ins = exBin1 k (ins.getD 0 []) (ins.getD 1 []) (exThr (ins.getD 2 [])) := by
  have hn : ¬ (k.lo.kt = .directInt8 ∨ k.lo.kt = .indirectInt8) := by
    rcases hk with h | h <;> rw [h] <;> decide
  exact if_neg hn

theorem exBinLib_ok : exBinLib.OK where
  err := by show (0 : ℚ) ≤ 1 / 2; norm_num
  bsign := exBinLib_bsign
  conv8 := by
    intro k data filter thr rest hk hd
    have e : exBinLib.conv k (data :: exBinLib.weights k filter :: exBinLib.muls k filter thr :: rest) = exBin8 k data filter := exBinConv8 k _ hk
    rw [e]
    exact ⟨(exBin8_ok k data filter).1, fun y x o hy hx ho _ _ => (exBin8_ok k data filter).2 y x o hy hx ho⟩
  conv1 := by
    intro k data filter thr rest hk hd
    have e : exBinLib.conv k (data :: exBinLib.weights k filter :: exBinLib.muls k filter thr :: rest) = exBin1 k data filter thr :=
      (exBinConv1 k _ hk).trans (congrArg (exBin1 k data filter) (exThr_eq thr))
    rw [e]
    have h32 : k.lo.args.outputDepth % 32 = 0 := hd.2.2.1 hk
    exact ⟨(exBin1_ok k data filter thr h32).1, fun y x o hy hx ho _ _ => (exBin1_ok k data filter thr h32).2 y x o hy hx ho⟩

end Verif.Net
