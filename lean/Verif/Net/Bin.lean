import Verif.Net.Blob
import Verif.Conv.BConv
import Verif.Conv.CompileProps
import Verif.Threads.Props
/-!
C113: binarised operators in whole networks: `lq.Quantize` (the signs of 8-bit data, packed into 32-bit words) and `lq.Bconv2d` with an 8-bit or
a packed binary result.

The functions of lib_nn that make weights, thresholds, multipliers and biases, and the kernels, are parameters, `BinLib`.  The choice of the
kernel, multipliers, biases and bounds are those of `Verif.Conv.BConv` (C54).
-/
namespace Verif.Net
open Verif.Tensor Verif.Move Verif.MemPlan Verif.Quant

/-! ### Packed bits -/

/-- Bit `k` of a buffer. -/
def bitOf (data : List Byte) (k : Nat) : Bool := (data.getD (k / 8) 0).toNat.testBit (k % 8)

/-- Channel `c` of pixel `(y, x)` of a packed image `[1, h, w, words]` of little-endian 32-bit words. -/
def bitAt (h w words : Nat) (data : List Byte) (y x c : Nat) : Bool := bitOf (elemAt ⟨[1, h, w, words], 4⟩ data [0, y, x, c / 32]) (c % 32)

/-! ### Operators -/

/-- `lq.Bconv2d`: `padOne` says that `pad_values` is 1, `filter` has the bytes of the packed filter `[oc, kh, kw, words]`, `thr` are the output
thresholds.  If not `f.valid` the padding is `SAME`. -/
structure LConv where
  f : Conv.BConv
  padOne : Bool
  filter : List Byte
  thr : List ℤ

/-- Number of output channels: a packed result has 32 to a word. -/
def LConv.oc (L : LConv) : Nat := if L.f.outQ8.isSome then L.f.outDim else L.f.outDim * 32

/-- Type of the result. -/
def LConv.ty (L : LConv) : Ty := ⟨[1, L.f.oh, L.f.ow, L.f.outDim], if L.f.outQ8.isSome then 1 else 4⟩

/-- Bit of the filter for output channel `o`. -/
def filterBit (oc kh kw words : Nat) (filter : List Byte) (o a b c : Nat) : Bool :=
  bitOf (elemAt ⟨[oc, kh, kw, words], 4⟩ filter [o, a, b, c / 32]) (c % 32)

/-- `SAME` with a pad value of one becomes a pad with zero bits (TFLPatterns.td 155-173 with `getBConv2DPaddingValues`,
ApplyTFLPatterns.cpp 99-105): padding values and shape of the result. -/
def LConv.padding (L : LConv) : List Int × List Int :=
  TFL.getConvPaddingValues [1, (L.f.ih : Int), L.f.iw, L.f.words] [(L.oc : Int), L.f.kh, L.f.kw, L.f.words] L.f.dh L.f.dw L.f.sh L.f.sw

def LConv.padded (L : LConv) : Bool := !L.f.valid && L.padOne

/-- The pad that TFLPatterns.td 163-173 puts in front. -/
def LConv.pads (L : LConv) : List Conv.Compile.PadStep :=
  if L.padded then [⟨L.padding.1.map Int.toNat, [1, L.f.ih, L.f.iw, L.f.words]⟩] else []

/-- The operator that `ReplaceConv2D` sees (TFLPatterns.td 163-173). -/
def LConv.inner (L : LConv) : Conv.BConv :=
  if L.padded then { L.f with valid := true, ih := (L.padding.2.getD 1 0).toNat, iw := (L.padding.2.getD 2 0).toNat } else L.f

/-- `XC_Conv2DV2Op` of a binarised convolution: kernel type and arguments, the geometry in its parameters (ConvPatternsLCE.cpp 170-184) and
the regions of its threads (xformer/Transforms/ReplaceConv2D.cpp 96-113). -/
structure XBConv where
  lo : Conv.BLowered
  ih : Nat
  iw : Nat
  words : Nat
  kh : Nat
  kw : Nat
  oh : Nat
  ow : Nat
  regions : List Threads.Region

/-- ReplaceConv2D.cpp 49-220 for `lq.Bconv2d`; `none`: the operator is refused (ConvPatternsLCE.cpp 10-70). -/
def LConv.lower (cts : Nat → Nat → List (Nat × Nat)) (threads : Nat) (L : LConv) : Option XBConv :=
  (Conv.bLower L.inner).bind fun lo =>
    (Threads.getImageRegionThreadSplits cts threads ⟨L.inner.oh, L.inner.ow, lo.args.outputDepth, 0, 0, 1, 1⟩).map fun rs =>
      { lo := lo, ih := L.inner.ih, iw := L.inner.iw, words := L.inner.words, kh := L.inner.kh, kw := L.inner.kw
        oh := L.inner.oh, ow := L.inner.ow, regions := rs }

/-- What is outside /repo: the kernel for signs with the zero point of its operand, the constants that lib_nn makes of the filter and of
multipliers and biases or thresholds, `get_scratch_mem_bytes`, the convolution kernels on all their operands (data, weights, second constant,
scratch buffer), and the error of the 8-bit kernels in steps of the result. -/
structure BinLib where
  bsign : ℤ → List (List Byte) → List Byte
  weights : XBConv → List Byte → List Byte
  muls : XBConv → List Byte → List ℤ → List Byte
  scratchBytes : Nat → Nat
  conv : XBConv → List (List Byte) → List Byte
  err : ℚ

/-- Size of the scratch buffer (ConvPatternsLCE.cpp 300, 350, 412, 464; ReplaceConv2D.cpp 188-191). -/
def XBConv.scratch (B : BinLib) (k : XBConv) : Nat :=
  (match k.lo.kt with
    | .directBinary => 0
    | .directInt8 => 0
    | _ => B.scratchBytes (k.kh * k.kw * k.lo.args.inputDepth / 8) + 32) * k.regions.length

/-! ### Specification -/

/-- The bits that the window of output `(y, x)` reads; outside the image they are clear, which stands for the number one. -/
def LConv.window (L : LConv) (data : List Byte) (y x a b c : Nat) : Bool :=
  let p : Conv.Padding := if L.f.valid then .valid else .same
  match Conv.tap p L.f.ih L.f.kh L.f.sh L.f.dh y a, Conv.tap p L.f.iw L.f.kw L.f.sw L.f.dw x b with
  | some iy, some ix => bitAt L.f.ih L.f.iw L.f.words data iy ix c
  | _, _ => false

/-- Bits of the filter. -/
def LConv.weight (L : LConv) (o a b c : Nat) : Bool := filterBit L.oc L.f.kh L.f.kw L.f.words L.filter o a b c

/-- The sum over the window of data times filter, both 1 or -1. -/
def LConv.sum (L : LConv) (data : List Byte) (y x o : Nat) : ℤ :=
  ∑ a ∈ Finset.range L.f.kh, ∑ b ∈ Finset.range L.f.kw, ∑ c ∈ Finset.range L.f.cin, Conv.pm (L.window data y x a b c) * Conv.pm (L.weight o a b c)

/-- 8-bit result in steps, before rounding, saturated: RELU, then the affine transform. -/
def LConv.real (L : LConv) (scale : ℚ) (zp : ℤ) (data : List Byte) (y x o : Nat) : ℚ :=
  max (-128) (min 127 ((L.f.postMul.getD o 0 * (max 0 (L.sum data y x o) : ℤ) + L.f.postBias.getD o 0) / scale + zp))

/-- Number of products that are -1. -/
def LConv.negatives (L : LConv) (data : List Byte) (y x o : Nat) : ℤ :=
  Conv.mismatches L.f.kh L.f.kw L.f.cin (L.window data y x) (L.weight o)

/-- What the result must be: 8 bits up to the error `e`; a bit is set if more products are -1 than the threshold says. -/
def LConv.Meets (L : LConv) (e : ℝ) (data out : List Byte) : Prop :=
  match L.f.outQ8 with
  | some (scale, zp) => ∀ y x o, y < L.f.oh → x < L.f.ow → o < L.oc →
      |(s8 ((elemAt L.ty out [0, y, x, o]).headD 0) : ℝ) - (L.real scale zp data y x o : ℝ)| ≤ e
  | none => ∀ y x o, y < L.f.oh → x < L.f.ow → o < L.oc →
      bitAt L.f.oh L.f.ow L.f.outDim out y x o = decide (L.thr.getD o 0 < L.negatives data y x o)

/-! ### Contracts -/

/-- The operand as the kernels see it. -/
def XBConv.image (k : XBConv) (data : List Byte) (y x : Int) (c : Nat) : Bool := bitAt k.ih k.iw k.words data y.toNat x.toNat c

/-- The window of output `(y, x)` lies in the operand. -/
def XBConv.Inside (k : XBConv) (y x : Nat) : Prop := ∀ a b, a < k.kh → b < k.kw →
  (0 ≤ y * k.lo.sh + k.lo.start.1 + a * k.lo.dh ∧ y * k.lo.sh + k.lo.start.1 + a * k.lo.dh < (k.ih : Int)) ∧
  0 ≤ x * k.lo.sw + k.lo.start.2 + b * k.lo.dw ∧ x * k.lo.sw + k.lo.start.2 + b * k.lo.dw < (k.iw : Int)

/-- Depths with which the kernels work. -/
def XBConv.DepthOK (k : XBConv) : Prop :=
  k.lo.args.inputDepth = k.words * 32 ∧
  (k.lo.kt = .directBinary ∨ k.lo.kt = .directInt8 → k.lo.args.inputDepth % 256 = 0 ∧ k.lo.args.outputDepth % 16 = 0) ∧
  (k.lo.kt = .directBinary ∨ k.lo.kt = .indirectBinary → k.lo.args.outputDepth % 32 = 0) ∧
  (k.lo.kt = .directInt8 ∨ k.lo.kt = .indirectInt8 → k.lo.args.outputDepth % 4 = 0)

/-- Contracts of what is outside /repo. -/
structure BinLib.OK (B : BinLib) : Prop where
  err : 0 ≤ B.err
  /-- one bit for every byte: set if the number is negative -/
  bsign : ∀ (zp : ℤ) (data : List Byte), data.length % 32 = 0 → (B.bsign zp [data]).length = data.length / 8 ∧
    ∀ k < data.length, bitOf (B.bsign zp [data]) k = decide (s8 (data.getD k 0) < zp)
  /-- the 8-bit kernels: elements that lie in exactly one region -/
  conv8 : ∀ (k : XBConv) (data filter : List Byte) (thr : List ℤ) (rest : List (List Byte)), k.lo.kt = .directInt8 ∨ k.lo.kt = .indirectInt8 → k.DepthOK →
    (B.conv k (data :: B.weights k filter :: B.muls k filter thr :: rest)).length = k.oh * k.ow * k.lo.args.outputDepth ∧
    ∀ y x o, y < k.oh → x < k.ow → o < k.lo.args.outputDepth → Threads.coverage k.regions y x o = 1 → k.Inside y x →
      (|(s8 ((B.conv k (data :: B.weights k filter :: B.muls k filter thr :: rest)).getD ((y * k.ow + x) * k.lo.args.outputDepth + o) 0) : ℚ) -
        max (-128) (min 127 (k.lo.value k.kh k.kw o (k.lo.patch (k.image data) y x)
          (filterBit k.lo.args.outputDepth k.kh k.kw k.words filter o)))| : ℚ) ≤ B.err
  /-- the binary kernels -/
  conv1 : ∀ (k : XBConv) (data filter : List Byte) (thr : List ℤ) (rest : List (List Byte)), k.lo.kt = .directBinary ∨ k.lo.kt = .indirectBinary → k.DepthOK →
    (B.conv k (data :: B.weights k filter :: B.muls k filter thr :: rest)).length = k.oh * k.ow * (k.lo.args.outputDepth / 8) ∧
    ∀ y x o, y < k.oh → x < k.ow → o < k.lo.args.outputDepth → Threads.coverage k.regions y x o = 1 → k.Inside y x →
      bitAt k.oh k.ow (k.lo.args.outputDepth / 32) (B.conv k (data :: B.weights k filter :: B.muls k filter thr :: rest)) y x o =
        decide (thr.getD o 0 < Conv.mismatches k.kh k.kw k.lo.args.inputDepth (k.lo.patch (k.image data) y x)
          (filterBit k.lo.args.outputDepth k.kh k.kw k.words filter o))

/-- A binarised convolution that is compiled: `SAME` only with a pad value of one, filter, channels and sizes as Larq has them; the sum fits
32 bits. -/
structure LConv.OK (L : LConv) : Prop where
  pad : L.f.valid = false → L.padOne = true
  filterI32 : L.f.filterI32 = true
  out : L.f.outQ8.isSome ∨ L.f.outI32 = true
  relu : L.f.outQ8.isSome → L.f.relu = true ∧ L.f.outDim % 4 = 0
  scale : ∀ s z, L.f.outQ8 = some (s, z) → 0 < s
  cin : L.f.cin = L.f.words * 32
  small : L.f.backtransformAdd ≤ 2147483647
  ih : 1 ≤ L.f.ih
  iw : 1 ≤ L.f.iw
  words : 1 ≤ L.f.words
  kh : 1 ≤ L.f.kh
  kw : 1 ≤ L.f.kw
  sh : 1 ≤ L.f.sh
  sw : 1 ≤ L.f.sw
  dh : 1 ≤ L.f.dh
  dw : 1 ≤ L.f.dw
  oh1 : 1 ≤ L.f.oh
  ow1 : 1 ≤ L.f.ow
  oh : (L.f.oh : Int) = if L.f.valid then ((L.f.ih : Int) - Image.eff L.f.kh L.f.dh + L.f.sh) / L.f.sh else Image.sameOut L.f.ih L.f.sh
  ow : (L.f.ow : Int) = if L.f.valid then ((L.f.iw : Int) - Image.eff L.f.kw L.f.dw + L.f.sw) / L.f.sw else Image.sameOut L.f.iw L.f.sw

end Verif.Net
