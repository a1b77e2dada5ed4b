import Verif.Audio.LogModel
import Mathlib.Data.Rat.Floor
/-!
The sparse matrix products of the audio example (examples/audio_network/src/mel.c, mel.h), the script that compresses the
matrix (compress_mel.py) and the tables it made (mel_parameters.h).
-/
namespace Verif.Audio

/-- The local variables of mel_compress (mel.c 7-9): `next` is `current_mel + 1`; `none` is an element not written yet. -/
structure MelSt where
  next : Nat
  run : Int
  mel : List (Option Int)

/-- A write into an array: `none` when the index is outside. -/
def put (a : List (Option Int)) (i : Nat) (v : Int) : Option (List (Option Int)) := if i < a.length then some (a.set i (some v)) else none

/-- A read of an array: `none` when the index is outside or the element was never written. -/
def got (a : List (Option Int)) (i : Nat) : Option Int := (a[i]?).join

/-- mel.c 11-15: at the end of a run go to the next mel and clear its successor. -/
def melAdvance (runs : List Int) (s : MelSt) : Option MelSt :=
  if s.run ≤ 0 then do
    let run ← runs[s.next]?
    let mel ← put s.mel (s.next + 1) 0
    some ⟨s.next + 1, run, mel⟩
  else some s

/-- mel.c 16, `MEL_Q_VALUE` is 30 (mel.h 6). -/
def contribution (x f : Int) : Int := wrap32 (x * f / 2 ^ 30)

/-- mel.c 10-20, one column. -/
def melStep (runs : List Int) (s : MelSt) (xf : Int × Int) : Option MelSt := do
  let s ← melAdvance runs s
  let c := contribution xf.1 xf.2
  let a ← got s.mel (s.next - 1)
  let mel ← put s.mel (s.next - 1) (wrap32 (a + c))
  let b ← got mel s.next
  let mel ← put mel s.next (wrap32 (b + wrap32 (xf.1 - c)))
  some ⟨s.next, s.run - 1, mel⟩

/-- mel.c 3-21.  `size` is the number of elements of the caller's array; `xs` pairs input and fraction of every spectral bin.
`none` is an access outside an array or a read of something never written. -/
def mel_compress (size : Nat) (runs : List Int) (xs : List (Int × Int)) : Option (List (Option Int)) := do
  let mel ← put (List.replicate size none) 0 0
  let s ← xs.foldlM (melStep runs) ⟨0, 0, mel⟩
  some s.mel

/-- mel.c 33-34: the two masks and the fraction; 64-bit products, then the assignment to an `int`. -/
def blend (a b f : Int) : Int := wrap32 ((a * f + b * (2 ^ 30 - f)) / 2 ^ 30)

/-- mel.c 29-36, one column: position, rest of the run, output so far (last one first). -/
def expandStep (runs mel : List Int) (s : Nat × Int × List Int) (f : Int) : Option (Nat × Int × List Int) := do
  let (next, run) ← if s.2.1 ≤ 0 then do
      let run ← runs[s.1]?
      some (s.1 + 1, run)
    else some (s.1, s.2.1)
  let a ← mel[next - 1]?
  let b ← mel[next]?
  some (next, run - 1, blend a b f :: s.2.2)

/-- mel.c 23-37. -/
def mel_expand (runs mel : List Int) (fs : List Int) : Option (List Int) := do
  let s ← fs.foldlM (expandStep runs mel) (0, 0, [])
  some s.2.2.reverse

/-- dsp.c 109-111: one component of the spectrum times its mask. -/
def maskMul (v m : Int) : Int := wrap32 (v * m / 2 ^ 30)

/-- dsp.c 95-114, dsp_apply_masks.  The spectrum is the list of (real, imaginary) pairs; the real FFT keeps the first and the
last bin, both real, in the first pair (lines 104-107).  `masks` has one more element than the spectrum. -/
def dsp_apply_masks (runs : List Int) (fs : List Int) (mel : List Int) (enabled : Bool) (fft : List (Int × Int)) : Option (List (Int × Int)) := do
  let masks ← mel_expand runs mel fs
  if enabled then
    fft.zipIdx.mapM fun (z, i) => do
      let m ← masks[i]?
      if i = 0 then do
        let l ← masks[fft.length]?
        some (maskMul z.1 m, maskMul z.2 l)
      else some (maskMul z.1 m, maskMul z.2 m)
  else some fft

/-! ### The script -/

/-- The variables of compress_mel (compress_mel.py 5-8): runs and coefficients as lists, latest first. -/
structure CmSt where
  mel : Nat
  current : Nat
  runs : List Nat
  mels : List ℚ

/-- compress_mel.py 9-15. -/
def cmStep (fb : Nat → Nat → ℚ) (s : CmSt) (i : Nat) : CmSt :=
  let s := if fb s.mel i = 0 then { s with mel := s.mel + 1, runs := s.current :: s.runs, current := 0 } else s
  { s with current := s.current + 1, mels := fb s.mel i :: s.mels }

/-- `%f` of a number (compress_mel.py 15): six decimals, halves rounded up (simplified: Python rounds the exact binary value). -/
def percentF (v : ℚ) : ℚ := (⌊v * 1000000 + 1 / 2⌋ : Int) / 1000000

/-- `(int)(v * MEL_ONE_VALUE + 0.5)` (compress_mel.py 15), for a number that is not negative. -/
def toQ30 (v : ℚ) : Int := ⌊v * 2 ^ 30 + 1 / 2⌋

/-- compress_mel.py 3-24: the runs and the coefficients that the C compiler sees.  `fb` is the matrix, with `n` columns; the
script fails when it leaves the rows, which `C90` excludes. -/
def compress_mel (fb : Nat → Nat → ℚ) (n : Nat) : List Nat × List Int :=
  let s := (List.range n).foldl (cmStep fb) ⟨0, 0, [], []⟩
  ((if s.current ≠ 0 then s.current :: s.runs else s.runs).reverse, s.mels.reverse.map fun v => toQ30 (percentF v))

/-! ### The tables in use -/

/-- mel_parameters.h 4; the array has 64 elements, the last is zero. -/
def shippedRuns : List Int := List.replicate 16 1 ++ List.replicate 16 2 ++ List.replicate 16 4 ++ List.replicate 14 10 ++ [5, 0]

/-- mel_parameters.h 6-264. -/
def shippedFractions : List Int :=
  (List.replicate 16 (1 : ℚ) ++ (List.replicate 16 [1, 1 / 2]).flatten ++ (List.replicate 16 [1, 3 / 4, 1 / 2, 1 / 4]).flatten ++
    (List.replicate 14 [1, 9 / 10, 8 / 10, 7 / 10, 6 / 10, 5 / 10, 4 / 10, 3 / 10, 2 / 10, 1 / 10]).flatten ++ [1, 9 / 10, 8 / 10, 7 / 10, 6 / 10]).map toQ30

end Verif.Audio
