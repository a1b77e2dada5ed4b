import Mathlib.Data.Nat.Log
/-!
The magnitude of a complex number (examples/audio_network/src/hypot.S), on 32-bit registers.
-/
namespace Verif.Audio

/-- hypot.S 14-22, macro ITT(N).  The two instructions of a bundle read their registers before either writes. -/
def itt (n : Nat) (x y : BitVec 32) : BitVec 32 × BitVec 32 :=
  if x.slt 0 then (x + (y >>> n), y - x.sshiftRight n) else (x - (y >>> n), y + (x >>> n))

/-- hypot.S 24-32, macro ITT_FINAL(N): only the second register is kept. -/
def ittFinal (n : Nat) (x y : BitVec 32) : BitVec 32 := if x.slt 0 then y - x.sshiftRight n else y + (x >>> n)

/-- hypot.S 4-5, `g_hyp_scalar`. -/
def hypScalar : Nat := 0x9b74eda7

/-- hypot.S 37-50: quarter of both, absolute value of the second, and the turn by 45 degrees. -/
def hypStart (x y : BitVec 32) : BitVec 32 × BitVec 32 :=
  let x := x.sshiftRight 2
  let y := (if y.slt 0 then -y else y) >>> 2
  if x.slt 0 then (x + y, y - x) else (x - y, y + x)

/-- hypot.S 52-68: the iterations 1 to 17. -/
def hypTurns (p : BitVec 32 × BitVec 32) : BitVec 32 × BitVec 32 := (List.range' 1 17).foldl (fun p n => itt n p.1 p.2) p

/-- hypot.S 34-73.  `maccu` leaves the high word of the product in r11 (its low word was cleared by ITT_FINAL). -/
def hypot_i (x y : BitVec 32) : BitVec 32 :=
  let p := hypTurns (hypStart x y)
  let y := ittFinal 18 p.1 p.2
  (BitVec.ofNat 32 (y.toNat * hypScalar / 2 ^ 32)) <<< 2

end Verif.Audio
