import Mathlib.Data.Nat.Log
/-!
Fixed-point logarithms of the audio example (examples/audio_network/src/log.c).
-/
namespace Verif.Audio

/-- The `clz` instruction: leading zeros of a 32-bit word, 32 for zero. -/
def clz (x : Nat) : Nat := if x = 0 then 32 else 31 - Nat.log2 x

/-- The `shl` instruction on a 32-bit word.  log.c 8 relies on a negative amount shifting right; that is a contract on the processor. -/
def shl (x : Nat) (k : Int) : Nat := if 0 ≤ k then (x * 2 ^ k.toNat) % 2 ^ 32 else x / 2 ^ (-k).toNat

/-- The `zext` instruction: keep the low `n` bits. -/
def zext (x n : Nat) : Nat := x % 2 ^ n

/-- The C type `int`: 32 bits, two's complement. -/
def wrap32 (v : Int) : Int := (v + 2 ^ 31) % 2 ^ 32 - 2 ^ 31

/-- log.c 5-11. -/
def log2_8 (x : Nat) : Int :=
  wrap32 (zext (shl x ((clz x : Int) - 28)) 3 + (31 - (clz x : Int)) * 8)

/-- log.c 13-142: adder and multiplier. -/
def logTable : List (Int × Nat) := [
  (-1466, 2932), (-1443, 2887), (-1421, 2844), (-1399, 2802), (-1377, 2761), (-1356, 2721), (-1335, 2683), (-1314, 2645),
  (-1293, 2609), (-1273, 2573), (-1253, 2539), (-1233, 2505), (-1214, 2472), (-1195, 2440), (-1176, 2409), (-1157, 2379),
  (-1139, 2349), (-1120, 2320), (-1102, 2292), (-1085, 2265), (-1067, 2238), (-1050, 2212), (-1032, 2186), (-1015, 2161),
  (-999, 2137), (-982, 2113), (-966, 2090), (-949, 2067), (-933, 2044), (-917, 2023), (-902, 2001), (-886, 1980),
  (-871, 1960), (-856, 1940), (-840, 1920), (-826, 1901), (-811, 1882), (-796, 1863), (-782, 1845), (-767, 1827),
  (-753, 1810), (-739, 1793), (-725, 1776), (-711, 1759), (-698, 1743), (-684, 1727), (-671, 1711), (-657, 1696),
  (-644, 1681), (-631, 1666), (-618, 1652), (-605, 1637), (-592, 1623), (-580, 1609), (-567, 1596), (-555, 1583),
  (-543, 1569), (-530, 1556), (-518, 1544), (-506, 1531), (-494, 1519), (-483, 1507), (-471, 1495), (-459, 1483),
  (-46913, 750624), (-46186, 739163), (-45469, 728046), (-44764, 717258), (-44068, 706786), (-43383, 696615), (-42708, 686733), (-42042, 677127),
  (-41385, 667786), (-40737, 658699), (-40098, 649857), (-39468, 641248), (-38846, 632865), (-38232, 624698), (-37626, 616739), (-37027, 608981),
  (-36436, 601415), (-35852, 594035), (-35276, 586833), (-34706, 579805), (-34143, 572942), (-33587, 566241), (-33037, 559694), (-32494, 553297),
  (-31956, 547044), (-31425, 540931), (-30900, 534953), (-30380, 529106), (-29866, 523386), (-29358, 517788), (-28855, 512308), (-28357, 506943),
  (-27865, 501689), (-27377, 496543), (-26895, 491502), (-26417, 486561), (-25945, 481720), (-25477, 476973), (-25013, 472319), (-24554, 467755),
  (-24099, 463279), (-23649, 458887), (-23203, 454578), (-22761, 450349), (-22323, 446198), (-21890, 442123), (-21460, 438122), (-21034, 434192),
  (-20612, 430332), (-20193, 426540), (-19779, 422815), (-19368, 419154), (-18960, 415556), (-18556, 412019), (-18155, 408542), (-17758, 405123),
  (-17364, 401760), (-16973, 398453), (-16586, 395201), (-16201, 392000), (-15820, 388851), (-15442, 385753), (-15067, 382703), (-14694, 379701)]

/-- log.c 145-155. -/
def log2_16 (x : Nat) : Int :=
  let lookup := zext (shl x ((clz x : Int) - 25)) 6
  let y := zext (shl x ((clz x : Int) - 16)) 16
  let row := logTable.getD lookup (0, 0)
  wrap32 (row.1 + ((row.2 * y % 2 ^ 32 / 2 ^ 16 : Nat) : Int) + (31 - (clz x : Int)) * 1024)

/-- log.c 157-167. -/
def log2_8_64 (x : Nat) : Int :=
  let base := 32 - (clz (x / 2 ^ 32) : Int)
  if base ≤ 0 then log2_8 (x % 2 ^ 32) else log2_8 (x / 2 ^ base.toNat % 2 ^ 32) + base

/-- log.c 169-179. -/
def log2_16_64 (x : Nat) : Int :=
  let base := 32 - (clz (x / 2 ^ 32) : Int)
  if base ≤ 0 then log2_16 (x % 2 ^ 32) else log2_16 (x / 2 ^ base.toNat % 2 ^ 32) + base * 1024

end Verif.Audio
