import Verif.Net.SplitProps2
import Mathlib.Tactic.DeriveEncodable
/-!
C100: the splitting pass keeps the meaning of the whole network, and the network it leaves runs in the arena.
-/
namespace Verif.Net
open Verif.Tensor Verif.Move Verif.MemPlan Verif.Image Verif.OpSplit

variable {tb : Table} {F : Nat → Nat → Nat → List (List Byte) → (Int → Int → Px) → Px} {G : Nat → Px → Px → Px}

/-! ### Numbers and meanings exist -/

deriving instance Encodable for WOp
deriving instance Encodable for BOp
deriving instance Encodable for Opq

/-- A numbering of the operators. -/
def someTable : Table := ⟨fun n => Encodable.decode n, fun o => Encodable.encode o, fun o => Encodable.encodek o⟩

/-- Whatever the kernels `F` and `G` and the other operators compute, there is a meaning. -/
theorem meaning_exists (tb : Table) (F : Nat → Nat → Nat → List (List Byte) → (Int → Int → Px) → Px) (G : Nat → Px → Px → Px) (base : Sem) :
    ∃ sem, Meaning tb F G sem ∧ ∀ key, tb.look key = none → sem key = base key := by
  refine ⟨fun key args => match tb.look key, args with
    | some (.win w), data :: rest => bytesOf w.out (pixels w.od (w.apply (F w.id w.kh w.kw rest) (imgOf w.ih w.iw w.ic w.idd data)))
    | some (.bin o), [a, b] => bytesOf o.out (pixels o.od (ewise (G o.id) o.oh o.ow (imgOf o.ah o.aw o.ac o.ad a) (imgOf o.bh o.bw o.bc o.bd b)))
    | _, _ => base key args, ⟨?_, ?_⟩, ?_⟩
  · intro key w h _ data rest _
    simp only [h]
  · intro key o h _ a b _ _
    simp only [h]
  · intro key h
    funext args
    simp only [h]

/-! ### Networks -/

theorem splitPattern_sound (hF : Windowed F) {P : Pattern} (h : SplitPattern tb P ∨ P ∈ patterns) : P.SoundFor (Meaning tb F G) := by
  rcases h with h | h
  · cases h with
    | split k => exact splitP_sound _ k
    | combine j => exact combineP_sound _ j
    | raiseConv => exact raiseConvP_sound hF
    | raisePad => exact raisePadP_sound _
    | raiseBin => exact raiseBinP_sound
  · exact (patterns_sound P h).soundFor _

theorem split_ok {N N' : Network} (h : SplitStep tb N N') (hN : N.OK) :
    N'.OK ∧ N'.inputs = N.inputs ∧ N'.outputs.length = N.outputs.length ∧
    ∀ (F : Nat → Nat → Nat → List (List Byte) → (Int → Int → Px) → Px) (G : Nat → Px → Px → Px), Windowed F → ∀ (sem : Sem), Meaning tb F G sem →
      ∀ ins : List (List Byte), ins.map List.length = N.inputs.map Ty.size → N'.result sem ins = N.result sem ins := by
  obtain ⟨P, hP, hr⟩ := h
  have key : ∀ (F : Nat → Nat → Nat → List (List Byte) → (Int → Int → Px) → Px) (G : Nat → Px → Px → Px), Windowed F →
      N'.OK ∧ N'.inputs = N.inputs ∧ N'.outputs.length = N.outputs.length ∧
      ∀ (sem : Sem) (ins : List (List Byte)), Meaning tb F G sem → ins.map List.length = N.inputs.map Ty.size → N'.result sem ins = N.result sem ins := by
    intro F G hF
    obtain ⟨sem0, h0, -⟩ := meaning_exists tb F G fun _ _ => []
    exact rw_stepC (C := Meaning tb F G) h0 (by intro Q hQ; rw [List.mem_singleton] at hQ; subst hQ; exact splitPattern_sound hF hP) hr hN
  obtain ⟨k1, k2, k3, -⟩ := key (fun _ _ _ _ _ => []) (fun _ _ _ => []) (fun _ _ _ _ _ _ _ => rfl)
  exact ⟨k1, k2, k3, fun F G hF sem hm ins hins => (key F G hF).2.2.2 sem ins hm hins⟩

/-- **C100.** However operators of the network are split, their slices combined and raised above convolutions, pads, additions and
multiplications, mixed with the rewrites of C95: the network stays well typed, keeps its arguments and the number of results, and computes the
same results, whatever the convolutions compute of their windows and the binary operators of their operands. -/
theorem C100_split_network {N N' : Network} (h : Relation.ReflTransGen (SplitStep tb) N N') (hN : N.OK) :
    N'.OK ∧ N'.inputs = N.inputs ∧ N'.outputs.length = N.outputs.length ∧
    ∀ (F : Nat → Nat → Nat → List (List Byte) → (Int → Int → Px) → Px) (G : Nat → Px → Px → Px), Windowed F → ∀ (sem : Sem), Meaning tb F G sem →
      ∀ ins : List (List Byte), ins.map List.length = N.inputs.map Ty.size → N'.result sem ins = N.result sem ins := by
  induction h with
  | refl => exact ⟨hN, rfl, rfl, fun _ _ _ _ _ _ _ => rfl⟩
  | tail _ hs ih =>
    obtain ⟨i1, i2, i3, i4⟩ := ih
    obtain ⟨j1, j2, j3, j4⟩ := split_ok hs i1
    refine ⟨j1, j2.trans i2, j3.trans i3, ?_⟩
    intro F G hF sem hm ins hins
    rw [j4 F G hF sem hm ins (by rw [i2]; exact hins), i4 F G hF sem hm ins hins]

/-- **C100.** The split network, compiled, planned and run in the arena, returns the results of the original one. -/
theorem C100_split_in_arena {N N' : Network} (h : Relation.ReflTransGen (SplitStep tb) N N') (hN : N.OK) (skip : Nat → Bool) :
    (∀ v, (N'.func skip).Arena v → ∃ a, planMemory (N'.func skip) = some a) ∧
    ∀ a, planMemory (N'.func skip) = some a →
      ∀ (F : Nat → Nat → Nat → List (List Byte) → (Int → Int → Px) → Px) (G : Nat → Px → Px → Px), Windowed F → ∀ (sem : Sem), Meaning tb F G sem →
      ∀ (inputs : List (List Byte)) (m : Mem) (c : Env), inputs.map List.length = N.inputs.map Ty.size →
        (arenaTrace (N'.func skip) (devKernels sem (N'.compile skip).1.ops) a.offsets (N'.func skip).ops 0 (loadInputs a.offsets inputs m) c).getLast? =
          some (N.result sem inputs) := by
  obtain ⟨h1, h2, -, h4⟩ := C100_split_network h hN
  obtain ⟨g1, g2⟩ := C83_network_compiled N' h1 skip
  refine ⟨g1, ?_⟩
  intro a ha F G hF sem hm inputs m c hin
  rw [(g2 a ha).2 sem inputs m c (by rw [h2]; exact hin), h4 F G hF sem hm inputs hin]

/-! ### A 3 × 3 convolution with `SAME` padding, split into two -/

def exW : WOp := ⟨7, true, 3, 3, 1, 1, 1, 1, true, -5, 8, 8, 4, 1, 8, 8, 4, 1⟩
/-- The upper and the lower half: both see 5 rows of the input and one row of padding. -/
def exHalf : WOp := ⟨7, false, 3, 3, 1, 1, 1, 1, true, -5, 6, 10, 4, 1, 4, 8, 4, 1⟩
def exTy : Ty := ty4 8 8 4 1
def exFilter : Ty := ⟨[4, 3, 3, 4], 1⟩
def exConv (tb : Table) : Node := ⟨.other false (tb.name (.win exW)), [0, 1], exTy⟩
def exHalfConv (tb : Table) (x : Nat) : Node := ⟨.other false (tb.name (.win exHalf)), [x, 1], ty4 4 8 4 1⟩
def exPad (x t b : Nat) : Node := ⟨.pad true (-5) [0, 0, t, b, 1, 1, 0, 0], [x], ty4 6 10 4 1⟩

def exN (tb : Table) : Network := ⟨[exTy, exFilter], [exConv tb], [2]⟩
def exN1 (tb : Table) : Network := ⟨[exTy, exFilter], [exConv tb, rowSlice 2 0 4 8 4 1, rowSlice 2 4 4 8 4 1, ⟨.concat 1, [3, 4], exTy⟩], [5]⟩
def exN2 (tb : Table) : Network :=
  ⟨[exTy, exFilter], [exConv tb, rowSlice 0 0 5 8 4 1, exPad 3 1 0, exHalfConv tb 4, rowSlice 2 4 4 8 4 1, ⟨.concat 1, [5, 6], exTy⟩], [7]⟩
def exN3 (tb : Table) : Network :=
  ⟨[exTy, exFilter], [exConv tb, rowSlice 0 0 5 8 4 1, exPad 3 1 0, exHalfConv tb 4, rowSlice 0 3 5 8 4 1, exPad 6 0 1, exHalfConv tb 7,
    ⟨.concat 1, [5, 8], exTy⟩], [9]⟩
def exN4 (tb : Table) : Network :=
  ⟨[exTy, exFilter], [rowSlice 0 0 5 8 4 1, exPad 2 1 0, exHalfConv tb 3, rowSlice 0 3 5 8 4 1, exPad 5 0 1, exHalfConv tb 6,
    ⟨.concat 1, [4, 7], exTy⟩], [8]⟩

theorem raise_example (tb : Table) (inputs : List Ty) (pre : List Node) (key v x b s : Nat) (rest : List Nat) (w : WOp) (dty ty : Ty)
    (hl : tb.look key = some (.win w)) (hd : defOf inputs.length pre v = some ⟨.other false key, x :: rest, dty⟩) (sw sc : Nat)
    (hg : w.Fits ∧ dty = w.out ∧ tyOf inputs pre x = w.inp ∧ ty = ty4 s w.ow w.oc w.od ∧ 1 ≤ s ∧ w.dh = 1 ∧ w.dw = 1 ∧
      0 ≤ (w.raised b s).begin_ ∧ 1 ≤ (w.raised b s).size ∧ (w.raised b s).begin_ + (w.raised b s).size ≤ w.ih) (hs : w.same = true) :
    raiseConvP tb inputs pre ⟨.slice [0, b, 0, 0] [1, s, sw, sc], [v], ty⟩ =
      some ([rowSlice x (w.raised b s).begin_.toNat (w.raised b s).size.toNat w.iw w.ic w.idd,
        ⟨.pad w.q8 w.zp [0, 0, (w.raised b s).padTop.toNat, (w.raised b s).padBottom.toNat, (w.raised b s).padLeft.toNat, (w.raised b s).padRight.toNat, 0, 0],
          [inputs.length + pre.length], (w.clone (w.raised b s)).inp⟩,
        ⟨.other false (tb.name (.win (w.clone (w.raised b s)))), (inputs.length + pre.length + 1) :: rest, (w.clone (w.raised b s)).out⟩],
        inputs.length + pre.length + 2) := by
  unfold raiseConvP
  simp only [hd, hl]
  rw [if_pos hg, if_pos hs]

/-- The pass on the example, for every numbering. -/
theorem exN_split (tb : Table) : Relation.ReflTransGen (SplitStep tb) (exN tb) (exN4 tb) ∧ (exN tb).OK := by
  refine ⟨?_, ?_⟩
  · refine Relation.ReflTransGen.head (?_ : SplitStep tb (exN tb) (exN1 tb)) (Relation.ReflTransGen.head (?_ : SplitStep tb _ (exN2 tb))
      (Relation.ReflTransGen.head (?_ : SplitStep tb _ (exN3 tb)) (Relation.ReflTransGen.single ?_)))
    · exact ⟨_, .inl (.split 2), Rw.apply (splitP 2) [exTy, exFilter] [] (exConv tb) [] [2] (exN1 tb).nodes 5 (List.mem_singleton.2 rfl) rfl⟩
    · exact ⟨_, .inl .raiseConv, Rw.apply _ [exTy, exFilter] [exConv tb] (rowSlice 2 0 4 8 4 1) [rowSlice 2 4 4 8 4 1, ⟨.concat 1, [3, 4], exTy⟩] [5] _ _ (by simp)
        (raise_example tb _ _ _ 2 0 0 4 [1] exW _ _ (tb.named _) rfl 8 4 ⟨by decide +kernel, rfl, rfl, rfl, by decide, rfl, rfl, by decide +kernel, by decide +kernel, by decide +kernel⟩ rfl)⟩
    · exact ⟨_, .inl .raiseConv, Rw.apply _ [exTy, exFilter] [exConv tb, rowSlice 0 0 5 8 4 1, exPad 3 1 0, exHalfConv tb 4] (rowSlice 2 4 4 8 4 1)
        [⟨.concat 1, [5, 6], exTy⟩] [7] _ _ (by simp) (raise_example tb _ _ _ 2 0 4 4 [1] exW _ _ (tb.named _) rfl 8 4 ⟨by decide +kernel, rfl, rfl, rfl, by decide, rfl, rfl, by decide +kernel, by decide +kernel, by decide +kernel⟩ rfl)⟩
    · exact ⟨_, .inl (.split 2), Rw.dead [exTy, exFilter] [] (exConv tb) [rowSlice 0 0 5 8 4 1, exPad 3 1 0, exHalfConv tb 4, rowSlice 0 3 5 8 4 1, exPad 6 0 1,
        exHalfConv tb 7, ⟨.concat 1, [5, 8], exTy⟩] [9] (by simp [rowSlice, exPad, exHalfConv]) (by simp)⟩
  · refine ⟨?_, ?_⟩ <;> simp [exN, exConv, NodesOK, Kind.OK]

/-- A kernel that looks at its whole window. -/
def exF (_ kh kw : Nat) (rest : List (List Byte)) (u : Int → Int → Px) : Px :=
  ((List.range kh).flatMap fun (i : Nat) => (List.range kw).flatMap fun (j : Nat) => u (i : Int) (j : Int)) ++ rest

theorem exF_windowed : Windowed exF := by
  intro id kh kw rest u v h
  unfold exF
  congr 1
  refine List.flatMap_congr fun i hi => List.flatMap_congr fun j hj => ?_
  rw [List.mem_range] at hi hj
  exact h i j (by omega) (by show (i : Int) < kh; omega) (by omega) (by show (j : Int) < kw; omega)

/-- **C100** applies: with a numbering, a kernel that looks at its whole window and a meaning, the split example computes what it did. -/
theorem C100_example : ∃ sem, Meaning someTable exF (fun _ p q => p ++ q) sem ∧
    ∀ ins : List (List Byte), ins.map List.length = [256, 144] → (exN4 someTable).result sem ins = (exN someTable).result sem ins := by
  obtain ⟨sem, hm, -⟩ := meaning_exists someTable exF (fun _ p q => p ++ q) fun _ _ => []
  obtain ⟨h1, h2⟩ := exN_split someTable
  exact ⟨sem, hm, fun ins hins => (C100_split_network h1 h2).2.2.2 exF _ exF_windowed sem hm ins hins⟩

/-! ### The other patterns apply as well -/

/-- Rows 2..4 of a padded image: no padding above, none below. -/
example : raisePadP [ty4 4 4 2 1] [⟨.pad true 3 [0, 0, 1, 1, 1, 1, 0, 0], [0], ty4 6 6 2 1⟩] (rowSlice 1 2 2 6 2 1) =
    some ([rowSlice 0 1 2 4 2 1, ⟨.pad true 3 [0, 0, 0, 0, 1, 1, 0, 0], [2], ty4 2 6 2 1⟩], 3) := by decide +kernel

/-- Rows 2..5 inside the rows 1..6. -/
example : combineP 1 [ty4 8 4 2 1] [rowSlice 0 1 6 4 2 1] (rowSlice 0 2 4 4 2 1) = some ([rowSlice 1 1 4 4 2 1], 2) := by decide +kernel

/-- Rows 2..5 of the sum of an image and a row: only the image is sliced. -/
theorem exBin (tb : Table) : raiseBinP tb [ty4 8 4 2 1, ty4 1 4 2 1]
    [⟨.other false (tb.name (.bin ⟨3, 8, 4, 2, 1, 1, 4, 2, 1, 8, 4, 2, 1⟩)), [0, 1], ty4 8 4 2 1⟩] (rowSlice 2 2 4 4 2 1) =
    some ([rowSlice 0 2 4 4 2 1, ⟨.other false (tb.name (.bin ⟨3, 4, 4, 2, 1, 1, 4, 2, 1, 4, 4, 2, 1⟩)), [3, 1], ty4 4 4 2 1⟩], 4) := by
  unfold raiseBinP
  simp only [rowSlice, defOf, List.length_cons, List.length_nil]
  simp only [show ¬ (2 < 0 + 1 + 1) by omega, if_false, show 2 - (0 + 1 + 1) = 0 by omega, List.getElem?_cons_zero, tb.named]
  rw [if_pos (by refine ⟨by decide +kernel, ?_, ?_, ?_, ?_, by decide, by decide +kernel, by decide +kernel⟩ <;> first | trivial | rfl)]
  rfl

end Verif.Net
