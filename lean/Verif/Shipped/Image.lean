import Verif.MemPlan.InputPlace
import Verif.MemPlan.Concurrent
import Verif.Net.Props
/-!
Applications that keep the image at the start of the tensor arena and copy it to the input tensor from there
(examples/app_mobilenetv2/src/support.cpp, examples/app_yolov8_classification/src/support.cpp).
-/
namespace Verif.Shipped.Image
open Verif.MemPlan Verif.Net

/-- `p[i] = tensor_arena[i] - 128` (support.cpp 24-26) with `p = tensor_arena + o`: `int8_t` and `uint8_t` differ in how a byte is read only. -/
def copyByte (o : Int) (m : Mem) (i : Nat) : Mem := fun a => if a = o + i then m i - 128 else m a

/-- The loop over `model_input_size(0)` bytes (support.cpp 24-26). -/
def copyImage (o : Int) (n : Nat) (m : Mem) : Mem := (List.range n).foldl (copyByte o) m

/-- The image is the initial value of the array (support.cpp 14-15); whatever follows it is arbitrary here (in C: zeros). -/
def withImage (image : List Byte) (rest : Mem) : Mem := rest.write 0 image

/-- `init`: the operators' buffers, at the end of the arena, are filled (support.cpp 18; C98). -/
def initBuffers (lo : Int) (bytes : List Byte) (m : Mem) : Mem := m.write lo bytes

/-- What the model should get: every pixel less 128. -/
def shifted (image : List Byte) : List Byte := image.map fun b => b - 128

/-! ### The loop -/

theorem copyImage_succ (o : Int) (n : Nat) (m : Mem) : copyImage o (n + 1) m = copyByte o (copyImage o n m) n := by
  unfold copyImage
  rw [List.range_succ, List.foldl_append]
  rfl

/-- Other bytes do not change. -/
theorem copyImage_other (o : Int) (n : Nat) (m : Mem) (a : Int) (h : a < o ∨ o + n ≤ a) : copyImage o n m a = m a := by
  induction n with
  | zero => rfl
  | succ n ih =>
    rw [copyImage_succ]
    unfold copyByte
    rw [if_neg (by omega)]
    exact ih (by omega)

theorem sub_twice (b : Byte) : b - 128 - 128 = b := by
  rw [UInt8.sub_eq_add_neg, UInt8.sub_eq_add_neg, UInt8.add_assoc, show (-128 : UInt8) + -128 = 0 by decide, UInt8.add_zero]

/-- **C104, the loop.** What the loop stores when the input tensor is `o` bytes behind the start, `o > 0`: the first `o` bytes of the image, over and over again, every
other time without the subtraction. -/
theorem C104_smear (o n : Nat) (ho : 0 < o) (m : Mem) (i : Nat) (hi : i < n) :
    copyImage o n m ((o + i : Nat) : Int) = if i / o % 2 = 0 then m ((i % o : Nat) : Int) - 128 else m ((i % o : Nat) : Int) := by
  induction n using Nat.strong_induction_on generalizing i with
  | _ n ih =>
    cases n with
    | zero => omega
    | succ n =>
      rw [copyImage_succ]
      unfold copyByte
      by_cases hin : i = n
      · subst hin
        rw [if_pos (by omega)]
        by_cases hio : i < o
        · rw [copyImage_other _ _ _ _ (by omega), Nat.mod_eq_of_lt hio, Nat.div_eq_of_lt hio]
          rfl
        · have h := ih i (by omega) (i - o) (by omega)
          have e : o + (i - o) = i := by omega
          rw [e] at h
          rw [h]
          have h1 : i / o = (i - o) / o + 1 := by
            conv_lhs => rw [← e]
            rw [Nat.add_div_left _ ho]
          have h2 : (i - o) % o = i % o := by
            conv_rhs => rw [← e]
            rw [Nat.add_mod_left]
          rw [h1, h2]
          by_cases hp : (i - o) / o % 2 = 0
          · rw [if_pos hp, if_neg (by omega), sub_twice]
          · rw [if_neg hp, if_pos (by omega)]
      · rw [if_neg (by omega)]
        exact ih n (by omega) i (by omega)

theorem copyImage_zero (n : Nat) (m : Mem) (i : Nat) (hi : i < n) : copyImage 0 n m (i : Int) = m i - 128 := by
  induction n with
  | zero => omega
  | succ n ih =>
    rw [copyImage_succ]
    unfold copyByte
    by_cases hin : i = n
    · subst hin
      rw [if_pos (by omega), copyImage_other _ _ _ _ (by omega)]
    · rw [if_neg (by omega)]
      exact ih (by omega)

theorem write_at (m : Mem) (o : Int) (bs : List Byte) (p : Nat) (b : Byte) (h : bs[p]? = some b) : m.write o bs (o + p) = b := by
  induction bs generalizing m o p with
  | nil => simp at h
  | cons x xs ih =>
    simp only [Mem.write]
    cases p with
    | zero =>
      rw [Mem.write_other _ _ _ _ (by left; simp)]
      simp at h
      simp [h]
    | succ p =>
      have := ih (fun a => if a = o then x else m a) (o + 1) p (by simpa using h)
      rw [← this]
      congr 1
      omega

/-- **C104, the loop.** An input tensor at the start, or behind the image, gets the image. -/
theorem C104_copy (o n : Nat) (h : o = 0 ∨ n ≤ o) (m : Mem) : copyImage o n m = m.write o (shifted (m.read 0 n)) := by
  funext a
  have hl : (shifted (m.read 0 n)).length = n := by unfold shifted; rw [List.length_map, Conc.read_length]
  by_cases ha : a < (o : Int) ∨ (o : Int) + n ≤ a
  · rw [copyImage_other _ _ _ _ ha, Mem.write_other _ _ _ _ (by rw [hl]; exact ha)]
  · obtain ⟨i, rfl⟩ : ∃ i : Nat, a = ((o + i : Nat) : Int) := ⟨(a - o).toNat, by omega⟩
    have hi : i < n := by omega
    have hr : (shifted (m.read 0 n))[i]? = some (m i - 128) := by
      unfold shifted
      rw [List.getElem?_map, Conc.read_getElem _ _ _ _ hi]
      simp
    have hw := write_at m (o : Int) _ i _ hr
    rw [show (((o + i : Nat)) : Int) = (o : Int) + i by omega, hw]
    rcases h with rfl | h
    · have := copyImage_zero n m i hi
      simpa using this
    · have := C104_smear o n (by omega) m i hi
      rw [Nat.mod_eq_of_lt (show i < o by omega), Nat.div_eq_of_lt (show i < o by omega)] at this
      simpa using this

theorem read_withImage (image : List Byte) (rest : Mem) : (withImage image rest).read 0 image.length = image := Mem.read_write_same _ _ _

/-- Tensors that may be computed in place of `v` are not a little larger than `v`: equally large or at least twice as large. -/
def NoGrowth (f : Func) (v : Nat) : Prop := ∀ w, f.InPlaceChain v w → f.raw w ≤ f.raw v ∨ 2 * f.raw v ≤ f.raw w

theorem place_ok {f : Func} (wf : f.WF) (ip : f.InPlaceOK) {a : ModuleAttrs} (h : planMemory f = some a) {v : Nat} (hv : f.Arena v) (hg : NoGrowth f v) :
    offsetOf a.offsets v = 0 ∨ (f.raw v : Int) ≤ offsetOf a.offsets v := by
  rcases C104_place wf ip h hv with h0 | h0 | ⟨w, h1, h2, h3⟩
  · exact Or.inl h0
  · exact Or.inr h0
  · rw [h3]
    rcases hg w h1 with h4 | h4
    · left
      rw [show f.raw w - f.raw v = 0 by omega]
      rfl
    · right
      unfold roundUp8
      split <;> omega

/-- **C104** The application with any planned model of one input that is not computed in place of by a slightly larger tensor: after `init` and the loop, the arena is as if the shifted image had been
written to the input tensor. -/
theorem C104_input_partial {f : Func} (wf : f.WF) (ip : f.InPlaceOK) {a : ModuleAttrs} (h : planMemory f = some a) {v : Nat} (hv : f.Arena v) (hg : NoGrowth f v)
    (image : List Byte) (hi : image.length = f.raw v) (rest : Mem) (lo : Int) (hlo : a.peakUsage ≤ lo) (bytes : List Byte) :
    copyImage (offsetOf a.offsets v) image.length (initBuffers lo bytes (withImage image rest)) =
      (initBuffers lo bytes (withImage image rest)).write (offsetOf a.offsets v) (shifted image) := by
  have hp := place_ok wf ip h hv hg
  have hfit := (C06_chosen_plan wf ip h).2.1 v hv
  have hpos : 0 ≤ offsetOf a.offsets v := by omega
  have hru : f.raw v ≤ roundUp8 (f.raw v) := by unfold roundUp8; split <;> omega
  obtain ⟨o, ho⟩ : ∃ o : Nat, offsetOf a.offsets v = o := ⟨(offsetOf a.offsets v).toNat, by omega⟩
  rw [ho] at hp hfit ⊢
  rw [C104_copy o image.length (by omega)]
  congr 2
  refine Eq.trans ?_ (read_withImage image rest)
  apply Mem.read_congr
  intro x h1 h2
  exact Mem.write_other _ _ _ _ (by omega)

/-- **C104, networks.** Compiled and planned as in C83, the application gets the network's results for the shifted image. -/
theorem C104_network_partial (N : Network) (hN : N.OK) (skip : Nat → Bool) (ty : Ty) (h1 : N.inputs = [ty]) (a : ModuleAttrs) (ha : planMemory (N.func skip) = some a)
    (hg : NoGrowth (N.func skip) 0) (image : List Byte) (hi : image.length = ty.size) (rest : Mem) (lo : Int) (hlo : a.peakUsage ≤ lo) (bytes : List Byte)
    (sem : Sem) (c : Env) :
    (arenaTrace (N.func skip) (devKernels sem (N.compile skip).1.ops) a.offsets (N.func skip).ops 0
      (copyImage (offsetOf a.offsets 0) image.length (initBuffers lo bytes (withImage image rest))) c).getLast? = some (N.result sem [shifted image]) := by
  obtain ⟨hg', h0, ho, _⟩ := N.compile_spec hN skip (fun _ _ => []) (N.inputs.map fun t => List.replicate t.size 0) (by simp [List.map_map, Function.comp_def])
  have wf : (N.func skip).WF := toFunc_wf h0 hg' ho
  have ip : (N.func skip).InPlaceOK := toFunc_inPlace h0 hg'
  have hargs : (N.func skip).argSizes = [ty.size] := by
    show N.inputs.map Ty.size = _
    rw [h1]; rfl
  have hd : (N.func skip).decl 0 = ⟨ty.size, false, none⟩ := by
    unfold Func.decl Func.decls
    rw [hargs]
    rfl
  have hv : (N.func skip).Arena 0 := by
    refine ⟨?_, by rw [hd]⟩
    unfold Func.IsValue Func.numValues Func.decls
    rw [hargs]
    simp
  have hraw : (N.func skip).raw 0 = ty.size := by unfold Func.raw; rw [hd]
  rw [C104_input_partial wf ip ha hv hg image (by rw [hi, hraw]) rest lo hlo bytes]
  exact ((C83_network_compiled N hN skip).2 a ha).2 sem [shifted image] _ c (by rw [h1]; simp [shifted, hi])

/-! ### The full property is false -/

/-- The image reaches the input tensor of every planned model. -/
def C104_full : Prop :=
  ∀ (N : Network), N.OK → ∀ (skip : Nat → Bool) (ty : Ty), N.inputs = [ty] → ∀ (a : ModuleAttrs), planMemory (N.func skip) = some a →
    ∀ (image : List Byte), image.length = ty.size → ∀ (rest : Mem) (lo : Int), a.peakUsage ≤ lo → ∀ (bytes : List Byte) (sem : Sem) (c : Env),
      (arenaTrace (N.func skip) (devKernels sem (N.compile skip).1.ops) a.offsets (N.func skip).ops 0
        (copyImage (offsetOf a.offsets 0) image.length (initBuffers lo bytes (withImage image rest))) c).getLast? = some (N.result sem [shifted image])

/-- Four pixels of three channels, padded to four channels. -/
def exPadded : Network where
  inputs := [⟨[1, 2, 2, 3], 1⟩]
  nodes := [⟨.pad true (-3) [0, 0, 0, 0, 0, 0, 0, 1], [0], ⟨[1, 2, 2, 4], 1⟩⟩]
  outputs := [1]

theorem exPadded_ok : exPadded.OK := by
  refine ⟨⟨by decide, ⟨⟨[1, 2, 2, 3], 1⟩, false, rfl, rfl, ?_, by decide, fun _ => ⟨rfl, fun _ => Or.inl (by decide)⟩⟩, trivial⟩, by decide⟩
  exact ⟨rfl, rfl, rfl, rfl, trivial⟩

/-- The pad to four channels works in place, at the end of its result: the input tensor is inside the image. -/
theorem exPadded_plan : planMemory (exPadded.func fun _ => true) = some ⟨[8, 0], 32, 1⟩ := by decide +kernel

theorem C104_full_refuted : ¬ C104_full := by
  intro h
  have := h exPadded exPadded_ok (fun _ => true) _ rfl _ exPadded_plan [1, 2, 3, 4, 5, 6, 7, 8, 9, 10, 11, 12] rfl (fun _ => 0) 32 (by decide) [] (fun _ _ => []) (fun _ => [])
  revert this
  decide +kernel

/-- The sizes of the example (160 x 160 x 3 bytes, padded to four channels; then tensors of 80 x 80 x 32 and 80 x 80 x 96). -/
def mobileNet : Func where
  argSizes := [76800]
  ops := [⟨false, false, true, [0], [102400]⟩, ⟨false, false, false, [1], [204800]⟩, ⟨false, false, false, [2], [614400]⟩, ⟨false, false, false, [3], [1000]⟩,
    ⟨false, true, false, [4], []⟩]

/-- **C104, finding.** With these sizes the input is 25600 bytes behind the start, and the model sees a third of the image three times, the second time without the subtraction, whatever the image is. -/
theorem C104_mobileNet : planMemory mobileNet = some ⟨[25600, 0, 614400, 0, 614400], 819200, 3⟩ ∧
    ∀ (image : List Byte), image.length = 76800 → ∀ (rest : Mem) (i : Nat), i < 25600 →
      copyImage 25600 76800 (withImage image rest) ((25600 + i : Nat) : Int) = image.getD i 0 - 128 ∧
      copyImage 25600 76800 (withImage image rest) ((25600 + (25600 + i) : Nat) : Int) = image.getD i 0 ∧
      copyImage 25600 76800 (withImage image rest) ((25600 + (51200 + i) : Nat) : Int) = image.getD i 0 - 128 := by
  refine ⟨by decide +kernel, ?_⟩
  intro image hi rest i hlt
  have hx : withImage image rest (i : Int) = image.getD i 0 := by
    have hl : i < image.length := by omega
    have := write_at rest 0 image i image[i] (List.getElem?_eq_getElem hl)
    rw [List.getD_eq_getElem?_getD, List.getElem?_eq_getElem hl]
    simpa [withImage] using this
  refine ⟨?_, ?_, ?_⟩
  · have := C104_smear 25600 76800 (by omega) (withImage image rest) i (by omega)
    rw [show i / 25600 % 2 = 0 by omega, show i % 25600 = i by omega, if_pos rfl, hx] at this
    exact this
  · have := C104_smear 25600 76800 (by omega) (withImage image rest) (25600 + i) (by omega)
    rw [show (25600 + i) / 25600 % 2 = 1 by omega, show (25600 + i) % 25600 = i by omega, if_neg (by omega), hx] at this
    exact this
  · have := C104_smear 25600 76800 (by omega) (withImage image rest) (51200 + i) (by omega)
    rw [show (51200 + i) / 25600 % 2 = 0 by omega, show (51200 + i) % 25600 = i by omega, if_pos rfl, hx] at this
    exact this

/-! ### Example -/

/-- The first operator reads four channels and does not work in place; the second one does. -/
def exDirect : Network where
  inputs := [⟨[1, 2, 2, 4], 1⟩]
  nodes := [⟨.other false 0, [0], ⟨[8], 1⟩⟩, ⟨.other true 1, [1], ⟨[8], 1⟩⟩]
  outputs := [2]

theorem exDirect_ok : exDirect.OK := by
  refine ⟨⟨by decide, ⟨fun h => (by cases h), by decide, fun _ => ?_, trivial⟩⟩, by decide⟩
  decide

theorem exDirect_noGrowth (skip : Nat → Bool) : NoGrowth (exDirect.func skip) 0 := by
  have hf : exDirect.func skip = exDirect.func fun _ => false := rfl
  rw [hf]
  have hno : ∀ w, ¬ (exDirect.func fun _ => false).InPlaceStep 0 w := by
    rintro w ⟨j, hu, ho, -⟩
    have hlt : j < 3 := hu.1
    match j, hlt with
    | 0, _ => exact absurd ho (by decide)
    | 1, _ => exact absurd hu.2 (by decide)
    | 2, _ => exact absurd hu.2 (by decide)
  intro w hw
  cases hw with
  | single h => exact absurd h (hno _)
  | cons h _ => exact absurd h (hno _)

/-- **C104, example.** The first operator adds 1 to the first eight bytes, the second one adds 1 again. -/
theorem C104_example (rest : Mem) (bytes : List Byte) (c : Env) : exDirect.OK ∧ planMemory (exDirect.func fun _ => false) = some ⟨[0, 16, 16], 24, 2⟩ ∧
    NoGrowth (exDirect.func fun _ => false) 0 ∧
    (arenaTrace (exDirect.func fun _ => false) (devKernels (fun _ xs => ((xs.headD []).take 8).map (· + 1)) (exDirect.compile fun _ => false).1.ops) [0, 16, 16]
      (exDirect.func fun _ => false).ops 0
      (copyImage 0 16 (initBuffers 24 bytes (withImage [128, 129, 130, 131, 132, 133, 134, 135, 0, 0, 0, 0, 0, 0, 0, 0] rest))) c).getLast? =
      some [[2, 3, 4, 5, 6, 7, 8, 9]] := by
  have hp : planMemory (exDirect.func fun _ => false) = some ⟨[0, 16, 16], 24, 2⟩ := by decide +kernel
  refine ⟨exDirect_ok, hp, exDirect_noGrowth _, ?_⟩
  refine Eq.trans (C104_network_partial exDirect exDirect_ok _ _ rfl _ hp (exDirect_noGrowth _) [128, 129, 130, 131, 132, 133, 134, 135, 0, 0, 0, 0, 0, 0, 0, 0] rfl rest 24
    (by decide) bytes (fun _ xs => ((xs.headD []).take 8).map (· + 1)) c) ?_
  decide +kernel

end Verif.Shipped.Image
