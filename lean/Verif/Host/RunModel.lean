import Verif.Host.UsbSession
import Verif.Shipped.Agree

/-!
# C125: run_model.py reports the same for the host interpreter and for the device over USB

examples/app_no_flash_with_ioserver/run_model.py runs images through the host interpreter and then through the device. This file composes C68 and C123.
-/

namespace Verif.Host.RunModel

open Verif.MemPlan Verif.Shipped.IoServer Verif.Host.UsbSession
open Verif.Host.Usb (Frames)
open Verif.Host.Interp (Model TensorInfo Bytes Outcome calls fresh)
open Verif.Shipped.Agree (signed)

/-- One image on the host (run_model.py 50-55). -/
def infer (m : Model) (x : List Byte) : List Verif.Host.Interp.Call :=
  match m.inputs, m.outputs with
  | [ti], [to_] => [.setTensor ti.index (x.map UInt8.toNat) 0, .invoke 0, .getTensor to_.index none 0]
  | _, _ => []

/-- The first part of the script (36-63): what `get_tensor` returns for the last of the images. -/
def onHost (m : Model) (before : List (List Byte)) (x : List Byte) : Option (List Nat) :=
  match calls fresh (.setModel m 0 :: before.flatMap (infer m) ++ infer m x) [] with
  | .ok _ r => some r
  | _ => none

/-- The second part (70-92): the calls for the images, over USB. -/
def overUsb (images : List (List Byte)) : List Call := images.flatMap fun x => [.write 0 x, .start, .read 0]

/-- `print_detections` (25-28) on the `int8` elements: whether "Human" is printed, and the percentage before `:.0f` rounds it. `none`: fewer than two elements. The sum
and the product are taken to be exact (numpy before 2 widens them; numpy 2 refuses the sum). -/
def report (d : List Int) : Option (Bool × ℚ) :=
  match d with
  | a :: b :: _ => some (!decide (a > b), (b + 128) * 100 / 255)
  | _ => none

/-- What the applications print themselves (app_flash_two_models/src/main.cpp 39): C's division of integers. -/
def deviceReport (d : List Int) : Option (Bool × Int) :=
  match d with
  | a :: b :: _ => some (!decide (a > b), ((b + 128) * 100).tdiv 255)
  | _ => none

/-! ### Proofs -/

theorem elements_one (l : List Nat) : elements 1 l = l.map fun y => [y] := by
  refine List.ext_getElem? fun n => ?_
  simp only [elements, Nat.mul_one, Nat.div_one, List.getElem?_map]
  by_cases hn : n < l.length
  · rw [List.getElem?_range hn, List.getElem?_eq_getElem hn]
    simp only [Option.map_some, Option.some.injEq]
    rw [List.drop_eq_getElem_cons hn]
    rfl
  · rw [List.getElem?_eq_none (by simpa using hn), List.getElem?_eq_none (by simpa using hn)]
    rfl

theorem onHost_spec {m : Model} (ok : m.OK) {ti to_ : TensorInfo} (hin : m.inputs = [ti]) (hout : m.outputs = [to_]) (h0 : ti.index = 0)
    (before : List (List Byte)) (hb : ∀ y ∈ before, y.length = ti.bytes) (x : List Byte) (hx : x.length = ti.bytes) :
    ∃ st r, onHost m before x = some r ∧ (m.run st [x.map UInt8.toNat]).2.1[0]? = some r := by
  have hi : ∀ y, infer m y = [.setTensor 0 (y.map UInt8.toNat) 0, .invoke 0, .getTensor to_.index none 0] := by
    intro y; unfold infer; rw [hin, hout]; dsimp only; rw [h0]
  obtain ⟨s0, s, e0, r0, reply, k, t, -, -, c3, c4, -, -, c5⟩ := Verif.Host.Interp.C68_inference ok (before.flatMap (infer m))
    (by
      intro c hc
      obtain ⟨y, hy, hc⟩ := List.mem_flatMap.1 hc
      rw [hi y] at hc
      simp only [List.mem_cons, List.not_mem_nil, or_false] at hc
      rcases hc with rfl | rfl | rfl
      · simp [Verif.Host.Interp.Fits, hin, hb y hy]
      · simp [Verif.Host.Interp.Fits]
      · simp [Verif.Host.Interp.Fits, hout])
    [(0, x.map UInt8.toNat)] (by intro p hp; simp only [List.mem_singleton] at hp; subst hp; exact ⟨ti, by simp [hin], by simpa using hx⟩)
    [x.map UInt8.toNat] (by simp [hin])
    (by intro i h; have : i = 0 := by simpa using h
        subst this; simp [Verif.Host.Interp.lastSet]) to_.index ⟨to_, by simp [hout], rfl⟩
  have hk : k = 0 := by
    rw [hout] at c4
    cases k with
    | zero => rfl
    | succ k => simp at c4
  subst hk
  refine ⟨e0.st, reply, ?_, c5⟩
  unfold onHost
  rw [hi x]
  simp only [List.map_cons, List.map_nil, List.cons_append, List.nil_append, List.append_assoc] at c3 ⊢
  rw [c3]

/-- **C125.** For every sequence of images: what the script reads over USB is, image by image, what the host interpreter returns, namely what the model computes; so both parts report the
same. -/
theorem C125_same {f : Func} (wf : f.WF) (ip : f.InPlaceOK) {b : Bool} {p : Plan} (h : getAllocatedOffsets f b = some p) (k : Kernels) (hk : Kernels.Fit f k)
    (body : List Op) (ret : Op) (hops : f.ops = body ++ [ret]) (hret : ret.isTerm = true) (junk : Nat → Byte) (frame : List Nat → List (List Nat))
    (hf : ∀ d, Frames d (frame d)) (n v : Nat) (hn : 0 < n) (hargs : f.argSizes = [n]) (hv : ret.operands = [v]) (hvc : (f.decl v).isConst = false)
    (shape : List Nat) (hshape : shape.prod = f.raw v)
    (m : Model) (ok : m.OK) (ti to_ : TensorInfo) (hin : m.inputs = [ti]) (hout : m.outputs = [to_]) (h0 : ti.index = 0) (hti : ti.bytes = n)
    (hm : ∀ (st : Nat) (x : List Byte), x.length = n →
      some (m.run st [x.map UInt8.toNat]).2.1 = (refTrace f k f.ops 0 (inputEnv [x])).getLast?.map (List.map (List.map UInt8.toNat)))
    (images : List (List Byte)) (hi : ∀ x ∈ images, x.length = n) (mem : Mem) (c : Env) :
    ∃ rs : List (List Byte), rs.length = images.length ∧
      session ⟨f, p.offsets, k, ret.operands⟩ junk frame [⟨shape, 1⟩] (overUsb images ++ [.close]) mem c =
        some (rs.map fun r => some (r.map fun y => [y.toNat])) ∧
      ∀ (i : Nat) (x r : List Byte), images[i]? = some x → rs[i]? = some r →
        onHost m (images.take i) x = some (r.map UInt8.toNat) ∧ ∃ outs, (refTrace f k f.ops 0 (inputEnv [x])).getLast? = some outs ∧ outs.getD 0 [] = r := by
  have key : ∀ x : List Byte, x.length = n → ∃ outs, (refTrace f k f.ops 0 (inputEnv [x])).getLast? = some outs := by
    intro x hx
    have := hm 0 x hx
    cases hl : (refTrace f k f.ops 0 (inputEnv [x])).getLast? with
    | none => rw [hl] at this; cases this
    | some o => exact ⟨o, rfl⟩
  have hs := C123_session wf ip h k hk body ret hops hret junk frame hf [⟨shape, 1⟩]
    (by intro j hj
        have : j = 0 := by simpa [hv] using hj
        subst this
        exact ⟨_, rfl, .inl rfl, by simp [hv, hshape]⟩)
    (images.map fun x => ⟨[(0, x)], [0]⟩)
    (by
      intro r hr
      obtain ⟨x, hx, rfl⟩ := List.mem_map.1 hr
      refine ⟨?_, ?_, ?_⟩
      · intro y hy
        simp only [List.mem_singleton] at hy
        subst hy
        refine ⟨by simp [hargs], by show (0 : Nat) < 256; decide, by simp [hargs, hi x hx], ?_⟩
        have := hi x hx
        intro e
        simp only at e
        rw [e] at this
        simp at this
        omega
      · intro i hi'
        have : i = 0 := by simpa [hargs] using hi'
        subst this
        simp [latest]
      · intro j hj
        simp only [List.mem_singleton] at hj
        subst hj
        simp [hv, hvc]) mem c
  have ec : (images.map fun x => (⟨[(0, x)], [0]⟩ : Run)).flatMap Run.calls = overUsb images := by
    simp [overUsb, List.flatMap_map, Run.calls]
  rw [ec] at hs
  let g : List Byte → List Byte := fun x => ((refTrace f k f.ops 0 (inputEnv [x])).getLast?.getD []).getD 0 []
  refine ⟨images.map g, by simp, ?_, ?_⟩
  · rw [hs, List.flatMap_map]
    congr 1
    rw [List.map_map]
    have : ∀ x ∈ images, ([0].map fun j => (refTrace f k f.ops 0 (inputEnv (Run.inputs f ⟨[(0, x)], [0]⟩))).getLast?.bind fun outs =>
        ([⟨shape, 1⟩] : List Details)[j]?.map fun d => elements d.width ((outs.getD j []).map UInt8.toNat)) = [some ((g x).map fun y => [y.toNat])] := by
      intro x hx
      have e : Run.inputs f ⟨[(0, x)], [0]⟩ = [x] := by simp [Run.inputs, hargs, latest]
      obtain ⟨o, ho⟩ := key x (hi x hx)
      simp only [List.map_cons, List.map_nil, e, g, ho, Option.bind_some, Option.getD_some, List.getElem?_cons_zero, Option.map_some, elements_one, List.map_map]
      rfl
    clear hs hi ec
    induction images with
    | nil => rfl
    | cons x xs ih =>
      rw [List.flatMap_cons, this x (by simp), List.map_cons, ih (fun y hy => this y (List.mem_cons_of_mem _ hy))]
      rfl
  · intro i x r e1 e2
    rw [List.getElem?_map, e1] at e2
    simp only [Option.map_some, Option.some.injEq] at e2
    have hx := hi x (List.mem_of_getElem? e1)
    obtain ⟨o, ho⟩ := key x hx
    have er : r = o.getD 0 [] := by rw [← e2]; simp [g, ho]
    refine ⟨?_, o, ho, er.symm⟩
    obtain ⟨st, q, q1, q2⟩ := onHost_spec ok hin hout h0 (images.take i) (fun y hy => by rw [hti]; exact hi y (List.mem_of_mem_take hy)) x (by rw [hti]; exact hx)
    rw [q1]
    have := hm st x hx
    rw [ho] at this
    simp only [Option.map_some, Option.some.injEq] at this
    rw [this, List.getElem?_map] at q2
    cases o with
    | nil => simp at q2
    | cons a o => simp at q2; rw [er, ← q2]; rfl

/-- **C125.** The percentage is between 0 and 100, and what the applications print is the same label and the percentage rounded down. -/
theorem C125_report (d : List Int) (hd : ∀ x ∈ d, -128 ≤ x ∧ x ≤ 127) :
    (report d).map Prod.fst = (deviceReport d).map Prod.fst ∧
    ∀ l q, report d = some (l, q) → 0 ≤ q ∧ q ≤ 100 ∧ deviceReport d = some (l, ⌊q⌋) := by
  match d, hd with
  | [], _ => exact ⟨rfl, by intro l q h; cases h⟩
  | [_], _ => exact ⟨rfl, by intro l q h; cases h⟩
  | a :: b :: _, hd =>
    refine ⟨rfl, ?_⟩
    intro l q h
    simp only [report, Option.some.injEq, Prod.mk.injEq] at h
    obtain ⟨rfl, rfl⟩ := h
    have hb := hd b (by simp)
    have h1 : (-128 : ℚ) ≤ b := by exact_mod_cast hb.1
    have h2 : (b : ℚ) ≤ 127 := by exact_mod_cast hb.2
    refine ⟨by linarith, by linarith, ?_⟩
    simp only [deviceReport, Option.some.injEq, Prod.mk.injEq, true_and]
    rw [Int.tdiv_eq_ediv_of_nonneg (by omega)]
    have := Rat.floor_intCast_div_natCast ((b + 128) * 100) 255
    push_cast at this
    rw [this]

/-- C123's example model on the host. -/
def exM : Model where
  inputs := [⟨0, [1, 6], .int8⟩]
  outputs := [⟨1, [1, 6], .int8⟩]
  loads := true
  blank := ([List.replicate 6 0], [List.replicate 6 0])
  init := 0
  run st ins := (st, [((exK 0 (ins.map (List.map UInt8.ofNat))).headD []).map UInt8.toNat], ins)

theorem exM_ok : exM.OK := by
  refine ⟨rfl, ⟨rfl, rfl⟩, ?_, ?_, ?_⟩
  · intro st ins hs
    exact ⟨by simp [exM, Verif.Host.Interp.Sized, exK, TensorInfo.bytes, Verif.Host.Interp.ElemType.bytes], hs⟩
  · intro t ht n h
    simp only [exM, List.mem_singleton] at ht
    subst ht; cases h
  · intro t ht n h
    simp only [exM, List.mem_singleton] at ht
    subst ht; cases h

/-- **C125, example.** Two images: not a human (output -127 and -128: 0%), and a human (-128 and 127: 100%), on the host and over USB. -/
theorem C125_example (junk : Nat → Byte) (mem : Mem) (c : Env) :
    ∃ rs : List (List Byte), session ⟨exF, [0, 0], exK, [1]⟩ junk exFrame [⟨[1, 6], 1⟩] (overUsb [[128, 127, 0, 0, 0, 0], [127, 126, 0, 0, 0, 0]] ++ [.close]) mem c =
        some (rs.map fun r => some (r.map fun y => [y.toNat])) ∧
      onHost exM [] [128, 127, 0, 0, 0, 0] = some [129, 128, 1, 1, 1, 1] ∧ rs[0]? = some [129, 128, 1, 1, 1, 1] ∧
      onHost exM [[128, 127, 0, 0, 0, 0]] [127, 126, 0, 0, 0, 0] = some [128, 127, 1, 1, 1, 1] ∧ rs[1]? = some [128, 127, 1, 1, 1, 1] ∧
      report ([129, 128, 1, 1, 1, 1].map signed) = some (false, 0) ∧ report ([128, 127, 1, 1, 1, 1].map signed) = some (true, 100) := by
  have hp : getAllocatedOffsets exF true = some ⟨[0, 0], 8, 2⟩ := by decide +kernel
  have hm : ∀ (st : Nat) (x : List Byte), x.length = 6 →
      some (exM.run st [x.map UInt8.toNat]).2.1 = (refTrace exF exK exF.ops 0 (inputEnv [x])).getLast?.map (List.map (List.map UInt8.toNat)) := by
    intro st x _
    have e : (x.map UInt8.toNat).map UInt8.ofNat = x := by simp [Function.comp_def]
    show some [((exK 0 ([(x.map UInt8.toNat)].map (List.map UInt8.ofNat))).headD []).map UInt8.toNat] = _
    rw [List.map_cons, e]
    rfl
  obtain ⟨rs, h1, h2, h3⟩ := C125_same exF_wf exF_inPlace hp exK exK_fit [⟨false, false, true, [0], [6]⟩] ⟨false, true, false, [1], []⟩ rfl rfl junk exFrame exFrame_ok
    6 1 (by decide) rfl rfl (by decide) [1, 6] (by decide) exM exM_ok _ _ rfl rfl rfl rfl hm [[128, 127, 0, 0, 0, 0], [127, 126, 0, 0, 0, 0]]
    (by intro x hx; simp only [List.mem_cons, List.not_mem_nil, or_false] at hx; rcases hx with rfl | rfl <;> rfl) mem c
  match rs, h1, h2, h3 with
  | [a, b], _, h2, h3 =>
    obtain ⟨q1, o, q2, q3⟩ := h3 0 _ a rfl rfl
    obtain ⟨r1, o', r2, r3⟩ := h3 1 _ b rfl rfl
    have e1 : (refTrace exF exK exF.ops 0 (inputEnv [[128, 127, 0, 0, 0, 0]])).getLast? = some [[129, 128, 1, 1, 1, 1]] := by decide +kernel
    have e2 : (refTrace exF exK exF.ops 0 (inputEnv [[127, 126, 0, 0, 0, 0]])).getLast? = some [[128, 127, 1, 1, 1, 1]] := by decide +kernel
    rw [e1] at q2
    rw [e2] at r2
    cases q2
    cases r2
    simp only [List.getD_cons_zero] at q3 r3
    subst q3 r3
    refine ⟨_, h2, q1, rfl, r1, rfl, ?_, ?_⟩
    · simp [report, signed]
    · simp [report, signed]
      norm_num

end Verif.Host.RunModel
