import Verif.Shipped.Image
import Verif.Shipped.Classify
import Verif.Host.Interp

/-!
# C122: the example's script on the host and its application on the device report the same class

examples/app_mobilenetv2 (and app_yolov8_classification, with the same code) runs one image twice: obtain_and_optimize_mobilenetv2.py through the host
interpreter, support.cpp in the device's arena. This file composes C68 (interpreter), C104 (image in the arena) and C105 (greatest output).
-/

namespace Verif.Shipped.Agree

open Verif.MemPlan Verif.Net Verif.Shipped.Image Verif.Shipped.Classify
open Verif.Host.Interp (Model TensorInfo Bytes Call Outcome calls fresh)

/-- A byte as `int8`. -/
def signed (b : Byte) : Int := if b.toNat < 128 then b.toNat else (b.toNat : Int) - 256

/-- numpy's `argmax` (contract of numpy: the first of the greatest elements), as a loop from the second element. -/
def argmaxLoop : Nat → List Int → Nat × Int → Nat × Int
  | _, [], s => s
  | i, x :: xs, (k, mx) => argmaxLoop (i + 1) xs (if mx < x then (i, x) else (k, mx))

def argmax : List Int → Nat
  | [] => 0
  | x :: xs => (argmaxLoop 1 xs (0, x)).1

/-- `(input_array - 128).astype(np.int8)` (obtain_and_optimize_mobilenetv2.py 65-68): the subtraction is in `uint8` and wraps, the conversion keeps
the byte; `astype(input_details["dtype"])` (86) changes nothing for an `int8` input. -/
def pixels (image : List Byte) : Bytes := image.map fun b => (b - 128).toNat

inductive Printed
  | cls (k : Nat)
  | raised
  | undefined
  deriving DecidableEq

/-- The script's main part (lines 71-94) for a model with `int8` tensors: unpacking the details fails unless there is one input and one output;
`reshape` fails unless the image has as many bytes as the input has elements. -/
def script (m : Model) (image : List Byte) : Printed :=
  match m.inputs, m.outputs with
  | [ti], [to_] =>
    if image.length = ti.shape.prod then
      match calls fresh [.setModel m 0, .setTensor ti.index (pixels image) 0, .invoke 0, .getTensor to_.index none 0] [] with
      | .ok _ r => .cls (argmax (r.map fun b => signed (UInt8.ofNat b)))
      | .raised => .raised
      | .undefined => .undefined
    else .raised
  | _, _ => .raised

/-- What the application reports (support.cpp 30-38), from the bytes of the output tensor. -/
def deviceClass (outs : List Byte) : Int := best (outs.map signed)

/-! ## Proofs -/

theorem argmaxLoop_spec (xs : List Int) : ∀ (pre : List Int) (k : Nat) (mx : Int), pre[k]? = some mx →
    (∀ (j : Nat) (y : Int), pre[j]? = some y → y ≤ mx) → (∀ (j : Nat) (y : Int), j < k → pre[j]? = some y → y < mx) →
    IsFirstGreatest (pre ++ xs) (argmaxLoop pre.length xs (k, mx)).1 := by
  induction xs with
  | nil => intro pre k mx h1 h2 h3; simpa [argmaxLoop] using ⟨mx, h1, h2, h3⟩
  | cons x xs ih =>
    intro pre k mx h1 h2 h3
    have hk : k < pre.length := (List.getElem?_eq_some_iff.1 h1).1
    have get : ∀ (j : Nat) (y : Int), (pre ++ [x])[j]? = some y → pre[j]? = some y ∨ (j = pre.length ∧ y = x) := by
      intro j y h
      rcases Nat.lt_trichotomy j pre.length with c | c | c
      · rw [List.getElem?_append_left c] at h; exact .inl h
      · subst c; simp at h; exact .inr ⟨rfl, h.symm⟩
      · rw [List.getElem?_eq_none (by simp; omega)] at h; cases h
    have e : pre ++ x :: xs = (pre ++ [x]) ++ xs := by simp
    rw [e]
    simp only [argmaxLoop]
    have l : (pre ++ [x]).length = pre.length + 1 := by simp
    rw [← l]
    split
    · rename_i hlt
      refine ih (pre ++ [x]) pre.length x (by simp) ?_ ?_
      · intro j y h
        rcases get j y h with h | ⟨-, rfl⟩
        · have := h2 j y h; omega
        · exact le_refl _
      · intro j y hj h
        rw [List.getElem?_append_left hj] at h
        have := h2 j y h; omega
    · rename_i hlt
      refine ih (pre ++ [x]) k mx (by rw [List.getElem?_append_left hk]; exact h1) ?_ ?_
      · intro j y h
        rcases get j y h with h | ⟨-, rfl⟩
        · exact h2 j y h
        · omega
      · intro j y hj h
        rw [List.getElem?_append_left (by omega)] at h
        exact h3 j y hj h

theorem argmax_spec (l : List Int) (h : l ≠ []) : IsFirstGreatest l (argmax l) := by
  cases l with
  | nil => exact absurd rfl h
  | cons x xs =>
    have := argmaxLoop_spec xs [x] 0 x rfl (by intro j y hy; cases j <;> simp_all) (by intro j y hj; omega)
    simpa [argmax] using this

theorem first_unique {l : List Int} {i j : Nat} (hi : IsFirstGreatest l i) (hj : IsFirstGreatest l j) : i = j := by
  obtain ⟨x, a1, a2, a3⟩ := hi
  obtain ⟨y, b1, b2, b3⟩ := hj
  have e1 := a2 j y b1
  have e2 := b2 i x a1
  rcases Nat.lt_trichotomy i j with c | c | c
  · have := b3 i x c a1; omega
  · exact c
  · have := a3 j y c b1; omega

theorem shifted_toNat (image : List Byte) : (shifted image).map UInt8.toNat = pixels image := by
  simp [shifted, pixels, Function.comp_def]

theorem round (o : List Byte) : ((o.map UInt8.toNat).map fun b => signed (UInt8.ofNat b)) = o.map signed := by
  simp [Function.comp_def]

/-- The script prints the first greatest of the outputs that the model computes on the shifted image. -/
theorem script_spec {m : Model} (ok : m.OK) {ti to_ : TensorInfo} (hin : m.inputs = [ti]) (hout : m.outputs = [to_]) (h8 : ti.type = .int8)
    (h0 : ti.index = 0) (image : List Byte) (hi : image.length = ti.shape.prod) :
    ∃ r, (m.run m.init [pixels image]).2.1 = [r] ∧ r.length = to_.bytes ∧ script m image = .cls (argmax (r.map fun b => signed (UInt8.ofNat b))) := by
  have hlen : (pixels image).length = ti.bytes := by
    simp [pixels, TensorInfo.bytes, Verif.Host.Interp.ElemType.bytes, h8, hi]
  obtain ⟨s0, s, e0, r0, reply, k, t, c1, c2, c3, c4, -, -, c5⟩ := Verif.Host.Interp.C68_inference ok [] (by simp) [(0, pixels image)]
    (by intro p hp; simp only [List.mem_singleton] at hp; subst hp; exact ⟨ti, by simp [hin], hlen⟩) [pixels image] (by simp [hin])
    (by intro i h; have : i = 0 := by simpa using h
        subst this; simp [Verif.Host.Interp.lastSet]) to_.index ⟨to_, by simp [hout], rfl⟩
  have he : e0 = Verif.Host.Interp.newEngine m := by
    obtain ⟨q1, -⟩ := Verif.Host.Interp.setModel_ready ok
    rw [calls, show Verif.Host.Interp.call fresh (.setModel m 0) = _ from q1] at c1
    simp only [calls, Outcome.ok.injEq] at c1
    rw [← c1.1] at c2
    simpa using c2.symm
  have hst : e0.st = m.init := by rw [he]; rfl
  rw [hst] at c5
  have hs := (ok.run m.init [pixels image] (by simp [Verif.Host.Interp.Sized, hin, hlen])).1
  obtain ⟨outs, eo⟩ : ∃ outs, outs = (m.run m.init [pixels image]).2.1 := ⟨_, rfl⟩
  rw [← eo] at c5 hs ⊢
  rw [Verif.Host.Interp.Sized, hout] at hs
  match outs, hs, c5 with
  | [], hs, _ => simp at hs
  | _ :: _ :: _, hs, _ => simp at hs
  | [r], hs, c5 =>
    have hk : k = 0 := by
      cases k with
      | zero => rfl
      | succ k => simp at c5
    subst hk
    simp only [List.getElem?_cons_zero, Option.some.injEq] at c5
    subst c5
    refine ⟨_, rfl, by simpa using hs, ?_⟩
    simp only [List.map_cons, List.map_nil, List.cons_append, List.nil_append] at c3
    unfold script
    rw [hin, hout]
    dsimp only
    rw [if_pos hi, h0, c3]

/-- **C122** (in part). The image is kept at the start of the arena (C104's conditions), the host's engine computes the same network (`hm`), whose output
is not empty: then the application and the script see the same outputs, and report the same class, the first one with the greatest output, if some output is above
-128. What is missing: without that, and without C104's condition on the plan, they disagree (`C122_lowest_refuted`, `C122_smear_refuted`). -/
theorem C122_agree_partial (N : Network) (hN : N.OK) (skip : Nat → Bool) (ty : Ty) (h1 : N.inputs = [ty]) (a : ModuleAttrs)
    (ha : planMemory (N.func skip) = some a) (hg : NoGrowth (N.func skip) 0) (image : List Byte) (hi : image.length = ty.size) (rest : Mem) (lo : Int)
    (hlo : a.peakUsage ≤ lo) (bytes : List Byte) (sem : Sem) (c : Env)
    (m : Model) (ok : m.OK) (ti to_ : TensorInfo) (hin : m.inputs = [ti]) (hout : m.outputs = [to_]) (h8 : ti.type = .int8) (h0 : ti.index = 0)
    (hs : ti.shape.prod = ty.size)
    (hm : ∀ x : List Byte, x.length = ty.size → (m.run m.init [x.map UInt8.toNat]).2.1 = (N.result sem [x]).map (List.map UInt8.toNat)) :
    ∃ outs : List Byte,
      (arenaTrace (N.func skip) (devKernels sem (N.compile skip).1.ops) a.offsets (N.func skip).ops 0
        (copyImage (offsetOf a.offsets 0) image.length (initBuffers lo bytes (withImage image rest))) c).getLast? = some [outs] ∧
      outs.length = to_.bytes ∧
      (NotAllLowest (outs.map signed) →
        ∃ k : Nat, deviceClass outs = k ∧ script m image = .cls k ∧ IsFirstGreatest (outs.map signed) k) := by
  have hd := C104_network_partial N hN skip ty h1 a ha hg image hi rest lo hlo bytes sem c
  obtain ⟨r, hr, hrl, hsc⟩ := script_spec ok hin hout h8 h0 image (by rw [hi, hs])
  have hx := hm (shifted image) (by simp [shifted, hi])
  rw [shifted_toNat, hr] at hx
  obtain ⟨res, er⟩ : ∃ res, res = N.result sem [shifted image] := ⟨_, rfl⟩
  rw [← er] at hx hd
  match res, hx, hd with
  | [outs], hx, hd =>
    simp only [List.map_cons, List.map_nil, List.cons.injEq, and_true] at hx
    subst hx
    rw [round] at hsc
    refine ⟨outs, hd, by simpa using hrl, fun hl => ?_⟩
    obtain ⟨k, hb, hk⟩ := C105_best_partial _ hl
    have hne : outs.map signed ≠ [] := by
      obtain ⟨x, hx, -⟩ := hl
      exact List.ne_nil_of_mem hx
    have := first_unique (argmax_spec _ hne) hk
    exact ⟨k, hb, by rw [hsc, this], hk⟩

/-- **C122** (refuted): if all outputs are -128 the application reports no class and the script class 0. -/
theorem C122_lowest_refuted (n : Nat) : deviceClass (List.replicate (n + 1) 128) = -1 ∧ argmax ((List.replicate (n + 1) (128 : Byte)).map signed) = 0 := by
  have e : (List.replicate (n + 1) (128 : Byte)).map signed = List.replicate (n + 1) (-128) := by
    rw [List.map_replicate]; rfl
  refine ⟨?_, ?_⟩
  · unfold deviceClass
    rw [e]
    refine C105_none _ ?_
    rintro ⟨x, hx, hlt⟩
    rw [List.eq_of_mem_replicate hx] at hlt
    omega
  · rw [e]
    refine first_unique (argmax_spec _ (by simp [List.replicate])) ⟨-128, by simp, ?_, by intro j y hj; omega⟩
    intro j y hy
    have := List.eq_of_mem_replicate (List.mem_of_getElem? hy)
    omega

/-- A host model for a network with one input and one output. -/
def hostModel (N : Network) (sem : Sem) (ti to_ : TensorInfo) : Model where
  inputs := [ti]
  outputs := [to_]
  loads := true
  blank := ([List.replicate ti.bytes 0], [List.replicate to_.bytes 0])
  init := 0
  run st ins := (st, (N.result sem (ins.map (List.map UInt8.ofNat))).map (List.map UInt8.toNat), ins)

/-- **C122** (refuted): C104's network, which pads an image to four channels in place. On this image the script prints class 14, the last pixel; the
application, whose loop reads pixels that it has overwritten, reports class 10. -/
theorem C122_smear_refuted :
    let image : List Byte := [0, 0, 0, 0, 0, 0, 0, 0, 0, 0, 0, 255]
    script (hostModel exPadded (fun _ _ => []) ⟨0, [1, 2, 2, 3], .int8⟩ ⟨1, [1, 2, 2, 4], .int8⟩) image = .cls 14 ∧
    ∃ outs, (arenaTrace (exPadded.func fun _ => true) (devKernels (fun _ _ => []) (exPadded.compile fun _ => true).1.ops) [8, 0]
      (exPadded.func fun _ => true).ops 0 (copyImage 8 12 (withImage image fun _ => 0)) (fun _ => [])).getLast? = some [outs] ∧ deviceClass outs = 10 := by
  refine ⟨by decide +kernel, [128, 128, 128, 253, 128, 128, 128, 253, 128, 128, 0, 253, 0, 0, 0, 253], ?_, ?_⟩
  · decide +kernel
  · decide +kernel

/-- The example's operators: each adds 1 to the first eight bytes. -/
def exSem : Sem := fun _ xs => ((xs.headD []).take 8).map (· + 1)

def exHost : Model := hostModel exDirect exSem ⟨0, [1, 2, 2, 4], .int8⟩ ⟨2, [8], .int8⟩

theorem exDirect_result (x : List Byte) : ∃ o, exDirect.result exSem [x] = [o] ∧ o.length = 8 := by
  refine ⟨_, rfl, ?_⟩
  simp only [exDirect, evalNodes, eval, List.zip_cons_cons, List.zip_nil_left, List.map_cons, List.map_nil, List.cons_append, List.nil_append, List.getD_cons_succ,
    List.getD_cons_zero]
  exact length_bytesOf _ _ fun i => length_elemAt _ _ i

theorem exHost_ok : exHost.OK := by
  refine ⟨rfl, ⟨rfl, rfl⟩, ?_, ?_, ?_⟩
  · intro st ins hs
    refine ⟨?_, hs⟩
    match ins, hs with
    | [], hs => simp [Verif.Host.Interp.Sized, exHost, hostModel] at hs
    | _ :: _ :: _, hs => simp [Verif.Host.Interp.Sized, exHost, hostModel] at hs
    | [x], hs =>
      have hx : x.length = 16 := by simpa [Verif.Host.Interp.Sized, exHost, hostModel, TensorInfo.bytes, Verif.Host.Interp.ElemType.bytes] using hs
      show Verif.Host.Interp.Sized _ ((exDirect.result exSem [x.map UInt8.ofNat]).map (List.map UInt8.toNat))
      obtain ⟨o, h1, h2⟩ := exDirect_result (x.map UInt8.ofNat)
      rw [h1]
      simp [Verif.Host.Interp.Sized, exHost, hostModel, TensorInfo.bytes, Verif.Host.Interp.ElemType.bytes, h2]
  · intro t ht n h
    simp only [exHost, hostModel, List.mem_singleton] at ht
    subst ht; cases h
  · intro t ht n h
    simp only [exHost, hostModel, List.mem_singleton] at ht
    subst ht; cases h

/-- **C122, example.** C104's network and image meet the conditions, and the class is 7 on both sides. -/
theorem C122_example (rest : Mem) (bytes : List Byte) (c : Env) :
    let image : List Byte := [128, 129, 130, 131, 132, 133, 134, 135, 0, 0, 0, 0, 0, 0, 0, 0]
    script exHost image = .cls 7 ∧
    ∃ outs, (arenaTrace (exDirect.func fun _ => false) (devKernels exSem (exDirect.compile fun _ => false).1.ops) [0, 16, 16]
      (exDirect.func fun _ => false).ops 0 (copyImage 0 16 (initBuffers 24 bytes (withImage image rest))) c).getLast? = some [outs] ∧ deviceClass outs = 7 := by
  have hp : planMemory (exDirect.func fun _ => false) = some ⟨[0, 16, 16], 24, 2⟩ := by decide +kernel
  have hs : script exHost [128, 129, 130, 131, 132, 133, 134, 135, 0, 0, 0, 0, 0, 0, 0, 0] = .cls 7 := by decide +kernel
  refine ⟨hs, ?_⟩
  obtain ⟨outs, h1, -, h3⟩ := C122_agree_partial exDirect exDirect_ok (fun _ => false) _ rfl _ hp (exDirect_noGrowth _)
    [128, 129, 130, 131, 132, 133, 134, 135, 0, 0, 0, 0, 0, 0, 0, 0] rfl rest 24 (by decide) bytes exSem c exHost exHost_ok _ _ rfl rfl rfl rfl rfl
    (by
      intro x _
      show (exDirect.result exSem [(x.map UInt8.toNat).map UInt8.ofNat]).map (List.map UInt8.toNat) = _
      rw [show (x.map UInt8.toNat).map UInt8.ofNat = x by simp [Function.comp_def]])
  have e : (arenaTrace (exDirect.func fun _ => false) (devKernels exSem (exDirect.compile fun _ => false).1.ops) [0, 16, 16]
      (exDirect.func fun _ => false).ops 0 (copyImage 0 16 (initBuffers 24 bytes (withImage
        [128, 129, 130, 131, 132, 133, 134, 135, 0, 0, 0, 0, 0, 0, 0, 0] rest))) c).getLast? = some [[2, 3, 4, 5, 6, 7, 8, 9]] :=
    (C104_example rest bytes c).2.2.2
  refine ⟨outs, h1, ?_⟩
  have ho : some [outs] = some [[2, 3, 4, 5, 6, 7, 8, 9]] := h1.symm.trans e
  simp only [Option.some.injEq, List.cons.injEq, and_true] at ho
  subst ho
  decide +kernel

end Verif.Shipped.Agree
