import Verif.Host.UsbSession
import Verif.Net.Props
import Verif.Shipped.Agree

/-!
# C126: a network that was compiled gives over USB the results of the network that was written

Composes the compiler (C83), the plan of its arena (C01-C06), the server on the device (C118) and the program on the host (C33, C123).
-/

namespace Verif.Host.UsbNet

open Verif.MemPlan Verif.Net Verif.Shipped.IoServer Verif.Host.UsbSession
open Verif.Host.Usb (Frames)

theorem arr_of_holds {ds : List Details} {j raw : Nat} {d : Details} {b out : List Byte} (d1 : ds[j]? = some d)
    (d2 : d.width = 1 ∨ d.width = 2 ∨ d.width = 4 ∨ d.width = 8) (d3 : out.length = d.shape.prod * d.width) (t2 : b.length = moved raw) (t3 : b.take raw = out) :
    bytesToArr ds j (b.map UInt8.toNat) = some (elements d.width (out.map UInt8.toNat)) := by
  have hle := (moved_le raw).1
  have hr : raw = d.shape.prod * d.width := by
    rw [← d3, ← t3, List.length_take, t2]
    omega
  have hw : 0 < d.width := by omega
  have hmod : (b.map UInt8.toNat).length % d.width = 0 := by
    rw [List.length_map, t2, hr]
    unfold moved
    rcases d2 with d2 | d2 | d2 | d2 <;> rw [d2] <;> omega
  have hn : d.shape.prod * d.width ≤ (b.map UInt8.toNat).length := by
    rw [List.length_map, t2, ← hr]; exact hle
  have hne : ds ≠ [] := by rintro rfl; cases d1
  rw [bytesToArr, if_neg hne, d1]
  dsimp only
  rw [if_pos hmod, elements_take _ _ _ hw hn, if_pos (by
    simp only [elements, List.length_map, List.length_range, List.length_take]
    rw [Nat.min_eq_left (by simpa using hn), Nat.mul_div_cancel _ hw]), ← t3, hr, List.map_take]

theorem inputs_sized {f : Func} {ret : Op} {r : Run} (ok : r.OK f ret) : (r.inputs f).map List.length = f.argSizes := by
  rw [← run_inputs (fun _ => 0) ok]
  refine inputsOf_length f _ ?_ ?_
  · intro x hx
    obtain ⟨y, hy, rfl⟩ := List.mem_map.1 hx
    obtain ⟨o1, -, o2, -⟩ := ok.1 y hy
    exact ⟨o1, by rw [padded_length, o2, (raw_arg f o1).1]⟩
  · intro i hi
    rw [latest_padded]
    have := ok.2.1 i hi
    cases hl : latest r.writes i with
    | none => exact absurd hl this
    | some d => simp

/-- **C126.** For every well-typed network, any choice of operators left alone, any meaning of the other operators, and any number of runs over USB, each of which sends every input:
every read returns the elements of the output that the network, as it was written, has on the inputs sent last in that run. -/
theorem C126_network_over_usb (N : Network) (hN : N.OK) (skip : Nat → Bool) (a : ModuleAttrs) (ha : planMemory (N.func skip) = some a) (sem : Sem)
    (junk : Nat → Byte) (frame : List Nat → List (List Nat)) (hf : ∀ d, Frames d (frame d)) (ds : List Details)
    (hds : ∀ j < N.outputs.length, ∃ d, ds[j]? = some d ∧ (d.width = 1 ∨ d.width = 2 ∨ d.width = 4 ∨ d.width = 8) ∧
      ∀ inputs, inputs.map List.length = N.inputs.map Ty.size → ((N.result sem inputs).getD j []).length = d.shape.prod * d.width)
    (runs : List Run) (hr : ∀ r ∈ runs, r.OK (N.func skip) (retOp (N.outDev skip))) (m : Mem) (c : Env) :
    session ⟨N.func skip, a.offsets, devKernels sem (N.compile skip).1.ops, N.outDev skip⟩ junk frame ds (runs.flatMap Run.calls ++ [.close]) m c =
      some (runs.flatMap fun r => r.outs.map fun j =>
        ds[j]?.map fun d => elements d.width (((N.result sem (r.inputs (N.func skip))).getD j []).map UInt8.toNat)) := by
  have key := N.compile_spec hN skip
  obtain ⟨hg, h0, ho, _⟩ := key (fun _ _ => []) (N.inputs.map fun t => List.replicate t.size 0) (by simp [List.map_map, Function.comp_def])
  have wf : (N.func skip).WF := toFunc_wf h0 hg ho
  have ip : (N.func skip).InPlaceOK := toFunc_inPlace h0 hg
  obtain ⟨b, p, hp, hpa⟩ : ∃ b p, getAllocatedOffsets (N.func skip) b = some p ∧ p.offsets = a.offsets := by
    unfold planMemory at ha
    cases h1 : getAllocatedOffsets (N.func skip) true with
    | none => rw [h1] at ha; cases ha
    | some w =>
      cases h2 : getAllocatedOffsets (N.func skip) false with
      | none => rw [h1, h2] at ha; cases ha
      | some wo =>
        rw [h1, h2] at ha
        simp only [Option.some.injEq] at ha
        subst ha
        by_cases hle : w.peakMemoryUsed ≤ wo.peakMemoryUsed
        · exact ⟨true, w, h1, by simp [hle]⟩
        · exact ⟨false, wo, h2, by simp [hle]⟩
  obtain ⟨bs, hb, hs⟩ := session_holds wf ip hp (devKernels sem (N.compile skip).1.ops) (devKernels_fit sem _ _ _) ((N.compile skip).1.ops.map DOp.planned) (retOp (N.outDev skip))
    (toFunc_ops _ _ _) rfl junk frame hf ds runs hr m c
  rw [hpa] at hs
  refine Eq.trans hs ?_
  have e : (runs.flatMap fun r => r.outs.map fun j => ds[j]?.map fun d => elements d.width (((N.result sem (r.inputs (N.func skip))).getD j []).map UInt8.toNat)) =
      (tasks runs).map fun x => ds[x.2]?.map fun d => elements d.width (((N.result sem (x.1.inputs (N.func skip))).getD x.2 []).map UInt8.toNat) := by
    simp [tasks, List.map_flatMap, Function.comp_def]
  rw [e]
  have hj : ∀ x ∈ tasks runs, x.2 < N.outputs.length ∧ (x.1.inputs (N.func skip)).map List.length = N.inputs.map Ty.size := by
    intro x hx
    simp only [tasks, List.mem_flatMap, List.mem_map] at hx
    obtain ⟨r, h1, j, h2, rfl⟩ := hx
    refine ⟨?_, inputs_sized (hr r h1)⟩
    have := ((hr r h1).2.2 j h2).1
    simpa [retOp, Network.outDev] using this
  clear e hs
  congr 1
  generalize tasks runs = ts at hb hj ⊢
  induction hb with
  | nil => rfl
  | @cons x b ts bs hx hxs ih =>
    simp only [List.zip_cons_cons, List.map_cons]
    rw [ih (fun y hy => hj y (List.mem_cons_of_mem _ hy))]
    congr 1
    obtain ⟨outs, t1, t2, t3⟩ := hx
    obtain ⟨hx1, hx2⟩ := hj x (by simp)
    obtain ⟨d, d1, d2, d3⟩ := hds x.2 hx1
    have hlen : (x.1.inputs (N.func skip)).length = N.inputs.length := by simpa using congrArg List.length hx2
    obtain ⟨_, _, _, hres⟩ := key sem _ hx2
    have := refTrace_last sem N.inputs (N.compile skip).1 (N.outDev skip) h0 hg ho (N.compile skip).1.ops 0 (x.1.inputs (N.func skip))
      (inputEnv (x.1.inputs (N.func skip))) rfl (by omega) (by omega) (fun v _ => rfl)
    have t1' : some outs = some (N.result sem (x.1.inputs (N.func skip))) := by
      rw [← hres]; exact t1.symm.trans this
    cases t1'
    rw [arr_of_holds d1 d2 (d3 _ hx2) t2 t3, d1]
    rfl

open Verif.Shipped.Image (exDirect exDirect_ok) in
open Verif.Shipped.Agree (exSem exDirect_result) in
/-- **C126, example.** C104's network: two runs over USB, the second with the first one's leftovers in the arena. -/
theorem C126_example (junk : Nat → Byte) (m : Mem) (c : Env) :
    session ⟨exDirect.func fun _ => false, [0, 16, 16], devKernels exSem (exDirect.compile fun _ => false).1.ops, exDirect.outDev fun _ => false⟩ junk exFrame [⟨[1, 4], 2⟩]
      [.write 0 [1, 2, 3, 4, 5, 6, 7, 8, 0, 0, 0, 0, 0, 0, 0, 0], .start, .read 0, .write 0 (List.replicate 16 200), .start, .read 0, .close] m c =
      some [some [[3, 4], [5, 6], [7, 8], [9, 10]], some [[202, 202], [202, 202], [202, 202], [202, 202]]] := by
  have hp : planMemory (exDirect.func fun _ => false) = some ⟨[0, 16, 16], 24, 2⟩ := by decide +kernel
  have := C126_network_over_usb exDirect exDirect_ok (fun _ => false) _ hp exSem junk exFrame exFrame_ok [⟨[1, 4], 2⟩]
    (by intro j hj
        have : j = 0 := by have : j < 1 := hj; omega
        subst this
        refine ⟨_, rfl, .inr (.inl rfl), ?_⟩
        intro inputs hi
        have hl : inputs.length = 1 := by have := congrArg List.length hi; simpa [exDirect] using this
        match inputs, hl with
        | [x], _ =>
          obtain ⟨o, h1, h2⟩ := exDirect_result x
          rw [h1]
          simpa using h2)
    [⟨[(0, [1, 2, 3, 4, 5, 6, 7, 8, 0, 0, 0, 0, 0, 0, 0, 0])], [0]⟩, ⟨[(0, List.replicate 16 200)], [0]⟩]
    (by
      intro r hr
      simp only [List.mem_cons, List.not_mem_nil, or_false] at hr
      rcases hr with rfl | rfl
      · refine ⟨by decide +kernel, ?_, by decide +kernel⟩
        intro i hi
        have : i = 0 := by have : i < 1 := hi; omega
        subst this; decide
      · refine ⟨by decide +kernel, ?_, by decide +kernel⟩
        intro i hi
        have : i = 0 := by have : i < 1 := hi; omega
        subst this; decide) m c
  refine this.trans ?_
  decide +kernel

end Verif.Host.UsbNet
