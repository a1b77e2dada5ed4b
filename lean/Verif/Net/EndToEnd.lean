import Verif.Net.SplitQExample
import Verif.Net.FuseMain
import Verif.Host.Config
import Verif.MemPlan.Tight
/-!
C116: all stages of the compiler together, from the quantised network to the outputs of a run.

Splitting, merges and rewrites (C95, C114, C115), lowering of every operator (C84), clean-up of the lowered function (C107), constants in the weights
file (C94), the memory plan (C01-C06) written to the model's metadata and read back by the runtime (C28), kernels on threads (C102).
-/
namespace Verif.Net
open Verif.Tensor Verif.Move Verif.MemPlan Verif.MemPlan.Conc Verif.Quant

/-- The offsets that the runtime reads from the metadata that the compiler writes (xformer/XCoreOptMain.cpp, `OfflineMemoryAllocation`; Host/Config). -/
def ModuleAttrs.fromMetadata (a : ModuleAttrs) : List Int := (Host.Config.decode (Host.Config.offsetsBuffer a.offsets)).2.2

/-- The metadata can hold the plan of a function that fits into 2 GiB. -/
theorem fromMetadata_eq {f : Func} (wf : f.WF) (ip : f.InPlaceOK) {a : ModuleAttrs} (ha : planMemory f = some a) (hp : a.peakUsage < 2147483648)
    (hn : f.numValues < 2147483648) : ModuleAttrs.fromMetadata a = a.offsets := by
  have hfit := (C06_chosen_plan wf ip ha).2.1
  have hshape : a.offsets.length = f.numValues ∧ ∀ v, f.IsValue v → (f.Constant v ↔ offsetOf a.offsets v = -1) ∧
      (¬ f.Constant v → 0 ≤ offsetOf a.offsets v ∧ (8 : Int) ∣ offsetOf a.offsets v) := by
    unfold planMemory at ha
    split at ha
    · rename_i w wo hw hwo
      simp only [Option.some.injEq] at ha
      subst ha
      dsimp only
      split
      · exact C03_plan_shape wf ip hw
      · exact C03_plan_shape wf ip hwo
    · cases ha
  unfold ModuleAttrs.fromMetadata
  rw [(Host.Config.C28_offsets_metadata a.offsets ?_ (by rw [hshape.1]; exact hn)).1]
  intro o ho
  obtain ⟨v, hv, rfl⟩ := List.getElem_of_mem ho
  have hval : f.IsValue v := by unfold Func.IsValue; omega
  have ho : offsetOf a.offsets v = a.offsets[v] := by
    unfold offsetOf
    rw [List.getD_eq_getElem?_getD, List.getElem?_eq_getElem hv]
    rfl
  obtain ⟨h1, h2⟩ := hshape.2 v hval
  rw [ho] at h1 h2
  by_cases hc : f.Constant v
  · rw [h1.1 hc]
    omega
  · have := hfit v ⟨hval, by simpa [Func.Constant] using hc⟩
    rw [ho] at this
    obtain ⟨h3, -⟩ := h2 hc
    omega

/-- **C116.** The whole compiler.  `Q` is the network, `ref` a run of TensorFlow Lite on it, `Q'` what splitting, merging and rewriting make of it in any
order, `N` the network after the last rewrites, `F` the lowered function after clean-up in any order, `W` the function with its constants in the weights
file.  There is a memory plan; if it and the number of tensors are below 2^31, every run in a memory of at least the advertised size with the offsets read
from the metadata, whatever the initial memory and the interleaving of the threads, gives outputs that differ from `ref`'s by at most `D`. -/
theorem C116_whole_compiler (R : Rt) (dom : MulArgs → Prop) (hR : R.OK dom) (Q Q' : QNetwork) (hQ : Q.OK R dom) (hne : Q.inputs ≠ []) (e e' : Nat → ℝ)
    (he : Q.Enough R e) (ref : List (List Byte)) (href : Q.Reference R e ref)
    (hm : Relation.ReflTransGen (Lower R (ref.take Q.inputs.length)) (Q, e) (Q', e')) (N : Network)
    (h : Relation.ReflTransGen (Rw patterns) Q'.seen N) (skip : Nat → Bool) (conv : Nat → Prop) (F : DFun)
    (hc : Cleaned conv (((Q'.rewritten N).expand R).compiled skip) F)
    (cfg : WCfg) (calls order : List Nat) (consts : Nat → Weights.Const) (W : WFun) (hW : W = F.withWeights cfg calls order consts)
    (hv : W.Visited) (hs : W.Stored) :
    ∃ a, planMemory W.func = some a ∧ Fits W.func a.offsets a.peakUsage ∧
    (a.peakUsage < 2147483648 → W.func.numValues < 2147483648 →
    ∀ (impl : Nat → Impl), ImplOK W.func (onData W.func impl (W.kernels ((Q'.rewritten N).sem R) W.file)) impl →
    (∀ j, j < W.func.ops.length → impl j = .skip → (W.func.op j).operands = []) →
    ∀ (inputs : List (List Byte)), inputs.map List.length = Q.inputs.map Ty.size →
    ∀ D : Nat → ℝ, Q'.Bounds R e' D →
    (∀ v < Q.inputs.length, Close R.b (Q.inputs.getD v ⟨[], 0⟩) (D v) (inputs.getD v []) (ref.getD v [])) →
    Q'.FiniteIn R inputs → Q'.FiniteIn R (ref.take Q.inputs.length) →
    ∀ (m : Mem) (c : Env) (tr : List (List (List Byte))),
      Run W.func (onData W.func impl (W.kernels ((Q'.rewritten N).sem R) W.file)) impl (ModuleAttrs.fromMetadata a) W.func.ops 0
        (loadInputs (ModuleAttrs.fromMetadata a) inputs m) c tr →
      ∃ outs, tr.getLast? = some outs ∧ outs.length = Q.outputs.length ∧
        ∀ (i v v' : Nat), Q.outputs[i]? = some v → Q'.outputs[i]? = some v' →
          ∃ out, outs[i]? = some out ∧ Close R.b (Q'.types.getD v' ⟨[], 0⟩) (D v') out (ref.getD v [])) := by
  obtain ⟨hQ', hI, hO, hk⟩ := C115_reference_kept R dom hR _ Q Q' e e' hm hQ he
  obtain ⟨ref', h1, h2, h3⟩ := hk ref href rfl
  have hIN := inv_rewrites hQ' h
  have hok := rewritten_ok hQ' hIN
  have hE : ((Q'.rewritten N).expand R).OK := by
    obtain ⟨hE, -⟩ := expand_values hR _ hok ((Q'.rewritten N).inputs.map fun t => List.replicate t.size 0) (by simp [List.map_map, Function.comp_def])
    exact hE
  have hkeeps := cleaned_keeps hc (Network.compiled_ok _ hE skip)
  have hwok := DFun.withWeights_ok hkeeps.ok hW hv hs
  obtain ⟨hplan, hall⟩ := C107_cleaned_network _ hE skip conv F hc cfg calls order consts W hW hv hs
  obtain ⟨a, ha⟩ := hplan 0 (by
    have hl : 0 < W.func.argSizes.length := by
      rw [hW]
      show 0 < (List.map _ F.inputs).length
      rw [hkeeps.inputs, List.length_map]
      have : ((Q'.rewritten N).expand R).inputs = Q'.inputs := hIN.inputs
      show 0 < ((Q'.rewritten N).expand R).inputs.length
      rw [this, hI]
      exact List.length_pos_iff.2 hne
    refine ⟨?_, ?_⟩
    · show 0 < W.func.decls.length
      simp only [Func.decls, List.length_append, List.length_map]; omega
    · simp only [Func.decl, Func.decls]
      rw [List.getD_eq_getElem?_getD, List.getElem?_append_left (by simpa using hl), List.getElem?_map, List.getElem?_eq_getElem hl]
      rfl)
  refine ⟨a, ha, (hall a ha).1, ?_⟩
  intro hp hn impl ok hskip inputs hin D hB hD hf hf' m c tr hrun
  rw [fromMetadata_eq (WFun.wf hwok) (WFun.inPlace hwok) ha hp hn] at hrun
  obtain ⟨vals, hvals, hlast⟩ := C107_compiled_network R dom hR Q' hQ' N h skip conv F hc cfg calls order consts W hW hv hs a ha impl ok hskip inputs (by rw [hI]; exact hin)
  refine ⟨_, hlast m c tr hrun, by simpa using hO, fun i v v' hv hv' => ⟨vals.getD v' [], by rw [List.getElem?_map, hv']; rfl, ?_⟩⟩
  have hrv : ref.getD v [] = ref'.getD v' [] := by
    have := congrArg (fun l => l[i]?) h3
    simp only [List.getElem?_map, hv, hv', Option.map_some, Option.some.injEq] at this
    exact this.symm
  rw [hrv]
  refine (values_close hR hQ' hvals h1 hB ?_ hf (by rw [hI, h2]; exact hf') v' (hQ'.outs v' (List.mem_of_getElem? hv'))).2
  intro u hu
  have hu' : u < Q.inputs.length := by rw [← hI]; exact hu
  have e1 : Q'.types.getD u ⟨[], 0⟩ = Q.inputs.getD u ⟨[], 0⟩ := by
    rw [← hI]
    exact List.getD_append _ _ _ _ hu
  have e2 : vals.getD u [] = inputs.getD u [] := by
    rw [← hvals.inputs, List.getD_eq_getElem?_getD, List.getD_eq_getElem?_getD, List.getElem?_take_of_lt hu]
  have e3 : ref'.getD u [] = ref.getD u [] := by
    have := congrArg (fun l => l.getD u []) h2
    simpa only [List.getD_eq_getElem?_getD, List.getElem?_take_of_lt hu'] using this
  rw [e1, e2, e3]
  exact hD u hu'

/-- **C116.** The compiler gets to the end: after any number of steps on the network, the lowered function has a cleaned-up form to which no rewrite
applies; its constants can be put into the weights file; and with the plan, read from the metadata, there is a run on any memory. -/
theorem C116_compiles (R : Rt) (dom : MulArgs → Prop) (hR : R.OK dom) (Q Q' : QNetwork) (hQ : Q.OK R dom) (hne : Q.inputs ≠ []) (e e' : Nat → ℝ)
    (he : Q.Enough R e) (inputs : List (List Byte)) (hm : Relation.ReflTransGen (Lower R inputs) (Q, e) (Q', e')) (N : Network)
    (h : Relation.ReflTransGen (Rw patterns) Q'.seen N) (skip : Nat → Bool) (conv : Nat → Prop) (cfg : WCfg) (calls : List Nat) :
    ∃ (F : DFun) (consts : Nat → Weights.Const) (W : WFun) (impl : Nat → Impl),
      Cleaned conv (((Q'.rewritten N).expand R).compiled skip) F ∧ (∀ G, ¬ DRw conv F G) ∧
      W = F.withWeights cfg calls calls consts ∧ W.Visited ∧ W.Stored ∧
      ImplOK W.func (onData W.func impl (W.kernels ((Q'.rewritten N).sem R) W.file)) impl ∧ (∀ j, impl j ≠ .skip) ∧
      ∃ a, planMemory W.func = some a ∧ ∀ m c, (∃ tr, Run W.func (onData W.func impl (W.kernels ((Q'.rewritten N).sem R) W.file)) impl a.offsets W.func.ops 0 m c tr) ∧
        (a.peakUsage < 2147483648 → W.func.numValues < 2147483648 → ModuleAttrs.fromMetadata a = a.offsets) := by
  obtain ⟨hQ', hI, -, -⟩ := C115_reference_kept R dom hR _ Q Q' e e' hm hQ he
  have hIN := inv_rewrites hQ' h
  have hok := rewritten_ok hQ' hIN
  have hE : ((Q'.rewritten N).expand R).OK := by
    obtain ⟨hE, -⟩ := expand_values hR _ hok ((Q'.rewritten N).inputs.map fun t => List.replicate t.size 0) (by simp [List.map_map, Function.comp_def])
    exact hE
  obtain ⟨F, hF, hn⟩ := C107_reaches_normal_form _ hE skip conv
  obtain ⟨consts, W, a, impl, hW, hv, hs, ha, hok', -, hsk, hrun⟩ := C107_compiles _ hE skip conv F hF cfg calls (by
    have : ((Q'.rewritten N).expand R).inputs = Q'.inputs := hIN.inputs
    rw [this, hI]
    exact hne) ((Q'.rewritten N).sem R)
  have hwok := DFun.withWeights_ok (cleaned_keeps hF (Network.compiled_ok _ hE skip)).ok hW hv hs
  exact ⟨F, consts, W, impl, hF, hn, hW, hv, hs, hok', hsk, a, ha, fun m c => ⟨hrun m c, fun hp hn => fromMetadata_eq (WFun.wf hwok) (WFun.inPlace hwok) ha hp hn⟩⟩

/-- The plan of a function whose tensors, each rounded up to 8 bytes, have less than 2 GiB together fits into the metadata. -/
theorem peak_small {f : Func} (wf : f.WF) (ip : f.InPlaceOK) {a : ModuleAttrs} (ha : planMemory f = some a)
    (hs : ∑ v ∈ f.arenaSet, (roundUp8 (f.raw v) : Int) < 2147483648) : a.peakUsage < 2147483648 :=
  lt_of_le_of_lt (C62_peak_at_most_sum wf ip ha) hs

/-! ### An example -/

/-- Two of four rows. -/
def exSmall : QNetwork := ⟨[⟨[1, 4, 1, 8], 1⟩], [⟨.base (.slice [0, 1, 0, 0] [1, 2, 1, 8]), [0], ⟨[1, 2, 1, 8], 1⟩⟩], [1]⟩

theorem exSmallF_eq : ((exSmall.rewritten exSmall.seen).expand exRt).compiled (fun _ => false) =
    (⟨[⟨[1, 4, 1, 8], 1⟩], [⟨.slice [0, 1, 0, 0] [1, 2, 1, 8], [0], ⟨[1, 2, 1, 8], 1⟩⟩], [1]⟩ : Network).compiled fun _ => false := by
  rw [rewritten_seen]
  rfl

theorem exSmall_sizes (cfg : WCfg) (consts : Nat → Weights.Const) {F : DFun}
    (hF : F = (⟨[⟨[1, 4, 1, 8], 1⟩], [⟨.slice [0, 1, 0, 0] [1, 2, 1, 8], [0], ⟨[1, 2, 1, 8], 1⟩⟩], [1]⟩ : Network).compiled fun _ => false) :
    (F.withWeights cfg [] [] consts).func.numValues = 2 ∧ ∀ v < 2, (F.withWeights cfg [] [] consts).func.raw v ≤ 32 := by
  rw [hF]
  refine ⟨rfl, ?_⟩
  intro v hv
  interval_cases v
  · show 32 ≤ 32
    simp
  · show 16 ≤ 32
    simp

theorem exSmall_ok : exSmall.OK exRt fun _ => True := by
  refine ⟨⟨by simp [exSmall], ?_, trivial⟩, by simp [exSmall]⟩
  refine ⟨_, _, rfl, rfl, ?_, rfl, by decide⟩
  show SliceFits [1, 4, 1, 8] [1, 2, 1, 8] [0, 1, 0, 0]
  norm_num [SliceFits]

/-- An exact bound: rows are copied. -/
theorem exSmall_bounds (e : Nat → ℝ) (he : ∀ j, e j = 0) : exSmall.Bounds exRt e fun _ => 0 := by
  constructor
  · intro v hv
    exact le_refl _
  · intro j n hj
    refine ⟨(he j).ge, ?_⟩
    rw [he j]
    have hjl := (List.getElem?_eq_some_iff.1 hj).1
    have hjl : j < 1 := hjl
    obtain rfl : j = 0 := by omega
    obtain rfl := Option.some.inj hj
    refine ⟨le_refl _, .inr (.inr (.inl ⟨trivial, ?_⟩))⟩
    show (0 : ℝ) + 0 + peak [0] ≤ 0
    norm_num [peak]

/-- **C116.** The conditions are met: the function of `exSmall`, with no constants, has a plan far below 2 GiB, and with the offsets from the metadata each run
returns what TensorFlow Lite does. -/
theorem C116_example (cfg : WCfg) (x : List Byte) (hx : x.length = 32) :
    ∃ (ref : List (List Byte)) (W : WFun) (a : ModuleAttrs) (impl : Nat → Impl),
      exSmall.Reference exRt (fun _ => 0) ref ∧ ref.take 1 = [x] ∧ planMemory W.func = some a ∧ a.peakUsage < 2147483648 ∧
      ∀ m c, (∃ tr, Run W.func (onData W.func impl (W.kernels ((exSmall.rewritten exSmall.seen).sem exRt) W.file)) impl (ModuleAttrs.fromMetadata a) W.func.ops 0
          (loadInputs (ModuleAttrs.fromMetadata a) [x] m) c tr) ∧
        ∀ tr, Run W.func (onData W.func impl (W.kernels ((exSmall.rewritten exSmall.seen).sem exRt) W.file)) impl (ModuleAttrs.fromMetadata a) W.func.ops 0
            (loadInputs (ModuleAttrs.fromMetadata a) [x] m) c tr →
          ∃ out, tr.getLast? = some [out] ∧ ∀ k < 16, s8 (out.getD k 0) = s8 ((ref.getD 1 []).getD k 0) := by
  have hQ := exSmall_ok
  have he : exSmall.Enough exRt fun _ => 0 := by
    intro j n hj
    have hjl := (List.getElem?_eq_some_iff.1 hj).1
    have hjl : j < 1 := hjl
    obtain rfl : j = 0 := by omega
    obtain rfl := Option.some.inj hj
    exact le_refl _
  have hin : [x].map List.length = exSmall.inputs.map Ty.size := by simp [exSmall, Ty.size, hx]
  obtain ⟨ref, href, hrx⟩ := C112_reference_exists exRt _ exRt_ok _ hQ [x] hin
  have href : exSmall.Reference exRt (fun _ => 0) ref := by
    refine ⟨href.length, href.sizes, fun j n hj => ?_⟩
    have h1 := href.within j n hj
    have h2 := he j n hj
    refine within_mono ?_ h1
    rw [hj]
    exact h2
  have hrx : ref.take exSmall.inputs.length = [x] := hrx
  have hE : ((exSmall.rewritten exSmall.seen).expand exRt).OK := by
    have hok : (exSmall.rewritten exSmall.seen).OK exRt fun _ => True := by rw [rewritten_seen]; exact hQ
    obtain ⟨hE, -⟩ := expand_values exRt_ok _ hok ((exSmall.rewritten exSmall.seen).inputs.map fun t => List.replicate t.size 0) (by simp [List.map_map, Function.comp_def])
    exact hE
  obtain ⟨consts, W, a, impl, hW, hv, hs, ha, hok', -, hsk, hrun⟩ := C107_compiles _ hE (fun _ => false) (fun _ => False) _ .refl cfg [] (by
    show exSmall.inputs ≠ []
    simp [exSmall]) ((exSmall.rewritten exSmall.seen).sem exRt)
  have hwok := DFun.withWeights_ok (Network.compiled_ok _ hE (fun _ => false)) hW hv hs
  have hsz := exSmall_sizes cfg consts exSmallF_eq
  rw [← hW] at hsz
  have hp : a.peakUsage < 2147483648 := by
    refine peak_small (WFun.wf hwok) (WFun.inPlace hwok) ha ?_
    refine lt_of_le_of_lt (Finset.sum_le_card_nsmul _ _ 40 ?_) ?_
    · intro v hv
      rw [mem_arenaSet] at hv
      have h1 : v < W.func.numValues := hv.1
      have := hsz.2 v (by rw [hsz.1] at h1; exact h1)
      unfold roundUp8
      split <;> omega
    · have : W.func.arenaSet.card ≤ 2 := by
        refine le_trans (Finset.card_filter_le _ _) ?_
        rw [Finset.card_range, hsz.1]
      rw [nsmul_eq_mul]
      have : (W.func.arenaSet.card : Int) ≤ 2 := by exact_mod_cast this
      omega
  have hnum : W.func.numValues < 2147483648 := by rw [hsz.1]; norm_num
  have hfm := fromMetadata_eq (WFun.wf hwok) (WFun.inPlace hwok) ha hp hnum
  refine ⟨ref, W, a, impl, href, hrx, ha, hp, fun m c => ⟨by rw [hfm]; exact hrun _ _, fun tr htr => ?_⟩⟩
  have nof : ∀ i, exSmall.FiniteIn exRt i := by
    intro i j tq act args ty hj
    have hjl := (List.getElem?_eq_some_iff.1 hj).1
    have hjl : j < 1 := hjl
    obtain rfl : j = 0 := by omega
    cases hj
  obtain ⟨a', ha', -, hall⟩ := C116_whole_compiler exRt _ exRt_ok _ _ hQ (by simp [exSmall]) _ _ he ref href .refl _ .refl (fun _ => false) (fun _ => False) _ .refl cfg [] [] consts
    W hW hv hs
  obtain rfl : a = a' := by rw [ha] at ha'; exact Option.some.inj ha'
  obtain ⟨outs, h1, h2, h3⟩ := hall hp hnum impl hok' (fun j _ h => absurd h (hsk j)) [x] hin _ (exSmall_bounds _ fun _ => rfl) (by
      intro v hv
      have hv : v < 1 := hv
      obtain rfl : v = 0 := by omega
      have : ref.getD 0 [] = x := by
        have := congrArg (fun l => l.getD 0 []) hrx
        rw [← show ([x] : List (List Byte)).getD 0 [] = x from rfl, ← this]
        show _ = (List.take 1 ref).getD 0 []
        rw [List.getD_eq_getElem?_getD, List.getD_eq_getElem?_getD, List.getElem?_take_of_lt (by omega)]
      rw [this]
      intro k _
      show |((_ : ℤ) : ℝ) - _| ≤ 0
      norm_num) (nof _) (nof _) m c tr htr
  obtain ⟨o1, q1, q2⟩ := h3 0 1 1 rfl rfl
  have hl : outs.length = 1 := h2
  obtain rfl : outs = [o1] := by
    match outs, hl, q1 with
    | [u], _, q1 => simp at q1; rw [q1]
  refine ⟨o1, h1, fun k hk => ?_⟩
  have := steps8 rfl q2 0 (by norm_num) k hk
  have := abs_nonneg (s8 (o1.getD k 0) - s8 ((ref.getD 1 []).getD k 0))
  have h0 : |s8 (o1.getD k 0) - s8 ((ref.getD 1 []).getD k 0)| = 0 := by omega
  rw [abs_eq_zero] at h0
  omega
end Verif.Net
