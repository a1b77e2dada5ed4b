import Verif.Net.MergeMain
/-! C114: an example. -/
namespace Verif.Net
open Verif.Tensor Verif.Move Verif.MemPlan Verif.MemPlan.Conc Verif.Quant

/-- The convolution of C80's example without activation, and the types after it and after the quantise operator. -/
def exTypesM : Conv.Compile.Types := { Conv.Compile.exTypes with act := .none }

def exQ2 : QType := ⟨1 / 10, 0, -128, 127⟩

/-- The runtime of C84's example; element operator 0 is the quantise operator of the network. -/
noncomputable def exRtM : Rt := { exRt with
  ext := fun _ ins => match ins with
    | [[b]] => [toByte (exQ2.q exRt.r (exTypesM.outQ.deq (s8 b)))]
    | _ => [] }

theorem exRtM_ok : exRtM.OK fun _ => True where
  rnd := exRt_ok.rnd
  mul := exRt_ok.mul
  lib := exRt_ok.lib
  thr := exRt_ok.thr
  fac := exRt_ok.fac
  r := exRt_ok.r
  redRound := exRt_ok.redRound
  conv := exRt_ok.conv
  tflConv := exRt_ok.tflConv
  split := exRt_ok.split
  threads := exRt_ok.threads
  b := exRt_ok.b
  bin := exRt_ok.bin
  lib16 := exRt_ok.lib16
  expand16 := exRt_ok.expand16
  conv16 := exRt_ok.conv16
  tflConv16 := exRt_ok.tflConv16
  phase := exRt_ok.phase
  phaseKeeps := exRt_ok.phaseKeeps
  maxPool := exRt_ok.maxPool

/-- A convolution whose result is quantised to finer steps, and goes through a RELU operator with the same type. -/
noncomputable def exampleM (g : Conv.Compile.Net) : QNetwork where
  inputs := [⟨[1, 5, 5, 3], 1⟩]
  nodes := [⟨.conv exTypesM Conv.Compile.exLeaf g, [0], ⟨[1, 3, 3, 6], 1⟩⟩,
    ⟨.base (.elementwise 0), [1], ⟨[1, 3, 3, 6], 1⟩⟩,
    ⟨.activation .relu ⟨(exTypesM.outS : ℝ), exTypesM.zpo⟩ ⟨(exTypesM.outQ.scale : ℝ), exTypesM.outQ.zp⟩, [1], ⟨[1, 3, 3, 6], 1⟩⟩]
  outputs := [2, 3]

/-- The network with one convolution for each of the two operators. -/
def exampleM' (g : Conv.Compile.Net) : QNetwork where
  inputs := [⟨[1, 5, 5, 3], 1⟩]
  nodes := [⟨.conv (exTypesM.into exQ2 .none) Conv.Compile.exLeaf g, [0], ⟨[1, 3, 3, 6], 1⟩⟩,
    ⟨.conv (exTypesM.into exTypesM.outQ .relu) Conv.Compile.exLeaf g, [0], ⟨[1, 3, 3, 6], 1⟩⟩]
  outputs := [1, 2]

noncomputable def exEM (j : Nat) : ℝ := [0, 0, 1 / 2].getD j 0

theorem exampleM_ok (g : Conv.Compile.Net) (hg : Conv.Compile.Pipeline 100 (.conv Conv.Compile.exLeaf) g) : (exampleM g).OK exRtM fun _ => True := by
  refine ⟨?_, by simp [exampleM]⟩
  refine ⟨by simp [exampleM], ?_, by simp [exampleM], ?_, by simp [exampleM], ?_, trivial⟩
  · exact ⟨_, _, rfl, rfl, rfl, ⟨by norm_num [exTypesM, Conv.Compile.exTypes], by norm_num [exTypesM, Conv.Compile.exTypes], by decide, by decide⟩, rfl,
      Conv.Compile.exLeaf_ok, by decide, by decide, by decide, .inl rfl, Conv.Compile.C80_example.1, 100, hg⟩
  · exact ⟨_, _, rfl, rfl⟩
  · refine ⟨_, _, rfl, rfl, rfl, ⟨by norm_num [exTypesM, Conv.Compile.exTypes], by decide⟩, ⟨by norm_num [exTypesM, Conv.Compile.exTypes, Conv.Compile.Types.outQ], by decide⟩, ?_⟩
    intro q h1 h2
    refine (XC.apply_bound _ _).trans ?_
    have hq : |(q : ℝ)| ≤ 128 := by
      have : |q| ≤ 128 := by rw [abs_le]; omega
      exact_mod_cast this
    refine max_le ?_ (by norm_num [exTypesM, Conv.Compile.exTypes, Conv.Compile.Types.outQ])
    unfold XC.QI8.deq
    norm_num [exTypesM, Conv.Compile.exTypes, Conv.Compile.Types.outQ, abs_mul]
    nlinarith

theorem exM_is8 : Is8 exTypesM.outQ ∧ Is8 exQ2 :=
  ⟨⟨by norm_num [exTypesM, Conv.Compile.exTypes, Conv.Compile.Types.outQ], by decide, rfl, rfl⟩, ⟨by norm_num [exQ2], by decide, rfl, rfl⟩⟩

/-- The errors after the merges: two steps for the quantised result (the steps of the type that is left out are twice as wide), none for the RELU. -/
noncomputable def exEM' : Nat → ℝ := carried
  ⟨[⟨[1, 5, 5, 3], 1⟩], [⟨.other false 3, [0], ⟨[1, 3, 3, 6], 1⟩⟩, ⟨.other false 5, [0], ⟨[1, 3, 3, 6], 1⟩⟩], [1, 2]⟩
  (Function.update (Function.update exEM 1 (mergedErr exTypesM.outQ exQ2 (exEM 0))) 2
    (reluErr exTypesM.outQ exTypesM.outQ (Function.update exEM 1 (mergedErr exTypesM.outQ exQ2 (exEM 0)) 0)
      (Function.update exEM 1 (mergedErr exTypesM.outQ exQ2 (exEM 0)) 2)))

theorem exEM'_values : exEM' 0 = 2 ∧ exEM' 1 = 0 := by
  constructor
  · show Function.update (Function.update exEM 1 (mergedErr exTypesM.outQ exQ2 (exEM 0))) 2 (reluErr exTypesM.outQ exTypesM.outQ (Function.update exEM 1 (mergedErr exTypesM.outQ exQ2 (exEM 0)) 0)
      (Function.update exEM 1 (mergedErr exTypesM.outQ exQ2 (exEM 0)) 2)) 1 = 2
    rw [Function.update_of_ne (by decide), Function.update_self]
    unfold mergedErr
    norm_num [exEM, exTypesM, Conv.Compile.exTypes, Conv.Compile.Types.outQ, exQ2]
  · show Function.update (Function.update exEM 1 (mergedErr exTypesM.outQ exQ2 (exEM 0))) 2 (reluErr exTypesM.outQ exTypesM.outQ (Function.update exEM 1 (mergedErr exTypesM.outQ exQ2 (exEM 0)) 0)
      (Function.update exEM 1 (mergedErr exTypesM.outQ exQ2 (exEM 0)) 2)) 2 = 0
    rw [Function.update_self]
    unfold reluErr
    rw [if_pos rfl, Function.update_of_ne (by decide), Function.update_of_ne (by decide)]
    norm_num [exEM]

theorem exampleM_merges (g : Conv.Compile.Net) (inputs : List (List Byte)) :
    Relation.ReflTransGen (Merge exRtM inputs) (exampleM g, exEM) (exampleM' g, exEM') := by
  have h1 : (exTypesM.outQ.deq (-128) ≤ exQ2.deq (-128)) ∧ exQ2.deq 127 ≤ exTypesM.outQ.deq 127 := by
    norm_num [exTypesM, Conv.Compile.exTypes, Conv.Compile.Types.outQ, exQ2, QType.deq]
  refine ((Relation.ReflTransGen.single (Merge.quantize (R := exRtM) (inputs := inputs) (Q := exampleM g) (e := exEM) (i := 1) (j := 0) (k := 0) (ot := exQ2)
    rfl rfl rfl (fun b => rfl) exM_is8.2 (fun h => by cases h) (fun _ _ _ _ _ => ⟨.inl h1.2, .inr (.inl h1.1)⟩))).tail
    (Merge.relu (i := 2) (j := 0) (ot := exTypesM.outQ) rfl rfl rfl exM_is8.1 (.inl rfl))).tail ?_
  exact Merge.rewrite (N := ⟨[⟨[1, 5, 5, 3], 1⟩], [⟨.other false 3, [0], ⟨[1, 3, 3, 6], 1⟩⟩, ⟨.other false 5, [0], ⟨[1, 3, 3, 6], 1⟩⟩], [1, 2]⟩)
    (.dead [⟨[1, 5, 5, 3], 1⟩] [] ⟨.other false 1, [0], ⟨[1, 3, 3, 6], 1⟩⟩
      [⟨.other false 3, [0], ⟨[1, 3, 3, 6], 1⟩⟩, ⟨.other false 5, [0], ⟨[1, 3, 3, 6], 1⟩⟩] [2, 3] (by decide) (by decide))

/-- Bounds for the merged network: each convolution adds one step of its own. -/
noncomputable def exDM (v : Nat) : ℝ := [0, 3, 1].getD v 0

theorem exampleM'_bounds (g : Conv.Compile.Net) : (exampleM' g).Bounds exRtM exEM' exDM := by
  have hthr : exRtM.cfg.threshold < 1 := by
    show exRt.cfg.threshold < 1
    norm_num [exRt, Conv.defaultCfg]
  constructor
  · intro v hv
    have : v = 0 := by simp [exampleM'] at hv; exact hv
    subst this
    norm_num [exDM]
  · intro j n hj
    have hjl := (List.getElem?_eq_some_iff.1 hj).1
    have hjl : j < 2 := hjl
    have : j = 0 ∨ j = 1 := by omega
    have z : ∀ l : List ℝ, roundUp (exDM 0 * peak l) = 0 := fun l => by
      rw [show exDM 0 = 0 from rfl, zero_mul, roundUp, if_pos le_rfl]
    rcases this with rfl | rfl <;> obtain rfl := Option.some.inj hj
    · rw [exEM'_values.1]
      refine ⟨by norm_num, by norm_num [exDM, exampleM'], .inr (.inr (.inl ⟨trivial, ?_⟩))⟩
      show (if exRtM.cfg.threshold < 1 then (1 : ℝ) else exRtM.cfg.threshold + 1) + 2 + roundUp (exDM 0 * peak _) ≤ exDM 1
      rw [if_pos hthr, z]
      norm_num [exDM]
    · rw [exEM'_values.2]
      refine ⟨by norm_num, by norm_num [exDM, exampleM'], .inr (.inr (.inl ⟨trivial, ?_⟩))⟩
      show (if exRtM.cfg.threshold < 1 then (1 : ℝ) else exRtM.cfg.threshold + 1) + 0 + roundUp (exDM 0 * peak _) ≤ exDM 2
      rw [if_pos hthr, z]
      norm_num [exDM]

theorem steps8 {L : BLib} {t : Ty} (ht : t.d = 1) {δ : ℝ} {a b : List Byte} (h : Close L t δ a b) (n : ℤ) (hn : δ < n + 1) (k : Nat) (hk : k < t.shape.prod) :
    |s8 (a.getD k 0) - s8 (b.getD k 0)| ≤ n := by
  have h1 := h k hk
  rw [ht] at h1
  have h1 : |((s8 ((word 1 a k).headD 0) : ℤ) : ℝ) - ((s8 ((word 1 b k).headD 0) : ℤ) : ℝ)| ≤ δ := h1
  have e : ∀ l : List Byte, (word 1 l k).headD 0 = l.getD k 0 := fun l => word_one l k
  rw [e, e] at h1
  have h2 : ((|s8 (a.getD k 0) - s8 (b.getD k 0)| : ℤ) : ℝ) < (n + 1 : ℤ) := by
    push_cast
    exact lt_of_le_of_lt h1 hn
  have h3 : |s8 (a.getD k 0) - s8 (b.getD k 0)| < n + 1 := by exact_mod_cast h2
  omega

/-- The hypotheses of C114 are met: the operators are merged, the merged network compiles, and in every run, whatever the input, its results are at most
3 steps and one step from those of TensorFlow Lite on the original network. -/
theorem C114_example (cfg : WCfg) (calls : List Nat) (x : List Byte) (hx : x.length = 75) :
    ∃ (g : Conv.Compile.Net) (ref : List (List Byte)) (W : WFun) (a : ModuleAttrs) (impl : Nat → Impl),
      (exampleM g).OK exRtM (fun _ => True) ∧ (exampleM g).Reference exRtM exEM ref ∧ ref.take 1 = [x] ∧
      Relation.ReflTransGen (Merge exRtM [x]) (exampleM g, exEM) (exampleM' g, exEM') ∧
      planMemory W.func = some a ∧
      ∀ m c, (∃ tr, Run W.func (onData W.func impl (W.kernels (((exampleM' g).rewritten (exampleM' g).seen).sem exRtM) W.file)) impl a.offsets W.func.ops 0
          (loadInputs a.offsets [x] m) c tr) ∧
        ∀ tr, Run W.func (onData W.func impl (W.kernels (((exampleM' g).rewritten (exampleM' g).seen).sem exRtM) W.file)) impl a.offsets W.func.ops 0
            (loadInputs a.offsets [x] m) c tr →
          ∃ out1 out2, tr.getLast? = some [out1, out2] ∧ ∀ k < 54, |s8 (out1.getD k 0) - s8 ((ref.getD 2 []).getD k 0)| ≤ 3 ∧
            |s8 (out2.getD k 0) - s8 ((ref.getD 3 []).getD k 0)| ≤ 1 := by
  obtain ⟨s, l1, l2, hg, -⟩ := Conv.Compile.C80_example.2.2
  obtain ⟨g, eg⟩ : ∃ g, g = Conv.Compile.Net.slice s (.cat 4 (.conv l1) (.cat 4 (.conv l2) .nil)) := ⟨_, rfl⟩
  rw [← eg] at hg
  have hQ := exampleM_ok g hg
  have hm := exampleM_merges g [x]
  have he : (exampleM g).Enough exRtM exEM := by
    intro j n hj
    have hjl := (List.getElem?_eq_some_iff.1 hj).1
    have hjl : j < 3 := hjl
    have : j = 0 ∨ j = 1 ∨ j = 2 := by omega
    rcases this with rfl | rfl | rfl <;> obtain rfl := Option.some.inj hj <;> norm_num [QNode.refErr, exEM]
  have hin : [x].map List.length = (exampleM g).inputs.map Ty.size := by simp [exampleM, Ty.size, hx]
  obtain ⟨ref, href, hrx⟩ := C112_reference_exists exRtM _ exRtM_ok _ hQ [x] hin
  have href : (exampleM g).Reference exRtM exEM ref := by
    refine ⟨href.length, href.sizes, fun j n hj => ?_⟩
    have h1 := href.within j n hj
    have h2 := he j n hj
    refine within_mono ?_ h1
    rw [hj]
    exact h2
  obtain ⟨hQ', -⟩ := C114_reference_kept exRtM _ exRtM_ok _ _ _ _ _ hm hQ he
  obtain ⟨consts, W, a, impl, hW, hv, hs, ha, hok, -, hsk, hrun⟩ :=
    C106_compiles exRtM _ exRtM_ok _ hQ' _ .refl (fun _ => false) cfg calls (by simp [exampleM'])
  have hrx : ref.take (exampleM g).inputs.length = [x] := hrx
  refine ⟨g, ref, W, a, impl, hQ, href, hrx, hm, ha, fun m c => ⟨hrun _ _, fun tr htr => ?_⟩⟩
  have nof : ∀ i, (exampleM' g).FiniteIn exRtM i := by
    intro i j tq act args ty hj
    have hjl := (List.getElem?_eq_some_iff.1 hj).1
    have hjl : j < 2 := hjl
    have : j = 0 ∨ j = 1 := by omega
    rcases this with rfl | rfl <;> cases hj
  obtain ⟨outs, h1, h2, h3⟩ := C114_merged_network exRtM _ exRtM_ok _ _ hQ _ _ he ref href (by rw [hrx]; exact hm) _ .refl (fun _ => false) cfg calls calls consts
    W hW hv hs a ha impl hok (fun j _ h => absurd h (hsk j)) [x] hin exDM (exampleM'_bounds g) (by
      intro v hv
      have hv : v < 1 := hv
      obtain rfl : v = 0 := by omega
      have : ref.getD 0 [] = x := by
        have := congrArg (fun l => l.getD 0 []) hrx
        rw [← show ([x] : List (List Byte)).getD 0 [] = x from rfl, ← this]
        show _ = (List.take 1 ref).getD 0 []
        rw [List.getD_eq_getElem?_getD, List.getD_eq_getElem?_getD, List.getElem?_take_of_lt (by omega)]
      rw [this]
      intro k _
      show |((_ : ℤ) : ℝ) - _| ≤ exDM 0
      norm_num [exDM]) (nof _) (nof _) m c tr htr
  obtain ⟨o1, q1, q2⟩ := h3 0 2 1 rfl rfl
  obtain ⟨o2, q3, q4⟩ := h3 1 3 2 rfl rfl
  have hl : outs.length = 2 := h2
  obtain rfl : outs = [o1, o2] := by
    match outs, hl, q1, q3 with
    | [u, v], _, q1, q3 => simp at q1 q3; rw [q1, q3]
  refine ⟨o1, o2, h1, fun k hk => ⟨?_, ?_⟩⟩
  · exact steps8 rfl q2 3 (by norm_num [exDM]) k hk
  · exact steps8 rfl q4 1 (by norm_num [exDM]) k hk

end Verif.Net
