import Verif.Net.DriftMain
/-! C112: an example. -/
namespace Verif.Net
open Verif.Tensor Verif.Move Verif.MemPlan Verif.MemPlan.Conc Verif.Quant

/-- The end of C84's example: a maximum pool, an average pool with RELU, a reshape and a fully connected layer. -/
def exampleD (g2 g3 : Conv.Compile.Net) : QNetwork where
  inputs := [⟨[1, 3, 3, 6], 1⟩]
  nodes := [⟨.maxPool exMax, [0], ⟨[1, 2, 2, 6], 1⟩⟩,
    ⟨.avgPool exT2 exAvg 2 2 1 1 6 g2, [1], ⟨[1, 1, 1, 6], 1⟩⟩,
    ⟨.base .reshape, [2], ⟨[1, 6], 1⟩⟩,
    ⟨.fc exT3 exFC 1 g3, [3], ⟨[1, 2], 1⟩⟩]
  outputs := [4]

/-- The pools differ by one step, the layer by at most 5.5625 of its steps: 57/16 for the difference in its operand, one for the rounding of the reference and
one of its own. -/
noncomputable def exD (v : Nat) : ℝ := [0, 0, 1, 1, 89 / 16].getD v 0

theorem exampleD_ok (g2 g3 : Conv.Compile.Net)
    (hg2 : Conv.Compile.Pipeline 8192 (.conv (Conv.Compile.poolLeaf exAvg 2 2 1 1 6)) g2)
    (hg3 : Conv.Compile.Pipeline 8192 (.conv (Conv.Compile.fcLeaf exFC 1)) g3) : (exampleD g2 g3).OK exRt fun _ => True := by
  refine ⟨?_, by simp [exampleD]⟩
  refine ⟨by simp [exampleD], ?_, by simp [exampleD], ?_, by simp [exampleD], ?_, by simp [exampleD], ?_, trivial⟩
  · exact ⟨_, _, rfl, rfl, rfl, by constructor <;> decide, rfl, rfl⟩
  · exact ⟨_, _, rfl, rfl, rfl, ⟨by norm_num [exT2], by norm_num [exT2], by decide, by decide⟩, .inr ⟨rfl, rfl⟩, rfl, by decide, by decide, by decide,
      by decide, by decide, by decide, by decide, by decide, by decide, by decide, by decide, by decide, by decide, 8192, hg2⟩
  · exact ⟨_, _, rfl, rfl⟩
  · refine ⟨_, _, [], rfl, rfl, rfl, rfl, rfl, rfl, ⟨by norm_num [exT3], by norm_num [exT3], by decide, by decide⟩, .inl rfl, rfl, by decide, by decide,
      trivial, ?_, ?_, 8192, hg3⟩
    · intro b hb
      have := Option.some.inj hb
      subst this
      exact ⟨rfl, trivial⟩
    · intro o _
      refine ⟨rfl, by norm_num [exFC, Conv.QP.scale], by norm_num [exFC, Conv.QP.scale, exRt, Conv.defaultCfg], ?_⟩
      intro o' _
      norm_num [exFC, Conv.QP.scale, exRt, Conv.defaultCfg]

theorem exampleD_bounds (g2 g3 : Conv.Compile.Net) :
    (exampleD g2 g3).Bounds exRt (fun j => ((exampleD g2 g3).nodes[j]?.map (QNode.refErr exRt)).getD 0) exD := by
  constructor
  · intro v hv
    have : v = 0 := by simp [exampleD] at hv; exact hv
    subst this
    norm_num [exD]
  · intro j n hj
    have hthr : exRt.cfg.threshold < 1 := by norm_num [exRt, Conv.defaultCfg]
    have hjl := (List.getElem?_eq_some_iff.1 hj).1
    have hjl : j < 4 := hjl
    have : j = 0 ∨ j = 1 ∨ j = 2 ∨ j = 3 := by omega
    rcases this with rfl | rfl | rfl | rfl <;> obtain rfl := Option.some.inj hj
    · refine ⟨le_refl (0 : ℝ), by norm_num [exD, exampleD], .inr (.inr (.inl ⟨trivial, ?_⟩))⟩
      show (0 : ℝ) + 0 + exD 0 ≤ exD 1
      norm_num [exD]
    · refine ⟨le_refl (0 : ℝ), by norm_num [exD, exampleD], .inr (.inr (.inl ⟨trivial, ?_⟩))⟩
      show (if exRt.cfg.threshold < 1 then (1 : ℝ) else exRt.cfg.threshold + 1) + 0 + roundUp ((exT2.inS : ℝ) * exD 1 / exT2.outS) ≤ exD 2
      rw [if_pos hthr, show exD 1 = 0 from rfl, mul_zero, zero_div, roundUp, if_pos le_rfl]
      norm_num [exD]
    · refine ⟨le_refl (0 : ℝ), by norm_num [exD, exampleD], .inr (.inr (.inl ⟨?_, ?_⟩))⟩
      · intro t ht
        have : t = ⟨[1, 1, 1, 6], 1⟩ := List.mem_singleton.1 ht
        rw [this]
      · show (0 : ℝ) + 0 + peak [exD 2] ≤ exD 3
        norm_num [exD, peak]
    · refine ⟨le_refl (0 : ℝ), by norm_num [exD, exampleD], .inr (.inr (.inl ⟨trivial, ?_⟩))⟩
      show (if exRt.cfg.threshold < 1 then (1 : ℝ) else exRt.cfg.threshold + 1) + 0 +
        roundUp (exD 3 * peak [gain exT3 (exFC.qp.scale 0) (weightSumFc exFC 0), gain exT3 (exFC.qp.scale 1) (weightSumFc exFC 1)]) ≤ exD 4
      have w0 : weightSumFc exFC 0 = 21 := by decide
      have w1 : weightSumFc exFC 1 = 57 := by decide
      rw [if_pos hthr, w0, w1]
      have g0 : gain exT3 (exFC.qp.scale 0) 21 = 21 / 16 := by norm_num [gain, exT3, exFC, Conv.QP.scale]
      have g1 : gain exT3 (exFC.qp.scale 1) 57 = 57 / 16 := by norm_num [gain, exT3, exFC, Conv.QP.scale]
      rw [g0, g1]
      norm_num [exD, peak, roundUp]

/-- The hypotheses of C112 are met: the example compiles, the reference runs, and every result of the compiled model is at most 5 steps from
the result of the reference, whatever the input. -/
theorem C112_example (cfg : WCfg) (calls : List Nat) (x : List Byte) (hx : x.length = 54) :
    ∃ (g2 g3 : Conv.Compile.Net) (ref : List (List Byte)) (W : WFun) (a : ModuleAttrs) (impl : Nat → Impl),
      (exampleD g2 g3).OK exRt (fun _ => True) ∧
      (exampleD g2 g3).Reference exRt (fun j => ((exampleD g2 g3).nodes[j]?.map (QNode.refErr exRt)).getD 0) ref ∧ ref.take 1 = [x] ∧
      planMemory W.func = some a ∧
      ∀ m c, (∃ tr, Run W.func (onData W.func impl (W.kernels (((exampleD g2 g3).rewritten (exampleD g2 g3).seen).sem exRt) W.file)) impl a.offsets W.func.ops 0
          (loadInputs a.offsets [x] m) c tr) ∧
        ∀ tr, Run W.func (onData W.func impl (W.kernels (((exampleD g2 g3).rewritten (exampleD g2 g3).seen).sem exRt) W.file)) impl a.offsets W.func.ops 0
            (loadInputs a.offsets [x] m) c tr →
          ∃ out, tr.getLast? = some [out] ∧ ∀ k < 2, |s8 (out.getD k 0) - s8 ((ref.getD 4 []).getD k 0)| ≤ 5 := by
  obtain ⟨_, _, g2, _, _, _, _, _, _, hg2⟩ := Conv.Compile.C80_reached 8192 (Conv.Compile.poolLeaf exAvg 2 2 1 1 6)
    (Conv.Compile.poolLeaf_ok _ rfl 2 2 1 1 6 (by decide) (by decide) (by decide) (by decide) (by decide) (by decide) (by decide) (by decide) (by decide)
      (by decide) (by decide))
  obtain ⟨_, _, g3, _, _, _, _, _, _, hg3⟩ := Conv.Compile.C80_reached 8192 (Conv.Compile.fcLeaf exFC 1)
    (fcLeaf_ok exFC 1 (by decide) rfl (by decide) trivial (by
      intro b hb
      have := Option.some.inj hb
      subst this
      exact ⟨rfl, trivial⟩) (fun _ _ => rfl) (fun _ _ => by norm_num [exFC, Conv.QP.scale]))
  have hQ := exampleD_ok g2 g3 hg2 hg3
  have hin : [x].map List.length = (exampleD g2 g3).inputs.map Ty.size := by simp [exampleD, Ty.size, hx]
  obtain ⟨ref, href, hrx⟩ := C112_reference_exists exRt _ exRt_ok _ hQ [x] hin
  obtain ⟨consts, W, a, impl, hW, hv, hs, ha, hok, -, hsk, hrun⟩ :=
    C106_compiles exRt _ exRt_ok _ hQ _ .refl (fun _ => false) cfg calls (by simp [exampleD])
  refine ⟨g2, g3, ref, W, a, impl, hQ, href, hrx, ha, fun m c => ⟨hrun _ _, fun tr htr => ?_⟩⟩
  have nof : ∀ i, (exampleD g2 g3).FiniteIn exRt i := by
    intro i j tq act args ty hj
    have hjl := (List.getElem?_eq_some_iff.1 hj).1
    have hjl : j < 4 := hjl
    have : j = 0 ∨ j = 1 ∨ j = 2 ∨ j = 3 := by omega
    rcases this with rfl | rfl | rfl | rfl <;> cases hj
  obtain ⟨outs, h1, h2, h3⟩ := C112_close_to_reference exRt _ exRt_ok _ hQ _ .refl (fun _ => false) cfg calls calls consts W hW hv hs a ha impl hok
    (fun j _ h => absurd h (hsk j)) [x] hin _ exD ref href (exampleD_bounds g2 g3) (by
      intro v hv
      have hv : v < 1 := hv
      obtain rfl : v = 0 := by omega
      have : ref.getD 0 [] = x := by
        have := congrArg (fun l => l.getD 0 []) hrx
        rw [← show ([x] : List (List Byte)).getD 0 [] = x from rfl, ← this]
        show _ = (List.take 1 ref).getD 0 []
        rw [List.getD_eq_getElem?_getD, List.getD_eq_getElem?_getD, List.getElem?_take_of_lt (by omega)]
      rw [this]
      intro k _
      show |((_ : ℤ) : ℝ) - _| ≤ exD 0
      norm_num [exD]) (nof _) (nof _) m c tr htr
  obtain ⟨out, q1, q2⟩ := h3 0 4 rfl
  have hl : outs.length = 1 := h2
  obtain rfl : outs = [out] := by
    match outs, hl, q1 with
    | [o], _, q1 => simpa using q1
  refine ⟨out, h1, fun k hk => ?_⟩
  have := q2 k (by show k < 2; exact hk)
  have : |((s8 ((word 1 out k).headD 0) : ℤ) : ℝ) - ((s8 ((word 1 (ref.getD 4 []) k).headD 0) : ℤ) : ℝ)| ≤ exD 4 := this
  have e : ∀ l : List Byte, (word 1 l k).headD 0 = l.getD k 0 := fun l => word_one l k
  rw [e, e] at this
  have h6 : |((s8 (out.getD k 0) - s8 ((ref.getD 4 []).getD k 0) : ℤ) : ℝ)| < 6 := by
    push_cast
    refine lt_of_le_of_lt this ?_
    norm_num [exD]
  have h7 : |s8 (out.getD k 0) - s8 ((ref.getD 4 []).getD k 0)| < 6 := by exact_mod_cast h6
  omega

end Verif.Net
