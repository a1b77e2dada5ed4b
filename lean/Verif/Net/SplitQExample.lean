import Verif.Net.SplitQMain
import Verif.Net.MergeExample
/-! C115: an example. -/
namespace Verif.Net
open Verif.Tensor Verif.Move Verif.MemPlan Verif.MemPlan.Conc Verif.Quant Verif.OpSplit

/-- The convolution of C80's example: `SAME`, 3x3, stride 2, from 5x5x3 to 3x3x6. -/
def exS0 (g : Conv.Compile.Net) : QNetwork where
  inputs := [⟨[1, 5, 5, 3], 1⟩]
  nodes := [⟨.conv Conv.Compile.exTypes Conv.Compile.exLeaf g, [0], ⟨[1, 3, 3, 6], 1⟩⟩]
  outputs := [1]

/-- Its result cut into two rows and one. -/
def exS1 (g : Conv.Compile.Net) : QNetwork where
  inputs := [⟨[1, 5, 5, 3], 1⟩]
  nodes := [⟨.conv Conv.Compile.exTypes Conv.Compile.exLeaf g, [0], ⟨[1, 3, 3, 6], 1⟩⟩,
    ⟨.base (.slice [0, 0, 0, 0] [1, 2, 3, 6]), [1], ⟨[1, 2, 3, 6], 1⟩⟩,
    ⟨.base (.slice [0, 2, 0, 0] [1, 1, 3, 6]), [1], ⟨[1, 1, 3, 6], 1⟩⟩,
    ⟨.base (.concat 1), [2, 3], ⟨[1, 3, 3, 6], 1⟩⟩]
  outputs := [4]

/-- The clones: four rows of the input and a row of padding above them; two rows and a row of padding below. -/
def exLeaf1 : Conv.Compile.Leaf := { Conv.Compile.exLeaf with ih := 5, iw := 7, oh := 2, ow := 3, op := { Conv.Compile.exLeaf.op with padding := .valid } }
def exLeaf2 : Conv.Compile.Leaf := { Conv.Compile.exLeaf with ih := 3, iw := 7, oh := 1, ow := 3, op := { Conv.Compile.exLeaf.op with padding := .valid } }

def exS2 (g g1 : Conv.Compile.Net) : QNetwork where
  inputs := [⟨[1, 5, 5, 3], 1⟩]
  nodes := [⟨.conv Conv.Compile.exTypes Conv.Compile.exLeaf g, [0], ⟨[1, 3, 3, 6], 1⟩⟩,
    ⟨.base (.slice [0, 0, 0, 0] [1, 4, 5, 3]), [0], ⟨[1, 4, 5, 3], 1⟩⟩,
    ⟨.base (.pad true 3 [0, 0, 1, 0, 1, 1, 0, 0]), [2], ⟨[1, 5, 7, 3], 1⟩⟩,
    ⟨.conv Conv.Compile.exTypes exLeaf1 g1, [3], ⟨[1, 2, 3, 6], 1⟩⟩,
    ⟨.base (.slice [0, 2, 0, 0] [1, 1, 3, 6]), [1], ⟨[1, 1, 3, 6], 1⟩⟩,
    ⟨.base (.concat 1), [4, 5], ⟨[1, 3, 3, 6], 1⟩⟩]
  outputs := [6]

def exS3 (g g1 g2 : Conv.Compile.Net) : QNetwork where
  inputs := [⟨[1, 5, 5, 3], 1⟩]
  nodes := [⟨.conv Conv.Compile.exTypes Conv.Compile.exLeaf g, [0], ⟨[1, 3, 3, 6], 1⟩⟩,
    ⟨.base (.slice [0, 0, 0, 0] [1, 4, 5, 3]), [0], ⟨[1, 4, 5, 3], 1⟩⟩,
    ⟨.base (.pad true 3 [0, 0, 1, 0, 1, 1, 0, 0]), [2], ⟨[1, 5, 7, 3], 1⟩⟩,
    ⟨.conv Conv.Compile.exTypes exLeaf1 g1, [3], ⟨[1, 2, 3, 6], 1⟩⟩,
    ⟨.base (.slice [0, 3, 0, 0] [1, 2, 5, 3]), [0], ⟨[1, 2, 5, 3], 1⟩⟩,
    ⟨.base (.pad true 3 [0, 0, 0, 1, 1, 1, 0, 0]), [5], ⟨[1, 3, 7, 3], 1⟩⟩,
    ⟨.conv Conv.Compile.exTypes exLeaf2 g2, [6], ⟨[1, 1, 3, 6], 1⟩⟩,
    ⟨.base (.concat 1), [4, 7], ⟨[1, 3, 3, 6], 1⟩⟩]
  outputs := [8]

/-- The split network: the original convolution is gone. -/
def exS4 (g1 g2 : Conv.Compile.Net) : QNetwork where
  inputs := [⟨[1, 5, 5, 3], 1⟩]
  nodes := [⟨.base (.slice [0, 0, 0, 0] [1, 4, 5, 3]), [0], ⟨[1, 4, 5, 3], 1⟩⟩,
    ⟨.base (.pad true 3 [0, 0, 1, 0, 1, 1, 0, 0]), [1], ⟨[1, 5, 7, 3], 1⟩⟩,
    ⟨.conv Conv.Compile.exTypes exLeaf1 g1, [2], ⟨[1, 2, 3, 6], 1⟩⟩,
    ⟨.base (.slice [0, 3, 0, 0] [1, 2, 5, 3]), [0], ⟨[1, 2, 5, 3], 1⟩⟩,
    ⟨.base (.pad true 3 [0, 0, 0, 1, 1, 1, 0, 0]), [4], ⟨[1, 3, 7, 3], 1⟩⟩,
    ⟨.conv Conv.Compile.exTypes exLeaf2 g2, [5], ⟨[1, 1, 3, 6], 1⟩⟩,
    ⟨.base (.concat 1), [3, 6], ⟨[1, 3, 3, 6], 1⟩⟩]
  outputs := [7]

theorem exS_split (g : Conv.Compile.Net) (e : Nat → ℝ) : ∃ e', SplitQStep (exS0 g, e) (exS1 g, e') := by
  obtain ⟨N, hN⟩ : ∃ N, N = splice [⟨[1, 5, 5, 3], 1⟩] [] [⟨.other false 1, [0], ⟨[1, 3, 3, 6], 1⟩⟩, ⟨.slice [0, 0, 0, 0] [1, 2, 3, 6], [1], ⟨[1, 2, 3, 6], 1⟩⟩,
      ⟨.slice [0, 2, 0, 0] [1, 1, 3, 6], [1], ⟨[1, 1, 3, 6], 1⟩⟩, ⟨.concat 1, [2, 3], ⟨[1, 3, 3, 6], 1⟩⟩] [] [1] 4 := ⟨_, rfl⟩
  have h : Rw [splitP 2] (exS0 g).seen N := by
    rw [hN]
    exact .apply (splitP 2) [⟨[1, 5, 5, 3], 1⟩] [] ⟨.other false 1, [0], ⟨[1, 3, 3, 6], 1⟩⟩ [] [1] _ 4 (List.mem_singleton.2 rfl) rfl
  have h2 : (exS0 g).rewritten N = exS1 g := by rw [hN]; rfl
  have := SplitQStep.move (e := e) (.split 2) h
  rw [h2] at this
  exact ⟨_, this⟩

theorem exS_raise1 (g g1 : Conv.Compile.Net) (h : ∃ limit, Conv.Compile.Pipeline limit (.conv exLeaf1) g1) (e : Nat → ℝ) : ∃ e', SplitQStep (exS1 g, e) (exS2 g g1, e') := by
  obtain ⟨ns, hns⟩ : ∃ ns : List Node, ns = [⟨.slice [0, 0, 0, 0] [1, 4, 5, 3], [0], ⟨[1, 4, 5, 3], 1⟩⟩, ⟨.pad true 3 [0, 0, 1, 0, 1, 1, 0, 0], [2], ⟨[1, 5, 7, 3], 1⟩⟩] := ⟨_, rfl⟩
  have h1 : raiseConvQ (exS1 g) g1 1 = some (ns, ⟨.conv Conv.Compile.exTypes exLeaf1 g1, [3], ⟨[1, 2, 3, 6], 1⟩⟩, 0) := by rw [hns]; rfl
  have h2 : (exS1 g).raise 1 ns ⟨.conv Conv.Compile.exTypes exLeaf1 g1, [3], ⟨[1, 2, 3, 6], 1⟩⟩ = exS2 g g1 := by rw [hns]; simp [exS1, exS2, exS3, exS4, QNetwork.raise, QNetwork.insert, QNetwork.rewritten, QNetwork.seen, splice, QNetwork.replace, QNetwork.kindOf, QKind.seen, renum, Node.rename]
  have := SplitQStep.raise (e := e) (.inl ⟨g1, h1⟩) h
  rw [h2] at this
  exact ⟨_, this⟩

theorem exS_raise2 (g g1 g2 : Conv.Compile.Net) (h : ∃ limit, Conv.Compile.Pipeline limit (.conv exLeaf2) g2) (e : Nat → ℝ) :
    ∃ e', SplitQStep (exS2 g g1, e) (exS3 g g1 g2, e') := by
  obtain ⟨ns, hns⟩ : ∃ ns : List Node, ns = [⟨.slice [0, 3, 0, 0] [1, 2, 5, 3], [0], ⟨[1, 2, 5, 3], 1⟩⟩, ⟨.pad true 3 [0, 0, 0, 1, 1, 1, 0, 0], [5], ⟨[1, 3, 7, 3], 1⟩⟩] := ⟨_, rfl⟩
  have h1 : raiseConvQ (exS2 g g1) g2 4 = some (ns, ⟨.conv Conv.Compile.exTypes exLeaf2 g2, [6], ⟨[1, 1, 3, 6], 1⟩⟩, 0) := by rw [hns]; rfl
  have h2 : (exS2 g g1).raise 4 ns ⟨.conv Conv.Compile.exTypes exLeaf2 g2, [6], ⟨[1, 1, 3, 6], 1⟩⟩ = exS3 g g1 g2 := by rw [hns]; simp [exS1, exS2, exS3, exS4, QNetwork.raise, QNetwork.insert, QNetwork.rewritten, QNetwork.seen, splice, QNetwork.replace, QNetwork.kindOf, QKind.seen, renum, Node.rename]
  have := SplitQStep.raise (e := e) (.inl ⟨g2, h1⟩) h
  rw [h2] at this
  exact ⟨_, this⟩

theorem exS_dead (g g1 g2 : Conv.Compile.Net) (e : Nat → ℝ) : ∃ e', SplitQStep (exS3 g g1 g2, e) (exS4 g1 g2, e') := by
  obtain ⟨N, hN⟩ : ∃ N, N = splice [⟨[1, 5, 5, 3], 1⟩] [] [] ((exS3 g g1 g2).seen.nodes.drop 1) [8] 0 := ⟨_, rfl⟩
  have h : Rw [raisePadP] (exS3 g g1 g2).seen N := by
    rw [hN]
    exact .dead [⟨[1, 5, 5, 3], 1⟩] [] ⟨.other false 1, [0], ⟨[1, 3, 3, 6], 1⟩⟩ ((exS3 g g1 g2).seen.nodes.drop 1) [8] (by simp [exS3, QNetwork.seen]) (by decide)
  have h2 : (exS3 g g1 g2).rewritten N = exS4 g1 g2 := by rw [hN]; simp [exS1, exS2, exS3, exS4, QNetwork.raise, QNetwork.insert, QNetwork.rewritten, QNetwork.seen, splice, QNetwork.replace, QNetwork.kindOf, QKind.seen, renum, Node.rename]
  have := SplitQStep.move (e := e) .raisePad h
  rw [h2] at this
  exact ⟨_, this⟩

theorem exS_ok (g : Conv.Compile.Net) (hg : Conv.Compile.Pipeline 100 (.conv Conv.Compile.exLeaf) g) : (exS0 g).OK exRt fun _ => True := by
  refine ⟨⟨by simp [exS0], ?_, trivial⟩, by simp [exS0]⟩
  exact ⟨_, _, rfl, rfl, rfl, ⟨by norm_num [Conv.Compile.exTypes], by norm_num [Conv.Compile.exTypes], by decide, by decide⟩, rfl,
    Conv.Compile.exLeaf_ok, by decide, by decide, by decide, .inr ⟨rfl, .inr rfl⟩, Conv.Compile.C80_example.1, 100, hg⟩

/-- The clones are well formed, so the compiler compiles them (C80). -/
theorem exLeaf12_ok : exLeaf1.OK [1, 5, 7, 3] ∧ exLeaf2.OK [1, 3, 7, 3] := by
  have h := Conv.Compile.exLeaf_ok
  constructor
  · have := raisedLeaf_ok (t := Conv.Compile.exTypes) rfl h (by decide) rfl rfl (r := (wopOf Conv.Compile.exTypes Conv.Compile.exLeaf).raised 0 2) (s := 2) (by decide +kernel)
      (by decide +kernel) (by decide +kernel) (by decide +kernel)
    exact this
  · have := raisedLeaf_ok (t := Conv.Compile.exTypes) rfl h (by decide) rfl rfl (r := (wopOf Conv.Compile.exTypes Conv.Compile.exLeaf).raised 2 1) (s := 1) (by decide +kernel)
      (by decide +kernel) (by decide +kernel) (by decide +kernel)
    exact this

/-- Bounds for the split network: the convolutions add one step. -/
noncomputable def exDS (v : Nat) : ℝ := [0, 0, 0, 1, 0, 0, 1, 1].getD v 0

theorem exS4_bounds (g1 g2 : Conv.Compile.Net) (e : Nat → ℝ) (he : ∀ j, e j = 0) : (exS4 g1 g2).Bounds exRt e exDS := by
  have hthr : exRt.cfg.threshold < 1 := by norm_num [exRt, Conv.defaultCfg]
  have z : ∀ l : List ℝ, roundUp (0 * peak l) = 0 := fun l => by rw [zero_mul, roundUp, if_pos le_rfl]
  constructor
  · intro v hv
    have : v = 0 := by simp [exS4] at hv; exact hv
    subst this
    norm_num [exDS]
  · intro j n hj
    refine ⟨(he j).ge, ?_⟩
    rw [he j]
    have hjl := (List.getElem?_eq_some_iff.1 hj).1
    have hjl : j < 7 := hjl
    have : j = 0 ∨ j = 1 ∨ j = 2 ∨ j = 3 ∨ j = 4 ∨ j = 5 ∨ j = 6 := by omega
    rcases this with rfl | rfl | rfl | rfl | rfl | rfl | rfl <;> obtain rfl := Option.some.inj hj
    · refine ⟨by norm_num [exDS, exS4], .inr (.inr (.inl ⟨trivial, ?_⟩))⟩
      show (0 : ℝ) + 0 + peak [0] ≤ 0
      norm_num [peak]
    · refine ⟨by norm_num [exDS, exS4], .inr (.inr (.inl ⟨trivial, ?_⟩))⟩
      show (0 : ℝ) + 0 + peak [0] ≤ 0
      norm_num [peak]
    · refine ⟨by norm_num [exDS, exS4], .inr (.inr (.inl ⟨trivial, ?_⟩))⟩
      show (if exRt.cfg.threshold < 1 then (1 : ℝ) else exRt.cfg.threshold + 1) + 0 + roundUp (0 * peak _) ≤ 1
      rw [if_pos hthr, z]
      norm_num
    · refine ⟨by norm_num [exDS, exS4], .inr (.inr (.inl ⟨trivial, ?_⟩))⟩
      show (0 : ℝ) + 0 + peak [0] ≤ 0
      norm_num [peak]
    · refine ⟨by norm_num [exDS, exS4], .inr (.inr (.inl ⟨trivial, ?_⟩))⟩
      show (0 : ℝ) + 0 + peak [0] ≤ 0
      norm_num [peak]
    · refine ⟨by norm_num [exDS, exS4], .inr (.inr (.inl ⟨trivial, ?_⟩))⟩
      show (if exRt.cfg.threshold < 1 then (1 : ℝ) else exRt.cfg.threshold + 1) + 0 + roundUp (0 * peak _) ≤ 1
      rw [if_pos hthr, z]
      norm_num
    · refine ⟨by norm_num [exDS, exS4], .inr (.inr (.inl ⟨trivial, ?_⟩))⟩
      show (0 : ℝ) + 0 + peak [1, 1] ≤ 1
      norm_num [peak]

/-- The hypotheses of C115 are met: the convolution is split into two and removed, the split network compiles, and in every run, whatever the input, its
result is at most one step from that of TensorFlow Lite on the original network. -/
theorem C115_example (cfg : WCfg) (calls : List Nat) (x : List Byte) (hx : x.length = 75) :
    ∃ (g g1 g2 : Conv.Compile.Net) (ref : List (List Byte)) (e' : Nat → ℝ) (W : WFun) (a : ModuleAttrs) (impl : Nat → Impl),
      (exS0 g).OK exRt (fun _ => True) ∧ (exS0 g).Reference exRt (fun _ => 0) ref ∧ ref.take 1 = [x] ∧
      Relation.ReflTransGen SplitQStep (exS0 g, fun _ => 0) (exS4 g1 g2, e') ∧
      planMemory W.func = some a ∧
      ∀ m c, (∃ tr, Run W.func (onData W.func impl (W.kernels (((exS4 g1 g2).rewritten (exS4 g1 g2).seen).sem exRt) W.file)) impl a.offsets W.func.ops 0
          (loadInputs a.offsets [x] m) c tr) ∧
        ∀ tr, Run W.func (onData W.func impl (W.kernels (((exS4 g1 g2).rewritten (exS4 g1 g2).seen).sem exRt) W.file)) impl a.offsets W.func.ops 0
            (loadInputs a.offsets [x] m) c tr →
          ∃ out, tr.getLast? = some [out] ∧ ∀ k < 54, |s8 (out.getD k 0) - s8 ((ref.getD 1 []).getD k 0)| ≤ 1 := by
  obtain ⟨s, l1, l2, hg, -⟩ := Conv.Compile.C80_example.2.2
  obtain ⟨g, eg⟩ : ∃ g, g = Conv.Compile.Net.slice s (.cat 4 (.conv l1) (.cat 4 (.conv l2) .nil)) := ⟨_, rfl⟩
  rw [← eg] at hg
  obtain ⟨-, -, g1, -, -, -, -, -, -, hg1⟩ := Conv.Compile.C80_reached 100 exLeaf1 exLeaf12_ok.1
  obtain ⟨-, -, g2, -, -, -, -, -, -, hg2⟩ := Conv.Compile.C80_reached 100 exLeaf2 exLeaf12_ok.2
  have hQ := exS_ok g hg
  obtain ⟨e1, s1⟩ := exS_split g fun _ => 0
  obtain ⟨e2, s2⟩ := exS_raise1 g g1 ⟨100, hg1⟩ e1
  obtain ⟨e3, s3⟩ := exS_raise2 g g1 g2 ⟨100, hg2⟩ e2
  obtain ⟨e4, s4⟩ := exS_dead g g1 g2 e3
  have hsteps : Relation.ReflTransGen SplitQStep (exS0 g, fun _ => 0) (exS4 g1 g2, e4) := (((Relation.ReflTransGen.single s1).tail s2).tail s3).tail s4
  have hl : ∀ inputs, Relation.ReflTransGen (Lower exRt inputs) (exS0 g, fun _ => 0) (exS4 g1 g2, e4) := fun inputs =>
    (((Relation.ReflTransGen.single (Lower.split s1)).tail (.split s2)).tail (.split s3)).tail (.split s4)
  have h0 := C115_no_error _ _ _ _ hsteps fun _ => rfl
  have he : (exS0 g).Enough exRt fun _ => 0 := by
    intro j n hj
    have hjl := (List.getElem?_eq_some_iff.1 hj).1
    have hjl : j < 1 := hjl
    obtain rfl : j = 0 := by omega
    obtain rfl := Option.some.inj hj
    exact le_refl _
  have hin : [x].map List.length = (exS0 g).inputs.map Ty.size := by simp [exS0, Ty.size, hx]
  obtain ⟨ref, href, hrx⟩ := C112_reference_exists exRt _ exRt_ok _ hQ [x] hin
  have href : (exS0 g).Reference exRt (fun _ => 0) ref := by
    refine ⟨href.length, href.sizes, fun j n hj => ?_⟩
    have h1 := href.within j n hj
    have h2 := he j n hj
    refine within_mono ?_ h1
    rw [hj]
    exact h2
  obtain ⟨hQ', -⟩ := C115_reference_kept exRt _ exRt_ok _ _ _ _ _ (hl [x]) hQ he
  obtain ⟨consts, W, a, impl, hW, hv, hs, ha, hok, -, hsk, hrun⟩ :=
    C106_compiles exRt _ exRt_ok _ hQ' _ .refl (fun _ => false) cfg calls (by simp [exS4])
  have hrx : ref.take (exS0 g).inputs.length = [x] := hrx
  refine ⟨g, g1, g2, ref, e4, W, a, impl, hQ, href, hrx, hsteps, ha, fun m c => ⟨hrun _ _, fun tr htr => ?_⟩⟩
  have nof : ∀ i, (exS4 g1 g2).FiniteIn exRt i := by
    intro i j tq act args ty hj
    have hjl := (List.getElem?_eq_some_iff.1 hj).1
    have hjl : j < 7 := hjl
    have : j = 0 ∨ j = 1 ∨ j = 2 ∨ j = 3 ∨ j = 4 ∨ j = 5 ∨ j = 6 := by omega
    rcases this with rfl | rfl | rfl | rfl | rfl | rfl | rfl <;> cases hj
  obtain ⟨outs, h1, h2, h3⟩ := C115_split_network exRt _ exRt_ok _ _ hQ _ _ he ref href (by rw [hrx]; exact hl _) _ .refl (fun _ => false) cfg calls calls consts
    W hW hv hs a ha impl hok (fun j _ h => absurd h (hsk j)) [x] hin exDS (exS4_bounds g1 g2 e4 h0) (by
      intro v hv
      have hv : v < 1 := hv
      obtain rfl : v = 0 := by omega
      have : ref.getD 0 [] = x := by
        have := congrArg (fun l => l.getD 0 []) hrx
        rw [← show ([x] : List (List Byte)).getD 0 [] = x from rfl, ← this]
        show _ = (List.take 1 ref).getD 0 []
        rw [List.getD_eq_getElem?_getD, List.getD_eq_getElem?_getD, List.getElem?_take_of_lt (by omega)]
      rw [this]
      intro k _
      show |((_ : ℤ) : ℝ) - _| ≤ exDS 0
      norm_num [exDS]) (nof _) (nof _) m c tr htr
  obtain ⟨o1, q1, q2⟩ := h3 0 1 7 rfl rfl
  have hl : outs.length = 1 := h2
  obtain rfl : outs = [o1] := by
    match outs, hl, q1 with
    | [u], _, q1 => simp at q1; rw [q1]
  refine ⟨o1, h1, fun k hk => ?_⟩
  exact steps8 rfl q2 1 (by norm_num [exDS]) k hk

/-- An addition of a 4x3x2 tensor and one of height 1: the slice of rows 1 and 2 of the sum is the sum of the first operand's rows 1 and 2 and the second. -/
theorem C115_binary_example (act : TFL.Act) (lt rt ot : XC.QI8) :
    raiseBinQ ⟨[⟨[1, 4, 3, 2], 1⟩, ⟨[1, 1, 3, 2], 1⟩],
      [⟨.binary .add act lt rt ot, [0, 1], ⟨[1, 4, 3, 2], 1⟩⟩, ⟨.base (.slice [0, 1, 0, 0] [1, 2, 3, 2]), [2], ⟨[1, 2, 3, 2], 1⟩⟩], [3]⟩ 1 =
    some ([⟨.slice [0, 1, 0, 0] [1, 2, 3, 2], [0], ⟨[1, 2, 3, 2], 1⟩⟩], ⟨.binary .add act lt rt ot, [3, 1], ⟨[1, 2, 3, 2], 1⟩⟩, 0) := rfl

end Verif.Net
