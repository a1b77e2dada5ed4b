import Verif.Conv.Revert
import Verif.Conv.LowerProps
import Mathlib.Logic.Relation
/-!
C61 for a whole function: the three pattern sets of ReplaceConv2D (ReplaceConv2D.cpp 276-302), each applied in any order until none of its
patterns matches.
-/
namespace Verif.Conv
open Verif.Tensor Verif.Quant

/-- Types of a convolution's operands and result. -/
structure Geo where
  dw : Bool
  bits : Nat
  ih : Nat
  iw : Nat
  ic : Nat
  oh : Nat
  ow : Nat
  oc : Nat
  inS : ℚ
  zpi : Int
  outS : ℚ
  zpo : Int
  deriving DecidableEq

/-- Operators of a function: TensorFlow Lite convolutions, `XC_Fake(Depthwise)Conv2D`, xcore convolutions, `TFL_Relu`, anything else. -/
inductive GOp where
  | conv (g : Geo) (op : ConvOp) (act : Act)
  | fake (g : Geo) (f : FakeX)
  | xc (l : Lowered)
  | relu (g : Geo)
  | other (n : Nat)

/-- What the conditions of the patterns and ReplaceConv2DPattern read from an operator. -/
def view (g : Geo) (op : ConvOp) (act : Act) : Fake :=
  { dw := g.dw, bits := g.bits, ih := g.ih, iw := g.iw, ic := g.ic, oh := g.oh, ow := g.ow, oc := g.oc, inS := g.inS, zpi := g.zpi
    outS := g.outS, zpo := g.zpo, filter := op.filter, bias := op.bias.map (·.data), pad := .tfl op.padding, sh := op.sh, sw := op.sw
    dh := op.dh, dwf := op.dw, act := act }

/-- When a convolution is marked: `fakeApplies`, and a depthwise one only with 8 bits and a bias (ConvPatterns.td 44-45). -/
def marked (g : Geo) (op : ConvOp) (act : Act) : Bool := fakeApplies (view g op act) && (!g.dw || g.bits == 8 && op.bias.isSome)

/-- First set (ConvPatterns.td 11-50).  Splitting off RELU has the greater benefit: the driver tries it first on every operator. -/
inductive Mark : GOp → List GOp → Prop
  | split {g : Geo} {op : ConvOp} {act : Act} : reluSplitOff (view g op act) = true → Mark (.conv g op act) [.conv g op .none, .relu g]
  | fake {g : Geo} {op : ConvOp} {act : Act} : reluSplitOff (view g op act) = false → marked g op act = true →
      Mark (.conv g op act) [.fake g (toFakeX op act)]

/-- Second set (ReplaceConv2D.cpp 61-270).  Only marks that stand for a whole convolution are in this model. -/
inductive Replace (cfg : Cfg) (lib : Lib) : GOp → List GOp → Prop
  | xc {g : Geo} {f : FakeX} {l : Lowered} : f.partialOut = none → lower cfg lib (view g f.op f.act) = some l → Replace cfg lib (.fake g f) [.xc l]

/-- Third set (ConvRevertPatterns.td 10-19). -/
inductive Back : GOp → List GOp → Prop
  | conv {g : Geo} {f : FakeX} : Back (.fake g f) [.conv g (revert f).1 (revert f).2]

/-- A pattern replaces one operator of the function. -/
inductive Rewrite (R : GOp → List GOp → Prop) : List GOp → List GOp → Prop
  | at (pre post : List GOp) {o : GOp} {new : List GOp} : R o new → Rewrite R (pre ++ o :: post) (pre ++ new ++ post)

/-- `applyPatternsAndFoldGreedily`: rewrites in some order until no pattern of the set matches. -/
def Greedy (R : GOp → List GOp → Prop) (a b : List GOp) : Prop := Relation.ReflTransGen (Rewrite R) a b ∧ ∀ c, ¬ Rewrite R b c

/-- ReplaceConv2D::runOnOperation (ReplaceConv2D.cpp 276-302). -/
def ReplacePass (cfg : Cfg) (lib : Lib) (a d : List GOp) : Prop := ∃ b c, Greedy Mark a b ∧ Greedy (Replace cfg lib) b c ∧ Greedy Back c d

/-! ### Specification -/

def GOp.isFake : GOp → Bool
  | .fake _ _ => true
  | _ => false

/-- The device convolution if there is one for the operator, else the operator itself. -/
def replacedOr (cfg : Cfg) (lib : Lib) (g : Geo) (op : ConvOp) (act : Act) : GOp :=
  match (if marked g op act then lower cfg lib (view g op act) else none) with
  | some l => .xc l
  | none => .conv g op act

/-- What every operator must have become. -/
def outcome (cfg : Cfg) (lib : Lib) : GOp → List GOp
  | .conv g op act =>
    if reluSplitOff (view g op act) then [replacedOr cfg lib g op .none, .relu g] else [replacedOr cfg lib g op act]
  | o => [o]

/-! ### Proof -/

/-- A function that rewriting does not change is known at the end. -/
theorem greedy_flatMap {R : GOp → List GOp → Prop} (v : GOp → List GOp) (hR : ∀ o new, R o new → new.flatMap v = v o) {a b : List GOp}
    (h : Relation.ReflTransGen (Rewrite R) a b) : b.flatMap v = a.flatMap v := by
  induction h with
  | refl => rfl
  | tail _ hs ih =>
    rw [← ih]
    cases hs with
    | «at» pre post ho => simp [List.flatMap_append, List.flatMap_cons, hR _ _ ho]

theorem greedy_done {R : GOp → List GOp → Prop} {b : List GOp} (h : ∀ c, ¬ Rewrite R b c) : ∀ o ∈ b, ∀ new, ¬ R o new := by
  intro o ho new hn
  obtain ⟨pre, post, rfl⟩ := List.append_of_mem ho
  exact h _ (.at pre post hn)

theorem greedy_mem {R : GOp → List GOp → Prop} {P : GOp → Prop} (hR : ∀ o new, R o new → P o → ∀ x ∈ new, P x) {a b : List GOp}
    (h : Relation.ReflTransGen (Rewrite R) a b) (ha : ∀ x ∈ a, P x) : ∀ x ∈ b, P x := by
  induction h with
  | refl => exact ha
  | tail _ hs ih =>
    cases hs with
    | «at» pre post ho =>
      intro x hx
      rcases List.mem_append.1 hx with hx | hx
      · rcases List.mem_append.1 hx with hx | hx
        · exact ih x (by simp [hx])
        · exact hR _ _ ho (ih _ (by simp)) x hx
      · exact ih x (by simp [hx])

theorem reluSplitOff_none (g : Geo) (op : ConvOp) : reluSplitOff (view g op .none) = false := by
  simp [reluSplitOff, view]

/-- `outcome` extended to the operators in between. -/
def fate (cfg : Cfg) (lib : Lib) : GOp → List GOp
  | .fake g f => [match lower cfg lib (view g f.op f.act) with | some l => .xc l | none => .conv g f.op f.act]
  | o => outcome cfg lib o

/-- **C61 (part).** For every function without marks, every order in which the patterns of the three sets are applied: the result is the
function in which every convolution is the device's convolution, if there is one, and otherwise unchanged in all its attributes
(filter, bias, strides, dilations, padding, activation); RELU split off is the operator behind it; nothing else changes. -/
theorem C61_revert_partial (cfg : Cfg) (lib : Lib) (a d : List GOp) (ha : ∀ o ∈ a, o.isFake = false) (h : ReplacePass cfg lib a d) :
    d = a.flatMap (outcome cfg lib) ∧ ∀ o ∈ d, o.isFake = false := by
  obtain ⟨b, c, ⟨h1, e1⟩, ⟨h2, e2⟩, ⟨h3, e3⟩⟩ := h
  let Marked : GOp → Prop := fun o => ∀ g f, o = .fake g f → f.partialOut = none
  have mb : ∀ o ∈ b, Marked o := by
    refine greedy_mem ?_ h1 (fun o ho g f he => by have := ha o ho; rw [he] at this; cases this)
    rintro o new (⟨_⟩ | ⟨_, _⟩) - x hx g f rfl
    · simp at hx
    · simp only [List.mem_singleton, GOp.fake.injEq] at hx
      rw [hx.2]; rfl
  have mc : ∀ o ∈ c, Marked o := by
    refine greedy_mem ?_ h2 mb
    rintro o new ⟨_, _⟩ - x hx g f rfl
    simp at hx
  -- after the first set: convolutions without RELU to split off and without a device form, or marks
  have nb : ∀ o ∈ b, ∀ g op act, o = .conv g op act → reluSplitOff (view g op act) = false ∧ marked g op act = false := by
    intro o ho g op act he
    subst he
    have hs : reluSplitOff (view g op act) = false := by
      by_contra hc
      exact greedy_done e1 _ ho _ (.split (by simpa using hc))
    refine ⟨hs, ?_⟩
    by_contra hc
    exact greedy_done e1 _ ho _ (.fake hs (by simpa using hc))
  have nc : ∀ o ∈ c, ∀ g f, o = .fake g f → lower cfg lib (view g f.op f.act) = none := by
    intro o ho g f he
    have hp := mc o ho g f he
    subst he
    cases hl : lower cfg lib (view g f.op f.act) with
    | none => rfl
    | some l => exact absurd (.xc hp hl) (greedy_done e2 _ ho _)
  have nd : ∀ o ∈ d, o.isFake = false := by
    intro o ho
    cases o with
    | fake g f => exact absurd .conv (greedy_done e3 _ ho _)
    | _ => rfl
  refine ⟨?_, nd⟩
  -- what becomes of every operator is the same all along
  have f1 : b.flatMap (fate cfg lib) = a.flatMap (fate cfg lib) := by
    refine greedy_flatMap _ ?_ h1
    rintro o new (⟨hs⟩ | ⟨hs, hf⟩)
    · simp [fate, outcome, hs, reluSplitOff_none]
    · simp [fate, outcome, hs, hf, replacedOr, toFakeX]
  have f2 : c.flatMap (fate cfg lib) = b.flatMap (fate cfg lib) := by
    refine greedy_flatMap _ ?_ h2
    rintro o new ⟨_, hl⟩
    simp [fate, outcome, hl]
  -- in the third set convolutions are what they are
  have f3 : d.flatMap (fun o => match o with | .fake g f => [.conv g f.op f.act] | o => [o]) =
      c.flatMap (fun o => match o with | .fake g f => [.conv g f.op f.act] | o => [o]) := by
    refine greedy_flatMap _ ?_ h3
    rintro o new ⟨⟩
    simp [revert]
  have f4 : d.flatMap (fun o => match o with | .fake g f => [GOp.conv g f.op f.act] | o => [o]) = d := by
    conv_rhs => rw [← List.flatMap_singleton' d]
    apply List.flatMap_congr
    intro o ho
    have := nd o ho
    cases o <;> simp_all [GOp.isFake]
  have done_conv : ∀ o ∈ c, ∀ g op act, o = .conv g op act → reluSplitOff (view g op act) = false ∧ marked g op act = false := by
    refine greedy_mem ?_ h2 nb
    rintro o new ⟨_, _⟩ - x hx g op act rfl
    simp at hx
  have f5 : c.flatMap (fate cfg lib) = c.flatMap (fun o => match o with | .fake g f => [GOp.conv g f.op f.act] | o => [o]) := by
    apply List.flatMap_congr
    intro o ho
    cases o with
    | fake g f => simp [fate, nc _ ho g f rfl]
    | conv g op act =>
      obtain ⟨q1, q2⟩ := done_conv _ ho g op act rfl
      simp [fate, outcome, q1, q2, replacedOr]
    | _ => rfl
  have f6 : a.flatMap (fate cfg lib) = a.flatMap (outcome cfg lib) := by
    apply List.flatMap_congr
    intro o ho
    have := ha o ho
    cases o <;> simp_all [GOp.isFake, fate]
  rw [← f4, f3, ← f5, f2, f1, f6]

/-- The pass ends: from every function some order of the patterns reaches its end. -/
theorem greedy_exists {R : GOp → List GOp → Prop} (w : GOp → Nat) (hw : ∀ o new, R o new → (new.map w).sum < w o) (a : List GOp) :
    ∃ b, Greedy R a b := by
  have : ∀ n (a : List GOp), (a.map w).sum ≤ n → ∃ b, Greedy R a b := by
    intro n
    induction n with
    | zero =>
      intro a ha
      refine ⟨a, .refl, ?_⟩
      rintro c ⟨pre, post, ho⟩
      have := hw _ _ ho
      simp at ha
      omega
    | succ n ih =>
      intro a ha
      by_cases h : ∃ c, Rewrite R a c
      · obtain ⟨c, hc⟩ := h
        have hlt : (c.map w).sum < (a.map w).sum := by
          cases hc with
          | «at» pre post ho =>
            have := hw _ _ ho
            simp only [List.map_append, List.sum_append, List.map_cons, List.sum_cons]
            omega
        obtain ⟨b, h1, h2⟩ := ih c (by omega)
        exact ⟨b, .head hc h1, h2⟩
      · exact ⟨a, .refl, fun c hc => h ⟨c, hc⟩⟩
  exact this _ a le_rfl

theorem C61_pass_ends (cfg : Cfg) (lib : Lib) (a : List GOp) : ∃ d, ReplacePass cfg lib a d := by
  obtain ⟨b, hb⟩ := greedy_exists (R := Mark) (fun | .conv _ _ act => if act = .none then 1 else 2 | _ => 0) (by
    rintro o new (⟨hs⟩ | ⟨_, _⟩)
    · have hs := of_decide_eq_true hs
      have : _ = Act.relu := hs.2.2.1
      dsimp only [view] at this
      simp [this]
    · simp; split <;> omega) a
  obtain ⟨c, hc⟩ := greedy_exists (R := Replace cfg lib) (fun | .fake _ _ => 1 | _ => 0) (by rintro o new ⟨_, _⟩; simp) b
  obtain ⟨d, hd⟩ := greedy_exists (R := Back) (fun | .fake _ _ => 1 | _ => 0) (by rintro o new ⟨⟩; simp) c
  exact ⟨d, b, c, hb, hc, hd⟩

/-- A 16-bit convolution with four channels: marked, but there is no device kernel for it. -/
def exGeo16 : Geo := ⟨false, 16, 2, 2, 4, 2, 2, 4, 1, 0, 1, 0⟩
def exConv16 : ConvOp := { padding := .valid, sh := 1, sw := 1, dh := 1, dw := 1, filter := ⟨4, 1, 1, 4, List.replicate 16 1, .perTensor 1 0⟩, bias := none }
/-- An 8-bit convolution with RELU and output zero point 0: RELU is split off and the convolution replaced. -/
def exGeo8 : Geo := ⟨false, 8, 2, 2, 4, 2, 2, 4, 1, 0, 1, 0⟩

/-- **C61** on a function with a convolution that is turned back, one that is replaced, and one that was never marked. -/
theorem C61_example : ∃ d l, ReplacePass defaultCfg exactLib [.conv exGeo16 exConv16 .relu6, .other 3, .conv exGeo8 exConv16 .relu, .conv { exGeo8 with ic := 5 } exConv16 .none] d ∧
    d = [.conv exGeo16 exConv16 .relu6, .other 3, .xc l, .relu exGeo8, .conv { exGeo8 with ic := 5 } exConv16 .none] ∧
    marked exGeo16 exConv16 .relu6 = true := by
  obtain ⟨d, hd⟩ := C61_pass_ends defaultCfg exactLib [.conv exGeo16 exConv16 .relu6, .other 3, .conv exGeo8 exConv16 .relu, .conv { exGeo8 with ic := 5 } exConv16 .none]
  obtain ⟨h1, _⟩ := C61_revert_partial _ _ _ _ (by simp [GOp.isFake]) hd
  have hl : (lower defaultCfg exactLib (view exGeo8 exConv16 .none)).isSome = true := by decide +kernel
  obtain ⟨l, hl⟩ := Option.isSome_iff_exists.1 hl
  have n1 : lower defaultCfg exactLib (view exGeo16 exConv16 .relu6) = none := by
    have : (lower defaultCfg exactLib (view exGeo16 exConv16 .relu6)).isNone = true := by decide +kernel
    exact Option.isNone_iff_eq_none.1 this
  have m1 : marked exGeo8 exConv16 .none = true := by decide +kernel
  have m2 : marked { exGeo8 with ic := 5 } exConv16 .none = false := by decide +kernel
  have r1 : reluSplitOff (view exGeo16 exConv16 .relu6) = false := by decide +kernel
  have r2 : reluSplitOff (view exGeo8 exConv16 .relu) = true := by decide +kernel
  refine ⟨d, l, hd, ?_, by decide +kernel⟩
  rw [h1]
  simp [outcome, r1, r2, reluSplitOff_none, replacedOr, n1, m1, m2, hl]

end Verif.Conv
