import Verif.Net.QArith
/-! C84: the shape of the graphs that the passes make of a convolution. -/
namespace Verif.Net
open Verif.Tensor Verif.Move Verif.Conv Verif.Conv.Compile

def isNil : Conv.Compile.Net → Prop
  | .nil => True
  | _ => False

def isChain : Conv.Compile.Net → Prop
  | .nil => True
  | .cat _ _ _ => True
  | _ => False

/-- No pad puts something before the channels. -/
def PadsBehind (l : Leaf) : Prop := ∀ p ∈ l.src, p.vals.getD 6 0 = 0

/-- A well-formed graph with result `[1, oh, ow, channels g]`. -/
def Shaped (s0 : List Nat) (oh ow : Nat) : Conv.Compile.Net → Prop
  | .conv l => l.OK s0 ∧ l.oh = oh ∧ l.ow = ow ∧ PadsBehind l
  | .slice s e => s.begin_ = [0, 0, 0, 0] ∧ s.size.length = 4 ∧ 0 < channels e ∧ s.size.getD 3 0 ≤ channels e ∧ ¬ isNil e ∧ Shaped s0 oh ow e
  | .cat n a b => channels a = n ∧ ¬ isNil a ∧ Shaped s0 oh ow a ∧ isChain b ∧ Shaped s0 oh ow b
  | .nil => True

def SoundS (s0 : List Nat) (oh ow : Nat) (Q : Leaf → Prop) (R : Leaf → Conv.Compile.Net → Prop) : Prop :=
  ∀ (l : Leaf) (n : Conv.Compile.Net), R l n → Shaped s0 oh ow (.conv l) → Q l → Shaped s0 oh ow n ∧ n.All Q ∧ channels n = l.oc ∧ ¬ isNil n

theorem step_shaped {s0 : List Nat} {oh ow : Nat} {Q : Leaf → Prop} {R : Leaf → Conv.Compile.Net → Prop} (hR : SoundS s0 oh ow Q R)
    {a b : Conv.Compile.Net} (h : Conv.Compile.Step R a b) : Shaped s0 oh ow a → a.All Q → Shaped s0 oh ow b ∧ b.All Q ∧ channels b = channels a ∧ ¬ isNil b ∧ (isChain a → isChain b) := by
  induction h with
  | here h =>
    intro hs hq
    obtain ⟨h1, h2, h3, h4⟩ := hR _ _ h hs hq
    exact ⟨h1, h2, h3, h4, fun h => h.elim⟩
  | slice _ ih =>
    intro hs hq
    obtain ⟨h1, h2, h3, h4, h5, h6⟩ := hs
    obtain ⟨g1, g2, g3, g4, _⟩ := ih h6 hq
    exact ⟨⟨h1, h2, by rw [g3]; exact h3, by rw [g3]; exact h4, g4, g1⟩, g2, rfl, id, fun h => h.elim⟩
  | left _ ih =>
    intro hs hq
    obtain ⟨h1, h2, h3, h4, h5⟩ := hs
    obtain ⟨g1, g2, g3, g4, _⟩ := ih h3 hq.1
    exact ⟨⟨by rw [g3]; exact h1, g4, g1, h4, h5⟩, ⟨g2, hq.2⟩, rfl, id, fun _ => trivial⟩
  | right _ ih =>
    intro hs hq
    obtain ⟨h1, h2, h3, h4, h5⟩ := hs
    obtain ⟨g1, g2, g3, _, g5⟩ := ih h5 hq.2
    exact ⟨⟨h1, h2, h3, g5 h4, g1⟩, ⟨hq.1, g2⟩, by simp only [channels]; rw [g3], id, fun _ => trivial⟩

theorem steps_shaped {s0 : List Nat} {oh ow : Nat} {Q : Leaf → Prop} {R : Leaf → Conv.Compile.Net → Prop} (hR : SoundS s0 oh ow Q R)
    {a b : Conv.Compile.Net} (h : Steps R a b) (hs : Shaped s0 oh ow a) (hq : a.All Q) (hn : ¬ isNil a) :
    Shaped s0 oh ow b ∧ b.All Q ∧ channels b = channels a ∧ ¬ isNil b := by
  induction h with
  | refl => exact ⟨hs, hq, rfl, hn⟩
  | tail _ hst ih =>
    obtain ⟨h1, h2, h3, h4⟩ := ih
    obtain ⟨g1, g2, g3, g4, _⟩ := step_shaped hR hst h1 h2
    exact ⟨g1, g2, g3.trans h3, g4⟩

theorem inv_of {s0 : List Nat} {oh ow : Nat} {l : Leaf} (h : Shaped s0 oh ow (.conv l)) : (Net.conv l).Inv 0 s0 oh ow l.oc 0 :=
  ⟨h.1, h.2.1, h.2.2.1, rfl, fun o ho => absurd ho (by omega)⟩

theorem tfl_shaped (s0 : List Nat) (hs0 : s0.length = 4) (oh ow : Nat) : SoundS s0 oh ow (fun _ => True) TflRule := by
  intro l n hR hs hq
  obtain ⟨i, -, -⟩ := tfl_sound 0 s0 hs0 oh ow l n l.oc 0 (by omega) hR (inv_of hs) hq
  obtain ⟨ok, e1, e2, pb⟩ := hs
  cases hR with
  | @same l' h =>
    obtain ⟨i1, i2, i3, i4, -⟩ := i
    refine ⟨⟨i1, i2, i3, ?_⟩, trivial, i4, id⟩
    obtain ⟨-, b1, a1, b2, a2, -, -, -, -, rfl⟩ := explicitPad_some ok h
    intro p hp
    rcases List.mem_append.1 hp with hp | hp
    · exact pb p hp
    · rw [List.mem_singleton.1 hp]; rfl
  | @swap pre post a b t hsrc ht =>
    obtain ⟨i1, i2, i3, i4, -⟩ := i
    refine ⟨⟨i1, i2, i3, ?_⟩, trivial, i4, id⟩
    have ht' : t.inner = b.vals ∧ t.outer = a.vals := by
      unfold TFL.swapPads at ht
      dsimp only at ht
      split at ht
      · have := Option.some.inj ht; rw [← this]; exact ⟨rfl, rfl⟩
      · cases ht
    have hm : ∀ p, p ∈ pre ∨ p = a ∨ p = b ∨ p ∈ post → p.vals.getD 6 0 = 0 := by
      intro p hp
      apply pb p
      rw [hsrc]
      simp only [List.mem_append, List.mem_cons]
      tauto
    intro p hp
    simp only [List.mem_append, List.mem_cons] at hp
    rcases hp with hp | hp | hp | hp
    · exact hm p (.inl hp)
    · rw [hp]; show t.inner.getD 6 0 = 0; rw [ht'.1]; exact hm b (by simp)
    · rw [hp]; show t.outer.getD 6 0 = 0; rw [ht'.2]; exact hm a (by simp)
    · exact hm p (by simp [hp])

theorem widen_behind {l : Leaf} (pb : PadsBehind l) (p : Nat) (op : ConvOp) : PadsBehind (l.widen p op) := by
  intro q hq
  rcases List.mem_append.1 hq with hq | hq
  · exact pb q hq
  · rw [List.mem_singleton.1 hq]; rfl

theorem pad_shaped {al : Nat} (hal : 0 < al) (s0 : List Nat) (oh ow : Nat) (Q : Padding → Prop) :
    SoundS s0 oh ow (fun l => Q l.op.padding) (PadRuleN al) := by
  intro l n hR hs hq
  obtain ⟨i, q, -⟩ := pad_sound hal 0 s0 oh ow Q l n l.oc 0 (by omega) hR (inv_of hs) hq
  obtain ⟨ok, e1, e2, pb⟩ := hs
  cases hR with
  | @input p op hd h =>
    obtain ⟨i1, i2, i3, i4, -⟩ := i
    exact ⟨⟨i1, i2, i3, widen_behind pb _ _⟩, q, i4, id⟩
  | @output p op s hd h =>
    obtain ⟨i0, c', hc', i1, i2, i3, i4, -⟩ := i
    have hoc : l.oc = l.op.filter.o := by unfold Leaf.oc; rw [hd]; rfl
    unfold padConvOutput at h
    dsimp only at h
    split at h
    · cases h
    · next hp =>
      obtain ⟨-, h⟩ := Prod.mk.inj (Option.some.inj h)
      obtain ⟨-, h⟩ := Prod.mk.inj h
      have hpos : 0 < l.op.filter.o := alignPad_zero hal _ hp
      have hsz : s.size = [1, l.oh, l.ow, l.op.filter.o] := by rw [← h]; rfl
      have hch : channels (.conv { l with op := op }) = c' := i4
      refine ⟨⟨i0, by rw [hsz]; rfl, by rw [hch]; omega, by rw [hch, hsz]; show l.op.filter.o ≤ _; omega, id, ⟨i1, i2, i3, pb⟩⟩, q, ?_, id⟩
      show s.size.getD 3 0 = _
      rw [hsz, hoc]; rfl
  | @depthwise p op s hd h =>
    obtain ⟨i0, c', hc', i1, i2, i3, i4, -⟩ := i
    have hpos := (ok.dwise hd).depth
    have hoc : l.oc = l.op.filter.c := by unfold Leaf.oc; rw [hd]; rfl
    unfold padDepthwise at h
    dsimp only at h
    split at h
    · cases h
    · split at h
      · cases h
      · obtain ⟨-, h⟩ := Prod.mk.inj (Option.some.inj h)
        obtain ⟨-, h⟩ := Prod.mk.inj h
        have hsz : s.size = [1, l.oh, l.ow, l.oc] := by rw [← h]; rfl
        have hch : channels (.conv (l.widen p op)) = c' := i4
        refine ⟨⟨i0, by rw [hsz]; rfl, by rw [hch]; omega, by rw [hch, hsz]; show l.oc ≤ _; omega, id, ⟨i1, i2, i3, widen_behind pb _ _⟩⟩, q, ?_, id⟩
        show s.size.getD 3 0 = _
        rw [hsz]; rfl

theorem cats_shaped {F : Nat} {s0 : List Nat} {oh ow : Nat} {l : Leaf} (pb : PadsBehind l) : ∀ (parts : List (Nat × ConvOp)) (c v : Nat),
    (cats l parts).Inv F s0 oh ow c v → Shaped s0 oh ow (cats l parts) ∧ channels (cats l parts) = c
  | [], c, v, h => ⟨trivial, Eq.symm h⟩
  | q :: qs, c, v, h => by
    obtain ⟨m, h1, h2, h3⟩ := h
    obtain ⟨g1, g2⟩ := cats_shaped pb qs m _ h3
    obtain ⟨i1, i2, i3, i4, -⟩ := h2
    refine ⟨⟨i4, id, ⟨i1, i2, i3, pb⟩, ?_, g1⟩, ?_⟩
    · cases qs <;> trivial
    · show q.1 + channels (cats l qs) = c
      rw [g2, h1]

theorem split_shaped (s0 : List Nat) (oh ow limit : Nat) :
    SoundS s0 oh ow (fun l => l.op.padding = .valid ∧ (l.dw = false → 4 ∣ l.op.filter.o)) (SplitRule limit) := by
  intro l n hR hs hq
  obtain ⟨i, q, -⟩ := split_sound 0 s0 oh ow limit l n l.oc 0 (by omega) hR (inv_of hs) hq
  cases hR with
  | @split parts hd h =>
    obtain ⟨g1, g2⟩ := cats_shaped hs.2.2.2 parts _ _ i
    refine ⟨g1, q, g2, ?_⟩
    obtain ⟨-, ho, -⟩ := channelSplit_some h
    have hoc : l.oc = l.op.filter.o := by unfold Leaf.oc; rw [hd]; rfl
    cases parts with
    | nil =>
      have : (0 : Nat) = l.oc := g2
      omega
    | cons => exact id

theorem pipelineN_shaped {s0 : List Nat} (hs0 : s0.length = 4) {al : Nat} (hal : 0 < al) (hal4 : 4 ∣ al) {oh ow limit : Nat} {l : Leaf}
    {g : Conv.Compile.Net} (h : PipelineN al limit (.conv l) g)
    (hs : Shaped s0 oh ow (.conv l)) : Shaped s0 oh ow g ∧ channels g = l.oc ∧ ¬ isNil g := by
  obtain ⟨b, c1, d, d', h1, h2, h3, h4, h5, h6, h7⟩ := h
  obtain ⟨i1, -, c1', n1⟩ := steps_shaped (tfl_shaped s0 hs0 oh ow) h1 hs trivial id
  obtain ⟨i2, q2, c2, n2⟩ := steps_shaped (pad_shaped hal s0 oh ow (· = .valid)) h3 i1 (done_same _ h2) n1
  obtain ⟨i3, q3, c3, n3⟩ := steps_shaped (split_shaped s0 oh ow limit) h5 i2 (done_pad hal hal4 _ h4 q2) n2
  obtain ⟨i4, -, c4, n4⟩ := steps_shaped (pad_shaped hal s0 oh ow (fun _ => True)) h6 i3 (all_true _) n3
  obtain ⟨i5, -, c5, n5⟩ := steps_shaped (tfl_shaped s0 hs0 oh ow) h7 i4 (all_true _) n4
  refine ⟨i5, ?_, n5⟩
  rw [c5, c4, c3, c2, c1']
  rfl

theorem pipeline_shaped {s0 : List Nat} (hs0 : s0.length = 4) {oh ow limit : Nat} {l : Leaf} {g : Conv.Compile.Net} (h : Pipeline limit (.conv l) g)
    (hs : Shaped s0 oh ow (.conv l)) : Shaped s0 oh ow g ∧ channels g = l.oc ∧ ¬ isNil g :=
  pipelineN_shaped hs0 (by decide) (by decide) h hs

end Verif.Net
