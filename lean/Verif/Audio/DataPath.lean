import Mathlib.Data.List.Basic
import Mathlib.Tactic.Ring
import Mathlib.Tactic.Linarith
/-!
C93: the two threads of the audio example (examples/audio_network/src/data_path.c).  Samples are exchanged with the audio
interface one by one; every `B` samples a block is handed to the DSP thread through shared arrays.
-/
namespace Verif.Audio

/-- Where the DSP thread is: waiting, reading `data_to_be_processed` word by word, or writing `data_processed` word by word. -/
inductive Dsp where
  | idle
  | reading (got : List Int)
  | writing (i : Nat) (out : List Int)
deriving DecidableEq

/-- The variables of data_path.c: `input_data`, `output_data`, `frame` (77-79), `data_to_be_processed` and `data_processed` (54-55),
end tokens on their way to the DSP thread, and the DSP thread with all its state `S`.  One channel each way (10-11).  The buttons
are left out: the work `F` on a block is the same throughout. -/
structure Path (S : Type) where
  input : List Int
  output : List Int
  frame : Nat
  tbp : List Int
  processed : List Int
  tokens : Nat
  dsp : Dsp
  nn : S

/-- data_path.c 81-106: one round of the transport thread with the 16 words that came in: the words that go out and the new
state.  The two memcpys of a block (68-69) are one step. -/
def transport {S : Type} (B : Nat) (s : Path S) (words : List Int) : List Int × Path S :=
  let input := s.input.set s.frame (words.getD 0 0)
  let reply := List.replicate 16 (s.output.getD s.frame 0)
  let output := s.output.set s.frame 0
  if s.frame + 1 = B then (reply, { s with input := input, output := s.processed, frame := 0, tbp := input, tokens := s.tokens + 1 })
  else (reply, { s with input := input, output := output, frame := s.frame + 1 })

/-- data_path.c 12-49: what the audio side sends and how it stores the answer: the new contents of its two arrays. -/
def offload {S : Type} (B : Nat) (s : Path S) (toNN fromNN : List Int) : (List Int × List Int) × Path S :=
  let r := transport B s (toNN.take 8 ++ fromNN.take 8)
  ((r.1.take 8 ++ toNN.drop 8, r.1.drop 8 ++ fromNN.drop 8), r.2)

/-- data_path.c 111-142: a step of the DSP thread.  `F` is the work on one block (127-133) and what it does to the thread's state. -/
def dspStep {S : Type} (B : Nat) (F : S → List Int → S × List Int) (s : Path S) : Path S :=
  match s.dsp with
  | .idle => if s.tokens = 0 then s else { s with tokens := s.tokens - 1, dsp := .reading [] }
  | .reading got =>
    if got.length < B then { s with dsp := .reading (got ++ [s.tbp.getD got.length 0]) }
    else let r := F s.nn got; { s with nn := r.1, dsp := .writing 0 r.2 }
  | .writing i out => if i < B then { s with processed := s.processed.set i (out.getD i 0), dsp := .writing (i + 1) out } else { s with dsp := .idle }

/-- Something happens: the audio interface exchanges samples, or the DSP thread gets on. -/
inductive Ev where
  | exchange (toNN fromNN : List Int)
  | dsp

/-- What a run of events gives the audio interface. -/
def pathRun {S : Type} (B : Nat) (F : S → List Int → S × List Int) : Path S → List Ev → List (List Int × List Int)
  | _, [] => []
  | s, .dsp :: es => pathRun B F (dspStep B F s) es
  | s, .exchange t f :: es => let r := offload B s t f; r.1 :: pathRun B F r.2 es

/-- The DSP thread is on time: whenever a block is complete it has finished the one before. -/
def OnTime {S : Type} (B : Nat) (F : S → List Int → S × List Int) : Path S → List Ev → Prop
  | _, [] => True
  | s, .dsp :: es => OnTime B F (dspStep B F s) es
  | s, .exchange t f :: es => (s.frame + 1 = B → s.dsp = .idle ∧ s.tokens = 0) ∧ OnTime B F (offload B s t f).2 es

/-- data_path.c 54-55, 77-79: the start; `output_data` is not initialised. -/
def start {S : Type} (B : Nat) (junk junk' : List Int) (s0 : S) : Path S :=
  ⟨junk', junk, 0, List.replicate B 0, List.replicate B 0, 0, .idle, s0⟩

/-! ### Specification -/

/-- The samples that the audio interface sent, in order. -/
def sent : List Ev → List Int
  | [] => []
  | .dsp :: es => sent es
  | .exchange t _ :: es => t.getD 0 0 :: sent es

/-- Block `k` of a signal. -/
def blockAt (B : Nat) (xs : List Int) (k : Nat) : List Int := (xs.drop (k * B)).take B

/-- The state of the work after `k` blocks. -/
def workState {S : Type} (B : Nat) (F : S → List Int → S × List Int) (s0 : S) (xs : List Int) : Nat → S
  | 0 => s0
  | k + 1 => (F (workState B F s0 xs k) (blockAt B xs k)).1

/-- Block `k` of the result: junk, silence, and from then on the work on the block two before. -/
def resultBlock {S : Type} (B : Nat) (F : S → List Int → S × List Int) (s0 : S) (junk xs : List Int) : Nat → List Int
  | 0 => junk
  | 1 => List.replicate B 0
  | k + 2 => (F (workState B F s0 xs k) (blockAt B xs k)).2

/-! ### Proof -/

/-- What holds between two events, when the samples `xs` are sent in all and `n = k * B + frame` have been sent. -/
structure PathInv {S : Type} (B : Nat) (F : S → List Int → S × List Int) (s0 : S) (junk xs : List Int) (k : Nat) (s : Path S) : Prop where
  lt : s.frame < B
  le : k * B + s.frame ≤ xs.length
  ilen : s.input.length = B
  olen : s.output.length = B
  plen : s.processed.length = B
  inp : s.input.take s.frame = (xs.drop (k * B)).take s.frame
  out : ∀ i, s.frame ≤ i → i < B → s.output.getD i 0 = (resultBlock B F s0 junk xs k).getD i 0
  phase : (s.dsp = .idle ∧ s.tokens = 0 ∧ s.processed = resultBlock B F s0 junk xs (k + 1) ∧ s.nn = workState B F s0 xs k) ∨
    (∃ j, k = j + 1 ∧ s.tbp = blockAt B xs j ∧
      ((s.dsp = .idle ∧ s.tokens = 1 ∧ s.nn = workState B F s0 xs j) ∨
       (∃ got, s.dsp = .reading got ∧ s.tokens = 0 ∧ got.length ≤ B ∧ got = s.tbp.take got.length ∧ s.nn = workState B F s0 xs j) ∨
       (∃ i, s.dsp = .writing i (resultBlock B F s0 junk xs (k + 1)) ∧ s.tokens = 0 ∧ i ≤ B ∧
          s.processed.take i = (resultBlock B F s0 junk xs (k + 1)).take i ∧ s.nn = workState B F s0 xs k)))

theorem blockAt_len {B : Nat} {xs : List Int} {j : Nat} (h : (j + 1) * B ≤ xs.length) : (blockAt B xs j).length = B := by
  have : (j + 1) * B = j * B + B := by ring
  simp only [blockAt, List.length_take, List.length_drop]
  omega

theorem take_set_succ {l : List Int} {i : Nat} (x : Int) (h : i < l.length) : (l.set i x).take (i + 1) = l.take i ++ [x] := by
  rw [List.take_succ, List.take_set_of_le (Nat.le_refl i), List.getElem?_set_self h]
  rfl

theorem take_succ_getD {l : List Int} {i : Nat} (h : i < l.length) : l.take (i + 1) = l.take i ++ [l.getD i 0] := by
  rw [List.take_succ, List.getD_eq_getElem?_getD, List.getElem?_eq_getElem h]
  rfl

theorem dsp_inv {S : Type} {B : Nat} {F : S → List Int → S × List Int} {s0 : S} {junk xs : List Int} {k : Nat} {s : Path S}
    (hF : ∀ s b, b.length = B → (F s b).2.length = B) (h : PathInv B F s0 junk xs k s) :
    PathInv B F s0 junk xs k (dspStep B F s) ∧ (dspStep B F s).frame = s.frame := by
  obtain ⟨lt, le, ilen, olen, plen, inp, out, phase⟩ := h
  rcases phase with ⟨d, t, p, n⟩ | ⟨j, rfl, tb, ph⟩
  · have e : dspStep B F s = s := by simp [dspStep, d, t]
    rw [e]
    exact ⟨⟨lt, le, ilen, olen, plen, inp, out, .inl ⟨d, t, p, n⟩⟩, rfl⟩
  · have tl : s.tbp.length = B := by rw [tb]; exact blockAt_len (by omega)
    have rl : (resultBlock B F s0 junk xs (j + 1 + 1)).length = B := hF _ _ (blockAt_len (by omega))
    rcases ph with ⟨d, t, n⟩ | ⟨got, d, t, gl, g, n⟩ | ⟨i, d, t, il, p, n⟩
    · have e : dspStep B F s = { s with tokens := 0, dsp := .reading [] } := by simp [dspStep, d, t]
      rw [e]
      exact ⟨⟨lt, le, ilen, olen, plen, inp, out, .inr ⟨j, rfl, tb, .inr (.inl ⟨[], rfl, rfl, by simp, by simp, n⟩)⟩⟩, rfl⟩
    · by_cases c : got.length < B
      · have e : dspStep B F s = { s with dsp := .reading (got ++ [s.tbp.getD got.length 0]) } := by simp [dspStep, d, c]
        rw [e]
        refine ⟨⟨lt, le, ilen, olen, plen, inp, out, .inr ⟨j, rfl, tb, .inr (.inl ⟨_, rfl, t, ?_, ?_, n⟩)⟩⟩, rfl⟩
        · simp only [List.length_append, List.length_singleton]; omega
        · simp only [List.length_append, List.length_singleton]
          rw [take_succ_getD (by omega), ← g]
      · have e : dspStep B F s = { s with nn := (F s.nn got).1, dsp := .writing 0 (F s.nn got).2 } := by simp [dspStep, d, c]
        have ge : got = blockAt B xs j := by rw [g, show got.length = s.tbp.length by omega, List.take_length, tb]
        rw [e, n, ge]
        exact ⟨⟨lt, le, ilen, olen, plen, inp, out, .inr ⟨j, rfl, tb, .inr (.inr ⟨0, rfl, t, by omega, by simp, rfl⟩)⟩⟩, rfl⟩
    · by_cases c : i < B
      · have e : dspStep B F s = { s with processed := s.processed.set i ((resultBlock B F s0 junk xs (j + 1 + 1)).getD i 0), dsp := .writing (i + 1) (resultBlock B F s0 junk xs (j + 1 + 1)) } := by simp [dspStep, d, c]
        rw [e]
        refine ⟨⟨lt, le, ilen, olen, by simpa using plen, inp, out, .inr ⟨j, rfl, tb, .inr (.inr ⟨i + 1, rfl, t, by omega, ?_, n⟩)⟩⟩, rfl⟩
        show (s.processed.set i _).take (i + 1) = _
        rw [take_set_succ _ (by omega), p, take_succ_getD (by omega)]
      · have e : dspStep B F s = { s with dsp := .idle } := by simp [dspStep, d, c]
        rw [e]
        refine ⟨⟨lt, le, ilen, olen, plen, inp, out, .inl ⟨rfl, t, ?_, n⟩⟩, rfl⟩
        rw [List.take_of_length_le (by omega), List.take_of_length_le (by omega)] at p
        exact p

theorem exchange_inv {S : Type} {B : Nat} {F : S → List Int → S × List Int} {s0 : S} {junk xs : List Int} {k : Nat} {s : Path S}
    (h : PathInv B F s0 junk xs k s) (t f : List Int) (tl : t.length = 8) (fl : f.length = 8)
    (hx : xs[k * B + s.frame]? = some (t.getD 0 0)) (hot : s.frame + 1 = B → s.dsp = .idle ∧ s.tokens = 0) :
    (offload B s t f).1 = (List.replicate 8 ((resultBlock B F s0 junk xs k).getD s.frame 0), List.replicate 8 ((resultBlock B F s0 junk xs k).getD s.frame 0)) ∧
    ∃ k', PathInv B F s0 junk xs k' (offload B s t f).2 ∧ k' * B + (offload B s t f).2.frame = k * B + s.frame + 1 := by
  obtain ⟨lt, le, ilen, olen, plen, inp, out, phase⟩ := h
  obtain ⟨hlt, hx⟩ := List.getElem?_eq_some_iff.1 hx
  have w : (t.take 8 ++ f.take 8).getD 0 0 = t.getD 0 0 := by
    cases t with
    | nil => simp at tl
    | cons a t => simp
  have inp' : (s.input.set s.frame (t.getD 0 0)).take (s.frame + 1) = (xs.drop (k * B)).take (s.frame + 1) := by
    rw [take_set_succ _ (by omega), inp, take_succ_getD (by rw [List.length_drop]; omega), List.getD_eq_getElem?_getD (l := xs.drop (k * B)),
      List.getElem?_drop, List.getElem?_eq_getElem hlt, hx]
    rfl
  have r1 : (offload B s t f).1 = (List.replicate 8 ((resultBlock B F s0 junk xs k).getD s.frame 0), List.replicate 8 ((resultBlock B F s0 junk xs k).getD s.frame 0)) := by
    have : (transport B s (t.take 8 ++ f.take 8)).1 = List.replicate 16 (s.output.getD s.frame 0) := by
      unfold transport; simp only; split <;> rfl
    unfold offload
    simp only [this]
    rw [out _ (Nat.le_refl _) lt, List.take_replicate, List.drop_replicate, List.drop_eq_nil_of_le (by omega), List.drop_eq_nil_of_le (by omega)]
    simp
  refine ⟨r1, ?_⟩
  by_cases c : s.frame + 1 = B
  · obtain ⟨d, tk⟩ := hot c
    rcases phase with ⟨-, -, p, n⟩ | ⟨j, rfl, tb, ph⟩
    · have e : (offload B s t f).2 = { s with input := s.input.set s.frame (t.getD 0 0), output := s.processed, frame := 0, tbp := s.input.set s.frame (t.getD 0 0), tokens := s.tokens + 1 } := by
        unfold offload transport
        simp only [w, c, if_true]
      have kb : (k + 1) * B = k * B + B := by ring
      refine ⟨k + 1, ?_, ?_⟩
      · rw [e]
        refine ⟨by simp only; omega, by simp only; omega, by simpa using ilen, plen, plen, by simp, ?_, .inr ⟨k, rfl, ?_, .inl ⟨d, by simp [tk], n⟩⟩⟩
        · intro i _ _
          simp only [p]
        · show s.input.set s.frame _ = _
          rw [c] at inp'
          rw [List.take_of_length_le (by simp [ilen])] at inp'
          exact inp'
      · rw [e]
        simp only
        omega
    · rcases ph with ⟨-, q, -⟩ | ⟨got, q, -⟩ | ⟨i, q, -⟩
      · omega
      · rw [d] at q; cases q
      · rw [d] at q; cases q
  · have e : (offload B s t f).2 = { s with input := s.input.set s.frame (t.getD 0 0), output := s.output.set s.frame 0, frame := s.frame + 1 } := by
      unfold offload transport
      simp only [w, c, if_false]
    refine ⟨k, ?_, by rw [e]; simp only; omega⟩
    rw [e]
    refine ⟨by simp only; omega, by simp only; omega, by simpa using ilen, by simpa using olen, plen, inp', ?_, phase⟩
    intro i hi hb
    simp only at hi ⊢
    rw [List.getD_eq_getElem?_getD, List.getElem?_set_ne (by omega), ← List.getD_eq_getElem?_getD]
    exact out i (by omega) hb

theorem path_spec {S : Type} {B : Nat} {F : S → List Int → S × List Int} {s0 : S} {junk xs : List Int}
    (hF : ∀ s b, b.length = B → (F s b).2.length = B) (es : List Ev) :
    ∀ (k : Nat) (s : Path S), PathInv B F s0 junk xs k s → (∀ t f, Ev.exchange t f ∈ es → t.length = 8 ∧ f.length = 8) →
    sent es = xs.drop (k * B + s.frame) → OnTime B F s es → ∀ m, m < (sent es).length →
    (pathRun B F s es)[m]? = some (List.replicate 8 ((resultBlock B F s0 junk xs ((k * B + s.frame + m) / B)).getD ((k * B + s.frame + m) % B) 0),
      List.replicate 8 ((resultBlock B F s0 junk xs ((k * B + s.frame + m) / B)).getD ((k * B + s.frame + m) % B) 0)) := by
  induction es with
  | nil => intro k s _ _ _ _ m hm; simp [sent] at hm
  | cons e es ih =>
    intro k s h hl hs ot m hm
    cases e with
    | dsp =>
      obtain ⟨hi, hf⟩ := dsp_inv hF h
      have := ih k _ hi (fun t f q => hl t f (by simp [q])) (by rw [hf]; exact hs) ot m hm
      rw [hf] at this
      exact this
    | exchange t f =>
      obtain ⟨tl, fl⟩ := hl t f (by simp)
      simp only [sent] at hs hm
      have hx : xs[k * B + s.frame]? = some (t.getD 0 0) := by
        have := congrArg (fun l : List Int => l[0]?) hs
        simp only [List.getElem?_cons_zero, List.getElem?_drop, Nat.add_zero] at this
        exact this.symm
      obtain ⟨r, k', hi, hk⟩ := exchange_inv h t f tl fl hx ot.1
      have b0 : 0 < B := by have := h.lt; omega
      cases m with
      | zero =>
        show some (offload B s t f).1 = _
        rw [r, Nat.add_zero, Nat.add_comm, Nat.add_mul_div_right _ _ b0, Nat.div_eq_of_lt h.lt, Nat.add_mul_mod_self_right, Nat.mod_eq_of_lt h.lt, Nat.zero_add]
      | succ m =>
        show (pathRun B F (offload B s t f).2 es)[m]? = _
        have st : sent es = xs.drop (k' * B + (offload B s t f).2.frame) := by
          rw [hk, ← List.drop_drop, ← hs]
          rfl
        have := ih k' _ hi (fun t f q => hl t f (by simp [q])) st ot.2 m (by simpa using hm)
        rw [this, hk, show k * B + s.frame + 1 + m = k * B + s.frame + (m + 1) by omega]

/-- **C93, latency.** For every work `F` on blocks of `B` samples, every signal and every interleaving of the two threads in which
the DSP thread is on time, sample `n` of block `k` that the audio interface gets back, in all its channels, is sample `n` of the work
done on block `k - 2`; before that comes one block of silence, and before it the contents of an uninitialised array. -/
theorem C93_latency {S : Type} (B : Nat) (hB : 0 < B) (F : S → List Int → S × List Int) (s0 : S) (junk junk' : List Int) (es : List Ev)
    (hF : ∀ s b, b.length = B → (F s b).2.length = B) (hj : junk.length = B) (hj' : junk'.length = B)
    (hl : ∀ t f, Ev.exchange t f ∈ es → t.length = 8 ∧ f.length = 8) (ot : OnTime B F (start B junk junk' s0) es) (n : Nat) (hn : n < (sent es).length) :
    (pathRun B F (start B junk junk' s0) es)[n]? =
      some (List.replicate 8 ((resultBlock B F s0 junk (sent es) (n / B)).getD (n % B) 0),
            List.replicate 8 ((resultBlock B F s0 junk (sent es) (n / B)).getD (n % B) 0)) := by
  have h : PathInv B F s0 junk (sent es) 0 (start B junk junk' s0) :=
    ⟨hB, by simp [start], hj', hj, by simp [start], by simp [start], fun _ _ _ => rfl, .inl ⟨rfl, rfl, rfl, rfl⟩⟩
  have := path_spec hF es 0 _ h hl (by simp [start]) ot n hn
  simpa [start] using this

/-- A schedule of blocks of two samples: three blocks, the DSP thread busy between them. -/
def demo : List Ev :=
  let io (x : Int) : Ev := .exchange (List.replicate 8 x) (List.replicate 8 99)
  [io 1, io 2] ++ List.replicate 8 .dsp ++ [io 3, .dsp, io 4] ++ List.replicate 8 .dsp ++ [io 5, io 6]

/-- The work of the example: add the number of the block to every sample. -/
def count (s : Int) (b : List Int) : Int × List Int := (s + 1, b.map (· + 100 * (s + 1)))

/-- The hypotheses can be met, and the third block is the work on the first. -/
theorem C93_example : OnTime 2 count (start 2 [7, 8] [0, 0] 0) demo ∧
    (pathRun 2 count (start 2 [7, 8] [0, 0] 0) demo).map (fun p => p.1.getD 0 0) = [7, 8, 0, 0, 101, 102] := by
  refine ⟨?_, by decide +kernel⟩
  simp only [demo, List.replicate, List.cons_append, List.nil_append, OnTime]
  decide +kernel

/-- The deadline matters: if the DSP thread is late the same signal gives a mixture of blocks. -/
theorem C93_deadline_needed : ∃ es : List Ev, sent es = sent demo ∧ (∀ t f, Ev.exchange t f ∈ es → t.length = 8 ∧ f.length = 8) ∧
    (pathRun 2 count (start 2 [7, 8] [0, 0] 0) es).map (fun p => p.1.getD 0 0) = [7, 8, 0, 0, 101, 0] := by
  refine ⟨(let io (x : Int) : Ev := .exchange (List.replicate 8 x) (List.replicate 8 99)
    [io 1, io 2] ++ List.replicate 5 .dsp ++ [io 3, io 4] ++ [.dsp] ++ [io 5, io 6]), by decide +kernel, ?_, by decide +kernel⟩
  intro t f h
  simp at h
  rcases h with ⟨rfl, rfl⟩ | ⟨rfl, rfl⟩ | ⟨rfl, rfl⟩ | ⟨rfl, rfl⟩ | ⟨rfl, rfl⟩ | ⟨rfl, rfl⟩ <;> exact ⟨rfl, rfl⟩

end Verif.Audio
