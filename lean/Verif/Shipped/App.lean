import Verif.Shipped.Audio
/-!
C98, continued: any number of frames through `nn_predict_masks` (examples/audio_network/src/support.cpp 121-175) with the shipped
network, and the persistent buffers of `model_init`.
-/
namespace Verif.Shipped
open Verif.MemPlan

/-! ### The persistent buffers -/

/-- `persistentBufferPtr` (as an offset in the arena) and `scratch_buffer_idx` (model_audioi16.tflite.cpp 13457, 13478). -/
structure Rt where
  ptr : Int
  scratch : Nat
deriving DecidableEq, Repr

/-- `AllocatePersistentBuffer` (model_audioi16.tflite.cpp 13480-13486): the address, and the new state. -/
def allocatePersistentBuffer (bytes : Nat) (s : Rt) : Int × Rt :=
  let b := ((bytes + 7) / 8) * 8
  (s.ptr - b, { s with ptr := s.ptr - b })

/-- The buffers `(address, bytes)` that the operators get for their requests, in order. -/
def allocateAll : List Nat → Rt → List (Int × Nat) × Rt
  | [], s => ([], s)
  | b :: bs, s =>
      let p := allocatePersistentBuffer b s
      let q := allocateAll bs p.2
      ((p.1, b) :: q.1, q.2)

/-- `RequestScratchBufferInArena` and `GetScratchBuffer` (model_audioi16.tflite.cpp 13493-13502): the next entry of the table. -/
def requestScratch (s : Rt) : Option Nat × Rt := (scratchBufferOffsets[s.scratch]?, { s with scratch := s.scratch + 1 })

/-- `model_init` (model_audioi16.tflite.cpp 13640-13782): both are reset, then the operators' init and prepare ask for `reqs`.
Operators that fail, and what init and prepare store, are not modelled. -/
def modelInit (reqs : List Nat) (_before : Rt) : List (Int × Nat) × Rt := allocateAll reqs ⟨tensorArenaSize, 0⟩

/-- The bytes taken by requests: each rounded up to a multiple of eight. -/
def taken (reqs : List Nat) : Nat := (reqs.map roundUp8).sum

theorem roundUp8_eq (b : Nat) : ((b + 7) / 8) * 8 = roundUp8 b := by unfold roundUp8; split <;> omega

theorem allocateAll_spec (reqs : List Nat) (s : Rt) :
    (allocateAll reqs s).2.ptr = s.ptr - taken reqs ∧
    (∀ b ∈ (allocateAll reqs s).1, s.ptr - taken reqs ≤ b.1 ∧ b.1 + b.2 ≤ s.ptr) ∧
    ((8 : Int) ∣ s.ptr → ∀ b ∈ (allocateAll reqs s).1, (8 : Int) ∣ b.1) ∧
    (allocateAll reqs s).1.Pairwise (fun a b => RangesDisjoint a.1 a.2 b.1 b.2) ∧
    (allocateAll reqs s).1.map Prod.snd = reqs := by
  induction reqs generalizing s with
  | nil => simp [allocateAll, taken]
  | cons r rs ih =>
    obtain ⟨i1, i2, i3, i4, i5⟩ := ih (allocatePersistentBuffer r s).2
    have hp : (allocatePersistentBuffer r s).2.ptr = s.ptr - roundUp8 r := by
      simp only [allocatePersistentBuffer]; rw [← roundUp8_eq]
    have hp1 : (allocatePersistentBuffer r s).1 = s.ptr - roundUp8 r := by
      simp only [allocatePersistentBuffer]; rw [← roundUp8_eq]
    have ht : taken (r :: rs) = roundUp8 r + taken rs := by simp [taken]
    have hr := roundUp8_ge r
    have hd : 8 ∣ roundUp8 r := by rw [← roundUp8_eq]; exact Nat.dvd_mul_left _ _
    rw [hp] at i1 i2 i3
    simp only [allocateAll]
    refine ⟨by rw [i1, ht]; push_cast; ring, ?_, ?_, ?_, by simp [i5]⟩
    · intro b hb
      rcases List.mem_cons.1 hb with rfl | hb
      · simp only [hp1, ht]; push_cast; omega
      · have := i2 b hb
        rw [ht]; push_cast; omega
    · intro h8 b hb
      rcases List.mem_cons.1 hb with rfl | hb
      · simp only [hp1]; omega
      · exact i3 (by omega) b hb
    · refine List.pairwise_cons.2 ⟨fun b hb => ?_, i4⟩
      have := i2 b hb
      right
      simp only [hp1]
      omega

/-- **C98, persistent buffers.** Whatever the operators ask for, if it takes at most 39728 bytes the buffers are disjoint, multiples of eight,
and lie between the tensors and the end of the arena; the pointer does not depend on how often `model_init` ran before. -/
theorem C98_persistent (reqs : List Nat) (h : taken reqs ≤ 39728) (before : Rt) :
    (modelInit reqs before).1.map Prod.snd = reqs ∧
    (modelInit reqs before).1.Pairwise (fun a b => RangesDisjoint a.1 a.2 b.1 b.2) ∧
    (∀ b ∈ (modelInit reqs before).1, 10880 ≤ b.1 ∧ b.1 + b.2 ≤ tensorArenaSize ∧ (8 : Int) ∣ b.1) ∧
    (modelInit reqs before).2.ptr = tensorArenaSize - taken reqs := by
  obtain ⟨h1, h2, h3, h4, h5⟩ := allocateAll_spec reqs ⟨tensorArenaSize, 0⟩
  refine ⟨h5, h4, fun b hb => ?_, h1⟩
  have := h2 b hb
  have e : ((tensorArenaSize : Nat) : Int) = 50608 := rfl
  simp only [e] at this ⊢
  refine ⟨by omega, this.2, h3 (by decide) b hb⟩

/-- The bound is exact: with one byte more, the last buffer begins inside tensor 120, which lives from node 33 to node 87; nothing checks. -/
theorem C98_persistent_bound : (modelInit [39729] ⟨0, 0⟩).1 = [(10872, 39729)] ∧
    ¬ RangesDisjoint 10872 39729 (audioOffsets.getD 120 0) (tensorBytes.getD 120 0) := by
  constructor
  · decide +kernel
  · rw [show audioOffsets.getD 120 0 = 10752 by decide +kernel, show tensorBytes.getD 120 0 = 128 by decide +kernel]
    unfold RangesDisjoint; decide

/-- Every convolution finds a scratch offset in the table, and no more are there. -/
theorem C98_scratch_count : (usedOps.filter (· == .conv2d)).length = scratchBufferOffsets.length := by decide +kernel

/-- A write that stays in the persistent buffers leaves the tensors alone. -/
theorem quiet_write (reqs : List Nat) (h : taken reqs ≤ 39728) (before : Rt) (b : Int × Nat) (hb : b ∈ (modelInit reqs before).1)
    (f : Mem → List Byte) : Quiet 10880 fun m => m.write b.1 (f m) := by
  intro m a ha
  have := ((C98_persistent reqs h before).2.2.1 b hb).1
  exact Mem.write_other _ _ _ _ (Or.inl (by omega))

/-! ### No operator overwrites what it reads -/

/-- **C98, inputs and outputs of an operator are apart**, so the order in which it reads and writes does not matter. -/
theorem C98_no_aliasing : ∀ n ∈ audio.nodes, ∀ i ∈ n.1, ∀ o ∈ n.2, ∀ x y : Nat, 0 ≤ i →
    audio.off i.toNat = some x → audio.off o = some y → RangesDisjoint x (audio.size i.toNat) y (audio.size o) := by
  have h : (audio.nodes.all fun n => n.1.all fun i => n.2.all fun o => decide (i < 0) || audio.apart i.toNat o) = true := by decide +kernel
  simp only [List.all_eq_true, Bool.or_eq_true, decide_eq_true_eq] at h
  intro n hn i hi o ho x y h0 hx hy
  rcases h n hn i hi o ho with h | h
  · omega
  · exact apart_disjoint h hx hy

/-! ### The application -/

/-- `state` (support.cpp 105-112) and the arena. -/
structure App where
  state : List Byte
  mem : Mem

/-- The arguments of one call of `nn_predict_masks`. -/
structure Frame where
  mels : List Byte
  button : Nat

/-- What happens in the arena besides the tensors: in `model_init` and in each operator. -/
structure Side where
  init : Mem → Mem
  node : Nat → Mem → Mem

/-- The tensors are left alone. -/
def Side.Ok (s : Side) : Prop := Quiet 10880 s.init ∧ ∀ i, Quiet 10880 (s.node i)

/-- `nn_predict_masks` (support.cpp 121-175): init, the state and the inputs into the arena, invoke, masks from output 1, the state from output 0.
`floats` reads bytes as floats; the conversion to masks is that of C92, `none` for a read outside its tables. -/
def predict (c : Nat → List Byte) (k : Kern) (floats : List Byte → List ℚ) (s : Side) (f : Frame) (a : App) : Option (List Int) × App :=
  let m0 := s.init a.mem
  let m1 := audio.put m0 (inTensorIndices.getD 1 0) a.state
  let m2 := audio.put m1 (inTensorIndices.getD 0 0) f.mels
  let m3 := audio.invoke c k s.node m2
  let masks := (floats (audio.get c m3 (outTensorIndices.getD 1 0))).mapM (Audio.maskOf f.button)
  (masks, ⟨audio.get c m3 (outTensorIndices.getD 0 0), m3⟩)

/-- Frame after frame. -/
def runApp (c : Nat → List Byte) (k : Kern) (floats : List Byte → List ℚ) : List (Frame × Side) → App → List (Option (List Int))
  | [], _ => []
  | (f, s) :: rest, a =>
      let r := predict c k floats s f a
      r.1 :: runApp c k floats rest r.2

/-- The recurrent network itself, without an arena: masks from tensor 180, next state from tensor 179. -/
def recurrence (c : Nat → List Byte) (k : Kern) (floats : List Byte → List ℚ) : List Frame → List Byte → List (Option (List Int))
  | [], _ => []
  | f :: fs, state =>
      let e := audio.eval k c [f.mels, state]
      (floats (e 180)).mapM (Audio.maskOf f.button) :: recurrence c k floats fs (e 179)

theorem predict_eq (c : Nat → List Byte) (k : Kern) (hk : audio.Fit k) (floats : List Byte → List ℚ) (s : Side) (hs : s.Ok) (f : Frame)
    (hf : f.mels.length = 256) (a : App) (ha : a.state.length = 256) :
    (predict c k floats s f a).1 = (floats (audio.eval k c [f.mels, a.state] 180)).mapM (Audio.maskOf f.button) ∧
    (predict c k floats s f a).2.state = audio.eval k c [f.mels, a.state] 179 ∧
    (predict c k floats s f a).2.state.length = 256 := by
  have hc := audio_check
  simp only [Tables.check, Bool.and_eq_true, List.all_eq_true] at hc
  have hg := get_putAll_same (T := audio) (c := c) (peak := 10880) [1, 0] [a.state, f.mels] (s.init a.mem)
    (by rw [List.map_cons, List.map_cons, ha, hf]; decide) (by decide) (by decide) c
  have e : assign [1, 0] [a.state, f.mels] c = assign [0, 1] [f.mels, a.state] c := by
    funext v
    show (if v = 0 then f.mels else if v = 1 then a.state else c v) = (if v = 1 then a.state else if v = 0 then f.mels else c v)
    split
    · rename_i h0; subst h0; simp
    · rfl
  rw [e] at hg
  have h := scan_sound audio c k s.node 10880 hs.2 audio.nodes 0 audio.inputs
    (audio.putAll [1, 0] [a.state, f.mels] (s.init a.mem)) (assign [0, 1] [f.mels, a.state] c)
    (fun j n hj ins => by rw [Nat.zero_add]; exact hk j n hj ins) hc.2 hc.1.1
    (fun v hv => hg v (by
      have : v = 0 ∨ v = 1 := by simpa [audio, inTensorIndices] using hv
      rcases this with rfl | rfl <;> simp))
    (fun v hv => by
      apply assign_other
      intro hm
      have : v = 0 ∨ v = 1 := by simpa using hm
      rcases this with rfl | rfl <;> exact absurd hv (by decide))
  refine ⟨?_, h 179 (by decide), ?_⟩
  · exact congrArg (fun x => (floats x).mapM (Audio.maskOf f.button)) (h 180 (by decide))
  · exact length_read _ _ _

/-- **C98, any number of frames.** For every sequence of inputs and buttons, every content of the arena at the start, all constants and
operators, and whatever the operators do with their persistent buffers: the application produces the masks of the recurrent network. -/
theorem C98_frames (c : Nat → List Byte) (k : Kern) (hk : audio.Fit k) (floats : List Byte → List ℚ) (frames : List (Frame × Side))
    (hf : ∀ f ∈ frames, f.1.mels.length = 256 ∧ f.2.Ok) (a : App) (ha : a.state.length = 256) :
    runApp c k floats frames a = recurrence c k floats (frames.map Prod.fst) a.state := by
  induction frames generalizing a with
  | nil => rfl
  | cons f rest ih =>
    obtain ⟨f, s⟩ := f
    obtain ⟨h1, h2⟩ := hf (f, s) List.mem_cons_self
    obtain ⟨p1, p2, p3⟩ := predict_eq c k hk floats s h2 f h1 a ha
    simp only [runApp, recurrence, List.map_cons]
    rw [p1, ih (fun g hg => hf g (List.mem_cons_of_mem _ hg)) _ p3, p2]

/-! ### Inputs do not survive an inference -/

/-- Operators that write zeros. -/
def zeroKern : Kern := fun i _ => (nodeOutputs.getD i []).map fun t => List.replicate (tensorBytes.getD t 0) 0

theorem zeroKern_fit : audio.Fit zeroKern := by
  intro i n hn ins
  have hz : audio.nodes[i]? = ((nodeInputs.zip nodeOutputs)[i]?) := rfl
  rw [hz, List.getElem?_zip_eq_some] at hn
  unfold zeroKern
  rw [List.getD_eq_getElem?_getD, hn.2]
  simp [Tables.size, audio]

theorem evalFrom_append (k : Kern) (a b : List (List Int × List Nat)) (i : Nat) (e : Nat → List Byte) :
    evalFrom k i (a ++ b) e = evalFrom k (i + a.length) b (evalFrom k i a e) := by
  induction a generalizing i e with
  | nil => rfl
  | cons n rest ih =>
    obtain ⟨is, os⟩ := n
    simp only [List.cons_append, evalFrom, List.length_cons]
    rw [ih, show i + 1 + rest.length = i + (rest.length + 1) by omega]

/-- The second output lies where the second input was (and the first where the first was): an application that does not write both inputs
before every inference does not get the network's results. -/
theorem C98_inputs_are_lost : ∃ (c : Nat → List Byte) (k : Kern) (_ : audio.Fit k) (mels state : List Byte) (m : Mem),
    mels.length = 256 ∧ state.length = 256 ∧
    audio.get c (audio.invoke c k (fun _ m => m) (audio.putAll [0, 1] [mels, state] m)) 1 ≠ state := by
  refine ⟨fun _ => [], zeroKern, zeroKern_fit, List.replicate 256 0, List.replicate 256 1, fun _ => 0, List.length_replicate, List.length_replicate, ?_⟩
  have h := (C98_invoke (fun _ => []) zeroKern zeroKern_fit (fun _ m => m) (fun _ _ _ _ => rfl) (List.replicate 256 0) (List.replicate 256 1)
    List.length_replicate List.length_replicate (fun _ => 0)).2
  obtain ⟨m3, e3⟩ : ∃ m3, m3 = audio.invoke (fun _ => []) zeroKern (fun _ m => m)
    (audio.putAll [0, 1] [List.replicate 256 0, List.replicate 256 1] (fun _ => 0)) := ⟨_, rfl⟩
  rw [← e3] at h ⊢
  have same : audio.get (fun _ => []) m3 1 = audio.get (fun _ => []) m3 180 := rfl
  rw [same, h]
  have hz : ∀ e, evalFrom zeroKern 0 audio.nodes e 180 = List.replicate 256 0 := by
    intro e
    have hs : audio.nodes = audio.nodes.take 88 ++ [([178, 33], [180])] := by decide +kernel
    have hl : (audio.nodes.take 88).length = 88 := by decide +kernel
    rw [hs, evalFrom_append, hl]
    rfl
  unfold Tables.eval
  rw [hz]
  decide

/-- The hypotheses are met: operators that write zeros, one of which keeps a counter in its persistent buffer. -/
example : ∃ (k : Kern) (s : Side), audio.Fit k ∧ s.Ok ∧ s.init (fun _ => 0) ≠ (fun _ => 0) ∧ taken [100, 12, 7] ≤ 39728 := by
  refine ⟨zeroKern, ⟨fun m => m.write 50504 [1], fun _ m => m⟩, zeroKern_fit, ⟨?_, fun _ _ _ _ => rfl⟩, ?_, by decide⟩
  · exact quiet_write [100, 12, 7] (by decide) ⟨0, 0⟩ (50504, 100) (by decide +kernel) fun _ => [1]
  · intro h
    have := congrFun h 50504
    simp [Mem.write] at this

end Verif.Shipped
