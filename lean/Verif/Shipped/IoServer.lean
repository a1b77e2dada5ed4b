import Verif.MemPlan.Props
/-!
C118: the device's side of the USB server that the compiler generates with a model (`model_ioserver`, examples/audio_network/src/model_audioi16.tflite.cpp
13850-13893).  The host's side is C33.
-/
namespace Verif.Shipped.IoServer
open Verif.MemPlan

/-- What the host asks for.  `reset` and unknown commands change nothing in a model without variable tensors. -/
inductive Cmd where
  | recv (i : Nat) (data : List Byte)
  | send (j : Nat)
  | invoke
  | reset
  | exit
  | other

inductive Reply where
  | ack
  | nack
  | data (bytes : List Byte)
deriving DecidableEq

/-- Bytes moved for a tensor: `(bytes + 3) / sizeof(int)` words (lines 13859, 13865). -/
def moved (bytes : Nat) : Nat := 4 * ((bytes + 3) / 4)

/-- The model on the device: planned function, offsets, operators, and the positions of its outputs. -/
structure Dev where
  f : Func
  offs : List Int
  k : Kernels
  outs : List Nat

/-- Arena and constants after the operators `os`, as in `arenaTrace`. -/
def arenaFinal (f : Func) (k : Kernels) (offs : List Int) : List Op → Nat → Mem → Env → Mem × Env
  | [], _, m, c => (m, c)
  | o :: os, j, m, c =>
      let outs := k j (o.operands.map (arenaOperand f offs m c))
      if o.isConst || o.isTerm then arenaFinal f k offs os (j + 1) m (c.setFrom (f.result0 j) outs)
      else arenaFinal f k offs os (j + 1) (writeResults offs (f.result0 j) outs m) c

/-- The loop (13850-13893): receiving an input writes whole words at `model_input(i)`, sending an output reads whole words at `model_output(j)`, `invoke` runs the
model and acknowledges whatever its status (C117), `exit` ends the loop. -/
def serve (D : Dev) : List Cmd → Mem → Env → List Reply
  | [], _, _ => []
  | .recv i data :: cs, m, c => serve D cs (m.write (offsetOf D.offs i) (data.take (moved (D.f.raw i)))) c
  | .send j :: cs, m, c => .data (m.read (offsetOf D.offs (D.outs.getD j 0)) (moved (D.f.raw (D.outs.getD j 0)))) :: serve D cs m c
  | .invoke :: cs, m, c =>
    let r := arenaFinal D.f D.k D.offs D.f.ops 0 m c
    .ack :: serve D cs r.1 r.2
  | .reset :: cs, m, c => .ack :: serve D cs m c
  | .exit :: _, _, _ => [.ack]
  | .other :: cs, m, c => .nack :: serve D cs m c

/-! ### Specification -/

/-- The data sent last for input `i`. -/
def latest : List (Nat × List Byte) → Nat → Option (List Byte)
  | [], _ => none
  | x :: xs, i => match latest xs i with
    | some d => some d
    | none => if x.1 = i then some x.2 else none

/-- The inputs that the host has sent. -/
def inputsOf (f : Func) (msgs : List (Nat × List Byte)) : List (List Byte) :=
  (List.range f.argSizes.length).map fun i => ((latest msgs i).getD []).take (f.argSizes.getD i 0)

/-! ### Proofs -/

theorem moved_le (n : Nat) : n ≤ moved n ∧ moved n ≤ n + 3 ∧ moved n ≤ roundUp8 n := by
  unfold moved roundUp8
  split <;> omega

theorem raw_arg (f : Func) {i : Nat} (h : i < f.argSizes.length) : f.raw i = f.argSizes.getD i 0 ∧ f.Arena i := by
  have h1 := decl_arg f h
  refine ⟨?_, ?_, ?_⟩
  · unfold Func.raw
    rw [h1, List.getD_eq_getElem?_getD, List.getElem?_eq_getElem h]
    rfl
  · unfold Func.IsValue Func.numValues Func.decls
    simp
    omega
  · rw [h1]

/-- **C118.** Inputs never share words with each other, with either plan of the compiler. -/
theorem C118_inputs_apart {f : Func} (wf : f.WF) (ip : f.InPlaceOK) {b : Bool} {p : Plan} (h : getAllocatedOffsets f b = some p) {i j : Nat}
    (hi : i < f.argSizes.length) (hj : j < f.argSizes.length) (hne : i ≠ j) :
    RangesDisjoint (offsetOf p.offsets i) (moved (f.raw i)) (offsetOf p.offsets j) (moved (f.raw j)) := by
  have hno : ∀ v w, w < f.argSizes.length → ¬ f.InPlaceChain v w := by
    intro v w hw hc
    obtain ⟨d, hd, -⟩ := chain_before wf ip hc
    exact definedAt_not_arg f hd hw
  have := C05_sharing_only_along_in_place_chains wf ip h (raw_arg f hi).2 (raw_arg f hj).2 hne (t := 0) (.inl ⟨hi, .inl rfl⟩) (.inl ⟨hj, .inl rfl⟩) (hno _ _ hj) (hno _ _ hi)
  have m1 := (moved_le (f.raw i)).2.2
  have m2 := (moved_le (f.raw j)).2.2
  unfold RangesDisjoint at *
  omega

/-- The arena after messages. -/
def received (f : Func) (offs : List Int) : List (Nat × List Byte) → Mem → Mem
  | [], m => m
  | x :: xs, m => received f offs xs (m.write (offsetOf offs x.1) (x.2.take (moved (f.raw x.1))))

theorem read_take (m : Mem) (o : Int) {n k : Nat} (h : k ≤ n) : (m.read o n).take k = m.read o k := by
  induction k generalizing o n with
  | zero => rfl
  | succ k ih =>
    match n, h with
    | n + 1, h =>
      simp only [Mem.read, List.take_succ_cons]
      rw [ih _ (by omega)]

theorem received_read {f : Func} {offs : List Int}
    (hd : ∀ i j, i < f.argSizes.length → j < f.argSizes.length → i ≠ j → RangesDisjoint (offsetOf offs i) (moved (f.raw i)) (offsetOf offs j) (moved (f.raw j)))
    (i : Nat) (hi : i < f.argSizes.length) : ∀ (msgs : List (Nat × List Byte)) (m : Mem),
    (∀ x ∈ msgs, x.1 < f.argSizes.length ∧ x.2.length = moved (f.raw x.1)) →
    (received f offs msgs m).read (offsetOf offs i) (moved (f.raw i)) = (latest msgs i).getD (m.read (offsetOf offs i) (moved (f.raw i))) := by
  intro msgs
  induction msgs with
  | nil => intro m _; rfl
  | cons x xs ih =>
    intro m hx
    obtain ⟨h1, h2⟩ := hx x (by simp)
    rw [received, ih _ fun y hy => hx y (List.mem_cons_of_mem _ hy), latest]
    cases hl : latest xs i with
    | some d => rfl
    | none =>
      dsimp only [Option.getD_none]
      have ht : x.2.take (moved (f.raw x.1)) = x.2 := List.take_of_length_le (by omega)
      rw [ht]
      by_cases he : x.1 = i
      · subst he
        rw [if_pos rfl, ← h2, Mem.read_write_same]
        rfl
      · rw [if_neg he, Mem.read_write_disjoint _ _ _ _ _ (by rw [h2]; exact hd i x.1 hi h1 (Ne.symm he))]
        rfl

theorem write_read (m : Mem) (o : Int) (n : Nat) : m.write o (m.read o n) = m := by
  induction n generalizing o with
  | zero => rfl
  | succ n ih =>
    simp only [Mem.read, Mem.write]
    have : (fun a => if a = o then m o else m a) = m := by
      funext a
      split
      · rename_i h; rw [h]
      · rfl
    rw [this]
    exact ih _

theorem writeResults_id (offs : List Int) : ∀ (bs : List (List Byte)) (r : Nat) (m : Mem),
    (∀ i (hi : i < bs.length), m.read (offsetOf offs (r + i)) bs[i].length = bs[i]) → writeResults offs r bs m = m := by
  intro bs
  induction bs with
  | nil => intro r m _; rfl
  | cons b bs ih =>
    intro r m h
    rw [writeResults]
    have h0 := h 0 (by simp)
    simp only [List.getElem_cons_zero, Nat.add_zero] at h0
    have : m.write (offsetOf offs r) b = m := by
      conv => lhs; rw [← h0]
      exact write_read _ _ _
    rw [this]
    refine ih (r + 1) m fun i hi => ?_
    have := h (i + 1) (by simpa using hi)
    simpa [Nat.add_assoc, Nat.add_comm 1 i] using this

theorem inputsOf_length (f : Func) (msgs : List (Nat × List Byte)) (hx : ∀ x ∈ msgs, x.1 < f.argSizes.length ∧ x.2.length = moved (f.raw x.1))
    (hall : ∀ i < f.argSizes.length, latest msgs i ≠ none) : (inputsOf f msgs).map List.length = f.argSizes := by
  have hl : ∀ (ms : List (Nat × List Byte)) i d, latest ms i = some d → (i, d) ∈ ms := by
    intro ms
    induction ms with
    | nil => intro i d h; cases h
    | cons x xs ih =>
      intro i d h
      rw [latest] at h
      split at h
      · rename_i d' h'
        rw [← Option.some.inj h]
        exact List.mem_cons_of_mem _ (ih _ _ h')
      · split at h
        · rename_i he
          rw [← Option.some.inj h, ← he]
          simp
        · cases h
  apply List.ext_getElem
  · simp [inputsOf]
  · intro i h1 h2
    simp only [inputsOf, List.getElem_map, List.getElem_range, List.length_take]
    cases hd : latest msgs i with
    | none => exact absurd hd (hall i h2)
    | some d =>
      have := (hx _ (hl _ _ _ hd)).2
      have h3 := (raw_arg f h2).1
      have h4 := (moved_le (f.raw i)).1
      have h5 : f.argSizes.getD i 0 = f.argSizes[i] := by rw [List.getD_eq_getElem?_getD, List.getElem?_eq_getElem h2]; rfl
      simp only [Option.getD_some]
      simp only at this
      omega

theorem serve_recv (D : Dev) (cs : List Cmd) (c : Env) : ∀ (msgs : List (Nat × List Byte)) (m : Mem),
    serve D ((msgs.map fun x => .recv x.1 x.2) ++ cs) m c = serve D cs (received D.f D.offs msgs m) c := by
  intro msgs
  induction msgs with
  | nil => intro m; rfl
  | cons x xs ih => intro m; simp only [List.map_cons, List.cons_append, serve, received]; exact ih _

theorem serve_send (D : Dev) (m : Mem) (c : Env) (cs : List Cmd) : ∀ (js : List Nat),
    serve D (js.map .send ++ cs) m c =
      js.map (fun j => .data (m.read (offsetOf D.offs (D.outs.getD j 0)) (moved (D.f.raw (D.outs.getD j 0))))) ++ serve D cs m c := by
  intro js
  induction js with
  | nil => rfl
  | cons j js ih => simp only [List.map_cons, List.cons_append, serve]; rw [ih]

/-- The final return sees the final arena. -/
theorem trace_last (f : Func) (k : Kernels) (offs : List Int) (ret : Op) (hr : ret.isTerm = true) : ∀ (body : List Op) (j : Nat) (m : Mem) (c : Env),
    (arenaTrace f k offs (body ++ [ret]) j m c).getLast? =
      some (ret.operands.map (arenaOperand f offs (arenaFinal f k offs body j m c).1 (arenaFinal f k offs body j m c).2)) ∧
    (arenaFinal f k offs (body ++ [ret]) j m c).1 = (arenaFinal f k offs body j m c).1 := by
  intro body
  induction body with
  | nil =>
    intro j m c
    simp [arenaTrace, arenaFinal, hr]
  | cons o os ih =>
    intro j m c
    simp only [List.cons_append, arenaTrace, arenaFinal]
    split
    · obtain ⟨h1, h2⟩ := ih (j + 1) m (c.setFrom (f.result0 j) (k j (o.operands.map (arenaOperand f offs m c))))
      exact ⟨by rw [List.getLast?_cons, h1]; rfl, h2⟩
    · obtain ⟨h1, h2⟩ := ih (j + 1) (writeResults offs (f.result0 j) (k j (o.operands.map (arenaOperand f offs m c))) m) c
      exact ⟨by rw [List.getLast?_cons, h1]; rfl, h2⟩

/-- **C118.** A session over USB: the host sends every input at least once, in any order and as often as it likes, asks for a run, and then for outputs in
any order.  It gets an acknowledgement and for each output as many words as hold it, which begin with the bytes that the model computes on the inputs sent last
when every tensor has memory of its own; the arena may hold anything before. -/
theorem C118_session {f : Func} (wf : f.WF) (ip : f.InPlaceOK) {b : Bool} {p : Plan} (h : getAllocatedOffsets f b = some p) (k : Kernels) (hk : Kernels.Fit f k)
    (body : List Op) (ret : Op) (hops : f.ops = body ++ [ret]) (hret : ret.isTerm = true)
    (msgs : List (Nat × List Byte)) (hx : ∀ x ∈ msgs, x.1 < f.argSizes.length ∧ x.2.length = moved (f.raw x.1))
    (hall : ∀ i < f.argSizes.length, latest msgs i ≠ none) (js : List Nat)
    (hjs : ∀ j ∈ js, j < ret.operands.length ∧ (f.decl (ret.operands.getD j 0)).isConst = false) (m : Mem) (c : Env) :
    ∃ outs, (refTrace f k f.ops 0 (inputEnv (inputsOf f msgs))).getLast? = some outs ∧
    ∃ rs : List (List Byte), serve ⟨f, p.offsets, k, ret.operands⟩ ((msgs.map fun x => .recv x.1 x.2) ++ .invoke :: js.map .send) m c = .ack :: rs.map .data ∧
      rs.length = js.length ∧ ∀ (n j : Nat) (r : List Byte), js[n]? = some j → rs[n]? = some r →
        r.length = moved (f.raw (ret.operands.getD j 0)) ∧ r.take (f.raw (ret.operands.getD j 0)) = outs.getD j [] := by
  have hd := fun i j hi hj hne => C118_inputs_apart wf ip h (i := i) (j := j) hi hj hne
  have hrun := C02_arena_execution_correct_in_place wf ip h k (inputsOf f msgs) (received f p.offsets msgs m) c hk (inputsOf_length f msgs hx hall)
  have hload : loadInputs p.offsets (inputsOf f msgs) (received f p.offsets msgs m) = received f p.offsets msgs m := by
    refine writeResults_id _ _ _ _ fun i hi => ?_
    have hi' : i < f.argSizes.length := by simpa [inputsOf] using hi
    have hlen : (inputsOf f msgs)[i].length = f.raw i := by
      have := inputsOf_length f msgs hx hall
      have h2 : ((inputsOf f msgs).map List.length)[i]? = f.argSizes[i]? := by rw [this]
      rw [List.getElem?_map, List.getElem?_eq_getElem hi, List.getElem?_eq_getElem hi'] at h2
      rw [(raw_arg f hi').1, List.getD_eq_getElem?_getD, List.getElem?_eq_getElem hi']
      exact Option.some.inj h2
    rw [hlen, Nat.zero_add, ← read_take _ _ (moved_le (f.raw i)).1, received_read hd i hi' msgs m hx]
    simp only [inputsOf, List.getElem_map, List.getElem_range]
    cases hl : latest msgs i with
    | none => exact absurd hl (hall i hi')
    | some d =>
      rw [(raw_arg f hi').1]
      rfl
  rw [hload] at hrun
  obtain ⟨t1, t2⟩ := trace_last f k p.offsets ret hret body 0 (received f p.offsets msgs m) c
  rw [← hops] at t1 t2
  rw [hrun] at t1
  refine ⟨_, t1, js.map fun j => (arenaFinal f k p.offsets f.ops 0 (received f p.offsets msgs m) c).1.read (offsetOf p.offsets (ret.operands.getD j 0))
    (moved (f.raw (ret.operands.getD j 0))), ?_, by simp, ?_⟩
  · rw [serve_recv, serve]
    have := serve_send ⟨f, p.offsets, k, ret.operands⟩ (arenaFinal f k p.offsets f.ops 0 (received f p.offsets msgs m) c).1
      (arenaFinal f k p.offsets f.ops 0 (received f p.offsets msgs m) c).2 [] js
    rw [List.append_nil] at this
    dsimp only
    rw [this]
    simp [serve, List.map_map, Function.comp_def]
  · intro n j r hn hr
    rw [List.getElem?_map, hn] at hr
    obtain rfl := Option.some.inj hr
    obtain ⟨hj, hc⟩ := hjs j (List.mem_of_getElem? hn)
    refine ⟨?_, ?_⟩
    · have : ∀ (m : Mem) (n : Nat) (o : Int), (m.read o n).length = n := by
        intro m n
        induction n with
        | zero => intro o; rfl
        | succ n ih => intro o; simp [Mem.read, ih]
      exact this _ _ _
    · have hg : ret.operands.getD j 0 = ret.operands[j] := by rw [List.getD_eq_getElem?_getD, List.getElem?_eq_getElem hj]; rfl
      rw [hg] at hc
      dsimp only
      rw [hg, read_take _ _ (moved_le _).1, t2, List.getD_eq_getElem?_getD, List.getElem?_map, List.getElem?_eq_getElem hj]
      simp [arenaOperand, hc]

/-- **C118.** After `exit` nothing is served. -/
theorem C118_exit (D : Dev) (cs : List Cmd) (m : Mem) (c : Env) : serve D (.exit :: cs) m c = [.ack] := rfl

/-- **C118.** Up to 3 bytes behind an output go to the host as well. -/
theorem C118_surplus (n : Nat) : moved n - n ≤ 3 ∧ (moved n = n ↔ n % 4 = 0) := by
  unfold moved
  omega

/-- The conditions are met: the two inputs of C01's example function, of which the second has 36 bytes, are sent in the other order, one of them twice; the outputs are asked for in the
other order. -/
theorem C118_example (k : Kernels) (hk : Kernels.Fit exampleFunc k) (x y y' : List Byte) (hx : x.length = moved (exampleFunc.raw 0)) (hy : y.length = moved (exampleFunc.raw 1))
    (hy' : y'.length = moved (exampleFunc.raw 1)) (m : Mem) (c : Env) :
    ∃ p, getAllocatedOffsets exampleFunc true = some p ∧
    ∃ outs, (refTrace exampleFunc k exampleFunc.ops 0 (inputEnv [x.take (exampleFunc.argSizes.getD 0 0), y'.take (exampleFunc.argSizes.getD 1 0)])).getLast? = some outs ∧
    ∃ r0 r1, serve ⟨exampleFunc, p.offsets, k, [7, 4]⟩ [.recv 1 y, .recv 0 x, .recv 1 y', .invoke, .send 1, .send 0] m c = [.ack, .data r1, .data r0] ∧
      r1.take (exampleFunc.raw 4) = outs.getD 1 [] ∧ r0.take (exampleFunc.raw 7) = outs.getD 0 [] := by
  obtain ⟨p, hp⟩ := C03_plan_exists exampleFunc_wf exampleFunc_inPlace true (v := 0) (raw_arg exampleFunc (i := 0) (by decide)).2
  obtain ⟨outs, h1, rs, h2, h3, h4⟩ := C118_session exampleFunc_wf exampleFunc_inPlace hp k hk (exampleFunc.ops.take 5) ⟨false, true, false, [7, 4], []⟩ rfl rfl
    [(1, y), (0, x), (1, y')] (by
      intro z hz
      simp only [List.mem_cons, List.not_mem_nil, or_false] at hz
      rcases hz with rfl | rfl | rfl
      · exact ⟨(by decide : 1 < exampleFunc.argSizes.length), hy⟩
      · exact ⟨(by decide : 0 < exampleFunc.argSizes.length), hx⟩
      · exact ⟨(by decide : 1 < exampleFunc.argSizes.length), hy'⟩) (by
      intro i hi
      have hi : i < 2 := hi
      have : i = 0 ∨ i = 1 := by omega
      rcases this with rfl | rfl <;> simp [latest]) [1, 0] (by decide) m c
  refine ⟨p, hp, outs, h1, ?_⟩
  match rs, h3 with
  | [r1, r0], _ => exact ⟨r0, r1, h2, (h4 0 1 r1 rfl rfl).2, (h4 1 0 r0 rfl rfl).2⟩

end Verif.Shipped.IoServer
