import Verif.Host.Usb
import Verif.Shipped.IoServer

/-!
# C123: a program on the host that uses a device over USB reads what the model computes

examples/app_no_flash_with_ioserver/run_model.py runs several images on one device.  This file puts together the host's class (`IOServer`,
python/xmos_ai_tools/io_server/__init__.py), the framing of its messages (C33) and the server on the device (C118), for any number of runs.
Not in the repository and taken as contract: the pipes keep packets in order and lose none; the device's USB driver ends a message at the first short
packet (C33), reads a data message after every command but "send an output" and "exit", hands on whole words, and frames its answers in the same way.
-/

namespace Verif.Host.UsbSession

open Verif.MemPlan Verif.Shipped.IoServer
open Verif.Host.Usb (Frames transfer download upload maxBlock)

/-! ### The host (io_server/__init__.py) -/

/-- Calls of a program. -/
inductive Call where
  | write (i : Nat) (data : List Byte)
  | start
  | read (j : Nat)
  | reset
  | close

/-- Packets that a call sends: `write_input_tensor` (56-63, 82-87), `start_inference` (139-144), `read_output_tensor` (65-72, 92), `reset` (146-151), `close` (75-79).
Commands are numbered in lines 7-11; the model number is 0, its default. -/
def sent : Call → List (List Nat)
  | .write i data => download 3 0 i (data.map UInt8.toNat)
  | .start => transfer [1, 0, 0] ++ transfer []
  | .read j => transfer [2, 0, j]
  | .reset => transfer [7, 0, 0] ++ transfer []
  | .close => transfer [8, 0, 0]

/-- An entry of `output_details`: shape, and bytes per element of its `dtype`. -/
structure Details where
  shape : List Nat
  width : Nat

/-- Elements of `np.frombuffer`, each as its bytes (contract of numpy). -/
def elements (w : Nat) (data : List Nat) : List (List Nat) := (List.range (data.length / w)).map fun k => (data.drop (k * w)).take w

/-- `bytes_to_arr` (49-54): `none` is an exception.  An empty tuple of details counts as no details.  Shapes are those of an array with at least one dimension. -/
def bytesToArr (ds : List Details) (j : Nat) (data : List Nat) : Option (List (List Nat)) :=
  if ds = [] then some (elements 1 data)
  else match ds[j]? with
    | none => none
    | some d =>
      if data.length % d.width = 0 then
        if ((elements d.width data).take d.shape.prod).length = d.shape.prod then some ((elements d.width data).take d.shape.prod) else none
      else none

/-- What the calls of `read_output_tensor` return, from the packets that come from the device; `none` also stands for a time-out. -/
def results (ds : List Details) : List Nat → List (List Nat) → List (Option (List (List Nat)))
  | [], _ => []
  | j :: js, ps => match upload ps with
    | none => none :: results ds js ps
    | some (d, ps) => bytesToArr ds j d :: results ds js ps

/-- `bytes([cmd, model_num, tensor_num])` raises if a number is above 255 (line 84, 92). -/
def Call.fits : Call → Bool
  | .write i _ => i < 256
  | .read j => j < 256
  | _ => true

def reads : List Call → List Nat
  | [] => []
  | .read j :: cs => j :: reads cs
  | _ :: cs => reads cs

/-! ### The device -/

/-- The driver hands on whole words; what fills the last one is not known. -/
def padded (junk : Nat → Byte) (data : List Byte) : List Byte := data ++ (List.range (moved data.length - data.length)).map junk

/-- The device's driver: packets to commands of the server (C118). -/
def decode (junk : Nat → Byte) : Nat → List (List Nat) → List Cmd
  | 0, _ => []
  | n + 1, ps =>
    match upload ps with
    | none => []
    | some (c, ps) =>
      if c[0]? = some 2 then .send (c.getD 2 0) :: decode junk n ps
      else if c[0]? = some 8 then .exit :: decode junk n ps
      else match upload ps with
        | none => []
        | some (d, ps) =>
          (if c[0]? = some 3 then .recv (c.getD 2 0) (padded junk (d.map UInt8.ofNat)) else if c[0]? = some 1 then .invoke else if c[0]? = some 7 then .reset else .other) ::
            decode junk n ps

/-- The data that the server answers. -/
def answers : List Reply → List (List Byte)
  | [] => []
  | .data b :: rs => b :: answers rs
  | _ :: rs => answers rs

/-- A program on the host and the device: what `read_output_tensor` returns, call by call; `none` if a call raises before it sends. -/
def session (D : Dev) (junk : Nat → Byte) (frame : List Nat → List (List Nat)) (ds : List Details) (calls : List Call) (m : Mem) (c : Env) :
    Option (List (Option (List (List Nat)))) :=
  if calls.all Call.fits then
    some (results ds (reads calls)
      ((answers (serve D (decode junk (calls.flatMap sent).length (calls.flatMap sent)) m c)).flatMap fun b => frame (b.map UInt8.toNat)))
  else none

/-! ### Specification -/

/-- One run: inputs are sent, in any order and any number of times; the model is started; outputs are read, in any order and any number of times. -/
structure Run where
  writes : List (Nat × List Byte)
  outs : List Nat

def Run.calls (r : Run) : List Call := (r.writes.map fun x => .write x.1 x.2) ++ .start :: r.outs.map .read

/-- Every input is sent, with its size. -/
def Run.OK (f : Func) (ret : Op) (r : Run) : Prop :=
  (∀ x ∈ r.writes, x.1 < f.argSizes.length ∧ x.1 < 256 ∧ x.2.length = f.argSizes.getD x.1 0 ∧ x.2 ≠ []) ∧
  (∀ i < f.argSizes.length, latest r.writes i ≠ none) ∧
  (∀ j ∈ r.outs, j < ret.operands.length ∧ j < 256 ∧ (f.decl (ret.operands.getD j 0)).isConst = false)

/-- The inputs of a run: for each the data sent last. -/
def Run.inputs (f : Func) (r : Run) : List (List Byte) := (List.range f.argSizes.length).map fun i => (latest r.writes i).getD []

/-! ### Proofs -/

theorem transfer_short (d : List Nat) (h : d.length ≤ maxBlock) : transfer d = [d] := by
  rw [transfer, dif_pos h]

theorem frames_short (d : List Nat) (h : d.length < maxBlock) : Frames d (transfer d) := by
  rw [transfer_short d (by omega)]
  exact .last d h

/-- The command that a call becomes on the device. -/
def toCmd (junk : Nat → Byte) : Call → Cmd
  | .write i data => .recv i (padded junk data)
  | .start => .invoke
  | .read j => .send j
  | .reset => .reset
  | .close => .exit

theorem decode_calls (junk : Nat → Byte) (calls : List Call) (h : ∀ i d, Call.write i d ∈ calls → d ≠ []) : ∀ n, calls.length ≤ n →
    decode junk n (calls.flatMap sent) = calls.map (toCmd junk) := by
  induction calls with
  | nil =>
    intro n _
    cases n <;> rfl
  | cons c cs ih =>
    intro n hn
    obtain ⟨n, rfl⟩ : ∃ k, n = k + 1 := ⟨n - 1, by simp at hn; omega⟩
    have ih' := ih (fun i d hm => h i d (List.mem_cons_of_mem _ hm)) n (by simpa using hn)
    have f0 : Frames [] (transfer []) := frames_short [] (by decide)
    have fc : ∀ a b : Nat, Frames [a, 0, b] (transfer [a, 0, b]) := fun a b => frames_short _ (by simp [maxBlock])
    rw [List.flatMap_cons, List.map_cons, ← ih']
    obtain ⟨rest, hr⟩ : ∃ rest, rest = cs.flatMap sent := ⟨_, rfl⟩
    rw [← hr]
    cases c with
    | write i data =>
      have hd := Verif.Host.Usb.frames_transfer (data.map UInt8.toNat) (by simpa using h i data (by simp))
      rw [sent, download, List.append_assoc, List.append_assoc, decode, Verif.Host.Usb.C33_upload _ _ _ (fc 3 i)]
      dsimp only
      rw [if_neg (by simp), if_neg (by simp), ← List.append_assoc, Verif.Host.Usb.C33_upload _ _ _ hd]
      simp [toCmd, Function.comp_def]
    | start =>
      rw [sent, List.append_assoc, decode, Verif.Host.Usb.C33_upload _ _ _ (fc 1 0)]
      dsimp only
      rw [if_neg (by simp), if_neg (by simp), Verif.Host.Usb.C33_upload _ _ _ f0]
      simp [toCmd]
    | read j =>
      rw [sent, decode, Verif.Host.Usb.C33_upload _ _ _ (fc 2 j)]
      simp [toCmd]
    | reset =>
      rw [sent, List.append_assoc, decode, Verif.Host.Usb.C33_upload _ _ _ (fc 7 0)]
      dsimp only
      rw [if_neg (by simp), if_neg (by simp), Verif.Host.Usb.C33_upload _ _ _ f0]
      simp [toCmd]
    | close =>
      rw [sent, decode, Verif.Host.Usb.C33_upload _ _ _ (fc 8 0)]
      simp [toCmd]

theorem sent_pos (c : Call) : 0 < (sent c).length := by
  have h : ∀ d, 0 < (transfer d).length := by
    intro d
    rw [transfer]
    split <;> simp
  cases c <;> simp only [sent, download, List.length_append] <;> have := fun d => h d
  · have := h [3, 0, ‹Nat›]; omega
  · have := h [1, 0, 0]; omega
  · exact h _
  · have := h [7, 0, 0]; omega
  · exact h _

theorem sent_length (calls : List Call) : calls.length ≤ (calls.flatMap sent).length := by
  induction calls with
  | nil => simp
  | cons c cs ih =>
    have := sent_pos c
    simp only [List.flatMap_cons, List.length_append, List.length_cons]
    omega

theorem results_frames (ds : List Details) (frame : List Nat → List (List Nat)) (hf : ∀ d, Frames d (frame d)) :
    ∀ (js : List Nat) (bs : List (List Nat)), bs.length = js.length →
    results ds js (bs.flatMap frame) = (js.zip bs).map fun x => bytesToArr ds x.1 x.2 := by
  intro js
  induction js with
  | nil => intro bs _; rfl
  | cons j js ih =>
    intro bs h
    match bs, h with
    | b :: bs, h =>
      simp only [List.flatMap_cons, results, Verif.Host.Usb.C33_upload _ _ _ (hf b), List.zip_cons_cons, List.map_cons]
      rw [ih bs (by simpa using h)]

theorem serve_append (D : Dev) (A : List Cmd) (hA : Cmd.exit ∉ A) : ∀ (m : Mem) (c : Env), ∃ m' c', ∀ B, serve D (A ++ B) m c = serve D A m c ++ serve D B m' c' := by
  induction A with
  | nil => intro m c; exact ⟨m, c, fun B => rfl⟩
  | cons a A ih =>
    intro m c
    have ih := ih (fun h => hA (List.mem_cons_of_mem _ h))
    cases a with
    | recv i d => exact ih _ _
    | send j => obtain ⟨m', c', h⟩ := ih m c; exact ⟨m', c', fun B => by simp only [List.cons_append, serve]; rw [h]⟩
    | invoke =>
      obtain ⟨m', c', h⟩ := ih (arenaFinal D.f D.k D.offs D.f.ops 0 m c).1 (arenaFinal D.f D.k D.offs D.f.ops 0 m c).2
      exact ⟨m', c', fun B => by simp only [List.cons_append, serve]; rw [h]⟩
    | reset => obtain ⟨m', c', h⟩ := ih m c; exact ⟨m', c', fun B => by simp only [List.cons_append, serve]; rw [h]⟩
    | exit => exact absurd (List.mem_cons_self ..) hA
    | other => obtain ⟨m', c', h⟩ := ih m c; exact ⟨m', c', fun B => by simp only [List.cons_append, serve]; rw [h]⟩

theorem answers_append (a b : List Reply) : answers (a ++ b) = answers a ++ answers b := by
  induction a with
  | nil => rfl
  | cons x a ih => cases x <;> simp [answers, ih]

theorem answers_data (rs : List (List Byte)) : answers (rs.map .data) = rs := by
  induction rs with
  | nil => rfl
  | cons r rs ih => simp [answers, ih]

theorem reads_append (a b : List Call) : reads (a ++ b) = reads a ++ reads b := by
  induction a with
  | nil => rfl
  | cons x a ih => cases x <;> simp [reads, ih]

theorem reads_run (r : Run) : reads r.calls = r.outs := by
  have h1 : ∀ w : List (Nat × List Byte), reads (w.map fun x => .write x.1 x.2) = [] := by
    intro w; induction w with
    | nil => rfl
    | cons x w ih => simpa [reads] using ih
  have h2 : ∀ js : List Nat, reads (js.map .read) = js := by
    intro w; induction w with
    | nil => rfl
    | cons x w ih => simpa [reads] using ih
  rw [Run.calls, reads_append, h1, List.nil_append]
  exact h2 r.outs

theorem latest_padded (junk : Nat → Byte) (w : List (Nat × List Byte)) (i : Nat) :
    latest (w.map fun x => (x.1, padded junk x.2)) i = (latest w i).map (padded junk) := by
  induction w with
  | nil => rfl
  | cons x w ih =>
    simp only [List.map_cons, latest, ih]
    cases latest w i with
    | some d => rfl
    | none => dsimp only [Option.map]; split <;> rfl

theorem latest_mem {w : List (Nat × List Byte)} {i : Nat} {d : List Byte} (h : latest w i = some d) : (i, d) ∈ w := by
  induction w with
  | nil => cases h
  | cons x w ih =>
    simp only [latest] at h
    cases hl : latest w i with
    | some e => rw [hl] at h; cases h; exact List.mem_cons_of_mem _ (ih hl)
    | none =>
      rw [hl] at h
      dsimp only at h
      split at h
      · rename_i hx; cases h; subst hx; simp
      · cases h

theorem padded_length (junk : Nat → Byte) (d : List Byte) : (padded junk d).length = moved d.length := by
  have := (moved_le d.length).1
  simp [padded]; omega

/-- What one run is on the device. -/
theorem run_cmds (junk : Nat → Byte) (r : Run) :
    r.calls.map (toCmd junk) = ((r.writes.map fun x => (x.1, padded junk x.2)).map fun x => Cmd.recv x.1 x.2) ++ .invoke :: r.outs.map .send := by
  simp [Run.calls, Function.comp_def, toCmd]

theorem run_inputs {f : Func} {ret : Op} (junk : Nat → Byte) {r : Run} (ok : r.OK f ret) : inputsOf f (r.writes.map fun x => (x.1, padded junk x.2)) = r.inputs f := by
  unfold inputsOf Run.inputs
  refine List.map_congr_left fun i hi => ?_
  rw [latest_padded]
  cases hl : latest r.writes i with
  | none => simp
  | some d =>
    have := (ok.1 _ (latest_mem hl)).2.2.1
    simp only [Option.map_some, Option.getD_some]
    rw [← this, padded]
    simp

theorem elements_take (w : Nat) (data : List Nat) (n : Nat) (hw : 0 < w) (h : n * w ≤ data.length) : (elements w data).take n = elements w (data.take (n * w)) := by
  have hn : n ≤ data.length / w := (Nat.le_div_iff_mul_le hw).2 h
  have hl : (data.take (n * w)).length / w = n := by
    rw [List.length_take, Nat.min_eq_left h, Nat.mul_div_cancel _ hw]
  refine List.ext_getElem? fun k => ?_
  simp only [elements]
  rw [List.getElem?_take, hl]
  split
  · rename_i hk
    rw [List.getElem?_map, List.getElem?_map, List.getElem?_range (by omega), List.getElem?_range hk]
    have : (k + 1) * w ≤ n * w := Nat.mul_le_mul_right w hk
    rw [Nat.add_mul, Nat.one_mul] at this
    simp only [Option.map_some, Option.some.injEq, List.drop_take, List.take_take]
    rw [Nat.min_eq_left (by omega)]
  · rename_i hk
    rw [List.getElem?_eq_none (by simp; omega)]

/-- The reads of a program, with the run that each belongs to. -/
def tasks (runs : List Run) : List (Run × Nat) := runs.flatMap fun r => r.outs.map fun j => (r, j)

/-- `b` holds the output for a read: whole words that start with it. -/
def Holds (f : Func) (k : Kernels) (ret : Op) (x : Run × Nat) (b : List Byte) : Prop :=
  ∃ outs, (refTrace f k f.ops 0 (inputEnv (x.1.inputs f))).getLast? = some outs ∧ b.length = moved (f.raw (ret.operands.getD x.2 0)) ∧
    b.take (f.raw (ret.operands.getD x.2 0)) = outs.getD x.2 []

theorem exit_not_mem (junk : Nat → Byte) (r : Run) : Cmd.exit ∉ r.calls.map (toCmd junk) := by
  rw [run_cmds]
  simp

theorem served {f : Func} (wf : f.WF) (ip : f.InPlaceOK) {b : Bool} {p : Plan} (h : getAllocatedOffsets f b = some p) (k : Kernels) (hk : Kernels.Fit f k)
    (body : List Op) (ret : Op) (hops : f.ops = body ++ [ret]) (hret : ret.isTerm = true) (junk : Nat → Byte)
    (runs : List Run) (hr : ∀ r ∈ runs, r.OK f ret) : ∀ (m : Mem) (c : Env),
    List.Forall₂ (Holds f k ret) (tasks runs)
      (answers (serve ⟨f, p.offsets, k, ret.operands⟩ ((runs.flatMap Run.calls).map (toCmd junk) ++ [.exit]) m c)) := by
  induction runs with
  | nil => intro m c; exact .nil
  | cons r runs ih =>
    intro m c
    have ok := hr r (by simp)
    obtain ⟨m', c', ha⟩ := serve_append ⟨f, p.offsets, k, ret.operands⟩ (r.calls.map (toCmd junk)) (exit_not_mem junk r) m c
    rw [List.flatMap_cons, List.map_append, List.append_assoc, ha, answers_append]
    have ih' := ih (fun r' h' => hr r' (List.mem_cons_of_mem _ h')) m' c'
    rw [run_cmds]
    obtain ⟨outs, h1, rs, h2, h3, h4⟩ := C118_session wf ip h k hk body ret hops hret (r.writes.map fun x => (x.1, padded junk x.2))
      (by
        intro x hx
        obtain ⟨y, hy, rfl⟩ := List.mem_map.1 hx
        obtain ⟨o1, -, o2, -⟩ := ok.1 y hy
        exact ⟨o1, by rw [padded_length, o2, (raw_arg f o1).1]⟩)
      (by
        intro i hi
        rw [latest_padded]
        have := ok.2.1 i hi
        cases hl : latest r.writes i with
        | none => exact absurd hl this
        | some d => simp)
      r.outs (fun j hj => ⟨(ok.2.2 j hj).1, (ok.2.2 j hj).2.2⟩) m c
    rw [h2, show answers (Reply.ack :: rs.map .data) = rs from answers_data rs]
    rw [run_inputs junk ok] at h1
    refine List.rel_append ?_ ih'
    rw [List.forall₂_iff_get]
    refine ⟨by simp [h3], ?_⟩
    intro n hn1 hn2
    have hn1' : n < r.outs.length := by simpa using hn1
    obtain ⟨q1, q2⟩ := h4 n r.outs[n] rs[n] (List.getElem?_eq_getElem hn1') (List.getElem?_eq_getElem hn2)
    simpa [Holds] using ⟨outs, h1, q1, q2⟩

theorem fits_runs {f : Func} {ret : Op} (runs : List Run) (hr : ∀ r ∈ runs, r.OK f ret) : (runs.flatMap Run.calls ++ [Call.close]).all Call.fits = true := by
  rw [List.all_eq_true]
  intro x hx
  rcases List.mem_append.1 hx with hx | hx
  · obtain ⟨r, hr', hx⟩ := List.mem_flatMap.1 hx
    have ok := hr r hr'
    simp only [Run.calls, List.mem_append, List.mem_map, List.mem_cons] at hx
    rcases hx with ⟨y, hy, rfl⟩ | rfl | ⟨j, hj, rfl⟩
    · simpa [Call.fits] using (ok.1 y hy).2.1
    · rfl
    · simpa [Call.fits] using (ok.2.2 j hj).2.1
  · rw [List.mem_singleton.1 hx]; rfl

theorem writes_nonempty {f : Func} {ret : Op} (runs : List Run) (hr : ∀ r ∈ runs, r.OK f ret) (i : Nat) (d : List Byte)
    (hx : Call.write i d ∈ runs.flatMap Run.calls ++ [.close]) : d ≠ [] := by
  rcases List.mem_append.1 hx with hx | hx
  · obtain ⟨r, hr', hx⟩ := List.mem_flatMap.1 hx
    have ok := hr r hr'
    simp only [Run.calls, List.mem_append, List.mem_map, List.mem_cons, Call.write.injEq, reduceCtorEq, and_false, exists_false, or_false] at hx
    obtain ⟨y, hy, rfl, rfl⟩ := hx
    exact (ok.1 y hy).2.2.2
  · exact absurd (List.mem_singleton.1 hx) (by simp)

theorem reads_runs (runs : List Run) : reads (runs.flatMap Run.calls ++ [.close]) = (tasks runs).map Prod.snd := by
  rw [reads_append, show reads [Call.close] = [] from rfl, List.append_nil]
  induction runs with
  | nil => rfl
  | cons r runs ih =>
    rw [List.flatMap_cons, reads_append, ih, reads_run]
    simp [tasks, Function.comp_def]

theorem zip_snd {α : Type} (ts : List (Run × Nat)) (bs : List α) : (ts.map Prod.snd).zip bs = (ts.zip bs).map fun x => (x.1.2, x.2) := by
  rw [List.zip_map_left]; rfl

/-- A session is `bytes_to_arr` of answers that hold the outputs. -/
theorem session_holds {f : Func} (wf : f.WF) (ip : f.InPlaceOK) {b : Bool} {p : Plan} (h : getAllocatedOffsets f b = some p) (k : Kernels) (hk : Kernels.Fit f k)
    (body : List Op) (ret : Op) (hops : f.ops = body ++ [ret]) (hret : ret.isTerm = true) (junk : Nat → Byte) (frame : List Nat → List (List Nat))
    (hf : ∀ d, Frames d (frame d)) (ds : List Details) (runs : List Run) (hr : ∀ r ∈ runs, r.OK f ret) (m : Mem) (c : Env) :
    ∃ bs, List.Forall₂ (Holds f k ret) (tasks runs) bs ∧
      session ⟨f, p.offsets, k, ret.operands⟩ junk frame ds (runs.flatMap Run.calls ++ [.close]) m c =
        some (((tasks runs).zip bs).map fun x => bytesToArr ds x.1.2 (x.2.map UInt8.toNat)) := by
  have hs := served wf ip h k hk body ret hops hret junk runs hr m c
  refine ⟨_, hs, ?_⟩
  rw [session, if_pos (fits_runs runs hr), decode_calls junk _ (writes_nonempty runs hr) _ (sent_length _), List.map_append,
    show [Call.close].map (toCmd junk) = [.exit] from rfl]
  obtain ⟨bs, eb⟩ : ∃ bs, bs = answers (serve ⟨f, p.offsets, k, ret.operands⟩ ((runs.flatMap Run.calls).map (toCmd junk) ++ [.exit]) m c) := ⟨_, rfl⟩
  rw [← eb] at hs ⊢
  have hl := hs.length_eq
  rw [show (bs.flatMap fun b => frame (b.map UInt8.toNat)) = (bs.map (List.map UInt8.toNat)).flatMap frame by rw [List.flatMap_map],
    results_frames ds frame hf _ _ (by rw [reads_runs]; simp [hl]), reads_runs, zip_snd, List.zip_map_right]
  simp [Function.comp_def]

/-- **C123.** With details that fit the outputs: over any number of runs, each of which sends every input (of at most 256, none of them empty), every read returns
exactly the elements of the output that the model computes on the inputs sent last in its run. -/
theorem C123_session {f : Func} (wf : f.WF) (ip : f.InPlaceOK) {b : Bool} {p : Plan} (h : getAllocatedOffsets f b = some p) (k : Kernels) (hk : Kernels.Fit f k)
    (body : List Op) (ret : Op) (hops : f.ops = body ++ [ret]) (hret : ret.isTerm = true) (junk : Nat → Byte) (frame : List Nat → List (List Nat))
    (hf : ∀ d, Frames d (frame d)) (ds : List Details)
    (hds : ∀ j < ret.operands.length, ∃ d, ds[j]? = some d ∧ (d.width = 1 ∨ d.width = 2 ∨ d.width = 4 ∨ d.width = 8) ∧ d.shape.prod * d.width = f.raw (ret.operands.getD j 0))
    (runs : List Run) (hr : ∀ r ∈ runs, r.OK f ret) (m : Mem) (c : Env) :
    session ⟨f, p.offsets, k, ret.operands⟩ junk frame ds (runs.flatMap Run.calls ++ [.close]) m c =
      some (runs.flatMap fun r => r.outs.map fun j =>
        (refTrace f k f.ops 0 (inputEnv (r.inputs f))).getLast?.bind fun outs =>
          ds[j]?.map fun d => elements d.width ((outs.getD j []).map UInt8.toNat)) := by
  obtain ⟨bs, hb, hs⟩ := session_holds wf ip h k hk body ret hops hret junk frame hf ds runs hr m c
  rw [hs]
  have e : (runs.flatMap fun r => r.outs.map fun j => (refTrace f k f.ops 0 (inputEnv (r.inputs f))).getLast?.bind fun outs =>
      ds[j]?.map fun d => elements d.width ((outs.getD j []).map UInt8.toNat)) = (tasks runs).map fun x =>
      (refTrace f k f.ops 0 (inputEnv (x.1.inputs f))).getLast?.bind fun outs => ds[x.2]?.map fun d => elements d.width ((outs.getD x.2 []).map UInt8.toNat) := by
    simp [tasks, List.map_flatMap, Function.comp_def]
  rw [e]
  have hj : ∀ x ∈ tasks runs, x.2 < ret.operands.length := by
    intro x hx
    simp only [tasks, List.mem_flatMap, List.mem_map] at hx
    obtain ⟨r, h1, j, h2, rfl⟩ := hx
    exact ((hr r h1).2.2 j h2).1
  clear e hs
  congr 1
  generalize tasks runs = ts at hb hj ⊢
  induction hb with
  | nil => rfl
  | @cons x b ts bs hx hxs ih =>
    simp only [List.zip_cons_cons, List.map_cons]
    rw [ih (fun y hy => hj y (List.mem_cons_of_mem _ hy))]
    congr 1
    obtain ⟨outs, t1, t2, t3⟩ := hx
    obtain ⟨d, d1, d2, d3⟩ := hds x.2 (hj x (by simp))
    have hle := (moved_le (f.raw (ret.operands.getD x.2 0))).1
    have hw : 0 < d.width := by omega
    have hmod : (b.map UInt8.toNat).length % d.width = 0 := by
      rw [List.length_map, t2, ← d3]
      unfold moved
      rcases d2 with d2 | d2 | d2 | d2 <;> rw [d2] <;> omega
    have hn : d.shape.prod * d.width ≤ (b.map UInt8.toNat).length := by
      rw [List.length_map, t2, d3]; exact hle
    have hne : ds ≠ [] := by rintro rfl; cases d1
    rw [t1, bytesToArr, if_neg hne, d1]
    simp only [Option.bind_some, Option.map_some]
    rw [if_pos hmod, elements_take _ _ _ hw hn, if_pos (by
      simp only [elements, List.length_map, List.length_range, List.length_take]
      rw [Nat.min_eq_left (by simpa using hn), Nat.mul_div_cancel _ hw]), ← t3, d3, List.map_take]

/-- **C123.** Without details every read returns bytes: those of the output, and at most 3 more. -/
theorem C123_no_details {f : Func} (wf : f.WF) (ip : f.InPlaceOK) {b : Bool} {p : Plan} (h : getAllocatedOffsets f b = some p) (k : Kernels) (hk : Kernels.Fit f k)
    (body : List Op) (ret : Op) (hops : f.ops = body ++ [ret]) (hret : ret.isTerm = true) (junk : Nat → Byte) (frame : List Nat → List (List Nat))
    (hf : ∀ d, Frames d (frame d)) (runs : List Run) (hr : ∀ r ∈ runs, r.OK f ret) (m : Mem) (c : Env) :
    ∃ rs, session ⟨f, p.offsets, k, ret.operands⟩ junk frame [] (runs.flatMap Run.calls ++ [.close]) m c = some rs ∧
      List.Forall₂ (fun (x : Run × Nat) r => ∃ outs extra, (refTrace f k f.ops 0 (inputEnv (x.1.inputs f))).getLast? = some outs ∧ extra.length ≤ 3 ∧
        r = some (((outs.getD x.2 [] ++ extra : List Byte)).map fun y => [y.toNat])) (tasks runs) rs := by
  obtain ⟨bs, hb, hs⟩ := session_holds wf ip h k hk body ret hops hret junk frame hf [] runs hr m c
  refine ⟨_, hs, ?_⟩
  clear hs
  generalize tasks runs = ts at hb ⊢
  induction hb with
  | nil => exact .nil
  | @cons x b ts bs hx hxs ih =>
    simp only [List.zip_cons_cons, List.map_cons]
    refine .cons ?_ ih
    obtain ⟨outs, t1, t2, t3⟩ := hx
    refine ⟨outs, b.drop (f.raw (ret.operands.getD x.2 0)), t1, ?_, ?_⟩
    · have := (moved_le (f.raw (ret.operands.getD x.2 0))).2.1
      rw [List.length_drop, t2]; omega
    · rw [← t3, List.take_append_drop, bytesToArr, if_pos rfl]
      congr 1
      refine List.ext_getElem? fun n => ?_
      simp only [elements, Nat.mul_one, Nat.div_one, List.getElem?_map]
      by_cases hn : n < b.length
      · rw [List.getElem?_range (by simpa using hn), List.getElem?_eq_getElem hn]
        simp only [Option.map_some, Option.some.injEq]
        rw [List.drop_eq_getElem_cons (by simpa using hn)]
        simp
      · rw [List.getElem?_eq_none (by simpa using hn), List.getElem?_eq_none (by simpa using hn)]
        rfl

/-! ### A model with six bytes of input and output -/

/-- Adds 1 to each of six bytes, in place. -/
def exF : Func := { argSizes := [6], ops := [⟨false, false, true, [0], [6]⟩, ⟨false, true, false, [1], []⟩] }

def exK : Kernels := fun j ins => if j = 0 then [(List.range 6).map fun i => (ins.headD []).getD i 0 + 1] else []

theorem exF_wf : exF.WF := Func.wf_of_check (by decide)
theorem exF_inPlace : exF.InPlaceOK := Func.inPlaceOK_of_check (by decide)

theorem exK_fit : Kernels.Fit exF exK := by
  intro j ins hj
  have : j = 0 ∨ j = 1 := by have : j < 2 := hj; omega
  rcases this with rfl | rfl <;> rfl

/-- A driver as the contract wants it. -/
def exFrame (d : List Nat) : List (List Nat) := if d = [] then [[]] else transfer d ++ (if d.length % maxBlock = 0 then transfer [] else [])

theorem exFrame_ok (d : List Nat) : Frames d (exFrame d) := by
  unfold exFrame
  split
  · rename_i h; subst h; exact .last [] (by decide)
  · rename_i h; exact Verif.Host.Usb.frames_transfer d h

/-- **C123, example.** Two runs on one device; the second sends its input twice and reads the output twice. -/
theorem C123_example (junk : Nat → Byte) (m : Mem) (c : Env) :
    session ⟨exF, [0, 0], exK, [1]⟩ junk exFrame [⟨[1, 3], 2⟩]
      [.write 0 [1, 2, 3, 4, 5, 6], .start, .read 0, .write 0 [9, 9, 9, 9, 9, 9], .write 0 [7, 0, 7, 0, 7, 255], .start, .read 0, .read 0, .close] m c =
      some [some [[2, 3], [4, 5], [6, 7]], some [[8, 1], [8, 1], [8, 0]], some [[8, 1], [8, 1], [8, 0]]] := by
  have hp : getAllocatedOffsets exF true = some ⟨[0, 0], 8, 2⟩ := by decide +kernel
  have := C123_session exF_wf exF_inPlace hp exK exK_fit [⟨false, false, true, [0], [6]⟩] ⟨false, true, false, [1], []⟩ rfl rfl junk exFrame exFrame_ok [⟨[1, 3], 2⟩]
    (by intro j hj; have : j = 0 := by simpa using hj
        subst this; exact ⟨_, rfl, .inr (.inl rfl), by decide⟩)
    [⟨[(0, [1, 2, 3, 4, 5, 6])], [0]⟩, ⟨[(0, [9, 9, 9, 9, 9, 9]), (0, [7, 0, 7, 0, 7, 255])], [0, 0]⟩]
    (by
      intro r hr
      simp only [List.mem_cons, List.not_mem_nil, or_false] at hr
      rcases hr with rfl | rfl
      · refine ⟨by decide, ?_, by decide⟩
        intro i hi
        have : i = 0 := by have : i < 1 := hi; omega
        subst this; decide
      · refine ⟨by decide, ?_, by decide⟩
        intro i hi
        have : i = 0 := by have : i < 1 := hi; omega
        subst this; decide) m c
  refine this.trans ?_
  decide +kernel

/-- **C123** (refuted for inputs that are not sent again): the second run works on what the first one left in the arena, here its output. A program that sets an input once
and runs twice reads 3, 4, ... where the model gives 2, 3, .... -/
theorem C123_stale_refuted (frame : List Nat → List (List Nat)) (hf : ∀ d, Frames d (frame d)) :
    session ⟨exF, [0, 0], exK, [1]⟩ (fun _ => 0) frame [⟨[6], 1⟩] [.write 0 [1, 2, 3, 4, 5, 6], .start, .start, .read 0, .close] (fun _ => 0) (fun _ => []) =
      some [some [[3], [4], [5], [6], [7], [8]]] ∧
    (refTrace exF exK exF.ops 0 (inputEnv [[1, 2, 3, 4, 5, 6]])).getLast? = some [[2, 3, 4, 5, 6, 7]] := by
  refine ⟨?_, by decide +kernel⟩
  rw [session, if_pos (by decide), decode_calls _ _ (by
    intro i d hd
    simp only [List.mem_cons, Call.write.injEq, reduceCtorEq, List.not_mem_nil, or_false] at hd
    rw [hd.2]; simp) _ (sent_length _)]
  have e : answers (serve ⟨exF, [0, 0], exK, [1]⟩ ([Call.write 0 [1, 2, 3, 4, 5, 6], .start, .start, .read 0, .close].map (toCmd fun _ => 0)) (fun _ => 0) (fun _ => [])) =
      [[3, 4, 5, 6, 7, 8, 0, 0]] := by decide +kernel
  rw [e, show ([[3, 4, 5, 6, 7, 8, 0, 0]] : List (List Byte)).flatMap (fun b => frame (b.map UInt8.toNat)) = [[3, 4, 5, 6, 7, 8, 0, 0]].flatMap frame from rfl,
    results_frames _ frame hf _ _ rfl]
  decide +kernel

end Verif.Host.UsbSession
