import Mathlib.Tactic.Ring
/-!
C33: framing of messages between host and device (python/xmos_ai_tools/io_server/__init__.py).
A packet is a list of bytes; a pipe is the list of packets that are sent, in order.
-/
namespace Verif.Host.Usb

/-- `self._max_block_size` (io_server/__init__.py 47). -/
def maxBlock : Nat := 512

/-! ### Model -/

/-- A bulk transfer of the USB library: packets of the maximal size, the last one with what is left; an empty transfer is
one empty packet (`usb.core` endpoint `write`, a library of /repo). -/
def transfer (data : List Nat) : List (List Nat) :=
  if h : data.length ≤ maxBlock then [data]
  else data.take maxBlock :: transfer (data.drop maxBlock)
termination_by data.length
decreasing_by simp [maxBlock] at *; omega

/-- `_download_data` (io_server/__init__.py 82-87): command packet, data, and an empty packet if the length is a multiple
of the block size. -/
def download (cmd model tensor : Nat) (data : List Nat) : List (List Nat) :=
  transfer [cmd, model, tensor] ++ transfer data ++ (if data.length % maxBlock = 0 then transfer [] else [])

/-- The `while` loop of `_upload_data` (io_server/__init__.py 96-98): `readLen` is the length of the packet read last. -/
def uploadLoop (acc : List Nat) (readLen : Nat) : List (List Nat) → Option (List Nat × List (List Nat))
  | [] => if readLen = maxBlock then none else some (acc, [])
  | p :: ps => if readLen = maxBlock then uploadLoop (acc ++ p) p.length ps else some (acc, p :: ps)

/-- `_upload_data` (io_server/__init__.py 90-100) on the packets that the device sends: the data returned and the packets
left in the pipe; `none` is a time-out. -/
def upload : List (List Nat) → Option (List Nat × List (List Nat))
  | [] => none
  | p :: ps => uploadLoop p p.length ps

/-! ### Specification -/

/-- A message in the pipe: full packets, then one packet that is shorter (possibly empty). -/
inductive Frames : List Nat → List (List Nat) → Prop
  | last (p : List Nat) (h : p.length < maxBlock) : Frames p [p]
  | more (p d : List Nat) (ps : List (List Nat)) (h : p.length = maxBlock) (r : Frames d ps) : Frames (p ++ d) (p :: ps)

/-! ### Proofs -/

/-- **C33, reading.** Whatever message the device sends, the host returns exactly its bytes and leaves exactly the packets
behind it. -/
theorem C33_upload (data : List Nat) (ps rest : List (List Nat)) (h : Frames data ps) :
    upload (ps ++ rest) = some (data, rest) := by
  have loop : ∀ (data : List Nat) (ps : List (List Nat)), Frames data ps → ∀ (acc : List Nat),
      uploadLoop acc maxBlock (ps ++ rest) = some (acc ++ data, rest) := by
    intro data ps h
    induction h with
    | last p hp =>
      intro acc
      simp only [List.singleton_append, uploadLoop, if_true]
      cases rest with
      | nil => rw [uploadLoop, if_neg (by omega)]
      | cons q qs => rw [uploadLoop, if_neg (by omega)]
    | more p d ps hp _ ih =>
      intro acc
      simp only [List.cons_append, uploadLoop, if_true]
      rw [hp, ih, List.append_assoc]
  cases h with
  | last p hp =>
    simp only [List.singleton_append, upload]
    cases rest with
    | nil => rw [uploadLoop, if_neg (by omega)]
    | cons q qs => rw [uploadLoop, if_neg (by omega)]
  | more p d ps hp r =>
    simp only [List.cons_append, upload]
    rw [hp, loop d ps r]

theorem frames_transfer (data : List Nat) (hne : data ≠ []) :
    Frames data (transfer data ++ (if data.length % maxBlock = 0 then transfer [] else [])) := by
  have ht : transfer [] = [[]] := by rw [transfer]; simp [maxBlock]
  have hlen : 0 < data.length := List.length_pos_iff.2 hne
  rw [transfer]
  split
  · next h =>
    by_cases h2 : data.length = maxBlock
    · rw [if_pos (by rw [h2]; rfl), ht]
      have := Frames.more data [] [[]] h2 (Frames.last [] (by simp [maxBlock]))
      simpa using this
    · have hm : data.length % maxBlock = data.length := Nat.mod_eq_of_lt (by omega)
      rw [if_neg (by omega), List.append_nil]
      exact Frames.last data (by omega)
  · next h =>
    have hd : (data.drop maxBlock).length < data.length := by simp [maxBlock] at *; omega
    have ih := frames_transfer (data.drop maxBlock) (by
      apply List.ne_nil_of_length_pos
      rw [List.length_drop]; omega)
    have hmod : (data.drop maxBlock).length % maxBlock = data.length % maxBlock := by
      rw [List.length_drop]
      conv_rhs => rw [show data.length = (data.length - maxBlock) + maxBlock by omega]
      rw [Nat.add_mod_right]
    rw [hmod] at ih
    have := Frames.more (data.take maxBlock) _ _ (by rw [List.length_take]; omega) ih
    rwa [List.take_append_drop] at this
termination_by data.length
decreasing_by exact hd

/-- A message to the device. -/
structure Msg where
  cmd : Nat
  model : Nat
  tensor : Nat
  data : List Nat

/-- Read `n` messages, each a command and its data, with a reader that ends a message at the first short packet. -/
def readMsgs : Nat → List (List Nat) → Option (List (List Nat × List Nat) × List (List Nat))
  | 0, ps => some ([], ps)
  | n + 1, ps => do
    let (c, ps) ← upload ps
    let (d, ps) ← upload ps
    let (r, ps) ← readMsgs n ps
    return ((c, d) :: r, ps)

/-- **C33, writing.** For every sequence of messages with data, a reader that ends a message at the first short packet
recovers every command and exactly its data, and nothing is left in the pipe. -/
theorem C33_download_partial (msgs : List Msg) (h : ∀ m ∈ msgs, m.data ≠ []) :
    readMsgs msgs.length (msgs.flatMap fun m => download m.cmd m.model m.tensor m.data) =
      some (msgs.map fun m => ([m.cmd, m.model, m.tensor], m.data), []) := by
  induction msgs with
  | nil => rfl
  | cons m msgs ih =>
    simp only [List.length_cons, List.flatMap_cons, readMsgs, List.map_cons]
    have h1 : Frames [m.cmd, m.model, m.tensor] (transfer [m.cmd, m.model, m.tensor]) := by
      have := frames_transfer [m.cmd, m.model, m.tensor] (by simp)
      simpa [maxBlock] using this
    have h2 := frames_transfer m.data (h m (by simp))
    have e : download m.cmd m.model m.tensor m.data ++ msgs.flatMap (fun m => download m.cmd m.model m.tensor m.data) =
        transfer [m.cmd, m.model, m.tensor] ++ ((transfer m.data ++ (if m.data.length % maxBlock = 0 then transfer [] else [])) ++
          msgs.flatMap (fun m => download m.cmd m.model m.tensor m.data)) := by
      simp [download]
    rw [e, C33_upload _ _ _ h1]
    simp only [Option.bind_eq_bind, Option.bind_some]
    rw [C33_upload _ _ _ h2]
    simp only [Option.bind_some]
    rw [ih (fun m hm => h m (List.mem_cons_of_mem _ hm))]
    rfl

/-- **C33, refuted part.** Data of length zero is sent as two empty packets: the reader finds its message in the first one
and the second stays in the pipe, where the next command is expected. -/
theorem C33_empty_refuted (cmd model tensor : Nat) :
    readMsgs 1 (download cmd model tensor []) = some ([([cmd, model, tensor], [])], [[]]) := by
  have ht : transfer [] = [[]] := by rw [transfer]; simp [maxBlock]
  have hc : transfer [cmd, model, tensor] = [[cmd, model, tensor]] := by rw [transfer]; simp [maxBlock]
  simp [download, ht, hc, readMsgs, upload, uploadLoop, maxBlock]

/-- A message of exactly one block is followed by an empty packet. -/
example : ∃ data, data.length = 512 ∧ Frames data [data, []] := by
  refine ⟨List.replicate 512 7, List.length_replicate, ?_⟩
  have := Frames.more (List.replicate 512 7) [] [[]] List.length_replicate (Frames.last [] (by decide))
  rwa [List.append_nil] at this

end Verif.Host.Usb
