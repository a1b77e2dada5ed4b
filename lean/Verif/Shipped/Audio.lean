import Verif.MemPlan.Props
import Verif.Shipped.AudioData
import Verif.Shipped.Runtime
import Verif.Audio.Predict
/-!
C98: the compiled audio network that the repository ships, in the arena and through the calls of
examples/audio_network/src/support.cpp.
-/
namespace Verif.Shipped
open Verif.MemPlan

/-! ### The tables, and the function they are the compilation of -/

/-- The tables of examples/audio_network/src/model_audioi16.tflite.cpp. -/
def audio : Tables :=
  { offset := tensorOffsets, bytes := tensorBytes, nodes := nodeInputs.zip nodeOutputs,
    inputs := inTensorIndices, outputs := outTensorIndices }

/-- xformer/IR/XCoreOps.td 126, 245, 454: which of the operators have the `MemoryOverlappable` trait. -/
def OpKind.overlappable : OpKind → Bool
  | .pad | .binaryI16 | .lookup => true
  | _ => false

/-- A constant (an `arith.constant`, `tfl.pseudo_const` or `tfl.pseudo_qconst` of the MLIR function). -/
def constOp (i : Nat) : Op := ⟨true, false, false, [], [tensorBytes.getD i 0]⟩

/-- The body of the MLIR function with the nodes in order, every constant just before the node whose outputs follow it in the tensor
table, and the return: value `v` of the function is tensor `v` of the table. -/
def buildOps : Nat → List (List Int × List Nat × OpKind) → List Op
  | _, [] => [⟨false, true, false, outTensorIndices, []⟩]
  | next, (i, o, k) :: rest =>
      (List.range' next (o.headD next - next)).map constOp ++
        ⟨false, false, k.overlappable, (i.filter (0 ≤ ·)).map Int.toNat, o.map fun t => tensorBytes.getD t 0⟩ ::
          buildOps (o.headD next + o.length) rest

/-- The function whose compilation the tables are. -/
def audioFunc : Func :=
  { argSizes := inTensorIndices.map fun t => tensorBytes.getD t 0
    ops := buildOps inTensorIndices.length (nodeInputs.zip (nodeOutputs.zip usedOps)) }

/-- The offsets as the planner writes them: -1 for a constant. -/
def audioOffsets : List Int := tensorOffsets.map fun
  | some o => (o : Int)
  | none => -1

/-- Value `v` of the function is tensor `v` of the tables: sizes and constants agree. -/
theorem audio_values : audioFunc.decls.map Decl.raw = tensorBytes ∧
    audioFunc.decls.map Decl.isConst = tensorOffsets.map Option.isNone := by decide +kernel

theorem audio_wf : audioFunc.WF := Func.wf_of_check (by decide +kernel)

/-- **C98, the planner's offsets.** The 181 offsets in the shipped file are those that the model of the planner (without overlapping)
computes for the shipped graph, and its peak is 10880 bytes. -/
theorem C98_shipped_plan : getAllocatedOffsets audioFunc false = some ⟨audioOffsets, 10880, 40⟩ := by decide +kernel

/-- So the general theorem about the planner (C02) speaks about the shipped offsets. -/
theorem C98_shipped_arena : ArenaRunsCorrectly audioFunc audioOffsets := by
  have h : ∀ p, getAllocatedOffsets audioFunc false = some p → ArenaRunsCorrectly audioFunc p.offsets :=
    fun p hp => C02_arena_execution_correct audio_wf hp
  exact h ⟨audioOffsets, 10880, 40⟩ C98_shipped_plan

/-- With overlap, which the pinned planner prefers, the same function needs 1856 bytes less than the shipped file asks for. -/
theorem C98_overlap_plan : (getAllocatedOffsets audioFunc true).map (·.peakMemoryUsed) = some 9024 := by decide +kernel

/-! ### The runtime -/

theorem audio_check : audio.check 10880 = true := by decide +kernel

/-- **C98, one inference.** For all constants, operators, inputs and previous contents of the arena, with anything at all going on in the
arena at and above byte 10880: after `model_invoke` both outputs hold what the network computes when every tensor has storage of its own. -/
theorem C98_invoke (c : Nat → List Byte) (k : Kern) (hk : audio.Fit k) (noise : Nat → Mem → Mem) (hn : ∀ i, Quiet 10880 (noise i))
    (mels state : List Byte) (hm : mels.length = 256) (hs : state.length = 256) (m : Mem) :
    audio.get c (audio.invoke c k noise (audio.putAll [0, 1] [mels, state] m)) 179 = audio.eval k c [mels, state] 179 ∧
    audio.get c (audio.invoke c k noise (audio.putAll [0, 1] [mels, state] m)) 180 = audio.eval k c [mels, state] 180 := by
  have h := check_sound audio_check c k hk noise hn [mels, state] (by simp [hm, hs]; decide) m
  exact ⟨h 179 (by decide), h 180 (by decide)⟩

end Verif.Shipped
