# DESIGN

Formal model of xmos/ai_tools (xformer compiler passes, flash image builder, I/O framing) in Lean 4.

## Plan per property (written before the proofs)

- **C01 Live tensors never share arena bytes** - Model `Op`/`Func` (list of operators with operand/result value ids), `build` (ids, sizes, liveness), `getOffset`, allocation loop. Invariant over the allocation loop: the allocated list is sorted by offset and pairwise safe.
- **C02 Running in the planned arena computes what the graph says** - Arena machine vs private-memory machine; simulation by induction over the operator list, for any plan satisfying a validity predicate; then C01/C05 give validity.
- **C03 Shape of the plan: one aligned offset per tensor, -1 exactly for constants** - Invariants of the allocation loop plus list lemmas about the final ordering by id.
- **C04 Reported peak is the exact high-water mark of the plan** - Fold-max lemma over the final list.
- **C05 In-place plan only shares memory along in-place chains** - Model the chain-building loop; invariant: inOutMap maps chain inputs to roots, each chain's live ranges are within the root's widened range.
- **C06 The plan written to the model never needs more than the advertised peak** - Case split on the selection in PlanMemory.
- **C07 Thread regions partition the output image** - Model of getImageRegionThreadSplits over Int with UB outcome; induction over the split list.
- **C08 Strided thread regions visit exactly the pixels of their phase** - Same model, strided case; exact iff-characterisation or witnesses.
- **C09 Splitting an operator by height is a partition** - Model the height loop of OpSplitPattern; induction on the number of splits; concat of slices = identity on functions of rows.
- **C10 Moving a slice above a VALID convolution keeps its value** - 1-D (rows) convolution as a finite sum over taps with arbitrary contents per row (a row is an arbitrary value, the tap a function); prove pointwise equality.
- **C11 Moving a slice above a SAME convolution keeps its value** - As C10 with zero rows; border cases split exactly as in the code; witnesses for the dilation and thin-slice defects.
- **C12 Nested and element-wise slices commute** - Slices as index shifts on functions with bounds.
- **C13 Channel-wise convolution splitting is exact** - Model the split-size computation; induction; convolution is pointwise in the output channel.
- **C14 Channel padding of convolutions is invisible** - Model createPaddedFilterOp on flat arrays, prove the dot product unchanged.
- **C15 Hoisting the NHWC transpose over a pad keeps the value** - Tensors as functions of 4 indices.
- **C16 Only mutually inverse transposes are cancelled** - Permutations as lists; prove the check implies composite identity.
- **C17 Wide concatenations are decomposed faithfully** - Model the rewrite as a function on input trees with a fuel-free well-founded recursion.
- **C18 Lowered concatenation copies produce the concatenated tensor** - Flat row-major arrays; outer/inner decomposition.
- **C19 Merging axes does not change the flat data movement** - Model mergeAxes on lists; prove the induced flat index maps equal.
- **C20 Lowered slice copies exactly the sliced tensor** - Model parameter computation; runtime copy loop as specification of the external kernel.
- **C21 Lowered pad produces exactly the padded tensor** - Same for pad.
- **C22 Lowered broadcast produces exactly the broadcast tensor** - Same for broadcast.
- **C23 Strided slice normalisation denotes the requested range** - Model the mask/negative handling.
- **C24 Every weight tensor is found at its recorded address** - Model the pass as a fold carrying tensorsVec; prefix-sum lemma.
- **C25 Weight regions are disjoint and aligned in external memory** - Invariant of the same fold.
- **C26 Generated weight array has the header, the data and the declared size** - Model writeWeightsToFile token stream.
- **C27 External-load size budget** - Fold invariant.
- **C28 Offline-plan metadata round-trips** - Model encoder; write an independent decoder; prove round trip.
- **C29 Version compatibility check is the documented relation** - Model isCompatibleVersion.
- **C30 Operator-split search** - Model the search loop as a transition system; termination measure or counterexample.
- **C31 Flash image headers locate their engines' data** - Model FlashBuilder with little-endian encoding; decode theorem.
- **C32 Nibble swapping is an involution on images** - Byte-level lemma lifted to lists.
- **C33 Device I/O framing round-trips** - Model packetisation and reader; stream induction.
- **C34 SAME padding made explicit** - Size formula and pointwise equality.
- **C35 8-bit lookup tables agree with the activation** - Table indexed by two's complement byte.
- **C36 Mean and sum lowering reduces exactly the requested axes** - Row-major three-part index decomposition.
- **C37 Average pooling as depthwise convolution** - Pointwise sums over rationals.
- **C38 Fully connected as 1x1 convolution** - Pointwise.
- **C39 Fixed-point add/sub multipliers fit their range** - Real/rational inequality about powers of two.
- **C40 Transposed convolution decomposes into stride-phase convolutions** - Residue decomposition of the transposed convolution sum.
- **C41 In-place kernels never read overwritten bytes** - Stream kernels (every step reads some input bytes and appends output bytes) over the arena of C02; the start distance between input and output of an in-place operator is the plan's (`C41_in_place_gap`); induction over the steps. Refuted for operators in the middle of a chain (alignment of the chain's root loses up to 7 bytes).
- **C42 Reserved tensor size is what the runtime stores** - `getShapedTypeSize` on shape and bit width against bytes stored per element. Refuted for `i1`.
- **C43 Pads are reordered** - TFLPatterns.td pattern as a function on two paddings; pads as index functions.
- **C44 Fusing a re-quantisation** - rational quantisation, any nearest rounding; inequalities. Refuted under saturation.
- **C45 Activations in and out of operators** - same quantisation theory; clamping commutes with monotone functions.
- **C46 Quantise above concatenation** - index functions, induction over the operands.
- **C47 Explicit broadcasts** - index functions; NumPy rule as specification.
- **C48 Removed minimum** - clamp algebra.
- **C49 SAME transposed convolution as VALID + slice** - sums over taps; index arithmetic. Refuted for small kernels and short outputs.
- **C50 Softmax table and pad value** - real exponential; bit vectors.
- **C51 Lowered convolutions within one step** - `lower` transcribed from ConvPatternsTFL.cpp; kernels and output transforms as the contract `Lib.Faithful`; exact rational arithmetic; the reference is a separate definition of TensorFlow Lite's convolution. Refuted for fused activations that the code drops.
- **C52 Multiplier clamping** - list minima.
- **C53 Kernel can run** - reads of all windows of the chosen kernel inside the tensor. Refuted for 16-bit kernels.
- **C54 Binarised convolutions** - bits as +-1; popcount identity by induction.
- **C55 Maximum pooling** - addresses read by the kernel; maximum of a set. Refuted for SAME, batch > 1, fused activation.
- **C56 Three to four channel pads** - flat arrays. Refuted for padding before the channels.
- **C57 16-bit element-wise operators** - kernel error as parameter; refuted for zero points and 16 -> 8 bit.
- **C58 16-bit lookup tables** - table generator as contract (`max_error`); ELU producer. Refuted for function arguments.
- **C59 Softmax kernels match their input** - case analysis over types.
- **C60 Dynamic batch sizes** - function types and value types as lists; structural induction. Refuted for other dynamic dimensions.
- **C61 Operators that are not replaced are restored** - refuted for transposed convolutions.
- **C62 Advertised arena size tight** - allocation loop invariants: no gratuitous gap, peak between live set and sum.

- **C63 Threaded kernels, every interleaving** - Machine with one scratch section per thread; a schedule is any interleaving of the threads' atomic steps; simulation of each thread by its solo run (disjoint sections, disjoint elements by C07).
- **C64 Threaded transposed convolutions** - Same machine, phase by phase, joined with C40. Refuted for even output sizes that are no multiple of the stride.
- **C65 Splitting in any order** - Graphs are expressions; every rewrite is a step with its side condition, applied anywhere; a well-formedness invariant and equality of values are preserved by one step, hence by any sequence. Second theorem: chains of VALID convolutions reach the fully split form.
- **C66 Splitting a mean** - Quantised mean as rounding of a rational; mean of means of equal blocks is exact over the rationals, rounding twice costs at most 3/2, hence one step. Refuted under saturation, for early firing, for other sizes.
- **C67 Placeholders disappear** - Chain of producers above the placeholder; exact condition for removal. Refuted for uneven splits, arguments, other producers.
- **C68 Host inference** - The Python/C host interpreter as a state machine over API calls; invariant over histories; the engine is a contract.
- **C69 Setting a model** - Same machine; invariant on the table of models: first given model per index wins. Refuted for replacement, several indices, load failures.
- **C70 Host buffers** - Same machine with an `undefined` outcome for out-of-bounds accesses; proved for fitting calls, refuted for others.
- **C71 Aligned kernel parameters** - Position of each string in the flexbuffer as a function of the lengths; invariant modulo four over the threads' strings.
- **C72 Options lose nothing** - Options as maps; injectivity of name and map on operators, case by case.
- **C73 convert() command line** - Python's argument list fed to a contract parser of llvm::cl; induction over the parameters. Refuted for empty values and dashes.
- **C74 convert() arena size** - The two regular expressions as functions on character lists; correct for every text before and every harmless text after.
- **C75 Failed runs** - `main` as a list of stages (checks, file writes) over a file system; every option check precedes every write. Refuted: a failure after the weights were written leaves new weights.
- **C76 Successful runs** - Same stages; on exit code 0 every named file holds exactly its content, if the names differ. Refuted for clashing names.
- **C77 Interrupted runs** - Every prefix of the event list is a crash point; each file is old, new or a prefix of new, in the order of the stages. Refuted: an old model with new weights.
- **C78 Weights of several functions** - The per-function pass folded over any schedule; last function finds its weights. Refuted for two functions.
- **C79 Plan of the main function** - Same for the memory plan attribute. Refuted for a model with a loop.
- **C80 Convolution end to end** - All patterns that touch a convolution as rewrite rules on a small graph language; an invariant relates every reachable graph to the original operator (C13, C14, C15, C34, C46, C50, C51 composed); the order within a pass is open. Termination by the measure of output channels.
- **C81 Average pool end to end** - C37 composed with C80.
- **C82 Fully connected layer end to end** - C38 composed with C80.
- **C83 Network end to end** - typed graphs of data-movement operators and opaque operators; compilation as one function following the passes;
  the result as the planner's function (C01-C06) with kernels; invariant: every value of the source network is held by a value of the compiled
  one (induction over the operators, C17-C23 for each); then `C06_chosen_plan` on the emitted function.
- **C84 Network with quantised arithmetic end to end** - a second source language on top of C83's; `expand` makes of each operator what the passes
  make of it (as a network of C83), the kernels get the parameters that the compiler computes. Invariant over the emitted network: every value of
  the source network is held; per operator C24/C30/C39/C80, pools and
  layers C81/C82/C55, reductions C36. Then C83 on the expanded network. Specification: `QNode.Meets`, one clause per kind. Transposed convolutions (Net/QTconv): SAME made VALID, a pad, one operator per phase that has the result of the phase before as an operand, a slice; uses C49, C08, C97.
- **C85, C86 Logarithms** - table and formula of log.c over `Nat`/`Int` with 32-bit wrap; real logarithm bounded per table row (kernel computation on
  rationals: tangent and chord bounds of exp), glued by concavity. Refuted for log2_8_64.
- **C87 Hypotenuse** - the CORDIC loop of hypot.S on 32-bit registers (`BitVec 32`); invariant in real numbers: length times a constant, angle halves.
- **C88 Mel product** - the loop over columns as a fold with array bounds checks; invariant: rows so far = partial sums. Specification: `matrixAt`.
- **C89 Masks** - interpolation as convex combination, 32-bit wrap excluded.
- **C90 compress_mel.py** - the script's loop; invariant by columns; decimal printing `%f` as rounding to a millionth; shipped tables by computation.
- **C91 Overlap-add** - induction over frames: what is in the output frame is a sum of shifted frames; window sums to one (kernel computation on the table).
- **C92 Masks from outputs** - table lookup with signed index and shift with 32-bit wrap. Refuted for two button states.
- **C93 Two threads** - interleaving of exchanges and word-by-word steps of the DSP thread; invariant over all schedules.
- **C94 Network with weights in a file** - Net/W*: the emitted function of C83/C84 with the chosen constants replaced as `Weights.run` says; loads
  become operators with several results, values are renumbered in block order. Simulation between the old and the new function (values of loads by
  C24, different loads have different addresses by C25), then `C06_chosen_plan` on the new one.
- **C95 Rewrites of whole networks** - Net/Rewrite*: a pattern is a partial function from an operator, the operators before it and their types to new
  operators and a replacing value; a step splices them in and renumbers; the driver is any sequence of steps and removals of unused operators.
  Each pattern is sound in its place (C15, C16, C43, C46 on bytes), a simulation carries this to the operators behind; C83 gives the run in the
  arena. Termination: the number of pads and concatenations above the transposes and quantisations, then the size.
- **C96 Acceptance test** - Host/Accept: NumPy arrays of signed integers with their width; subtraction in the type, zip, concatenation, absolute
  value with wrap-around, the running totals, the loop over draws (a stream of runs) and the verdict. Proved by induction over the draws that the
  totals are those of all pairs, then that passing and the specification coincide as long as nothing wraps. Partial: differences of half the range
  or more, lost outputs (witnesses). Floating-point outputs and the rounding of the averages are not modelled.
- **C97 Transposed convolution end to end** - Conv/TransposeCompile: the operator of C40's chain as ReplaceConv2D sees it, lowered by the model of C51; C64's machine with
  these values; the accumulator is C40's, the output transform C51's. SAME by C49. Refuted for fused activations (no pattern splits them off).
- **C98 Shipped audio network** - tools/audio_model.py copies the tensor and node tables of the generated source into Shipped/AudioData (text only). Shipped/Runtime models the
  generated `mg_InvokeSubgraph` for any tables, with operators and their private writes as parameters, and proves a liveness check of tables sound;
  Shipped/Audio runs the check, and the planner of C01, in the kernel on the shipped tables; Shipped/App adds `model_init`'s buffers and
  `nn_predict_masks`, by induction over frames. `Fit` and `Quiet` are the contract of the operators (lib_nn, lib_tflite_micro).
- **C99 Rewritten quantised networks** - Net/QRewrite: a quantised network as the patterns of C95 see it (every operator but data movement is opaque, with a number), the
  operators put back afterwards. An invariant over rewrites (numbers unique, types of opaque operators' operands unchanged) gives C84's hypotheses
  for the result. Values: the rewritten network's values define a meaning of the opaque operators (what they did; elsewhere any permitted result),
  under which C95 equates both networks.
- **C100 Split networks** - Net/Split: the patterns of OpSplit.cpp as patterns on whole networks (C95): convolutions and binary operators are opaque operators with numbers (`Table`), what they
  compute is any function of the window or of the two pixels (`Meaning`, `Windowed`). Each pattern is sound for such meanings (SplitProps, from C09 to C12 on images by way of `imgOf`); induction on the steps; C83 for the arena.
- **C101 Order of combined slices** - Net/SplitOrder: combineSliceWithExisting as written, on the whole network. Proved if the containing slice comes first, refuted otherwise.
- **C102 Threads and scratch in the arena** - MemPlan/Concurrent: operators act on the bytes of the planned arena: atomic steps of threads write a byte of the thread's section of the scratch
  tensor or of a result, from what the arena holds at that moment; scratch tensors (`fake_scratch`) have no code. Any interleaving (as in C63) of each operator. Proved by a simulation: plan facts
  (C03-C05) keep scratch, results and operands apart, so each byte is what its thread alone computes. Operators that work in place do so block by block (`BlocksOK`). `fake_scratch` is `Pure`, so
  CSE may merge two scratch tensors of the same size: sharing is allowed by `ImplOK` and harmless. `C102_as_sequential` reduces every run to the machine of C02, so C83, C84, C94 and C100 hold
  with threads (Net/Concurrent).
- **C103 One arena for several models** - Shipped/Shared: events init, write inputs, invoke of any of several models (C98's machine, persistent buffers included) on one memory; the specification
  gives every model memory of its own. Induction on the history with the invariant that the model whose turn it is finds its buffers and inputs. The header's macro is a fold.
- **C104 Image at the start of the arena** - MemPlan/InputPlace: first fit in decreasing order of sizes puts every buffer at 0 or above its own size, so a tensor is inside its own image only at the end of a larger
  tensor computed in its place (invariant of the allocation loop, C05's chains). Shipped/Image: the copy loop byte by byte on the arena, `C104_smear` gives its exact effect; with C83 for the results.
- **C105 Classes** - Shipped/Classify: the loops of the examples; invariant on the outputs seen so far.
- **C106 The whole pipeline** - Net/Whole: the stages of Passes.cpp one after another on quantised networks: rewrites (C99), replacement (C84), weights (C94), plan and threads (C102); `C106_compiles` shows that every network meets the hypotheses, with two threads per operator.
- **C107 Reshapes fused and dropped** - Net/Fuse*: `DRw` lists the rewrites of the compiled function (XCPatterns.td 191-206 and what the canonicaliser does here), `DSwap` moves operators; values are renumbered. A typing invariant (`DFun.OK`: sizes of operands of reshapes and convolutions, in-place operators) is proved of every compiled network and kept by every rewrite, and every rewrite keeps the results (`Keeps`), so C94, C102 and C106 apply to what remains. Termination by a lexicographic measure.
- **C108 Memory analysis report** - MemPlan/Report*: `printMemoryPlan` with every `int` operation and array access checked (`none` is undefined behaviour). Specification `RowSpec`: liveness as in C01, a column shows the tensor containing the end of the column. Loop invariant `LineInv` over the entries of the plan; the columns of disjoint tensors are disjoint because rounding is monotone; partial: arenas below 2^31/60 bytes.
- **C109 16-bit operators and softmax in networks** - Net/Blob, QBlob, QWide: a new kind of operator in C84's language; `expand` emits the broadcasts, the constant made for the xcore operator (or keeps TensorFlow Lite's operator when lib_nn or the pattern refuses) and the fused activation as an operator of its own. Specification on reals (`BlobOp.Meets`); the error of softmax follows from the relative error of the table of exponentials (`softOf_near`). Composed with C106.
- **C110 16-bit convolutions compiled** - Conv/Wide, WideProps, WideMore: C80's pattern applications with the alignment as a parameter (16 for 16-bit data, `PipelineN 16`); the accumulator bound (bias plus 32768 times a channel's L1 norm below 2^31) is an invariant of padding and splitting; lowering to the 16-bit direct kernel under the contract `Lib16.OK`; fully connected layers through C38. Partial: fused RELU is dropped for 16-bit data (refuted by two convolutions that get the same operator).
- **C111 16-bit convolutions in networks** - Net/QModel (`conv16`, `fc16`: graph of C110 emitted as operators, with weights and multipliers as constants and an `expand_8_to_16` operator per convolution), Net/QConv16, Net/QConv16Props: every emitted step holds the value C110 says (`leaf16_estep`, `conv16_estep`, `fc16_estep`), hence C84, C94, C102, C106 and C107 cover them; `C111_dense_layer` composes quantise, layer and dequantise into one bound in real numbers.
- **C112 distance from the reference** - Net/Drift (specification: `Close`, `QNode.Within`, the bound `QNode.grow` of every operator), DriftLemmas (requantisation, clamps, sums, activation functions and softmax are Lipschitz), DriftNode and DriftOps (one operator), DriftProps (`values_close`: strong induction over the values), DriftRef (a reference run exists), DriftMain (composition with C106), DriftExample, DriftMore (`Rt.Grows`: any operator of this runtime that is non-expansive, met by QUANTIZE and MINIMUM). Nothing in /repo computes this bound; it is what the per-operator tolerances of C84/C109/C111 amount to for a whole model.
- **C113 binarised networks** - Net/Bin (packed bits; `LConv`: `lq.Bconv2d` with its padding; lowering to `XBConv` by C54's `bLower` and C08's thread regions; contracts `BinLib.OK`), two new kinds of `QNode` (`bsign`, `bconv`) in QModel, BinProps (`bconv_estep`: pad with zero words, constants, scratch, kernel; window of the padded image = window of Larq's operator), BinBits (order of the packed bits; kernels that meet the contracts), BinNet (`C113_binary_network` from C106; `C113_signs_convolved`: an image's signs convolved, stated with sums of signs of the numbers only). C84, C94, C99, C102, C106, C107 and C112 cover these operators too (in C112 they only pass on a difference of 0: a sign is not continuous).
- **C114 merged operators** - Net/Merge (model: `mergeQuantize`, `mergeReluConv`, `mergeMinimum`; specification: `IsQuantize`, `IsMinimum`, `Unsaturated`, `mergedErr`, `reluErr`), Net/MergeNet (`Merge`: one rewrite or merge on a network with the errors of the reference's operators; `merge_step`), Net/MergeRef (`reference_forward`: a run of the reference on a network is one on the rewritten network, the other direction of C99), Net/MergeMain: induction over the steps, then C112 on the merged network. Proved under the condition that the type that is left out does not saturate where it matters (for the given inputs, or by comparison of the ranges of the types); `C114_saturated`: the condition is needed.
- **C115 split quantised networks** - Net/SplitQ (model: `raiseConvQ`, `raiseBinQ` on networks of C84 with TensorFlow Lite's arithmetic, `splitP`, `combineP`, `raisePadP` of C100 on what the rewriter sees of them; `SplitQStep`, `Lower`: one step with the errors of the reference's operators), Net/SplitQConv (`conv_image`: TensorFlow Lite's convolution is a function of the window of the image with the zero point outside; `conv_raised`: so C10/C11 apply to it), Net/SplitQNet and Net/SplitQStep (data movement inserted in front of an operator keeps the network; an operator in place of a slice), Net/SplitQProps (the two raising patterns), Net/SplitQMain: induction over steps of the splitting pass, rewrites and merges, then C112.
- **C116 the whole compiler** (`Net/EndToEnd.lean`): the composition of C115 (splitting, merging, rewriting in any order), C84 (lowering), C107 (clean-up), C94 (weights file), C01-C06 (plan), C28 (offsets through the metadata) and C102 (threads) into one statement about a run on the device and TensorFlow Lite on the network as given. The plan's existence is part of the statement. The 2^31 condition comes from the metadata's 32-bit offsets; C62 gives it from the sizes of the tensors.
- **C117 control flow of the generated runtime** (`Shipped/Control*.lean`): operators are arbitrary finite programs of lookups, calls of subgraphs and a status; `mg_InvokeSubgraph` and the operators run each other. Proved by induction on steps against a grammar of event traces (`OpsTrace`, `BodyTrace`); termination by a rank of subgraphs. Refuted: errors are reported; the shape accessors.
- **C118 the device's USB server** (`Shipped/IoServer.lean`): sessions of messages over the arena of C02; words never reach another input because offsets are multiples of 8 (C01, C05), and the arena after any messages is one that C02 starts from.
- **C119 tensor details** (`Host/Details.lean`): the dictionaries as a function of the model's tensors, with Python's `str` of a bytes object and `strip`; composed with the sessions of C68. Refuted: use by tensor index when inputs are not numbered from 0; names with quotes, backslashes, non-ASCII characters.
- **C120 native memory of the host interpreter**: Host/Lifetime. Objects, the attribute `self.obj` (missing, None or a native interpreter) and a heap of
  blocks, over any history of calls; an invariant ties the heap to the history, so that undefined accesses, leaks and closes are characterised by it.
- **C121 beta float operators**: XC/BetaFloat. The patterns drop attributes; proved is for which layers some kernel can still compute the layer
  (equal replacements have equal meanings), in any arithmetic, and refuted with integer witnesses for the others.
- **C122 host and device report the same class**: Shipped/Agree. Composes C68 (interpreter), C104 (image copied inside the arena) and C105 (greatest output)
  with the example's script; the two cases in which they differ are refuted by witnesses.
- **C123 programs over USB**: Host/UsbSession. Host class, framing (C33), driver as contract, server on the device (C118), `bytes_to_arr`; induction over runs.
- **C124 modelrunner's verdict**: Host/Runner. The generator of inputs, the count of failures and the comparison after dequantisation; float32 by its relative error.
- **C125 run_model.py**: Host/RunModel. Composes C68 (interpreter, any earlier images) and C123 (USB), and the report that is printed.
- **C126 compiled networks over USB**: Host/UsbNet. Composes C83 (compiler and plan) and C123.
- **C127 quantised networks over USB**: Host/UsbQuant. Composes C94 (quantised networks, weights in a file) and C123.
- **C128 verdict of the integration test**: Host/TestRunner. The counters after any number of runs are sums over the pairs compared; exact within the type, refuted outside.
- **C129 compiled runtime of the integration tests**: Host/CompileTest. Loading files is the loading of inputs of C02; composed with C83 for networks and with C128 for the verdict.
- **C130 device runner of the integration tests**: Host/DeviceTest. Resets change no reply; then C126, and C129 for the comparison with the compiled program.
- **C131 quantised networks in the compiled runtime**: Host/QuantTest. Composes C94 and C129.

Where the full property is false of the code, the statement is still written down: `lean/Verif/Full*.lean` has `Cxx_full` and a
proof of its negation `Cxx_full_refuted`; the theorem that does hold has the suffix `_partial`.

## What can not be expressed
Floating-point rounding of the MLIR folding code, flatbuffer serialisation and the bodies of the external lib_nn /
lib_tflite_micro kernels are not in /repo (submodules are empty); kernels enter as parameters or as an explicit
reference semantics stated next to the theorem that uses it. MLIR's greedy pattern driver, its verifier, and TensorFlow's
importer/exporter are outside /repo as well: a pattern is modelled as the function from the matched operators to the new ones.

## Trusted base

1. Lean 4.33.0's kernel, and Mathlib as compiled from /app/mathlib4-4.33.0 (re-checked by the same kernel).
2. Axioms: at most `propext`, `Classical.choice`, `Quot.sound`. `AXIOMS.md` lists, for every theorem in MANIFEST.json, what
   `#print axioms` says. No axiom is added; nothing is proved by compiled code.
3. The transcription of C++/TableGen/Python into Lean. It is by hand; each definition cites the lines it models and says
   what is simplified. Common simplifications: machine integers are unbounded (`Int`, `Nat`) unless a theorem is about their
   overflow; `float`/`double` are rationals or reals; undefined behaviour is `none`; MLIR attributes are lists.
4. Contracts for code that is not in /repo (each satisfiable, with a witness in the Lean files):

| Contract (Lean) | stands for | used by |
|---|---|---|
| `Threads.CalcContract` | lib_nn `calculateThreadSplit`: at most n non-empty consecutive ranges that cover the dimension | C07, C08, C55, C63, C64, C97 |
| `Net.Meaning`, `Net.Windowed` (`meaning_exists`, `exF_windowed`) | TensorFlow Lite's convolutions compute a position from its window, filter and bias; additions and multiplications from the two operands there | C100 |
| `Conc.ImplOK`, `Conc.Run` | the runtime runs operators one after the other, thread t of an operator in the t-th section of its scratch tensor; kernels write their results and their section only | C102 |
| `Shared.Part` (`initial`, `kern`, `keep`) | operators' init and prepare fill the persistent buffers; an operator writes its outputs and these buffers only | C103 |
| reading of a region in `Threads/Spec.lean` | a strided kernel writes the elements of its region that are in its phase | C08, C40, C63 |
| `Conv.Lib.Faithful`, `Lowered.run` (`Conv/Lower.lean`, end), `phaseRun` (`Conv/TransposeCompile.lean`) | lib_nn's im2col/direct kernels and output transforms: exact up to the error they report | C51-C53, C63, C97 |
| `Conv.ReorderContract`-style spec in `Conv/TransposeModel.lean` (`refReorder` is a witness) | lib_nn `transpose_conv_reorder_kernel_weights` | C40, C61 |
| `BLowered.value` (`Conv/BConv.lean`) | lib_nn's binary kernels (xor-popcount) | C54 |
| `BinLib.OK` (`Net/Bin.lean`; met by `exBinLib_ok`) | lib_nn's sign kernel; the constants made for a binary convolution and the kernels that read them | C113 |
| `XCMaxPool.Gives` | lib_nn max-pool kernel: greatest element at the addresses it visits | C55 |
| `XC.kernel` (`XC/Reduce.lean`) | XC_mean / XC_sum runtime loop | C36 |
| `XC.addKernel` | XC_add runtime | C39 |
| `Rt.OK` (multiplication within one step for `mul_boggle`'s parameters in `dom`; the convolution kernel on data and the constants made for it is `Lowered.run`; the pooling kernel gives `XCMaxPool.Gives`; reductions round to nearest; the others as above) | XC_mul runtime and lib_nn `mul_boggle`; lib_nn convolution and pooling kernels on bytes | C84, C94 |
| `Rt.OK.phase`, `Rt.OK.phaseKeeps` | lib_nn's kernel for one phase of a transposed convolution: elements in exactly one thread's region are `phaseRun`, those of other phases are copied from the partial output | C84, C94, C99 |
| `Rt.OK.tflConv` | TensorFlow Lite's convolution kernel on data, filter and bias bytes, where a convolution is not replaced | C84, C94 |
| `BLib.OK` (constants that lib_nn makes are read back by the 16-bit kernels within `err` steps; quadratic tables; softmax kernels on a table of positive floats; `expf` and float results within a relative `fErr`; TensorFlow Lite's kernels for the same operators within `tflErr` steps) | lib_nn `*_tensor_blob`, `quadratic_approximation_generator`, 16-bit and softmax kernels, the C library, TensorFlow Lite | C109, C84 |
| `Lib16.OK` (the 16-bit convolution kernel is within `err` of multiplier times accumulator, saturated, if no partial sum can leave 32 bits and the multiplier is at most `top`; results are 16-bit; met by `exactLib16_ok`) | lib_nn's 16-bit direct convolution | C110, C111 |
| `Rt.OK.expand16`, `Rt.OK.conv16`, `Rt.OK.tflConv16` (expanded weights are twice as long; the operator on data, expanded weights and multipliers is the kernel of `Lib16` at every position; met by `exRt_ok`) | lib_nn `expand_8_to_16`, 16-bit convolution operator, TensorFlow Lite | C111, C84 |
| `XC.pad34Kernel` | lib_nn `pad_3_to_4` | C56 |
| `BinI16.Gives` with error e | 16-bit element-wise kernels | C57 |
| `QuadraticOK` | lib_nn `quadratic_approximation_generator` and its `max_error` | C58 |
| copy loops in `Move/Model.lean` | XC_slice, XC_pad, XC_concat, XC_broadcast runtime loops (memcpy with the operator's parameters) | C18, C20-C22 |
| `Transpose.areCancellable` | TensorFlow `AreCancellablePermutations` | C16 |
| `sameOut` etc., `windowed` | TensorFlow `GetWindowedOutputSizeVerbose` | C10, C11, C34, C51 |
| `Interp.Model.OK` | lib_tflite_micro's inference engine behind the host interpreter | C68-C70 |
| `XC.Options.strings`, `look` | flexbuffers::Builder: layout of keys and strings, maps | C71, C72 |
| `Host.Convert.parse` | llvm::cl | C73 |
| `Driver.Event`, `World.pieces` | files: opening truncates, data arrives in pieces | C75-C77 |
| `Audio.clz`, `shl`, `zext`, `wrap32`; `BitVec 32` arithmetic | xcore instructions used by log.c and hypot.S | C85-C87 |
| `Audio.backFrame` (`Audio/Overlap.lean`); `ds` | lib_xcore_math transforms: forward and back is the identity up to the scale; lib_src's converter | C91 |
| `WFun.loaded` | XC_ld_weights runtime: reads its results one after the other from its address in the weights file | C94 |
| `Audio.Path.tokens`, `F` | channels deliver in order; the work of the DSP thread on a block | C93 |
| operator bodies in C02 (functions of the operands' bytes), `StreamStep` in C41 | every kernel run by the interpreter | C02, C41 |

5. Hypotheses on models that are not contracts: `Func.WF` (SSA form, constants have no producer), `Func.InPlaceOK` (an
   in-place operator does not shrink its data; true of every `MemoryOverlappable` operator in XCoreOps.td; without it
   C05 is refuted), `ConvOp.OK`, `Fake.OK`, `MaxPool.OK` (shapes fit together as TensorFlow's verifier demands).

## What is modelled, by file

| /repo file | Lean | not modelled |
|---|---|---|
| xformer/Analysis/MemoryPlan.cpp | MemPlan/* | the names of operations and the padding of the text in `printMemoryPlan`, C++ iterator details of `llvm::DenseMap` order (not observable) |
| xformer/Transforms/PlanMemory.cpp | MemPlan/Props (C06), Host/Subgraphs (C79) | the module attribute as MLIR object |
| xformer/Utils/Util.cpp | MemPlan/Sizes, TFL, XC | string helpers |
| xformer/Utils/ThreadSupport.cpp | Threads/* | `getSmallDimSplits` (dead code), string form of regions |
| xformer/Transforms/OpSplit.cpp | OpSplit/*, Net/Split*, Net/SplitQ* | MLIR bookkeeping: labels and work list are non-determinism (C65); erased operators |
| xformer/Transforms/OptimizeConv2D.cpp | Conv/{Model,Props,Split,Same,Compile,Wide} | element-type checks |
| xformer/Transforms/ReplaceConv2D.cpp, ConvPatterns{.h,TFL.cpp,LCE.cpp,.td} | Conv/{Lower,LowerProps,BConv,Compile,Wide}, Net/{QConv,QConv16,Bin,BinProps,BinNet} | serialisation of kernel structs |
| xformer/Transforms/ConvRevertPatterns.td | Conv/{Revert,RevertPass} | - |
| xformer/Transforms/ReplaceTransposeConv.cpp | Conv/TransposeModel, Conv/Transpose, Conv/TransposeCompile | - |
| xformer/Transforms/ReplaceAvgPoolWithConv2D.cpp, ReplaceFCWithConv2D.cpp | Conv/Pool | dynamic dimensions |
| xformer/Transforms/ReplaceMaxPool2D.cpp | Conv/MaxPool | - |
| xformer/Transforms/ReplaceConcat.cpp, ReplaceSlice.cpp, ReplacePad.cpp, ReplaceBroadcast.cpp, ReplaceStridedSlice.cpp | Move/*; composed over whole graphs in Net/* | - |
| xformer/Transforms/OptimizeTranspose.cpp | Transpose/*, Net/Rewrite* | that FoldTransposeWCHToInput reports success without a change (the driver then stops at its iteration limit; the theorems hold for every number of steps) |
| xformer/Transforms/TFLPatterns.td, ApplyTFLPatterns.cpp | TFL/*, Net/Rewrite* | see findings |
| xformer/Transforms/XCPatterns.td, ApplyXCPatterns.cpp | XC/{Lut,Patterns}, Net/Fuse* (reshapes), Net/{Blob,QBlob,QWide} (in networks), XC/BetaFloat | `getCompressedFloats` (unused) |
| xformer/Transforms/ReplaceAddSub.cpp, ReplaceMean.cpp, ReplaceSum.cpp | XC/{AddSub,Reduce}; AddSub composed over whole graphs in Net/Q* | - |
| xformer/Transforms/ReplaceMul.cpp, `checkBinaryCompatibility` in Utils/Util.h | Net/QModel | `mul_boggle` (lib_nn) |
| xformer/Transforms/RemoveDynamicShape.cpp | Shape/Dynamic | - |
| xformer/Transforms/ApplyLoadConstantOpPatterns.cpp, WriteWeights.cpp, Utils/FileIO.cpp, Utils/TileRamSupport.cpp | Weights/*, Host/{Driver (failing writes),Subgraphs (several functions)}; composed over whole graphs in Net/W* | - |
| xformer/XCoreOptMain.cpp, Transforms/Passes.cpp (order of the file-writing passes) | Host/{Config,Search,Driver} | importer, exporter |
| xformer/modelrunner.py (default mode) | Host/Runner | options --bnn, --cifar, --input, starting the compiler, printing |
| python/xmos_ai_tools/xformer/flash.py | Host/Flash | argparse |
| python/xmos_ai_tools/io_server/__init__.py | Host/Usb, Host/UsbSession | the USB library |
| xformer/Transforms/TranslateToCustomOp.cpp | XC/Options | byte encoding of flexbuffers other than positions of strings |
| python/xmos_ai_tools/xformer/__init__.py | Host/Convert | starting the process, print_help |
| python/xmos_ai_tools/xinterpreters | `Host/Interp.lean`: set_model, set_tensor, get_tensor, get_input_tensor, invoke, reset and the C functions behind them | operator lists, printing; tensor details are `Host/Details.lean`, close and memory `Host/Lifetime.lean`; the engine (lib_tflite_micro) is a contract |
| examples/audio_network/src: log.c, hypot.S (`hypot_i`), mel.c, mel_parameters.h, compress_mel.py, dsp.c, raised_cosine.h, support.cpp, data_path.c | Audio/* | `scale` in hypot.S, float conversion in dsp_calculate_mels, buttons |
| examples/app_mobilenetv2, app_yolov8_classification, app_single_model_on_* (support.cpp, obtain_and_optimize_mobilenetv2.py from the image on) | Shipped/Image, Shipped/Classify, Shipped/Agree | printing, flash, quantize_input and checksum_calc (unused) |
| examples/app_no_flash_with_ioserver/run_model.py, app_flash_two_models (printed report) | Host/RunModel | reading and resizing of images |
| integration_tests/runner.py (loop, comparison, verdict, range of drawn inputs) | Host/TestRunner | building and starting of the runners, floats, npy files |
| integration_tests/compile_test.cpp, runner.py `XFHostRuntime.predict` | Host/CompileTest | building of the program, printed text, failing model_init |
| integration_tests/runner.py `XFDeviceRuntime.predict` | Host/DeviceTest | building and starting of the device program |
| examples/app_flash_two_models_one_arena | Shipped/Shared | flash server, printing |
| examples/audio_network/src/model_audioi16.tflite.{cpp,h} | Shipped/* | constant data, operators, profiling and printing, `model_reset` (no variable tensors) |

## Findings (behaviour of the code that the theorems made visible)

Each is a theorem unless marked (reading).

- integration_tests/runner.py subtracts in the output type: int8 outputs wrong by 255 count as 1, those wrong by 128 as -128, and such models pass (`C128_refuted`, `C128_refuted_half`).
  The largest input value is never drawn (`C128_blind_to_maximum`), and a model with empty outputs is run for ever (`C128_ends`).
- compile_test.cpp goes on when an input file is too short, and computes with what the arena held (`C129_short_refuted`).
- Beta float operators: fused activations, the bias of fully connected layers and the dilation of SAME convolutions are dropped, so no kernel can be
  right (`C121_activation_refuted`, `C121_bias_refuted`, `C121_dilation_refuted`). The pattern on concatenations does not look at the element type,
  so with the option a concatenation of int8 that reaches it becomes an operator that does not verify (reading).
- Host interpreter: `set_model` on an object that has a model never frees the native interpreter of 50 MB before it (`C120_replace_leaks_refuted`);
  a model above 50 MB is copied past its block (`C120_large_refuted`); a call after `close` passes a null pointer (`C120_use_closed_refuted`).
  `delete_interpreter` frees with `free` what was made with `new`, without a destructor (reading).
- Host interpreter: `set_tensor` takes the input's position where `get_tensor` takes the tensor index, so TensorFlow Lite's idiom writes the wrong input or
  past the table when inputs are not tensors 0, 1, ... (`C119_index_refuted`); names go through `str(bytes)` (`C119_name_refuted`).
- Generated runtime: `mg_InvokeSubgraph` tests `0 && status != kTfLiteOk`, so a failing operator is ignored and `model_invoke` returns ok
  (`C117_error_lost_refuted`, `C117_always_ok`); `model_input_dims_len` returns the first dimension and `model_input_dims` starts at the second
  (`C117_dims`); the model index and the io server's tensor number are not checked (`C117_index_refuted`).
- Memory plan: the reported peak operator is the index of the peak value plus one among arena tensors (`C62_peak_op`); the
  next-bottom-operator lookup mixes operator ids and value indices and can leave the vector (`C30_chain_out_of_range`); the
  search need not stop (`C30_may_not_stop`) and can suggest a configuration worse than none (`C30_worse_refuted`); boolean
  tensors reserve no bytes (`C42_bool_refuted`); the advertised peak is that of the non-overlapping plan.
- Threads: with a stride and an even height rows are lost (`C08_even_height_row_lost`); image smaller than the stride:
  undefined behaviour (`C08_small_image_undefined`).
- OpSplit: dilation ignored (`C10_dilation_refuted`), thin SAME slices start outside (`C11_thin_slice_refuted`), element-wise
  operators with broadcast width (`C12_width_broadcast_refuted`); a slice is replaced by a slice of a later one (`C101_full_refuted`); (reading) `!inType.getRank() == 4` precedence in line 106,
  batch 1 hard-coded in createSliceOp; a mean split can saturate, run before all slices are recorded, or use another tensor's
  slices (`C66_*_refuted`); placeholders stay for uneven splits and most producers, and crash on arguments (`C67_*_refuted`);
  (reading) `getSliceOp` erases `opOriginal` before its second operand is read when the first operand is the broadcast one.
- Host interpreter: setting a model again for an index keeps the old one, the model index of later calls is ignored (and only
  index 0 is looked up), a model that cannot be loaded is not reported (`C69_*_refuted`); sizes that do not match are printed and
  then copied, the check of an output array compares a length with itself, inputs are addressed by position although their
  details report tensor indices (`C70_*_refuted`); (reading) a model over 50 MB overflows the engine's buffer.
- Merging (TFLPatterns.td): a quantise operator merged into a convolution un-does the saturation of the type between them
  (`C114_saturated`: 63 steps); nothing checks this. (reading) `Relu(Minimum(lhs, 127))` does not check that `lhs` has the shape of
  the result; the pattern for Quantize(Reshape) requires an input that is both 8-bit and 16-bit, so it never fires.
- Options: the sizes of a concatenation of fewer than 13 inputs are partly uninitialised memory, so compilation is not
  reproducible (`C72_concat_indeterminate`); parameter structures over 253 bytes would be misaligned (`C71_aligned`).
- convert(): an option with an empty value swallows the next argument (`C73_empty_value_refuted`), input files that start with a
  dash are options (`C73_dash_refuted`).
- Driver: a run that fails after the weights pass has already replaced the weights file, and a failing source generator leaves a model
  without sources (`C75_weights_lost_refuted`, `C75_tflmc_refuted`); option checks test whether an option occurs, not its value
  (`C75_occurrences_refuted`); files with clashing names overwrite each other silently (`C76_clash_refuted`); a crash can leave the
  old model with the new weights (`C77_old_model_refuted`).
- Several functions: only the last processed function's weights survive (`C78_two_functions_refuted`, `C78_empty_file_refuted`); the
  plan of a loop's body is written as the main plan (`C79_loop_refuted`); (reading) the static counter of loaded bytes is shared
  between functions that MLIR may process in parallel.
- Data movement: negative axis below -1 undefined in wide concatenation (`C17_negative_axis_undefined`); `x[-1]` gives a
  negative size and ends beyond the tensor are not clamped (`C23_*_refuted`); (reading) the null check of `end` tests `begin`.
- Weights: the configured limit can be exceeded by any amount (`C27_limit_exceeded`), rejected constants count
  (`C27_rejected_count`); (reading) the counter is static and survives the pass.
- TFL patterns: fusing quantisations is unbounded under saturation (`C44_saturation_refuted`); Quantize(Reshape) is dead
  (`C44_quantize_reshape_dead`); the integration tests compare in the outputs' own integer type, so that a difference of 255 counts as 1 (and one of 128 as -128), they do not notice a lost output, never draw the largest input value, and loop for ever on a model without output elements (`C96_wraparound_accepted`, `C96_lost_output_accepted`, `C96_largest_input_never_drawn`, `C96_no_elements_loops`); the fused activation of a transposed convolution is lost unless it is RELU with output zero point -128 (`C97_activation_refuted`); pad swapping ping-pongs on two empty pads (`C43_no_ping_pong` gives the exact condition, `C95_empty_pads_loop` the loop on a network).
- modelrunner.py uses the same input in all runs, for int8 even numbers only; 32-bit outputs are compared as float32 (`C124_even_refuted`, `C124_wide_refuted`)
- (reading) modelrunner.py: --bnn stops with an undefined variable, --cifar drops the batch dimension, --input has no effect, --tc has no default and is needed
- (reading) run_model.py and modelrunner.py give `cv2.resize` the height as width: inputs that are not square do not fit the model; with numpy 2 `detections[1] + 128` raises for int8
- threads of a strided phase (transposed convolution) cover it exactly iff the split dimension is at least the stride and is odd or leaves a remainder not above the phase (`C08_exactly`)
- the version check of a model's metadata ignores dots before, after and repeated between its three numbers (C29)
- (reading) ConvPatternsLCE.cpp: a binary quantize of a float input matches a pattern whose operator needs int8; `filterDepth *= sizeof(int32_t)` also for int8 output; SAME padding with pad value 0 is refused (C113)
- over USB an input must be sent again for every run: the second of two runs takes the first one's leftovers in the arena as input (`C123_stale_refuted`)
- app_mobilenetv2: if all outputs are -128 the application reports class -1 and the script 0; with a first pad in place they report different classes (`C122_lowest_refuted`, `C122_smear_refuted`)
- app_mobilenetv2 and app_yolov8_classification copy the image forward inside the arena; if the first operator is a pad from three to four channels in place, the model sees a third of the image
  three times (`C104_mobileNet`, with the sizes of MobileNet).
- The "top three classes" of app_single_model_on_two_tiles and _on_one_tile_and_DDR are not the top three (`C105_three_refuted`), and no class is reported if all outputs are -128.
- Shipped audio network: nothing checks the persistent buffers against the tensors (`C98_persistent_bound`); both outputs lie on the inputs
  (`C98_inputs_are_lost`); the artefact was compiled without overlap, which the pinned planner would choose, for 1856 bytes less (`C98_overlap_plan`).
- Host: a message without data is sent as two empty packets (`C33_empty_refuted`).
- OptimizeConv2D: the number of splits is rounded down (`C13_limit_refuted`), empty groups (`C13_empty_groups`), channels lost
  (`C13_not_multiple_refuted`), hard-coded VALID (`C13_full_refuted`), grouped convolutions padded wrongly
  (`C14_groups_refuted`), SAME transposed convolution (`C49_*_refuted`); (reading) option 0 divides by zero,
  createPaddedBiasOp dereferences null for a bias that is not a QConst.
- ReplaceTransposeConv: outputs larger than (in-1)*s+max(k,s) read behind the tensor (`C40_output_padding_refuted`).
- Reduce: repeated axes reduce other axes (`C36_repeated_axes_refuted`), negative axes undefined
  (`C36_negative_axis_undefined`).
- AddSub: the bias overflows 32 bits for scale ratios below about 2^-10 (`C39_bias_overflow_refuted`).
- AvgPool with SAME divides by the full window (`C37_same_border_refuted`); FC drops leading dimensions
  (`C38_leading_dims_refuted`, `C38_rank4_refuted`).
- Convolution lowering drops fused activations (`C51_activation_refuted`), clamps multipliers (`C52_clamping_changes`), the
  16-bit kernel ignores padding (`C53_i16_padding_refuted`); (reading) filter zero point ignored, depth multiplier > 1
  accepted, mixed int16 -> int8 treated as 8-bit, no batch check in any Replace pass.  RELU is split off 8-bit convolutions only: a 16-bit
  convolution loses it (`C110_relu_refuted`).
- 16-bit convolutions, (reading): `getConv2DValidDirectI16Params` computes `filterOut` and never uses it, the weights stored are the original filter
  (ConvPatternsTFL.cpp 490-520); biases are read as 32-bit (48-69), so TensorFlow's default 64-bit biases of 16x8 models are not supported.
- ConvRevert loses partial output and strides of transposed convolutions (`C61_transposed_refuted`).
- MaxPool ignores SAME (`C55_same_refuted`), activation (`C55_activation_ignored`) and batch (`C55_batch_refuted`).
- Pad3To4 accepts padding before the channels (`C56_pad_before_refuted`).
- 16-bit operators: zero points ignored (`C57_zero_point_refuted`), 16 -> 8 bit quantise makes an ill-typed operator
  (`C57_requantize_refuted`), ELU of a function argument crashes (`C58_elu_producer_refuted`).
- Memory analysis report: `offset * 60` overflows for arenas over 35.8 MB, and a negative first column is then a write before the line
  buffer (`C108_large_arena_refuted`); tensors from the 63rd on are all shown as `*` (`C108_letters_refuted`).
- RemoveDynamicShape: other dynamic dimensions become 0 or stay dynamic (`C60_other_dims_refuted`).
- Audio example: log2_8_64 adds an unscaled exponent (`C86_full_refuted`); log2_16 is not monotone (`C85_log2_16_drop`); hypot_i has a noise
  floor of 44 and a negative result for lengths over 2^31 (`C87_example`, `C87_range_needed`); mel_compress writes behind the array when a
  column starts in the last row (`C88_full_refuted`); compress_mel.py prints an empty first run when the first column does not start in
  the first row (`C90_full_refuted`); two of four mask tables overflow and invert the loudest bands (`C92_full_refuted`); the first block
  handed out is uninitialised memory (`C93_latency`).

## Testing the theorems
`seeded/LOG.jsonl` has one line per wrong program tried: definition edited, edit, claim it breaks, theorems that failed,
theorems tightened because an edit had survived.
