{"id": "C01", "title": "Live tensors never share arena bytes", "statement": "In the tensor-arena plan computed without buffer overlapping, any two distinct non-constant tensors whose live ranges meet are given disjoint byte ranges [offset, offset+size).", "quantifier": "every straight-line function (any number of inputs, operators, results, sizes, uses), every pair of its tensors", "why_tests_cant": "The first-fit search depends on the sizes and live ranges of all tensors at once; a sample of networks says nothing about the next one.", "anchors": ["xformer/Analysis/MemoryPlan.cpp: MemoryPlan::build, getOffset, getAllocatedOffsets", "xformer/Transforms/PlanMemory.cpp: PlanMemory::runOnOperation"]}
{"id": "C02", "title": "Running in the planned arena computes what the graph says", "statement": "If every operator reads its operands from and writes its results to the arena addresses that the plan assigns, every operator (including the function return) sees exactly the operand bytes it would see if each tensor had its own private memory. This holds for the plan without overlapping and for the in-place (overlapping) plan when the kernels of in-place operators read their input before overwriting it.", "quantifier": "every function, every kernel behaviour, every input content, every initial arena content, every step of the execution", "why_tests_cant": "It is a refinement between two executions of arbitrary length; tests run a handful of networks.", "anchors": ["xformer/Analysis/MemoryPlan.cpp: build, getOffset, getAllocatedOffsets", "xformer/Transforms/PlanMemory.cpp", "xformer/XCoreOptMain.cpp: offline memory allocation metadata"]}
{"id": "C03", "title": "Shape of the plan: one aligned offset per tensor, -1 exactly for constants", "statement": "The plan contains exactly one offset per tensor in definition order; the offset is -1 for compile-time constants and otherwise a non-negative multiple of 8.", "quantifier": "every function and both planning modes", "why_tests_cant": "Depends on multiset orderings and on arbitrary numbers of tensors.", "anchors": ["xformer/Analysis/MemoryPlan.cpp: getAllocatedOffsets"]}
{"id": "C04", "title": "Reported peak is the exact high-water mark of the plan", "statement": "The peak memory reported with a plan is the smallest arena size in which every planned non-constant tensor fits: all fit, and some tensor ends exactly there.", "quantifier": "every function and both planning modes", "why_tests_cant": "An upper bound over all tensors of all networks.", "anchors": ["xformer/Analysis/MemoryPlan.cpp: getAllocatedOffsets (peakUsed)"]}
{"id": "C05", "title": "In-place plan only shares memory along in-place chains", "statement": "In the overlapping plan, two tensors with meeting live ranges share bytes only if both belong to the same chain of in-place operators (each the single-use input of the next); every chain member lies inside the buffer of the chain's last output.", "quantifier": "every function in which in-place operators never shrink their data; every pair of tensors", "why_tests_cant": "Chains have arbitrary length and interact with all other allocations.", "anchors": ["xformer/Analysis/MemoryPlan.cpp: getAllocatedOffsets (overlapOps)"]}
{"id": "C06", "title": "The plan written to the model never needs more than the advertised peak", "statement": "The plan attached to the model is the better of the two plans, and the arena it needs is never more than the peak-usage attribute written beside it.", "quantifier": "every function", "why_tests_cant": "Relation between two independently computed plans for every network.", "anchors": ["xformer/Transforms/PlanMemory.cpp: runOnOperation"]}
{"id": "C07", "title": "Thread regions partition the output image", "statement": "For unit stride, the regions handed to worker threads are non-empty, at most as many as the requested threads, pairwise disjoint and together cover every output pixel exactly once, for all channels.", "quantifier": "every image size larger than 1x1, every thread count >= 1", "why_tests_cant": "Infinitely many image sizes and thread counts.", "anchors": ["xformer/Utils/ThreadSupport.cpp: getImageRegionThreadSplits"]}
{"id": "C08", "title": "Strided thread regions visit exactly the pixels of their phase", "statement": "For a strided output with a phase offset (the partial convolutions of a transposed convolution) the rows and columns visited by all threads are exactly those congruent to the phase modulo the stride, each once.", "quantifier": "every image size, stride, phase and thread count satisfying the divisibility condition stated in the theorem; outside that condition the property is refuted", "why_tests_cant": "Boundary arithmetic over all sizes and strides.", "anchors": ["xformer/Utils/ThreadSupport.cpp: getImageRegionThreadSplits", "xformer/Transforms/ReplaceTransposeConv.cpp"]}
{"id": "C09", "title": "Splitting an operator by height is a partition", "statement": "The slices created when an operator's output is split into n parts are contiguous, cover the whole height exactly once, differ in height by at most one row, and concatenating them gives back the operator's output.", "quantifier": "every height, every split count, every tensor content", "why_tests_cant": "Arbitrary sizes and contents.", "anchors": ["xformer/Transforms/OpSplit.cpp: OpSplitPattern"]}
{"id": "C10", "title": "Moving a slice above a VALID convolution keeps its value", "statement": "Slicing rows of a VALID (unpadded) convolution output equals convolving the computed input slice, for every requested output row range.", "quantifier": "every input height, kernel, stride and output range, every input and filter content", "why_tests_cant": "Index arithmetic over all shapes.", "anchors": ["xformer/Transforms/OpSplit.cpp: RaiseSliceHorizontalPattern / RaiseFakeSlice for Conv2D"]}
{"id": "C11", "title": "Moving a slice above a SAME convolution keeps its value", "statement": "Slicing rows of a SAME convolution output equals padding the computed input slice with the computed amount of zero rows and convolving it without padding.", "quantifier": "every input height, kernel, stride and output range for which the slice does not straddle both borders in the refuted cases", "why_tests_cant": "Index arithmetic over all shapes with border cases.", "anchors": ["xformer/Transforms/OpSplit.cpp"]}
{"id": "C12", "title": "Nested and element-wise slices commute", "statement": "Replacing a slice contained in another by a slice of that slice, and slicing the operands of an element-wise operator instead of its result, never changes a value.", "quantifier": "all ranges, shapes and contents", "why_tests_cant": "All shapes.", "anchors": ["xformer/Transforms/OpSplit.cpp: combineSliceWithExisting, RaiseFakeSlice for binary ops"]}
{"id": "C13", "title": "Channel-wise convolution splitting is exact", "statement": "When a convolution with a multiple-of-4 number of output channels is split channel-wise, the channel groups are multiples of 4, cover every channel exactly once in order, and concatenating the smaller convolutions gives the original result.", "quantifier": "every channel count divisible by 4, every split count and tensor content", "why_tests_cant": "All channel counts and sizes.", "anchors": ["xformer/Transforms/OptimizeConv2D.cpp: ChannelwiseSplitConv2DOutputPattern"]}
{"id": "C14", "title": "Channel padding of convolutions is invisible", "statement": "Padding input channels (with zero filter taps) or output channels (sliced off afterwards) to the hardware multiple leaves every original output element unchanged, and the padding added is the least that reaches the multiple.", "quantifier": "every channel count and tensor content", "why_tests_cant": "All sizes and contents.", "anchors": ["xformer/Transforms/OptimizeConv2D.cpp: PadTo4Conv2DInputPattern, PadTo4Conv2DOutputPattern"]}
{"id": "C15", "title": "Hoisting the NHWC transpose over a pad keeps the value", "statement": "Transpose-after-pad is replaced by pad-after-transpose only with correspondingly permuted pad amounts, producing the same tensor.", "quantifier": "all shapes and contents", "why_tests_cant": "All shapes.", "anchors": ["xformer/Transforms/OptimizeTranspose.cpp: HoistTransposeWCHAbovePadPattern"]}
{"id": "C16", "title": "Only mutually inverse transposes are cancelled", "statement": "A pair of consecutive transposes is removed only if together they are the identity on every tensor.", "quantifier": "all permutations and tensors", "why_tests_cant": "All ranks and permutations.", "anchors": ["xformer/Transforms/OptimizeTranspose.cpp: CancelTransposeWithInverse"]}
{"id": "C17", "title": "Wide concatenations are decomposed faithfully", "statement": "Repeatedly splitting a concatenation with more than 13 inputs terminates, every resulting concatenation has at most 13 inputs, and the overall result is unchanged.", "quantifier": "every number of inputs and every content", "why_tests_cant": "Unbounded number of inputs.", "anchors": ["xformer/Transforms/ReplaceConcat.cpp: SplitConcatPattern"]}
{"id": "C18", "title": "Lowered concatenation copies produce the concatenated tensor", "statement": "Executing the lowered concat (for each outer index copy the given number of bytes from each input in turn) yields the row-major bytes of the concatenation along the requested axis.", "quantifier": "every rank, axis, shapes agreeing off-axis, element size and content", "why_tests_cant": "All ranks/shapes.", "anchors": ["xformer/Transforms/ReplaceConcat.cpp: ReplaceConcatPattern"]}
{"id": "C19", "title": "Merging axes does not change the flat data movement", "statement": "Collapsing equal axes before lowering slice or pad leaves the set of (source, destination) byte positions unchanged.", "quantifier": "every rank, shape, begin/pad vector", "why_tests_cant": "All ranks and shapes.", "anchors": ["xformer/Utils/Util.cpp: mergeAxes"]}
{"id": "C20", "title": "Lowered slice copies exactly the sliced tensor", "statement": "Executing the lowered slice (n strided memcpy of size bytes from start) yields the row-major bytes of the requested sub-tensor.", "quantifier": "every rank, shape, begin, size, element width accepted by the lowering", "why_tests_cant": "All shapes.", "anchors": ["xformer/Transforms/ReplaceSlice.cpp: ReplaceSlicePattern", "xformer/Utils/Util.cpp: mergeAxes"]}
{"id": "C21", "title": "Lowered pad produces exactly the padded tensor", "statement": "Executing the lowered pad yields the row-major bytes of the padded tensor.", "quantifier": "every rank, shape, paddings accepted by the lowering", "why_tests_cant": "All shapes.", "anchors": ["xformer/Transforms/ReplacePad.cpp: ReplacePadPattern", "xformer/Utils/Util.cpp: mergeAxes"]}
{"id": "C22", "title": "Lowered broadcast produces exactly the broadcast tensor", "statement": "Executing the lowered broadcast yields the row-major bytes of the broadcast tensor.", "quantifier": "every shape pair accepted by the lowering", "why_tests_cant": "All shapes.", "anchors": ["xformer/Transforms/ReplaceBroadcast.cpp: ReplaceBroadcastPattern"]}
{"id": "C23", "title": "Strided slice normalisation denotes the requested range", "statement": "For unit strides, a strided slice is rewritten to a slice with the begin/size that the begin/end/mask arguments denote.", "quantifier": "every in-range begin/end and every mask combination", "why_tests_cant": "All argument combinations.", "anchors": ["xformer/Transforms/ReplaceStridedSlice.cpp: ReplaceStridedSlicePattern"]}
{"id": "C24", "title": "Every weight tensor is found at its recorded address", "statement": "For every load operator in the compiled model, the bytes of the weights file at [address + preceding sizes, + size) are exactly the bytes of the constant that it replaces.", "quantifier": "every sequence of constant loads, single or combined, in flash or external memory", "why_tests_cant": "Addresses are cumulative sums over arbitrary sequences.", "anchors": ["xformer/Transforms/WriteWeights.cpp: WriteWeightsPattern, runOnOperation", "xformer/Utils/FileIO.cpp: writeWeightsToFile"]}
{"id": "C25", "title": "Weight regions are disjoint and aligned in external memory", "statement": "Distinct load operators own disjoint byte ranges; in external memory mode every address is a multiple of 32 and the file length too.", "quantifier": "every sequence of loads", "why_tests_cant": "Cumulative invariants.", "anchors": ["xformer/Transforms/WriteWeights.cpp"]}
{"id": "C26", "title": "Generated weight array has the header, the data and the declared size", "statement": "In array mode, the emitted byte sequence is the 20-byte header (flash mode only) followed by exactly the weight bytes, and the declared array size equals the number of bytes emitted.", "quantifier": "every weight content and length", "why_tests_cant": "All lengths.", "anchors": ["xformer/Utils/FileIO.cpp: writeWeightsToFile"]}
{"id": "C27", "title": "External-load size budget", "statement": "Constants are selected for external loading only while the running total before adding them does not exceed the configured limit; the total exceeds the limit by at most the last selected constant.", "quantifier": "every sequence of constants and limits", "why_tests_cant": "Histories of arbitrary length.", "anchors": ["xformer/Transforms/ApplyLoadConstantOpPatterns.cpp: shouldBeLoadedExternally"]}
{"id": "C28", "title": "Offline-plan metadata round-trips", "statement": "The metadata buffer written to the flatbuffer decodes to exactly the planned offsets and its length is a multiple of 16 bytes.", "quantifier": "every offsets list", "why_tests_cant": "All lengths and values.", "anchors": ["xformer/XCoreOptMain.cpp: offline memory allocation metadata"]}
{"id": "C29", "title": "Version compatibility check is the documented relation", "statement": "A model version string is accepted iff empty, or three numeric components separated by dots (stray extra dots are ignored) with the same major and (major 0: same minor; else minor at least the compiler's), independent of patch.", "quantifier": "all versions", "why_tests_cant": "All versions.", "anchors": ["xformer/XCoreOptMain.cpp: isCompatibleVersion"]}
{"id": "C30", "title": "Operator-split search", "statement": "The automatic operator-split search stops and its suggestion is never worse than a configuration that it measured as better; counterexamples are recorded where the code does not have this property.", "quantifier": "every sequence of measured peaks", "why_tests_cant": "Histories.", "anchors": ["xformer/XCoreOptMain.cpp: op split search loop"]}
{"id": "C31", "title": "Flash image headers locate their engines' data", "statement": "In a generated flash image every engine's header pointers (model, params, operators, execute-in-place) locate exactly the bytes supplied for that engine.", "quantifier": "every number of engines and every content with total size below 2^32", "why_tests_cant": "All contents and numbers of engines.", "anchors": ["python/xmos_ai_tools/xformer/flash.py: FlashBuilder"]}
{"id": "C32", "title": "Nibble swapping is an involution on images", "statement": "Swapping nibbles twice gives back the same image, and preserves length.", "quantifier": "every byte sequence", "why_tests_cant": "All contents.", "anchors": ["python/xmos_ai_tools/xformer/flash.py: swap_nibbles"]}
{"id": "C33", "title": "Device I/O framing round-trips", "statement": "Messages framed into 512-byte packets with a terminating short or zero-length packet are reassembled exactly by a reader that stops at the first short packet, for any sequence of messages.", "quantifier": "every message length and sequence of messages", "why_tests_cant": "All lengths and histories.", "anchors": ["python/xmos_ai_tools/io_server/__init__.py"]}
{"id": "C34", "title": "SAME padding made explicit", "statement": "Replacing a SAME-padded operator by an explicit pad followed by a VALID operator gives the same output size and values.", "quantifier": "all sizes, strides, kernels, dilations and contents", "why_tests_cant": "All shapes.", "anchors": ["xformer/Transforms/TFLPatterns.td", "xformer/Transforms/ApplyTFLPatterns.cpp: getSpatialPadding helpers"]}
{"id": "C35", "title": "8-bit lookup tables agree with the activation", "statement": "For every quantised input value the generated table entry addressed by that value is the clamped, rounded, re-quantised activation of the dequantised value.", "quantifier": "all 256 inputs, all activations and quantisation parameters", "why_tests_cant": "Real-valued parameters.", "anchors": ["xformer/Transforms/ApplyXCPatterns.cpp: getLookupTableI8"]}
{"id": "C36", "title": "Mean and sum lowering reduces exactly the requested axes", "statement": "For contiguous in-range axes, the three-part (outer, reduced, inner) lowering reduces exactly the requested axes.", "quantifier": "every rank, shape and contiguous axis set", "why_tests_cant": "All shapes.", "anchors": ["xformer/Transforms/ReplaceMean.cpp", "xformer/Transforms/ReplaceSum.cpp"]}
{"id": "C37", "title": "Average pooling as depthwise convolution", "statement": "A VALID average pool equals the depthwise convolution with constant 1/(h*w) filter that replaces it; with SAME padding the equality fails at borders (refuted).", "quantifier": "all shapes and contents", "why_tests_cant": "All shapes.", "anchors": ["xformer/Transforms/ReplaceAvgPoolWithConv2D.cpp"]}
{"id": "C38", "title": "Fully connected as 1x1 convolution", "statement": "A fully connected layer equals the 1x1 convolution that replaces it.", "quantifier": "all shapes and contents", "why_tests_cant": "All shapes.", "anchors": ["xformer/Transforms/ReplaceFCWithConv2D.cpp"]}
{"id": "C39", "title": "Fixed-point add/sub multipliers fit their range", "statement": "The integer multipliers computed for quantised add and subtract lie within 16-bit range and the chosen shift is the largest for which they do.", "quantifier": "all positive scale ratios", "why_tests_cant": "Real parameters.", "anchors": ["xformer/Transforms/ReplaceAddSub.cpp"]}
{"id": "C40", "title": "Transposed convolution decomposes into stride-phase convolutions", "statement": "The strided partial convolutions produced for a VALID transposed convolution of one image write every output pixel exactly once with the value of the transposed convolution, for every output size up to (input-1)*stride + max(kernel, stride) (all that TensorFlow and Keras produce without output_padding); for larger outputs they read behind the input tensor (refuted).", "quantifier": "all input sizes, kernels, strides, admissible output sizes and contents", "why_tests_cant": "All shapes.", "anchors": ["xformer/Transforms/ReplaceTransposeConv.cpp"]}
{"id": "C41", "title": "In-place kernels never read overwritten bytes", "statement": "An in-place operator whose kernel runs front to back, writing an output byte only after all input bytes at lower positions of its buffer were read, never reads a byte that it has already overwritten at the arena offsets of the in-place plan.", "quantifier": "every function, every in-place chain and every size", "why_tests_cant": "Depends on the plan of every model.", "anchors": ["xformer/Analysis/MemoryPlan.cpp: getAllocatedOffsets", "xformer/IR/XCoreOps.td: XC_MemoryOverlappable"]}
{"id": "C42", "title": "Reserved tensor size is what the runtime stores", "statement": "The number of arena bytes reserved for a tensor is its element count times the bytes stored per element.", "quantifier": "every shape and element type", "why_tests_cant": "All shapes and types.", "anchors": ["xformer/Utils/Util.cpp: getShapedTypeSize, getTypeSize"]}
{"id": "C43", "title": "Pads are reordered without changing the padded tensor", "statement": "When a channel pad after a spatial pad is replaced by a spatial pad after a channel pad, intermediate and final shapes are those of the created operators and every element of the result is unchanged; the rewrite repeats only for two empty pads.", "quantifier": "every 4-d input, padding values and contents", "why_tests_cant": "All shapes and paddings.", "anchors": ["xformer/Transforms/TFLPatterns.td: PadChannel(PadSpatial)", "xformer/Utils/Util.cpp: hasOnlyChannelPadding, hasOnlySpatialPadding", "xformer/Utils/Utils.td: PadChannelOutputType"]}
{"id": "C44", "title": "Fusing a re-quantisation has a bounded effect", "statement": "Removing the inner of two successive quantisations (also of a convolution's result) leaves exactly representable values unchanged and changes any value inside the inner range by at most one plus half an inner step; without that restriction the change is unbounded (refuted).", "quantifier": "every pair of quantised types, real input and nearest rounding", "why_tests_cant": "Real-valued parameters.", "anchors": ["xformer/Transforms/TFLPatterns.td: Quantize(Quantize()), Quantize(Conv2D()), Quantize(DepthwiseConv2D()), Quantize(Reshape())"]}
{"id": "C45", "title": "Moving activations in and out of operators", "statement": "Unfusing RELU, RELU1 or RELU6 from a binary operator never changes its quantised result; merging a RELU into a convolution is exact for equal result types and off by at most one plus half a step otherwise.", "quantifier": "every quantised type, real result and nearest rounding", "why_tests_cant": "Real-valued parameters.", "anchors": ["xformer/Transforms/TFLPatterns.td: Unfuse activation functions, Merge Relu with Conv"]}
{"id": "C46", "title": "Quantise moved above concatenation", "statement": "Quantising every operand of a concatenation instead of its result gives the same tensor.", "quantifier": "every rank, axis, number and sizes of operands, contents and element-wise requantisation", "why_tests_cant": "All shapes.", "anchors": ["xformer/Transforms/ApplyTFLPatterns.cpp: HoistQuantizeAboveConcatPattern"]}
{"id": "C47", "title": "Explicit broadcasts of binary operands", "statement": "Making the implicit broadcast of an operand explicit changes no element of the result, and the rewriting stops with both operands at the output's shape.", "quantifier": "every shape, content and binary operator", "why_tests_cant": "All shapes.", "anchors": ["xformer/Transforms/TFLPatterns.td: Add TFL_BroadcastToOp if necessary", "xformer/Utils/Util.cpp: hasSameShape"]}
{"id": "C48", "title": "Removed minimum had no effect", "statement": "The minimum with a constant that is dropped before a RELU has no effect on any 8-bit value.", "quantifier": "all 8-bit values and constants", "why_tests_cant": "Needs all values of constant and input.", "anchors": ["xformer/Transforms/TFLPatterns.td: Relu(Minimum(x, 127))", "xformer/Utils/Utils.td: IsSplatAndEqualTo"]}
{"id": "C49", "title": "SAME transposed convolutions become VALID plus a slice", "statement": "Replacing a SAME transposed convolution by a VALID one followed by a slice leaves every output element unchanged when the output is stride times the input and the kernel is at least the stride; the code also does it in other cases, where the result is wrong or the slice out of range (refuted).", "quantifier": "every input size, kernel and stride with the stated relation, every content", "why_tests_cant": "All shapes and contents.", "anchors": ["xformer/Transforms/OptimizeConv2D.cpp: SameToValidTransposeConvPattern"]}
{"id": "C50", "title": "Softmax table and pad value encodings", "statement": "The softmax table holds at position q+128 the exponential of the value that q stands for, and each of the four bytes of the pad value of an 8-bit tensor is its zero point.", "quantifier": "every 8-bit value, every zero point and scale", "why_tests_cant": "Real-valued parameters and all zero points.", "anchors": ["xformer/Transforms/ApplyXCPatterns.cpp: getExpLookupF32, getPadValue"]}
{"id": "C51", "title": "Lowered convolutions compute the TensorFlow Lite value within one step", "statement": "An 8-bit convolution or depthwise convolution that is replaced by an xcore convolution gives, at every output position, the TensorFlow Lite result up to the configured error threshold plus one step (one step for the default threshold); the fused activation is honoured.", "quantifier": "every shape, padding, stride, dilation, filter, bias, quantisation and input, every faithful kernel library", "why_tests_cant": "All shapes, contents and real-valued parameters.", "anchors": ["xformer/Transforms/ConvPatternsTFL.cpp: getConvArgs, getKernelType", "xformer/Transforms/ReplaceConv2D.cpp: matchAndRewrite", "xformer/Transforms/ConvPatterns.td"]}
{"id": "C52", "title": "Multiplier clamping keeps the dynamic range bounded", "statement": "The per-channel output multipliers given to the kernel never exceed the exact ones, never fall below the smallest exact one, and none is more than the configured factor times another; multipliers within the factor are unchanged.", "quantifier": "every list of positive multipliers and every factor", "why_tests_cant": "All real-valued lists.", "anchors": ["xformer/Transforms/ConvPatternsTFL.cpp: multiplier clamping (convMultiplierFactorOption)"]}
{"id": "C53", "title": "The chosen convolution kernel can run on its operands", "statement": "A kernel without padding is chosen only if every read of every window lies inside the input; the direct kernel only for channel counts that are multiples of 32 and 16.", "quantifier": "every shape, padding, stride and dilation", "why_tests_cant": "All shapes.", "anchors": ["xformer/Transforms/ConvPatternsTFL.cpp: getKernelType", "xformer/Transforms/ReplaceConv2D.cpp"]}
{"id": "C54", "title": "Binarised convolutions keep Larq's value", "statement": "An 8-bit binarised convolution that is replaced computes, before rounding, exactly RELU of the +-1 dot product with Larq's post-activation multiplier and bias, in steps of the output quantisation; unsupported operators are rejected and the kernel family matches the result type and depths.", "quantifier": "every shape, bits, filter, multiplier, bias and quantisation", "why_tests_cant": "All contents and real-valued parameters.", "anchors": ["xformer/Transforms/ConvPatternsLCE.cpp: checkIfValid, getArgs, getKernelType"]}
{"id": "C55", "title": "Maximum pooling keeps its result", "statement": "An 8-bit max pool that is replaced gives, at every output position of every batch, the largest element of its window inside the input, with the fused activation applied; every output element is computed by one thread and no read leaves the input tensor.", "quantifier": "every shape, window, stride, padding, activation, batch, thread count and content", "why_tests_cant": "All shapes and contents, and whatever lies behind the tensor in memory.", "anchors": ["xformer/Transforms/ReplaceMaxPool2D.cpp: ReplaceMaxPool2DPattern", "xformer/Utils/ThreadSupport.cpp"]}
{"id": "C56", "title": "Three to four channel pads keep their result", "statement": "An 8-bit pad from three to four channels that is given to the special operator produces exactly the padded tensor, whichever side the padding is on.", "quantifier": "every 4-d shape, content, padding and zero point", "why_tests_cant": "All shapes and contents.", "anchors": ["xformer/Transforms/XCPatterns.td: XC_Pad3To4Op patterns, Has3To4Channel", "xformer/Transforms/ReplacePad.cpp 105-107", "xformer/Utils/Util.cpp: hasOnlyChannelPadding"]}
{"id": "C57", "title": "16-bit element-wise operators are within kernel error plus half a step", "statement": "A 16-bit addition, subtraction or multiplication that is replaced gives the TensorFlow Lite result up to the kernel's error plus half a step, and every quantise or dequantise that is replaced gets a kernel for the element widths of its operand and result.", "quantifier": "all values, scales and element types", "why_tests_cant": "Real-valued parameters.", "anchors": ["xformer/Transforms/XCPatterns.td: Unary i16, Binary i16", "xformer/Transforms/ApplyXCPatterns.cpp: getBinaryI16Blob"]}
{"id": "C58", "title": "16-bit lookup tables respect the error option", "statement": "A 16-bit activation that becomes a table deviates from the exact activation by no more than the configured error for every input value; ELU of a dequantised tensor likewise, in steps of that tensor.", "quantifier": "all 16-bit values, scales, activations and error options", "why_tests_cant": "Real-valued parameters.", "anchors": ["xformer/Transforms/ApplyXCPatterns.cpp: getLookupTableI16", "xformer/Transforms/XCPatterns.td: ELU(Dequantize(int16))"]}
{"id": "C59", "title": "Softmax kernels match their input", "statement": "Only softmax operators with beta 1 are replaced, a kernel for one segment is used only if the whole tensor is one segment, and tensors with several rows get the batched kernel or are left alone.", "quantifier": "every rank, shape and beta", "why_tests_cant": "All shapes.", "anchors": ["xformer/Transforms/XCPatterns.td: isSingleSegment, isSingleBatch, isMultiBatch, betaIsOne"]}
{"id": "C60", "title": "Dynamic batch sizes become one everywhere", "statement": "After dynamic shapes are removed every tensor has its former type with the dynamic batch size replaced by one, function signature and returned values agree, and nothing dynamic is left.", "quantifier": "every function and every tensor type", "why_tests_cant": "All functions and shapes.", "anchors": ["xformer/Transforms/RemoveDynamicShape.cpp: runOnOperation"]}
{"id": "C61", "title": "Operators that are not replaced are restored", "statement": "A convolution that was marked for replacement but is not replaced is again exactly the operator it was, also when it came from a transposed convolution.", "quantifier": "every convolution and transposed convolution", "why_tests_cant": "All attributes and phases.", "anchors": ["xformer/Transforms/ConvRevertPatterns.td", "xformer/Transforms/ReplaceConv2D.cpp: runOnOperation"]}
{"id": "C62", "title": "Advertised arena size is neither padded nor understated", "statement": "The advertised arena size is at least the total size of the tensors that are live together at any moment and at most the total size of all tensors; in the non-overlapping plan every tensor starts at zero or directly behind a tensor that is live at the same time; the advertised peak operation number counts the arena tensors up to the last one that reaches the peak.", "quantifier": "every function, every set of simultaneously live tensors", "why_tests_cant": "Depends on the plan of every model.", "anchors": ["xformer/Analysis/MemoryPlan.cpp: getOffset, getAllocatedOffsets", "xformer/Transforms/PlanMemory.cpp: runOnOperation"]}
{"id": "C63", "title": "Threaded kernels give the same result for every interleaving", "statement": "A convolution or VALID maximum pool of one image that the compiler distributes over threads leaves, for every interleaving of the threads' scratch and output writes, in every output element the value of the operator (convolutions: TensorFlow Lite's value up to one step), writes every element exactly once, uses no more threads than requested, and stays inside the scratch tensor that the compiler reserved.", "quantifier": "every shape, thread count, input, assignment of a region's elements to jobs, and interleaving", "why_tests_cant": "Exponentially many schedules.", "anchors": ["xformer/Transforms/ReplaceConv2D.cpp: matchAndRewrite", "xformer/Transforms/ConvPatterns.h: getAbstractKernelParamsForMultipleThreads", "xformer/Utils/ThreadSupport.cpp: getImageRegionThreadSplits", "xformer/Transforms/ReplaceMaxPool2D.cpp"]}
{"id": "C64", "title": "Threaded transposed convolutions give the same result for every interleaving", "statement": "The chain of strided convolutions made for a transposed convolution, each distributed over threads, leaves the value of the transposed convolution in every output element for every interleaving.", "quantifier": "every shape, stride, thread count, input and interleaving", "why_tests_cant": "Exponentially many schedules.", "anchors": ["xformer/Transforms/ReplaceTransposeConv.cpp", "xformer/Transforms/ReplaceConv2D.cpp: matchAndRewrite", "xformer/Utils/ThreadSupport.cpp: getImageRegionThreadSplits"]}
{"id": "C65", "title": "Splitting a graph is right in whatever order it is done", "statement": "However often and in whatever order and places the rewrites of the splitting pass (splitting an operator by height, merging a slice into another, raising slices above convolutions, pads and element-wise operators, moving and removing placeholders) are applied, the graph stays well-formed and computes the same tensor, as long as raised convolutions are undilated, raised pads are halved, broadcast operands have height one and new slices lie inside their inputs; and every chain of unpadded convolutions can be split completely, from its result to its input.", "quantifier": "every graph, every sequence of rewrites, every chain length, shape, kernel and content", "why_tests_cant": "Unbounded rewriting sequences of a greedy driver.", "anchors": ["xformer/Transforms/OpSplit.cpp: OpSplitPattern, combineSliceWithExisting, RaiseSlicePattern, RaiseSlicePadPattern, RaiseSliceBinaryPattern, RaiseFakeSlicePattern, runOnOperation"]}
{"id": "C66", "title": "Splitting a mean costs at most one step", "statement": "When a mean is split into a mean of the means of the slices, every result differs from the original one by at most one quantisation step.", "quantifier": "every shape, content, quantisation, number of parts and rounding to nearest", "why_tests_cant": "Real-valued parameters, all contents and schedules.", "anchors": ["xformer/Transforms/OpSplit.cpp: RaiseFakeSliceToSliceMeanPattern, RaiseSliceBinaryPattern"]}
{"id": "C67", "title": "No placeholder is left in the compiled model", "statement": "Every placeholder that splitting puts on a broadcast operand of a binary operator is removed or resolved by the end of the pass.", "quantifier": "every chain of producers, labels and slice sizes", "why_tests_cant": "All graphs.", "anchors": ["xformer/Transforms/OpSplit.cpp: RaiseFakeSlicePattern, RaiseFakeSliceConstPattern, RaiseFakeSliceToSliceMeanPattern", "xformer/IR/XCoreOps.td: XC_FakeSliceOp"]}
{"id": "C68", "title": "Host inference uses the inputs that were set last", "statement": "On a host interpreter with one model, after any history of calls with tensors of the right sizes, setting every input (in any order, any number of times), invoking and reading an output by its tensor index gives what the model computes for the values set last; after a reset the result does not depend on what was called before.", "quantifier": "every model, every history of calls, every order of assignments, every value", "why_tests_cant": "Unbounded histories.", "anchors": ["python/xmos_ai_tools/xinterpreters/host_interpreter.py: set_tensor, get_tensor, invoke, reset, set_model", "python/xmos_ai_tools/xinterpreters/src/dll_interpreter.cc: set_input_tensor, get_output_tensor, invoke, reset"]}
{"id": "C69", "title": "Setting a model makes it the one that runs", "statement": "After any history of calls, setting a model for an index loads that model, and later calls that name the index use it; a model that cannot be loaded is reported.", "quantifier": "every history of calls, model and index", "why_tests_cant": "Unbounded histories.", "anchors": ["python/xmos_ai_tools/xinterpreters/host_interpreter.py: set_model, initialise_interpreter, get_model", "python/xmos_ai_tools/xinterpreters/src/dll_interpreter.cc: initialize"]}
{"id": "C70", "title": "Host interpreter calls stay inside the buffers", "statement": "No history of calls on a host interpreter with a model reads or writes outside the model's buffers: wrong sizes and positions are refused.", "quantifier": "every model, every history of calls, every value and array length", "why_tests_cant": "Unbounded histories.", "anchors": ["python/xmos_ai_tools/xinterpreters/host_interpreter.py: set_tensor, get_tensor, get_input_tensor, get_tensor_size", "python/xmos_ai_tools/xinterpreters/src/dll_interpreter.cc: set_input_tensor, get_output_tensor, get_input_tensor"]}
{"id": "C71", "title": "Kernel parameters in operator options are word aligned", "statement": "In the options of a convolution, maximum pool or multiplication every parameter structure starts at a multiple of four bytes, for every number of threads, as long as the structures are whole words of at most 253 bytes; longer ones are misaligned.", "quantifier": "all structure lengths and thread counts", "why_tests_cant": "All lengths and thread counts.", "anchors": ["xformer/Transforms/TranslateToCustomOp.cpp: Conv2DV2Op::buildCustomOptions, MaxPool2DOp::buildCustomOptions, MulOp::buildCustomOptions"]}
{"id": "C72", "title": "Operator options lose nothing", "statement": "The name and the options of a custom operator determine the operator and all its attributes: two operators that differ in any attribute differ in name or in the value of some key, and no key is written twice.", "quantifier": "every operator and all attribute values", "why_tests_cant": "All attribute values.", "anchors": ["xformer/Transforms/TranslateToCustomOp.cpp: buildCustomOptions, RewriteToCustomOp", "xformer/IR/XCoreOps.td"]}
{"id": "C73", "title": "convert() passes its parameters on unchanged", "statement": "The compiler started by convert() sees exactly the given parameters with their values, the output file and the input file.", "quantifier": "all file names and parameters", "why_tests_cant": "All strings.", "anchors": ["python/xmos_ai_tools/xformer/__init__.py: convert"]}
{"id": "C74", "title": "convert() reports the arena size that the compiler printed", "statement": "After a successful convert() tensor_arena_size() is the number that the compiler printed last after 'Tensor arena size :', whatever else it printed.", "quantifier": "every compiler output", "why_tests_cant": "All texts.", "anchors": ["python/xmos_ai_tools/xformer/__init__.py: convert, tensor_arena_size", "xformer/XCoreOptMain.cpp: main"]}
{"id": "C75", "title": "A failed compilation changes nothing", "statement": "A command line that breaks a rule (thread count outside one to five, no output name, memory analysis with other options, external memory without array, size limit without weights file, target size with manual splitting, incompatible library versions) is refused without touching a file; so is a model that cannot be read; and no failed run changes any file. No run touches files other than the output, the sources named after it and the weights files.", "quantifier": "all options, library versions, inputs, failures and file systems", "why_tests_cant": "All combinations of options and failure points.", "anchors": ["xformer/XCoreOptMain.cpp: main, runPassPipeline", "xformer/Utils/FileIO.cpp: writeDataToFile, writeWeightsToFile"]}
{"id": "C76", "title": "A successful compilation leaves all its files", "statement": "When the compiler reports success with an output name, the model, its two source files and the weights files hold what this run produced, and every other file is as before.", "quantifier": "all options, file names, contents and earlier files", "why_tests_cant": "All names and contents.", "anchors": ["xformer/XCoreOptMain.cpp: main", "xformer/Utils/FileIO.cpp: writeDataToFile, writeWeightsToFile", "xformer/Transforms/Passes.cpp"]}
{"id": "C77", "title": "An interrupted compilation never mixes old and new files", "statement": "Killed at any moment, the compiler leaves either the old model with the old weights or a model whose weights are complete and new; a touched source file stands beside the complete new model; no file holds anything but its old contents or a beginning of its new ones.", "quantifier": "every crash point, all options and earlier files", "why_tests_cant": "Crash points.", "anchors": ["xformer/XCoreOptMain.cpp: main", "xformer/Utils/FileIO.cpp: writeDataToFile", "xformer/Transforms/WriteWeights.cpp: runOnOperation", "xformer/Transforms/Passes.cpp"]}
{"id": "C78", "title": "Weights of every subgraph are in the weights file", "statement": "In a model with several subgraphs every load operator of every subgraph finds its constant at its address in the weights file, in whatever order the subgraphs are compiled.", "quantifier": "all models, numbers of subgraphs and orders", "why_tests_cant": "All models and schedules.", "anchors": ["xformer/Transforms/WriteWeights.cpp: runOnOperation, WriteWeightsPattern"]}
{"id": "C79", "title": "The memory plan in the model is that of its main subgraph", "statement": "If the compiled model carries a memory plan, the plan has one entry per tensor of the main subgraph and the main subgraph runs correctly in it, whatever other subgraphs there are and in whatever order they are compiled.", "quantifier": "all models, subgraphs and orders", "why_tests_cant": "All models and schedules.", "anchors": ["xformer/Transforms/PlanMemory.cpp: runOnOperation", "xformer/XCoreOptMain.cpp: main"]}
{"id": "C80", "title": "A convolution compiled end to end gives TensorFlow Lite's result to within the threshold", "statement": "An 8-bit convolution or depthwise convolution (batch 1, one group, depth multiplier 1, filter zero points 0, scales at most the multiplier factor and within it of each other, activation none or RELU, for depthwise RELU with output zero point -128) that goes through the passes - explicit padding, swapping of pads, padding of channels, splitting by output channels to any limit, splitting off RELU, replacement by the device's convolution - is, in whatever order the patterns apply, a graph of device operators whose result differs from TensorFlow Lite's by at most the error threshold plus one step, and by at most one step for thresholds below one; with exact kernels the graph rewrites alone change nothing; and the passes come to an end.", "quantifier": "every filter, bias, shape, stride, dilation, padding, quantisation, input, order of patterns and split limit", "why_tests_cant": "All shapes, contents and orders.", "anchors": ["xformer/Transforms/TFLPatterns.td", "xformer/Transforms/OptimizeConv2D.cpp", "xformer/Transforms/ConvPatterns.td", "xformer/Transforms/ReplaceConv2D.cpp", "xformer/Transforms/XCPatterns.td", "xformer/Transforms/Passes.cpp"]}
{"id": "C81", "title": "An average pool compiled end to end gives the quantised mean to within the threshold", "statement": "An 8-bit average pool with VALID padding that is replaced by a depthwise convolution computes on the device, after all passes, the quantised mean of every window to within the error threshold plus one step, and to within one step for thresholds below one (activation none, or RELU with output zero point -128; multiplier factor at least one).", "quantifier": "every window, stride, shape, quantisation, input, order of patterns and split limit", "why_tests_cant": "All shapes and contents.", "anchors": ["xformer/Transforms/ReplaceAvgPoolWithConv2D.cpp", "xformer/Transforms/OptimizeConv2D.cpp", "xformer/Transforms/ReplaceConv2D.cpp", "xformer/Transforms/Passes.cpp"]}
{"id": "C82", "title": "A fully connected layer compiled end to end gives TensorFlow Lite's result to within the threshold", "statement": "An 8-bit fully connected layer whose dimensions before the last two are one computes on the device, after all passes, every element of TensorFlow Lite's result to within the error threshold plus one step, and to within one step for thresholds below one (filter zero points 0, scales at most the multiplier factor and within it of each other, activation none or RELU).", "quantifier": "every filter, bias, number of rows, quantisation, input, order of patterns and split limit", "why_tests_cant": "All shapes and contents.", "anchors": ["xformer/Transforms/ReplaceFCWithConv2D.cpp", "xformer/Transforms/OptimizeConv2D.cpp", "xformer/Transforms/ReplaceConv2D.cpp", "xformer/Transforms/Passes.cpp"]}
{"id": "C83", "title": "A network of data-movement operators compiled, planned and run in the arena gives the network's outputs", "statement": "A network of slices, strided slices (unit strides, in-range arguments), pads (three to four channels only behind the others), broadcasts, concatenations (of more than 13 operands: axis from the front or -1), reshapes, constants and any other operators is compiled to a function that can be planned as soon as it has an arena tensor; all its tensors fit in the advertised arena; and running it there, from any memory contents, returns exactly the network's outputs.", "quantifier": "every well-typed network of any size, every choice of operators that the passes leave alone, every meaning of the other operators, all inputs and initial memories", "why_tests_cant": "All graphs, shapes, contents and plans.", "anchors": ["xformer/Transforms/ReplaceSlice.cpp", "xformer/Transforms/ReplaceStridedSlice.cpp", "xformer/Transforms/ReplacePad.cpp", "xformer/Transforms/ReplaceBroadcast.cpp", "xformer/Transforms/ReplaceConcat.cpp", "xformer/Transforms/PlanMemory.cpp", "xformer/Analysis/MemoryPlan.cpp"]}
{"id": "C84", "title": "A network with quantised arithmetic compiled, planned and run in the arena gives every operator's result within tolerance", "statement": "A network of 8-bit additions, subtractions and multiplications with broadcasting and fused activations, 8-bit activation functions, 8-bit (depthwise) convolutions, transposed convolutions (VALID or SAME, the sizes of C97), average and maximum pools without padding, fully connected layers, means and sums, data movement as in the previous property and any other operators is compiled - broadcasts made explicit, activations unfused and turned into lookup tables with their constants, convolutions padded, split and given scratch buffers and constants, average pools and layers turned into convolutions - to a function that can be planned as soon as it has an arena tensor; all its tensors fit in the advertised arena; and running it there, from any memory contents, returns the values of tensors in which every operator's result is what TensorFlow Lite specifies for its operands: exactly for data movement, the nearest representable value for activation functions, within one step for arithmetic, means and sums, exactly the largest element for maximum pools, within the error threshold plus one step for convolutions, average pools and fully connected layers.", "quantifier": "every well-typed network of any size, every quantisation in the supported range, every order of the convolution patterns, all inputs and initial memories", "why_tests_cant": "All graphs, shapes, quantisations, contents and plans.", "anchors": ["xformer/Transforms/TFLPatterns.td", "xformer/Transforms/XCPatterns.td", "xformer/Transforms/ReplaceAddSub.cpp", "xformer/Transforms/ReplaceMul.cpp", "xformer/Transforms/ReplaceConv2D.cpp", "xformer/Transforms/ReplaceAvgPoolWithConv2D.cpp", "xformer/Transforms/ReplaceFCWithConv2D.cpp", "xformer/Transforms/ReplaceMaxPool2D.cpp", "xformer/Transforms/ReplaceMean.cpp", "xformer/Transforms/ReplaceSum.cpp", "xformer/Transforms/PlanMemory.cpp", "xformer/Analysis/MemoryPlan.cpp"]}
{"id": "C85", "title": "The fixed-point logarithms are accurate for every word", "statement": "For every non-zero 32-bit word log2_8 is at most eight times the binary logarithm and less than it by at most 1.7, and log2_16 is within -2..1 of 1024 times the binary logarithm; log2_8 never decreases, log2_16 never falls back by more than two units (it does fall back).", "quantifier": "every 32-bit word and pair of words", "why_tests_cant": "2^32 words and real-valued logarithms.", "anchors": ["examples/audio_network/src/log.c: log2_8, log2_16"]}
{"id": "C86", "title": "The logarithms keep their accuracy on 64-bit numbers", "statement": "For every non-zero 64-bit number log2_16_64 is within -2..1 of 1024 times the binary logarithm, and log2_8_64 at most 1.7 below eight times it.", "quantifier": "every 64-bit number", "why_tests_cant": "2^64 numbers.", "anchors": ["examples/audio_network/src/log.c: log2_8_64, log2_16_64"]}
{"id": "C87", "title": "The integer hypotenuse is within 80 units", "statement": "For all 32-bit x and y, hypot_i(x, y) read as an unsigned word is within 80 of the length of (x, y), and so it is read as a signed int when the length is at most 2^31 - 81.", "quantifier": "all pairs of 32-bit words", "why_tests_cant": "2^64 pairs.", "anchors": ["examples/audio_network/src/hypot.S: hypot_i"]}
{"id": "C88", "title": "The mel spectrum is the matrix product", "statement": "For every matrix in compressed form, every spectrum whose absolute values add up to less than 2^31, mel_compress fills the rows of the matrix with the product of matrix and spectrum, within one unit per column that touches the row; no magnitude is lost (the rows add up to the spectrum's sum); nothing outside the arrays is touched.", "quantifier": "every matrix and spectrum", "why_tests_cant": "All sizes and contents.", "anchors": ["examples/audio_network/src/mel.c: mel_compress", "examples/audio_network/src/mel_parameters.h"]}
{"id": "C89", "title": "Masks are interpolated and never amplify", "statement": "Every spectral mask lies between the two mel masks of its column; equal mel masks give that mask everywhere; masks of one leave the spectrum unchanged bit for bit; masks between zero and one make no component larger.", "quantifier": "every matrix, all masks and spectra", "why_tests_cant": "All sizes and contents.", "anchors": ["examples/audio_network/src/mel.c: mel_expand", "examples/audio_network/src/dsp.c: dsp_apply_masks"]}
{"id": "C90", "title": "The script that compresses the mel matrix keeps it", "statement": "For every matrix whose columns hold one or two adjacent non-zero elements that add up to one, with starts that begin at the first row and advance by at most one, the tables that compress_mel.py prints describe the same matrix to within a millionth, and with them mel_compress computes the matrix product; the tables that are checked in are the script's output for the matrix they describe.", "quantifier": "every such matrix, every spectrum", "why_tests_cant": "All sizes and contents.", "anchors": ["examples/audio_network/src/compress_mel.py", "examples/audio_network/src/mel.c: mel_compress", "examples/audio_network/src/mel_parameters.h"]}
{"id": "C91", "title": "Overlap-add reconstructs the signal", "statement": "If the spectrum is not changed, and the transforms are exact, every sample that leaves the overlap-add is the input sample three blocks before, within -20..4 units of 2^31, for every signal that stays 20 units below full scale and every sample-rate converter.", "quantifier": "every signal, length and converter", "why_tests_cant": "All signals and lengths.", "anchors": ["examples/audio_network/src/dsp.c: dsp_time_to_freq, dsp_freq_to_time", "examples/audio_network/src/raised_cosine.h"]}
{"id": "C92", "title": "Network outputs become valid masks", "statement": "For every button state, outputs between zero and one read inside the tables; masks are never negative and grow with the output; in the pass-through state all masks are one and the spectrum is handed on bit for bit.", "quantifier": "every button state, model, state and output", "why_tests_cant": "All values.", "anchors": ["examples/audio_network/src/support.cpp: nn_predict_masks, output_lookup, button_lookup"]}
{"id": "C93", "title": "The audio threads delay by two blocks and mix nothing up", "statement": "For every interleaving of the transport thread and the DSP thread in which the DSP thread finishes a block before the next one is complete, block k of the samples handed back is the processing of block k - 2 of the samples received, in order and on every channel.", "quantifier": "every signal, processing, block length and interleaving", "why_tests_cant": "Exponentially many schedules.", "anchors": ["examples/audio_network/src/data_path.c: nn_data_transport_thread, nn_dsp_thread, data_to_and_from_nn, nn_offload_data_to_dsp_engine"]}
{"id": "C94", "title": "A network whose constants are in the weights file gives the network's outputs", "statement": "After any network (as in the two properties before the audio example) is compiled, the constants chosen by the size options are moved to the weights file and loaded by operators placed before their first use, one operator for all constants of an operator where they are used once. The function with the loads can be planned as soon as it has an arena tensor; all its tensors, the loaded ones too, fit in the advertised arena; and running it there with the file that was written returns exactly the network's outputs (quantised networks: within the tolerances). While the budget lasts no constant larger than the limit stays in the model.", "quantifier": "every well-typed network, size options, order in which the rewrite driver tries and visits constants, storage of constants (splat or dense), weights in flash or external memory, all inputs and initial memories", "why_tests_cant": "All graphs, contents, orders and plans.", "anchors": ["xformer/Transforms/ApplyLoadConstantOpPatterns.cpp", "xformer/Transforms/LoadConstantOpPatterns.td", "xformer/Transforms/WriteWeights.cpp", "xformer/Transforms/PlanMemory.cpp", "xformer/Analysis/MemoryPlan.cpp"]}
{"id": "C95", "title": "Rewriting a network before lowering keeps its results, in any order", "statement": "Moving transposes above pads, cancelling inverse transposes, swapping channel and spatial pads, moving quantisations above concatenations and removing unused operators, any number of times and in any order, leaves every network well typed, with the same arguments and number of results, and with exactly the same results; so the rewritten network, compiled, planned and run in the arena, returns the results of the original one. Moves of transposes and quantisations come to an end (swaps of empty pads need not). When an argument may be changed, the network that takes the transposed argument gives the results of the original network.", "quantifier": "every well-typed network, also with shared operands, every sequence of rewrites, every meaning of the other operators, all inputs and initial memories", "why_tests_cant": "All graphs, rewriting orders and contents.", "anchors": ["xformer/Transforms/OptimizeTranspose.cpp", "xformer/Transforms/TFLPatterns.td", "xformer/Transforms/ApplyTFLPatterns.cpp: HoistQuantizeAboveConcatPattern"]}
{"id": "C96", "title": "A passing integration test bounds the error of every output", "statement": "If the acceptance test of the repository passes for a converted model, then in every run the outputs of the converted model correspond one to one to the reference's, no element differs by more than the maximal error, the two averages over all runs are within their bounds, and at least the required number of elements was compared; a model for which this is so passes; the test ends as soon as every run compares something.", "quantifier": "all outputs, numbers of runs, integer types and bounds", "why_tests_cant": "All outputs and histories of runs.", "anchors": ["integration_tests/runner.py: test_model, get_input_tensors, get_params"]}
{"id": "C97", "title": "A transposed convolution compiled end to end gives TensorFlow Lite's result to within the threshold", "statement": "An 8-bit transposed convolution of one image that the compiler replaces - SAME padding made VALID with a slice, the padded input, one strided device convolution per output phase, each distributed over threads - leaves in every run, for every number of threads and interleaving and whatever the memory held before, in every output element TensorFlow Lite's value to within the error threshold plus one step, and to within one step for thresholds below one.", "quantifier": "every kernel, bias, shape, stride, quantisation, activation, output size, input, thread count and interleaving", "why_tests_cant": "All shapes, contents and schedules.", "anchors": ["xformer/Transforms/ReplaceTransposeConv.cpp", "xformer/Transforms/OptimizeConv2D.cpp", "xformer/Transforms/ReplaceConv2D.cpp", "xformer/Utils/ThreadSupport.cpp: getImageRegionThreadSplits"]}
{"id": "C98", "title": "The shipped audio network runs correctly in its arena, frame after frame", "statement": "The compiled network in examples/audio_network has exactly the arena layout that the memory planner (without overlap) computes for it; one call of model_invoke leaves in both outputs what the network computes when every tensor has storage of its own, whatever the arena held before and whatever operators do with their persistent buffers; no operator's output overlaps its inputs; persistent buffers that take at most 39728 bytes are disjoint, aligned and clear of all tensors however often model_init is called; and for any number of frames nn_predict_masks produces the masks of the recurrent network. An application must write both inputs before each inference: they do not survive one.", "quantifier": "all constants, meanings of operators, inputs, frames, button states, initial arenas and persistent requests within the bound", "why_tests_cant": "All inputs, histories and operator behaviours.", "anchors": ["examples/audio_network/src/model_audioi16.tflite.cpp: tflTensors, tflNodes, model_init, model_invoke, AllocatePersistentBuffer", "examples/audio_network/src/support.cpp: nn_predict_masks", "xformer/Analysis/MemoryPlan.cpp: getAllocatedOffsets"]}
{"id": "C99", "title": "Rewriting a quantised network before compiling keeps every operator's result within tolerance", "statement": "Whatever transposes, pads and quantisations the rewriting passes move, cancel or duplicate in a network of quantised operators (convolutions, transposed convolutions, pools, fully connected layers, arithmetic, activations, reductions), and in whatever order, the compiled network still plans and fits, and what it returns is what the original network specifies: there are values for all tensors of the original network, the given inputs among them, such that every operator's result is within its tolerance and the returned bytes are the values of the outputs.", "quantifier": "every quantised network, every sequence of rewrites, every input, every initial memory, with and without a weights file", "why_tests_cant": "A test rewrites one network in one order and compares one run; the interaction of rewrites with rounding, planning and weights holds for all networks and orders only by proof.", "anchors": ["xformer/Transforms/OptimizeTranspose.cpp", "xformer/Transforms/TFLPatterns.td", "xformer/Transforms/ApplyTFLPatterns.cpp", "xformer/Transforms/Passes.cpp", "xformer/Analysis/MemoryPlan.cpp"]}
{"id": "C100", "title": "Splitting a network by rows keeps its results", "statement": "However operators of a network are split by height, and however the slices are then combined with others, raised above (undilated) convolutions and depthwise convolutions, pads, additions and multiplications, in any order and mixed with the rewrites of transposes, pads and quantisations, the network stays well typed, keeps its arguments and the number of results and computes exactly the same results, as long as a convolution computes every output position from its window, filter and bias and an addition or multiplication every position from its two operands there. So the split network, compiled, planned and run in the arena, returns the results of the original one.", "quantifier": "every network, number of splits, sequence of steps, kernel functions, input and initial memory", "why_tests_cant": "A test splits one network in one way; steps may be combined in infinitely many ways.", "anchors": ["xformer/Transforms/OpSplit.cpp: OpSplitPattern, RaiseSlicePattern, RaiseSlicePadPattern, RaiseSliceBinaryPattern, combineSliceWithExisting", "xformer/Transforms/Passes.cpp"]}
{"id": "C101", "title": "Combining slices keeps the order of definitions", "statement": "When the splitting pass replaces a slice by a slice of another, larger slice of the same value, every operator of the network still comes after its operands, and the results are the same.", "quantifier": "every network and every pair of slices", "why_tests_cant": "Which of two slices comes first depends on the whole history of the pass.", "anchors": ["xformer/Transforms/OpSplit.cpp: combineSliceWithExisting"]}
{"id": "C102", "title": "Threads and uninitialised scratch memory never change a planned model's results", "statement": "When a compiled model runs in the arena that was planned for it, with the threads of every operator interleaved in any way, each thread working in its own section of the operator's scratch tensor, and with scratch tensors that nothing initialises, every operator and the final return find exactly the data they would find if every tensor had memory of its own and operators ran in one thread. Threads that do the regions the compiler computes, from patches they put into their sections, meet the conditions; so do operators that work block by block in place of an operand.", "quantifier": "every model, plan, number of threads, interleaving, initial memory and input", "why_tests_cant": "Exponentially many interleavings for every operator, and all initial contents of the arena.", "anchors": ["xformer/Transforms/ReplaceConv2D.cpp: scratch and threads", "xformer/Transforms/ReplaceMaxPool2D.cpp", "xformer/IR/XCoreOps.td: fake_scratch", "xformer/Analysis/MemoryPlan.cpp: getAllocatedOffsets", "xformer/Utils/ThreadSupport.cpp"]}
{"id": "C103", "title": "Models that share an arena do not disturb each other", "statement": "Any number of compiled models may use one arena of LARGEST_TENSOR_ARENA_SIZE bytes, whatever the order in which their headers are included: as long as a model is initialised after the application turned to it, and its inputs are written after that and after its last inference, every inference gives the outputs the model gives in an arena of its own, state that operators keep between inferences included. No history touches memory outside the arena. Without the initialisation, or without writing the inputs again, results are wrong.", "quantifier": "every number of models, history of inits, inputs and inferences, operators and initial arena", "why_tests_cant": "Unbounded histories, and all models.", "anchors": ["examples/app_flash_two_models_one_arena/src/main.cpp", "examples/audio_network/src/model_audioi16.tflite.h: LARGEST_TENSOR_ARENA_SIZE", "examples/audio_network/src/model_audioi16.tflite.cpp: model_init, model_invoke, AllocatePersistentBuffer"]}
{"id": "C104", "title": "An image kept at the start of the arena reaches the model", "statement": "An application that stores its image at the start of the tensor arena, initialises the model and then copies the image, less 128 per byte, forward to the input tensor gives the model exactly the shifted image, wherever the compiler has placed the input tensor, so the results are those of the network for it.", "quantifier": "every network, plan, image, contents of the rest of the arena and of the operators' buffers", "why_tests_cant": "The place of the input depends on the sizes of all tensors of the model; every image.", "anchors": ["examples/app_mobilenetv2/src/support.cpp: run", "examples/app_yolov8_classification/src/support.cpp: run", "xformer/Analysis/MemoryPlan.cpp: getAllocatedOffsets, getOffset"]}
{"id": "C105", "title": "The example applications report the most likely classes", "statement": "The class that the classification examples report is the first one with the greatest output, for all outputs; the examples that print the top three classes print the three classes with the greatest outputs; percentages are between 0 and 100 and grow with the output.", "quantifier": "all outputs and numbers of classes", "why_tests_cant": "All lists of outputs.", "anchors": ["examples/app_mobilenetv2/src/support.cpp: run", "examples/app_yolov8_classification/src/support.cpp: run", "examples/app_single_model_on_two_tiles/src/support.cpp: run", "examples/app_single_model_on_one_tile_and_DDR/src/support.cpp: run", "examples/app_no_flash/src/support.cpp: run"]}
{"id": "C106", "title": "A compiled quantised network computes what the network given to the compiler means", "statement": "Take any network of the supported 8-bit and 16-bit operators, remove or move its transposes, pads and concatenations by the compiler's patterns in any order, replace its operators, move any choice of constants to the weights file and plan the arena. However the threads of the operators then interleave and whatever memory holds at the start, every inference returns outputs that follow from the inputs by the quantised reference semantics of the network as it was given, each operator within its stated tolerance; and every such network can be compiled and run this way.", "quantifier": "every network, rewrite order, compiler option, choice of constants, plan, interleaving, initial memory and input", "why_tests_cant": "All networks, times all orders of the rewrite driver, times all interleavings.", "anchors": ["xformer/Transforms/Passes.cpp: buildXCorePassPipeline", "xformer/Transforms/OptimizeTranspose.cpp", "xformer/Transforms/WriteWeights.cpp", "xformer/Analysis/MemoryPlan.cpp", "xformer/Transforms/ReplaceConv2D.cpp"]}
{"id": "C107", "title": "Reshapes that the compiler fuses or drops change no result", "statement": "After operators have been replaced, the compiler fuses reshapes with the convolutions before and after them, combines chains of reshapes, drops reshapes that change nothing and operators whose results are not used, computes data movement of constants at compile time and moves operators. Whatever it does of this, in any order, the function that remains still computes the network: it can be planned, everything fits in the advertised arena, and running it (also on threads, with constants in the weights file) returns the results of the network that was given to the compiler. The rewriting always ends, and then no reshape is left next to a convolution or another reshape and everything is used; a fully connected layer ends as a single convolution.", "quantifier": "every well-typed network, rewrite order, choice of convolutions, compiler option, plan, interleaving, memory and input", "why_tests_cant": "All networks and all orders in which the rewrite driver may work; every use of a value must be renumbered consistently.", "anchors": ["xformer/Transforms/XCPatterns.td: fuse XC_Conv2D and Reshape", "xformer/Transforms/Passes.cpp: createCanonicalizerPass", "xformer/Transforms/ReplaceFCWithConv2D.cpp"]}
{"id": "C108", "title": "The memory analysis report is an accurate picture of the plan", "statement": "With memory analysis enabled the compiler prints one line per operation: a 60-column picture of the arena and two figures. For every model the report is printed without undefined behaviour; line t names operation t; a column shows the letter of the tensor in use that contains the end of that column and is blank if there is none, so the clash mark never appears; the figures are the total size of the tensors in use and the end of the highest of them, in kB rounded up; the largest peak shown is the peak of the plan, and no tensor is in use after the last line.", "quantifier": "every function, plan, operation and column", "why_tests_cant": "All shapes of networks and all tensor sizes; rounding of offsets to columns.", "anchors": ["xformer/Analysis/MemoryPlan.cpp: printMemoryPlan, getOrdinalCharacter", "xformer/XCoreOptMain.cpp: main"]}
{"id": "C109", "title": "16-bit operators and softmax in a compiled network compute their real-valued functions", "statement": "In every well-typed quantised network the results of 16-bit additions, subtractions and multiplications (with broadcasting and fused activations), activation functions, changes of scale, conversions from and to 32-bit floats, and of 8-bit softmax (one row or several) are the real-valued functions of their operands, saturated, in the steps of the result, within a stated tolerance: whether the compiler replaces the operator or leaves it to TensorFlow Lite, however the network is rewritten, wherever constants are kept and however the threads interleave. Floats in range that are converted to 16 bits and back come back within that tolerance.", "quantifier": "every network, operator type and shape, operand contents, rewrite order, choice of constants, plan, interleaving and initial memory", "why_tests_cant": "All 2^16 values per element times all scales, shapes and networks; the constants that carry the arithmetic are made at compile time.", "anchors": ["xformer/Transforms/XCPatterns.td", "xformer/Transforms/ApplyXCPatterns.cpp: getBinaryI16Blob, getUnaryI16Blob, getExpLookupF32, getLookupTableI16", "xformer/Transforms/TFLPatterns.td", "xformer/IR/XCoreOps.td: XC_BinaryI16Op, XC_UnaryI16Op, XC_SoftmaxOp, XC_BatchedSoftmaxOp"]}
{"id": "C110", "title": "A compiled 16-bit convolution computes the TensorFlow Lite convolution", "statement": "A convolution or fully connected layer on 16-bit data with 8-bit weights gives, after all passes, at every output position the TensorFlow Lite result up to the error of the 16-bit kernel plus half a step: whatever pads, slices and concatenations the compiler inserts and however it splits the channels. Once padding is carried through nothing is left to the reference kernels: every part runs on the 16-bit kernel, which only reads inside its input. A fused activation must be kept.", "quantifier": "every convolution and fully connected layer, scales, bias, padding, stride, dilation, split, order of rewriting, and all 16-bit inputs", "why_tests_cant": "All geometries and channel counts times all input tensors; channels are padded to multiples of 16 and split while the filter is renumbered.", "anchors": ["xformer/Transforms/TFLPatterns.td", "xformer/Transforms/OptimizeConv2D.cpp", "xformer/Transforms/ConvPatterns.td", "xformer/Transforms/ConvPatternsTFL.cpp: getConv2DValidDirectI16Params, getKernelType", "xformer/Transforms/ReplaceConv2D.cpp", "xformer/Transforms/ReplaceFCWithConv2D.cpp"]}
{"id": "C111", "title": "16-bit convolution networks compute the convolutions in the arena, and floats through a 16-bit layer the real layer", "statement": "In every well-typed quantised network each 16-bit convolution and fully connected layer - split, padded, reshaped and concatenated by the compiler, with its weights expanded to 16 bits at run time by an operator of its own - gives, in the compiled model's planned arena and with the threads interleaved in any way, the TensorFlow Lite result for the operand it gets, up to the kernel's error and half a step. So a model that quantises floats to 16 bits, applies a layer and dequantises gives the real-valued layer up to one step and the kernel's error, the conversion error weighted by the weights, and float rounding, as long as values are in range.", "quantifier": "every network, geometry, scales, weights, biases, rewrite order, split, choice of constants, plan, interleaving, initial memory and input", "why_tests_cant": "All networks and all 16-bit or float inputs; one convolution becomes a variable number of operators and constants that must be wired together.", "anchors": ["xformer/Transforms/ReplaceConv2D.cpp", "xformer/Transforms/ConvPatternsTFL.cpp: getConv2DValidDirectI16Params", "xformer/IR/XCoreOps.td: XC_Expand8To16Op, XC_Conv2DV2Op", "xformer/Transforms/ReplaceFCWithConv2D.cpp", "xformer/Transforms/OptimizeConv2D.cpp", "xformer/Analysis/MemoryPlan.cpp"]}
{"id": "C112", "title": "A compiled network stays within a bound of the reference that can be computed from its weights and scales", "statement": "Run a quantised network with TensorFlow Lite's reference operators, and compiled on the device, on the same inputs or on inputs that differ by a known number of steps. Then every output of the device differs from the reference output by at most a bound that is computed from the network alone, operator by operator: the difference in the operands grows at most by the multiplier times the sum of the magnitudes of the weights (by the ratio of the scales, the slope of the activation function, the number of summed elements, ...), plus one step of rounding if there is any difference, plus the tolerance of the compiled operator. Data movement, maximum pools and constants add nothing. The reference run exists for every network and input, and two builds or devices whose kernels round differently stay within the same bound for twice the tolerances.", "quantifier": "every network, scales, weights, rewrite order, split, plan, interleaving, initial memory, all inputs and all pairs of nearby inputs", "why_tests_cant": "Rounding differences accumulate over the layers in all combinations; a test sees the differences of its own inputs only, never their largest value.", "anchors": ["xformer/Transforms/Passes.cpp: buildXCorePassPipeline", "xformer/Transforms/ReplaceConv2D.cpp", "xformer/Transforms/ReplaceAddSub.cpp", "xformer/Transforms/ReplaceMul.cpp", "xformer/Transforms/XCPatterns.td", "xformer/Transforms/ReplaceMean.cpp", "xformer/Transforms/ReplaceSum.cpp", "xformer/Transforms/ReplaceBroadcast.cpp", "python/xmos_ai_tools/xformer/__init__.py: convert"]}
{"id": "C113", "title": "Binarised networks compute the convolution of signs", "statement": "In every well-typed network lq.Quantize packs the signs of its operand, one bit for each 8-bit number in the order of the elements, set if it is below the zero point; every lq.Bconv2d gives, in the compiled model's planned arena and with the threads interleaved in any way, what Larq's operator gives for its operand: a packed result has exactly the bits whose sum of products of signs is below the threshold, an 8-bit result is the affine transform of the RELU of that sum, saturated, up to the kernel's error. Padding of SAME with a pad value of one becomes zero bits that count as one; SAME with another pad value is refused. So a model that takes the signs of an image and convolves them gives the convolution of the signs of the numbers.", "quantifier": "every network, geometry, stride, dilation, depth, filter, thresholds, multipliers, rewrite order, choice of constants, plan, interleaving, initial memory and input", "why_tests_cant": "All packed inputs and filters times all geometries; bits are packed into words, padded as words, and unpacked by kernels that are chosen by the depth.", "anchors": ["xformer/Transforms/ConvPatternsLCE.cpp", "xformer/Transforms/ReplaceConv2D.cpp", "xformer/Transforms/TFLPatterns.td", "xformer/Transforms/ApplyTFLPatterns.cpp: getBConv2DPaddingValues", "xformer/Transforms/XCPatterns.td", "xformer/IR/XCoreOps.td: XC_Bsign8Op, XC_Conv2DV2Op"]}
{"id": "C114", "title": "Operators merged into a convolution change its results by a known number of steps only", "statement": "Before the convolutions are lowered the compiler merges a quantise operator behind a convolution into the convolution, a RELU operator behind a convolution into its activation, and drops a MINIMUM with 127 before a RELU; duplicated, moved and removed operators make more such places. In any order and number these steps keep the network well typed, and every output of the compiled model differs from TensorFlow Lite's output for the original network by at most the bound of the merged network, where a merged convolution counts one step plus half a step of the type that was left out (nothing for a RELU between equal types). Condition: the type that is left out does not saturate where the final type would not.", "quantifier": "every network, scales, zero points, weights, order and number of merges and rewrites, plan, interleaving, initial memory and input", "why_tests_cant": "Merges change results by design, so tests compare with a tolerance; which differences are possible over all inputs, scales and chains of merges no test can see.", "anchors": ["xformer/Transforms/TFLPatterns.td", "xformer/Transforms/ApplyTFLPatterns.cpp", "xformer/Utils/Utils.td: IsSplatAndEqualTo", "xformer/Transforms/Passes.cpp: buildXCorePassPipeline"]}
{"id": "C115", "title": "Splitting the operators of a quantised network changes no result", "statement": "The splitting pass cuts the result of an operator into row slices, moves slices above pads, convolutions (with the padding of SAME made explicit for each part), additions, subtractions and multiplications, and combines slices of the same tensor. On quantised networks with TensorFlow Lite's arithmetic these steps, in any order and number and mixed with the other rewrites and merges, keep the network well typed; every run of TensorFlow Lite on the original network is a run on the split network with the same outputs and no additional error; so every output of the compiled split model differs from TensorFlow Lite's output for the original network by at most the bound of the split network. Conditions that the code does not check: no dilation, the part of the input that a slice needs is inside the input, operands of binary operators that are not sliced have height 1.", "quantifier": "every network, split count, choice and order of the steps, geometry, stride, weights, plan, interleaving, initial memory and input", "why_tests_cant": "The steps interact: halos, strides and paddings of a chain of operators are composed, and tests see a few networks with a few split counts.", "anchors": ["xformer/Transforms/OpSplit.cpp: OpSplitPattern, RaiseSlicePattern, RaiseSlicePadPattern, RaiseSliceBinaryPattern, combineSliceWithExisting"]}
{"id": "C116", "title": "All stages of the compiler together: what the device returns is what TensorFlow Lite returns, up to the sum of the documented errors", "statement": "Take a quantised network. Split, merge and rewrite it by the compiler's patterns in any order and any number of times; lower its operators; clean up the lowered function in any order; move constants to the weights file; plan the arena; write the plan's offsets to the model's metadata. Then a plan exists, and if the arena and the number of tensors are below 2^31, the offsets that the runtime reads from the metadata are the plan's, and every run with them, in any interleaving of the threads and whatever the memory holds before, ends with outputs that differ from those of TensorFlow Lite on the original network by at most the error bound computed for the compiled network.", "quantifier": "all quantised networks that meet the operators' conditions, all sequences of rewrites, all inputs, all initial memories, all thread schedules", "why_tests_cant": "a test runs one network with one sequence of rewrites, one input and one schedule", "anchors": ["xformer/Transforms/Passes.cpp: buildXCorePassPipeline", "xformer/XCoreOptMain.cpp: main", "xformer/Transforms/OpSplit.cpp", "xformer/Transforms/PlanMemory.cpp", "xformer/Transforms/WriteWeights.cpp"]}
{"id": "C117", "title": "The generated runtime calls operators once, in order, on their own tensors, and reports their errors", "statement": "model_init calls every operator's init, subgraph after subgraph, then every operator's prepare up to the first that fails, and returns that one's status. model_invoke sets up the threads, calls every operator of the first subgraph once and in order, and takes the threads down; when operators call other subgraphs, these run likewise, nested to any depth, and afterwards the caller still finds its own tensors. It returns if subgraphs do not call themselves. It returns an error if an operator fails. model_input and model_output give the tensors of the first subgraph, and the shape accessors their shapes.", "quantifier": "all tables of subgraphs, all operators (as programs that look up tensors, call subgraphs and return a status), all nestings of calls", "why_tests_cant": "a test has one model, mostly with one subgraph, and operators that do not fail", "anchors": ["examples/audio_network/src/model_audioi16.tflite.cpp: model_init, model_invoke, mg_InvokeSubgraph, GetEvalTensor, model_input, model_output", "examples/audio_network/src/model_audioi16.tflite.h: model_input_dims_len, model_input_dims"]}
{"id": "C118", "title": "A session with the device's USB server gives the model's results for the inputs sent last", "statement": "The host sends every input at least once, in any order and as often as it likes, asks for a run, and reads outputs in any order. Although tensors are moved in whole words, no input damages another; the host gets an acknowledgement and then, for each output, the words that hold it, which start with what the model computes on the inputs sent last. At most 3 bytes behind an output are sent along. After exit nothing is served.", "quantifier": "all planned models, with either plan, all sequences of messages, all contents of the arena before", "why_tests_cant": "a test sends inputs in one order, with sizes that are multiples of four, to a fresh arena", "anchors": ["examples/audio_network/src/model_audioi16.tflite.cpp: model_ioserver", "xformer/Analysis/MemoryPlan.cpp: getAllocatedOffsets"]}
{"id": "C119", "title": "The host interpreter's tensor details describe the model and can be used to set inputs and read outputs", "statement": "get_input_details and get_output_details list the model's inputs and outputs in order with name, index, shape, element type and quantisation; they raise exactly if an element type is not one of four. As in TensorFlow Lite, set_tensor with the index of an input's details sets that input, and get_tensor with the index of an output's details reads that output.", "quantifier": "all models, all names, all histories of calls, all inputs", "why_tests_cant": "a test uses models whose inputs happen to be tensors 0, 1, ... and names without special characters", "anchors": ["python/xmos_ai_tools/xinterpreters/host_interpreter.py: get_input_details, get_output_details, set_tensor, get_tensor"]}
{"id": "C120", "title": "The host interpreter's native memory over its life", "statement": "For every sequence of calls (set_model with or without a readable model, uses, close or leaving a with block) on any number of host interpreter objects, exceptions being caught: memory that may not be accessed is accessed exactly if an object is used after it was closed, or set_model is called for an index whose first model exceeds 50 MB; double close and close without a model are harmless. The native interpreters still allocated are those made by set_model less those given back by close; when each object holds one model at a time and is closed, nothing is left.", "quantifier": "every number of objects and every sequence of calls, sizes of models and indices", "why_tests_cant": "Leaks and accesses after close depend on the order of calls over the whole life of several objects; a test runs one order, and a leak is not visible in its results.", "anchors": ["python/xmos_ai_tools/xinterpreters/host_interpreter.py: TFLMHostInterpreter.set_model, initialise_interpreter, close, __exit__", "python/xmos_ai_tools/xinterpreters/src/dll_interpreter.cc: new_interpreter, delete_interpreter, initialize"]}
{"id": "C121", "title": "Float layers under --xcore-enable-beta-float keep their meaning", "statement": "There is a kernel that computes, from what a beta float operator gives it (name, operands, custom options and the shape of the result), what the replaced float layer computed, for every layer the patterns replace. Without the option no layer is touched.", "quantifier": "every float convolution, transposed convolution, fully connected layer, activation and concatenation, of any shape, attributes and values", "why_tests_cant": "That attributes dropped by a rewrite can or cannot be recovered is a statement about all pairs of layers with the same replacement and all possible kernels.", "anchors": ["xformer/Transforms/ConvPatterns.td: Hasfw5fh2, XC_Beta_ConvF32Op, XC_Beta_TransposeConvF32Op, XC_Beta_FcF32Op", "xformer/Transforms/XCPatterns.td: XC_Beta_ActivationF32Op, XC_Beta_ConcatF32Op", "xformer/Transforms/ApplyXCPatterns.cpp: getActivationType", "xformer/Transforms/TranslateToCustomOp.cpp: buildCustomOptions"]}
{"id": "C122", "title": "The example's script on the host and its application on the device report the same class", "statement": "For the same image and model, the class that obtain_and_optimize_mobilenetv2.py prints from the host interpreter is the class that the application reports from its run in the device's arena: the first one with the greatest output.", "quantifier": "every planned network with one int8 input and output, every image, every contents of the arena behind it", "why_tests_cant": "the two runs go through different code (interpreter and arena, subtraction in numpy and in C, argmax and a loop); a test compares them on a few images", "anchors": ["examples/app_mobilenetv2/obtain_and_optimize_mobilenetv2.py", "examples/app_mobilenetv2/src/support.cpp: init, run", "python/xmos_ai_tools/xinterpreters/host_interpreter.py: set_model, set_tensor, invoke, get_tensor"]}
{"id": "C123", "title": "A program on the host that uses a device over USB reads what the model computes, run after run", "statement": "A program writes inputs, starts the model and reads outputs over USB, for any number of runs, each of which sends every input at least once. Every read_output_tensor returns exactly the elements of the output that the model computes on the inputs sent last in that run, if output details were given; without them it returns the output's bytes and at most three more. Nothing of earlier runs, of the memory before, or of the filling of words shows.", "quantifier": "every planned model, every number of runs, every order and repetition of writes and reads, all input values, all element types of 1, 2, 4 or 8 bytes, all contents of the arena before", "why_tests_cant": "a test makes a few runs of one model, with sizes that are mostly multiples of four and shorter than a packet", "anchors": ["python/xmos_ai_tools/io_server/__init__.py: IOServer.write_input_tensor, start_inference, read_output_tensor, bytes_to_arr, close", "examples/app_no_flash_with_ioserver/run_model.py", "examples/audio_network/src/model_audioi16.tflite.cpp: model_ioserver"]}
{"id": "C124", "title": "modelrunner's verdict says whether the compiled model and the original agree", "statement": "xformer/modelrunner.py with --n runs reports 0 fails exactly if in every run every output of the compiled model equals that of the original, and a compiled model that differs from the original on inputs of the model's type is found by enough runs.", "quantifier": "every pair of models without state, every number, type and size of inputs and outputs, every number of runs", "why_tests_cant": "the verdict is about a comparison over generated inputs; whether the generator and the comparison can miss a difference is a statement about all models", "anchors": ["xformer/modelrunner.py: test_inference, dequantize"]}
{"id": "C125", "title": "run_model.py reports the same for the host interpreter and for the device over USB", "statement": "For every sequence of images, the detections that run_model.py reads from the device over USB are, image by image, those that the host interpreter returns, namely what the model computes on that image; label and percentage are therefore the same. The percentage is between 0 and 100, and what the applications print themselves is the same label with the percentage rounded down.", "quantifier": "every planned model with one int8 input and output, every sequence of images, all contents of the arena before", "why_tests_cant": "a test compares the two parts on two images, and with sizes that are multiples of four", "anchors": ["examples/app_no_flash_with_ioserver/run_model.py", "examples/app_flash_two_models/src/main.cpp: nn_thread", "python/xmos_ai_tools/io_server/__init__.py: IOServer", "python/xmos_ai_tools/xinterpreters/host_interpreter.py: set_tensor, invoke, get_tensor"]}
{"id": "C126", "title": "A compiled network gives over USB the results of the network that was written", "statement": "A network is compiled and planned, and a program on the host uses it over USB for any number of runs, each of which sends every input. Every read_output_tensor returns the elements of the output that the network, as it was written, has on the inputs sent last in that run.", "quantifier": "every well-typed network of data-movement and other operators, every choice of operators the compiler leaves alone, every meaning of the other operators, every number of runs and order of calls, all inputs, all contents of the arena before", "why_tests_cant": "a test has one network, a few runs and one order of calls; it cannot cover the compiler's choices, plans and leftovers in the arena", "anchors": ["xformer/Transforms/Passes.cpp", "xformer/Analysis/MemoryPlan.cpp: getAllocatedOffsets", "python/xmos_ai_tools/io_server/__init__.py: IOServer", "examples/audio_network/src/model_audioi16.tflite.cpp: model_ioserver"]}
{"id": "C127", "title": "A quantised network with its weights in a file gives over USB results that its specification admits", "statement": "A quantised network is compiled, its weights are moved to a file, its arena is planned, and a program on the host uses it over USB for any number of runs, each of which sends every input. Every read_output_tensor returns the elements of the asked output among values of all tensors in which the inputs are those sent last in that run and every operator's value is within what its quantised specification allows on its operands' values.", "quantifier": "every well-typed quantised network, every choice of the compiler (operators left alone, weights selected, order of loads), every number of runs and order of calls, all inputs, all contents of the arena before", "why_tests_cant": "a test has one network, one plan and a few inputs", "anchors": ["xformer/Transforms/Passes.cpp", "xformer/Transforms/WriteWeights.cpp", "xformer/Analysis/MemoryPlan.cpp: getAllocatedOffsets", "python/xmos_ai_tools/io_server/__init__.py: IOServer", "examples/audio_network/src/model_audioi16.tflite.cpp: model_ioserver"]}
{"id": "C128", "title": "A pass of the integration test bounds the errors of the compiled model", "statement": "When integration_tests/runner.py passes for a model, its compiled outputs differ from the reference by at most the configured bounds (each by at most 1, average error at most 1/4 in size, average size at most 0.28) over at least 2048 outputs; and when they do, it passes. The test ends for every model.", "quantifier": "all reference and compiled programs, all inputs drawn or loaded, all parameters, any number of runs and outputs, every signed integer type", "why_tests_cant": "it is about what passing tests mean; runs sample inputs, and never ones with the largest value", "anchors": ["integration_tests/runner.py: test_model, get_input_tensors, get_params"]}
{"id": "C129", "title": "The compiled runtime of the integration tests computes the model, and correct networks pass", "statement": "A model compiled to C++, linked with compile_test.cpp and run on input files writes output files that hold what the model computes on those inputs, whatever its arena holds at the start; so the integration test passes for every network whose operators are lowered correctly. A missing input file is an error.", "quantifier": "all planned models, kernels, inputs and arena contents; all well-typed networks, choices of lowered operators, test parameters and drawn inputs", "why_tests_cant": "it ranges over all models and initial memories; the test itself is the object of the claim", "anchors": ["integration_tests/compile_test.cpp: main", "integration_tests/runner.py: XFHostRuntime, test_model", "xformer/Analysis/MemoryPlan.cpp: getAllocatedOffsets"]}
{"id": "C130", "title": "The device runner and the compiled runner of the integration tests return the same arrays", "statement": "Over a whole test on one USB connection every predict of the device runner returns the outputs of the network as it was written, and they equal what the compiled program on the host returns, whatever either arena held before.", "quantifier": "all well-typed networks, choices of lowered operators, meanings of other operators, numbers of runs, inputs, packet framings and arena contents", "why_tests_cant": "it ranges over all networks and histories of a connection; tests on a device sample few", "anchors": ["integration_tests/runner.py: XFDeviceRuntime, XFHostRuntime", "python/xmos_ai_tools/io_server/__init__.py: IOServer", "integration_tests/compile_test.cpp: main"]}
{"id": "C131", "title": "Quantised networks with weights keep their specification in the compiled runtime of the tests", "statement": "A quantised network, compiled with its weights moved to a file and linked into the program of the integration tests, returns for all inputs outputs that the network's specification admits for them, and they do not depend on what the arena holds at the start.", "quantifier": "all quantised networks, weight configurations, choices of lowered operators, inputs and arena contents", "why_tests_cant": "it ranges over all networks, inputs and initial memories", "anchors": ["integration_tests/compile_test.cpp: main", "integration_tests/runner.py: XFHostRuntime", "xformer/Transforms/WriteWeights.cpp", "xformer/Transforms/Passes.cpp"]}
