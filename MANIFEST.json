{
 "claims": [
  {
   "property": "C01",
   "status": "proved",
   "theorems": [
    "Verif.MemPlan.C01_live_tensors_disjoint"
   ],
   "note": ""
  },
  {
   "property": "C02",
   "status": "proved",
   "theorems": [
    "Verif.MemPlan.C02_arena_execution_correct",
    "Verif.MemPlan.C02_arena_execution_correct_in_place",
    "Verif.MemPlan.C02_lookup_table_overwritten"
   ],
   "note": "Non-overlapping plan: outright. In-place plan: for kernels that read their operands before writing (as the property says) and in-place operators that do not shrink their data (InPlaceOK; true of every MemoryOverlappable operator in XCoreOps.td). C02_lookup_table_overwritten records a finding: with kernels that interleave reads and writes the lookup table operand can lie inside the lookup's own output."
  },
  {
   "property": "C03",
   "status": "proved",
   "theorems": [
    "Verif.MemPlan.C03_plan_shape",
    "Verif.MemPlan.C03_plan_exists"
   ],
   "note": ""
  },
  {
   "property": "C04",
   "status": "proved",
   "theorems": [
    "Verif.MemPlan.C04_peak_is_least"
   ],
   "note": ""
  },
  {
   "property": "C05",
   "status": "proved",
   "theorems": [
    "Verif.MemPlan.C05_sharing_only_along_in_place_chains",
    "Verif.MemPlan.C05_members_inside",
    "Verif.MemPlan.C05_shrinking_chain_refuted"
   ],
   "note": "Under InPlaceOK (no in-place operator shrinks its data; true of every MemoryOverlappable operator in XCoreOps.td); C05_shrinking_chain_refuted shows that the hypothesis is needed (negative offset otherwise)."
  },
  {
   "property": "C06",
   "status": "proved",
   "theorems": [
    "Verif.MemPlan.C06_chosen_plan"
   ],
   "note": ""
  },
  {
   "property": "C07",
   "status": "proved",
   "theorems": [
    "Verif.Threads.C07_regions_partition_image",
    "Verif.Threads.C07_balanced",
    "Verif.Threads.C07_no_idle_thread"
   ],
   "note": "For the 1x1 special case the external calculateThreadSplit enters through its contract CalcContract."
  },
  {
   "property": "C08",
   "status": "partial",
   "theorems": [
    "Verif.Threads.C08_strided_regions_cover_phase_partial",
    "Verif.Threads.C08_exactly",
    "Verif.Threads.C08_condition_is_necessary",
    "Verif.Threads.C08_even_height_row_lost",
    "Verif.Threads.C08_small_image_undefined",
    "Verif.Threads.C08_full_refuted"
   ],
   "note": "Proved exactly under: split dimension >= stride and (odd or size % stride <= phase); outside that condition the property is false of the code (witnesses, and a general theorem that the condition is necessary)."
  },
  {
   "property": "C09",
   "status": "proved",
   "theorems": [
    "Verif.OpSplit.C09_split_is_partition"
   ],
   "note": ""
  },
  {
   "property": "C10",
   "status": "partial",
   "theorems": [
    "Verif.OpSplit.C10_raise_slice_valid_partial",
    "Verif.OpSplit.C10_split_valid_conv_end_to_end_partial",
    "Verif.OpSplit.C10_dilation_refuted",
    "Verif.OpSplit.C10_full_refuted"
   ],
   "note": "Proved for every undilated VALID operator; refuted for dilated ones (the rewrite ignores the dilation)."
  },
  {
   "property": "C11",
   "status": "partial",
   "theorems": [
    "Verif.OpSplit.C11_raise_slice_same_partial",
    "Verif.OpSplit.C11_clear_is_necessary",
    "Verif.OpSplit.C11_split_same_conv_end_to_end_partial",
    "Verif.OpSplit.C11_thin_slice_refuted",
    "Verif.OpSplit.C11_raise_slice_pad_partial",
    "Verif.OpSplit.C11_asymmetric_pad_refuted",
    "Verif.OpSplit.C11_full_refuted"
   ],
   "note": "Proved under the exact condition Clear (necessary by C11_clear_is_necessary); false otherwise, witnesses given."
  },
  {
   "property": "C12",
   "status": "partial",
   "theorems": [
    "Verif.OpSplit.C12_combine_slices",
    "Verif.OpSplit.C12_raise_slice_binary_partial",
    "Verif.OpSplit.C12_width_broadcast_refuted",
    "Verif.OpSplit.C12_full_refuted"
   ],
   "note": "Nested slices: proved. Element-wise: proved when each operand has the output's shape or height 1; refuted for operands broadcast along the width only."
  },
  {
   "property": "C13",
   "status": "partial",
   "theorems": [
    "Verif.Conv.C13_channel_split_partial",
    "Verif.Conv.C13_stops",
    "Verif.Conv.C13_limit_refuted",
    "Verif.Conv.C13_empty_groups",
    "Verif.Conv.C13_not_multiple_refuted",
    "Verif.Conv.C13_full_refuted"
   ],
   "note": "Exactness proved for VALID convolutions with 4 | channels; the size limit after splitting, non-empty groups and other channel counts are refuted."
  },
  {
   "property": "C14",
   "status": "partial",
   "theorems": [
    "Verif.Conv.C14_input_padding_partial",
    "Verif.Conv.C14_input_padding_transpose_partial",
    "Verif.Conv.C14_input_padding_skipped",
    "Verif.Conv.C14_hardware_multiple",
    "Verif.Conv.C14_output_padding_partial",
    "Verif.Conv.C14_output_batch_refuted",
    "Verif.Conv.C14_depthwise_padding",
    "Verif.Conv.C14_groups_refuted",
    "Verif.Conv.C14_full_refuted",
    "Verif.Conv.C14_output_full_refuted"
   ],
   "note": "Proved for ungrouped convolutions (input padding: any batch; output padding: batch 1); refuted for grouped convolutions and for batches over one."
  },
  {
   "property": "C15",
   "status": "proved",
   "theorems": [
    "Verif.Transpose.C15_hoist_transpose"
   ],
   "note": ""
  },
  {
   "property": "C16",
   "status": "proved",
   "theorems": [
    "Verif.Transpose.C16_cancelled_is_identity",
    "Verif.Transpose.C16_only_inverse"
   ],
   "note": "TF::AreCancellablePermutations is external (TensorFlow); modelled from its known definition."
  },
  {
   "property": "C17",
   "status": "partial",
   "theorems": [
    "Verif.Move.C17_wide_concat_partial",
    "Verif.Move.C17_negative_axis_undefined",
    "Verif.Move.C17_full_refuted"
   ],
   "note": "Proved for axes given from the front or as -1; with any other negative axis and more than 13 inputs the code indexes a shape with a negative index (undefined behaviour, proved)."
  },
  {
   "property": "C18",
   "status": "proved",
   "theorems": [
    "Verif.Move.C18_lowered_concat"
   ],
   "note": ""
  },
  {
   "property": "C19",
   "status": "proved",
   "theorems": [
    "Verif.Move.C19_merge_axes_slice",
    "Verif.Move.C19_merge_axes_pad"
   ],
   "note": ""
  },
  {
   "property": "C20",
   "status": "proved",
   "theorems": [
    "Verif.Move.C20_lowered_slice",
    "Verif.Move.C20_one_axis_is_lowered"
   ],
   "note": ""
  },
  {
   "property": "C21",
   "status": "proved",
   "theorems": [
    "Verif.Move.C21_lowered_pad",
    "Verif.Move.C21_one_axis_is_lowered"
   ],
   "note": ""
  },
  {
   "property": "C22",
   "status": "proved",
   "theorems": [
    "Verif.Move.C22_lowered_broadcast",
    "Verif.Move.C22_consecutive_is_lowered"
   ],
   "note": ""
  },
  {
   "property": "C23",
   "status": "partial",
   "theorems": [
    "Verif.Move.C23_strided_slice_partial",
    "Verif.Move.C23_other_strides_untouched",
    "Verif.Move.C23_last_element_refuted",
    "Verif.Move.C23_end_beyond_refuted",
    "Verif.Move.C23_full_refuted"
   ],
   "note": "Proved for arguments that need no clamping; refuted for x[-1] and for an end beyond the axis."
  },
  {
   "property": "C24",
   "status": "proved",
   "theorems": [
    "Verif.Weights.C24_weights_found"
   ],
   "note": ""
  },
  {
   "property": "C25",
   "status": "proved",
   "theorems": [
    "Verif.Weights.C25_regions"
   ],
   "note": ""
  },
  {
   "property": "C26",
   "status": "proved",
   "theorems": [
    "Verif.Weights.C26_weights_array"
   ],
   "note": ""
  },
  {
   "property": "C27",
   "status": "proved",
   "theorems": [
    "Verif.Weights.C27_budget",
    "Verif.Weights.C27_selects_when_within",
    "Verif.Weights.C27_limit_exceeded",
    "Verif.Weights.C27_rejected_count"
   ],
   "note": "The stated budget is proved; the stronger reading of the option's documentation (a hard limit) is refuted by C27_limit_exceeded."
  },
  {
   "property": "C28",
   "status": "proved",
   "theorems": [
    "Verif.Host.Config.C28_offsets_metadata"
   ],
   "note": ""
  },
  {
   "property": "C29",
   "status": "proved",
   "theorems": [
    "Verif.Host.Config.C29_version",
    "Verif.Host.Config.C29_other",
    "Verif.Host.Config.C29_exactly"
   ],
   "note": ""
  },
  {
   "property": "C30",
   "status": "partial",
   "theorems": [
    "Verif.Host.Search.C30_num_splits",
    "Verif.Host.Search.C30_suggestion_partial",
    "Verif.Host.Search.C30_best_partial",
    "Verif.Host.Search.C30_stops_partial",
    "Verif.Host.Search.C30_worse_refuted",
    "Verif.Host.Search.C30_may_not_stop",
    "Verif.Host.Search.C30_chain_out_of_range",
    "Verif.Host.Search.C30_full_refuted"
   ],
   "note": "Number-of-splits loop fully proved; bottom-operator loop proved for down-then-up peaks and forward steps, refuted otherwise."
  },
  {
   "property": "C31",
   "status": "proved",
   "theorems": [
    "Verif.Host.Flash.C31_flash_image"
   ],
   "note": ""
  },
  {
   "property": "C32",
   "status": "proved",
   "theorems": [
    "Verif.Host.Flash.C32_swap",
    "Verif.Host.Flash.C32_file"
   ],
   "note": ""
  },
  {
   "property": "C33",
   "status": "partial",
   "theorems": [
    "Verif.Host.Usb.C33_upload",
    "Verif.Host.Usb.C33_download_partial",
    "Verif.Host.Usb.C33_empty_refuted",
    "Verif.Host.Usb.C33_full_refuted"
   ],
   "note": "Proved for all messages with data and all sequences; refuted for messages of length zero."
  },
  {
   "property": "C34",
   "status": "proved",
   "theorems": [
    "Verif.TFL.C34_same_padding_explicit"
   ],
   "note": ""
  },
  {
   "property": "C35",
   "status": "proved",
   "theorems": [
    "Verif.XC.C35_lookup_table",
    "Verif.XC.C35_fits"
   ],
   "note": "Real numbers instead of doubles; the proviso (result representable in 32 bits before saturation) is shown to hold for all scales within a factor of 8 million."
  },
  {
   "property": "C36",
   "status": "partial",
   "theorems": [
    "Verif.XC.C36_mean_partial",
    "Verif.XC.C36_sum_partial",
    "Verif.XC.C36_contiguous_is_lowered",
    "Verif.XC.C36_repeated_axes_refuted",
    "Verif.XC.C36_negative_axis_undefined",
    "Verif.XC.C36_full_refuted",
    "Verif.XC.C36_nonneg_full_refuted"
   ],
   "note": "Proved for distinct non-negative axes; refuted for repeated axes, undefined behaviour for negative ones. The kernel is a contract."
  },
  {
   "property": "C37",
   "status": "proved",
   "theorems": [
    "Verif.Conv.C37_avgpool_valid",
    "Verif.Conv.C37_avgpool_inside",
    "Verif.Conv.C37_same_border_refuted"
   ],
   "note": "As stated: equality wherever the window lies inside the input (all of a VALID pool); refutation at the borders of SAME pools."
  },
  {
   "property": "C38",
   "status": "partial",
   "theorems": [
    "Verif.Conv.C38_fully_connected_partial",
    "Verif.Conv.C38_result_shape",
    "Verif.Conv.C38_leading_dims_refuted",
    "Verif.Conv.C38_rank4_refuted",
    "Verif.Conv.C38_full_refuted"
   ],
   "note": "Proved for leading dimensions 1; refuted for other inputs and results of rank 4."
  },
  {
   "property": "C39",
   "status": "proved",
   "theorems": [
    "Verif.XC.C39_multipliers",
    "Verif.XC.C39_accuracy",
    "Verif.XC.C39_accumulator",
    "Verif.XC.C39_bias_overflow_refuted"
   ],
   "note": "Real numbers instead of doubles. Also proved: results within one step for ratios up to 31; 32-bit range for ratios from 2^-9; refuted below."
  },
  {
   "property": "C40",
   "status": "proved",
   "theorems": [
    "Verif.Conv.C40_transpose_conv_chain",
    "Verif.Conv.C40_output_padding_refuted"
   ],
   "note": "VALID (the pattern requires it), batch 1; lib_nn's filter reordering and the kernel's strided output are contracts (witnessed by a reference implementation)."
  },
  {
   "property": "C41",
   "status": "partial",
   "theorems": [
    "Verif.MemPlan.C41_in_place_gap",
    "Verif.MemPlan.C41_front_to_back_in_place_partial",
    "Verif.MemPlan.C41_mid_chain_refuted",
    "Verif.MemPlan.C41_full_refuted"
   ],
   "note": "Holds for a chain's last operator; refuted for a middle operator of a chain with unaligned sizes."
  },
  {
   "property": "C42",
   "status": "partial",
   "theorems": [
    "Verif.MemPlan.C42_reserved_size_partial",
    "Verif.MemPlan.C42_bool_refuted",
    "Verif.MemPlan.C42_full_refuted"
   ],
   "note": "Whole-byte element types proved; 1-bit elements refuted."
  },
  {
   "property": "C43",
   "status": "proved",
   "theorems": [
    "Verif.TFL.C43_pads_swapped",
    "Verif.TFL.C43_no_ping_pong"
   ],
   "note": ""
  },
  {
   "property": "C44",
   "status": "proved",
   "theorems": [
    "Verif.TFL.C44_quantize_fusion",
    "Verif.TFL.C44_saturation_refuted",
    "Verif.TFL.C44_quantize_reshape_dead"
   ],
   "note": "Bound proved; exactness in general refuted for saturating inner types."
  },
  {
   "property": "C45",
   "status": "proved",
   "theorems": [
    "Verif.TFL.C45_unfuse_activation",
    "Verif.TFL.C45_merge_relu"
   ],
   "note": ""
  },
  {
   "property": "C46",
   "status": "proved",
   "theorems": [
    "Verif.TFL.C46_quantize_above_concat"
   ],
   "note": ""
  },
  {
   "property": "C47",
   "status": "proved",
   "theorems": [
    "Verif.TFL.C47_explicit_broadcast"
   ],
   "note": ""
  },
  {
   "property": "C48",
   "status": "proved",
   "theorems": [
    "Verif.TFL.C48_minimum_removed"
   ],
   "note": "8-bit constants; the pattern does not check the width of the constant (see DESIGN.md)."
  },
  {
   "property": "C49",
   "status": "proved",
   "theorems": [
    "Verif.Conv.C49_same_to_valid",
    "Verif.Conv.C49_small_kernel_refuted",
    "Verif.Conv.C49_short_output_refuted"
   ],
   "note": "Output = stride*input and kernel >= stride, as stated; refuted outside."
  },
  {
   "property": "C50",
   "status": "proved",
   "theorems": [
    "Verif.XC.C50_exp_table",
    "Verif.XC.C50_pad_value"
   ],
   "note": ""
  },
  {
   "property": "C51",
   "status": "partial",
   "theorems": [
    "Verif.Conv.C51_conv_lowered_partial",
    "Verif.Conv.C51_activation_ignored",
    "Verif.Conv.C51_activation_refuted",
    "Verif.Conv.C51_activation_refuted_reached",
    "Verif.Conv.C51_full_refuted"
   ],
   "note": "Within one step proved for activation none (or RELU with zero point -128) and filter scales within the multiplier factor; refuted for other fused activations, which are dropped. lib_nn's output transform is a contract (an exact one is the witness)."
  },
  {
   "property": "C52",
   "status": "proved",
   "theorems": [
    "Verif.Conv.C52_multipliers",
    "Verif.Conv.C52_unclamped",
    "Verif.Conv.C52_clamping_changes"
   ],
   "note": "Clamping itself can change a multiplier (shown); C51 therefore assumes scales within the factor."
  },
  {
   "property": "C53",
   "status": "partial",
   "theorems": [
    "Verif.Conv.C53_kernel_usable_partial",
    "Verif.Conv.C53_i16_padding_refuted",
    "Verif.Conv.C53_full_refuted"
   ],
   "note": "Proved for 8-bit convolutions; refuted for 16-bit ones with padding."
  },
  {
   "property": "C54",
   "status": "proved",
   "theorems": [
    "Verif.Conv.C54_bconv",
    "Verif.Conv.C54_kernel",
    "Verif.Conv.C54_accepted",
    "Verif.Conv.C54_same_one"
   ],
   "note": "Real numbers instead of floats; receptive field below 2^31; lib_nn's xor-popcount convention is a contract. Binary results: only kernel choice, acceptance and SAME padding."
  },
  {
   "property": "C55",
   "status": "partial",
   "theorems": [
    "Verif.Conv.C55_maxpool_valid_partial",
    "Verif.Conv.C55_value_exists",
    "Verif.Conv.C55_same_refuted",
    "Verif.Conv.C55_activation_ignored",
    "Verif.Conv.C55_batch_refuted",
    "Verif.Conv.C55_full_refuted"
   ],
   "note": "Proved for VALID pools without activation, batch 1; refuted for SAME, fused activations and batches over one."
  },
  {
   "property": "C56",
   "status": "partial",
   "theorems": [
    "Verif.XC.C56_pad_3_to_4_partial",
    "Verif.XC.C56_pad_before_refuted",
    "Verif.XC.C56_full_refuted"
   ],
   "note": "Proved for padding after the channels; refuted for padding before. The kernel is a contract."
  },
  {
   "property": "C57",
   "status": "partial",
   "theorems": [
    "Verif.XC.C57_binary_i16_partial",
    "Verif.XC.C57_zero_point_refuted",
    "Verif.XC.C57_unary_types_partial",
    "Verif.XC.C57_requantize_refuted",
    "Verif.XC.C57_full_refuted",
    "Verif.XC.C57_unary_full_refuted"
   ],
   "note": "Proved for zero points 0 and 16-bit results; refuted for other zero points and for 16 to 8 bit quantise."
  },
  {
   "property": "C58",
   "status": "partial",
   "theorems": [
    "Verif.XC.C58_lookup_i16",
    "Verif.XC.C58_elu_partial",
    "Verif.XC.C58_elu_producer_refuted",
    "Verif.XC.C58_full_refuted",
    "Verif.XC.C58_result_full_refuted"
   ],
   "note": "Tables: proved from lib_nn's contract for max_error (zero points 0). ELU: proved for first results of operators; undefined or wrong otherwise."
  },
  {
   "property": "C59",
   "status": "proved",
   "theorems": [
    "Verif.XC.C59_softmax"
   ],
   "note": ""
  },
  {
   "property": "C60",
   "status": "partial",
   "theorems": [
    "Verif.Shape.C60_remove_dynamic_partial",
    "Verif.Shape.C60_signature",
    "Verif.Shape.C60_static_unchanged",
    "Verif.Shape.C60_other_dims_refuted",
    "Verif.Shape.C60_full_refuted"
   ],
   "note": "Proved when only batch sizes of tensors with two or more dimensions are dynamic; refuted for other dynamic sizes."
  },
  {
   "property": "C61",
   "status": "partial",
   "theorems": [
    "Verif.Conv.C61_revert_partial",
    "Verif.Conv.C61_pass_ends",
    "Verif.Conv.C61_example",
    "Verif.Conv.C61_mark_whole",
    "Verif.Conv.C61_transposed_refuted",
    "Verif.Conv.C61_full_refuted"
   ],
   "note": "Proved for functions without marks before the pass, for every order of the patterns; refuted for phases of transposed convolutions."
  },
  {
   "property": "C62",
   "status": "proved",
   "theorems": [
    "Verif.MemPlan.C62_no_gratuitous_gap",
    "Verif.MemPlan.C62_peak_at_most_sum",
    "Verif.MemPlan.C62_peak_at_least_live",
    "Verif.MemPlan.C62_peak_at_least_live_of_plan",
    "Verif.MemPlan.C62_peak_op"
   ],
   "note": "xc.peakopid is a one-based index among the arena tensors, although the code's users read it as an operation number (see C30)."
  },
  {
   "property": "C63",
   "status": "proved",
   "theorems": [
    "Verif.Threads.C63_any_schedule",
    "Verif.Conv.C63_conv_any_schedule",
    "Verif.Conv.C63_pool_any_schedule",
    "Verif.Conv.C63_works_exist",
    "Verif.Conv.C63_batch_refuted"
   ],
   "note": "The threads' programs are contracts (each does its region's elements, in any order and grouping, through its own scratch section); the machine is sequentially consistent with one-byte scratch writes. Images after the first of a batch are never written (shown)."
  },
  {
   "property": "C64",
   "status": "partial",
   "theorems": [
    "Verif.Threads.C64_phase_partial",
    "Verif.Conv.C64_transposed_partial",
    "Verif.Conv.C64_rows_lost",
    "Verif.Conv.C64_example",
    "Verif.Conv.C64_full_refuted"
   ],
   "note": "Proved where output height and width are odd or multiples of the stride and at least the stride; refuted otherwise (see C08)."
  },
  {
   "property": "C65",
   "status": "proved",
   "theorems": [
    "Verif.OpSplit.C65_any_schedule",
    "Verif.OpSplit.C65_chain_fully_split"
   ],
   "note": "The driver, labels and work list are replaced by non-determinism (every step some schedule could take). Side conditions as in the property; each is necessary (C10/C11/C12 refutations)."
  },
  {
   "property": "C66",
   "status": "partial",
   "theorems": [
    "Verif.OpSplit.C66_mean_split_partial",
    "Verif.OpSplit.C66_real_mean_exact",
    "Verif.OpSplit.C66_uneven_not_rewritten",
    "Verif.OpSplit.C66_exact_refuted",
    "Verif.OpSplit.C66_saturation_refuted",
    "Verif.OpSplit.C66_early_refuted",
    "Verif.OpSplit.C66_other_size_refuted",
    "Verif.OpSplit.C66_full_refuted"
   ],
   "note": "Proved when no slice's mean saturates and the recorded slices are those of the mean's input; refuted otherwise."
  },
  {
   "property": "C67",
   "status": "partial",
   "theorems": [
    "Verif.OpSplit.C67_gone_iff_partial",
    "Verif.OpSplit.C67_uneven_refuted",
    "Verif.OpSplit.C67_argument_refuted",
    "Verif.OpSplit.C67_other_refuted",
    "Verif.OpSplit.C67_full_refuted"
   ],
   "note": "Proved: the exact condition under which the placeholder disappears; refuted otherwise."
  },
  {
   "property": "C68",
   "status": "proved",
   "theorems": [
    "Verif.Host.Interp.C68_inference",
    "Verif.Host.Interp.C68_reset_reproducible"
   ],
   "note": "The inference engine (lib_tflite_micro) is a contract: per-tensor buffers of the tensors' sizes, an inference is a function of inputs and hidden state."
  },
  {
   "property": "C69",
   "status": "partial",
   "theorems": [
    "Verif.Host.Interp.C69_first_model_wins_partial",
    "Verif.Host.Interp.C69_replace_refuted",
    "Verif.Host.Interp.C69_model_index_refuted",
    "Verif.Host.Interp.C69_index_one_refuted",
    "Verif.Host.Interp.C69_load_failure_refuted",
    "Verif.Host.Interp.C69_full_refuted"
   ],
   "note": "Proved: the first model ever given for an index is what gets loaded, hence the given one for a new index; refuted for replacing a model, for several indices and for models that cannot be loaded."
  },
  {
   "property": "C70",
   "status": "partial",
   "theorems": [
    "Verif.Host.Interp.C70_no_undefined_partial",
    "Verif.Host.Interp.C70_long_value_refuted",
    "Verif.Host.Interp.C70_short_value_refuted",
    "Verif.Host.Interp.C70_own_array_refuted",
    "Verif.Host.Interp.C70_input_index_refuted",
    "Verif.Host.Interp.C70_full_refuted"
   ],
   "note": "Proved for values of the right size, existing tensors and results read into new arrays; refuted otherwise (sizes are only reported on the console)."
  },
  {
   "property": "C71",
   "status": "proved",
   "theorems": [
    "Verif.XC.Options.C71_aligned",
    "Verif.XC.Options.C71_mul_aligned"
   ],
   "note": "The layout of keys and strings is the contract of flexbuffers::Builder; alignment relative to the start of the options."
  },
  {
   "property": "C72",
   "status": "proved",
   "theorems": [
    "Verif.XC.Options.C72_keys_distinct",
    "Verif.XC.Options.C72_nothing_lost",
    "Verif.XC.Options.C72_concat_indeterminate"
   ],
   "note": "The map is the contract of flexbuffers. The fused activation of XC_add is not serialised (it is unfused before, C45). Uninitialised size entries of concatenations are written to the file (shown)."
  },
  {
   "property": "C73",
   "status": "partial",
   "theorems": [
    "Verif.Host.Convert.C73_command_line_partial",
    "Verif.Host.Convert.C73_empty_value_refuted",
    "Verif.Host.Convert.C73_dash_refuted",
    "Verif.Host.Convert.C73_full_refuted"
   ],
   "note": "Proved for non-empty values of options that need one and file names that do not start with a dash; refuted otherwise. llvm::cl is a contract."
  },
  {
   "property": "C74",
   "status": "proved",
   "theorems": [
    "Verif.Host.Convert.C74_arena_size",
    "Verif.Host.Convert.C74_no_size"
   ],
   "note": ""
  },
  {
   "property": "C75",
   "status": "partial",
   "theorems": [
    "Verif.Host.Driver.C75_failed_runs_partial",
    "Verif.Host.Driver.C75_accepted",
    "Verif.Host.Driver.C75_weights_lost_refuted",
    "Verif.Host.Driver.C75_tflmc_refuted",
    "Verif.Host.Driver.C75_occurrences_refuted",
    "Verif.Host.Driver.C75_full_refuted"
   ],
   "note": "Proved: refused command lines, unreadable inputs and failures before the weights are written touch nothing, and the listed rules are exactly the ones enforced; refuted for later failures. An explicit pass pipeline on the command line is not modelled."
  },
  {
   "property": "C76",
   "status": "partial",
   "theorems": [
    "Verif.Host.Driver.C76_success_partial",
    "Verif.Host.Driver.C76_clash_refuted",
    "Verif.Host.Driver.names_nodup_iff",
    "Verif.Host.Driver.C76_full_refuted"
   ],
   "note": "Proved when the names differ (the exact clashes are listed); refuted otherwise."
  },
  {
   "property": "C77",
   "status": "partial",
   "theorems": [
    "Verif.Host.Driver.C77_interrupted_partial",
    "Verif.Host.Driver.C77_old_model_refuted",
    "Verif.Host.Driver.C77_full_refuted"
   ],
   "note": "Proved: a touched model stands beside complete new weights, and so on; refuted: new weights can stand beside the old model. Writes of one file arrive in pieces, in order."
  },
  {
   "property": "C78",
   "status": "partial",
   "theorems": [
    "Verif.Host.Subgraphs.C78_last_function_partial",
    "Verif.Host.Subgraphs.C78_two_functions_refuted",
    "Verif.Host.Subgraphs.C78_empty_file_refuted",
    "Verif.Host.Subgraphs.C78_full_refuted"
   ],
   "note": "Proved for the subgraph that is compiled last, hence for models with one subgraph; refuted otherwise. Binary weights file."
  },
  {
   "property": "C79",
   "status": "partial",
   "theorems": [
    "Verif.Host.Subgraphs.C79_main_last_partial",
    "Verif.Host.Subgraphs.C79_loop_refuted",
    "Verif.Host.Subgraphs.C79_full_refuted"
   ],
   "note": "Proved when the main subgraph can be planned and none after it can, or none at all; refuted for models with loops."
  },
  {
   "property": "C80",
   "status": "proved",
   "theorems": [
    "Verif.Conv.Compile.C80_convolution_compiled",
    "Verif.Conv.Compile.C80_rewrites_exact",
    "Verif.Conv.Compile.C80_reached",
    "Verif.Conv.Compile.C80_example"
   ],
   "note": "Assumptions as in the property; lib_nn's error estimate is a contract (`Lib.Faithful`). Quantise/RELU merges around a convolution and folding of no-op pads are not in the pipeline."
  },
  {
   "property": "C81",
   "status": "proved",
   "theorems": [
    "Verif.Conv.Compile.C81_average_pool_compiled",
    "Verif.Conv.Compile.C81_example"
   ],
   "note": "As C80."
  },
  {
   "property": "C82",
   "status": "proved",
   "theorems": [
    "Verif.Conv.Compile.C82_fully_connected_compiled",
    "Verif.Conv.Compile.C82_example"
   ],
   "note": "As C80."
  },
  {
   "property": "C83",
   "status": "proved",
   "theorems": [
    "Verif.Net.C83_network_compiled",
    "Verif.Net.C83_example",
    "Verif.Net.exampleNet_ok"
   ],
   "note": "Kernels are those of the contracts (C18, C20-C22, C56), read all operands before they write, and fill their results. Folding of constants and removal of unused operators are not modelled."
  },
  {
   "property": "C84",
   "status": "proved",
   "theorems": [
    "Verif.Net.C84_quantised_network",
    "Verif.Net.C84_example",
    "Verif.Net.C84_transposed_example",
    "Verif.Net.checkBinary_iff",
    "Verif.Net.exampleQ_ok",
    "Verif.Net.exRt_ok"
   ],
   "note": "Kernels of lib_nn are contracts (`Rt.OK`): convolution estimate as in C80, addition rounds to nearest, the multiplication kernel is within one step for the parameters in `dom`. The weights, multipliers and biases of convolutions are constants of the network (so C94 covers them); that lib_nn's kernel on the constants made for it computes the convolution is a contract, likewise TensorFlow Lite's own convolution where the operator stays, and that a phase of a transposed convolution computes its elements and keeps those of the phase before."
  },
  {
   "property": "C85",
   "status": "proved",
   "theorems": [
    "Verif.Audio.C85_log2_8",
    "Verif.Audio.C85_log2_16",
    "Verif.Audio.C85_log2_8_mono",
    "Verif.Audio.C85_log2_16_mono",
    "Verif.Audio.C85_log2_16_drop",
    "Verif.Audio.C85_example"
   ],
   "note": ""
  },
  {
   "property": "C86",
   "status": "partial",
   "theorems": [
    "Verif.Audio.C86_log2_16_64",
    "Verif.Audio.C86_log2_8_64_partial",
    "Verif.Audio.C86_full_refuted"
   ],
   "note": "log2_16_64 proved. log2_8_64 proved below 2^32; above it adds the exponent unscaled and is too small by 7 or more."
  },
  {
   "property": "C87",
   "status": "proved",
   "theorems": [
    "Verif.Audio.C87_hypot_unsigned",
    "Verif.Audio.C87_hypot",
    "Verif.Audio.C87_example",
    "Verif.Audio.C87_range_needed"
   ],
   "note": ""
  },
  {
   "property": "C88",
   "status": "partial",
   "theorems": [
    "Verif.Audio.C88_compress_partial",
    "Verif.Audio.C88_matrix",
    "Verif.Audio.C88_total",
    "Verif.Audio.C88_shipped",
    "Verif.Audio.C88_full_refuted"
   ],
   "note": "Proved for matrices none of whose columns starts in the last row (true of the shipped one); otherwise the code writes behind the array."
  },
  {
   "property": "C89",
   "status": "proved",
   "theorems": [
    "Verif.Audio.C89_between",
    "Verif.Audio.C89_constant",
    "Verif.Audio.C89_unit",
    "Verif.Audio.C89_no_gain",
    "Verif.Audio.C89_shipped",
    "Verif.Audio.C89_example"
   ],
   "note": ""
  },
  {
   "property": "C90",
   "status": "partial",
   "theorems": [
    "Verif.Audio.C90_roundtrip_partial",
    "Verif.Audio.C90_product_partial",
    "Verif.Audio.C90_shipped",
    "Verif.Audio.C90_full_refuted"
   ],
   "note": "Proved for matrices whose first column starts in the first row; the printed tables are wrong otherwise."
  },
  {
   "property": "C91",
   "status": "proved",
   "theorems": [
    "Verif.Audio.C91_overlap_add",
    "Verif.Audio.C91_input",
    "Verif.Audio.C91_unity",
    "Verif.Audio.C91_example"
   ],
   "note": "Fourier transforms enter through their contract: forward and back is the identity on the windowed frame, times four. Converters are parameters."
  },
  {
   "property": "C92",
   "status": "partial",
   "theorems": [
    "Verif.Audio.C92_safe",
    "Verif.Audio.C92_total",
    "Verif.Audio.C92_passthrough",
    "Verif.Audio.C92_passthrough_spectrum",
    "Verif.Audio.C92_mono_partial",
    "Verif.Audio.C92_example",
    "Verif.Audio.C92_full_refuted"
   ],
   "note": "Bounds and pass-through proved in full; monotony except for the top of the two boosting tables, where the mask overflows and turns negative."
  },
  {
   "property": "C93",
   "status": "proved",
   "theorems": [
    "Verif.Audio.C93_latency",
    "Verif.Audio.C93_example",
    "Verif.Audio.C93_deadline_needed"
   ],
   "note": "C93_deadline_needed: without the deadline the claim is false. Buttons are not part of the schedule."
  },
  {
   "property": "C94",
   "status": "proved",
   "theorems": [
    "Verif.Net.C94_network_with_weights",
    "Verif.Net.C94_quantised_with_weights",
    "Verif.Net.C94_large_constants_leave",
    "Verif.Net.C94_example",
    "Verif.Net.exampleWF_func",
    "Verif.Net.exampleWF_stored"
   ],
   "note": "Every load is visited by the rewrite driver; the loader reads the flash file at the operator's address (contract, as C24). Contracts of C83 and C84."
  },
  {
   "property": "C95",
   "status": "proved",
   "theorems": [
    "Verif.Net.C95_rewrites_keep_network",
    "Verif.Net.C95_rewritten_in_arena",
    "Verif.Net.C95_moves_end",
    "Verif.Net.C95_input_transposed",
    "Verif.Net.C95_example",
    "Verif.Net.C95_empty_pads_loop"
   ],
   "note": "Concatenations without fused activation whose operands have the type of the result, both pads of a pair with the same type (both required by TensorFlow Lite). C95_empty_pads_loop: the swap of two empty pads can go on for ever."
  },
  {
   "property": "C96",
   "status": "partial",
   "theorems": [
    "Verif.Host.Accept.C96_pass_means_accepted_partial",
    "Verif.Host.Accept.C96_pass_bounds_modulo",
    "Verif.Host.Accept.C96_loop_ends",
    "Verif.Host.Accept.C96_no_elements_loops",
    "Verif.Host.Accept.C96_largest_input_never_drawn",
    "Verif.Host.Accept.C96_other_inputs_drawn",
    "Verif.Host.Accept.C96_wrong_at_largest_input",
    "Verif.Host.Accept.C96_wraparound_accepted",
    "Verif.Host.Accept.C96_lost_output_accepted",
    "Verif.Host.Accept.C96_example",
    "Verif.Full.C96_full_refuted"
   ],
   "note": "Proved (an equivalence) where outputs correspond and no difference reaches half the range of the type; otherwise differences are bounded only modulo the range, a lost output is not noticed, and the largest input value is never tried. Signed integer outputs of one type; averages exact."
  },
  {
   "property": "C97",
   "status": "partial",
   "theorems": [
    "Verif.Conv.Compile.C97_transposed_compiled_partial",
    "Verif.Conv.Compile.C97_same_compiled_partial",
    "Verif.Conv.Compile.allLowered_iff",
    "Verif.Conv.Compile.C97_activation_ignored",
    "Verif.Conv.Compile.C97_activation_refuted",
    "Verif.Conv.Compile.C97_example",
    "Verif.Full.C97_full_refuted"
   ],
   "note": "Proved for activation none (or RELU with output zero point -128), output sizes that are odd or multiples of the stride (every size for strides 1 and 2) and phases that all have an output transform within the threshold; refuted for other fused activations, which are lost (C97_activation_refuted); rows are lost for other sizes (C64). Contracts of C40, C51, C63."
  },
  {
   "property": "C98",
   "status": "proved",
   "theorems": [
    "Verif.Shipped.C98_shipped_plan",
    "Verif.Shipped.C98_shipped_arena",
    "Verif.Shipped.C98_overlap_plan",
    "Verif.Shipped.C98_invoke",
    "Verif.Shipped.C98_persistent",
    "Verif.Shipped.C98_persistent_bound",
    "Verif.Shipped.C98_scratch_count",
    "Verif.Shipped.C98_no_aliasing",
    "Verif.Shipped.C98_frames",
    "Verif.Shipped.C98_inputs_are_lost"
   ],
   "note": "The tables are copied from the generated source by tools/audio_model.py; operators are a parameter that fills its outputs (`Fit`) and keeps to the persistent area otherwise (`Quiet`)."
  },
  {
   "property": "C99",
   "status": "proved",
   "theorems": [
    "Verif.Net.C99_rewritten_quantised",
    "Verif.Net.C99_rewritten_with_weights",
    "Verif.Net.C99_example",
    "Verif.Net.rewritten_seen",
    "Verif.Net.exampleT_ok"
   ],
   "note": "Patterns and their limits as in C95, contracts as in C84 and C94. The values are those of some choice of results within the operators' tolerances, as in C84."
  },
  {
   "property": "C100",
   "status": "proved",
   "theorems": [
    "Verif.Net.C100_split_network",
    "Verif.Net.C100_split_in_arena",
    "Verif.Net.C100_split_with_weights",
    "Verif.Net.C100_example",
    "Verif.Net.meaning_exists",
    "Verif.Net.exF_windowed",
    "Verif.Net.exN_split"
   ],
   "note": "Steps carry the conditions that the code does not check and without which C10 to C12 are refuted: no dilation, new slices inside the input, pads halved, an unsliced operand of height 1, a containing slice that comes first (C101). Batch 1, rank 4."
  },
  {
   "property": "C101",
   "status": "partial",
   "theorems": [
    "Verif.Net.C101_combine_earlier_partial",
    "Verif.Net.C101_example",
    "Verif.Net.C101_full_refuted"
   ],
   "note": "Proved if the containing slice comes first; the code does not check it, and false otherwise (a use before the definition, which MLIR's verifier rejects)."
  },
  {
   "property": "C102",
   "status": "proved",
   "theorems": [
    "Verif.MemPlan.Conc.C102_any_schedule",
    "Verif.MemPlan.Conc.C102_runs_exist",
    "Verif.MemPlan.Conc.C102_region_threads",
    "Verif.MemPlan.Conc.C102_as_sequential",
    "Verif.MemPlan.Conc.C102_example",
    "Verif.MemPlan.Conc.exImplOK",
    "Verif.Net.C102_network",
    "Verif.Net.C102_split_network",
    "Verif.Net.C102_quantised_with_weights",
    "Verif.Net.C102_network_example",
    "Verif.Net.exConcNet_impl"
   ],
   "note": "Contracts: the runtime runs operators one after the other and thread t works in the t-th section (`ImplOK`). Steps write single bytes; blocks of in-place operators are atomic per thread. Padding in place is one step (C41)."
  },
  {
   "property": "C103",
   "status": "proved",
   "theorems": [
    "Verif.Shipped.Shared.C103_shared_arena",
    "Verif.Shipped.Shared.C103_largest",
    "Verif.Shipped.Shared.C103_inside",
    "Verif.Shipped.Shared.C103_example",
    "Verif.Shipped.Shared.C103_init_needed",
    "Verif.Shipped.Shared.C103_inputs_needed",
    "Verif.Shipped.Shared.exModels_ok"
   ],
   "note": "Contracts: operators write their outputs and the persistent buffers they asked for, and init and prepare fill the latter (`Part`). The persistent buffers fit above the tensors (nothing checks it, C98)."
  },
  {
   "property": "C104",
   "status": "partial",
   "theorems": [
    "Verif.MemPlan.C104_place",
    "Verif.Shipped.Image.C104_input_partial",
    "Verif.Shipped.Image.C104_network_partial",
    "Verif.Shipped.Image.C104_copy",
    "Verif.Shipped.Image.C104_smear",
    "Verif.Shipped.Image.C104_mobileNet",
    "Verif.Shipped.Image.C104_example",
    "Verif.Shipped.Image.C104_full_refuted"
   ],
   "note": "Proved if no tensor computed in place of the input is larger than it but less than twice as large; false otherwise: a first pad from three to four channels, which works in place, puts the input inside the image (C104_smear says what the model gets)."
  },
  {
   "property": "C105",
   "status": "partial",
   "theorems": [
    "Verif.Shipped.Classify.C105_best_partial",
    "Verif.Shipped.Classify.C105_none",
    "Verif.Shipped.Classify.C105_three",
    "Verif.Shipped.Classify.C105_three_ascending",
    "Verif.Shipped.Classify.C105_percent",
    "Verif.Shipped.Classify.C105_example",
    "Verif.Shipped.Classify.C105_full_refuted",
    "Verif.Shipped.Classify.C105_three_refuted"
   ],
   "note": "The best class is right unless all outputs are -128 (then -1 is reported). The second and third class are the best ones before the first and the second, not the next best ones."
  },
  {
   "property": "C106",
   "status": "proved",
   "theorems": [
    "Verif.Net.C106_compiled_network",
    "Verif.Net.C106_compiles",
    "Verif.Net.C106_example",
    "Verif.Net.halves_ok",
    "Verif.Net.denseConsts_stored"
   ],
   "note": "Composition of C84, C94, C99 and C102, with their contracts. The optional splitting pass is C100 and C102_split_network."
  },
  {
   "property": "C107",
   "status": "proved",
   "theorems": [
    "Verif.Net.C107_cleaned_network",
    "Verif.Net.C107_compiled_network",
    "Verif.Net.C107_compiles",
    "Verif.Net.C107_terminates",
    "Verif.Net.C107_reaches_normal_form",
    "Verif.Net.C107_normal_form",
    "Verif.Net.C107_fully_connected",
    "Verif.Net.C107_example",
    "Verif.Net.Network.compiled_ok",
    "Verif.Net.rw_keeps",
    "Verif.Net.swap_keeps"
   ],
   "note": "MLIR's canonicaliser is modelled by the rewrites listed in Net/Fuse.lean; its second run is placed before the weights are written."
  },
  {
   "property": "C108",
   "status": "partial",
   "theorems": [
    "Verif.MemPlan.C108_report_partial",
    "Verif.MemPlan.C108_no_clash",
    "Verif.MemPlan.C108_letters",
    "Verif.MemPlan.C108_alphabet",
    "Verif.MemPlan.C108_letters_refuted",
    "Verif.MemPlan.C108_large_arena_refuted",
    "Verif.MemPlan.C108_example"
   ],
   "note": "Proved for arenas of less than 2^31/60 bytes (35.8 MB); above that the int products overflow (C108_large_arena_refuted). From the 63rd tensor on all letters are the same (C108_letters_refuted)."
  },
  {
   "property": "C109",
   "status": "proved",
   "theorems": [
    "Verif.Net.C109_operator",
    "Verif.Net.C109_wide_network",
    "Verif.Net.C109_roundtrip",
    "Verif.Net.C109_example",
    "Verif.Net.exB_ok",
    "Verif.Net.exampleI16_ok",
    "Verif.Net.roundTrip_ok"
   ],
   "note": "Contracts: lib_nn's constants and kernels, TensorFlow Lite's kernels, expf (`BLib.OK`, met by exB). Symmetric 16-bit types (others: refuted in C57); softmax inputs of at most 87 in absolute value, so that exponentials are normal floats. ELU of a DEQUANTIZE (C58) is not an operator of the network."
  },
  {
   "property": "C110",
   "status": "partial",
   "theorems": [
    "Verif.Conv.Compile.C110_convolution16_compiled_partial",
    "Verif.Conv.Compile.C110_fully_connected16_partial",
    "Verif.Conv.Compile.C110_all_replaced",
    "Verif.Conv.Compile.C110_reached",
    "Verif.Conv.Compile.C110_activation_ignored",
    "Verif.Conv.Compile.C110_relu_refuted",
    "Verif.Conv.Compile.C110_example",
    "Verif.Conv.Compile.exactLib16_ok"
   ],
   "note": "Contract: lib_nn's 16-bit kernel (Lib16.OK).  Missing: fused activations, for which the claim is false: the RELU of a 16-bit convolution is lost (C110_relu_refuted)."
  },
  {
   "property": "C111",
   "status": "proved",
   "theorems": [
    "Verif.Net.C111_wide_conv_network",
    "Verif.Net.C111_dense_layer",
    "Verif.Net.C111_example",
    "Verif.Net.exampleC16_ok",
    "Verif.Net.exDense",
    "Verif.Net.conv16_estep",
    "Verif.Net.fc16_estep"
   ],
   "note": "Contracts: Rt.OK (16-bit kernel, expand_8_to_16, TensorFlow Lite's convolution), met by exRt_ok. Types are symmetric and without fused activation (the compiler drops it: C110_relu_refuted), accumulators fit 32 bits, as TensorFlow Lite requires for 16x8 types with 32-bit biases."
  },
  {
   "property": "C112",
   "status": "proved",
   "theorems": [
    "Verif.Net.C112_close_to_reference",
    "Verif.Net.C112_reference_exists",
    "Verif.Net.C112_two_runs",
    "Verif.Net.C112_example",
    "Verif.Net.values_close",
    "Verif.Net.node_close",
    "Verif.Net.meets_within",
    "Verif.Net.node_ref",
    "Verif.Net.exampleD_ok",
    "Verif.Net.exampleD_bounds",
    "Verif.Net.C112_quantize",
    "Verif.Net.C112_minimum",
    "Verif.Net.C112_quantize_example"
   ],
   "note": "Contracts as in C106. The bound `D` is any solution of `QNetwork.Bounds`; operators with an unknown meaning (custom operators) pass on differences of 0 or as far as a bound for them is known (`Rt.Grows`; proved for QUANTIZE and MINIMUM). Floats that are quantised must be finite network inputs (NaN and infinities are not covered by the contract)."
  },
  {
   "property": "C113",
   "status": "proved",
   "theorems": [
    "Verif.Net.C113_binary_network",
    "Verif.Net.C113_signs_convolved",
    "Verif.Net.C113_same_zero_refused",
    "Verif.Net.C113_example",
    "Verif.Net.bconv_estep",
    "Verif.Net.bsign_estep",
    "Verif.Net.exBinLib_ok"
   ],
   "note": "Contracts: lib_nn's sign kernel and binary convolution kernels (`BinLib.OK`, met by exBinLib_ok). The 8-bit operand of lq.Quantize has its own zero point as threshold. Depths are multiples of 32 as Larq packs them."
  },
  {
   "property": "C114",
   "status": "proved",
   "theorems": [
    "Verif.Net.C114_reference_kept",
    "Verif.Net.C114_merged_network",
    "Verif.Net.C114_errors",
    "Verif.Net.C114_saturated",
    "Verif.Net.C114_example",
    "Verif.Net.merge_step",
    "Verif.Net.reference_forward",
    "Verif.Net.quantize_merged",
    "Verif.Net.relu_merged",
    "Verif.Net.exampleM_ok",
    "Verif.Net.exampleM_merges",
    "Verif.Net.exampleM'_bounds"
   ],
   "note": "Contracts as in C112; the quantise operator is the exact TensorFlow Lite one (`IsQuantize`). The condition on saturation is in the property (`Unsaturated`); C114_saturated shows that without it the results differ by 63 steps. The compiler does not check it."
  },
  {
   "property": "C115",
   "status": "proved",
   "theorems": [
    "Verif.Net.C115_reference_kept",
    "Verif.Net.C115_split_network",
    "Verif.Net.C115_no_error",
    "Verif.Net.C115_example",
    "Verif.Net.C115_binary_example",
    "Verif.Net.lower_step",
    "Verif.Net.raiseConvQ_step",
    "Verif.Net.raiseBinQ_step",
    "Verif.Net.raise_step",
    "Verif.Net.conv_image",
    "Verif.Net.conv_raised",
    "Verif.Net.exLeaf12_ok",
    "Verif.Net.exS4_bounds"
   ],
   "note": "Contracts as in C112. The three conditions are guards of the modelled steps; the witnesses that the code needs them are C10_dilation_refuted, C11_thin_slice_refuted and C12_width_broadcast_refuted. Splitting of means is C66."
  },
  {
   "property": "C116",
   "status": "proved",
   "theorems": [
    "Verif.Net.C116_whole_compiler",
    "Verif.Net.C116_compiles",
    "Verif.Net.fromMetadata_eq",
    "Verif.Net.peak_small",
    "Verif.Net.C116_example",
    "Verif.Net.exSmall_ok",
    "Verif.Net.exSmall_bounds"
   ],
   "note": "Composes C115, C114, C95, C84, C107, C94, C01-C06, C28 and C102; means that are split before are C66. The 2^31 condition is that of the metadata's 32-bit offsets (C28); peak_small gives it from the tensors' sizes (C62). C116_example meets every condition with a concrete network."
  },
  {
   "property": "C117",
   "status": "partial",
   "theorems": [
    "Verif.Shipped.Control.C117_invoke",
    "Verif.Shipped.Control.C117_own_tensors",
    "Verif.Shipped.Control.C117_one_subgraph",
    "Verif.Shipped.Control.C117_returns",
    "Verif.Shipped.Control.C117_init",
    "Verif.Shipped.Control.C117_inputs",
    "Verif.Shipped.Control.C117_always_ok",
    "Verif.Shipped.Control.C117_error_lost_refuted",
    "Verif.Shipped.Control.C117_index_refuted",
    "Verif.Shipped.Control.C117_dims",
    "Verif.Shipped.Control.C117_dims_refuted",
    "Verif.Shipped.Control.C117_dims_exactly",
    "Verif.Shipped.Control.C117_example",
    "Verif.Shipped.Control.C117_tables",
    "Verif.Shipped.Control.C117_shipped"
   ],
   "note": "Proved: order, nesting, own tensors, threads, return, init and prepare. Refuted: model_invoke returns kTfLiteOk whatever operators return (if (0 && ...)), and goes on after a failure; the shape accessors return the first dimension as the number of dimensions; indices are not checked."
  },
  {
   "property": "C118",
   "status": "proved",
   "theorems": [
    "Verif.Shipped.IoServer.C118_session",
    "Verif.Shipped.IoServer.C118_inputs_apart",
    "Verif.Shipped.IoServer.C118_exit",
    "Verif.Shipped.IoServer.C118_surplus",
    "Verif.Shipped.IoServer.C118_example"
   ],
   "note": "ioserver_tensor_recv_input and ioserver_tensor_send_output (lib_tflite_micro, not in the repository) are taken to move exactly the words they are asked for. The tensor number is not checked by the device: indices in range are a condition. reset is for a model without variable tensors."
  },
  {
   "property": "C119",
   "status": "partial",
   "theorems": [
    "Verif.Host.Interp.C119_details",
    "Verif.Host.Interp.C119_name",
    "Verif.Host.Interp.C119_by_details",
    "Verif.Host.Interp.C119_example",
    "Verif.Host.Interp.C119_name_refuted",
    "Verif.Host.Interp.C119_index_refuted"
   ],
   "note": "Proved for plain names, and for models whose inputs are tensors 0, 1, ... and whose outputs are different tensors. Refuted otherwise: set_tensor takes the input's position, not its tensor index, while get_tensor takes the tensor index; names with quotes, backslashes or other characters than ASCII are garbled. Tensors without quantisation record, which raise an attribute error, are not modelled."
  },
  {
   "property": "C120",
   "status": "partial",
   "theorems": [
    "Verif.Host.Lifetime.C120_safe",
    "Verif.Host.Lifetime.C120_balance",
    "Verif.Host.Lifetime.C120_no_leak_partial",
    "Verif.Host.Lifetime.C120_replace_leaks_refuted",
    "Verif.Host.Lifetime.C120_large_refuted",
    "Verif.Host.Lifetime.C120_use_closed_refuted",
    "Verif.Host.Lifetime.C120_example"
   ],
   "note": "Safety and the balance of allocations are proved exactly. Freedom from leaks needs that set_model is called only on objects without an open model: giving an object another model loses the first one's native memory. Contract: inference_engine_initialize stores its pointer arguments; memory the library allocates itself is not modelled."
  },
  {
   "property": "C121",
   "status": "partial",
   "theorems": [
    "Verif.XC.BetaFloat.C121_plain_partial",
    "Verif.XC.BetaFloat.C121_off",
    "Verif.XC.BetaFloat.C121_activation_refuted",
    "Verif.XC.BetaFloat.C121_bias_refuted",
    "Verif.XC.BetaFloat.C121_dilation_refuted",
    "Verif.XC.BetaFloat.C121_example"
   ],
   "note": "Proved in every arithmetic for layers without fused activation and dropped bias, with convolutions VALID or undilated SAME; false otherwise: no kernel can be right. The kernels themselves (lib_nn, lib_tflite_micro) are not in /repo; fully connected inputs of rank 2."
  },
  {
   "property": "C122",
   "status": "partial",
   "theorems": [
    "Verif.Shipped.Agree.C122_agree_partial",
    "Verif.Shipped.Agree.C122_lowest_refuted",
    "Verif.Shipped.Agree.C122_smear_refuted",
    "Verif.Shipped.Agree.C122_example"
   ],
   "note": "Composes C68, C104 and C105. Proved if C104's condition on the plan holds (the image does not meet itself while it is copied), the host's engine computes the same network, and some output is above -128. Refuted otherwise: all outputs -128 give -1 on the device and 0 on the host; a first pad from three to four channels in place gives class 10 instead of 14 on a given image. argmax, uint8 subtraction, astype and reshape are contracts of numpy."
  },
  {
   "property": "C123",
   "status": "proved",
   "theorems": [
    "Verif.Host.UsbSession.C123_session",
    "Verif.Host.UsbSession.C123_no_details",
    "Verif.Host.UsbSession.C123_example",
    "Verif.Host.UsbSession.C123_stale_refuted"
   ],
   "note": "Composes C33, C118 and C02. Contracts: pipes keep the order of packets, the device's USB driver (lib_tflite_micro, not in the repository) ends messages at short packets and hands on whole words, numpy's frombuffer and reshape. Inputs have at least one byte (C33_empty_refuted) and tensor numbers are below 256. C123_stale_refuted shows why every run must send every input: the arena does not keep them."
  },
  {
   "property": "C124",
   "status": "partial",
   "theorems": [
    "Verif.Host.Runner.C124_verdict_partial",
    "Verif.Host.Runner.C124_fails",
    "Verif.Host.Runner.C124_pattern",
    "Verif.Host.Runner.C124_int8",
    "Verif.Host.Runner.fine_int16",
    "Verif.Host.Runner.C124_even_refuted",
    "Verif.Host.Runner.C124_wide_refuted",
    "Verif.Host.Runner.C124_example"
   ],
   "note": "Proved: what the inputs are, that the count is runs times differing outputs, and that 0 means equality on that one input for outputs whose values stay apart as float32 (8 and 16 bits with usual scales). Refuted: every run has the same input, for int8 only even numbers, so a model wrong on odd inputs passes any number of runs; 32-bit outputs with a scale are compared as float32. Contracts: numpy, the accuracy of float32."
  },
  {
   "property": "C125",
   "status": "proved",
   "theorems": [
    "Verif.Host.RunModel.C125_same",
    "Verif.Host.RunModel.C125_report",
    "Verif.Host.RunModel.C125_example"
   ],
   "note": "Composes C68 and C123, with their contracts (USB driver of the device, numpy, engine). The host's engine computes the same function as the planned model (hm), whatever its state. Reading of images (cv2) is not modelled."
  },
  {
   "property": "C126",
   "status": "proved",
   "theorems": [
    "Verif.Host.UsbNet.C126_network_over_usb",
    "Verif.Host.UsbNet.C126_example"
   ],
   "note": "Composes C83 with C123; the contracts are theirs. The device's model is the network of C83 (data movement lowered, other operators arbitrary)."
  },
  {
   "property": "C127",
   "status": "proved",
   "theorems": [
    "Verif.Host.UsbQuant.C127_quantised_over_usb",
    "Verif.Host.UsbQuant.C127_example"
   ],
   "note": "Composes C94 with C123; run-time kernels are contracts (Rt.OK), as are the USB driver and numpy."
  },
  {
   "property": "C128",
   "status": "partial",
   "theorems": [
    "Verif.Host.TestRunner.C128_exact_partial",
    "Verif.Host.TestRunner.C128_pass_means",
    "Verif.Host.TestRunner.C128_share_equal",
    "Verif.Host.TestRunner.C128_no_false_alarm",
    "Verif.Host.TestRunner.C128_case_equal",
    "Verif.Host.TestRunner.C128_blind_to_maximum",
    "Verif.Host.TestRunner.C128_ends",
    "Verif.Host.TestRunner.C128_refuted",
    "Verif.Host.TestRunner.C128_refuted_half",
    "Verif.Host.TestRunner.C128_case",
    "Verif.Host.TestRunner.C128_case_maximum"
   ],
   "note": "Exact when no difference leaves the range of the output type. The full claim is false of the code: differences wrap in the output type, so int8 outputs wrong by 255 or 128 pass (C128_refuted, C128_refuted_half), and models with empty outputs are run for ever (C128_ends). All outputs have one signed integer type and equal shapes on both sides; predict is a function; average divisions are exact."
  },
  {
   "property": "C129",
   "status": "proved",
   "theorems": [
    "Verif.Host.CompileTest.C129_program",
    "Verif.Host.CompileTest.C129_network",
    "Verif.Host.CompileTest.C129_test_passes",
    "Verif.Host.CompileTest.C129_example",
    "Verif.Host.CompileTest.C129_missing",
    "Verif.Host.CompileTest.C129_short_refuted"
   ],
   "note": "Composes C02, C83 and C128. Input files are as long as the inputs, as XFHostRuntime writes them; a shorter file is silently completed with the arena's contents (C129_short_refuted). Outputs are not constants. The generated C++ is the planned model (C104, C117); model_init succeeds."
  },
  {
   "property": "C130",
   "status": "proved",
   "theorems": [
    "Verif.Host.DeviceTest.C130_device_runner",
    "Verif.Host.DeviceTest.C130_runners_agree",
    "Verif.Host.DeviceTest.C130_example"
   ],
   "note": "Composes C126 and C129, with their contracts (USB driver of the device, numpy). At most 256 inputs and outputs (numbers are sent as bytes), inputs that are not empty, outputs that are not constants. Data movement is lowered; other operators are arbitrary."
  },
  {
   "property": "C131",
   "status": "proved",
   "theorems": [
    "Verif.Host.QuantTest.C131_quantised_program",
    "Verif.Host.QuantTest.C131_example"
   ],
   "note": "Composes C94 and C129; run-time kernels are contracts (Rt.OK). Outputs are not constants; input files have the size of the inputs."
  }
 ]
}