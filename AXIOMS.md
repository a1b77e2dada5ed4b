# Axioms of every theorem in MANIFEST.json (output of `#print axioms`, grouped)

## (none)  (19 theorems)

- `Verif.Conv.C55_activation_ignored`
- `Verif.MemPlan.C108_letters`
- `Verif.MemPlan.C108_letters_refuted`
- `Verif.OpSplit.C10_dilation_refuted`
- `Verif.OpSplit.C10_full_refuted`
- `Verif.OpSplit.C11_asymmetric_pad_refuted`
- `Verif.OpSplit.C11_full_refuted`
- `Verif.OpSplit.C11_thin_slice_refuted`
- `Verif.OpSplit.C12_full_refuted`
- `Verif.OpSplit.C12_width_broadcast_refuted`
- `Verif.OpSplit.C67_argument_refuted`
- `Verif.Shape.C60_full_refuted`
- `Verif.Shape.C60_other_dims_refuted`
- `Verif.Shipped.C98_scratch_count`
- `Verif.Threads.C08_even_height_row_lost`
- `Verif.Threads.C08_small_image_undefined`
- `Verif.XC.C57_requantize_refuted`
- `Verif.XC.C57_unary_full_refuted`
- `Verif.XC.C57_unary_types_partial`

## Classical.choice, Quot.sound, propext  (466 theorems)

- `Verif.Audio.C85_log2_16`
- `Verif.Audio.C85_log2_16_mono`
- `Verif.Audio.C85_log2_8`
- `Verif.Audio.C85_log2_8_mono`
- `Verif.Audio.C86_full_refuted`
- `Verif.Audio.C86_log2_16_64`
- `Verif.Audio.C86_log2_8_64_partial`
- `Verif.Audio.C87_hypot`
- `Verif.Audio.C87_hypot_unsigned`
- `Verif.Audio.C88_compress_partial`
- `Verif.Audio.C88_matrix`
- `Verif.Audio.C88_shipped`
- `Verif.Audio.C88_total`
- `Verif.Audio.C89_between`
- `Verif.Audio.C89_constant`
- `Verif.Audio.C89_no_gain`
- `Verif.Audio.C89_shipped`
- `Verif.Audio.C89_unit`
- `Verif.Audio.C90_full_refuted`
- `Verif.Audio.C90_product_partial`
- `Verif.Audio.C90_roundtrip_partial`
- `Verif.Audio.C90_shipped`
- `Verif.Audio.C91_input`
- `Verif.Audio.C91_overlap_add`
- `Verif.Audio.C91_unity`
- `Verif.Audio.C92_example`
- `Verif.Audio.C92_full_refuted`
- `Verif.Audio.C92_mono_partial`
- `Verif.Audio.C92_passthrough`
- `Verif.Audio.C92_passthrough_spectrum`
- `Verif.Audio.C92_safe`
- `Verif.Audio.C92_total`
- `Verif.Audio.C93_latency`
- `Verif.Conv.C13_channel_split_partial`
- `Verif.Conv.C13_empty_groups`
- `Verif.Conv.C13_full_refuted`
- `Verif.Conv.C13_limit_refuted`
- `Verif.Conv.C13_not_multiple_refuted`
- `Verif.Conv.C13_stops`
- `Verif.Conv.C14_depthwise_padding`
- `Verif.Conv.C14_full_refuted`
- `Verif.Conv.C14_groups_refuted`
- `Verif.Conv.C14_input_padding_partial`
- `Verif.Conv.C14_input_padding_transpose_partial`
- `Verif.Conv.C14_output_padding_partial`
- `Verif.Conv.C37_avgpool_inside`
- `Verif.Conv.C37_avgpool_valid`
- `Verif.Conv.C37_same_border_refuted`
- `Verif.Conv.C38_full_refuted`
- `Verif.Conv.C38_fully_connected_partial`
- `Verif.Conv.C38_leading_dims_refuted`
- `Verif.Conv.C40_output_padding_refuted`
- `Verif.Conv.C40_transpose_conv_chain`
- `Verif.Conv.C49_same_to_valid`
- `Verif.Conv.C49_short_output_refuted`
- `Verif.Conv.C51_activation_ignored`
- `Verif.Conv.C51_activation_refuted`
- `Verif.Conv.C51_activation_refuted_reached`
- `Verif.Conv.C51_conv_lowered_partial`
- `Verif.Conv.C51_full_refuted`
- `Verif.Conv.C52_clamping_changes`
- `Verif.Conv.C52_multipliers`
- `Verif.Conv.C52_unclamped`
- `Verif.Conv.C53_full_refuted`
- `Verif.Conv.C53_i16_padding_refuted`
- `Verif.Conv.C53_kernel_usable_partial`
- `Verif.Conv.C54_accepted`
- `Verif.Conv.C54_bconv`
- `Verif.Conv.C54_kernel`
- `Verif.Conv.C54_same_one`
- `Verif.Conv.C55_batch_refuted`
- `Verif.Conv.C55_maxpool_valid_partial`
- `Verif.Conv.C55_value_exists`
- `Verif.Conv.C61_example`
- `Verif.Conv.C61_mark_whole`
- `Verif.Conv.C61_pass_ends`
- `Verif.Conv.C61_revert_partial`
- `Verif.Conv.C63_batch_refuted`
- `Verif.Conv.C63_conv_any_schedule`
- `Verif.Conv.C63_pool_any_schedule`
- `Verif.Conv.C63_works_exist`
- `Verif.Conv.C64_example`
- `Verif.Conv.C64_full_refuted`
- `Verif.Conv.C64_rows_lost`
- `Verif.Conv.C64_transposed_partial`
- `Verif.Conv.Compile.C110_activation_ignored`
- `Verif.Conv.Compile.C110_all_replaced`
- `Verif.Conv.Compile.C110_convolution16_compiled_partial`
- `Verif.Conv.Compile.C110_example`
- `Verif.Conv.Compile.C110_fully_connected16_partial`
- `Verif.Conv.Compile.C110_reached`
- `Verif.Conv.Compile.C110_relu_refuted`
- `Verif.Conv.Compile.C80_convolution_compiled`
- `Verif.Conv.Compile.C80_example`
- `Verif.Conv.Compile.C80_reached`
- `Verif.Conv.Compile.C80_rewrites_exact`
- `Verif.Conv.Compile.C81_average_pool_compiled`
- `Verif.Conv.Compile.C81_example`
- `Verif.Conv.Compile.C82_example`
- `Verif.Conv.Compile.C82_fully_connected_compiled`
- `Verif.Conv.Compile.C97_activation_ignored`
- `Verif.Conv.Compile.C97_activation_refuted`
- `Verif.Conv.Compile.C97_example`
- `Verif.Conv.Compile.C97_same_compiled_partial`
- `Verif.Conv.Compile.C97_transposed_compiled_partial`
- `Verif.Conv.Compile.allLowered_iff`
- `Verif.Conv.Compile.exactLib16_ok`
- `Verif.Full.C96_full_refuted`
- `Verif.Full.C97_full_refuted`
- `Verif.Host.Accept.C96_example`
- `Verif.Host.Accept.C96_largest_input_never_drawn`
- `Verif.Host.Accept.C96_loop_ends`
- `Verif.Host.Accept.C96_lost_output_accepted`
- `Verif.Host.Accept.C96_pass_bounds_modulo`
- `Verif.Host.Accept.C96_pass_means_accepted_partial`
- `Verif.Host.Accept.C96_wraparound_accepted`
- `Verif.Host.Accept.C96_wrong_at_largest_input`
- `Verif.Host.CompileTest.C129_example`
- `Verif.Host.CompileTest.C129_network`
- `Verif.Host.CompileTest.C129_program`
- `Verif.Host.CompileTest.C129_test_passes`
- `Verif.Host.Config.C28_offsets_metadata`
- `Verif.Host.Config.C29_exactly`
- `Verif.Host.Config.C29_version`
- `Verif.Host.Convert.C73_dash_refuted`
- `Verif.Host.Convert.C73_full_refuted`
- `Verif.Host.Convert.C74_arena_size`
- `Verif.Host.Convert.C74_no_size`
- `Verif.Host.DeviceTest.C130_device_runner`
- `Verif.Host.DeviceTest.C130_example`
- `Verif.Host.DeviceTest.C130_runners_agree`
- `Verif.Host.Driver.C75_accepted`
- `Verif.Host.Driver.C75_failed_runs_partial`
- `Verif.Host.Driver.C75_full_refuted`
- `Verif.Host.Driver.C75_occurrences_refuted`
- `Verif.Host.Driver.C75_tflmc_refuted`
- `Verif.Host.Driver.C75_weights_lost_refuted`
- `Verif.Host.Driver.C76_clash_refuted`
- `Verif.Host.Driver.C76_full_refuted`
- `Verif.Host.Driver.C76_success_partial`
- `Verif.Host.Driver.C77_full_refuted`
- `Verif.Host.Driver.C77_interrupted_partial`
- `Verif.Host.Driver.C77_old_model_refuted`
- `Verif.Host.Driver.names_nodup_iff`
- `Verif.Host.Flash.C31_flash_image`
- `Verif.Host.Flash.C32_file`
- `Verif.Host.Interp.C119_by_details`
- `Verif.Host.Interp.C119_details`
- `Verif.Host.Interp.C119_example`
- `Verif.Host.Interp.C119_index_refuted`
- `Verif.Host.Interp.C119_name`
- `Verif.Host.Interp.C119_name_refuted`
- `Verif.Host.Interp.C68_inference`
- `Verif.Host.Interp.C68_reset_reproducible`
- `Verif.Host.Interp.C69_first_model_wins_partial`
- `Verif.Host.Interp.C69_full_refuted`
- `Verif.Host.Interp.C70_no_undefined_partial`
- `Verif.Host.Lifetime.C120_balance`
- `Verif.Host.Lifetime.C120_large_refuted`
- `Verif.Host.Lifetime.C120_no_leak_partial`
- `Verif.Host.Lifetime.C120_replace_leaks_refuted`
- `Verif.Host.Lifetime.C120_safe`
- `Verif.Host.Lifetime.C120_use_closed_refuted`
- `Verif.Host.QuantTest.C131_example`
- `Verif.Host.QuantTest.C131_quantised_program`
- `Verif.Host.RunModel.C125_example`
- `Verif.Host.RunModel.C125_report`
- `Verif.Host.RunModel.C125_same`
- `Verif.Host.Runner.C124_even_refuted`
- `Verif.Host.Runner.C124_example`
- `Verif.Host.Runner.C124_fails`
- `Verif.Host.Runner.C124_int8`
- `Verif.Host.Runner.C124_pattern`
- `Verif.Host.Runner.C124_verdict_partial`
- `Verif.Host.Runner.C124_wide_refuted`
- `Verif.Host.Runner.fine_int16`
- `Verif.Host.Search.C30_chain_out_of_range`
- `Verif.Host.Search.C30_full_refuted`
- `Verif.Host.Search.C30_stops_partial`
- `Verif.Host.Subgraphs.C78_full_refuted`
- `Verif.Host.Subgraphs.C78_last_function_partial`
- `Verif.Host.Subgraphs.C78_two_functions_refuted`
- `Verif.Host.Subgraphs.C79_full_refuted`
- `Verif.Host.Subgraphs.C79_loop_refuted`
- `Verif.Host.Subgraphs.C79_main_last_partial`
- `Verif.Host.TestRunner.C128_blind_to_maximum`
- `Verif.Host.TestRunner.C128_case`
- `Verif.Host.TestRunner.C128_case_equal`
- `Verif.Host.TestRunner.C128_case_maximum`
- `Verif.Host.TestRunner.C128_exact_partial`
- `Verif.Host.TestRunner.C128_no_false_alarm`
- `Verif.Host.TestRunner.C128_pass_means`
- `Verif.Host.TestRunner.C128_refuted`
- `Verif.Host.TestRunner.C128_refuted_half`
- `Verif.Host.TestRunner.C128_share_equal`
- `Verif.Host.Usb.C33_download_partial`
- `Verif.Host.Usb.C33_empty_refuted`
- `Verif.Host.Usb.C33_full_refuted`
- `Verif.Host.UsbNet.C126_example`
- `Verif.Host.UsbNet.C126_network_over_usb`
- `Verif.Host.UsbQuant.C127_example`
- `Verif.Host.UsbQuant.C127_quantised_over_usb`
- `Verif.Host.UsbSession.C123_example`
- `Verif.Host.UsbSession.C123_no_details`
- `Verif.Host.UsbSession.C123_session`
- `Verif.Host.UsbSession.C123_stale_refuted`
- `Verif.MemPlan.C01_live_tensors_disjoint`
- `Verif.MemPlan.C02_arena_execution_correct`
- `Verif.MemPlan.C02_arena_execution_correct_in_place`
- `Verif.MemPlan.C02_lookup_table_overwritten`
- `Verif.MemPlan.C03_plan_exists`
- `Verif.MemPlan.C03_plan_shape`
- `Verif.MemPlan.C04_peak_is_least`
- `Verif.MemPlan.C05_members_inside`
- `Verif.MemPlan.C05_sharing_only_along_in_place_chains`
- `Verif.MemPlan.C05_shrinking_chain_refuted`
- `Verif.MemPlan.C06_chosen_plan`
- `Verif.MemPlan.C104_place`
- `Verif.MemPlan.C108_alphabet`
- `Verif.MemPlan.C108_example`
- `Verif.MemPlan.C108_large_arena_refuted`
- `Verif.MemPlan.C108_no_clash`
- `Verif.MemPlan.C108_report_partial`
- `Verif.MemPlan.C41_front_to_back_in_place_partial`
- `Verif.MemPlan.C41_full_refuted`
- `Verif.MemPlan.C41_in_place_gap`
- `Verif.MemPlan.C41_mid_chain_refuted`
- `Verif.MemPlan.C62_no_gratuitous_gap`
- `Verif.MemPlan.C62_peak_at_least_live`
- `Verif.MemPlan.C62_peak_at_least_live_of_plan`
- `Verif.MemPlan.C62_peak_at_most_sum`
- `Verif.MemPlan.C62_peak_op`
- `Verif.MemPlan.Conc.C102_any_schedule`
- `Verif.MemPlan.Conc.C102_as_sequential`
- `Verif.MemPlan.Conc.C102_example`
- `Verif.MemPlan.Conc.C102_region_threads`
- `Verif.MemPlan.Conc.C102_runs_exist`
- `Verif.MemPlan.Conc.exImplOK`
- `Verif.Move.C17_wide_concat_partial`
- `Verif.Move.C18_lowered_concat`
- `Verif.Move.C19_merge_axes_pad`
- `Verif.Move.C19_merge_axes_slice`
- `Verif.Move.C20_lowered_slice`
- `Verif.Move.C20_one_axis_is_lowered`
- `Verif.Move.C21_lowered_pad`
- `Verif.Move.C21_one_axis_is_lowered`
- `Verif.Move.C22_lowered_broadcast`
- `Verif.Move.C23_last_element_refuted`
- `Verif.Move.C23_strided_slice_partial`
- `Verif.Net.C100_example`
- `Verif.Net.C100_split_in_arena`
- `Verif.Net.C100_split_network`
- `Verif.Net.C100_split_with_weights`
- `Verif.Net.C101_combine_earlier_partial`
- `Verif.Net.C101_example`
- `Verif.Net.C101_full_refuted`
- `Verif.Net.C102_network`
- `Verif.Net.C102_network_example`
- `Verif.Net.C102_quantised_with_weights`
- `Verif.Net.C102_split_network`
- `Verif.Net.C106_compiled_network`
- `Verif.Net.C106_compiles`
- `Verif.Net.C106_example`
- `Verif.Net.C107_cleaned_network`
- `Verif.Net.C107_compiled_network`
- `Verif.Net.C107_compiles`
- `Verif.Net.C107_example`
- `Verif.Net.C107_fully_connected`
- `Verif.Net.C107_reaches_normal_form`
- `Verif.Net.C107_terminates`
- `Verif.Net.C109_example`
- `Verif.Net.C109_operator`
- `Verif.Net.C109_roundtrip`
- `Verif.Net.C109_wide_network`
- `Verif.Net.C111_dense_layer`
- `Verif.Net.C111_example`
- `Verif.Net.C111_wide_conv_network`
- `Verif.Net.C112_close_to_reference`
- `Verif.Net.C112_example`
- `Verif.Net.C112_minimum`
- `Verif.Net.C112_quantize`
- `Verif.Net.C112_quantize_example`
- `Verif.Net.C112_reference_exists`
- `Verif.Net.C112_two_runs`
- `Verif.Net.C113_binary_network`
- `Verif.Net.C113_example`
- `Verif.Net.C113_same_zero_refused`
- `Verif.Net.C113_signs_convolved`
- `Verif.Net.C114_errors`
- `Verif.Net.C114_example`
- `Verif.Net.C114_merged_network`
- `Verif.Net.C114_reference_kept`
- `Verif.Net.C114_saturated`
- `Verif.Net.C115_binary_example`
- `Verif.Net.C115_example`
- `Verif.Net.C115_no_error`
- `Verif.Net.C115_reference_kept`
- `Verif.Net.C115_split_network`
- `Verif.Net.C116_compiles`
- `Verif.Net.C116_example`
- `Verif.Net.C116_whole_compiler`
- `Verif.Net.C83_example`
- `Verif.Net.C83_network_compiled`
- `Verif.Net.C84_example`
- `Verif.Net.C84_quantised_network`
- `Verif.Net.C84_transposed_example`
- `Verif.Net.C94_example`
- `Verif.Net.C94_network_with_weights`
- `Verif.Net.C94_quantised_with_weights`
- `Verif.Net.C95_empty_pads_loop`
- `Verif.Net.C95_example`
- `Verif.Net.C95_input_transposed`
- `Verif.Net.C95_moves_end`
- `Verif.Net.C95_rewrites_keep_network`
- `Verif.Net.C95_rewritten_in_arena`
- `Verif.Net.C99_example`
- `Verif.Net.C99_rewritten_quantised`
- `Verif.Net.C99_rewritten_with_weights`
- `Verif.Net.Network.compiled_ok`
- `Verif.Net.bconv_estep`
- `Verif.Net.bsign_estep`
- `Verif.Net.checkBinary_iff`
- `Verif.Net.conv16_estep`
- `Verif.Net.conv_image`
- `Verif.Net.conv_raised`
- `Verif.Net.exB_ok`
- `Verif.Net.exBinLib_ok`
- `Verif.Net.exConcNet_impl`
- `Verif.Net.exDense`
- `Verif.Net.exLeaf12_ok`
- `Verif.Net.exN_split`
- `Verif.Net.exRt_ok`
- `Verif.Net.exS4_bounds`
- `Verif.Net.exSmall_bounds`
- `Verif.Net.exSmall_ok`
- `Verif.Net.exampleC16_ok`
- `Verif.Net.exampleD_bounds`
- `Verif.Net.exampleD_ok`
- `Verif.Net.exampleI16_ok`
- `Verif.Net.exampleM_merges`
- `Verif.Net.exampleM_ok`
- `Verif.Net.exampleNet_ok`
- `Verif.Net.exampleQ_ok`
- `Verif.Net.exampleT_ok`
- `Verif.Net.exampleWF_stored`
- `Verif.Net.fc16_estep`
- `Verif.Net.fromMetadata_eq`
- `Verif.Net.halves_ok`
- `Verif.Net.lower_step`
- `Verif.Net.meets_within`
- `Verif.Net.merge_step`
- `Verif.Net.node_close`
- `Verif.Net.node_ref`
- `Verif.Net.peak_small`
- `Verif.Net.quantize_merged`
- `Verif.Net.raiseBinQ_step`
- `Verif.Net.raiseConvQ_step`
- `Verif.Net.raise_step`
- `Verif.Net.reference_forward`
- `Verif.Net.relu_merged`
- `Verif.Net.rewritten_seen`
- `Verif.Net.roundTrip_ok`
- `Verif.Net.rw_keeps`
- `Verif.Net.swap_keeps`
- `Verif.Net.values_close`
- `Verif.OpSplit.C09_split_is_partition`
- `Verif.OpSplit.C10_raise_slice_valid_partial`
- `Verif.OpSplit.C10_split_valid_conv_end_to_end_partial`
- `Verif.OpSplit.C11_raise_slice_pad_partial`
- `Verif.OpSplit.C11_raise_slice_same_partial`
- `Verif.OpSplit.C11_split_same_conv_end_to_end_partial`
- `Verif.OpSplit.C12_combine_slices`
- `Verif.OpSplit.C65_any_schedule`
- `Verif.OpSplit.C65_chain_fully_split`
- `Verif.OpSplit.C66_early_refuted`
- `Verif.OpSplit.C66_exact_refuted`
- `Verif.OpSplit.C66_full_refuted`
- `Verif.OpSplit.C66_mean_split_partial`
- `Verif.OpSplit.C66_other_size_refuted`
- `Verif.OpSplit.C66_real_mean_exact`
- `Verif.OpSplit.C66_saturation_refuted`
- `Verif.OpSplit.C66_uneven_not_rewritten`
- `Verif.OpSplit.C67_full_refuted`
- `Verif.OpSplit.C67_gone_iff_partial`
- `Verif.OpSplit.C67_uneven_refuted`
- `Verif.Shape.C60_remove_dynamic_partial`
- `Verif.Shipped.Agree.C122_agree_partial`
- `Verif.Shipped.Agree.C122_example`
- `Verif.Shipped.Agree.C122_lowest_refuted`
- `Verif.Shipped.C98_frames`
- `Verif.Shipped.C98_no_aliasing`
- `Verif.Shipped.C98_overlap_plan`
- `Verif.Shipped.C98_persistent`
- `Verif.Shipped.C98_shipped_arena`
- `Verif.Shipped.C98_shipped_plan`
- `Verif.Shipped.Classify.C105_best_partial`
- `Verif.Shipped.Classify.C105_full_refuted`
- `Verif.Shipped.Classify.C105_percent`
- `Verif.Shipped.Classify.C105_three_ascending`
- `Verif.Shipped.Control.C117_dims_exactly`
- `Verif.Shipped.Control.C117_example`
- `Verif.Shipped.Control.C117_init`
- `Verif.Shipped.Control.C117_one_subgraph`
- `Verif.Shipped.Control.C117_tables`
- `Verif.Shipped.Image.C104_copy`
- `Verif.Shipped.Image.C104_example`
- `Verif.Shipped.Image.C104_full_refuted`
- `Verif.Shipped.Image.C104_input_partial`
- `Verif.Shipped.Image.C104_mobileNet`
- `Verif.Shipped.Image.C104_network_partial`
- `Verif.Shipped.IoServer.C118_example`
- `Verif.Shipped.IoServer.C118_inputs_apart`
- `Verif.Shipped.IoServer.C118_session`
- `Verif.Shipped.IoServer.C118_surplus`
- `Verif.TFL.C34_same_padding_explicit`
- `Verif.TFL.C43_no_ping_pong`
- `Verif.TFL.C43_pads_swapped`
- `Verif.TFL.C44_quantize_fusion`
- `Verif.TFL.C44_saturation_refuted`
- `Verif.TFL.C45_merge_relu`
- `Verif.TFL.C45_unfuse_activation`
- `Verif.TFL.C47_explicit_broadcast`
- `Verif.Threads.C07_balanced`
- `Verif.Threads.C07_regions_partition_image`
- `Verif.Threads.C08_condition_is_necessary`
- `Verif.Threads.C08_exactly`
- `Verif.Threads.C08_strided_regions_cover_phase_partial`
- `Verif.Threads.C63_any_schedule`
- `Verif.Threads.C64_phase_partial`
- `Verif.Transpose.C15_hoist_transpose`
- `Verif.Transpose.C16_cancelled_is_identity`
- `Verif.Transpose.C16_only_inverse`
- `Verif.Weights.C24_weights_found`
- `Verif.Weights.C25_regions`
- `Verif.XC.BetaFloat.C121_activation_refuted`
- `Verif.XC.BetaFloat.C121_bias_refuted`
- `Verif.XC.BetaFloat.C121_dilation_refuted`
- `Verif.XC.BetaFloat.C121_plain_partial`
- `Verif.XC.C35_fits`
- `Verif.XC.C35_lookup_table`
- `Verif.XC.C36_contiguous_is_lowered`
- `Verif.XC.C36_full_refuted`
- `Verif.XC.C36_mean_partial`
- `Verif.XC.C36_negative_axis_undefined`
- `Verif.XC.C36_nonneg_full_refuted`
- `Verif.XC.C36_sum_partial`
- `Verif.XC.C39_accumulator`
- `Verif.XC.C39_accuracy`
- `Verif.XC.C39_bias_overflow_refuted`
- `Verif.XC.C39_multipliers`
- `Verif.XC.C50_exp_table`
- `Verif.XC.C50_pad_value`
- `Verif.XC.C56_pad_3_to_4_partial`
- `Verif.XC.C57_binary_i16_partial`
- `Verif.XC.C57_full_refuted`
- `Verif.XC.C57_zero_point_refuted`
- `Verif.XC.C58_elu_partial`
- `Verif.XC.C58_elu_producer_refuted`
- `Verif.XC.C58_full_refuted`
- `Verif.XC.C58_lookup_i16`
- `Verif.XC.C58_result_full_refuted`
- `Verif.XC.C59_softmax`
- `Verif.XC.Options.C71_aligned`
- `Verif.XC.Options.C71_mul_aligned`
- `Verif.XC.Options.C72_nothing_lost`
- `_bounds`

## Quot.sound, propext  (69 theorems)

- `Verif.Conv.C14_hardware_multiple`
- `Verif.Conv.C14_input_padding_skipped`
- `Verif.Conv.C14_output_batch_refuted`
- `Verif.Conv.C14_output_full_refuted`
- `Verif.Conv.C49_small_kernel_refuted`
- `Verif.Conv.C55_full_refuted`
- `Verif.Conv.C55_same_refuted`
- `Verif.Conv.C61_full_refuted`
- `Verif.Conv.C61_transposed_refuted`
- `Verif.Host.Accept.C96_no_elements_loops`
- `Verif.Host.Accept.C96_other_inputs_drawn`
- `Verif.Host.Convert.C73_command_line_partial`
- `Verif.Host.Convert.C73_empty_value_refuted`
- `Verif.Host.Flash.C32_swap`
- `Verif.Host.Interp.C70_full_refuted`
- `Verif.Host.Interp.C70_long_value_refuted`
- `Verif.Host.Lifetime.C120_example`
- `Verif.Host.Search.C30_best_partial`
- `Verif.Host.Search.C30_may_not_stop`
- `Verif.Host.Search.C30_num_splits`
- `Verif.Host.Search.C30_suggestion_partial`
- `Verif.Host.TestRunner.C128_ends`
- `Verif.Host.Usb.C33_upload`
- `Verif.MemPlan.C42_reserved_size_partial`
- `Verif.Move.C17_full_refuted`
- `Verif.Move.C17_negative_axis_undefined`
- `Verif.Move.C22_consecutive_is_lowered`
- `Verif.Move.C23_end_beyond_refuted`
- `Verif.Move.C23_other_strides_untouched`
- `Verif.Net.C107_normal_form`
- `Verif.Net.C94_large_constants_leave`
- `Verif.Net.denseConsts_stored`
- `Verif.Net.exF_windowed`
- `Verif.Net.exampleWF_func`
- `Verif.Net.meaning_exists`
- `Verif.OpSplit.C11_clear_is_necessary`
- `Verif.OpSplit.C12_raise_slice_binary_partial`
- `Verif.Shape.C60_signature`
- `Verif.Shipped.Agree.C122_smear_refuted`
- `Verif.Shipped.C98_inputs_are_lost`
- `Verif.Shipped.C98_invoke`
- `Verif.Shipped.Classify.C105_example`
- `Verif.Shipped.Classify.C105_none`
- `Verif.Shipped.Classify.C105_three`
- `Verif.Shipped.Classify.C105_three_refuted`
- `Verif.Shipped.Control.C117_own_tensors`
- `Verif.Shipped.Control.C117_returns`
- `Verif.Shipped.Image.C104_smear`
- `Verif.Shipped.Shared.C103_example`
- `Verif.Shipped.Shared.C103_init_needed`
- `Verif.Shipped.Shared.C103_inputs_needed`
- `Verif.Shipped.Shared.C103_inside`
- `Verif.Shipped.Shared.C103_largest`
- `Verif.Shipped.Shared.C103_shared_arena`
- `Verif.Shipped.Shared.exModels_ok`
- `Verif.TFL.C44_quantize_reshape_dead`
- `Verif.TFL.C46_quantize_above_concat`
- `Verif.TFL.C48_minimum_removed`
- `Verif.Threads.C07_no_idle_thread`
- `Verif.Threads.C08_full_refuted`
- `Verif.Weights.C26_weights_array`
- `Verif.Weights.C27_budget`
- `Verif.Weights.C27_limit_exceeded`
- `Verif.Weights.C27_selects_when_within`
- `Verif.XC.C36_repeated_axes_refuted`
- `Verif.XC.C56_full_refuted`
- `Verif.XC.C56_pad_before_refuted`
- `Verif.XC.Options.C72_concat_indeterminate`
- `Verif.XC.Options.C72_keys_distinct`

## propext  (41 theorems)

- `Verif.Audio.C85_example`
- `Verif.Audio.C85_log2_16_drop`
- `Verif.Audio.C87_example`
- `Verif.Audio.C87_range_needed`
- `Verif.Audio.C88_full_refuted`
- `Verif.Audio.C89_example`
- `Verif.Audio.C91_example`
- `Verif.Audio.C93_deadline_needed`
- `Verif.Audio.C93_example`
- `Verif.Conv.C38_rank4_refuted`
- `Verif.Conv.C38_result_shape`
- `Verif.Host.CompileTest.C129_missing`
- `Verif.Host.CompileTest.C129_short_refuted`
- `Verif.Host.Config.C29_other`
- `Verif.Host.Interp.C69_index_one_refuted`
- `Verif.Host.Interp.C69_load_failure_refuted`
- `Verif.Host.Interp.C69_model_index_refuted`
- `Verif.Host.Interp.C69_replace_refuted`
- `Verif.Host.Interp.C70_input_index_refuted`
- `Verif.Host.Interp.C70_own_array_refuted`
- `Verif.Host.Interp.C70_short_value_refuted`
- `Verif.Host.Search.C30_worse_refuted`
- `Verif.Host.Subgraphs.C78_empty_file_refuted`
- `Verif.MemPlan.C42_bool_refuted`
- `Verif.MemPlan.C42_full_refuted`
- `Verif.Move.C23_full_refuted`
- `Verif.OpSplit.C67_other_refuted`
- `Verif.Shape.C60_static_unchanged`
- `Verif.Shipped.C98_persistent_bound`
- `Verif.Shipped.Control.C117_always_ok`
- `Verif.Shipped.Control.C117_dims`
- `Verif.Shipped.Control.C117_dims_refuted`
- `Verif.Shipped.Control.C117_error_lost_refuted`
- `Verif.Shipped.Control.C117_index_refuted`
- `Verif.Shipped.Control.C117_inputs`
- `Verif.Shipped.Control.C117_invoke`
- `Verif.Shipped.Control.C117_shipped`
- `Verif.Shipped.IoServer.C118_exit`
- `Verif.Weights.C27_rejected_count`
- `Verif.XC.BetaFloat.C121_example`
- `Verif.XC.BetaFloat.C121_off`
