{
 "claims": [
  {
   "property": "C01",
   "status": "proved",
   "theorems": [
    "MCT.Quant.C01_output_on_grid",
    "MCT.Quant.C01_at_most_two_pow_levels"
   ],
   "note": ""
  },
  {
   "property": "C02",
   "status": "proved",
   "theorems": [
    "MCT.Quant.C02_zero_exact",
    "MCT.Quant.C02_range_moves_little"
   ],
   "note": ""
  },
  {
   "property": "C03",
   "status": "proved",
   "theorems": [
    "MCT.Quant.C03_uniform",
    "MCT.Quant.C03_symmetric"
   ],
   "note": ""
  },
  {
   "property": "C04",
   "status": "proved",
   "theorems": [
    "MCT.Quant.C04_ties_to_even",
    "MCT.Quant.C04_nearest_and_error"
   ],
   "note": ""
  },
  {
   "property": "C05",
   "status": "proved",
   "theorems": [
    "MCT.Quant.C05_signed_grid",
    "MCT.Quant.C05_unsigned_grid"
   ],
   "note": ""
  },
  {
   "property": "C06",
   "status": "proved",
   "theorems": [
    "MCT.Quant.C06_least_pow2"
   ],
   "note": ""
  },
  {
   "property": "C07",
   "status": "proved",
   "theorems": [
    "MCT.Search.C07_per_tensor",
    "MCT.Search.C07_per_channel",
    "MCT.Search.C07_axis"
   ],
   "note": ""
  },
  {
   "property": "C08",
   "status": "proved",
   "theorems": [
    "MCT.Search.C08_no_bits_rejected",
    "MCT.Search.C08_no_clipping",
    "MCT.Search.C08_symmetric_least"
   ],
   "note": ""
  },
  {
   "property": "C09",
   "status": "partial",
   "theorems": [
    "MCT.Search.C09_min_max_partial",
    "MCT.Search.C09_histogram_partial",
    "MCT.Search.C09_uniform_covers",
    "MCT.Search.C09_min_ignored_violated",
    "MCT.Search.C09_histogram_left_edge_violated"
   ],
   "note": "The property is false of the code: the collected minimum (left bin edge) is ignored by the power-of-two and symmetric selections. Proved: the negation on witnesses, coverage of the right edges/maximum, and full coverage for uniform quantization."
  },
  {
   "property": "C10",
   "status": "proved",
   "theorems": [
    "MCT.Search.C10_candidates",
    "MCT.Search.C10_symmetric",
    "MCT.Search.C10_uniform",
    "MCT.Search.C10_floor",
    "MCT.Search.C10_tried",
    "MCT.Search.C10_uniform_tried"
   ],
   "note": "For loss functions with finite values; infinite losses are C55."
  },
  {
   "property": "C11",
   "status": "proved",
   "theorems": [
    "MCT.Search.C11_nearest_centre",
    "MCT.Search.C11_lut_contains_zero",
    "MCT.Search.C11_scaled"
   ],
   "note": "k-means is a parameter returning the requested number of centres."
  },
  {
   "property": "C12",
   "status": "proved",
   "theorems": [
    "MCT.Search.C12_keeps_or_zeroes",
    "MCT.Search.C12_inside_unchanged",
    "MCT.Search.C12_some_bin_survives"
   ],
   "note": ""
  },
  {
   "property": "C13",
   "status": "proved",
   "theorems": [
    "MCT.Search.C13_histogram_search",
    "MCT.Search.C13_signedness"
   ],
   "note": ""
  },
  {
   "property": "C53",
   "status": "partial",
   "theorems": [
    "MCT.Search.C53_argument_order_partial",
    "MCT.Search.C53_argument_order_violated"
   ],
   "note": "False of the code for non-symmetric error functions (witness); proved for symmetric ones."
  },
  {
   "property": "C54",
   "status": "partial",
   "theorems": [
    "MCT.Search.C54_uniform_range_partial",
    "MCT.Search.C54_all_zero_violated"
   ],
   "note": "False of the code for all-zero tensors (range (0,0), NaN); proved for every other tensor."
  },
  {
   "property": "C55",
   "status": "partial",
   "theorems": [
    "MCT.Search.C55_infinite_loss_violated",
    "MCT.Search.C55_infinite_start_violated"
   ],
   "note": "False of the code: inf*False is NaN and freezes the search (witnesses). For finite losses see C10."
  },
  {
   "property": "C14",
   "status": "proved",
   "theorems": [
    "MCT.Collect.C14_reported_values",
    "MCT.Collect.C14_per_channel",
    "MCT.Collect.C14_per_tensor",
    "MCT.Collect.C14_order_and_partition",
    "MCT.Collect.C14_permutation"
   ],
   "note": ""
  },
  {
   "property": "C15",
   "status": "partial",
   "theorems": [
    "MCT.Collect.C15_updates_partial",
    "MCT.Collect.C15_start",
    "MCT.Collect.C15_scale_shift_partial",
    "MCT.Collect.C15_unequal_batches_violated",
    "MCT.Collect.C15_scale_lost_violated"
   ],
   "note": "False of the code for batches of different size and for scale/shift followed by an update; proved otherwise."
  },
  {
   "property": "C16",
   "status": "partial",
   "theorems": [
    "MCT.Collect.C16_total_count_partial",
    "MCT.Collect.C16_later_batches_ignored_violated"
   ],
   "note": "False of the code when a batch is collected after the histogram was read (cached merge); proved for reads after collection."
  },
  {
   "property": "C17",
   "status": "partial",
   "theorems": [
    "MCT.Collect.C17_reported_values",
    "MCT.Collect.C17_per_channel_scale",
    "MCT.Collect.C17_min_max_partial",
    "MCT.Collect.C17_negative_scale_violated",
    "MCT.Collect.C17_histogram_partial",
    "MCT.Collect.C17_constant_batch_violated",
    "MCT.Collect.C17_illegal_reads_raise"
   ],
   "note": "Proved for positive factors and any shift; false of the code for negative factors (min/max) and for constant batches (histogram)."
  },
  {
   "property": "C56",
   "status": "partial",
   "theorems": [
    "MCT.Collect.C56_equal_rank_partial",
    "MCT.Collect.C56_lower_rank_violated"
   ],
   "note": "False of the code for weights of lower rank."
  },
  {
   "property": "C18",
   "status": "partial",
   "theorems": [
    "MCT.MP.C18_prediction",
    "MCT.MP.C18_virtual_prediction_partial"
   ],
   "note": "Weights, activation and total memory for every network. BOPS: without coupled activation/kernel bits, and over the layers of the virtual graph when every layer with varying kernel bits is the only reader of its varying input; false of the code otherwise (see C19)."
  },
  {
   "property": "C19",
   "status": "partial",
   "theorems": [
    "MCT.MP.C19_meets_target_partial",
    "MCT.MP.C19_search_partial",
    "MCT.MP.C19_total_without_activations_violated",
    "MCT.MP.C19_shared_input_violated",
    "MCT.MP.C19_preserving_violated"
   ],
   "note": "Solver assumed correct (SolverOk, realised by an exhaustive solver). The whole search, with the virtual graph of bit-operations targets. False of the code for a total-memory target without quantized activations, and for bit operations when a varying activation feeds several layers or reaches its reader through a layer that keeps its quantization (witnesses)."
  },
  {
   "property": "C20",
   "status": "partial",
   "theorems": [
    "MCT.MP.C20_optimal_partial",
    "MCT.MP.C20_virtual_optimal_partial",
    "MCT.MP.C20_negative_violated"
   ],
   "note": "Proved for non-negative sensitivities; false of the code for negative ones (witness)."
  },
  {
   "property": "C21",
   "status": "partial",
   "theorems": [
    "MCT.MP.C21_reported_iff",
    "MCT.MP.C21_virtual_reported_iff_partial"
   ],
   "note": "Proved for weights, activation, total, and BOPS without coupled bits; for coupled bits under the conditions of C19."
  },
  {
   "property": "C22",
   "status": "proved",
   "theorems": [
    "MCT.MP.C22_refinement",
    "MCT.MP.C22_greedy_choice"
   ],
   "note": ""
  },
  {
   "property": "C23",
   "status": "proved",
   "theorems": [
    "MCT.MP.C23_min",
    "MCT.MP.C23_max"
   ],
   "note": ""
  },
  {
   "property": "C24",
   "status": "proved",
   "theorems": [
    "MCT.MP.C24_weights_formula",
    "MCT.MP.C24_monotone"
   ],
   "note": ""
  },
  {
   "property": "C25",
   "status": "proved",
   "theorems": [
    "MCT.MP.C25_cut",
    "MCT.MP.C25_max",
    "MCT.MP.C25_total",
    "MCT.MP.C25_bits",
    "MCT.MP.C25_bits_exist"
   ],
   "note": ""
  },
  {
   "property": "C26",
   "status": "proved",
   "theorems": [
    "MCT.MP.C26_satisfied"
   ],
   "note": ""
  },
  {
   "property": "C57",
   "status": "partial",
   "theorems": [
    "MCT.MP.C57_selected_partial",
    "MCT.MP.C57_reused_name_violated"
   ],
   "note": "Proved for Keras names; false of the code for PyTorch names of reused layers (witness)."
  },
  {
   "property": "C58",
   "status": "proved",
   "theorems": [
    "MCT.MP.C58_max_config"
   ],
   "note": ""
  },
  {
   "property": "C40",
   "status": "proved",
   "theorems": [
    "MCT.Pruning.C40_fits_or_reported",
    "MCT.Pruning.C40_greedy_maximal"
   ],
   "note": ""
  },
  {
   "property": "C41",
   "status": "proved",
   "theorems": [
    "MCT.Pruning.C41_whole_groups"
   ],
   "note": ""
  },
  {
   "property": "C42",
   "status": "proved",
   "theorems": [
    "MCT.Pruning.C42_groups"
   ],
   "note": ""
  },
  {
   "property": "C59",
   "status": "partial",
   "theorems": [
    "MCT.Pruning.C59_group_order_violated",
    "MCT.Pruning.C59_singleton_partial",
    "MCT.Pruning.C59_equal_partial"
   ],
   "note": "False of the code for groups of more than one channel (witness); proved for SIMD size 1."
  },
  {
   "property": "C60",
   "status": "proved",
   "theorems": [
    "MCT.Pruning.C60_channel_scores"
   ],
   "note": ""
  },
  {
   "property": "C43",
   "status": "partial",
   "theorems": [
    "MCT.Pruning.C43_keras_partial",
    "MCT.Pruning.C43_edges",
    "MCT.Pruning.C43_torch_violated"
   ],
   "note": "Proved for Keras and for entry/exit layers of both frameworks; false of the PyTorch code for intermediate layers with weights."
  },
  {
   "property": "C61",
   "status": "proved",
   "theorems": [
    "MCT.Pruning.C61_sections",
    "MCT.Pruning.C61_complete"
   ],
   "note": ""
  },
  {
   "property": "C62",
   "status": "proved",
   "theorems": [
    "MCT.Pruning.C62_estimate",
    "MCT.Pruning.C62_each_layer_once"
   ],
   "note": ""
  },
  {
   "property": "C63",
   "status": "partial",
   "theorems": [
    "MCT.Pruning.C63_outputs_partial",
    "MCT.Pruning.C63_output_channels_violated"
   ],
   "note": "False of the code when an output of the model is inside a section (witness); proved otherwise."
  },
  {
   "property": "C64",
   "status": "proved",
   "theorems": [
    "MCT.Pruning.C64_section"
   ],
   "note": ""
  },
  {
   "property": "C27",
   "status": "partial",
   "theorems": [
    "MCT.MaxCut.C27_schedule_partial",
    "MCT.MaxCut.C27_found_partial",
    "MCT.MaxCut.C27_large_graph_violated"
   ],
   "note": "Every returned schedule is valid and its memory exact, and one is returned when the expansion limit exceeds the number of operations by more than two; false of the code for larger graphs (no schedule is ever returned)."
  },
  {
   "property": "C28",
   "status": "proved",
   "theorems": [
    "MCT.MaxCut.C28_bracketed",
    "MCT.MaxCut.C28_lower_bound"
   ],
   "note": ""
  },
  {
   "property": "C65",
   "status": "proved",
   "theorems": [
    "MCT.MaxCut.C65_one_search",
    "MCT.MaxCut.C65_near_optimal",
    "MCT.MaxCut.C65_no_regression"
   ],
   "note": ""
  },
  {
   "property": "C29",
   "status": "partial",
   "theorems": [
    "MCT.Graph.C29_identity_removal_partial",
    "MCT.Graph.C29_other_left_alone",
    "MCT.Graph.C29_second_output_violated"
   ],
   "note": "False of the code when the identity layer reads another than the first output of the layer before it (witness); proved otherwise."
  },
  {
   "property": "C30",
   "status": "partial",
   "theorems": [
    "MCT.Graph.C30_reconnect_out",
    "MCT.Graph.C30_reconnect_in",
    "MCT.Graph.C30_replace_connections",
    "MCT.Graph.C30_remove_checked",
    "MCT.Graph.C30_add_with_inputs",
    "MCT.Graph.C30_replace_function_partial",
    "MCT.Graph.C30_input_order_violated"
   ],
   "note": "Edges and outputs are kept on every graph; the order of the model inputs is not when the replaced input is not the last one (witness)."
  },
  {
   "property": "C31",
   "status": "partial",
   "theorems": [
    "MCT.Graph.C31_comparison",
    "MCT.Graph.C31_equality_partial",
    "MCT.Graph.C31_equivalence_violated"
   ],
   "note": "False of the code: the comparison is neither reflexive nor symmetric (witness); exact characterisation proved."
  },
  {
   "property": "C66",
   "status": "partial",
   "theorems": [
    "MCT.Graph.C66_swish_partial",
    "MCT.Graph.C66_left_alone",
    "MCT.Graph.C66_gated_violated"
   ],
   "note": "False of the code for gated units on two outputs of one layer (witness); proved when both read the same output."
  },
  {
   "property": "C67",
   "status": "partial",
   "theorems": [
    "MCT.Graph.C67_residual_partial",
    "MCT.Graph.C67_left_alone",
    "MCT.Graph.C67_two_outputs_violated",
    "MCT.Subst.C67_kernel_partial",
    "MCT.Subst.C67_same_padding",
    "MCT.Subst.C67_model_partial",
    "MCT.Subst.C67_grouped_fails",
    "MCT.Subst.C67_broadcast_violated",
    "MCT.Subst.C67_dilated_even_violated"
   ],
   "note": "False of the code when the two read different outputs of one layer, when the addition broadcasts, and for even dilated kernels; it fails for grouped convolutions (witnesses); proved otherwise, on every graph."
  },
  {
   "property": "C68",
   "status": "partial",
   "theorems": [
    "MCT.Graph.C68_insert_partial",
    "MCT.Graph.C68_insert_after",
    "MCT.Graph.C68_insert_before",
    "MCT.Graph.C68_second_output_violated"
   ],
   "note": "False of the code on a connection that reads another than the first output (witness); proved otherwise."
  },
  {
   "property": "C69",
   "status": "partial",
   "theorems": [
    "MCT.Graph.C69_remove_partial",
    "MCT.Graph.C69_second_input_violated"
   ],
   "note": "False of the code when the removed layer feeds another input slot than its own index (witness); proved otherwise."
  },
  {
   "property": "C70",
   "status": "partial",
   "theorems": [
    "MCT.Graph.C70_decomposed_partial",
    "MCT.Graph.C70_outputs_dropped_violated",
    "MCT.Subst.C70_depthwise_layer",
    "MCT.Subst.C70_depthwise_when"
   ],
   "note": "False of the code when the layer is one of several outputs (witness); proved otherwise."
  },
  {
   "property": "C71",
   "status": "proved",
   "theorems": [
    "MCT.Graph.C71_split",
    "MCT.Graph.C71_append"
   ],
   "note": ""
  },
  {
   "property": "C32",
   "status": "partial",
   "theorems": [
    "MCT.Subst.C32_folded_layer_partial",
    "MCT.Subst.C32_model_partial",
    "MCT.Graph.C32_merge_two_layers_partial",
    "MCT.Graph.C32_shared_left_alone",
    "MCT.Graph.C32_model_output_violated",
    "MCT.Subst.C32_grouped_transpose_violated"
   ],
   "note": "False of the code for PyTorch transposed convolutions with several groups of several input channels, and when the convolution itself is a model output (witnesses); proved for every other kind of layer and graph."
  },
  {
   "property": "C33",
   "status": "partial",
   "theorems": [
    "MCT.Subst.C33_folded_layer_partial",
    "MCT.Subst.C33_applied",
    "MCT.Subst.C33_left_alone",
    "MCT.Subst.C33_no_padding",
    "MCT.Subst.C33_depthwise_front_partial",
    "MCT.Subst.C33_padding_violated",
    "MCT.Subst.C33_strided_transpose_violated",
    "MCT.Subst.C33_depthwise_transpose_violated",
    "MCT.Subst.C33_multiplier_violated",
    "MCT.Subst.C33_depthwise_stride_violated",
    "MCT.Subst.C33_depthwise_activation_violated"
   ],
   "note": "False of the code for padded or strided-transposed layers and others (witnesses); proved when every output position reads a position of its input. Layer algebra; the graph edit is the one of C32."
  },
  {
   "property": "C34",
   "status": "partial",
   "theorems": [
    "MCT.Subst.C34_inserted_is_identity",
    "MCT.Subst.C34_model",
    "MCT.Subst.C34_refused_restores",
    "MCT.Subst.C34_refused_corrected_partial",
    "MCT.Subst.C34_without_bias_fails"
   ],
   "note": "The inserted layer is the identity and is undone by refusing, for every layer with a bias; folding after the correction holds for the layers of C32. A layer without a bias makes the refusing fail."
  },
  {
   "property": "C35",
   "status": "partial",
   "theorems": [
    "MCT.Subst.C35_scaled_pair",
    "MCT.Subst.C35_relu_homogeneous",
    "MCT.Subst.C35_padding_homogeneous",
    "MCT.Subst.C35_scale_factor",
    "MCT.Subst.C35_model_partial",
    "MCT.Subst.C35_grouped_fails",
    "MCT.Subst.C35_bounded_violated",
    "MCT.Subst.C35_threshold_violated",
    "MCT.Subst.C35_model_output_violated",
    "MCT.Subst.C35_bound",
    "MCT.Subst.C35_bound_left_alone",
    "MCT.Subst.C35_bound_without_bias_violated",
    "MCT.Subst.C35_bound_functional_violated",
    "MCT.Subst.C35_bound_threshold_violated"
   ],
   "note": "False of the code for a bounded or thresholded Keras ReLU, when the activation is a model output, for a layer without a bias and for the function hardtanh (witnesses); proved for every layer kind, geometry and input otherwise."
  },
  {
   "property": "C72",
   "status": "partial",
   "theorems": [
    "MCT.Subst.C72_symmetric",
    "MCT.Subst.C72_uniform",
    "MCT.Subst.C72_nearest",
    "MCT.Subst.C72_quantized_layer",
    "MCT.Subst.C72_scale_positive",
    "MCT.Subst.C72_grouped_transpose_fails"
   ],
   "note": "Proved for every layer kind but the PyTorch transposed convolution with groups, where the library fails."
  },
  {
   "property": "C36",
   "status": "partial",
   "theorems": [
    "MCT.Subst.C36_collapsed_partial",
    "MCT.Subst.C36_applied",
    "MCT.Subst.C36_model_partial",
    "MCT.Subst.C36_pointwise_reads",
    "MCT.Subst.C36_torch_kernel_size",
    "MCT.Subst.C36_torch_non_square_violated",
    "MCT.Subst.C36_bias_shape",
    "MCT.Subst.C36_scalar_bias_violated",
    "MCT.Subst.C36_loop"
   ],
   "note": "Proved for Keras and for square PyTorch kernels, on every graph, with the loop that repeats the matching; false of the code for PyTorch kernels that are not square and for the bias of a Keras layer with one filter (witnesses)."
  },
  {
   "property": "C73",
   "status": "partial",
   "theorems": [
    "MCT.Subst.C73_add_constant_partial",
    "MCT.Subst.C73_add_constant_applies",
    "MCT.Subst.C73_constant_shape_violated"
   ],
   "note": "False of the code for constants of rank 2 or more, and for scalars when the layer has no bias; proved otherwise. Layer algebra; the graph edit is the one of C32."
  },
  {
   "property": "C74",
   "status": "partial",
   "theorems": [
    "MCT.Subst.C74_reported_channels_partial",
    "MCT.Subst.C74_reported_channels_violated"
   ],
   "note": "False of the code when the two layers have different numbers of filters (witness); exact characterisation proved."
  },
  {
   "property": "C37",
   "status": "partial",
   "theorems": [
    "MCT.Subst.C37_bias_corrected",
    "MCT.Subst.C37_padded",
    "MCT.Subst.C37_zero_padding_layer",
    "MCT.Subst.C37_conv_padded",
    "MCT.Subst.C37_reindex_equivariant",
    "MCT.Subst.C37_identity_equivariant",
    "MCT.Subst.C37_average_equivariant",
    "MCT.Subst.C37_avg_pool_padded_violated",
    "MCT.Subst.C37_same_padding_partial",
    "MCT.Subst.C37_dilation_violated",
    "MCT.Subst.C37_stride_violated",
    "MCT.Subst.C37_torch_padding",
    "MCT.Subst.C37_keras_padding",
    "MCT.Subst.C37_torch_same_violated",
    "MCT.Subst.C37_padding_mode_violated",
    "MCT.Subst.C37_torch_pad_layer_fails",
    "MCT.Subst.C37_pad_after_bypass_fails",
    "MCT.Subst.C37_shift_value",
    "MCT.Subst.C37_shift_condition",
    "MCT.Subst.C37_shift_exceeds_violated",
    "MCT.Subst.C37_search",
    "MCT.Subst.C37_search_violated",
    "MCT.Subst.C37_model_partial",
    "MCT.Subst.C37_model_padded_partial",
    "MCT.Subst.C37_output_violated"
   ],
   "note": "The layer algebra holds for every kernel, bias, shift, input and geometry, and on every graph; false of the code for dilated or oddly strided 'same' padding in Keras, string or non-zero padding modes in PyTorch, padded average pooling and model outputs in between, minima beyond the quantized points, and the parameter search (witnesses)."
  },
  {
   "property": "C75",
   "status": "partial",
   "theorems": [
    "MCT.Subst.C75_unbiased_partial",
    "MCT.Subst.C75_no_error",
    "MCT.Subst.C75_grouped_transpose_violated",
    "MCT.Subst.C75_grouped_transpose_fails"
   ],
   "note": "Proved for every layer kind but the PyTorch transposed convolution with groups, where the code fails or corrects the wrong channels (witness)."
  },
  {
   "property": "C76",
   "status": "partial",
   "theorems": [
    "MCT.Subst.C76_unbiased_partial",
    "MCT.Subst.C76_larger_kernel_left_alone",
    "MCT.Subst.C76_no_error",
    "MCT.Subst.C76_gap_violated",
    "MCT.Subst.C76_grouped_transpose_violated"
   ],
   "note": "Proved where the window reads its input; false of the code for strided transposed or padded layers with kernel 1 and for grouped transposed ones (witnesses)."
  },
  {
   "property": "C77",
   "status": "partial",
   "theorems": [
    "MCT.Subst.C77_softmax_shift",
    "MCT.Subst.C77_layer_partial",
    "MCT.Subst.C77_model_partial",
    "MCT.Subst.C77_without_bias_violated",
    "MCT.Subst.C77_output_violated"
   ],
   "note": "Proved on every graph for layers with a bias that are not model outputs; false of the code otherwise (witnesses)."
  },
  {
   "property": "C78",
   "status": "partial",
   "theorems": [
    "MCT.Subst.C78_input_scaling",
    "MCT.Subst.C78_reported_partial",
    "MCT.Subst.C78_two_inputs_violated"
   ],
   "note": "Proved for every layer and one scaled input; false of the code with several inputs (witness)."
  },
  {
   "property": "C79",
   "status": "proved",
   "theorems": [
    "MCT.Graph.C79_search",
    "MCT.Graph.C79_once",
    "MCT.Graph.C79_disjoint",
    "MCT.Graph.C79_nodes_edges"
   ],
   "note": ""
  },
  {
   "property": "C38",
   "status": "partial",
   "theorems": [
    "MCT.Fusing.C38_history_partial",
    "MCT.Fusing.C38_lookup",
    "MCT.Fusing.C38_inner",
    "MCT.Fusing.C38_start",
    "MCT.Fusing.C38_generated_partial",
    "MCT.Fusing.C38_quantized_partial",
    "MCT.Fusing.C38_unfused",
    "MCT.Fusing.C38_overlap_violated",
    "MCT.Fusing.C38_missing_config_violated"
   ],
   "note": "Proved for every history in which added operations use new layer names; false of the code otherwise, and for generated operations with overlaps (witnesses)."
  },
  {
   "property": "C39",
   "status": "partial",
   "theorems": [
    "MCT.Fusing.C39_chains_partial",
    "MCT.Fusing.C39_disjoint_partial",
    "MCT.Fusing.C39_complete_partial",
    "MCT.Fusing.C39_accepted",
    "MCT.Fusing.C39_manual",
    "MCT.Fusing.C39_overlap_violated",
    "MCT.Fusing.C39_longer_pattern_violated",
    "MCT.Fusing.C39_name_clash_violated"
   ],
   "note": "Chains and patterns proved on every graph; disjointness when later layers take one input; false of the code with joins, when a longer pattern starts like a shorter one, and when identifiers coincide (witnesses)."
  },
  {
   "property": "C80",
   "status": "partial",
   "theorems": [
    "MCT.Fusing.C80_add_partial",
    "MCT.Fusing.C80_add_joined",
    "MCT.Fusing.C80_padding",
    "MCT.Fusing.C80_unfused_violated",
    "MCT.Fusing.C80_prev_only_violated"
   ],
   "note": "Proved for the updates that keep an operation; false of the code in the other cases (witnesses)."
  },
  {
   "property": "C81",
   "status": "partial",
   "theorems": [
    "MCT.Fusing.C81_contract_partial",
    "MCT.Fusing.C81_apply_partial",
    "MCT.Fusing.C81_checked",
    "MCT.Fusing.C81_inner_input_violated",
    "MCT.Fusing.C81_inner_output_violated",
    "MCT.Fusing.C81_repeated_input_violated",
    "MCT.Fusing.C81_repeated_output_violated"
   ],
   "note": "Proved on every graph when later layers take one input; false of the code when an inner layer has an outside input or is a model output, when an input or output is repeated (witnesses)."
  },
  {
   "property": "C44",
   "status": "partial",
   "theorems": [
    "MCT.Tpc.C44_edit_weight_attribute_partial",
    "MCT.Tpc.C44_missing_attribute",
    "MCT.Tpc.C44_unedited_lost",
    "MCT.Tpc.C44_op_edit",
    "MCT.Tpc.C44_clone_valid",
    "MCT.Tpc.C44_rename",
    "MCT.Tpc.C44_rename_lookup",
    "MCT.Tpc.C44_accepted",
    "MCT.Tpc.C44_drops_others_violated"
   ],
   "note": "The edited attributes, the originals and the operation edits are proved; the configurations of the other attributes are lost by the code (witness)."
  },
  {
   "property": "C45",
   "status": "partial",
   "theorems": [
    "MCT.Tpc.C45_upgrade_partial",
    "MCT.Tpc.C45_current",
    "MCT.Tpc.C45_result_valid",
    "MCT.Tpc.C45_name_violated",
    "MCT.Tpc.C45_simd_violated",
    "MCT.Tpc.C45_no_fusing_violated"
   ],
   "note": "Proved for the fields the code copies; the name and the SIMD padding are not copied and a TPC without fusing patterns is refused (witnesses)."
  },
  {
   "property": "C46",
   "status": "partial",
   "theorems": [
    "MCT.TpcContext.C46_normal_partial",
    "MCT.TpcContext.C46_program_partial",
    "MCT.TpcContext.C46_new_block",
    "MCT.TpcContext.C46_components",
    "MCT.TpcContext.C46_finalized",
    "MCT.TpcContext.C46_exception_violated",
    "MCT.TpcContext.C46_outside_violated",
    "MCT.TpcContext.C46_nested_violated",
    "MCT.TpcContext.C46_refused"
   ],
   "note": "Normal exits and re-entering are proved for every program; after an exception the platform stays active (witnesses)."
  },
  {
   "property": "C47",
   "status": "partial",
   "theorems": [
    "MCT.Tpc.C47_equality_partial",
    "MCT.Tpc.C47_symmetric_partial",
    "MCT.Tpc.C47_symmetric_violated",
    "MCT.Tpc.C47_layer_violated",
    "MCT.Tpc.C47_conditions_violated",
    "MCT.Tpc.C47_key_collision_violated",
    "MCT.Tpc.C47_key_order_violated",
    "MCT.Tpc.C47_display"
   ],
   "note": "False of the code: equality ignores the layer and the conditions beyond the shorter list, keyword conditions make it asymmetric, and keys that print alike collide (witnesses)."
  },
  {
   "property": "C48",
   "status": "partial",
   "theorems": [
    "MCT.Tpc.C48_match_exact",
    "MCT.Tpc.C48_match_defined",
    "MCT.Tpc.C48_or_and",
    "MCT.Tpc.C48_chain_violated",
    "MCT.Tpc.C48_filter_params",
    "MCT.Tpc.C48_config"
   ],
   "note": "Proved for every filter expression with matching types; three filters cannot be combined with | or &, the second application fails (witness)."
  },
  {
   "property": "C49",
   "status": "proved",
   "theorems": [
    "MCT.Tpc.C49_chosen",
    "MCT.Tpc.C49_error",
    "MCT.Tpc.C49_options_by_name",
    "MCT.Tpc.C49_mapping",
    "MCT.Tpc.C49_layer_options",
    "MCT.Tpc.C49_attach"
   ],
   "note": ""
  },
  {
   "property": "C82",
   "status": "proved",
   "theorems": [
    "MCT.Tpc.C82_fusing_patterns",
    "MCT.Tpc.C82_names_distinct"
   ],
   "note": ""
  },
  {
   "property": "C83",
   "status": "proved",
   "theorems": [
    "MCT.Tpc.C83_contains"
   ],
   "note": ""
  },
  {
   "property": "C50",
   "status": "partial",
   "theorems": [
    "MCT.Cand.C50_readable",
    "MCT.Cand.C50_base_partial",
    "MCT.Cand.C50_defined",
    "MCT.Cand.C50_loaded",
    "MCT.Cand.C50_base_violated",
    "MCT.Cand.C50_equal",
    "MCT.Cand.C50_accepted",
    "MCT.Cand.C50_candidate",
    "MCT.Cand.C50_mode"
   ],
   "note": "Readability is proved for every graph; a base configuration that is filtered out with none of the remaining options maximal makes the library refuse a graph with readable options (witness)."
  },
  {
   "property": "C51",
   "status": "partial",
   "theorems": [
    "MCT.Cand.C51_last_selection",
    "MCT.Cand.C51_candidates_partial",
    "MCT.Cand.C51_activation",
    "MCT.Cand.C51_weights_base",
    "MCT.Cand.C51_recorded",
    "MCT.Cand.C51_recorded_weights",
    "MCT.Cand.C51_accepted",
    "MCT.Cand.C51_short_name_violated",
    "MCT.Cand.C51_part_of_name_violated",
    "MCT.Cand.C51_base_violated",
    "MCT.Cand.C51_empty_violated"
   ],
   "note": "Proved for every successful choice; accepted choices are refused, dropped, or leave a base that is no candidate (witnesses)."
  },
  {
   "property": "C52",
   "status": "partial",
   "theorems": [
    "MCT.Cand.C52_represented_partial",
    "MCT.Cand.C52_nonempty",
    "MCT.Cand.C52_bias_violated",
    "MCT.Cand.C52_signedness_violated",
    "MCT.Cand.C52_positional_violated",
    "MCT.Cand.C52_only_unquantized"
   ],
   "note": "Never empty, and kernel and activation bits and methods stay represented; the other quantized settings are merged (witnesses)."
  },
  {
   "property": "C84",
   "status": "proved",
   "theorems": [
    "MCT.Cand.C84_source"
   ],
   "note": ""
  },
  {
   "property": "C85",
   "status": "partial",
   "theorems": [
    "MCT.Cand.C85_quantized",
    "MCT.Cand.C85_unquantized",
    "MCT.Cand.C85_function_violated"
   ],
   "note": "Settings and weight configurations are proved for every candidate list; the quantization function stays that of the former method (witness)."
  },
  {
   "property": "C86",
   "status": "partial",
   "theorems": [
    "MCT.Train.C86_symmetric_torch",
    "MCT.Train.C86_symmetric_keras",
    "MCT.Train.C86_uniform_torch_partial",
    "MCT.Train.C86_uniform_torch_violated",
    "MCT.Train.C86_uniform_keras_rounds_down",
    "MCT.Train.C86_uniform_keras_violated"
   ],
   "note": "Proved for the symmetric quantizers and for PyTorch uniform ranges that need no adjustment; false of the code for adjusted PyTorch ranges and for the Keras uniform quantizer, which rounds every weight down (witnesses)."
  },
  {
   "property": "C87",
   "status": "partial",
   "theorems": [
    "MCT.Train.C87_soft_symmetric",
    "MCT.Train.C87_soft_uniform",
    "MCT.Train.C87_ste",
    "MCT.Train.C87_per_tensor_violated"
   ],
   "note": "Proved for soft rounding and per-channel straight-through rounding; per tensor the configured number of steps is not used (witness)."
  },
  {
   "property": "C88",
   "status": "partial",
   "theorems": [
    "MCT.Train.C88_gptq_symmetric",
    "MCT.Train.C88_gptq_uniform",
    "MCT.Train.C88_gptq_ste_partial",
    "MCT.Train.C88_gptq_ste_violated",
    "MCT.Train.C88_qat_symmetric_partial",
    "MCT.Train.C88_qat_ste_weights",
    "MCT.Train.C88_qat_pot_violated"
   ],
   "note": "Proved for soft rounding and for thresholds exported as used; false of the code for power-of-two quantizers with another threshold (witnesses)."
  },
  {
   "property": "C89",
   "status": "partial",
   "theorems": [
    "MCT.Train.C89_schedule",
    "MCT.Train.C89_monotone",
    "MCT.Train.C89_gradual",
    "MCT.Train.C89_last_step_violated"
   ],
   "note": "Proved for every schedule; with no end step the last training step is not yet complete (witness)."
  },
  {
   "property": "C90",
   "status": "partial",
   "theorems": [
    "MCT.Train.C90_log_weights_partial",
    "MCT.Train.C90_normalized",
    "MCT.Train.C90_mean",
    "MCT.Train.C90_weights",
    "MCT.Train.C90_options",
    "MCT.Train.C90_two_zero_scores_fails",
    "MCT.Train.C90_one_layer_fails",
    "MCT.Train.C90_equal_scores_fails"
   ],
   "note": "Proved with at least two layers and at most one score of zero; false of the code with two zero scores, one layer, or scaled equal scores (witnesses)."
  },
  {
   "property": "C91",
   "status": "partial",
   "theorems": [
    "MCT.Train.C91_soft",
    "MCT.Train.C91_ste_keras",
    "MCT.Train.C91_ste_torch_partial",
    "MCT.Train.C91_ste_torch_violated"
   ],
   "note": "Proved for soft rounding and Keras; the PyTorch straight-through quantizer has one variable per channel (witness)."
  },
  {
   "property": "C92",
   "status": "partial",
   "theorems": [
    "MCT.Train.C92_uniform",
    "MCT.Train.C92_symmetric",
    "MCT.Train.C92_one_bit_violated"
   ],
   "note": "Proved for all ranges and for symmetric quantizers with at least two bits when signed; with one signed bit they differ (witness)."
  },
  {
   "property": "C93",
   "status": "partial",
   "theorems": [
    "MCT.Train.C93_assigned",
    "MCT.Train.C93_main_first",
    "MCT.Train.C93_starts_partial",
    "MCT.Train.C93_rest_required_violated"
   ],
   "note": "The assignment is proved for every configuration; learning quantization parameters is refused without the remaining optimizer even when their own is given (witness)."
  },
  {
   "property": "C94",
   "status": "proved",
   "theorems": [
    "MCT.Hessian.C94_fetch",
    "MCT.Hessian.C94_consistent",
    "MCT.Hessian.C94_needed",
    "MCT.Hessian.C94_primary",
    "MCT.Hessian.C94_number_required"
   ],
   "note": ""
  },
  {
   "property": "C95",
   "status": "partial",
   "theorems": [
    "MCT.Hessian.C95_force",
    "MCT.Hessian.C95_zero_samples_violated"
   ],
   "note": "Proved for every loader; a request for no samples is answered with all of them (witness)."
  },
  {
   "property": "C96",
   "status": "partial",
   "theorems": [
    "MCT.Hessian.C96_same_samples_partial",
    "MCT.Hessian.C96_other_samples_violated",
    "MCT.Hessian.C96_retry_violated"
   ],
   "note": "Proved when the layers have always been requested together; false of the code otherwise (witnesses)."
  },
  {
   "property": "C97",
   "status": "partial",
   "theorems": [
    "MCT.Hessian.C97_activations",
    "MCT.Hessian.C97_hessians_partial",
    "MCT.Hessian.C97_early_output_violated",
    "MCT.Hessian.C97_reused_layer_violated"
   ],
   "note": "The tensors are proved for every model; the Hessian scores when no collected layer is reused and collected model outputs come last; false of the code otherwise (witnesses)."
  },
  {
   "property": "C98",
   "status": "partial",
   "theorems": [
    "MCT.Torch.C98_round_trip_partial",
    "MCT.Torch.C98_list_violated",
    "MCT.Torch.C98_positional_violated",
    "MCT.Torch.C98_literal_violated",
    "MCT.Torch.C98_keyword_violated",
    "MCT.Torch.C98_constant_violated",
    "MCT.Torch.C98_module_violated",
    "MCT.Torch.C98_after_list_violated",
    "MCT.Torch.C98_outputs_violated"
   ],
   "note": "Proved when no call mixes a repeated tensor with other tensors, modules are called with positional tensors only, the outputs are different and lead to a last output; false of the code otherwise (witnesses)."
  },
  {
   "property": "C99",
   "status": "partial",
   "theorems": [
    "MCT.Torch.C99_kept_iff",
    "MCT.Torch.C99_edges",
    "MCT.Torch.C99_output_violated"
   ],
   "note": "Proved with outputs that have no consumer; an output whose consumers lead to no output is removed (witness)."
  },
  {
   "property": "C100",
   "status": "partial",
   "theorems": [
    "MCT.Torch.Reuse.C100_owner",
    "MCT.Torch.Reuse.C100_defined",
    "MCT.Torch.Reuse.C100_shared",
    "MCT.Torch.Reuse.C100_first_call_violated",
    "MCT.Torch.Reuse.C100_function_violated"
   ],
   "note": "Sharing is proved; building fails when the first call of a layer is not used, and calls of a function with the same constants share an operation although their other arguments differ (witnesses)."
  },
  {
   "property": "C101",
   "status": "partial",
   "theorems": [
    "MCT.MP.C101_reconstruct_partial",
    "MCT.MP.C101_complete_partial",
    "MCT.MP.C101_reused_violated",
    "MCT.MP.C101_accepted"
   ],
   "note": "Proved when only kernels of layers that are not reused have varying bits; for a reused layer on a shared input every reconstruction fails (witness)."
  },
  {
   "property": "C102",
   "status": "partial",
   "theorems": [
    "MCT.Sens.C102_evaluated",
    "MCT.Sens.C102_history",
    "MCT.Sens.C102_answered_iff",
    "MCT.Sens.C102_torch_partial",
    "MCT.Sens.C102_keras_partial",
    "MCT.Sens.C102_reused_violated",
    "MCT.Sens.C102_reused_relu_violated",
    "MCT.Sens.C102_rejected_violated"
   ],
   "note": "A call that is answered is proved to be measured with exactly what it requests, after any history of answered calls; the whole table when no reused layer has configurable activations and weights (Keras: configurable activations). Reused layers cannot be measured and a rejected call leaves quantizers on (witnesses)."
  },
  {
   "property": "C103",
   "status": "partial",
   "theorems": [
    "MCT.Sens.C103_weights_only",
    "MCT.Sens.C103_activation_only",
    "MCT.Sens.C103_unfiltered",
    "MCT.Sens.C103_metric",
    "MCT.Sens.C103_weights_only_measured",
    "MCT.Sens.C103_activation_only_reused_violated"
   ],
   "note": "Proved, except that the candidates of reused layers are not filtered when only the activation memory is restricted (witness)."
  },
  {
   "property": "C104",
   "status": "partial",
   "theorems": [
    "MCT.Sens.C104_images",
    "MCT.Sens.C104_value_partial",
    "MCT.Sens.C104_batches_partial",
    "MCT.Sens.C104_zero_violated",
    "MCT.Sens.C104_zero_raises_violated",
    "MCT.Sens.C104_zero_batches_violated"
   ],
   "note": "Proved unless a point compared by cosine is zero in both models; then the value depends on the batches or the metric raises (witnesses). Over the reals."
  },
  {
   "property": "C105",
   "status": "partial",
   "theorems": [
    "MCT.Sens.C105_nmse",
    "MCT.Sens.C105_cosine",
    "MCT.Sens.C105_cosine_self",
    "MCT.Sens.C105_kl_self",
    "MCT.Sens.C105_kl_partial",
    "MCT.Sens.C105_metric_nonneg",
    "MCT.Sens.C105_metric_zero_partial",
    "MCT.Sens.C105_kl_negative_violated",
    "MCT.Sens.C105_kl_bound_violated"
   ],
   "note": "Squared error and cosine proved; the Kullback-Leibler distance is not negative for positive quantized probabilities, but negative values and values above 1 occur (witnesses). Over the reals."
  },
  {
   "property": "C106",
   "status": "partial",
   "theorems": [
    "MCT.Sens.C106_bound",
    "MCT.Sens.C106_points",
    "MCT.Sens.C106_tensors",
    "MCT.Sens.C106_few_violated"
   ],
   "note": "Proved for rational factors; outputs are removed after the selection, so fewer points than requested, or none, can remain (witness)."
  },
  {
   "property": "C107",
   "status": "partial",
   "theorems": [
    "MCT.Decomp.C107_matmul_partial",
    "MCT.Decomp.C107_call_partial",
    "MCT.Decomp.C107_same_violated",
    "MCT.Decomp.C107_constant_violated",
    "MCT.Decomp.C107_empty_violated"
   ],
   "note": "Proved for two different tensors of the model without empty dimensions, for every batch size. The product of a tensor with itself, with a constant of rank at least 4, or with empty dimensions fails (witnesses)."
  },
  {
   "property": "C108",
   "status": "partial",
   "theorems": [
    "MCT.Decomp.C108_attention",
    "MCT.Decomp.C108_rejected",
    "MCT.Decomp.C108_call_partial",
    "MCT.Decomp.C108_roles_iff",
    "MCT.Decomp.C108_mask",
    "MCT.Decomp.C108_order_violated",
    "MCT.Decomp.C108_self_violated",
    "MCT.Decomp.C108_batch_violated",
    "MCT.Decomp.C108_first_violated"
   ],
   "note": "The computation is proved equal to multi-head attention on the traced batch size; calls with three different tensors keep their roles exactly if they are computed in the order query, key, value. Self-attention, other batch sizes and reading the first result do not work (witnesses). Softmax with an arbitrary exponential, over any field."
  },
  {
   "property": "C109",
   "status": "partial",
   "theorems": [
    "MCT.Decomp.C109_attention",
    "MCT.Decomp.C109_roles_iff",
    "MCT.Decomp.C109_call_partial",
    "MCT.Decomp.C109_mask_tensor",
    "MCT.Decomp.C109_rejects",
    "MCT.Decomp.C109_repeated_violated",
    "MCT.Decomp.C109_zero_scale_violated",
    "MCT.Decomp.C109_keyword_violated",
    "MCT.Decomp.C109_self_keyword_violated",
    "MCT.Decomp.C109_constant_violated"
   ],
   "note": "Proved for positional query, key and value of the model with optional constant mask, except scale=0 and two arrangements of repeated tensors, which are characterised exactly. Keyword order, constants with a computed mask and keyword self-attention are wrong (witnesses)."
  },
  {
   "property": "C110",
   "status": "partial",
   "theorems": [
    "MCT.Torch.Functional.C110_linear",
    "MCT.Torch.Functional.C110_layer_norm_partial",
    "MCT.Torch.Functional.C110_batch_norm_partial",
    "MCT.Torch.Functional.C110_two_dims_violated",
    "MCT.Torch.Functional.C110_positional_eps_violated",
    "MCT.Torch.Functional.C110_bias_only_violated",
    "MCT.Torch.Functional.C110_defaults_violated",
    "MCT.Torch.Functional.C110_training_violated",
    "MCT.Torch.Functional.C110_swapped_violated",
    "MCT.Torch.Functional.C110_positional_none_violated",
    "MCT.Torch.Functional.C110_input_last_violated"
   ],
   "note": "Proved for all orders of positional and keyword weights and biases that are constants or None by keyword. Omitted or positional None arguments, positional epsilon, several normalised dimensions, training and keyword statistics are wrong (witnesses)."
  },
  {
   "property": "C111",
   "status": "partial",
   "theorems": [
    "MCT.KReader.C111_read_partial",
    "MCT.KReader.C111_second_argument_violated",
    "MCT.KReader.C111_residual_violated",
    "MCT.KReader.C111_twice_violated",
    "MCT.KReader.C111_same_input_violated",
    "MCT.KReader.C111_reused_violated",
    "MCT.KReader.C111_pass_violated"
   ],
   "note": "Proved for all models in which no layer reads a tensor twice, nested models are used once, and the inputs of a nested model are read as first arguments only and are not outputs. Without these conditions models are rejected or read wrongly: a nested residual block Add([f(x), x]) is not read, f(x, y, x) is read as f(x, x, y). Names, classes and weights of layers are not modelled here."
  },
  {
   "property": "C112",
   "status": "partial",
   "theorems": [
    "MCT.KReader.C112_list_partial",
    "MCT.KReader.C112_const_partial",
    "MCT.KReader.C112_plain_partial",
    "MCT.KReader.C112_literal_first_violated",
    "MCT.KReader.C112_alphabetical_violated",
    "MCT.KReader.C112_keyword_tensor_violated",
    "MCT.KReader.C112_repeated_violated",
    "MCT.KReader.C112_axis_violated",
    "MCT.KReader.C112_constant_axis_violated",
    "MCT.KReader.C112_hole_violated",
    "MCT.KReader.C112_hole_swapped_violated",
    "MCT.KReader.C112_scalar_violated",
    "MCT.KReader.C112_variable_violated"
   ],
   "note": "Proved for calls with a list, with constants and without, for all signatures, under conditions that exclude the witnesses: a literal before a tensor (tf.subtract(1.0, x) becomes x - 1.0), keyword tensors not in alphabetical order, a lost axis of tf.stack([x, c], axis=a), a constant after an omitted parameter, repeated tensors, scalar tensors and variables. Calls inside a quantization wrapper are not modelled."
  },
  {
   "property": "C113",
   "status": "partial",
   "theorems": [
    "MCT.Editor.C113_untouched",
    "MCT.Editor.C113_kept",
    "MCT.Editor.C113_activation",
    "MCT.Editor.C113_weights",
    "MCT.Editor.C113_final",
    "MCT.Editor.C113_rejected",
    "MCT.Editor.C113_replace",
    "MCT.Editor.C113_property_violated",
    "MCT.Editor.C113_layer_name_violated"
   ],
   "note": "Proved for all rules that set settings, and for single rules that replace layers. Switching off activation quantization by its name is an error, and a kernel is not found by its name in a layer whose name contains that name (witnesses). Setting a function (ChangeQuantizationParamFunction) is included in the rules that set settings."
  },
  {
   "property": "C114",
   "status": "partial",
   "theorems": [
    "MCT.Editor.C114_single_activation",
    "MCT.Editor.C114_single_weights",
    "MCT.Editor.C114_fixed",
    "MCT.Editor.C114_chosen",
    "MCT.Editor.C114_mixed_activation_partial",
    "MCT.Editor.C114_mixed_weights_partial",
    "MCT.Editor.C114_order_violated",
    "MCT.Editor.C114_replace_violated",
    "MCT.Editor.C114_stale_violated"
   ],
   "note": "Single precision: proved for all rules that set settings. Mixed precision: proved with the last request in the order of the rules, since the final configuration is the chosen candidate itself, so a later rule for candidates overrides an earlier one for the final configuration (witness). Layers are replaced in both passes and quantization parameters of a changed method are stale (witnesses). Missing: precedence of requests for final configurations in mixed precision."
  },
  {
   "property": "C115",
   "status": "partial",
   "theorems": [
    "MCT.ActQ.C115_torch_symmetric",
    "MCT.ActQ.C115_torch_power_of_two",
    "MCT.ActQ.C115_torch_uniform",
    "MCT.ActQ.C115_keras_symmetric_partial",
    "MCT.ActQ.C115_keras_power_of_two_partial",
    "MCT.ActQ.C115_keras_uniform_partial",
    "MCT.ActQ.C115_agree",
    "MCT.ActQ.C115_zero",
    "MCT.ActQ.C115_lut",
    "MCT.ActQ.C115_keras_range_violated",
    "MCT.ActQ.C115_keras_bits_violated"
   ],
   "note": "PyTorch: proved for all parameters. Keras: proved for 2 to 16 bits and ranges around zero; a range that does not contain zero is moved, so that values inside it are clipped, and other numbers of bits are an error (witnesses). The two framework operations are modelled after their documentation."
  },
  {
   "property": "C116",
   "status": "partial",
   "theorems": [
    "MCT.XQuant.C116_report",
    "MCT.XQuant.C116_report_exists",
    "MCT.XQuant.C116_duplicate",
    "MCT.XQuant.C116_empty_dataset",
    "MCT.XQuant.C116_labels_dropped",
    "MCT.XQuant.C116_representative",
    "MCT.XQuant.C116_mse",
    "MCT.XQuant.C116_sqnr",
    "MCT.XQuant.C116_cs_torch",
    "MCT.XQuant.C116_keras_cs",
    "MCT.XQuant.C116_hooks_left",
    "MCT.XQuant.C116_keras_cs_violated",
    "MCT.XQuant.C116_hooks_violated",
    "MCT.XQuant.C116_output_key_violated",
    "MCT.XQuant.C116_keras_last_sample_violated",
    "MCT.XQuant.C116_shared_layer_violated"
   ],
   "note": "The means and the compared layers are proved for all networks, datasets and metrics. The cosine similarity of the Keras report has the opposite sign: equal tensors have -1 (proved for all tensors). The PyTorch report leaves hooks on the model of the user. A layer with the name of the output key, a Keras report without compared layers, and Keras layers called twice are not reported as stated (witnesses). The folding of the float model is not part of this model."
  },
  {
   "property": "C117",
   "status": "partial",
   "theorems": [
    "MCT.DataGen.C117_clip_torch",
    "MCT.DataGen.C117_torch",
    "MCT.DataGen.C117_torch_identity_violated",
    "MCT.DataGen.C117_keras",
    "MCT.DataGen.C117_keras_clip_violated",
    "MCT.DataGen.C117_torch_iterations_violated",
    "MCT.DataGen.C117_torch_identity_clip_violated",
    "MCT.DataGen.C117_smoothed",
    "MCT.DataGen.C117_smoothed_keras"
   ],
   "note": "PyTorch with the default pipeline: proved for all configurations, schedules, optimizers and augmentations. The identity pipeline of PyTorch returns images of the wrong size that are not clipped. Keras: the number and the size of the images are proved if the batch size divides the number of images, and the generation is proved to fail otherwise; its clipping treats rows as channels. Zero iterations, and few with the step scheduler, fail in PyTorch."
  },
  {
   "property": "C118",
   "status": "partial",
   "theorems": [
    "MCT.DataGen.C118_accumulated_torch",
    "MCT.DataGen.C118_accumulated_keras",
    "MCT.DataGen.C118_loss_keras",
    "MCT.DataGen.C118_loss_torch",
    "MCT.DataGen.C118_average_weights",
    "MCT.DataGen.C118_first_weights",
    "MCT.DataGen.C118_stale",
    "MCT.DataGen.C118_unequal_batches_violated",
    "MCT.DataGen.C118_keras_variance_violated",
    "MCT.DataGen.C118_stale_violated",
    "MCT.DataGen.C118_torch_eps_violated"
   ],
   "note": "Mean and variance over all images are proved for PyTorch and batches of one size. False otherwise: a smaller last batch counts as much as the others, Keras loses the variance between batches (proved: equality exactly if all batches have one mean), statistics of layers are those of the augmented images before the step, and in PyTorch eps is added on one side only, so that equal statistics have a positive loss. Channels are treated one by one; activations are arbitrary functions of an image."
  },
  {
   "property": "C119",
   "status": "partial",
   "theorems": [
    "MCT.DataGen.Plateau.C119_rate",
    "MCT.DataGen.Plateau.C119_spacing",
    "MCT.DataGen.Plateau.C119_falling",
    "MCT.DataGen.Plateau.C119_improving",
    "MCT.DataGen.Plateau.C119_stays",
    "MCT.DataGen.Plateau.C119_plateau",
    "MCT.DataGen.Plateau.C119_negative_plateau_violated",
    "MCT.DataGen.Plateau.C119_worsening_violated",
    "MCT.DataGen.Plateau.C119_generation",
    "MCT.DataGen.Plateau.C119_generation_bounds"
   ],
   "note": "Proved for all losses except the plateaus of negative losses, which count as improvements at every step, so that the rate is never lowered (proved for all lengths); the default output loss of PyTorch is negative. One parameter group, exact arithmetic."
  },
  {
   "property": "C120",
   "status": "partial",
   "theorems": [
    "MCT.Build.C120_torch",
    "MCT.Build.C120_keras",
    "MCT.Build.C120_preserving_unused",
    "MCT.Build.C120_many_outputs_violated",
    "MCT.Build.C120_shared_weights_violated",
    "MCT.Build.C120_source_index_violated",
    "MCT.Build.C120_keras_name"
   ],
   "note": "PyTorch: proved in all modes for graphs whose layers return one tensor and whose reused layers agree on the quantization of weights; a reused layer with another configuration runs with that of the first use, and of layers that return lists all tensors are passed on. Keras: the exported model is proved for any number of tensors. Quantized layers with several outputs cannot be exported. What layers, wrappers and quantizers compute is arbitrary."
  },
  {
   "property": "C121",
   "status": "partial",
   "theorems": [
    "MCT.Hutch.C121_unbiased",
    "MCT.Hutch.C121_per_image",
    "MCT.Hutch.C121_zero",
    "MCT.Hutch.C121_mean",
    "MCT.Hutch.C121_unbiased_run",
    "MCT.Hutch.C121_stopping_above",
    "MCT.Hutch.C121_stopping_violated",
    "MCT.Hutch.C121_channel_violated",
    "MCT.Hutch.C121_torch_scale_violated",
    "MCT.Hutch.C121_scalar_output_violated",
    "MCT.Hutch.C121_torch_inputs_violated"
   ],
   "note": "Unbiasedness is proved for all networks, one and several random vectors without early stopping. With early stopping the result is proved to be the mean over the vectors used, and it is biased: for two outputs and at most 13 vectors the mean score is never below what it estimates, and above it for a witness. The frameworks do not share a scale: channels of activations are means in PyTorch and sums in Keras, and the weights scores of PyTorch are divided by n squared for a single output with n classes; networks with a scalar output or several inputs fail there. Automatic differentiation is taken to be exact."
  },
  {
   "property": "C122",
   "status": "partial",
   "theorems": [
    "MCT.Loss.C122_samples",
    "MCT.Loss.C122_fixed_torch",
    "MCT.Loss.C122_fixed_keras",
    "MCT.Loss.C122_with_info",
    "MCT.Loss.C122_attention",
    "MCT.Loss.C122_plain",
    "MCT.Loss.C122_steps",
    "MCT.Loss.C122_short_input_violated",
    "MCT.Loss.C122_steps_violated",
    "MCT.Loss.C122_torch_inputs_violated"
   ],
   "note": "Proved for all generators whose batches have inputs of one length. Inputs of different lengths lose samples silently, the steps differ from those the schedules count if the first batch is not the largest, and GPTQ of PyTorch fails for networks with several inputs, which it passes as one list (all proved in general)."
  },
  {
   "property": "C123",
   "status": "partial",
   "theorems": [
    "MCT.Loss.C123_layer",
    "MCT.Loss.C123_torch",
    "MCT.Loss.C123_keras_plain",
    "MCT.Loss.C123_zero",
    "MCT.Loss.C123_attention_scale",
    "MCT.Loss.C123_attention_zero",
    "MCT.Loss.C123_keras_flag_violated",
    "MCT.Loss.C123_keras_batch_violated",
    "MCT.Loss.C123_column_violated",
    "MCT.Loss.C123_attention_axis_violated",
    "MCT.Loss.C123_attention_no_scores_violated"
   ],
   "note": "PyTorch with logarithmic weights or none: proved. The Keras loss is multiplied by the batch size and not normalised; its mse_loss has the flag inverted; without logarithmic normalization the weights of layers are multiplied with all losses, so that only their sum matters, in both frameworks; the attention loss adds along rows instead of channels in Keras; it is undefined if all scores of a batch are zero (all proved in general)."
  },
  {
   "property": "C124",
   "status": "partial",
   "theorems": [
    "MCT.KFunc.C124_conv",
    "MCT.KFunc.C124_conv_first_partial",
    "MCT.KFunc.C124_depthwise",
    "MCT.KFunc.C124_first_strides_violated",
    "MCT.KFunc.C124_first_bias_violated",
    "MCT.KFunc.C124_groups_violated",
    "MCT.KFunc.C124_scalar_bias_violated",
    "MCT.KFunc.C124_none_format_violated",
    "MCT.KFunc.C124_depthwise_first_violated",
    "MCT.KFunc.C124_multiplier_violated"
   ],
   "note": "Channels last, one group: proved for all forms of the arguments. With the channels first four strides are read at the wrong positions, an added vector moves from the width to the channels, and depthwise calls become layers with the channels last; several groups, a bias with one element, a format given as None and depth multipliers other than 1 are errors (all proved in general). The convolution itself is an arbitrary function of its configuration."
  },
  {
   "property": "C125",
   "status": "partial",
   "theorems": [
    "MCT.KFunc.C125_matmul",
    "MCT.KFunc.C125_other",
    "MCT.KFunc.C125_transpose_a_violated",
    "MCT.KFunc.C125_first_violated"
   ],
   "note": "Proved unless the first factor is transposed, which is not noticed because the flag is looked up among the attributes of the layer instead of the arguments of the call, or the constant is the first factor, which is an error."
  },
  {
   "property": "C126",
   "status": "partial",
   "theorems": [
    "MCT.Decomp.C126_attention",
    "MCT.Decomp.C126_roles_iff",
    "MCT.Decomp.C126_call_partial",
    "MCT.Decomp.C126_order_violated",
    "MCT.Decomp.C126_key_violated",
    "MCT.Decomp.C126_mask_violated",
    "MCT.Decomp.C126_four",
    "MCT.Decomp.C126_bias_violated"
   ],
   "note": "The value is proved for all shapes and attended dimensions. Which tensor is query, key or value depends on the order of their sources in the model (proved: right exactly if query, value and key come in this order); a mask is used as the key; layers without bias fail. Exact arithmetic, an arbitrary function in place of the exponential; masks given as options of the call (use_causal_mask) are lost by the reader and not modelled here."
  },
  {
   "property": "C127",
   "status": "partial",
   "theorems": [
    "MCT.Export.C127_dense",
    "MCT.Export.C127_uniform_violated",
    "MCT.Export.C127_dynamic_violated",
    "MCT.Export.C127_shared_violated"
   ],
   "note": "Proved for quantizers with thresholds and inputs with known sizes. Uniform quantizers, unknown sizes between batch and channels and layers shared between inputs of different shapes make the export fail. Exact arithmetic; the order of the weights of the wrapper and the quantizers of mct_quantizers are trusted; the conversion by TFLite is not modelled."
  },
  {
   "property": "C128",
   "status": "partial",
   "theorems": [
    "MCT.Export.Fq.C128_export",
    "MCT.Export.Fq.C128_succeeds_iff",
    "MCT.Export.Fq.C128_constant_violated",
    "MCT.Export.Fq.C128_table_violated",
    "MCT.Export.Fq.C128_name_violated",
    "MCT.Export.Fq.C128_check_violated",
    "MCT.Export.Fq.C128_formats",
    "MCT.Export.Fq.C128_kernel"
   ],
   "note": "Proved with the exact conditions under which the export succeeds, for wrappers that quantize the kernel only. It fails for quantized constants, look-up-table activations and layers with optimizer_step in their name; a check that returns False is ignored."
  },
  {
   "property": "C129",
   "status": "partial",
   "theorems": [
    "MCT.Export.Torch.C129_wrapper",
    "MCT.Export.Torch.C129_onnx_partial",
    "MCT.Export.Torch.C129_mctq",
    "MCT.Export.Torch.C129_torchscript_partial",
    "MCT.Export.Torch.C129_function_violated",
    "MCT.Export.Torch.C129_constant_violated",
    "MCT.Export.Torch.C129_wide_violated",
    "MCT.Export.Torch.C129_check_violated",
    "MCT.Export.Torch.C129_names",
    "MCT.Export.Torch.C129_names_violated"
   ],
   "note": "Proved for ONNX without activations of more than eight bits, which are left unquantized, and for TorchScript without quantized constants, which make the export fail or are lost. A check that returns False is ignored; a dataset that yields single tensors gets one input name per sample."
  },
  {
   "property": "C130",
   "status": "partial",
   "theorems": [
    "MCT.PerChan.C130_channel",
    "MCT.PerChan.C130_no_clipping",
    "MCT.PerChan.C130_uniform",
    "MCT.PerChan.C130_search",
    "MCT.PerChan.C130_search_tensor",
    "MCT.PerChan.C130_succeeds_iff",
    "MCT.PerChan.C130_bias_violated",
    "MCT.PerChan.C130_export",
    "MCT.PerChan.C130_export_uniform",
    "MCT.PerChan.C130_small_violated"
   ],
   "note": "Proved for every rank, axis and method. False for attributes with fewer dimensions than the channel axis of the kernel, which is used for all attributes of a layer, and for symmetric thresholds per tensor at the floor, which are Python numbers that cannot be exported."
  },
  {
   "property": "C131",
   "status": "partial",
   "theorems": [
    "MCT.PerChan.C131_common_shift",
    "MCT.PerChan.C131_first_axis_partial",
    "MCT.PerChan.C131_own_channel_violated",
    "MCT.PerChan.C131_other_axis_violated",
    "MCT.PerChan.C131_per_tensor",
    "MCT.PerChan.C131_symmetric_common",
    "MCT.PerChan.C131_symmetric_violated",
    "MCT.PerChan.C131_uniform_common",
    "MCT.PerChan.C131_constant_channel_violated",
    "MCT.PerChan.C131_tried"
   ],
   "note": "Proved per tensor. False per channel: the axis is passed as the flag of normalisation, so that one error is computed for the whole array; all channels get the same scaling of their no-clipping parameters, and unless the channels are along the first dimension the scores meet the errors of other elements. What the code does is proved in general."
  },
  {
   "property": "C132",
   "status": "partial",
   "theorems": [
    "MCT.Train.C132_keras_ste_own_channel",
    "MCT.Train.C132_range_own_channel",
    "MCT.Train.C132_keras_ste_export",
    "MCT.Train.C132_torch_export_partial",
    "MCT.Train.C132_keras_lsq_export_partial",
    "MCT.Train.C132_torch_export_violated",
    "MCT.Train.C132_keras_lsq_export_violated",
    "MCT.Train.C132_keras_lsq_per_tensor_violated"
   ],
   "note": "Own channel proved for every axis; the export of the Keras straight-through quantizer proved exactly. The other exports differ for weights half way between two values of the grid (the libraries round ties differently) and are proved for all other weights; the Keras quantizer with a learned range cannot be constructed per tensor (size of a float). TensorFlow's and PyTorch's fake-quant operations are modelled from their documentation. Not modelled: the DQA quantizer, whose initialization calls a function that PyTorch does not have."
  },
  {
   "property": "C133",
   "status": "partial",
   "theorems": [
    "MCT.Params.C133_own_values_partial",
    "MCT.Params.C133_no_function",
    "MCT.Params.C133_total_partial",
    "MCT.Params.C133_part_of_name_violated",
    "MCT.Params.C133_mixed_violated",
    "MCT.Params.C133_activations",
    "MCT.Params.C133_requested_partial",
    "MCT.Params.C133_empty_request_violated"
   ],
   "note": "Proved for nodes whose weight names are not part of one another and are all named or all positional. False otherwise (general statements): the values of a weight whose name is part of another name are not found, and a quantized positional weight beside a named one always fails; an empty list of nodes computes all nodes."
  },
  {
   "property": "C134",
   "status": "partial",
   "theorems": [
    "MCT.Prior.C134_keras_bounds_partial",
    "MCT.Prior.C134_torch_bounds_partial",
    "MCT.Prior.C134_bounded_layers",
    "MCT.Prior.C134_elu_violated",
    "MCT.Prior.C134_relu_violated",
    "MCT.Prior.C134_gelu_tanh_violated",
    "MCT.Prior.C134_activation_table",
    "MCT.Prior.C134_shifted",
    "MCT.Prior.C134_reported_range_partial",
    "MCT.Prior.C134_reported_range_violated"
   ],
   "note": "The bounds of all listed functions hold for all real inputs, GELU (to -0.17) and SiLU (to -0.279) included, and then the reported range contains all collected values.  They are wrong exactly for Keras ELU layers with alpha above 1, Keras ReLU layers with a positive threshold and no slope below it, and for GELU approximated with tanh; for ELU the collected values below -1 are outside the reported range.  Bounds of named activation functions are right but never looked up.  Missing from the full claim: those attributes."
  },
  {
   "property": "C135",
   "status": "partial",
   "theorems": [
    "MCT.Runs.C135_history_partial",
    "MCT.Runs.C135_history_violated",
    "MCT.Runs.C135_new_process",
    "MCT.Runs.C135_overwrite_violated",
    "MCT.Runs.C135_default_object_violated",
    "MCT.Runs.C135_bypass",
    "MCT.Runs.C135_report_partial",
    "MCT.Runs.C135_report_violated",
    "MCT.Runs.C135_own_tables"
   ],
   "note": "Holds for every call with a target that restricts something and for every call whose configuration object was not used before with such a target.  Otherwise it fails: a run with a target sets a flag in the configuration object (the default one, when none is given) that nothing resets, so every later call with that object and without a target raises an exception, and with predefined bit widths and an unrestricted target it applies them.  Reports use the tables of the last decorated call and fail in a new process.  Missing from the full claim: those cases."
  },
  {
   "property": "C136",
   "status": "partial",
   "theorems": [
    "MCT.Moment.C136_one_correction_partial",
    "MCT.Moment.C136_dense_violated",
    "MCT.Moment.C136_own_marked_violated",
    "MCT.Moment.C136_corrected",
    "MCT.Moment.C136_between",
    "MCT.Moment.C136_residual",
    "MCT.Moment.C136_unchanged",
    "MCT.Moment.C136_never_reached_violated",
    "MCT.Moment.C136_own_changed_violated",
    "MCT.Moment.C136_torch_dropout",
    "MCT.Moment.C136_keras_dropout_violated"
   ],
   "note": "For all models and datasets the new statistics are the moving averages of the batch statistics at the place of each marked normalization, in closed form; nothing else changes; convolutions get exactly one of the two corrections.  Violated: layers with a kernel that the substitution does not match (Dense, Linear) lose their bias correction; normalizations of the model itself are marked and overwritten too; the old statistics keep the weight 0.9 to the number of batches; in Keras dropout is active.  Missing from the full claim: those cases."
  },
  {
   "property": "C137",
   "status": "partial",
   "theorems": [
    "MCT.Tpc.C137_roundtrip",
    "MCT.Tpc.C137_extension_violated",
    "MCT.Tpc.C137_injective",
    "MCT.Tpc.C137_v1_file",
    "MCT.Tpc.C137_v1_differs_violated",
    "MCT.Tpc.C137_v1_agree_partial",
    "MCT.Tpc.C137_edited_violated",
    "MCT.Tpc.C137_object",
    "MCT.Tpc.C137_attr_defaults",
    "MCT.Tpc.C137_one_input_width"
   ],
   "note": "Every description accepted by the constructors of the current schema is loaded unchanged from a .json file.  Violated: saving to another extension succeeds and the file never loads; a file of schema 1 is parsed as schema 2 instead of being upgraded, so it shows version 1 and differs from the upgraded object in the name, the SIMD padding and the configuration of fused operators; edited copies are not validated, so some can be saved and not loaded.  Not modelled: the text of the file, infinite scales, type conversions of pydantic."
  },
  {
   "property": "C138",
   "status": "partial",
   "theorems": [
    "MCT.Reshape.C138_same_iff",
    "MCT.Reshape.C138_traced",
    "MCT.Reshape.C138_constant_rest",
    "MCT.Reshape.C138_flatten",
    "MCT.Reshape.C138_batch_violated",
    "MCT.Reshape.C138_spatial_violated",
    "MCT.Reshape.C138_scalar_violated",
    "MCT.Reshape.C138_call",
    "MCT.Reshape.C138_keyword_violated",
    "MCT.Reshape.C138_outputs",
    "MCT.Reshape.C138_kept",
    "MCT.Reshape.C138_no_leftovers",
    "MCT.Reshape.C138_success_partial",
    "MCT.Reshape.C138_twice_violated",
    "MCT.Reshape.C138_input_violated"
   ],
   "note": "The static reshape agrees with the original exactly when all sizes but the first are those of the traced output; outputs keep their values; exactly the size computations leave.  Violated: reshapes that put the batch elsewhere than first are wrong for every other batch size; image sizes are frozen to the traced ones; reshape to a tensor without dimensions, sizes given by the keyword shape, a computed size used twice as in view(b, k, k), and a model input used only for its size all end with an error.  Not modelled: view with a dtype, non-contiguous tensors."
  },
  {
   "property": "C139",
   "status": "partial",
   "theorems": [
    "MCT.Torch.Conv.C139_conv_partial",
    "MCT.Torch.Conv.C139_no_bias_violated",
    "MCT.Torch.Conv.C139_positional_violated",
    "MCT.Torch.Conv.C139_groups_violated",
    "MCT.Torch.Conv.C139_keyword_order_violated",
    "MCT.Torch.Conv.C139_padding_partial",
    "MCT.Torch.Conv.C139_asked_size",
    "MCT.Torch.Conv.C139_dilation_violated",
    "MCT.Torch.Conv.C139_other_size_violated"
   ],
   "note": "Calls with the input first, options by keyword, one group and a bias (or bias=None by keyword) become the same layer, and output paddings below the stride are kept.  Violated: without a bias the layer gets a randomly initialised one; options given by position are lost; several groups, and the kernel before the input among the keywords, end with an error; an output padding of at least the stride (accepted by PyTorch when below the dilation) ends with an error; an output size is frozen to the padding of the traced image."
  },
  {
   "property": "C140",
   "status": "partial",
   "theorems": [
    "MCT.Concat.C140_exact",
    "MCT.Concat.C140_success",
    "MCT.Concat.C140_order",
    "MCT.Concat.C140_quantized_once",
    "MCT.Concat.C140_uniform_unchanged",
    "MCT.Concat.C140_candidates_violated",
    "MCT.Concat.C140_power_of_two_violated",
    "MCT.Concat.C140_twice_violated"
   ],
   "note": "The exact effect, for all graphs and orders, and that equal bits and signedness make the second rounding the identity.  Violated: a previous layer with several candidates is changed in its first one only; a previous layer with power of two thresholds gets thresholds that its quantizer rejects; a tensor concatenated with itself is not updated."
  },
  {
   "property": "C141",
   "status": "partial",
   "theorems": [
    "MCT.Qat.C141_prepared",
    "MCT.Qat.C141_supported",
    "MCT.Qat.C141_trained_weights",
    "MCT.Qat.C141_dqa_violated",
    "MCT.Qat.C141_outputs_violated",
    "MCT.Qat.C141_other_weights_violated",
    "MCT.Qat.C141_same_names_violated"
   ],
   "note": "The right quantizers where a layer can be prepared, an exact description of the layers that can be, and the placement of trained weights.  Violated: the training method DQA always fails; Keras layers with several quantized outputs fail; quantized weights other than the kernel stay in floating point; Keras layers with weights of equal short names fail when the training ends."
  },
  {
   "property": "C142",
   "status": "partial",
   "theorems": [
    "MCT.Train.C142_own_weight",
    "MCT.Train.C142_equal_scores",
    "MCT.Train.C142_range",
    "MCT.Train.C142_zero_iff",
    "MCT.Train.C142_monotone",
    "MCT.Train.C142_schedule",
    "MCT.Train.C142_keras_order_violated",
    "MCT.Train.C142_zero_scores_violated",
    "MCT.Train.C142_no_layers_violated"
   ],
   "note": "Proved for layers in the order of the compare points (PyTorch) and, for equal scores, in any order.  Violated: in Keras the layers come by depth and the scores by generation, so with parallel branches of different lengths scores are given to other layers; all scores zero give no number; a PyTorch model without quantized kernels fails."
  },
  {
   "property": "C143",
   "status": "partial",
   "theorems": [
    "MCT.DataGen.Out.C143_negative",
    "MCT.DataGen.Out.C143_inverse_torch",
    "MCT.DataGen.Out.C143_wider",
    "MCT.DataGen.Out.C143_keras_inverse_violated",
    "MCT.DataGen.Out.C143_regularized",
    "MCT.DataGen.Out.C143_torch_half_violated",
    "MCT.DataGen.Out.C143_regularized_classes",
    "MCT.DataGen.Out.C143_regularized_mean"
   ],
   "note": "Proved over the reals.  Violated: in Keras the inverse loss is one number per image, so that what is minimised is the sum over the batch and the alignment loss counts once per image; in PyTorch the bound of the regularization is halved, so that a linear layer within its true bound is penalised for widening its outputs."
  },
  {
   "property": "C144",
   "status": "partial",
   "theorems": [
    "MCT.DataGen.Last.C144_found",
    "MCT.DataGen.Last.C144_linear_outputs",
    "MCT.DataGen.Last.C144_chain",
    "MCT.DataGen.Last.C144_swapped_violated",
    "MCT.DataGen.Last.C144_missed_violated",
    "MCT.DataGen.Last.C144_shared_violated",
    "MCT.DataGen.Last.C144_keras",
    "MCT.DataGen.Last.C144_keras_last"
   ],
   "note": "Proved: soundness, termination and existence of the search, the pairing when all outputs are linear layers or there is one chain, the tensors read by Keras.  Violated for several outputs in PyTorch: outputs get the layers of each other, or none.  In Keras one layer serves all outputs and, if it is the last layer of the model, the output of the whole model is read instead of its own."
  },
  {
   "property": "C145",
   "status": "partial",
   "theorems": [
    "MCT.Qat.Saved.C145_weights",
    "MCT.Qat.Saved.C145_activation",
    "MCT.Qat.Saved.C145_kind",
    "MCT.Qat.Saved.C145_activation_array_violated",
    "MCT.Qat.Saved.C145_candidates_violated"
   ],
   "note": "Proved for weights without candidates and activations with numbers.  Violated: a layer with more than one candidate has a quantizer whose candidates cannot be written; arrays of activations are loaded as dictionaries since TensorFlow 2.13.  The JSON of Keras is modelled by its effect; overrides of the constructor are not part of the dictionary and are not modelled."
  },
  {
   "property": "C146",
   "status": "partial",
   "theorems": [
    "MCT.MP.C146_bounds",
    "MCT.MP.C146_float",
    "MCT.MP.C146_weights_split",
    "MCT.MP.C146_weights_any",
    "MCT.MP.C146_cut_split",
    "MCT.MP.C146_tensor",
    "MCT.MP.C146_tensor_which",
    "MCT.MP.C146_default",
    "MCT.MP.C146_default_fails",
    "MCT.MP.C146_exists",
    "MCT.MP.C146_bops_violated",
    "MCT.MP.C146_bops_refused",
    "MCT.MP.C146_bops",
    "MCT.MP.C146_search"
   ],
   "note": "Proved for all modes and selections.  Violated: a layer with float input and float kernel costs 32*32 bit operations per multiplication in the selection that leaves out the inside of fused operations, though it costs none in the selection of all that is quantized.  Cuts are data of the graph (C27 and C28 are about them); the graph preparation before the reported utilization is not repeated here."
  },
  {
   "property": "C147",
   "status": "partial",
   "theorems": [
    "MCT.Tpc.C147_set",
    "MCT.Tpc.C147_unlisted",
    "MCT.Tpc.C147_torch",
    "MCT.Tpc.C147_keras",
    "MCT.Tpc.C147_keras_names",
    "MCT.Tpc.C147_log_softmax_violated",
    "MCT.Tpc.C147_position_violated",
    "MCT.Tpc.C147_normalize_violated",
    "MCT.Tpc.C147_pooling_violated",
    "MCT.Tpc.C147_elu_violated"
   ],
   "note": "Proved for the 23 operations of PyTorch and 21 of Keras that are attached in all their ways.  Violated for every platform: F.log_softmax, tf.nn.max_pool2d and the Keras layer ELU get the default options, tf.nn.avg_pool2d those of maximum pooling, F.hardtanh with positional arguments and F.normalize with its default p the default options.  The __name__ of a function is taken to be the last part of its path in PyTorch; for Keras any names that tell the operations apart."
  },
  {
   "property": "C148",
   "status": "partial",
   "theorems": [
    "MCT.Graph.C148_folding_partial",
    "MCT.Graph.C148_kinds",
    "MCT.Graph.C148_chain_violated",
    "MCT.Graph.C148_identities_partial",
    "MCT.Graph.C148_once_violated",
    "MCT.Subst.C148_batch_normalisations"
   ],
   "note": "Proved for the first folding without further conditions on the matches, for the second when no match shares a layer with a folded one, and for identity layers with one output that read a first output.  Violated: a match with a layer that an earlier match folded away stops the pass with an error (a batch normalisation, a convolution of size 1 and a third layer in sequence), and a second batch normalisation in sequence is left although it could be folded, as the matches are not searched again."
  },
  {
   "property": "C149",
   "status": "partial",
   "theorems": [
    "MCT.Cand.C149_chosen",
    "MCT.Cand.C149_base",
    "MCT.Cand.C149_loaded",
    "MCT.Cand.C149_offered_violated"
   ],
   "note": "Proved for the settings loaded from a platform (C149_loaded) and every history of choices.  Violated: without mixed precision a choice is written into the base settings, so that the layer can get a combination of bit widths that the platform does not offer."
  },
  {
   "property": "C150",
   "status": "partial",
   "theorems": [
    "MCT.Cand.C150_accepted",
    "MCT.Cand.C150_indices",
    "MCT.Cand.C150_numbers",
    "MCT.Cand.C150_unsorted_violated",
    "MCT.Cand.C150_methods_violated"
   ],
   "note": "Proved for layers without a kernel, with a quantized kernel, or whose output is not quantized.  Violated: in a layer with an unquantized kernel and a quantized output the two orders can differ, so the distance measured for one candidate is used for another; and a layer that offers two methods with the same bits passes all checks until the measured model is refused."
  },
  {
   "property": "C151",
   "status": "partial",
   "theorems": [
    "MCT.Search.C151_divergence",
    "MCT.Search.C151_mass",
    "MCT.Search.C151_exact",
    "MCT.Search.C151_values",
    "MCT.Search.C151_shares",
    "MCT.Search.C151_powers",
    "MCT.Search.C151_narrow_violated",
    "MCT.Search.C151_last_bin_violated"
   ],
   "note": "Proved: no failure, no negative error, the divergence of two positive distributions that is zero only when they are equal, and zero for ranges beyond the last edge that merge nothing.  Violated for the Kullback-Leibler error: a range in which at most one bin ends has error zero whatever it clips, so no range is better; the full range of the data has a positive error although nothing is changed, as the last bin counts as clipped; and the values the edges are quantized to do not matter, only which are equal.  Rounding of floats is not modelled."
  },
  {
   "property": "C152",
   "status": "partial",
   "theorems": [
    "MCT.Params.C152_read",
    "MCT.Params.C152_write",
    "MCT.Params.C152_add",
    "MCT.Params.C152_full_name",
    "MCT.Params.C152_keras_build",
    "MCT.Params.C152_keras_partial",
    "MCT.Params.C152_quantize_partial",
    "MCT.Params.C152_bias_partial",
    "MCT.Params.C152_gptq",
    "MCT.Params.C152_ambiguous_violated",
    "MCT.Params.C152_layer_name_violated",
    "MCT.Params.C152_part_of_name_violated"
   ],
   "note": "Proved when the name is in one key or in none.  Violated when two keys contain it: nothing is found, what is written is lost and the Keras layer cannot be built; this is so for every Keras layer with several weights whose own name contains the name searched for, such as a layer called bias_conv.  A layer in which the name of a quantized weight is part of another name cannot be quantized."
  },
  {
   "property": "C153",
   "status": "partial",
   "theorems": [
    "MCT.Rect.C153_mean",
    "MCT.Rect.C153_second",
    "MCT.Rect.C153_scale",
    "MCT.Rect.C153_known",
    "MCT.Rect.C153_constant_violated"
   ],
   "note": "Proved for every mean and every deviation but zero, in exact arithmetic.  Violated for a deviation of zero, a batch normalization folded with a zero gamma: the factor is NaN for every mean, and so are all weights of the channel in both layers.  The variance of the outputs of a batch normalization is less than the known one by the share of epsilon."
  },
  {
   "property": "C154",
   "status": "partial",
   "theorems": [
    "MCT.Attach.C154_inputs_partial",
    "MCT.Attach.C154_outputs",
    "MCT.Attach.C154_repeated_violated",
    "MCT.Attach.C154_split_violated",
    "MCT.Attach.C154_shift",
    "MCT.Attach.C154_pad_violated",
    "MCT.Attach.C154_bypass_violated",
    "MCT.Attach.C154_mean_violated"
   ],
   "note": "Proved for every history of calls when no layer takes two tensors from one layer and the outputs of layers with several are each used once, in order, and for shift negative correction without padding and bypassed layers.  Violated otherwise: the second tensor taken from one layer never gets statistics; with an output used twice the collectors slip by one edge and the last consumer gets none; a padding linear layer is given the statistics before the shift; a bypassed layer is shifted once per candidate."
  },
  {
   "property": "C155",
   "status": "partial",
   "theorems": [
    "MCT.Route.C155_selected",
    "MCT.Route.C155_once",
    "MCT.Route.C155_loop",
    "MCT.Route.C155_shared_violated"
   ],
   "note": "Proved for every graph; the correction of one activation is that of C37.  Violated for linear layers that are called several times: unlike the foldings, the correction does not leave them out, every call is corrected with its own shift but all run the bias of the first, and a call is off by the difference of the shifts times the sum of the kernel."
  },
  {
   "property": "C156",
   "status": "partial",
   "theorems": [
    "MCT.Loop.C156_torch",
    "MCT.Loop.C156_keras",
    "MCT.Loop.C156_untouched",
    "MCT.Loop.C156_one_optimizer_violated",
    "MCT.Loop.C156_rest_ignored_violated"
   ],
   "note": "Proved for every rule of an optimizer and every loss.  Violated in PyTorch when one optimizer object is given for two groups of parameters: the first group is dropped and never trained.  Also violated as documented: the optimizer given for the rest trains no bias, since the facades always make one of their own."
  },
  {
   "property": "C157",
   "status": "partial",
   "theorems": [
    "MCT.Shared.C157_bias_first_partial",
    "MCT.Shared.C157_bias_violated",
    "MCT.Shared.C157_activation_violated",
    "MCT.Shared.C157_equalized_partial",
    "MCT.Shared.C157_equalized_violated"
   ],
   "note": "Holds for the first call, and for the others when the statistics agree.  Otherwise it is violated by all three: every call is corrected by its own statistics but the layer is built from the first one; the error is given in closed form for every layer and every call.  Missing from the full claim: the other calls."
  },
  {
   "property": "C158",
   "status": "partial",
   "theorems": [
    "MCT.FoldShared.C158_built_iff",
    "MCT.FoldShared.C158_owner",
    "MCT.FoldShared.C158_folded_iff",
    "MCT.FoldShared.C158_forward",
    "MCT.FoldShared.C158_backward_violated",
    "MCT.FoldShared.C158_backward_partial"
   ],
   "note": "Proved for forward folding, which leaves normalizations with several calls alone.  Backward folding looks only at the linear layer: when the first call of a normalization is folded and another is not, the model cannot be built (for every such model); it can exactly when no first call is folded of which another call is left.  Missing from the full claim: those models."
  },
  {
   "property": "C159",
   "status": "partial",
   "theorems": [
    "MCT.Reference.C159_student",
    "MCT.Reference.C159_teacher",
    "MCT.Reference.C159_float_partial",
    "MCT.Reference.C159_activation_violated",
    "MCT.Reference.C159_second_violated",
    "MCT.Reference.C159_activation_amount_violated"
   ],
   "note": "Proved in full for the trained network.  The network it learns from is the float network without second moment correction and, if activation bias correction is on, with bias correction, which works on a copy.  Second moment correction changes it too, and activation bias correction does when bias correction is off; then its outputs are off by the correction.  Missing from the full claim: those combinations."
  },
  {
   "property": "C160",
   "status": "partial",
   "theorems": [
    "MCT.Importance.C160_channel",
    "MCT.Importance.C160_all_weights",
    "MCT.Importance.C160_group",
    "MCT.Importance.C160_layout",
    "MCT.Importance.C160_rescaled_channels",
    "MCT.Importance.C160_rescaled_group_partial",
    "MCT.Importance.C160_rescaled_group_violated"
   ],
   "note": "Proved for channels, and for groups whose channels are scaled alike.  The score of a group is a product of sums: of two channels alike, the scale of one multiplies it by (1 + s^2)^2 / (4 s^2), so it changes unless the scale is 1 or -1, although the network and the scores of the channels are the same.  Missing from the full claim: groups with different scales."
  },
  {
   "property": "C161",
   "status": "partial",
   "theorems": [
    "MCT.NormAxis.C161_channels",
    "MCT.NormAxis.C161_length_violated",
    "MCT.NormAxis.C161_axis_violated"
   ],
   "note": "Proved along the channels.  The folding does not read the axis: along another axis it fails when the axis is not as long as there are channels, and otherwise uses the parameters of the channel for those of the row, which is right for all inputs exactly when they do the same.  Missing from the full claim: normalizations along other axes."
  },
  {
   "property": "C162",
   "status": "partial",
   "theorems": [
    "MCT.Detached.C162_attached",
    "MCT.Detached.C162_single",
    "MCT.Detached.C162_torch_violated",
    "MCT.Detached.C162_mixed_violated",
    "MCT.Detached.C162_batches_violated"
   ],
   "note": "Proved when every layer has a derivative, and in Keras for batches of one image.  Otherwise false: in PyTorch every request with a layer without a derivative fails; in Keras a request that mixes both kinds fails unless the first batch has one image, and a request of layers without a derivative counts each batch as one image.  Scores per tensor only; the cache is empty at the start."
  }
 ]
}