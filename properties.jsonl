{"id": "C01", "title": "Uniform quantizer output lies on a 2^n grid inside the adjusted range", "statement": "uniform_quantize_tensor(x, range_min, range_max, n_bits) with range_min < range_max returns, for every element, a value a + k*delta with an integer 0 <= k <= 2^n_bits - 1, where (a, b) is the zero-including adjusted range and delta = (b - a)/(2^n_bits - 1). So the output takes at most 2^n_bits values and stays in [a, b].", "quantifier": "every real input value, every range with range_min < range_max, every n_bits >= 1", "why_tests_cant": "The input and range are continuous; a test samples a handful of tensors and bit widths.", "anchors": ["model_compression_toolkit/core/common/quantization/quantizers/quantizers_helpers.py:uniform_quantize_tensor", "model_compression_toolkit/core/common/quantization/quantizers/quantizers_helpers.py:fix_range_to_include_zero"]}
{"id": "C02", "title": "The adjusted quantization range contains an exact zero", "statement": "fix_range_to_include_zero returns a range (a, b) with a <= 0 <= b in which 0.0 is exactly one of the grid points, and a value of 0.0 is quantized to exactly 0.0. When the given range straddles zero, the width of the range is unchanged and each end moves by at most half a step.", "quantifier": "every range with range_min < range_max and every n_bits >= 1", "why_tests_cant": "Needs to hold for every pair of real range ends; rounding corner cases (ties, ends on the grid) are measure-zero for random tests.", "anchors": ["model_compression_toolkit/core/common/quantization/quantizers/quantizers_helpers.py:fix_range_to_include_zero", "model_compression_toolkit/core/common/quantization/quantizers/quantizers_helpers.py:uniform_quantize_tensor"]}
{"id": "C03", "title": "Quantizing is idempotent and order preserving", "statement": "For fixed parameters, quantizing an already quantized tensor returns it unchanged, and x <= y implies quantize(x) <= quantize(y), for the uniform and for the symmetric/power-of-two quantizers.", "quantifier": "every pair of values, every range/threshold and bit width", "why_tests_cant": "Universally quantified over pairs of real values; half-way rounding points are never hit by sampling.", "anchors": ["model_compression_toolkit/core/common/quantization/quantizers/quantizers_helpers.py:uniform_quantize_tensor", "model_compression_toolkit/core/common/quantization/quantizers/quantizers_helpers.py:quantize_tensor"]}
{"id": "C04", "title": "Quantization error is at most half a step and the result is a nearest grid point", "statement": "For a value inside the adjusted range the quantizer moves it by at most delta/2 and no other grid point is closer; values outside the range are mapped to the nearer end of the range.", "quantifier": "every value, range and bit width", "why_tests_cant": "Bound over a continuum of values and ranges.", "anchors": ["model_compression_toolkit/core/common/quantization/quantizers/quantizers_helpers.py:uniform_quantize_tensor"]}
{"id": "C05", "title": "Symmetric quantizer uses exactly the two's-complement grid", "statement": "quantize_tensor(x, threshold, n_bits, signed) with threshold > 0 returns k*threshold/2^(n_bits-1) with -2^(n_bits-1) <= k <= 2^(n_bits-1)-1 when signed, and k*threshold/2^n_bits with 0 <= k <= 2^n_bits-1 when unsigned: the zero-including range adjustment never moves a symmetric range. In-range values are rounded to the nearest multiple, and out-of-range values saturate.", "quantifier": "every value, every threshold > 0, every n_bits >= 1, both signedness values", "why_tests_cant": "The deployed integer hardware grid must match for every threshold, not for the thresholds in tests.", "anchors": ["model_compression_toolkit/core/common/quantization/quantizers/quantizers_helpers.py:quantize_tensor", "model_compression_toolkit/core/common/quantization/quantizers/quantizers_helpers.py:calculate_delta"]}
{"id": "C06", "title": "max_power_of_two is the least power of two above the data", "statement": "max_power_of_two(x, min_threshold) returns 2^k for an integer k, is at least max(x, min_threshold), and is less than twice max(x, min_threshold): no smaller power of two covers the data.", "quantifier": "every real x and every min_threshold > 0", "why_tests_cant": "Exact powers of two and values next to them are the interesting points of a continuum.", "anchors": ["model_compression_toolkit/core/common/quantization/quantizers/quantizers_helpers.py:max_power_of_two"]}
{"id": "C07", "title": "Power-of-two weight threshold search returns a power of two that minimises the error", "statement": "The power-of-two tensor search evaluates the given error function on n_iter thresholds 2T, T, T/2, ..., where T is the least power of two covering the tensor, and returns max(min_threshold, t) where t is the first candidate attaining the minimum error. The returned threshold is at least min_threshold, and it is a power of two whenever min_threshold is one.", "quantifier": "every tensor, error function, bit width, iteration count >= 1 and min_threshold > 0", "why_tests_cant": "Quantifies over all error functions and tensors.", "anchors": ["model_compression_toolkit/core/common/quantization/quantization_params_generation/qparams_search.py:qparams_selection_tensor_search", "model_compression_toolkit/core/common/quantization/quantization_params_generation/power_of_two_selection.py:power_of_two_selection_tensor"]}
{"id": "C08", "title": "No-clipping weight thresholds do not clip", "statement": "With the NOCLIPPING error method and n_bits >= 2, the power-of-two and symmetric threshold chosen for a weight tensor is such that quantizing with it moves no element by more than half a step: every element lies inside the representable range.", "quantifier": "every tensor, every n_bits >= 2, every min_threshold > 0", "why_tests_cant": "All tensors, including ones whose extreme value is exactly a power of two.", "anchors": ["model_compression_toolkit/core/common/quantization/quantization_params_generation/power_of_two_selection.py:power_of_two_selection_tensor", "model_compression_toolkit/core/common/quantization/quantization_params_generation/symmetric_selection.py:symmetric_selection_tensor", "model_compression_toolkit/core/common/quantization/quantizers/quantizers_helpers.py:get_tensor_max"]}
{"id": "C09", "title": "No-clipping activation thresholds cover the collected range", "statement": "With the NOCLIPPING error method (used for every activation whose output is known to be bounded) the selected threshold covers both the minimum and the maximum of the activation: |min_value| <= threshold and |max_value| <= threshold.", "quantifier": "every min/max pair and every histogram", "why_tests_cant": "All pairs of bounds, including asymmetric ones with a large negative side.", "anchors": ["model_compression_toolkit/core/common/quantization/quantization_params_generation/power_of_two_selection.py:power_of_two_no_clipping_selection_min_max", "model_compression_toolkit/core/common/quantization/quantization_params_generation/symmetric_selection.py:symmetric_no_clipping_selection_min_max", "model_compression_toolkit/core/common/quantization/quantization_params_generation/power_of_two_selection.py:power_of_two_selection_histogram"]}
{"id": "C10", "title": "Iterative threshold search never returns something worse than its starting point", "statement": "The iterative symmetric and uniform parameter searches return parameters whose loss is the smallest loss seen during the search, in particular no larger than the loss of the initial no-clipping parameters; the reported loss is the loss of the returned parameters; and the search stops after at most n_iter rounds.", "quantifier": "every loss function, tensor, initial parameter, iteration budget, tolerance and schedule of range shrinkage", "why_tests_cant": "Quantifies over loss functions and iteration histories.", "anchors": ["model_compression_toolkit/core/common/quantization/quantization_params_generation/qparams_search.py:qparams_symmetric_iterative_minimization", "model_compression_toolkit/core/common/quantization/quantization_params_generation/qparams_search.py:iterative_uniform_dynamic_range_search", "model_compression_toolkit/core/common/quantization/quantization_params_generation/qparams_search.py:search_fixed_range_intervals"]}
{"id": "C11", "title": "Look-up-table quantization picks the nearest centre", "statement": "LUT quantization of a value returns one of the look-up-table centres (scaled by the channel threshold), no other centre is nearer to the scaled and clipped value, and ties go to the lowest index; the produced LUT for weights always contains 0 and at most 2^n_bits entries.", "quantifier": "every value, every non-empty centre list, every threshold", "why_tests_cant": "All centre lists and values including ties.", "anchors": ["model_compression_toolkit/core/common/quantization/quantizers/quantizers_helpers.py:kmeans_assign_clusters", "model_compression_toolkit/core/common/quantization/quantization_params_generation/lut_kmeans_params.py:lut_kmeans_tensor", "model_compression_toolkit/core/common/quantization/quantizers/lut_kmeans_quantizer.py:lut_kmeans_quantizer"]}
{"id": "C12", "title": "Outlier filtering only removes mass and never removes everything", "statement": "z_score_filter returns counts in which every bin is either unchanged or zero; for z_threshold >= 1 and a histogram with positive mass, some bin with positive count survives. Bins within z_threshold standard deviations of the mean are unchanged.", "quantifier": "every histogram and every z_threshold", "why_tests_cant": "All histograms; the survival claim is a variance inequality, not a testable example.", "anchors": ["model_compression_toolkit/core/common/quantization/quantization_params_generation/outlier_filter.py:z_score_filter"]}
{"id": "C13", "title": "Automatic signedness is sound", "statement": "When the TPC leaves signedness to MCT, an activation whose (outlier filtered) collected values contain a negative number is quantized with a signed quantizer, and one without negative values is quantized unsigned.", "quantifier": "every histogram and bounded/unbounded activation", "why_tests_cant": "All histograms produced by any calibration run.", "anchors": ["model_compression_toolkit/core/common/quantization/quantization_params_generation/qparams_activations_computation.py:determine_signedness"]}
{"id": "C14", "title": "Collected min/max are the extremes of everything observed", "statement": "After any sequence of calibration batches, the collected per-channel and per-tensor min/max are the minimum and maximum over all the values of all the batches, independent of the order and the partition into batches.", "quantifier": "every sequence of batches, including any permutation and split of them", "why_tests_cant": "Ranges over unbounded histories.", "anchors": ["model_compression_toolkit/core/common/collectors/min_max_per_channel_collector.py:MinMaxPerChannelCollector"]}
{"id": "C15", "title": "Collected mean is the mean of the data", "statement": "After any sequence of batches the collected per-channel mean equals the mean over all batches, and statistics that are scaled or shifted by a substitution stay consistent with later updates.", "quantifier": "every history of update/scale/shift operations", "why_tests_cant": "Unbounded histories interleaving updates with rescaling.", "anchors": ["model_compression_toolkit/core/common/collectors/mean_collector.py:MeanCollector"]}
{"id": "C16", "title": "Merging histograms preserves the number of samples", "statement": "The combined histogram of several batches has the total count of all batches, non-negative counts, bin edges that span the min and max of all batches, and reflects every batch collected so far, whenever it is read.", "quantifier": "every sequence of histograms and reads", "why_tests_cant": "Unbounded histories of updates and reads; interpolation over real bin edges.", "anchors": ["model_compression_toolkit/core/common/collectors/histogram_collector.py:HistogramCollector", "model_compression_toolkit/core/common/collectors/histogram_collector.py:interpolate_histogram"]}
{"id": "C17", "title": "Shifting and scaling statistics commutes with collecting", "statement": "Scaling/shifting a statistics collector by a scalar gives the statistics that would have been collected from scaled/shifted data (min stays below max).", "quantifier": "every history, every scale factor and shift value", "why_tests_cant": "All factors, including negative ones, and all histories.", "anchors": ["model_compression_toolkit/core/common/collectors/min_max_per_channel_collector.py:MinMaxPerChannelCollector.scale", "model_compression_toolkit/core/common/collectors/statistics_collector.py:scale_statistics"]}
{"id": "C18", "title": "Predicted resource utilization equals the utilization of the final model", "statement": "For every mixed-precision configuration, the utilization the search predicts from its per-layer, per-candidate matrix (minimal configuration plus per-layer differences) equals the utilization computed for the network configured with that configuration, for weights memory and (per-cut) activation memory.", "quantifier": "every graph, every configuration of every configurable layer", "why_tests_cant": "The number of configurations is exponential; tests check a few.", "anchors": ["model_compression_toolkit/core/common/mixed_precision/mixed_precision_search_manager.py:MixedPrecisionSearchManager", "model_compression_toolkit/core/common/mixed_precision/mixed_precision_ru_helper.py:MixedPrecisionRUHelper"]}
{"id": "C19", "title": "A mixed-precision search result satisfies the target resource utilization", "statement": "Whenever the search returns a configuration, the configured network's weights memory, activation memory (every cut), total memory and BOPS do not exceed the requested target.", "quantifier": "every graph, target and candidate set", "why_tests_cant": "Constraint satisfaction for all instances, given a correct LP solver.", "anchors": ["model_compression_toolkit/core/common/mixed_precision/mixed_precision_search_manager.py:MixedPrecisionSearchManager.search", "model_compression_toolkit/core/common/mixed_precision/search_methods/linear_programming.py:MixedPrecisionIntegerLPSolver"]}
{"id": "C20", "title": "The search result minimises the sensitivity objective among feasible configurations", "statement": "No configuration that meets the target has a smaller total sensitivity than the one returned; scaling the sensitivities for the solver does not change the set of optimal configurations.", "quantifier": "every sensitivity table and target", "why_tests_cant": "Optimality over exponentially many configurations.", "anchors": ["model_compression_toolkit/core/common/mixed_precision/search_methods/linear_programming.py:MixedPrecisionIntegerLPSolver", "model_compression_toolkit/core/common/mixed_precision/mixed_precision_search_manager.py"]}
{"id": "C21", "title": "A target that cannot be met is reported instead of silently violated", "statement": "If even the minimal-bit configuration exceeds the target on some resource, the search raises an error naming the target; if the target is met by the maximal configuration for additive resources, a solution is always found.", "quantifier": "every graph and target", "why_tests_cant": "Universal over instances; tests cover one failing instance.", "anchors": ["model_compression_toolkit/core/common/mixed_precision/mixed_precision_search_manager.py", "model_compression_toolkit/core/common/mixed_precision/mixed_precision_search_facade.py:search_bit_width"]}
{"id": "C22", "title": "Greedy refinement never breaks the target and never lowers precision", "statement": "greedy_solution_refinement_procedure applied to any solution that meets the target returns a configuration that meets the target, in which no layer has fewer bits than before, terminates, and is final: no single layer upgrade it considers would still fit.", "quantifier": "every initial solution, target and candidate set", "why_tests_cant": "Needs an invariant over every iteration of the loop and a termination argument.", "anchors": ["model_compression_toolkit/core/common/mixed_precision/solution_refinement_procedure.py:greedy_solution_refinement_procedure"]}
{"id": "C23", "title": "Reported minimal/maximal candidates are extremal in every coordinate", "statement": "The minimal (maximal) candidate of a layer, when one is reported, has the fewest (most) activation bits and the fewest (most) weight bits of all the layer's candidates simultaneously; when no such candidate exists, an error is raised instead.", "quantifier": "every candidate list", "why_tests_cant": "All candidate lists, including non-composite ones.", "anchors": ["model_compression_toolkit/core/common/graph/base_node.py:BaseNode.find_min_candidates_indices", "model_compression_toolkit/core/common/graph/base_node.py:BaseNode.find_max_candidates_indices"]}
{"id": "C24", "title": "Weights memory counts every weight once and is monotone in bits", "statement": "Weights utilization is the sum over non-reused layers and their (quantized) weight attributes of size*bits/8; a reused layer is counted once; raising any layer's bits never lowers the reported memory.", "quantifier": "every graph, target criterion and bit configuration", "why_tests_cant": "All graphs and configurations.", "anchors": ["model_compression_toolkit/core/common/mixed_precision/resource_utilization_tools/resource_utilization_calculator.py:ResourceUtilizationCalculator"]}
{"id": "C25", "title": "Activation memory is the maximum over cuts and total memory is weights plus activations", "statement": "Activation utilization equals the largest cut, each cut counting each of its tensors once, and total utilization equals weights utilization plus activation utilization.", "quantifier": "every set of cuts and bit configuration", "why_tests_cant": "All graphs and configurations.", "anchors": ["model_compression_toolkit/core/common/mixed_precision/resource_utilization_tools/resource_utilization_calculator.py", "model_compression_toolkit/core/common/mixed_precision/resource_utilization_tools/resource_utilization.py:ResourceUtilization"]}
{"id": "C26", "title": "Resource-utilization targets are checked on every restricted resource", "statement": "ResourceUtilization.is_satisfied_by(ru) holds exactly when each of weights, activation, total and BOPS of ru is at most the target's value, unrestricted resources (infinity) never fail.", "quantifier": "every pair of utilizations incl. infinite components", "why_tests_cant": "All combinations.", "anchors": ["model_compression_toolkit/core/common/mixed_precision/resource_utilization_tools/resource_utilization.py:ResourceUtilization"]}
{"id": "C27", "title": "The max-cut schedule is a valid execution order of the whole graph", "statement": "compute_graph_max_cut returns a schedule in which every operation appears exactly once and after all of its producers, and the reported memory is the largest sum of live tensors over the steps of that schedule.", "quantifier": "every directed acyclic memory graph and every search budget", "why_tests_cant": "All DAGs; the search explores exponentially many schedules.", "anchors": ["model_compression_toolkit/core/common/graph/memory_graph/max_cut_astar.py:MaxCutAstar", "model_compression_toolkit/core/common/graph/memory_graph/compute_graph_max_cut.py:compute_graph_max_cut"]}
{"id": "C28", "title": "Max-cut estimate is bracketed", "statement": "The reported max cut is at least the largest memory needed by any single operation and at most the sum of all tensors.", "quantifier": "every directed acyclic memory graph", "why_tests_cant": "All DAGs.", "anchors": ["model_compression_toolkit/core/common/graph/memory_graph/max_cut_astar.py:MaxCutAstar", "model_compression_toolkit/core/common/graph/memory_graph/memory_graph.py:MemoryGraph"]}
{"id": "C29", "title": "Removing an identity layer leaves the model's function unchanged", "statement": "After removing an identity layer, every output of the model computes the same function of the inputs as before.", "quantifier": "every graph (including predecessors with several outputs, identity layers that are model outputs, several consumers) and every layer semantics", "why_tests_cant": "Quantifies over all graphs and all layer functions.", "anchors": ["model_compression_toolkit/core/common/substitutions/remove_identity.py:remove_identity_node", "model_compression_toolkit/core/common/graph/base_graph.py:Graph.reconnect_out_edges"]}
{"id": "C30", "title": "Replacing or re-wiring a node preserves all other connections", "statement": "Graph.replace_node and the reconnect operations keep every edge that does not touch the node, move every edge of the node with its indices to the new node, and keep the order of the model's inputs and outputs.", "quantifier": "every graph and every pair of nodes", "why_tests_cant": "All graphs including parallel edges and multi-input/-output models.", "anchors": ["model_compression_toolkit/core/common/graph/base_graph.py:Graph.replace_node", "model_compression_toolkit/core/common/graph/base_graph.py:Graph.replace_input_node", "model_compression_toolkit/core/common/graph/base_graph.py:Graph.replace_output_node"]}
{"id": "C31", "title": "Edge equality is an equivalence", "statement": "Two edges compare equal exactly when their endpoints and indices agree; an edge always equals itself and equal edges hash alike.", "quantifier": "every pair of edges", "why_tests_cant": "All index combinations.", "anchors": ["model_compression_toolkit/core/common/graph/edge.py:Edge.__eq__"]}
{"id": "C32", "title": "Batch-norm folding preserves the network function", "statement": "Folding a batch-norm into the preceding convolution (any supported layer type and grouping) gives a layer that computes, for every input, exactly the batch-norm of the original convolution, and the rewritten model computes the same outputs as before.", "quantifier": "every kernel, bias, batch-norm statistics with var+eps>0, every input, every graph", "why_tests_cant": "Algebraic identity over all weights and inputs and graph-rewriting over all graphs.", "anchors": ["model_compression_toolkit/core/common/substitutions/batchnorm_folding.py:BatchNormalizationFolding", "model_compression_toolkit/core/pytorch/graph_substitutions/substitutions/batchnorm_folding.py:update_kernel_for_bn_folding_fn", "model_compression_toolkit/core/keras/graph_substitutions/substitutions/batchnorm_folding.py:update_kernel_for_bn_folding_fn"]}
{"id": "C33", "title": "Batch-norm forward folding preserves the network function", "statement": "Folding a batch-norm (or depthwise 1x1) layer into the following 1x1 convolution does not change the function computed by the model.", "quantifier": "every supported convolution type, grouping, padding, stride, weights and input", "why_tests_cant": "All layer attributes and inputs.", "anchors": ["model_compression_toolkit/core/common/substitutions/batchnorm_folding.py:BatchNormalizationForwardFolding", "model_compression_toolkit/core/pytorch/graph_substitutions/substitutions/batchnorm_folding.py:update_weights_for_bn_forward_folding_fn"]}
{"id": "C34", "title": "Batch-norm reconstruction followed by refusing is an identity", "statement": "The batch-norm node inserted for second-moment correction computes the identity function when created, and folding it back restores the original kernel and bias.", "quantifier": "every convolution, gamma, beta with non-negative std and eps>0", "why_tests_cant": "Algebraic identity over reals.", "anchors": ["model_compression_toolkit/core/common/substitutions/batchnorm_reconstruction.py:BatchNormalizationReconstruction", "model_compression_toolkit/core/common/substitutions/batchnorm_refusing.py:BatchNormalizationRefusing"]}
{"id": "C35", "title": "Scale equalization preserves the function of linear-ReLU-linear chains", "statement": "Scaling the first layer's weights/bias by a positive per-channel factor and the second layer's kernel by its inverse leaves the function unchanged, through any positively homogeneous activation (ReLU, PReLU, bounded ReLU with its bound scaled).", "quantifier": "every pair of layers, positive scale vector and input", "why_tests_cant": "Algebraic identity over all weights and inputs.", "anchors": ["model_compression_toolkit/core/common/substitutions/scale_equalization.py:BaseScaleEqualization", "model_compression_toolkit/core/pytorch/graph_substitutions/substitutions/relu_bound_to_power_of_2.py:ReLUBoundToPowerOfTwo"]}
{"id": "C36", "title": "Linear collapsing preserves the function of two convolutions", "statement": "Collapsing Conv2D followed by a 1x1 Conv2D into one convolution gives a layer that computes the same function, with the same kernel size as the first convolution, for any kernel height and width.", "quantifier": "every pair of kernels/biases with any kernel shape, and every input", "why_tests_cant": "All shapes and weights.", "anchors": ["model_compression_toolkit/core/common/substitutions/linear_collapsing.py:Conv2DCollapsing", "model_compression_toolkit/core/pytorch/graph_substitutions/substitutions/linear_collapsing.py:conv2d_collapsing_fn"]}
{"id": "C37", "title": "Shift-negative correction preserves the function", "statement": "Shifting a non-linearity's output by a constant and correcting the next linear layer's bias (and padding) leaves the linear layer's output unchanged, and the chosen shift makes the shifted activation non-negative.", "quantifier": "every kernel, bias, shift value, input and padding", "why_tests_cant": "Algebraic identity over all weights and inputs.", "anchors": ["model_compression_toolkit/core/common/substitutions/shift_negative_activation.py:op2d_bias_correction", "model_compression_toolkit/core/common/substitutions/shift_negative_activation.py:shift_negative_function"]}
{"id": "C38", "title": "Fused-operation bookkeeping stays consistent", "statement": "After any sequence of adding/removing fused operations through FusingInfo, a node belongs to at most one fused operation, the node-to-operation map and the operation-to-nodes map agree.", "quantifier": "every sequence of operations", "why_tests_cant": "Unbounded histories.", "anchors": ["model_compression_toolkit/core/common/fusion/fusing_info.py:FusingInfo"]}
{"id": "C39", "title": "Generated fusions are disjoint chains matching a pattern", "statement": "FusingInfoGenerator.generate_fusing_info on any graph yields fused operations that are disjoint, each a chain of consecutive layers matching one of the TPC's fusing patterns.", "quantifier": "every graph and every list of patterns", "why_tests_cant": "All graphs (including branching and joins).", "anchors": ["model_compression_toolkit/core/common/fusion/fusing_info.py:FusingInfoGenerator"]}
{"id": "C40", "title": "A pruned model fits the target memory", "statement": "When pruning succeeds, the estimated memory of the masked model does not exceed the target; if even the smallest mask does not fit, an error is raised.", "quantifier": "every model, memory function, importance scores and target", "why_tests_cant": "Invariant over an unbounded greedy loop.", "anchors": ["model_compression_toolkit/core/common/pruning/greedy_mask_calculator.py:GreedyMaskCalculator.compute_mask"]}
{"id": "C41", "title": "Every prunable layer keeps at least one SIMD group and whole groups only", "statement": "In the final mask each prunable layer keeps at least its most important SIMD group; channels are kept or removed in whole groups, so the channel mask is always the union of the kept groups.", "quantifier": "every sequence of mask updates", "why_tests_cant": "Invariant over unbounded histories.", "anchors": ["model_compression_toolkit/core/common/pruning/mask/per_simd_group_mask.py:PerSIMDGroupMask", "model_compression_toolkit/core/common/pruning/mask/per_channel_mask.py:PerChannelMask"]}
{"id": "C42", "title": "SIMD groups partition the channels by importance", "statement": "The SIMD groups of a layer partition its output channels, all but the last have exactly SIMD size, and no channel in an earlier group is less important than a channel in a later group.", "quantifier": "every score vector and SIMD size >= 1", "why_tests_cant": "All score vectors, including ties and sizes not divisible by SIMD.", "anchors": ["model_compression_toolkit/core/common/pruning/channels_grouping.py:ChannelGrouping"]}
{"id": "C43", "title": "Pruning keeps the weights of every layer in a pruned section", "statement": "Applying a mask to a section leaves every layer of the section with all of its weight attributes, each sliced to the kept channels, for both frameworks.", "quantifier": "every section and mask", "why_tests_cant": "All layers and masks.", "anchors": ["model_compression_toolkit/core/common/pruning/pruning_section.py:PruningSection.apply_inner_section_mask", "model_compression_toolkit/core/pytorch/pruning/pruning_pytorch_implementation.py:PruningPytorchImplementation.prune_intermediate_node", "model_compression_toolkit/core/keras/pruning/pruning_keras_implementation.py"]}
{"id": "C44", "title": "Editing one weight attribute's quantization keeps the others", "statement": "QuantizationConfigOptions.clone_and_edit_weight_attribute(attrs=[a], ...) changes the configuration of attribute a only: every other attribute keeps its configuration, and the original object is unchanged.", "quantifier": "every options object, attribute subset and edit", "why_tests_cant": "All option sets and attribute subsets.", "anchors": ["model_compression_toolkit/target_platform_capabilities/schema/v1.py:QuantizationConfigOptions.clone_and_edit_weight_attribute"]}
{"id": "C45", "title": "Schema upgrade preserves the target platform description", "statement": "Upgrading a v1 TPC to the current schema keeps every field the schemas share (name, SIMD padding, operator sets, fusing patterns, versions, metadata) and never fails on a valid v1 TPC.", "quantifier": "every valid v1 TPC", "why_tests_cant": "All combinations of optional fields.", "anchors": ["model_compression_toolkit/target_platform_capabilities/schema/schema_compatability.py:_schema_v1_to_v2"]}
{"id": "C46", "title": "Current-TPC context is restored on every exit", "statement": "After leaving the 'with tpc' block, normally or through an exception, there is no active TPC, so that a new one can be entered.", "quantifier": "every sequence of enter/exit events, including exceptions inside the block", "why_tests_cant": "All histories including crashes inside the block.", "anchors": ["model_compression_toolkit/target_platform_capabilities/targetplatform2framework/framework_quantization_capabilities.py:FrameworkQuantizationCapabilities.__exit__"]}
{"id": "C47", "title": "Layer filter equality is an equivalence relation", "statement": "Two layer filters compare equal exactly when they filter the same layer with the same conditions; equality is symmetric.", "quantifier": "every pair of filters", "why_tests_cant": "All pairs of filters.", "anchors": ["model_compression_toolkit/target_platform_capabilities/targetplatform2framework/layer_filter_params.py:LayerFilterParams.__eq__"]}
{"id": "C48", "title": "Attribute filters mean what they say", "statement": "AttributeFilter comparisons, conjunction and disjunction match a layer config exactly when the corresponding boolean formula over the layer's attributes holds (a condition on an attribute the layer configuration does not have does not match, whatever the operation; a keyword argument the layer does not have reads as None).", "quantifier": "every filter expression and layer config", "why_tests_cant": "All filter expressions.", "anchors": ["model_compression_toolkit/target_platform_capabilities/targetplatform2framework/attribute_filter.py:AttributeFilter"]}
{"id": "C49", "title": "Operator-specific quantization options take precedence and conflicts are reported", "statement": "The quantization options chosen for a layer are those of the single matching filtered entry, otherwise those of its unfiltered operator set, otherwise the TPC default; two different matching filtered options raise an error.", "quantifier": "every TPC mapping and every layer", "why_tests_cant": "All mappings and layers.", "anchors": ["model_compression_toolkit/quantization_preparation/load_fqc.py:fetch_qc_options_for_node", "model_compression_toolkit/target_platform_capabilities/targetplatform2framework/framework_quantization_capabilities.py:FrameworkQuantizationCapabilities._get_config_options_mapping", "model_compression_toolkit/target_platform_capabilities/targetplatform2framework/attach2fw.py:AttachTpcToFramework.attach"]}
{"id": "C50", "title": "Candidates offered for a layer are readable by all its consumers", "statement": "After graph-aware filtering, no candidate activation bit-width of a layer exceeds what a consumer supports as input, and the base configuration is among the candidates.", "quantifier": "every graph and option sets", "why_tests_cant": "All graphs and option sets.", "anchors": ["model_compression_toolkit/core/common/quantization/set_node_quantization_config.py:filter_node_qco_by_graph", "model_compression_toolkit/core/common/quantization/candidate_node_quantization_config.py:NodeQuantizationConfig"]}
{"id": "C51", "title": "Manual bit-width selections are honoured", "statement": "A manual activation bit-width set for a layer leaves only candidates with that bit-width (the last selection wins); a manual weight bit-width selected by an accepted attribute name is applied to that attribute; an unsupported bit-width raises.", "quantifier": "every selection history and layer", "why_tests_cant": "All sequences of selections.", "anchors": ["model_compression_toolkit/core/common/quantization/bit_width_config.py:BitWidthConfig", "model_compression_toolkit/core/common/quantization/set_node_quantization_config.py:set_manual_bitwidth_config"]}
{"id": "C52", "title": "Candidate filtering keeps one representative of each distinguishable candidate", "statement": "filter_node_candidates never empties the candidate list, and for every original candidate some remaining candidate has the same settings for the parts that are still quantized.", "quantifier": "every node and candidate list", "why_tests_cant": "All candidate lists and quantization modes.", "anchors": ["model_compression_toolkit/core/common/quantization/filter_nodes_candidates.py:filter_node_candidates"]}
{"id": "C53", "title": "Threshold search gives the error function the float and the quantized tensor in the same order", "statement": "The per-tensor and the per-channel power-of-two searches evaluate the same error: searching a tensor per-tensor gives the same threshold as searching it as a single channel, for every error function.", "quantifier": "every error function (also non-symmetric ones such as KL), tensor and bit width", "why_tests_cant": "All error functions.", "anchors": ["model_compression_toolkit/core/common/quantization/quantization_params_generation/qparams_search.py:qparams_selection_tensor_search", "model_compression_toolkit/core/common/quantization/quantization_params_generation/error_functions.py:get_threshold_selection_tensor_error_function"]}
{"id": "C54", "title": "Uniform no-clipping range is usable for every weight tensor", "statement": "The uniform no-clipping range selected for a weight tensor or channel is a proper range containing every element, so that quantizing with it is defined.", "quantifier": "every non-empty tensor, including constant and all-zero channels", "why_tests_cant": "All tensors.", "anchors": ["model_compression_toolkit/core/common/quantization/quantization_params_generation/uniform_selection.py:uniform_selection_tensor"]}
{"id": "C55", "title": "Iterative threshold search survives infinite losses", "statement": "A candidate with an infinite loss (an invalid KL range) is never selected over a candidate with a finite loss, and does not stop the search from using later candidates.", "quantifier": "every sequence of finite and infinite losses", "why_tests_cant": "All loss sequences.", "anchors": ["model_compression_toolkit/core/common/quantization/quantization_params_generation/qparams_search.py:search_fixed_range_intervals", "model_compression_toolkit/core/common/quantization/quantization_params_generation/qparams_search.py:qparams_symmetric_iterative_minimization", "model_compression_toolkit/core/common/quantization/quantization_params_generation/error_functions.py:_kl_error_function"]}
{"id": "C56", "title": "Histogram weights are aligned with the tensor they weigh", "statement": "Weights passed to the weighted histogram are accepted exactly when they broadcast against the tensor, and a weight array of lower rank is broadcast along the same axes in the check and in the collection.", "quantifier": "every pair of shapes", "why_tests_cant": "All shapes and ranks.", "anchors": ["model_compression_toolkit/core/common/collectors/weighted_histogram_collector.py:check_broadcastable", "model_compression_toolkit/core/common/collectors/weighted_histogram_collector.py:WeightedHistogramCollector.update"]}
{"id": "C57", "title": "Every layer of the final model gets the candidate selected for it", "statement": "After the bit-widths are set, each configurable layer uses the candidate the configuration selects for it, and every further use of a shared layer uses the candidate of the layer it shares its weights with.", "quantifier": "every network, naming of the layers and configuration", "why_tests_cant": "All graphs with shared layers and all names.", "anchors": ["model_compression_toolkit/core/common/mixed_precision/bit_width_setter.py:set_bit_widths", "model_compression_toolkit/core/common/mixed_precision/bit_width_setter.py:_set_node_final_qc"]}
{"id": "C58", "title": "A target with room for the maximal configuration gives the maximal configuration", "statement": "With the default (positive) metric epsilon, if the configuration with the largest bit-widths everywhere fits the target, the search returns it, whatever the sensitivity metric says.", "quantifier": "every network, non-negative metric and target", "why_tests_cant": "All metrics, including non-monotone ones.", "anchors": ["model_compression_toolkit/core/common/mixed_precision/mixed_precision_search_manager.py:MixedPrecisionSearchManager", "model_compression_toolkit/core/common/mixed_precision/mixed_precision_search_manager.py:MixedPrecisionSearchManager._build_sensitivity_mapping"]}
{"id": "C59", "title": "Group importance follows the group order of the pruner", "statement": "The importance score of the i-th SIMD group reported for a prunable layer is the score of the i-th group of channels, so that the group kept unconditionally in every layer is one with the highest group score.", "quantifier": "every layer, channel scores and SIMD size", "why_tests_cant": "All real scores, channel counts and SIMD sizes.", "anchors": ["model_compression_toolkit/core/common/pruning/importance_metrics/lfh_importance_metric.py:LFHImportanceMetric.get_entry_node_to_simd_score", "model_compression_toolkit/core/common/pruning/channels_grouping.py:ChannelGrouping.group_scores_by_index"]}
{"id": "C60", "title": "Reported channel importance is that of the group of the channel", "statement": "The importance score reported for a channel of a pruned layer is the score of the SIMD group containing that channel.", "quantifier": "every layer and partition of its channels into groups", "why_tests_cant": "All partitions.", "anchors": ["model_compression_toolkit/core/common/pruning/pruning_info.py:unroll_simd_scores_to_per_channel_scores"]}
{"id": "C61", "title": "Pruning sections are disjoint chains", "statement": "The sections found for pruning are chains entry layer - intermediate layers - exit layer in which every link is the only consumer of the layer before it and the only producer of the layer after it; two sections share at most a layer that is the exit of one and the entry of the other. Finding the sections never fails.", "quantifier": "every acyclic graph and classification of its layers", "why_tests_cant": "All topologies.", "anchors": ["model_compression_toolkit/core/common/graph/base_graph.py:Graph.get_pruning_sections", "model_compression_toolkit/core/common/graph/base_graph.py:Graph._is_node_topology_prunable"]}
{"id": "C62", "title": "The memory the pruner steers by is that of the model it returns", "statement": "The number of parameters computed from the masks during the search equals the number of parameters of the pruned model built from the same masks: every layer is counted once, with the channels its section and its predecessor's section prune.", "quantifier": "every graph, classification of layers, weight shapes and masks", "why_tests_cant": "All graphs, adjacent sections and masks.", "anchors": ["model_compression_toolkit/core/common/pruning/memory_calculator.py:MemoryCalculator.get_pruned_graph_num_params", "model_compression_toolkit/core/common/pruning/prune_graph.py:build_pruned_graph"]}
{"id": "C63", "title": "Pruning does not change the interface of the model", "statement": "The pruned model has the same number of channels in each of its outputs as the original model.", "quantifier": "every graph and mask", "why_tests_cant": "All topologies, including graphs whose inner layers are outputs.", "anchors": ["model_compression_toolkit/core/common/graph/base_graph.py:Graph._is_node_topology_prunable", "model_compression_toolkit/core/common/pruning/prune_graph.py:build_pruned_graph"]}
{"id": "C64", "title": "A pruned section computes the original with the pruned channels removed", "statement": "The output of a pruned section on any input equals the output of the original section in which the contribution of every pruned channel to the exit layer is set to zero, for channel-wise intermediate layers.", "quantifier": "every weights, mask, input and chain of channel-wise layers", "why_tests_cant": "All weights and inputs.", "anchors": ["model_compression_toolkit/core/common/pruning/pruning_section.py:PruningSection.apply_inner_section_mask", "model_compression_toolkit/core/keras/pruning/pruning_keras_implementation.py:PruningKerasImplementation.prune_intermediate_node"]}
{"id": "C65", "title": "The max-cut schedule is close to the best one", "statement": "A single search returns a schedule whose memory is at most the larger of its estimate and the memory of any schedule of the graph; when neither the limit on expansions nor the timeout binds, the result of compute_graph_max_cut is within the factor 1+eps of the best schedule, or within what the halving of the interval of estimates leaves.", "quantifier": "every directed acyclic memory graph, every tie-breaking in the search", "why_tests_cant": "All DAGs and all orders in which equal cuts are taken from a set; optimality compares with all schedules.", "anchors": ["model_compression_toolkit/core/common/graph/memory_graph/max_cut_astar.py:MaxCutAstar.solve", "model_compression_toolkit/core/common/graph/memory_graph/compute_graph_max_cut.py:compute_graph_max_cut"]}
{"id": "C66", "title": "Replacing x*sigmoid(x) by swish preserves the network function", "statement": "When a sigmoid and the multiplication of its result with its input are replaced by one swish layer, every output of the model computes the same function of the inputs as before; a multiplication of the sigmoid with another tensor is not replaced.", "quantifier": "every graph (several outputs per layer, consumers, model outputs) and every input", "why_tests_cant": "All graphs and inputs.", "anchors": ["model_compression_toolkit/core/keras/graph_substitutions/substitutions/sigmoid_mul_to_swish.py"]}
{"id": "C67", "title": "Residual collapsing preserves the network function", "statement": "Replacing a convolution and the addition of its own input by one convolution with the identity added to its kernel does not change any output of the model.", "quantifier": "every graph and every kernel", "why_tests_cant": "All graphs, weights and inputs.", "anchors": ["model_compression_toolkit/core/common/substitutions/residual_collapsing.py:ResidualCollapsing.substitute", "model_compression_toolkit/core/keras/graph_substitutions/substitutions/residual_collapsing.py:residual_collapsing_fn", "model_compression_toolkit/core/pytorch/graph_substitutions/substitutions/residual_collapsing.py:residual_collapsing_fn"]}
{"id": "C68", "title": "Inserting a layer between two layers touches only their connection", "statement": "Inserting a layer on the connection of two layers leaves every other connection as it was, and the model computes what it did, given that the consumer is adapted to the inserted layer.", "quantifier": "every graph, including layers with several inputs and outputs", "why_tests_cant": "All graphs and layer functions.", "anchors": ["model_compression_toolkit/core/common/substitutions/shift_negative_activation.py:insert_node_between_two_nodes", "model_compression_toolkit/core/common/substitutions/shift_negative_activation.py:insert_node_after_node", "model_compression_toolkit/core/common/substitutions/shift_negative_activation.py:insert_node_before_node"]}
{"id": "C69", "title": "Removing a layer between two layers touches only their connection", "statement": "Removing a layer between two layers (a padding moved into the consumer) connects its producer to the input of the consumer the removed layer fed, and leaves every other connection as it was.", "quantifier": "every graph, including consumers with several inputs", "why_tests_cant": "All graphs and layer functions.", "anchors": ["model_compression_toolkit/core/common/substitutions/shift_negative_activation.py:remove_node_between_two_nodes"]}
{"id": "C70", "title": "Decomposing a layer keeps all outputs of the model", "statement": "Replacing a layer by an equivalent one (depthwise by grouped convolution, attention and matrix multiplication by their parts) keeps the number, the order and the function of the model outputs, also when the layer is one of several outputs.", "quantifier": "every graph", "why_tests_cant": "All graphs, including models with several outputs.", "anchors": ["model_compression_toolkit/core/keras/graph_substitutions/substitutions/dwconv_to_conv.py:DwconvToConv.substitute", "model_compression_toolkit/core/keras/graph_substitutions/substitutions/multi_head_attention_decomposition.py", "model_compression_toolkit/core/pytorch/graph_substitutions/substitutions/multi_head_attention_decomposition.py", "model_compression_toolkit/core/pytorch/graph_substitutions/substitutions/matmul_decomposition.py"]}
{"id": "C71", "title": "Splitting a layer in two preserves the network function", "statement": "Replacing a layer by two layers in sequence (separable convolution; a layer and its activation function; a layer and a reconstructed batch normalisation) does not change any output of the model, given that the two compute together what the layer did.", "quantifier": "every graph and every layer semantics", "why_tests_cant": "All graphs and layer functions.", "anchors": ["model_compression_toolkit/core/keras/graph_substitutions/substitutions/separableconv_decomposition.py:SeparableConvDecomposition.substitute", "model_compression_toolkit/core/keras/graph_substitutions/substitutions/activation_decomposition.py:ActivationDecomposition.substitute", "model_compression_toolkit/core/common/substitutions/batchnorm_reconstruction.py:BatchNormalizationReconstruction.substitute"]}
{"id": "C72", "title": "Refusing a corrected batch normalisation rescales the quantized kernel", "statement": "When a batch normalisation that was moved by the second-moment correction is folded back into its layer, the updated quantization thresholds (or ranges) make the quantized new kernel equal to the quantized old kernel scaled by the same factors, so the quantized layer computes what the quantized layer followed by the batch normalisation did.", "quantifier": "every layer kind, kernel, threshold, bit width and correction", "why_tests_cant": "All kernels, thresholds and corrections.", "anchors": ["model_compression_toolkit/core/common/substitutions/batchnorm_refusing.py:BatchNormalizationRefusing._calc_weights_quantization_params"]}
{"id": "C73", "title": "Collapsing an added constant into the bias preserves the function", "statement": "Replacing a linear layer followed by the addition of a constant by one linear layer whose bias contains the constant gives a layer that computes the same function, for every constant the addition accepts.", "quantifier": "every layer, every constant of every shape, every input", "why_tests_cant": "All weights, constants and shapes.", "anchors": ["model_compression_toolkit/core/common/substitutions/linear_collapsing.py:Op2DAddConstCollapsing", "model_compression_toolkit/core/keras/graph_substitutions/substitutions/linear_collapsing.py:op2d_add_const_collapsing_fn"]}
{"id": "C74", "title": "A collapsed layer reports the size of the tensor it makes", "statement": "After two convolutions were collapsed, the output shape of the new layer, from which the activation memory of the model is computed, is the shape of the tensor the new layer makes.", "quantifier": "every pair of layers that is collapsed", "why_tests_cant": "All channel counts.", "anchors": ["model_compression_toolkit/core/common/substitutions/linear_collapsing.py:Conv2DCollapsing.substitute"]}
{"id": "C75", "title": "Bias correction makes quantized weights unbiased", "statement": "After bias correction the average output of a layer with quantized weights, over inputs whose channels have the recorded means, equals the average output of the float layer.", "quantifier": "every layer kind, kernel, quantized kernel, bias (or none), mean vector and set of samples", "why_tests_cant": "All weights, quantization errors and samples.", "anchors": ["model_compression_toolkit/core/common/statistics_correction/compute_bias_correction_of_graph.py:_compute_bias_correction", "model_compression_toolkit/core/common/statistics_correction/apply_bias_correction_to_graph.py:_apply_bias_correction_to_node"]}
{"id": "C76", "title": "Activation bias correction makes quantized activations unbiased", "statement": "After activation bias correction the average output of a linear layer does not move when quantizing its input moves the mean of every input channel by the computed difference; layers it does not support are left alone.", "quantifier": "every layer kind, kernel, bias (or none), difference and set of samples", "why_tests_cant": "All weights, differences and samples.", "anchors": ["model_compression_toolkit/core/common/statistics_correction/compute_activation_bias_correction_of_graph.py:compute_activation_bias_correction", "model_compression_toolkit/core/common/statistics_correction/apply_activation_bias_correction_to_graph.py:_apply_activation_bias_correction_to_node"]}
{"id": "C77", "title": "Shifting the layer before softmax preserves the network function", "statement": "The softmax shift changes no output of the model, and the statistics recorded for the shifted layer are those of its new outputs, centred at zero.", "quantifier": "every graph, layer, recorded range and input", "why_tests_cant": "All graphs, weights and inputs.", "anchors": ["model_compression_toolkit/core/common/substitutions/softmax_shift.py:SoftmaxShift.substitute"]}
{"id": "C78", "title": "Input scaling preserves the function under the reported scale", "statement": "When input scaling is applied, the new model computes from inputs multiplied by the scale that is reported to the user what the model computed from the inputs, and the scaled inputs just reach the threshold of the input quantizer.", "quantifier": "every layer, recorded range, threshold, number of inputs and input", "why_tests_cant": "All weights, ranges and thresholds.", "anchors": ["model_compression_toolkit/core/keras/graph_substitutions/substitutions/input_scaling.py:BaseInputScaling.substitute", "model_compression_toolkit/core/common/user_info.py:UserInformation.set_input_scale"]}
{"id": "C79", "title": "The pattern search finds exactly the patterns", "statement": "The search that drives the substitutions returns exactly the walks whose layers match in order and in which every layer but the last has the next layer as its only consumer, each once; matches of patterns without overlapping conditions share no layer.", "quantifier": "every graph and every pattern", "why_tests_cant": "All graphs and patterns.", "anchors": ["model_compression_toolkit/core/common/graph/graph_searches.py:GraphSearches._walk_filter"]}
{"id": "C80", "title": "Shift negative correction keeps the fused operations valid", "statement": "After shift negative correction has inserted an addition or a padding layer, the fused operations are still accepted by the graph: their layers exist and form chains, no layer is in two of them, and the records of their identifiers and configurations agree.", "quantifier": "every graph, set of fused operations and inserted layer", "why_tests_cant": "All graphs and operations.", "anchors": ["model_compression_toolkit/core/common/substitutions/shift_negative_activation.py:update_fused_op_with_add", "model_compression_toolkit/core/common/substitutions/shift_negative_activation.py:fuse_padding_with_op2d"]}
{"id": "C81", "title": "Fusing contracts each fused operation to one node and keeps everything else", "statement": "Fusing the graph replaces each fused operation by one node: its nodes are the other layers and one node per operation, its connections are those between nodes of different operations, at the same positions, and the outputs and inputs of the model are the same tensors.", "quantifier": "every graph and every set of fused operations the graph accepts", "why_tests_cant": "All graphs and operations.", "anchors": ["model_compression_toolkit/core/common/fusion/graph_fuser.py:GraphFuser.apply_node_fusion", "model_compression_toolkit/core/common/fusion/graph_fuser.py:GraphFuser._replace_nodes_with_fused_node"]}
{"id": "C82", "title": "Layer fusing patterns are exactly the combinations of attached layers", "statement": "The fusing patterns of a framework-attached TPC are exactly the sequences that take, for each member of a fusing entry, one layer attached to that operator set (or to a set of that group), each with the quantization configuration of its entry; a TPC without fusing entries has none.", "quantifier": "every TPC, attachment of layers and fusing entry", "why_tests_cant": "All TPCs and attachments.", "anchors": ["model_compression_toolkit/target_platform_capabilities/targetplatform2framework/framework_quantization_capabilities.py:FrameworkQuantizationCapabilities.get_fusing_patterns", "model_compression_toolkit/target_platform_capabilities/targetplatform2framework/operations_to_layers.py:OperationsToLayers.get_layers_by_op"]}
{"id": "C83", "title": "Containment of fusing entries means a covered consecutive part", "statement": "Fusing.contains(other) holds exactly when consecutive members of the entry cover the members of the other one by one, a member covering itself and a group covering the operator sets in it.", "quantifier": "every two fusing entries", "why_tests_cant": "All entries and groups.", "anchors": ["model_compression_toolkit/target_platform_capabilities/schema/v2.py:Fusing.contains"]}
{"id": "C84", "title": "A layer that preserves quantization inherits the settings of its source", "statement": "After loading the target platform on a graph, every layer that preserves the quantization of its input gets it from exactly one layer above that quantizes its own output, reached through layers that all preserve it; a preserving layer with no such source, several inputs or no activation is not left preserving.", "quantifier": "every acyclic graph and option sets", "why_tests_cant": "All graphs, option sets and orders of layers.", "anchors": ["model_compression_toolkit/quantization_preparation/load_fqc.py:load_fqc_configuration"]}
{"id": "C85", "title": "Inner layers of a fused operation take the settings of the fusion and keep their weight choices", "statement": "After loading the fusing configuration, every candidate of an inner layer of a fused operation has the activation settings of the fused operation (or no activation quantization when there are none), uses the quantization function of these settings, and every weight configuration the layer had remains available exactly once.", "quantifier": "every layer configuration and fused operation", "why_tests_cant": "All candidate lists and fused configurations.", "anchors": ["model_compression_toolkit/core/common/graph/base_graph.py:Graph.override_fused_node_activation_quantization_candidates"]}
{"id": "C86", "title": "Soft-rounding GPTQ starts from the float weights", "statement": "Before the first training step a soft-rounding quantizer returns the float weight clipped to its range in training, and a nearest representable value in evaluation.", "quantifier": "every float weight, threshold or range and bit-width, PyTorch and Keras", "why_tests_cant": "All real weights and thresholds.", "anchors": ["model_compression_toolkit/gptq/pytorch/quantizer/soft_rounding/symmetric_soft_quantizer.py:SymmetricSoftRoundingGPTQ.initialize_quantization", "model_compression_toolkit/gptq/keras/quantizer/soft_rounding/symmetric_soft_quantizer.py:SymmetricSoftRoundingGPTQ", "model_compression_toolkit/gptq/pytorch/quantizer/soft_rounding/uniform_soft_quantizer.py:UniformSoftRoundingGPTQ", "model_compression_toolkit/gptq/keras/quantizer/soft_rounding/uniform_soft_quantizer.py:UniformSoftRoundingGPTQ"]}
{"id": "C87", "title": "GPTQ moves weights by a bounded amount", "statement": "Whatever values training gives its variables, a soft-rounded weight stays within one quantization step of the clipped float weight and is in evaluation one of its two neighbours, and a straight-through weight moves by at most the configured number of steps from the rounded one.", "quantifier": "every weight, threshold, bit-width and value of the trained variables", "why_tests_cant": "All real weights and all outcomes of training.", "anchors": ["model_compression_toolkit/gptq/pytorch/quantizer/soft_rounding/symmetric_soft_quantizer.py:soft_rounding_symmetric_quantizer", "model_compression_toolkit/gptq/pytorch/quantizer/soft_rounding/uniform_soft_quantizer.py:soft_rounding_unifrom_quantizer", "model_compression_toolkit/gptq/pytorch/quantizer/ste_rounding/symmetric_ste.py:pertubation_symmetric_quantizer"]}
{"id": "C88", "title": "Exported quantizers reproduce what was trained", "statement": "The quantization parameters exported after GPTQ leave the trained weights unchanged, and those exported after QAT quantize every value as the trained quantizer did.", "quantifier": "every trained weight, threshold or range, scale and bit-width", "why_tests_cant": "All real values and all outcomes of training.", "anchors": ["model_compression_toolkit/gptq/pytorch/quantizer/soft_rounding/symmetric_soft_quantizer.py:SymmetricSoftRoundingGPTQ.get_quant_config", "model_compression_toolkit/gptq/pytorch/quantizer/ste_rounding/symmetric_ste.py:STEWeightGPTQQuantizer.get_quant_config", "model_compression_toolkit/qat/pytorch/quantizer/lsq/symmetric_lsq.py:LSQWeightQATQuantizer.convert2inferable", "model_compression_toolkit/trainable_infrastructure/pytorch/activation_quantizers/lsq/symmetric_lsq.py:LSQSymmetricActivationTrainableQuantizer.convert2inferable"]}
{"id": "C89", "title": "Annealing schedules move monotonically from the initial to the target value", "statement": "An annealing schedule has its initial value up to the start step and its target value from the end step on, moves monotonically in between, and gradual activation quantization interpolates between the float and the quantized activation, being complete at the last step.", "quantifier": "every start, end, initial and target value and step", "why_tests_cant": "All steps and values.", "anchors": ["model_compression_toolkit/trainable_infrastructure/common/annealing_schedulers.py:BaseLinearAnnealingScheduler", "model_compression_toolkit/gptq/common/gradual_activation_quantization.py:GradualActivationQuantizerWrapper", "model_compression_toolkit/trainable_infrastructure/pytorch/annealing_schedulers.py:PytorchLinearAnnealingScheduler"]}
{"id": "C90", "title": "GPTQ loss weights are finite, ordered like the Hessian scores and normalised", "statement": "The weights of the layers in the GPTQ loss are finite and not negative; log-normalised weights keep the order of the scores, have minimum zero and, scaled, maximum one; normalised scores of an image sum to at most one.", "quantifier": "every number of images and layers and non-negative Hessian scores", "why_tests_cant": "All scores.", "anchors": ["model_compression_toolkit/gptq/common/gptq_training.py:GPTQTrainer.compute_hessian_based_weights", "model_compression_toolkit/core/common/hessian/hessian_info_utils.py:normalize_scores"]}
{"id": "C91", "title": "Training can reach every rounding of the weights", "statement": "For every choice of rounding each weight of a tensor down or up (or, with straight-through rounding, by any allowed number of steps), there are values of the trained variables for which the quantizer produces it.", "quantifier": "every tensor and choice of rounding", "why_tests_cant": "All tensors and roundings.", "anchors": ["model_compression_toolkit/gptq/pytorch/quantizer/soft_rounding/symmetric_soft_quantizer.py:SymmetricSoftRoundingGPTQ", "model_compression_toolkit/gptq/keras/quantizer/ste_rounding/symmetric_ste.py:STEWeightGPTQQuantizer", "model_compression_toolkit/gptq/pytorch/quantizer/ste_rounding/symmetric_ste.py:STEWeightGPTQQuantizer.initialize_quantization"]}
{"id": "C92", "title": "Training quantizers agree with post-training quantization", "statement": "With the same threshold or range and bit-width, the quantizers of trainable layers give every value the same result as the post-training quantizer.", "quantifier": "every value, threshold or range and bit-width", "why_tests_cant": "All real values and thresholds.", "anchors": ["model_compression_toolkit/trainable_infrastructure/pytorch/quantizer_utils.py:symmetric_lsq_quantizer", "model_compression_toolkit/trainable_infrastructure/pytorch/quantizer_utils.py:uniform_lsq_quantizer", "model_compression_toolkit/core/common/quantization/quantizers/quantizers_helpers.py:quantize_tensor"]}
{"id": "C93", "title": "Every parameter trained by GPTQ belongs to exactly one optimizer", "statement": "GPTQ hands each trained weight, each bias when biases are trained and each quantization parameter when these are learned to exactly one optimizer, the one configured for its group or else the remaining one, and starts whenever every such group has one.", "quantifier": "every configuration of optimizers and lists of parameters", "why_tests_cant": "All configurations and lists.", "anchors": ["model_compression_toolkit/gptq/common/gptq_training.py:GPTQTrainer.get_optimizer_with_param"]}
{"id": "C94", "title": "Hessian scores asked for are those of the layer asked for", "statement": "After any sequence of requests and clearings, the answer to a request for Hessian scores has one entry per target layer, in the order and under the names of the request, holding as many samples as were asked for of the scores computed for the layer (or for the layer it reuses) with the mode and granularity asked for, and nothing is computed when the stored samples suffice.", "quantifier": "every history of requests and clearings, target layers, data loader and score function", "why_tests_cant": "All histories of requests share one cache.", "anchors": ["model_compression_toolkit/core/common/hessian/hessian_info_service.py:HessianInfoService.fetch_hessian", "model_compression_toolkit/core/common/hessian/hessian_info_service.py:HessianCache"]}
{"id": "C95", "title": "A forced request for Hessian scores is answered from its own images", "statement": "A request that always computes answers, whatever was computed before, with the scores of each layer on the images of its loader in their order: on the first n when it asks for n samples (no scores when it asks for none), failing when the loader has fewer, and on all images when it names no number.", "quantifier": "every loader and request", "why_tests_cant": "All loaders and requests.", "anchors": ["model_compression_toolkit/core/common/hessian/hessian_info_service.py:HessianInfoService.compute_trackable_per_element_scores"]}
{"id": "C96", "title": "Scores of different layers come from the same images", "statement": "The scores in an answer to a request for several layers are, sample by sample, those of the same images, and of different images for different samples, whatever was requested before.", "quantifier": "every history of requests", "why_tests_cant": "All histories of requests share one cache.", "anchors": ["model_compression_toolkit/core/common/hessian/hessian_info_service.py:HessianInfoService.fetch_hessian", "model_compression_toolkit/core/common/hessian/hessian_info_service.py:HessianCache"]}
{"id": "C97", "title": "Each statistics collector gets the tensor and the Hessian scores of its own layer", "statement": "In every inference of statistics collection each collector is updated once, with the output of its own layer, weighted, for Hessian-weighted errors, with the scores of this output with respect to the outputs of the model; collectors of model outputs get no weights.", "quantifier": "every model, set of collecting layers and model outputs", "why_tests_cant": "All graphs.", "anchors": ["model_compression_toolkit/core/common/model_collector.py:ModelCollector.infer", "model_compression_toolkit/core/common/hessian/hessian_info_service.py:HessianInfoService.fetch_hessian", "model_compression_toolkit/core/pytorch/hessian/activation_hessian_scores_calculator_pytorch.py:ActivationHessianScoresCalculatorPytorch"]}
{"id": "C98", "title": "A PyTorch model read into a graph computes what it computed", "statement": "The PyTorch model built from the graph of a traced model, before any substitution or quantization, returns for every input what the traced model returns, whatever the order in which independent nodes run: each call gets the same tensors, constants, literals and keyword arguments in the same places.", "quantifier": "every traced model, functions and modules it calls, inputs, and topological order of the graph", "why_tests_cant": "All models, with all arrangements of arguments.", "anchors": ["model_compression_toolkit/core/pytorch/reader/graph_builders.py:nodes_builder", "model_compression_toolkit/core/pytorch/reader/graph_builders.py:edges_builder", "model_compression_toolkit/core/pytorch/reader/reader.py:model_reader", "model_compression_toolkit/core/pytorch/back2framework/pytorch_model_builder.py:_run_operation", "model_compression_toolkit/core/pytorch/back2framework/pytorch_model_builder.py:_merge_inputs", "model_compression_toolkit/core/pytorch/back2framework/pytorch_model_builder.py:_build_input_tensors_list", "model_compression_toolkit/core/pytorch/back2framework/pytorch_model_builder.py:PytorchModel.forward", "model_compression_toolkit/core/common/graph/base_node.py:BaseNode.insert_positional_weights_to_input_list"]}
{"id": "C99", "title": "The graph of a PyTorch model keeps exactly what its outputs need", "statement": "A node of a traced model, constants apart, is in its graph exactly when it is an output or an output is computed from it, and the edges of the graph are exactly the uses among these nodes.", "quantifier": "every traced model", "why_tests_cant": "All graphs; removal of unused nodes cascades.", "anchors": ["model_compression_toolkit/core/pytorch/reader/reader.py:remove_broken_nodes_from_graph", "model_compression_toolkit/core/pytorch/reader/reader.py:build_graph", "model_compression_toolkit/core/pytorch/reader/graph_builders.py:edges_builder"]}
{"id": "C100", "title": "Calls share an operation exactly when they are calls of one layer with the same weights", "statement": "In a PyTorch model built from a graph, a call without weights has its own operation, calls with weights run one shared operation exactly when they have the same target and the same weights, and every graph read from a model that runs can be built.", "quantifier": "every list of calls, weights and order of the graph", "why_tests_cant": "All histories of calls in a model.", "anchors": ["model_compression_toolkit/core/pytorch/reader/graph_builders.py:create_reuse_group", "model_compression_toolkit/core/pytorch/reader/graph_builders.py:nodes_builder", "model_compression_toolkit/core/pytorch/back2framework/pytorch_model_builder.py:PytorchModel._add_modules", "model_compression_toolkit/exporter/model_wrapper/pytorch/builder/fully_quantized_model_builder.py:fully_quantized_wrapper"]}
{"id": "C101", "title": "A search under a bit-operations target selects complete candidates of the model's layers", "statement": "Under a bit-operations target with activation and weight bits that vary, the choice made for pairs of an activation and the weights that read it always gives exactly one candidate for every configurable layer of the model: the one with the activation bits and the kernel bits chosen for it; and every configuration of the model can be chosen.", "quantifier": "every model, candidates, and choice at the searched layers", "why_tests_cant": "All graphs and all choices.", "anchors": ["model_compression_toolkit/core/common/mixed_precision/mixed_precision_search_manager.py:ConfigReconstructionHelper.reconstruct_full_configuration", "model_compression_toolkit/core/common/graph/virtual_activation_weights_node.py:VirtualActivationWeightsNode", "model_compression_toolkit/core/common/substitutions/weights_activation_split.py:BaseWeightsActivationSplit", "model_compression_toolkit/core/common/substitutions/virtual_activation_weights_composition.py:BaseVirtualActivationWeightsComposition"]}
{"id": "C102", "title": "The sensitivity of a candidate is measured with the quantizers of its layer alone", "statement": "The sensitivity the mixed-precision search measures for a candidate is the metric of the model in which exactly the activation and kernel quantizers of this layer are active, set to this candidate, and all other configurable quantizers are off; it does not depend on what was measured before, nor on the order in which quantizers are set, and after each measurement all quantizers are off again.", "quantifier": "every model, candidates, history of measurements, order of setting quantizers and metric", "why_tests_cant": "All histories of calls that change the shared evaluation model.", "anchors": ["model_compression_toolkit/core/common/mixed_precision/sensitivity_eval/sensitivity_evaluation.py:SensitivityEvaluation.compute_metric", "model_compression_toolkit/core/common/mixed_precision/sensitivity_eval/sensitivity_evaluation.py:SensitivityEvaluation._configured_mp_model", "model_compression_toolkit/core/common/mixed_precision/sensitivity_eval/sensitivity_evaluation.py:SensitivityEvaluation._build_mp_model", "model_compression_toolkit/core/common/mixed_precision/sensitivity_eval/set_layer_to_bitwidth.py", "model_compression_toolkit/core/common/mixed_precision/mixed_precision_search_manager.py:MixedPrecisionSearchManager._build_sensitivity_mapping", "model_compression_toolkit/core/pytorch/back2framework/mixed_precision_model_builder.py", "model_compression_toolkit/core/keras/back2framework/mixed_precision_model_builder.py"]}
{"id": "C103", "title": "A restriction of one memory alone searches only the bits it depends on", "statement": "If only the weights memory is restricted, the search keeps exactly the candidates of a layer with the activation bits of its base configuration, and every remaining candidate can be measured; if only the activation memory is restricted, it keeps exactly those with the kernel bits of the base configuration; otherwise all candidates are kept. The base configuration always remains.", "quantifier": "every set of restrictions and candidates", "why_tests_cant": "All combinations of restrictions and candidate lists.", "anchors": ["model_compression_toolkit/core/common/mixed_precision/mixed_precision_candidates_filter.py:filter_candidates_for_mixed_precision", "model_compression_toolkit/core/common/mixed_precision/mixed_precision_search_facade.py:search_bit_width"]}
{"id": "C104", "title": "The sensitivity metric compares the models on the first images, however they are batched", "statement": "The metric of a configuration is the documented combination (average, last layer, exponential or Hessian weights) of the mean distances between float and quantized model at the interest points, plus the mean over the outputs, taken over exactly the first num_of_images samples of the representative data; how the data are cut into batches does not matter.", "quantifier": "every generator, number of images, points, models and weighting", "why_tests_cant": "All ways to cut data into batches, and all tensors.", "anchors": ["model_compression_toolkit/core/common/mixed_precision/sensitivity_eval/metric_calculators.py:DistanceMetricCalculator._get_images_batches", "model_compression_toolkit/core/common/mixed_precision/sensitivity_eval/metric_calculators.py:DistanceMetricCalculator._compute_distance", "model_compression_toolkit/core/common/mixed_precision/sensitivity_eval/metric_calculators.py:DistanceMetricCalculator._compute_mp_distance_measure"]}
{"id": "C105", "title": "Distances between tensors are distances", "statement": "The distances used to compare float and quantized tensors are never negative; the normalised squared error is zero exactly for equal tensors, the cosine and Kullback-Leibler distances are between 0 and 1 as documented, and a quantized model that computes the same as the float model has the metric 0.", "quantifier": "every pair of tensors, points and weighting", "why_tests_cant": "All real tensors.", "anchors": ["model_compression_toolkit/core/common/similarity_analyzer.py:compute_mse", "model_compression_toolkit/core/common/similarity_analyzer.py:compute_cs", "model_compression_toolkit/core/common/similarity_analyzer.py:compute_kl_divergence", "model_compression_toolkit/core/common/mixed_precision/sensitivity_eval/metric_calculators.py:DistanceMetricCalculator.compute"]}
{"id": "C106", "title": "The interest points are the requested share of the candidate layers, evenly taken", "statement": "With a num_interest_points_factor f below 1, floor(f*n) of the n candidate layers are used, distinct, in the order of the model, with the first and (if there are at least two) the last; outputs are compared separately; and each comparison reads the tensor of its own layer.", "quantifier": "every model and factor", "why_tests_cant": "All list lengths and factors.", "anchors": ["model_compression_toolkit/core/common/mixed_precision/sensitivity_eval/metric_calculators.py:DistanceMetricCalculator.bound_num_interest_points", "model_compression_toolkit/core/common/mixed_precision/sensitivity_eval/metric_calculators.py:DistanceMetricCalculator.get_mp_interest_points", "model_compression_toolkit/core/common/mixed_precision/sensitivity_eval/metric_calculators.py:DistanceMetricCalculator.__init__"]}
{"id": "C107", "title": "Decomposing a matrix product keeps its value", "statement": "Preparing a PyTorch model that contains torch.matmul (of any rank, with broadcast dimensions) gives a model in which the operations that replace the product compute the same tensor, for every batch size; operands keep their sides whatever order they are computed in.", "quantifier": "every pair of tensors and every graph around the product", "why_tests_cant": "All ranks, sizes and values; tests use a few shapes.", "anchors": ["model_compression_toolkit/core/pytorch/graph_substitutions/substitutions/matmul_decomposition.py:MatMulDecomposition.substitute", "model_compression_toolkit/core/pytorch/graph_substitutions/substitutions/matmul_decomposition.py:MatMulParams", "model_compression_toolkit/core/pytorch/reader/graph_builders.py:edges_builder"]}
{"id": "C108", "title": "Decomposing multi-head attention keeps its value", "statement": "Preparing a PyTorch model that contains torch.nn.MultiheadAttention gives a model in which the operations that replace the layer compute multi-head attention with its weights on the same query, key and value; options that are not supported (masks, bias_kv, zero attention) are rejected, not dropped.", "quantifier": "every layer (heads, sizes, biases, separate key and value sizes), every input and every arrangement of the inputs in the model", "why_tests_cant": "All sizes, weights and inputs.", "anchors": ["model_compression_toolkit/core/pytorch/graph_substitutions/substitutions/multi_head_attention_decomposition.py:MultiHeadAttentionDecomposition.substitute", "model_compression_toolkit/core/pytorch/graph_substitutions/substitutions/multi_head_attention_decomposition.py:MHAParams", "model_compression_toolkit/core/pytorch/reader/graph_builders.py:edges_builder"]}
{"id": "C109", "title": "Decomposing scaled dot-product attention keeps its value", "statement": "Preparing a PyTorch model that calls scaled_dot_product_attention gives a model in which the operations that replace the call compute softmax(q k^T scale + mask) v of the same arguments, for every rank and with broadcasting; causal calls and boolean or infinite masks are rejected.", "quantifier": "every call (positional or keyword arguments, repeated tensors, constants, scale, mask) and every input", "why_tests_cant": "All ranks, sizes, values and ways to write the call.", "anchors": ["model_compression_toolkit/core/pytorch/graph_substitutions/substitutions/scaled_dot_product_attention.py:ScaledDotProductDecomposition.substitute", "model_compression_toolkit/core/pytorch/reader/graph_builders.py:edges_builder", "model_compression_toolkit/core/pytorch/reader/graph_builders.py:nodes_builder"]}
{"id": "C110", "title": "Functional linear, layer_norm and batch_norm become layers with the same parameters", "statement": "Preparing a PyTorch model that calls torch.nn.functional.linear, layer_norm or batch_norm replaces the call by a layer with the weight, bias, running statistics, epsilon and normalised dimensions of the call, however the arguments are written (by position or by keyword, in any order, None or omitted).", "quantifier": "every call", "why_tests_cant": "All ways to write a call.", "anchors": ["model_compression_toolkit/core/pytorch/graph_substitutions/substitutions/functional_linear.py:FunctionalLinear.substitute", "model_compression_toolkit/core/pytorch/graph_substitutions/substitutions/functional_layer_norm.py:FunctionalLayerNorm.get_attributes_from_weights", "model_compression_toolkit/core/pytorch/graph_substitutions/substitutions/functional_layer_norm.py:FunctionalLayerNorm.substitute", "model_compression_toolkit/core/pytorch/graph_substitutions/substitutions/functional_batch_norm.py:FunctionalBatchNorm.get_attributes_from_weights", "model_compression_toolkit/core/pytorch/graph_substitutions/substitutions/functional_batch_norm.py:FunctionalBatchNorm.substitute"]}
{"id": "C111", "title": "Reading a Keras model keeps what it computes", "statement": "Reading a functional Keras model, with models nested in it to any depth, gives a graph without nested models whose nodes, connected by its edges in the order of their indices, compute the outputs of the model for every input.", "quantifier": "every functional model: any layers, connections, number of inputs and outputs, nesting, shared layers and repeated tensors", "why_tests_cant": "All models and all depths of nesting.", "anchors": ["model_compression_toolkit/core/keras/reader/reader.py:parse_model", "model_compression_toolkit/core/keras/reader/reader.py:flatten_nested_model", "model_compression_toolkit/core/keras/reader/reader.py:build_graph", "model_compression_toolkit/core/keras/reader/connectivity_handler.py:ConnectivityHandler", "model_compression_toolkit/core/keras/reader/nested_model/edges_merger.py:merge_models_edges", "model_compression_toolkit/core/keras/reader/nested_model/nodes_merger.py:merge_models_nodes", "model_compression_toolkit/core/keras/reader/nested_model/outputs_merger.py:merge_models_outputs", "model_compression_toolkit/core/common/graph/edge.py:Edge.__eq__"]}
{"id": "C112", "title": "Functions called in a Keras model get the same arguments", "statement": "When a functional Keras model calls a function (a TensorFlow operation used as a layer) with tensors of the model, constants and other values, by position, by keyword or in a list, the call in the model that is built from the graph gives every parameter of the function the same value, or the default if the original call does.", "quantifier": "every function signature and every call: any numbers of tensors, constants and other values, in any order, positional, keyword or in a list", "why_tests_cant": "All signatures and all ways to write a call.", "anchors": ["model_compression_toolkit/core/keras/reader/node_builder.py:build_node", "model_compression_toolkit/core/keras/reader/node_builder.py:_extract_const_attrs_from_args", "model_compression_toolkit/core/keras/reader/node_builder.py:_extract_const_attrs_from_kwargs", "model_compression_toolkit/core/keras/reader/node_builder.py:_build_arguments_alloc", "model_compression_toolkit/core/keras/reader/node_builder.py:_has_const_attributes", "model_compression_toolkit/core/keras/back2framework/keras_model_builder.py:KerasModelBuilder._run_operation", "model_compression_toolkit/core/keras/tf_tensor_numpy.py:tf_tensor_to_numpy"]}
{"id": "C113", "title": "Edit rules change the requested settings of the selected layers only", "statement": "Applying a list of edit rules (a filter on layers and an action on their quantization settings) sets, in every layer that a filter selects, each requested setting of the activation, of the weights or of one weight attribute to the last value requested for it; every other setting and every layer that no filter selects is unchanged. The rules are rejected exactly if a selected layer does not have the weight attribute or the setting or method cannot be set.", "quantifier": "every list of rules, with filters combined by and, or and not, and every graph", "why_tests_cant": "All lists of rules, filters and graphs; the effects of rules that overlap depend on their order.", "anchors": ["model_compression_toolkit/core/common/network_editors/edit_network.py:edit_network_graph", "model_compression_toolkit/core/common/network_editors/node_filters.py:NodeTypeFilter", "model_compression_toolkit/core/common/network_editors/node_filters.py:NodeNameFilter", "model_compression_toolkit/core/common/network_editors/node_filters.py:NodeNameScopeFilter", "model_compression_toolkit/core/common/network_editors/actions.py:ChangeCandidatesActivationQuantConfigAttr", "model_compression_toolkit/core/common/network_editors/actions.py:ChangeCandidatesWeightsQuantConfigAttr", "model_compression_toolkit/core/common/network_editors/actions.py:ChangeFinalActivationQuantConfigAttr", "model_compression_toolkit/core/common/network_editors/actions.py:ChangeFinalWeightsQuantConfigAttr", "model_compression_toolkit/core/common/network_editors/actions.py:ReplaceLayer", "model_compression_toolkit/core/common/quantization/node_quantization_config.py:BaseNodeQuantizationConfig.set_quant_config_attr"]}
{"id": "C114", "title": "Requested settings are those of the quantized layers", "statement": "Edit rules are applied before the quantization parameters are computed and again after the final configurations are chosen. At the end every setting of the final configuration of a layer is the last one requested for the final configuration, otherwise the last one requested for the candidates, otherwise that of the (chosen) candidate, in single and in mixed precision; the quantization parameters belong to those settings, and layers are replaced once.", "quantifier": "every list of rules, graph, computed parameters and choice of candidates", "why_tests_cant": "All interactions between rules and the two passes.", "anchors": ["model_compression_toolkit/core/common/network_editors/edit_network.py:edit_network_graph", "model_compression_toolkit/core/quantization_prep_runner.py:quantization_preparation_runner", "model_compression_toolkit/core/runner.py:core_runner", "model_compression_toolkit/core/common/quantization/set_node_quantization_config.py:set_quantization_configs_to_node", "model_compression_toolkit/core/common/mixed_precision/bit_width_setter.py:set_bit_widths"]}
{"id": "C115", "title": "Activations are quantized to the nearest value their parameters allow, in both frameworks", "statement": "Quantizing a tensor with the activation quantizer of a configuration (as in the mixed-precision search, in shift negative correction and in activation bias correction) maps every element to a nearest point of the grid of its parameters: the signed or unsigned integers scaled by the threshold, 2^n equally spaced values over the range extended and moved to contain zero, or the entries of the look-up table. Zero stays zero, thresholds that are not powers of two are rejected where a power of two is required, and PyTorch, Keras and the threshold selection agree.", "quantifier": "every input, number of bits, threshold, signedness, range and table", "why_tests_cant": "All numbers; tests compare a few tensors.", "anchors": ["model_compression_toolkit/core/pytorch/quantizer/fake_quant_builder.py:power_of_two_quantization", "model_compression_toolkit/core/pytorch/quantizer/fake_quant_builder.py:symmetric_quantization", "model_compression_toolkit/core/pytorch/quantizer/fake_quant_builder.py:uniform_quantization", "model_compression_toolkit/core/keras/quantizer/fake_quant_builder.py:quantizer_min_max_calculator", "model_compression_toolkit/core/keras/quantizer/fake_quant_builder.py:uniform_quantization", "model_compression_toolkit/core/pytorch/quantizer/lut_fake_quant.py:PytorchLUTFakeQuant", "model_compression_toolkit/core/keras/quantizer/lut_fake_quant.py:LUTFakeQuant"]}
{"id": "C116", "title": "The comparison report gives mean similarities of matching layers", "statement": "The report of xquant compares the outputs of the folded float model and of the quantized model, and the outputs of every quantized layer that the float model has too, on every input of the dataset; each reported number is the mean over the dataset of the metric between the two tensors. The metrics are the mean squared error, the cosine similarity (1 for equal tensors, in both frameworks) and the signal to noise ratio, and those of the user, which win over default metrics of the same name. Labels of a validation dataset are not used, two layers for one float layer are refused, and the models are left as they are.", "quantifier": "every pair of models, dataset and set of metrics", "why_tests_cant": "All models, datasets and metrics; values depend on every input of the dataset.", "anchors": ["model_compression_toolkit/xquant/common/similarity_calculator.py:SimilarityCalculator.compute_similarity_metrics", "model_compression_toolkit/xquant/common/similarity_calculator.py:SimilarityCalculator._get_float_to_quantized_compare_points", "model_compression_toolkit/xquant/common/similarity_functions.py:SimilarityFunctions.get_default_similarity_metrics", "model_compression_toolkit/xquant/pytorch/model_analyzer.py:PytorchModelAnalyzer", "model_compression_toolkit/xquant/keras/model_analyzer.py:KerasModelAnalyzer", "model_compression_toolkit/xquant/pytorch/similarity_functions.py:PytorchSimilarityFunctions", "model_compression_toolkit/xquant/keras/similarity_functions.py:KerasSimilarityFunctions", "model_compression_toolkit/xquant/pytorch/dataset_utils.py:PytorchDatasetUtils.prepare_dataset", "model_compression_toolkit/xquant/keras/dataset_utils.py:KerasDatasetUtils.prepare_dataset"]}
{"id": "C117", "title": "Data generation returns the requested images", "statement": "Generating images for a model returns exactly as many images as were asked for, whatever the batch size, each of the requested height and width with three channels and, if clipping is on, with every pixel in the range of valid values of its channel. Every batch of images is optimized once in every iteration.", "quantifier": "every number of images, batch size, size of images, number of iterations, schedule of the batches, optimizer, augmentation and initial images", "why_tests_cant": "All sizes, schedules and optimizers; the run is random.", "anchors": ["model_compression_toolkit/data_generation/common/optimization_utils.py:ImagesOptimizationHandler", "model_compression_toolkit/data_generation/pytorch/optimization_utils.py:PytorchImagesOptimizationHandler", "model_compression_toolkit/data_generation/keras/optimization_utils.py:KerasImagesOptimizationHandler", "model_compression_toolkit/data_generation/pytorch/image_pipeline.py:PytorchSmoothAugmentationImagePipeline", "model_compression_toolkit/data_generation/keras/image_pipeline.py:TensorflowSmoothAugmentationImagePipeline", "model_compression_toolkit/data_generation/pytorch/pytorch_data_generation.py:pytorch_data_generation_experimental", "model_compression_toolkit/data_generation/keras/keras_data_generation.py:keras_data_generation_experimental"]}
{"id": "C118", "title": "The alignment loss compares the statistics of all images with those of the network", "statement": "In data generation over all images, the statistics used for a layer are the mean and the variance of its activations over all current images; the alignment loss is a weighted sum of squared differences that is never negative and is zero exactly if the statistics are those of the batch normalization layers. Average weights add up to one; the first-layer weighting gives the first layer ten times the weight of the others.", "quantifier": "every set of images, batch size, network, layer and statistics", "why_tests_cant": "All values of activations and all partitions into batches.", "anchors": ["model_compression_toolkit/data_generation/common/optimization_utils.py:ImagesOptimizationHandler.compute_bn_loss", "model_compression_toolkit/data_generation/pytorch/optimization_utils.py:PytorchImagesOptimizationHandler.get_layer_accumulated_stats", "model_compression_toolkit/data_generation/keras/optimization_utils.py:KerasImagesOptimizationHandler.get_layer_accumulated_stats", "model_compression_toolkit/data_generation/pytorch/optimization_utils.py:PytorchBatchStatsHolder.calc_bn_stats_from_activations", "model_compression_toolkit/data_generation/keras/optimization_utils.py:KerasBatchStatsHolder.calc_bn_stats_from_activations", "model_compression_toolkit/data_generation/pytorch/optimization_functions/batchnorm_alignment_functions.py:l2_square", "model_compression_toolkit/data_generation/pytorch/optimization_functions/bn_layer_weighting_functions.py"]}
{"id": "C119", "title": "The learning rate of data generation falls on plateaus only", "statement": "With the plateau scheduler of data generation the learning rate never rises and never falls below its minimum; it is unchanged while the loss improves by more than the threshold, it is lowered if the loss has not improved for more steps than the patience, and at least patience + 1 steps lie between two changes.", "quantifier": "every sequence of losses and all arguments of the scheduler", "why_tests_cant": "All sequences of losses.", "anchors": ["model_compression_toolkit/data_generation/pytorch/optimization_functions/lr_scheduler.py:ReduceLROnPlateauWithReset", "model_compression_toolkit/data_generation/keras/optimization_functions/lr_scheduler.py:ReduceLROnPlateau", "model_compression_toolkit/data_generation/pytorch/optimization_functions/scheduler_step_functions.py:get_reduce_lr_on_plateau_with_reset_scheduler"]}
{"id": "C120", "title": "Built models compute their graph with quantized weights and activations", "statement": "The float model, the quantized model of the optimization and the exported model compute the graph: every layer runs on the quantized outputs of its sources in the order of its inputs, with weights quantized by its own final configuration in the exported model and float otherwise, layers that are used twice are shared, and the output of a layer is quantized exactly once, by its own quantizer, if quantization of its activations is enabled. Options on quantizers of preserving layers do not change the result.", "quantifier": "every graph, input, layer function, quantizer and mode", "why_tests_cant": "All graphs and reuse patterns.", "anchors": ["model_compression_toolkit/core/pytorch/back2framework/pytorch_model_builder.py:PytorchModel", "model_compression_toolkit/core/pytorch/back2framework/pytorch_model_builder.py:_run_operation", "model_compression_toolkit/core/keras/back2framework/keras_model_builder.py:KerasModelBuilder.build_model", "model_compression_toolkit/core/keras/back2framework/instance_builder.py:OperationHandler", "model_compression_toolkit/exporter/model_wrapper/pytorch/builder/fully_quantized_model_builder.py:fully_quantized_wrapper", "model_compression_toolkit/exporter/model_wrapper/fw_agnostic/get_inferable_quantizers.py:get_inferable_quantizers"]}
{"id": "C121", "title": "Hessian scores are unbiased estimates of the squared derivatives of the outputs", "statement": "The Hessian scores used to weigh layers, channels and elements have, over the random vectors of the estimation, the sum of the squared derivatives of the network's outputs as mean: per element, per channel and per tensor, for weights and activations, per image, and in both frameworks on the same scale. The result of the estimation is the mean over the random vectors that were used, is never negative, and vanishes exactly for elements on which no output depends.", "quantifier": "all networks (any Jacobian, number of outputs and elements), all batches of images, all partitions into channels, all numbers of random vectors, all sequences of random vectors", "why_tests_cant": "The claim is about a mean over exponentially many random vectors for arbitrary networks; a test sees a few vectors and cannot tell a biased estimate from noise.", "anchors": ["model_compression_toolkit/core/common/hessian/hessian_scores_calculator.py:HessianScoresCalculator", "model_compression_toolkit/core/pytorch/hessian/hessian_scores_calculator_pytorch.py:HessianScoresCalculatorPytorch.concat_tensors", "model_compression_toolkit/core/pytorch/hessian/weights_hessian_scores_calculator_pytorch.py:WeightsHessianScoresCalculatorPytorch.compute", "model_compression_toolkit/core/pytorch/hessian/activation_hessian_scores_calculator_pytorch.py:ActivationHessianScoresCalculatorPytorch.compute", "model_compression_toolkit/core/keras/hessian/weights_hessian_scores_calculator_keras.py:WeightsHessianScoresCalculatorKeras.compute", "model_compression_toolkit/core/keras/hessian/activation_hessian_scores_calculator_keras.py:ActivationHessianScoresCalculatorKeras.compute"]}
{"id": "C122", "title": "Every GPTQ epoch uses every sample once, with the weights of that sample", "statement": "In each epoch of GPTQ training every sample of the representative dataset is used exactly once, in batches of the size of the generator's first batch, together with all its inputs and (with sample-layer attention) the scores computed for that very sample, whatever the batch sizes and the shuffling. Datasets with a requested number of samples contain exactly the first samples of the generator, or are refused. The number of training steps is the number the schedules are built for.", "quantifier": "all generators (any batches, numbers of inputs and samples), all permutations of the samples, all batch sizes of the Hessian computation, all requested numbers of samples", "why_tests_cant": "Misaligned weights or lost samples show only for particular combinations of batch sizes, shuffles and numbers of inputs; a test fixes one combination and a trained model never reveals which weights were used.", "anchors": ["model_compression_toolkit/core/pytorch/data_util.py:FixedDatasetFromGenerator", "model_compression_toolkit/core/keras/data_util.py:FixedTFDataset", "model_compression_toolkit/core/keras/data_util.py:create_tf_dataloader", "model_compression_toolkit/gptq/pytorch/gptq_training.py:PytorchGPTQTrainer._prepare_train_dataloader_sla", "model_compression_toolkit/gptq/keras/gptq_training.py:KerasGPTQTrainer._prepare_train_dataloader_sla", "model_compression_toolkit/trainable_infrastructure/common/util.py:get_total_grad_steps"]}
{"id": "C123", "title": "The GPTQ loss weighs the errors of the layers and vanishes exactly for equal tensors", "statement": "The training loss of GPTQ is the weighted average of the errors of the compared layers, each layer's error multiplied by its own weight, independent of the batch size and the same in both frameworks. It is never negative, is zero exactly if the quantized model reproduces all compared tensors, and with sample-layer attention it does not change if all scores are scaled by one factor.", "quantifier": "all lists of tensors (any number of layers, samples and elements), all weights, all batch sizes", "why_tests_cant": "The weights interact with the shapes of the batch by broadcasting; whether every weight meets its own layer for every number of layers and batch size cannot be seen from single loss values.", "anchors": ["model_compression_toolkit/gptq/pytorch/gptq_loss.py:multiple_tensors_mse_loss", "model_compression_toolkit/gptq/pytorch/gptq_loss.py:sample_layer_attention_loss", "model_compression_toolkit/gptq/keras/gptq_loss.py:GPTQMultipleTensorsLoss", "model_compression_toolkit/gptq/keras/gptq_loss.py:sample_layer_attention_loss", "model_compression_toolkit/gptq/keras/gptq_loss.py:mse_loss", "model_compression_toolkit/gptq/common/gptq_training.py:GPTQTrainer.compute_hessian_based_weights"]}
{"id": "C124", "title": "Functional convolutions of Keras models become layers that compute the same", "statement": "A convolution or depthwise convolution written as a TensorFlow function with a constant kernel, together with an addition of a constant that follows it, is replaced by a layer that computes the same function, for every way of giving strides, dilations, padding and data format that TensorFlow accepts, or is left as it is.", "quantifier": "all calls TensorFlow accepts (any strides, dilations, padding, format, kernel shape, following bias) and all inputs", "why_tests_cant": "The functions accept many forms of each argument and the layers fewer; a test covers a few forms, while the replacement must preserve the function for every combination.", "anchors": ["model_compression_toolkit/core/keras/graph_substitutions/substitutions/conv_funcs_to_layer.py:Conv2dFuncToConv2dLayer", "model_compression_toolkit/core/keras/graph_substitutions/substitutions/conv_funcs_to_layer.py:DwConv2dFuncToDwConv2dLayer", "model_compression_toolkit/core/keras/graph_substitutions/substitutions/conv_funcs_to_layer.py:extract_bias_node_data", "model_compression_toolkit/core/keras/graph_substitutions/substitutions/dwconv_to_conv.py:DwconvToConv"]}
{"id": "C125", "title": "Matrix products with constants become dense layers with the same value", "statement": "A matrix product of a tensor with a constant is replaced by a dense layer that computes the same product, however the transpositions of the factors are given, or is left as it is.", "quantifier": "all matrices over any semiring, all ways of passing the transposition flags, both positions of the constant", "why_tests_cant": "The flags can be given by name or by position and combine with the position of the constant; wrong values appear only for particular combinations and square inputs.", "anchors": ["model_compression_toolkit/core/keras/graph_substitutions/substitutions/matmul_substitution.py:MatmulToDenseSubstitution"]}
{"id": "C126", "title": "Decomposing the attention layer of Keras keeps its value", "statement": "The layers that replace a Keras MultiHeadAttention layer compute the attention of the query, key and value of the call with the weights of the layer, for any number of heads, dimensions and attended dimensions and for any batch size; calls that cannot be decomposed are refused.", "quantifier": "all layers (heads, sizes, attended dimensions, weights, with or without bias), all shapes of query, key and value, all calls (which tensors, masks, order of the nodes), all inputs", "why_tests_cant": "Dimensions are permuted, folded, sliced and unfolded; a mistake shows only for particular sets of attended dimensions or orders of the tensors, and needs symbolic shapes to be excluded.", "anchors": ["model_compression_toolkit/core/keras/graph_substitutions/substitutions/multi_head_attention_decomposition.py:MHAParams", "model_compression_toolkit/core/keras/graph_substitutions/substitutions/multi_head_attention_decomposition.py:MultiHeadAttentionDecomposition"]}
{"id": "C127", "title": "A dense layer exported to INT8 TFLite computes what the quantized layer computes", "statement": "Exporting a quantized Keras model in INT8 TFLite format replaces every dense layer by a point-wise convolution between two reshapes; for every quantized kernel, bias, activation and input these layers compute what the quantized dense layer computes.", "quantifier": "all dense layers (units, kernel, bias, activation, quantizer per tensor or per channel), all shapes of inputs, all inputs", "why_tests_cant": "The replacement is compared with the layer in a few shapes only; that reshapes, channel axes and quantizer configurations fit together for inputs of every rank and for every quantizer is not settled by samples.", "anchors": ["model_compression_toolkit/exporter/model_exporter/keras/int8_tflite_exporter.py:INT8TFLiteExporter"]}
{"id": "C128", "title": "A Keras model exported in fake-quant format computes what the quantized model computes", "statement": "Exporting a quantized Keras model in fake-quant format gives a model with plain layers, whose weights are the quantized weights, and fake-quant operations in place of activation quantizers; it computes the same values as the quantized model on every input. A layer that the given check refuses is not exported, and only the documented pairs of serialization and quantization format are accepted.", "quantifier": "all quantized models (layers, names, quantizers, connections), all checks, all formats, all inputs", "why_tests_cant": "The weights are passed through a flat list that is filtered by name and distributed again, so one layer can spoil all others; equality for every set of layers and names needs induction over the model.", "anchors": ["model_compression_toolkit/exporter/model_exporter/keras/fakely_quant_keras_exporter.py:FakelyQuantKerasExporter", "model_compression_toolkit/exporter/model_exporter/keras/keras_export_facade.py:keras_export_model"]}
{"id": "C129", "title": "A PyTorch model exported to TorchScript or ONNX computes what the quantized model computes", "statement": "The model that is written by a PyTorch export (TorchScript or ONNX, fake-quant format or with quantization operators) computes on every input what the quantized model computes; a module that the given check refuses is not exported, and the written model has one name per input.", "quantifier": "all quantized models (modules, reused modules, quantized attributes and constants, bit widths), all checks, all forms of the representative dataset, all inputs", "why_tests_cant": "Weights are replaced in place in modules that several names may share, and the enumeration of modules lists shared ones once; that nothing is lost or quantized twice has to hold for every way of sharing.", "anchors": ["model_compression_toolkit/exporter/model_exporter/pytorch/base_pytorch_exporter.py:BasePyTorchExporter", "model_compression_toolkit/exporter/model_exporter/pytorch/fakely_quant_onnx_pytorch_exporter.py:FakelyQuantONNXPyTorchExporter", "model_compression_toolkit/exporter/model_exporter/pytorch/fakely_quant_torchscript_pytorch_exporter.py:FakelyQuantTorchScriptPyTorchExporter"]}
{"id": "C130", "title": "Per-channel weight parameters belong to their channel, from selection to export", "statement": "Parameters selected per channel (thresholds or ranges, for every method and axis, or with the axis chosen automatically) are computed from the values of one channel only, and every element of the weights is quantized with the parameter of the channel it lies in; without clipping no element leaves its range. The exported quantizer receives the parameters in the order of the channels and the axis they belong to, so that it quantizes every element with the same parameter.", "quantifier": "all weights (any number of dimensions and sizes), all channel axes, all bit widths, all error functions, both frameworks", "why_tests_cant": "Channels are brought to the front, flattened, searched, reshaped, broadcast, flattened again and given to a quantizer with an axis; that every element meets its own parameter must hold for all ranks and axes.", "anchors": ["model_compression_toolkit/core/common/quantization/quantizers/quantizers_helpers.py:reshape_tensor_for_per_channel_search", "model_compression_toolkit/core/common/quantization/quantizers/quantizers_helpers.py:get_output_shape", "model_compression_toolkit/core/common/quantization/quantization_params_generation/qparams_search.py:qparams_selection_tensor_search", "model_compression_toolkit/core/common/quantization/quantization_params_generation/power_of_two_selection.py:power_of_two_selection_tensor", "model_compression_toolkit/core/common/quantization/quantization_params_generation/symmetric_selection.py:symmetric_selection_tensor", "model_compression_toolkit/core/common/quantization/quantization_params_generation/uniform_selection.py:uniform_selection_tensor", "model_compression_toolkit/exporter/model_wrapper/keras/builder/node_to_quantizer.py:get_weights_quantizer_for_node", "model_compression_toolkit/exporter/model_wrapper/pytorch/builder/node_to_quantizer.py:get_weights_inferable_quantizer_kwargs"]}
{"id": "C131", "title": "Hessian-weighted parameter selection weighs every element by its own score", "statement": "With the HMSE error method the parameter selected for a tensor, or for each channel, is the candidate with the smallest mean squared quantization error of that tensor or channel, in which every squared difference is weighted by the Hessian score of the same element.", "quantifier": "all weights and scores (any shape), all channel axes, all bit widths, thresholds and ranges, all search schedules", "why_tests_cant": "A selection that ignores or permutes the scores, or ties channels together, still returns plausible parameters; only comparison with the minimum over all candidates, for every score tensor and axis, reveals it.", "anchors": ["model_compression_toolkit/core/common/quantization/quantization_params_generation/error_functions.py:_hmse_error_function_wrapper", "model_compression_toolkit/core/common/quantization/quantization_params_generation/error_functions.py:get_threshold_selection_tensor_error_function", "model_compression_toolkit/core/common/similarity_analyzer.py:compute_mse", "model_compression_toolkit/core/common/quantization/quantization_params_generation/qparams_search.py:qparams_selection_tensor_search", "model_compression_toolkit/core/common/quantization/quantization_params_generation/qparams_search.py:qparams_symmetric_iterative_minimization", "model_compression_toolkit/core/common/quantization/quantization_params_generation/qparams_search.py:iterative_uniform_dynamic_range_search"]}
{"id": "C132", "title": "A uniform weight quantizer trained by QAT quantizes every channel by its own range and is exported unchanged", "statement": "In quantization-aware training with uniform weight quantizers (straight-through or learned range, both frameworks, per tensor or per channel along any axis) every weight is mapped to the value post-training quantization with the range of its channel would give it, and the quantizer exported after training maps every weight to the value it had in training.", "quantifier": "all weights (any number of dimensions and sizes), all channel axes, all ranges, all bit widths", "why_tests_cant": "Ranges are adjusted, transposed or broadcast in training and adjusted again at export, by different operations of different libraries; that they agree for all weights, also between two values of the grid, and for every axis is not visible in samples.", "anchors": ["model_compression_toolkit/qat/keras/quantizer/ste_rounding/uniform_ste.py:STEUniformWeightQATQuantizer", "model_compression_toolkit/qat/keras/quantizer/lsq/uniform_lsq.py:LSQUniformWeightQATQuantizer", "model_compression_toolkit/qat/pytorch/quantizer/ste_rounding/uniform_ste.py:STEUniformWeightQATQuantizer", "model_compression_toolkit/qat/pytorch/quantizer/lsq/uniform_lsq.py:LSQUniformWeightQATQuantizer", "model_compression_toolkit/trainable_infrastructure/pytorch/quantizer_utils.py:uniform_lsq_quantizer"]}
{"id": "C133", "title": "Calculated parameters belong to their node, weight and candidate", "statement": "Calculating the quantization parameters of a model gives every quantized weight, for every candidate bit width, the parameters selected from its own values with the settings of its own configuration (the Hessian-weighted error only for kernels, the mean squared error for other weights), and every quantized activation those selected from the statistics of its node; configurations of other weights and of nodes that were not requested stay as they are.", "quantifier": "all models (nodes, names and values of weights, named and positional, candidates), all lists of requested nodes, all selection functions", "why_tests_cant": "Weights and configurations are looked up by parts of their names; which of them meet depends on all names of a node, and a lookup that fails or finds another weight needs names that tests do not use.", "anchors": ["model_compression_toolkit/core/common/quantization/quantization_params_generation/qparams_computation.py:calculate_quantization_params", "model_compression_toolkit/core/common/quantization/quantization_params_generation/qparams_weights_computation.py:get_weights_qparams", "model_compression_toolkit/core/common/quantization/quantization_params_generation/qparams_activations_computation.py:get_activations_qparams", "model_compression_toolkit/core/common/graph/base_node.py:get_weights_by_keys", "model_compression_toolkit/core/common/quantization/node_quantization_config.py:get_attr_config"]}
{"id": "C134", "title": "Known bounds of layer outputs are true", "statement": "When the toolkit assumes a minimum or a maximum for the outputs of a layer because of its type, no input to the layer gives an output beyond it, so that the range reported for its activations contains every value collected.", "quantifier": "all layers and operators in the tables of both frameworks with all their attributes, all real inputs, all collected batches", "why_tests_cant": "The bounds are claims about functions on all real numbers (the minimum of x times sigmoid of x, of GELU to four digits), and they are looked up by the type of the layer, while the truth depends on its attributes.", "anchors": ["model_compression_toolkit/core/keras/default_framework_info.py:KerasInfo.get_layer_min_max", "model_compression_toolkit/core/pytorch/default_framework_info.py:PyTorchInfo", "model_compression_toolkit/core/keras/keras_node_prior_info.py:_get_min_max_outputs", "model_compression_toolkit/core/common/node_prior_info.py:NodePriorInfo", "model_compression_toolkit/core/common/model_collector.py:create_stats_collector_for_node"]}
{"id": "C135", "title": "Results do not depend on earlier calls", "statement": "Quantizing a model gives the same result, or fails in the same way, whatever was quantized, pruned, exported or analysed earlier in the process, also when a configuration object or the default configuration was used by an earlier call.  A report comparing two models works with the tables of its own framework.", "quantifier": "all histories of calls of both frameworks and all facades, all configuration objects shared between calls, all targets, all behaviours of the passes", "why_tests_cant": "Tests run one call in a fresh process or build a fresh configuration for every call; the claim is about every sequence of earlier calls, failing ones included, through objects that survive a call.", "anchors": ["model_compression_toolkit/core/runner.py:core_runner", "model_compression_toolkit/core/common/quantization/core_config.py:CoreConfig", "model_compression_toolkit/core/common/mixed_precision/mixed_precision_quantization_config.py:MixedPrecisionQuantizationConfig.set_mixed_precision_enable", "model_compression_toolkit/core/common/framework_info.py:set_fw_info", "model_compression_toolkit/core/keras/default_framework_info.py:set_keras_info", "model_compression_toolkit/ptq/pytorch/quantization_facade.py:pytorch_post_training_quantization", "model_compression_toolkit/xquant/pytorch/facade_xquant_report.py:xquant_report_pytorch_experimental"]}
{"id": "C136", "title": "Second moment correction changes what it is meant to change", "statement": "With second moment correction enabled, every quantized layer with a kernel still gets exactly one of the two corrections; the statistics taken over the calibration data replace those of the inserted normalizations and of nothing else; and they are the statistics of the model as it is used for inference.", "quantifier": "all models (any graph of layers, any functions computed by them), all calibration datasets, all initial statistics and both frameworks", "why_tests_cant": "The outcome is a recurrence over all batches in which every normalization feeds the next; a test sees one model, where the layers that lose their correction, or the normalizations that are overwritten, may not occur.", "anchors": ["model_compression_toolkit/core/common/substitutions/batchnorm_reconstruction.py:BatchNormalizationReconstruction.substitute", "model_compression_toolkit/core/common/statistics_correction/apply_second_moment_correction_to_graph.py:apply_second_moment_correction_to_graph", "model_compression_toolkit/core/keras/statistics_correction/apply_second_moment_correction.py:keras_apply_second_moment_correction", "model_compression_toolkit/core/pytorch/statistics_correction/apply_second_moment_correction.py:pytorch_apply_second_moment_correction", "model_compression_toolkit/core/common/statistics_correction/compute_bias_correction_of_graph.py:compute_bias_correction_of_graph", "model_compression_toolkit/core/common/statistics_correction/apply_bias_correction_to_graph.py:apply_bias_correction_to_graph"]}
{"id": "C137", "title": "Saved target platform descriptions load unchanged", "statement": "Exporting a target platform description to a file and loading the file gives an equal description, for every description the constructors or the editing functions can produce; a description of an older schema gives the same result whether it is passed as an object or as a file.", "quantifier": "all target platform descriptions of both schemas (any operator sets, options, attribute names, fusing patterns), all file names", "why_tests_cant": "Round trips must hold for every nesting of optional fields, unions and dictionaries; the unit tests save a few descriptions of the current schema.", "anchors": ["model_compression_toolkit/target_platform_capabilities/tpc_io_handler.py:load_target_platform_capabilities", "model_compression_toolkit/target_platform_capabilities/tpc_io_handler.py:export_target_platform_capabilities", "model_compression_toolkit/target_platform_capabilities/schema/v1.py:QuantizationConfigOptions", "model_compression_toolkit/target_platform_capabilities/schema/v2.py:TargetPlatformCapabilities", "model_compression_toolkit/target_platform_capabilities/schema/schema_compatability.py:_schema_v1_to_v2"]}
{"id": "C138", "title": "Reshapes with computed sizes become static reshapes with the same result", "statement": "Every reshape or view of a PyTorch model gets fixed sizes with the first one left open, and the nodes that only computed the sizes leave the model; the reshape gives the same shape as before for every input the model accepts, all outputs keep their values, nothing that an output needs is removed, and the conversion raises no error.", "quantifier": "all ways to compute the sizes from the shape of the tensor, all shapes at tracing and at inference, all graphs around the reshape, all forms of the call", "why_tests_cant": "It must hold for every batch and image size, not only the traced one, and for every graph of size computations; tests convert a few models and run them on the traced shape.", "anchors": ["model_compression_toolkit/core/pytorch/graph_substitutions/substitutions/reshape_with_static_shapes.py:ReshapeWithStaticShapes", "model_compression_toolkit/core/pytorch/graph_substitutions/substitutions/reshape_with_static_shapes.py:clean_graph_from_nodes_without_out_edges", "model_compression_toolkit/core/common/graph/base_graph.py:Graph.remove_node", "model_compression_toolkit/core/pytorch/reader/graph_builders.py:edges_builder", "model_compression_toolkit/core/pytorch/back2framework/pytorch_model_builder.py:_merge_inputs"]}
{"id": "C139", "title": "Functional convolutions and transposed convolutions become layers that compute the same", "statement": "A call of the functional conv2d or conv_transpose2d with constant kernel becomes a layer with the same kernel, bias, stride, padding, dilation and groups; a transposed convolution keeps the output size it had, also when it was called with an output size.", "quantifier": "all ways to write the call (positions and keywords, in any order), all kernels, biases and options, all strides, dilations, paddings and image sizes", "why_tests_cant": "The ways to pass seven parameters by position or keyword, with all their values, cannot be listed; tests use a call or two.", "anchors": ["model_compression_toolkit/core/pytorch/graph_substitutions/substitutions/const_holder_conv.py:FunctionalConvSubstitution", "model_compression_toolkit/core/pytorch/graph_substitutions/substitutions/convtranspose_dynamic_padding.py:ConvtransposeDynamicPadding", "model_compression_toolkit/core/pytorch/back2framework/instance_builder.py:node_builder", "model_compression_toolkit/core/pytorch/reader/graph_builders.py"]}
{"id": "C140", "title": "Tensors that are only concatenated get the threshold of the concatenation", "statement": "When thresholds of concatenations are updated, exactly the layers whose single use is a concatenation with one candidate and a threshold get this threshold; nothing else changes, layers with several candidates or uniform quantization keep their quantizers, the order of the concatenations does not matter, and afterwards the concatenation does not round its inputs again.", "quantifier": "all graphs with nested and shared concatenations, all orders of visiting them, all candidates, thresholds and values", "why_tests_cant": "Chains and shares of concatenations and the values that pass through both quantizers are unbounded; tests look at one small network.", "anchors": ["model_compression_toolkit/core/keras/graph_substitutions/substitutions/concat_threshold_update.py:ConcatThresholdUpdate", "model_compression_toolkit/core/pytorch/graph_substitutions/substitutions/concat_threshold_update.py:ConcatThresholdUpdate", "model_compression_toolkit/core/common/substitutions/apply_substitutions.py:substitute"]}
{"id": "C141", "title": "Layers are prepared for quantization aware training with the quantizers their settings ask for", "statement": "When a model is prepared for quantization aware training, each layer gets a trainable quantizer of the chosen training method for its kernel and one for its output, with the method, bits, parameters, axis and granularity that post-training quantization found, exactly where these settings ask for quantization; every offered training method and quantization method is supported; and at the end of the training each weight of a layer gets its own trained value.", "quantifier": "all layers with any weights and settings, all training methods for weights and activations, both frameworks, all lists of named variables of a trained layer", "why_tests_cant": "Settings per weight, method and framework combine without bound, and the variables of a wrapped layer are matched by the ends of their names; tests train a few convolutions with STE.", "anchors": ["model_compression_toolkit/qat/common/qat_config.py:is_qat_applicable", "model_compression_toolkit/qat/keras/quantization_facade.py:qat_wrapper", "model_compression_toolkit/qat/pytorch/quantization_facade.py:qat_wrapper", "model_compression_toolkit/qat/keras/quantizer/quantization_builder.py:quantization_builder", "model_compression_toolkit/qat/pytorch/quantizer/quantization_builder.py:quantization_builder", "model_compression_toolkit/trainable_infrastructure/common/get_quantizers.py:get_trainable_quantizer_class", "model_compression_toolkit/trainable_infrastructure/common/get_quantizer_config.py:get_trainable_quantizer_weights_config", "model_compression_toolkit/trainable_infrastructure/keras/quantize_wrapper.py:KerasTrainableQuantizationWrapper"]}
{"id": "C142", "title": "The rounding regularization of GPTQ pushes every weight to a definite rounding, layer by layer with its own score", "statement": "With soft rounding, each step of GPTQ adds a term that is zero exactly when every trained weight of the scored layers is definitely rounded up or down, never grows when a weight moves away from the middle, lies between zero and the factor times the number of weights, uses the exponent of its own step, and weighs every layer by the score of that layer relative to the largest one.", "quantifier": "all numbers and sizes of layers, all soft targets, scores, factors and numbers of steps, all graphs and orders of their layers", "why_tests_cant": "Weights, layers, scores and steps are unbounded reals and lists, and which score meets which layer depends on the shape of the graph; tests use small chains of layers.", "anchors": ["model_compression_toolkit/gptq/pytorch/quantizer/soft_rounding/soft_quantizer_reg.py:SoftQuantizerRegularization", "model_compression_toolkit/gptq/keras/quantizer/soft_rounding/soft_quantizer_reg.py:SoftQuantizerRegularization", "model_compression_toolkit/gptq/common/gptq_graph.py:get_compare_points", "model_compression_toolkit/gptq/keras/gptq_training.py:compute_gradients", "model_compression_toolkit/gptq/pytorch/gptq_training.py:compute_gradients"]}
{"id": "C143", "title": "The output losses of data generation fall as the outputs of the model get a wider range", "statement": "For every batch and every list of outputs, the negative loss is minus the sum over the outputs of the mean range of the images and the inverse loss is the sum of the inverses of the mean ranges, so that both fall when the range of an image widens; the regularized loss compares the largest and the smallest output of an image with the bound given by the weights of their own class and the input of the layer, and is lowest at the bound.", "quantifier": "all numbers of outputs, images and classes, all real values of outputs, weights and inputs, all positive eps", "why_tests_cant": "Outputs, images and classes are unbounded lists of reals; the tests only check that data generation runs.", "anchors": ["model_compression_toolkit/data_generation/pytorch/optimization_functions/output_loss_functions.py:inverse_min_max_diff", "model_compression_toolkit/data_generation/pytorch/optimization_functions/output_loss_functions.py:regularized_min_max_diff", "model_compression_toolkit/data_generation/keras/optimization_functions/output_loss_functions.py:inverse_min_max_diff", "model_compression_toolkit/data_generation/keras/keras_data_generation.py"]}
{"id": "C144", "title": "Each output of a network is regularized in data generation with the linear layer that computes it", "statement": "Data generation finds for the outputs of a network the last linear layers before them: the search ends on every network, finds only layers from which an output comes without another linear layer between, finds one if there is one, and the regularized loss compares each output with the weights and the input of its own layer.", "quantifier": "all networks (finite acyclic graphs of any size), all lists of outputs, all Keras models", "why_tests_cant": "Networks, their outputs and the way back to the layers are unbounded; the tests use a network with one output.", "anchors": ["model_compression_toolkit/data_generation/pytorch/model_info_exctractors.py:PytorchActivationExtractor", "model_compression_toolkit/data_generation/keras/model_info_exctractors.py:KerasActivationExtractor", "model_compression_toolkit/data_generation/pytorch/optimization_functions/output_loss_functions.py:regularized_min_max_diff"]}
{"id": "C145", "title": "The quantizers of a saved model of quantization aware training are loaded as they were", "statement": "When a Keras model prepared for quantization aware training is saved and loaded, each of its quantizers has the same method, number of bits, channel axis, flags and minimal threshold, and parameters of the same names and numbers.", "quantifier": "all quantizers of weights and activations with any parameters (numbers and arrays of any shape), all lists of candidates, TensorFlow before and after 2.13", "why_tests_cant": "Parameters, arrays and candidates are unbounded; the tests save single models without candidates.", "anchors": ["model_compression_toolkit/trainable_infrastructure/keras/config_serialization.py:config_serialization", "model_compression_toolkit/trainable_infrastructure/keras/config_serialization.py:config_deserialization", "model_compression_toolkit/trainable_infrastructure/keras/base_keras_quantizer.py:BaseKerasTrainableQuantizer", "model_compression_toolkit/qat/keras/quantizer/quantization_builder.py:quantization_builder"]}
{"id": "C146", "title": "Resource utilization is consistent across bit-width modes and selections of tensors", "statement": "For every selection of tensors, the weights, activation and bit operation totals of any bit-width configuration lie between those of the smallest and of the largest candidates, and below the float model when no candidate exceeds 32 bits; the bytes of quantized weights are those of the configurable plus the non-configurable ones, all weights add 4 bytes per float element; no tensor exceeds the total; in a single-precision model the default mode equals every other quantized mode; and what is not quantized costs no bit operations in a selection of quantized tensors.", "quantifier": "all graphs with any candidates, cuts and configurations, all five selections and all bit-width modes", "why_tests_cant": "Graphs, candidates and configurations are unbounded; the tests compute fixed small graphs in some combinations of mode and selection.", "anchors": ["model_compression_toolkit/core/common/mixed_precision/resource_utilization_tools/resource_utilization_calculator.py:ResourceUtilizationCalculator", "model_compression_toolkit/core/common/mixed_precision/resource_utilization_tools/resource_utilization_calculator.py:BitwidthMode", "model_compression_toolkit/core/common/mixed_precision/resource_utilization_tools/resource_utilization_calculator.py:TargetInclusionCriterion", "model_compression_toolkit/core/common/mixed_precision/resource_utilization_tools/resource_utilization_data.py:compute_resource_utilization_data"]}
{"id": "C147", "title": "The ways to write one operation get the same quantization options", "statement": "For every target platform that can be attached to a framework, a layer, its functional form, its operator and its activation name get the same quantization options: those the platform has for the operation, or the default options when the platform has none.", "quantifier": "all target platforms, all nodes written in the listed ways with any attributes and arguments", "why_tests_cant": "Target platforms are written by users and unbounded; the tests check the options of single layers under the shipped platforms.", "anchors": ["model_compression_toolkit/target_platform_capabilities/targetplatform2framework/attach2keras.py:AttachTpcToKeras", "model_compression_toolkit/target_platform_capabilities/targetplatform2framework/attach2pytorch.py:AttachTpcToPytorch", "model_compression_toolkit/core/graph_prep_runner.py", "model_compression_toolkit/core/common/graph/functional_node.py:FunctionalNode.is_match_type"]}
{"id": "C148", "title": "One pass of a substitution handles all its matches", "statement": "Folding the batch normalisations of a model and removing its identity layers, each in one pass over the matches found before the first of them is substituted, succeeds, substitutes every match whose two layers are read by nobody else, and leaves the function of the model unchanged, whatever the number and the order of the matches.", "quantifier": "all graphs, all layers, any number of matches in any order, shared and reused layers, chains", "why_tests_cant": "The number of matches and the ways they can touch each other are unbounded; tests fold one or two batch normalisations.", "anchors": ["model_compression_toolkit/core/common/substitutions/apply_substitutions.py:substitute", "model_compression_toolkit/core/common/graph/graph_searches.py:GraphSearches._edge_filter", "model_compression_toolkit/core/common/substitutions/batchnorm_folding.py", "model_compression_toolkit/core/common/substitutions/remove_identity.py"]}
{"id": "C149", "title": "Prepared layers have the settings that were chosen for them", "statement": "After a model is prepared for quantization every layer has candidates left, exactly one without mixed precision; all of them have the bit widths manually chosen last for the output and for each weight of the layer, and a layer without choices has, without mixed precision, the base settings of the platform, in which at most the settings of unquantized tensors changed. The settings of a layer are one of the combinations the platform offers.", "quantifier": "all platforms, all layers and weights, all histories of manual choices, with and without mixed precision", "why_tests_cant": "Choices, candidates and weights combine without bound, and what a choice means depends on three later stages.", "anchors": ["model_compression_toolkit/core/graph_prep_runner.py:get_finalized_graph", "model_compression_toolkit/core/common/quantization/set_node_quantization_config.py:set_manual_bitwidth_config", "model_compression_toolkit/core/common/quantization/filter_nodes_candidates.py:filter_nodes_candidates", "model_compression_toolkit/core/common/quantization/candidate_node_quantization_config.py:NodeQuantizationConfig"]}
{"id": "C150", "title": "The numbers of the candidates mean the same in the measured model", "statement": "In a mixed-precision search the candidate with a number in a layer is the candidate with this number in the layer of the model whose distances are measured, and the measured model can be built with every layer whose candidates differ in the numbers of bits of the kernel or the output.", "quantifier": "all layers, any number of candidates with any bits and methods, with and without a kernel, quantized or not, all modes of the output", "why_tests_cant": "The combinations of candidates are unbounded; tests use platforms whose candidates come in a fixed grid of bits.", "anchors": ["model_compression_toolkit/core/common/mixed_precision/configurable_quantizer_utils.py:verify_candidates_descending_order", "model_compression_toolkit/core/pytorch/back2framework/mixed_precision_model_builder.py:MixedPrecisionPyTorchModelBuilder", "model_compression_toolkit/core/keras/back2framework/mixed_precision_model_builder.py:MixedPrecisionKerasModelBuilder", "model_compression_toolkit/core/common/graph/base_node.py:BaseNode.sort_node_candidates"]}
{"id": "C151", "title": "The errors by which activation ranges are chosen measure what quantization changes", "statement": "The error of a quantization range on a histogram never fails for a proper range, is not negative, and is zero exactly when the range leaves the data unchanged; for the Kullback-Leibler error it is the divergence of two distributions, so ranges that clip the data have a larger error than ranges that do not.", "quantifier": "all histograms with any edges and counts, all quantized edges, all ranges, all exponents", "why_tests_cant": "Errors are compared for a few random tensors in tests; the claims are about all histograms and all ranges.", "anchors": ["model_compression_toolkit/core/common/quantization/quantization_params_generation/error_functions.py:_kl_error_histogram", "model_compression_toolkit/core/common/quantization/quantization_params_generation/error_functions.py:_smooth_distribution", "model_compression_toolkit/core/common/quantization/quantization_params_generation/error_functions.py:_compute_clipped_counts", "model_compression_toolkit/core/common/quantization/quantization_params_generation/error_functions.py:_mse_error_histogram"]}
{"id": "C152", "title": "Weights written by name are the weights of the layer that is built", "statement": "A weight of a layer that is read after it was written is what was written, writing it changes no other weight, and the layer built from the graph has the written weights; so quantizing replaces exactly the weights that are to be quantized, a corrected bias is the bias of the layer, and after GPTQ every trained layer has its trained kernel and bias and all other layers keep theirs.", "quantifier": "all layers with any weights and any names, all sequences of trained layers", "why_tests_cant": "Tests use layers with the usual names; whether a name is found depends on all names of the layer and on the name of the layer itself.", "anchors": ["model_compression_toolkit/core/common/graph/base_node.py:BaseNode.get_weights_by_keys", "model_compression_toolkit/core/common/graph/base_node.py:BaseNode.set_weights_by_keys", "model_compression_toolkit/core/common/quantization/quantize_graph_weights.py:quantize_graph_weights", "model_compression_toolkit/gptq/keras/gptq_training.py:KerasGPTQTrainer.update_graph", "model_compression_toolkit/gptq/pytorch/gptq_training.py:PytorchGPTQTrainer.update_graph", "model_compression_toolkit/core/common/statistics_correction/apply_bias_correction_to_graph.py:_apply_bias_correction_to_node"]}
{"id": "C153", "title": "Scale equalization knows the statistics of rectified normal outputs", "statement": "For normally distributed outputs with any mean and any deviation, the mean and the second moment scale equalization computes are those of the outputs after the ReLU, the factor of the channel is the smaller of one and the inverse of their standard deviation, and after scaling that deviation is at most one; and the mean and deviation it takes from a batch normalization are those of its outputs.", "quantifier": "all means, all deviations; for batch normalizations all distributions of their inputs", "why_tests_cant": "Tests compare a few numbers with formulas; that the formulas are integrals over a distribution, for all parameters, and where they give no number, is a theorem.", "anchors": ["model_compression_toolkit/core/common/substitutions/scale_equalization.py:fixed_mean_after_relu", "model_compression_toolkit/core/common/substitutions/scale_equalization.py:fixed_second_moment_after_relu", "model_compression_toolkit/core/common/substitutions/scale_equalization.py:calculate_scale_correction", "model_compression_toolkit/core/pytorch/pytorch_node_prior_info.py:_get_mean_std_outputs"]}
{"id": "C154", "title": "A layer is given the statistics of the tensors it takes", "statement": "Whatever statistics are collected or set for the outputs of layers, in whatever order, each input of each layer shows the statistics of the output that feeds it; and after shift negative correction the statistics of the layers behind the activation are those of the shifted values.", "quantifier": "all graphs, all numbers of outputs, all sequences of calls that set statistics, all shifts, all numbers of candidates", "why_tests_cant": "Tests look at small models in which each output has one consumer; the claim is about all graphs and all histories of calls.", "anchors": ["model_compression_toolkit/core/common/graph/base_graph.py:set_out_stats_collector_to_node", "model_compression_toolkit/core/common/graph/base_graph.py:get_in_stats_collector", "model_compression_toolkit/core/common/graph/base_graph.py:shift_stats_collector", "model_compression_toolkit/core/common/model_collector.py:ModelCollector.__init__", "model_compression_toolkit/core/common/substitutions/shift_negative_activation.py:shift_negative_function"]}
{"id": "C155", "title": "Shift negative correction corrects the linear layer an activation leads to, and no other", "statement": "An activation is shifted exactly when none of its candidates is quantized uniformly, its outputs are quantized and a chain of layers, each the only consumer of the one before, all passing shifts on and at most one of them padding, leads from it to a linear layer that does not pad as well; that linear layer is the one corrected, no linear layer is corrected for two activations, and all its calls compute what they did.", "quantifier": "all graphs, all classifications of layers, all kernels, inputs and shifts", "why_tests_cant": "Tests run a few chains; that the search finds exactly the chains described, on all graphs, and what happens to layers that are called several times, is a theorem.", "anchors": ["model_compression_toolkit/core/common/substitutions/shift_negative_activation.py:get_next_nodes_to_correct", "model_compression_toolkit/core/common/substitutions/shift_negative_activation.py:apply_shift_negative_correction", "model_compression_toolkit/core/keras/back2framework/instance_builder.py:OperationHandler.get_node_op_function", "model_compression_toolkit/core/pytorch/back2framework/pytorch_model_builder.py:PytorchModel._add_modules"]}
{"id": "C156", "title": "GPTQ training changes exactly the trained parameters, each by its optimizer and its gradient", "statement": "For every loss, every optimizer, every number of epochs and every batches, training a quantized model changes exactly the parameters handed to an optimizer; per batch all of them change at once, each by its own optimizer and by its own gradient of this batch's loss at the values before it, in PyTorch and in Keras alike.", "quantifier": "all parameters, optimizers, losses, epochs and batches", "why_tests_cant": "Tests check that some weights change; that the gradients cut out of one list are those of the right parameters, and that none of an earlier batch is left, is an invariant over all batches.", "anchors": ["model_compression_toolkit/gptq/pytorch/gptq_training.py:PytorchGPTQTrainer.train", "model_compression_toolkit/gptq/pytorch/gptq_training.py:PytorchGPTQTrainer.micro_training_loop", "model_compression_toolkit/gptq/keras/gptq_training.py:KerasGPTQTrainer.compute_gradients", "model_compression_toolkit/gptq/keras/gptq_training.py:KerasGPTQTrainer.micro_training_loop", "model_compression_toolkit/gptq/pytorch/quantization_facade.py:get_pytorch_gptq_config"]}
{"id": "C157", "title": "Corrections hold for every call of a layer", "statement": "When a layer is called several times, with inputs of different statistics, bias correction, activation bias correction and scale equalization leave every one of its calls unbiased or unchanged, as they do for a layer that is called once.", "quantifier": "all layers, all numbers of calls, all quantized kernels, statistics, scales and inputs", "why_tests_cant": "Tests correct models whose layers are called once; what each call computes after a correction, for all statistics, is an identity between sums.", "anchors": ["model_compression_toolkit/core/common/statistics_correction/apply_bias_correction_to_graph.py:apply_bias_correction_to_graph", "model_compression_toolkit/core/common/statistics_correction/apply_activation_bias_correction_to_graph.py:apply_activation_bias_correction_to_graph", "model_compression_toolkit/core/common/substitutions/scale_equalization.py:BaseScaleEqualization.substitute", "model_compression_toolkit/core/keras/back2framework/instance_builder.py:OperationHandler.get_node_op_function", "model_compression_toolkit/core/pytorch/back2framework/pytorch_model_builder.py:PytorchModel._add_modules"]}
{"id": "C158", "title": "A model with folded normalizations can be built", "statement": "Whatever normalization layers are folded into linear layers, the remaining model can be built, and each remaining call runs the layer it ran, also when a normalization is called several times.", "quantifier": "all models, all layers with any number of calls, all choices of folded calls", "why_tests_cant": "Tests fold normalizations that are called once; for which patterns of calls a model can no longer be built is a statement about all of them.", "anchors": ["model_compression_toolkit/core/common/substitutions/batchnorm_folding.py:BatchNormalizationFolding.substitute", "model_compression_toolkit/core/common/substitutions/batchnorm_folding.py:BatchNormalizationForwardFolding.substitute", "model_compression_toolkit/core/keras/reader/node_builder.py:build_node", "model_compression_toolkit/core/keras/back2framework/instance_builder.py:instance_builder", "model_compression_toolkit/core/pytorch/back2framework/pytorch_model_builder.py:PytorchModel._add_modules"]}
{"id": "C159", "title": "GPTQ learns from the float network", "statement": "The network that GPTQ trains is the float network with exactly the statistics corrections that are switched on, each applied once, and the network whose outputs it is trained to reproduce is the float network without them.", "quantifier": "all graphs, all combinations of corrections, whatever the corrections do", "why_tests_cant": "Tests run GPTQ with the default corrections and look at the trained network only; which of two aliased graphs a correction changes, for every combination, is a statement about references.", "anchors": ["model_compression_toolkit/gptq/runner.py:gptq_runner", "model_compression_toolkit/core/common/statistics_correction/statistics_correction.py:apply_statistics_correction", "model_compression_toolkit/core/common/statistics_correction/apply_bias_correction_to_graph.py:apply_bias_correction_to_graph", "model_compression_toolkit/core/common/statistics_correction/apply_activation_bias_correction_to_graph.py:apply_activation_bias_correction_to_graph", "model_compression_toolkit/gptq/common/gptq_training.py:GPTQTrainer.__init__"]}
{"id": "C160", "title": "Channel importance is that of the channel, whatever its layout and scale", "statement": "The importance of a channel or group for pruning is its mean Hessian score times the sum of the squares of its own weights over their number; it does not depend on the axis of the channels or the order of the weights, nor on the scale of a channel, so models that compute the same up to scales of channels are pruned alike.", "quantifier": "all kernels of any shape and axis, all Hessian scores of any number of images, all groups, all scales", "why_tests_cant": "Tests prune a few layers of one layout; independence of layout and scale ranges over all kernels and scales.", "anchors": ["model_compression_toolkit/core/common/pruning/importance_metrics/lfh_importance_metric.py:LFHImportanceMetric.get_entry_node_to_simd_score", "model_compression_toolkit/core/common/pruning/importance_metrics/lfh_importance_metric.py:LFHImportanceMetric._get_squaredl2norm", "model_compression_toolkit/core/common/pruning/importance_metrics/lfh_importance_metric.py:LFHImportanceMetric._count_oc_nparams"]}
{"id": "C161", "title": "Folding respects the axis of a normalization", "statement": "A Keras batch normalization after a convolution is folded, or left alone, so that the model computes what it computed, whatever the axis of the normalization.", "quantifier": "all convolutions, all normalizations with any parameters along any axis, all inputs", "why_tests_cant": "Tests normalize along the channels; for which parameters and axes the folded layer is right for all inputs is a statement about all of them.", "anchors": ["model_compression_toolkit/core/common/substitutions/batchnorm_folding.py:BatchNormalizationFolding.substitute", "model_compression_toolkit/core/keras/graph_substitutions/substitutions/batchnorm_folding.py:update_kernel_for_bn_folding_fn", "model_compression_toolkit/core/keras/graph_substitutions/substitutions/batchnorm_folding.py:batchnorm_folding_node_matchers"]}
{"id": "C162", "title": "Layers that do not influence the outputs get Hessian scores zero", "statement": "A request for Hessian scores of activations succeeds whenever the dataset has enough images, and returns for every layer one score per image: the estimate for layers on which an output depends, and zero for layers without a derivative, however the dataset is divided into batches.", "quantifier": "all lists of layers with and without a derivative, all numbers of images, all divisions of the dataset into batches", "why_tests_cant": "Tests request layers that have derivatives; the shapes of the scores of the others depend on the framework, on the batches and on the other layers of the request.", "anchors": ["model_compression_toolkit/core/common/hessian/hessian_info_service.py:HessianInfoService.fetch_hessian", "model_compression_toolkit/core/common/hessian/hessian_info_service.py:HessianCache.update", "model_compression_toolkit/core/pytorch/hessian/activation_hessian_scores_calculator_pytorch.py:ActivationHessianScoresCalculatorPytorch.compute", "model_compression_toolkit/core/keras/hessian/activation_hessian_scores_calculator_keras.py:ActivationHessianScoresCalculatorKeras.compute"]}
