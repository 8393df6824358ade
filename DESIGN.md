# Formal model of sony/model_optimization (MCT) in Lean 4

## 1. What this is

`/verif/lean` holds a hand-written Lean 4 model of parts of `model_compression_toolkit`, function by function, and
machine-checked proofs about it. Every definition carries the file and lines it models. Nothing here executes the Python code:
the tie between code and model is the citation and careful reading.

Layout (one topic per directory under `lean/Verif/`):

* `…Model.lean` – definitions mirroring the Python, with citations and simplifications
* `…Spec.lean`, or a namespace `MCT.<Topic>Spec` at the top of a file – small independent specifications used in statements
* `…Lemmas.lean` – helper lemmas
* `…Props.lean` and the other files – the property theorems, each followed by a non-vacuity `example`

Theorem names carry the id of their property: `C20_…` belongs to C20. Suffix `_partial`: part of the property; `_violated`:
the property is false of the code, with a witness; `_fails`: the library raises where the property asks for a result.

## 2. Trusted base

* Lean 4.33.0's kernel. Axioms: at most `propext`, `Classical.choice`, `Quot.sound` (section 5 lists them per theorem). No
  `sorry`, `native_decide`, `bv_decide`, own axioms.
* The reading of the Python code (citations in every definition).
* Numbers: floats are modelled by exact ordered-field arithmetic (`ℚ`, `ℝ` or any linearly ordered field with floor).
  Overflow, NaN and float rounding are not modelled, except where a definition says so (infinite losses in C55); where the code
  would divide by zero the model has an explicit error branch or the theorem has the guard, said in the comment.
* External libraries are parameters with stated assumptions: the LP solver (returns an optimum of the problem it is given),
  networkx's containers (as lists of nodes and edges), k-means (returns some list of centres), framework operators (their
  textbook definition).
* Exceptions (`Logger.critical`, `raise`, failing `assert`) are values (`Except`/`Option`). What was changed before an
  exception is followed only where a definition keeps the state (C46).
* Objects with identity are modelled by values, except where identity is what the code compares (C47) or shares.


## 3. Plan per property

For each property: what is modelled and how it is proved. The theorems of each are in MANIFEST.json, the
specifications they use in the `*Spec` namespaces.

| id | modelled | proof |
|----|----------|-------|
| C01–C05 | `quantizers_helpers.py`: range adjustment, uniform and symmetric quantizers, half-to-even rounding; one element at a time (numpy broadcasting is pointwise) | floor and rounding lemmas over any ordered field |
| C06–C08 | `max_power_of_two`, candidate thresholds, arg-min search, no-clipping selection | `Int.clog`, induction over the candidate list |
| C09 | histogram and min/max no-clipping selection | witness for the ignored minimum, partial theorem |
| C10, C55 | iterative searches as folds with early stop, infinite losses | invariant over the rounds; witness for infinite losses |
| C11 | LUT assignment (argmin), LUT construction with k-means as a parameter | induction over the centres |
| C12 | `z_score_filter` | variance inequality on finite sums |
| C13 | `determine_signedness`, histogram search | case analysis |
| C14–C17 | collectors as state machines over lists of operations | induction over histories; witnesses |
| C18–C21, C57, C58 | search manager: RU matrix, additive prediction, LP problem, infeasibility, selection of the maximal configuration | linear algebra over finite sums; the solver is given by its specification |
| C22 | greedy refinement loop | invariant and termination measure |
| C23 | minimal and maximal candidates | list induction |
| C24–C26 | RU calculator and RU targets | sums over lists |
| C27, C28, C65 | memory graph, A* schedule expansion, estimate, stopping | invariant over expansion steps |
| C29–C31 | multigraph with indices, graph edits, semantics by valuations of tensors | the edit preserves the function of the model |
| C32–C37, C66–C78 | layer algebra (convolutions as finite sums over taps, all layer kinds of both frameworks) and graph rewriting | identities of finite sums, then the graph theorems |
| C38, C39, C80, C81 | `FusingInfo` as a state machine, the generator, the graph fuser | invariant over histories; contraction of a partition of the graph |
| C40–C43, C59–C64 | pruning masks, greedy mask calculator, grouping, sections, pruning of weights | invariants; restricted sums |
| C44, C45 | `clone_and_edit` of attribute, operator and options objects, schema upgrade | field by field, induction over the options |
| C46 | the active platform as a state machine over programs with exceptions | induction over programs |
| C47, C48 | layer filters: equality, keys, matching | induction over filter expressions against an independent semantics |
| C49, C82, C83 | attaching layers to operator sets, choice of options, fusing patterns | induction over operator sets; product of lists |
| C50, C84 | options filtered by the consumers, loading of configurations in topological order | reachability through preserving layers; invariant over the nodes loaded |
| C51 | manual bit widths: recorded selections, mapping, filtering of candidates | the last selection, by induction over selections |
| C52 | `filter_node_candidates` | representative of each candidate through each step |
| C53, C54, C56 | arguments of the error functions, uniform no-clipping range, histogram weights | case analysis; witnesses |
| C79 | `_walk_filter` | soundness, completeness and uniqueness of walks |
| C85 | candidates of the inner layers of fused operations | duplicates removed by a reflexive comparison |
| C86, C87, C91 | GPTQ quantizers (soft and straight-through rounding) and their initialisation over the reals | sigmoid inverse; floor and clipping bounds |
| C88, C92 | parameters exported by GPTQ and QAT quantizers, training-time quantizers | fixed points of nearest rounding; case analysis |
| C89 | annealing schedulers, gradual activation quantization | monotonicity of a clipped linear function |
| C90 | weights of the GPTQ loss from Hessian scores | sorted lists, logarithm monotone |
| C93 | optimizer groups | case analysis, permutation of assignments |
| C94-C96 | Hessian service: cache, computation, answers, histories of requests and clearings; the score function and the loader are parameters | invariant of the cache over histories: stored scores are recorded computations |
| C97 | collector of statistics: layers, tensors, positional pairing with Hessian scores | positional pairing of lists, dictionary without repeated keys |
| C98 | PyTorch reader and float model builder: fx nodes, positional weights, tensor allocations, edges, removal of dead nodes, run in any topological order; functions and modules are parameters | simulation, node by node, of the traced run by the built run |
| C99 | removal of nodes without consumer | invariant of the cascade; induction on node numbers |
| C100 | reuse groups in the reader, shared operations in the builder | invariant of the reader's loop |
| C101, C18-C21 | the virtual graph of a bit-operations target: split of layers with a kernel, joining of an activation with the weights it feeds, candidates of the joined nodes, reconstruction of the configuration, search over the virtual layers | uniqueness of the virtual node that holds an activation or a kernel; each utilization term depends on one virtual layer |
| C102 | the evaluation model of the search: quantizers per layer, setting and clearing them, calls and histories, the model builders of both frameworks; the metric is a parameter | invariant: all quantizers off between calls; order independence of setting separate quantizers |
| C103 | the filter of candidates before the search | case analysis |
| C104, C105 | images, distance functions, distance matrices, weightings over the reals | lists cut into batches; Cauchy-Schwarz, Gibbs' inequality |
| C106 | selection of interest points and indices of their tensors | rounding of an arithmetic progression with step above 1 is strictly increasing |
| C107 | shapes, nodes and edges of the decomposition of `torch.matmul`, with tensors and framework operations | row-major index arithmetic; broadcasting lemmas |
| C108 | decomposition of `torch.nn.MultiheadAttention`, assignment of in-edges to roles | each stage as a statement about entries; independent specification of attention |
| C109 | decomposition of `scaled_dot_product_attention`, positional and keyword arguments, edges | entries; case analysis of repeated arguments |
| C110 | weights, input allocations and literal keywords of functional nodes; the three conversions | the place of a keyword tensor among the allocations is its place among the inputs; binding of arguments to parameters as specification |
| C111 | nodes by depth, connectivity handler, edges, merging of nested graphs with `list.remove` and `Edge.__eq__` | edges up to permutation; relational semantics of models and graphs; mutual induction over nested models |
| C112 | constants, literals and tensors of a call; allocation to keywords when reading, and filling when building | dictionaries by their lookups; place of a parameter in the allocation; binding of arguments to parameters as specification |
| C113 | candidates and final configurations as objects (a final configuration may be a candidate object), attribute lookup by part of a name, filters, actions | evolution of each object as a fold of the requests that hit it; rejection by induction over the rules; specification by the last requested value |
| C114 | the two passes of the rules, with computed parameters and choice of candidates between them | composition of the evolutions of both passes |
| C115 | fake quantization of one element in PyTorch and Keras, with the framework operations by their documentation | distance to integers before and after clipping, scaled |
| C116 | networks by the calls of their layers; dictionaries; extraction by hooks and by a model of several outputs; metrics on lists of reals; datasets; hooks | invariant of the loop over the dataset (Forall₂ of inputs and gathered values); Cauchy-Schwarz by induction for the cosine similarity |
| C117 | data generation as a function of the noise, an arbitrary optimizer, augmentation and order of batches; images as nested lists; cropping, smoothing, clipping, splitting | invariant of the loop over iterations and batches (shapes, log of steps); counting of the log |
| C118 | statistics of batches, their accumulation, what is kept of a batch, losses over the reals | algebra of sums over batches; variance decomposition; sums of squares; injectivity of the root |
| C119 | the scheduler as a state machine over an ordered field | invariant on the number of losses since the last reset; iteration of a cycle |
| C120 | building in two passes with groups of reused layers, holders, forward over the nodes; Keras layers by name | invariant of both passes over the dictionaries; the environment after `i` nodes is a prefix of the reference values |
| C121 | the Jacobian of the network, signs as random vectors, scores as sums of squares, shapes of concatenated outputs, the loop with early stopping | orthogonality of signs by a sign-flipping involution; marginals of sequences of vectors; invariant of the running mean |
| C122 | generators as lists of batches of lists, zipping, the stored datasets, data loaders with an arbitrary permutation, the counted steps | induction over batches; permutations of indices |
| C123 | tensors as lists, the rules of broadcasting for the two shapes of weights, all losses | algebra of sums; sums of squares vanish exactly if all terms do |
| C124 | the arguments of the calls as given, their meaning in TensorFlow, the configuration of the layer; convolution as an arbitrary function of the configuration | case analysis on the forms of the arguments |
| C125 | matrices over a semiring, flags by name or position, the kernel of the dense layer | case analysis on the flags |
| C126 | Permute, Reshape, slices, 1x1 convolutions, products, softmax, stack and concatenation of the new nodes on tensors of any rank; the order of the in-edges | permutations of dimensions are inverted by their index lists, row-major positions of concatenated indices, sums over positions become sums over index lists |
| C127 | tensors of any rank, quantizers as a function of class, range and value, the configuration of the new quantizer, the two reshapes and the 1x1 convolution | row-major positions of concatenated indices, sums term by term |
| C128 | layers with named weights, the flat list of weights and its distribution, fake-quant operations, the choice of exporter | induction over the layers; lengths of the filtered and expected lists of weights for the converse |
| C129 | modules as objects with several names, wrappers with named and positional weights, holders, the loops that set weights and replace modules | loop invariant over the keys of a wrapper, induction over the names with the set of modules already seen, uniqueness of sorted lists |
| C130 | arrays of any rank as functions of the index, transposition, reshapes to and from one row per channel, broadcasting, the selections over one or all axes, the arguments of the exported quantizers | row-major positions; the index list of a channel by insertion of the position |
| C131 | the weighted error as called (arguments by position), the searches on vectors of parameters with one loss | the searches keep all parameters a common multiple of the start (loop invariant); sums over the indices channel after channel |
| C132 | the four uniform weight quantizers on arrays of any rank (swap of dimensions, broadcasting), the exported range, the exported quantizers of the libraries | the swap is an involution; adjusting a range is idempotent; all quantizers give nearest values of one grid, which are unique except at ties |
| C133 | the loop over nodes, candidates and weights, lookup of values and configurations by part of the name, replacement of the error method, update of the dictionaries | induction over the weights with a frame condition; the selection functions are arbitrary |
| C134 | the tables of bounds of both frameworks, the lookup by layer type, the bounds of the Keras ReLU layer, shifting of bounds, the collector created with them; the functions computed by the layers on real inputs are the specification | real analysis per function: tangent of exp for SiLU, convexity and Mills' inequality with a Taylor bound of the normal integral for GELU, witnesses for the wrong bounds; the collector theorem of C14 for the reported range |
| C135 | core_runner up to the choice of bit widths, the flag in the mixed precision configuration, the default configuration objects, bypass, the pointer to the tables of the current framework, the decorated and undecorated entry points; the passes are arbitrary functions | induction over the history: the flag is set iff an earlier run was given a restricting target, the pointer is the framework of the last decorated call; then case analysis of one call |
| C136 | the marking of nodes, the choice between the two corrections, the run of the semi-quantized model over the dataset in both frameworks with moving averages, the writing back; layers compute arbitrary functions | simulation: passes differ only in statistics that training mode does not read, so every batch sees the given model; induction over the batches, closed form of the moving average |
| C137 | model_dump_json and parse_raw of every class of both schemas as trees of JSON values, the validators, load and export with the check of the extension, loading of objects with the upgrade of C45 | structural: parse after dump is the identity for each class, by composition up to the whole description; case analysis for schema 1 |
| C138 | PyTorch's rule for the shape of a reshape, the sizes set by the substitution, the merging of inputs into the call, the graph methods (with the choice networkx makes between parallel edges) and the recursive removal of nodes as a stack | arithmetic of products; invariants of the recursive removal; uniqueness of runs of an ordered graph |
| C139 | the call as the reader keeps it, the substitution, the construction of the layer and its loading of the kernel, and the output padding along one axis | the search for kernel and bias by case analysis on the form of the call; arithmetic of sizes |
| C140 | the substitution as a fold over the edges and the matched nodes, nodes as lists of candidates with the parameters of C115 | invariant of the folds (concatenations are never written, a single use determines the concatenation); idempotence from nearest values of C115 |
| C141 | the choice of quantizer classes, the settings handed to them, wrapper and holder of both frameworks; names of variables as lists of characters | case analysis over the tables of classes; invariant of the fold that collects the variables |
| C142 | the regularization over reals with real exponents, the counter of steps, the orders of layers (the orders of networkx and of Keras are specified, not modelled) | induction over the layers; bounds and zeros of real powers; a position where the two orders differ |
| C143 | the losses over reals for lists of outputs of lists of images; the gradient of a vector of losses as the sum of its elements | inductions over outputs and images, the inequality of the harmonic and arithmetic means, Cauchy-Schwarz |
| C144 | the search of the traced graph with its growing queue and its flag, the dictionary of hooks, the zip of the loss; the list of outputs of the Keras extractor | a potential counting paths for termination, invariants of the queue, concrete graphs for the violations |
| C145 | the dictionary of a quantizer, what JSON makes of its values, and its reading; the candidates given to a quantizer | computation of the lookups for arbitrary values, relation of lists of parameters |
| C146 | bits of every mode, the five selections for weights and activations, the totals of weights, cuts, tensors and bit operations | monotonicity of sums and maxima in the bits, partition of sums over selections, congruence in the bits |
| C147 | the tables of layers of both frameworks, matching of layers and of functions by name, attaching and choice of options (C49) | the tables are checked to keep operations apart (a finite check), then for every platform by the priority rule of C49 |
| C148 | the driver of the substitutions, the searches of edges and nodes, both foldings with their look-ups in the graph, identity removal | induction over the matches: what is left is as foldable as in the beginning, each step by C32 or C29; the violation by the invariant that a layer folded away never comes back |
| C149 | the stages of the preparation from the settings of the platform to the filtered candidates | C51 for the candidates, induction over the chosen weights for the base settings, C52 for what filtering may change; agreement of base and candidates from the way they are loaded |
| C150 | the order check and the sorts of the mixed-precision model builders, on the filtering of C52 | sorting a sorted list is the identity; filtering gives sublists; the check is strict decrease of the sorted keys |
| C151 | the four errors of histograms, range of bins, clipped counts, smoothing | Gibbs' inequality by induction over the bins; smoothing keeps the sum and makes all entries positive; the range of bins characterised by the bins that end in it |
| C152 | reading and writing weights by a part of their name, the list of weights given to the layer, quantizing all weights, bias correction, the update of the graph after GPTQ | the matching keys as a filter of the keys; induction over the attributes and over the trained layers; names of Keras weights split at the slash |
| C153 | the formulas for the mean and second moment after the ReLU, the factor of scale equalization, the statistics known of batch normalizations, with infinities and NaN | integrals against the normal density over the positive half line by the fundamental theorem, the error function as an integral, variance of a normal measure |
| C154 | the two dictionaries of statistics of the graph, the call that sets the statistics of a layer and of its consumers, shifting, the calls of shift negative correction | an invariant over histories of calls: every input place shows what the output feeding it shows; the position of the first occurrence for the violation |
| C155 | the search from an activation to the linear layer, the loop over the activations with its tests, the layer shared by all calls | the search characterized by the chains of the graph, induction on the depth; two chains into one layer read backwards; the algebra of C37 for shared layers |
| C156 | the training loops of both frameworks over abstract optimizers and gradients | an invariant of the loop (gradients are zero between batches, the optimizers hold their lists), induction over optimizers, batches and epochs; slices of the list of gradients |
| C157 | the nodes of the calls of one layer, corrected one by one, and the layer built from the first | the algebra of C35, C75 and C76 with the statistics of two calls |
| C158 | the marks of the calls of one layer, the tests of both foldings, building layers for marked and unmarked calls | induction on the calls for the marks; the build succeeds exactly when the first calls are left |
| C159 | graphs as objects on a heap, corrections in place or on a deep copy, the two networks handed to GPTQ | all combinations of the flags on a general heap, for arbitrary corrections; the amount from the correction of C76 |
| C160 | splitting a kernel of any layout at its channel axis, joining groups, norms, counts and mean Hessian scores | the flattened parts are the weights of the channels; sums over groups; rescaling multiplies the norm and divides the Hessian score |
| C161 | the folding without its axis, the lengths numpy accepts, normalization along any axis | C32 for the channels; a convolution reaches every value at a place where it reads, so equality for all inputs forces equal parameters |
| C162 | the initial values of both calculators with their shapes, the stacking of Keras, the cache and the loop over batches | induction over the batches with the scores of the images so far as invariant; lengths of the arrays for the failures |

## 4. Status and findings

A property is `partial` when the code does not satisfy all of it or when a hypothesis is left. Where reading the code shows
that the English property is false of the code, the model keeps the behaviour of the code, a theorem `…_violated` (or
`…_fails`, when the library raises) proves the negation with a concrete witness, and the theorems without that suffix prove
the largest part found to hold.

* **C01** (proved) Uniform quantizer output lies on a 2^n grid inside the adjusted range. 
* **C02** (proved) The adjusted quantization range contains an exact zero. 
* **C03** (proved) Quantizing is idempotent and order preserving. 
* **C04** (proved) Quantization error is at most half a step and the result is a nearest grid point. 
* **C05** (proved) Symmetric quantizer uses exactly the two's-complement grid. 
* **C06** (proved) max_power_of_two is the least power of two above the data. 
* **C07** (proved) Power-of-two weight threshold search returns a power of two that minimises the error. 
* **C08** (proved) No-clipping weight thresholds do not clip. 
* **C09** (partial) No-clipping activation thresholds cover the collected range. The property is false of the code: the collected minimum (left bin edge) is ignored by the power-of-two and symmetric selections. Proved: the negation on witnesses, coverage of the right edges/maximum, and full coverage for uniform quantization.
* **C10** (proved) Iterative threshold search never returns something worse than its starting point. For loss functions with finite values; infinite losses are C55.
* **C11** (proved) Look-up-table quantization picks the nearest centre. k-means is a parameter returning the requested number of centres.
* **C12** (proved) Outlier filtering only removes mass and never removes everything. 
* **C13** (proved) Automatic signedness is sound. 
* **C53** (partial) Threshold search gives the error function the float and the quantized tensor in the same order. False of the code for non-symmetric error functions (witness); proved for symmetric ones.
* **C54** (partial) Uniform no-clipping range is usable for every weight tensor. False of the code for all-zero tensors (range (0,0), NaN); proved for every other tensor.
* **C55** (partial) Iterative threshold search survives infinite losses. False of the code: inf*False is NaN and freezes the search (witnesses). For finite losses see C10.
* **C14** (proved) Collected min/max are the extremes of everything observed. 
* **C15** (partial) Collected mean is the mean of the data. False of the code for batches of different size and for scale/shift followed by an update; proved otherwise.
* **C16** (partial) Merging histograms preserves the number of samples. False of the code when a batch is collected after the histogram was read (cached merge); proved for reads after collection.
* **C17** (partial) Shifting and scaling statistics commutes with collecting. Proved for positive factors and any shift; false of the code for negative factors (min/max) and for constant batches (histogram).
* **C56** (partial) Histogram weights are aligned with the tensor they weigh. False of the code for weights of lower rank.
* **C18** (partial) Predicted resource utilization equals the utilization of the final model. Weights, activation and total memory for every network. BOPS: without coupled activation/kernel bits, and over the layers of the virtual graph when every layer with varying kernel bits is the only reader of its varying input; false of the code otherwise (see C19).
* **C19** (partial) A mixed-precision search result satisfies the target resource utilization. Solver assumed correct (SolverOk, realised by an exhaustive solver). The whole search, with the virtual graph of bit-operations targets. False of the code for a total-memory target without quantized activations, and for bit operations when a varying activation feeds several layers or reaches its reader through a layer that keeps its quantization (witnesses).
* **C20** (partial) The search result minimises the sensitivity objective among feasible configurations. Proved for non-negative sensitivities; false of the code for negative ones (witness).
* **C21** (partial) A target that cannot be met is reported instead of silently violated. Proved for weights, activation, total, and BOPS without coupled bits; for coupled bits under the conditions of C19.
* **C22** (proved) Greedy refinement never breaks the target and never lowers precision. 
* **C23** (proved) Reported minimal/maximal candidates are extremal in every coordinate. 
* **C24** (proved) Weights memory counts every weight once and is monotone in bits. 
* **C25** (proved) Activation memory is the maximum over cuts and total memory is weights plus activations. 
* **C26** (proved) Resource-utilization targets are checked on every restricted resource. 
* **C57** (partial) Every layer of the final model gets the candidate selected for it. Proved for Keras names; false of the code for PyTorch names of reused layers (witness).
* **C58** (proved) A target with room for the maximal configuration gives the maximal configuration. 
* **C40** (proved) A pruned model fits the target memory. 
* **C41** (proved) Every prunable layer keeps at least one SIMD group and whole groups only. 
* **C42** (proved) SIMD groups partition the channels by importance. 
* **C59** (partial) Group importance follows the group order of the pruner. False of the code for groups of more than one channel (witness); proved for SIMD size 1.
* **C60** (proved) Reported channel importance is that of the group of the channel. 
* **C43** (partial) Pruning keeps the weights of every layer in a pruned section. Proved for Keras and for entry/exit layers of both frameworks; false of the PyTorch code for intermediate layers with weights.
* **C61** (proved) Pruning sections are disjoint chains. 
* **C62** (proved) The memory the pruner steers by is that of the model it returns. 
* **C63** (partial) Pruning does not change the interface of the model. False of the code when an output of the model is inside a section (witness); proved otherwise.
* **C64** (proved) A pruned section computes the original with the pruned channels removed. 
* **C27** (partial) The max-cut schedule is a valid execution order of the whole graph. Every returned schedule is valid and its memory exact, and one is returned when the expansion limit exceeds the number of operations by more than two; false of the code for larger graphs (no schedule is ever returned).
* **C28** (proved) Max-cut estimate is bracketed. 
* **C65** (proved) The max-cut schedule is close to the best one. 
* **C29** (partial) Removing an identity layer leaves the model's function unchanged. False of the code when the identity layer reads another than the first output of the layer before it (witness); proved otherwise.
* **C30** (partial) Replacing or re-wiring a node preserves all other connections. Edges and outputs are kept on every graph; the order of the model inputs is not when the replaced input is not the last one (witness).
* **C31** (partial) Edge equality is an equivalence. False of the code: the comparison is neither reflexive nor symmetric (witness); exact characterisation proved.
* **C66** (partial) Replacing x*sigmoid(x) by swish preserves the network function. False of the code for gated units on two outputs of one layer (witness); proved when both read the same output.
* **C67** (partial) Residual collapsing preserves the network function. False of the code when the two read different outputs of one layer, when the addition broadcasts, and for even dilated kernels; it fails for grouped convolutions (witnesses); proved otherwise, on every graph.
* **C68** (partial) Inserting a layer between two layers touches only their connection. False of the code on a connection that reads another than the first output (witness); proved otherwise.
* **C69** (partial) Removing a layer between two layers touches only their connection. False of the code when the removed layer feeds another input slot than its own index (witness); proved otherwise.
* **C70** (partial) Decomposing a layer keeps all outputs of the model. False of the code when the layer is one of several outputs (witness); proved otherwise.
* **C71** (proved) Splitting a layer in two preserves the network function. 
* **C32** (partial) Batch-norm folding preserves the network function. False of the code for PyTorch transposed convolutions with several groups of several input channels, and when the convolution itself is a model output (witnesses); proved for every other kind of layer and graph.
* **C33** (partial) Batch-norm forward folding preserves the network function. False of the code for padded or strided-transposed layers and others (witnesses); proved when every output position reads a position of its input. Layer algebra; the graph edit is the one of C32.
* **C34** (partial) Batch-norm reconstruction followed by refusing is an identity. The inserted layer is the identity and is undone by refusing, for every layer with a bias; folding after the correction holds for the layers of C32. A layer without a bias makes the refusing fail.
* **C35** (partial) Scale equalization preserves the function of linear-ReLU-linear chains. False of the code for a bounded or thresholded Keras ReLU, when the activation is a model output, for a layer without a bias and for the function hardtanh (witnesses); proved for every layer kind, geometry and input otherwise.
* **C72** (partial) Refusing a corrected batch normalisation rescales the quantized kernel. Proved for every layer kind but the PyTorch transposed convolution with groups, where the library fails.
* **C36** (partial) Linear collapsing preserves the function of two convolutions. Proved for Keras and for square PyTorch kernels, on every graph, with the loop that repeats the matching; false of the code for PyTorch kernels that are not square and for the bias of a Keras layer with one filter (witnesses).
* **C73** (partial) Collapsing an added constant into the bias preserves the function. False of the code for constants of rank 2 or more, and for scalars when the layer has no bias; proved otherwise. Layer algebra; the graph edit is the one of C32.
* **C74** (partial) A collapsed layer reports the size of the tensor it makes. False of the code when the two layers have different numbers of filters (witness); exact characterisation proved.
* **C37** (partial) Shift-negative correction preserves the function. The layer algebra holds for every kernel, bias, shift, input and geometry, and on every graph; false of the code for dilated or oddly strided 'same' padding in Keras, string or non-zero padding modes in PyTorch, padded average pooling and model outputs in between, minima beyond the quantized points, and the parameter search (witnesses).
* **C75** (partial) Bias correction makes quantized weights unbiased. Proved for every layer kind but the PyTorch transposed convolution with groups, where the code fails or corrects the wrong channels (witness).
* **C76** (partial) Activation bias correction makes quantized activations unbiased. Proved where the window reads its input; false of the code for strided transposed or padded layers with kernel 1 and for grouped transposed ones (witnesses).
* **C77** (partial) Shifting the layer before softmax preserves the network function. Proved on every graph for layers with a bias that are not model outputs; false of the code otherwise (witnesses).
* **C78** (partial) Input scaling preserves the function under the reported scale. Proved for every layer and one scaled input; false of the code with several inputs (witness).
* **C79** (proved) The pattern search finds exactly the patterns. 
* **C38** (partial) Fused-operation bookkeeping stays consistent. Proved for every history in which added operations use new layer names; false of the code otherwise, and for generated operations with overlaps (witnesses).
* **C39** (partial) Generated fusions are disjoint chains matching a pattern. Chains and patterns proved on every graph; disjointness when later layers take one input; false of the code with joins, when a longer pattern starts like a shorter one, and when identifiers coincide (witnesses).
* **C80** (partial) Shift negative correction keeps the fused operations valid. Proved for the updates that keep an operation; false of the code in the other cases (witnesses).
* **C81** (partial) Fusing contracts each fused operation to one node and keeps everything else. Proved on every graph when later layers take one input; false of the code when an inner layer has an outside input or is a model output, when an input or output is repeated (witnesses).
* **C44** (partial) Editing one weight attribute's quantization keeps the others. The edited attributes, the originals and the operation edits are proved; the configurations of the other attributes are lost by the code (witness).
* **C45** (partial) Schema upgrade preserves the target platform description. Proved for the fields the code copies; the name and the SIMD padding are not copied and a TPC without fusing patterns is refused (witnesses).
* **C46** (partial) Current-TPC context is restored on every exit. Normal exits and re-entering are proved for every program; after an exception the platform stays active (witnesses).
* **C47** (partial) Layer filter equality is an equivalence relation. False of the code: equality ignores the layer and the conditions beyond the shorter list, keyword conditions make it asymmetric, and keys that print alike collide (witnesses).
* **C48** (partial) Attribute filters mean what they say. Proved for every filter expression with matching types; three filters cannot be combined with | or &, the second application fails (witness).
* **C49** (proved) Operator-specific quantization options take precedence and conflicts are reported. 
* **C82** (proved) Layer fusing patterns are exactly the combinations of attached layers. 
* **C83** (proved) Containment of fusing entries means a covered consecutive part. 
* **C50** (partial) Candidates offered for a layer are readable by all its consumers. Readability is proved for every graph; a base configuration that is filtered out with none of the remaining options maximal makes the library refuse a graph with readable options (witness).
* **C51** (partial) Manual bit-width selections are honoured. Proved for every successful choice; accepted choices are refused, dropped, or leave a base that is no candidate (witnesses).
* **C52** (partial) Candidate filtering keeps one representative of each distinguishable candidate. Never empty, and kernel and activation bits and methods stay represented; the other quantized settings are merged (witnesses).
* **C84** (proved) A layer that preserves quantization inherits the settings of its source. 
* **C85** (partial) Inner layers of a fused operation take the settings of the fusion and keep their weight choices. Settings and weight configurations are proved for every candidate list; the quantization function stays that of the former method (witness).
* **C86** (partial) Soft-rounding GPTQ starts from the float weights. Proved for the symmetric quantizers and for PyTorch uniform ranges that need no adjustment; false of the code for adjusted PyTorch ranges and for the Keras uniform quantizer, which rounds every weight down (witnesses).
* **C87** (partial) GPTQ moves weights by a bounded amount. Proved for soft rounding and per-channel straight-through rounding; per tensor the configured number of steps is not used (witness).
* **C88** (partial) Exported quantizers reproduce what was trained. Proved for soft rounding and for thresholds exported as used; false of the code for power-of-two quantizers with another threshold (witnesses).
* **C89** (partial) Annealing schedules move monotonically from the initial to the target value. Proved for every schedule; with no end step the last training step is not yet complete (witness).
* **C90** (partial) GPTQ loss weights are finite, ordered like the Hessian scores and normalised. Proved with at least two layers and at most one score of zero; false of the code with two zero scores, one layer, or scaled equal scores (witnesses).
* **C91** (partial) Training can reach every rounding of the weights. Proved for soft rounding and Keras; the PyTorch straight-through quantizer has one variable per channel (witness).
* **C92** (partial) Training quantizers agree with post-training quantization. Proved for all ranges and for symmetric quantizers with at least two bits when signed; with one signed bit they differ (witness).
* **C93** (partial) Every parameter trained by GPTQ belongs to exactly one optimizer. The assignment is proved for every configuration; learning quantization parameters is refused without the remaining optimizer even when their own is given (witness).
* **C94** (proved) Hessian scores asked for are those of the layer asked for. 
* **C95** (partial) A forced request for Hessian scores is answered from its own images. Proved for every loader; a request for no samples is answered with all of them (witness).
* **C96** (partial) Scores of different layers come from the same images. Proved when the layers have always been requested together; false of the code otherwise (witnesses).
* **C97** (partial) Each statistics collector gets the tensor and the Hessian scores of its own layer. The tensors are proved for every model; the Hessian scores when no collected layer is reused and collected model outputs come last; false of the code otherwise (witnesses).
* **C98** (partial) A PyTorch model read into a graph computes what it computed. Proved when no call mixes a repeated tensor with other tensors, modules are called with positional tensors only, the outputs are different and lead to a last output; false of the code otherwise (witnesses).
* **C99** (partial) The graph of a PyTorch model keeps exactly what its outputs need. Proved with outputs that have no consumer; an output whose consumers lead to no output is removed (witness).
* **C100** (partial) Calls share an operation exactly when they are calls of one layer with the same weights. Sharing is proved; building fails when the first call of a layer is not used, and calls of a function with the same constants share an operation although their other arguments differ (witnesses).
* **C101** (partial) A search under a bit-operations target selects complete candidates of the model's layers. Proved when only kernels of layers that are not reused have varying bits; for a reused layer on a shared input every reconstruction fails (witness).
* **C102** (partial) The sensitivity of a candidate is measured with the quantizers of its layer alone. A call that is answered is proved to be measured with exactly what it requests, after any history of answered calls; the whole table when no reused layer has configurable activations and weights (Keras: configurable activations). Reused layers cannot be measured and a rejected call leaves quantizers on (witnesses).
* **C103** (partial) A restriction of one memory alone searches only the bits it depends on. Proved, except that the candidates of reused layers are not filtered when only the activation memory is restricted (witness).
* **C104** (partial) The sensitivity metric compares the models on the first images, however they are batched. Proved unless a point compared by cosine is zero in both models; then the value depends on the batches or the metric raises (witnesses). Over the reals.
* **C105** (partial) Distances between tensors are distances. Squared error and cosine proved; the Kullback-Leibler distance is not negative for positive quantized probabilities, but negative values and values above 1 occur (witnesses). Over the reals.
* **C106** (partial) The interest points are the requested share of the candidate layers, evenly taken. Proved for rational factors; outputs are removed after the selection, so fewer points than requested, or none, can remain (witness).
* **C107** (partial) Decomposing a matrix product keeps its value. Proved for two different tensors of the model without empty dimensions, for every batch size. The product of a tensor with itself, with a constant of rank at least 4, or with empty dimensions fails (witnesses).
* **C108** (partial) Decomposing multi-head attention keeps its value. The computation is proved equal to multi-head attention on the traced batch size; calls with three different tensors keep their roles exactly if they are computed in the order query, key, value. Self-attention, other batch sizes and reading the first result do not work (witnesses). Softmax with an arbitrary exponential, over any field.
* **C109** (partial) Decomposing scaled dot-product attention keeps its value. Proved for positional query, key and value of the model with optional constant mask, except scale=0 and two arrangements of repeated tensors, which are characterised exactly. Keyword order, constants with a computed mask and keyword self-attention are wrong (witnesses).
* **C110** (partial) Functional linear, layer_norm and batch_norm become layers with the same parameters. Proved for all orders of positional and keyword weights and biases that are constants or None by keyword. Omitted or positional None arguments, positional epsilon, several normalised dimensions, training and keyword statistics are wrong (witnesses).
* **C111** (partial) Reading a Keras model keeps what it computes. Proved for all models in which no layer reads a tensor twice, nested models are used once, and the inputs of a nested model are read as first arguments only and are not outputs. Without these conditions models are rejected or read wrongly: a nested residual block Add([f(x), x]) is not read, f(x, y, x) is read as f(x, x, y). Names, classes and weights of layers are not modelled here.
* **C112** (partial) Functions called in a Keras model get the same arguments. Proved for calls with a list, with constants and without, for all signatures, under conditions that exclude the witnesses: a literal before a tensor (tf.subtract(1.0, x) becomes x - 1.0), keyword tensors not in alphabetical order, a lost axis of tf.stack([x, c], axis=a), a constant after an omitted parameter, repeated tensors, scalar tensors and variables. Calls inside a quantization wrapper are not modelled.
* **C113** (partial) Edit rules change the requested settings of the selected layers only. Proved for all rules that set settings, and for single rules that replace layers. Switching off activation quantization by its name is an error, and a kernel is not found by its name in a layer whose name contains that name (witnesses). Setting a function (ChangeQuantizationParamFunction) is included in the rules that set settings.
* **C114** (partial) Requested settings are those of the quantized layers. Single precision: proved for all rules that set settings. Mixed precision: proved with the last request in the order of the rules, since the final configuration is the chosen candidate itself, so a later rule for candidates overrides an earlier one for the final configuration (witness). Layers are replaced in both passes and quantization parameters of a changed method are stale (witnesses). Missing: precedence of requests for final configurations in mixed precision.
* **C115** (partial) Activations are quantized to the nearest value their parameters allow, in both frameworks. PyTorch: proved for all parameters. Keras: proved for 2 to 16 bits and ranges around zero; a range that does not contain zero is moved, so that values inside it are clipped, and other numbers of bits are an error (witnesses). The two framework operations are modelled after their documentation.
* **C116** (partial) The comparison report gives mean similarities of matching layers. The means and the compared layers are proved for all networks, datasets and metrics. The cosine similarity of the Keras report has the opposite sign: equal tensors have -1 (proved for all tensors). The PyTorch report leaves hooks on the model of the user. A layer with the name of the output key, a Keras report without compared layers, and Keras layers called twice are not reported as stated (witnesses). The folding of the float model is not part of this model.
* **C117** (partial) Data generation returns the requested images. PyTorch with the default pipeline: proved for all configurations, schedules, optimizers and augmentations. The identity pipeline of PyTorch returns images of the wrong size that are not clipped. Keras: the number and the size of the images are proved if the batch size divides the number of images, and the generation is proved to fail otherwise; its clipping treats rows as channels. Zero iterations, and few with the step scheduler, fail in PyTorch.
* **C118** (partial) The alignment loss compares the statistics of all images with those of the network. Mean and variance over all images are proved for PyTorch and batches of one size. False otherwise: a smaller last batch counts as much as the others, Keras loses the variance between batches (proved: equality exactly if all batches have one mean), statistics of layers are those of the augmented images before the step, and in PyTorch eps is added on one side only, so that equal statistics have a positive loss. Channels are treated one by one; activations are arbitrary functions of an image.
* **C119** (partial) The learning rate of data generation falls on plateaus only. Proved for all losses except the plateaus of negative losses, which count as improvements at every step, so that the rate is never lowered (proved for all lengths); the default output loss of PyTorch is negative. One parameter group, exact arithmetic.
* **C120** (partial) Built models compute their graph with quantized weights and activations. PyTorch: proved in all modes for graphs whose layers return one tensor and whose reused layers agree on the quantization of weights; a reused layer with another configuration runs with that of the first use, and of layers that return lists all tensors are passed on. Keras: the exported model is proved for any number of tensors. Quantized layers with several outputs cannot be exported. What layers, wrappers and quantizers compute is arbitrary.
* **C121** (partial) Hessian scores are unbiased estimates of the squared derivatives of the outputs. Unbiasedness is proved for all networks, one and several random vectors without early stopping. With early stopping the result is proved to be the mean over the vectors used, and it is biased: for two outputs and at most 13 vectors the mean score is never below what it estimates, and above it for a witness. The frameworks do not share a scale: channels of activations are means in PyTorch and sums in Keras, and the weights scores of PyTorch are divided by n squared for a single output with n classes; networks with a scalar output or several inputs fail there. Automatic differentiation is taken to be exact.
* **C122** (partial) Every GPTQ epoch uses every sample once, with the weights of that sample. Proved for all generators whose batches have inputs of one length. Inputs of different lengths lose samples silently, the steps differ from those the schedules count if the first batch is not the largest, and GPTQ of PyTorch fails for networks with several inputs, which it passes as one list (all proved in general).
* **C123** (partial) The GPTQ loss weighs the errors of the layers and vanishes exactly for equal tensors. PyTorch with logarithmic weights or none: proved. The Keras loss is multiplied by the batch size and not normalised; its mse_loss has the flag inverted; without logarithmic normalization the weights of layers are multiplied with all losses, so that only their sum matters, in both frameworks; the attention loss adds along rows instead of channels in Keras; it is undefined if all scores of a batch are zero (all proved in general).
* **C124** (partial) Functional convolutions of Keras models become layers that compute the same. Channels last, one group: proved for all forms of the arguments. With the channels first four strides are read at the wrong positions, an added vector moves from the width to the channels, and depthwise calls become layers with the channels last; several groups, a bias with one element, a format given as None and depth multipliers other than 1 are errors (all proved in general). The convolution itself is an arbitrary function of its configuration.
* **C125** (partial) Matrix products with constants become dense layers with the same value. Proved unless the first factor is transposed, which is not noticed because the flag is looked up among the attributes of the layer instead of the arguments of the call, or the constant is the first factor, which is an error.
* **C126** (partial) Decomposing the attention layer of Keras keeps its value. The value is proved for all shapes and attended dimensions. Which tensor is query, key or value depends on the order of their sources in the model (proved: right exactly if query, value and key come in this order); a mask is used as the key; layers without bias fail. Exact arithmetic, an arbitrary function in place of the exponential; masks given as options of the call (use_causal_mask) are lost by the reader and not modelled here.
* **C127** (partial) A dense layer exported to INT8 TFLite computes what the quantized layer computes. Proved for quantizers with thresholds and inputs with known sizes. Uniform quantizers, unknown sizes between batch and channels and layers shared between inputs of different shapes make the export fail. Exact arithmetic; the order of the weights of the wrapper and the quantizers of mct_quantizers are trusted; the conversion by TFLite is not modelled.
* **C128** (partial) A Keras model exported in fake-quant format computes what the quantized model computes. Proved with the exact conditions under which the export succeeds, for wrappers that quantize the kernel only. It fails for quantized constants, look-up-table activations and layers with optimizer_step in their name; a check that returns False is ignored.
* **C129** (partial) A PyTorch model exported to TorchScript or ONNX computes what the quantized model computes. Proved for ONNX without activations of more than eight bits, which are left unquantized, and for TorchScript without quantized constants, which make the export fail or are lost. A check that returns False is ignored; a dataset that yields single tensors gets one input name per sample.
* **C130** (partial) Per-channel weight parameters belong to their channel, from selection to export. Proved for every rank, axis and method. False for attributes with fewer dimensions than the channel axis of the kernel, which is used for all attributes of a layer, and for symmetric thresholds per tensor at the floor, which are Python numbers that cannot be exported.
* **C131** (partial) Hessian-weighted parameter selection weighs every element by its own score. Proved per tensor. False per channel: the axis is passed as the flag of normalisation, so that one error is computed for the whole array; all channels get the same scaling of their no-clipping parameters, and unless the channels are along the first dimension the scores meet the errors of other elements. What the code does is proved in general.
* **C132** (partial) A uniform weight quantizer trained by QAT quantizes every channel by its own range and is exported unchanged. Own channel proved for every axis; the export of the Keras straight-through quantizer proved exactly. The other exports differ for weights half way between two values of the grid (the libraries round ties differently) and are proved for all other weights; the Keras quantizer with a learned range cannot be constructed per tensor (size of a float). TensorFlow's and PyTorch's fake-quant operations are modelled from their documentation. Not modelled: the DQA quantizer, whose initialization calls a function that PyTorch does not have.
* **C133** (partial) Calculated parameters belong to their node, weight and candidate. Proved for nodes whose weight names are not part of one another and are all named or all positional. False otherwise (general statements): the values of a weight whose name is part of another name are not found, and a quantized positional weight beside a named one always fails; an empty list of nodes computes all nodes.
* **C134** (partial) Known bounds of layer outputs are true. The bounds of all listed functions hold for all real inputs, GELU (to -0.17) and SiLU (to -0.279) included, and then the reported range contains all collected values.  They are wrong exactly for Keras ELU layers with alpha above 1, Keras ReLU layers with a positive threshold and no slope below it, and for GELU approximated with tanh; for ELU the collected values below -1 are outside the reported range.  Bounds of named activation functions are right but never looked up.  Missing from the full claim: those attributes.
* **C135** (partial) Results do not depend on earlier calls. Holds for every call with a target that restricts something and for every call whose configuration object was not used before with such a target.  Otherwise it fails: a run with a target sets a flag in the configuration object (the default one, when none is given) that nothing resets, so every later call with that object and without a target raises an exception, and with predefined bit widths and an unrestricted target it applies them.  Reports use the tables of the last decorated call and fail in a new process.  Missing from the full claim: those cases.
* **C136** (partial) Second moment correction changes what it is meant to change. For all models and datasets the new statistics are the moving averages of the batch statistics at the place of each marked normalization, in closed form; nothing else changes; convolutions get exactly one of the two corrections.  Violated: layers with a kernel that the substitution does not match (Dense, Linear) lose their bias correction; normalizations of the model itself are marked and overwritten too; the old statistics keep the weight 0.9 to the number of batches; in Keras dropout is active.  Missing from the full claim: those cases.
* **C137** (partial) Saved target platform descriptions load unchanged. Every description accepted by the constructors of the current schema is loaded unchanged from a .json file.  Violated: saving to another extension succeeds and the file never loads; a file of schema 1 is parsed as schema 2 instead of being upgraded, so it shows version 1 and differs from the upgraded object in the name, the SIMD padding and the configuration of fused operators; edited copies are not validated, so some can be saved and not loaded.  Not modelled: the text of the file, infinite scales, type conversions of pydantic.
* **C138** (partial) Reshapes with computed sizes become static reshapes with the same result. The static reshape agrees with the original exactly when all sizes but the first are those of the traced output; outputs keep their values; exactly the size computations leave.  Violated: reshapes that put the batch elsewhere than first are wrong for every other batch size; image sizes are frozen to the traced ones; reshape to a tensor without dimensions, sizes given by the keyword shape, a computed size used twice as in view(b, k, k), and a model input used only for its size all end with an error.  Not modelled: view with a dtype, non-contiguous tensors.
* **C139** (partial) Functional convolutions and transposed convolutions become layers that compute the same. Calls with the input first, options by keyword, one group and a bias (or bias=None by keyword) become the same layer, and output paddings below the stride are kept.  Violated: without a bias the layer gets a randomly initialised one; options given by position are lost; several groups, and the kernel before the input among the keywords, end with an error; an output padding of at least the stride (accepted by PyTorch when below the dilation) ends with an error; an output size is frozen to the padding of the traced image.
* **C140** (partial) Tensors that are only concatenated get the threshold of the concatenation. The exact effect, for all graphs and orders, and that equal bits and signedness make the second rounding the identity.  Violated: a previous layer with several candidates is changed in its first one only; a previous layer with power of two thresholds gets thresholds that its quantizer rejects; a tensor concatenated with itself is not updated.
* **C141** (partial) Layers are prepared for quantization aware training with the quantizers their settings ask for. The right quantizers where a layer can be prepared, an exact description of the layers that can be, and the placement of trained weights.  Violated: the training method DQA always fails; Keras layers with several quantized outputs fail; quantized weights other than the kernel stay in floating point; Keras layers with weights of equal short names fail when the training ends.
* **C142** (partial) The rounding regularization of GPTQ pushes every weight to a definite rounding, layer by layer with its own score. Proved for layers in the order of the compare points (PyTorch) and, for equal scores, in any order.  Violated: in Keras the layers come by depth and the scores by generation, so with parallel branches of different lengths scores are given to other layers; all scores zero give no number; a PyTorch model without quantized kernels fails.
* **C143** (partial) The output losses of data generation fall as the outputs of the model get a wider range. Proved over the reals.  Violated: in Keras the inverse loss is one number per image, so that what is minimised is the sum over the batch and the alignment loss counts once per image; in PyTorch the bound of the regularization is halved, so that a linear layer within its true bound is penalised for widening its outputs.
* **C144** (partial) Each output of a network is regularized in data generation with the linear layer that computes it. Proved: soundness, termination and existence of the search, the pairing when all outputs are linear layers or there is one chain, the tensors read by Keras.  Violated for several outputs in PyTorch: outputs get the layers of each other, or none.  In Keras one layer serves all outputs and, if it is the last layer of the model, the output of the whole model is read instead of its own.
* **C145** (partial) The quantizers of a saved model of quantization aware training are loaded as they were. Proved for weights without candidates and activations with numbers.  Violated: a layer with more than one candidate has a quantizer whose candidates cannot be written; arrays of activations are loaded as dictionaries since TensorFlow 2.13.  The JSON of Keras is modelled by its effect; overrides of the constructor are not part of the dictionary and are not modelled.
* **C146** (partial) Resource utilization is consistent across bit-width modes and selections of tensors. Proved for all modes and selections.  Violated: a layer with float input and float kernel costs 32*32 bit operations per multiplication in the selection that leaves out the inside of fused operations, though it costs none in the selection of all that is quantized.  Cuts are data of the graph (C27 and C28 are about them); the graph preparation before the reported utilization is not repeated here.
* **C147** (partial) The ways to write one operation get the same quantization options. Proved for the 23 operations of PyTorch and 21 of Keras that are attached in all their ways.  Violated for every platform: F.log_softmax, tf.nn.max_pool2d and the Keras layer ELU get the default options, tf.nn.avg_pool2d those of maximum pooling, F.hardtanh with positional arguments and F.normalize with its default p the default options.  The __name__ of a function is taken to be the last part of its path in PyTorch; for Keras any names that tell the operations apart.
* **C148** (partial) One pass of a substitution handles all its matches. Proved for the first folding without further conditions on the matches, for the second when no match shares a layer with a folded one, and for identity layers with one output that read a first output.  Violated: a match with a layer that an earlier match folded away stops the pass with an error (a batch normalisation, a convolution of size 1 and a third layer in sequence), and a second batch normalisation in sequence is left although it could be folded, as the matches are not searched again.
* **C149** (partial) Prepared layers have the settings that were chosen for them. Proved for the settings loaded from a platform (C149_loaded) and every history of choices.  Violated: without mixed precision a choice is written into the base settings, so that the layer can get a combination of bit widths that the platform does not offer.
* **C150** (partial) The numbers of the candidates mean the same in the measured model. Proved for layers without a kernel, with a quantized kernel, or whose output is not quantized.  Violated: in a layer with an unquantized kernel and a quantized output the two orders can differ, so the distance measured for one candidate is used for another; and a layer that offers two methods with the same bits passes all checks until the measured model is refused.
* **C151** (partial) The errors by which activation ranges are chosen measure what quantization changes. Proved: no failure, no negative error, the divergence of two positive distributions that is zero only when they are equal, and zero for ranges beyond the last edge that merge nothing.  Violated for the Kullback-Leibler error: a range in which at most one bin ends has error zero whatever it clips, so no range is better; the full range of the data has a positive error although nothing is changed, as the last bin counts as clipped; and the values the edges are quantized to do not matter, only which are equal.  Rounding of floats is not modelled.
* **C152** (partial) Weights written by name are the weights of the layer that is built. Proved when the name is in one key or in none.  Violated when two keys contain it: nothing is found, what is written is lost and the Keras layer cannot be built; this is so for every Keras layer with several weights whose own name contains the name searched for, such as a layer called bias_conv.  A layer in which the name of a quantized weight is part of another name cannot be quantized.
* **C153** (partial) Scale equalization knows the statistics of rectified normal outputs. Proved for every mean and every deviation but zero, in exact arithmetic.  Violated for a deviation of zero, a batch normalization folded with a zero gamma: the factor is NaN for every mean, and so are all weights of the channel in both layers.  The variance of the outputs of a batch normalization is less than the known one by the share of epsilon.
* **C154** (partial) A layer is given the statistics of the tensors it takes. Proved for every history of calls when no layer takes two tensors from one layer and the outputs of layers with several are each used once, in order, and for shift negative correction without padding and bypassed layers.  Violated otherwise: the second tensor taken from one layer never gets statistics; with an output used twice the collectors slip by one edge and the last consumer gets none; a padding linear layer is given the statistics before the shift; a bypassed layer is shifted once per candidate.
* **C155** (partial) Shift negative correction corrects the linear layer an activation leads to, and no other. Proved for every graph; the correction of one activation is that of C37.  Violated for linear layers that are called several times: unlike the foldings, the correction does not leave them out, every call is corrected with its own shift but all run the bias of the first, and a call is off by the difference of the shifts times the sum of the kernel.
* **C156** (partial) GPTQ training changes exactly the trained parameters, each by its optimizer and its gradient. Proved for every rule of an optimizer and every loss.  Violated in PyTorch when one optimizer object is given for two groups of parameters: the first group is dropped and never trained.  Also violated as documented: the optimizer given for the rest trains no bias, since the facades always make one of their own.
* **C157** (partial) Corrections hold for every call of a layer. Holds for the first call, and for the others when the statistics agree.  Otherwise it is violated by all three: every call is corrected by its own statistics but the layer is built from the first one; the error is given in closed form for every layer and every call.  Missing from the full claim: the other calls.
* **C158** (partial) A model with folded normalizations can be built. Proved for forward folding, which leaves normalizations with several calls alone.  Backward folding looks only at the linear layer: when the first call of a normalization is folded and another is not, the model cannot be built (for every such model); it can exactly when no first call is folded of which another call is left.  Missing from the full claim: those models.
* **C159** (partial) GPTQ learns from the float network. Proved in full for the trained network.  The network it learns from is the float network without second moment correction and, if activation bias correction is on, with bias correction, which works on a copy.  Second moment correction changes it too, and activation bias correction does when bias correction is off; then its outputs are off by the correction.  Missing from the full claim: those combinations.
* **C160** (partial) Channel importance is that of the channel, whatever its layout and scale. Proved for channels, and for groups whose channels are scaled alike.  The score of a group is a product of sums: of two channels alike, the scale of one multiplies it by (1 + s^2)^2 / (4 s^2), so it changes unless the scale is 1 or -1, although the network and the scores of the channels are the same.  Missing from the full claim: groups with different scales.
* **C161** (partial) Folding respects the axis of a normalization. Proved along the channels.  The folding does not read the axis: along another axis it fails when the axis is not as long as there are channels, and otherwise uses the parameters of the channel for those of the row, which is right for all inputs exactly when they do the same.  Missing from the full claim: normalizations along other axes.
* **C162** (partial) Layers that do not influence the outputs get Hessian scores zero. Proved when every layer has a derivative, and in Keras for batches of one image.  Otherwise false: in PyTorch every request with a layer without a derivative fails; in Keras a request that mixes both kinds fails unless the first batch has one image, and a request of layers without a derivative counts each batch as one image.  Scores per tensor only; the cache is empty at the start.

### Deviations of the code, with their witnesses

* `MCT.Search.C09_min_ignored_violated`: C09 (violated). A bounded activation with values in `[-8, 1]` gets the threshold 1: the collected minimum is ignored and 7/8 of the negative range is clipped.
* `MCT.Search.C09_histogram_left_edge_violated`: C09 (violated) on a histogram: all the mass in the bin `[-4, -1]` gives threshold 1.
* `MCT.Search.C53_argument_order_violated`: C53 (violated). The per-tensor search hands the quantized tensor to the error function where the per-channel search hands the float tensor: for an error function that is not symmetric (as the KL error, error_functions.py:456-468, which only reads its first tensor) the two disagree.
* `MCT.Search.C54_all_zero_violated`: C54 (violated). For an all-zero tensor the selected uniform range is `(0, 0)` and quantizing with it produces NaN.
* `MCT.Search.C55_infinite_loss_violated`: C55 (violated). Infinite losses freeze the search: with the losses `5, ∞, 1` of three candidates the loss recorded after the infinite one is NaN, and the candidate with loss 1 is not selected.
* `MCT.Search.C55_infinite_start_violated`: C55 (violated). Also a starting point with an infinite loss: the improvement is taken but its loss is recorded as NaN, so no later candidate can improve on it.
* `MCT.Collect.C15_unequal_batches_violated`: C15 (violated). Batches of different sizes: the collected mean of `[0,0,0]` and `[4]` is 2, the mean of the data is 1.
* `MCT.Collect.C15_scale_lost_violated`: C15 (violated). A scale or shift of the statistics is lost at the next update, for every history: the collected mean is as if the earlier statistics had never been scaled.
* `MCT.Collect.C16_later_batches_ignored_violated`: C16 (violated). The merge is cached at the first read: whatever batches `bs2` are collected afterwards, later reads return the same histogram, whose total count is that of `bs1` only.
* `MCT.Collect.C17_negative_scale_violated`: C17 (violated), min/max: a negative scale factor swaps the roles, the collected "max" is below the collected "min" whenever the data is not constant.
* `MCT.Collect.C17_constant_batch_violated`: C17 (violated), histogram: a constant batch. Scaling the collected histogram of `[1, 1]` by 2 gives edges `1, 3`, collecting from `[2, 2]` gives `3/2, 5/2`.
* `MCT.Collect.C56_lower_rank_violated`: C56 (violated). Weights of lower rank: the check pads the shape on the left, the reshape on the right. A per-channel weight vector (last axis) passes the check and then fails to broadcast; a per-sample weight vector that would broadcast after the reshape is rejected.
* `MCT.MP.C19_total_without_activations_violated`: C19 is false of the code when no activation is quantized: the total-memory constraint disappears. The search with target total 5 bytes returns the 8-bit candidate, whose total is 8 bytes; the 4-bit candidate takes 4.
* `MCT.MP.C19_shared_input_violated`: C19 is false of the code when an activation with varying bits feeds several layers: with a target of 100 bit operations the search returns a configuration of 128.
* `MCT.MP.C19_preserving_violated`: C19 is false of the code when a layer that keeps its input's quantization lies between an activation with varying bits and the layer that reads it: with a target of 50 bit operations the search returns a configuration of 64.
* `MCT.MP.C20_negative_violated`: C20 is false of the code for negative sensitivities (a custom metric may be negative): a candidate with a negative value is excluded from the problem.
* `MCT.MP.C57_reused_name_violated`: C57 is false of the code for reused PyTorch layers, which are named `conv`, `conv_1`: dropping the two last parts of `conv_1` does not give `conv`, and the reused layer gets candidate 0 (8 bits) although the layer it shares its weights with gets candidate 1 (4 bits).
* `MCT.Pruning.C59_group_order_violated`: C59 is false of the code: groups are formed and unpruned in the order of the channel scores, but the score of a group multiplies the sum of the Hessian scores by the sum of the norms, so a later group can have a higher score than the first one, which is kept unconditionally.
* `MCT.Pruning.C43_torch_violated`: C43 is false of the code for PyTorch: an intermediate layer with weights loses all of them.
* `MCT.Pruning.C63_output_channels_violated`: C63 is false of the code: a layer that is an output of the model and has a single consumer still starts a section, and the output loses channels.
* `MCT.MaxCut.C27_large_graph_violated`: A graph with more operations gets no schedule at all (with the default limit of 1000 expansions: 998 operations or more), however long the searches run: the result is `(None, 0, None)`.
* `MCT.Graph.C29_second_output_violated`: C29 is violated: after removing an identity layer that reads the second output of a layer, its consumers read the first output, and the model computes something else.
* `MCT.Graph.C30_input_order_violated`: C30 is violated: replacing the first of two model inputs moves it to the end of the list of inputs, so the model reads its inputs in the other order.
* `MCT.Graph.C31_equivalence_violated`: C31 is violated: an edge with different indices does not equal itself, the comparison is not symmetric, and it makes different edges equal.
* `MCT.Graph.C66_gated_violated`: C66 is violated for a gated linear unit `x₁ · sigmoid(x₂)` with `x₁`, `x₂` two outputs of the same layer: it becomes `x₂ · sigmoid(x₂)`.
* `MCT.Graph.C67_two_outputs_violated`: C67 is violated when the two read different outputs of the layer before.
* `MCT.Subst.C67_grouped_fails`: C67 is violated for grouped convolutions from a number of channels to the same number: the library fails.
* `MCT.Subst.C67_broadcast_violated`: C67 is violated when the addition broadcasts the one channel of the convolution: the sum of the second input channel and the output of the convolution is lost, the new layer has one channel.
* `MCT.Subst.C67_dilated_even_violated`: C67 is violated for an even kernel with a dilation: the middle tap reads another position.
* `MCT.Graph.C68_second_output_violated`: C68 is violated on an edge that reads the second output of a layer: the consumer is wired to the second output of the inserted layer, which has only one. Here outputs that do not exist are 0, and the inserted layer is the identity.
* `MCT.Graph.C69_second_input_violated`: C69 is violated for a layer that feeds the second input of its consumer: the new edge enters the first slot, which is taken. The layer removed here is an identity.
* `MCT.Graph.C70_outputs_dropped_violated`: C70 is violated for a model with several outputs one of which is the layer that is replaced: all other outputs disappear.
* `MCT.Graph.C32_model_output_violated`: C32 is violated for a layer that is also an output of the model: the folding does not skip it and does not fold it either, it stops with an error.
* `MCT.Subst.C32_grouped_transpose_violated`: C32 is violated for PyTorch transposed convolutions with more than one group and more than one input channel per group: the scales of the groups are mixed up.
* `MCT.Subst.C33_padding_violated`: C33 is violated for a 1x1 convolution with padding: in the padding the original layer gives its bias, the folded layer gives the new bias.
* `MCT.Subst.C33_strided_transpose_violated`: C33 is violated for a transposed 1x1 convolution with stride 2 (Keras, same for PyTorch): the positions between the samples get the new bias.
* `MCT.Subst.C33_depthwise_transpose_violated`: C33 is violated for PyTorch depthwise transposed convolutions: the sum of the bias updates of all channels is added to every channel.
* `MCT.Subst.C33_multiplier_violated`: C33 is violated for PyTorch depthwise convolutions with a multiplier above 1: the folding fails with an error.
* `MCT.Subst.C33_depthwise_stride_violated`: C33 is violated for a depthwise 1x1 convolution with stride 2 in front: the stride is lost.
* `MCT.Subst.C33_depthwise_activation_violated`: C33 is violated for a Keras depthwise 1x1 convolution with an activation function in front: the activation function (here ReLU) is lost.
* `MCT.Subst.C34_without_bias_fails`: The bias must be there: a layer without one makes the refusing fail.
* `MCT.Subst.C35_grouped_fails`: C35 does not reach these layers: with a grouped convolution second, with a depthwise one with a multiplier first or a grouped transposed one first, the substitution fails (numpy cannot broadcast, or the kernel it makes does not fit the layer).
* `MCT.Subst.C35_bounded_violated`: C35 is violated for a Keras ReLU with a bound, which the substitution takes for a ReLU: with the bound 8 and the scale 1/2 an input of 10 gives 10 and not 8.
* `MCT.Subst.C35_threshold_violated`: C35 is violated for a Keras ReLU with a threshold: with threshold 2 and the scale 1/2 an input of 3 gives 0 and not 3.
* `MCT.Subst.C35_model_output_violated`: C35 is violated when the activation is itself an output of the model: the matcher looks only at the layers that follow, so the walk is found, and that output is scaled.
* `MCT.Subst.C35_bound_without_bias_violated`: C35 is violated for a first layer without a bias: the library fails.
* `MCT.Subst.C35_bound_functional_violated`: C35 is violated for the function `hardtanh(x, 0, 6)` of PyTorch: its bound stays 6 while the layers are scaled as if it had become 8; an input of 7 gives 9/2 and not 6.
* `MCT.Subst.C35_bound_threshold_violated`: C35 is violated for a bounded Keras ReLU with a threshold: with the bound 6 and the threshold 2 an input of 7/4 gives 7/4 and not 0.
* `MCT.Subst.C72_grouped_transpose_fails`: The thresholds cannot be updated for a grouped PyTorch transposed convolution: the library fails there (the kernel itself can be folded when the layer is depthwise).
* `MCT.Subst.C36_torch_non_square_violated`: The two kinds of failure: a 3x2 kernel becomes a 1x4 one, and for a 3x1 kernel PyTorch raises.
* `MCT.Subst.C36_scalar_bias_violated`: 
* `MCT.Subst.C73_constant_shape_violated`: C73 is violated for every constant that is not the same at all positions (rank 2 or more), and for a scalar added to a layer without a bias: the new bias is not a vector with an entry per channel, and the layer cannot be built.
* `MCT.Subst.C74_reported_channels_violated`: C74 is violated: the layer makes 2 channels and reports 3.
* `MCT.Subst.C37_avg_pool_padded_violated`: C37 is violated across average pooling with zero padding (`avg_pool2d(x, 3, padding=1)`), which the PyTorch substitution passes over: the average at the border is over zeros as well and moves by less than the shift.
* `MCT.Subst.C37_dilation_violated`: C37 is violated for a dilated Keras convolution with "same" padding: the padding that is computed does not know the dilation, one element on each side instead of two.
* `MCT.Subst.C37_stride_violated`: C37 is violated when the stride is larger than the kernel on one axis: -1 elements are computed there, the sum of the four numbers can be 0, and then the padding of the other axis is lost (the layer itself has been set to "valid"). Kernel 1 by 2, stride 2 by 1, image 4 by 4.
* `MCT.Subst.C37_torch_same_violated`: C37 is violated for a PyTorch convolution with `padding="same"`: the padding stays in the layer, which pads the shifted tensor with zeros, and the corrected bias takes back more than was added at the border. One channel, kernel 3 of ones, shift 1, input 0.
* `MCT.Subst.C37_padding_mode_violated`: C37 is violated for a PyTorch convolution with padding mode "reflect": the layer that padded with mirrored entries is replaced by padding with the constant. One channel, kernel 3 of ones, shift 1, input 5 everywhere.
* `MCT.Subst.C37_torch_pad_layer_fails`: C37 is not reached with a PyTorch ZeroPad2d layer in front: its padding is (left, right, top, bottom) and is read like the nested pairs of Keras, which raises an error; the pairs of Keras are read as they are.
* `MCT.Subst.C37_pad_after_bypass_fails`: C37 is not reached with a bypass layer before a zero padding layer: the padding layer is removed from between the non-linear and the linear layer though its input is the bypass layer, which fails.
* `MCT.Subst.C37_shift_exceeds_violated`: C37 is violated for a minimum beyond the last quantized point (ratio 1, which the configuration allows): every candidate is infinite, the first one, 0, is taken, and activations stay negative.
* `MCT.Subst.C37_search_violated`: C37 is violated with the parameter search: the search keeps the pair with the least error, whatever becomes of negative values. Minimum -1 (one sample of 101), threshold 32, 5 bits: no shift is chosen.
* `MCT.Subst.C37_output_violated`: C37 is violated when a bypass layer is a model output: the search for the linear layer looks at the number of consumers only, and the output of the model is shifted. Numbers for tensors: 9 adds 5, layer 3 subtracts 5 after the correction.
* `MCT.Subst.C75_grouped_transpose_violated`: C75 is violated for PyTorch's transposed convolution with groups: with one output channel per group the term has one entry, the sum over all input channels, which is subtracted from every channel of the bias (depthwise transposed convolution, two channels with kernels 1 and 1, quantized 2 and 1: only the first output should be corrected).
* `MCT.Subst.C75_grouped_transpose_fails`: C75 is not reached for the same layer with several output channels per group: the term has too few entries for the bias.
* `MCT.Subst.C76_gap_violated`: C76 is violated where the window reads nothing: a transposed convolution with kernel 1 and stride 2, or a convolution with kernel 1 and padding, has outputs that are the bias alone, and the correction moves them.
* `MCT.Subst.C76_grouped_transpose_violated`: C76 is violated for PyTorch's transposed convolution with groups as C75 is.
* `MCT.Subst.C77_without_bias_violated`: C77 is violated for a layer without a bias: the weights gain a bias, but the layer is built without one, so its outputs do not move while their recorded range does.
* `MCT.Subst.C77_output_violated`: C77 is violated when the layer itself is a model output: the search for the pattern only looks at consumers. Numbers for tensors; layer 1 moves by 2, its consumer does not see it.
* `MCT.Subst.C78_two_inputs_violated`: C78 is violated for a model with two inputs: the user is told one scale for all inputs, the last one, and feeding both inputs with it does not give the function of the model.
* `MCT.Fusing.C38_overlap_violated`: C38 fails of the code: an operation that shares a layer with another one is accepted; layer 1 is then in two operations. After removing the second one, layer 1 is in an operation but mapped to none.
* `MCT.Fusing.C38_missing_config_violated`: C38: asking whether a layer of a manual operation is quantized raises: the operation matches no pattern and has no configuration.
* `MCT.Fusing.C39_overlap_violated`: C39 fails on graphs with a join (here with a pattern of the TFLite platform): both branches are fused with the same addition and activation. The graph then refuses the operations.
* `MCT.Fusing.C39_longer_pattern_violated`: C39 (completeness) fails of the code: layers 0 and 1 match the first pattern but are not fused, because the second pattern agrees with one layer more and then fails.
* `MCT.Fusing.C39_name_clash_violated`: C39: the generator fails on a model whose layers have different names, because the identifiers of two operations coincide.
* `MCT.Fusing.C80_unfused_violated`: C80 fails of the code for an activation (2) that is in no fused operation, after a layer (1) that is in none: the inserted addition (9) becomes a fused operation of its own. The graph accepts it, but the operations can no longer be generated again, so replacing fused operations by single nodes, needed to compute the memory of activations, raises.
* `MCT.Fusing.C80_prev_only_violated`: C80 fails of the code for an activation (2) that is in no fused operation, after a layer (1) that is: the operation gets the inserted addition without the activation between them, and the next change of the graph raises.
* `MCT.Fusing.C81_inner_input_violated`: C81 fails of the code when a later layer of an operation has an input from outside the operation: the connection is dropped, so that node 5 no longer feeds anything. The graph accepts the operation.
* `MCT.Fusing.C81_inner_output_violated`: C81 fails of the code when an inner layer is an output of the model: after fusing, both outputs are the same tensor of the fused node, which is the output of the last layer.
* `MCT.Fusing.C81_repeated_input_violated`: C81 fails of the code on the positions of inputs: when the first layer of an operation takes the same tensor at positions 0 and 1, the fused node has two connections at position 0.
* `MCT.Fusing.C81_repeated_output_violated`: C81 fails of the code when the last layer is listed twice among the outputs: the second listing still names the removed layer.
* `MCT.Tpc.C44_drops_others_violated`: C44 is false: editing attribute `0` removes the configuration of attribute `1`.
* `MCT.Tpc.C45_name_violated`: C45 is false: the upgrade loses the name of the TPC.
* `MCT.Tpc.C45_simd_violated`: C45 is false: the upgrade clears the SIMD padding flag.
* `MCT.Tpc.C45_no_fusing_violated`: C45 is false: a valid TPC that leaves its fusing patterns out cannot be upgraded.
* `MCT.TpcContext.C46_exception_violated`: C46 does not hold: after an exception inside the block its platform stays active.
* `MCT.TpcContext.C46_outside_violated`: C46 does not hold: after a caught exception, a component created outside of any block is silently added to the platform of the failed block, instead of being refused.
* `MCT.TpcContext.C46_nested_violated`: C46 does not hold for nested blocks: after the inner block, the outer one has no active platform.
* `MCT.Tpc.C47_symmetric_violated`: C47 is false: equality of filters is not symmetric — a filter without keyword arguments equals every filter with them, but not the other way round.
* `MCT.Tpc.C47_layer_violated`: C47 is false: filters of different layers compare equal.
* `MCT.Tpc.C47_conditions_violated`: C47 is false: a filter with one condition equals one with a further condition; a layer can match the first and not the second.
* `MCT.Tpc.C47_key_collision_violated`: C47 is false even as keys of a dictionary: two layers with the same printed name collide.
* `MCT.Tpc.C47_key_order_violated`: C47 is false as keys of a dictionary: filters that say the same and compare equal are different keys when their keyword arguments were written in another order.
* `MCT.Tpc.C48_chain_violated`: C48 (limitation). `|` and `&` accept two attribute filters only, so that three filters cannot be combined with them: the second application fails, whatever the filters.
* `MCT.Cand.C50_base_violated`: C50 is false of the code: the base configuration can be outside of the options kept, and then the node is refused although one of its options is read by all consumers.
* `MCT.Cand.C51_short_name_violated`: C51 is false of the code: two choices for different attributes of one layer, the first with a name of one character, are refused, although each is accepted alone.
* `MCT.Cand.C51_part_of_name_violated`: C51 is false of the code: a selection by a part of the name of an attribute is accepted as matching the attribute, and then refused although the candidate has the chosen bits.
* `MCT.Cand.C51_base_violated`: C51 is false of the code: after the choice of activation bits, the base configuration is none of the remaining candidates.
* `MCT.Cand.C51_empty_violated`: C51 is false of the code: a choice with filters and an empty list of bits is dropped without an error.
* `MCT.Cand.C52_bias_violated`: C52 is false of the code: for a layer with an unquantized output, candidates that differ in the bits of a quantized bias are merged.
* `MCT.Cand.C52_signedness_violated`: C52 is false of the code: for a layer without a quantized kernel, candidates that differ in the signedness of the quantized activation are merged.
* `MCT.Cand.C52_positional_violated`: C52 is false of the code: candidates that differ in the bits of a quantized positional weight are merged.
* `MCT.Cand.C85_function_violated`: C85 is false of the functions: an inner layer of a quantized fused operation keeps the quantization function of its former method, although its method is now that of the fused operation.
* `MCT.Train.C86_uniform_torch_violated`: C86 (uniform, PyTorch) is false for a range that has to be adjusted: with two bits on `[-1, 1]` the weight 0, which is a point of the grid, starts as 1/3 in training and as 2/3 in evaluation.
* `MCT.Train.C86_uniform_keras_violated`: C86 (uniform, Keras) is false on an aligned range: with one bit on `[0, 1]` the weight 9/10 starts as 0, although 1 is nearer.
* `MCT.Train.C87_per_tensor_violated`: C87 is false per tensor: the configured number of steps is not used. A weight that was to stay (no step allowed) moves by one, and a weight that was allowed four steps cannot move by two.
* `MCT.Train.C88_gptq_ste_violated`: The exported threshold of the straight-through quantizer is not the one it used when a power-of-two quantizer was given another threshold: the weight 3 is kept by training (threshold 4) and becomes 9/4 with the exported threshold 3.
* `MCT.Train.C88_qat_pot_violated`: C88 is false of the power-of-two quantizers whose threshold is trained (LSQ weights and activations, straight-through activations): for every trained threshold that is not a power of two there are inputs that the exported quantizer maps elsewhere.
* `MCT.Train.C89_last_step_violated`: C89 is false of the documented end: with no end step given, the schedule is said to be complete at the last step. The steps of a training of `total` steps are `0, …, total - 1`, and at each of them the fraction is below its target, for every schedule that is accepted.
* `MCT.Train.C90_two_zero_scores_fails`: C90 is false with two scores of zero: the replacement is zero again, and the weights are not finite, for every list of non-negative scores with two zeros.
* `MCT.Train.C90_one_layer_fails`: C90 is false with a single layer: numpy is asked for the second smallest of one score.
* `MCT.Train.C90_equal_scores_fails`: C90 is false for scaled weights of layers with equal scores: the range to divide by is zero.
* `MCT.Train.C91_ste_torch_violated`: C91 is false of the straight-through quantizer of PyTorch, which has one trained variable for all the weights of a channel: no value of it moves the weight 0 up by one step and leaves the weight 10 where it is, although both are within the allowed change.
* `MCT.Train.C92_one_bit_violated`: With one signed bit they differ on a tie.
* `MCT.Train.C93_rest_required_violated`: C93 is false when every group has its own optimizer but the remaining one is not given: learning the quantization parameters is refused, whatever there is to train.
* `MCT.Hessian.C95_zero_samples_violated`: C95 is false for a forced request of zero samples: it answers with all of them.
* `MCT.Hessian.C96_other_samples_violated`: C96 is false after a request for some of the layers: the second row of layer 0 belongs to sample 10 and that of layer 1 to sample 11.
* `MCT.Hessian.C96_retry_violated`: C96, that the rows belong to different samples, is false after a failure: a request for more samples than the data loader has fails, and the same request made again succeeds with the samples counted twice — for every score, layers, data loader and number of samples up to twice as many as there are.
* `MCT.Hessian.C97_early_output_violated`: C97 is false when a collected model output is not among the last: layer 2 comes after the model output 1, and the score of layer 0 is taken with respect to layer 2, that of layer 2 is given to the output.
* `MCT.Hessian.C97_reused_layer_violated`: C97 is false when a layer is reused: layer 1 reuses layer 0, layer 0 gets the score of the output of layer 1, layer 1 that of layer 2, and layer 2 none.
* `MCT.Torch.C98_list_violated`: `torch.cat([x, y, x])` is rebuilt as `torch.cat([x, x, y])`.
* `MCT.Torch.C98_positional_violated`: `f(x, x, y)`, where `y` is read before `x`, is rebuilt as `f(x, y, x)`.
* `MCT.Torch.C98_literal_violated`: `f(x, y, x, 5)`: the arguments are rebuilt in another order.
* `MCT.Torch.C98_keyword_violated`: `f(x, min=m, max=m)` is rebuilt without one of the keyword arguments.
* `MCT.Torch.C98_constant_violated`: `f(x, x, c)` with a constant `c` is rebuilt as `f(x, c, x)`.
* `MCT.Torch.C98_module_violated`: A module called with a literal, `m(x, 5)`, is rebuilt as `m(x)`; called with keywords, `m(b=y, a=x)`, it is rebuilt as `m(y, x)`; called with a list, `m([x, y])`, it is rebuilt as `m(x, y)`.
* `MCT.Torch.C98_after_list_violated`: A tensor after the list, `f([x, y], z)`, is rebuilt in the list, `f([x, y, z])`.
* `MCT.Torch.C98_outputs_violated`: A model that returns `(y, x, y)` is rebuilt as a model that returns `(y, x)`.
* `MCT.Torch.C99_output_violated`: An output whose only consumer leads nowhere is removed from the graph, although it is still listed as output: the built model cannot return it. (`y = conv(x); y.size(0); return y`.)
* `MCT.Torch.Reuse.C100_first_call_violated`: When the result of the first call of a module is not used, its node is not in the graph (C99), and the model cannot be built, although the traced model runs.
* `MCT.Torch.Reuse.C100_function_violated`: Functions: `sub(x, c)` and then `sub(c, x)` count as one operation with the same weights, so the second runs the operation built (and, when the constant is quantized, wrapped with the position of the constant and the other arguments) for the first, exporter/model_wrapper/pytorch/builder/fully_quantized_model_builder.py 45-64.
* `MCT.MP.C101_reused_violated`: C101 is false of the code for reused layers: the reconstruction of every choice fails.
* `MCT.Sens.C102_reused_violated`: C102 violated for layers used several times. The sensitivities of a network with a reused convolution whose kernel and activation are both configurable cannot be measured in either framework: no quantizer is found under the name of the second use.
* `MCT.Sens.C102_reused_relu_violated`: 
* `MCT.Sens.C102_rejected_violated`: C102 violated after a rejected call. A call that is rejected while it is applied (one of its entries has no quantizer) leaves the quantizers it has already set active, and the next call is measured with them: the value of the same valid call differs before and after.
* `MCT.Sens.C103_activation_only_reused_violated`: C103 violated for reused layers. With only the activation memory restricted, the candidates of the second use of a layer are not filtered: its kernel still varies, and the sensitivities cannot be measured.
* `MCT.Sens.C104_zero_violated`: C104 and C105 violated for zero outputs. A fully connected layer whose output is zero in both models for all images of a batch counts with distance 1, the largest possible, although nothing differs.
* `MCT.Sens.C104_zero_raises_violated`: C104 violated for zero outputs. If another interest point is compared by the squared error, the metric raises instead.
* `MCT.Sens.C104_zero_batches_violated`: C104 violated for zero outputs. The value depends on how the images are cut into batches.
* `MCT.Sens.C105_kl_negative_violated`: C105 violated. With a quantized probability that is zero the Kullback-Leibler distance can be negative (although the documentation promises a value between 0 and 1): the configuration then scores better than the float model itself.
* `MCT.Sens.C105_kl_bound_violated`: C105 violated. The Kullback-Leibler distance is not bounded by 1 as documented.
* `MCT.Sens.C106_few_violated`: C106 violated. The outputs are removed after the selection, and a small network can end up without interest points: of three candidates, one of them the output, the factor 2/3 leaves one, and 1/4 leaves none.
* `MCT.Decomp.C107_same_violated`: C107 fails for the product of a tensor with itself, of any rank: the node has one input shape where the substitution reads two, so preparing the model fails.
* `MCT.Decomp.C107_constant_violated`: C107 fails for the product with a constant of rank at least four: the node has one in-edge where the substitution unpacks two.
* `MCT.Decomp.C107_empty_violated`: C107 fails for an empty dimension: PyTorch returns an empty tensor, the decomposed product does not run.
* `MCT.Decomp.C108_order_violated`: C108 fails when the value is computed before the query: the roles are exchanged. With one key position attention is the value, 5; after the substitution it is the query, 7.
* `MCT.Decomp.C108_self_violated`: C108 fails for self-attention: with one tensor as query, key and value (or one as key and value) the node has fewer than three input shapes, so preparing the model fails.
* `MCT.Decomp.C108_batch_violated`: C108 fails for every batch size but the one of the traced model: the new nodes reshape to the traced batch size.
* `MCT.Decomp.C108_first_violated`: C108 fails for the usual `out, _ = mha(q, k, v)`: after the substitution the first result is the output for the first image only.
* `MCT.Decomp.C109_repeated_violated`: C109 fails when the query is also the value and is computed before the key: with one key position attention is the value, 7; after the substitution it is the key, 9.
* `MCT.Decomp.C109_zero_scale_violated`: C109 fails for a scale of zero, which should give the mean of the values: the default scale is used instead.
* `MCT.Decomp.C109_keyword_violated`: C109 fails for tensors passed by keyword in another order, as in `scaled_dot_product_attention(value=v, query=q, key=k)`: the roles follow the order in which the keywords are written. Attention is 5, the result is 6.
* `MCT.Decomp.C109_self_keyword_violated`: C109 fails for self-attention with keywords: one tensor has one edge, so reading the key fails.
* `MCT.Decomp.C109_constant_violated`: C109 fails for a constant query with a mask that the model computes: the key becomes the query, the value the key, the mask the value, and the query is added as the mask. Attention is the value, 6; the result is the mask, 2.
* `MCT.Torch.Functional.C110_two_dims_violated`: C110 fails for a layer norm over two dimensions: only the last one is normalised.
* `MCT.Torch.Functional.C110_positional_eps_violated`: C110 fails for an epsilon by position: the layer has the default one.
* `MCT.Torch.Functional.C110_bias_only_violated`: C110 fails for a layer norm with a bias only: the bias is used as weight too.
* `MCT.Torch.Functional.C110_defaults_violated`: C110 fails for a layer norm with no weight and no bias: the conversion raises.
* `MCT.Torch.Functional.C110_training_violated`: C110 fails for a batch norm that asks for the statistics of the batch: the layer uses the running ones.
* `MCT.Torch.Functional.C110_swapped_violated`: C110 fails for a batch norm with the variance before the mean, by keyword: they are swapped.
* `MCT.Torch.Functional.C110_positional_none_violated`: C110 fails for a batch norm with `None` as positional weight: the conversion raises.
* `MCT.Torch.Functional.C110_input_last_violated`: C110 fails for a linear call with all tensors by keyword and the input last: the conversion raises, although all are given.
* `MCT.KReader.C111_second_argument_violated`: C111 is false (the edges are not equal to themselves, edge.py 69-74): every nested model with an input that is read as another than the first argument of a layer raises an error, if the input is connected.
* `MCT.KReader.C111_residual_violated`: C111 is false: the residual block is not read.
* `MCT.KReader.C111_twice_violated`: C111 is false: the layer `f(x, y, x)` is read as `f(x, x, y)` (`list.index` finds the first index only, connectivity_handler.py 182-198).
* `MCT.KReader.C111_same_input_violated`: C111 is false: a nested model that is called with the same tensor twice is not read.
* `MCT.KReader.C111_reused_violated`: C111 is false: a model in which a nested model is used twice is not read, whatever else it contains.
* `MCT.KReader.C111_pass_violated`: C111 is false: the input layer of the nested model stays in the graph, without a value.
* `MCT.KReader.C112_literal_first_violated`: C112 fails: `tf.subtract(1.0, x)` becomes `tf.subtract(x, 1.0)`, and the same for every function whose first argument is a number.
* `MCT.KReader.C112_alphabetical_violated`: C112 fails: in `tf.clip_by_value(x, clip_value_min=a, clip_value_max=b)` with tensors `a` and `b` the bounds are swapped.
* `MCT.KReader.C112_keyword_tensor_violated`: C112 fails: a tensor that is given by its keyword becomes the next argument: in `tf.image.crop_and_resize(x, boxes, [0, 0], crop_size=s)` with a tensor `s`, the third argument becomes `s` and the fourth becomes `[0, 0]`.
* `MCT.KReader.C112_repeated_violated`: C112 fails: a tensor that occurs twice. `tf.clip_by_value(x, y, x)` becomes `tf.clip_by_value(x, x, y)`.
* `MCT.KReader.C112_axis_violated`: C112 fails: the axis of `tf.stack([x, c], axis=-1)` with an array `c` is lost, so that the default is used: the second element of the list and the parameter `axis` have the same index. The same holds for the second argument of every function that gets a list.
* `MCT.KReader.C112_constant_axis_violated`: C112 fails: the axis of `tf.stack([x, y], axis=c)` with an array or tensor `c` is lost, whatever it is.
* `MCT.KReader.C112_hole_violated`: C112 fails: an array whose keyword comes after a parameter with its default value is looked up at the wrong place. If `f(a, b=.., c=..)` is called as `f(x, c=array)`, the model is not built.
* `MCT.KReader.C112_hole_swapped_violated`: C112 fails: with a tensor after that array, the two are swapped: `f(x, c=array, d=y)` becomes `f(x, c=y, d=array)`.
* `MCT.KReader.C112_scalar_violated`: C112 fails: a tensor without dimensions becomes a vector: `tf.gather(x, tf.constant(1))` has one dimension more.
* `MCT.KReader.C112_variable_violated`: C112 fails: every call with a `tf.Variable` among its arguments is rejected.
* `MCT.Editor.C113_property_violated`: C113 violated: activation quantization cannot be switched off by its name. The configuration has `enable_activation_quantization`, but a rule that sets it is an error.
* `MCT.Editor.C113_layer_name_violated`: C113 violated: names of layers. A rule that sets the bits of the kernel is an error for a layer whose own name contains `kernel`, because then several of its weights have names with `kernel`.
* `MCT.Editor.C114_order_violated`: C114 violated: precedence. With a rule that sets 4 bits in the final configuration followed by a rule that sets 8 bits in the candidates, the activations have 4 bits in single precision and 8 bits in mixed precision: there the final configuration is the chosen candidate, which the second pass changes.
* `MCT.Editor.C114_replace_violated`: C114 violated: layers are replaced twice. A rule that replaces a layer, selected by its name, is applied in both passes: its function, here the doubling of the weights, is applied two times.
* `MCT.Editor.C114_stale_violated`: C114 violated: stale quantization parameters. A rule that changes the method (or the bits) of the final configuration leaves the quantization parameters that were computed for the old method (and bits): here the parameters are those of 8 bits and a power-of-two threshold.
* `MCT.ActQ.C115_keras_range_violated`: C115 violated: ranges above zero in Keras. For activations between 1 and 3 (a range that the selection without clipping returns) the Keras quantizer moves the range to [0, 2] and clips 3 to 2, so that its error is half of the length of the range; PyTorch extends the range to [0, 3] and keeps 3.
* `MCT.ActQ.C115_keras_bits_violated`: C115 violated: bits in Keras. A single bit, or more than 16, cannot be simulated in Keras, but can in PyTorch.
* `MCT.XQuant.C116_keras_cs_violated`: C116, violated. So the Keras report gives the cosine similarity -1, the value of opposite tensors, to the equal outputs of a quantized layer without any error, and 1 to opposite outputs.
* `MCT.XQuant.C116_hooks_violated`: C116, violated. A report does not leave the quantized model as it was.
* `MCT.XQuant.C116_output_key_violated`: C116, violated. A layer with the name of the key of the output is compared by the output of the network, not by its own output.
* `MCT.XQuant.C116_keras_last_sample_violated`: C116, violated. In Keras, when no layer can be compared, the outputs are compared by the last sample of each batch only: here a batch is the list of its samples.
* `MCT.XQuant.C116_shared_layer_violated`: C116, violated. In Keras a compared layer that is called twice stops the report; in PyTorch the last calls are compared.
* `MCT.DataGen.C117_torch_identity_violated`: C117, false for the identity pipeline of PyTorch. The initial images are 32 pixels higher and wider than asked (30 for diverse samples), and the identity pipeline does not crop: every image returned has that size, and not the requested one.
* `MCT.DataGen.C117_keras_clip_violated`: C117, false for clipping in Keras. The valid range of channel `i` is applied to row `i` of the image, and all rows but the first three are set to zero: whatever the image was, below its third row it becomes blank.
* `MCT.DataGen.C117_torch_iterations_violated`: C117, false for few iterations in PyTorch. Without iterations the generation fails at its last message, and with the step scheduler and fewer than three iterations it divides by zero.
* `MCT.DataGen.C117_torch_identity_clip_violated`: C117, false for clipping with the identity pipeline of PyTorch: a pixel of 300, where no normalization allows more than 255, is returned although clipping is on.
* `MCT.DataGen.C118_unequal_batches_violated`: C118, false if the last batch is smaller (both frameworks): three images in batches of two, with one value each; the mean of the values 0, 0 and 3 is 1, and the accumulated mean is 3/2.
* `MCT.DataGen.C118_keras_variance_violated`: C118, false for Keras: two batches of one size with the values 0, 0 and 2, 2 have variance 1, and the accumulated variance is 0.
* `MCT.DataGen.C118_stale_violated`: A concrete run: one image, no augmentation, a step that adds one. The statistics of a layer that passes its input on are kept as 0 when the pixel has become 1.
* `MCT.DataGen.C118_torch_eps_violated`: C118, false for PyTorch: with `eps` above zero images whose statistics are those of the network do not have loss zero, if some layer has a channel.
* `MCT.DataGen.Plateau.C119_negative_plateau_violated`: C119, false for negative losses. A loss that stays at a negative value is taken for an improvement at every step, and the rate is never lowered, however long the plateau.
* `MCT.DataGen.Plateau.C119_worsening_violated`: C119, false for negative losses. Even a negative loss that gets worse at every step, by a fraction below the threshold, never lowers the rate.
* `MCT.Build.C120_many_outputs_violated`: C120 (limit). No model with a quantized node of several outputs (or of none) can be exported.
* `MCT.Build.C120_shared_weights_violated`: C120 (violation). A reused layer whose quantization differs from that of the first node of its group runs with the weights of the first: here the second use has weights `1` and runs with `2`.
* `MCT.Build.C120_source_index_violated`: C120 (violation). In PyTorch a layer that uses one tensor of a list gets them all: source index and output index are not read. Keras computes the graph.
* `MCT.Hutch.C121_stopping_violated`: C121, violated with early stopping: the scores are not unbiased. For a network with two outputs whose derivatives are 1 and 0.033, a run of at most 13 vectors gives too large a score on average.
* `MCT.Hutch.C121_channel_violated`: C121 (violation). Per-channel scores of activations are means over the channel in PyTorch and sums in Keras: they differ by the number of elements of the channel, for every network and random vector.
* `MCT.Hutch.C121_torch_scale_violated`: C121 (violation). In the weights calculator of PyTorch the sum of the outputs is divided by the number of rows after concatenation: the scores of all weights of a network with one output of `n` classes estimate the squared derivatives divided by `n²`; for the same derivatives in a network with two outputs and one image, the squared derivatives.
* `MCT.Hutch.C121_scalar_output_violated`: C121 (violation). Networks that return one number per image have no weights scores.
* `MCT.Hutch.C121_torch_inputs_violated`: C121 (violation). The weights calculator of PyTorch passes the list of inputs as one argument: it works for one input, and fails for networks with several.
* `MCT.Loss.C122_short_input_violated`: C122 (violation). In a batch whose inputs have different numbers of samples, the samples beyond the shortest input are dropped without an error.
* `MCT.Loss.C122_steps_violated`: C122 (violation). Otherwise the numbers differ: a generator whose first batch has one sample, followed by `n` batches of `c + 1` samples, makes `n (c + 1) + 1` steps in an epoch instead of the `n + 1` that are counted.
* `MCT.Loss.C122_torch_inputs_violated`: C122 (violation). GPTQ of PyTorch calls the models with the list of inputs as one argument: the first input receives the whole list, and models with several inputs fail.
* `MCT.Loss.C123_keras_flag_violated`: C123 (violation). `mse_loss` of Keras has the flag the wrong way round: asked for the normalized error it returns the error, and the normalized error otherwise.
* `MCT.Loss.C123_keras_batch_violated`: C123 (violation). In Keras the weighted loss is multiplied by the size of the batch.
* `MCT.Loss.C123_column_violated`: C123 (violation). Scores without logarithmic normalization have shape `[layers, 1]`: every weight is multiplied with every loss, so the loss depends on the sum of the weights only. Any two sets of weights with one sum and number give the same loss.
* `MCT.Loss.C123_attention_axis_violated`: C123 (violation). The first axis after the batch holds the channels in PyTorch and the rows of the image in Keras: for the same error the norm of a sample is `e / (H W)` in PyTorch and `e / (W C)` in Keras.
* `MCT.Loss.C123_attention_no_scores_violated`: C123 (violation). If all scores of a batch are zero (the outputs do not depend on the layers) there is no loss.
* `MCT.KFunc.C124_first_strides_violated`: C124 (violation). With the channels first and four strides, as TensorFlow documents them, the layer gets the strides `(1, s)` instead of `(s, t)`.
* `MCT.KFunc.C124_first_bias_violated`: C124 (violation). With the channels first a vector is added along the width by `tf.add`, but along the channels by the layer.
* `MCT.KFunc.C124_groups_violated`: C124 (violation). A convolution with several groups, which the function computes for a kernel with fewer input channels than the input, becomes a layer that cannot be built.
* `MCT.KFunc.C124_scalar_bias_violated`: C124 (violation). A vector with one element, added to all channels, becomes a bias that the layer refuses.
* `MCT.KFunc.C124_none_format_violated`: C124 (violation). A format given as `None`, the default of `tf.nn.convolution`, is an error.
* `MCT.KFunc.C124_depthwise_first_violated`: C124 (violation). With the channels first, a depthwise call becomes a layer with the channels last and the strides `(1, s)`.
* `MCT.KFunc.C124_multiplier_violated`: C124 (violation). A depthwise call with a multiplier other than 1 becomes a layer on which the replacement of depthwise layers fails: it has no initializer.
* `MCT.KFunc.C125_transpose_a_violated`: C125 (violation). A transposed first factor is not noticed: the layer computes the product without the transposition; it fails if the numbers of columns and rows of the tensor differ, and is silently wrong otherwise.
* `MCT.KFunc.C125_first_violated`: C125 (violation). A product whose first factor is the constant is an error.
* `MCT.Decomp.C126_order_violated`: C126 (violation). If the value comes before the query in the order of the nodes, they are exchanged. With one key position attention is the value, 5; after the substitution it is the query, 7.
* `MCT.Decomp.C126_key_violated`: C126 (violation). If the key is the query and the value is another tensor, key and value are exchanged, whatever the order of the nodes: the two edges from one tensor come together.
* `MCT.Decomp.C126_mask_violated`: C126 (violation). An attention mask is used as the key: with query, value and mask the layer has three inputs, as with query, value and key.
* `MCT.Decomp.C126_bias_violated`: C126 (violation). A layer without biases cannot be decomposed.
* `MCT.Export.C127_uniform_violated`: C127, violated: uniform quantizers. Their configuration has no threshold: export of a model with a dense layer whose kernel is quantized uniformly fails, whatever the layer.
* `MCT.Export.C127_dynamic_violated`: C127, violated: unknown sizes. With an unknown size between batch and channels the export fails, although the layer itself accepts inputs of every such size.
* `MCT.Export.C127_shared_violated`: C127, violated: shared layers. A dense layer that is called on inputs of two different shapes cannot be exported.
* `MCT.Export.Fq.C128_constant_violated`: C128, violated: other layers with quantized weights. A model in which another layer has a quantized weight, such as an addition with a quantized constant, cannot be exported.
* `MCT.Export.Fq.C128_table_violated`: C128, violated: look-up tables. A model with a look-up-table quantizer of activations cannot be exported.
* `MCT.Export.Fq.C128_name_violated`: C128, violated: names. A layer whose name contains `optimizer_step` loses its weights on the way, so the export of the model fails.
* `MCT.Export.Fq.C128_check_violated`: C128, violated: the check. A check that answers `False` for every layer does not stop the fake-quant export, nor the MCTQ export; only the INT8 export heeds it.
* `MCT.Export.Torch.C129_function_violated`: C129, violated: quantized constants. A function with a quantized constant cannot be exported to TorchScript: the exporter puts the function in the place of its wrapper.
* `MCT.Export.Torch.C129_constant_violated`: C129, violated: quantized constants. When the wrapped layer is a module, the export drops the constant. ONNX keeps it.
* `MCT.Export.Torch.C129_wide_violated`: C129, violated: more than eight bits. The exported fake-quant ONNX model does not quantize an activation with more than eight bits: the attribute of its holder is the identity.
* `MCT.Export.Torch.C129_check_violated`: C129, violated: the check. A check that answers `False` for every module stops no export.
* `MCT.Export.Torch.C129_names_violated`: C129, violated: names. With a dataset that yields single tensors, a batch of several samples gives several names for the one input.
* `MCT.PerChan.C130_bias_violated`: C130 is false of the code when parameters per channel are requested for an attribute with fewer dimensions than the axis of the kernel needs: the axis of the kernel is used for every attribute of the layer (node_quantization_config.py:440), so that any such array is refused, for example the bias of a Keras convolution (axis 3).
* `MCT.PerChan.C130_small_violated`: C130 is false of the code for symmetric parameters per tensor of a small array: when no threshold above the minimal one is needed (an array of zeros, for example a bias that was not trained), the threshold is a Python number, and building the exported quantizer fails in both frameworks.
* `MCT.PerChan.C131_own_channel_violated`: C131 is false of the code: a channel does not get the threshold with its smallest weighted error. Here only the value `1/4` of channel 0 has a score in that channel; the threshold `2` chosen for it rounds it to zero, while `1/2`, which is among the thresholds tried for the channel, is exact.
* `MCT.PerChan.C131_other_axis_violated`: C131 is false of the code: with the channels along another dimension than the first, the scores weight the errors of other elements. Here only the element at `[0, 1]` has a score; the search makes the error at `[1, 0]` vanish, and the threshold it gives to `[0, 1]` has an error of `3/4`, although the threshold `2`, which was tried, is exact.
* `MCT.PerChan.C131_symmetric_violated`: C131 is false of the code for symmetric thresholds too: at most one multiple for two channels that need different ones. In both channels the first value needs the threshold of the channel itself and in channel 0 only the second value counts, for which half the threshold is exact.
* `MCT.PerChan.C131_constant_channel_violated`: C131 is false of the code: one channel with a single value that is not negative (an empty range, for which quantization gives NaN) switches the search off, and every channel keeps its no-clipping range.
* `MCT.Train.C132_torch_export_violated`: C132 (PyTorch) is false for a weight half way between two values: with two bits on `[-1, 2]`, the weight 1/2 is trained as 1 and exported as 0, since only the exported quantizer rounds before it adds the zero point.
* `MCT.Train.C132_keras_lsq_export_violated`: C132 (Keras, learned range) is false for a weight half way between two values: the weight -1/2 is trained as -1 and exported as 0, since TensorFlow rounds ties up.
* `MCT.Train.C132_keras_lsq_per_tensor_violated`: C132 (Keras, learned range) is false for one range for the whole tensor: the quantizer cannot be constructed, for any range.
* `MCT.Params.C133_part_of_name_violated`: C133 is false if the name of a quantized weight is part of the name of another weight: the values are not found, so the computation fails (for every selection function that needs values).
* `MCT.Params.C133_mixed_violated`: C133 is false for a node that has a named weight and a quantized positional one: the computation always fails.
* `MCT.Params.C133_empty_request_violated`: C133 is false for an empty list of nodes: every node of the graph is computed.
* `MCT.Prior.C134_elu_violated`: C134 (violated). The bound of the ELU layer is right exactly when alpha is at most 1.
* `MCT.Prior.C134_relu_violated`: C134 (violated). The bound of the ReLU layer, for the attributes Keras accepts, is right exactly when the slope below the threshold is not 0 (then nothing is known) or the threshold is 0: with a positive threshold the layer returns 0 below it, less than the bound, which is the threshold.
* `MCT.Prior.C134_gelu_tanh_violated`: C134 (violated). The approximation of GELU with tanh falls below the bound -0.17 of GELU, in both frameworks.
* `MCT.Prior.C134_reported_range_violated`: C134 (violated). The range reported for an ELU layer with alpha above 1 starts at -1 although outputs below -1 were collected: everything below is clipped.
* `MCT.Runs.C135_history_violated`: C135 (violated). Once bit widths were searched with a configuration object, every later quantization with the same object and without a target fails, unless it is bypassed; so does every one with a target that restricts nothing, if no bit widths are predefined.
* `MCT.Runs.C135_overwrite_violated`: C135 (violated). With predefined bit widths and a target that restricts nothing, the later call does not fail: it applies the predefined bit widths, which in a new process it does not.
* `MCT.Runs.C135_default_object_violated`: C135 (violated). Two calls without a configuration, the first with a target: they share the default object, and the second fails, while it succeeds in a new process.
* `MCT.Runs.C135_report_violated`: C135 (violated). A report made before any decorated call fails, and one made after a call of the other framework uses the tables of the other framework.
* `MCT.Moment.C136_dense_violated`: C136 (violated). A quantized layer with a kernel that is not one of the matched convolutions gets no correction at all once the second moment correction is enabled, although its bias is corrected without it.
* `MCT.Moment.C136_own_marked_violated`: C136 (violated). The normalizations of the model itself are marked like the inserted ones.
* `MCT.Moment.C136_never_reached_violated`: C136 (violated). With no number of batches do the new statistics reach those of the batches: for the weight of both frameworks, one tenth, the rest is nine tenths to the power of the number of batches.
* `MCT.Moment.C136_own_changed_violated`: C136 (violated). A normalization of the model itself (it is marked: `C136_own_marked_violated`) changes with a single batch, at every channel where the mean of the batch is not the stored one.
* `MCT.Moment.C136_keras_dropout_violated`: C136 (violated). In Keras dropout layers drop during the correction: on a batch with exactly the stored mean, the mean of the normalization moves (here a dropout that zeroes), while in PyTorch it does not.
* `MCT.Tpc.C137_extension_violated`: C137 (violated). A TPC can be saved to a file with any other extension, and is then never loaded.
* `MCT.Tpc.C137_v1_differs_violated`: C137 (violated). The same TPC of schema 1 given as an object and as a file is never the same: the object is upgraded and shows version 2, the file is not and shows version 1.
* `MCT.Tpc.C137_edited_violated`: C137 (violated). `clone_and_edit` does not validate what it is given: a configuration edited to zero bits can be used and saved, and the file is not loaded.
* `MCT.Reshape.C138_batch_violated`: C138 (violated: the batch is not first). A reshape that puts the batch elsewhere, such as `x.reshape(1, -1)`, is wrong or an error after the substitution for every batch size other than that of the traced images.
* `MCT.Reshape.C138_spatial_violated`: C138 (violated: other image sizes). `x.view(b, c, -1)`, right for images of every size, is wrong or an error for images with another number of pixels than the traced ones.
* `MCT.Reshape.C138_scalar_violated`: C138 (violated: no dimensions). A reshape to a tensor without dimensions ends with an error.
* `MCT.Reshape.C138_keyword_violated`: C138 (violated: sizes by keyword). Sizes given as `shape=...` stay beside the static ones: the call was fine before, and that of the substituted reshape raises an error, wherever the tensor is given.
* `MCT.Reshape.C138_twice_violated`: C138 (violated: a size used twice). A size computed in the graph and given twice, as in `x.view(b, k, k)`, ends with an error, unless it has other consumers.
* `MCT.Reshape.C138_input_violated`: C138 (violated: an input needed for its size only). Let `D` be nodes that are used for nothing but the sizes of the reshape. If an input of the model is one of them, the substitution ends with an error.
* `MCT.Torch.Conv.C139_no_bias_violated`: C139 (violated: no bias). A call without bias, or with a positional `None`, becomes a layer with a bias: the random values a new layer starts with.
* `MCT.Torch.Conv.C139_positional_violated`: C139 (violated: positional options). An option given by position is lost: the layer, when it can be made, has its default.
* `MCT.Torch.Conv.C139_groups_violated`: C139 (violated: groups). A call with several groups never becomes a layer: the layer gets the channels of one group as its channels, and cannot be made or does not accept the kernel.
* `MCT.Torch.Conv.C139_keyword_order_violated`: C139 (violated: the kernel before the input). `conv2d(weight=w, input=x)` ends with an error.
* `MCT.Torch.Conv.C139_dilation_violated`: C139 (violated: large output paddings). A layer PyTorch accepts, with an output padding of at least the stride, ends with an error.
* `MCT.Torch.Conv.C139_other_size_violated`: C139 (violated: several sizes). When the model asks for another size of the same input, in a second call of the layer or for other images, the layer gives the size of the first call for the traced images.
* `MCT.Concat.C140_candidates_violated`: C140 (violated: mixed precision). "No change in case of multiple quantization candidates": a previous node with several candidates is changed, in its first candidate only, so that its candidates have different thresholds.
* `MCT.Concat.C140_power_of_two_violated`: C140 (violated: powers of two). A previous node with power of two thresholds gets the threshold of the concatenation although this is no power of two: its quantizer worked before and is rejected afterwards.
* `MCT.Concat.C140_twice_violated`: C140 (violated: a tensor given twice). A node all of whose uses are inputs of one concatenation, but two of them, is not changed.
* `MCT.Qat.C141_dqa_violated`: C141 (violated: DQA). The training method DQA is offered, but no layer with a quantized kernel or output can be prepared for it, in any framework.
* `MCT.Qat.C141_outputs_violated`: C141 (violated: several outputs). A quantized Keras layer with several outputs, which post-training quantization accepts or not, is never prepared.
* `MCT.Qat.C141_other_weights_violated`: C141 (violated: weights other than the kernel). Settings that ask for the quantization of any other weight, named or positional, are not followed: the only quantizer of a prepared layer is that of its kernel, and this weight stays as it is.
* `MCT.Qat.C141_same_names_violated`: C141 (violated: equal names). A layer two of whose weights have the same name inside their scopes (as the projections of an attention layer) always ends with an error.
* `MCT.Train.C142_keras_order_violated`: C142 (violated: the order of Keras). In every graph with two trained layers, one in an earlier generation than the other but of smaller depth (a short branch beside a long one), whatever the order inside generations and depths: the scores are given to other layers than their own, and there are scores and soft targets for which the regularization is not the specified one.
* `MCT.Train.C142_zero_scores_violated`: C142 (violated: no scores). When all scores are zero the regularization, and with it the loss, is no number.
* `MCT.Train.C142_no_layers_violated`: C142 (violated: nothing to train). Without quantized kernels the regularization is an error in PyTorch.
* `MCT.DataGen.Out.C143_keras_inverse_violated`: C143 (inverse, Keras; violation). The loss of Keras is not one number: what is minimised for a batch of `b` images is `b` times the alignment loss plus the *sum* over the images of the inverse ranges, and the mean of these is at least the loss of PyTorch.
* `MCT.DataGen.Out.C143_torch_half_violated`: C143 (regularization, PyTorch; violation). With the factor 1/2 the regularization is zero at half of the bound, and above it grows with the size of the output, although the output is within the bound.
* `MCT.DataGen.Last.C144_swapped_violated`: C144 (violation). Two outputs, the first through a node that is not linear: each output is regularized with the layer of the other one.
* `MCT.DataGen.Last.C144_missed_violated`: C144 (violation). In the other order the second output is left without regularization.
* `MCT.DataGen.Last.C144_shared_violated`: C144 (violation). Two outputs of one linear layer: the second one is left without regularization.
* `MCT.Qat.Saved.C145_activation_array_violated`: C145 (violation, arrays of activations). An array among the parameters of an activation is loaded as a dictionary since TensorFlow 2.13.
* `MCT.Qat.Saved.C145_candidates_violated`: C145 (violation, mixed precision). A layer with more than one candidate is prepared with a quantizer that cannot be saved; with one candidate it can.
* `MCT.MP.C146_default_fails`: The default single precision is an error as soon as a selected weight has candidates of different bits.
* `MCT.MP.C146_bops_violated`: Violated. A layer whose input and kernel both stay in float costs no bit operations when all that is quantized is selected, but costs 32·32 bit operations for each multiplication when what is inside fused operations is left out of that selection — the selection that the search and the reported utilization use.
* `MCT.Tpc.C147_log_softmax_violated`: C147 is false of `log_softmax` in PyTorch: the function gets the default options whatever the platform has for it; the layer gets those.
* `MCT.Tpc.C147_position_violated`: C147 is false of the arguments of functions in PyTorch: `hardtanh(x, 0, 6)`, with the arguments given by their place, gets the default options, and `hardtanh(x, min_val=0)` gets those of the operation.
* `MCT.Tpc.C147_normalize_violated`: C147 is false of the default arguments of functions in PyTorch: `normalize(x)` is the L2 norm, but a filter that allows `p` to be `None` is not met when `p` is not given, and the default options are taken. With `p=2` they are those of the operation.
* `MCT.Tpc.C147_pooling_violated`: C147 is false of pooling in Keras: `tf.nn.max_pool2d` gets the default options, `tf.nn.avg_pool2d` those of maximum pooling, and the layers `MaxPooling2D` and `AveragePooling2D` those of their operations.
* `MCT.Tpc.C147_elu_violated`: C147 is false of the layer `ELU` of Keras: it gets the default options, `tf.nn.elu` and `Activation('elu')` get those of the operation.
* `MCT.Graph.C148_chain_violated`: C148 (violation). A match that is to be folded, and after it in the list a match with one of its layers that is not skipped for reuse: the pass stops with an error, whatever the rest of the model is. This is so for a batch normalisation, a convolution of size 1 and another layer the second folding looks at, in sequence.
* `MCT.Graph.C148_once_violated`: C148 (violation). Of two batch normalisations after a convolution only the first is folded, although the new convolution and the second could be folded as well: the matches are not searched again.
* `MCT.Cand.C149_offered_violated`: C149 is false of the code for the offered combinations: without mixed precision, the choice of 4 bits for the output gives a layer with an 8 bit kernel and a 4 bit output, which is none of the candidates of the platform.
* `MCT.Cand.C150_unsorted_violated`: The numbers differ for a layer with a kernel that is not quantized: candidates in order of the bits of the kernel stay in this order when the kernel is made float, and the measured model sorts them again, now by the output.
* `MCT.Cand.C150_methods_violated`: A quantized layer that offers two methods with the same bits for its kernel passes the loading and the filtering, and the measured model is refused.
* `MCT.Search.C151_narrow_violated`: No range has a smaller error than one in which no bin ends, or only one that is not empty: its error is zero, whatever it clips.
* `MCT.Search.C151_last_bin_violated`: The full range of the data has a positive error although the quantization is exact: the last bin, which ends at the end of the range, counts as clipped. For every histogram of three or more bins of which none is empty.
* `MCT.Params.C152_ambiguous_violated`: C152 (violated). A weight whose name is in two keys is not found, and what is written to it is lost: all the weights of the layer stay as they were, it is not found afterwards either, and the layer of Keras cannot be built any more.
* `MCT.Params.C152_layer_name_violated`: C152 (violated). In a Keras layer with several weights whose own name contains the name searched for, like "bias" in a layer called "bias_conv", no weight is found, and after a write the layer cannot be built.
* `MCT.Params.C152_part_of_name_violated`: C152 (violated). A layer in which the name of a weight to be quantized is part of the name of another weight cannot be quantized, whatever the weights are.
* `MCT.Rect.C153_constant_violated`: C153, no deviation: the factor of a channel whose deviation is zero (a batch normalization folded with a zero gamma) is NaN whatever its mean, and so is every weight of the channel in the two kernels afterwards, though the channel is constant.
* `MCT.Attach.C154_repeated_violated`: C154, violated: a layer that takes two tensors from one and the same layer is never given statistics for the second of them, whatever calls are made, in whatever order.
* `MCT.Attach.C154_split_violated`: C154, violated: a layer with two outputs, the first used by two layers `a` and `b` and the second by `d`, all with one input: `b` is given the statistics of the second output although it takes the first, and `d` is given none.
* `MCT.Attach.C154_pad_violated`: C154, violated: when the linear layer pads, it and the padding layer put before it are given the statistics of the activation before the shift, whatever the shift, although the layer feeding the padding layer has the shifted ones.
* `MCT.Attach.C154_bypass_violated`: C154, violated: a layer that shift negative correction bypasses has its statistics shifted once for each of its candidates, and so has the linear layer it feeds.
* `MCT.Attach.C154_mean_violated`: C154, violated: in terms of means: when the linear layer pads, the mean it is given for its input differs from the mean of the values the added layer passes on, for every non zero shift.
* `MCT.Route.C155_shared_violated`: C155, violated: a linear layer that is called several times is corrected for each call with the shift of its own activation, but all calls run the layer built from the first of them: a call whose activation was shifted by `s` computes with the bias corrected by `s₀`. What it computes differs from the original by the difference of the shifts times the sum of the kernel, so it is the original exactl…
* `MCT.Loop.C156_one_optimizer_violated`: C156, violated: when one optimizer object is given for two lists of parameters (as for the weights and for the rest), PyTorch training trains the last list only: the parameters of the first list keep their values whatever the data, the epochs and the loss.
* `MCT.Loop.C156_rest_ignored_violated`: C156, violated: the optimizer a user gives the facades for the rest, documented as the one for biases, trains nothing: the biases always go to another, and the weights to the main one, whatever it is.
* `MCT.Shared.C157_bias_violated`: C157 (bias correction), violated: any other call runs with the correction of the first one. Its average output is off by the error of the kernel times the difference of the means of the two inputs, and it is unbiased exactly when this vanishes.
* `MCT.Shared.C157_activation_violated`: C157 (activation bias correction), violated: a call whose activations move by `diff` runs with the correction for those of the first call, which move by `diff₀`: its average output moves by the difference times the sum of the kernel.
* `MCT.Shared.C157_equalized_violated`: C157 (scale equalization), violated: a call after a first layer scaled by `s` runs the layer divided by the scale of the first call. It computes the original layer on an input whose channels are multiplied by the quotient of the two scales.
* `MCT.FoldShared.C158_backward_violated`: C158 (backward folding), violated: the test looks only at the linear layer. Whenever the first call of a normalization follows a linear layer it is folded into and another call is not folded, the model cannot be built.
* `MCT.Reference.C159_activation_violated`: C159, violated: with activation bias correction but without bias correction the network GPTQ learns from has the correction as well; both networks are the same, and it is the float network only if the correction changes nothing.
* `MCT.Reference.C159_second_violated`: C159, violated: with second moment correction the network GPTQ learns from has it as well.
* `MCT.Reference.C159_activation_amount_violated`: C159, violated, the amount: when the graph is a layer with a kernel of one element, the outputs GPTQ is to reproduce are those of the float layer minus the correction, for every input.
* `MCT.Importance.C160_rescaled_group_violated`: C160, violated for groups: of two channels alike, the scale of one changes the score of their group unless it is 1 or −1: the score is multiplied by (1 + s²)² / (4 s²).
* `MCT.NormAxis.C161_length_violated`: C161, violated: along another axis the folding fails unless the axis happens to be as long as there are channels.
* `MCT.NormAxis.C161_axis_violated`: C161, violated: when the axis is as long as there are channels, the folding goes through, and the folded layer uses the parameters of the channel where the model uses those of the coordinate. At a place where the layer reads its input they agree for all inputs exactly when the normalization does the same for the channel and the coordinate.
* `MCT.Detached.C162_torch_violated`: C162, violated: in PyTorch a request with a layer that does not influence the outputs always fails.
* `MCT.Detached.C162_mixed_violated`: C162, violated: in Keras a request in which some layers influence the outputs and some do not fails when the first batch does not have exactly one image.
* `MCT.Detached.C162_batches_violated`: C162, violated: in Keras, when no layer of the request influences the outputs, every batch counts as one image: the request fails exactly when there are fewer batches than images wanted.

## 5. Axioms of each theorem

Output of `#print axioms` for every theorem of MANIFEST.json.

**Classical.choice, Quot.sound, propext** (654): `Quant.C01_output_on_grid`, `Quant.C01_at_most_two_pow_levels`, `Quant.C02_zero_exact`, `Quant.C02_range_moves_little`, `Quant.C03_uniform`, `Quant.C03_symmetric`, `Quant.C04_ties_to_even`, `Quant.C04_nearest_and_error`, `Quant.C05_signed_grid`, `Quant.C05_unsigned_grid`, `Quant.C06_least_pow2`, `Search.C07_per_tensor`, `Search.C07_per_channel`, `Search.C07_axis`, `Search.C08_no_bits_rejected`, `Search.C08_no_clipping`, `Search.C08_symmetric_least`, `Search.C09_min_max_partial`, `Search.C09_histogram_partial`, `Search.C09_uniform_covers`, `Search.C09_min_ignored_violated`, `Search.C09_histogram_left_edge_violated`, `Search.C10_candidates`, `Search.C10_symmetric`, `Search.C10_uniform`, `Search.C10_floor`, `Search.C10_tried`, `Search.C10_uniform_tried`, `Search.C11_nearest_centre`, `Search.C11_lut_contains_zero`, `Search.C11_scaled`, `Search.C12_keeps_or_zeroes`, `Search.C12_inside_unchanged`, `Search.C12_some_bin_survives`, `Search.C13_histogram_search`, `Search.C13_signedness`, `Search.C53_argument_order_partial`, `Search.C53_argument_order_violated`, `Search.C54_uniform_range_partial`, `Search.C54_all_zero_violated`, `Search.C55_infinite_loss_violated`, `Search.C55_infinite_start_violated`, `Collect.C15_updates_partial`, `Collect.C15_scale_shift_partial`, `Collect.C15_unequal_batches_violated`, `Collect.C16_total_count_partial`, `Collect.C16_later_batches_ignored_violated`, `Collect.C17_reported_values`, `Collect.C17_per_channel_scale`, `Collect.C17_min_max_partial`, `Collect.C17_negative_scale_violated`, `Collect.C17_histogram_partial`, `Collect.C17_constant_batch_violated`, `Collect.C56_equal_rank_partial`, `MP.C18_prediction`, `MP.C18_virtual_prediction_partial`, `MP.C19_meets_target_partial`, `MP.C19_search_partial`, `MP.C19_total_without_activations_violated`, `MP.C19_shared_input_violated`, `MP.C19_preserving_violated`, `MP.C20_optimal_partial`, `MP.C20_virtual_optimal_partial`, `MP.C20_negative_violated`, `MP.C21_reported_iff`, `MP.C21_virtual_reported_iff_partial`, `MP.C22_refinement`, `MP.C22_greedy_choice`, `MP.C23_min`, `MP.C23_max`, `MP.C24_weights_formula`, `MP.C24_monotone`, `MP.C25_cut`, `MP.C25_bits`, `MP.C25_bits_exist`, `MP.C57_selected_partial`, `MP.C58_max_config`, `Pruning.C40_fits_or_reported`, `Pruning.C40_greedy_maximal`, `Pruning.C41_whole_groups`, `Pruning.C42_groups`, `Pruning.C59_group_order_violated`, `Pruning.C59_equal_partial`, `Pruning.C60_channel_scores`, `Pruning.C43_keras_partial`, `Pruning.C43_edges`, `Pruning.C61_sections`, `Pruning.C61_complete`, `Pruning.C62_estimate`, `Pruning.C62_each_layer_once`, `Pruning.C63_outputs_partial`, `Pruning.C64_section`, `MaxCut.C27_schedule_partial`, `MaxCut.C27_found_partial`, `MaxCut.C27_large_graph_violated`, `MaxCut.C28_bracketed`, `MaxCut.C28_lower_bound`, `MaxCut.C65_one_search`, `MaxCut.C65_near_optimal`, `MaxCut.C65_no_regression`, `Graph.C29_identity_removal_partial`, `Graph.C29_second_output_violated`, `Graph.C30_reconnect_out`, `Graph.C30_reconnect_in`, `Graph.C30_replace_connections`, `Graph.C30_add_with_inputs`, `Graph.C30_replace_function_partial`, `Graph.C30_input_order_violated`, `Graph.C66_swish_partial`, `Graph.C66_gated_violated`, `Graph.C67_residual_partial`, `Graph.C67_left_alone`, `Graph.C67_two_outputs_violated`, `Subst.C67_kernel_partial`, `Subst.C67_model_partial`, `Subst.C67_broadcast_violated`, `Graph.C68_insert_partial`, `Graph.C68_second_output_violated`, `Graph.C69_remove_partial`, `Graph.C69_second_input_violated`, `Graph.C70_decomposed_partial`, `Graph.C70_outputs_dropped_violated`, `Subst.C70_depthwise_layer`, `Graph.C71_split`, `Graph.C71_append`, `Subst.C32_folded_layer_partial`, `Subst.C32_model_partial`, `Graph.C32_merge_two_layers_partial`, `Graph.C32_model_output_violated`, `Subst.C32_grouped_transpose_violated`, `Subst.C33_folded_layer_partial`, `Subst.C33_applied`, `Subst.C33_left_alone`, `Subst.C33_depthwise_front_partial`, `Subst.C33_padding_violated`, `Subst.C33_strided_transpose_violated`, `Subst.C33_depthwise_transpose_violated`, `Subst.C33_multiplier_violated`, `Subst.C33_depthwise_stride_violated`, `Subst.C33_depthwise_activation_violated`, `Subst.C34_inserted_is_identity`, `Subst.C34_model`, `Subst.C34_refused_restores`, `Subst.C34_refused_corrected_partial`, `Subst.C35_scaled_pair`, `Subst.C35_relu_homogeneous`, `Subst.C35_scale_factor`, `Subst.C35_model_partial`, `Subst.C35_bounded_violated`, `Subst.C35_threshold_violated`, `Subst.C35_model_output_violated`, `Subst.C35_bound`, `Subst.C35_bound_functional_violated`, `Subst.C35_bound_threshold_violated`, `Subst.C72_symmetric`, `Subst.C72_uniform`, `Subst.C72_nearest`, `Subst.C72_quantized_layer`, `Subst.C72_scale_positive`, `Subst.C36_collapsed_partial`, `Subst.C36_applied`, `Subst.C36_model_partial`, `Subst.C36_torch_kernel_size`, `Subst.C36_torch_non_square_violated`, `Subst.C36_bias_shape`, `Subst.C36_scalar_bias_violated`, `Subst.C36_loop`, `Subst.C73_add_constant_partial`, `Subst.C73_constant_shape_violated`, `Subst.C74_reported_channels_partial`, `Subst.C74_reported_channels_violated`, `Subst.C37_bias_corrected`, `Subst.C37_padded`, `Subst.C37_zero_padding_layer`, `Subst.C37_conv_padded`, `Subst.C37_average_equivariant`, `Subst.C37_avg_pool_padded_violated`, `Subst.C37_torch_padding`, `Subst.C37_keras_padding`, `Subst.C37_torch_same_violated`, `Subst.C37_padding_mode_violated`, `Subst.C37_shift_value`, `Subst.C37_shift_condition`, `Subst.C37_shift_exceeds_violated`, `Subst.C37_search`, `Subst.C37_search_violated`, `Subst.C37_model_partial`, `Subst.C37_model_padded_partial`, `Subst.C37_output_violated`, `Subst.C75_unbiased_partial`, `Subst.C75_no_error`, `Subst.C75_grouped_transpose_violated`, `Subst.C75_grouped_transpose_fails`, `Subst.C76_unbiased_partial`, `Subst.C76_larger_kernel_left_alone`, `Subst.C76_gap_violated`, `Subst.C76_grouped_transpose_violated`, `Subst.C77_softmax_shift`, `Subst.C77_layer_partial`, `Subst.C77_model_partial`, `Subst.C77_without_bias_violated`, `Subst.C77_output_violated`, `Subst.C78_input_scaling`, `Subst.C78_two_inputs_violated`, `Graph.C79_search`, `Graph.C79_once`, `Graph.C79_disjoint`, `Fusing.C38_history_partial`, `Fusing.C38_lookup`, `Fusing.C38_start`, `Fusing.C38_generated_partial`, `Fusing.C38_overlap_violated`, `Fusing.C38_missing_config_violated`, `Fusing.C39_chains_partial`, `Fusing.C39_disjoint_partial`, `Fusing.C39_complete_partial`, `Fusing.C39_accepted`, `Fusing.C39_manual`, `Fusing.C39_overlap_violated`, `Fusing.C39_longer_pattern_violated`, `Fusing.C80_add_partial`, `Fusing.C80_add_joined`, `Fusing.C80_padding`, `Fusing.C80_unfused_violated`, `Fusing.C80_prev_only_violated`, `Fusing.C81_contract_partial`, `Fusing.C81_apply_partial`, `Fusing.C81_checked`, `Fusing.C81_inner_input_violated`, `Fusing.C81_inner_output_violated`, `Fusing.C81_repeated_input_violated`, `Fusing.C81_repeated_output_violated`, `Tpc.C48_match_exact`, `Tpc.C48_filter_params`, `Tpc.C49_chosen`, `Tpc.C49_error`, `Cand.C50_defined`, `Cand.C50_loaded`, `Cand.C50_accepted`, `Cand.C50_mode`, `Cand.C51_candidates_partial`, `Cand.C51_activation`, `Cand.C51_recorded`, `Cand.C51_recorded_weights`, `Cand.C52_represented_partial`, `Cand.C52_nonempty`, `Cand.C84_source`, `Cand.C85_quantized`, `Train.C86_symmetric_torch`, `Train.C86_symmetric_keras`, `Train.C86_uniform_torch_partial`, `Train.C86_uniform_torch_violated`, `Train.C86_uniform_keras_rounds_down`, `Train.C86_uniform_keras_violated`, `Train.C87_soft_symmetric`, `Train.C87_soft_uniform`, `Train.C87_ste`, `Train.C87_per_tensor_violated`, `Train.C88_gptq_symmetric`, `Train.C88_gptq_uniform`, `Train.C88_gptq_ste_partial`, `Train.C88_gptq_ste_violated`, `Train.C88_qat_symmetric_partial`, `Train.C88_qat_ste_weights`, `Train.C88_qat_pot_violated`, `Train.C89_schedule`, `Train.C89_monotone`, `Train.C89_gradual`, `Train.C89_last_step_violated`, `Train.C90_log_weights_partial`, `Train.C90_normalized`, `Train.C90_mean`, `Train.C90_weights`, `Train.C90_options`, `Train.C90_two_zero_scores_fails`, `Train.C90_one_layer_fails`, `Train.C90_equal_scores_fails`, `Train.C91_soft`, `Train.C91_ste_keras`, `Train.C91_ste_torch_partial`, `Train.C91_ste_torch_violated`, `Train.C92_uniform`, `Train.C92_symmetric`, `Train.C92_one_bit_violated`, `Hessian.C94_fetch`, `Hessian.C94_consistent`, `Hessian.C94_needed`, `Hessian.C96_same_samples_partial`, `Hessian.C96_retry_violated`, `Hessian.C97_hessians_partial`, `Torch.C98_round_trip_partial`, `Torch.C99_kept_iff`, `Torch.C99_edges`, `Torch.Reuse.C100_owner`, `Torch.Reuse.C100_defined`, `Torch.Reuse.C100_shared`, `MP.C101_reconstruct_partial`, `MP.C101_complete_partial`, `MP.C101_accepted`, `Sens.C102_evaluated`, `Sens.C102_history`, `Sens.C102_answered_iff`, `Sens.C102_torch_partial`, `Sens.C102_keras_partial`, `Sens.C103_metric`, `Sens.C103_weights_only_measured`, `Sens.C104_value_partial`, `Sens.C104_batches_partial`, `Sens.C104_zero_violated`, `Sens.C104_zero_raises_violated`, `Sens.C104_zero_batches_violated`, `Sens.C105_nmse`, `Sens.C105_cosine`, `Sens.C105_cosine_self`, `Sens.C105_kl_self`, `Sens.C105_kl_partial`, `Sens.C105_metric_nonneg`, `Sens.C105_metric_zero_partial`, `Sens.C105_kl_negative_violated`, `Sens.C105_kl_bound_violated`, `Sens.C106_bound`, `Sens.C106_points`, `Sens.C106_tensors`, `Sens.C106_few_violated`, `Decomp.C107_matmul_partial`, `Decomp.C107_call_partial`, `Decomp.C107_same_violated`, `Decomp.C107_constant_violated`, `Decomp.C107_empty_violated`, `Decomp.C108_attention`, `Decomp.C108_call_partial`, `Decomp.C108_roles_iff`, `Decomp.C108_order_violated`, `Decomp.C108_batch_violated`, `Decomp.C109_attention`, `Decomp.C109_roles_iff`, `Decomp.C109_call_partial`, `Decomp.C109_mask_tensor`, `Decomp.C109_repeated_violated`, `Decomp.C109_zero_scale_violated`, `Decomp.C109_keyword_violated`, `Decomp.C109_self_keyword_violated`, `Decomp.C109_constant_violated`, `Torch.Functional.C110_linear`, `Torch.Functional.C110_layer_norm_partial`, `Torch.Functional.C110_batch_norm_partial`, `KReader.C111_read_partial`, `KReader.C111_reused_violated`, `KReader.C112_list_partial`, `KReader.C112_const_partial`, `KReader.C112_plain_partial`, `KReader.C112_literal_first_violated`, `KReader.C112_alphabetical_violated`, `KReader.C112_keyword_tensor_violated`, `KReader.C112_repeated_violated`, `KReader.C112_axis_violated`, `KReader.C112_constant_axis_violated`, `KReader.C112_hole_violated`, `KReader.C112_hole_swapped_violated`, `KReader.C112_scalar_violated`, `KReader.C112_variable_violated`, `Editor.C113_kept`, `Editor.C113_activation`, `Editor.C113_weights`, `Editor.C113_final`, `Editor.C114_single_activation`, `Editor.C114_single_weights`, `Editor.C114_fixed`, `Editor.C114_chosen`, `Editor.C114_mixed_activation_partial`, `Editor.C114_mixed_weights_partial`, `ActQ.C115_torch_symmetric`, `ActQ.C115_torch_power_of_two`, `ActQ.C115_torch_uniform`, `ActQ.C115_keras_symmetric_partial`, `ActQ.C115_keras_power_of_two_partial`, `ActQ.C115_keras_uniform_partial`, `ActQ.C115_agree`, `ActQ.C115_zero`, `ActQ.C115_lut`, `ActQ.C115_keras_range_violated`, `XQuant.C116_report`, `XQuant.C116_report_exists`, `XQuant.C116_mse`, `XQuant.C116_sqnr`, `XQuant.C116_cs_torch`, `XQuant.C116_keras_cs`, `XQuant.C116_hooks_left`, `XQuant.C116_keras_cs_violated`, `XQuant.C116_output_key_violated`, `XQuant.C116_keras_last_sample_violated`, `XQuant.C116_shared_layer_violated`, `DataGen.C117_clip_torch`, `DataGen.C117_torch`, `DataGen.C117_torch_identity_violated`, `DataGen.C117_keras`, `DataGen.C117_keras_clip_violated`, `DataGen.C117_torch_iterations_violated`, `DataGen.C117_torch_identity_clip_violated`, `DataGen.C117_smoothed`, `DataGen.C117_smoothed_keras`, `DataGen.C118_accumulated_torch`, `DataGen.C118_accumulated_keras`, `DataGen.C118_loss_keras`, `DataGen.C118_loss_torch`, `DataGen.C118_average_weights`, `DataGen.C118_first_weights`, `DataGen.C118_unequal_batches_violated`, `DataGen.C118_keras_variance_violated`, `DataGen.C118_stale_violated`, `DataGen.C118_torch_eps_violated`, `DataGen.Plateau.C119_rate`, `DataGen.Plateau.C119_spacing`, `DataGen.Plateau.C119_improving`, `DataGen.Plateau.C119_stays`, `DataGen.Plateau.C119_plateau`, `DataGen.Plateau.C119_negative_plateau_violated`, `DataGen.Plateau.C119_worsening_violated`, `DataGen.Plateau.C119_generation`, `DataGen.Plateau.C119_generation_bounds`, `Build.C120_torch`, `Build.C120_preserving_unused`, `Build.C120_many_outputs_violated`, `Build.C120_shared_weights_violated`, `Build.C120_source_index_violated`, `Build.C120_keras_name`, `Hutch.C121_unbiased`, `Hutch.C121_per_image`, `Hutch.C121_zero`, `Hutch.C121_mean`, `Hutch.C121_unbiased_run`, `Hutch.C121_stopping_above`, `Hutch.C121_stopping_violated`, `Hutch.C121_channel_violated`, `Hutch.C121_torch_scale_violated`, `Loss.C122_samples`, `Loss.C122_attention`, `Loss.C122_plain`, `Loss.C122_steps`, `Loss.C122_short_input_violated`, `Loss.C122_steps_violated`, `Loss.C123_layer`, `Loss.C123_torch`, `Loss.C123_keras_plain`, `Loss.C123_zero`, `Loss.C123_attention_scale`, `Loss.C123_attention_zero`, `Loss.C123_column_violated`, `Loss.C123_attention_no_scores_violated`, `KFunc.C124_conv`, `KFunc.C124_conv_first_partial`, `KFunc.C124_depthwise_first_violated`, `KFunc.C125_matmul`, `KFunc.C125_transpose_a_violated`, `Decomp.C126_attention`, `Decomp.C126_roles_iff`, `Decomp.C126_call_partial`, `Decomp.C126_order_violated`, `Decomp.C126_key_violated`, `Decomp.C126_mask_violated`, `Decomp.C126_four`, `Decomp.C126_bias_violated`, `Export.C127_dense`, `Export.Fq.C128_export`, `Export.Fq.C128_succeeds_iff`, `Export.Fq.C128_constant_violated`, `Export.Fq.C128_table_violated`, `Export.Fq.C128_name_violated`, `Export.Fq.C128_check_violated`, `Export.Fq.C128_kernel`, `Export.Torch.C129_wrapper`, `Export.Torch.C129_onnx_partial`, `Export.Torch.C129_torchscript_partial`, `PerChan.C130_channel`, `PerChan.C130_no_clipping`, `PerChan.C130_uniform`, `PerChan.C130_search`, `PerChan.C130_search_tensor`, `PerChan.C130_succeeds_iff`, `PerChan.C130_bias_violated`, `PerChan.C130_export`, `PerChan.C130_export_uniform`, `PerChan.C130_small_violated`, `PerChan.C131_common_shift`, `PerChan.C131_first_axis_partial`, `PerChan.C131_own_channel_violated`, `PerChan.C131_other_axis_violated`, `PerChan.C131_per_tensor`, `PerChan.C131_symmetric_common`, `PerChan.C131_symmetric_violated`, `PerChan.C131_uniform_common`, `PerChan.C131_constant_channel_violated`, `PerChan.C131_tried`, `Train.C132_keras_ste_own_channel`, `Train.C132_range_own_channel`, `Train.C132_keras_ste_export`, `Train.C132_torch_export_partial`, `Train.C132_keras_lsq_export_partial`, `Train.C132_torch_export_violated`, `Train.C132_keras_lsq_export_violated`, `Params.C133_total_partial`, `Params.C133_empty_request_violated`, `Prior.C134_keras_bounds_partial`, `Prior.C134_torch_bounds_partial`, `Prior.C134_bounded_layers`, `Prior.C134_elu_violated`, `Prior.C134_relu_violated`, `Prior.C134_gelu_tanh_violated`, `Prior.C134_activation_table`, `Prior.C134_shifted`, `Prior.C134_reported_range_partial`, `Prior.C134_reported_range_violated`, `Runs.C135_bypass`, `Moment.C136_corrected`, `Moment.C136_between`, `Moment.C136_residual`, `Moment.C136_unchanged`, `Moment.C136_never_reached_violated`, `Moment.C136_own_changed_violated`, `Moment.C136_keras_dropout_violated`, `Tpc.C137_edited_violated`, `Reshape.C138_call`, `Reshape.C138_outputs`, `Reshape.C138_kept`, `Reshape.C138_no_leftovers`, `Reshape.C138_success_partial`, `Reshape.C138_twice_violated`, `Reshape.C138_input_violated`, `Torch.Conv.C139_conv_partial`, `Torch.Conv.C139_no_bias_violated`, `Torch.Conv.C139_positional_violated`, `Torch.Conv.C139_groups_violated`, `Torch.Conv.C139_keyword_order_violated`, `Torch.Conv.C139_asked_size`, `Torch.Conv.C139_other_size_violated`, `Concat.C140_exact`, `Concat.C140_order`, `Concat.C140_quantized_once`, `Concat.C140_candidates_violated`, `Concat.C140_power_of_two_violated`, `Concat.C140_twice_violated`, `Qat.C141_supported`, `Qat.C141_trained_weights`, `Qat.C141_dqa_violated`, `Qat.C141_outputs_violated`, `Qat.C141_other_weights_violated`, `Qat.C141_same_names_violated`, `Train.C142_own_weight`, `Train.C142_equal_scores`, `Train.C142_range`, `Train.C142_zero_iff`, `Train.C142_monotone`, `Train.C142_schedule`, `Train.C142_keras_order_violated`, `Train.C142_zero_scores_violated`, `Train.C142_no_layers_violated`, `DataGen.Out.C143_negative`, `DataGen.Out.C143_inverse_torch`, `DataGen.Out.C143_wider`, `DataGen.Out.C143_keras_inverse_violated`, `DataGen.Out.C143_regularized`, `DataGen.Out.C143_torch_half_violated`, `DataGen.Out.C143_regularized_classes`, `DataGen.Out.C143_regularized_mean`, `DataGen.Last.C144_found`, `DataGen.Last.C144_chain`, `Qat.Saved.C145_weights`, `Qat.Saved.C145_activation`, `Qat.Saved.C145_activation_array_violated`, `MP.C146_bounds`, `MP.C146_float`, `MP.C146_weights_any`, `MP.C146_cut_split`, `MP.C146_tensor`, `MP.C146_tensor_which`, `MP.C146_default_fails`, `MP.C146_exists`, `MP.C146_bops_violated`, `MP.C146_bops`, `MP.C146_search`, `Tpc.C147_set`, `Tpc.C147_unlisted`, `Tpc.C147_torch`, `Tpc.C147_keras`, `Tpc.C147_keras_names`, `Tpc.C147_log_softmax_violated`, `Tpc.C147_position_violated`, `Tpc.C147_normalize_violated`, `Tpc.C147_pooling_violated`, `Tpc.C147_elu_violated`, `Graph.C148_folding_partial`, `Graph.C148_kinds`, `Graph.C148_chain_violated`, `Graph.C148_identities_partial`, `Graph.C148_once_violated`, `Subst.C148_batch_normalisations`, `Cand.C149_chosen`, `Cand.C150_accepted`, `Cand.C150_indices`, `Cand.C150_numbers`, `Cand.C150_methods_violated`, `Search.C151_divergence`, `Search.C151_mass`, `Search.C151_exact`, `Search.C151_values`, `Search.C151_shares`, `Search.C151_powers`, `Search.C151_narrow_violated`, `Search.C151_last_bin_violated`, `Params.C152_read`, `Params.C152_write`, `Params.C152_add`, `Params.C152_keras_build`, `Params.C152_keras_partial`, `Params.C152_quantize_partial`, `Params.C152_bias_partial`, `Params.C152_gptq`, `Params.C152_ambiguous_violated`, `Params.C152_layer_name_violated`, `Params.C152_part_of_name_violated`, `Rect.C153_mean`, `Rect.C153_second`, `Rect.C153_scale`, `Rect.C153_known`, `Rect.C153_constant_violated`, `Attach.C154_inputs_partial`, `Attach.C154_outputs`, `Attach.C154_repeated_violated`, `Attach.C154_split_violated`, `Attach.C154_shift`, `Attach.C154_pad_violated`, `Attach.C154_bypass_violated`, `Attach.C154_mean_violated`, `Route.C155_selected`, `Route.C155_once`, `Route.C155_shared_violated`, `Loop.C156_keras`, `Loop.C156_untouched`, `Shared.C157_bias_first_partial`, `Shared.C157_bias_violated`, `Shared.C157_activation_violated`, `Shared.C157_equalized_partial`, `Shared.C157_equalized_violated`, `FoldShared.C158_backward_violated`, `Reference.C159_activation_amount_violated`, `Importance.C160_channel`, `Importance.C160_all_weights`, `Importance.C160_group`, `Importance.C160_layout`, `Importance.C160_rescaled_channels`, `Importance.C160_rescaled_group_partial`, `Importance.C160_rescaled_group_violated`, `NormAxis.C161_channels`, `NormAxis.C161_axis_violated`

**Quot.sound, propext** (214): `Collect.C14_reported_values`, `Collect.C14_per_channel`, `Collect.C14_per_tensor`, `Collect.C14_order_and_partition`, `Collect.C14_permutation`, `Collect.C15_start`, `Collect.C15_scale_lost_violated`, `Collect.C17_illegal_reads_raise`, `MP.C25_max`, `MP.C25_total`, `MP.C26_satisfied`, `Pruning.C59_singleton_partial`, `Pruning.C43_torch_violated`, `Pruning.C63_output_channels_violated`, `Graph.C30_remove_checked`, `Graph.C66_left_alone`, `Subst.C67_same_padding`, `Subst.C67_grouped_fails`, `Subst.C70_depthwise_when`, `Subst.C33_no_padding`, `Subst.C34_without_bias_fails`, `Subst.C35_padding_homogeneous`, `Subst.C35_grouped_fails`, `Subst.C35_bound_left_alone`, `Subst.C35_bound_without_bias_violated`, `Subst.C72_grouped_transpose_fails`, `Subst.C73_add_constant_applies`, `Subst.C37_reindex_equivariant`, `Subst.C37_identity_equivariant`, `Subst.C37_same_padding_partial`, `Subst.C76_no_error`, `Subst.C78_reported_partial`, `Fusing.C38_inner`, `Fusing.C38_quantized_partial`, `Fusing.C38_unfused`, `Fusing.C39_name_clash_violated`, `Tpc.C44_edit_weight_attribute_partial`, `Tpc.C44_missing_attribute`, `Tpc.C44_unedited_lost`, `Tpc.C44_op_edit`, `Tpc.C44_clone_valid`, `Tpc.C44_rename`, `Tpc.C44_rename_lookup`, `Tpc.C45_upgrade_partial`, `Tpc.C45_result_valid`, `Tpc.C45_no_fusing_violated`, `TpcContext.C46_normal_partial`, `TpcContext.C46_program_partial`, `TpcContext.C46_new_block`, `TpcContext.C46_components`, `TpcContext.C46_finalized`, `TpcContext.C46_exception_violated`, `TpcContext.C46_outside_violated`, `TpcContext.C46_nested_violated`, `TpcContext.C46_refused`, `Tpc.C47_equality_partial`, `Tpc.C47_symmetric_partial`, `Tpc.C47_conditions_violated`, `Tpc.C47_key_order_violated`, `Tpc.C47_display`, `Tpc.C48_match_defined`, `Tpc.C48_config`, `Tpc.C49_options_by_name`, `Tpc.C49_mapping`, `Tpc.C49_layer_options`, `Tpc.C49_attach`, `Tpc.C82_fusing_patterns`, `Tpc.C82_names_distinct`, `Tpc.C83_contains`, `Cand.C50_readable`, `Cand.C50_base_partial`, `Cand.C50_equal`, `Cand.C50_candidate`, `Cand.C51_last_selection`, `Cand.C51_weights_base`, `Cand.C51_accepted`, `Cand.C52_only_unquantized`, `Cand.C85_unquantized`, `Train.C93_assigned`, `Hessian.C94_primary`, `Hessian.C95_force`, `Hessian.C97_activations`, `Torch.C98_list_violated`, `Torch.C98_positional_violated`, `Torch.C98_literal_violated`, `Torch.C98_keyword_violated`, `Torch.C98_constant_violated`, `Torch.C98_module_violated`, `Torch.C98_after_list_violated`, `Torch.C98_outputs_violated`, `Torch.C99_output_violated`, `Torch.Reuse.C100_function_violated`, `MP.C101_reused_violated`, `Sens.C102_rejected_violated`, `Sens.C103_weights_only`, `Sens.C103_activation_only`, `Sens.C104_images`, `Decomp.C108_rejected`, `Decomp.C108_mask`, `Decomp.C108_self_violated`, `Decomp.C108_first_violated`, `Decomp.C109_rejects`, `KReader.C111_second_argument_violated`, `KReader.C111_residual_violated`, `KReader.C111_twice_violated`, `KReader.C111_same_input_violated`, `KReader.C111_pass_violated`, `Editor.C113_untouched`, `Editor.C113_rejected`, `Editor.C113_replace`, `Editor.C113_property_violated`, `ActQ.C115_keras_bits_violated`, `XQuant.C116_duplicate`, `XQuant.C116_empty_dataset`, `XQuant.C116_labels_dropped`, `XQuant.C116_representative`, `DataGen.C118_stale`, `DataGen.Plateau.C119_falling`, `Build.C120_keras`, `Hutch.C121_torch_inputs_violated`, `Loss.C122_fixed_torch`, `Loss.C122_fixed_keras`, `Loss.C122_with_info`, `Loss.C122_torch_inputs_violated`, `Loss.C123_keras_flag_violated`, `Loss.C123_keras_batch_violated`, `Loss.C123_attention_axis_violated`, `KFunc.C124_depthwise`, `KFunc.C124_first_strides_violated`, `KFunc.C124_first_bias_violated`, `KFunc.C124_groups_violated`, `KFunc.C124_scalar_bias_violated`, `KFunc.C124_none_format_violated`, `Export.C127_uniform_violated`, `Export.C127_dynamic_violated`, `Export.C127_shared_violated`, `Export.Fq.C128_formats`, `Export.Torch.C129_mctq`, `Export.Torch.C129_function_violated`, `Export.Torch.C129_constant_violated`, `Export.Torch.C129_wide_violated`, `Export.Torch.C129_check_violated`, `Export.Torch.C129_names`, `Export.Torch.C129_names_violated`, `Train.C132_keras_lsq_per_tensor_violated`, `Params.C133_own_values_partial`, `Params.C133_no_function`, `Params.C133_part_of_name_violated`, `Params.C133_mixed_violated`, `Params.C133_activations`, `Params.C133_requested_partial`, `Runs.C135_history_partial`, `Runs.C135_history_violated`, `Runs.C135_new_process`, `Runs.C135_overwrite_violated`, `Runs.C135_report_partial`, `Runs.C135_report_violated`, `Runs.C135_own_tables`, `Moment.C136_torch_dropout`, `Tpc.C137_roundtrip`, `Tpc.C137_extension_violated`, `Tpc.C137_injective`, `Tpc.C137_v1_file`, `Tpc.C137_v1_differs_violated`, `Tpc.C137_v1_agree_partial`, `Tpc.C137_object`, `Tpc.C137_attr_defaults`, `Tpc.C137_one_input_width`, `Reshape.C138_same_iff`, `Reshape.C138_traced`, `Reshape.C138_constant_rest`, `Reshape.C138_flatten`, `Reshape.C138_batch_violated`, `Reshape.C138_spatial_violated`, `Reshape.C138_scalar_violated`, `Reshape.C138_keyword_violated`, `Torch.Conv.C139_padding_partial`, `Torch.Conv.C139_dilation_violated`, `Concat.C140_success`, `Concat.C140_uniform_unchanged`, `Qat.C141_prepared`, `DataGen.Last.C144_linear_outputs`, `DataGen.Last.C144_swapped_violated`, `DataGen.Last.C144_missed_violated`, `DataGen.Last.C144_shared_violated`, `DataGen.Last.C144_keras`, `DataGen.Last.C144_keras_last`, `Qat.Saved.C145_kind`, `Qat.Saved.C145_candidates_violated`, `MP.C146_weights_split`, `MP.C146_default`, `MP.C146_bops_refused`, `Cand.C149_base`, `Cand.C149_loaded`, `Cand.C150_unsorted_violated`, `Params.C152_full_name`, `Loop.C156_torch`, `Loop.C156_one_optimizer_violated`, `FoldShared.C158_built_iff`, `FoldShared.C158_owner`, `FoldShared.C158_folded_iff`, `FoldShared.C158_forward`, `FoldShared.C158_backward_partial`, `Reference.C159_student`, `Reference.C159_teacher`, `Reference.C159_float_partial`, `Reference.C159_activation_violated`, `Reference.C159_second_violated`, `NormAxis.C161_length_violated`, `Detached.C162_attached`, `Detached.C162_single`, `Detached.C162_torch_violated`, `Detached.C162_mixed_violated`, `Detached.C162_batches_violated`

**propext** (61): `MP.C57_reused_name_violated`, `Graph.C29_other_left_alone`, `Graph.C31_comparison`, `Graph.C31_equality_partial`, `Graph.C31_equivalence_violated`, `Graph.C68_insert_after`, `Graph.C68_insert_before`, `Graph.C32_shared_left_alone`, `Subst.C36_pointwise_reads`, `Subst.C37_pad_after_bypass_fails`, `Graph.C79_nodes_edges`, `Tpc.C44_accepted`, `Tpc.C44_drops_others_violated`, `Tpc.C45_name_violated`, `Tpc.C45_simd_violated`, `Tpc.C47_symmetric_violated`, `Tpc.C47_layer_violated`, `Tpc.C47_key_collision_violated`, `Tpc.C48_or_and`, `Tpc.C48_chain_violated`, `Cand.C50_base_violated`, `Cand.C51_short_name_violated`, `Cand.C51_part_of_name_violated`, `Cand.C51_base_violated`, `Cand.C51_empty_violated`, `Cand.C52_bias_violated`, `Cand.C52_signedness_violated`, `Cand.C52_positional_violated`, `Train.C93_main_first`, `Train.C93_starts_partial`, `Train.C93_rest_required_violated`, `Hessian.C94_number_required`, `Hessian.C95_zero_samples_violated`, `Hessian.C96_other_samples_violated`, `Hessian.C97_early_output_violated`, `Hessian.C97_reused_layer_violated`, `Torch.Reuse.C100_first_call_violated`, `Sens.C102_reused_violated`, `Sens.C102_reused_relu_violated`, `Sens.C103_unfiltered`, `Sens.C103_activation_only_reused_violated`, `Torch.Functional.C110_two_dims_violated`, `Torch.Functional.C110_positional_eps_violated`, `Torch.Functional.C110_bias_only_violated`, `Torch.Functional.C110_defaults_violated`, `Torch.Functional.C110_training_violated`, `Torch.Functional.C110_swapped_violated`, `Torch.Functional.C110_positional_none_violated`, `Torch.Functional.C110_input_last_violated`, `Editor.C113_layer_name_violated`, `Editor.C114_order_violated`, `Editor.C114_replace_violated`, `Editor.C114_stale_violated`, `KFunc.C124_multiplier_violated`, `KFunc.C125_other`, `KFunc.C125_first_violated`, `Runs.C135_default_object_violated`, `Moment.C136_own_marked_violated`, `Cand.C149_offered_violated`, `Route.C155_loop`, `Loop.C156_rest_ignored_violated`

**none** (11): `Collect.C56_lower_rank_violated`, `Subst.C67_dilated_even_violated`, `Subst.C37_dilation_violated`, `Subst.C37_stride_violated`, `Subst.C37_torch_pad_layer_fails`, `Tpc.C45_current`, `Cand.C85_function_violated`, `XQuant.C116_hooks_violated`, `Hutch.C121_scalar_output_violated`, `Moment.C136_one_correction_partial`, `Moment.C136_dense_violated`

(`MCT.` is left out of the names.)

## 6. Code that is modelled

Lines cited by the definitions and their comments, per Python file.

| file | lines | modules |
|------|-------|---------|
| `actions.py` | 32-58, 82-423, 96-110, 108-110, 127-131, 129-131, 146-156, 155-156, 171-174, 173-174, 198-215, 209-215, 233-256, 245-256, 273-295, 315-340, 325-340, 359-385, 403-423 | Editor |
| `activation_decomposition.py` | 96-107 | Graph |
| `activation_hessian_scores_calculator_keras.py` | 89-160, 95-152 | Hutch |
| `activation_hessian_scores_calculator_pytorch.py` | 81-105, 103-140, 106-140 | Hessian, Hutch |
| `annealing_schedulers.py` | 18-38, 19-38, 20-31, 56-67 | Train |
| `apply_activation_bias_correction_to_graph.py` | 22-81, 38-47, 48-76 | Runs, Subst |
| `apply_bias_correction_to_graph.py` | 25-82, 41-54, 43-54, 43-52, 53-81, 54-83, 68-81 | Moment, Params, Runs, Subst |
| `apply_second_moment_correction.py` | 42-51, 44-53 | Moment |
| `apply_second_moment_correction_to_graph.py` | 84-107 | Runs |
| `apply_substitutions.py` | 20-38, 21-37, 32-36 | Concat, Graph, Runs |
| `attach2fw.py` | 13-21, 23-66, 43-64 | Tpc |
| `attach2keras.py` | 43-124, 59-100, 110-124, 117-121 | Tpc |
| `attach2pytorch.py` | 40-112, 58-59, 99-100, 108-109 | Tpc |
| `attribute_filter.py` | 22-200, 61-76, 78-91, 93-105, 107-120, 146-161, 158-161, 180-193, 190-193, 203-282 | Tpc |
| `base_graph.py` | 48-88, 60-94, 71-107, 72-73, 182-222, 182-295, 198-206, 200-201, 200-209, 204-206, 206, 207-208, 211, 213-214, 217-219, 219, 224-234, 277-295, 310-323, 325-343, 325-344, 346-360, 362-377, 379-403, 401-403, 405-426, 428-451, 453-494, 454-535, 469-494, 483, 496-535, 496-515, 517-535, 553-573, 554-572, 610-630, 610-647, 649-663, 701-716, 736-752, 754-766, 768-784, 786-815, 818-841, 843-861, 864-892, 871-892, 875-881, 904-909, 911-916, 912-916 | Candidates, Collect, Concat, Decomp, Graph, KReader, MP, Pruning, Reshape, Sens |
| `base_graph_filter.py` | 30-48 | Editor |
| `base_keras_gptq_quantizer.py` | 47-72 | Params |
| `base_keras_quantizer.py` | 36-62 | Qat |
| `base_node.py` | 44-110, 104, 176-191, 180-191, 180-244, 182-191, 182-197, 189-191, 193-197, 223-244, 223-235, 223-245, 226-244, 237-243, 247-257, 259-265, 267-274, 284-290, 292-322, 292-347, 324-339, 341-347, 349-355, 357-373, 512-521, 550-563, 555-557, 565-578, 580-603, 580-619, 605-619, 632-729, 632-644, 646-656, 658-690, 677-680, 712-729, 722-729 | Candidates, Editor, MP, Params, Prior, Qat, Subst, Torch, Tpc |
| `batchnorm_folding.py` | 34-42, 60-79, 82-108, 88-152, 90-102, 94-102, 94-128, 98-152, 104-137, 112-117, 119, 122-131, 132-152, 143-152, 228-237, 230-285, 231-237, 251-256 | Graph, Subst |
| `batchnorm_reconstruction.py` | 85-108, 104-119, 158-162 | Graph, Moment, Subst |
| `batchnorm_refusing.py` | 111-141, 119, 164-197 | Subst |
| `bit_width_config.py` | 26-48, 61-77, 79-97, 125-146, 169-193, 195-245, 212-243, 221-230, 234-240 | Candidates |
| `bit_width_setter.py` | 37-79, 37-133, 44-70, 48, 52-69, 73-78, 83-133 | Candidates, Editor, MP |
| `candidate_node_quantization_config.py` | 23-34, 23-50, 24-34, 41-48, 62-72, 80-91, 93-103, 105-116, 137-143 | Candidates, Editor, MP |
| `channels_grouping.py` | 66-87 | Pruning |
| `common.py` | 36-67, 36-50 | KReader |
| `compute_activation_bias_correction_of_graph.py` | 96-111 | Subst |
| `compute_bias_correction_of_graph.py` | 43-57, 44-58, 76-78, 105-166, 130-142 | Collect, Moment, Subst |
| `compute_graph_max_cut.py` | 28-76, 46-76 | MaxCut |
| `concat_threshold_update.py` | 25-64, 26-66 | Concat |
| `config_serialization.py` | 31-89, 54-57, 69-81, 70-87, 72-74, 82-87 | Qat |
| `configurable_activation_quantizer.py` | 62, 71-84 | Candidates, Sens |
| `configurable_quantizer_utils.py` | 23-56, 39-46 | Candidates |
| `configurable_weights_quantizer.py` | 75, 92-103 | Candidates, Sens |
| `connectivity_handler.py` | 69-79, 117-133, 135-155, 170-176, 177-180, 182-223, 182-198, 225-252 | KReader |
| `const_holder_conv.py` | 61-78 | Torch |
| `constants.py` | 25, 32, 42, 55, 102, 114-115 | Candidates, Hutch, MP, Prior, Sens, XQuant |
| `convtranspose_dynamic_padding.py` | 43-60, 76-79 | Torch |
| `core_config.py` | 25-41, 43-48 | Runs |
| `current_tpc.py` | 27-68 | Tpc |
| `cut.py` | 24-51, 62-75, 77-78 | MaxCut |
| `dataset_utils.py` | 41-56, 45-76 | XQuant |
| `default_framework_info.py` | 50-52, 58-61, 66-82, 74-84, 87-90, 90-104, 109-112, 115-133, 120-125, 136-141 | Editor, PerChan, Prior, Runs, Subst, Torch |
| `dwconv_to_conv.py` | 79-113, 112-126 | Graph, Subst |
| `edge.py` | 27-57, 59-75, 69-74 | Graph, KReader |
| `edges_merger.py` | 25-64, 67-91, 79-82, 94-126, 110-114, 114-126, 129-147, 150-169 | KReader |
| `edit_network.py` | 21-38 | Editor |
| `error_functions.py` | 29-96, 117-126, 184-244, 230-236, 232-236, 233-235, 238, 241, 244, 249-268, 271-288, 291-325, 328-354, 357-378, 405-426, 456-468, 486 | PerChan, Search |
| `fake_quant_builder.py` | 35-61, 39-63, 63-86, 66-93, 89-112, 96-121, 115-143, 124-144 | ActQ |
| `filter_nodes_candidates.py` | 24-38, 41-66, 53-61, 69-145, 84-86, 88-91 | Candidates |
| `framework_info.py` | 68, 84-98, 141, 145-152 | PerChan, Prior, Runs |
| `framework_quantization_capabilities.py` | 100-119, 142-153, 155-160, 162-172, 184-214, 196-213, 197-208 | Tpc |
| `framework_quantization_capabilities_component.py` | 19-22 | Tpc |
| `fully_quantized_model_builder.py` | 45-64 | Torch |
| `functional_batch_norm.py` | 40-110, 64-73 | Torch |
| `functional_layer_norm.py` | 58-67, 69-98 | Torch |
| `functional_linear.py` | 50-75, 50-62 | Torch |
| `functional_node.py` | 28-85, 92-106 | Editor, KReader |
| `fusing_info.py` | 46-50, 52-73, 82-93, 95-102, 104-120, 122-132, 134-158, 194-200, 214-224, 226-240, 257-271, 273-326, 299-309, 380-457, 405, 414-437, 423-430, 439-455, 440-444, 460-482, 476-478, 485-513, 508-510, 516-526 | Fusing |
| `get_quantizer_config.py` | 22-51, 54-79, 83-130, 115-130 | Qat |
| `get_quantizers.py` | 25-61 | Qat |
| `gptq_config.py` | 64-88 | Train |
| `gptq_constants.py` | 18, 21, 22 | Train |
| `gptq_graph.py` | 24-51 | Train |
| `gptq_training.py` | 62-63, 80-85, 126-127, 138-186, 188-229, 209, 215-229, 218-219, 219, 222, 228-254, 235-239, 256-299, 276-323, 276-292, 297-299, 301-329, 309-311, 312-322, 317-323, 320-321, 320-322, 322, 325-337, 328-356, 386-426, 402-404, 404-419, 412-448, 418-419, 434-446 | Params, Runs, Train |
| `gradual_activation_quantization.py` | 22-49, 67-77 | Train |
| `graph_builders.py` | 63-96, 88-96, 126-145, 138, 145-146, 162-353, 228-233, 234, 237-252, 256-268, 286-294, 336-339, 355-395, 356-398, 357-397, 368, 370-390, 373, 374, 374-382, 401-423 | Decomp, Reshape, Subst, Torch |
| `graph_fuser.py` | 34-67, 97-160, 119-122, 125-128, 132-141, 144-157 | Fusing |
| `graph_prep_runner.py` | 134-172, 138-172, 156-158, 172 | Candidates |
| `graph_searches.py` | 30-41, 43-61, 76-111, 113-122 | Graph |
| `greedy_mask_calculator.py` | 81-111, 95-104, 113-141, 126-137, 128 | Pruning |
| `hessian_info_service.py` | 34-39, 52-75, 75, 77-106, 95-104, 124-138, 140-184, 140-180, 164-171, 172-175, 177-178, 186-215, 206-210, 217-272, 244-253, 300-302, 305-321 | Hessian, Hutch |
| `hessian_info_utils.py` | 20-34 | Train |
| `hessian_scores_request.py` | 26-34, 37-46, 49-74, 76-78 | Hessian |
| `histogram_collector.py` | 21-41, 34, 37, 39, 44-60, 49-59, 61-86, 73, 80, 88-104, 98-100, 106-122, 116-118, 124-134, 150-159, 158 | Collect |
| `immutable.py` | 20-57 | Tpc |
| `input_scaling.py` | 63-107, 92 | Subst |
| `instance_builder.py` | 23-41, 23-40, 34-37, 37, 49-72, 52-70, 63-72, 73-100, 98, 99-125, 103-131, 117-123, 119-123 | Params, Subst, Torch |
| `keras_data_generation.py` | 330-346 | DataGen |
| `keras_implementation.py` | 321-324, 420-448 | Moment, Sens |
| `keras_model_builder.py` | 189-211, 204-211, 237-274, 248-261, 312-320 | KReader, Qat |
| `keras_node_prior_info.py` | 41-59, 75-83 | Prior, Subst |
| `layer_filter_params.py` | 19-37, 48-74, 76-86 | Tpc |
| `lfh_importance_metric.py` | 61-97, 83-96, 121-151, 154-171, 174-190, 192-217, 219-247, 270-290 | Pruning |
| `linear_collapsing.py` | 75-82, 106-181, 113-150, 146-171, 156-169 | Graph, Subst |
| `linear_collapsing_substitution.py` | 19-52 | Subst |
| `linear_programming.py` | 46-67, 56-61, 64-66, 82-148, 101-148, 110-111, 124-148 | MP |
| `load_fqc.py` | 61-77, 66-67, 82-118, 97, 99, 107, 122-140, 161-181, 196-230 | Candidates, Tpc |
| `lr_scheduler.py` | 22-200, 23-200 | DataGen |
| `lut_fake_quant.py` | 49-115, 52-118 | ActQ |
| `lut_kmeans_params.py` | 69-74, 88-98 | Search |
| `lut_kmeans_quantizer.py` | 24-57 | Search |
| `matmul_decomposition.py` | 29-80, 42-80, 121-212, 143-199, 143-176, 181-191, 208, 226-261, 281-316, 335-368, 371-429, 432-472, 475-501 | Decomp, Graph |
| `max_cut_astar.py` | 90-124, 101-120, 122, 123-124, 126-197, 144-197, 162, 218-239, 241-260, 253-256, 262-276, 278-312, 290-295, 314-331, 397-408, 410-424 | MaxCut |
| `mean_collector.py` | 23-42, 29-42, 44-55, 57-68, 79-95, 89-92, 93 | Collect |
| `memory_calculator.py` | 65-181, 183-213, 215-229, 231-264, 282-298, 326-345, 347-376 | Pruning |
| `memory_element.py` | 24-51, 40, 54-66 | MaxCut |
| `memory_graph.py` | 36-101, 80-89, 83-87, 103-108, 110-115, 118-129, 131-142, 144-155, 157-168 | MaxCut |
| `metric_calculators.py` | 88-108, 103-108, 122-134, 199-223, 199-263, 223, 225-263, 254-255, 260-261, 265-284, 265-316, 286-316, 318-349, 351-379, 351-419, 381-396, 398-419, 416 | Sens |
| `min_max_per_channel_collector.py` | 22-42, 27-42, 44-65, 55-60, 67-87, 89-96, 98-105, 122-143, 131-134 | Collect |
| `mixed_precision_candidates_filter.py` | 19-64, 41-51, 53-64 | Sens |
| `mixed_precision_model_builder.py` | 76-77, 85-86, 101-106, 107-109, 167-237 | Candidates, Sens |
| `mixed_precision_quantization_config.py` | 24-41, 85-99 | Runs, Sens |
| `mixed_precision_ru_helper.py` | 38-74 | MP |
| `mixed_precision_search_facade.py` | 70, 71-95, 71-76, 104-106 | MP, Runs, Sens |
| `mixed_precision_search_manager.py` | 54-100, 75-89, 102-115, 117-147, 136-145, 173-181, 186-201, 189-201, 191-197, 213-233, 244-270, 256-270, 262-263, 273-288, 310-332, 335-526, 340-410, 361-374, 376-408, 438-475, 468-475, 477-526, 506-526 | MP, Sens |
| `model_analyzer.py` | 51-91, 51-89, 71-79, 91-118, 93-123 | XQuant |
| `model_collector.py` | 32-56, 55-75, 158-171, 174-196, 198, 203, 211-262, 226-236, 238-262 | Collect, Hessian, Prior |
| `model_info_exctractors.py` | 72-201, 152-210 | DataGen |
| `multi_head_attention_decomposition.py` | 44-61, 66, 148-166, 167-182, 190-260, 407-508, 491, 649-720, 653-660, 668-720 | Decomp, Graph |
| `nested_model_handler.py` | 24-64 | KReader |
| `node_builder.py` | 48-50, 99-103, 105-107, 112-139, 141-182, 164-167, 168-172, 185-202, 227-243, 231-243, 232-234, 247-285, 309-326 | KReader, Subst |
| `node_filters.py` | 21-99, 34-45, 61-72, 88-99 | Editor |
| `node_matcher.py` | 20-89, 54-55, 67-68, 76-77, 88-89 | Editor |
| `node_prior_info.py` | 44-69, 71-77 | Prior |
| `node_quantization_config.py` | 31-39, 41-47, 50-72, 54-71, 79-135, 82, 83-115, 144-150, 155-172, 175-206, 196-206, 206-238, 252-282, 253, 256-282, 260-282, 284-302, 297-313, 301-313, 376-440, 377, 377-444, 382-440, 395-436, 440, 443-449, 448-480, 452-485, 452-590, 531-549, 544, 562-590, 590-612 | ActQ, Candidates, Editor, MP, Moment, Params, PerChan |
| `node_to_quantizer.py` | 56-64, 56-63, 63, 65-71, 66-72, 71 | PerChan |
| `nodes_merger.py` | 24-46, 41-42 | KReader |
| `operations_to_layers.py` | 27-45, 76-97, 111-125, 127-152, 145-152 | Tpc |
| `optimization_utils.py` | 140-162, 147-220, 158-230, 297-365, 336-404, 345-490 | DataGen |
| `outlier_filter.py` | 20-48 | Search |
| `output_loss_functions.py` | 20-156, 22-147, 96-120 | DataGen |
| `outputs_merger.py` | 26-52 | KReader |
| `per_channel_mask.py` | 38-55, 64-75, 77-84, 86-96 | Pruning |
| `per_simd_group_mask.py` | 28-46, 29-46, 66-87, 97-107 | Pruning |
| `power_of_two_selection.py` | 65-80, 66-80, 81-96, 131-135, 132, 149-178 | PerChan, Search |
| `prune_graph.py` | 28-69, 62-67 | Pruning |
| `pruning_info.py` | 80-89 | Pruning |
| `pruning_keras_implementation.py` | 53-72, 66-72, 74-87, 101-115, 133-173, 176-195, 198-222, 198-228, 219-228 | Pruning |
| `pruning_pytorch_implementation.py` | 54-84, 73-79, 194-213, 216-245 | Pruning |
| `pruning_section.py` | 48-64, 66-75, 77-96, 98-118 | Pruning |
| `pytorch_data_generation.py` | 334-341 | DataGen |
| `pytorch_implementation.py` | 417-446 | Sens |
| `pytorch_model_builder.py` | 39-66, 69-101, 84-101, 91-97, 104, 104-165, 143, 291-352, 291-298, 299-328, 300-330, 309-334, 311-328, 311-327, 335-341, 356-393, 366-383 | Decomp, Qat, Reshape, Sens, Subst, Torch |
| `pytorch_node_prior_info.py` | 38, 62-69 | Prior, Subst |
| `qat_config.py` | 21-33, 38-59 | Qat |
| `qparams_activations_computation.py` | 56-83, 110-155 | Params, Search |
| `qparams_computation.py` | 56-143, 99-143, 100-143, 101-134, 104-134, 113-123, 118, 136-143 | Params |
| `qparams_search.py` | 33-101, 63-66, 63-101, 64, 66-99, 68, 84-89, 85-90, 87-88, 91-94, 96-101, 96-98, 98, 100-101, 133-155, 155, 158-236, 201-209, 208, 211-236, 212, 219-221, 219, 220-221, 221, 223-226, 228-234, 239-304, 270-282, 275-278, 284-304, 294, 294-297, 297, 299-302, 318, 323, 323-327, 325-342, 328, 339-342, 339, 342, 344-348, 345, 347, 370-388, 370-373, 375-378, 383-386, 388-391, 388, 391, 393, 395, 428-467, 428, 428-451, 451, 452-462, 463, 495, 495-519, 495-533, 497-498, 510, 519 | PerChan, Search |
| `qparams_weights_computation.py` | 28-72, 55-65 | Params |
| `quant_utils.py` | 20-24, 37-47, 65-71, 83-109, 108-119 | Train |
| `quantization_builder.py` | 73-76, 73-107 | Qat |
| `quantization_facade.py` | 49-76, 53-75, 101-104, 103, 111-113, 129, 136-138, 141-150, 213, 235 | Qat, Runs, Train |
| `quantization_fn_selection.py` | 26-52 | Editor |
| `quantization_params_fn_selection.py` | 31-82, 31-52, 55-82 | Editor |
| `quantization_prep_runner.py` | 84 | Editor |
| `quantize_graph_weights.py` | 37-56, 45-54 | Params |
| `quantize_node.py` | 39-60 | Params |
| `quantize_wrapper.py` | 22-98, 28-39, 85-92, 93-97 | Qat |
| `quantizer_utils.py` | 95-129, 132-163 | Train |
| `quantizers_helpers.py` | 25-41, 44-60, 63-93, 96-124, 120, 123, 127-143, 146-173, 173, 176-190, 190, 193-229, 222, 223, 227-228, 227, 228, 247, 248, 254-270, 265, 273-299, 293, 297-298, 302-312 | PerChan, Quant, Search |
| `reader.py` | 36-56, 73-93, 86-92, 96-117, 112-116, 120-142, 121-154, 133-154, 135-141, 145-169, 157-182, 172-183 | KReader, Torch |
| `regularization_factory.py` | 25-58 | Train |
| `relu_bound_to_power_of_2.py` | 80-105, 84-88, 102-110 | Subst |
| `remove_identity.py` | 21-59 | Graph |
| `reshape_with_static_shapes.py` | 57-64, 63-78, 81-88, 83, 86-87, 92-113, 104-111 | Reshape |
| `residual_collapsing.py` | 41-63, 66-108 | Graph, Subst |
| `resource_utilization.py` | 21-35, 38-52, 66-81, 76-79, 83-96, 98-100, 102-103 | MP, Runs |
| `resource_utilization_calculator.py` | 42-61, 64-79, 141-159, 161-240, 215-236, 242-276, 278-323, 346-365, 367-408, 390-399, 390-392, 396-404, 406-408, 410-444, 444-479, 446-476, 478-510, 481-510, 512-564, 588-604, 589-634, 606-630, 651-682, 652-682, 668-679, 669-673, 684-718, 684-720, 709-718, 712-718, 722-760, 750-758, 752-758 | MP |
| `resource_utilization_data.py` | 61-63 | MP |
| `runner.py` | 36-70, 51-204, 86-94, 95-118, 101-116, 118-139, 141-143, 154 | Editor, Runs |
| `scale_equalization.py` | 30-75, 30-50, 45, 47, 48-49, 53-73, 67, 69, 70-71, 75-98, 101-135, 118-120, 122-129, 138-160, 155-158, 222-246 | Subst |
| `scaled_dot_product_attention.py` | 48-59, 61-65, 86-87, 112-128, 157, 185-232, 204-222, 209-210 | Decomp |
| `scheduler_step_functions.py` | 36-80 | DataGen |
| `schema_compatability.py` | 44-86, 59-70, 102-126 | Tpc |
| `schema_functions.py` | 22-31, 35-51 | Candidates, Tpc |
| `sensitivity_evaluation.py` | 66-67, 69-84, 96-101, 102-104, 106-112, 107-111, 120-160, 131-133, 136-154, 137, 138-151, 139, 142-151, 148, 151, 160 | Sens |
| `separableconv_decomposition.py` | 148-160 | Graph |
| `set_layer_to_bitwidth.py` | 22-58 | Sens |
| `set_node_quantization_config.py` | 31-102, 56-69, 71-102, 74, 93-96, 105-121, 124-152, 155-203, 169-187, 189-203, 190-191, 196-203 | Candidates |
| `shift_negative_activation.py` | 46-87, 52-84, 63-89, 74-85, 90-111, 114-134, 137-156, 159-182, 160-186, 176-196, 185-208, 210-241, 224-227, 234-236, 307-311, 313-322, 324-362, 331-354, 346-349, 366-367, 386-393, 409-410, 410-431, 438-445, 483-553, 513-553, 556-640, 609-640, 611-637 | Collect, Fusing, Graph, Subst |
| `sigmoid_mul_to_swish.py` | 63-92 | Graph |
| `similarity_analyzer.py` | 42-53, 78, 87-93, 87-126, 90, 115-117, 118, 121, 123, 163, 183-184, 186-197, 234-262, 256-259 | PerChan, Sens |
| `similarity_calculator.py` | 55-70, 72-108, 140-194, 155-157, 160-181, 172-173, 176-181, 184-185 | XQuant |
| `similarity_functions.py` | 23-36, 28-41, 38-51, 43-56, 53-67, 58-73, 69-80 | XQuant |
| `soft_quantizer_reg.py` | 40-72, 66 | Train |
| `softmax_shift.py` | 41-71 | Subst |
| `solution_refinement_procedure.py` | 27-119, 57-111, 59-111, 66-97, 92-94, 112-194 | MP |
| `statistics_collector.py` | 104-123 | Collect |
| `statistics_correction.py` | 90-133, 107-133 | Runs |
| `symmetric_lsq.py` | 56-58, 100-118 | Train |
| `symmetric_selection.py` | 67-82, 68-82, 130-134, 130, 157-186, 189-206, 206 | PerChan, Search |
| `symmetric_soft_quantizer.py` | 38-68, 58-59, 79-108, 130-133, 136, 143-145, 148, 154-163, 165-184, 181, 186-247, 206-207, 231, 244 | Train |
| `symmetric_ste.py` | 36-67, 37-74, 60-62, 65-67, 66, 67, 94-110, 94-108, 110-128, 121-126, 125-126, 145-181 | Train |
| `tf_tensor_numpy.py` | 43-72 | KReader |
| `tpc_io_handler.py` | 34-65, 57, 68-96, 99-124 | Tpc |
| `trainable_quantizer_config.py` | 21-37, 40-65, 42-73, 68-98, 76-116 | Qat |
| `uniform_lsq.py` | 63-69, 86-100, 101-116, 118-134 | Train |
| `uniform_quantizers.py` | 24-29, 29, 32-101, 104-131 | ActQ, PerChan |
| `uniform_selection.py` | 66-105, 66-82, 67-82, 84-105, 99-103, 138-145, 159-187 | PerChan, Search |
| `uniform_soft_quantizer.py` | 37-62, 124-126, 127, 135-144, 145-147, 148, 160-193 | Train |
| `uniform_ste.py` | 65-67, 89-100, 102-116, 104-132, 134-147 | Train |
| `v1.py` | 91-101, 99-101, 104-120, 116-120, 129-139, 142-171, 159-169, 173-188, 199-226, 219-223, 229-240, 238-288, 242-288, 290-309, 311-357, 329-357, 332-346, 350, 353, 359-398, 375-398, 379-385, 389, 392, 422-438, 422-490, 432-436, 450-465, 466-490, 505-519, 547-555, 605-633, 618-627, 625, 635-661 | Tpc |
| `v2.py` | 102-117, 113-155, 113, 146-155, 157-181, 171-178, 172-175, 205-236, 220-264, 220-231, 227, 238-264 | Tpc |
| `virtual_activation_weights_composition.py` | 27-64, 67-91, 80-82 | MP |
| `virtual_activation_weights_node.py` | 25-205, 57-84, 87-117, 120-205, 139-154, 146-168, 179-205, 200-202 | MP |
| `weighted_histogram_collector.py` | 21-46, 86-106, 96-103, 106 | Collect |
| `weights_activation_split.py` | 34-87, 55-71 | MP |

## 7. Code that is not modelled

Code of other packages (Keras, PyTorch, mct_quantizers, networkx, PuLP, ONNX, TFLite) is not modelled: where a definition needs
its behaviour, the documented behaviour is part of the definition and its comment says so. Floating-point rounding is not
modelled unless a definition says so. Visualisation, logging output, GPU behaviour, concurrency inside the frameworks and
performance are not modelled. Inside the files of section 6, what is not cited is not modelled; the comments of the definitions
say what they leave out. Files of the repository that section 6 does not list are not modelled.

## 8. Testing the theorems

`seeded/LOG.jsonl` lists edits of the model in a scratch copy that imitate realistic bugs, with the theorems that failed.
Edits that survived led to new or stronger theorems, named in `theorems_tightened`.
