{"id": "C01", "title": "shape_broadcast computes exactly the NumPy broadcast shape, and fails exactly when there is none", "statement": "For a non-empty list of shapes, shape_broadcast returns a shape iff, on every axis counted from the right, all sizes other than 1 agree; the returned shape has the length of the longest input and on each axis that common size (or 1). In every other case it raises ValueError.", "quantifier": "all finite lists of shapes of any rank and any axis sizes (including 0)", "why_tests_cant": "unbounded number, rank and size of shapes; tests fix four shapes and random pairs of two", "anchors": ["torchmps/utils2.py:shape_broadcast"]}
{"id": "C02", "title": "shape_broadcast does not depend on the order or repetition of its arguments", "statement": "Permuting the list of shapes, or repeating a shape, changes neither success nor the result of shape_broadcast.", "quantifier": "all lists of shapes and all permutations of them", "why_tests_cant": "factorially many orders of unboundedly many shapes", "anchors": ["torchmps/utils2.py:shape_broadcast"]}
{"id": "C03", "title": "batch_broadcast outputs have the common batch shape, keep their non-batch axes and keep every value", "statement": "When batch_broadcast succeeds on at least two tensors, every output has shape (common batch shape) + (its own non-batch shape), and each output entry equals the input entry at the index obtained by dropping the missing leading axes and sending size-1 axes to 0. It raises ValueError exactly when the batch shapes cannot be broadcast, and returns fewer than two tensors unchanged.", "quantifier": "all numbers of tensors, ranks, sizes, splits into batch/non-batch axes and all tensor values", "why_tests_cant": "the property quantifies over every rank and every entry of every tensor", "anchors": ["torchmps/utils2.py:batch_broadcast"]}
{"id": "C04", "title": "What batch_to returns", "statement": "batch_to(t, batch_shape, k) raises ValueError exactly when t's batch axes and batch_shape cannot be broadcast together; otherwise it returns t broadcast to the common broadcast of the two shapes. So the result has the requested batch shape exactly when t's batch axes broadcast into it; if they do not, the code does not raise as its name suggests but returns a larger batch than requested.", "quantifier": "all tensors and all requested batch shapes", "why_tests_cant": "needs every pair of shapes", "anchors": ["torchmps/utils2.py:batch_to"]}
{"id": "C05", "title": "bundle_tensors stacks exactly the non-empty equal-shape collections and loses nothing", "statement": "bundle_tensors returns one stacked tensor iff the sequence is non-empty and all shapes agree, entry i along the new axis being tensor i; every other sequence is returned unchanged.", "quantifier": "all finite sequences of tensors, any shapes, any insertion axis used by the library", "why_tests_cant": "unbounded collections", "anchors": ["torchmps/utils2.py:bundle_tensors"]}
{"id": "C06", "title": "Complex helpers are value preserving", "statement": "phaseify multiplies every entry by a unit-modulus number (so absolute values are unchanged) for every outcome of the random generator; CIndex indexing equals direct indexing; realify/hermitian_trace of a Hermitian matrix never raises and returns its trace.", "quantifier": "all tensors, all random draws, all Hermitian matrices of any size", "why_tests_cant": "all random outcomes and sizes", "anchors": ["torchmps/utils2.py:phaseify", "torchmps/utils2.py:CIndex", "torchmps/utils2.py:realify", "torchmps/utils2.py:hermitian_trace"]}
{"id": "C07", "title": "floor2 is not the power of two its documentation promises", "statement": "For x > 0 floor2(x) is the power 2^n with e^n <= x < e^(n+1) (the code takes a natural logarithm), it is monotone, and it agrees with the documented 'smallest power of two greater than x', or with the largest power of two not greater than x, exactly on five explicit intervals each; at x = 64 it returns 16.", "quantifier": "all positive reals", "why_tests_cant": "a statement about every positive real", "anchors": ["torchmps/utils2.py:floor2"]}
{"id": "C08", "title": "Parallel matrix reduction returns the ordered product of the matrices", "statement": "For a sequence of n square matrices, mat_reduce_par returns (P, s) with P*exp(s) equal to the left-to-right product of the matrices (identity for n = 0), for every n, whenever no intermediate block product vanishes; in particular whenever the full product is non-zero.", "quantifier": "all sequence lengths n, all bond dimensions, all real or complex matrices", "why_tests_cant": "pairwise tree reduction has different shape for every n", "anchors": ["torchmps/mps_base.py:mat_reduce_par"]}
{"id": "C09", "title": "Sequential matrix reduction returns the ordered product irrespective of the multiplication direction", "statement": "mat_reduce_seq returns (P, s) with P*exp(s) equal to the ordered product of a chain of compatible rectangular matrices, whether it multiplies left-to-right or (transposed) right-to-left, whenever no partial product vanishes.", "quantifier": "all non-empty chains of compatible matrices of any sizes", "why_tests_cant": "all lengths, sizes and both directions", "anchors": ["torchmps/mps_base.py:mat_reduce_seq"]}
{"id": "C10", "title": "contract_matseq equals the plain product with boundary vectors for every option", "statement": "For every choice of left/right boundary vectors, parallel_eval and representation (one stacked tensor or a list of matrices), contract_matseq returns the ordered product with the given row/column vectors, in log_format as a pair whose product with exp(log_scale) is that value, provided the true intermediate products are non-zero. Hence all strategies agree.", "quantifier": "all lengths, dimensions, boundary combinations, options and values", "why_tests_cant": "exponentially many option/shape combinations over real-valued data", "anchors": ["torchmps/mps_base.py:contract_matseq"]}
{"id": "C11", "title": "contract_matseq acts on every batch element independently under broadcasting", "statement": "With leading batch axes, the result of contract_matseq at each batch index is the contraction of the matrices and vectors found at the broadcast batch index; no other batch element influences it.", "quantifier": "all batch shapes of any rank, all batch indices", "why_tests_cant": "all ranks of batch axes and all indices", "anchors": ["torchmps/mps_base.py:contract_matseq", "torchmps/utils2.py:batch_broadcast"]}
{"id": "C12", "title": "When contract_matseq gives NaN for a product that is exactly zero", "statement": "contract_matseq yields NaN at a batch index exactly in these cases: evaluation is sequential, there are at least two factors (boundary vectors counted) and their exact product at that index is the zero matrix; or evaluation is parallel, there are at least two matrices and their exact product (boundary vectors not counted) is zero. Every value returned without NaN is the exact product, zero included.", "quantifier": "all chains of matrices", "why_tests_cant": "statement about every chain with a vanishing partial product", "anchors": ["torchmps/mps_base.py:mat_reduce_seq", "torchmps/mps_base.py:mat_reduce_par", "torchmps/mps_base.py:contract_matseq"]}
{"id": "C13", "title": "contract_matseq on an empty sequence", "statement": "An empty stacked tensor with no vectors contracts to the identity; one vector gives the vector back; two vectors give their inner product; an empty list with no vectors raises ValueError.", "quantifier": "all bond dimensions, batch shapes and vectors", "why_tests_cant": "all shapes and values", "anchors": ["torchmps/mps_base.py:contract_matseq", "torchmps/mps_base.py:mat_reduce_par"]}
{"id": "C14", "title": "get_mat_slices selects / contracts the right core at every position", "statement": "get_mat_slices returns at [b,t] the slice core[x_bt] (uniform) or core[t][x_bt] (non-uniform) for index inputs, and sum_i v_bti core[i] (resp. core[t][i]) for vector inputs; one-hot vectors give the same matrices as the corresponding indices, and a uniform core behaves as the non-uniform core repeating it.", "quantifier": "all batch sizes, lengths, input and bond dimensions, all inputs", "why_tests_cant": "all shapes and values", "anchors": ["torchmps/mps_base.py:get_mat_slices"]}
{"id": "C15", "title": "Which sequence lengths a fixed-length model accepts", "statement": "A model with n sites evaluated by slim_eval rejects every other length. The default evaluation accepts index sequences exactly when their length is at most n and all tokens are in [-d, d) (shorter ones are silently evaluated on the first cores), and vector sequences exactly when their length is n or 1, or n = 1 (a single vector is used at every site, a single core at every position); everything else raises.", "quantifier": "all models and all input lengths", "why_tests_cant": "all pairs of lengths", "anchors": ["torchmps/mps_base.py:get_mat_slices", "torchmps/mps_base.py:slim_eval_fun", "torchmps/prob_mps.py:ProbMPS.forward"]}
{"id": "C16", "title": "slim_eval_fun returns the same amplitude as the dense evaluation", "statement": "slim_eval_fun returns (c, s) with c*exp(s) = left^T M_1 ... M_n right for every batch element whose partial row products are non-zero, for uniform and fixed-length cores and index or vector inputs.", "quantifier": "all lengths, dimensions, cores, boundary vectors and inputs", "why_tests_cant": "all lengths and values", "anchors": ["torchmps/mps_base.py:slim_eval_fun"]}
{"id": "C17", "title": "get_log_norm is the log of the squared L2 norm of the whole amplitude tensor", "statement": "Without a lambda matrix, get_log_norm returns log of the sum over all input_dim^n index sequences of |psi|^2 (uniform cores: of the given length), whenever that sum is non-zero; the exponential sum is never formed.", "quantifier": "all lengths n, input and bond dimensions, real or complex cores", "why_tests_cant": "the claim compares a linear-time recursion with a sum over exponentially many sequences for every n", "anchors": ["torchmps/mps_base.py:get_log_norm"]}
{"id": "C18", "title": "get_log_norm with a lambda matrix integrates the embedding", "statement": "If lambda is the sum of v v^dagger over a finite (weighted) family of feature vectors - given as a full matrix, as its diagonal when it is diagonal or as a scalar when it is a multiple of the identity - get_log_norm is the log of the (weighted) sum over all sequences of feature vectors of |psi|^2. Weights of either sign are allowed (so every Hermitian lambda is covered): a finite result is the log of a positive sum, -inf means the sum is zero, and a negative sum is never reported as a number (NaN or an assertion).", "quantifier": "all lengths, dimensions, families of vectors, the three accepted lambda formats", "why_tests_cant": "exponential sum, all lengths and all embeddings", "anchors": ["torchmps/mps_base.py:get_log_norm"]}
{"id": "C19", "title": "get_log_norm validates its arguments", "statement": "get_log_norm raises on cores of rank other than 3/4, boundary vectors of a different bond dimension, a length different from a fixed-length core's, a missing length for uniform cores, lambda of rank > 2, and NotImplementedError for the arbitrary-length request (-1); otherwise it returns a value.", "quantifier": "all argument shapes and lengths", "why_tests_cant": "all shapes", "anchors": ["torchmps/mps_base.py:get_log_norm"]}
{"id": "C20", "title": "Core initialisers produce the promised tensors for every random draw", "statement": "near_eye_init returns identity slices plus noise/sqrt(rows*cols) times the random draw and rejects batched non-square shapes with ValueError; with zero noise every slice is the identity; normal_init scales by 1/bond_dim and ignores its rel_std argument.", "quantifier": "all shapes and all random draws", "why_tests_cant": "all shapes and draws", "anchors": ["torchmps/mps_base.py:near_eye_init", "torchmps/mps_base.py:normal_init"]}
{"id": "C21", "title": "ProbMPS.forward obeys the Born rule", "statement": "For an input sequence x with non-zero amplitude, forward returns log(|psi(x)|^2 / Z) with psi(x) = left^T (A_1[x_1]+B)...(A_n[x_n]+B) right and Z the model's normalisation constant.", "quantifier": "all models (length, dimensions, parameters, bias), all inputs and batch sizes", "why_tests_cant": "real-valued parameters, all lengths", "anchors": ["torchmps/prob_mps.py:ProbMPS.forward", "torchmps/prob_mps.py:ProbMPS.log_norm"]}
{"id": "C22", "title": "ProbMPS probabilities over all sequences sum to one", "statement": "The exponentials of the log probabilities ProbMPS assigns to all input_dim^seq_len discrete sequences sum to 1 whenever Z is non-zero, with or without bias, real or complex.", "quantifier": "all models, all lengths and alphabet sizes", "why_tests_cant": "the sum has exponentially many terms; tests check short binary sequences up to tolerance", "anchors": ["torchmps/prob_mps.py:ProbMPS"]}
{"id": "C23", "title": "ProbUnifMPS probabilities sum to one separately for each length", "statement": "For each n, the ProbUnifMPS probabilities of all length-n sequences sum to 1 whenever the length-n normalisation is non-zero.", "quantifier": "all uniform models and all lengths", "why_tests_cant": "every length", "anchors": ["torchmps/prob_mps.py:ProbUnifMPS"]}
{"id": "C24", "title": "Log probabilities are never positive and the loss is a non-negative mean", "statement": "Every log probability returned for a discrete sequence (no embedding) is <= 0 (or -inf), and loss equals minus the mean of forward over the batch, hence is >= 0.", "quantifier": "all models, inputs and batch sizes", "why_tests_cant": "all inputs", "anchors": ["torchmps/prob_mps.py:ProbMPS.forward", "torchmps/prob_mps.py:ProbMPS.loss"]}
{"id": "C25", "title": "All evaluation strategies return the same log probability", "statement": "slim_eval, parallel_eval and the default evaluation return equal log probabilities for inputs of non-zero amplitude. For zero-amplitude inputs they do not agree: the default strategy raises an AssertionError where the others may return -inf.", "quantifier": "all models and inputs, all strategies", "why_tests_cant": "all inputs and lengths", "anchors": ["torchmps/prob_mps.py:ProbMPS.forward"]}
{"id": "C26", "title": "Batch elements are evaluated independently", "statement": "Each entry of forward depends only on its own sequence: evaluating a batch equals concatenating the evaluations of its elements, in the same order, whenever each is accepted.", "quantifier": "all batches and models", "why_tests_cant": "all batches", "anchors": ["torchmps/prob_mps.py:ProbMPS.forward"]}
{"id": "C27", "title": "Probabilities are invariant under rescaling and gauge transformations of the parameters", "statement": "Multiplying the cores/boundary vectors by non-zero scalars, or inserting invertible matrices G_t G_t^{-1} on the bonds, changes no log probability.", "quantifier": "all models, scalars and invertible matrices", "why_tests_cant": "continuum of parameters", "anchors": ["torchmps/prob_mps.py:ProbMPS.forward"]}
{"id": "C28", "title": "With a discrete embedding the probabilities over the domain sum to one", "statement": "For a model without bias whose embedding has a full, exactly diagonal or exactly scalar lambda matrix, the probabilities of all domain^n sequences sum to 1.", "quantifier": "all embeddings functions on all finite domains, all models", "why_tests_cant": "all functions", "anchors": ["torchmps/prob_mps.py:ProbMPS.log_norm", "torchmps/embeddings.py:FixedEmbedding"]}
{"id": "C29", "title": "Normalisation with an embedding and a bias matrix", "statement": "With an embedding of a discrete domain and use_bias, whose lambda matrix is not compressed, the probabilities sum to 1 exactly when the squared amplitudes with the bias added once per site and those with the bias multiplied by the sum of the feature vector's components have the same total; so they do whenever every feature vector's components sum to 1, and not in general (a model whose only sequence has probability 9/16).", "quantifier": "all models with bias and embedding", "why_tests_cant": "all embeddings and parameters", "anchors": ["torchmps/prob_mps.py:ProbMPS.forward", "torchmps/prob_mps.py:ProbMPS.log_norm"]}
{"id": "C30", "title": "Compressing the lambda matrix: the exact total probability", "statement": "FixedEmbedding/TrainableEmbedding replace lambda by its diagonal or by a scalar when torch.allclose accepts. For every embedding of a discrete domain the probabilities of all sequences sum to the quotient of the true normaliser and the one computed from the compressed matrix; the compression is exact when lambda is exactly diagonal/scalar or not accepted, changes the total by a factor within (1 +- eps)^n when the diagonal is bounded below, and can be badly wrong for small embeddings (a total of 2).", "quantifier": "all embeddings", "why_tests_cant": "all embeddings and scales", "anchors": ["torchmps/embeddings.py:FixedEmbedding.make_lambda", "torchmps/embeddings.py:TrainableEmbedding.make_lambda"]}
{"id": "C31", "title": "Rescaling an embedding by a constant leaves the distribution unchanged", "statement": "Multiplying the feature map by any non-zero constant leaves every log probability of a bias-free model unchanged; a one-hot embedding gives the same log probabilities as no embedding.", "quantifier": "all constants, models, inputs", "why_tests_cant": "all constants", "anchors": ["torchmps/prob_mps.py:ProbMPS.forward", "torchmps/embeddings.py:onehot_embed"]}
{"id": "C32", "title": "Continuous domains are normalised with respect to the trapezoidal rule", "statement": "For a continuous domain the probabilities, weighted with the trapezoidal weights of the num_points grid in every position, sum to one; the weights are positive and add up to max_val - min_val.", "quantifier": "all intervals, feature maps, grid sizes >= 2, lengths", "why_tests_cant": "all feature maps and lengths", "anchors": ["torchmps/embeddings.py:FixedEmbedding.make_lambda"]}
{"id": "C33", "title": "Bias and evaluation-option conflicts are reported as documented", "statement": "slim_eval with bias raises ValueError, otherwise options never change the outcome. The documentation says parallel_eval overrides slim_eval when both are given; the code lets slim_eval win, so with bias the documented call raises.", "quantifier": "all models, inputs, option combinations", "why_tests_cant": "all combinations with all inputs", "anchors": ["torchmps/prob_mps.py:ProbMPS.forward"]}
{"id": "C34", "title": "Trainable embeddings are normalised with their current parameters", "statement": "After any history of parameter updates and evaluations, forward of a model with a TrainableEmbedding uses the lambda matrix of the current embedding parameters; log_norm called directly uses that of the last forward, and fails before any forward.", "quantifier": "all histories of updates, forward and log_norm calls", "why_tests_cant": "unbounded histories", "anchors": ["torchmps/embeddings.py:TrainableEmbedding", "torchmps/prob_mps.py:ProbMPS.log_norm"]}
{"id": "C35", "title": "onehot_embed produces orthonormal indicator vectors", "statement": "onehot_embed(t, d) has shape t.shape + (d,), entry 1 exactly at the value of t and 0 elsewhere, raises on values outside 0..d-1, and its lambda matrix over the domain of size d is the scalar 1.", "quantifier": "all index tensors and dimensions", "why_tests_cant": "all tensors", "anchors": ["torchmps/embeddings.py:onehot_embed", "torchmps/embeddings.py:FixedEmbedding"]}
{"id": "C36", "title": "trig_embed maps every real to a unit vector", "statement": "For every emb_dim >= 1 and every real x the feature vector sqrt(binom(d-1,j)) cos^{d-1-j} sin^j has Euclidean norm 1; sincos_embed is the case d = 2.", "quantifier": "all dimensions, all reals", "why_tests_cant": "continuum of inputs, all dimensions", "anchors": ["torchmps/embeddings.py:trig_embed"]}
{"id": "C37", "title": "Lambda matrices are Hermitian positive semidefinite", "statement": "The matrix computed by make_lambda is Hermitian and positive semidefinite for every feature map and domain, so the log normalisation is never the log of a negative number.", "quantifier": "all feature maps, domains", "why_tests_cant": "all maps", "anchors": ["torchmps/embeddings.py:FixedEmbedding.make_lambda"]}
{"id": "C38", "title": "Domains and MLP embeddings are validated on construction", "statement": "DataDomain accepts exactly max_val > min_val (continuous) or max_val >= 0 (discrete); init_mlp_embed builds exactly num_layers linear layers whose widths chain from 1 through hidden_dims to output_dim and rejects lists of the wrong length.", "quantifier": "all arguments", "why_tests_cant": "all lengths of hidden_dims", "anchors": ["torchmps/embeddings.py:DataDomain", "torchmps/embeddings.py:init_mlp_embed"]}
{"id": "C39", "title": "svd_flex outputs multiply back to the input tensor", "statement": "If no singular value is dropped other than zeros, contracting the two outputs of svd_flex with the reversed index string gives back the input tensor, for every index string accepted and either value of sv_right.", "quantifier": "all tensors, shapes, index partitions", "why_tests_cant": "all shapes and strings", "anchors": ["torchmps/utils.py:svd_flex"]}
{"id": "C40", "title": "svd_flex truncation keeps exactly the leading singular values >= cutoff within max_D", "statement": "The returned bond dimension is the number of leading singular values (among the first max_D) that are >= cutoff, is between 1 and max_D, entries beyond it are zero, sv_vec receives the singular values, and RuntimeError is raised exactly when no singular value reaches the cutoff; the squared error equals the sum of squared discarded singular values.", "quantifier": "all tensors, cutoffs, max_D", "why_tests_cant": "all spectra", "anchors": ["torchmps/utils.py:svd_flex"]}
{"id": "C41", "title": "svd_flex rejects malformed index strings", "statement": "svd_flex accepts an index string exactly when its letters are lowercase, none is repeated within a group, the two outputs share exactly one letter, that letter is not an input letter, and all other output letters are input letters; every other string is rejected. (Contrary to the documentation an input letter missing from both outputs is accepted and silently summed over.)", "quantifier": "all strings", "why_tests_cant": "all strings", "anchors": ["torchmps/utils.py:svd_flex"]}
{"id": "C42", "title": "init_tensor builds (truncated) identity slices plus scaled noise", "statement": "random_zero returns std times the draw; random_eye returns the rectangular identity in the l,r axes for every value of the other axes plus noise; min_random_eye the identity truncated to init_dim, capped at the smaller bond dimension. The cap only works for square slices and r-before-l orders only for square slices; unknown methods raise ValueError.", "quantifier": "all shapes, bond strings, draws", "why_tests_cant": "all shapes and strings", "anchors": ["torchmps/utils.py:init_tensor"]}
{"id": "C43", "title": "joint_shuffle keeps data and labels paired", "statement": "joint_shuffle permutes data and labels by the same permutation, for every data set with as many labels as data, so the multiset of (datum, label) pairs is preserved; different devices are rejected. (The lengths are not compared, and CPU arguments are shuffled in place.)", "quantifier": "all data sets and all seeded shuffles", "why_tests_cant": "all sizes", "anchors": ["torchmps/utils.py:joint_shuffle"]}
{"id": "C44", "title": "load_HV_data generates a complete, balanced, correctly labelled data set", "statement": "For every length >= 1 (and a numpy that still has np.int) it returns 4*(2^(length-1)-1) pairwise distinct images: every non-constant black-and-white stripe pattern exactly once as rows with label 0 and once as columns with label 1, a quarter of them in the test set; other numpy versions and length 0 raise.", "quantifier": "all image sizes", "why_tests_cant": "all lengths", "anchors": ["torchmps/utils.py:load_HV_data"]}
{"id": "C45", "title": "onehot converts labels to indicator rows", "statement": "onehot(labels, m) has a 1 exactly at each label and 0 elsewhere, for labels in 0..m-1; labels >= m or < -m raise IndexError, the remaining negative labels count from the end.", "quantifier": "all label batches", "why_tests_cant": "all batches", "anchors": ["torchmps/utils.py:onehot"]}
{"id": "C46", "title": "Multiplying contractables contracts exactly the shared bond", "statement": "The product of two contractables sums over the right bond of the first and the left bond of the second, matches the batch index and keeps all other indices apart, for every pair of bond strings, even when both use the same letters; it fails only when letters run out or a required bond is missing; a scalar multiplies every entry of any other contractable from either side, except edge vectors and output matrices, for which it raises TypeError.", "quantifier": "all bond strings, shapes and tensors", "why_tests_cant": "unbounded strings; index capture is a naming question over all strings", "anchors": ["torchmps/contractables.py:Contractable.__mul__"]}
{"id": "C47", "title": "MatRegion evaluates to the same product in tree and sequential order", "statement": "Reducing a MatRegion to a single matrix and then applying it to an edge vector equals applying its matrices to the vector one after the other, from either side, for every number of matrices >= 1.", "quantifier": "all lengths, dimensions, batches", "why_tests_cant": "all lengths", "anchors": ["torchmps/contractables.py:MatRegion.reduce", "torchmps/contractables.py:MatRegion.__mul__"]}
{"id": "C48", "title": "ContractableList.reduce gives the ordered contraction for every layout of an MPS", "statement": "For every list with edge vectors at the ends and between them any number of matrix regions / single matrices and one output core (or none and a terminal output matrix), reduce succeeds for both values of parallel_eval with the ordered product; so it does with parallel_eval=True for such lists without edge vectors. (Without edge vectors and without parallel_eval a matrix region next to an output core raises TypeError.) Without parallel_eval the stored list is consumed.", "quantifier": "all layouts and lengths of lists", "why_tests_cant": "unboundedly many layouts; control flow depends on exceptions", "anchors": ["torchmps/contractables.py:ContractableList.reduce"]}
{"id": "C49", "title": "The global batch size follows the last batched tensor", "statement": "After any history of constructions the global batch size is the batch size of the last explicitly batched contractable; unbatched ones are expanded to it, and raise RuntimeError before any batched one. The mismatch error in the code is unreachable.", "quantifier": "all histories", "why_tests_cant": "unbounded histories of shared mutable state", "anchors": ["torchmps/contractables.py:Contractable.__init__"]}
{"id": "C50", "title": "Degenerate contractables", "statement": "The checks against identity with [] are vacuous and the product with a list is broken: an empty ContractableList is accepted and fails only in reduce (IndexError); zero-dimensional scalars are always rejected although the error message offers them; multiplying a non-empty ContractableList by a contractable always raises: AttributeError if the item it starts with (the last one when the list is the left factor, the first one otherwise) is a scalar, TypeError otherwise.", "quantifier": "all arguments of the respective constructors", "why_tests_cant": "all arguments", "anchors": ["torchmps/contractables.py:ContractableList", "torchmps/contractables.py:Scalar"]}
{"id": "C51", "title": "MPS.forward computes the tensor-train function", "statement": "With open boundaries output o of sample b is the (0,0) entry of the product of the site matrices before label_site, the output core slice o, and the site matrices after it, each site matrix being the feature-contracted core plus bias.", "quantifier": "all input_dim, label_site, bond/feature/output dimensions, parameters, inputs, both evaluation modes", "why_tests_cant": "all sizes and real inputs", "anchors": ["torchmps/torchmps.py:MPS.forward", "torchmps/torchmps.py:LinearRegion.forward"]}
{"id": "C52", "title": "Periodic MPS computes the trace", "statement": "With periodic boundaries the output is the trace of the same product; hence it is invariant under cyclic rotation of the sites around the ring.", "quantifier": "all sizes, parameters, inputs", "why_tests_cant": "all sizes", "anchors": ["torchmps/torchmps.py:LinearRegion.forward"]}
{"id": "C53", "title": "parallel_eval does not change the output of MPS or TI_MPS", "statement": "For equal parameters the outputs with parallel_eval True and False are equal.", "quantifier": "all models and inputs", "why_tests_cant": "all models", "anchors": ["torchmps/torchmps.py:LinearRegion.forward", "torchmps/torchmps.py:TI_MPS.forward"]}
{"id": "C54", "title": "Output shape and batch independence for every call history", "statement": "For label_site >= 1, forward on a batch of size B returns shape [B, output_dim], and the row of a sample depends on that sample only, whatever calls (on any model, any batch sizes) happened before. For label_site = 0 (and at least two pixels) the result depends on the batch size b0 of the last object created with an explicit batch axis anywhere in the process: it is the correct [B, output_dim] tensor exactly when b0 is B or 1, it is b0 copies of the only row when B = 1, it raises RuntimeError otherwise, and it always raises in a process which uses only such models.", "quantifier": "all histories of forward calls of all models sharing the process", "why_tests_cant": "unbounded histories through hidden global state", "anchors": ["torchmps/torchmps.py:MPS.forward", "torchmps/contractables.py:Contractable.__init__"]}
{"id": "C55", "title": "Which label sites can be used", "statement": "MPS accepts every label_site in 0..input_dim at construction. A forward call on a valid input succeeds exactly when neither side of the output site has exactly one pixel (label_site is neither 1 nor input_dim - 1); otherwise every call raises. In particular the default label_site never works for input_dim 1, 2 or 3.", "quantifier": "all input_dim and label_site", "why_tests_cant": "all sizes", "anchors": ["torchmps/torchmps.py:LinearRegion.forward", "torchmps/torchmps.py:InputRegion.forward"]}
{"id": "C56", "title": "Custom paths only permute or select inputs", "statement": "A model with a path gives on x the output of the same model without path on the gathered input; a full-length identity path changes nothing; and two samples agreeing on the path get equal outputs. Tensor-valued paths, although accepted by the type check, raise.", "quantifier": "all paths and inputs", "why_tests_cant": "all paths", "anchors": ["torchmps/torchmps.py:MPS.forward"]}
{"id": "C57", "title": "Feature maps: embedding and registration", "statement": "Scalars are embedded as (x, 1-x) by default (feature_dim 2 only, otherwise RuntimeError), by the registered map entrywise, pre-embedded input is used as is; registering a map of the wrong size raises and leaves the previous map in force; None restores the default.", "quantifier": "all inputs, maps, histories of registrations", "why_tests_cant": "histories and functions", "anchors": ["torchmps/torchmps.py:MPS.embed_input", "torchmps/torchmps.py:MPS.register_feature_map"]}
{"id": "C58", "title": "MPS output is multi-affine in the feature vectors", "statement": "The output is an affine function of each single pixel's feature vector with the others fixed (linear without bias).", "quantifier": "all models, inputs, pixels", "why_tests_cant": "continuum of inputs", "anchors": ["torchmps/torchmps.py:MPS.forward"]}
{"id": "C59", "title": "Merging neighbouring cores does not change the function", "statement": "For both offsets, the merged representation of an adaptive MPS computes the same outputs as the unmerged cores.", "quantifier": "all input_dim >= 2, label_site, cores, inputs, both offsets", "why_tests_cant": "all layouts and values", "anchors": ["torchmps/torchmps.py:MergedLinearRegion._merge", "torchmps/torchmps.py:InputRegion._merge", "torchmps/torchmps.py:MergedLinearRegion.combine"]}
{"id": "C60", "title": "Merge state flips exactly according to the input counter", "statement": "After any sequence of batches: counter + merge_threshold * flips = number of inputs seen, offset = flips mod 2, at most one flip per call, and a flip happens in a call exactly when the inputs seen before it and not yet accounted for by earlier flips reach the threshold.", "quantifier": "all histories of batch sizes", "why_tests_cant": "unbounded histories", "anchors": ["torchmps/torchmps.py:MergedLinearRegion.forward"]}
{"id": "C61", "title": "Exactly when a flip of adaptive training fails", "statement": "After every history of forward calls and parameter updates the structure (number, kinds and shapes of cores) is the one fixed at construction, and the next forward call on a valid input succeeds unless a flip is due and one of the following holds: the left region has exactly two sites and the merge offset is 1, the right region has exactly two sites and the offset is label_site mod 2, all singular values of some merged core are below the cutoff, or a core left unmerged is exactly zero. In each of these cases it fails.", "quantifier": "all input_dim >= 2, label_site, histories", "why_tests_cant": "unbounded histories and sizes", "anchors": ["torchmps/torchmps.py:MergedLinearRegion._merge", "torchmps/torchmps.py:MergedLinearRegion._unmerge"]}
{"id": "C62", "title": "bond_list and sv_list stay well-formed and are refreshed alternately", "statement": "bond_list always has input_dim + 2 entries between 1 and bond_dim, its end entries never change, and a flip from offset p updates exactly the bonds p+1, p+3, ..., so two consecutive flips refresh every internal bond.", "quantifier": "all histories", "why_tests_cant": "unbounded histories", "anchors": ["torchmps/torchmps.py:MPS.forward", "torchmps/torchmps.py:MergedLinearRegion._unmerge", "torchmps/torchmps.py:MergedInput._unmerge"]}
{"id": "C63", "title": "Rescaling of norms during a flip preserves the function", "statement": "The scale factors applied to all cores at a flip multiply to 1, and afterwards all cores have the same norm, equal to the geometric mean of the previous norms.", "quantifier": "all cores with non-zero norm", "why_tests_cant": "all values", "anchors": ["torchmps/torchmps.py:MergedLinearRegion._unmerge"]}
{"id": "C64", "title": "What a flip does to the outputs", "statement": "A flip replaces every merged core by the closest pair of cores with the kept bond dimension (squared distance = sum of the squares of the dropped singular values), and the flipping call returns for every input exactly what the model with the cores cut down in this way returns; in particular, if every dropped singular value is zero, the outputs before and after the flip are equal for every input.", "quantifier": "all models, inputs", "why_tests_cant": "all values", "anchors": ["torchmps/torchmps.py:MergedLinearRegion.forward"]}
{"id": "C65", "title": "Parameters of the inactive merge state have no influence", "statement": "Outputs now and after any further history do not depend on the tensors of the currently inactive module list.", "quantifier": "all histories, all values of the inactive parameters", "why_tests_cant": "unbounded histories", "anchors": ["torchmps/torchmps.py:MergedLinearRegion.forward", "torchmps/torchmps.py:MergedLinearRegion._merge"]}
{"id": "C66", "title": "TI_MPS computes a matrix product over sequences of any length", "statement": "forward returns init^T (bias + A.x_1) ... (bias + A.x_n) T for every sequence length n >= 1. The initial vector has d ones followed by zeros for fill_dim = d and is accepted exactly for 0 <= d <= bond_dim.", "quantifier": "all lengths, dimensions, parameters", "why_tests_cant": "all lengths", "anchors": ["torchmps/torchmps.py:TI_MPS.forward"]}
{"id": "C67", "title": "Zero padding of pre-embedded sequences does not change TI_MPS outputs", "statement": "With use_bias = fixed_bias = True the output for each sequence of a list equals the output for that sequence alone, whatever the lengths of the others.", "quantifier": "all lists of sequences", "why_tests_cant": "all lengths", "anchors": ["torchmps/torchmps.py:TI_MPS.format_input"]}
{"id": "C68", "title": "Zero padding of raw (unembedded) sequences in TI_MPS", "statement": "A list of unembedded sequences is padded with raw zeros before it is embedded. The output for each sequence is that of the sequence alone whenever the registered map sends 0 to the zero vector; for every map which does not, there are parameters for which padding changes the output - in particular for the default map, which sends 0 to (0, 1), where each padding position contributes the matrix of the feature vector (0, 1).", "quantifier": "all lists of raw sequences", "why_tests_cant": "all lists", "anchors": ["torchmps/torchmps.py:TI_MPS.format_input", "torchmps/torchmps.py:TI_MPS.embed_input"]}
{"id": "C69", "title": "TI_MPS input formatting accepts exactly the documented inputs", "statement": "Batch tensors and lists of equal length are always accepted; lists of different lengths are accepted iff use_bias and fixed_bias, and otherwise raise ValueError; mixed ranks and wrong feature dimensions raise.", "quantifier": "all inputs", "why_tests_cant": "all inputs", "anchors": ["torchmps/torchmps.py:TI_MPS.format_input"]}
{"id": "C70", "title": "svd_flex returns orthogonal factors along the new bond", "statement": "The factor that does not carry the singular values has orthonormal slices along the new bond index, the other one has orthogonal slices whose squared norms are the squares of the kept singular values; the number kept never exceeds either flattened dimension.", "quantifier": "all tensors, strings, bond dimensions, cutoffs", "why_tests_cant": "all tensors and shapes", "anchors": ["torchmps/utils.py:svd_flex"]}
{"id": "C71", "title": "Constructors of ProbMPS / ProbUnifMPS accept exactly the valid arguments and build a normalised model", "statement": "ProbMPS(seq_len, input_dim, bond_dim, complex_params, use_bias, init_method, embed_fun, domain) succeeds iff min(seq_len, input_dim, bond_dim) > 0, init_method is known, and an embedding comes with a domain which it accepts and whose dimension is input_dim (not checked for a TrainableEmbedding); the cores, edge vectors and bias have the documented shapes and entries; a fresh bias is zero and changes no result; the total mass of the constructed model is one.", "quantifier": "all sizes, init methods, random draws, embeddings and domains", "why_tests_cant": "infinitely many sizes, draws and embeddings; the accepted set is an iff", "anchors": ["torchmps/prob_mps.py:ProbMPS.__init__", "torchmps/prob_mps.py:ProbUnifMPS", "torchmps/mps_base.py:near_eye_init", "torchmps/mps_base.py:normal_init"]}
{"id": "C72", "title": "svd_flex truncation is optimal", "statement": "No other pair of factors of the same output strings whose shared bond is at most as large is closer (in Frobenius norm) to the input tensor than the pair returned by svd_flex, and with a positive cutoff the number of singular values kept never exceeds the bond dimension of any exact factorisation of the input.", "quantifier": "all tensors, strings, bond dimensions, cutoffs, and all competing factors", "why_tests_cant": "quantifies over all competing factorisations", "anchors": ["torchmps/utils.py:svd_flex"]}
{"id": "C73", "title": "len() and core_len() describe the network", "statement": "len(mps) is input_dim, the lengths of the modules add up to input_dim and their core lengths to input_dim + 1, for plain models and for adaptive ones after any history of training passes and mode changes.", "quantifier": "all models and histories", "why_tests_cant": "all histories", "anchors": ["torchmps/torchmps.py:MPS.__len__", "torchmps/torchmps.py:LinearRegion.core_len", "torchmps/torchmps.py:MergedOutput.core_len"]}
{"id": "C74", "title": "Perceptron embeddings", "statement": "init_mlp_embed raises AssertionError exactly when it is asked for fewer than one layer or given a list of hidden widths of the wrong length; otherwise the embedding sends x to the output of the alternating linear/sigmoid network of the requested widths, with all entries strictly between 0 and 1. Its lambda matrix consists of the trapezoid overlaps of these functions, each strictly between 0 and the length of the domain, it is stored without loss exactly when some off-diagonal overlap is visible to allclose, and the densities of a ProbMPS over it stay normalised at every point of every history of training steps. A discrete domain is accepted but cannot be evaluated.", "quantifier": "all numbers of layers, widths, weights, biases, domains, parameter updates", "why_tests_cant": "all weights and all training histories", "anchors": ["torchmps/embeddings.py:init_mlp_embed", "torchmps/embeddings.py:TrainableEmbedding"]}
{"id": "C75", "title": "Different descriptions of the same distribution", "statement": "A ProbUnifMPS gives sequences of length n the same outcome (the same log probabilities, or AssertionError in both) as the ProbMPS holding n copies of its core; for index inputs a ProbMPS with bias matrix has the same outcome as the one without bias whose core slices have the bias added; and a ProbMPS read from right to left (cores reversed and transposed, boundary vectors exchanged, bias transposed) gives reversed sequences the same outcome.", "quantifier": "all models, lengths, bond dimensions, alphabets, batches, evaluation modes", "why_tests_cant": "all parameters, lengths and inputs", "anchors": ["torchmps/prob_mps.py:ProbMPS.forward", "torchmps/prob_mps.py:ProbUnifMPS.forward"]}
{"id": "C76", "title": "Scale of log-format results", "statement": "The log-format results of the stable evaluations are in a canonical scale which does not depend on the number or magnitude of the factors: contract_matseq evaluated sequentially on at least two factors with non-zero product A returns A/S and log S with S = sum|A_ij|/sqrt(rows*columns), so the absolute values of the returned entries add up to sqrt(rows*columns); evaluated in parallel on at least two matrices with non-zero product Q it returns A/S and log S with S = sum|Q_ij|/D; slim_eval_fun on at least one site with non-zero row vector v returns v.right/S and log S with S = sum|v_i|/D.", "quantifier": "all sequences of matrices, lengths, sizes, batch shapes, boundary vectors, evaluation modes", "why_tests_cant": "products of every length and scale", "anchors": ["torchmps/mps_base.py:contract_matseq", "torchmps/mps_base.py:mat_reduce_par", "torchmps/mps_base.py:mat_reduce_seq", "torchmps/mps_base.py:slim_eval_fun"]}
{"id": "C77", "title": "What the training script reports", "statement": "Running train_script.py with an MPS, for any optimiser that keeps the structure of the model: the run completes and prints one report per epoch; each epoch trains on num_train // batch_size batches of distinct images (the first images in the order the sampler draws), the loss and training accuracy printed are the means, over these images, of the cross entropy and correctness of the model in force at the batch, and the test accuracy is the fraction of correct answers the final model gives to each test image alone. Evaluation leaves a non-adaptive model unchanged and its result does not depend on the sampler's order when batch_size divides num_test; otherwise the images left over are ignored. Losses are non-negative, accuracies lie in [0, 1]. With fewer training or test images than a batch the first epoch ends in ZeroDivisionError. In adaptive mode the images of the evaluation count towards the merge threshold like training images, so an evaluation may change the model; the run completes if every change of merge state that becomes due is possible.", "quantifier": "all data sets, sampler orders, optimiser behaviours (structure preserving), numbers of images, epochs, batch sizes, initial draws, predictions rules for ties", "why_tests_cant": "all training histories, all orders drawn by the samplers and all optimisers", "anchors": ["train_script.py", "torchmps/torchmps.py:MPS.forward", "torchmps/torchmps.py:MergedLinearRegion.forward"]}
{"id": "C78", "title": "After a failed flip an adaptive model silently goes back to stale cores", "statement": "When a flip of an adaptive MPS fails because the cores of a region cannot be merged again (AssertionError), the object is left switched to its other list of merged cores, which was last written at the previous flip (or at construction). A caller that catches the error and calls the model again, on any input, gets the outcome of the model with those stale cores; if these can be unmerged, the call succeeds and returns exactly the value of the stale cores, so everything learned since the previous flip is lost without any error.", "quantifier": "all adaptive models whose flip fails, cores, inputs of the failing and the next call", "why_tests_cant": "all models and values, and a state after an exception", "anchors": ["torchmps/torchmps.py:MergedLinearRegion.forward", "torchmps/torchmps.py:MergedLinearRegion._unmerge", "torchmps/torchmps.py:MergedLinearRegion._merge"]}
{"id": "C79", "title": "Outputs of an MPS as functions of one core", "statement": "With all other parameters and the input fixed, every output of an MPS is an affine function of the core of any one pixel (linear without bias matrices), and a linear function of its own part of the output core, with the same coefficients for all outputs.", "quantifier": "all sizes, label sites, boundary conditions, parameters, inputs, and all values of the core", "why_tests_cant": "all values of all parameters", "anchors": ["torchmps/torchmps.py:MPS.forward", "torchmps/torchmps.py:InputRegion.forward", "torchmps/torchmps.py:OutputSite.forward"]}
{"id": "C80", "title": "Changes of basis and of the bond dimension do not change an MPS", "statement": "Multiplying neighbouring cores of an MPS by a matrix and a one-sided inverse on the bond between them (possibly changing the bond dimension) leaves all outputs unchanged for every input; in particular filling the parameters up with zeros to a larger bond dimension changes no output, so the functions representable with a bond dimension are representable with every larger one.", "quantifier": "all sizes, bond dimensions, boundary conditions, parameters, matrices, inputs, histories", "why_tests_cant": "all parameter values, matrices and inputs", "anchors": ["torchmps/torchmps.py:MPS.forward", "torchmps/torchmps.py:LinearRegion.forward"]}
{"id": "C81", "title": "A translation-invariant MPS is an MPS with periodic boundaries", "statement": "On batches of sequences of any fixed length of at least 2, embedded or not, a TI_MPS returns the same outputs as the MPS of that length with periodic boundaries, the output after the last site, the shared core and bias at every pixel, and the output core terminal_mat[l, o] * init_vector[r].", "quantifier": "all TI_MPS models, sequence lengths, batches, feature maps, evaluation modes, histories", "why_tests_cant": "all models, lengths and inputs", "anchors": ["torchmps/torchmps.py:TI_MPS.forward", "torchmps/torchmps.py:MPS.forward"]}
{"id": "C82", "title": "Newly constructed models give almost constant outputs; without bias matrices an MPS gives almost zero and does not train", "statement": "With use_bias=True (the default) a new MPS returns, for every input and every class, a value within (1 + init_std*D*Z*max(1,X))^(n+1) - 1 of 1 (open boundaries; bond_dim, with that factor, for periodic ones), where Z bounds the Gaussian draws and X the feature vectors. A new adaptive MPS does the same around 1 (open) or min(output_dim, bond_dim) (periodic) on inputs whose features sum to 1. Scores within d of a constant give a cross entropy within 2d of log(output_dim); for the model of train_script.py all scores are within 1/5000 of 1 and the first loss within 1/2500 of log 10 unless a draw exceeds 10. With use_bias=False all outputs are at most of order init_std^n, and replacing the core of any one pixel changes them by at most order init_std^(n-1).", "quantifier": "all constructor arguments, draws, inputs, batch sizes, pixels changed", "why_tests_cant": "all arguments and draws; the vanishing outputs underflow to 0 in floating point", "anchors": ["torchmps/torchmps.py:MPS.__init__", "torchmps/utils.py:init_tensor", "torchmps/torchmps.py:InputRegion.__init__", "train_script.py"]}
{"id": "C83", "title": "Rounding errors of matrix reductions and contract_matseq", "statement": "In any arithmetic whose matrix products, divisions and log-scale updates have small relative errors, mat_reduce_seq, mat_reduce_par and contract_matseq return, for every number of factors and every shape, a pair whose exp(log_scale) * product differs from the exact ordered product, entry by entry, by at most an explicit factor times the product of the absolute values; the factor depends only on the number of factors and the arithmetic and tends to zero with its errors; the accuracy of the rescaling factors themselves does not matter; NaN arises only where the exact value is as small as the error; for non-negative matrices this is a relative error; the sequential and the parallel algorithm agree up to twice the error. Rounding after each elementary operation is such an arithmetic.", "quantifier": "all chains of matrices (any length, sizes, values, batch shapes, boundary vectors), all arithmetics satisfying the accuracy axioms, both evaluation orders", "why_tests_cant": "A test sees the rounding of one machine on a few inputs; the bound must hold for every input and every summation or rounding behaviour of the backend.", "anchors": ["torchmps/mps_base.py: mat_reduce_seq, mat_reduce_par, contract_matseq"]}
{"id": "C84", "title": "Gradients through the reductions, contract_matseq and MPS.forward", "statement": "Differentiating mat_reduce_seq, mat_reduce_par and contract_matseq leaves their values (NaN included) and shapes unchanged, and wherever the result is not NaN, exp(log_scale) * product carries the exact derivative of the ordered product of the factors - the product rule over all factors - along every differentiable motion of matrices and boundary vectors, although the rescaling factors pass through absolute values and logarithms, and whatever derivative is used for the absolute value; where no entry is zero the derivative of the rescaling factor is the true one. Differentiating MPS.forward gives the exact derivative of every output along every differentiable motion of cores, biases, output core and input (feature vectors, default or registered feature map, any path); the gradient with respect to a core is its environment times the feature vector.", "quantifier": "all chains of matrices, batch shapes and boundary vectors, both evaluation orders; all MPS models (label site, sizes, boundary conditions, bias), parameter values, inputs and directions of differentiation", "why_tests_cant": "A gradient check samples a few points and directions with finite differences; exactness, and independence of the derivative of the stabilisation factors, are claims about all of them.", "anchors": ["torchmps/mps_base.py: mat_reduce_seq, mat_reduce_par, contract_matseq", "torchmps/torchmps.py: MPS.forward, MPS.embed_input"]}
{"id": "C85", "title": "Gradients of log probabilities and of the loss", "statement": "Differentiating ProbMPS.forward and ProbUnifMPS.forward, with any evaluation strategy, gives for every batch element the exact value and derivative of the returned log probability along every differentiable motion of cores, boundary vectors, bias and input vectors, as long as no amplitude of the batch and the normalisation vanish: twice the real part of psi'/psi minus Z'/Z. The same holds for get_log_norm (with a moving lambda matrix) and for loss. Averaged with the model's own probabilities over all sequences the gradients vanish in every direction; along rescalings of the parameters and changes of basis on the bonds every gradient vanishes. With a trainable embedding the compression of the lambda matrix drops the derivatives of the entries it drops: there is a model whose probabilities are right but whose gradients are not, and following them increases the total probability.", "quantifier": "all models (fixed length or uniform, real or complex, with or without bias), sizes, inputs, evaluation strategies, parameter values and directions of differentiation", "why_tests_cant": "A gradient check samples points and directions; exactness through divisions, traces, logarithms and absolute values, and the identities between gradients of all sequences, are claims about all of them.", "anchors": ["torchmps/prob_mps.py: ProbMPS.forward, ProbMPS.loss, ProbMPS.log_norm, ProbUnifMPS.forward", "torchmps/mps_base.py: get_mat_slices, slim_eval_fun, contract_matseq, get_log_norm", "torchmps/embeddings.py: TrainableEmbedding.make_lambda"]}
{"id": "C86", "title": "Optimisers stay attached to an adaptive model", "statement": "In adaptive mode the module objects (and so the parameters) of the two merged lists never change: merging writes into the existing tensors, whatever calls, flips, exceptions and training steps occur. So an optimiser that was given model.parameters() once, at any time before a failed flip, goes on training the model: every result of a program of calls and optimiser steps is that of a model in which each optimiser step replaces the values of all parameters. parameters() returns the same set of objects at all times, but with the list in use first: the order changes with every flip, so state matched by position (an optimiser state dict loaded into a new optimiser, a flattened parameter vector) is matched wrongly.", "quantifier": "all adaptive models, programs (calls with any input, training steps with any values, changes of the feature map, use of other models), flips and exceptions", "why_tests_cant": "unbounded histories of in-place updates and aliasing between lists; tests only compare outputs", "anchors": ["torchmps/torchmps.py: MergedLinearRegion.__init__, MergedLinearRegion.forward, MergedLinearRegion._merge, MergedLinearRegion._unmerge", "torchmps/torchmps.py: InputRegion.rescale_norm, InputSite.rescale_norm, OutputSite.rescale_norm"]}
{"id": "C87", "title": "Saving and loading state dicts", "statement": "Loading the state dict of a trained MPS (not adaptive), TI_MPS or ProbMPS into a model constructed with the same arguments (other random draws) succeeds and gives the saved model: every call then gives what the saved model gave, once the feature map (a plain function, which is not part of the state; modules: C108) is registered again. load_state_dict succeeds exactly if the registered names and shapes agree; for an MPS: exactly if number of pixels, outputs, bond dimension and label site agree and (unless there are no pixels) feature dimension and use_bias; otherwise RuntimeError. Periodic or open boundaries, path and parallel evaluation are not part of the state and are not compared, and the fixed bias and ends of a TI_MPS are replaced by the loaded ones.", "quantifier": "all models, argument values, parameter values, random draws; all inputs of later calls", "why_tests_cant": "all architectures and pairs of architectures, and equality of models on all later inputs", "anchors": ["torchmps/torchmps.py: MPS.__init__, InputRegion.__init__, InputSite.__init__, OutputSite.__init__, LinearRegion.__init__, TI_MPS.__init__, InitialVector, TerminalOutput", "torchmps/prob_mps.py: ProbMPS.__init__, ProbUnifMPS"]}
{"id": "C88", "title": "Checkpoints in adaptive mode", "statement": "The state dict of a model in adaptive mode contains the cores of both merge states, but not which merge state is in use, nor the counter, bond_list and sv_list. Loading it into a model of the same architecture succeeds exactly if both are in the same merge state; otherwise RuntimeError is raised, yet the cores of both merge states have been overwritten. In particular, a model constructed anew can load a checkpoint exactly if the saved model had been flipped an even number of times; its outputs are then those of the saved model; otherwise it goes on with the cores which the saved model had given up at its last flip.", "quantifier": "all adaptive models, all histories of calls, flips, training steps and exceptions of calls before the checkpoint, all random draws of the new model", "why_tests_cant": "ranges over all histories and architectures", "anchors": ["torchmps/torchmps.py: MergedLinearRegion.__init__, MergedLinearRegion.forward, MPS.__init__"]}
{"id": "C89", "title": "Embedding functions with parameters", "statement": "If a TrainableEmbedding wraps a module, the parameters of the module are not among the parameters of the ProbMPS or in its state dict: no optimiser made with parameters() changes them, whatever the number of steps, and after saving and loading the model has the embedding of the receiving model, not of the saved one. If a FixedEmbedding wraps a module, its parameters are trained and saved, but the matrix used for the normalisation remains the one at construction: the probabilities are then the squared amplitudes for the trained embedding, divided by the normalisation for the initial one (they sum to the quotient of the two normalisations), and after saving and loading they are multiplied by the quotient of the normalisations of the two initial embeddings.", "quantifier": "all models over integer domains, embedding modules, parameter values, training histories and sequences", "why_tests_cant": "sums over all sequences, and all training histories", "anchors": ["torchmps/embeddings.py: TrainableEmbedding.__init__, FixedEmbedding.__init__", "torchmps/prob_mps.py: ProbMPS.__init__, ProbMPS.forward, ProbMPS.get_log_norm"]}
{"id": "C90", "title": "How much a flip of the merge state can change the outputs", "statement": "In adaptive mode, the outputs of the call in which the merge state flips differ from those the same call would have returned without the flip by at most c times the product of the norms of the sample's feature vectors times (product of (N_j + d_j) minus product of N_j), where N_j are the Frobenius norms of the cores of the merge state given up, d_j the root of the sum of the squares of the singular values dropped of the j-th one (0 for cores which are not split), and c is 1 for open and sqrt(bond_dim) for periodic boundaries. If no merged core has singular values beyond the bond dimension, d_j may be replaced by cutoff times sqrt(bond_dim): the change goes to zero with the cutoff.", "quantifier": "all adaptive models (any sizes, label site, boundaries, parallel or sequential evaluation, any parameter values whose merged cores do not vanish), all cutoffs > 0, all inputs, all batches, every SVD routine meeting the SVD contract", "why_tests_cant": "It is an inequality over all parameter values and inputs, with a bound which depends on the singular values; tests sample a few models and cannot show that no input is amplified more.", "anchors": ["torchmps/torchmps.py: MergedLinearRegion.forward", "torchmps/torchmps.py: MergedLinearRegion._unmerge", "torchmps/torchmps.py: MergedInput._unmerge", "torchmps/torchmps.py: MergedOutput._unmerge", "torchmps/utils.py: svd_flex"]}
{"id": "C91", "title": "Rounding errors of log probabilities", "statement": "In any arithmetic with bounded relative errors (of sums of products, quotients, sums of logarithms) and bounded rescaling factors, forward of a probabilistic MPS with real parameters on index inputs (no embedding, no bias matrix; slim, sequential or parallel evaluation; uniform or per-site cores) succeeds whenever the exact norm, prefix masses and amplitudes exceed explicit error bounds, and each returned log probability differs from log(psi^2 / Z) by at most -2 log(1 - relative error of psi) - log(1 - relative error of Z) plus the rounding error of the final combination, where the relative errors are explicit factors depending on the length, the sizes and the precision, times the ratio of the value for absolute parameters to the exact value. Without negative parameters that ratio is 1, so all log probabilities are accurate to the precision of the arithmetic. The error factors tend to zero with the precision, and exact arithmetic gives the model of the other properties.", "quantifier": "all real models without embedding and bias, all sequence lengths >= 1, sizes, parameter values, batches of index sequences, evaluation options, all arithmetics meeting the accuracy contract (in particular all rounding functions with relative error u < 1)", "why_tests_cant": "It is an inequality over all parameter values, lengths and rounding functions; a test observes the rounding errors of a few models on one machine.", "anchors": ["torchmps/prob_mps.py: ProbMPS.forward", "torchmps/prob_mps.py: ProbUnifMPS.forward", "torchmps/mps_base.py: get_log_norm", "torchmps/mps_base.py: slim_eval_fun", "torchmps/mps_base.py: contract_matseq"]}
{"id": "C92", "title": "What a probabilistic MPS of a given bond dimension can represent", "statement": "The amplitudes of a ProbMPS (or ProbUnifMPS) of bond dimension D, read as a matrix between the first t tokens and the others, have rank at most D for every t. Conversely every distribution over the d^n sequences which is the squared modulus of a tensor with this property is the distribution of some ProbMPS of bond dimension D, for every evaluation strategy; in particular bond dimension d^(n/2) (rounded down) suffices for every distribution, with real parameters. When the distribution is positive, forward returns exactly its logarithms on every batch. A model which gives positive probability exactly to the sequences whose second half repeats the first needs bond dimension d^(n/2).", "quantifier": "all sequence lengths, input and bond dimensions, all distributions, all models without embedding (real or complex parameters), all batches and evaluation options", "why_tests_cant": "It is a statement about the existence of parameters for every distribution and about the non-existence of parameters; tests only see the parameters they try.", "anchors": ["torchmps/prob_mps.py: ProbMPS.forward", "torchmps/prob_mps.py: ProbUnifMPS.forward", "torchmps/mps_base.py: contract_matseq", "torchmps/mps_base.py: slim_eval_fun"]}
{"id": "C93", "title": "What an MPS of a given bond dimension can represent", "statement": "Tabulated on any finite set of feature vectors, the outputs of an MPS of bond dimension D, read as a matrix between the pixels (and the output index) on both sides of a bond, have rank at most D (with periodic boundaries D^2), with or without bias matrices. Conversely every multilinear function of the feature vectors whose coefficients have this property at all inner bonds is computed by an MPS of bond dimension D, for every boundary condition, feature map, path and batch; without bias and with open boundaries these are exactly the functions which can be computed. In particular every table of outputs for images of zeros and ones is reproduced exactly with the default feature map and bond dimension 2^max(k, n-k), k being the label site.", "quantifier": "all numbers of pixels, label sites without a region of one pixel, feature, output and bond dimensions at least 1, all coefficient tensors, all inputs, batches and histories of the global batch size, all fields", "why_tests_cant": "It is a statement about the existence of parameters for every function and about the non-existence of parameters.", "anchors": ["torchmps/torchmps.py: MPS.forward", "torchmps/torchmps.py: LinearRegion.forward", "torchmps/torchmps.py: InputRegion.forward", "torchmps/torchmps.py: OutputSite.forward"]}
{"id": "C94", "title": "Models used by several threads at once", "statement": "Any number of threads (as nn.DataParallel makes them) evaluate MPS and TI_MPS models at the same time, on batches of the same size. If no model starts with its output core, or the evaluation before had the same batch size, every thread returns exactly what it returns alone, for every interleaving of their accesses to the shared class attribute global_bs; and under every fair schedule all threads finish. With different batch sizes this fails: for every two such models there is a schedule in which a call which succeeds alone raises, or (a single sample) returns as many rows as the other thread has samples.", "quantifier": "all numbers of threads, models, inputs, initial values of the global batch size, and all schedules (finite interleavings, fair infinite schedules)", "why_tests_cant": "The behaviour depends on the schedule; a test sees the few interleavings which happen to occur.", "anchors": ["torchmps/contractables.py: Contractable.global_bs", "torchmps/contractables.py: Contractable.__init__", "torchmps/torchmps.py: MPS.forward", "torchmps/torchmps.py: TI_MPS.forward"]}
{"id": "C95", "title": "Interference between threads never changes values", "statement": "A thread evaluates an MPS or a TI_MPS while other threads do anything to the shared batch size, under any schedule. If the call returns, then every row of the result is exactly the value of the model at that sample. A TI_MPS returns one row per sequence; an MPS with inputs returns one row per sample, except that the row of a single sample may be repeated. So interference shows as an exception or as repeated rows, never as wrong numbers.", "quantifier": "all models, inputs, programs of the other threads, initial values of the global batch size, and all schedules", "why_tests_cant": "Neither the interleavings nor the programs of the other threads can be enumerated.", "anchors": ["torchmps/contractables.py: Contractable.global_bs", "torchmps/contractables.py: Contractable.__init__", "torchmps/torchmps.py: MPS.forward", "torchmps/torchmps.py: TI_MPS.forward"]}
{"id": "C96", "title": "Rounding errors of MPS and TI_MPS", "statement": "If every sum of products in torch.einsum and torch.bmm (in whatever order it is taken) is computed up to gamma times the sum of the absolute values of the products, and a single addition or 1 - x up to a relative error u, then on every input the model can evaluate, forward returns a tensor of the right shape whose entries differ from the exact values by at most (1+gamma)^(2n+2) (1+u)^(2n) - 1 times the value of the same network with all parameters and features replaced by their absolute values, n being the number of pixels (for TI_MPS: exponent 2n+1, n the number of steps). Hence two runs on different hardware or in the two evaluation modes differ by at most twice this, and outputs of models with nonnegative parameters and features have a small relative error. Arithmetic that rounds after every operation with relative error u satisfies the assumption with gamma = (1+u)^(S+1) - 1, S being the largest of bond, feature and output dimension.", "quantifier": "all accurate arithmetics and summation orders, sizes, parameter values, inputs, label sites, both boundary conditions, both evaluation modes, and all states of the process", "why_tests_cant": "The bound must hold for every input, every way of rounding and every order of summation.", "anchors": ["torchmps/torchmps.py: MPS.forward", "torchmps/torchmps.py: TI_MPS.forward", "torchmps/torchmps.py: LinearRegion.forward", "torchmps/torchmps.py: InputRegion.forward", "torchmps/contractables.py: ContractableList.reduce", "torchmps/contractables.py: MatRegion.reduce"]}
{"id": "C97", "title": "How much changed parameters and inputs can change the outputs of MPS and TI_MPS", "statement": "For two MPS of one shape with any parameters p and p + dp (say, before and after an optimiser step, or after conversion to a smaller number format), evaluated on any two batches of one size with features e and e + de, each output changes by at most V(|p| + |dp|, |e| + |de|) - V(|p|, |e|), where V is the value of the network. If all parameters change at most by the fraction eps and all features by the fraction eta, this is at most ((1+eps)^(n+1) (1+eta)^n - 1) V(|p|, |e|) for n pixels. Hence outputs depend continuously on parameters and inputs, and a label whose output exceeds all others by more than the bounds remains the predicted label. The same holds for TI_MPS (exponents n+2 and n for n steps).", "quantifier": "all sizes, label sites, pairs of parameter values and pairs of inputs, both boundary conditions, both evaluation modes, all states of the process", "why_tests_cant": "The bound and the continuity must hold for all changes of all parameters and inputs.", "anchors": ["torchmps/torchmps.py: MPS.forward", "torchmps/torchmps.py: TI_MPS.forward"]}
{"id": "C98", "title": "How much changed parameters can change the distribution of a probabilistic MPS", "statement": "For two ProbMPS or ProbUnifMPS of one shape with parameters p and p + dp (real or complex, with or without bias), the sum over all sequences of the differences of their probabilities is at most 4 |Psi(|p| + |dp|) - Psi(|p|)| / sqrt(Z), Psi being the tensor of all amplitudes; if all parameters change at most by the fraction eps, it is at most 4 ((1+eps)^(n+2) - 1) sqrt(Z(|p|) / Z(p)). Hence the distribution depends continuously on the parameters wherever the norm is not zero, and models near such a model have a nonzero norm too. If all parameters are nonnegative and change at most by the fraction eps < 1, no finite log probability changes by more than 2 (n+2) log((1+eps)/(1-eps)).", "quantifier": "all sizes and lengths, pairs of parameter values, sequences, and evaluation strategies", "why_tests_cant": "The bounds must hold for all parameter values and all changes of them, and concern sums over exponentially many sequences.", "anchors": ["torchmps/prob_mps.py: ProbMPS.forward", "torchmps/prob_mps.py: ProbUnifMPS.forward", "torchmps/mps_base.py: get_log_norm"]}
{"id": "C99", "title": "What a TI_MPS of a given bond dimension can represent", "statement": "For symbols with linearly independent feature vectors (for example the scalars 0 and 1 under the default feature map), the functions of words of every length >= 1 which TI_MPS can return, for some parameters and a given bond_dim, output_dim, use_bias, fixed_bias and parallel_eval, are exactly those whose Hankel matrix (rows: prefixes, columns: suffixes and outputs; with some value for the empty word, which the model does not evaluate) has rank at most bond_dim. In particular a block of the table of outputs bounds bond_dim from below, and no bond_dim suffices to recognise palindromes.", "quantifier": "all bond dimensions, feature dimensions, alphabets, settings, tables of outputs on words of all lengths, all accepted forms of the input and all histories of the process; over every field", "why_tests_cant": "It is a statement about all parameters and all words of unbounded length at once; impossibility results cannot be tested.", "anchors": ["torchmps/torchmps.py: TI_MPS.__init__, TI_MPS.forward, TI_MPS.format_input", "torchmps/contractables.py: ContractableList.reduce"]}
{"id": "C100", "title": "What a uniform probabilistic MPS of a given bond dimension can represent", "statement": "A family of distributions, one on the sequences of each length n >= 1, is given by a ProbUnifMPS (index input, no bias) of bond dimension D for some parameters if and only if there is one function of words with Hankel matrix of rank at most D whose squared moduli, normalised at each length, are the probabilities. Every ProbUnifMPS, with bias or not, determines such a function. No ProbUnifMPS gives a positive probability exactly to the palindromes, although for each single length a ProbMPS does.", "quantifier": "all bond dimensions, input dimensions, families of distributions over all lengths, real and complex parameters, evaluation strategies", "why_tests_cant": "It ranges over all parameters and over sequences of all lengths at once.", "anchors": ["torchmps/prob_mps.py: ProbUnifMPS, ProbMPS.forward", "torchmps/mps_base.py: contract_matseq, get_log_norm"]}
{"id": "C101", "title": "Gradients of TI_MPS", "statement": "If the parameters of a TI_MPS (core, initial vector, terminal matrix, bias) and the feature vectors of its input move along differentiable curves, the outputs of forward are differentiable and their derivative is the backpropagation formula: the initial vector and terminal matrix contribute once, the shared core and bias once for every step of the sequence, between the state before the step and what follows it. The same code run over dual numbers (forward mode) returns exactly this value and derivative.", "quantifier": "all sequence lengths >= 1, dimensions, settings, accepted forms of the input, histories of the process, differentiable curves of real or complex parameters and inputs", "why_tests_cant": "Gradient checks test finite differences at a few points and lengths.", "anchors": ["torchmps/torchmps.py: TI_MPS.forward", "torchmps/contractables.py: MatRegion.reduce, ContractableList.reduce"]}
{"id": "C102", "title": "The work done by contract_matseq", "statement": "contract_matseq does exactly as many multiplications as its documentation suggests. Sequentially (the default with a boundary vector), n matrices of size D x D with boundary vectors take n*D^2 scalar multiplications per batch element (and D more with two vectors), in n + (number of vectors) - 1 dependent products; the parallel algorithm takes (n-1)*D^3 multiplications plus D^2 for one vector or D^2 + D for two, in ceil(log2 n) rounds plus one product per vector; parallel evaluation never takes fewer multiplications and never more dependent steps than sequential evaluation. For matrices of arbitrary compatible sizes the sequential algorithm multiplies from the left, or from the right exactly when the product has fewer columns than rows. This is the cheaper direction whenever all inner sizes agree, but not always: for sizes 2x100, 100x1, 1x1 it takes 300 multiplications where 202 are enough, so the comment 'flip matrices if it's cheaper to multiply from right to left' is not always true.", "quantifier": "all numbers and sizes of matrices, all batch shapes, with and without boundary vectors, both evaluation strategies", "why_tests_cant": "Cost formulas must hold for every length and every size; timings of a few runs neither count operations nor show the asymptotics.", "anchors": ["torchmps/mps_base.py:contract_matseq", "torchmps/mps_base.py:mat_reduce_par", "torchmps/mps_base.py:mat_reduce_seq"]}
{"id": "C103", "title": "Gradient and convexity of the training loss", "statement": "The loss of the training script (CrossEntropyLoss of the scores of an MPS on a batch of labelled images) is the mean negative log-softmax of the true labels. Wherever the parameters or inputs move differentiably it is differentiable, and its derivative is the mean over the batch of (softmax of the scores minus the one-hot label) times the derivatives of the scores given by the differentiated forward pass: so loss.backward() can only return these numbers. As a function of the core of any single pixel, with all other parameters fixed, and as a function of the output core, the loss is convex: at a mixture of two cores it is at most the mixture of the losses, and moving to another core never reduces the loss by more than the derivative in that direction promises. Hence a core at which the derivatives vanish is a global optimum given the other cores, which is what sweeping (DMRG-like) optimisation relies on.", "quantifier": "all MPS models (any label site, bias, boundary conditions, evaluation strategy), all batches and label lists, all pixels, all pairs of cores, all differentiable curves", "why_tests_cant": "Convexity and the gradient formula are statements about all parameter values; a finite difference check covers one point and direction.", "anchors": ["train_script.py", "torchmps/torchmps.py:MPS.forward"]}
{"id": "C104", "title": "The loss of a probabilistic model is bounded by the entropy of the data", "statement": "ProbMPS.loss is a proper training objective. Whenever a batch is accepted, its loss is the Shannon entropy of the distribution of sequences in the batch plus the relative entropy (Kullback-Leibler divergence) of that distribution with respect to the model's: hence it is never below the entropy of the data, it equals the entropy only if the model gives every sequence exactly its frequency in the batch, and it is +inf exactly when the model gives probability zero to a sequence of an accepted batch. With bond dimension at least d^(n/2) some model attains the bound, under every evaluation strategy. For sequences drawn from any distribution q, the expected loss of any model is at least the entropy of q, and only a model whose distribution is q reaches it.", "quantifier": "all models without embedding (uniform or not, with or without bias, real or complex), all batches, all distributions over sequences, all evaluation strategies", "why_tests_cant": "A bound over all models and all data sets; training runs only show that the loss did not go below the bound for the parameters visited.", "anchors": ["torchmps/prob_mps.py:ProbMPS.loss", "torchmps/prob_mps.py:ProbMPS.forward"]}
{"id": "C105", "title": "Cost of evaluating an MPS, serially and in parallel", "statement": "The documented tradeoff of parallel_eval holds, with exact costs. One call of MPS.forward takes a number of multiplications and of contractions done one after the other which depends only on the sizes (number n of pixels, label site, batch size B, number O of outputs, bond dimension D, feature dimension F), the boundary conditions and parallel_eval, never on values. With open boundaries the serial evaluation takes B(n(F+1)D^2 + O D^2 + O D) multiplications, the same for every label site, in n + 2 contractions after the features are contracted; the parallel one takes trees of matrix products (k-1)D^3 for each region of k pixels with ceil(log2 k) rounds. Serial never takes more multiplications than parallel, parallel never more steps than serial, and both give the same outputs. With periodic boundaries parallel_eval has no influence on the cost: always trees, plus O D^3 for each region.", "quantifier": "all sizes, label sites, parameters, inputs, both boundary conditions and evaluation modes, every state of the process", "why_tests_cant": "A cost for all sizes; timing a few sizes on one machine does not give the number of operations.", "anchors": ["torchmps/torchmps.py:MPS.forward", "torchmps/torchmps.py:LinearRegion.forward", "torchmps/contractables.py:ContractableList.reduce", "torchmps/contractables.py:MatRegion.reduce", "torchmps/contractables.py:MatRegion.__mul__", "torchmps/contractables.py:Contractable.__mul__"]}
{"id": "C106", "title": "Cost of evaluating a TI_MPS, and of padding", "statement": "One call of TI_MPS.forward takes a number of multiplications and of contractions done one after the other which depends only on the batch size B, the length n of the longest sequence, the number O of outputs, the bond and feature dimensions D and F, and parallel_eval, never on values. Serially B(n(F+1)D^2 + O D) multiplications in n + 2 contractions; in parallel B(n D^2 F + (n-1) D^3 + O D^2 + O D) in ceil(log2 n) + 3. Serial never takes more multiplications than parallel, parallel never more steps than serial, and both give the same outputs. Padding is paid for: the sequences of a list evaluated one at a time never take more multiplications than the list at once.", "quantifier": "all models, all accepted inputs (batches and lists, embedded or not), both evaluation modes, every state of the process", "why_tests_cant": "A cost for all sizes; timing a few sizes on one machine does not give the number of operations.", "anchors": ["torchmps/torchmps.py:TI_MPS.forward", "torchmps/torchmps.py:TI_MPS.format_input", "torchmps/contractables.py:ContractableList.reduce", "torchmps/contractables.py:MatRegion.reduce", "torchmps/contractables.py:MatRegion.__mul__", "torchmps/contractables.py:Contractable.__mul__"]}
{"id": "C107", "title": "Reflected models, rearranged classes, sums of models", "statement": "Reading the pixels from the other end: a model whose cores are in opposite order with the two bond indices exchanged, and the label site moved from k to n - k, gives for the input in opposite order the outputs of the original model, with open and with periodic boundaries. Rearranging, repeating or leaving out slices of the output core does the same to the outputs. Two periodic models side by side (all cores and biases block-diagonal, bond dimensions added) give the sum of their outputs, and so do two TI_MPS (initial vectors and terminal matrices one after the other), on every accepted input, sequences of different lengths included. With open boundaries this fails: the second model has no influence, because the ends of the chain only see the first basis vector.", "quantifier": "all sizes, label sites, parameters, inputs, evaluation modes, both boundary conditions, every state of the process", "why_tests_cant": "An identity between two models for all parameters and inputs.", "anchors": ["torchmps/torchmps.py:MPS.forward", "torchmps/torchmps.py:LinearRegion.forward", "torchmps/torchmps.py:TI_MPS.forward", "torchmps/torchmps.py:OutputSite.forward"]}
{"id": "C108", "title": "Feature maps with parameters of their own", "statement": "If a torch.nn.Module is registered as feature map of an MPS or TI_MPS, its parameters are among the parameters of the model (under feature_map.<name>), every optimiser step on parameters() changes the map used by later calls accordingly, gradients reach them (the differentiated forward pass gives the exact derivative of the outputs along every motion of cores, map parameters and inputs), and saving and loading into a model made with the same arguments, in which a module of the same class was registered, restores the model with its map: every call gives what it gave. A state is accepted exactly if the cores are and the maps have parameters of the same names and shapes, otherwise RuntimeError; in particular the map has to be registered before loading. After any history of registrations the last accepted one is in force; refused are maps of the wrong size (ValueError) and, once a module has been registered - even if None was registered afterwards -, all plain functions (TypeError). Plain functions are never changed by training.", "quantifier": "all models, maps, parameter values, histories of registrations (failures included), sequences of optimiser steps, curves of parameters and inputs, inputs of later calls", "why_tests_cant": "all histories of registrations and training steps, all maps, and equality of models on all later inputs", "anchors": ["README.md:46", "torchmps/torchmps.py: MPS.register_feature_map", "torchmps/torchmps.py: TI_MPS.register_feature_map", "torchmps/torchmps.py: MPS.embed_input", "torchmps/torchmps.py: MPS.__init__"]}
{"id": "C109", "title": "An MPS as linear regression and as a polynomial", "statement": "The contraction of an MPS is a linear regression in an exponentially large feature space (README): for every choice of parameters there are weights, one for each choice of a feature - or, with bias matrices, the constant 1 - at every pixel, such that on every input each output is the sum of weight times product of the chosen features. With the default feature map the outputs are polynomials in the pixels of degree at most one in each pixel; so two models which agree on single black and white images agree on all batches of images. Conversely every family of such polynomials is computed by a model of bond dimension 2^max(k, n-k), k being the label site.", "quantifier": "all models (bias, open or periodic boundaries, label sites, feature maps, paths), parameters, inputs, batches; all polynomials", "why_tests_cant": "Existence of weights for all inputs at once, and an equality on all images which follows from one on finitely many.", "anchors": ["README.md:11", "torchmps/torchmps.py: MPS.forward", "torchmps/torchmps.py: MPS.embed_input", "torchmps/torchmps.py: InputRegion.forward"]}
{"id": "C110", "title": "The parameters of a TI_MPS are determined by its outputs up to a change of basis", "statement": "Multiplying the initial vector by an invertible matrix X, the shared core and the bias from the left by the inverse of X and from the right by X, and the terminal vectors by the inverse of X changes no output of a TI_MPS, for any accepted input; every invertible X is possible for every model, also with a fixed bias. Conversely, if two TI_MPS of the same dimensions return the same for all nonempty sequences of symbols, and some bond dimension many beginnings and endings have a table of outputs with nonzero determinant (the bond dimension is not larger than necessary), then there is exactly one X taking one to the other: its vectors and step matrices always, and also core and bias separately when the bias is absent or fixed and the symbols' features span (as for 0 and 1 under the default feature map), or when the sequences consist of embedded unit and zero vectors.", "quantifier": "all models (bias, fixed bias, parallel evaluation, feature maps), parameters, inputs, batches, sequence lengths; all pairs of models; every field (change of basis: every commutative ring)", "why_tests_cant": "Equality of outputs on all sequences and lengths; existence and uniqueness of the matrix for all pairs of models.", "anchors": ["torchmps/torchmps.py: TI_MPS.forward", "torchmps/torchmps.py: TI_MPS.__init__", "README.md:11"]}
{"id": "C111", "title": "Training a TI_MPS as classifier", "statement": "With the cross entropy of its outputs and labels as loss (as in the training script), a TI_MPS of any parameters has a differentiable loss: when parameters (core, bias, initial and terminal tensors) and inputs move along differentiable curves, its derivative is the mean over the batch of (probability minus indicator of the label) times the derivative of the output, to which the shared core contributes at every step. The loss is a convex function of the initial vector, and of the terminal matrix: it lies below its chords and above its tangents, so a value at which the gradient vanishes cannot be improved alone.", "quantifier": "all models (bias, fixed bias, parallel evaluation, feature maps), accepted inputs (batches, lists), lengths, labels, parameter values and directions; all histories of the process", "why_tests_cant": "Derivatives and convexity are statements about all nearby, respectively all, parameter values.", "anchors": ["torchmps/torchmps.py: TI_MPS.forward", "train_script.py"]}
{"id": "C112", "title": "Adaptive models between flips: sensitivity and convexity of training", "statement": "While no flip is due, an adaptive MPS reacts to changes of its parameters and inputs like a polynomial with non-negative coefficients: with p the parameters of the modules in use (merged or lone cores) and e the embedded inputs, the outputs of two models of one shape in the same merge state differ at most by V(|p|+|dp|, |e|+|de|) - V(|p|, |e|), V being the value of the chain of modules; an output is at most V(|p|, |e|). The cross entropy loss of the outputs is a convex function of each merged or lone core in use: along a straight line between two values of the core it lies below its chord and above its tangent, so a merged core at which the gradient vanishes cannot be improved alone (the alternating optimisation of merged cores which adaptive mode is made for).", "quantifier": "all sizes, label sites, boundary conditions and evaluation modes, both merge states, all parameter values, changes, inputs, labels; all histories of the process", "why_tests_cant": "Bounds and convexity are statements about all parameter values.", "anchors": ["torchmps/torchmps.py: MPS.forward, MergedLinearRegion, MergedInput.forward, MergedOutput.forward", "train_script.py"]}
{"id": "C113", "title": "Translation-invariant models which agree on short sequences agree on all", "statement": "Two TI_MPS of bond dimensions D and D' (any parameters and settings, bias or not) whose outputs agree for all nonempty sequences of at most D + D' symbols agree for all sequences (for D = D' = 1 this bound is the best possible); for every symbol the outputs for repetitions of it inside any sequence satisfy a linear recurrence of order D whose coefficients depend on the symbol only. Two ProbUnifMPS of bond dimensions D and D' which give all sequences of at most 2 D^2 D'^2 symbols the same probabilities give all sequences of all lengths the same probabilities.", "quantifier": "all bond, input and output dimensions, parameters, boundary vectors, alphabets of symbols with feature vectors, sequences of every length, evaluation modes", "why_tests_cant": "A test compares finitely many sequences; that short sequences decide about all lengths is a theorem about all parameters.", "anchors": ["torchmps/torchmps.py: TI_MPS.forward, TI_MPS.__init__", "torchmps/prob_mps.py: ProbUnifMPS, ProbMPS.forward"]}
{"id": "C114", "title": "Gradients along the cores themselves: balance, growth of norms, weight decay", "statement": "For an MPS without bias matrices and any function of its outputs as loss (in particular the cross entropy of the training script, which has gradients at all parameters), the gradient with respect to the core of a pixel, multiplied entrywise with that core and summed, gives the same number for all pixels and for the output core. Hence a step of gradient descent with rate eta changes the difference of the squared norms of a pixel core and the output core only by eta^2 times the difference of the squared norms of their gradients, and at every point where the gradient of loss plus weight decay vanishes all cores have the same norm. For TI_MPS the gradient with respect to the initial vector times this vector equals that with respect to the terminal matrix times that matrix, and without bias the gradient with respect to the shared core times the core is n times this number for sequences of n steps. For ProbMPS and ProbUnifMPS without bias the gradient of the loss is orthogonal to the core tensor: a step of gradient descent never makes its norm smaller (its square grows by eta^2 times the square of that of the gradient), and with weight decay there is no stationary point at all.", "quantifier": "all sizes, label sites, boundary conditions, parameters, inputs, losses of the outputs, learning rates, weight decay factors; probabilistic models: all valid models and batches with finite loss, all evaluation modes", "why_tests_cant": "Statements about the gradients at all parameters and for all losses.", "anchors": ["torchmps/torchmps.py: MPS.forward, InputRegion, OutputSite", "torchmps/prob_mps.py: ProbMPS.loss", "train_script.py: optimizer, l2_reg", "torchmps/torchmps.py: TI_MPS.forward"]}
{"id": "C115", "title": "What translation-invariant models represent is closed under combinations, products, reversal and substitution", "statement": "If two TI_MPS models return the functions c1 and c2 on sequences of symbols of every length, then for every linear combination of their outputs there is a TI_MPS which returns it, with the sum of the bond dimensions, and for every bilinear expression in their outputs one with the product of the bond dimensions; what a TI_MPS returns after every symbol is replaced by a word and fixed words are put before and after is returned by a TI_MPS of the same bond dimension given the sequence itself, and so is (for one output) what it returns on reversed sequences. The new models may have any kind of bias, either evaluation mode and any linearly independent feature vectors. For uniform probabilistic models the normalised product of two distributions with a common possible sequence of every length, the normalised k-th power of a distribution, the distribution of the reversed sequences, that of the middle part given fixed first and last symbols, and that of sequences of blocks of symbols given that only certain blocks occur, are distributions of uniform models without bias, of bond dimensions D1*D2, D^k, D, D and D. The bond dimensions of sums and products cannot be lowered in general: for all D1 and D2 there are TI_MPS models of these bond dimensions whose sum no TI_MPS with fewer than D1+D2 represents, and others whose product none with fewer than D1*D2 represents.", "quantifier": "all models, sizes, alphabets, feature vectors, coefficients, words, powers, sequence lengths; exact arithmetic", "why_tests_cant": "Existence of one set of parameters which is right for every sequence of every length.", "anchors": ["torchmps/torchmps.py: TI_MPS, TI_MPS.forward", "torchmps/prob_mps.py: ProbUnifMPS, ProbMPS.forward"]}
