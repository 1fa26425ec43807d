{
 "C01": {
  "note": "Full: success iff compatible, exact result, ValueError otherwise."
 },
 "C02": {
  "note": "Result depends only on the set of shapes."
 },
 "C03": {
  "note": "Full: shape, entries, ValueError iff incompatible, AssertionErrors, short lists."
 },
 "C04": {
  "note": "C04_batchTo_returns: exactly what is returned and when it is the requested shape; C04_batchTo_rejects_iff; C04_batchTo_exact; C04_batchTo_not_exact: the unqualified claim is false."
 },
 "C05": {
  "note": "Full, for every dim argument torch accepts."
 },
 "C12": {
  "note": "C12_nan_iff: exactly when NaN is produced; C12_value_exact; C12_zero_not_returned: a concrete zero product not returned as 0."
 },
 "C07": {
  "note": "The documentation is wrong about the code; the theorems give its value and exactly where it agrees with either reading."
 },
 "C15": {
  "note": "The claim \"other lengths raise\" is false of the default evaluation; C15_index_accepts_iff, C15_vector_accepts_iff and C15_vector_value characterise exactly what is accepted and with which result."
 },
 "C29": {
  "note": "C29_normalised_iff is exact for uncompressed lambda matrices; C30_total_mass gives the total in the compressed cases; C29_bias_not_normalised is the counterexample to unconditional normalisation."
 },
 "C30": {
  "note": "C30_total_mass (exact), C30_compression_exact, C30_mass_bounds, C30_compression_lossy (witness)."
 },
 "C25": {
  "note": "Agreement proved for all inputs on which both strategies return; the disagreement on zero amplitudes is proved too."
 },
 "C33": {
  "note": "slim_eval+bias raises ValueError; slim_eval overrides parallel_eval; the documented precedence is refuted."
 },
 "C34": {
  "note": "For all histories of module updates, MPS updates, forward and log_norm calls."
 },
 "C39": {
  "note": "For every tensor, accepted string, sv_right, any matrix SVD satisfying its contract (which exists: someSvd_spec)."
 },
 "C41": {
  "note": "Acceptance characterised exactly; C41_partition_not_checked shows what is accepted beyond the documentation."
 },
 "C42": {
  "note": "Full, including the cases in which the construction fails or scrambles."
 },
 "C43": {
  "note": "Pairs preserved for every generator; device check; in-place effect; lengths not compared."
 },
 "C54": {
  "note": "C54_shape: label_site >= 1, after every history of calls (and the TI_MPS theorem). label_site 0: C54_label0 (outcome for every stale batch size), C54_label0_iff (exactly when the shape is right), C54_label0_alone, C54_label0_first_call, C54_label0_stale_batch (witness), C54_no_pixels."
 },
 "C55": {
  "note": "Every label_site constructs (C55_construction) and is evaluated exactly when neither side has exactly one pixel (C55_evaluates_iff; for label_site 0 under the batch-size condition of C54); C55_default_small: the default fails for input_dim 1, 2, 3."
 },
 "C52": {
  "note": "Trace of the ordered product, and invariance under rotation of the pixel cores."
 },
 "C56": {
  "note": "Gathering, identity, dependence on the path pixels only; constructor checks; tensor paths raise."
 },
 "C57": {
  "note": "Entrywise embedding, all error cases, and all histories of registrations."
 },
 "C61": {
  "note": "C61_flips_iff: after every history the next call succeeds iff, when a flip is due, neither region of exactly two sites is met in the wrong merge state, no merged core vanishes below the cutoff and no lone core is zero; C61_structure, C61_two_sites."
 },
 "C66": {
  "note": "Every accepted input with longest sequence >= 1, every history; length 0 always raises (C66_empty); constructor characterised."
 },
 "C67": {
  "note": "For all lists of embedded sequences, including empty ones beside longer ones."
 },
 "C68": {
  "note": "C68_harmless, C68_fails_otherwise (converse: every other map fails for some parameters), C68_actual_value, C68_padding_changes_outputs."
 },
 "C69": {
  "note": "Acceptance characterised exactly (C69_accepted_iff), the result entry by entry, and the exceptions. Lists with items that are not tensors are not modelled."
 },
 "C74": {
  "note": "Full, with the hypothesis on the overlaps that makes the compressed lambda exact (C74_compression says exactly when it holds)."
 },
 "C46": {
  "note": "Every admissible product, with the silent broadcasting of single-sample factors (C46_broadcast)."
 },
 "C75": {
  "note": "Full for models without embedding; the absorbed-bias and mirrored forms for the two non-slim modes."
 },
 "C76": {
  "note": "Full, over exact arithmetic."
 },
 "C77": {
  "note": "Full, over exact arithmetic. The optimiser step, the data sets, the orders of the samplers and the choice among equal maxima are arbitrary."
 },
 "C78": {
  "note": "Full. C78_reverts compares every later call with the model switched to its other list; C78_forgets gives the value returned by the next call. Hypotheses beyond the failing flip (non-zero cores, no singular value cut off in the stale list) exclude the NaN and lossy cases, treated in C63 and C64."
 },
 "C79": {
  "note": "Full, for the non-adaptive MPS."
 },
 "C80": {
  "note": "Full, for the non-adaptive MPS; the bias matrices take part in the change of basis."
 },
 "C81": {
  "note": "Full."
 },
 "C82": {
  "note": "Exact arithmetic; the bounds are on the exact values. The last part is the known issue 'no training when use_bias=False' of torchmps.py:338 made precise."
 },
 "C83": {
  "note": "The algorithms are written over arbitrary operations (FlOps); C83_exact_model shows that exact operations give the model of the other properties. No overflow or underflow of products; rescaling factors within e^-S..e^S."
 },
 "C84": {
  "note": "Forward mode: the algorithms run over dual numbers (Model/Autodiff). torch's reverse mode applies the transposed linear maps to the same local derivatives; that torch implements the derivatives of its elementary operations is trusted."
 },
 "C85": {
  "note": "Forward mode on dual numbers (see C84). C85_forward covers models without embedding object; with an embedding see C85_log_norm (any moving lambda matrix which is a Gram matrix), C85_compress and C85_embedding_gradient. At a zero amplitude the log probability is -inf or an exception is raised and there is no gradient."
 },
 "C86": {
  "note": "On a model with object identity (Model/AdaptiveHeap.lean), shown to refine the value model of C59-C65, C78: this also justifies the simplification made there (effects of the in-place rescaling on the list given up). C86_results goes on after exceptions and ends with the first failing flip; C86_objects also covers what follows."
 },
 "C87": {
  "note": "On a model of what is registered (Model/Registry.lean) and of nn.Module.state_dict / load_state_dict (strict). C87_accepts_iff is the criterion for arbitrary state dicts, C87_mps_accepts_iff for two MPS of any architectures. Dtypes and devices are not modelled."
 },
 "C88": {
  "note": "On the model with object identity of C86, where `module_list` and one of the two lists are the same objects, so load_state_dict writes them twice. Histories without failed flips."
 },
 "C89": {
  "note": "C89_probability_four and C89_trainable_not_saved are concrete witnesses: a probability of 4, and a model whose probability 1/5 is 1/2 after saving and loading."
 },
 "C90": {
  "note": "C90_change: the bound through the singular values dropped. C90_cutoff: the bound through the cutoff alone if nothing is dropped beyond the bond dimension. Exact arithmetic; hypotheses as in C64 (no vanishing cores, not one of the stuck layouts), with a concrete trained model meeting them."
 },
 "C91": {
  "note": "C91_log_norm: get_log_norm; C91_log_prob: forward; C91_nonneg: no cancellation without negative parameters; C91_rounding: rounding after every elementary operation meets the contract; C91_limit: the error factors tend to 0; C91_exact_model: with exact arithmetic the rounded forward equals the model of the other properties. Overflow is not modelled; complex parameters, embeddings and bias matrices are not covered."
 },
 "C92": {
  "note": "C92_rank_bound: necessity (also with bias and for uniform models); C92_exactly: the representable distributions; C92_universal: bond dimension d^(n/2) suffices; C92_forward: log probabilities returned for batches; C92_needs: the lower bound for repeated sequences."
 },
 "C93": {
  "note": "C93_represents: sufficiency; C93_rank_bound: necessity; C93_exactly: both, without bias and with open boundaries; C93_all_tables: all tables for black and white images."
 },
 "C94": {
  "note": "C94_same_batch: results under every schedule; C94_terminates, C94_all_finish: termination; C94_race: the failure with different batch sizes; C94_extra_rows: a concrete schedule with a wrong number of rows. Only accesses to global_bs are interleaved (everything else is local to a thread); threads are sequentially consistent, as under the interpreter lock."
 },
 "C95": {
  "note": "C95_mps, C95_ti. The other threads are arbitrary programs over the shared attribute, not only evaluations. As in C94 each access is atomic. MPS with a region of one site (which raise in every evaluation) are excluded."
 },
 "C96": {
  "note": "C96_exact_mps and C96_exact_ti tie the rounded program to the model used elsewhere (exact arithmetic gives back MPS.forward and TI_MPS.forward); C96_mps, C96_ti the bounds; C96_agree, C96_nonneg consequences; C96_rounding rounding after every operation satisfies the assumption. No overflow or underflow; a registered feature map is taken as it is; MPS with a region of one site (which raise in every evaluation) are excluded."
 },
 "C97": {
  "note": "C97_mps and C97_ti the general bounds, C97_relative and C97_ti_relative for relative changes, C97_continuous continuity, C97_label the certificate for labels. Exact arithmetic (see C96 for rounding). The bound for relative changes is attained (example)."
 },
 "C98": {
  "note": "C98_distance the general bound, C98_relative for relative changes, C98_continuous continuity, C98_nonneg log probabilities. Models without embedding; probabilities are the exponentials of what forward returns (0 where it refuses, as in C22). Exact arithmetic (see C91 for rounding)."
 },
 "C99": {
  "note": "C99_rank_bound: necessity, also for finite blocks; C99_exactly: both directions (the theorem of Carlyle and Paz for this model); C99_palindromes: a function no TI_MPS computes. Exact arithmetic; trainable end vectors (fixed_ends=False)."
 },
 "C100": {
  "note": "C100_rank_bound: necessity, also with bias; C100_exactly: both directions; C100_palindromes: a support no uniform model has. Exact arithmetic."
 },
 "C101": {
  "note": "C101_derivative: the derivative of the outputs; C101_core_entry: the partial derivatives of the shared core; C101_forward_mode: forward over dual numbers. As in C84, that torch differentiates its elementary operations correctly is trusted."
 },
 "C102": {
  "note": "The algorithms of mps_base over an arbitrary arithmetic (Model/Rounded) are run on matrices carrying the work that went into them (Model/Cost). Multiplications of rescaling steps, which are linear in the number of entries, are not counted."
 },
 "C103": {
  "note": "Over the reals; CrossEntropyLoss is modelled by its documented formula. C84 gives the derivatives of the scores, C79 the affine dependence on one core."
 },
 "C104": {
  "note": "Rests on normalisation (C22, C23): with a wrong normalisation the bound fails."
 },
 "C105": {
  "note": "Non-adaptive models with regions of no or at least two pixels. Additions (bias, trace) and the feature map are not counted."
 },
 "C106": {
  "note": "Inputs whose longest sequence has length at least 1 (others raise, C66). Additions and the feature map are not counted."
 },
 "C107": {
  "note": "Non-adaptive models with regions of no or at least two pixels (others raise, C55); C107_reflection for models without a path."
 },
 "C108": {
  "note": "Non-adaptive MPS and TI_MPS. nn.Module.__setattr__, parameters() and load_state_dict are modelled (Model/FeatureModule.lean, Model/Registry.lean); a module object shared by several models is not. C108_gradient: MPS without a path, raw inputs with at least one sample and pixel; the map is assumed to be differentiated correctly by autograd."
 },
 "C109": {
  "note": "Non-adaptive models with regions of no or at least two pixels (others raise, C55). The polynomial statements are for the default feature map without a path."
 },
 "C110": {
  "note": "Exact arithmetic. The outputs compared are those of forward for all accepted batches (of one length; sequence lists with different lengths are C66-C68)."
 },
 "C111": {
  "note": "Exact real arithmetic; the loss is that of train_script.py (torch.nn.CrossEntropyLoss), which the script applies to an MPS (C103)."
 },
 "C112": {
  "note": "Exact real arithmetic; what happens at flips is the subject of C60-C64 and C90."
 },
 "C113": {
  "note": "Exact arithmetic over a field (TI_MPS) and over the real or complex numbers (ProbUnifMPS); the probabilistic models are assumed to give some sequence of each length a positive probability and, when slim_eval is on, to have no bias."
 },
 "C114": {
  "note": "Real parameters and exact arithmetic; a gradient is given as the vector of partial derivatives which yields all directional derivatives. The training script uses Adam, whose steps are not multiples of the gradient: the statements about steps are about plain gradient descent, those about vanishing gradients apply to any optimiser."
 },
 "C115": {
  "note": "Parameters in any field (TI_MPS), real or complex (uniform models); exact arithmetic. The feature vectors of the given models need not be independent; those of the constructed ones must be. Existence of parameters, not that training finds them."
 }
}