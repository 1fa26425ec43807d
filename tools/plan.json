{
 "C01": "Model: fold over the shapes with the code's negative-index loop. Invariant: the accumulator is the broadcast of the shapes seen so far; spec is a per-axis relation `IsBroadcast`.",
 "C02": "Corollary of C01: `IsBroadcast` depends only on the set of shapes.",
 "C03": "Tensor model; entries through right-aligned source indices.",
 "C04": "From C01/C03; witness for the unqualified claim.",
 "C05": "Case analysis on the collection; stacking at any (also negative) position.",
 "C06": "Unit modulus of exp(2 pi i u); zero imaginary part of Hermitian traces.",
 "C07": "Floor of the natural logarithm; interval arithmetic on log 2 for the exact coincidence sets.",
 "C08": "Strong induction on the length for the halving loop; invariant exp(scale) * product = true product.",
 "C09": "Induction on the list in both directions, same invariant.",
 "C10": "Case analysis over boundary vectors and strategies on top of C08, C09, C03.",
 "C11": "The batch level functions apply the per-element ones at each source index.",
 "C12": "NaN = `none` is propagated exactly when a partial product is zero; characterised by the full product.",
 "C13": "Direct evaluation of the code's empty-sequence branches.",
 "C14": "From the general einsum model, per literal index string.",
 "C15": "As C14, with size-1 broadcasting of einsum; iff by evaluating its acceptance condition.",
 "C16": "Invariant of C09 on row vectors, site by site.",
 "C17": "Density matrix invariant: exp(l) * rho_t = sum over prefixes x of h_x h_x^dagger; induction on the cores.",
 "C18": "As C17 with lambda inserted; scalar, diagonal and full lambda.",
 "C19": "Exhaustive case analysis of the assertions.",
 "C20": "Unfolding with the draw as parameter.",
 "C21": "C10/C14/C16 for the amplitude, C17/C18 for the normaliser.",
 "C22": "Sum of C21 over all sequences against C17.",
 "C23": "As C22 for each length.",
 "C24": "|amplitude|^2 is one term of the sum in C22.",
 "C25": "All strategies equal C21's right-hand side; the exceptional zero-amplitude cases are listed.",
 "C26": "C11 lifted to forward.",
 "C27": "Gauge transformations telescope in the matrix product; both amplitude and normaliser scale.",
 "C28": "C18 with the counting weights.",
 "C29": "C18 including the bias; exact total from C30.",
 "C30": "lambda = stored form iff `allclose`'s decision is exact; total mass as quotient, bounds by comparing diagonals.",
 "C31": "lambda scales by |c|^2, amplitude by c per site.",
 "C32": "C28 with trapezoidal weights on the 1000 grid points.",
 "C33": "Case analysis of the option checks.",
 "C34": "State machine over parameter updates and calls.",
 "C35": "Direct.",
 "C36": "Binomial theorem.",
 "C37": "lambda is a weighted sum of v v^dagger.",
 "C38": "Case analysis of constructors.",
 "C39": "svd as parameter with contract; tensor reshape/permute bijections.",
 "C40": "Truncation by list recursion on a descending list.",
 "C41": "String checks as predicates on letter lists, iff.",
 "C42": "Tensor level with the noise as parameter.",
 "C43": "A permutation depending on seed and length only.",
 "C44": "Bit arithmetic over all lengths; counting.",
 "C45": "Direct, exact error set.",
 "C46": "Capture-freedom of the generated einsum string, for arbitrary bond strings.",
 "C47": "Strong induction for the tree, induction for the sequence.",
 "C48": "Induction over the list with Python's operator dispatch.",
 "C49": "State machine over constructions.",
 "C50": "Direct evaluation of operator dispatch.",
 "C51": "Module by module (`Piece`), then C48; spec is a plain product of matrices.",
 "C52": "As C51 for the ring.",
 "C53": "Both equal C51's right-hand side.",
 "C54": "Histories with the global batch size as state; for label_site 0 the einsum broadcasting rules.",
 "C55": "Sizes of the two regions; iff.",
 "C56": "Index selection commutes with embedding.",
 "C57": "Direct, all input ranks.",
 "C58": "Matrix product is linear in each factor.",
 "C59": "Merging = associativity of the matrix product; induction over the chain for both offsets.",
 "C60": "Induction over histories.",
 "C61": "Flip = unmerge, rescale, merge; each step's success condition; iff over reachable states.",
 "C62": "Invariant over histories.",
 "C63": "The scale factors multiply to 1; NaN iff a core has norm zero.",
 "C64": "C39 with nothing cut off, C59, C63; for lossy flips C40 (error) and C72 (optimality) carried through the splitting of every merged core (`Truncated`).",
 "C65": "The active list alone enters forward; the inactive one is overwritten by a flip.",
 "C66": "Induction on the length; einsum chain.",
 "C67": "Zero vectors give identity matrices with the fixed bias.",
 "C68": "Value of the padded chain; witness family for the converse.",
 "C69": "Case analysis of the accepted inputs, iff.",
 "C70": "Isometry of the reshaped factors from the SVD contract.",
 "C71": "Case analysis of constructor checks, then C22/C23.",
 "C72": "Eckart-Young for the Frobenius norm, proved from the contract.",
 "C73": "Sums over module lists, both merge states.",
 "C74": "Composition of affine maps and sigmoids; shapes; positivity.",
 "C75": "Equality of transition matrices, amplitudes, normalisation and acceptance conditions, then C21_forward_exact on both models.",
 "C76": "Induction on the loops: after the last rescaling the absolute sum of the mantissa is the target norm; with the value theorem this determines the scale.",
 "C77": "Model of the two loops over an arbitrary network (state, call), data set, optimiser and sampler order; induction on batches and epochs. Batch predictions are those of single images by C54; adaptive mode through histories (C60, C61).",
 "C78": "The failing call is computed step by step (C61) up to the assertion; the state it leaves differs from the switched model only in a list that the next call overwrites before reading it. Then C64 applied to the switched model gives the value.",
 "C79": "The product of all matrices with one of them varying is L * M * R; entries and traces of it are linear in M.",
 "C80": "Induction along the chain: the product of the changed matrices is Y_0 * product * X_(n+1); ends by the boundary conditions, the trace being cyclic.",
 "C81": "The state of the TI_MPS is the initial vector times the product of the matrices; the trace of the product with the output core closes the ring (C52, C66).",
 "C82": "The row-sum norm of matrices: a product of n+1 factors within c of a projection P of norm at most 1 is within (1+c)^(n+1)-1 of P. The values of all parameters of a new model come from the construction theorems (C55, C59).",
 "C83": "Backward-free forward error analysis: an invariant `|σ A - X| ≤ (g - 1) Y` through products and divisions, the log scale separately; loop invariants for both algorithms; rounding per operation as an instance.",
 "C84": "The algorithms are written over an arbitrary arithmetic (Arith); dual numbers are shown exact (the scalar represented by the log scale is a dual number) and to project onto the ordinary arithmetic. Curves: the entries of a product of curves follow the product of the jets.",
 "C85": "dualEvalPsi (slim and dense) is shown to succeed and to follow the amplitude; the transfer-operator recursion on dual numbers is shown to compute log(normValue) with its jet, by showing that the traces cancel; logarithm and square modulus by the chain rule; score identity because the total probability of the sequences with non-zero amplitude has a local maximum.",
 "C86": "A store of module objects. Each pass of merging and unmerging is simulated by the one on values: results are old objects or new ones, distinct, old objects are unchanged except for the rescaling, which keeps class and shape. A flip therefore leaves the two lists as they are and changes the list given up only in values, which do not matter (C65).",
 "C87": "Names are distinct, so lookup by name finds the entry of the same module; the shapes are those of IsMps / IsTi. For the converse read off the sizes from the shapes of the entries and the number of entries.",
 "C88": "The names and shapes under module_list differ in the two merge states in the number of axes of the first tensor. The copies for module_list come first and are overwritten by those for the two lists. The number of flips is C60_flips.",
 "C89": "The lambda attribute hides the module from registration; lamb_mat is a plain attribute. The normalisation with a given lambda matrix and the amplitude are those of C70.",
 "C90": "Compare the ordered products of the matrices of the active modules and of the cut-down modules of C64 factor by factor: each factor changes by at most (norm of the change of the core) times (norms of the feature vectors), and a product of matrices telescopes in the (submultiplicative) Frobenius norm. The norm of the change of a core is the Eckart-Young error, part of C64.",
 "C91": "Model forward, slim_eval_fun and get_log_norm over an abstract arithmetic (Model/RoundedProb.lean) with an accuracy contract (Spec/RoundedProb.lean). Induction over the sites with the invariant that the rescaled density matrix is near the exact one, with error relative to the density matrix of absolute values; amplitudes from C83 and a loop lemma for slim evaluation; the logarithm of a relative error at the end.",
 "C92": "Tensor train decomposition over any field (Lemmas/TensorTrain.lean): choose D vectors spanning the row space of every unfolding; fixing one more index maps row spaces into row spaces, which gives the cores. Necessity by factoring the unfolding through the bond. Connected with forward by C21.",
 "C93": "The tensor train decomposition of C92 with one more site for the output index; the boundary vectors are absorbed into the first and last core. Outputs are determined by their values on one-hot feature vectors (multilinearity, C58/C79); connected with forward by C51 and C52.",
 "C94": "Model/Threads.lean writes the evaluations as programs which read and assign the attribute at the places where the code does, so that all interleavings are covered; run without interference they are the functions of the other models (Lemmas/ThreadsRun.lean). Invariant: the attribute is B, or the thread has not yet used it and will set it to B before it does.",
 "C95": "Simulation: every execution of the call, with arbitrary values read at every access, is compared sample by sample with the undisturbed evaluation of that sample as a batch of one (Lemmas/ThreadsRow, ThreadsSim*): each tensor operation commutes with the selection of a sample, also when operands with different batch sizes are broadcast.",
 "C96": "Model/RoundedMps: forward with the arithmetic as a parameter. The rounded run is compared in lockstep with the exact run of the same program over triples (value, absolute value, weighted absolute value), a commutative ring (Lemmas/NetRel, NetSim, NetSimList, NetSimMps); the exact run is known from C51, C52, C66, and the components of its result by naturality under ring homomorphisms (Lemmas/NetValue).",
 "C97": "The value of a network is a polynomial with natural coefficients, so it stays in every subsemiring; apply this to the quadruples (value, changed value, bound, bound of both) in K x K x R x R, which form one (Lemmas/Sens).",
 "C98": "As C97 for the amplitudes (Lemmas/SensProb), and an elementary estimate for normalised vectors.",
 "C99": "Hankel rows as functions on suffixes (Spec/Hankel); realisation by the shift operators on the row space, embedded in K^D (Lemmas/Hankel); transfer to forward by C66.",
 "C100": "The Hankel matrix of the amplitudes (Lemmas/Hankel) with the Born rule (C21, C23).",
 "C101": "Induction over the sequence for the derivative of the state, summation by steps; forward mode from C66 over the ring of dual numbers.",
 "C102": "Run contract_matseq over a counting arithmetic; induct over the sequential loop and over the halving loop (invariant: the first matrix is the result of as many rounds as have been done); closed forms by induction.",
 "C103": "Reduce the script's loss to log-sum-exp minus score; log-sum-exp is convex (convexity of exp applied to normalised scores); combine with C79 (affine in one core) and C84 (jets of forward).",
 "C104": "Rewrite the mean over samples as a weighted sum over outcomes; Gibbs' inequality from log x <= x - 1 with its equality case; C21/C22 give the probabilities and their sum; C92 gives a model that attains the bound.",
 "C105": "Model/CostMps.lean: the model of forward instrumented with the work of every einsum and bmm (C105_run: same results, exceptions and state as forward); sizes of all intermediate objects from their classes and bond strings; the tree by induction over the rounds.",
 "C106": "Model/CostTi.lean: the instrumented forward (C106_run: same results as the model of forward); sizes of all intermediate objects as for C105.",
 "C107": "Transpose of the ordered product of all matrices; block-diagonal matrices are closed under products; entries by induction over the sequence for TI_MPS.",
 "C108": "Invariant over histories: the state of the attribute is determined by the last accepted registration and by whether a module was ever accepted. State dicts: disjoint names of cores and map. Gradient: C84 with a moving map.",
 "C109": "The bias matrix is one more slice of the core for the constant feature 1; expansion of the multilinear value over one-hot vectors (C93); products of affine functions of the pixels; Moebius inversion over sets of pixels for the uniqueness.",
 "C110": "Outputs as values of words under a linear representation (C99); conjugation telescopes in the product; for the converse the two factorisations of the table of outputs U V = U' V' give X = U^-1 U', and the tables with one more symbol in the middle give the step matrices; independence of features separates core and bias.",
 "C111": "C101 for the derivatives of the outputs; the derivative of log-softmax; outputs are affine along segments of initial vectors and terminal matrices, log-sum-exp is convex.",
 "C112": "The forward pass of a merged chain is the ordered product of the matrices of its modules (C59); quadruples (value, changed value, bound, bound of both) form a semiring for the sensitivity; each product of matrices is affine in one core, log-sum-exp is convex.",
 "C113": "The difference of the outputs factorises over D + D' indices; a shortest sequence where it does not vanish and which is longer would make a triangular matrix of full rank from its beginnings and endings. Recurrence: Cayley-Hamilton. Probabilities: the same argument for the difference of cross-multiplied probabilities, whose total masses factorise as well.",
 "C114": "Outputs are linear in each core (C79), so scaling any core moves the outputs along the same line; uniqueness of derivatives. Probabilistic models: scaling does not change the loss (C27).",
 "C115": "Representability is a bound on the Hankel rank (C99, C100): factorisations of the Hankel matrix are added, multiplied, swapped, restricted."
}