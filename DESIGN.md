# Formal model of TorchMPS in Lean 4

Source modelled: `/repo/torchmps/*.py` at the pinned commit. Nothing is executed: the model is a
hand translation, every definition cites the lines it models, and says where it simplifies.

(The second half of this file, the tables per property, is generated by `tools/design.py` from `properties.jsonl`,
`MANIFEST.json`, `tools/plan.json` and the output of `#print axioms`.)

## Layout

| directory | content |
|---|---|
| `lean/Verif/Base/`   | tensors, exceptions, `einsum`, other torch primitives (what PyTorch is assumed to do) |
| `lean/Verif/Model/`  | the code, function by function |
| `lean/Verif/Spec/`   | small specifications that do not mention the model's helpers (Mathlib matrices, finite sums, a broadcast relation, ...) |
| `lean/Verif/Lemmas/` | auxiliary lemmas |
| `lean/Verif/Props/`  | the property theorems `Cxx_...`, with `example`s which show concrete cases meeting their hypotheses |
| `seeded/LOG.jsonl`   | wrong programs tried against the theorems, and what was tightened in consequence |

## Trusted base

1. **Lean 4.33.0's kernel** and Mathlib as installed (all Mathlib theorems used are checked by the same kernel).
2. **Axioms.** Only Lean's three standard ones: `propext`, `Quot.sound`, `Classical.choice`. The table at the end lists, per theorem,
   which of them it depends on. No axiom is added, no proof is left open, no compiled evaluation (`native_decide`, `bv_decide`) is used.
3. **The translation** from Python to Lean in `Model/`, and the descriptions of PyTorch/NumPy primitives in `Base/` (below). A reader has to
   compare these with the cited lines; nothing checks this mechanically.
4. **The specifications** in `Spec/`, and the reading of each English property as a theorem.

### What is assumed of PyTorch and Python

* `torch.einsum` (from its index string, with size-1 broadcasting, size mismatch = RuntimeError, repeated or unknown output letters =
  RuntimeError), `matmul`, `stack`, `cat`, `view/reshape`, `permute`, `unsqueeze/expand`, integer and slice indexing with negative wrap-around and
  IndexError, broadcasting, `eye`, `allclose` (rtol 1e-5, atol 1e-8), `trace`, `linspace`, `nn.Linear`, `nn.Sigmoid`, `F.one_hot`.
* `torch.svd` is a parameter with the contract `Spec.IsSVD` (`U diag(S) V^T = T`, orthonormal columns, descending non-negative `S`). The contract
  is satisfiable: `someSvd_spec` proves the existence of such a function for every matrix. `set.pop` is a parameter returning some element.
* Random draws (`torch.randn`, `torch.rand`, `np.random.shuffle`) are explicit arguments; theorems hold for every draw. `torch.empty` too (its
  unspecified contents are an argument).
* Exceptions are values (`Except Err`), one constructor per Python exception class. The class attribute `Contractable.global_bs` is threaded as a
  state which survives exceptions (`CM`), and theorems quantify over histories of calls. C94 considers several threads: there an evaluation is a program
  (`Model/Threads.lean`) whose reads and assignments of the attribute interleave with those of other threads. Each access is atomic (interpreter lock).

### What is modelled, and how

| Python | Lean | remarks |
|---|---|---|
| `utils2.py` | `Model/Utils2`, `Model/MpsBase` | all functions except `is_tensor`-style one-liners |
| `mps_base.py` | `Model/MpsBase` | all functions |
| `embeddings.py` | `Model/Embeddings`, `Model/Mlp` | all; `TrainableEmbedding` with any function of its parameters as embedding, the perceptron embeddings concretely |
| `prob_mps.py` | `Model/ProbMps`, `Model/ProbInit` | all, constructors included |
| `utils.py` | `Model/Utils` (`svd_flex`), `Model/InitData` (`init_tensor`, `onehot`, `joint_shuffle`, `load_HV_data`) | all |
| `contractables.py` | `Model/Contractables` | all classes and operators, with Python's operator dispatch; a `ContractableList` inside another one is not modelled (the library never builds one) |
| `torchmps.py` | `Model/Mps`, `Model/Adaptive`, `Model/TiMps`, `Model/Len` | `MPS` (fixed and adaptive, open and periodic), `TI_MPS`, all module classes |
| `train_script.py` | `Model/Train` | the training and evaluation loops, over any network, data set, order of the samplers; `backward(); step()` is an arbitrary function of the state and the batch; not the MNIST download and the texts printed |

Not modelled: `tests/`, `setup.py`, `docs/`; reverse-mode autograd as an algorithm (C84 models differentiation in forward mode, by dual numbers; elsewhere an optimiser step is any change of the parameter values which keeps their shapes);
devices; threads, except their accesses to `global_bs` (C94, C95); dtypes beyond integer/real/complex and dtype promotion; aliasing of memory between views, except where the code writes in place
(`joint_shuffle`, `svd_flex`' `sv_vec`, `merge`/`unmerge` of the adaptive mode); `print` output; time and memory use.

### Numbers

Tensor entries live in an exact field: `ℝ`, `ℂ` or any `RCLike` field (both at once), or any commutative ring where nothing else is needed.
Except in C83, C91 and C96, rounding, overflow and underflow of floating point arithmetic are **not** modelled: theorems about equality of two evaluation orders say that the
algorithms compute the same number, not that the two floating point results agree in the last bit. C83 writes `mat_reduce_seq`, `mat_reduce_par` and
`contract_matseq` over arbitrary operations and bounds their rounding errors (still without overflow and underflow of products); C91 does the same for `ProbMPS.forward`
(with and without `slim_eval`) and `get_log_norm`, with real parameters and neither embedding nor bias (`Model/RoundedProb.lean`); C96 for `MPS.forward` and
`TI_MPS.forward` (`Model/RoundedMps.lean`). What is modelled of IEEE semantics: division by zero and
`log 0`. A computation that would produce NaN in a batch element yields `none` for that element (or `Err.nan` where a whole tensor becomes NaN, as in the
rescaling of cores), `log 0 = -inf` is `⊥ : EReal` where the code lets it survive.

### Adaptive mode

`AdMps` holds both lists of cores (merged active list, inactive list), the counter, the offset, `bond_list`, `sv_list`. A history (`History`) is a list of
forward calls; each may flip the merge state, which unmerges by `svd_flex`, rescales and merges again. A flip which raises leaves a half-updated object; the
model records that (`stray` state) and the theorems say exactly when it happens (C61) and that it never happens otherwise. `rescale_norm` works in place, so a flip also rescales the lone core objects of the list it leaves; the model does not record
this, because that list is overwritten (`_merge`) before it is read again. (No core object belongs to both lists: an output core left alone by one offset is merged by the other.)

### Findings: where the code does not do what its documentation or a user's expectation says

Each is a theorem (a concrete witness, an exact characterisation, or both).

* `batch_to` can return a larger batch than requested (C04). `floor2` uses the natural logarithm (C07).
* `contract_matseq` returns NaN instead of 0 for exact zero products of two or more factors (C12); `ProbMPS.forward` raises AssertionError on inputs of zero amplitude by
  default while slim/parallel evaluation may return -inf (C25).
* The direction chosen by `contract_matseq` ("flip matrices if it's cheaper to multiply from right to left") is not always the cheaper one: 300 against 202
  multiplications for sizes 2x100, 100x1, 1x1 (C102).
* A fixed-length model accepts shorter index sequences and length-1 vector sequences silently; negative tokens wrap around (C14, C15). `slim_eval_fun` with zero sites
  and batch size other than 1: AssertionError (C16). `get_log_norm` of a uniform model with length below -1 behaves like length 0 (C19).
* With a bias and an embedding the probabilities do not sum to 1 (C29). The compression of lambda matrices is lossy (C30). `parallel_eval` does not override `slim_eval`
  as documented (C33). `TrainableEmbedding.lamb_mat` is stale after an update (C34); the dimension of a new `TrainableEmbedding` is not checked by `ProbMPS`, and
  `ProbUnifMPS.seq_len` returns the input dimension (C71). An MLP embedding of a discrete domain is accepted but every evaluation raises (C74).
* With a trainable embedding the gradient of the normalisation can be wrong where the values are right: the compression of the lambda matrix drops the derivatives of the entries it drops,
  so following the gradient increases the total probability (C85).
* `normal_init` ignores `rel_std` (C20). `init_tensor("min_random_eye")` given as a string: UnboundLocalError; non-square caps and bond order scramble (C42).
* `svd_flex`: `sv_vec` receives the singular values before the cutoff; `max_D=0` means no limit; letters missing from both outputs are accepted (C40, C41).
* `joint_shuffle` does not compare lengths, `onehot` wraps negative labels, `load_HV_data` of length 0: TypeError (C43-C45).
* Contractables: the batch-size mismatch error is unreachable (C49); factors with a single sample are broadcast silently (C46); `ContractableList.__mul__` always raises; the `is []` test is
  vacuous (C50); sequential `reduce` consumes the stored list, ring `reduce` without `parallel_eval` TypeError (C48).
* `MPS(label_site=0)`: the output site takes its batch size from a global variable set by earlier calls: RuntimeError or wrong number of rows; never works in a process which uses only
  such models (C54). A region of one pixel always raises AssertionError, so the default label site fails for `input_dim` 1, 2, 3 (C55).
* Adaptive mode: `input_dim=1` cannot be constructed (C59); `label_site=2` or `input_dim-label_site=2` fails at a flip (C61); a core of norm zero turns everything into NaN (C63);
  after a failed flip the next call silently uses the stale cores of the previous flip (C78).
* Models evaluated by several threads at once (`nn.DataParallel`) share `global_bs`: when the batch is not divided evenly a thread can raise, or return a wrong number of rows (C94); the values in the rows it returns are always right (C95).
* Adaptive mode: `parameters()` lists the parameters of the active merge state first, so their order changes with every flip (C86); optimiser state
  restored by position after a flip is attached to the wrong parameters.
* `TI_MPS`: raw sequences are padded before the embedding (C68); empty sequences always raise (C69).
* `train_script.py`: with fewer images than a batch, ZeroDivisionError; test images after the last full batch are ignored; in adaptive mode the evaluation of the test set advances the merge
  counter and may flip (truncate) the model (C77).
* `MPS(use_bias=False)`: outputs of a new model are at most of order `init_std ** input_dim` (zero in floating point), and no single core changes that (C82; the source has a TODO about it). The
  docstring says that the default is `use_bias=False` and that bias matrices start near zero; the default is True and they start as identity matrices (C55, C82).
* `TrainableEmbedding` hides the module it wraps behind a lambda: its parameters are not in `parameters()` or `state_dict()`, contrary to "trained jointly" (C89). `FixedEmbedding` of a module: the
  module is trained, but the normalisation is that of the initial parameters, so "probabilities" may be 4; `lamb_mat` is not saved (C89).
* Once a `torch.nn.Module` has been registered as feature map, `register_feature_map` refuses every plain function with TypeError, also after a reset with None; a checkpoint of such a model is
  accepted only after a map of the same class was registered (C108).
* Adaptive mode: the state dict does not say which merge state is in use; loading across merge states raises RuntimeError after having overwritten all cores (C88). `load_state_dict` does
  not notice other boundary conditions or paths, and replaces "fixed" bias and end tensors of a `TI_MPS` (C87).
## Per property: what is modelled and how it is proved

(statements in `properties.jsonl`, theorems and remarks in `MANIFEST.json`)

| | property | model and proof | status |
|---|---|---|---|
| C01 | shape_broadcast computes exactly the NumPy broadcast shape, and fails exactly when there is none | Model: fold over the shapes with the code's negative-index loop. Invariant: the accumulator is the broadcast of the shapes seen so far; spec is a per-axis relation `IsBroadcast`. | proved |
| C02 | shape_broadcast does not depend on the order or repetition of its arguments | Corollary of C01: `IsBroadcast` depends only on the set of shapes. | proved |
| C03 | batch_broadcast outputs have the common batch shape, keep their non-batch axes and keep every value | Tensor model; entries through right-aligned source indices. | proved |
| C04 | What batch_to returns | From C01/C03; witness for the unqualified claim. | proved |
| C05 | bundle_tensors stacks exactly the non-empty equal-shape collections and loses nothing | Case analysis on the collection; stacking at any (also negative) position. | proved |
| C06 | Complex helpers are value preserving | Unit modulus of exp(2 pi i u); zero imaginary part of Hermitian traces. | proved |
| C07 | floor2 is not the power of two its documentation promises | Floor of the natural logarithm; interval arithmetic on log 2 for the exact coincidence sets. | proved |
| C08 | Parallel matrix reduction returns the ordered product of the matrices | Strong induction on the length for the halving loop; invariant exp(scale) * product = true product. | proved |
| C09 | Sequential matrix reduction returns the ordered product irrespective of the multiplication direction | Induction on the list in both directions, same invariant. | proved |
| C10 | contract_matseq equals the plain product with boundary vectors for every option | Case analysis over boundary vectors and strategies on top of C08, C09, C03. | proved |
| C11 | contract_matseq acts on every batch element independently under broadcasting | The batch level functions apply the per-element ones at each source index. | proved |
| C12 | When contract_matseq gives NaN for a product that is exactly zero | NaN = `none` is propagated exactly when a partial product is zero; characterised by the full product. | proved |
| C13 | contract_matseq on an empty sequence | Direct evaluation of the code's empty-sequence branches. | proved |
| C14 | get_mat_slices selects / contracts the right core at every position | From the general einsum model, per literal index string. | proved |
| C15 | Which sequence lengths a fixed-length model accepts | As C14, with size-1 broadcasting of einsum; iff by evaluating its acceptance condition. | proved |
| C16 | slim_eval_fun returns the same amplitude as the dense evaluation | Invariant of C09 on row vectors, site by site. | proved |
| C17 | get_log_norm is the log of the squared L2 norm of the whole amplitude tensor | Density matrix invariant: exp(l) * rho_t = sum over prefixes x of h_x h_x^dagger; induction on the cores. | proved |
| C18 | get_log_norm with a lambda matrix integrates the embedding | As C17 with lambda inserted; scalar, diagonal and full lambda. | proved |
| C19 | get_log_norm validates its arguments | Exhaustive case analysis of the assertions. | proved |
| C20 | Core initialisers produce the promised tensors for every random draw | Unfolding with the draw as parameter. | proved |
| C21 | ProbMPS.forward obeys the Born rule | C10/C14/C16 for the amplitude, C17/C18 for the normaliser. | proved |
| C22 | ProbMPS probabilities over all sequences sum to one | Sum of C21 over all sequences against C17. | proved |
| C23 | ProbUnifMPS probabilities sum to one separately for each length | As C22 for each length. | proved |
| C24 | Log probabilities are never positive and the loss is a non-negative mean | |amplitude|^2 is one term of the sum in C22. | proved |
| C25 | All evaluation strategies return the same log probability | All strategies equal C21's right-hand side; the exceptional zero-amplitude cases are listed. | proved |
| C26 | Batch elements are evaluated independently | C11 lifted to forward. | proved |
| C27 | Probabilities are invariant under rescaling and gauge transformations of the parameters | Gauge transformations telescope in the matrix product; both amplitude and normaliser scale. | proved |
| C28 | With a discrete embedding the probabilities over the domain sum to one | C18 with the counting weights. | proved |
| C29 | Normalisation with an embedding and a bias matrix | C18 including the bias; exact total from C30. | proved |
| C30 | Compressing the lambda matrix: the exact total probability | lambda = stored form iff `allclose`'s decision is exact; total mass as quotient, bounds by comparing diagonals. | proved |
| C31 | Rescaling an embedding by a constant leaves the distribution unchanged | lambda scales by |c|^2, amplitude by c per site. | proved |
| C32 | Continuous domains are normalised with respect to the trapezoidal rule | C28 with trapezoidal weights on the 1000 grid points. | proved |
| C33 | Bias and evaluation-option conflicts are reported as documented | Case analysis of the option checks. | proved |
| C34 | Trainable embeddings are normalised with their current parameters | State machine over parameter updates and calls. | proved |
| C35 | onehot_embed produces orthonormal indicator vectors | Direct. | proved |
| C36 | trig_embed maps every real to a unit vector | Binomial theorem. | proved |
| C37 | Lambda matrices are Hermitian positive semidefinite | lambda is a weighted sum of v v^dagger. | proved |
| C38 | Domains and MLP embeddings are validated on construction | Case analysis of constructors. | proved |
| C39 | svd_flex outputs multiply back to the input tensor | svd as parameter with contract; tensor reshape/permute bijections. | proved |
| C40 | svd_flex truncation keeps exactly the leading singular values >= cutoff within max_D | Truncation by list recursion on a descending list. | proved |
| C41 | svd_flex rejects malformed index strings | String checks as predicates on letter lists, iff. | proved |
| C42 | init_tensor builds (truncated) identity slices plus scaled noise | Tensor level with the noise as parameter. | proved |
| C43 | joint_shuffle keeps data and labels paired | A permutation depending on seed and length only. | proved |
| C44 | load_HV_data generates a complete, balanced, correctly labelled data set | Bit arithmetic over all lengths; counting. | proved |
| C45 | onehot converts labels to indicator rows | Direct, exact error set. | proved |
| C46 | Multiplying contractables contracts exactly the shared bond | Capture-freedom of the generated einsum string, for arbitrary bond strings. | proved |
| C47 | MatRegion evaluates to the same product in tree and sequential order | Strong induction for the tree, induction for the sequence. | proved |
| C48 | ContractableList.reduce gives the ordered contraction for every layout of an MPS | Induction over the list with Python's operator dispatch. | proved |
| C49 | The global batch size follows the last batched tensor | State machine over constructions. | proved |
| C50 | Degenerate contractables | Direct evaluation of operator dispatch. | proved |
| C51 | MPS.forward computes the tensor-train function | Module by module (`Piece`), then C48; spec is a plain product of matrices. | proved |
| C52 | Periodic MPS computes the trace | As C51 for the ring. | proved |
| C53 | parallel_eval does not change the output of MPS or TI_MPS | Both equal C51's right-hand side. | proved |
| C54 | Output shape and batch independence for every call history | Histories with the global batch size as state; for label_site 0 the einsum broadcasting rules. | proved |
| C55 | Which label sites can be used | Sizes of the two regions; iff. | proved |
| C56 | Custom paths only permute or select inputs | Index selection commutes with embedding. | proved |
| C57 | Feature maps: embedding and registration | Direct, all input ranks. | proved |
| C58 | MPS output is multi-affine in the feature vectors | Matrix product is linear in each factor. | proved |
| C59 | Merging neighbouring cores does not change the function | Merging = associativity of the matrix product; induction over the chain for both offsets. | proved |
| C60 | Merge state flips exactly according to the input counter | Induction over histories. | proved |
| C61 | Exactly when a flip of adaptive training fails | Flip = unmerge, rescale, merge; each step's success condition; iff over reachable states. | proved |
| C62 | bond_list and sv_list stay well-formed and are refreshed alternately | Invariant over histories. | proved |
| C63 | Rescaling of norms during a flip preserves the function | The scale factors multiply to 1; NaN iff a core has norm zero. | proved |
| C64 | What a flip does to the outputs | C39 with nothing cut off, C59, C63; for lossy flips C40 (error) and C72 (optimality) carried through the splitting of every merged core (`Truncated`). | proved |
| C65 | Parameters of the inactive merge state have no influence | The active list alone enters forward; the inactive one is overwritten by a flip. | proved |
| C66 | TI_MPS computes a matrix product over sequences of any length | Induction on the length; einsum chain. | proved |
| C67 | Zero padding of pre-embedded sequences does not change TI_MPS outputs | Zero vectors give identity matrices with the fixed bias. | proved |
| C68 | Zero padding of raw (unembedded) sequences in TI_MPS | Value of the padded chain; witness family for the converse. | proved |
| C69 | TI_MPS input formatting accepts exactly the documented inputs | Case analysis of the accepted inputs, iff. | proved |
| C70 | svd_flex returns orthogonal factors along the new bond | Isometry of the reshaped factors from the SVD contract. | proved |
| C71 | Constructors of ProbMPS / ProbUnifMPS accept exactly the valid arguments and build a normalised model | Case analysis of constructor checks, then C22/C23. | proved |
| C72 | svd_flex truncation is optimal | Eckart-Young for the Frobenius norm, proved from the contract. | proved |
| C73 | len() and core_len() describe the network | Sums over module lists, both merge states. | proved |
| C74 | Perceptron embeddings | Composition of affine maps and sigmoids; shapes; positivity. | proved |
| C75 | Different descriptions of the same distribution | Equality of transition matrices, amplitudes, normalisation and acceptance conditions, then C21_forward_exact on both models. | proved |
| C76 | Scale of log-format results | Induction on the loops: after the last rescaling the absolute sum of the mantissa is the target norm; with the value theorem this determines the scale. | proved |
| C77 | What the training script reports | Model of the two loops over an arbitrary network (state, call), data set, optimiser and sampler order; induction on batches and epochs. Batch predictions are those of single images by C54; adaptive mode through histories (C60, C61). | proved |
| C78 | After a failed flip an adaptive model silently goes back to stale cores | The failing call is computed step by step (C61) up to the assertion; the state it leaves differs from the switched model only in a list that the next call overwrites before reading it. Then C64 applied to the switched model gives the value. | proved |
| C79 | Outputs of an MPS as functions of one core | The product of all matrices with one of them varying is L * M * R; entries and traces of it are linear in M. | proved |
| C80 | Changes of basis and of the bond dimension do not change an MPS | Induction along the chain: the product of the changed matrices is Y_0 * product * X_(n+1); ends by the boundary conditions, the trace being cyclic. | proved |
| C81 | A translation-invariant MPS is an MPS with periodic boundaries | The state of the TI_MPS is the initial vector times the product of the matrices; the trace of the product with the output core closes the ring (C52, C66). | proved |
| C82 | Newly constructed models give almost constant outputs; without bias matrices an MPS gives almost zero and does not train | The row-sum norm of matrices: a product of n+1 factors within c of a projection P of norm at most 1 is within (1+c)^(n+1)-1 of P. The values of all parameters of a new model come from the construction theorems (C55, C59). | proved |
| C83 | Rounding errors of matrix reductions and contract_matseq | Backward-free forward error analysis: an invariant `|σ A - X| ≤ (g - 1) Y` through products and divisions, the log scale separately; loop invariants for both algorithms; rounding per operation as an instance. | proved |
| C84 | Gradients through the reductions, contract_matseq and MPS.forward | The algorithms are written over an arbitrary arithmetic (Arith); dual numbers are shown exact (the scalar represented by the log scale is a dual number) and to project onto the ordinary arithmetic. Curves: the entries of a product of curves follow the product of the jets. | proved |
| C85 | Gradients of log probabilities and of the loss | dualEvalPsi (slim and dense) is shown to succeed and to follow the amplitude; the transfer-operator recursion on dual numbers is shown to compute log(normValue) with its jet, by showing that the traces cancel; logarithm and square modulus by the chain rule; score identity because the total probability of the sequences with non-zero amplitude has a local maximum. | proved |
| C86 | Optimisers stay attached to an adaptive model | A store of module objects. Each pass of merging and unmerging is simulated by the one on values: results are old objects or new ones, distinct, old objects are unchanged except for the rescaling, which keeps class and shape. A flip therefore leaves the two lists as they are and changes the list given up only in values, which do not matter (C65). | proved |
| C87 | Saving and loading state dicts | Names are distinct, so lookup by name finds the entry of the same module; the shapes are those of IsMps / IsTi. For the converse read off the sizes from the shapes of the entries and the number of entries. | proved |
| C88 | Checkpoints in adaptive mode | The names and shapes under module_list differ in the two merge states in the number of axes of the first tensor. The copies for module_list come first and are overwritten by those for the two lists. The number of flips is C60_flips. | proved |
| C89 | Embedding functions with parameters | The lambda attribute hides the module from registration; lamb_mat is a plain attribute. The normalisation with a given lambda matrix and the amplitude are those of C70. | proved |
| C90 | How much a flip of the merge state can change the outputs | Compare the ordered products of the matrices of the active modules and of the cut-down modules of C64 factor by factor: each factor changes by at most (norm of the change of the core) times (norms of the feature vectors), and a product of matrices telescopes in the (submultiplicative) Frobenius norm. The norm of the change of a core is the Eckart-Young error, part of C64. | proved |
| C91 | Rounding errors of log probabilities | Model forward, slim_eval_fun and get_log_norm over an abstract arithmetic (Model/RoundedProb.lean) with an accuracy contract (Spec/RoundedProb.lean). Induction over the sites with the invariant that the rescaled density matrix is near the exact one, with error relative to the density matrix of absolute values; amplitudes from C83 and a loop lemma for slim evaluation; the logarithm of a relative error at the end. | proved |
| C92 | What a probabilistic MPS of a given bond dimension can represent | Tensor train decomposition over any field (Lemmas/TensorTrain.lean): choose D vectors spanning the row space of every unfolding; fixing one more index maps row spaces into row spaces, which gives the cores. Necessity by factoring the unfolding through the bond. Connected with forward by C21. | proved |
| C93 | What an MPS of a given bond dimension can represent | The tensor train decomposition of C92 with one more site for the output index; the boundary vectors are absorbed into the first and last core. Outputs are determined by their values on one-hot feature vectors (multilinearity, C58/C79); connected with forward by C51 and C52. | proved |
| C94 | Models used by several threads at once | Model/Threads.lean writes the evaluations as programs which read and assign the attribute at the places where the code does, so that all interleavings are covered; run without interference they are the functions of the other models (Lemmas/ThreadsRun.lean). Invariant: the attribute is B, or the thread has not yet used it and will set it to B before it does. | proved |
| C95 | Interference between threads never changes values | Simulation: every execution of the call, with arbitrary values read at every access, is compared sample by sample with the undisturbed evaluation of that sample as a batch of one (Lemmas/ThreadsRow, ThreadsSim*): each tensor operation commutes with the selection of a sample, also when operands with different batch sizes are broadcast. | proved |
| C96 | Rounding errors of MPS and TI_MPS | Model/RoundedMps: forward with the arithmetic as a parameter. The rounded run is compared in lockstep with the exact run of the same program over triples (value, absolute value, weighted absolute value), a commutative ring (Lemmas/NetRel, NetSim, NetSimList, NetSimMps); the exact run is known from C51, C52, C66, and the components of its result by naturality under ring homomorphisms (Lemmas/NetValue). | proved |
| C97 | How much changed parameters and inputs can change the outputs of MPS and TI_MPS | The value of a network is a polynomial with natural coefficients, so it stays in every subsemiring; apply this to the quadruples (value, changed value, bound, bound of both) in K x K x R x R, which form one (Lemmas/Sens). | proved |
| C98 | How much changed parameters can change the distribution of a probabilistic MPS | As C97 for the amplitudes (Lemmas/SensProb), and an elementary estimate for normalised vectors. | proved |
| C99 | What a TI_MPS of a given bond dimension can represent | Hankel rows as functions on suffixes (Spec/Hankel); realisation by the shift operators on the row space, embedded in K^D (Lemmas/Hankel); transfer to forward by C66. | proved |
| C100 | What a uniform probabilistic MPS of a given bond dimension can represent | The Hankel matrix of the amplitudes (Lemmas/Hankel) with the Born rule (C21, C23). | proved |
| C101 | Gradients of TI_MPS | Induction over the sequence for the derivative of the state, summation by steps; forward mode from C66 over the ring of dual numbers. | proved |
| C102 | The work done by contract_matseq | Run contract_matseq over a counting arithmetic; induct over the sequential loop and over the halving loop (invariant: the first matrix is the result of as many rounds as have been done); closed forms by induction. | proved |
| C103 | Gradient and convexity of the training loss | Reduce the script's loss to log-sum-exp minus score; log-sum-exp is convex (convexity of exp applied to normalised scores); combine with C79 (affine in one core) and C84 (jets of forward). | proved |
| C104 | The loss of a probabilistic model is bounded by the entropy of the data | Rewrite the mean over samples as a weighted sum over outcomes; Gibbs' inequality from log x <= x - 1 with its equality case; C21/C22 give the probabilities and their sum; C92 gives a model that attains the bound. | proved |
| C105 | Cost of evaluating an MPS, serially and in parallel | Model/CostMps.lean: the model of forward instrumented with the work of every einsum and bmm (C105_run: same results, exceptions and state as forward); sizes of all intermediate objects from their classes and bond strings; the tree by induction over the rounds. | proved |
| C106 | Cost of evaluating a TI_MPS, and of padding | Model/CostTi.lean: the instrumented forward (C106_run: same results as the model of forward); sizes of all intermediate objects as for C105. | proved |
| C107 | Reflected models, rearranged classes, sums of models | Transpose of the ordered product of all matrices; block-diagonal matrices are closed under products; entries by induction over the sequence for TI_MPS. | proved |
| C108 | Feature maps with parameters of their own | Invariant over histories: the state of the attribute is determined by the last accepted registration and by whether a module was ever accepted. State dicts: disjoint names of cores and map. Gradient: C84 with a moving map. | proved |
| C109 | An MPS as linear regression and as a polynomial | The bias matrix is one more slice of the core for the constant feature 1; expansion of the multilinear value over one-hot vectors (C93); products of affine functions of the pixels; Moebius inversion over sets of pixels for the uniqueness. | proved |
| C110 | The parameters of a TI_MPS are determined by its outputs up to a change of basis | Outputs as values of words under a linear representation (C99); conjugation telescopes in the product; for the converse the two factorisations of the table of outputs U V = U' V' give X = U^-1 U', and the tables with one more symbol in the middle give the step matrices; independence of features separates core and bias. | proved |
| C111 | Training a TI_MPS as classifier | C101 for the derivatives of the outputs; the derivative of log-softmax; outputs are affine along segments of initial vectors and terminal matrices, log-sum-exp is convex. | proved |
| C112 | Adaptive models between flips: sensitivity and convexity of training | The forward pass of a merged chain is the ordered product of the matrices of its modules (C59); quadruples (value, changed value, bound, bound of both) form a semiring for the sensitivity; each product of matrices is affine in one core, log-sum-exp is convex. | proved |
| C113 | Translation-invariant models which agree on short sequences agree on all | The difference of the outputs factorises over D + D' indices; a shortest sequence where it does not vanish and which is longer would make a triangular matrix of full rank from its beginnings and endings. Recurrence: Cayley-Hamilton. Probabilities: the same argument for the difference of cross-multiplied probabilities, whose total masses factorise as well. | proved |
| C114 | Gradients along the cores themselves: balance, growth of norms, weight decay | Outputs are linear in each core (C79), so scaling any core moves the outputs along the same line; uniqueness of derivatives. Probabilistic models: scaling does not change the loss (C27). | proved |
| C115 | What translation-invariant models represent is closed under combinations, products, reversal and substitution | Representability is a bound on the Hankel rank (C99, C100): factorisations of the Hankel matrix are added, multiplied, swapped, restricted. | proved |

No property is classified as inexpressible.

## Axioms each theorem depends on

P = propext, Q = Quot.sound, C = Classical.choice.

* **P** (10 theorems): `C43_device_mismatch`, `C43_arguments_shuffled_in_place`, `C50_scalar`, `C50_list_mul`, `C56_arguments`, `C57_register`, `C57_history`, `C57_ti_register`, `C69_other_errors`, `C102_direction`
* **P Q** (11 theorems): `C03_batchBroadcast_assertion`, `C03_batchBroadcast_short`, `C04_batchTo_not_exact`, `C43_joint_shuffle_keeps_pairs`, `C43_lengths_not_checked`, `C49_batched`, `C57_wrong_pixels`, `C69_wrong_ranks`, `C69_wrong_features`, `C87_accepts_iff`, `C108_trained`
* **P Q C** (446 theorems): `C01_shapeBroadcast_ok_iff`, `C01_shapeBroadcast_succeeds_iff`, `C01_shapeBroadcast_error`, `C02_shapeBroadcast_set`, `C02_shapeBroadcast_perm`, `C02_shapeBroadcast_repeat`, `C03_batchBroadcast_ok`, `C03_batchBroadcast_value_error`, `C04_batchTo_returns`, `C04_batchTo_accepts_iff`, `C04_batchTo_exact`, `C04_batchTo_rejects_iff`, `C05_bundle_stacks`, `C05_bundle_unchanged`, `C05_bundle_single_iff`, `C06_cindex`, `C06_phaseify`, `C06_hermitianTrace`, `C06_realify`, `C06_realify_rejects`, `C07_largest_below_iff`, `C07_documented_iff`, `C07_floor2_value`, `C07_floor2_mono`, `C07_floor2_wrong`, `C08_matReducePar_value`, `C08_matReducePar_exact`, `C08_matReducePar_empty`, `C09_matReduceSeq_value`, `C09_matReduceSeq_exact`, `C09_matReduceSeq_square`, `C10_contractMatseq_log`, `C10_contractMatseq_value`, `C10_strategies_agree`, `C11_batch_independent`, `C12_nan_iff`, `C12_value_exact`, `C12_zero_not_returned`, `C13_empty_identity`, `C13_empty_left`, `C13_empty_right`, `C13_empty_both`, `C13_empty_list`, `C14_index_uniform`, `C14_index_sites`, `C14_vector_uniform`, `C14_vector_sites`, `C14_onehot`, `C14_uniform_repeat`, `C14_index_out_of_range`, `C15_index_accepts_iff`, `C15_vector_accepts_iff`, `C15_vector_value`, `C15_short_accepted`, `C15_long_rejected`, `C15_vector_rejected`, `C15_vector_length_one_accepted`, `C15_slim_rejected`, `C16_slim_value`, `C16_slim_nan_iff`, `C16_slim_empty`, `C17_log_norm`, `C17_log_norm_zero`, `C18_log_norm_lambda`, `C18_log_norm_lambda_zero`, `C18_log_norm_signed`, `C18_hermitian_family`, `C19_core_rank`, `C19_bond_mismatch`, `C19_length_mismatch`, `C19_length_missing`, `C19_lambda_rank`, `C19_arbitrary_length`, `C19_accepted`, `C20_near_eye_init`, `C20_near_eye_init_noiseless`, `C20_normal_init`, `C20_rejects`, `C21_forward_exact`, `C21_born_rule`, `C21_refused_zero`, `C22_probabilities_sum_to_one`, `C23_uniform_sum_to_one`, `C24_log_prob_nonpos`, `C24_loss`, `C25_strategies_agree`, `C25_default_implies_others`, `C25_zero_amplitude_differs`, `C26_batch_elements_independent`, `C27_scale_and_gauge_invariance`, `C28_discrete_embedding_normalised`, `C29_bias_normalised`, `C29_bias_not_normalised`, `C29_normalised_iff`, `C30_compression_exact`, `C30_compression_lossy`, `C30_total_mass`, `C30_mass_bounds`, `C31_rescaled_embedding`, `C31_onehot_same`, `C32_weights`, `C32_trapezoid_normalised`, `C32_current_lambda`, `C32_total_mass`, `C32_mass_bounds`, `C33_slim_with_bias`, `C33_slim_ignores_parallel`, `C33_documented_precedence_fails`, `C34_forward_uses_current_parameters`, `C34_log_norm_before_forward`, `C34_log_norm_after_forward`, `C35_onehot_entries`, `C35_onehot_raises`, `C35_onehot_lambda`, `C36_trig_embed_entries`, `C36_trig_unit_norm`, `C36_sincos`, `C37_lambda_hermitian_psd`, `C38_domain_continuous`, `C38_domain_discrete`, `C38_mlp_list`, `C38_mlp_int`, `C39_svd_flex_reconstructs`, `C40_bond_dim`, `C40_no_cutoff`, `C40_runtime_error_iff`, `C40_shapes_and_zero_padding`, `C40_sv_vec`, `C40_squared_error`, `C41_accepted_strings`, `C41_partition_not_checked`, `C42_random_zero`, `C42_random_eye`, `C42_min_random_eye`, `C42_min_random_eye_capped`, `C42_cap_fails_for_nonsquare`, `C42_random_eye_scrambled`, `C42_unknown_method`, `C42_bad_index_string`, `C42_bare_min_random_eye_fails`, `C44_load_HV_data`, `C44_numpy_without_int`, `C44_length_zero`, `C45_onehot`, `C45_out_of_range`, `C45_negative_labels_wrap`, `C46_product`, `C46_missing_bond`, `C46_out_of_letters`, `C46_size_mismatch`, `C46_unsupported`, `C46_scalar`, `C46_scalar_edge`, `C46_broadcast`, `C47_right`, `C47_left`, `C47_empty`, `C48_edges`, `C48_terminal`, `C48_ring`, `C48_ring_sequential_fails`, `C49_unbatched`, `C49_history`, `C50_empty_list`, `C51_open`, `C52_trace`, `C52_rotation`, `C53_mps`, `C53_ti`, `C54_shape`, `C54_label0_first_call`, `C54_label0_stale_batch`, `C54_label0`, `C54_label0_iff`, `C54_label0_alone`, `C54_no_pixels`, `C54_ti`, `C55_construction`, `C55_evaluates`, `C55_short_region_fails`, `C55_evaluates_iff`, `C55_one_pixel_first`, `C55_default_small`, `C56_gather`, `C56_out_of_range`, `C56_agree`, `C56_identity`, `C56_tensor_path`, `C57_embedding`, `C57_forward`, `C57_default_needs_two`, `C57_wrong_features`, `C57_empty_batch`, `C57_ti_embedding`, `C58_multi_affine`, `C59_merge`, `C59_same_as_plain`, `C59_construction`, `C59_one_pixel`, `C59_forward`, `C60_flips`, `C61_flips_iff`, `C61_structure`, `C61_two_sites`, `C62_call`, `C62_history`, `C62_construction`, `C62_two_flips`, `C63_rescale`, `C63_balanced`, `C64_lossless`, `C64_untrained`, `C64_truncation`, `C65_inactive`, `C66_value`, `C66_empty`, `C66_rejected`, `C66_construction`, `C66_initial_vector`, `C67_value`, `C67_alone`, `C68_harmless`, `C68_actual_value`, `C68_padding_changes_outputs`, `C68_fails_otherwise`, `C69_accepted`, `C69_accepted_iff`, `C69_different_lengths`, `C70_orthogonal_factors`, `C70_kept_le`, `C71_accepts_iff`, `C71_constructed`, `C71_core_entries`, `C71_edges`, `C71_bias_inert`, `C71_rejects_args`, `C71_rejects_embedding`, `C71_trainable_unchecked`, `C71_uniform_seq_len`, `C71_normalised`, `C71_discrete_function`, `C71_continuous_function`, `C72_best_approximation`, `C72_minimal_bond`, `C73_plain`, `C73_adaptive`, `C74_constructed`, `C74_entries`, `C74_range`, `C74_discrete_fails`, `C74_lambda`, `C74_compression`, `C74_normalised_in_training`, `C75_uniform_is_unrolled`, `C75_bias_absorbed`, `C75_mirrored`, `C76_sequential`, `C76_sequential_range`, `C76_parallel`, `C76_slim`, `C77_test_accuracy`, `C77_test_accuracy_exact`, `C77_reports`, `C77_epoch`, `C77_completes`, `C77_too_few_training_images`, `C77_too_few_test_images`, `C77_adaptive_completes`, `C77_adaptive`, `C78_reverts`, `C78_forgets`, `C79_pixel_core`, `C79_output_core`, `C80_gauge`, `C80_padding`, `C81_ti_is_mps`, `C82_near_constant`, `C82_vanishing`, `C82_adaptive`, `C82_initial_loss`, `C82_script`, `C83_exact_model`, `C83_seq`, `C83_par`, `C83_limit`, `C83_seq_par`, `C83_contract`, `C83_rounding`, `C83_relative`, `C84_seq`, `C84_par`, `C84_contract`, `C84_abs_sum`, `C84_mps_forward`, `C84_mps_embedding`, `C84_mps_path`, `C84_core_gradient`, `C84_output_gradient`, `C85_embedding_gradient`, `C85_compress`, `C85_log_norm`, `C85_forward`, `C85_formula`, `C85_loss`, `C85_score`, `C85_gauge`, `C85_scale`, `C85_slim_length`, `C86_objects`, `C86_parameters`, `C86_results`, `C86_construction`, `C87_mps`, `C87_mps_restored`, `C87_mps_accepts_iff`, `C87_ti_mps`, `C87_prob_mps`, `C87_prob_mps_rejects`, `C87_prob_mps_restored`, `C88_load`, `C88_restart`, `C89_trainable_not_trained`, `C89_lambda_frozen`, `C89_stale_normalisation`, `C89_loaded_normalisation`, `C89_probability_four`, `C89_trainable_not_saved`, `C90_change`, `C90_cutoff`, `C91_log_norm`, `C91_log_prob`, `C91_nonneg`, `C91_exact_model`, `C91_rounding`, `C91_limit`, `C92_rank_bound`, `C92_exactly`, `C92_universal`, `C92_forward`, `C92_needs`, `C93_represents`, `C93_rank_bound`, `C93_exactly`, `C93_all_tables`, `C94_same_batch`, `C94_terminates`, `C94_all_finish`, `C94_race`, `C94_extra_rows`, `C95_mps`, `C95_ti`, `C96_exact_mps`, `C96_exact_ti`, `C96_mps`, `C96_agree`, `C96_nonneg`, `C96_ti`, `C96_rounding`, `C97_mps`, `C97_relative`, `C97_continuous`, `C97_label`, `C97_ti`, `C97_ti_relative`, `C98_distance`, `C98_relative`, `C98_nonneg`, `C98_continuous`, `C99_rank_bound`, `C99_exactly`, `C99_palindromes`, `C100_rank_bound`, `C100_exactly`, `C100_palindromes`, `C101_derivative`, `C101_forward_mode`, `C101_core_entry`, `C102_sequential`, `C102_parallel`, `C102_direction_wrong`, `C102_tradeoff`, `C103_gradient`, `C103_pixel_core_convex`, `C103_output_core_convex`, `C104_loss`, `C104_attained`, `C104_expected`, `C105_run`, `C105_work`, `C105_compare`, `C105_serial`, `C106_run`, `C106_work`, `C106_compare`, `C106_serial`, `C106_padding`, `C107_reflection`, `C107_classes`, `C107_sum`, `C107_sum_open`, `C107_sum_ti`, `C108_history`, `C108_refused`, `C108_ti_history`, `C108_saved`, `C108_accepts_iff`, `C108_register_first`, `C108_ti_saved`, `C108_gradient`, `C109_linear_regression`, `C109_no_bias`, `C109_polynomial`, `C109_black_and_white`, `C109_all_polynomials`, `C110_change_of_basis`, `C110_identified`, `C110_fixed_bias`, `C110_embedded`, `C110_every_basis`, `C111_gradient`, `C111_initial_convex`, `C111_terminal_convex`, `C112_sensitivity`, `C112_convex`, `C113_agree`, `C113_recurrence`, `C113_uniform`, `C114_balance`, `C114_descent`, `C114_weight_decay`, `C114_cross_entropy`, `C114_ti_ends`, `C114_ti_core`, `C114_prob_orthogonal`, `C114_prob_descent`, `C114_prob_weight_decay`, `C115_ti_combination`, `C115_ti_product`, `C115_ti_reverse`, `C115_ti_substitution`, `C115_unif_product`, `C115_unif_power`, `C115_unif_reverse`, `C115_unif_context`, `C115_unif_blocks`, `C115_ti_sharp`
