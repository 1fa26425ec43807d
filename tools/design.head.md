# Formal model of TorchMPS in Lean 4

Source modelled: `/repo/torchmps/*.py` at the pinned commit. Nothing is executed: the model is a
hand translation, every definition cites the lines it models, and says where it simplifies.

(The second half of this file, the tables per property, is generated by `tools/design.py` from `properties.jsonl`,
`MANIFEST.json`, `tools/plan.json` and the output of `#print axioms`.)

## Layout

| directory | content |
|---|---|
| `lean/Verif/Base/`   | tensors, exceptions, `einsum`, other torch primitives (what PyTorch is assumed to do) |
| `lean/Verif/Model/`  | the code, function by function |
| `lean/Verif/Spec/`   | small specifications that do not mention the model's helpers (Mathlib matrices, finite sums, a broadcast relation, ...) |
| `lean/Verif/Lemmas/` | auxiliary lemmas |
| `lean/Verif/Props/`  | the property theorems `Cxx_...`, with `example`s which show concrete cases meeting their hypotheses |
| `seeded/LOG.jsonl`   | wrong programs tried against the theorems, and what was tightened in consequence |

## Trusted base

1. **Lean 4.33.0's kernel** and Mathlib as installed (all Mathlib theorems used are checked by the same kernel).
2. **Axioms.** Only Lean's three standard ones: `propext`, `Quot.sound`, `Classical.choice`. The table at the end lists, per theorem,
   which of them it depends on. No axiom is added, no proof is left open, no compiled evaluation (`native_decide`, `bv_decide`) is used.
3. **The translation** from Python to Lean in `Model/`, and the descriptions of PyTorch/NumPy primitives in `Base/` (below). A reader has to
   compare these with the cited lines; nothing checks this mechanically.
4. **The specifications** in `Spec/`, and the reading of each English property as a theorem.

### What is assumed of PyTorch and Python

* `torch.einsum` (from its index string, with size-1 broadcasting, size mismatch = RuntimeError, repeated or unknown output letters =
  RuntimeError), `matmul`, `stack`, `cat`, `view/reshape`, `permute`, `unsqueeze/expand`, integer and slice indexing with negative wrap-around and
  IndexError, broadcasting, `eye`, `allclose` (rtol 1e-5, atol 1e-8), `trace`, `linspace`, `nn.Linear`, `nn.Sigmoid`, `F.one_hot`.
* `torch.svd` is a parameter with the contract `Spec.IsSVD` (`U diag(S) V^T = T`, orthonormal columns, descending non-negative `S`). The contract
  is satisfiable: `someSvd_spec` proves the existence of such a function for every matrix. `set.pop` is a parameter returning some element.
* Random draws (`torch.randn`, `torch.rand`, `np.random.shuffle`) are explicit arguments; theorems hold for every draw. `torch.empty` too (its
  unspecified contents are an argument).
* Exceptions are values (`Except Err`), one constructor per Python exception class. The class attribute `Contractable.global_bs` is threaded as a
  state which survives exceptions (`CM`), and theorems quantify over histories of calls. C94 considers several threads: there an evaluation is a program
  (`Model/Threads.lean`) whose reads and assignments of the attribute interleave with those of other threads. Each access is atomic (interpreter lock).

### What is modelled, and how

| Python | Lean | remarks |
|---|---|---|
| `utils2.py` | `Model/Utils2`, `Model/MpsBase` | all functions except `is_tensor`-style one-liners |
| `mps_base.py` | `Model/MpsBase` | all functions |
| `embeddings.py` | `Model/Embeddings`, `Model/Mlp` | all; `TrainableEmbedding` with any function of its parameters as embedding, the perceptron embeddings concretely |
| `prob_mps.py` | `Model/ProbMps`, `Model/ProbInit` | all, constructors included |
| `utils.py` | `Model/Utils` (`svd_flex`), `Model/InitData` (`init_tensor`, `onehot`, `joint_shuffle`, `load_HV_data`) | all |
| `contractables.py` | `Model/Contractables` | all classes and operators, with Python's operator dispatch; a `ContractableList` inside another one is not modelled (the library never builds one) |
| `torchmps.py` | `Model/Mps`, `Model/Adaptive`, `Model/TiMps`, `Model/Len` | `MPS` (fixed and adaptive, open and periodic), `TI_MPS`, all module classes |
| `train_script.py` | `Model/Train` | the training and evaluation loops, over any network, data set, order of the samplers; `backward(); step()` is an arbitrary function of the state and the batch; not the MNIST download and the texts printed |

Not modelled: `tests/`, `setup.py`, `docs/`; reverse-mode autograd as an algorithm (C84 models differentiation in forward mode, by dual numbers; elsewhere an optimiser step is any change of the parameter values which keeps their shapes);
devices; threads, except their accesses to `global_bs` (C94, C95); dtypes beyond integer/real/complex and dtype promotion; aliasing of memory between views, except where the code writes in place
(`joint_shuffle`, `svd_flex`' `sv_vec`, `merge`/`unmerge` of the adaptive mode); `print` output; time and memory use.

### Numbers

Tensor entries live in an exact field: `ℝ`, `ℂ` or any `RCLike` field (both at once), or any commutative ring where nothing else is needed.
Except in C83, C91 and C96, rounding, overflow and underflow of floating point arithmetic are **not** modelled: theorems about equality of two evaluation orders say that the
algorithms compute the same number, not that the two floating point results agree in the last bit. C83 writes `mat_reduce_seq`, `mat_reduce_par` and
`contract_matseq` over arbitrary operations and bounds their rounding errors (still without overflow and underflow of products); C91 does the same for `ProbMPS.forward`
(with and without `slim_eval`) and `get_log_norm`, with real parameters and neither embedding nor bias (`Model/RoundedProb.lean`); C96 for `MPS.forward` and
`TI_MPS.forward` (`Model/RoundedMps.lean`). What is modelled of IEEE semantics: division by zero and
`log 0`. A computation that would produce NaN in a batch element yields `none` for that element (or `Err.nan` where a whole tensor becomes NaN, as in the
rescaling of cores), `log 0 = -inf` is `⊥ : EReal` where the code lets it survive.

### Adaptive mode

`AdMps` holds both lists of cores (merged active list, inactive list), the counter, the offset, `bond_list`, `sv_list`. A history (`History`) is a list of
forward calls; each may flip the merge state, which unmerges by `svd_flex`, rescales and merges again. A flip which raises leaves a half-updated object; the
model records that (`stray` state) and the theorems say exactly when it happens (C61) and that it never happens otherwise. `rescale_norm` works in place, so a flip also rescales the lone core objects of the list it leaves; the model does not record
this, because that list is overwritten (`_merge`) before it is read again. (No core object belongs to both lists: an output core left alone by one offset is merged by the other.)

### Findings: where the code does not do what its documentation or a user's expectation says

Each is a theorem (a concrete witness, an exact characterisation, or both).

* `batch_to` can return a larger batch than requested (C04). `floor2` uses the natural logarithm (C07).
* `contract_matseq` returns NaN instead of 0 for exact zero products of two or more factors (C12); `ProbMPS.forward` raises AssertionError on inputs of zero amplitude by
  default while slim/parallel evaluation may return -inf (C25).
* The direction chosen by `contract_matseq` ("flip matrices if it's cheaper to multiply from right to left") is not always the cheaper one: 300 against 202
  multiplications for sizes 2x100, 100x1, 1x1 (C102).
* A fixed-length model accepts shorter index sequences and length-1 vector sequences silently; negative tokens wrap around (C14, C15). `slim_eval_fun` with zero sites
  and batch size other than 1: AssertionError (C16). `get_log_norm` of a uniform model with length below -1 behaves like length 0 (C19).
* With a bias and an embedding the probabilities do not sum to 1 (C29). The compression of lambda matrices is lossy (C30). `parallel_eval` does not override `slim_eval`
  as documented (C33). `TrainableEmbedding.lamb_mat` is stale after an update (C34); the dimension of a new `TrainableEmbedding` is not checked by `ProbMPS`, and
  `ProbUnifMPS.seq_len` returns the input dimension (C71). An MLP embedding of a discrete domain is accepted but every evaluation raises (C74).
* With a trainable embedding the gradient of the normalisation can be wrong where the values are right: the compression of the lambda matrix drops the derivatives of the entries it drops,
  so following the gradient increases the total probability (C85).
* `normal_init` ignores `rel_std` (C20). `init_tensor("min_random_eye")` given as a string: UnboundLocalError; non-square caps and bond order scramble (C42).
* `svd_flex`: `sv_vec` receives the singular values before the cutoff; `max_D=0` means no limit; letters missing from both outputs are accepted (C40, C41).
* `joint_shuffle` does not compare lengths, `onehot` wraps negative labels, `load_HV_data` of length 0: TypeError (C43-C45).
* Contractables: the batch-size mismatch error is unreachable (C49); factors with a single sample are broadcast silently (C46); `ContractableList.__mul__` always raises; the `is []` test is
  vacuous (C50); sequential `reduce` consumes the stored list, ring `reduce` without `parallel_eval` TypeError (C48).
* `MPS(label_site=0)`: the output site takes its batch size from a global variable set by earlier calls: RuntimeError or wrong number of rows; never works in a process which uses only
  such models (C54). A region of one pixel always raises AssertionError, so the default label site fails for `input_dim` 1, 2, 3 (C55).
* Adaptive mode: `input_dim=1` cannot be constructed (C59); `label_site=2` or `input_dim-label_site=2` fails at a flip (C61); a core of norm zero turns everything into NaN (C63);
  after a failed flip the next call silently uses the stale cores of the previous flip (C78).
* Models evaluated by several threads at once (`nn.DataParallel`) share `global_bs`: when the batch is not divided evenly a thread can raise, or return a wrong number of rows (C94); the values in the rows it returns are always right (C95).
* Adaptive mode: `parameters()` lists the parameters of the active merge state first, so their order changes with every flip (C86); optimiser state
  restored by position after a flip is attached to the wrong parameters.
* `TI_MPS`: raw sequences are padded before the embedding (C68); empty sequences always raise (C69).
* `train_script.py`: with fewer images than a batch, ZeroDivisionError; test images after the last full batch are ignored; in adaptive mode the evaluation of the test set advances the merge
  counter and may flip (truncate) the model (C77).
* `MPS(use_bias=False)`: outputs of a new model are at most of order `init_std ** input_dim` (zero in floating point), and no single core changes that (C82; the source has a TODO about it). The
  docstring says that the default is `use_bias=False` and that bias matrices start near zero; the default is True and they start as identity matrices (C55, C82).
* `TrainableEmbedding` hides the module it wraps behind a lambda: its parameters are not in `parameters()` or `state_dict()`, contrary to "trained jointly" (C89). `FixedEmbedding` of a module: the
  module is trained, but the normalisation is that of the initial parameters, so "probabilities" may be 4; `lamb_mat` is not saved (C89).
* Once a `torch.nn.Module` has been registered as feature map, `register_feature_map` refuses every plain function with TypeError, also after a reset with None; a checkpoint of such a model is
  accepted only after a map of the same class was registered (C108).
* Adaptive mode: the state dict does not say which merge state is in use; loading across merge states raises RuntimeError after having overwritten all cores (C88). `load_state_dict` does
  not notice other boundary conditions or paths, and replaces "fixed" bias and end tensors of a `TI_MPS` (C87).
