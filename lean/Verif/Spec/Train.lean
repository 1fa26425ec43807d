import Verif.Model.Train
import Verif.Spec.MpsFn
import Verif.Spec.Adaptive
/-
Specification of a run of the training script.
-/
namespace TorchMPS.Spec

/-- what `SubsetRandomSampler(range(N))` gives in one pass: the numbers `0, ..., N - 1` in some order -/
def SamplerOrder (N : ℕ) (perm : List ℕ) : Prop := perm.Perm (List.range N)

/-- an MPS as the script uses it (scalar inputs, no path, no registered feature map), with arbitrary current values of the parameters; its label
site is neither 0 nor such that a region has a single site -/
def ScriptMps (n O : ℕ) (m : MPS ℝ) : Prop :=
  (∃ k ub p, IsMps k ub p m ∧ 1 ≤ k ∧ NoShortRegion m.inputDim k) ∧ (m.periodic = true ∨ 1 ≤ m.bondDim) ∧
  m.inputDim = n ∧ m.outputDim = O ∧ m.featureDim = 2 ∧ m.path = none ∧ m.featureMap = none

/-- images `0, ..., N - 1` all have the shape `sh`, and their labels are among the `O` classes -/
def ValidData (ds : DataSet) (N O : ℕ) (sh : Shape) : Prop := ∀ i < N, (ds.image i).shape = sh ∧ ds.label i < O

/-- `row` are the scores which `m` gives to the flattened image when it is the only image of the first call of a process -/
def ScoresAlone (m : MPS ℝ) (img : Tensor ℝ) (row : List ℝ) : Prop :=
  ∃ x y, img.view [1, m.inputDim] = .ok x ∧ (m.forward x none).1 = .ok y ∧ y.shape = [1, m.outputDim] ∧
    row = (List.range m.outputDim).map (fun o => y.get [0, o])

/-- how many of the images listed in `idxs` are predicted correctly, the scores of image `i` being `row i` -/
def correctAmong (argmax : List ℝ → ℕ) (ds : DataSet) (row : ℕ → List ℝ) (idxs : List ℕ) : ℕ :=
  idxs.countP (fun i => argmax (row i) = ds.label i)

/-- `x` holds the flattened images `idxs`, one per row -/
def FlatBatch (ds : DataSet) (sh : Shape) (idxs : List ℕ) (x : Tensor ℝ) : Prop :=
  x.shape = [idxs.length, sh.prod] ∧ ∀ b < idxs.length, ∀ q < sh.prod, x.get [b, q] = (ds.image (idxs.getD b 0)).get (unravel sh q)

/-- The cross entropy of one image: `-log softmax(row)[y]`. -/
noncomputable def crossEnt (row : List ℝ) (y : ℕ) : ℝ := - Real.log (Real.exp (row.getD y 0) / (row.map Real.exp).sum)

/-- Training on the batches of a list, one after the other: for each batch the model in force scores its images (each as if alone), the numbers of
correct predictions and the cross entropies are added up, and the optimiser then changes the model. `TrainRun opt ds sh argmax bs s c L s'`: from the
state `s` (model and process-wide batch size) to `s'`, with `c` correct predictions and total cross entropy `L`. -/
inductive TrainRun (opt : MPS ℝ × Option ℕ → Tensor ℝ → List ℕ → MPS ℝ × Option ℕ) (ds : DataSet) (sh : Shape) (argmax : List ℝ → ℕ) :
    List (List ℕ) → MPS ℝ × Option ℕ → ℕ → ℝ → MPS ℝ × Option ℕ → Prop
  | nil (s) : TrainRun opt ds sh argmax [] s 0 0 s
  | cons {l bs m g g' x row c L s'} : FlatBatch ds sh l x → (∀ i ∈ l, ScoresAlone m (ds.image i) (row i)) →
      TrainRun opt ds sh argmax bs (opt (m, g') x (l.map ds.label)) c L s' →
      TrainRun opt ds sh argmax (l :: bs) (m, g) (correctAmong argmax ds row l + c)
        ((l.map (fun i => crossEnt (row i) (ds.label i))).sum + L) s'

/-- One epoch from the state `s` to `s'` with report `r`, the samplers drawing the orders `pt` and `pe`: training goes through
`num_train // batch_size` batches of `batch_size` images, together the first images in the order `pt`, no image twice; loss and training accuracy are
the means over these images; the test accuracy is that of the model at the end, each test image alone, over the images in full batches of `pe`. -/
def EpochOf (cfg : TrainCfg) (opt : MPS ℝ × Option ℕ → Tensor ℝ → List ℕ → MPS ℝ × Option ℕ) (train test : DataSet) (sh : Shape)
    (argmax : List ℝ → ℕ) (pt pe : List ℕ) (s : MPS ℝ × Option ℕ) (r : EpochReport) (s' : MPS ℝ × Option ℕ) : Prop :=
  ∃ bs c L g' row, bs.length = cfg.numTrain / cfg.batchSize ∧ (∀ l ∈ bs, l.length = cfg.batchSize) ∧
    bs.flatten = pt.take (cfg.numTrain / cfg.batchSize * cfg.batchSize) ∧ bs.flatten.Nodup ∧
    TrainRun opt train sh argmax bs s c L (s'.1, g') ∧
    r.loss = L / (cfg.numTrain / cfg.batchSize * cfg.batchSize : ℕ) ∧
    r.trainAcc = c / (cfg.numTrain / cfg.batchSize * cfg.batchSize : ℕ) ∧
    (∀ i < cfg.numTest, ScoresAlone s'.1 (test.image i) (row i)) ∧
    r.testAcc = correctAmong argmax test row (pe.take (cfg.numTest / cfg.batchSize * cfg.batchSize)) /
      (cfg.numTest / cfg.batchSize * cfg.batchSize : ℕ)

/-- epochs number `e`, `e + 1`, ... one after the other, each starting from the state the one before has left -/
inductive EpochsOf (cfg : TrainCfg) (opt : MPS ℝ × Option ℕ → Tensor ℝ → List ℕ → MPS ℝ × Option ℕ) (train test : DataSet) (sh : Shape)
    (argmax : List ℝ → ℕ) (pt pe : ℕ → List ℕ) : ℕ → MPS ℝ × Option ℕ → List EpochReport → MPS ℝ × Option ℕ → Prop
  | nil (e s) : EpochsOf cfg opt train test sh argmax pt pe e s [] s
  | cons {e s r s1 rs s'} : EpochOf cfg opt train test sh argmax (pt e) (pe e) s r s1 →
      EpochsOf cfg opt train test sh argmax pt pe (e + 1) s1 rs s' → EpochsOf cfg opt train test sh argmax pt pe e s (r :: rs) s'

/-! ### adaptive mode -/

/-- an adaptive model as the script builds it (with `adaptive_mode = True`), with arbitrary current values of the parameters -/
def ScriptAd (n O k : ℕ) (m : AdMps) : Prop :=
  IsAdMps k m ∧ 1 ≤ k ∧ 1 ≤ m.mps.bondDim ∧ 0 < m.region.cutoff ∧ m.mps.inputDim = n ∧ m.mps.outputDim = O ∧ m.mps.featureDim = 2 ∧
    m.mps.path = none ∧ m.mps.featureMap = none

/-- Nothing prevents a change of the merge state (C61): no region of two sites is unmerged alone, every split core keeps a singular value, no
lone core is zero. -/
def FlipGood (svd : Mat ℝ → SVD) (k : ℕ) (m : AdMps) : Prop :=
  ¬ (k = 2 ∧ m.region.offset = 1) ∧ ¬ (m.mps.inputDim - k = 2 ∧ m.region.offset = k % 2) ∧
  ¬ Vanishing svd m.mps.bondDim m.region.cutoff (m.region.listAt m.region.offset) ∧
  ∀ u ∈ m.region.listAt m.region.offset, ¬ LoneZero u

end TorchMPS.Spec
