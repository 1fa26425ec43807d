import Verif.Base.View
import Verif.Model.Mps
import Mathlib.Analysis.SpecialFunctions.Log.Basic
/-
`train_script.py`: the training and evaluation loops.

The constants of the script (batch size, numbers of images and epochs, image size) are arguments. Outside the model: the MNIST files (an arbitrary
data set), autograd and Adam (`loss.backward(); optimizer.step()` is an arbitrary function from the state of the network and the batch to the new
state), and all of `print` except the divisions in its arguments.
-/
namespace TorchMPS

/-- a torchvision data set of images with labels: `dataset[i]` is `(image i, label i)` -/
structure DataSet where
  image : ℕ → Tensor ℝ
  label : ℕ → ℕ

/-- the constants of the script, train_script.py:17-20, 76 -/
structure TrainCfg where
  numTrain : ℕ
  numTest : ℕ
  batchSize : ℕ
  numEpochs : ℕ
  inputDim : ℕ

/-- the network as the script uses it: a call gives scores or raises, and may change the state -/
abbrev Net (S : Type) := S → Tensor ℝ → Except Err (Tensor ℝ) × S

/-- `torch.utils.data.DataLoader(..., batch_size, sampler, drop_last=True)`, train_script.py:43-52: the indices given by the sampler in
consecutive groups of `B`, without the last group if it is incomplete -/
def loaderBatches (B : ℕ) (perm : List ℕ) : List (List ℕ) :=
  (List.range (perm.length / B)).map (fun j => (perm.drop (j * B)).take B)

/-- the collated images of one batch (their shapes must agree) and their labels -/
def collateImages (ds : DataSet) (idxs : List ℕ) : Except Err (Tensor ℝ × List ℕ) :=
  match idxs with
  | [] => .error .index
  | i :: _ =>
    if ∀ j ∈ idxs, (ds.image j).shape = (ds.image i).shape then
      .ok (⟨idxs.length :: (ds.image i).shape, fun idx => (ds.image (idxs.getD (idx.headD 0) 0)).get idx.tail⟩, idxs.map ds.label)
    else .error .runtime

/-- row `b` of a matrix of scores -/
def scoreRow (scores : Tensor ℝ) (b : ℕ) : List ℝ := (List.range (scores.shape.getD 1 0)).map (fun o => scores.get [b, o])

/-- `_, preds = torch.max(scores, 1)`, train_script.py:80, 107: one index per row; IndexError for rows without entries. Which of several maximal
entries is taken is the argument `argmax`. -/
def predictions (argmax : List ℝ → ℕ) (scores : Tensor ℝ) : Except Err (List ℕ) :=
  if scores.shape.getD 1 0 = 0 then .error .index
  else .ok ((List.range (scores.shape.getD 0 0)).map (fun b => argmax (scoreRow scores b)))

/-- `torch.sum(preds == labels).item()`, train_script.py:85, 108, for lists of equal length (RuntimeError otherwise) -/
def numCorrect (preds labels : List ℕ) : Except Err ℕ :=
  if preds.length = labels.length then .ok (List.zipWith (fun p y => if p = y then 1 else 0) preds labels).sum
  else .error .runtime

/-- the summand of one sample in `torch.nn.CrossEntropyLoss()` -/
noncomputable def sampleLoss (row : List ℝ) (y : ℕ) : ℝ := Real.log ((row.map Real.exp).sum) - row.getD y 0

/-- `loss_fun(scores, labels)`, train_script.py:34, 83: the mean cross entropy; IndexError for a label which is not a class, ValueError for
batches of different sizes -/
noncomputable def crossEntropy (scores : Tensor ℝ) (labels : List ℕ) : Except Err ℝ :=
  if scores.shape.getD 0 0 ≠ labels.length then .error .value
  else if ∃ y ∈ labels, scores.shape.getD 1 0 ≤ y then .error .index
  else .ok ((labels.zipIdx.map (fun p => sampleLoss (scoreRow scores p.2) p.1)).sum / labels.length)

variable {S : Type}

/-- the state of the training loop: the network, `running_loss` and `running_acc` -/
structure TrainState (S : Type) where
  net : S
  loss : ℝ
  acc : ℝ

/-- one iteration of the training loop, train_script.py:75-92 -/
noncomputable def trainBatch (cfg : TrainCfg) (argmax : List ℝ → ℕ) (call : Net S) (opt : S → Tensor ℝ → List ℕ → S) (ds : DataSet)
    (st : TrainState S) (idxs : List ℕ) : Except Err (TrainState S) := do
  let (inputs, labels) ← collateImages ds idxs
  let inputs ← inputs.view [cfg.batchSize, cfg.inputDim]                         -- :76
  let (scores, s) := call st.net inputs                                          -- :79
  let scores ← scores
  let preds ← predictions argmax scores                                          -- :80
  let loss ← crossEntropy scores labels                                          -- :83
  let correct ← numCorrect preds labels                                          -- :85
  return ⟨opt s inputs labels, st.loss + loss, st.acc + correct / cfg.batchSize⟩ -- :85-92

/-- one iteration of the evaluation loop, train_script.py:102-108; `acc` is `running_acc` -/
noncomputable def testBatch (cfg : TrainCfg) (argmax : List ℝ → ℕ) (call : Net S) (ds : DataSet) (st : S × ℝ) (idxs : List ℕ) :
    Except Err (S × ℝ) := do
  let (inputs, labels) ← collateImages ds idxs
  let inputs ← inputs.view [cfg.batchSize, cfg.inputDim]
  let (scores, s) := call st.1 inputs
  let scores ← scores
  let preds ← predictions argmax scores
  let correct ← numCorrect preds labels
  return (s, st.2 + correct / cfg.batchSize)

/-- `a / num_batches[name]` with `num_batches[name] = total_num // batch_size`, train_script.py:53-56, 95-96, 110 (a Python division, at least
when there has been no batch) -/
noncomputable def perBatch (total batch : ℕ) (a : ℝ) : Except Err ℝ :=
  if total / batch = 0 then .error .zeroDivision else .ok (a / (total / batch : ℕ))

/-- what an epoch prints -/
structure EpochReport where
  loss : ℝ
  trainAcc : ℝ
  testAcc : ℝ

/-- the evaluation at the end of an epoch, train_script.py:99-110 -/
noncomputable def testPass (cfg : TrainCfg) (argmax : List ℝ → ℕ) (call : Net S) (ds : DataSet) (perm : List ℕ) (s : S) :
    Except Err (S × ℝ) := do
  let (s, acc) ← (loaderBatches cfg.batchSize perm).foldlM (testBatch cfg argmax call ds) (s, 0)
  let acc ← perBatch cfg.numTest cfg.batchSize acc
  return (s, acc)

/-- one epoch, train_script.py:71-111, for the orders `permTrain`, `permTest` drawn by the samplers -/
noncomputable def trainEpoch (cfg : TrainCfg) (argmax : List ℝ → ℕ) (call : Net S) (opt : S → Tensor ℝ → List ℕ → S) (train test : DataSet)
    (permTrain permTest : List ℕ) (s : S) : Except Err (S × EpochReport) := do
  let st ← (loaderBatches cfg.batchSize permTrain).foldlM (trainBatch cfg argmax call opt train) ⟨s, 0, 0⟩
  let loss ← perBatch cfg.numTrain cfg.batchSize st.loss
  let trainAcc ← perBatch cfg.numTrain cfg.batchSize st.acc
  let (s, testAcc) ← testPass cfg argmax call test permTest st.net
  return (s, ⟨loss, trainAcc, testAcc⟩)

/-- the loop over the epochs `e, e + 1, ..., e + n - 1`, train_script.py:71 -/
noncomputable def trainFrom (cfg : TrainCfg) (argmax : List ℝ → ℕ) (call : Net S) (opt : S → Tensor ℝ → List ℕ → S) (train test : DataSet)
    (permTrain permTest : ℕ → List ℕ) : ℕ → ℕ → S → Except Err (S × List EpochReport)
  | _, 0, s => .ok (s, [])
  | e, n + 1, s => do
    let (s, r) ← trainEpoch cfg argmax call opt train test (permTrain e) (permTest e) s
    let (s, rs) ← trainFrom cfg argmax call opt train test permTrain permTest (e + 1) n s
    return (s, r :: rs)

/-- the whole loop of the script: epochs 1, ..., num_epochs. A DataLoader refuses a batch size of 0 with ValueError. -/
noncomputable def trainScript (cfg : TrainCfg) (argmax : List ℝ → ℕ) (call : Net S) (opt : S → Tensor ℝ → List ℕ → S) (train test : DataSet)
    (permTrain permTest : ℕ → List ℕ) (s : S) : Except Err (S × List EpochReport) := do
  if cfg.batchSize = 0 then throw .value
  trainFrom cfg argmax call opt train test permTrain permTest 1 cfg.numEpochs s

/-- the network of the script: an MPS together with the process-wide batch size of `contractables.py` -/
def mpsNet : Net (MPS ℝ × Option ℕ) := fun s x => ((s.1.forward x s.2).1, (s.1, (s.1.forward x s.2).2))

end TorchMPS
