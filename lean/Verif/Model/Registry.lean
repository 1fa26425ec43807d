import Verif.Model.Mps
import Verif.Model.TiMps
import Verif.Model.ProbMps
import Verif.Model.AdaptiveHeap
/-
What the constructors of TorchMPS register with `torch.nn.Module`, and the two functions of `torch.nn.Module` which act on it: `state_dict` and `load_state_dict`
(torchmps.py:44-66, 411-431, 605, 837, 923, 1017-1030, 1151, 1244, 1295, 1347, 1452-1456, 1499-1506; prob_mps.py:124-132, 139-147; embeddings.py:84-92, 158-165).
Model of PyTorch: a module registers named parameters, buffers and submodules; `state_dict` lists the tensors by the dotted path of their names, in order of
registration; `load_state_dict(d)` (strict, the default) walks over the same tensors, copies the entry of `d` with the same name if it has the same shape, and
raises RuntimeError at the end if a tensor had no entry of its name and shape or if `d` has an entry nobody asked for. Saving to a file and reading
it back is the identity. Dtypes and devices are not modelled (the dtype of the receiving tensor is kept by `copy_`).
-/
namespace TorchMPS
variable {K : Type}

/-- a component of a dotted name; children of a ModuleList are named by their index -/
inductive KeyPart where
  | name (s : String)
  | index (i : ℕ)
  deriving DecidableEq

/-- a dotted name -/
abbrev Key := List KeyPart

/-- a state dict: names and values -/
abbrev StateDict (K : Type) := List (Key × Tensor K)

/-- `d[key]` -/
def lookupKey (d : StateDict K) (k : Key) : Option (Tensor K) :=
  match d with
  | [] => none
  | e :: d => if e.1 = k then some e.2 else lookupKey d k

/-- there is an entry of this name and shape -/
def Fits (d : StateDict K) (k : Key) (s : List ℕ) : Prop :=
  match lookupKey d k with
  | some t => t.shape = s
  | none => False

instance (d : StateDict K) (k : Key) (s : List ℕ) : Decidable (Fits d k s) := by
  unfold Fits; cases lookupKey d k <;> infer_instance

/-- the value of a tensor of this name after loading: `param.copy_(input_param)` if the entry fits -/
def loadedValue (d : StateDict K) (k : Key) (t : Tensor K) : Tensor K :=
  match lookupKey d k with
  | some t' => if t'.shape = t.shape then t' else t
  | none => t

/-- what `load_state_dict` returns or raises for a module registering `own` -/
def loadResult (d own : StateDict K) : Except Err Unit :=
  if (∀ e ∈ own, Fits d e.1 e.2.shape) ∧ ∀ e ∈ d, ∃ e' ∈ own, e'.1 = e.1 then .ok () else .error .runtime

/-! ### `MPS` -/

/-- The tensors registered by a module of the chain. A region made by `MPS.__init__` (fixed_bias=False) registers its bias matrix as a parameter, also without
bias matrices: `nn.Parameter(None)` is an empty tensor. torchmps.py:1017-1030, 1151, 1244, 1295, 1347 -/
def Module.named [Zero K] : Module K → List (String × Tensor K)
  | .inputRegion t b => [("tensor", t), ("bias_mat", b.getD ⟨[0], fun _ => 0⟩)]
  | m => [("tensor", m.tensor)]

/-- the module with other values in these tensors -/
def Module.mapNamed (f : String → Tensor K → Tensor K) : Module K → Module K
  | .inputRegion t b => .inputRegion (f "tensor" t) (b.map (f "bias_mat"))
  | m => m.setTensor (f "tensor" m.tensor)

/-- `linear_region.module_list.i.name`, torchmps.py:411, 428, 605 -/
def regionKey (list : String) (i : ℕ) (s : String) : Key := [.name "linear_region", .name list, .index i, .name s]

/-- the state of the modules from number `i` on -/
def namedFrom [Zero K] (list : String) : ℕ → List (Module K) → StateDict K
  | _, [] => []
  | i, m :: ms => m.named.map (fun e => (regionKey list i e.1, e.2)) ++ namedFrom list (i + 1) ms

/-- the modules from number `i` on after loading -/
def loadFrom (d : StateDict K) (list : String) : ℕ → List (Module K) → List (Module K)
  | _, [] => []
  | i, m :: ms => m.mapNamed (fun s t => loadedValue d (regionKey list i s) t) :: loadFrom d list (i + 1) ms

/-- `MPS.state_dict()` without adaptive mode, for a model whose feature map is None or a plain function (a module as feature map: `Model/FeatureModule.lean`). The path and the options are not part of it. -/
def MPS.stateDict [Zero K] (m : MPS K) : StateDict K := namedFrom "module_list" 0 m.modules

/-- `MPS.load_state_dict(d)` without adaptive mode: the outcome and the model afterwards -/
def MPS.loadStateDict [Zero K] (d : StateDict K) (m : MPS K) : Except Err Unit × MPS K :=
  (loadResult d m.stateDict, { m with modules := loadFrom d "module_list" 0 m.modules })

/-! ### `TI_MPS` -/

/-- `TI_MPS.state_dict()`: parameters and buffers alike, torchmps.py:44-66, 1452-1456, 1499-1506. (The order of the entries depends on which are parameters; it
has no effect.) -/
def TiMps.stateDict (m : TiMps K) : StateDict K :=
  [([.name "core_tensor"], m.core)] ++ (match m.biasMat with | some b => [([.name "bias_mat"], b)] | none => []) ++
    [([.name "init_vector", .name "vec"], m.initVec), ([.name "terminal_mat", .name "mat"], m.termMat)]

/-- `TI_MPS.load_state_dict(d)` -/
def TiMps.loadStateDict (d : StateDict K) (m : TiMps K) : Except Err Unit × TiMps K :=
  (loadResult d m.stateDict, { m with
    core := loadedValue d [.name "core_tensor"] m.core
    biasMat := m.biasMat.map (loadedValue d [.name "bias_mat"])
    initVec := loadedValue d [.name "init_vector", .name "vec"] m.initVec
    termMat := loadedValue d [.name "terminal_mat", .name "mat"] m.termMat })

/-! ### `ProbMPS` and `ProbUnifMPS` with the embedding they are given -/

/-- A callable given as embedding function: a `torch.nn.Module` with named parameters, computing a function which depends on their values. A plain
function is one without parameters. -/
structure EmbModule (K : Type) where
  names : List String
  apply : List (Tensor K) → EmbFun K

/-- An embedding object wrapping such a callable: with the current values of the parameters of the callable. embeddings.py:84-92, 158-165 -/
structure EmbObject (K : Type) where
  trainable : Bool
  wrapped : EmbModule K
  values : List (Tensor K)
  domain : DataDomain
  lamb : Option (Tensor K)

/-- the embedding it computes -/
def EmbObject.embedding (e : EmbObject K) : Embedding K :=
  ⟨e.trainable, if e.trainable then fun x => e.wrapped.apply e.values x.unsqueezeLast else e.wrapped.apply e.values, e.domain, e.lamb⟩

/-- `FixedEmbedding(module, domain)`, embeddings.py:158-165 -/
noncomputable def EmbObject.fixed [RCLike K] (f : EmbModule K) (values : List (Tensor K)) (dom : DataDomain) : Except Err (EmbObject K) := do
  let lam ← makeLambda (f.apply values) dom 1000
  return ⟨false, f, values, dom, some lam⟩

/-- `TrainableEmbedding(module, domain)`, embeddings.py:84-92 -/
def EmbObject.mkTrainable (f : EmbModule K) (values : List (Tensor K)) (dom : DataDomain) : EmbObject K := ⟨true, f, values, dom, none⟩

/-- What an embedding object registers: `FixedEmbedding` has the callable as attribute `emb_fun`, a module is thereby registered; `TrainableEmbedding` has a lambda
as attribute `emb_fun`, which calls the module, so nothing is registered (embeddings.py:91, 164). The matrix `lamb_mat` is a plain attribute. -/
def EmbObject.named (e : EmbObject K) : StateDict K :=
  if e.trainable then [] else (e.wrapped.names.zip e.values).map (fun p => ([.name "embedding", .name "emb_fun", .name p.1], p.2))

/-- a ProbMPS or ProbUnifMPS object; `embedding = none`: no embedding function was given -/
structure ProbObject (K : Type) where
  uniform : Bool
  core : Tensor K
  edge : Tensor K
  bias : Option (Tensor K)
  embedding : Option (EmbObject K)

/-- what it computes is described in `Model/ProbMps.lean` -/
def ProbObject.model (m : ProbObject K) : ProbMPS K := ⟨m.uniform, m.core, m.edge, m.bias, m.embedding.map EmbObject.embedding⟩

/-- what the embedding of a model registers -/
def ProbObject.embNamed (m : ProbObject K) : StateDict K :=
  match m.embedding with
  | some e => e.named
  | none => []

/-- The registered tensors, prob_mps.py:124-147. All of them are parameters: `parameters()` has the same tensors. -/
def ProbObject.stateDict (m : ProbObject K) : StateDict K :=
  [([.name "core_tensors"], m.core), ([.name "edge_vecs"], m.edge)] ++ (match m.bias with | some b => [([.name "bias_mat"], b)] | none => []) ++
    m.embNamed

/-- new values for the parameters of the callable -/
def EmbObject.mapNamed (f : Key → Tensor K → Tensor K) (e : EmbObject K) : EmbObject K :=
  if e.trainable then e
  else { e with values := (e.wrapped.names.zip e.values).map (fun p => f [.name "embedding", .name "emb_fun", .name p.1] p.2) }

/-- the model with other values in the registered tensors; `lamb_mat` and everything which is not registered is left alone -/
def ProbObject.mapNamed (f : Key → Tensor K → Tensor K) (m : ProbObject K) : ProbObject K :=
  { m with
    core := f [.name "core_tensors"] m.core
    edge := f [.name "edge_vecs"] m.edge
    bias := m.bias.map (f [.name "bias_mat"])
    embedding := m.embedding.map (EmbObject.mapNamed f) }

/-- `load_state_dict(d)` -/
def ProbObject.loadStateDict (d : StateDict K) (m : ProbObject K) : Except Err Unit × ProbObject K :=
  (loadResult d m.stateDict, m.mapNamed (loadedValue d))

/-- A step of an optimiser made with `parameters()`: arbitrary new values for the registered tensors. -/
def ProbObject.step (f : Key → Tensor K → Tensor K) (m : ProbObject K) : ProbObject K := m.mapNamed f

/-! ### adaptive mode -/

/-- the names under which the tensors of the modules of a list are registered, from number `i` on; every module of the merged lists registers `tensor` -/
def slotsFrom (list : String) : ℕ → List ℕ → List (Key × ℕ)
  | _, [] => []
  | i, j :: js => (regionKey list i "tensor", j) :: slotsFrom list (i + 1) js

/-- The registered tensors with the objects they belong to: `module_list` (the list in use, the same objects once more), `module_list_0`, `module_list_1`,
torchmps.py:605, 837, 725, 752. The offset, the counter, `bond_list` and `sv_list` are plain attributes. -/
def HRegion.slots (r : HRegion) : List (Key × ℕ) :=
  slotsFrom "module_list" 0 r.active ++ slotsFrom "module_list_0" 0 r.list0 ++ slotsFrom "module_list_1" 0 r.list1

/-- `MPS.state_dict()` in adaptive mode -/
def HMps.stateDict (m : HMps) : StateDict ℝ := m.region.slots.map (fun s => (s.1, (m.region.heap.mem s.2).tensor))

/-- the copies made by `load_state_dict`, one after the other -/
def hLoad (d : StateDict ℝ) : Heap → List (Key × ℕ) → Heap
  | h, [] => h
  | h, s :: ss => hLoad d (h.write s.2 ((h.mem s.2).setTensor (loadedValue d s.1 (h.mem s.2).tensor))) ss

/-- `MPS.load_state_dict(d)` in adaptive mode: all copies are made, whether or not it raises an error in the end -/
def HMps.loadStateDict (d : StateDict ℝ) (m : HMps) : Except Err Unit × HMps :=
  (loadResult d m.stateDict, { m with region := { m.region with heap := hLoad d m.region.heap m.region.slots } })

end TorchMPS
