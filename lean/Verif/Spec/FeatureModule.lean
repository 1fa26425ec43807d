import Verif.Model.FeatureModule
import Verif.Spec.Registry
import Verif.Spec.AutodiffMps
/-
C108: feature maps with parameters.
-/
namespace TorchMPS.Spec
variable {K : Type}

/-- the map gives vectors of `F` entries at 0 (None always fits) -/
def MapFits [Zero K] (F : ℕ) (a : MapArg K) : Prop := ∀ f ∈ a.callable, (f 0).shape = [F]

/-- the argument is a plain function, not a module -/
def IsFunction (a : MapArg K) : Prop := ∃ f, a = .function f

/-- a module of the right size was offered at some time -/
def ModuleSeen [Zero K] (F : ℕ) (as : List (MapArg K)) : Prop := ∃ c, .module c ∈ as ∧ MapFits F (.module c)

/-- The last map of a history (latest first) which was accepted: maps of the wrong size are refused, and plain functions are refused once a module
was accepted. -/
inductive LastAccepted [Zero K] (F : ℕ) : List (MapArg K) → MapArg K → Prop
  | start : LastAccepted F [] .none
  | taken (a as) : MapFits F a → ¬ (IsFunction a ∧ ModuleSeen F as) → LastAccepted F (a :: as) a
  | refused (a as b) : ¬ MapFits F a ∨ (IsFunction a ∧ ModuleSeen F as) → LastAccepted F as b → LastAccepted F (a :: as) b

/-- the model after a history of registrations (latest first), exceptions being caught by the caller -/
def afterMaps [Zero K] (m : MpsObject K) : List (MapArg K) → MpsObject K
  | [] => m
  | a :: as => match (afterMaps m as).register a with
    | .ok m' => m'
    | .error _ => afterMaps m as

/-- the same for a TI_MPS -/
def tiAfterMaps [Zero K] (m : TiObject K) : List (MapArg K) → TiObject K
  | [] => m
  | a :: as => match (tiAfterMaps m as).register a with
    | .ok m' => m'
    | .error _ => tiAfterMaps m as

/-- the parameters of a map, under the names they have as part of a model: "feature_map." and the name within the map -/
def mapEntries : MapArg K → StateDict K
  | .module c => (c.names.zip c.values).map (fun e => ([.name "feature_map"] ++ e.1, e.2))
  | _ => []

/-- the parameters of a module have distinct names -/
def MapNamed (c : MapObject K) : Prop := c.names.Nodup ∧ c.values.length = c.names.length

/-- two modules of one class and architecture; the values of the parameters may differ -/
structure SameMapClass (c c' : MapObject K) : Prop where
  names : c.names = c'.names
  apply : c.apply = c'.apply
  shapes : c.values.map Tensor.shape = c'.values.map Tensor.shape

/-- a training history -/
def afterMapSteps (m : MpsObject K) : List (Key → Tensor K → Tensor K) → MpsObject K
  | [] => m
  | f :: fs => afterMapSteps (m.step f) fs

/-- the value of the parameter `k` after the updates `fs`, first one first -/
def trainedValue (fs : List (Key → Tensor K → Tensor K)) (k : Key) (t : Tensor K) : Tensor K := fs.foldl (fun t f => f k t) t

/-- A curve of feature maps and its jet: `dφ` has the value and derivative of `φ t (s t)` at `t₀` for every curve `s` of scalars. -/
def MovingMap [RCLike K] (φ : ℝ → K → Tensor K) (dφ : DualNumber K → Tensor (DualNumber K)) (t₀ : ℝ) : Prop :=
  ∀ (s : ℝ → K) (ds : DualNumber K), Follows s ds t₀ → TensorFollows (fun t => φ t (s t)) (dφ ds) t₀

end TorchMPS.Spec
