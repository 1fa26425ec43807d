import Verif.Model.Registry
/-
Feature maps of MPS and TI_MPS which are `torch.nn.Module`s with parameters of their own (README.md:46; torchmps.py:75, 248-273, 451, 547-570).
Model of PyTorch: `nn.Module.__setattr__(name, value)` makes `value` a child if it is a module (removing a plain attribute of that name); otherwise, if there is a
child of that name (also one which was set to None), only None is accepted, anything else raises TypeError; otherwise the attribute is an ordinary one.
Parameters of a child are listed by `parameters()` and `state_dict()` under the name of the child. One module object is registered with one model
(sharing is not modelled).
-/
namespace TorchMPS
variable {K : Type}

/-- A `torch.nn.Module` used as feature map: the dotted names of its parameters, their current values, and the function it computes, which depends on them. -/
structure MapObject (K : Type) where
  names : List Key
  values : List (Tensor K)
  apply : List (Tensor K) → K → Tensor K

/-- the argument of `register_feature_map` -/
inductive MapArg (K : Type) where
  | none
  | function (f : K → Tensor K)
  | module (c : MapObject K)

/-- what `feature_map(x)` calls; `none` is Python's None -/
def MapArg.callable : MapArg K → Option (K → Tensor K)
  | .none => Option.none
  | .function f => some f
  | .module c => some (c.apply c.values)

/-- the attribute `feature_map` of a model: an ordinary attribute, or a child (a module, or None in place of one) -/
inductive MapAttr (K : Type) where
  | plain (f : Option (K → Tensor K))
  | child (c : Option (MapObject K))

/-- `self.feature_map` -/
def MapAttr.callable : MapAttr K → Option (K → Tensor K)
  | .plain f => f
  | .child none => none
  | .child (some c) => some (c.apply c.values)

/-- `self.feature_map = feature_map`, torchmps.py:273, 570, by the rules of `nn.Module.__setattr__` -/
def MapAttr.set : MapAttr K → MapArg K → Except Err (MapAttr K)
  | _, .module c => .ok (.child (some c))
  | .plain _, .none => .ok (.plain none)
  | .plain _, .function f => .ok (.plain (some f))
  | .child _, .none => .ok (.child none)
  | .child _, .function _ => .error .type

/-- the test of the size of `feature_map(torch.tensor(0))`, torchmps.py:260-271, 559-568 -/
def checkMap [Zero K] (F : ℕ) (a : MapArg K) : Except Err Unit :=
  match a.callable with
  | none => .ok ()
  | some f => if (f 0).shape ≠ [F] then .error .value else .ok ()

/-- `register_feature_map`, torchmps.py:248-273, 547-570: the attribute afterwards -/
def registerMap [Zero K] (F : ℕ) (s : MapAttr K) (a : MapArg K) : Except Err (MapAttr K) := do
  checkMap F a
  s.set a

/-- the tensors of a child `feature_map` -/
def MapObject.named (c : MapObject K) : StateDict K := (c.names.zip c.values).map (fun e => (.name "feature_map" :: e.1, e.2))

/-- the tensors registered through the attribute -/
def MapAttr.named : MapAttr K → StateDict K
  | .child (some c) => c.named
  | _ => []

/-- new values for the parameters of the map -/
def MapObject.mapNamed (f : Key → Tensor K → Tensor K) (c : MapObject K) : MapObject K :=
  { c with values := (c.names.zip c.values).map (fun e => f (.name "feature_map" :: e.1) e.2) }

/-- new values for the registered tensors; a plain function is left alone -/
def MapAttr.mapNamed (f : Key → Tensor K → Tensor K) : MapAttr K → MapAttr K
  | .child (some c) => .child (some (c.mapNamed f))
  | s => s

/-! ### MPS -/

/-- an MPS (not adaptive) with its attribute `feature_map`; the field `featureMap` of `mps` is not used -/
structure MpsObject (K : Type) where
  mps : MPS K
  map : MapAttr K

/-- what it computes is described in `Model/Mps.lean` -/
def MpsObject.model (m : MpsObject K) : MPS K := { m.mps with featureMap := m.map.callable }

/-- `MPS.register_feature_map`, torchmps.py:547-570 -/
def MpsObject.register [Zero K] (m : MpsObject K) (a : MapArg K) : Except Err (MpsObject K) := do
  let s ← registerMap m.mps.featureDim m.map a
  return { m with map := s }

/-- `state_dict()`: `linear_region` was registered first, torchmps.py:411, 428, 451. All entries are parameters: `parameters()` has the same tensors. -/
def MpsObject.stateDict [Zero K] (m : MpsObject K) : StateDict K := m.mps.stateDict ++ m.map.named

/-- `load_state_dict(d)` -/
def MpsObject.loadStateDict [Zero K] (d : StateDict K) (m : MpsObject K) : Except Err Unit × MpsObject K :=
  (loadResult d m.stateDict, ⟨(m.mps.loadStateDict d).2, m.map.mapNamed (loadedValue d)⟩)

/-- the modules from number `i` on with new values -/
def stepFrom (f : Key → Tensor K → Tensor K) (list : String) : ℕ → List (Module K) → List (Module K)
  | _, [] => []
  | i, m :: ms => m.mapNamed (fun s t => f (regionKey list i s) t) :: stepFrom f list (i + 1) ms

/-- A step of an optimiser made with `parameters()`: arbitrary new values for the registered tensors. -/
def MpsObject.step (f : Key → Tensor K → Tensor K) (m : MpsObject K) : MpsObject K :=
  ⟨{ m.mps with modules := stepFrom f "module_list" 0 m.mps.modules }, m.map.mapNamed f⟩

/-! ### TI_MPS -/

/-- a TI_MPS with its attribute `feature_map`; the field `featureMap` of `ti` is not used -/
structure TiObject (K : Type) where
  ti : TiMps K
  map : MapAttr K

/-- what it computes is described in `Model/TiMps.lean` -/
def TiObject.model (m : TiObject K) : TiMps K := { m.ti with featureMap := m.map.callable }

/-- `TI_MPS.register_feature_map`, torchmps.py:248-273 -/
def TiObject.register [Zero K] (m : TiObject K) (a : MapArg K) : Except Err (TiObject K) := do
  let s ← registerMap m.ti.featureDim m.map a
  return { m with map := s }

/-- `state_dict()`. (The order of the entries depends on which are parameters; it has no effect.) -/
def TiObject.stateDict (m : TiObject K) : StateDict K := m.ti.stateDict ++ m.map.named

/-- `load_state_dict(d)` -/
def TiObject.loadStateDict (d : StateDict K) (m : TiObject K) : Except Err Unit × TiObject K :=
  (loadResult d m.stateDict, ⟨(m.ti.loadStateDict d).2, m.map.mapNamed (loadedValue d)⟩)

end TorchMPS
