import Verif.Model.AdaptiveHeap
import Verif.Spec.Adaptive
/-
C86: programs which train an adaptive model through the list of its parameters taken at the beginning.
-/
namespace TorchMPS.Spec

/-- A step of a program: a call, a step of the optimiser (new values for the parameters it was given, in that order), use of other models, a new feature map. -/
inductive PStep where
  | call (x : Tensor ℝ)
  | optimise (ts : List (Tensor ℝ))
  | batch (g : Option ℕ)
  | feature (φ : Option (ℝ → Tensor ℝ))

/-- one step; `P` are the parameters the optimiser was given -/
noncomputable def hStep (svd : Mat ℝ → SVD) (pop : List Char → Char) (P : List ℕ) (m : HMps) (g : Option ℕ) : PStep → List (Except Err (Tensor ℝ)) × HMps × Option ℕ
  | .call x => ([(m.forward svd pop x g).1], (m.forward svd pop x g).2.1, (m.forward svd pop x g).2.2)
  | .optimise ts => ([], { m with region := { m.region with heap := assignTo m.region.heap P ts } }, g)
  | .batch g' => ([], m, g')
  | .feature φ =>
    match m.mps.registerFeatureMap φ with
    | .ok mps' => ([], { m with mps := mps' }, g)
    | .error e => ([.error e], m, g)

/-- the model after a program, which goes on after exceptions -/
noncomputable def hRun (svd : Mat ℝ → SVD) (pop : List Char → Char) (P : List ℕ) : HMps → Option ℕ → List PStep → HMps
  | m, _, [] => m
  | m, g, s :: ss => hRun svd pop P (hStep svd pop P m g s).2.1 (hStep svd pop P m g s).2.2 ss

/-- new values for modules, as far as there are any -/
def setTensors : List (Module ℝ) → List (Tensor ℝ) → List (Module ℝ)
  | m :: ms, t :: ts => m.setTensor t :: setTensors ms ts
  | ms, _ => ms

/-- new values for all parameters of a model whose state is a value -/
def setParams (m : AdMps) (ts : List (Tensor ℝ)) : AdMps :=
  { m with region := { m.region with list0 := setTensors m.region.list0 ts, list1 := setTensors m.region.list1 (ts.drop m.region.list0.length) } }

/-- one step on the model whose state is a value -/
noncomputable def vStep (svd : Mat ℝ → SVD) (pop : List Char → Char) (m : AdMps) (g : Option ℕ) : PStep → List (Except Err (Tensor ℝ)) × AdMps × Option ℕ
  | .call x => ([(m.forward svd pop x g).1], (m.forward svd pop x g).2.1, (m.forward svd pop x g).2.2)
  | .optimise ts => ([], setParams m ts, g)
  | .batch g' => ([], m, g')
  | .feature φ =>
    match m.mps.registerFeatureMap φ with
    | .ok mps' => ([], { m with mps := mps' }, g)
    | .error e => ([.error e], m, g)

/-- the value of the model object: the current values of its modules -/
def HMps.read (m : HMps) : AdMps :=
  ⟨m.mps, ⟨m.region.heap.vals m.region.list0, m.region.heap.vals m.region.list1, m.region.offset, m.region.stray.map m.region.heap.vals,
    m.region.counter, m.region.threshold, m.region.cutoff⟩, m.bondList, m.svList⟩

/-- A step makes a flip fail. -/
def FailedFlip (m : AdMps) (s : PStep) (svd : Mat ℝ → SVD) (pop : List Char → Char) : Prop :=
  ∃ x e er, s = .call x ∧ Embedded m.mps x e ∧ m.region.threshold ≤ m.region.counter ∧ (m.region.flip svd pop).1 = .error er

/-- the results of a program on the model object: it goes on after exceptions, but ends with the first flip which fails -/
noncomputable def hResults (svd : Mat ℝ → SVD) (pop : List Char → Char) (P : List ℕ) : HMps → Option ℕ → List PStep → List (Except Err (Tensor ℝ))
  | _, _, [] => []
  | m, g, s :: ss => open Classical in
    (hStep svd pop P m g s).1 ++
      if FailedFlip (HMps.read m) s svd pop then [] else hResults svd pop P (hStep svd pop P m g s).2.1 (hStep svd pop P m g s).2.2 ss

/-- the same on the model whose state is a value -/
noncomputable def vResults (svd : Mat ℝ → SVD) (pop : List Char → Char) : AdMps → Option ℕ → List PStep → List (Except Err (Tensor ℝ))
  | _, _, [] => []
  | m, g, s :: ss => open Classical in
    (vStep svd pop m g s).1 ++
      if FailedFlip m s svd pop then [] else vResults svd pop (vStep svd pop m g s).2.1 (vStep svd pop m g s).2.2 ss

/-- no flip fails in the program -/
def Unbroken (svd : Mat ℝ → SVD) (pop : List Char → Char) (P : List ℕ) : HMps → Option ℕ → List PStep → Prop
  | _, _, [] => True
  | m, g, s :: ss => ¬ FailedFlip (HMps.read m) s svd pop ∧ Unbroken svd pop P (hStep svd pop P m g s).2.1 (hStep svd pop P m g s).2.2 ss

/-- The modules of the two merged lists are distinct objects; `module_list` is one of the two lists. -/
structure Proper (m : HMps) : Prop where
  offset : m.region.offset ≤ 1
  live : ∀ i ∈ m.region.list0 ++ m.region.list1, i < m.region.heap.next
  nodup : (m.region.list0 ++ m.region.list1).Nodup
  stray : m.region.stray = none

end TorchMPS.Spec
