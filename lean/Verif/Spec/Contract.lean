import Verif.Spec.MatProd
import Verif.Spec.Broadcast
import Verif.Model.Utils2
/-
Specification of batched matrix sequences: which matrices and vectors belong to a batch index.
-/
namespace TorchMPS.Spec
variable {K : Type}

/-- the batch shapes of everything that is contracted -/
def batchShapes (ms : TensorSeq K) (lv rv : Option (Tensor K)) : List Shape :=
  (match ms with
    | .single t => [batchShape t 3]
    | .seq ts => ts.map (fun t => batchShape t 2)) ++
  lv.toList.map (fun v => batchShape v 1) ++ rv.toList.map (fun v => batchShape v 1)

/-- the matrices at batch index `b` of the broadcast batch -/
def matsAt [Zero K] (ms : TensorSeq K) (b : List ℕ) : List (Mat K) :=
  match ms with
  | .single t =>
    match nonBatchShape t 3 with
    | [n, r, c] => (List.range n).map (fun k =>
        Mat.of r c (fun i j => t.get (sourceIndex (batchShape t 3) b ++ [k, i, j])))
    | _ => []
  | .seq ts => ts.map (fun t =>
    match nonBatchShape t 2 with
    | [r, c] => Mat.of r c (fun i j => t.get (sourceIndex (batchShape t 2) b ++ [i, j]))
    | _ => Mat.of 0 0 (fun _ _ => 0))

/-- a left boundary vector at batch index `b`, as a row -/
def rowAt [Zero K] (v : Tensor K) (b : List ℕ) : Mat K :=
  Mat.of 1 (v.shape.getLastD 0) (fun _ j => v.get (sourceIndex (batchShape v 1) b ++ [j]))

/-- a right boundary vector at batch index `b`, as a column -/
def colAt [Zero K] (v : Tensor K) (b : List ℕ) : Mat K :=
  Mat.of (v.shape.getLastD 0) 1 (fun i _ => v.get (sourceIndex (batchShape v 1) b ++ [i]))

/-- the whole chain of factors at batch index `b` -/
def chainAt [Zero K] (ms : TensorSeq K) (lv rv : Option (Tensor K)) (b : List ℕ) : List (Mat K) :=
  (lv.map (rowAt · b)).toList ++ matsAt ms b ++ (rv.map (colAt · b)).toList

/-- ranks: matrices have two (three, when stacked) non-batch axes, vectors one -/
def WellRanked (ms : TensorSeq K) (lv rv : Option (Tensor K)) : Prop :=
  (match ms with
    | .single t => 3 ≤ t.ndim
    | .seq ts => ∀ t ∈ ts, 2 ≤ t.ndim) ∧ (∀ v ∈ lv, 1 ≤ v.ndim) ∧ (∀ v ∈ rv, 1 ≤ v.ndim)

/-- for an empty stack of shape `(0, _, D)`: boundary vectors have `D` entries -/
def EmptyFits (ms : TensorSeq K) (lv rv : Option (Tensor K)) : Prop :=
  match ms with
  | .single t => t.shape.getD (t.ndim - 3) 0 = 0 →
      (∀ v ∈ lv, v.shape.getLastD 0 = t.shape.getLastD 0) ∧
      (∀ v ∈ rv, v.shape.getLastD 0 = t.shape.getLastD 0)
  | .seq _ => True

/-- index of the output: batch index, row (if there is no left vector), column (if no right vector) -/
def outIndex (lv rv : Option (Tensor K)) (b : List ℕ) (i j : ℕ) : List ℕ :=
  b ++ (if lv.isNone then [i] else []) ++ (if rv.isNone then [j] else [])

/-- does `contract_matseq` use the parallel algorithm? (all matrices in one tensor, and forced or no vectors) -/
def UsesParallel (ms : TensorSeq K) (lv rv : Option (Tensor K)) (par : Bool) : Prop :=
  (match ms with
    | .single _ => True
    | .seq ts => ts ≠ [] ∧ ∀ s ∈ ts, ∀ t ∈ ts, s.shape = t.shape) ∧
  (par = true ∨ (lv = none ∧ rv = none))

end TorchMPS.Spec
