import Verif.Spec.Mps
/-
Specification of the function computed by an MPS, and of its inputs.
-/
namespace TorchMPS.Spec
variable {K : Type}

/-- The current values of the parameters of an MPS. -/
structure Params (K : Type) where
  left : Tensor K
  leftBias : Tensor K
  out : Tensor K
  right : Tensor K
  rightBias : Tensor K

/-- `m` is a non-adaptive MPS with the output at site `k`, as the constructor makes it, with arbitrary current
parameter values `p` (of the shapes fixed at construction). -/
structure IsMps (k : ℕ) (useBias : Bool) (p : Params K) (m : MPS K) : Prop where
  label : k ≤ m.inputDim
  modules : m.modules =
    (if k = 0 then [] else [.inputRegion p.left (if useBias then some p.leftBias else none)]) ++
    .outputSite p.out ::
    (if k = m.inputDim then [] else [.inputRegion p.right (if useBias then some p.rightBias else none)])
  left : p.left.shape = [k, m.bondDim, m.bondDim, m.featureDim]
  leftBias : p.leftBias.shape = [1, m.bondDim, m.bondDim]
  out : p.out.shape = [m.outputDim, m.bondDim, m.bondDim]
  right : p.right.shape = [m.inputDim - k, m.bondDim, m.bondDim, m.featureDim]
  rightBias : p.rightBias.shape = [1, m.bondDim, m.bondDim]

/-- entry of the core of pixel `i` -/
def Params.core (p : Params K) (k i l r f : ℕ) : K := if i < k then p.left.get [i, l, r, f] else p.right.get [i - k, l, r, f]

/-- entry of the bias matrix of pixel `i` (one matrix is shared by all pixels on the same side of the output) -/
def Params.bias [Zero K] (p : Params K) (useBias : Bool) (k i l r : ℕ) : K :=
  if useBias then (if i < k then p.leftBias.get [0, l, r] else p.rightBias.get [0, l, r]) else 0

/-- The matrix of pixel `i` for sample `b` of the embedded input `e`: the feature-contracted core plus bias. -/
def pixelMat [Semiring K] (D F k : ℕ) (useBias : Bool) (p : Params K) (e : Tensor K) (b i : ℕ) : Mat K :=
  affMat D F (p.core k i) (fun f => e.get [b, i, f]) (p.bias useBias k i)

/-- The matrix of the output core for output `o`. -/
def outMat [Zero K] (D : ℕ) (p : Params K) (o : ℕ) : Mat K := Mat.of D D (fun l r => p.out.get [o, l, r])

/-- The matrices of pixels `i, i+1, ..., j-1`. -/
def pixelMats [Semiring K] (D F k : ℕ) (useBias : Bool) (p : Params K) (e : Tensor K) (b i j : ℕ) : List (Mat K) :=
  (List.range' i (j - i)).map (pixelMat D F k useBias p e b)

/-- All matrices in order: pixels before the output, output core, pixels after the output. -/
def mpsMats [Semiring K] (D F n k : ℕ) (useBias : Bool) (p : Params K) (e : Tensor K) (b o : ℕ) : List (Mat K) :=
  pixelMats D F k useBias p e b 0 k ++ outMat D p o :: pixelMats D F k useBias p e b k n

/-- `e` is the embedded input: the input rearranged along the path and embedded. -/
def Embedded [One K] [Sub K] (m : MPS K) (x e : Tensor K) : Prop :=
  ∃ x', followPath m.path x = .ok x' ∧ m.embedInput x' = .ok e

/-- Regions of one site are what the non-adaptive model cannot evaluate. -/
def NoShortRegion (n k : ℕ) : Prop := k ≠ 1 ∧ n - k ≠ 1

/-- The output core is not the first core, or the last object with an explicit batch axis had batch size `B`. -/
def BatchKnown (k B : ℕ) (g : Option ℕ) : Prop := 1 ≤ k ∨ g = some B

/-- The state of the process after a history of `forward` calls (of any models, on any inputs, possibly raising). -/
def afterCalls [CommRing K] (g : Option ℕ) : List (MPS K × Tensor K) → Option ℕ
  | [] => g
  | c :: cs => afterCalls (c.1.forward c.2 g).2 cs

/-- index resolution of Python: negative numbers count from the end -/
def pyIndex (n : ℕ) (i : ℤ) : ℕ := (if i < 0 then i + n else i).toNat

/-- sample `b` of `x` and sample `b'` of `x'` have the same entries -/
def SameSample (x x' : Tensor K) (b b' : ℕ) : Prop :=
  x.shape.tail = x'.shape.tail ∧ ∀ idx, InRange idx x.shape.tail → x.get (b :: idx) = x'.get (b' :: idx)

/-- The input with the feature vectors of pixel `p` replaced by `v b` in sample `b`. -/
def setPixel (x : Tensor K) (p : ℕ) (v : ℕ → ℕ → K) : Tensor K :=
  ⟨x.shape, fun idx => if idx.getD 1 0 = p then v (idx.getD 0 0) (idx.getD 2 0) else x.get idx⟩

/-- the model after a history of registrations of feature maps, exceptions being caught by the caller -/
def afterRegister [Zero K] (m : MPS K) : List (Option (K → Tensor K)) → MPS K
  | [] => m
  | f :: fs => afterRegister (match m.registerFeatureMap f with | .ok m' => m' | .error _ => m) fs

/-- Entry `f` of the feature vector of pixel `i` of sample `b`: of a tensor with feature axis that very entry, of a scalar the
entry of the value of the feature map in force, by default of (x, 1 - x). -/
def featureEntry [One K] [Sub K] (φ : Option (K → Tensor K)) (x : Tensor K) (b i f : ℕ) : K :=
  if x.shape.length = 3 then x.get [b, i, f]
  else match φ with
    | some φ => (φ (x.get [b, i])).get [f]
    | none => if f = 0 then x.get [b, i] else 1 - x.get [b, i]

/-- The input `x` can be embedded: [batch, input_dim] with both at least 1 and a feature map giving vectors of the right size (or
the default one and feature_dim 2), or [batch, input_dim, feature_dim]. -/
def Embeddable (m : MPS K) (x : Tensor K) : Prop :=
  x.shape = [x.shape.getD 0 0, m.inputDim, m.featureDim] ∨ (x.shape = [x.shape.getD 0 0, m.inputDim] ∧
    match m.featureMap with
    | some φ => 1 ≤ x.shape.getD 0 0 ∧ 1 ≤ m.inputDim ∧ ∀ b < x.shape.getD 0 0, ∀ i < m.inputDim, (φ (x.get [b, i])).shape = [m.featureDim]
    | none => m.featureDim = 2)

/-- the last accepted registration in a history, `φ` being in force before -/
def inForce [Zero K] (F : ℕ) (φ : Option (K → Tensor K)) : List (Option (K → Tensor K)) → Option (K → Tensor K)
  | [] => φ
  | none :: fs => inForce F none fs
  | some f :: fs => inForce F (if (f 0).shape = [F] then some f else φ) fs

/-- the value of an MPS, for both boundary conditions -/
def mpsValue [CommRing K] (D F n k : ℕ) (ub periodic : Bool) (p : Params K) (e : Tensor K) (b o : ℕ) : K :=
  match orderedProd (mpsMats D F n k ub p e b o) with
  | some M => if periodic then ∑ i ∈ Finset.range D, M.e i i else M.e 0 0
  | none => 0

end TorchMPS.Spec
