import Verif.Model.Adaptive
import Verif.Spec.MpsFn
import Verif.Spec.Svd
/-
Specification of the adaptive mode: which cores are merged with which, and what the merged tensors are.
-/
namespace TorchMPS.Spec
variable {K : Type}

/-- The values of all cores of a chain: pixel cores `A i l r f` and the output core `C o l r`. -/
structure Cores (K : Type) where
  A : ℕ → ℕ → ℕ → ℕ → K
  C : ℕ → ℕ → ℕ → K

/-- What a module of a merged chain holds: the core of pixel `i`; `c` pairs of pixel cores starting with pixel `i`; the output core;
the output core together with the core of pixel `i` on its right (`left = true`) or on its left. -/
inductive Kind where
  | site (i : ℕ)
  | pairs (i c : ℕ)
  | out
  | mout (i : ℕ) (left : Bool)

/-- number of pixels -/
def Kind.len : Kind → ℕ
  | .site _ => 1
  | .pairs _ c => 2 * c
  | .out => 0
  | .mout _ _ => 1

/-- number of cores -/
def Kind.cores : Kind → ℕ
  | .site _ => 1
  | .pairs _ c => 2 * c
  | .out => 1
  | .mout _ _ => 2

/-- kinds with the output core -/
def Kind.isOut : Kind → Bool
  | .out => true
  | .mout _ _ => true
  | _ => false

/-- The tensor of the module has the shape belonging to the kind. -/
def Kind.Shaped (D F O : ℕ) : Kind → Module K → Prop
  | .site _, .inputSite t => t.shape = [D, D, F]
  | .pairs _ c, .mergedInput t => t.shape = [c, D, D, F, F]
  | .out, .outputSite t => t.shape = [O, D, D]
  | .mout _ b, .mergedOutput t b' => b = b' ∧ t.shape = [O, D, D, F]
  | _, _ => False

/-- The tensor of the module holds these cores, the merged ones contracted over their common bond. -/
def Kind.Holds [CommSemiring K] (D F O : ℕ) (a : Cores K) : Kind → Module K → Prop
  | .site i, .inputSite t => ∀ l < D, ∀ r < D, ∀ f < F, t.get [l, r, f] = a.A i l r f
  | .pairs i c, .mergedInput t => ∀ s < c, ∀ l < D, ∀ r < D, ∀ f < F, ∀ f' < F,
      t.get [s, l, r, f, f'] = ∑ u ∈ Finset.range D, a.A (i + 2 * s) l u f * a.A (i + 2 * s + 1) u r f'
  | .out, .outputSite t => ∀ o < O, ∀ l < D, ∀ r < D, t.get [o, l, r] = a.C o l r
  | .mout i true, .mergedOutput t _ => ∀ o < O, ∀ l < D, ∀ r < D, ∀ f < F,
      t.get [o, l, r, f] = ∑ u ∈ Finset.range D, a.C o l u * a.A i u r f
  | .mout i false, .mergedOutput t _ => ∀ o < O, ∀ l < D, ∀ r < D, ∀ f < F,
      t.get [o, l, r, f] = ∑ u ∈ Finset.range D, a.A i l u f * a.C o u r
  | _, _ => False

/-- pixels `0 .. q-1` merged from pixel `p` on (`q - p` even) -/
def leftKinds (p q : ℕ) : List Kind :=
  (if p = 1 then [.site 0] else []) ++ (if 2 ≤ q - p then [.pairs p ((q - p) / 2)] else [])

/-- `q` pixels from pixel `i` on merged two by two, one may remain -/
def rightKinds (i q : ℕ) : List Kind :=
  (if 2 ≤ q then [.pairs i (q / 2)] else []) ++ (if q % 2 = 1 then [.site (i + q - 1)] else [])

/-- The layout of a chain of `n` pixel cores with the output core at position `k`, cores being merged two by two from position
`p` (0 or 1) on. -/
def layout (p k n : ℕ) : List Kind :=
  if k % 2 = p then
    leftKinds p k ++ (if k < n then .mout k true :: rightKinds (k + 1) (n - k - 1) else [.out])
  else if k = 0 then .out :: rightKinds 0 n
  else leftKinds p (k - 1) ++ .mout (k - 1) false :: rightKinds k (n - k)

/-- `ms` is the chain of cores `a` merged from position `p` on. -/
def MergedChain [CommSemiring K] (D F O p k n : ℕ) (a : Cores K) (ms : List (Module K)) : Prop :=
  List.Forall₂ (fun κ m => κ.Shaped D F O m ∧ κ.Holds D F O a m) (layout p k n) ms

/-- `ms` has the structure of a chain merged from position `p` on. -/
def MergedShape (D F O p k n : ℕ) (ms : List (Module K)) : Prop :=
  List.Forall₂ (fun κ m => κ.Shaped D F O m) (layout p k n) ms

/-- The module holds the core of pixel `i`. -/
def IsSite (D F : ℕ) (a : Cores K) (i : ℕ) (m : Module K) : Prop :=
  ∃ t, m = .inputSite t ∧ t.shape = [D, D, F] ∧ ∀ l < D, ∀ r < D, ∀ f < F, t.get [l, r, f] = a.A i l r f

/-- The module holds the cores of the `len` pixels from pixel `i` on. -/
def IsRegion (D F : ℕ) (a : Cores K) (i len : ℕ) (m : Module K) : Prop :=
  1 ≤ len ∧ ∃ t b, m = .inputRegion t b ∧ t.shape = [len, D, D, F] ∧
    ∀ s < len, ∀ l < D, ∀ r < D, ∀ f < F, t.get [s, l, r, f] = a.A (i + s) l r f

/-- The module is the output core. -/
def IsOut (D O : ℕ) (a : Cores K) (m : Module K) : Prop :=
  ∃ t, m = .outputSite t ∧ t.shape = [O, D, D] ∧ ∀ o < O, ∀ l < D, ∀ r < D, t.get [o, l, r] = a.C o l r

/-- The `len` pixels from pixel `i` on as at most one module. -/
inductive Part (D F : ℕ) (a : Cores K) (i : ℕ) : ℕ → List (Module K) → Prop
  | none : Part D F a i 0 []
  | site {m} : IsSite D F a i m → Part D F a i 1 [m]
  | region {len m} : IsRegion D F a i len m → Part D F a i len [m]

/-- `ms` is the chain of cores `a`, unmerged. -/
def Unmerged (D F O k n : ℕ) (a : Cores K) (ms : List (Module K)) : Prop :=
  ∃ L m R, ms = L ++ m :: R ∧ Part D F a 0 k L ∧ IsOut D O a m ∧ Part D F a k (n - k) R

/-- The matrix of pixel `i` for a sample. -/
def coreMatAt [CommSemiring K] (D F : ℕ) (a : Cores K) (e : Tensor K) (b i : ℕ) : Mat K :=
  affMat D F (a.A i) (fun f => e.get [b, i, f]) (fun _ _ => 0)

/-- All matrices in order: the pixels before the output core, the output core, the pixels after it. -/
def fineMats [CommSemiring K] (D F k n : ℕ) (a : Cores K) (e : Tensor K) (b o : ℕ) : List (Mat K) :=
  (List.range' 0 k).map (coreMatAt D F a e b) ++ Mat.of D D (a.C o) :: (List.range' k (n - k)).map (coreMatAt D F a e b)

/-- The value of the chain: an entry of the ordered product for open, the trace for periodic boundaries. -/
def chainValue [CommSemiring K] (D F k n : ℕ) (periodic : Bool) (a : Cores K) (e : Tensor K) (b o : ℕ) : K :=
  match orderedProd (fineMats D F k n a e b o) with
  | some M => if periodic then ∑ i ∈ Finset.range D, M.e i i else M.e 0 0
  | none => 0

/-! ### splitting merged cores -/

/-- The singular values of a pair of merged pixel cores, as a matrix from left bond and left pixel to right bond and right pixel. -/
def pairSvs (svd : Mat ℝ → SVD) (t : Tensor ℝ) : List ℝ := singularValues svd t ['l', 'r', 'i', 'j'] ['l', 'u', 'i'] ['u', 'r', 'j'] 'u'
/-- The singular values of the output core merged with the pixel core on its right, as a matrix from output and left bond to right bond
and pixel. -/
def outLeftSvs (svd : Mat ℝ → SVD) (t : Tensor ℝ) : List ℝ := singularValues svd t ['o', 'l', 'r', 'i'] ['o', 'l', 'u'] ['u', 'r', 'i'] 'u'
/-- The singular values of the output core merged with the pixel core on its left, as a matrix from output and right bond to left bond
and pixel. -/
def outRightSvs (svd : Mat ℝ → SVD) (t : Tensor ℝ) : List ℝ := singularValues svd t ['o', 'l', 'r', 'i'] ['o', 'u', 'r'] ['l', 'u', 'i'] 'u'

/-- For every bond to the right of a core of the module: the singular values if the bond is inside a merged pair. -/
def bondPlan (svd : Mat ℝ → SVD) : Module ℝ → List (Option (List ℝ))
  | .mergedInput t => (List.range (t.shape.getD 0 0)).flatMap (fun s => [some (pairSvs svd (t.select 0 s)), none])
  | .mergedOutput t true => [some (outLeftSvs svd t), none]
  | .mergedOutput t false => [some (outRightSvs svd t), none]
  | _ => [none]

/-- number of singular values, out of the `D` largest ones, not below the cutoff -/
noncomputable def kept (D : ℕ) (cutoff : ℝ) (sv : List ℝ) : ℕ :=
  open Classical in ((List.range D).filter (fun k => decide (cutoff ≤ sv.getD k 0))).length

/-- What is recorded for a bond: nothing, or the number of singular values kept and the `D` largest singular values themselves. -/
def BondOk (D : ℕ) (cutoff : ℝ) : Option (List ℝ) → BondEntry → Prop
  | none, none => True
  | some sv, some (b, v) => b = kept D cutoff sv ∧ 1 ≤ b ∧ v.shape = [D] ∧ ∀ k < D, v.get [k] = sv.getD k 0
  | _, _ => False

/-- No singular value of some merged core reaches the cutoff. -/
def Vanishing (svd : Mat ℝ → SVD) (D : ℕ) (cutoff : ℝ) (ms : List (Module ℝ)) : Prop :=
  ∃ m ∈ ms, ∃ sv, some sv ∈ bondPlan svd m ∧ ∀ k < D, sv.getD k 0 < cutoff

/-- All singular values dropped by splitting the merged cores are zero. -/
def Lossless (svd : Mat ℝ → SVD) (D : ℕ) (cutoff : ℝ) (ms : List (Module ℝ)) : Prop :=
  ∀ m ∈ ms, ∀ sv, some sv ∈ bondPlan svd m → ∀ k, (k < D ∧ cutoff ≤ sv.getD k 0) ∨ sv.getD k 0 = 0

/-- the squared distance of two tensors with four axes -/
noncomputable def dist4 (n0 n1 n2 n3 : ℕ) (T T' : ℕ → ℕ → ℕ → ℕ → ℝ) : ℝ :=
  ∑ i ∈ Finset.range n0, ∑ j ∈ Finset.range n1, ∑ k ∈ Finset.range n2, ∑ h ∈ Finset.range n3, (T i j k h - T' i j k h) ^ 2

/-- two pixel cores joined by a bond of dimension `q` -/
noncomputable def pairProd (q : ℕ) (A B : ℕ → ℕ → ℕ → ℝ) (l r f f' : ℕ) : ℝ := ∑ u ∈ Finset.range q, A l u f * B u r f'
/-- output core and pixel core on its right joined by a bond of dimension `q` -/
noncomputable def outLeftProd (q : ℕ) (C A : ℕ → ℕ → ℕ → ℝ) (o l r f : ℕ) : ℝ := ∑ u ∈ Finset.range q, C o l u * A u r f
/-- pixel core and output core on its right joined by a bond of dimension `q` -/
noncomputable def outRightProd (q : ℕ) (C A : ℕ → ℕ → ℕ → ℝ) (o l r f : ℕ) : ℝ := ∑ u ∈ Finset.range q, A l u f * C o u r

/-- `T'` is `T` cut down to the singular values kept, `sv` being all singular values: a product of two cores (as given by `P`) with a bond of that
dimension, at a squared distance from `T` equal to the sum of the squares of the dropped singular values, no other such product being closer. -/
def CutDown (D : ℕ) (cutoff : ℝ) (sv : List ℝ) (n0 n1 n2 n3 : ℕ)
    (P : ℕ → (ℕ → ℕ → ℕ → ℝ) → (ℕ → ℕ → ℕ → ℝ) → ℕ → ℕ → ℕ → ℕ → ℝ) (T T' : ℕ → ℕ → ℕ → ℕ → ℝ) : Prop :=
  (∃ A B, ∀ i < n0, ∀ j < n1, ∀ k < n2, ∀ h < n3, T' i j k h = P (kept D cutoff sv) A B i j k h) ∧
  dist4 n0 n1 n2 n3 T T' = ∑ k ∈ Finset.Ico (kept D cutoff sv) sv.length, sv.getD k 0 ^ 2 ∧
  ∀ q ≤ kept D cutoff sv, ∀ A B, dist4 n0 n1 n2 n3 T T' ≤ dist4 n0 n1 n2 n3 T (P q A B)

/-- What a flip makes of a module: lone cores stay, merged cores are cut down to the singular values kept. -/
def Truncated (svd : Mat ℝ → SVD) (D F O : ℕ) (cutoff : ℝ) : Module ℝ → Module ℝ → Prop
  | .mergedInput t, .mergedInput t' => t'.shape = t.shape ∧ ∀ s < t.shape.getD 0 0, CutDown D cutoff (pairSvs svd (t.select 0 s)) D D F F pairProd
      (fun l r f f' => t.get [s, l, r, f, f']) (fun l r f f' => t'.get [s, l, r, f, f'])
  | .mergedOutput t true, .mergedOutput t' true => t'.shape = t.shape ∧ CutDown D cutoff (outLeftSvs svd t) O D D F outLeftProd
      (fun o l r f => t.get [o, l, r, f]) (fun o l r f => t'.get [o, l, r, f])
  | .mergedOutput t false, .mergedOutput t' false => t'.shape = t.shape ∧ CutDown D cutoff (outRightSvs svd t) O D D F outRightProd
      (fun o l r f => t.get [o, l, r, f]) (fun o l r f => t'.get [o, l, r, f])
  | m, m' => m' = m

/-- the Frobenius norm of a pixel core -/
noncomputable def coreNorm (D F : ℕ) (A : ℕ → ℕ → ℕ → ℝ) : ℝ :=
  Real.sqrt (∑ l ∈ Finset.range D, ∑ r ∈ Finset.range D, ∑ f ∈ Finset.range F, A l r f ^ 2)
/-- the Frobenius norm of the output core -/
noncomputable def outNorm (D O : ℕ) (C : ℕ → ℕ → ℕ → ℝ) : ℝ :=
  Real.sqrt (∑ o ∈ Finset.range O, ∑ l ∈ Finset.range D, ∑ r ∈ Finset.range D, C o l r ^ 2)

/-- all cores multiplied by factors -/
def Cores.scale (c : ℕ → ℝ) (c0 : ℝ) (a : Cores ℝ) : Cores ℝ := ⟨fun i l r f => a.A i l r f * c i, fun o l r => a.C o l r * c0⟩

/-- the geometric mean of the norms of all cores -/
noncomputable def geoMean (D F O n : ℕ) (a : Cores ℝ) : ℝ :=
  (outNorm D O a.C * ∏ i ∈ Finset.range n, coreNorm D F (a.A i)) ^ ((1 : ℝ) / (n + 1))

/-- All cores have the same norm, not zero. -/
def Balanced (D F O n : ℕ) (a : Cores ℝ) : Prop := ∃ v, 0 < v ∧ outNorm D O a.C = v ∧ ∀ i < n, coreNorm D F (a.A i) = v

/-- Unmerging a chain merged from position `p` on leaves two lone pixel cores as all there is on one side of the output core: the left side
has the pixels 0 and 1 and pixel 1 was merged with the output core, or the right side has two pixels and the first one was merged with
the output core. -/
def Stuck (p k n : ℕ) : Prop := (p = 1 ∧ k = 2) ∨ (k % 2 = p ∧ n - k = 2)

/-- The module is a single core all of whose entries are zero. -/
def LoneZero : Module ℝ → Prop
  | .inputSite t => ∀ idx, InRange idx t.shape → t.get idx = 0
  | .outputSite t => ∀ idx, InRange idx t.shape → t.get idx = 0
  | _ => False

/-! ### adaptive models and their histories -/

/-- `m` is an adaptive MPS with the output at site `k`, as the constructor makes it, with arbitrary current parameter values, merge
state, counter and records of bonds. -/
structure IsAdMps (k : ℕ) (m : AdMps) : Prop where
  size : 2 ≤ m.mps.inputDim
  label : k ≤ m.mps.inputDim
  offset : m.region.offset ≤ 1
  stray : m.region.stray = none
  list0 : MergedShape m.mps.bondDim m.mps.featureDim m.mps.outputDim 0 k m.mps.inputDim m.region.list0
  list1 : MergedShape m.mps.bondDim m.mps.featureDim m.mps.outputDim 1 k m.mps.inputDim m.region.list1
  bonds : m.bondList.length = m.mps.inputDim + 2
  svs : m.svList.length = m.mps.inputDim + 2

/-- The active merged list of `m` holds the cores `a`. -/
def HoldsCores (k : ℕ) (a : Cores ℝ) (m : AdMps) : Prop :=
  MergedChain m.mps.bondDim m.mps.featureDim m.mps.outputDim m.region.offset k m.mps.inputDim a (m.region.listAt m.region.offset)

/-- same class and shape of the tensor, other values -/
def Retuned (m m' : Module K) : Prop := ∃ t : Tensor K, t.shape = m.tensor.shape ∧ m' = m.setTensor t

/-- `m'` is `m` with other values of the parameters, as after steps of an optimizer. -/
def Trained (m m' : AdMps) : Prop :=
  ∃ l0 l1, m' = { m with region := { m.region with list0 := l0, list1 := l1 } } ∧
    List.Forall₂ Retuned m.region.list0 l0 ∧ List.Forall₂ Retuned m.region.list1 l1

/-- A history from a model (and process-wide batch size) to another one: successful calls of `forward`, calls raising an exception
when no flip is due, updates of the parameters, use of other models in between (changing only the process-wide batch size), changes
of the feature map. `Bs` are the batch sizes of the embedded inputs of the calls, `fs` whether the merge state was flipped. -/
inductive History (svd : Mat ℝ → SVD) (pop : List Char → Char) : AdMps → Option ℕ → List ℕ → List Bool → AdMps → Option ℕ → Prop
  | nil (m g) : History svd pop m g [] [] m g
  | call {m g x e y m' g' Bs fs m'' g''} : Embedded m.mps x e → m.forward svd pop x g = (.ok y, m', g') →
      History svd pop m' g' Bs fs m'' g'' →
      History svd pop m g (e.shape.getD 0 0 :: Bs) (decide (m'.region.offset ≠ m.region.offset) :: fs) m'' g''
  | failed {m g x e er m' g' Bs fs m'' g''} : Embedded m.mps x e → m.region.counter < m.region.threshold →
      m.forward svd pop x g = (.error er, m', g') → History svd pop m' g' Bs fs m'' g'' →
      History svd pop m g (e.shape.getD 0 0 :: Bs) (false :: fs) m'' g''
  | rejected {m g x er m' g' Bs fs m'' g''} : (¬ ∃ e, Embedded m.mps x e) → m.forward svd pop x g = (.error er, m', g') →
      History svd pop m' g' Bs fs m'' g'' → History svd pop m g Bs fs m'' g''
  | train {m g m' Bs fs m'' g''} : Trained m m' → History svd pop m' g Bs fs m'' g'' → History svd pop m g Bs fs m'' g''
  | other {m g g' Bs fs m'' g''} : History svd pop m g' Bs fs m'' g'' → History svd pop m g Bs fs m'' g''
  | register {m g φ mps' Bs fs m'' g''} : m.mps.registerFeatureMap φ = .ok mps' → History svd pop { m with mps := mps' } g Bs fs m'' g'' →
      History svd pop m g Bs fs m'' g''

/-! ### programs using an adaptive model -/

/-- the list of modules which is not in use -/
def inactive (m : AdMps) : List (Module ℝ) := m.region.listAt (1 - m.region.offset)

/-- the model with other modules not in use -/
def withInactive (m : AdMps) (l : List (Module ℝ)) : AdMps := { m with region := m.region.setList (1 - m.region.offset) l }

/-- the model with other modules in use -/
def withActive (m : AdMps) (l : List (Module ℝ)) : AdMps := { m with region := m.region.setList m.region.offset l }

/-- A step of a program: a call of `forward`, new values for the parameters in use and those not in use, use of other models (changing
the process-wide batch size), a new feature map. -/
inductive AdStep where
  | call (x : Tensor ℝ)
  | update (used unused : List (Module ℝ))
  | batch (g : Option ℕ)
  | feature (φ : Option (ℝ → Tensor ℝ))

/-- The results of the calls in a program, which ends at the first exception. -/
noncomputable def results (svd : Mat ℝ → SVD) (pop : List Char → Char) : AdMps → Option ℕ → List AdStep → List (Except Err (Tensor ℝ))
  | _, _, [] => []
  | m, g, .call x :: ss =>
    match m.forward svd pop x g with
    | (.ok y, m', g') => .ok y :: results svd pop m' g' ss
    | (.error e, _, _) => [.error e]
  | m, g, .update l l' :: ss => results svd pop (withInactive (withActive m l) l') g ss
  | m, _, .batch g :: ss => results svd pop m g ss
  | m, g, .feature φ :: ss =>
    match m.mps.registerFeatureMap φ with
    | .ok mps' => results svd pop { m with mps := mps' } g ss
    | .error e => [.error e]

/-- The same step, except for the values given to parameters not in use. -/
def SameStep : AdStep → AdStep → Prop
  | .update l u, .update l' u' => l = l' ∧ List.Forall₂ Retuned u u'
  | .call x, .call x' => x = x'
  | .batch g, .batch g' => g = g'
  | .feature φ, .feature φ' => φ = φ'
  | _, _ => False

/-- all dropped singular values are zero -/
def LosslessSv (D : ℕ) (cutoff : ℝ) (sv : List ℝ) : Prop := ∀ k, (k < D ∧ cutoff ≤ sv.getD k 0) ∨ sv.getD k 0 = 0

end TorchMPS.Spec
