import Verif.Lemmas.NetSimMps
import Verif.Model.Autodiff
import Verif.Lemmas.AdRescale
/-
The values on triples: by components, and with weights.
-/
namespace TorchMPS
open Spec
variable {K L : Type}

theorem Mat.map_mulHom [CommRing K] [CommRing L] (f : K →+* L) (A B : Mat K) : (A.mul B).map f = (A.map f).mul (B.map f) := by
  simp [Mat.map, Mat.mul]

theorem prodL_mapHom [CommRing K] [CommRing L] (f : K →+* L) (l : List (Mat K)) : (prodL l).map (Mat.map f) = prodL (l.map (Mat.map f)) := by
  cases l with
  | nil => rfl
  | cons a l =>
    rw [List.map_cons, prodL_cons_foldl, prodL_cons_foldl, Option.map_some]
    congr 1
    induction l generalizing a with
    | nil => rfl
    | cons b l ih => rw [List.foldl_cons, List.map_cons, List.foldl_cons, ih, Mat.map_mulHom]

theorem Mat.map_ofHom [CommRing K] [CommRing L] (f : K →+* L) (r c : ℕ) (e : ℕ → ℕ → K) : (Mat.of r c e).map f = Mat.of r c (fun i j => f (e i j)) := by
  simp only [Mat.map, Mat.of, Mat.mk.injEq, true_and]
  funext i j
  split <;> simp

/-- a tensor with a function applied to its entries -/
def Tensor.mapT (f : K → L) (t : Tensor K) : Tensor L := ⟨t.shape, fun idx => f (t.get idx)⟩

/-- all parameters with a function applied -/
def Spec.Params.mapP (f : K → L) (p : Params K) : Params L := ⟨p.left.mapT f, p.leftBias.mapT f, p.out.mapT f, p.right.mapT f, p.rightBias.mapT f⟩

theorem affMat_mapHom [CommRing K] [CommRing L] (f : K →+* L) (D F : ℕ) (A : ℕ → ℕ → ℕ → K) (v : ℕ → K) (bias : ℕ → ℕ → K) :
    (affMat D F A v bias).map f = affMat D F (fun l r i => f (A l r i)) (fun i => f (v i)) (fun l r => f (bias l r)) := by
  unfold affMat
  rw [Mat.map_ofHom]
  simp

theorem pixelMat_mapHom [CommRing K] [CommRing L] (f : K →+* L) (D F k : ℕ) (ub : Bool) (p : Params K) (e : Tensor K) (b i : ℕ) :
    (pixelMat D F k ub p e b i).map f = pixelMat D F k ub (p.mapP f) (e.mapT f) b i := by
  unfold pixelMat
  rw [affMat_mapHom]
  congr 1
  · funext l r c
    unfold Params.core
    split <;> rfl
  · funext l r
    unfold Params.bias
    split
    · split <;> rfl
    · simp

theorem mpsMats_mapHom [CommRing K] [CommRing L] (f : K →+* L) (D F n k : ℕ) (ub : Bool) (p : Params K) (e : Tensor K) (b o : ℕ) :
    (mpsMats D F n k ub p e b o).map (Mat.map f) = mpsMats D F n k ub (p.mapP f) (e.mapT f) b o := by
  unfold mpsMats pixelMats outMat
  rw [List.map_append, List.map_cons, List.map_map, List.map_map, Mat.map_ofHom]
  congr 1
  · exact List.map_congr_left fun i _ => pixelMat_mapHom f D F k ub p e b i
  · congr 1
    exact List.map_congr_left fun i _ => pixelMat_mapHom f D F k ub p e b i

theorem mpsValue_mapHom [CommRing K] [CommRing L] (f : K →+* L) (D F n k : ℕ) (ub per : Bool) (p : Params K) (e : Tensor K) (b o : ℕ) :
    f (mpsValue D F n k ub per p e b o) = mpsValue D F n k ub per (p.mapP f) (e.mapT f) b o := by
  unfold mpsValue
  rw [orderedProd_eq, orderedProd_eq, ← mpsMats_mapHom, ← prodL_mapHom]
  cases prodL (mpsMats D F n k ub p e b o) with
  | none => simp
  | some M =>
    simp only [Option.map_some]
    cases per <;> simp [Mat.map]

/-- weighted parameters -/
def Spec.Params.weight (θ w : ℝ) (p : Params ℝ) : Params ℝ :=
  ⟨p.left.mapT (θ * ·), p.leftBias.mapT (θ * ·), p.out.mapT (w * ·), p.right.mapT (θ * ·), p.rightBias.mapT (θ * ·)⟩

theorem pixelMat_weight (θ w : ℝ) (D F k : ℕ) (ub : Bool) (p : Params ℝ) (e : Tensor ℝ) (b i : ℕ) :
    pixelMat D F k ub (p.weight θ w) e b i = scaleMat θ (pixelMat D F k ub p e b i) := by
  unfold pixelMat affMat
  rw [← scaleMat_of]
  refine mat_of_congr _ _ _ _ ?_
  intro l _ r _
  rw [add_mul, Finset.sum_mul]
  congr 1
  · refine Finset.sum_congr rfl ?_
    intro c _
    unfold Params.core Spec.Params.weight Tensor.mapT
    split <;> ring
  · unfold Params.bias Spec.Params.weight Tensor.mapT
    split
    · split <;> ring
    · ring

theorem mpsValue_weight (θ w : ℝ) (D F n k : ℕ) (hk : k ≤ n) (ub per : Bool) (p : Params ℝ) (e : Tensor ℝ) (b o : ℕ) :
    mpsValue D F n k ub per (p.weight θ w) e b o = w * θ ^ n * mpsValue D F n k ub per p e b o := by
  have hl : ∃ l : List (ℝ × Mat ℝ), mpsMats D F n k ub (p.weight θ w) e b o = l.map (fun p => scaleMat p.1 p.2) ∧
      mpsMats D F n k ub p e b o = l.map Prod.snd ∧ (l.map Prod.fst).prod = w * θ ^ n := by
    refine ⟨(List.range' 0 (k - 0)).map (fun i => (θ, pixelMat D F k ub p e b i)) ++ (w, outMat D p o) ::
      (List.range' k (n - k)).map (fun i => (θ, pixelMat D F k ub p e b i)), ?_, ?_, ?_⟩
    · unfold mpsMats pixelMats
      simp only [List.map_append, List.map_cons, List.map_map]
      congr 1
      · exact List.map_congr_left (fun i _ => pixelMat_weight θ w D F k ub p e b i)
      · congr 1
        · unfold outMat
          rw [← scaleMat_of]
          simp [Spec.Params.weight, Tensor.mapT, mul_comm]
        · exact List.map_congr_left (fun i _ => pixelMat_weight θ w D F k ub p e b i)
    · unfold mpsMats pixelMats
      simp only [List.map_append, List.map_cons, List.map_map]
      rfl
    · simp only [List.map_append, List.map_cons, List.map_map, List.prod_append, List.prod_cons]
      have e1 : (Prod.fst ∘ fun i => (θ, pixelMat D F k ub p e b i)) = fun _ : ℕ => θ := rfl
      rw [e1, List.map_const', List.map_const', List.prod_replicate, List.prod_replicate, List.length_range', List.length_range']
      rw [mul_left_comm, ← pow_add, Nat.sub_zero, Nat.add_sub_cancel' hk]
  obtain ⟨l, h1, h2, h3⟩ := hl
  unfold mpsValue
  rw [h1, h2, orderedProd_eq, orderedProd_eq, scaleMat_prodL, h3]
  cases prodL (l.map Prod.snd) with
  | none => simp
  | some M =>
    simp only [Option.map_some]
    cases per
    · simp [scaleMat, mul_comm]
    · simp [scaleMat, Finset.mul_sum, mul_comm]

variable [RCLike K]

/-- the parameters as triples -/
noncomputable def triParams (θ w : ℝ) (p : Params K) : Params (Tri K) :=
  ⟨triT θ p.left, triT θ p.leftBias, triT w p.out, triT θ p.right, triT θ p.rightBias⟩

/-- the value on triples -/
theorem mpsValue_tri (θ w : ℝ) (D F n k : ℕ) (hk : k ≤ n) (ub per : Bool) (p : Params K) (e : Tensor K) (b o : ℕ) :
    mpsValue D F n k ub per (triParams θ w p) (triT 1 e) b o =
      (mpsValue D F n k ub per p e b o, mpsValue D F n k ub per (absParams p) (absT e) b o,
        w * θ ^ n * mpsValue D F n k ub per (absParams p) (absT e) b o) := by
  refine Prod.ext ?_ (Prod.ext ?_ ?_)
  · exact mpsValue_mapHom (RingHom.fst K (ℝ × ℝ)) D F n k ub per _ _ b o
  · exact mpsValue_mapHom ((RingHom.fst ℝ ℝ).comp (RingHom.snd K (ℝ × ℝ))) D F n k ub per _ _ b o
  · refine (mpsValue_mapHom ((RingHom.snd ℝ ℝ).comp (RingHom.snd K (ℝ × ℝ))) D F n k ub per _ _ b o).trans ?_
    simp only
    rw [← mpsValue_weight θ w D F n k hk]
    congr 1
    simp [Tensor.mapT, triT, absT]

/-! ### TI_MPS -/

theorem tiState_same [CommSemiring L] (m m' : TiMps L) (x x' : ℕ → ℕ → L) (D F : ℕ) (h1 : m.bondDim = D) (h2 : m'.bondDim = D) (h3 : m.featureDim = F) (h4 : m'.featureDim = F)
    (hv : m.initVec = m'.initVec) (hc : m.core = m'.core) (hb : tiBiasAt m = tiBiasAt m') (hx : x = x') : tiState m x = tiState m' x' := by
  subst hx
  funext i
  induction i with
  | zero => funext r; simp [tiState, hv]
  | succ i ih =>
    funext r
    simp only [tiState, ih, h1, h2, h3, h4, hc, hb]

/-- a TI_MPS with functions applied to its tensors -/
def TiMps.mapM {L' : Type} (f g h : L → L') (m : TiMps L) : TiMps L' :=
  ⟨m.outputDim, m.bondDim, m.featureDim, m.parallel, m.useBias, false, none, m.core.mapT f, m.initVec.mapT g, m.termMat.mapT h, m.biasMat.map (Tensor.mapT f)⟩

theorem tiBias_mapM {L' : Type} [Zero L] [Zero L'] (f g h : L → L') (h0 : f 0 = 0) (m : TiMps L) (l r : ℕ) : tiBiasAt (m.mapM f g h) l r = f (tiBiasAt m l r) := by
  unfold tiBiasAt TiMps.mapM
  cases m.useBias with
  | false => simp [h0]
  | true =>
    cases m.biasMat with
    | none => simp [h0]
    | some b => rfl

theorem tiValue_mapHom {L' : Type} [CommRing L] [CommRing L'] (f : L →+* L') (m : TiMps L) (n : ℕ) (x : ℕ → ℕ → L) (o : ℕ) :
    f (tiValue m n x o) = tiValue (m.mapM f f f) n (fun i c => f (x i c)) o := by
  have hs : ∀ i r, f (tiState m x i r) = tiState (m.mapM f f f) (fun i c => f (x i c)) i r := by
    intro i
    induction i with
    | zero => intro r; rfl
    | succ i ih =>
      intro r
      simp only [tiState, map_sum, map_mul, map_add, ih, tiBias_mapM _ _ _ (map_zero f)]
      rfl
  unfold tiValue
  simp only [map_sum, map_mul, hs]
  rfl

theorem tiValue_weight (θ w w' : ℝ) (m : TiMps ℝ) (n : ℕ) (x : ℕ → ℕ → ℝ) (o : ℕ) :
    tiValue (m.mapM (θ * ·) (w * ·) (w' * ·)) n x o = w * w' * θ ^ n * tiValue m n x o := by
  have hs : ∀ i r, tiState (m.mapM (θ * ·) (w * ·) (w' * ·)) x i r = w * θ ^ i * tiState m x i r := by
    intro i
    induction i with
    | zero => intro r; simp [tiState, TiMps.mapM, Tensor.mapT]
    | succ i ih =>
      intro r
      simp only [tiState, ih, tiBias_mapM _ _ _ (mul_zero θ)]
      rw [Finset.mul_sum]
      refine Finset.sum_congr rfl ?_
      intro l _
      have : ∑ f ∈ Finset.range m.featureDim, (θ * m.core.get [l, r, f]) * x i f = θ * ∑ f ∈ Finset.range m.featureDim, m.core.get [l, r, f] * x i f := by
        rw [Finset.mul_sum]
        refine Finset.sum_congr rfl ?_
        intro f _
        ring
      show _ * (∑ f ∈ Finset.range m.featureDim, (θ * m.core.get [l, r, f]) * x i f + _) = _
      rw [this]
      ring
  unfold tiValue
  rw [Finset.mul_sum]
  refine Finset.sum_congr rfl ?_
  intro l _
  rw [hs]
  show _ * (w' * m.termMat.get [l, o]) = _
  ring

/-- a TI_MPS as triples -/
noncomputable def triTi (θ w : ℝ) (m : TiMps K) : TiMps (Tri K) :=
  ⟨m.outputDim, m.bondDim, m.featureDim, m.parallel, m.useBias, false, none, triT θ m.core, triT w m.initVec, triT w m.termMat, m.biasMat.map (triT θ)⟩

theorem tiValue_same [CommSemiring L] (m m' : TiMps L) (n : ℕ) (x x' : ℕ → ℕ → L) (o D F : ℕ) (h1 : m.bondDim = D) (h2 : m'.bondDim = D) (h3 : m.featureDim = F)
    (h4 : m'.featureDim = F) (hv : m.initVec = m'.initVec) (hc : m.core = m'.core) (ht : m.termMat = m'.termMat) (hb : tiBiasAt m = tiBiasAt m') (hx : x = x') :
    tiValue m n x o = tiValue m' n x' o := by
  unfold tiValue
  rw [tiState_same m m' x x' D F h1 h2 h3 h4 hv hc hb hx, h1, h2, ht]

theorem tiValue_tri (θ w : ℝ) (m : TiMps K) (n : ℕ) (e : Tensor K) (b o : ℕ) :
    tiValue (triTi θ w m) n (seqOf (triT 1 e) b) o =
      (tiValue m n (seqOf e b) o, tiValue (absTi m) n (seqOf (absT e) b) o, w * w * θ ^ n * tiValue (absTi m) n (seqOf (absT e) b) o) := by
  refine Prod.ext ?_ (Prod.ext ?_ ?_)
  · refine (tiValue_mapHom (RingHom.fst K (ℝ × ℝ)) _ n _ o).trans (tiValue_same _ m n _ _ o m.bondDim m.featureDim rfl rfl rfl rfl rfl rfl rfl ?_ rfl)
    funext l r
    rw [tiBias_mapM _ _ _ rfl]
    unfold tiBiasAt triTi
    cases m.useBias with
    | false => rfl
    | true => cases m.biasMat <;> rfl
  · refine (tiValue_mapHom ((RingHom.fst ℝ ℝ).comp (RingHom.snd K (ℝ × ℝ))) _ n _ o).trans
      (tiValue_same _ (absTi m) n _ _ o m.bondDim m.featureDim rfl rfl rfl rfl rfl rfl rfl ?_ rfl)
    funext l r
    rw [tiBias_mapM _ _ _ rfl]
    unfold tiBiasAt triTi absTi
    cases m.useBias with
    | false => rfl
    | true => cases m.biasMat <;> rfl
  · refine (tiValue_mapHom ((RingHom.snd ℝ ℝ).comp (RingHom.snd K (ℝ × ℝ))) _ n _ o).trans ?_
    simp only
    rw [← tiValue_weight]
    refine tiValue_same _ _ n _ _ o m.bondDim m.featureDim rfl rfl rfl rfl rfl rfl rfl ?_ ?_
    · funext l r
      rw [tiBias_mapM (f := ⇑((RingHom.snd ℝ ℝ).comp (RingHom.snd K (ℝ × ℝ)))) (h0 := rfl), tiBias_mapM (f := (θ * ·)) (h0 := mul_zero θ)]
      unfold tiBiasAt triTi absTi
      cases m.useBias with
      | false => exact (mul_zero θ).symm
      | true =>
        cases m.biasMat with
        | none => exact (mul_zero θ).symm
        | some b => rfl
    · funext i c
      simp [seqOf, triT, absT]

end TorchMPS
