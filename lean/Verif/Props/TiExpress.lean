import Verif.Lemmas.Hankel
import Verif.Props.TiMps
/-
C99: what a TI_MPS of a given bond dimension can represent.
-/
namespace TorchMPS
open Spec Matrix
variable {K : Type}

/-- the transition matrix of a feature vector -/
def stepMat [CommSemiring K] (m : TiMps K) (v : ℕ → K) : Matrix (Fin m.bondDim) (Fin m.bondDim) K :=
  Matrix.of fun l r => ∑ f ∈ Finset.range m.featureDim, m.core.get [l.val, r.val, f] * v f + tiBiasAt m l r

theorem tiState_word [CommRing K] {M : ℕ} (m : TiMps K) (v : Fin M → ℕ → K) (n : ℕ) (x : ℕ → ℕ → K) (w : Fin n → Fin M) (hx : ∀ i : Fin n, ∀ f < m.featureDim, x i f = v (w i) f)
    (r : Fin m.bondDim) :
    tiState m x n r = ((fun l : Fin m.bondDim => m.initVec.get [l.val]) ᵥ* ((List.ofFn w).map (fun a => stepMat m (v a))).prod) r := by
  induction n generalizing r with
  | zero => simp [tiState]
  | succ n ih =>
    rw [List.ofFn_succ', List.concat_eq_append, List.map_append, List.prod_append, ← Matrix.vecMul_vecMul]
    simp only [List.map_cons, List.map_nil, List.prod_cons, List.prod_nil, mul_one]
    rw [tiState, Matrix.vecMul, dotProduct, ← Fin.sum_univ_eq_sum_range (fun l => tiState m x n l *
      (∑ f ∈ Finset.range m.featureDim, m.core.get [l, r.val, f] * x n f + tiBiasAt m l r))]
    refine Finset.sum_congr rfl (fun l _ => ?_)
    rw [ih (fun i => w i.castSucc) (fun i => hx i.castSucc) l]
    congr 1
    simp only [stepMat, Matrix.of_apply]
    congr 1
    refine Finset.sum_congr rfl (fun f hf => ?_)
    rw [← hx (Fin.last n) f (Finset.mem_range.1 hf)]
    rfl

theorem tiValue_word [CommRing K] {M : ℕ} (m : TiMps K) (v : Fin M → ℕ → K) (n : ℕ) (x : ℕ → ℕ → K) (w : Fin n → Fin M) (hx : ∀ i : Fin n, ∀ f < m.featureDim, x i f = v (w i) f)
    (o : Fin m.outputDim) :
    tiValue m n x o = wordVal (fun l : Fin m.bondDim => m.initVec.get [l.val]) (fun a => stepMat m (v a)) (fun (o : Fin m.outputDim) l => m.termMat.get [l.val, o.val]) (List.ofFn w) o := by
  rw [tiValue, wordVal, dotProduct, ← Fin.sum_univ_eq_sum_range (fun l => tiState m x n l * m.termMat.get [l, o.val])]
  refine Finset.sum_congr rfl (fun l _ => ?_)
  rw [tiState_word m v n x w hx l]

/-- one word with a feature axis -/
def wordInput [Zero K] {M n : ℕ} (v : Fin M → ℕ → K) (w : Fin n → Fin M) (F : ℕ) : Tensor K :=
  ⟨[1, n, F], fun idx => if h : idx.getD 1 0 < n then v (w ⟨idx.getD 1 0, h⟩) (idx.getD 2 0) else 0⟩

/-- what a model returns is given by its matrices -/
theorem ti_returns_iff [CommRing K] {M : ℕ} (m : TiMps K) (h : IsTi m) (v : Fin M → ℕ → K) (c : List (Fin M) → Fin m.outputDim → K) :
    TiReturns m v c ↔ ∀ w, w ≠ [] → ∀ o, wordVal (fun l : Fin m.bondDim => m.initVec.get [l.val]) (fun a => stepMat m (v a)) (fun (o : Fin m.outputDim) l => m.termMat.get [l.val, o.val]) w o = c w o := by
  constructor
  · intro hr w hw o
    have hent : ∀ (b : Fin 1) (i : Fin w.length), ∀ f < m.featureDim, tiEntry m (.batch (wordInput v w.get m.featureDim)) b i f = v (w.get i) f := by
      intro b i f _
      simp [tiEntry, wordInput]
    obtain ⟨y, y1, _, y3⟩ := hr 1 w.length (fun _ => w.get) (.batch (wordInput v w.get m.featureDim)) none (List.length_pos_iff.2 hw) (Or.inl rfl) hent
    obtain ⟨z, z1, _, z3⟩ := C66_value m h (.batch (wordInput v w.get m.featureDim)) 1 w.length (Or.inl rfl) (List.length_pos_iff.2 hw) none
    rw [y1] at z1
    obtain rfl : y = z := by simpa using congrArg Prod.fst z1
    have e1 := z3 0 (by norm_num) o o.2
    have e2 := y3 0 o
    rw [List.ofFn_get] at e2
    rw [← e2]
    rw [tiValue_word m v w.length (tiEntry m (.batch (wordInput v w.get m.featureDim)) 0) w.get (hent 0)] at e1
    rw [List.ofFn_get] at e1
    exact e1.symm
  · intro hw B n w inp g hn ha he
    obtain ⟨y, y1, y2, y3⟩ := C66_value m h inp B n ha hn g
    refine ⟨y, y1, y2, fun b o => ?_⟩
    rw [y3 b b.2 o o.2, tiValue_word m v n _ (w b) (he b)]
    exact hw _ (by
      intro h0
      have := congrArg List.length h0
      simp at this
      omega) o

/-- C99: the Hankel matrix of the function of words returned by a TI_MPS (with a suitable value for the empty word, which it does not evaluate) has rank at most bond_dim; so does each of its
finite blocks in which no empty word occurs. -/
theorem C99_rank_bound [Field K] {M : ℕ} (m : TiMps K) (h : IsTi m) (v : Fin M → ℕ → K) (c : List (Fin M) → Fin m.outputDim → K) (hr : TiReturns m v c) :
    (∃ e, HankelLe (withEmpty c e) m.bondDim) ∧
    ∀ (R C : Type) [Fintype R] [Fintype C] (u : R → List (Fin M)) (s : C → List (Fin M)) (o : C → Fin m.outputDim), (∀ i j, u i ++ s j ≠ []) →
      (Matrix.of fun i j => c (u i ++ s j) (o j)).rank ≤ m.bondDim := by
  have hE : ∃ e, HankelLe (withEmpty c e) m.bondDim := by
    refine ⟨fun o => wordVal (fun l : Fin m.bondDim => m.initVec.get [l.val]) (fun a => stepMat m (v a)) (fun (o : Fin m.outputDim) l => m.termMat.get [l.val, o.val]) [] o, ?_⟩
    refine (hankel_iff _).1 ⟨(fun l : Fin m.bondDim => m.initVec.get [l.val]), (fun a => stepMat m (v a)), (fun (o : Fin m.outputDim) l => m.termMat.get [l.val, o.val]), fun w o => ?_⟩
    cases w with
    | nil => rfl
    | cons a w => exact (ti_returns_iff m h v c).1 hr (a :: w) (by simp) o
  refine ⟨hE, ?_⟩
  intro R C _ _ u s o hne
  obtain ⟨e, he⟩ := hE
  have := hankel_block (withEmpty c e) he u (fun j => (s j, o j))
  have hb : (Matrix.of fun i j => c (u i ++ s j) (o j)) = Matrix.of fun i j => withEmpty c e (u i ++ s j) (o j) := by
    ext i j
    simp only [Matrix.of_apply]
    generalize hw : u i ++ s j = w
    cases w with
    | nil => exact absurd hw (hne i j)
    | cons a w => rfl
  rw [hb]
  exact this

theorem dual_vectors [Field K] {M F : ℕ} (v : Fin M → ℕ → K) (hv : LinearIndependent K (fun a (f : Fin F) => v a f)) :
    ∃ g : Fin M → ℕ → K, ∀ a b, ∑ f ∈ Finset.range F, g b f * v a f = if a = b then 1 else 0 := by
  obtain ⟨P, hP⟩ := (Fintype.linearCombination K (fun a (f : Fin F) => v a f)).exists_leftInverse_of_injective
    (LinearMap.ker_eq_bot.2 (linearIndependent_iff_injective_fintypeLinearCombination.1 hv))
  refine ⟨fun b f => if h : f < F then P (Pi.single ⟨f, h⟩ 1) b else 0, fun a b => ?_⟩
  have h1 := LinearMap.congr_fun hP (Pi.single a 1)
  rw [LinearMap.comp_apply, Fintype.linearCombination_apply_single, one_smul, LinearMap.id_apply] at h1
  have h2 := congrFun h1 b
  rw [LinearMap.pi_apply_eq_sum_univ P] at h2
  rw [Pi.single_apply, Finset.sum_apply] at h2
  rw [← Fin.sum_univ_eq_sum_range (fun f => (if h : f < F then P (Pi.single ⟨f, h⟩ 1) b else 0) * v a f)]
  rw [if_congr (eq_comm (a := a) (b := b)) rfl rfl, ← h2]
  refine Finset.sum_congr rfl (fun f _ => ?_)
  have hs : (Pi.single f 1 : Fin F → K) = fun j => if f = j then 1 else 0 := by
    funext j
    simp [Pi.single_apply, eq_comm]
  rw [dif_pos f.2, Pi.smul_apply, smul_eq_mul, mul_comm, hs]

/-- the model with given transition matrices for given feature vectors -/
def tiOf [CommRing K] {M D O : ℕ} (F : ℕ) (g : Fin M → ℕ → K) (ub fb par : Bool) (φ : Option (K → Tensor K)) (α : ℕ → K) (T : Fin M → ℕ → ℕ → K) (Ω : ℕ → ℕ → K) : TiMps K where
  outputDim := O
  bondDim := D
  featureDim := F
  parallel := par
  useBias := ub
  fixedBias := fb
  featureMap := φ
  core := ⟨[D, D, F], fun idx => ∑ b, (T b (idx.getD 0 0) (idx.getD 1 0) - if ub = true ∧ idx.getD 0 0 = idx.getD 1 0 then 1 else 0) * g b (idx.getD 2 0)⟩
  initVec := ⟨[D], fun idx => α (idx.getD 0 0)⟩
  termMat := ⟨[D, O], fun idx => Ω (idx.getD 1 0) (idx.getD 0 0)⟩
  biasMat := if ub then some (eyeMat D) else none

theorem tiOf_bias [CommRing K] {M D O : ℕ} (F : ℕ) (g : Fin M → ℕ → K) (ub fb par : Bool) (φ : Option (K → Tensor K)) (α : ℕ → K) (T : Fin M → ℕ → ℕ → K) (Ω : ℕ → ℕ → K) (l r : ℕ) :
    tiBiasAt (tiOf (D := D) (O := O) F g ub fb par φ α T Ω) l r = if ub = true ∧ l = r then 1 else 0 := by
  cases ub <;> simp [tiBiasAt, tiOf, eyeMat]

theorem tiOf_isTi [CommRing K] {M D O : ℕ} (F : ℕ) (g : Fin M → ℕ → K) (ub fb par : Bool) (φ : Option (K → Tensor K)) (α : ℕ → K) (T : Fin M → ℕ → ℕ → K) (Ω : ℕ → ℕ → K) :
    IsTi (tiOf (D := D) (O := O) F g ub fb par φ α T Ω) := by
  refine ⟨rfl, rfl, rfl, ?_, ?_⟩
  · intro h
    have h' : ub = true := h
    subst h'
    exact ⟨eyeMat D, rfl, rfl⟩
  · intro h _ l _ r _
    have h' : ub = true := h
    rw [tiOf_bias, h']
    simp

/-- extension of a function by 0 -/
def ext0 [Zero K] {D : ℕ} (f : Fin D → K) (i : ℕ) : K := if h : i < D then f ⟨i, h⟩ else 0

theorem ext0_val [Zero K] {D : ℕ} (f : Fin D → K) (i : Fin D) : ext0 f i.val = f i := by
  rw [ext0, dif_pos i.2]

theorem tiOf_step [CommRing K] {M D O : ℕ} (F : ℕ) (v g : Fin M → ℕ → K) (hg : ∀ a b, ∑ f ∈ Finset.range F, g b f * v a f = if a = b then 1 else 0) (ub fb par : Bool)
    (φ : Option (K → Tensor K)) (α : ℕ → K) (T : Fin M → Matrix (Fin D) (Fin D) K) (Ω : ℕ → ℕ → K) (a : Fin M) :
    (stepMat (tiOf (D := D) (O := O) F g ub fb par φ α (fun a l r => ext0 (fun l => ext0 (fun r => T a l r) r) l) Ω) (v a) : Matrix (Fin D) (Fin D) K) = T a := by
  ext l r
  have e : (stepMat (tiOf (D := D) (O := O) F g ub fb par φ α (fun a l r => ext0 (fun l => ext0 (fun r => T a l r) r) l) Ω) (v a) : Matrix (Fin D) (Fin D) K) l r =
      ∑ f ∈ Finset.range F, (∑ b, (ext0 (fun l => ext0 (fun r => T b l r) r.val) l.val - if ub = true ∧ l.val = r.val then 1 else 0) * g b f) * v a f +
        tiBiasAt (tiOf (D := D) (O := O) F g ub fb par φ α (fun a l r => ext0 (fun l => ext0 (fun r => T a l r) r) l) Ω) l r := rfl
  rw [e, tiOf_bias]
  have h1 : ∀ b, ext0 (fun l => ext0 (fun r => T b l r) r.val) l.val = T b l r := fun b =>
    (ext0_val (fun l => ext0 (fun r => T b l r) r.val) l).trans (ext0_val (fun r => T b l r) r)
  simp only [h1, Finset.sum_mul]
  rw [Finset.sum_comm]
  have h2 : ∀ b, ∑ f ∈ Finset.range F, (T b l r - if ub = true ∧ l.val = r.val then 1 else 0) * g b f * v a f =
      (T b l r - if ub = true ∧ l.val = r.val then 1 else 0) * if a = b then 1 else 0 := by
    intro b
    rw [← hg a b, Finset.mul_sum]
    exact Finset.sum_congr rfl (fun f _ => mul_assoc _ _ _)
  rw [Finset.sum_congr rfl (fun b _ => h2 b)]
  simp

theorem tiOf_wordVal [CommRing K] {M D O : ℕ} (F : ℕ) (v g : Fin M → ℕ → K) (hg : ∀ a b, ∑ f ∈ Finset.range F, g b f * v a f = if a = b then 1 else 0) (ub fb par : Bool)
    (φ : Option (K → Tensor K)) (α : Fin D → K) (T : Fin M → Matrix (Fin D) (Fin D) K) (Ω : Fin O → Fin D → K) (m : TiMps K)
    (hm : m = tiOf (D := D) (O := O) F g ub fb par φ (ext0 α) (fun a l r => ext0 (fun l => ext0 (fun r => T a l r) r) l) (fun o l => ext0 (fun o => ext0 (Ω o) l) o))
    (c : List (Fin M) → Fin O → K) (hc : ∀ w, w ≠ [] → ∀ o, wordVal α T Ω w o = c w o) : TiReturns m v c := by
  subst hm
  refine (ti_returns_iff _ (tiOf_isTi _ _ _ _ _ _ _ _ _) v c).2 ?_
  intro w hw o
  rw [← hc w hw o]
  have hα : (fun l : Fin D => ext0 α l.val) = α := by funext l; exact ext0_val α l
  have hΩ : (fun (o : Fin O) (l : Fin D) => ext0 (fun o => ext0 (Ω o) l.val) o.val) = Ω := by
    funext o l
    rw [ext0_val (fun o => ext0 (Ω o) l.val) o]
    exact ext0_val (Ω o) l
  show wordVal (D := D) (fun l : Fin D => ext0 α l.val) (fun a => stepMat (tiOf (D := D) (O := O) F g ub fb par φ (ext0 α) _ _) (v a)) (fun (o : Fin O) (l : Fin D) => ext0 (fun o => ext0 (Ω o) l.val) o.val) w o = _
  rw [hα, hΩ]
  congr 1
  funext a
  exact tiOf_step F v g hg ub fb par φ _ T _ a

/-- C99: the functions of words which a TI_MPS with given settings and bond dimension `D` can return (for suitable parameters) are exactly those whose Hankel matrix has rank at most `D`. The
symbols may have any linearly independent feature vectors. -/
theorem C99_exactly [Field K] {M O : ℕ} (D F : ℕ) (v : Fin M → ℕ → K) (hv : LinearIndependent K (fun a (f : Fin F) => v a f)) (ub fb par : Bool) (φ : Option (K → Tensor K))
    (c : List (Fin M) → Fin O → K) :
    (∃ m : TiMps K, IsTi m ∧ m.bondDim = D ∧ m.featureDim = F ∧ m.outputDim = O ∧ m.useBias = ub ∧ m.fixedBias = fb ∧ m.parallel = par ∧ m.featureMap = φ ∧ TiReturns m v c) ↔
      ∃ e, HankelLe (withEmpty c e) D := by
  constructor
  · rintro ⟨m, h, h1, _, h3, _, _, _, _, hr⟩
    subst h1
    subst h3
    exact (C99_rank_bound m h v c hr).1
  · rintro ⟨e, he⟩
    obtain ⟨α, T, Ω, hc⟩ := hankel_realize _ he
    obtain ⟨g, hg⟩ := dual_vectors v hv
    refine ⟨tiOf (D := D) (O := O) F g ub fb par φ (ext0 α) (fun a l r => ext0 (fun l => ext0 (fun r => T a l r) r) l) (fun o l => ext0 (fun o => ext0 (Ω o) l) o), tiOf_isTi _ _ _ _ _ _ _ _ _, rfl, rfl, rfl, rfl,
      rfl, rfl, rfl, ?_⟩
    refine tiOf_wordVal F v g hg ub fb par φ α T Ω _ rfl c (fun w hw o => ?_)
    rw [hc w o]
    cases w with
    | nil => exact absurd rfl hw
    | cons a w => rfl

/-- C99: no TI_MPS, of whatever bond dimension, recognises palindromes: there are no parameters for which an output is 1 for all non-empty words (over at least two symbols) which are equal to their
reversal and 0 for all others. -/
theorem C99_palindromes [Field K] {M : ℕ} (hM : 2 ≤ M) (m : TiMps K) (h : IsTi m) (v : Fin M → ℕ → K) (o : Fin m.outputDim) (c : List (Fin M) → Fin m.outputDim → K) (hr : TiReturns m v c) :
    ¬ ∀ w, w ≠ [] → c w o = if w.reverse = w then 1 else 0 := by
  intro hp
  have h1 := (C99_rank_bound m h v c hr).2 (Fin (m.bondDim + 1) → Fin M) (Fin (m.bondDim + 1) → Fin M) (fun u => List.ofFn u) (fun u => (List.ofFn u).reverse) (fun _ => o) (by
    intro i j h0
    have := congrArg List.length h0
    simp at this)
  have h2 : (Matrix.of fun i j : Fin (m.bondDim + 1) → Fin M => c (List.ofFn i ++ (List.ofFn j).reverse) o) = 1 := by
    ext i j
    rw [Matrix.of_apply, hp _ (by
      intro h0
      have := congrArg List.length h0
      simp at this), Matrix.one_apply]
    refine if_congr ?_ rfl rfl
    rw [List.reverse_append, List.reverse_reverse]
    constructor
    · intro he
      have := (List.append_inj he (by simp)).1
      exact (List.ofFn_injective this).symm
    · rintro rfl
      rfl
  rw [h2, Matrix.rank_one] at h1
  simp only [Fintype.card_pi, Fintype.card_fin, Finset.prod_const, Finset.card_univ] at h1
  have h3 : 2 ^ (m.bondDim + 1) ≤ M ^ (m.bondDim + 1) := Nat.pow_le_pow_left hM _
  have h4 : m.bondDim + 1 < 2 ^ (m.bondDim + 1) := Nat.lt_two_pow_self
  omega

/-- the default features of the scalars 0 and 1 -/
def bitFeature [Zero K] [One K] [Sub K] (a : Fin 2) (f : ℕ) : K := if f = 0 then (if a = 0 then 0 else 1) else 1 - (if a = 0 then 0 else 1)

/-- the default features of black and white pixels satisfy the hypothesis of `C99_exactly` -/
theorem bitFeature_independent [Field K] : LinearIndependent K (fun (a : Fin 2) (f : Fin 2) => bitFeature (K := K) a f) := by
  rw [Fintype.linearIndependent_iff]
  intro g hg i
  have h0 := congrFun hg 0
  have h1 := congrFun hg 1
  simp [bitFeature, Fin.sum_univ_two] at h0 h1
  fin_cases i
  · exact h1
  · exact h0

/-- raw sequences of zeros and ones are words in the sense of `TiReturns` -/
theorem raw_bits [CommRing K] (m : TiMps K) (hf : m.featureMap = none) (B n : ℕ) (t : Tensor K) (ht : t.shape = [B, n]) (w : Fin B → Fin n → Fin 2)
    (hw : ∀ b i, t.get [b.val, i.val] = ((w b i).val : K)) (b : Fin B) (i : Fin n) (f : ℕ) : tiEntry m (.batch t) b i f = bitFeature (w b i) f := by
  simp only [tiEntry, ht, List.length_cons, List.length_nil, if_true, tiFeature, hf, hw]
  generalize w b i = a
  fin_cases a <;> simp [bitFeature]

/-- the number of ones in a word of zeros and ones -/
def onesIn (w : List (Fin 2)) : ℕ := w.count 1

/-- the Hankel matrix of the number of ones has rank at most 2 -/
theorem ones_hankel : HankelLe (fun (w : List (Fin 2)) (_ : Fin 1) => (onesIn w : ℝ)) 2 := by
  refine (hankel_iff _).1 ⟨![1, 0], fun a => !![1, if a = 1 then 1 else 0; 0, 1], fun _ => ![0, 1], fun w o => ?_⟩
  have hprod : ∀ w : List (Fin 2), (w.map (fun a => (!![1, if a = 1 then 1 else 0; 0, 1] : Matrix (Fin 2) (Fin 2) ℝ))).prod = !![1, (onesIn w : ℝ); 0, 1] := by
    intro w
    induction w with
    | nil => ext i j; fin_cases i <;> fin_cases j <;> simp [onesIn]
    | cons a w ih =>
      rw [List.map_cons, List.prod_cons, ih]
      ext i j
      fin_cases i <;> fin_cases j <;> fin_cases a <;> simp [onesIn, Matrix.mul_apply, Fin.sum_univ_two, List.count_cons]
  rw [wordVal, hprod]
  simp [Matrix.vecMul, dotProduct, Fin.sum_univ_two]

/-- a TI_MPS with bond dimension 2, the default feature map and a fixed bias counts the ones in sequences of zeros and ones of every length -/
example : ∃ m : TiMps ℝ, IsTi m ∧ m.bondDim = 2 ∧ m.useBias = true ∧ m.fixedBias = true ∧ m.featureMap = none ∧
    TiReturns m (bitFeature (K := ℝ)) (fun (w : List (Fin 2)) (_ : Fin 1) => (onesIn w : ℝ)) := by
  have he : withEmpty (fun (w : List (Fin 2)) (_ : Fin 1) => (onesIn w : ℝ)) (fun _ => 0) = fun (w : List (Fin 2)) (_ : Fin 1) => (onesIn w : ℝ) := by
    funext w o
    cases w with
    | nil => simp [withEmpty, onesIn]
    | cons a w => rfl
  obtain ⟨m, h1, h2, _, _, h5, h6, _, h8, h9⟩ := (C99_exactly 2 2 (bitFeature (K := ℝ)) bitFeature_independent true true false none _).2 ⟨fun _ => 0, by rw [he]; exact ones_hankel⟩
  exact ⟨m, h1, h2, h5, h6, h8, h9⟩

/-- but not with bond dimension 1: the block of the words 0, 1 and 0, 1 has rank 2 -/
example : ¬ ∃ m : TiMps ℝ, IsTi m ∧ m.bondDim = 1 ∧ m.outputDim = 1 ∧ ∃ c : List (Fin 2) → Fin m.outputDim → ℝ, (∀ w o, c w o = (onesIn w : ℝ)) ∧ TiReturns m (bitFeature (K := ℝ)) c := by
  rintro ⟨m, hm, hD, hO, c, hc, hr⟩
  have h1 := (C99_rank_bound m hm _ c hr).2 (Fin 2) (Fin 2) (fun a => [a]) (fun a => [a]) (fun _ => ⟨0, by omega⟩) (by simp)
  have h2 : (Matrix.of fun i j : Fin 2 => c ([i] ++ [j]) ⟨0, by omega⟩) = !![0, 1; 1, 2] := by
    ext i j
    rw [Matrix.of_apply, hc]
    fin_cases i <;> fin_cases j <;> simp [onesIn]
  rw [h2, hD] at h1
  have h3 : IsUnit (!![0, 1; 1, 2] : Matrix (Fin 2) (Fin 2) ℝ) := by
    rw [Matrix.isUnit_iff_isUnit_det, Matrix.det_fin_two_of]
    norm_num
  rw [Matrix.rank_of_isUnit _ h3] at h1
  simp at h1

end TorchMPS
