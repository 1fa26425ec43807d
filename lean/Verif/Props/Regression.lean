import Verif.Spec.Regression
import Verif.Props.MpsExpress
/-
C109: an MPS as linear regression, and as a polynomial in the pixels.
-/
namespace TorchMPS
open Spec
variable {K : Type}

/-- the parameters with the bias matrices as one more slice of the cores -/
def biasAsFeature [Zero K] (n k D F O : ℕ) (ub : Bool) (p : Params K) : Params K where
  left := ⟨[k, D, D, F + 1], fun idx => if idx.getD 3 0 < F then p.left.get idx else if ub then p.leftBias.get [0, idx.getD 1 0, idx.getD 2 0] else 0⟩
  leftBias := ⟨[1, D, D], fun _ => 0⟩
  out := ⟨[O, D, D], p.out.get⟩
  right := ⟨[n - k, D, D, F + 1], fun idx => if idx.getD 3 0 < F then p.right.get idx else if ub then p.rightBias.get [0, idx.getD 1 0, idx.getD 2 0] else 0⟩
  rightBias := ⟨[1, D, D], fun _ => 0⟩

theorem biasAsFeature_core [Zero K] (n k D F O : ℕ) (ub : Bool) (p : Params K) (i l r f : ℕ) :
    (biasAsFeature n k D F O ub p).core k i l r f = if f < F then p.core k i l r f else p.bias ub k i l r := by
  unfold Params.core Params.bias biasAsFeature
  by_cases hi : i < k <;> by_cases hf : f < F <;> simp [hi, hf]

theorem biasAsFeature_pixel [CommRing K] (n k D F O : ℕ) (ub : Bool) (p : Params K) (e e' : Tensor K) (b b' i : ℕ) (h : ∀ f < F, e'.get [b', i, f] = e.get [b, i, f])
    (h1 : e'.get [b', i, F] = 1) :
    pixelMat D (F + 1) k false (biasAsFeature n k D F O ub p) e' b' i = pixelMat D F k ub p e b i := by
  unfold pixelMat affMat
  congr 1
  funext l r
  have h0 : (biasAsFeature n k D F O ub p).bias false k i l r = 0 := by simp [Params.bias]
  beta_reduce
  rw [Finset.sum_range_succ, biasAsFeature_core, if_neg (lt_irrefl _), h1, mul_one, h0, add_zero]
  congr 1
  refine Finset.sum_congr rfl fun f hf => ?_
  have hf := Finset.mem_range.1 hf
  rw [biasAsFeature_core, if_pos hf, h f hf]

theorem biasAsFeature_value [CommRing K] (n k D F O : ℕ) (hk : k ≤ n) (ub per : Bool) (p : Params K) (e e' : Tensor K) (b b' o : ℕ)
    (h : ∀ i < n, (∀ f < F, e'.get [b', i, f] = e.get [b, i, f]) ∧ e'.get [b', i, F] = 1) :
    mpsValue D (F + 1) n k false per (biasAsFeature n k D F O ub p) e' b' o = mpsValue D F n k ub per p e b o := by
  have hp : ∀ i j, j ≤ n → pixelMats D (F + 1) k false (biasAsFeature n k D F O ub p) e' b' i j = pixelMats D F k ub p e b i j := by
    intro i j hj
    unfold pixelMats
    refine List.map_congr_left fun q hq => ?_
    have hq := List.mem_range'_1.1 hq
    exact biasAsFeature_pixel n k D F O ub p e e' b b' q (h q (by omega)).1 (h q (by omega)).2
  unfold mpsValue mpsMats
  rw [hp 0 k hk, hp k n le_rfl]
  rfl

/-- C109: for each choice of parameters there are weights, one for every choice of a feature or of the constant 1 at each of the pixels, such that the outputs are the linear function with
these weights of the products of the chosen features - with and without bias matrices, for both boundary conditions and every feature map and path. -/
theorem C109_linear_regression [CommRing K] (k : ℕ) (ub : Bool) (p : Params K) (m : MPS K) (h : IsMps k ub p m) (hD : m.periodic = true ∨ 1 ≤ m.bondDim)
    (hs : NoShortRegion m.inputDim k) :
    ∃ W : Fin m.outputDim → (Fin m.inputDim → Option (Fin m.featureDim)) → K, ∀ (x e : Tensor K), Embedded m x e → ∀ (g : Option ℕ), BatchKnown k (e.shape.getD 0 0) g →
      ∃ y g', m.forward x g = (.ok y, g') ∧ y.shape = [e.shape.getD 0 0, m.outputDim] ∧ LinearIn W e y := by
  let p' := biasAsFeature m.inputDim k m.bondDim m.featureDim m.outputDim ub p
  refine ⟨fun o s => mpsValue m.bondDim (m.featureDim + 1) m.inputDim k false m.periodic p' (vecInput fun i => hotVec (finSuccEquivLast.symm (s i))) 0 o, ?_⟩
  intro x e he g hg
  obtain ⟨y, g', y1, y2, y3⟩ := mps_forward k ub p m h hD hs x e he _ rfl g hg
  refine ⟨y, g', y1, y2, fun b hb o => ?_⟩
  rw [y3 b hb o o.2]
  let e' : Fin m.inputDim → Fin (m.featureDim + 1) → K := fun i f => if f.val < m.featureDim then e.get [b, i.val, f.val] else 1
  rw [← biasAsFeature_value m.inputDim k m.bondDim m.featureDim m.outputDim h.label ub m.periodic p e (vecInput e') b 0 o (fun i hi => ⟨fun f hf => by
      have := Nat.lt_succ_of_lt hf; simp only [vecInput, e']; rw [dif_pos ⟨hi, this⟩]; simp [hf], by simp [vecInput, e', hi]⟩)]
  rw [mps_expand _ _ _ _ h.label false m.periodic hD _ (fun i _ l _ r _ => by simp [Params.bias]) o]
  refine Fintype.sum_equiv (Equiv.piCongrRight fun _ => finSuccEquivLast) _ _ fun s => ?_
  rw [mul_comm]
  congr 1
  · simp [p']
  · unfold bigFeature
    refine Finset.prod_congr rfl fun i _ => ?_
    simp only [Equiv.piCongrRight_apply, Pi.map_apply, e']
    refine Fin.lastCases ?_ (fun f => ?_) (s i)
    · simp
    · simp

/-- C109: without bias matrices the constant 1 is not needed: every coordinate is a product of one feature of every pixel. -/
theorem C109_no_bias [CommRing K] (k : ℕ) (p : Params K) (m : MPS K) (h : IsMps k false p m) (hD : m.periodic = true ∨ 1 ≤ m.bondDim)
    (hs : NoShortRegion m.inputDim k) :
    ∃ W : Fin m.outputDim → (Fin m.inputDim → Fin m.featureDim) → K, ∀ (x e : Tensor K), Embedded m x e → ∀ (g : Option ℕ), BatchKnown k (e.shape.getD 0 0) g →
      ∃ y g', m.forward x g = (.ok y, g') ∧ y.shape = [e.shape.getD 0 0, m.outputDim] ∧
        ∀ b < e.shape.getD 0 0, ∀ o : Fin m.outputDim, y.get [b, o.val] = ∑ s, W o s * ∏ i, e.get [b, i.val, (s i).val] := by
  refine ⟨fun o s => mpsValue m.bondDim m.featureDim m.inputDim k false m.periodic p (vecInput fun i => hotVec (s i)) 0 o, ?_⟩
  intro x e he g hg
  obtain ⟨y, g', y1, y2, y3⟩ := mps_forward k false p m h hD hs x e he _ rfl g hg
  refine ⟨y, g', y1, y2, fun b hb o => ?_⟩
  rw [y3 b hb o o.2]
  rw [mpsValue_congr m.bondDim m.featureDim m.inputDim k h.label false m.periodic p e
    (vecInput fun (i : Fin m.inputDim) (f : Fin m.featureDim) => e.get [b, i.val, f.val]) b 0 o (fun i hi f hf => by simp [vecInput, hi, hf])]
  rw [mps_expand _ _ _ _ h.label false m.periodic hD p (fun i _ l _ r _ => by simp [Params.bias]) o]
  exact Finset.sum_congr rfl fun s _ => mul_comm _ _

/-! ### polynomials in the pixels -/

theorem prod_affine [CommRing K] {n : ℕ} (u v x : Fin n → K) : ∏ i, (u i * x i + v i) = ∑ S : Finset (Fin n), ((∏ i ∈ S, u i) * ∏ i ∈ Sᶜ, v i) * ∏ i ∈ S, x i := by
  rw [Finset.prod_add, Finset.powerset_univ]
  refine Finset.sum_congr rfl fun S _ => ?_
  rw [Finset.prod_mul_distrib, ← Finset.compl_eq_univ_sdiff]
  ring

/-- slope and value at zero of a coordinate of the default feature map (x, 1 - x), or of the constant 1 -/
def slope [CommRing K] : Option (Fin 2) → K
  | some f => if f = 0 then 1 else -1
  | none => 0

def atZero [CommRing K] : Option (Fin 2) → K
  | some f => if f = 0 then 0 else 1
  | none => 1

/-- C109: with the default feature map, the outputs are polynomials in the pixels, of degree at most one in each pixel, with coefficients which depend only on the parameters. -/
theorem C109_polynomial [CommRing K] (k : ℕ) (ub : Bool) (p : Params K) (m : MPS K) (h : IsMps k ub p m) (hD : m.periodic = true ∨ 1 ≤ m.bondDim)
    (hs : NoShortRegion m.inputDim k) (hpath : m.path = none) (hfm : m.featureMap = none) (hF : m.featureDim = 2) :
    ∃ a : Fin m.outputDim → Finset (Fin m.inputDim) → K, ∀ (B : ℕ) (x : Tensor K), x.shape = [B, m.inputDim] → ∀ (g : Option ℕ), BatchKnown k B g →
      ∃ y g', m.forward x g = (.ok y, g') ∧ y.shape = [B, m.outputDim] ∧
        ∀ b < B, ∀ o : Fin m.outputDim, y.get [b, o.val] = pixelPoly (a o) (fun i => x.get [b, i.val]) := by
  obtain ⟨W, hW⟩ := C109_linear_regression k ub p m h hD hs
  let c : Option (Fin m.featureDim) → Option (Fin 2) := Option.map (Fin.cast hF)
  refine ⟨fun o S => ∑ s, W o s * ((∏ i ∈ S, slope (c (s i))) * ∏ i ∈ Sᶜ, atZero (c (s i))), ?_⟩
  intro B x hx g hg
  obtain ⟨e, e1, e2, e3⟩ := C57_embedding m x (Or.inr ⟨by rw [hx]; rfl, by rw [hfm]; exact hF⟩)
  have hx0 : x.shape.getD 0 0 = B := by rw [hx]; rfl
  have he0 : e.shape.getD 0 0 = B := by rw [e2, hx0]; rfl
  obtain ⟨y, g', y1, y2, y3⟩ := hW x e ⟨x, by rw [hpath]; rfl, e1⟩ g (by rw [he0]; exact hg)
  refine ⟨y, g', y1, by rw [y2, he0], fun b hb o => ?_⟩
  rw [y3 b (by rw [he0]; exact hb) o]
  unfold pixelPoly
  simp only [Finset.sum_mul]
  rw [Finset.sum_comm]
  refine Finset.sum_congr rfl fun s _ => ?_
  simp only [mul_assoc]
  rw [← Finset.mul_sum]
  congr 1
  simp only [← mul_assoc]
  rw [← prod_affine (fun i => slope (c (s i))) (fun i => atZero (c (s i))) (fun i => x.get [b, i.val])]
  unfold bigFeature
  refine Finset.prod_congr rfl fun i _ => ?_
  cases hsi : s i with
  | none => simp [c, slope, atZero]
  | some f =>
    simp only
    rw [e3 b (by rw [hx0]; exact hb) i i.2 f f.2]
    unfold featureEntry
    rw [if_neg (by rw [hx]; simp), hfm]
    simp only [c, Option.map_some, slope, atZero]
    by_cases hf : f.val = 0
    · have : Fin.cast hF f = 0 := Fin.ext (by simp [hf])
      simp [hf, this]
    · have : Fin.cast hF f ≠ 0 := fun hc => hf (by simpa using congrArg Fin.val hc)
      simp only [hf, this, if_false]
      ring

/-- the indicator of a set of pixels -/
def bitsOf {n : ℕ} (S : Finset (Fin n)) : Fin n → ℕ := fun i => if i ∈ S then 1 else 0

theorem poly_bits [CommRing K] {n : ℕ} (a : Finset (Fin n) → K) (S : Finset (Fin n)) : pixelPoly a (fun i => (bitsOf S i : K)) = ∑ T ∈ S.powerset, a T := by
  unfold pixelPoly bitsOf
  have h : ∀ T : Finset (Fin n), (∏ i ∈ T, (((if i ∈ S then 1 else 0 : ℕ)) : K)) = if T ⊆ S then 1 else 0 := by
    intro T
    split
    · rename_i hT
      exact Finset.prod_eq_one fun i hi => by simp [hT hi]
    · rename_i hT
      obtain ⟨i, hi, hn⟩ := Finset.not_subset.1 hT
      exact Finset.prod_eq_zero hi (by simp [hn])
  simp only [h, mul_ite, mul_one, mul_zero]
  rw [← Finset.sum_filter]
  refine Finset.sum_congr ?_ fun _ _ => rfl
  ext T
  simp

/-- polynomials of degree at most one in each pixel are determined by their values at zeros and ones -/
theorem poly_ext [CommRing K] {n : ℕ} (a a' : Finset (Fin n) → K) (h : ∀ S : Finset (Fin n), pixelPoly a (fun i => (bitsOf S i : K)) = pixelPoly a' (fun i => (bitsOf S i : K))) : a = a' := by
  funext S
  induction S using Finset.strongInduction with
  | H S ih =>
    have := h S
    rw [poly_bits, poly_bits, ← Finset.sum_erase_add _ _ (Finset.mem_powerset_self S), ← Finset.sum_erase_add _ _ (Finset.mem_powerset_self S)] at this
    rw [Finset.sum_congr rfl (fun T hT => ih T ?_)] at this
    · exact add_left_cancel this
    · have hT := Finset.mem_erase.1 hT
      exact lt_of_le_of_ne (Finset.mem_powerset.1 hT.2) hT.1

/-- C109: a model with the default feature map is determined by its outputs on images of zeros and ones: if two models (of any label sites, bond dimensions, boundary conditions) return the same
for all single black and white images, they return the same for all batches of images. -/
theorem C109_black_and_white [CommRing K] (k k' : ℕ) (ub ub' : Bool) (p p' : Params K) (m m' : MPS K) (h : IsMps k ub p m) (h' : IsMps k' ub' p' m')
    (hD : m.periodic = true ∨ 1 ≤ m.bondDim) (hD' : m'.periodic = true ∨ 1 ≤ m'.bondDim) (hs : NoShortRegion m.inputDim k) (hs' : NoShortRegion m'.inputDim k')
    (hm : m.path = none ∧ m.featureMap = none ∧ m.featureDim = 2) (hm' : m'.path = none ∧ m'.featureMap = none ∧ m'.featureDim = 2)
    (hn : m'.inputDim = m.inputDim) (hO : m'.outputDim = m.outputDim)
    (hbw : ∀ S : Finset (Fin m.inputDim), ∀ x : Tensor K, x.shape = [1, m.inputDim] → (∀ i : Fin m.inputDim, x.get [0, i.val] = (bitsOf S i : K)) →
      ∀ y y', (m.forward x (some 1)).1 = .ok y → (m'.forward x (some 1)).1 = .ok y' → ∀ o < m.outputDim, y.get [0, o] = y'.get [0, o]) :
    ∀ (B : ℕ) (x : Tensor K), x.shape = [B, m.inputDim] → ∃ y y' g1 g2, m.forward x (some B) = (.ok y, g1) ∧ m'.forward x (some B) = (.ok y', g2) ∧
      y.shape = [B, m.outputDim] ∧ y'.shape = [B, m.outputDim] ∧ ∀ b < B, ∀ o < m.outputDim, y.get [b, o] = y'.get [b, o] := by
  obtain ⟨n, O, D, F, per, par, path, fm, ms⟩ := m
  obtain ⟨n', O', D', F', per', par', path', fm', ms'⟩ := m'
  obtain rfl : n' = n := hn
  obtain rfl : O' = O := hO
  obtain ⟨a, ha⟩ := C109_polynomial k ub p _ h hD hs hm.1 hm.2.1 hm.2.2
  obtain ⟨a', ha'⟩ := C109_polynomial k' ub' p' _ h' hD' hs' hm'.1 hm'.2.1 hm'.2.2
  simp only at a ha a' ha' hbw ⊢
  have haa : a = a' := by
    funext o
    refine poly_ext _ _ fun S => ?_
    let x : Tensor K := ⟨[1, n'], fun idx => if hi : idx.getD 1 0 < n' then (bitsOf S ⟨idx.getD 1 0, hi⟩ : K) else 0⟩
    have hx : ∀ i : Fin n', x.get [0, i.val] = (bitsOf S i : K) := fun i => by simp [x]
    obtain ⟨y, g1, y1, y2, y3⟩ := ha 1 x rfl (some 1) (Or.inr rfl)
    obtain ⟨y', g2, z1, z2, z3⟩ := ha' 1 x rfl (some 1) (Or.inr rfl)
    have := hbw S x rfl hx y y' (by rw [y1]) (by rw [z1]) o o.2
    rw [y3 0 (by omega) o, z3 0 (by omega) o] at this
    simpa only [hx] using this
  intro B x hx
  obtain ⟨y, g1, y1, y2, y3⟩ := ha B x hx (some B) (Or.inr rfl)
  obtain ⟨y', g2, z1, z2, z3⟩ := ha' B x hx (some B) (Or.inr rfl)
  refine ⟨y, y', g1, g2, y1, z1, y2, z2, fun b hb o ho => ?_⟩
  rw [y3 b hb ⟨o, ho⟩, z3 b hb ⟨o, ho⟩, haa]

/-- C109: conversely every family of polynomials of degree at most one in each pixel is the output of a model with the default feature map whose bond dimension is at least
`2 ^ max(k, n - k)`, on every image, for both boundary conditions and with or without bias matrices. -/
theorem C109_all_polynomials [Field K] {n O : ℕ} (D k : ℕ) (hk : k ≤ n) (hs : NoShortRegion n k) (hO : 1 ≤ O) (hD1 : 2 ^ k ≤ D) (hD2 : 2 ^ (n - k) ≤ D) (a : Fin O → Finset (Fin n) → K) :
    ∃ p : Params K, (∃ m, IsMps k true p m ∧ m.inputDim = n ∧ m.outputDim = O ∧ m.bondDim = D ∧ m.featureDim = 2) ∧
      ∀ (ub : Bool) (m : MPS K), IsMps k ub p m → m.inputDim = n ∧ m.outputDim = O ∧ m.bondDim = D ∧ m.featureDim = 2 → m.path = none → m.featureMap = none →
        ∀ (B : ℕ) (x : Tensor K) (g : Option ℕ), x.shape = [B, n] → BatchKnown k B g →
          ∃ y g', m.forward x g = (.ok y, g') ∧ y.shape = [B, O] ∧ ∀ b < B, ∀ o : Fin O, y.get [b, o.val] = pixelPoly (a o) (fun i => x.get [b, i.val]) := by
  have hD : 1 ≤ D := le_trans Nat.one_le_two_pow hD1
  obtain ⟨p, hp1, hp2⟩ := C93_all_tables D k hk hs hO hD1 hD2 (fun o s => pixelPoly (a o) (fun i => ((s i).val : K)))
  refine ⟨p, hp1, ?_⟩
  rintro ub ⟨n', O', D', F', per, par, path, fm, ms⟩ hm ⟨rfl, rfl, rfl, hF⟩ hpath hfm B x g hx hg
  obtain ⟨a', ha'⟩ := C109_polynomial k ub p _ hm (Or.inr hD) hs hpath hfm hF
  simp only at a' ha' a hp2 hx ⊢
  have haa : a' = a := by
    funext o
    refine poly_ext _ _ fun S => ?_
    let x : Tensor K := ⟨[1, n'], fun idx => if hi : idx.getD 1 0 < n' then (bitsOf S ⟨idx.getD 1 0, hi⟩ : K) else 0⟩
    have hx : ∀ i : Fin n', x.get [0, i.val] = (bitsOf S i : K) := fun i => by simp [x]
    let bits : Fin 1 → Fin n' → Fin 2 := fun _ i => ⟨bitsOf S i, by unfold bitsOf; split <;> omega⟩
    obtain ⟨y, g1, y1, y2, y3⟩ := hp2 ub _ hm ⟨rfl, rfl, rfl, hF⟩ hpath hfm 1 bits x (some 1) rfl (fun b i => by have : b = 0 := Subsingleton.elim _ _; subst this; exact hx i) (Or.inr rfl)
    obtain ⟨y', g2, z1, z2, z3⟩ := ha' 1 x rfl (some 1) (Or.inr rfl)
    rw [y1] at z1
    have hyy : y = y' := by
      have := congrArg Prod.fst z1
      simpa using this
    subst hyy
    have e1 := z3 0 (by omega) o
    have e2 := y3 0 o
    simp only [hx] at e1
    rw [← e1]
    exact e2
  obtain ⟨y, g', y1, y2, y3⟩ := ha' B x hx g hg
  exact ⟨y, g', y1, y2, fun b hb o => by rw [y3 b hb o, haa]⟩

/-! ### examples -/

theorem exPlain_isMps (periodic par : Bool) : IsMps 2 true exParams ({ exMps periodic with path := none, parallel := par } : MPS ℤ) := by
  have h := exMps_isMps periodic
  exact ⟨h.label, h.modules, h.left, h.leftBias, h.out, h.right, h.rightBias⟩

/-- C109_linear_regression, C109_polynomial: a model with biases, and batches of five images. -/
example (periodic : Bool) (x : Tensor ℤ) (hx : x.shape = [5, 4]) : ∃ (a : Fin 3 → Finset (Fin 4) → ℤ) (y : Tensor ℤ) (g' : Option ℕ),
    ({ exMps periodic with path := none } : MPS ℤ).forward x none = (.ok y, g') ∧ ∀ b < 5, ∀ o : Fin 3, y.get [b, o.val] = ∑ S, a o S * ∏ i ∈ S, x.get [b, i.val] := by
  obtain ⟨a, h⟩ := C109_polynomial 2 true exParams ({ exMps periodic with path := none } : MPS ℤ) (exPlain_isMps periodic false) (Or.inr (by show 1 ≤ 2; omega))
    ⟨by decide, show 4 - 2 ≠ 1 by decide⟩ rfl rfl rfl
  obtain ⟨y, g', h1, -, h3⟩ := h 5 x hx none (Or.inl (by decide))
  exact ⟨a, y, g', h1, h3⟩

/-- C109_black_and_white: the models with and without parallel evaluation. -/
example (periodic : Bool) (x : Tensor ℤ) (hx : x.shape = [7, 4]) : ∃ y y' g1 g2, ({ exMps periodic with path := none, parallel := false } : MPS ℤ).forward x (some 7) = (.ok y, g1) ∧
    ({ exMps periodic with path := none, parallel := true } : MPS ℤ).forward x (some 7) = (.ok y', g2) ∧ y.shape = [7, 3] ∧ y'.shape = [7, 3] ∧
    ∀ b < 7, ∀ o < 3, y.get [b, o] = y'.get [b, o] := by
  have hs : NoShortRegion 4 2 := ⟨by decide, by decide⟩
  refine C109_black_and_white 2 2 true true exParams exParams _ _ (exPlain_isMps periodic false) (exPlain_isMps periodic true) (Or.inr (by show 1 ≤ 2; omega))
    (Or.inr (by show 1 ≤ 2; omega)) hs hs ⟨rfl, rfl, rfl⟩ ⟨rfl, rfl, rfl⟩ rfl rfl ?_ 7 x hx
  intro S x hx _ y y' h1 h2 o ho
  obtain ⟨e, e1, e2, -⟩ := C57_embedding ({ exMps periodic with path := none, parallel := false } : MPS ℤ) x (Or.inr ⟨by rw [hx]; rfl, rfl⟩)
  obtain ⟨z, z', q1, q2, q3⟩ := C53_mps 2 true exParams ({ exMps periodic with path := none, parallel := false } : MPS ℤ) (exPlain_isMps periodic false) true (Or.inr (by show 1 ≤ 2; omega)) hs
    x e ⟨x, rfl, e1⟩ (some 1) (some 1) (Or.inl (by decide)) (Or.inl (by decide))
  rw [q1] at h1
  cases h1
  have q2' : (({ exMps periodic with path := none, parallel := true } : MPS ℤ).forward x (some 1)).1 = .ok z' := q2
  rw [q2'] at h2
  cases h2
  obtain ⟨y2, r1, r2⟩ := C55_evaluates 2 true exParams ({ exMps periodic with path := none, parallel := false } : MPS ℤ) (exPlain_isMps periodic false) (Or.inr (by show 1 ≤ 2; omega)) hs
    x e ⟨x, rfl, e1⟩ (some 1) (Or.inl (by decide))
  rw [q1] at r1
  cases r1
  refine q3.2 [0, o] ?_
  rw [r2, e2, hx]
  simp
  exact ho

/-- C109_all_polynomials: the function `x0 x3 - 2 x1 + 1` of four pixels. -/
example : ∃ p : Params ℚ, ∀ m : MPS ℚ, IsMps 2 true p m → m.inputDim = 4 ∧ m.outputDim = 1 ∧ m.bondDim = 4 ∧ m.featureDim = 2 → m.path = none → m.featureMap = none →
    ∀ x : Tensor ℚ, x.shape = [1, 4] → ∃ y g', m.forward x none = (.ok y, g') ∧ y.get [0, 0] = x.get [0, 0] * x.get [0, 3] - 2 * x.get [0, 1] + 1 := by
  obtain ⟨p, -, h⟩ := C109_all_polynomials (K := ℚ) (n := 4) (O := 1) 4 2 (by norm_num) ⟨by norm_num, by norm_num⟩ (by norm_num) (by norm_num) (by norm_num)
    (fun _ S => (if S = {0, 3} then 1 else 0) + (if S = {1} then -2 else 0) + if S = ∅ then 1 else 0)
  refine ⟨p, fun m hm hd hp hf x hx => ?_⟩
  obtain ⟨y, g', y1, -, y3⟩ := h true m hm hd hp hf 1 x none hx (Or.inl (by norm_num))
  refine ⟨y, g', y1, ?_⟩
  have := y3 0 (by omega) 0
  rw [show ((0 : Fin 1).val) = 0 from rfl] at this
  rw [this, pixelPoly]
  simp only [add_mul, ite_mul, one_mul, zero_mul, Finset.sum_add_distrib, Finset.sum_ite_eq', Finset.mem_univ, if_true, Finset.prod_empty, Finset.prod_singleton]
  rw [Finset.prod_pair (by decide)]
  simp
  ring

end TorchMPS
