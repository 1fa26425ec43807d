import Verif.Lemmas.MpsExpress
import Verif.Props.MpsInput
/-
C93: what an MPS with a given bond dimension can represent.
-/
namespace TorchMPS
open Spec
variable {K : Type}

/-- the values of a model whose parameters give `c` on one-hot vectors -/
theorem forward_coeff [Field K] {n F O : ℕ} (D k : ℕ) (hD : 1 ≤ D) (ub : Bool) (p : Params K) (m : MPS K) (h : IsMps k ub p m)
    (hdim : m.inputDim = n ∧ m.outputDim = O ∧ m.bondDim = D ∧ m.featureDim = F) (hs : NoShortRegion n k) (hb : ∀ i < n, ∀ l < D, ∀ r < D, p.bias ub k i l r = 0)
    (x e : Tensor K) (he : Embedded m x e) (B : ℕ) (hB : e.shape.getD 0 0 = B) (g : Option ℕ) (hg : BatchKnown k B g) :
    ∃ y g', m.forward x g = (.ok y, g') ∧ y.shape = [B, O] ∧ ∀ b < B, ∀ o < O, y.get [b, o] =
      ∑ s : Fin n → Fin F, mpsValue D F n k ub m.periodic p (vecInput fun i => hotVec (s i)) 0 o * ∏ i, e.get [b, i.val, (s i).val] := by
  obtain ⟨d1, d2, d3, d4⟩ := hdim
  obtain ⟨y, g', y1, y2, y3⟩ := mps_forward k ub p m h (Or.inr (by omega)) (by rw [d1]; exact hs) x e he B hB g hg
  refine ⟨y, g', y1, by rw [y2, d2], fun b hb' o ho => ?_⟩
  have hk : k ≤ n := by rw [← d1]; exact h.label
  rw [y3 b hb' o (by rw [d2]; exact ho), d1, d3, d4]
  rw [mpsValue_congr D F n k hk ub m.periodic p e (vecInput fun (i : Fin n) (f : Fin F) => e.get [b, i.val, f.val]) b 0 o (fun i hi f hf => by simp [vecInput, hi, hf])]
  rw [mps_expand D F n k hk ub m.periodic (Or.inr hD) p hb o]
  exact Finset.sum_congr rfl fun s _ => mul_comm _ _

/-- C93: if the unfoldings of the coefficients have rank at most `D`, there are parameters with which every MPS of bond dimension `D` (with or without bias matrices, open or periodic
boundaries, any feature map and path) computes the multilinear function with these coefficients of the feature vectors of the pixels. -/
theorem C93_represents [Field K] {n F O : ℕ} (D k : ℕ) (hk : k ≤ n) (hs : NoShortRegion n k) (hD : 1 ≤ D) (hF : 1 ≤ F) (hO : 1 ≤ O) (c : Fin O → (Fin n → Fin F) → K)
    (hc : RanksLe c k D) :
    ∃ p : Params K, (∃ m, IsMps k true p m ∧ m.inputDim = n ∧ m.outputDim = O ∧ m.bondDim = D ∧ m.featureDim = F) ∧
      ∀ (ub : Bool) (m : MPS K), IsMps k ub p m → m.inputDim = n ∧ m.outputDim = O ∧ m.bondDim = D ∧ m.featureDim = F →
        ∀ (x e : Tensor K) (B : ℕ) (g : Option ℕ), Embedded m x e → e.shape.getD 0 0 = B → BatchKnown k B g →
          ∃ y g', m.forward x g = (.ok y, g') ∧ y.shape = [B, O] ∧
            ∀ b < B, ∀ o : Fin O, y.get [b, o.val] = ∑ s : Fin n → Fin F, c o s * ∏ i, e.get [b, i.val, (s i).val] := by
  obtain ⟨G, H, hGH⟩ := exists_params D k hk hD hF hO c hc
  refine ⟨mkParams n k D F O G H, ⟨⟨n, O, D, F, false, false, none, none, (if k = 0 then [] else [.inputRegion (mkParams n k D F O G H).left (some (mkParams n k D F O G H).leftBias)]) ++
    .outputSite (mkParams n k D F O G H).out :: (if k = n then [] else [.inputRegion (mkParams n k D F O G H).right (some (mkParams n k D F O G H).rightBias)])⟩, ⟨hk, rfl, rfl, rfl, rfl, rfl, rfl⟩, rfl, rfl, rfl, rfl⟩, ?_⟩
  intro ub m hm hdim x e B g he hB hg
  obtain ⟨y, g', y1, y2, y3⟩ := forward_coeff D k hD ub _ m hm hdim hs (fun i _ l _ r _ => mkParams_bias n k D F O G H ub i l r) x e he B hB g hg
  refine ⟨y, g', y1, y2, fun b hb o => ?_⟩
  rw [y3 b hb o o.2]
  exact Finset.sum_congr rfl fun s _ => by rw [hGH]

/-- C93: tabulated on any finite set of feature vectors, the outputs of an MPS have unfoldings of rank at most `D` (with periodic boundaries `D²`) at every bond, with or without bias matrices. -/
theorem C93_rank_bound [Field K] {M : ℕ} (hM : 1 ≤ M) (k : ℕ) (ub : Bool) (p : Params K) (m : MPS K) (h : IsMps k ub p m) (hpath : m.path = none)
    (hD : m.periodic = true ∨ 1 ≤ m.bondDim) (hs : NoShortRegion m.inputDim k) (hO : 1 ≤ m.outputDim) (v : Fin M → ℕ → K) (g : Option ℕ) (hg : BatchKnown k 1 g)
    (c : Fin m.outputDim → (Fin m.inputDim → Fin M) → K)
    (hc : ∀ s y g', m.forward (pixelInput m.featureDim v s) g = (.ok y, g') → ∀ o : Fin m.outputDim, y.get [0, o.val] = c o s) :
    (∀ t ≤ k, (leftUnfolding c t).rank ≤ if m.periodic then m.bondDim * m.bondDim else m.bondDim) ∧
      ∀ t, k ≤ t → (rightUnfolding c t).rank ≤ if m.periodic then m.bondDim * m.bondDim else m.bondDim := by
  refine mps_ranks m.bondDim m.featureDim k h.label ub m.periodic hD hM hO p v c fun o s => ?_
  have he : Embedded m (pixelInput m.featureDim v s) (pixelInput m.featureDim v s) := by
    refine ⟨_, ?_, embed_embedded m 1 _ rfl⟩
    rw [hpath]; rfl
  obtain ⟨y, g', y1, y2, y3⟩ := mps_forward k ub p m h hD hs _ _ he 1 rfl g hg
  rw [← hc s y g' y1 o, y3 0 (by omega) o o.2]

/-- C93: without bias matrices and with open boundaries, an MPS of bond dimension `D` can compute exactly those multilinear functions of the feature vectors whose coefficients have
unfoldings of rank at most `D`. -/
theorem C93_exactly [Field K] {n F O : ℕ} (D k : ℕ) (hk : k ≤ n) (hs : NoShortRegion n k) (hD : 1 ≤ D) (hF : 1 ≤ F) (hO : 1 ≤ O) (c : Fin O → (Fin n → Fin F) → K) :
    (∃ (p : Params K) (m : MPS K), IsMps k false p m ∧ (m.inputDim = n ∧ m.outputDim = O ∧ m.bondDim = D ∧ m.featureDim = F) ∧ m.periodic = false ∧ m.path = none ∧ Computes m k c) ↔
      RanksLe c k D := by
  constructor
  · rintro ⟨p, m, hm, ⟨rfl, rfl, rfl, rfl⟩, hper, hpath, hcomp⟩
    have hb := C93_rank_bound hF k false p m hm hpath (Or.inr hD) hs hO (fun a f => if f = a.val then 1 else 0) (some 1) (Or.inr rfl) c (fun s y g' hy o => by
      obtain ⟨y', g'', h1, h2, h3⟩ := hcomp 1 (pixelInput m.featureDim (fun a f => if f = a.val then 1 else 0) s) (some 1) rfl (Or.inr rfl)
      rw [hy] at h1
      obtain rfl : y = y' := by
        have := congrArg Prod.fst h1
        simpa using this
      rw [h3 0 (by omega) o, Finset.sum_eq_single s]
      · simp [pixelInput]
      · intro s' _ hne
        obtain ⟨i, hi⟩ := Function.ne_iff.1 hne
        rw [Finset.prod_eq_zero (Finset.mem_univ i), mul_zero]
        simp [pixelInput, Fin.val_ne_of_ne hi]
      · simp)
    rw [hper] at hb
    exact ⟨fun t _ ht => by simpa using hb.1 t ht, fun t ht _ => by simpa using hb.2 t ht⟩
  · intro hr
    obtain ⟨p, ⟨m, hm, d1, d2, d3, d4⟩, h⟩ := C93_represents D k hk hs hD hF hO c hr
    refine ⟨p, ⟨n, O, D, F, false, false, none, none,
      (if k = 0 then [] else [.inputRegion p.left none]) ++ .outputSite p.out :: (if k = n then [] else [.inputRegion p.right none])⟩, ?_, ⟨rfl, rfl, rfl, rfl⟩, rfl, rfl, ?_⟩
    · exact ⟨hk, rfl, by rw [hm.left, d3, d4], by rw [hm.leftBias, d3], by rw [hm.out, d2, d3], by rw [hm.right, d1, d3, d4], by rw [hm.rightBias, d3]⟩
    · intro B x g hx hg
      refine h false _ ?_ ⟨rfl, rfl, rfl, rfl⟩ x x B g ⟨x, rfl, embed_embedded _ B x hx⟩ (by simp [hx]) hg
      exact ⟨hk, rfl, by rw [hm.left, d3, d4], by rw [hm.leftBias, d3], by rw [hm.out, d2, d3], by rw [hm.right, d1, d3, d4], by rw [hm.rightBias, d3]⟩

/-- all ranks are at most `D` if `D` is at least the number of values of the pixels before, and of those after the output -/
theorem ranks_trivial [Field K] {n F O : ℕ} (D k : ℕ) (hk : k ≤ n) (hF : 1 ≤ F) (c : Fin O → (Fin n → Fin F) → K) (h1 : F ^ k ≤ D) (h2 : F ^ (n - k) ≤ D) : RanksLe c k D := by
  constructor
  · intro t _ ht
    let M : Matrix (Fin t → Fin F) ((Fin n → Fin F) × Fin O) K := Matrix.of fun u v => c v.2 (fun s => if h : s.val < t then u ⟨s, h⟩ else v.1 s)
    have h : leftUnfolding c t = M.submatrix (fun u i => u ⟨i, by omega⟩) id := by
      ext u v
      simp only [leftUnfolding, Matrix.of_apply, M, Matrix.submatrix_apply, id]
      congr 1
    rw [h]
    refine (Matrix.rank_submatrix_le _ _ _).trans ((Matrix.rank_le_card_height _).trans ?_)
    simp only [Fintype.card_pi, Fintype.card_fin, Finset.prod_const, Finset.card_univ]
    exact (Nat.pow_le_pow_right hF ht).trans h1
  · intro t ht htn
    let M : Matrix ((Fin n → Fin F) × Fin O) (Fin (n - t) → Fin F) K := Matrix.of fun u v => c u.2 (fun s => if h : s.val < t then u.1 s else v ⟨s - t, by omega⟩)
    have h : rightUnfolding c t = M.submatrix id (fun v i => v ⟨i + t, by omega⟩) := by
      ext u v
      simp only [rightUnfolding, Matrix.of_apply, M, Matrix.submatrix_apply, id]
      congr 1
      funext s
      simp only [glue]
      split
      · rfl
      · congr 1; exact Fin.ext (by simp; omega)
    rw [h]
    refine (Matrix.rank_submatrix_le _ _ _).trans ((Matrix.rank_le_card_width _).trans ?_)
    simp only [Fintype.card_pi, Fintype.card_fin, Finset.prod_const, Finset.card_univ]
    exact (Nat.pow_le_pow_right hF (by omega)).trans h2

/-- C93: every table of outputs for black and white images can be represented with bond dimension `2 ^ max(k, n - k)`: with the default feature map, the model with suitable parameters returns exactly
the entries of the table for images of zeros and ones. -/
theorem C93_all_tables [Field K] {n O : ℕ} (D k : ℕ) (hk : k ≤ n) (hs : NoShortRegion n k) (hO : 1 ≤ O) (hD1 : 2 ^ k ≤ D) (hD2 : 2 ^ (n - k) ≤ D) (T : Fin O → (Fin n → Fin 2) → K) :
    ∃ p : Params K, (∃ m, IsMps k true p m ∧ m.inputDim = n ∧ m.outputDim = O ∧ m.bondDim = D ∧ m.featureDim = 2) ∧
      ∀ (ub : Bool) (m : MPS K), IsMps k ub p m → m.inputDim = n ∧ m.outputDim = O ∧ m.bondDim = D ∧ m.featureDim = 2 → m.path = none → m.featureMap = none →
        ∀ (B : ℕ) (bits : Fin B → Fin n → Fin 2) (x : Tensor K) (g : Option ℕ), x.shape = [B, n] → (∀ b i, x.get [b.val, i.val] = ((bits b i).val : K)) → BatchKnown k B g →
          ∃ y g', m.forward x g = (.ok y, g') ∧ y.shape = [B, O] ∧ ∀ (b : Fin B) (o : Fin O), y.get [b.val, o.val] = T o (bits b) := by
  have hD : 1 ≤ D := le_trans Nat.one_le_two_pow hD1
  obtain ⟨p, hp1, hp2⟩ := C93_represents D k hk hs hD (by norm_num : 1 ≤ 2) hO (fun o s => T o (fun i => 1 - s i)) (ranks_trivial D k hk (by norm_num) _ hD1 hD2)
  refine ⟨p, hp1, ?_⟩
  intro ub m hm hdim hpath hfm B bits x g hx hbits hg
  obtain ⟨e, e1, e2, e3⟩ := C57_embedding m x (Or.inr ⟨by rw [hx, hdim.1]; rfl, by rw [hfm]; exact hdim.2.2.2⟩)
  have hx0 : x.shape.getD 0 0 = B := by rw [hx]; rfl
  obtain ⟨y, g', y1, y2, y3⟩ := hp2 ub m hm hdim x e B g ⟨x, by rw [hpath]; rfl, e1⟩ (by rw [e2, hx0]; rfl) hg
  refine ⟨y, g', y1, y2, fun b o => ?_⟩
  have hent : ∀ (i : Fin n) (f : Fin 2), e.get [b.val, i.val, f.val] = if f = 1 - bits b i then 1 else 0 := by
    intro i f
    rw [e3 b (by rw [hx0]; exact b.2) i (by rw [hdim.1]; exact i.2) f (by rw [hdim.2.2.2]; exact f.2)]
    unfold featureEntry
    rw [if_neg (by rw [hx]; simp), hfm]
    simp only
    rw [hbits]
    generalize bits b i = a
    fin_cases a <;> fin_cases f <;> simp
  rw [y3 b b.2 o, Finset.sum_eq_single (fun i => 1 - bits b i)]
  · simp only [hent, if_true, Finset.prod_const_one, mul_one]
    congr 1
    funext i
    generalize bits b i = a
    fin_cases a <;> rfl
  · intro s _ hne
    obtain ⟨i, hi⟩ := Function.ne_iff.1 hne
    rw [Finset.prod_eq_zero (Finset.mem_univ i), mul_zero]
    rw [hent, if_neg hi]
  · simp

/-- C93, a concrete case: parity of four pixels, with the output in the middle and bond dimension 4. -/
example : ∃ p : Params ℚ, (∃ m, IsMps 2 true p m ∧ m.inputDim = 4 ∧ m.outputDim = 1 ∧ m.bondDim = 4 ∧ m.featureDim = 2) ∧
    ∀ (ub : Bool) (m : MPS ℚ), IsMps 2 ub p m → m.inputDim = 4 ∧ m.outputDim = 1 ∧ m.bondDim = 4 ∧ m.featureDim = 2 → m.path = none → m.featureMap = none →
      ∀ (B : ℕ) (bits : Fin B → Fin 4 → Fin 2) (x : Tensor ℚ) (g : Option ℕ), x.shape = [B, 4] → (∀ b i, x.get [b.val, i.val] = ((bits b i).val : ℚ)) → BatchKnown 2 B g →
        ∃ y g', m.forward x g = (.ok y, g') ∧ y.shape = [B, 1] ∧ ∀ (b : Fin B) (o : Fin 1), y.get [b.val, o.val] = ((∑ i, (bits b i).val) % 2 : ℕ) :=
  C93_all_tables 4 2 (by norm_num) ⟨by norm_num, by norm_num⟩ (by norm_num) (by norm_num) (by norm_num) (fun _ s => (((∑ i, (s i).val) % 2 : ℕ) : ℚ))

end TorchMPS
