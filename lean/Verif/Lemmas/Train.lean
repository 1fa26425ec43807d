import Verif.Spec.Train
import Verif.Props.Mps
/-
The loops of the training script.
-/
namespace TorchMPS
open Spec
variable {S : Type}

theorem getD_of_lt (l : List ℕ) (b : ℕ) (h : b < l.length) : l.getD b 0 = l[b] := by
  simp [List.getD_eq_getElem?_getD, h]

theorem loaderBatches_flatten (B : ℕ) (perm : List ℕ) :
    (loaderBatches B perm).flatten = perm.take (perm.length / B * B) := by
  unfold loaderBatches
  generalize perm.length / B = q
  induction q with
  | zero => simp
  | succ q ih =>
    rw [List.range_succ, List.map_append, List.flatten_append, ih]
    simp only [List.map_cons, List.map_nil, List.flatten_cons, List.flatten_nil, List.append_nil]
    rw [Nat.add_mul, Nat.one_mul, List.take_add]

theorem loaderBatches_mem (B : ℕ) (perm : List ℕ) (l : List ℕ) (h : l ∈ loaderBatches B perm) :
    l.length = B ∧ ∀ i ∈ l, i ∈ perm := by
  unfold loaderBatches at h
  obtain ⟨j, hj, rfl⟩ := List.mem_map.1 h
  rw [List.mem_range] at hj
  refine ⟨?_, fun i hi => List.drop_subset _ _ (List.take_subset _ _ hi)⟩
  rw [List.length_take, List.length_drop]
  have : (j + 1) * B ≤ perm.length := le_trans (Nat.mul_le_mul_right B hj) (Nat.div_mul_le_self _ _)
  rw [Nat.add_mul, Nat.one_mul] at this
  omega

theorem loaderBatches_length (B : ℕ) (perm : List ℕ) : (loaderBatches B perm).length = perm.length / B := by
  simp [loaderBatches]

/-- the flattened batch -/
theorem collate_view (ds : DataSet) (idxs : List ℕ) (B n : ℕ) (sh : Shape) (hB : idxs.length = B) (hB0 : B ≠ 0) (hsh : sh.prod = n)
    (h : ∀ i ∈ idxs, (ds.image i).shape = sh) :
    ∃ t x, collateImages ds idxs = .ok (t, idxs.map ds.label) ∧ t.view [B, n] = .ok x ∧ x.shape = [B, n] ∧
      ∀ b < B, ∀ q < n, x.get [b, q] = (ds.image (idxs.getD b 0)).get (unravel sh q) := by
  obtain _ | ⟨i, is⟩ := idxs
  · simp at hB; omega
  have hi := h i (by simp)
  let t : Tensor ℝ := ⟨(i :: is).length :: (ds.image i).shape, fun idx => (ds.image ((i :: is).getD (idx.headD 0) 0)).get idx.tail⟩
  have hv : t.view [B, n] = .ok ⟨[B, n], fun idx => t.get (unravel t.shape (ravel [B, n] idx))⟩ := by
    unfold Tensor.view
    rw [if_pos]
    simp only [t, List.prod_cons, List.prod_nil, hi, hsh, ← hB, Nat.mul_one]
  refine ⟨t, _, ?_, hv, rfl, ?_⟩
  · unfold collateImages
    simp only
    rw [if_pos (fun j hj => by rw [h j hj, hi])]
  · intro b hb q hq
    simp only [t, hi, ravel, List.prod_cons, List.prod_nil, Nat.mul_one, Nat.add_zero, unravel, hsh]
    have h1 : (b * n + q) / n = b := by
      rw [Nat.add_comm, Nat.add_mul_div_right _ _ (by omega), Nat.div_eq_of_lt hq, Nat.zero_add]
    have h2 : (b * n + q) % n = q := by
      rw [Nat.add_comm, Nat.add_mul_mod_self_right, Nat.mod_eq_of_lt hq]
    rw [h1, h2]
    rfl

theorem numCorrect_eq (argmax : List ℝ → ℕ) (ds : DataSet) (row : ℕ → List ℝ) (idxs : List ℕ) :
    numCorrect (idxs.map (fun i => argmax (row i))) (idxs.map ds.label) = .ok (correctAmong argmax ds row idxs) := by
  unfold numCorrect
  rw [if_pos (by simp)]
  congr 1
  unfold correctAmong
  induction idxs with
  | nil => rfl
  | cons i is ih =>
    simp only [List.map_cons, List.zipWith_cons_cons, List.sum_cons, ih, List.countP_cons, decide_eq_true_eq]
    omega

theorem script_embedded (n O : ℕ) (m : MPS ℝ) (hm : ScriptMps n O m) (x : Tensor ℝ) (B : ℕ) (hx : x.shape = [B, n]) :
    Embedded m x (embedLinear x) := by
  obtain ⟨-, -, h1, -, h2, h3, h4⟩ := hm
  refine ⟨x, by rw [h3]; rfl, ?_⟩
  unfold MPS.embedInput
  have e1 : x.ndim = 2 := by simp [Tensor.ndim, hx]
  rw [assert_true _ (Or.inl e1), assert_true _ (by rw [hx, h1]; rfl), h4]
  simp [e1, h2, bind, Except.bind]

theorem script_call (n O : ℕ) (m : MPS ℝ) (hm : ScriptMps n O m) (g : Option ℕ) (x : Tensor ℝ) (B : ℕ) (hx : x.shape = [B, n]) :
    ∃ y, (m.forward x g).1 = .ok y ∧ y.shape = [B, O] ∧ ∀ b < B, ∀ x1 : Tensor ℝ, x1.shape = [1, n] → (∀ q < n, x1.get [0, q] = x.get [b, q]) →
      ∃ y1, (m.forward x1 none).1 = .ok y1 ∧ y1.shape = [1, O] ∧ ∀ o < O, y.get [b, o] = y1.get [0, o] := by
  obtain ⟨⟨k, ub, p, h1, h2, h3⟩, h4, h5, h6, -⟩ := id hm
  have main : ∀ x1 : Tensor ℝ, x1.shape = [1, n] → ∃ y y', (m.forward x g).1 = .ok y ∧ (m.forward x1 none).1 = .ok y' ∧ y.shape = [B, O] ∧
      y'.shape = [1, O] ∧ ∀ b < B, (∀ q < n, x1.get [0, q] = x.get [b, q]) → ∀ o < O, y.get [b, o] = y'.get [0, o] := by
    intro x1 hx1
    obtain ⟨y, y', k1, k2, k3, k4, k5⟩ := C54_shape k h2 ub p m h1 h4 h3 [] [] g none x (embedLinear x) x1 (embedLinear x1)
      (script_embedded n O m hm x B hx) (script_embedded n O m hm x1 1 hx1)
    have e1 : (embedLinear x).shape = [B, n, 2] := by simp [embedLinear, hx]
    have e2 : (embedLinear x1).shape = [1, n, 2] := by simp [embedLinear, hx1]
    rw [e1, h6] at k3
    rw [e2, h6] at k4
    refine ⟨y, y', k1, k2, k3, k4, fun b hb hq o ho => ?_⟩
    refine k5 b (by rw [e1]; exact hb) 0 (by rw [e2]; simp) ⟨by rw [e1, e2]; rfl, ?_⟩ o (by rw [h6]; exact ho)
    intro idx hidx
    rw [e1] at hidx
    obtain ⟨q, f, rfl, hq', hf⟩ : ∃ q f, idx = [q, f] ∧ q < n ∧ f < 2 := by
      cases hidx with
      | cons a t => cases t with
        | cons a' t => cases t; exact ⟨_, _, rfl, a, a'⟩
    simp only [embedLinear, List.getD_cons_succ, List.getD_cons_zero, List.take_succ_cons, List.take_zero]
    rw [hq q hq']
  obtain ⟨y, -, k1, -, k3, -⟩ := main ⟨[1, n], fun _ => 0⟩ rfl
  refine ⟨y, k1, k3, fun b hb x1 hx1 hq => ?_⟩
  obtain ⟨y2, y', l1, l2, -, l4, l5⟩ := main x1 hx1
  rw [k1] at l1
  cases l1
  exact ⟨y', l2, l4, l5 b hb hq⟩

/-- one batch of the evaluation loop with an MPS -/
theorem script_batch (n O : ℕ) (hO : O ≠ 0) (m : MPS ℝ) (hm : ScriptMps n O m) (g : Option ℕ) (ds : DataSet) (N : ℕ) (sh : Shape) (hsh : sh.prod = n)
    (hd : ValidData ds N O sh) (B : ℕ) (hB : B ≠ 0) (idxs : List ℕ) (hl : idxs.length = B) (hN : ∀ i ∈ idxs, i < N)
    (row : ℕ → List ℝ) (hrow : ∀ i < N, ScoresAlone m (ds.image i) (row i)) (argmax : List ℝ → ℕ) :
    ∃ t x y, collateImages ds idxs = .ok (t, idxs.map ds.label) ∧ t.view [B, n] = .ok x ∧ (m.forward x g).1 = .ok y ∧ y.shape = [B, O] ∧
      predictions argmax y = .ok (idxs.map (fun i => argmax (row i))) ∧ ∀ b < B, scoreRow y b = row (idxs.getD b 0) := by
  obtain ⟨t, x, c1, c2, c3, c4⟩ := collate_view ds idxs B n sh hl hB hsh (fun i hi => (hd i (hN i hi)).1)
  obtain ⟨y, d1, d2, d3⟩ := script_call n O m hm g x B c3
  have hmem : ∀ b < B, idxs.getD b 0 ∈ idxs := by
    intro b hb
    rw [getD_of_lt _ _ (by omega)]
    exact List.getElem_mem _
  have hr : ∀ b < B, scoreRow y b = row (idxs.getD b 0) := by
    intro b hb
    have hi := hN _ (hmem b hb)
    obtain ⟨x1, y1, r1, r2, -, r4⟩ := hrow _ hi
    have h5 : m.inputDim = n := hm.2.2.1
    have h6 : m.outputDim = O := hm.2.2.2.1
    rw [h5] at r1
    rw [h6] at r4
    have himg := (hd _ hi).1
    unfold Tensor.view at r1
    rw [if_pos (by rw [himg, hsh]; simp)] at r1
    injection r1 with r1
    have hs1 : x1.shape = [1, n] := by rw [← r1]
    obtain ⟨y1', f1, -, f3⟩ := d3 b hb x1 hs1 (fun q hq => by
      rw [c4 b hb q hq, ← r1, himg]
      simp [ravel])
    rw [r2] at f1
    cases f1
    unfold scoreRow
    rw [d2, r4]
    exact List.map_congr_left (fun o ho => f3 o (List.mem_range.1 ho))
  refine ⟨t, x, y, c1, c2, d1, d2, ?_, hr⟩
  unfold predictions
  rw [if_neg (by rw [d2]; exact hO), d2]
  congr 1
  refine List.ext_getElem (by simp [hl]) ?_
  intro b h1 h2
  simp only [List.length_map, List.length_range, List.getD_cons_zero] at h1
  simp only [List.getElem_map, List.getElem_range]
  rw [hr b h1, getD_of_lt _ _ (by omega)]

theorem test_fold (n O : ℕ) (hO : O ≠ 0) (m : MPS ℝ) (hm : ScriptMps n O m) (ds : DataSet) (N : ℕ) (sh : Shape) (hsh : sh.prod = n)
    (hd : ValidData ds N O sh) (cfg : TrainCfg) (hB : cfg.batchSize ≠ 0) (hn : cfg.inputDim = n)
    (row : ℕ → List ℝ) (hrow : ∀ i < N, ScoresAlone m (ds.image i) (row i)) (argmax : List ℝ → ℕ) (bs : List (List ℕ))
    (hbs : ∀ l ∈ bs, l.length = cfg.batchSize ∧ ∀ i ∈ l, i < N) : ∀ (g : Option ℕ) (a : ℝ),
    ∃ g', bs.foldlM (testBatch cfg argmax mpsNet ds) ((m, g), a) =
      .ok ((m, g'), a + (correctAmong argmax ds row bs.flatten : ℝ) / cfg.batchSize) := by
  induction bs with
  | nil => intro g a; exact ⟨g, by simp [correctAmong, pure, Except.pure]⟩
  | cons l bs ih =>
    intro g a
    obtain ⟨hl1, hl2⟩ := hbs l (by simp)
    obtain ⟨t, x, y, b1, b2, b3, b4, b5, -⟩ := script_batch n O hO m hm g ds N sh hsh hd cfg.batchSize hB l hl1 hl2 row hrow argmax
    obtain ⟨g', h1⟩ := ih (fun l hl => hbs l (by simp [hl])) (m.forward x g).2 (a + (correctAmong argmax ds row l : ℝ) / cfg.batchSize)
    refine ⟨g', ?_⟩
    have hstep : testBatch cfg argmax mpsNet ds ((m, g), a) l =
        .ok ((m, (m.forward x g).2), a + (correctAmong argmax ds row l : ℝ) / cfg.batchSize) := by
      unfold testBatch
      simp only [b1, hn, b2, mpsNet, b3, b5, numCorrect_eq, bind, Except.bind, pure, Except.pure]
    rw [List.foldlM_cons, hstep]
    show List.foldlM _ _ _ = _
    rw [h1]
    congr 2
    simp only [List.flatten_cons, correctAmong, List.countP_append]
    push_cast
    ring

end TorchMPS
