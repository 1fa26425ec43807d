import Verif.Lemmas.AdForward
import Verif.Props.Mps
/-
C59, C60: merging, and when the merge state is flipped.
-/
namespace TorchMPS
open Spec
variable {K : Type}

/-! ### C59 -/

/-- C59: for both offsets, merging any unmerged chain of at least two pixels succeeds, has the layout "two by two from `offset` on",
and the merged modules evaluate to the value of the unmerged cores. -/
theorem C59_merge [CommSemiring K] (D F O p k n B : ℕ) (hp : p ≤ 1) (hk : k ≤ n) (hn : 2 ≤ n) (a : Cores K) (ms : List (Module K))
    (h : Unmerged D F O k n a ms) :
    ∃ ms', mergeList p ms = .ok ms' ∧ MergedChain D F O p k n a ms' ∧
      ∀ (per par : Bool), (per = true ∨ 1 ≤ D) → ∀ e : Tensor K, e.shape = [B, n, F] → ∀ g, (g = some B ∨ ¬ (k = 0 ∧ p = 1)) →
        ∃ y g', linearForward ms' per par e g = (.ok y, g') ∧ y.shape = [B, O] ∧ ∀ b < B, ∀ o < O,
          y.get [b, o] = chainValue D F k n per a e b o := by
  obtain ⟨ms', h1, h2⟩ := mergeList_ok D F O p k n hp hk hn a ms h
  exact ⟨ms', h1, h2, fun per par hD e he g hg => merged_value D F O p k n B hp hk (by omega) a ms' h2 per par hD e he g hg⟩

/-- the cores of a plain model -/
def Spec.Params.cores (k : ℕ) (p : Params K) : Cores K := ⟨p.core k, fun o l r => p.out.get [o, l, r]⟩

theorem plain_unmerged [CommSemiring K] (k : ℕ) (p : Params K) (m : MPS K) (h : IsMps k false p m) :
    Unmerged m.bondDim m.featureDim m.outputDim k m.inputDim (p.cores k) m.modules := by
  have hk := h.label
  refine ⟨_, _, _, h.modules, ?_, ⟨_, rfl, h.out, fun _ _ _ _ _ _ => rfl⟩, ?_⟩
  · by_cases hk0 : k = 0
    · rw [if_pos hk0]
      subst hk0
      exact .none
    · rw [if_neg hk0]
      refine .region ⟨by omega, _, _, rfl, h.left, ?_⟩
      intro s hs l _ r _ f _
      simp only [Params.cores, Params.core, zero_add]
      rw [if_pos hs]
  · by_cases hk0 : k = m.inputDim
    · rw [if_pos hk0, hk0, Nat.sub_self]
      exact .none
    · rw [if_neg hk0]
      refine .region ⟨by omega, _, _, rfl, h.right, ?_⟩
      intro s hs l _ r _ f _
      simp only [Params.cores, Params.core]
      rw [if_neg (by omega), Nat.add_sub_cancel_left]

/-- C59: the merged modules of a plain model without bias give its very outputs. -/
theorem C59_same_as_plain [CommRing K] (k p : ℕ) (hp : p ≤ 1) (q : Params K) (m : MPS K) (h : IsMps k false q m) (hn : 2 ≤ m.inputDim)
    (hD : m.periodic = true ∨ 1 ≤ m.bondDim) (hs : NoShortRegion m.inputDim k) :
    ∃ ms', mergeList p m.modules = .ok ms' ∧ ∀ x e, Embedded m x e → ∀ g, BatchKnown k (e.shape.getD 0 0) g →
      ∃ y y', (m.forward x g).1 = .ok y ∧ (({ m with modules := ms' } : MPS K).forward x g).1 = .ok y' ∧ y'.Eqv y := by
  obtain ⟨ms', h1, h2⟩ := mergeList_ok m.bondDim m.featureDim m.outputDim p k m.inputDim hp h.label hn _ _ (plain_unmerged k q m h)
  refine ⟨ms', h1, ?_⟩
  intro x e he g hg
  obtain ⟨y, g1, y1, y2, y3⟩ := mps_forward k false q m h hD hs x e he _ rfl g hg
  have he' : Embedded ({ m with modules := ms' } : MPS K) x e := he
  obtain ⟨x1, e1, e2⟩ := he
  have hsh := embed_shape m x1 e e2
  have hB : e.shape = [e.shape.getD 0 0, m.inputDim, m.featureDim] := by
    rw [hsh]; rfl
  obtain ⟨y', g2, z1, z2, z3⟩ := merged_value m.bondDim m.featureDim m.outputDim p k m.inputDim _ hp h.label (by omega) _ ms' h2
    m.periodic m.parallel hD e hB g (hg.elim (fun h => Or.inr (by omega)) Or.inl)
  refine ⟨y, y', by rw [y1], by rw [forward_of_embedded _ x e he' g]; rw [z1], by rw [z2, y2], ?_⟩
  intro idx hidx
  rw [z2] at hidx
  match idx, hidx with
  | [b, o], hidx =>
    simp at hidx
    rw [z3 b hidx.1 o hidx.2, y3 b hidx.1 o hidx.2]
    rfl
  | [], hidx => simp at hidx
  | [_], hidx => simp at hidx
  | _ :: _ :: _ :: _, hidx => simp at hidx

/-- the core values made by the constructor: identity matrices up to `output_dim`, plus noise -/
noncomputable def Spec.initCores (d : Draws) (k O : ℕ) (std : ℝ) : Cores ℝ :=
  ⟨fun i l r f => (if l = r ∧ l < O then 1 else 0) + std * (if i < k then d.left [i, l, r, f] else d.right [i - k, l, r, f]),
    fun o l r => (if l = r ∧ l < O then 1 else 0) + std * d.out [o, l, r]⟩

theorem min_eye_any (noise : List ℕ → ℝ) (sz : Char → ℕ) (str : List Char) (std : ℝ) (d : ℕ)
    (hnd : str.Nodup) (hl : 'l' ∈ str) (hr : 'r' ∈ str) (hsq : sz 'l' = sz 'r') :
    ∃ t, initTensor noise (str.map sz) str (.tuple "min_random_eye" (some std) (some d)) = .ok t ∧
      t.shape = str.map sz ∧
      ∀ env : Char → ℕ, (∀ c ∈ str, env c < sz c) →
        t.get (str.map env) = (if env 'l' = env 'r' ∧ env 'l' < d then 1 else 0) + std * noise (str.map env) := by
  by_cases hd : d ≤ sz 'l'
  · exact C42_min_random_eye noise sz str std d hnd hl hr hd (hsq ▸ hd)
  · obtain ⟨t, h1, h2, h3⟩ := C42_min_random_eye_capped noise sz str std d hnd hl hr hsq (by omega)
    refine ⟨t, h1, h2, ?_⟩
    intro env henv
    rw [h3 env henv]
    have := henv 'l' hl
    congr 1
    refine if_congr ?_ rfl rfl
    constructor
    · intro h; exact ⟨h, by omega⟩
    · exact fun h => h.1

theorem label_ok (n k : ℕ) (hk : k ≤ n) (ls : Option ℤ) (hl : ls = some (k : ℤ) ∨ (ls = none ∧ k = n / 2)) : labelOf n ls = .ok k := by
  unfold labelOf
  have hv : ls.getD ((n / 2 : ℕ) : ℤ) = (k : ℤ) := by
    rcases hl with h | ⟨h, h2⟩
    · rw [h]; rfl
    · rw [h, h2]; rfl
  rw [hv]
  simp only
  rw [assert_true _ ⟨by omega, by omega⟩]
  rfl

theorem init_unmerged (d : Draws) (n O D F k : ℕ) (std : ℝ) (hk : k ≤ n) :
    ∃ ms, initModules d n O D F k std false true = .ok ms ∧ Unmerged D F O k n (initCores d k O std) ms := by
  have hreg : ∀ (noise : List ℕ → ℝ) (len i : ℕ), (∀ s < len, ∀ l r f, noise [s, l, r, f] =
        if i + s < k then d.left [i + s, l, r, f] else d.right [i + s - k, l, r, f]) →
      ∃ P, initRegion noise len D F (.tuple "min_random_eye" (some std) (some O)) false = .ok P ∧ Part D F (initCores d k O std) i len P := by
    intro noise len i hno
    unfold initRegion
    by_cases hn : len = 0
    · rw [if_pos hn]
      subst hn
      exact ⟨[], rfl, .none⟩
    · rw [if_neg hn]
      obtain ⟨t, t1, t2, t3⟩ := min_eye_any noise (fun c => if c = 's' then len else if c = 'i' then F else D) ['s', 'l', 'r', 'i'] std O
        (by decide) (by decide) (by decide) rfl
      have t1' : initTensor noise [len, D, D, F] ['s', 'l', 'r', 'i'] (.tuple "min_random_eye" (some std) (some O)) = .ok t := t1
      have t2' : t.shape = [len, D, D, F] := t2
      rw [t1']
      simp only [bind_ok_except]
      unfold mkInputRegion
      rw [assert_true _ (by simp [Tensor.ndim, t2']), assert_true _ (by simp [t2'])]
      refine ⟨[.inputRegion t none], rfl, .region ⟨by omega, t, none, rfl, t2', ?_⟩⟩
      intro s hs l hl r hr f hf
      have := t3 (fun c => if c = 's' then s else if c = 'l' then l else if c = 'r' then r else f) (by simp [hs, hl, hr, hf])
      simp at this
      rw [this, hno s hs]
      rfl
  obtain ⟨L, l1, l2⟩ := hreg d.left k 0 (by
    intro s hs l r f
    rw [if_pos (by omega), zero_add])
  obtain ⟨R, r1, r2⟩ := hreg d.right (n - k) k (by
    intro s hs l r f
    rw [if_neg (by omega), Nat.add_sub_cancel_left])
  obtain ⟨t, t1, t2, t3⟩ := min_eye_any d.out (fun c => if c = 'o' then O else D) ['o', 'l', 'r'] std O (by decide) (by decide) (by decide) rfl
  have t1' : initTensor d.out [O, D, D] ['o', 'l', 'r'] (.tuple "min_random_eye" (some std) (some O)) = .ok t := t1
  refine ⟨L ++ .outputSite t :: R, ?_, L, .outputSite t, R, rfl, l2, ⟨t, rfl, t2, ?_⟩, r2⟩
  · unfold initModules
    simp only [if_true]
    rw [l1, bind_ok_except, t1', bind_ok_except, r1, bind_ok_except]
    rfl
  · intro o ho l hl r hr
    have := t3 (fun c => if c = 'o' then o else if c = 'l' then l else r) (by simp [ho, hl, hr])
    simp at this
    rw [this]
    rfl

/-- C59: constructing an adaptive model with at least two pixels succeeds for every label site, and both merged lists hold the same
cores. -/
theorem C59_construction (d : Draws) (a : MpsArgs) (cutoff : ℝ) (threshold k : ℕ) (hk : k ≤ a.inputDim) (hn : 2 ≤ a.inputDim)
    (hl : a.labelSite = some (k : ℤ) ∨ (a.labelSite = none ∧ k = a.inputDim / 2)) (path : Option (List ℤ))
    (hp : checkPath a.path a.inputDim = .ok path) :
    ∃ m, AdMps.init d a cutoff threshold = .ok m ∧ IsAdMps k m ∧
      m.mps.inputDim = a.inputDim ∧ m.mps.outputDim = a.outputDim ∧ m.mps.bondDim = a.bondDim ∧ m.mps.featureDim = a.featureDim ∧
      m.mps.periodic = a.periodic ∧ m.mps.parallel = a.parallel ∧ m.mps.path = path ∧ m.mps.featureMap = none ∧
      m.region.offset = 0 ∧ m.region.counter = 0 ∧ m.region.threshold = threshold ∧ m.region.cutoff = cutoff ∧
      MergedChain a.bondDim a.featureDim a.outputDim 0 k a.inputDim (initCores d k a.outputDim a.initStd) m.region.list0 ∧
      MergedChain a.bondDim a.featureDim a.outputDim 1 k a.inputDim (initCores d k a.outputDim a.initStd) m.region.list1 := by
  obtain ⟨ms, h1, h2⟩ := init_unmerged d a.inputDim a.outputDim a.bondDim a.featureDim k a.initStd hk
  obtain ⟨l0, p1, p2⟩ := mergeList_ok a.bondDim a.featureDim a.outputDim 0 k a.inputDim (by omega) hk hn _ ms h2
  obtain ⟨l1, q1, q2⟩ := mergeList_ok a.bondDim a.featureDim a.outputDim 1 k a.inputDim (by omega) hk hn _ ms h2
  have hlen := (merged_facts _ _ _ 0 k a.inputDim (by omega) hk (by omega) l0 (merged_shape p2)).2.2.2.1
  refine ⟨⟨⟨a.inputDim, a.outputDim, a.bondDim, a.featureDim, a.periodic, a.parallel, path, none, []⟩, ⟨l0, l1, 0, none, 0, threshold, cutoff⟩,
    initBonds a.inputDim a.bondDim a.periodic, List.replicate (a.inputDim + 2) ⟨[a.bondDim], fun _ => -1⟩⟩, ?_,
    ⟨hn, hk, by simp, rfl, merged_shape p2, merged_shape q2, ?_, by simp⟩, rfl, rfl, rfl, rfl, rfl, rfl, rfl, rfl, rfl, rfl, rfl, rfl, p2, q2⟩
  · unfold AdMps.init AdRegion.init
    rw [label_ok a.inputDim k hk a.labelSite hl, bind_ok_except, h1, bind_ok_except, p1, bind_ok_except, q1, bind_ok_except]
    simp only [pure, Except.pure, Except.bind, bind]
    rw [assert_true (modulesLen (AdRegion.active ⟨l0, l1, 0, none, 0, threshold, cutoff⟩) = a.inputDim) hlen, hp]
  · unfold initBonds
    cases a.periodic <;> simp

/-- C59 fails for a single pixel: the constructor raises AssertionError, because the only merged core is lost. -/
theorem C59_one_pixel (d : Draws) (a : MpsArgs) (cutoff : ℝ) (threshold k : ℕ) (hk : k ≤ 1) (hn : a.inputDim = 1)
    (hl : a.labelSite = some (k : ℤ) ∨ (a.labelSite = none ∧ k = 0)) :
    AdMps.init d a cutoff threshold = .error .assertion := by
  obtain ⟨ms, h1, h2⟩ := init_unmerged d a.inputDim a.outputDim a.bondDim a.featureDim k a.initStd (by omega)
  have hk' : k = 0 ∨ k = 1 := by omega
  have p1 := mergeList_lost a.bondDim a.featureDim a.outputDim 0 k a.inputDim (by omega) (by omega) (by omega)
    (by rw [hn]; rcases hk' with rfl | rfl <;> rfl) _ ms h2
  obtain ⟨l1, q1, q2⟩ := mergeList_ok' a.bondDim a.featureDim a.outputDim 1 k a.inputDim (by omega) (by omega)
    (by rw [hn]; rcases hk' with rfl | rfl <;> decide) _ ms h2
  unfold AdMps.init AdRegion.init
  rw [label_ok a.inputDim k (by omega) a.labelSite (by rcases hl with h | h; exact Or.inl h; exact Or.inr ⟨h.1, by omega⟩), bind_ok_except, h1,
    bind_ok_except, p1, bind_ok_except, q1, bind_ok_except]
  simp only [pure, Except.pure, Except.bind, bind]
  rw [assert_false (modulesLen (AdRegion.active ⟨[], l1, 0, none, 0, threshold, cutoff⟩) = a.inputDim) (by
    simp [AdRegion.active, AdRegion.listAt, modulesLen, hn])]

theorem embedded_shape [One K] [Sub K] (m : MPS K) (x e : Tensor K) (he : Embedded m x e) : e.shape = [e.shape.getD 0 0, m.inputDim, m.featureDim] := by
  obtain ⟨x1, e1, e2⟩ := he
  have hsh := embed_shape m x1 e e2
  rw [hsh]; rfl

theorem ad_forward_eq (svd : Mat ℝ → SVD) (pop : List Char → Char) (m : AdMps) (x e : Tensor ℝ) (he : Embedded m.mps x e) :
    (followPath m.mps.path x >>= m.mps.embedInput) = .ok e := by
  obtain ⟨x1, e1, e2⟩ := he
  rw [e1, bind_ok_except, e2]

/-- C59: while no flip is due, the adaptive model computes the value of the cores its active list holds. (As for plain models, with
`label_site = 0` the batch size must be the one of the last contraction, here only in the merge state where the output core comes first
on its own.) -/
theorem C59_forward (svd : Mat ℝ → SVD) (pop : List Char → Char) (k : ℕ) (a : Cores ℝ) (m : AdMps) (h : IsAdMps k m) (ha : HoldsCores k a m)
    (hc : m.region.counter < m.region.threshold) (hD : m.mps.periodic = true ∨ 1 ≤ m.mps.bondDim) (x e : Tensor ℝ) (he : Embedded m.mps x e)
    (g : Option ℕ) (hg : BatchKnown k (e.shape.getD 0 0) g ∨ m.region.offset = 0) :
    ∃ y, (m.forward svd pop x g).1 = .ok y ∧ y.shape = [e.shape.getD 0 0, m.mps.outputDim] ∧
      ∀ b < e.shape.getD 0 0, ∀ o < m.mps.outputDim,
        y.get [b, o] = chainValue m.mps.bondDim m.mps.featureDim k m.mps.inputDim m.mps.periodic a e b o := by
  obtain ⟨y, g', y1, y2, y3⟩ := merged_value m.mps.bondDim m.mps.featureDim m.mps.outputDim m.region.offset k m.mps.inputDim _ h.offset h.label
    (by have := h.size; omega) a _ ha m.mps.periodic m.mps.parallel hD e (embedded_shape _ x e he) g
    (hg.elim (fun hg => hg.elim (fun h => Or.inr (by omega)) Or.inl) (fun h => Or.inr (by omega)))
  refine ⟨y, ?_, y2, y3⟩
  unfold AdMps.forward
  rw [ad_forward_eq svd pop m x e he]
  simp only [AdRegion.maybeFlip]
  rw [if_neg (by omega)]
  simp only
  have : AdRegion.active { m.region with counter := m.region.counter + e.shape.getD 0 0 } = m.region.listAt m.region.offset := by
    unfold AdRegion.active
    simp only [h.stray]
    rfl
  rw [this, y1]

/-! ### C60 -/

/-- what a successful flip does to the counters -/
theorem flip_ok (svd : Mat ℝ → SVD) (pop : List Char → Char) (r r' : AdRegion) (b : List BondEntry) (h : r.flip svd pop = (.ok b, r')) :
    r'.offset = (r.offset + 1) % 2 ∧ r'.counter = r.counter - r.threshold ∧ r'.threshold = r.threshold := by
  unfold AdRegion.flip at h
  split at h
  · simp at h
  · simp only at h
    split at h
    · simp at h
    · split at h
      · simp at h
      · simp only [Prod.mk.injEq] at h
        obtain ⟨_, rfl⟩ := h
        refine ⟨?_, rfl, ?_⟩ <;> simp only [AdRegion.setList] <;> split <;> rfl

theorem ad_call (svd : Mat ℝ → SVD) (pop : List Char → Char) (m m' : AdMps) (x e y : Tensor ℝ) (g g' : Option ℕ) (he : Embedded m.mps x e)
    (h : m.forward svd pop x g = (.ok y, m', g')) :
    m'.region.threshold = m.region.threshold ∧
    (m.region.threshold ≤ m.region.counter →
      m'.region.offset = (m.region.offset + 1) % 2 ∧ m'.region.counter = m.region.counter - m.region.threshold + e.shape.getD 0 0) ∧
    (m.region.counter < m.region.threshold →
      m'.region.offset = m.region.offset ∧ m'.region.counter = m.region.counter + e.shape.getD 0 0) := by
  unfold AdMps.forward at h
  rw [ad_forward_eq svd pop m x e he] at h
  simp only [AdRegion.maybeFlip] at h
  by_cases hc : m.region.threshold ≤ m.region.counter
  · rw [if_pos hc] at h
    obtain ⟨res, r, hr⟩ : ∃ res r, m.region.flip svd pop = (res, r) := ⟨_, _, rfl⟩
    rw [hr] at h
    cases res with
    | error er => simp at h
    | ok b =>
      obtain ⟨f1, f2, f3⟩ := flip_ok svd pop _ _ _ hr
      simp only at h
      have key : m'.region = { r with counter := r.counter + e.shape.getD 0 0 } := by
        split at h
        · simp at h
        · split at h <;> simp only [Prod.mk.injEq] at h
          · rw [← h.2.1]
          · simp at h
      rw [key]
      exact ⟨f3, fun _ => ⟨f1, by simp only; rw [f2]⟩, fun hx => by omega⟩
  · rw [if_neg hc] at h
    simp only at h
    have key : m'.region = { m.region with counter := m.region.counter + e.shape.getD 0 0 } := by
      split at h
      · simp at h
      · simp only [Prod.mk.injEq] at h
        rw [← h.2.1]
    rw [key]
    exact ⟨rfl, fun hx => by omega, fun _ => ⟨rfl, rfl⟩⟩

theorem ad_failed (svd : Mat ℝ → SVD) (pop : List Char → Char) (m m' : AdMps) (x e : Tensor ℝ) (er : Err) (g g' : Option ℕ) (he : Embedded m.mps x e)
    (hc : m.region.counter < m.region.threshold) (h : m.forward svd pop x g = (.error er, m', g')) :
    m' = { m with region := { m.region with counter := m.region.counter + e.shape.getD 0 0 } } := by
  unfold AdMps.forward at h
  rw [ad_forward_eq svd pop m x e he] at h
  simp only [AdRegion.maybeFlip] at h
  rw [if_neg (by omega)] at h
  simp only at h
  split at h
  · simp only [Prod.mk.injEq] at h
    exact h.2.1.symm
  · simp at h

theorem ad_rejected (svd : Mat ℝ → SVD) (pop : List Char → Char) (m m' : AdMps) (x : Tensor ℝ) (er : Err) (g g' : Option ℕ)
    (he : ¬ ∃ e, Embedded m.mps x e) (h : m.forward svd pop x g = (.error er, m', g')) : m' = m := by
  unfold AdMps.forward at h
  cases hx : (followPath m.mps.path x >>= m.mps.embedInput) with
  | error e =>
    rw [hx] at h
    simp only [Prod.mk.injEq] at h
    exact h.2.1.symm
  | ok e =>
    obtain ⟨x', h1, h2⟩ := bind_ok_inv hx
    exact absurd ⟨e, x', h1, h2⟩ he

/-- C60: for every history, the counter plus threshold times the number of flips equals the number of inputs seen, the offset
alternates with the flips, and call number `i` flips exactly if the inputs seen before it reach the threshold times one more than the
number of flips before it. -/
theorem C60_flips (svd : Mat ℝ → SVD) (pop : List Char → Char) (m m' : AdMps) (g g' : Option ℕ) (Bs : List ℕ) (fs : List Bool)
    (hm : m.region.offset ≤ 1) (h : History svd pop m g Bs fs m' g') :
    m'.region.threshold = m.region.threshold ∧ fs.length = Bs.length ∧
    m'.region.counter + m.region.threshold * fs.count true = m.region.counter + Bs.sum ∧
    m'.region.offset = (m.region.offset + fs.count true) % 2 ∧
    ∀ i < fs.length, (fs.getD i false = true ↔
      m.region.threshold * (1 + (fs.take i).count true) ≤ m.region.counter + (Bs.take i).sum) := by
  induction h with
  | nil m g => exact ⟨rfl, rfl, by simp, by simp; omega, by simp⟩
  | @call m g x e y m' g' Bs fs m'' g'' he hf hh ih =>
    obtain ⟨c1, c2, c3⟩ := ad_call svd pop m m' x e y g g' he hf
    by_cases hc : m.region.threshold ≤ m.region.counter
    · obtain ⟨d1, d2⟩ := c2 hc
      have hflip : decide (m'.region.offset ≠ m.region.offset) = true := by
        rw [d1]; simp; omega
      obtain ⟨i1, i2, i3, i4, i5⟩ := ih (by rw [d1]; omega)
      rw [hflip]
      refine ⟨by rw [i1, c1], by simp [i2], ?_, ?_, ?_⟩
      · rw [c1, d2] at i3
        rw [List.count_cons_self, List.sum_cons, Nat.mul_add]
        omega
      · rw [i4, d1, List.count_cons_self]; omega
      · intro i hi
        cases i with
        | zero => simp; omega
        | succ i =>
          simp only [List.getD_cons_succ, List.take_succ_cons, List.count_cons_self, List.sum_cons]
          rw [i5 i (by simpa using hi), c1, d2, Nat.mul_add, Nat.mul_add, Nat.mul_add]
          omega
    · obtain ⟨d1, d2⟩ := c3 (by omega)
      have hflip : decide (m'.region.offset ≠ m.region.offset) = false := by
        rw [d1]; simp
      obtain ⟨i1, i2, i3, i4, i5⟩ := ih (by rw [d1]; omega)
      rw [hflip]
      refine ⟨by rw [i1, c1], by simp [i2], ?_, ?_, ?_⟩
      · rw [c1, d2] at i3
        rw [List.count_cons_of_ne (by simp), List.sum_cons]
        omega
      · rw [i4, d1, List.count_cons_of_ne (by simp)]
      · intro i hi
        cases i with
        | zero => simp; omega
        | succ i =>
          simp only [List.getD_cons_succ, List.take_succ_cons, List.sum_cons]
          rw [i5 i (by simpa using hi), c1, d2, List.count_cons_of_ne (by simp)]
          omega
  | @failed m g x e er m' g' Bs fs m'' g'' he hc hf hh ih =>
    have hm' := ad_failed svd pop m m' x e er g g' he hc hf
    subst hm'
    obtain ⟨i1, i2, i3, i4, i5⟩ := ih hm
    simp only at i1 i3 i4 i5
    refine ⟨i1, by simp [i2], ?_, ?_, ?_⟩
    · rw [List.count_cons_of_ne (by simp), List.sum_cons]
      omega
    · rw [i4, List.count_cons_of_ne (by simp)]
    · intro i hi
      cases i with
      | zero => simp; omega
      | succ i =>
        simp only [List.getD_cons_succ, List.take_succ_cons, List.sum_cons]
        rw [i5 i (by simpa using hi), List.count_cons_of_ne (by simp)]
        omega
  | @rejected m g x er m' g' Bs fs m'' g'' he hf hh ih =>
    have hm' := ad_rejected svd pop m m' x er g g' he hf
    subst hm'
    exact ih hm
  | @train m g m' Bs fs m'' g'' ht hh ih =>
    obtain ⟨l0, l1, rfl, _, _⟩ := ht
    exact ih hm
  | other hh ih => exact ih hm
  | @register m g φ mps' Bs fs m'' g'' hr hh ih => exact ih hm

end TorchMPS
