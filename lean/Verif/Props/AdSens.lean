import Verif.Spec.AdSens
import Verif.Lemmas.Sens
import Verif.Props.FlipError
import Verif.Props.Sens
import Verif.Props.TrainGrad
import Verif.Props.Witness
/-
C112: adaptive models between two flips: how their outputs react to changes of parameters and inputs, and convexity of the training loss in each core in use.
-/
namespace TorchMPS
open Spec

/-! ### sensitivity -/

theorem pairMat_mapHom {K L : Type} [CommRing K] [CommRing L] (f : K →+* L) (D F : ℕ) (A : ℕ → ℕ → ℕ → ℕ → K) (v w : ℕ → K) :
    (pairMat D F A v w).map f = pairMat D F (fun l r i j => f (A l r i j)) (fun i => f (v i)) (fun i => f (w i)) := by
  unfold pairMat
  rw [Mat.map_ofHom]
  simp

abbrev q1 : Quad ℝ →+* ℝ := RingHom.fst ℝ (ℝ × ℝ × ℝ)
abbrev q2 : Quad ℝ →+* ℝ := (RingHom.fst ℝ (ℝ × ℝ)).comp (RingHom.snd ℝ (ℝ × ℝ × ℝ))
abbrev q3 : Quad ℝ →+* ℝ := ((RingHom.fst ℝ ℝ).comp (RingHom.snd ℝ (ℝ × ℝ))).comp (RingHom.snd ℝ (ℝ × ℝ × ℝ))
abbrev q4 : Quad ℝ →+* ℝ := ((RingHom.snd ℝ ℝ).comp (RingHom.snd ℝ (ℝ × ℝ))).comp (RingHom.snd ℝ (ℝ × ℝ × ℝ))

/-- four lists of matrices which are the components of one list of matrices in `nearS` -/
def NearL (l l' v w : List (Mat ℝ)) : Prop :=
  ∃ q : List (Mat (Quad ℝ)), (∀ M ∈ q, ∀ i j, M.e i j ∈ nearS ℝ) ∧ q.map (Mat.map q1) = l ∧ q.map (Mat.map q2) = l' ∧ q.map (Mat.map q3) = v ∧ q.map (Mat.map q4) = w

theorem nearL_append {l l' v w k k' x y : List (Mat ℝ)} (h : NearL l l' v w) (h' : NearL k k' x y) : NearL (l ++ k) (l' ++ k') (v ++ x) (w ++ y) := by
  obtain ⟨q, a, rfl, rfl, rfl, rfl⟩ := h
  obtain ⟨q', a', rfl, rfl, rfl, rfl⟩ := h'
  refine ⟨q ++ q', ?_, by simp, by simp, by simp, by simp⟩
  intro M hM
  rcases List.mem_append.1 hM with h | h
  · exact a M h
  · exact a' M h

/-- the four versions of a tensor used in the bound -/
noncomputable def qT (t t' : Tensor ℝ) : Tensor (Quad ℝ) := quadT t t' (absT t) (wideT t t')

theorem qT_mem (t t' : Tensor ℝ) (idx : List ℕ) : (qT t t').get idx ∈ nearS ℝ := by
  show ‖t.get idx‖ ≤ (absT t).get idx ∧ ‖t'.get idx - t.get idx‖ ≤ (wideT t t').get idx - (absT t).get idx
  simp [absT, wideT]

theorem affQ_mem (D F : ℕ) (A : ℕ → ℕ → ℕ → Quad ℝ) (v : ℕ → Quad ℝ) (hA : ∀ l r f, A l r f ∈ nearS ℝ) (hv : ∀ f, v f ∈ nearS ℝ) (i j : ℕ) :
    (affMat D F A v (fun _ _ => 0)).e i j ∈ nearS ℝ :=
  matOf_mem _ _ _ _ (fun l _ r _ => (nearS ℝ).add_mem ((nearS ℝ).sum_mem fun f _ => (nearS ℝ).mul_mem (hA l r f) (hv f)) (nearS ℝ).zero_mem) i j

theorem pairQ_mem (D F : ℕ) (A : ℕ → ℕ → ℕ → ℕ → Quad ℝ) (v w : ℕ → Quad ℝ) (hA : ∀ l r f f', A l r f f' ∈ nearS ℝ) (hv : ∀ f, v f ∈ nearS ℝ) (hw : ∀ f, w f ∈ nearS ℝ)
    (i j : ℕ) : (pairMat D F A v w).e i j ∈ nearS ℝ :=
  matOf_mem _ _ _ _ (fun l _ r _ => (nearS ℝ).sum_mem fun f _ => (nearS ℝ).sum_mem fun f' _ =>
    (nearS ℝ).mul_mem ((nearS ℝ).mul_mem (hA l r f f') (hv f)) (hw f')) i j

theorem near_module (D F O : ℕ) (e e' : Tensor ℝ) (b o i : ℕ) (κ : Kind) (m m' : Module ℝ) (h : κ.Shaped D F O m) (h' : κ.Shaped D F O m') :
    NearL (moduleMats D F e b o i m) (moduleMats D F e' b o i m') (moduleMats D F (absT e) b o i (absModule m)) (moduleMats D F (wideT e e') b o i (wideModule m m')) := by
  have he := fun f => qT_mem e e' f
  cases κ <;> cases m <;> first | exact h.elim | skip
  all_goals cases m' <;> first | exact h'.elim | skip
  · rename_i j t t'
    refine ⟨[affMat D F (fun l r f => (qT t t').get [l, r, f]) (fun f => (qT e e').get [b, i, f]) (fun _ _ => 0)], ?_, ?_, ?_, ?_, ?_⟩
    · intro M hM
      rw [List.mem_singleton] at hM
      subst hM
      exact affQ_mem D F _ _ (fun l r f => qT_mem _ _ _) fun f => he _
    all_goals
      simp only [List.map_cons, List.map_nil, affMat_mapHom, map_zero]
      rfl
  · rename_i j c t t'
    have h : t.shape = [c, D, D, F, F] := h
    have h' : t'.shape = [c, D, D, F, F] := h'
    refine ⟨(List.range c).map fun s => pairMat D F (fun l r f f' => (qT t t').get [s, l, r, f, f']) (fun f => (qT e e').get [b, i + 2 * s, f])
      (fun f => (qT e e').get [b, i + 2 * s + 1, f]), ?_, ?_, ?_, ?_, ?_⟩
    · intro M hM
      obtain ⟨s, _, rfl⟩ := List.mem_map.1 hM
      exact pairQ_mem D F _ _ _ (fun l r f f' => qT_mem _ _ _) (fun f => he _) (fun f => he _)
    · simp only [List.map_map, moduleMats, h]
      exact List.map_congr_left fun s _ => pairMat_mapHom q1 D F _ _ _
    · simp only [List.map_map, moduleMats, h']
      exact List.map_congr_left fun s _ => pairMat_mapHom q2 D F _ _ _
    · simp only [List.map_map, moduleMats, absModule, Module.setTensor, Module.tensor, absT, h]
      exact List.map_congr_left fun s _ => pairMat_mapHom q3 D F _ _ _
    · simp only [List.map_map, moduleMats, wideModule, Module.setTensor, Module.tensor, wideT, h]
      exact List.map_congr_left fun s _ => pairMat_mapHom q4 D F _ _ _
  · rename_i t t'
    refine ⟨[Mat.of D D (fun l r => (qT t t').get [o, l, r])], ?_, ?_, ?_, ?_, ?_⟩
    · intro M hM
      rw [List.mem_singleton] at hM
      subst hM
      exact matOf_mem _ _ _ _ fun l _ r _ => qT_mem _ _ _
    all_goals
      simp only [List.map_cons, List.map_nil, Mat.map_ofHom]
      rfl
  · rename_i j lb0 t lb t' lb'
    refine ⟨[affMat D F (fun l r f => (qT t t').get [o, l, r, f]) (fun f => (qT e e').get [b, i, f]) (fun _ _ => 0)], ?_, ?_, ?_, ?_, ?_⟩
    · intro M hM
      rw [List.mem_singleton] at hM
      subst hM
      exact affQ_mem D F _ _ (fun l r f => qT_mem _ _ _) fun f => he _
    all_goals
      simp only [List.map_cons, List.map_nil, affMat_mapHom, map_zero]
      rfl

theorem setTensor_len (m : Module ℝ) (t : Tensor ℝ) (h : t.shape = m.tensor.shape) : (m.setTensor t).len = m.len := by
  cases m <;> simp_all [Module.setTensor, Module.len, Module.tensor]

theorem near_chain (D F O : ℕ) (e e' : Tensor ℝ) (b o : ℕ) : ∀ (i : ℕ) (ks : List Kind) (ms ms' : List (Module ℝ)),
    List.Forall₂ (fun κ m => Kind.Shaped D F O κ m) ks ms → List.Forall₂ (fun κ m => Kind.Shaped D F O κ m) ks ms' →
    NearL (chainMats D F e b o i ms) (chainMats D F e' b o i ms') (chainMats D F (absT e) b o i (ms.map absModule))
      (chainMats D F (wideT e e') b o i (List.zipWith wideModule ms ms'))
  | _, [], [], [], _, _ => ⟨[], by simp, rfl, rfl, rfl, rfl⟩
  | i, κ :: ks, m :: ms, m' :: ms', .cons h hs, .cons h' hs' => by
    have e1 : m'.len = m.len := by rw [(shaped_len D F O κ m h).1, (shaped_len D F O κ m' h').1]
    have e2 : (absModule m).len = m.len := setTensor_len m _ rfl
    have e3 : (wideModule m m').len = m.len := setTensor_len m _ rfl
    have := nearL_append (near_module D F O e e' b o i κ m m' h h') (near_chain D F O e e' b o (i + m.len) ks ms ms' hs hs')
    simp only [chainMats, List.map_cons, List.zipWith_cons_cons, e1, e2, e3]
    exact this

theorem near_out (D F O : ℕ) (e e' : Tensor ℝ) (b o : ℕ) (per : Bool) (ks : List Kind) (ms ms' : List (Module ℝ))
    (h : List.Forall₂ (fun κ m => Kind.Shaped D F O κ m) ks ms) (h' : List.Forall₂ (fun κ m => Kind.Shaped D F O κ m) ks ms') :
    |chainOut D F per e b o ms| ≤ chainOut D F per (absT e) b o (ms.map absModule) ∧
    |chainOut D F per e' b o ms' - chainOut D F per e b o ms| ≤ chainOut D F per (wideT e e') b o (List.zipWith wideModule ms ms') -
      chainOut D F per (absT e) b o (ms.map absModule) := by
  obtain ⟨q, a, a1, a2, a3, a4⟩ := near_chain D F O e e' b o 0 ks ms ms' h h'
  unfold chainOut
  rw [← a1, ← a2, ← a3, ← a4]
  simp only [orderedProd_eq, ← prodL_mapHom]
  cases hp : prodL q with
  | none => simp
  | some M =>
    have hM := orderedProd_mem (nearS ℝ) q a M (by rw [orderedProd_eq, hp])
    simp only [Option.map_some, Mat.map]
    have key : ∀ z : Quad ℝ, z ∈ nearS ℝ → |q1 z| ≤ q3 z ∧ |q2 z - q1 z| ≤ q4 z - q3 z := fun z hz => hz
    cases per with
    | false => simpa using key _ (hM 0 0)
    | true =>
      simp only [if_true, ← map_sum]
      exact key _ ((nearS ℝ).sum_mem fun i _ => hM i i)

theorem ad_value (svd : Mat ℝ → SVD) (pop : List Char → Char) (k : ℕ) (m : AdMps) (h : IsAdMps k m) (hc : m.region.counter < m.region.threshold)
    (hD : m.mps.periodic = true ∨ 1 ≤ m.mps.bondDim) (x e : Tensor ℝ) (he : Embedded m.mps x e) (B : ℕ) (hB : e.shape.getD 0 0 = B) (g : Option ℕ)
    (hg : BatchKnown k B g ∨ m.region.offset = 0) :
    ∃ y, (m.forward svd pop x g).1 = .ok y ∧ y.shape = [B, m.mps.outputDim] ∧ ∀ b < B, ∀ o < m.mps.outputDim,
      y.get [b, o] = chainOut m.mps.bondDim m.mps.featureDim m.mps.periodic e b o (m.region.listAt m.region.offset) := by
  subst hB
  obtain ⟨y, g', y1, y2, y3⟩ := merged_eval m.mps.bondDim m.mps.featureDim m.mps.outputDim m.region.offset k m.mps.inputDim _ h.offset h.label
    (by have := h.size; omega) _ (listAt_shape k m h _ h.offset) m.mps.periodic m.mps.parallel hD e (embedded_shape _ x e he) g
    (hg.elim (fun hg => hg.elim (fun h => Or.inr (by omega)) Or.inl) (fun h => Or.inr (by omega)))
  have ha : m.region.active = m.region.listAt m.region.offset := by
    unfold AdRegion.active
    simp only [h.stray]
    rfl
  refine ⟨y, ?_, y2, ?_⟩
  · rw [forward_undue svd pop m hc x e he g, ha, y1]
  · intro b hb o ho
    obtain ⟨M, M1, M2⟩ := y3 b hb o ho
    rw [M2]
    unfold chainOut
    rw [M1]

/-- C112, sensitivity. Two adaptive models of one shape, in the same merge state and with no flip due, on two batches of one size: for all values of the parameters
and inputs and all boundary conditions, each output is at most `V(|p|, |e|)` in absolute value, and the outputs differ at most by
`V(|p| + |Δp|, |e| + |Δe|) - V(|p|, |e|)`, where `V` is the value of the modules in use, `p` their parameters and `e` the features. -/
theorem C112_sensitivity (svd svd' : Mat ℝ → SVD) (pop pop' : List Char → Char) (k : ℕ) (m m' : AdMps) (h : IsAdMps k m) (h' : IsAdMps k m')
    (hsame : SameShape m.mps m'.mps) (hoff : m'.region.offset = m.region.offset)
    (hc : m.region.counter < m.region.threshold) (hc' : m'.region.counter < m'.region.threshold)
    (hD : m.mps.periodic = true ∨ 1 ≤ m.mps.bondDim) (x x' e e' : Tensor ℝ) (he : Embedded m.mps x e) (he' : Embedded m'.mps x' e')
    (B : ℕ) (hB : e.shape.getD 0 0 = B) (hB' : e'.shape.getD 0 0 = B) (g g' : Option ℕ)
    (hg : BatchKnown k B g ∨ m.region.offset = 0) (hg' : BatchKnown k B g' ∨ m.region.offset = 0) :
    ∃ y y', (m.forward svd pop x g).1 = .ok y ∧ (m'.forward svd' pop' x' g').1 = .ok y' ∧ y.shape = [B, m.mps.outputDim] ∧ y'.shape = [B, m.mps.outputDim] ∧
      ∀ b < B, ∀ o < m.mps.outputDim,
        |y.get [b, o]| ≤ chainOut m.mps.bondDim m.mps.featureDim m.mps.periodic (absT e) b o ((m.region.listAt m.region.offset).map absModule) ∧
        |y'.get [b, o] - y.get [b, o]| ≤
          chainOut m.mps.bondDim m.mps.featureDim m.mps.periodic (wideT e e') b o
            (List.zipWith wideModule (m.region.listAt m.region.offset) (m'.region.listAt m.region.offset)) -
          chainOut m.mps.bondDim m.mps.featureDim m.mps.periodic (absT e) b o ((m.region.listAt m.region.offset).map absModule) := by
  obtain ⟨y, y1, y2, y3⟩ := ad_value svd pop k m h hc hD x e he B hB g hg
  obtain ⟨z, z1, z2, z3⟩ := ad_value svd' pop' k m' h' hc' (by rw [hsame.periodic, hsame.bond]; exact hD) x' e' he' B hB' g' (by rw [hoff]; exact hg')
  rw [hsame.bond, hsame.feature, hsame.periodic, hsame.output, hoff] at z3
  rw [hsame.output] at z2
  refine ⟨y, z, y1, z1, y2, z2, ?_⟩
  intro b hb o ho
  rw [y3 b hb o ho, z3 b hb o ho]
  have hs' := listAt_shape k m' h' _ h'.offset
  rw [hsame.bond, hsame.feature, hsame.output, hsame.input, hoff] at hs'
  exact near_out _ _ m.mps.outputDim e e' b o _ _ _ _ (listAt_shape k m h _ h.offset) hs'

/-! ### convexity -/

/-- a square matrix moving along a straight line -/
def LineMat (D : ℕ) (M : ℝ → Mat ℝ) : Prop :=
  ∀ t, toMatrix D D (M t) = (1 - t) • toMatrix D D (M 0) + t • toMatrix D D (M 1)

/-- a list of square matrices in which at most one moves, along a straight line -/
def LineList (D : ℕ) (l : ℝ → List (Mat ℝ)) : Prop :=
  (∀ t, ∀ A ∈ l t, A.r = D ∧ A.c = D) ∧ ((∀ t, l t = l 0) ∨ ∃ A M B, (∀ t, l t = A ++ M t :: B) ∧ LineMat D M)

theorem lineMat_of (D : ℕ) (f : ℝ → ℕ → ℕ → ℝ) (h : ∀ t i j, f t i j = (1 - t) * f 0 i j + t * f 1 i j) : LineMat D (fun t => Mat.of D D (f t)) := by
  intro t
  ext i j
  simp [toMatrix, Mat.of, h t i j]

theorem lineMat_aff (D F : ℕ) (A : ℝ → ℕ → ℕ → ℕ → ℝ) (v : ℕ → ℝ) (h : ∀ t l r f, A t l r f = (1 - t) * A 0 l r f + t * A 1 l r f) :
    LineMat D (fun t => affMat D F (A t) v (fun _ _ => 0)) := by
  refine lineMat_of D (fun t l r => ∑ f ∈ Finset.range F, A t l r f * v f + 0) (fun t l r => ?_)
  simp only [add_zero, Finset.mul_sum, ← Finset.sum_add_distrib]
  refine Finset.sum_congr rfl fun f _ => ?_
  rw [h t]
  ring

theorem lineMat_pair (D F : ℕ) (A : ℝ → ℕ → ℕ → ℕ → ℕ → ℝ) (v w : ℕ → ℝ) (h : ∀ t l r f f', A t l r f f' = (1 - t) * A 0 l r f f' + t * A 1 l r f f') :
    LineMat D (fun t => pairMat D F (A t) v w) := by
  refine lineMat_of D (fun t l r => ∑ f ∈ Finset.range F, ∑ f' ∈ Finset.range F, A t l r f f' * v f * w f') (fun t l r => ?_)
  simp only [Finset.mul_sum, ← Finset.sum_add_distrib]
  refine Finset.sum_congr rfl fun f _ => Finset.sum_congr rfl fun f' _ => ?_
  rw [h t]
  ring

theorem line_prod (D : ℕ) (l : ℝ → List (Mat ℝ)) (h : LineList D l) (M : ℝ → Mat ℝ) (hM : ∀ t, orderedProd (l t) = some (M t)) : LineMat D M := by
  have toM : ∀ (l : List (Mat ℝ)) (M : Mat ℝ), (∀ A ∈ l, A.r = D ∧ A.c = D) → orderedProd l = some M →
      toMatrix D D M = (l.map (toMatrix D D)).prod := by
    intro l M hl hM
    cases l with
    | nil => simp [orderedProd] at hM
    | cons A l =>
      simp only [orderedProd, Option.some.injEq] at hM
      rw [← hM]
      exact toMatrix_matProd _ A l fun a ha => (hl a ha).2
  intro t
  rw [toM _ _ (h.1 t) (hM t), toM _ _ (h.1 0) (hM 0), toM _ _ (h.1 1) (hM 1)]
  rcases h.2 with hc | ⟨A, N, B, hl, hN⟩
  · rw [hc t, hc 1, ← add_smul]
    simp
  · rw [hl t, hl 0, hl 1]
    simp only [List.map_append, List.map_cons, List.prod_append, List.prod_cons]
    rw [hN t]
    simp only [add_mul, mul_add, smul_mul_assoc, mul_smul_comm]

theorem line_append (D : ℕ) (l : ℝ → List (Mat ℝ)) (a b : List (Mat ℝ)) (h : LineList D l) (ha : ∀ A ∈ a, A.r = D ∧ A.c = D) (hb : ∀ A ∈ b, A.r = D ∧ A.c = D) :
    LineList D (fun t => a ++ (l t ++ b)) := by
  refine ⟨?_, ?_⟩
  · intro t A hA
    rcases List.mem_append.1 hA with hA | hA
    · exact ha A hA
    · rcases List.mem_append.1 hA with hA | hA
      · exact h.1 t A hA
      · exact hb A hA
  · rcases h.2 with hc | ⟨A, N, B, hl, hN⟩
    · exact Or.inl fun t => by simp only [hc t]
    · exact Or.inr ⟨a ++ A, N, B ++ b, fun t => by simp [hl t], hN⟩

theorem size_module (D F O : ℕ) (e : Tensor ℝ) (b o i : ℕ) (m : Module ℝ) (A : Mat ℝ) (hA : A ∈ moduleMats D F e b o i m) : A.r = D ∧ A.c = D := by
  cases m <;> simp only [moduleMats, List.mem_map, List.mem_singleton] at hA
  · obtain ⟨s, _, rfl⟩ := hA; exact ⟨rfl, rfl⟩
  · obtain ⟨s, _, rfl⟩ := hA; exact ⟨rfl, rfl⟩
  all_goals subst hA; exact ⟨rfl, rfl⟩

theorem size_chain (D F O : ℕ) (e : Tensor ℝ) (b o : ℕ) : ∀ (i : ℕ) (ms : List (Module ℝ)), ∀ A ∈ chainMats D F e b o i ms, A.r = D ∧ A.c = D
  | _, [], A, hA => by simp [chainMats] at hA
  | i, m :: ms, A, hA => by
    rw [chainMats, List.mem_append] at hA
    exact hA.elim (size_module D F O e b o i m A) (size_chain D F O e b o _ ms A)

theorem chain_append (D F : ℕ) (e : Tensor ℝ) (b o : ℕ) : ∀ (i : ℕ) (as ms : List (Module ℝ)),
    chainMats D F e b o i (as ++ ms) = chainMats D F e b o i as ++ chainMats D F e b o (i + modulesLen as) ms
  | i, [], ms => by simp [chainMats, modulesLen]
  | i, a :: as, ms => by
    rw [List.cons_append, chainMats, chainMats, chain_append, List.append_assoc]
    simp [modulesLen, add_assoc]

theorem line_module (D F O : ℕ) (e : Tensor ℝ) (b o i : ℕ) (κ : Kind) (w : Module ℝ) (hw : κ.Shaped D F O w) (u : ℝ → Module ℝ) (h : CoreLine w u) :
    LineList D (fun t => moduleMats D F e b o i (u t)) := by
  obtain ⟨T, h1, h2, h3⟩ := h
  refine ⟨fun t A hA => size_module D F O e b o i _ A hA, ?_⟩
  have hu : ∀ t, u t = w.setTensor (T t) := fun t => (h1 t).2
  have hsh : ∀ t, (T t).shape = w.tensor.shape := fun t => (h1 t).1
  simp only [hu]
  cases κ <;> cases w <;> first | exact hw.elim | skip
  · exact Or.inr ⟨[], _, [], fun t => rfl, lineMat_aff D F (fun t l r f => (T t).get [l, r, f]) _ fun t l r f => h2 t _⟩
  · rename_i j c t0
    have hw : t0.shape = [c, D, D, F, F] := hw
    obtain ⟨s, hs⟩ := h3 trivial
    have hc : ∀ t s' rest, s' ≠ s → (T t).get (s' :: rest) = (T 0).get (s' :: rest) := by
      intro t s' rest hne
      rw [h2 t, hs s' rest hne]
      ring
    have hT : ∀ t, (T t).shape = [c, D, D, F, F] := fun t => (hsh t).trans hw
    simp only [Module.setTensor, moduleMats, hT]
    have e0 : ([c, D, D, F, F] : List ℕ).getD 0 0 = c := rfl
    rw [e0]
    have hpm : ∀ t s', s' ≠ s → pairMat D F (fun l r f f' => (T t).get [s', l, r, f, f']) (fun f => e.get [b, i + 2 * s', f]) (fun f => e.get [b, i + 2 * s' + 1, f]) =
        pairMat D F (fun l r f f' => (T 0).get [s', l, r, f, f']) (fun f => e.get [b, i + 2 * s', f]) (fun f => e.get [b, i + 2 * s' + 1, f]) := by
      intro t s' hne
      simp only [hc t s' _ hne]
    by_cases hsc : s < c
    · refine Or.inr ⟨(List.range s).map fun s' => pairMat D F (fun l r f f' => (T 0).get [s', l, r, f, f']) (fun f => e.get [b, i + 2 * s', f]) (fun f => e.get [b, i + 2 * s' + 1, f]),
        fun t => pairMat D F (fun l r f f' => (T t).get [s, l, r, f, f']) (fun f => e.get [b, i + 2 * s, f]) (fun f => e.get [b, i + 2 * s + 1, f]),
        (List.range' (s + 1) (c - s - 1)).map fun s' => pairMat D F (fun l r f f' => (T 0).get [s', l, r, f, f']) (fun f => e.get [b, i + 2 * s', f]) (fun f => e.get [b, i + 2 * s' + 1, f]),
        fun t => ?_, lineMat_pair D F (fun t l r f f' => (T t).get [s, l, r, f, f']) _ _ fun t l r f f' => h2 t _⟩
      have hr : List.range c = List.range s ++ s :: List.range' (s + 1) (c - s - 1) := by
        rw [List.range_eq_range', List.range_eq_range']
        have : List.range' s (c - s) = s :: List.range' (s + 1) (c - s - 1) := by
          conv_lhs => rw [show c - s = (c - s - 1) + 1 by omega]
          rw [List.range'_succ]
        rw [← this]
        have h4 := (List.range'_append_1 (s := 0) (m := s) (n := c - s)).symm
        rw [show s + (c - s) = c by omega] at h4
        simpa using h4
      rw [hr, List.map_append, List.map_cons]
      congr 1
      · refine List.map_congr_left fun s' hs' => hpm t s' ?_
        rw [List.mem_range] at hs'
        omega
      · congr 1
        refine List.map_congr_left fun s' hs' => hpm t s' ?_
        rw [List.mem_range'_1] at hs'
        omega
    · refine Or.inl fun t => List.map_congr_left fun s' hs' => hpm t s' ?_
      rw [List.mem_range] at hs'
      omega
  · exact Or.inr ⟨[], _, [], fun t => rfl, lineMat_of D (fun t l r => (T t).get [o, l, r]) fun t l r => h2 t _⟩
  · exact Or.inr ⟨[], _, [], fun t => rfl, lineMat_aff D F (fun t l r f => (T t).get [o, l, r, f]) _ fun t l r f => h2 t _⟩

theorem line_out (D F O : ℕ) {per : Bool} (hD : per = true ∨ 1 ≤ D) (e : Tensor ℝ) (b o : ℕ) (as bs : List (Module ℝ)) (w : Module ℝ) (κ : Kind) (hκ : κ.Shaped D F O w)
    (u : ℝ → Module ℝ) (hu : CoreLine w u) (hlen : ∀ t, (u t).len = w.len) (t : ℝ) :
    chainOut D F per e b o (as ++ u t :: bs) = (1 - t) * chainOut D F per e b o (as ++ u 0 :: bs) + t * chainOut D F per e b o (as ++ u 1 :: bs) := by
  have hl : ∀ t, chainMats D F e b o 0 (as ++ u t :: bs) = chainMats D F e b o 0 as ++ (moduleMats D F e b o (0 + modulesLen as) (u t) ++
      chainMats D F e b o (0 + modulesLen as + w.len) bs) := by
    intro t
    rw [chain_append, chainMats, hlen t]
  have hL : LineList D (fun t => chainMats D F e b o 0 (as ++ u t :: bs)) := by
    simp only [hl]
    exact line_append D _ _ _ (line_module D F O e b o _ κ w hκ u hu) (size_chain D F O e b o _ as) (size_chain D F O e b o _ bs)
  have hnil : (∀ t, chainMats D F e b o 0 (as ++ u t :: bs) = []) ∨ ∀ t, ∃ M, orderedProd (chainMats D F e b o 0 (as ++ u t :: bs)) = some M := by
    rcases hL.2 with hc | ⟨A, M, B, hA, -⟩
    · simp only at hc
      cases h0 : chainMats D F e b o 0 (as ++ u 0 :: bs) with
      | nil => exact Or.inl fun t => by rw [hc t, h0]
      | cons a l => exact Or.inr fun t => by rw [hc t, h0]; exact ⟨_, rfl⟩
    · right
      intro t
      have := hA t
      simp only at this
      rw [this]
      cases A <;> exact ⟨_, rfl⟩
  rcases hnil with h0 | hM
  · unfold chainOut
    simp [h0, orderedProd]
  · choose M hM using hM
    have hline := line_prod D _ hL M hM
    unfold chainOut
    rw [hM t, hM 0, hM 1]
    cases per with
    | true =>
      simp only [if_true]
      have e1 : ∀ M : Mat ℝ, ∑ i ∈ Finset.range D, M.e i i = ∑ i, toMatrix D D M i i := by
        intro M
        rw [← Fin.sum_univ_eq_sum_range (fun i => M.e i i)]
        rfl
      rw [e1, e1, e1, hline t, Finset.mul_sum, Finset.mul_sum, ← Finset.sum_add_distrib]
      rfl
    | false =>
      have h1 : 1 ≤ D := hD.resolve_left (by simp)
      have := congrFun (congrFun (hline t) ⟨0, h1⟩) ⟨0, h1⟩
      simpa [toMatrix] using this

theorem shaped_set (D F O : ℕ) (κ : Kind) (w : Module ℝ) (h : κ.Shaped D F O w) (t : Tensor ℝ) (ht : t.shape = w.tensor.shape) : κ.Shaped D F O (w.setTensor t) := by
  cases κ <;> cases w <;> first | exact h.elim | skip
  · exact ht.trans h
  · exact ht.trans h
  · exact ht.trans h
  · exact ⟨h.1, ht.trans h.2⟩

theorem mergedShape_set (D F O p k n : ℕ) (as bs : List (Module ℝ)) (w : Module ℝ) (h : MergedShape D F O p k n (as ++ w :: bs)) :
    ∃ κ : Kind, κ.Shaped D F O w ∧ ∀ w', κ.Shaped D F O w' → MergedShape D F O p k n (as ++ w' :: bs) := by
  unfold MergedShape at h ⊢
  obtain ⟨ka, kr, h1, h2, h3⟩ := forall2_split (List.Forall₂.flip (R := flip fun κ m => Kind.Shaped D F O κ m) h)
  rw [h3]
  cases h2 with
  | @cons _ κ _ kb g1 g2 => exact ⟨κ, g1, fun w' hw' => List.rel_append h1.flip (.cons hw' g2.flip)⟩

theorem withActive_offset (m : AdMps) (l : List (Module ℝ)) : (Spec.withActive m l).region.offset = m.region.offset := by
  unfold Spec.withActive AdRegion.setList
  split <;> rfl

theorem isAd_withActive (k : ℕ) (m : AdMps) (h : IsAdMps k m) (l : List (Module ℝ))
    (hl : MergedShape m.mps.bondDim m.mps.featureDim m.mps.outputDim m.region.offset k m.mps.inputDim l) : IsAdMps k (Spec.withActive m l) := by
  have hoff := h.offset
  unfold Spec.withActive AdRegion.setList
  have h01 : m.region.offset = 0 ∨ m.region.offset = 1 := by omega
  rcases h01 with h0 | h0
  · rw [h0] at hl
    rw [h0, if_pos rfl]
    exact ⟨h.size, h.label, by simp, h.stray, hl, h.list1, h.bonds, h.svs⟩
  · rw [h0] at hl
    rw [h0, if_neg (by omega)]
    exact ⟨h.size, h.label, by simp, h.stray, h.list0, hl, h.bonds, h.svs⟩

/-- C112, convexity. The training loss of an adaptive model, no flip being due, is a convex function of each core in use, merged or lone: along a straight line
between two values of the core it lies below its chord, so the loss at the one end is at least what the derivative at the other end promises, and a core at
which the derivatives vanish cannot be improved alone. -/
theorem C112_convex (svd : Mat ℝ → SVD) (pop : List Char → Char) (k : ℕ) (m : AdMps) (h : IsAdMps k m) (hc : m.region.counter < m.region.threshold)
    (hD : m.mps.periodic = true ∨ 1 ≤ m.mps.bondDim) (as bs : List (Module ℝ)) (w : Module ℝ) (hw : m.region.listAt m.region.offset = as ++ w :: bs)
    (u : ℝ → Module ℝ) (hu : CoreLine w u) (x e : Tensor ℝ) (he : Embedded m.mps x e) (labels : List ℕ) (hB : e.shape.getD 0 0 = labels.length)
    (hl : ∀ c ∈ labels, c < m.mps.outputDim) (g : Option ℕ) (hg : BatchKnown k labels.length g ∨ m.region.offset = 0) :
    ∃ (y : ℝ → Tensor ℝ) (L : ℝ → ℝ),
      (∀ t, ((Spec.withActive m (as ++ u t :: bs)).forward svd pop x g).1 = .ok (y t)) ∧ (∀ t, crossEntropy (y t) labels = .ok (L t)) ∧
      (∀ t, 0 ≤ t → t ≤ 1 → L t ≤ (1 - t) * L 0 + t * L 1) ∧ ∀ d, HasDerivAt L d 0 → L 0 + d ≤ L 1 := by
  have hsh := listAt_shape k m h _ h.offset
  rw [hw] at hsh
  obtain ⟨T, hT1, hT2, hT3⟩ := id hu
  have hlen : ∀ t, (u t).len = w.len := fun t => by rw [(hT1 t).2]; exact setTensor_len w _ (hT1 t).1
  obtain ⟨κ, hκ, hsh'⟩ := mergedShape_set _ _ _ _ _ _ as bs w hsh
  have hlist : ∀ t, (Spec.withActive m (as ++ u t :: bs)).region.listAt (Spec.withActive m (as ++ u t :: bs)).region.offset = as ++ u t :: bs := by
    intro t
    rw [withActive_offset]
    exact listAt_set m.region m.region.offset _
  have hcount : ∀ t, (Spec.withActive m (as ++ u t :: bs)).region.counter < (Spec.withActive m (as ++ u t :: bs)).region.threshold := by
    intro t
    unfold Spec.withActive AdRegion.setList
    split <;> exact hc
  have hy := fun t : ℝ => ad_value svd pop k (Spec.withActive m (as ++ u t :: bs)) (isAd_withActive k m h _ (hsh' (u t) (by rw [(hT1 t).2]; exact shaped_set _ _ _ κ w hκ _ (hT1 t).1)))
    (hcount t) hD x e he labels.length hB g (by rw [withActive_offset]; exact hg)
  choose y y1 y2 y3 using hy
  have y3 : ∀ t, ∀ b < labels.length, ∀ o < m.mps.outputDim, (y t).get [b, o] = chainOut m.mps.bondDim m.mps.featureDim m.mps.periodic e b o (as ++ u t :: bs) := by
    intro t b hb o ho
    have := y3 t b hb o ho
    rw [hlist t] at this
    exact this
  have hline : ∀ t b o, chainOut m.mps.bondDim m.mps.featureDim m.mps.periodic e b o (as ++ u t :: bs) =
      (1 - t) * chainOut m.mps.bondDim m.mps.featureDim m.mps.periodic e b o (as ++ u 0 :: bs) +
        t * chainOut m.mps.bondDim m.mps.featureDim m.mps.periodic e b o (as ++ u 1 :: bs) := by
    intro t b o
    exact line_out m.mps.bondDim m.mps.featureDim m.mps.outputDim hD e b o as bs w κ hκ u hu hlen t
  refine ⟨y, fun t => meanNll m.mps.outputDim labels (fun b o => (y t).get [b, o]), y1, fun t => crossEntropy_eq (y t) labels m.mps.outputDim (y2 t) hl, ?_, ?_⟩
  · intro t h0 h1
    exact meanNll_convex _ _ hl _ _ _ t h0 h1 fun b hb o ho => by rw [y3 t b hb o ho, y3 0 b hb o ho, y3 1 b hb o ho, hline t b o]
  · intro d hd
    refine tangent_below _ d ?_ hd
    intro t h0 h1
    exact meanNll_convex _ _ hl _ _ _ t h0 h1 fun b hb o ho => by rw [y3 t b hb o ho, y3 0 b hb o ho, y3 1 b hb o ho, hline t b o]

/-- C112: a new model (label_site 1, input_dim 4, bond_dim 1, threshold 3) and the same model with other parameters in use; batches of 3 samples. The bound of the change
of the outputs holds; and the loss of the second model for the labels 0, 1, 1 is convex in the output core merged with the core of the first pixel and in the
merged pair of pixel cores. -/
example (d : Draws) (x x' : Tensor ℝ) (hx : x.shape = [3, 4, 2]) (hx' : x'.shape = [3, 4, 2]) (T T' : Tensor ℝ) (hT : T.shape = [2, 1, 1, 2])
    (hT' : T'.shape = [1, 1, 1, 2, 2]) : ∃ m m', AdMps.init d exAdArgs (1 / 10) 3 = .ok m ∧ m' = Spec.withActive m exTrained ∧
    (∃ y y', (m.forward someSvd popHead x none).1 = .ok y ∧ (m'.forward someSvd popHead x' none).1 = .ok y' ∧ ∀ b < 3, ∀ o < 2,
      |y'.get [b, o] - y.get [b, o]| ≤ chainOut 1 2 false (wideT x x') b o (List.zipWith wideModule m.region.list0 exTrained) -
        chainOut 1 2 false (absT x) b o (m.region.list0.map absModule)) ∧
    (∃ (y : ℝ → Tensor ℝ) (L : ℝ → ℝ), (∀ t, ((Spec.withActive m' [.mergedOutput ⟨[2, 1, 1, 2], fun i => (1 - t) * (exEye [2, 1, 1, 2] 0 3).get i + t * T.get i⟩ false,
        .mergedInput (exEye [1, 1, 1, 2, 2] 3 4), .inputSite ⟨[1, 1, 2], fun _ => 1⟩]).forward someSvd popHead x none).1 = .ok (y t)) ∧
      (∀ t, crossEntropy (y t) [0, 1, 1] = .ok (L t)) ∧ (∀ t, 0 ≤ t → t ≤ 1 → L t ≤ (1 - t) * L 0 + t * L 1)) ∧
    (∃ (y : ℝ → Tensor ℝ) (L : ℝ → ℝ), (∀ t, ((Spec.withActive m' [.mergedOutput (exEye [2, 1, 1, 2] 0 3) false,
        .mergedInput ⟨[1, 1, 1, 2, 2], fun i => if i.getD 0 0 = 0 then (1 - t) * (exEye [1, 1, 1, 2, 2] 3 4).get i + t * T'.get i else 0⟩,
          .inputSite ⟨[1, 1, 2], fun _ => 1⟩]).forward someSvd popHead x none).1 = .ok (y t)) ∧
      (∀ t, crossEntropy (y t) [0, 1, 1] = .ok (L t)) ∧ (∀ t, 0 ≤ t → t ≤ 1 → L t ≤ (1 - t) * L 0 + t * L 1)) := by
  obtain ⟨m, h1, h2, h3, h4, h5, h6, h7, h8, h9, h10, h11, h12, h13, h14, h15, _⟩ :=
    C59_construction d exAdArgs (1 / 10) 3 1 (by decide) (by decide) (Or.inl rfl) none rfl
  have hsh : MergedShape m.mps.bondDim m.mps.featureDim m.mps.outputDim m.region.offset 1 m.mps.inputDim exTrained := by
    rw [h5, h6, h4, h3, h11]
    exact exTrained_shape
  have hm' := isAd_withActive 1 m h2 exTrained hsh
  have hoff : (Spec.withActive m exTrained).region.offset = m.region.offset := withActive_offset m _
  have hl0 : m.region.listAt m.region.offset = m.region.list0 := by rw [h11]; rfl
  have hl' : (Spec.withActive m exTrained).region.listAt m.region.offset = exTrained := listAt_set m.region _ _
  have hc : m.region.counter < m.region.threshold := by rw [h12, h13]; omega
  have hc' : (Spec.withActive m exTrained).region.counter < (Spec.withActive m exTrained).region.threshold := by
    unfold Spec.withActive AdRegion.setList
    split <;> exact hc
  have hE : ∀ x : Tensor ℝ, x.shape = [3, 4, 2] → Embedded m.mps x x := fun x hx => exAd_embedded m h3 h9 h6 x hx
  have hB : ∀ x : Tensor ℝ, x.shape = [3, 4, 2] → x.shape.getD 0 0 = 3 := fun x hx => by rw [hx]; rfl
  have hD : m.mps.periodic = true ∨ 1 ≤ m.mps.bondDim := Or.inr (by rw [h5]; decide)
  have hO : m.mps.outputDim = 2 := h4
  refine ⟨m, _, h1, rfl, ?_, ?_, ?_⟩
  · obtain ⟨y, y', k1, k2, -, -, k3⟩ := C112_sensitivity someSvd someSvd popHead popHead 1 m _ h2 hm' ⟨rfl, rfl, rfl, rfl, rfl⟩ hoff hc hc' hD x x' x x' (hE x hx) (hE x' hx') 3
      (hB x hx) (hB x' hx') none none (Or.inl (Or.inl le_rfl)) (Or.inl (Or.inl le_rfl))
    refine ⟨y, y', k1, k2, fun b hb o ho => ?_⟩
    have := (k3 b hb o (by rw [hO]; exact ho)).2
    rw [hl0, h5, h6, h7] at this
    rw [h11] at hl'
    rw [h11, hl'] at this
    exact this
  · obtain ⟨y, L, k1, k2, k3, -⟩ := C112_convex someSvd popHead 1 _ hm' hc' hD [] _ (.mergedOutput (exEye [2, 1, 1, 2] 0 3) false) (by rw [hoff, hl']; rfl)
      (fun t => .mergedOutput ⟨[2, 1, 1, 2], fun i => (1 - t) * (exEye [2, 1, 1, 2] 0 3).get i + t * T.get i⟩ false)
      ⟨fun t => ⟨[2, 1, 1, 2], fun i => (1 - t) * (exEye [2, 1, 1, 2] 0 3).get i + t * T.get i⟩, fun t => ⟨rfl, rfl⟩, fun t i => by simp, fun h => False.elim h⟩ x x (hE x hx) [0, 1, 1] (hB x hx) (by
        show ∀ c ∈ [0, 1, 1], c < m.mps.outputDim
        rw [hO]; decide) none (Or.inl (Or.inl le_rfl))
    exact ⟨y, L, k1, k2, k3⟩
  · obtain ⟨y, L, k1, k2, k3, -⟩ := C112_convex someSvd popHead 1 _ hm' hc' hD [.mergedOutput (exEye [2, 1, 1, 2] 0 3) false] _ (.mergedInput (exEye [1, 1, 1, 2, 2] 3 4)) (by rw [hoff, hl']; rfl)
      (fun t => .mergedInput ⟨[1, 1, 1, 2, 2], fun i => if i.getD 0 0 = 0 then (1 - t) * (exEye [1, 1, 1, 2, 2] 3 4).get i + t * T'.get i else 0⟩)
      ⟨fun t => ⟨[1, 1, 1, 2, 2], fun i => if i.getD 0 0 = 0 then (1 - t) * (exEye [1, 1, 1, 2, 2] 3 4).get i + t * T'.get i else 0⟩, fun t => ⟨rfl, rfl⟩, fun t i => by
        simp only
        split
        · simp
        · simp, fun _ => ⟨0, fun s' rest hne => by simp [hne]⟩⟩ x x (hE x hx) [0, 1, 1] (hB x hx) (by
        show ∀ c ∈ [0, 1, 1], c < m.mps.outputDim
        rw [hO]; decide) none (Or.inl (Or.inl le_rfl))
    exact ⟨y, L, k1, k2, k3⟩

end TorchMPS
