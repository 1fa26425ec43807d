import Verif.Props.RegistryAd
import Verif.Props.RegistryProb
import Verif.Props.Witness
import Verif.Props.TiMps
import Verif.Props.Gauge
/-
Concrete cases meeting the hypotheses of the theorems on saving and loading.
-/
namespace TorchMPS
open Spec

/-- C87_mps: two models of five pixels with other cores -/
example (A A' : ℕ → ℕ → ℕ → ℕ → ℤ) (C C' : ℕ → ℕ → ℕ → ℤ) (per : Bool) :
    (gaugeModel 2 A' C' per).loadStateDict (gaugeModel 2 A C per).stateDict = (.ok (), gaugeModel 2 A C per) :=
  C87_mps 2 false _ _ _ _ (gauge_isMps 2 A C per) (gauge_isMps 2 A' C' per) ⟨rfl, rfl, rfl, rfl, rfl, rfl, rfl⟩

/-- C87_mps_accepts_iff: another bond dimension is refused, other boundary conditions are not noticed -/
example (A A' : ℕ → ℕ → ℕ → ℕ → ℤ) (C C' : ℕ → ℕ → ℕ → ℤ) :
    ((gaugeModel 4 A' C' true).loadStateDict (gaugeModel 2 A C true).stateDict).1 = .error .runtime ∧
    ((gaugeModel 2 A' C' false).loadStateDict (gaugeModel 2 A C true).stateDict).1 = .ok () := by
  constructor
  · have h := C87_mps_accepts_iff 2 2 false false _ _ _ _ (gauge_isMps 2 A C true) (gauge_isMps 4 A' C' true)
    refine h.2 fun hok => ?_
    obtain ⟨-, -, h3, -⟩ := h.1.1 hok
    simp [gaugeModel, withParams] at h3
  · exact (C87_mps_accepts_iff 2 2 false false _ _ _ _ (gauge_isMps 2 A C true) (gauge_isMps 2 A' C' false)).1.2 ⟨rfl, rfl, rfl, rfl, fun _ => ⟨rfl, rfl⟩⟩

/-- C87_mps_restored: a model just constructed is restored by another one -/
example (d d' : Draws) : ∃ m m', MPS.init d ⟨8, 10, 5, 2, false, true, none, .none, 1e-9, true⟩ = .ok m ∧
    MPS.init d' ⟨8, 10, 5, 2, false, true, none, .none, 1e-9, true⟩ = .ok m' ∧
    ∀ x g, (m'.loadStateDict m.stateDict).2.forward x g = m.forward x g := by
  obtain ⟨m, p, q1, q2, q3, q4, q5, q6, q7, q8, q9, q10⟩ := C55_construction d ⟨8, 10, 5, 2, false, true, none, .none, 1e-9, true⟩ 4 (by decide)
    (Or.inr ⟨rfl, rfl⟩) none rfl
  obtain ⟨m', r1, r2, r3, r4⟩ := C87_mps_restored d d' ⟨8, 10, 5, 2, false, true, none, .none, 1e-9, true⟩ 4 (by decide)
    (Or.inr ⟨rfl, rfl⟩) none rfl m m q1 p q2 ⟨rfl, rfl, rfl, rfl, rfl, rfl, rfl⟩
  exact ⟨m, m', q1, r1, r4 q10⟩

/-- C88_restart: the model of `exAd_history` has been flipped once, its state is refused by a new model, which is changed nevertheless -/
example (d d' : Draws) (x : Tensor ℝ) (hx : x.shape = [3, 4, 2]) (g : Option ℕ) : ∃ (m0 : AdMps) (m m' : HMps) (g' : Option ℕ),
    AdMps.init d exAdArgs (1 / 10) 3 = .ok m0 ∧ History someSvd popHead m0 g [3, 3] [false, true] (HMps.read m) g' ∧ HMps.init d' exAdArgs (1 / 10) 3 = .ok m' ∧
    (m'.loadStateDict m.stateDict).1 = .error .runtime ∧ (HMps.read (m'.loadStateDict m.stateDict).2).region.list0 = (HMps.read m).region.list0 := by
  obtain ⟨m0, v, g', h1, h2, h3, h4, h5, h6, h7, h8⟩ := exAd_history d x hx g
  obtain ⟨s1, ⟨f, s2⟩, s3, s4⟩ := C61_structure someSvd someSvd_spec popHead popHead_mem 1 m0 v g g' _ _ h2 (by rw [h4]) h7
  -- the objects holding these values
  let l := v.region.list0 ++ v.region.list1
  let n := v.region.list0.length
  let hp : Heap := ⟨l.length, fun i => l.getD i (.outputSite ⟨[], fun _ => 0⟩)⟩
  let m : HMps := ⟨v.mps, ⟨hp, List.range' 0 n, List.range' n v.region.list1.length, v.region.offset, none, v.region.counter, v.region.threshold, v.region.cutoff⟩,
    v.bondList, v.svList⟩
  have hr : HMps.read m = v := by
    have e0 : (List.range' 0 n).map hp.mem = v.region.list0 := by
      refine List.ext_getElem (by simp [n]) fun i hi hi' => ?_
      simp [hp, l, List.getD_eq_getElem?_getD, List.getElem?_append, hi']
    have e1 : (List.range' n v.region.list1.length).map hp.mem = v.region.list1 := by
      refine List.ext_getElem (by simp) fun i hi hi' => ?_
      simp [hp, l, n, List.getD_eq_getElem?_getD, List.getElem?_append, hi']
    have e2 := s1.stray
    obtain ⟨vm, ⟨a0, a1, ao, ast, ac, at', acut⟩, vb, vs⟩ := v
    simp only at e2
    subst e2
    simp only [HMps.read, m, Heap.vals, Option.map_none]
    simp only at e0 e1
    rw [e0, e1]
  have hpr : Proper m := by
    refine ⟨s1.offset, ?_, ?_, rfl⟩
    · intro i hi
      simp only [m, List.mem_append, List.mem_range'_1, n] at hi
      simp only [m, hp, l, List.length_append]
      omega
    · simp only [m]
      refine List.nodup_append.2 ⟨List.nodup_range', List.nodup_range', fun a ha b hb => ?_⟩
      simp only [List.mem_range'_1] at ha hb
      omega
  obtain ⟨m', i1, i2, -⟩ := C88_restart someSvd someSvd_spec popHead popHead_mem d d' exAdArgs (1 / 10) 3 1 (by decide) (by decide) (by decide) (Or.inl rfl) none rfl m0 h1 m hpr
    g g' _ _ (by rw [hr]; exact h7)
  obtain ⟨m'', j1, j2, j3, -⟩ := C86_construction d' exAdArgs (1 / 10) 3 1 (by decide) (by decide) (Or.inl rfl) none rfl
  rw [i1] at j1
  cases j1
  obtain ⟨w, k1, k2, k3, k4, k5, k6, -⟩ := C59_construction d' exAdArgs (1 / 10) 3 1 (by decide) (by decide) (Or.inl rfl) none rfl
  rw [j2] at k1
  cases k1
  obtain ⟨w, c1, c2, c3, c4, c5, c6, -⟩ := C59_construction d exAdArgs (1 / 10) 3 1 (by decide) (by decide) (Or.inl rfl) none rfl
  rw [h1] at c1
  cases c1
  have e : m.mps = { m0.mps with featureMap := f } := s2
  have kk : (HMps.read m').mps = m'.mps := rfl
  rw [kk] at k3 k4 k5 k6
  obtain ⟨-, l2, -⟩ := C88_load 1 m m' hpr j3 (by rw [hr]; exact s1) k2 (by rw [e, k3]; exact c3) (by rw [e, k4]; exact c4) (by rw [e, k5]; exact c5) (by rw [e, k6]; exact c6)
  refine ⟨m0, m, m', g', h1, by rw [hr]; exact h7, i1, by rw [i2]; simp, by rw [l2]⟩

/-- C87_ti_mps: two new models of the same sizes -/
example (d d' : TiDraws) (par fe fe' fb fb' : Bool) : ∃ m m', TiMps.init d 3 4 2 par fe 1e-9 true fb = .ok m ∧ TiMps.init d' 3 4 2 par fe' 1e-9 true fb' = .ok m' ∧
    (m'.loadStateDict m.stateDict).1 = .ok () := by
  obtain ⟨m, h1, h2, h3, h4, h5, h6, h7, -⟩ := (C66_construction d 3 4 2 par fe 1e-9 true fb).2 (by omega)
  obtain ⟨m', k1, k2, k3, k4, k5, k6, k7, -⟩ := (C66_construction d' 3 4 2 par fe' 1e-9 true fb').2 (by omega)
  refine ⟨m, m', h1, k1, ?_⟩
  rw [(C87_ti_mps m m' h2 k2 (by rw [h7]; simp) (by rw [k7]; simp)).1 ⟨by rw [h4, k4], by rw [h5, k5], by rw [h3, k3], by rw [h7, k7]⟩]

/-- C87_prob_mps_restored: models without embedding -/
example (u : Bool) (c c' e e' : Tensor ℝ) (hc : c.shape = c'.shape) (he : e.shape = e'.shape) :
    (⟨u, c', e', none, none⟩ : ProbObject ℝ).loadStateDict (⟨u, c, e, none, none⟩ : ProbObject ℝ).stateDict = (.ok (), ⟨u, c, e, none, none⟩) :=
  C87_prob_mps_restored _ _ rfl hc he rfl rfl (by simp)

end TorchMPS
