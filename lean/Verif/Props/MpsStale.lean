import Verif.Props.Mps
import Verif.Lemmas.StaleMps
/-
C46, C54: products of objects of different batch sizes, and the MPS with its output core in front.
-/
namespace TorchMPS
open Spec
variable {K : Type}

/-- C46: an object with a single sample is silently multiplied with every sample of the other factor, as if the sample were
repeated. -/
theorem C46_broadcast [CommSemiring K] (x y : Contractable K) (hx : Labelled x) (hy : Labelled y) (hcls : CanMultiply x.cls y.cls) (g : Option ℕ) :
    (axis x 'b' = 1 → star x y g = star (repeatSample (axis y 'b') x) y g) ∧
    (axis y 'b' = 1 → star x y g = star x (repeatSample (axis x 'b') y) g) :=
  star_repeat x y hx hy hcls g

theorem label0_mats [CommRing K] (ub : Bool) (p : Params K) (m : MPS K) (e : Tensor K) (b o : ℕ) :
    mpsMats m.bondDim m.featureDim m.inputDim 0 ub p e b o =
      outMat m.bondDim p o :: pixelMats m.bondDim m.featureDim 0 ub p e b 0 m.inputDim := by
  unfold mpsMats
  simp [pixelMats]

/-- the outcome of a call of a model with the output core in front -/
theorem label0_forward [CommRing K] (ub : Bool) (p : Params K) (m : MPS K) (h : IsMps 0 ub p m) (hD : m.periodic = true ∨ 1 ≤ m.bondDim)
    (hn : 2 ≤ m.inputDim) (x e : Tensor K) (he : Embedded m x e) (b0 : ℕ) :
    (b0 ≠ e.shape.getD 0 0 → b0 ≠ 1 → e.shape.getD 0 0 ≠ 1 → (m.forward x (some b0)).1 = .error .runtime) ∧
    (∀ M, Common b0 (e.shape.getD 0 0) M → ∃ y, (m.forward x (some b0)).1 = .ok y ∧ y.shape = [M, m.outputDim] ∧
      ∀ b < M, ∀ o < m.outputDim,
        y.get [b, o] = mpsValue m.bondDim m.featureDim m.inputDim 0 ub m.periodic p e (row (e.shape.getD 0 0) b) o) := by
  obtain ⟨f1, f2, f3, f4, _⟩ := mps_facts 0 ub p m h
  have hs := f4 ⟨by omega, by omega⟩
  obtain ⟨x1, x2, x3⟩ := he
  have hsh := embed_shape m x1 e x3
  have he : Embedded m x e := ⟨x1, x2, x3⟩
  set B := e.shape.getD 0 0 with hB
  have hsh' : e.shape = [B, m.inputDim, m.featureDim] := by rw [hB, hsh]; rfl
  have hmods := h.modules
  rw [if_pos rfl, if_neg (by omega), List.nil_append] at hmods
  set reg : Module K := .inputRegion p.right (if ub then some p.rightBias else none) with hreg
  obtain ⟨oc, o1, o2⟩ := module_forward m.bondDim m.featureDim m.outputDim b0 m.inputDim 0 ⟨[b0, m.inputDim, m.featureDim], e.get⟩ rfl
    (.outputSite p.out) (f1 _ (by rw [hmods]; simp)) (hs _ (by rw [hmods]; simp)) (some b0) (fun _ => rfl)
  obtain ⟨rc, r1, r2⟩ := module_forward m.bondDim m.featureDim m.outputDim B m.inputDim 0 e hsh'
    reg (f1 _ (by rw [hmods]; simp)) (hs _ (by rw [hmods]; simp)) (some b0) (fun hh => absurd hh id)
  have hrun : runModules e 0 m.modules (some b0) = (.ok [oc, rc], some B) := by
    rw [hmods]
    simp only [runModules]
    have o1' : (Module.outputSite p.out).forward (pickInput e 0 (Module.outputSite p.out).len) (some b0) = (.ok oc, some b0) := by
      have : ∀ z z' : Tensor K, (Module.outputSite p.out).forward z = (Module.outputSite p.out).forward z' := by
        intro z z'
        simp only [Module.forward]
      rw [this _ (pickInput ⟨[b0, m.inputDim, m.featureDim], e.get⟩ 0 (Module.outputSite p.out).len)]
      exact o1
    rw [CM.bind_ok o1']
    have r1' : reg.forward (pickInput e (0 + (Module.outputSite p.out).len) reg.len) (some b0) = (.ok rc, some B) := r1
    rw [CM.bind_ok (show ((_ : CM _) (some b0)) = (.ok [rc], some B) from ?_)]
    · rfl
    · rw [CM.bind_ok r1']
      rfl
  have hfw : m.forward x (some b0) = (if m.periodic then closeRing [oc, rc] else closeOpen [oc, rc] m.parallel) (some B) := by
    rw [forward_of_embedded m x e he]
    unfold linearForward
    rw [assert_true _ (by simp [Tensor.ndim, hsh']), assert_true _ (by simp [hsh', f3]), CM.bind_ok (CM.lift_apply _ _), CM.bind_ok (CM.lift_apply _ _),
      CM.bind_ok hrun]
  have hocp : Piece b0 oc ∧ oc.cls = .outputCore ∧ axis oc 'o' = m.outputDim := ⟨o2.piece, (o2.out trivial).1, (o2.out trivial).2⟩
  have hrcls : rc.cls = .matRegion := by
    simp only [Module.forward, hreg] at r1
    have key : ∀ (t : Tensor K) g c g', mkMatRegion t g = (.ok c, g') → c.cls = .matRegion := by
      intro t g c g' hq
      unfold mkMatRegion at hq
      split at hq
      · cases hq
      · unfold mkContractable at hq
        split at hq
        · cases hq
        · split at hq
          · simp only [bind, CM.bind, CM.get] at hq
            cases g with
            | none => cases hq
            | some n => cases hq; rfl
          · split at hq
            · cases hq
            · cases hq; rfl
    cases hm : inputRegionMats p.right (if ub then some p.rightBias else none) (pickInput e 0 reg.len) with
    | error er =>
      rw [← hreg, hm] at r1
      cases r1
    | ok t =>
      rw [← hreg, hm, CM.bind_ok (CM.lift_apply _ _)] at r1
      exact key t _ _ _ r1
  have hA : ∀ b < b0, ∀ o < m.outputDim, matOf oc b o = outMat m.bondDim p o := by
    intro b hb o ho
    have := o2.mats b hb o ho
    rw [factors_single oc (by rw [hocp.2.1]; decide)] at this
    simpa [moduleMats, outMat] using this
  have hfac : ∀ b < B, ∀ o < m.outputDim, factors rc b o = pixelMats m.bondDim m.featureDim 0 ub p e b 0 m.inputDim := by
    intro b hb o ho
    rw [r2.mats b hb o ho]
    have hc := chain_mps 0 ub p m h e b o
    rw [label0_mats, hmods] at hc
    simp only [chainMats, List.append_nil, Module.len, Nat.add_zero] at hc
    rw [show moduleMats m.bondDim m.featureDim e b o 0 (Module.outputSite p.out) = [outMat m.bondDim p o] from rfl] at hc
    simpa using hc
  have hval : ∀ b < B, ∀ o < m.outputDim, ∀ P, orderedProd (outMat m.bondDim p o :: factors rc b o) = some P →
      mpsValue m.bondDim m.featureDim m.inputDim 0 ub m.periodic p e b o =
        if m.periodic then ∑ i ∈ Finset.range m.bondDim, P.e i i else P.e 0 0 := by
    intro b hb o ho P hP
    unfold mpsValue
    rw [label0_mats, ← hfac b hb o ho, hP]
  cases hper : m.periodic with
  | false =>
    rw [hper] at hfw hval
    simp only [Bool.false_eq_true, if_false] at hfw hval
    obtain ⟨s1, s2⟩ := stale_open m.bondDim B b0 m.outputDim (hD.resolve_left (by simp [hper])) oc rc (outMat m.bondDim p) hocp hA (fun _ => ⟨rfl, rfl⟩)
      ⟨r2.piece, hrcls⟩ (by
        intro b hb o ho C hC
        rw [hfac b hb o ho] at hC
        exact pixelMats_size _ _ _ _ _ _ _ _ _ C hC) ⟨o2.left, o2.right⟩ ⟨r2.left, r2.right⟩ m.parallel
    refine ⟨fun h1 h2 h3 => ?_, fun M hM => ?_⟩
    · obtain ⟨g', hg'⟩ := s1 h1 h2 h3
      rw [hfw, hg']
    · obtain ⟨y, g', y1, y2, y3⟩ := s2 M hM
      refine ⟨y, by rw [hfw, y1], y2, ?_⟩
      intro b hb o ho
      obtain ⟨P, p1, p2⟩ := y3 b hb o ho
      rw [p2, hval _ (hM.row_lt b hb).1 o ho P p1]
  | true =>
    rw [hper] at hfw hval
    simp only [if_true] at hfw hval
    obtain ⟨s1, s2⟩ := stale_ring m.bondDim B b0 m.outputDim oc rc (outMat m.bondDim p) hocp hA
      ⟨r2.piece, hrcls⟩ ⟨o2.left, o2.right⟩ ⟨r2.left, r2.right⟩ (some B)
    refine ⟨fun h1 h2 h3 => ?_, fun M hM => ?_⟩
    · obtain ⟨g', hg'⟩ := s1 h1 h2 h3
      rw [hfw, hg']
    · obtain ⟨y, g', y1, y2, y3⟩ := s2 M hM
      refine ⟨y, by rw [hfw, y1], y2, ?_⟩
      intro b hb o ho
      obtain ⟨P, p1, p2⟩ := y3 b hb o ho
      rw [p2, hval _ (hM.row_lt b hb).1 o ho P p1]

/-- C54, label_site 0 (with at least two pixels): the outcome of a call on a batch of size `B` when the last object with an explicit
batch axis, whoever made it, had batch size `b0`. If `b0 = B`, `b0 = 1` or `B = 1` the call returns the correct row for every sample,
but for `B = 1` it returns `b0` copies of the only row; otherwise it raises RuntimeError. -/
theorem C54_label0 [CommRing K] (ub : Bool) (p : Params K) (m : MPS K) (h : IsMps 0 ub p m) (hD : m.periodic = true ∨ 1 ≤ m.bondDim)
    (hn : 2 ≤ m.inputDim) (x e : Tensor K) (he : Embedded m x e) (B : ℕ) (hB : e.shape.getD 0 0 = B) (b0 : ℕ) :
    ∃ y, (m.forward x (some B)).1 = .ok y ∧ y.shape = [B, m.outputDim] ∧
      (b0 = B ∨ b0 = 1 ∨ B = 1 → ∃ z, (m.forward x (some b0)).1 = .ok z ∧ z.shape = [if B = 1 then b0 else B, m.outputDim] ∧
        ∀ b < (if B = 1 then b0 else B), ∀ o < m.outputDim, z.get [b, o] = y.get [if B = 1 then 0 else b, o]) ∧
      (b0 ≠ B → b0 ≠ 1 → B ≠ 1 → (m.forward x (some b0)).1 = .error .runtime) := by
  subst hB
  obtain ⟨y, _, y1, y2, y3⟩ := mps_forward 0 ub p m h hD ⟨by omega, by omega⟩ x e he _ rfl (some (e.shape.getD 0 0)) (Or.inr rfl)
  obtain ⟨s1, s2⟩ := label0_forward ub p m h hD hn x e he b0
  refine ⟨y, by rw [y1], y2, ?_, s1⟩
  intro hc
  obtain ⟨z, z1, z2, z3⟩ := s2 (if e.shape.getD 0 0 = 1 then b0 else e.shape.getD 0 0) (by unfold Common; split <;> omega)
  refine ⟨z, z1, z2, ?_⟩
  intro b hb o ho
  rw [z3 b hb o ho, y3 _ (by split at hb <;> split <;> omega) o ho]
  rfl

/-- C54, label_site 0 (with at least two pixels): a call on a batch of size `B` returns a tensor of shape [B, output_dim] exactly when
the last object with an explicit batch axis had batch size `B` or 1. -/
theorem C54_label0_iff [CommRing K] (ub : Bool) (p : Params K) (m : MPS K) (h : IsMps 0 ub p m) (hD : m.periodic = true ∨ 1 ≤ m.bondDim)
    (hn : 2 ≤ m.inputDim) (x e : Tensor K) (he : Embedded m x e) (g : Option ℕ) :
    (∃ y, (m.forward x g).1 = .ok y ∧ y.shape = [e.shape.getD 0 0, m.outputDim]) ↔ g = some (e.shape.getD 0 0) ∨ g = some 1 := by
  cases g with
  | none =>
    rw [C54_label0_first_call ub p m h x e he]
    simp
  | some b0 =>
    obtain ⟨y, y1, y2, y3, y4⟩ := C54_label0 ub p m h hD hn x e he _ rfl b0
    simp only [Option.some.injEq]
    constructor
    · rintro ⟨z, z1, z2⟩
      by_contra hcon
      push Not at hcon
      by_cases hB : e.shape.getD 0 0 = 1
      · obtain ⟨w, w1, w2, _⟩ := y3 (Or.inr (Or.inr hB))
        rw [w1] at z1
        cases z1
        rw [w2, if_pos hB] at z2
        simp only [List.cons.injEq, and_true] at z2
        exact hcon.1 z2
      · rw [y4 hcon.1 hcon.2 hB] at z1
        cases z1
    · intro hc
      obtain ⟨w, w1, w2, _⟩ := y3 (by tauto)
      refine ⟨w, w1, ?_⟩
      rw [w2]
      split
      · rename_i hB
        rw [hB] at hc ⊢
        rw [show b0 = 1 by tauto]
      · rfl

theorem label0_none [CommRing K] (ub : Bool) (p : Params K) (m : MPS K) (h : IsMps 0 ub p m) (x : Tensor K) :
    (∃ er, (m.forward x none).1 = .error er) ∧ (m.forward x none).2 = none := by
  cases h1 : followPath m.path x with
  | error er =>
    have : m.forward x none = (.error er, none) := by
      unfold MPS.forward
      rw [h1]
      rfl
    rw [this]
    exact ⟨⟨er, rfl⟩, rfl⟩
  | ok x' =>
    cases h2 : m.embedInput x' with
    | error er =>
      have : m.forward x none = (.error er, none) := by
        unfold MPS.forward
        rw [h1, CM.bind_ok (CM.lift_apply _ _), h2]
        rfl
      rw [this]
      exact ⟨⟨er, rfl⟩, rfl⟩
    | ok e =>
      rw [C54_label0_first_call ub p m h x e ⟨x', h1, h2⟩]
      exact ⟨⟨_, rfl⟩, rfl⟩

/-- C54: in a process in which only models with label_site 0 are used, every call of every one of them raises. -/
theorem C54_label0_alone [CommRing K] (hist : List (MPS K × Tensor K)) (hh : ∀ c ∈ hist, ∃ ub p, IsMps 0 ub p c.1)
    (m : MPS K) (ub : Bool) (p : Params K) (h : IsMps 0 ub p m) (x : Tensor K) :
    ∃ er, (m.forward x (afterCalls none hist)).1 = .error er := by
  have : afterCalls none hist = none := by
    induction hist with
    | nil => rfl
    | cons c cs ih =>
      obtain ⟨ub', p', hc⟩ := hh c (by simp)
      rw [afterCalls, (label0_none ub' p' c.1 hc c.2).2]
      exact ih (fun a ha => hh a (by simp [ha]))
  rw [this]
  exact (label0_none ub p m h x).1

/-- C54: without any pixel the number of rows is always the stale batch size. -/
theorem C54_no_pixels [CommRing K] (ub : Bool) (p : Params K) (m : MPS K) (h : IsMps 0 ub p m) (hD : m.periodic = true ∨ 1 ≤ m.bondDim)
    (hn : m.inputDim = 0) (x e : Tensor K) (he : Embedded m x e) (b0 : ℕ) :
    ∃ y, (m.forward x (some b0)).1 = .ok y ∧ y.shape = [b0, m.outputDim] := by
  obtain ⟨x1, x2, x3⟩ := he
  have hsh := embed_shape m x1 e x3
  have hmods := h.modules
  rw [if_pos rfl, if_pos hn.symm, List.nil_append] at hmods
  have hE : Embedded m x e := ⟨x1, x2, x3⟩
  have hE' : Embedded ({ m with path := none } : MPS K) ⟨[b0, m.inputDim, m.featureDim], e.get⟩ ⟨[b0, m.inputDim, m.featureDim], e.get⟩ :=
    ⟨_, rfl, embed_embedded _ b0 _ rfl⟩
  have h' : IsMps 0 ub p ({ m with path := none } : MPS K) := ⟨h.label, h.modules, h.left, h.leftBias, h.out, h.right, h.rightBias⟩
  obtain ⟨y, g', y1, y2, _⟩ := mps_forward 0 ub p _ h' hD ⟨by omega, by simp [hn]⟩ _ _ hE' b0 rfl (some b0) (Or.inr rfl)
  refine ⟨y, ?_, y2⟩
  rw [forward_of_embedded m x e hE]
  rw [forward_of_embedded _ _ _ hE'] at y1
  unfold linearForward at y1 ⊢
  have hlen : modulesLen m.modules = 0 := by rw [hmods]; rfl
  rw [assert_true _ (by simp [Tensor.ndim]), assert_true _ (by simp [hlen, hn]), CM.bind_ok (CM.lift_apply _ _), CM.bind_ok (CM.lift_apply _ _)] at y1
  rw [assert_true _ (by simp [Tensor.ndim, hsh]), assert_true _ (by simp [hsh, hlen, hn]), CM.bind_ok (CM.lift_apply _ _), CM.bind_ok (CM.lift_apply _ _)]
  simp only [hmods, runModules, Module.forward] at y1 ⊢
  rw [y1]

/-- Concrete cases meeting the hypotheses of C54_label0, C54_label0_iff and C54_label0_alone: the batch of three samples of label0Model
after a batch of size 3, 1 (accepted) and 2 (rejected). -/
example : ∃ p, IsMps 0 false p label0Model ∧ 2 ≤ label0Model.inputDim ∧ 1 ≤ label0Model.bondDim ∧
    Embedded label0Model ⟨[3, 2, 2], fun _ => 1⟩ ⟨[3, 2, 2], fun _ => 1⟩ := by
  obtain ⟨⟨p, hp⟩, _⟩ := C54_label0_stale_batch
  exact ⟨p, hp, le_rfl, le_rfl, ⟨_, rfl, rfl⟩⟩

/-- Concrete case for C46_broadcast: an output core with a single sample and an edge vector with two samples. -/
example : Labelled (⟨.outputCore, ⟨[1, 2, 3, 3], fun _ => 1⟩, ['b', 'o', 'l', 'r']⟩ : Contractable ℤ) ∧
    Labelled (⟨.edgeVec, ⟨[2, 3], fun _ => 1⟩, ['b', 'l']⟩ : Contractable ℤ) ∧ CanMultiply .outputCore .edgeVec := by
  refine ⟨⟨rfl, ?_, ?_, rfl⟩, ⟨rfl, ?_, ?_, rfl⟩, trivial⟩ <;> simp [lowercases]

end TorchMPS
