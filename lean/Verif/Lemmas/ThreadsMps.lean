import Verif.Lemmas.ThreadsModel
import Verif.Lemmas.ThreadsExec
import Verif.Lemmas.ThreadsRun
import Verif.Spec.Threads
import Verif.Props.Mps
import Verif.Props.TiMps
/-
Accesses of the models to the global batch size.
-/
namespace TorchMPS
open Spec Prog
variable {K : Type} {α β : Type}
namespace Threads

theorem mps_outAxes (k : ℕ) (ub : Bool) (p : Params K) (m : MPS K) (h : IsMps k ub p m) : ∀ md ∈ m.modules, OutAxes md := by
  intro md hmd
  rw [h.modules] at hmd
  simp only [List.mem_append, List.mem_cons] at hmd
  rcases hmd with hmd | rfl | hmd
  · split at hmd
    · simp at hmd
    · rw [List.mem_singleton.1 hmd]; trivial
  · show p.out.shape.length = 3
    rw [h.out]; rfl
  · split at hmd
    · simp at hmd
    · rw [List.mem_singleton.1 hmd]; trivial

theorem mpsForward_embedded [CommRing K] (m : MPS K) (x e : Tensor K) (h : Embedded m x e) :
    mpsForward m x = linearForward m.modules m.periodic m.parallel e := by
  obtain ⟨x', h1, h2⟩ := h
  unfold mpsForward
  rw [h1, Prog.lift_ok_bind, h2, Prog.lift_ok_bind]

theorem embedded_head [CommRing K] (m : MPS K) (x e : Tensor K) (h : Embedded m x e) : e.shape = [e.shape.getD 0 0, m.inputDim, m.featureDim] := by
  obtain ⟨x', h1, h2⟩ := h
  have := embed_shape m x' e h2
  rw [this]; rfl

theorem keeps_mps [CommRing K] (k : ℕ) (ub : Bool) (p : Params K) (m : MPS K) (h : IsMps k ub p m) (x e : Tensor K) (he : Embedded m x e) :
    (mpsForward m x).Keeps (e.shape.getD 0 0) := by
  rw [mpsForward_embedded m x e he]
  refine wp_linearForward _ (mps_outAxes k ub p m h) _ _ _ _ ?_
  rw [embedded_head m x e he]; rfl

theorem setsFirst_mkMatRegion (t : Tensor K) (n : ℕ) (h2 : t.shape.head? = some n) (h3 : t.shape.length = 4) : (mkMatRegion t).SetsFirst n := by
  obtain ⟨sh, hsh⟩ := head_cons h2
  unfold mkMatRegion
  split
  · exact Or.inl ⟨_, rfl⟩
  · refine Or.inr ⟨pure ⟨.matRegion, t, ['b', 's', 'l', 'r']⟩, ?_⟩
    have hne : ¬ needsExpand ['b', 's', 'l', 'r'] t.ndim := by
      unfold needsExpand
      simp [Tensor.ndim, h3]
    unfold mkContractable
    congr 1
    funext g
    rw [if_neg (by simp [hsh]), if_neg hne, if_neg (by simp [Tensor.ndim, h3]), hsh]
    rfl

theorem setsFirst_region [CommSemiring K] (t : Tensor K) (bias : Option (Tensor K)) (x : Tensor K) (B : ℕ) (hx : x.shape.head? = some B) :
    (moduleForward (.inputRegion t bias) x).SetsFirst B := by
  refine setsFirst_lift_bind _ _ _ fun v hv => ?_
  obtain ⟨h1, h2⟩ := inputRegionMats_batch t bias x v B hx hv
  exact setsFirst_mkMatRegion v B h1 h2

theorem sets_mps [CommRing K] (k : ℕ) (ub : Bool) (p : Params K) (m : MPS K) (h : IsMps k ub p m) (hk : 1 ≤ k) (x e : Tensor K) (he : Embedded m x e) :
    (mpsForward m x).SetsFirst (e.shape.getD 0 0) := by
  rw [mpsForward_embedded m x e he]
  unfold linearForward
  refine setsFirst_lift_bind _ _ _ fun _ _ => setsFirst_lift_bind _ _ _ fun _ _ => SetsFirst.bind ?_ _
  rw [h.modules, if_neg (by omega)]
  simp only [List.singleton_append, runModules]
  refine SetsFirst.bind (setsFirst_region _ _ _ _ ?_) _
  refine pickInput_batch e _ ?_ _ _
  rw [embedded_head m x e he]; rfl

theorem wp_outputMat {R : Option ℕ → Prop} {W : ℕ → Prop} (v : Tensor K) (hv : v.shape.length = 2) (b : Bool) :
    Wp R W (mkOutputMat v b) (fun c => ∃ n, R (some n) ∧ Batched n c) := by
  unfold mkOutputMat
  rw [if_neg (by simp [Tensor.ndim, hv])]
  refine wp_expand _ _ _ _ rfl ?_ (by rw [hv]; rfl) (by simp [ClsLen]) (fun c n hn hc => ⟨n, hn, hc⟩)
  intro h
  rw [h] at hv
  simp at hv

theorem mkInputRegion_is [CommRing K] (t : Tensor K) (ub : Bool) (b : Option (Tensor K)) (r : Module K) (h : mkInputRegion t ub b = .ok r) :
    ∃ bias, r = .inputRegion t bias := by
  unfold mkInputRegion at h
  obtain ⟨_, _, h⟩ := bind_inv h
  obtain ⟨_, _, h⟩ := bind_inv h
  split at h
  · obtain ⟨_, _, h⟩ := bind_inv h
    cases h
    exact ⟨_, rfl⟩
  · cases h
    exact ⟨_, rfl⟩

theorem keeps_ti [CommRing K] (m : TiMps K) (h : IsTi m) (B n : ℕ) (inp : TiInput K) (hi : TiAccepts m B n inp) : (tiForward m inp).Keeps B := by
  obtain ⟨x, x1, x2, _⟩ := C69_accepted m B n inp hi
  have hx : x.shape.head? = some B := by rw [x2]; rfl
  unfold tiForward
  rw [x1, Prog.lift_ok_bind]
  refine wp_lift_bind _ _ _ fun core _ => wp_lift_bind _ _ _ fun r hr => ?_
  obtain ⟨bias, rfl⟩ := mkInputRegion_is _ _ _ _ hr
  refine wp_bind _ _ _ _ (wp_moduleForward (R := (· = some B)) (W := (· = B)) _ x B trivial hx rfl) ?_
  rintro c ⟨n1, h1, c1⟩
  refine wp_bind _ _ _ _ (wp_edge (R := (· = some B)) (W := (· = B)) _ (by rw [h.initVec]; rfl) _) ?_
  rintro e ⟨n2, h2, c2⟩
  refine wp_bind _ _ _ _ (wp_outputMat (R := (· = some B)) (W := (· = B)) _ (by rw [h.termMat]; rfl) _) ?_
  rintro t ⟨n3, h3, c3⟩
  have e1 : n1 = B := by
    rcases h1 with h | h
    · exact h
    · exact Option.some.inj h
  have e2 : n2 = B := Option.some.inj h2
  have e3 : n3 = B := Option.some.inj h3
  subst e1 e2 
  subst e3
  refine wp_bind _ _ _ _ (wp_reduceList (R := (· = some n3)) (W := (· = n3)) [n3, n3, n3] _ _ (.cons c2 (.cons c1 (.cons c3 .nil))) (by simp)) ?_
  rintro o _
  refine wp_lift_bind _ _ _ fun _ _ => wp_lift_bind _ _ _ fun _ _ => wp_lift_bind _ _ _ fun _ _ => wp_pure _ _ trivial

theorem sets_ti [CommRing K] (m : TiMps K) (B n : ℕ) (inp : TiInput K) (hi : TiAccepts m B n inp) : (tiForward m inp).SetsFirst B := by
  obtain ⟨x, x1, x2, _⟩ := C69_accepted m B n inp hi
  have hx : x.shape.head? = some B := by rw [x2]; rfl
  unfold tiForward
  rw [x1, Prog.lift_ok_bind]
  refine setsFirst_lift_bind _ _ _ fun core _ => setsFirst_lift_bind _ _ _ fun r hr => ?_
  obtain ⟨bias, rfl⟩ := mkInputRegion_is _ _ _ _ hr
  exact SetsFirst.bind (setsFirst_region _ _ _ _ hx) _

theorem call_run [CommRing K] (c : Call K) (g : Option ℕ) : (c.program.run g).1 = c.alone g := by
  cases c with
  | mps m x => simp only [Call.program, Call.alone, run_mpsForward]
  | ti m inp => simp only [Call.program, Call.alone, run_tiForward]

theorem call_keeps [CommRing K] (c : Call K) (B : ℕ) (h : c.OnBatch B) : c.program.Keeps B := by
  cases c with
  | mps m x =>
    obtain ⟨⟨k, ub, p, h1⟩, e, h2, rfl⟩ := h
    exact keeps_mps k ub p m h1 x e h2
  | ti m inp =>
    obtain ⟨h1, n, h2⟩ := h
    exact keeps_ti m h1 B n inp h2

theorem call_sets [CommRing K] (c : Call K) (B : ℕ) (h : c.OnBatch B) (hl : c.LabelInside) : c.program.SetsFirst B := by
  cases c with
  | mps m x =>
    obtain ⟨_, e, h2, rfl⟩ := h
    obtain ⟨k, ub, p, h1, hk⟩ := hl
    exact sets_mps k ub p m h1 hk x e h2
  | ti m inp =>
    obtain ⟨h1, n, h2⟩ := h
    exact sets_ti m B n inp h2

end Threads
end TorchMPS
