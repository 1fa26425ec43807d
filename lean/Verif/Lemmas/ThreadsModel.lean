import Verif.Lemmas.ThreadsList
import Verif.Lemmas.TiMps
/-
Batch sizes in the programs of Model/Threads.lean: modules and models.
-/
namespace TorchMPS
open Spec Prog
variable {K : Type} {α β : Type}
namespace Threads
variable {R : Option ℕ → Prop} {W : ℕ → Prop}

theorem einsum_batch2 [CommSemiring K] (u1 u2 out : List Char) (x y t : Tensor K) (B : ℕ) (h1 : 'b' ∉ u1) (h2 : 'b' ∉ u2)
    (hy : y.shape.head? = some B) (h : einsum [u1, 'b' :: u2] ('b' :: out) [x, y] = .ok t) : t.shape.head? = some B := by
  obtain ⟨s1, hs1⟩ := head_cons hy
  unfold einsum at h
  simp only at h
  split at h
  · cases h
    simp only [List.zip_cons_cons, List.zip_nil_right, List.flatMap_cons, List.flatMap_nil, List.append_nil]
    simp only [List.map_cons, List.head?_cons, Option.some.injEq]
    unfold letterSize
    have hnil : (u1.zip x.shape).filter (fun v => v.1 = 'b') = [] := by
      rw [List.filter_eq_nil_iff]
      intro v hv
      have := (List.of_mem_zip hv).1
      simp only [decide_eq_true_eq]
      intro h
      exact h1 (h ▸ this)
    rw [List.filter_append, hnil, hs1, filter_b u2 B s1 h2]
    by_cases hB : B = 1 <;> simp [hB, List.find?]
  · cases h

theorem inputRegionMats_batch [CommSemiring K] (t : Tensor K) (bias : Option (Tensor K)) (x v : Tensor K) (B : ℕ) (hx : x.shape.head? = some B)
    (h : inputRegionMats t bias x = .ok v) : v.shape.head? = some B ∧ v.shape.length = 4 := by
  unfold inputRegionMats at h
  obtain ⟨_, _, h⟩ := bind_inv h
  obtain ⟨_, _, h⟩ := bind_inv h
  obtain ⟨_, _, h⟩ := bind_inv h
  obtain ⟨w, hw, h⟩ := bind_inv h
  have h1 := einsum_batch2 ['s', 'l', 'r', 'i'] ['s', 'i'] ['s', 'l', 'r'] t x w B (by decide) (by decide) hx hw
  have h2 := (einsum_nodup _ _ _ _ hw).2
  cases bias with
  | none =>
    simp only [addRegionBias] at h
    cases h
    exact ⟨h1, h2⟩
  | some b =>
    simp only [addRegionBias] at h
    obtain ⟨e, _, h⟩ := bind_inv h
    cases h
    exact ⟨h1, h2⟩

theorem mergedInputMats_batch [CommSemiring K] (t x v : Tensor K) (B : ℕ) (hx : x.shape.head? = some B)
    (h : mergedInputMats t x = .ok v) : v.shape.head? = some B ∧ v.shape.length = 4 := by
  unfold mergedInputMats at h
  obtain ⟨_, _, h⟩ := bind_inv h
  obtain ⟨_, _, h⟩ := bind_inv h
  obtain ⟨_, _, h⟩ := bind_inv h
  obtain ⟨_, _, h⟩ := bind_inv h
  obtain ⟨w, hw, h⟩ := bind_inv h
  obtain ⟨r, hr⟩ := head_cons hx
  have h1 := einsum_batch2 ['s', 'l', 'r', 'i', 'j'] ['s', 'j'] ['s', 'l', 'r', 'i'] t _ w B (by decide) (by decide)
    (by simp [Tensor.sliceAx, hr]) hw
  obtain ⟨M, j1, j2, j3⟩ := einsum_batch ['s', 'l', 'r', 'i'] ['s', 'i'] ['s', 'l', 'r'] w _ v B B (by decide) (by decide) h1
    (by simp [Tensor.sliceAx, hr]) h
  have hM : M = B := by rcases j1.2.2 with h | h <;> exact h
  subst hM
  exact ⟨j2, j3⟩

/-- the output site of a module has the axes of an output core -/
def OutAxes : Module K → Prop
  | .outputSite t => t.shape.length = 3
  | _ => True

theorem wp_expand (cls : Cls) (t : Tensor K) (s : List Char) (Q : Contractable K → Prop) (h1 : s.head? = some 'b')
    (h0 : t.shape ≠ []) (h3 : t.shape.length + 1 = s.length) (hr : ClsLen cls s.length) (hQ : ∀ c n, R (some n) → Batched n c → Q c) :
    Wp R W (mkContractable cls t s) Q := by
  obtain ⟨s', hs⟩ := str_cons h1
  have hne : needsExpand s t.ndim := Or.inr ⟨h1, by rw [Tensor.ndim, h3]⟩
  intro g hg
  have hz : ¬ (t.shape = [] ∨ s = []) := by simp [h0, hs]
  show Wp R W (if t.shape = [] ∨ s = [] then _ else _) Q
  rw [if_neg hz, if_pos hne]
  cases g with
  | none => trivial
  | some n =>
    refine hQ _ n hg ⟨?_, ?_, rfl, ?_⟩
    · simp [h1]
    · simp [h1, h3]
    · simp only [List.length_cons, h3]
      exact hr

theorem wp_moduleForward [CommSemiring K] (m : Module K) (x : Tensor K) (B : ℕ) (hm : OutAxes m) (hx : x.shape.head? = some B) (hW : W B) :
    Wp R W (moduleForward m x) (fun c => ∃ n, (n = B ∨ R (some n)) ∧ Batched n c) := by
  cases m with
  | inputRegion t bias =>
    refine wp_lift_bind _ _ _ fun v hv => ?_
    obtain ⟨h1, h2⟩ := inputRegionMats_batch t bias x v B hx hv
    exact wp_mkMatRegion v B _ h1 h2 hW (fun c hc => ⟨B, Or.inl rfl, hc⟩)
  | mergedInput t =>
    refine wp_lift_bind _ _ _ fun v hv => ?_
    obtain ⟨h1, h2⟩ := mergedInputMats_batch t x v B hx hv
    exact wp_mkMatRegion v B _ h1 h2 hW (fun c hc => ⟨B, Or.inl rfl, hc⟩)
  | inputSite t =>
    refine wp_lift_bind _ _ _ fun v hv => ?_
    unfold inputSiteMat at hv
    obtain ⟨_, _, hv⟩ := bind_inv hv
    obtain ⟨_, _, hv⟩ := bind_inv hv
    have h1 := einsum_batch2 ['l', 'r', 'i'] ['i'] ['l', 'r'] t x v B (by decide) (by decide) hx hv
    exact wp_mkSingleMat v B _ h1 (by rw [(einsum_nodup _ _ _ _ hv).2]; decide) hW (fun c hc => ⟨B, Or.inl rfl, hc⟩)
  | outputSite t =>
    have ht : t.shape.length = 3 := hm
    simp only [moduleForward]
    unfold mkOutputCore
    rw [if_neg (by simp [Tensor.ndim, ht])]
    refine wp_expand _ _ _ _ rfl ?_ (by rw [ht]; rfl) (by simp [ClsLen]) (fun c n hn hc => ⟨n, Or.inr hn, hc⟩)
    intro h
    rw [h] at ht
    simp at ht
  | mergedOutput t l =>
    refine wp_lift_bind _ _ _ fun v hv => ?_
    unfold mergedOutputCore at hv
    obtain ⟨_, _, hv⟩ := bind_inv hv
    obtain ⟨_, _, hv⟩ := bind_inv hv
    have h1 := einsum_batch2 ['o', 'l', 'r', 'i'] ['i'] ['o', 'l', 'r'] t x v B (by decide) (by decide) hx hv
    exact wp_mkOutputCore v B _ h1 (by rw [(einsum_nodup _ _ _ _ hv).2]; decide) hW (fun c hc => ⟨B, Or.inl rfl, hc⟩)

theorem pickInput_batch (x : Tensor K) (B : ℕ) (h : x.shape.head? = some B) (i l : ℕ) : (pickInput x i l).shape.head? = some B := by
  obtain ⟨r, hr⟩ := head_cons h
  unfold pickInput
  split
  · simp only [Tensor.select, hr]
    cases r <;> simp
  · simp [Tensor.sliceAx, hr]

theorem wp_runModules [CommSemiring K] (x : Tensor K) (B : ℕ) (hx : x.shape.head? = some B) (hW : W B) (ms : List (Module K))
    (hm : ∀ m ∈ ms, OutAxes m) (i : ℕ) :
    Wp R W (runModules x i ms) (fun cs => ∃ bs, Batches bs cs ∧ ∀ b ∈ bs, b = B ∨ R (some b)) := by
  induction ms generalizing i with
  | nil => exact wp_pure _ _ ⟨[], .nil, by simp⟩
  | cons m ms ih =>
    simp only [runModules]
    refine wp_bind _ _ _ _ (wp_moduleForward m _ B (hm m (by simp)) (pickInput_batch x B hx _ _) hW) ?_
    rintro c ⟨n, hn, hc⟩
    refine wp_bind _ _ _ _ (ih (fun m' hm' => hm m' (by simp [hm'])) _) ?_
    rintro cs ⟨bs, h1, h2⟩
    refine wp_pure _ _ ⟨n :: bs, .cons hc h1, ?_⟩
    intro b hb
    rcases List.mem_cons.1 hb with rfl | hb
    · exact hn
    · exact h2 b hb

/-- what the sizes of the factors say about the result -/
def Rows (bs : List ℕ) (y : Tensor K) : Prop := ∃ M, y.shape.head? = some M ∧ ∀ b ∈ bs, b = 1 ∨ b = M

theorem wp_closeRing [CommSemiring K] (bs : List ℕ) (cs : List (Contractable K)) (h : Batches bs cs) (hW : ∀ b ∈ bs, W b) :
    Wp R W (closeRing cs) (Rows bs) := by
  unfold closeRing
  refine wp_bind _ _ _ _ (wp_reduceList bs cs true h hW) ?_
  rintro c ⟨M, hM, hb⟩
  refine wp_lift_bind _ _ _ fun _ _ => wp_lift _ _ fun y hy => ?_
  obtain ⟨s, hs⟩ := str_cons hM.first
  refine ⟨M, ?_, hb⟩
  have hn := (einsum_nodup _ _ _ _ hy).1
  rw [hs] at hy hn
  have e1 : traceIn ('b' :: s) = 'b' :: traceIn s := rfl
  have e2 : traceOut ('b' :: s) = 'b' :: traceOut s := rfl
  rw [e1, e2] at hy
  rw [e2] at hn
  refine einsum_batch1 _ _ _ _ M ?_ hM.size hy
  intro hmem
  obtain ⟨d, hd, he⟩ := List.mem_map.1 hmem
  split at he
  · exact absurd he (by decide)
  · subst he
    refine (List.nodup_cons.1 hn).1 ?_
    unfold traceOut
    rw [List.mem_filter]
    exact ⟨hd, by decide⟩

theorem endVec_shape [Zero K] [One K] (d : ℕ) (v : Tensor K) (h : endVec d = .ok v) : v.shape.length = 1 := by
  unfold endVec at h
  split at h
  · cases h
  · cases h; rfl

theorem wp_edge (v : Tensor K) (hv : v.shape.length = 1) (b : Bool) : Wp R W (mkEdgeVec v b) (fun c => ∃ n, R (some n) ∧ Batched n c) := by
  unfold mkEdgeVec
  rw [if_neg (by simp [Tensor.ndim, hv])]
  refine wp_expand _ _ _ _ rfl ?_ (by rw [hv]; rfl) (by simp [ClsLen]) (fun c n hn hc => ⟨n, hn, hc⟩)
  intro h
  rw [h] at hv
  simp at hv

theorem wp_closeOpen [CommSemiring K] (bs : List ℕ) (cs : List (Contractable K)) (par : Bool) (h : Batches bs cs) (hW : ∀ b ∈ bs, W b)
    (hR : ∀ n, R (some n) → W n) : Wp R W (closeOpen cs par) (Rows bs) := by
  unfold closeOpen
  split
  · refine wp_lift_bind _ _ _ fun _ _ => wp_lift_bind _ _ _ fun _ _ => wp_lift_bind _ _ _ fun vl hl => wp_lift_bind _ _ _ fun vr hr => ?_
    refine wp_bind _ _ _ _ (wp_edge vl (endVec_shape _ _ hl) true) ?_
    rintro e ⟨n1, r1, b1⟩
    refine wp_bind _ _ _ _ (wp_edge vr (endVec_shape _ _ hr) false) ?_
    rintro r ⟨n2, r2, b2⟩
    have hall : Batches (n1 :: bs ++ [n2]) (e :: cs ++ [r]) := .cons b1 (List.rel_append h (.cons b2 .nil))
    refine wp_bind _ _ _ _ (wp_reduceList _ _ par hall ?_) ?_
    · intro b hb
      simp only [List.cons_append, List.mem_cons, List.mem_append, List.not_mem_nil, or_false] at hb
      rcases hb with rfl | hb | rfl
      · exact hR _ r1
      · exact hW b hb
      · exact hR _ r2
    · rintro c ⟨M, hM, hb⟩
      exact wp_pure _ _ ⟨M, hM.size, fun b hb' => hb b (by simp [hb'])⟩
  · trivial

theorem wp_close [CommSemiring K] (bs : List ℕ) (cs : List (Contractable K)) (per par : Bool) (h : Batches bs cs) (hW : ∀ b ∈ bs, W b)
    (hR : ∀ n, R (some n) → W n) : Wp R W (if per then closeRing cs else closeOpen cs par) (Rows bs) := by
  split
  · exact wp_closeRing bs cs h hW
  · exact wp_closeOpen bs cs par h hW hR

/-- If all reads return `B`, all writes of the evaluation of a model on `B` samples are `B`. -/
theorem wp_linearForward [CommSemiring K] (ms : List (Module K)) (hm : ∀ m ∈ ms, OutAxes m) (per par : Bool) (x : Tensor K) (B : ℕ)
    (hx : x.shape.head? = some B) :
    Wp (· = some B) (· = B) (linearForward ms per par x) (fun _ => True) := by
  unfold linearForward
  refine wp_lift_bind _ _ _ fun _ _ => wp_lift_bind _ _ _ fun _ _ => ?_
  refine wp_bind _ _ _ _ (wp_runModules (R := (· = some B)) (W := (· = B)) x B hx rfl ms hm 0) ?_
  rintro cs ⟨bs, h1, h2⟩
  refine wp_mono _ _ _ (wp_close bs cs per par h1 ?_ ?_) (fun _ _ => trivial)
  · intro b hb
    rcases h2 b hb with h | h
    · exact h
    · exact Option.some.inj h
  · intro n hn
    exact Option.some.inj hn

end Threads
end TorchMPS
