import Verif.Lemmas.AdSplit
import Verif.Props.MpsInput
/-
Unmerging the modules of a merged chain.
-/
namespace TorchMPS
open Spec

/-- the modules a module of some kind is split into, holding the cores `a` -/
def Pieces (D F O : ℕ) (a : Cores ℝ) : Kind → List (Module ℝ) → Prop
  | .site i, us => ∃ m, us = [m] ∧ IsSite D F a i m
  | .pairs i c, us => ∃ m, us = [m] ∧ IsRegion D F a i (2 * c) m
  | .out, us => ∃ m, us = [m] ∧ IsOut D O a m
  | .mout i true, us => ∃ m m', us = [m, m'] ∧ IsOut D O a m ∧ IsSite D F a i m'
  | .mout i false, us => ∃ m m', us = [m, m'] ∧ IsSite D F a i m ∧ IsOut D O a m'

theorem mapM_dichotomy (f : ℕ → Except Err SvdOut) (V : ℕ → Prop) (P : ℕ → SvdOut → Prop) (l : List ℕ)
    (h : ∀ s ∈ l, (f s = .error .runtime ∧ V s) ∨ ∃ out, f s = .ok out ∧ P s out) :
    (l.mapM f = .error .runtime ∧ ∃ s ∈ l, V s) ∨ ∃ outs, l.mapM f = .ok outs ∧ List.Forall₂ P l outs := by
  induction l with
  | nil => exact Or.inr ⟨[], rfl, .nil⟩
  | cons s l ih =>
    rw [List.mapM_cons]
    rcases h s (by simp) with ⟨h1, h2⟩ | ⟨out, h1, h2⟩
    · left
      rw [h1]
      exact ⟨rfl, s, by simp, h2⟩
    · rw [h1]
      simp only [bind_ok_except]
      rcases ih (fun s hs => h s (by simp [hs])) with ⟨g1, s', g2, g3⟩ | ⟨outs, g1, g2⟩
      · left
        rw [g1]
        exact ⟨rfl, s', by simp [g2], g3⟩
      · right
        rw [g1]
        exact ⟨out :: outs, rfl, .cons h2 g2⟩

theorem flatMap_pair_getElem (outs : List SvdOut) (s : ℕ) (hs : s < outs.length) (d : Tensor ℝ) :
    (outs.flatMap (fun c => [c.left, c.right])).getD (2 * s) d = (outs[s]).left ∧
    (outs.flatMap (fun c => [c.left, c.right])).getD (2 * s + 1) d = (outs[s]).right := by
  induction outs generalizing s with
  | nil => simp at hs
  | cons c outs ih =>
    cases s with
    | zero => simp
    | succ s =>
      obtain ⟨h1, h2⟩ := ih s (by simpa using hs)
      simp only [List.flatMap_cons, List.cons_append, List.nil_append, show 2 * (s + 1) = 2 * s + 1 + 1 by ring, List.getD_cons_succ,
        List.getElem_cons_succ]
      exact ⟨h1, h2⟩

theorem flatMap_pair_length (outs : List SvdOut) : (outs.flatMap (fun c => [c.left, c.right])).length = 2 * outs.length := by
  induction outs with
  | nil => rfl
  | cons c outs ih => simp only [List.flatMap_cons, List.length_append, ih, List.length_cons, List.length_nil]; omega

theorem bonds_of_pairs (D : ℕ) (cutoff : ℝ) (f : ℕ → List ℝ) (l : List ℕ) (outs : List SvdOut)
    (h : List.Forall₂ (fun s out => BondOk D cutoff (some (f s)) (bondEntry out)) l outs) :
    List.Forall₂ (BondOk D cutoff) (l.flatMap (fun s => [some (f s), none])) (outs.flatMap (fun c => [bondEntry c, none])) := by
  induction h with
  | nil => exact .nil
  | cons q1 _ ih =>
    simp only [List.flatMap_cons, List.cons_append, List.nil_append]
    exact .cons q1 (.cons trivial ih)

theorem unmerge_module (svd : Mat ℝ → SVD) (hsvd : ∀ A, IsSVD A (svd A)) (pop : List Char → Char) (hpop : ∀ x xs, pop (x :: xs) ∈ x :: xs)
    (D F O i : ℕ) (hD : 1 ≤ D) (κ : Kind) (hat : Kind.At i κ) (m : Module ℝ) (h : κ.Shaped D F O m) (cutoff : ℝ) :
    (unmergeModule svd pop cutoff m = .error .runtime ∧ ∃ sv, some sv ∈ bondPlan svd m ∧ ∀ k < D, sv.getD k 0 < cutoff) ∨
    ∃ us bs a, unmergeModule svd pop cutoff m = .ok (us, bs) ∧ Pieces D F O a κ us ∧ List.Forall₂ (BondOk D cutoff) (bondPlan svd m) bs ∧
      (0 < cutoff → ∀ u ∈ us, (0 : ℝ) ∈ u.norms → LoneZero m) ∧
      (((∀ sv, some sv ∈ bondPlan svd m → LosslessSv D cutoff sv) → κ.Holds D F O a m) ∧
        ∃ m', κ.Shaped D F O m' ∧ κ.Holds D F O a m' ∧ Truncated svd D F O cutoff m m') := by
  cases κ with
  | site j =>
    cases m <;> first | exact h.elim | skip
    rename_i t
    refine Or.inr ⟨[.inputSite t], [none], ⟨fun _ l r f => t.get [l, r, f], fun _ _ _ => 0⟩, rfl, ?_, .cons trivial .nil, ?_, ?_⟩
    · exact ⟨_, rfl, t, rfl, h, fun _ _ _ _ _ _ => rfl⟩
    · intro _ u hu h0
      simp only [List.mem_singleton] at hu
      subst hu
      simp only [Module.norms, List.mem_singleton] at h0
      exact normT_zero t h0.symm
    · exact ⟨fun _ _ _ _ _ _ _ => rfl, _, h, fun _ _ _ _ _ _ => rfl, rfl⟩
  | out =>
    cases m <;> first | exact h.elim | skip
    rename_i t
    refine Or.inr ⟨[.outputSite t], [none], ⟨fun _ _ _ _ => 0, fun o l r => t.get [o, l, r]⟩, rfl, ?_, .cons trivial .nil, ?_, ?_⟩
    · exact ⟨_, rfl, t, rfl, h, fun _ _ _ _ _ _ => rfl⟩
    · intro _ u hu h0
      simp only [List.mem_singleton] at hu
      subst hu
      simp only [Module.norms, List.mem_singleton] at h0
      exact normT_zero t h0.symm
    · exact ⟨fun _ _ _ _ _ _ _ => rfl, _, h, fun _ _ _ _ _ _ => rfl, rfl⟩
  | pairs j c =>
    cases m <;> first | exact h.elim | skip
    rename_i t
    have h : t.shape = [c, D, D, F, F] := h
    obtain ⟨rfl, hc⟩ := hat
    simp only [unmergeModule, bondPlan, h, List.getD_cons_zero, List.getD_cons_succ]
    rcases mapM_dichotomy (fun s => svdFlex svd pop (t.select 0 s) strPair D cutoff true (some (emptyVec D)))
      (fun s => ∀ k < D, (pairSvs svd (t.select 0 s)).getD k 0 < cutoff)
      (fun s out => out.left.shape = [D, D, F] ∧ out.right.shape = [D, D, F] ∧
        BondOk D cutoff (some (pairSvs svd (t.select 0 s))) (bondEntry out) ∧ (0 < cutoff → normT out.left ≠ 0 ∧ normT out.right ≠ 0) ∧
        CutDown D cutoff (pairSvs svd (t.select 0 s)) D D F F pairProd (fun l r f f' => (t.select 0 s).get [l, r, f, f'])
          (pairProd D (fun l u f => out.left.get [l, u, f]) (fun u r f' => out.right.get [u, r, f'])) ∧
        (LosslessSv D cutoff (pairSvs svd (t.select 0 s)) → ∀ l < D, ∀ r < D, ∀ f < F, ∀ f' < F,
          (t.select 0 s).get [l, r, f, f'] = pairProd D (fun l u f => out.left.get [l, u, f]) (fun u r f' => out.right.get [u, r, f']) l r f f'))
      (List.range c) (fun s hs => split_pair svd hsvd pop hpop D F hD (t.select 0 s) (by simp [Tensor.select, h]) cutoff)
      with ⟨g1, s, g2, g3⟩ | ⟨outs, g1, g2⟩
    · left
      rw [g1]
      refine ⟨rfl, _, ?_, g3⟩
      simp only [List.mem_flatMap]
      exact ⟨s, g2, by simp⟩
    · right
      rw [g1]
      simp only [bind_ok_except]
      have hlen : outs.length = c := by
        have := g2.length_eq
        simpa using this.symm
      have hall : ∀ s (hs : s < outs.length), (outs[s]).left.shape = [D, D, F] ∧ (outs[s]).right.shape = [D, D, F] ∧ (0 < cutoff → normT (outs[s]).left ≠ 0 ∧ normT (outs[s]).right ≠ 0) ∧
          CutDown D cutoff (pairSvs svd (t.select 0 s)) D D F F pairProd (fun l r f f' => (t.select 0 s).get [l, r, f, f'])
            (pairProd D (fun l u f => (outs[s]).left.get [l, u, f]) (fun u r f' => (outs[s]).right.get [u, r, f'])) ∧
          (LosslessSv D cutoff (pairSvs svd (t.select 0 s)) → ∀ l < D, ∀ r < D, ∀ f < F, ∀ f' < F,
            (t.select 0 s).get [l, r, f, f'] = ∑ u ∈ Finset.range D, (outs[s]).left.get [l, u, f] * (outs[s]).right.get [u, r, f']) := by
        intro s hs
        have := List.forall₂_iff_get.1 g2
        have q := this.2 s (by simpa [hlen] using hs) hs
        simp only [List.get_eq_getElem, List.getElem_range] at q
        exact ⟨q.1, q.2.1, q.2.2.2.1, q.2.2.2.2.1, q.2.2.2.2.2⟩
      have hsh : ∀ u ∈ outs.flatMap (fun c => [c.left, c.right]), u.shape = [D, D, F] := by
        intro u hu
        obtain ⟨o, ho, hu⟩ := List.mem_flatMap.1 hu
        obtain ⟨s, hs, rfl⟩ := List.getElem_of_mem ho
        obtain ⟨q1, q2, _⟩ := hall s hs
        simp only [List.mem_cons, List.not_mem_nil, or_false] at hu
        rcases hu with rfl | rfl
        · exact q1
        · exact q2
      have hst : ∃ T, stackAll (outs.flatMap (fun c => [c.left, c.right])) 0 = .ok T ∧ T.shape = [2 * c, D, D, F] ∧
          ∀ s (hs : s < outs.length), ∀ l r f, T.get [2 * s, l, r, f] = (outs[s]).left.get [l, r, f] ∧
            T.get [2 * s + 1, l, r, f] = (outs[s]).right.get [l, r, f] := by
        have hl := flatMap_pair_length outs
        have hg := flatMap_pair_getElem outs
        generalize outs.flatMap (fun c => [c.left, c.right]) = us at hsh hl hg
        cases us with
        | nil =>
          have hl' : 0 = 2 * outs.length := hl
          omega
        | cons u us =>
          unfold stackAll
          simp only
          rw [if_pos (by
            intro v hv
            rw [hsh v (by simp [hv]), hsh u (by simp)])]
          refine ⟨_, rfl, ?_, ?_⟩
          · simp only [Tensor.stack, hsh u (by simp), List.take_zero, List.drop_zero, List.nil_append]
            congr 1
            rw [← hlen, ← hl]; rfl
          · intro s hs l r f
            obtain ⟨q1, q2⟩ := hg s hs u
            refine ⟨?_, ?_⟩
            · show ((u :: us).getD (2 * s) u).get [l, r, f] = _
              rw [q1]
            · show ((u :: us).getD (2 * s + 1) u).get [l, r, f] = _
              rw [q2]
      obtain ⟨T, T1, T2, T3⟩ := hst
      rw [T1]
      simp only [bind_ok_except]
      have hmk : mkInputRegion T true none = .ok (.inputRegion T (some ((eyeMat D).unsqueeze 0))) := by
        unfold mkInputRegion
        rw [assert_true _ (by simp [Tensor.ndim, T2]), assert_true _ (by simp [T2])]
        simp only [bind_ok_except, if_true, T2, List.getD_cons_zero, List.getD_cons_succ]
        have : regionBias (K := ℝ) D none = .ok ((eyeMat D).unsqueeze 0) := by
          unfold regionBias
          simp [Tensor.ndim, Tensor.unsqueeze, eyeMat]
        rw [this]
        rfl
      rw [hmk]
      refine ⟨_, _, ⟨fun q l r f => T.get [q - j, l, r, f], fun _ _ _ => 0⟩, rfl, ?_, ?_, ?_, ?_⟩
      · refine ⟨_, rfl, by omega, T, _, rfl, T2, ?_⟩
        intro s hs l _ r _ f _
        simp
      · exact bonds_of_pairs D cutoff (fun s => pairSvs svd (t.select 0 s)) _ _ (g2.imp (fun _ _ h => h.2.2.1))
      · intro hcut u hu h0
        simp only [List.mem_singleton] at hu
        subst hu
        simp only [Module.norms, T2, List.getD_cons_zero, List.mem_map, List.mem_range] at h0
        obtain ⟨q, hq, h0⟩ := h0
        exfalso
        obtain ⟨s, hs⟩ : ∃ s, q = 2 * s ∨ q = 2 * s + 1 := ⟨q / 2, by omega⟩
        obtain ⟨w1, w2, w3, _, _⟩ := hall s (by omega)
        have hsel : ∀ (v : Tensor ℝ), v.shape = [D, D, F] → (∀ l r f, T.get [q, l, r, f] = v.get [l, r, f]) → normT (T.select 0 q) = normT v := by
          intro v hv hg
          unfold normT
          simp only [Tensor.select, T2, hv, List.eraseIdx_zero, List.tail_cons, sumAll, List.insertIdx_zero, hg]
        rcases hs with rfl | rfl
        · exact (w3 hcut).1 (by rw [← hsel _ w1 (fun l r f => (T3 s (by omega) l r f).1)]; exact h0)
        · exact (w3 hcut).2 (by rw [← hsel _ w2 (fun l r f => (T3 s (by omega) l r f).2)]; exact h0)
      · have hprod : ∀ s, ∀ hs : s < outs.length, ∀ l r f f', (∑ u ∈ Finset.range D, T.get [j + 2 * s - j, l, u, f] * T.get [j + 2 * s + 1 - j, u, r, f']) =
            pairProd D (fun l u f => (outs[s]).left.get [l, u, f]) (fun u r f' => (outs[s]).right.get [u, r, f']) l r f f' := by
          intro s hs l r f f'
          simp only [pairProd]
          refine Finset.sum_congr rfl ?_
          intro u _
          obtain ⟨w1, _⟩ := T3 s hs l u f
          obtain ⟨_, w2⟩ := T3 s hs u r f'
          rw [show j + 2 * s - j = 2 * s by omega, show j + 2 * s + 1 - j = 2 * s + 1 by omega, w1, w2]
        refine ⟨?_, .mergedInput ⟨[c, D, D, F, F], fun idx => ∑ u ∈ Finset.range D, T.get [2 * idx.getD 0 0, idx.getD 1 0, u, idx.getD 3 0] *
          T.get [2 * idx.getD 0 0 + 1, u, idx.getD 2 0, idx.getD 4 0]⟩, rfl, ?_, h.symm, ?_⟩
        · intro hl s hs l hl' r hr f hf f' hf'
          obtain ⟨_, _, _, _, q3⟩ := hall s (by omega)
          have hlos := hl (pairSvs svd (t.select 0 s)) (by
            rw [List.mem_flatMap]
            exact ⟨s, List.mem_range.2 hs, by simp⟩)
          have := q3 hlos l hl' r hr f hf f' hf'
          have hsel : (t.select 0 s).get [l, r, f, f'] = t.get [s, l, r, f, f'] := rfl
          rw [← hsel, this]
          exact (hprod s (by omega) l r f f').symm
        · intro s hs l hl' r hr f hf f' hf'
          simp only [List.getD_cons_zero, List.getD_cons_succ]
          rw [show j + 2 * s - j = 2 * s by omega, show j + 2 * s + 1 - j = 2 * s + 1 by omega]
        · intro s hs
          rw [h] at hs
          have hs : s < c := hs
          obtain ⟨_, _, _, q3, _⟩ := hall s (by omega)
          have hfun : (fun l r f f' => ∑ u ∈ Finset.range D, T.get [2 * s, l, u, f] * T.get [2 * s + 1, u, r, f']) =
              pairProd D (fun l u f => (outs[s]).left.get [l, u, f]) (fun u r f' => (outs[s]).right.get [u, r, f']) := by
            funext l r f f'
            have := hprod s (by omega) l r f f'
            rwa [show j + 2 * s - j = 2 * s by omega, show j + 2 * s + 1 - j = 2 * s + 1 by omega] at this
          rw [← hfun] at q3
          exact q3
  | mout j b =>
    cases m <;> first | exact h.elim | skip
    rename_i t b'
    obtain ⟨rfl, h⟩ := h
    cases b with
    | true =>
      simp only [unmergeModule, bondPlan, h, List.getD_cons_zero, List.getD_cons_succ]
      rcases split_outLeft svd hsvd pop hpop D F O hD t h cutoff with ⟨g1, g2⟩ | ⟨out, g1, g2, g3, g4, g6, gc, g5⟩
      · left
        rw [g1]
        exact ⟨rfl, _, by simp, g2⟩
      · right
        rw [g1]
        refine ⟨_, _, ⟨fun _ l r f => out.right.get [l, r, f], fun o l r => out.left.get [o, l, r]⟩, rfl,
          ⟨_, _, rfl, ⟨_, rfl, g2, fun _ _ _ _ _ _ => rfl⟩, ⟨_, rfl, g3, fun _ _ _ _ _ _ => rfl⟩⟩, .cons g4 (.cons trivial .nil), ?_, ?_⟩
        · intro hcut u hu h0
          simp only [List.mem_cons, List.not_mem_nil, or_false] at hu
          rcases hu with rfl | rfl
          · simp only [Module.norms, List.mem_singleton] at h0
            first | exact absurd h0.symm (g6 hcut).1 | exact absurd h0.symm (g6 hcut).2
          · simp only [Module.norms, List.mem_singleton] at h0
            first | exact absurd h0.symm (g6 hcut).1 | exact absurd h0.symm (g6 hcut).2
        refine ⟨fun hl' => g5 (hl' _ (by simp)), .mergedOutput ⟨[O, D, D, F], fun idx =>
          outLeftProd D (fun o l u => out.left.get [o, l, u]) (fun u r f => out.right.get [u, r, f]) (idx.getD 0 0) (idx.getD 1 0) (idx.getD 2 0) (idx.getD 3 0)⟩ true,
          ⟨rfl, rfl⟩, ?_, h.symm, gc⟩
        intro o _ l _ r _ f _
        rfl
    | false =>
      simp only [unmergeModule, bondPlan, h, List.getD_cons_zero, List.getD_cons_succ]
      rcases split_outRight svd hsvd pop hpop D F O hD t h cutoff with ⟨g1, g2⟩ | ⟨out, g1, g2, g3, g4, g6, gc, g5⟩
      · left
        rw [g1]
        exact ⟨rfl, _, by simp, g2⟩
      · right
        rw [g1]
        refine ⟨_, _, ⟨fun _ l r f => out.right.get [l, r, f], fun o l r => out.left.get [o, l, r]⟩, rfl,
          ⟨_, _, rfl, ⟨_, rfl, g3, fun _ _ _ _ _ _ => rfl⟩, ⟨_, rfl, g2, fun _ _ _ _ _ _ => rfl⟩⟩, .cons g4 (.cons trivial .nil), ?_, ?_⟩
        · intro hcut u hu h0
          simp only [List.mem_cons, List.not_mem_nil, or_false] at hu
          rcases hu with rfl | rfl
          · simp only [Module.norms, List.mem_singleton] at h0
            first | exact absurd h0.symm (g6 hcut).1 | exact absurd h0.symm (g6 hcut).2
          · simp only [Module.norms, List.mem_singleton] at h0
            first | exact absurd h0.symm (g6 hcut).1 | exact absurd h0.symm (g6 hcut).2
        refine ⟨fun hl' => g5 (hl' _ (by simp)), .mergedOutput ⟨[O, D, D, F], fun idx =>
          outRightProd D (fun o u r => out.left.get [o, u, r]) (fun l u f => out.right.get [l, u, f]) (idx.getD 0 0) (idx.getD 1 0) (idx.getD 2 0) (idx.getD 3 0)⟩ false,
          ⟨rfl, rfl⟩, ?_, h.symm, gc⟩
        intro o _ l _ r _ f _
        rfl

end TorchMPS
