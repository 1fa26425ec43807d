import Verif.Spec.Mps
import Verif.Props.ContractableList
/-
The forward methods of the cores.
-/
namespace TorchMPS
open Spec
variable {K : Type}

theorem bind_error_except {α β : Type} {e : Err} (f : α → Except Err β) : ((.error e : Except Err α) >>= f) = .error e := rfl

theorem bind_ok_except {α β : Type} {a : α} (f : α → Except Err β) : ((.ok a : Except Err α) >>= f) = f a := rfl

theorem addBias_ok [CommSemiring K] (B n D : ℕ) (t : Tensor K) (ht : t.shape = [B, n, D, D]) (bias : Option (Tensor K))
    (hb : ∀ bm ∈ bias, bm.shape = [1, D, D]) :
    ∃ t', addRegionBias t bias = .ok t' ∧ t'.shape = [B, n, D, D] ∧ ∀ b < B, ∀ s < n, ∀ i < D, ∀ j < D,
      t'.get [b, s, i, j] = t.get [b, s, i, j] + biasEntry bias i j := by
  cases bias with
  | none => exact ⟨t, rfl, ht, fun b _ s _ i _ j _ => by simp [biasEntry]⟩
  | some bm =>
    have hs := hb bm rfl
    have hu : (bm.unsqueeze 0).shape = [1, 1, D, D] := by simp [Tensor.unsqueeze, hs]
    refine ⟨⟨t.shape, fun idx => t.get idx + (bm.unsqueeze 0).get (Tensor.clampIdx [1, 1, D, D] idx)⟩, ?_, ht, ?_⟩
    · simp only [addRegionBias]
      unfold Tensor.expand
      rw [hu, ht, if_pos (by simp)]
      simp only [bind_ok_except]
      unfold Tensor.add
      rw [ht]
      rfl
    · intro b hb s hs' i hi j hj
      have hi' : (if D = 1 then 0 else i) = i := by split <;> omega
      have hj' : (if D = 1 then 0 else j) = j := by split <;> omega
      simp [Tensor.clampIdx, biasEntry, Tensor.unsqueeze, hi', hj']

theorem inputRegionMats_ok [CommSemiring K] (B n D F : ℕ) (t x : Tensor K) (bias : Option (Tensor K)) (ht : t.shape = [n, D, D, F])
    (hx : x.shape = [B, n, F]) (hb : ∀ bm ∈ bias, bm.shape = [1, D, D]) :
    ∃ y, inputRegionMats t bias x = .ok y ∧ y.shape = [B, n, D, D] ∧ ∀ b < B, ∀ s < n, siteMat y D b s =
      affMat D F (fun l r f => t.get [s, l, r, f]) (fun f => x.get [b, s, f]) (biasEntry bias) := by
  obtain ⟨p, h1, h2, h3⟩ := einsum_ok (K := K)
    (fun c => if c = 'b' then B else if c = 's' then n else if c = 'i' then F else D)
    [['s', 'l', 'r', 'i'], ['b', 's', 'i']] ['b', 's', 'l', 'r'] [t, x] rfl (by simp [ht, hx]) (by decide) (by decide)
  have h2' : p.shape = [B, n, D, D] := by rw [h2]; rfl
  obtain ⟨y, y1, y2, y3⟩ := addBias_ok B n D p h2' bias hb
  refine ⟨y, ?_, y2, ?_⟩
  · unfold inputRegionMats
    rw [assert_true _ (by simp [Tensor.ndim, hx]), assert_true _ (by simp [ht, hx]), assert_true _ (by simp [ht, hx]), h1]
    exact y1
  · intro b hb' s hs
    unfold siteMat affMat
    refine mat_of_congr _ _ _ _ ?_
    intro i hi j hj
    rw [y3 b hb' s hs i hi j hj, h3 _ (by simp [hb', hs, hi, hj])]
    have : ([['s', 'l', 'r', 'i'], ['b', 's', 'i']].flatten.dedup).filter (fun c => c ∉ ['b', 's', 'l', 'r']) = ['i'] := by
      decide
    rw [this]
    simp [sumOver, Env.ofOut, Env.set]

theorem mergedInputMats_ok [CommSemiring K] (B n D F : ℕ) (t x : Tensor K) (ht : t.shape = [n, D, D, F, F])
    (hx : x.shape = [B, 2 * n, F]) :
    ∃ y, mergedInputMats t x = .ok y ∧ y.shape = [B, n, D, D] ∧ ∀ b < B, ∀ s < n, siteMat y D b s =
      pairMat D F (fun l r f f' => t.get [s, l, r, f, f']) (fun f => x.get [b, 2 * s, f]) (fun f => x.get [b, 2 * s + 1, f]) := by
  have n1 : 2 * n / 2 = n := by omega
  have n2 : (2 * n + 1) / 2 = n := by omega
  obtain ⟨p, h1, h2, h3⟩ := einsum_ok (K := K)
    (fun c => if c = 'b' then B else if c = 's' then n else if c = 'i' ∨ c = 'j' then F else D)
    [['s', 'l', 'r', 'i', 'j'], ['b', 's', 'j']] ['b', 's', 'l', 'r', 'i'] [t, x.sliceAx 1 1 2 n] rfl
    (by simp [ht, hx, Tensor.sliceAx]) (by decide) (by decide)
  have h2' : p.shape = [B, n, D, D, F] := by rw [h2]; rfl
  obtain ⟨q, k1, k2, k3⟩ := einsum_ok (K := K)
    (fun c => if c = 'b' then B else if c = 's' then n else if c = 'i' ∨ c = 'j' then F else D)
    [['b', 's', 'l', 'r', 'i'], ['b', 's', 'i']] ['b', 's', 'l', 'r'] [p, x.sliceAx 1 0 2 n] rfl
    (by simp [h2', hx, Tensor.sliceAx]) (by decide) (by decide)
  refine ⟨q, ?_, by rw [k2]; rfl, ?_⟩
  · unfold mergedInputMats
    rw [assert_true _ (by simp [Tensor.ndim, hx]), assert_true _ (by simp [ht, hx]), assert_true _ (by simp [ht, hx]),
      assert_true _ (by simp [hx])]
    simp only [hx, List.getD_cons_succ, List.getD_cons_zero, n1, n2, bind_ok_except]
    rw [h1]
    exact k1
  · intro b hb' s hs
    unfold siteMat pairMat
    refine mat_of_congr _ _ _ _ ?_
    intro i hi j hj
    rw [k3 _ (by simp [hb', hs, hi, hj])]
    have e1 : ([['b', 's', 'l', 'r', 'i'], ['b', 's', 'i']].flatten.dedup).filter (fun c => c ∉ ['b', 's', 'l', 'r']) = ['i'] := by
      decide
    have e2 : ([['s', 'l', 'r', 'i', 'j'], ['b', 's', 'j']].flatten.dedup).filter (fun c => c ∉ ['b', 's', 'l', 'r', 'i']) = ['j'] := by
      decide
    rw [e2] at h3
    rw [e1]
    simp only [sumOver]
    refine Finset.sum_congr (by simp) ?_
    intro f hf
    have hf : f < F := by simpa using hf
    have hp : p.get [b, s, i, j, f] = ∑ f' ∈ Finset.range F, t.get [s, i, j, f, f'] * x.get [b, 2 * s + 1, f'] := by
      rw [h3 _ (by simp [hb', hs, hi, hj, hf])]
      simp [sumOver, Env.ofOut, Env.set, Tensor.sliceAx, add_comm]
    simp [Env.ofOut, Env.set, Tensor.sliceAx, hp, Finset.sum_mul]
    refine Finset.sum_congr rfl ?_
    intro f' _
    ring

theorem inputSiteMat_ok [CommSemiring K] (B D F : ℕ) (t x : Tensor K) (ht : t.shape = [D, D, F]) (hx : x.shape = [B, F]) :
    ∃ y, inputSiteMat t x = .ok y ∧ y.shape = [B, D, D] ∧ ∀ b < B, ∀ i < D, ∀ j < D,
      y.get [b, i, j] = ∑ f ∈ Finset.range F, t.get [i, j, f] * x.get [b, f] := by
  obtain ⟨p, h1, h2, h3⟩ := einsum_ok (K := K)
    (fun c => if c = 'b' then B else if c = 'i' then F else D)
    [['l', 'r', 'i'], ['b', 'i']] ['b', 'l', 'r'] [t, x] rfl (by simp [ht, hx]) (by decide) (by decide)
  refine ⟨p, ?_, by rw [h2]; rfl, ?_⟩
  · unfold inputSiteMat
    rw [assert_true _ (by simp [Tensor.ndim, hx]), assert_true _ (by simp [ht, hx])]
    exact h1
  · intro b hb i hi j hj
    rw [h3 _ (by simp [hb, hi, hj])]
    have : ([['l', 'r', 'i'], ['b', 'i']].flatten.dedup).filter (fun c => c ∉ ['b', 'l', 'r']) = ['i'] := by decide
    rw [this]
    simp [sumOver, Env.ofOut, Env.set]

theorem mergedOutputCore_ok [CommSemiring K] (B O D F : ℕ) (t x : Tensor K) (ht : t.shape = [O, D, D, F]) (hx : x.shape = [B, F]) :
    ∃ y, mergedOutputCore t x = .ok y ∧ y.shape = [B, O, D, D] ∧ ∀ b < B, ∀ o < O, ∀ i < D, ∀ j < D,
      y.get [b, o, i, j] = ∑ f ∈ Finset.range F, t.get [o, i, j, f] * x.get [b, f] := by
  obtain ⟨p, h1, h2, h3⟩ := einsum_ok (K := K)
    (fun c => if c = 'b' then B else if c = 'i' then F else if c = 'o' then O else D)
    [['o', 'l', 'r', 'i'], ['b', 'i']] ['b', 'o', 'l', 'r'] [t, x] rfl (by simp [ht, hx]) (by decide) (by decide)
  refine ⟨p, ?_, by rw [h2]; rfl, ?_⟩
  · unfold mergedOutputCore
    rw [assert_true _ (by simp [Tensor.ndim, hx]), assert_true _ (by simp [ht, hx])]
    exact h1
  · intro b hb o ho i hi j hj
    rw [h3 _ (by simp [hb, ho, hi, hj])]
    have : ([['o', 'l', 'r', 'i'], ['b', 'i']].flatten.dedup).filter (fun c => c ∉ ['b', 'o', 'l', 'r']) = ['i'] := by decide
    rw [this]
    simp [sumOver, Env.ofOut, Env.set]

theorem region_piece (B n D : ℕ) (t : Tensor K) (ht : t.shape = [B, n, D, D]) (hn : 1 ≤ n) :
    Piece B (⟨.matRegion, t, ['b', 's', 'l', 'r']⟩ : Contractable K) := by
  refine ⟨⟨rfl, ?_, ?_, by simp [ht]⟩, ?_, by simp [axis, ht], ?_⟩
  · simp only; decide
  · simp only; decide
  · exact ⟨rfl, by simp [axis, ht]⟩
  · intro _; simp [axis, ht, hn]

theorem single_piece (B D E : ℕ) (t : Tensor K) (ht : t.shape = [B, D, E]) :
    Piece B (⟨.singleMat, t, ['b', 'l', 'r']⟩ : Contractable K) := by
  refine ⟨⟨rfl, ?_, ?_, by simp [ht]⟩, rfl, by simp [axis, ht], by simp⟩
  · simp only; decide
  · simp only; decide

theorem core_piece (B O D E : ℕ) (t : Tensor K) (ht : t.shape = [B, O, D, E]) :
    Piece B (⟨.outputCore, t, ['b', 'o', 'l', 'r']⟩ : Contractable K) := by
  refine ⟨⟨rfl, ?_, ?_, by simp [ht]⟩, rfl, by simp [axis, ht], by simp⟩
  · simp only; decide
  · simp only; decide

theorem mkMatRegion_ok (B n D : ℕ) (t : Tensor K) (ht : t.shape = [B, n, D, D]) (g : Option ℕ) :
    mkMatRegion t g = (.ok ⟨.matRegion, t, ['b', 's', 'l', 'r']⟩, some B) := by
  unfold mkMatRegion
  rw [if_neg (by simp [Tensor.ndim, ht]), mkContractable_batched _ _ _ rfl (by simp [ht]) g, ht]
  rfl

theorem mkSingleMat_ok (B D E : ℕ) (t : Tensor K) (ht : t.shape = [B, D, E]) (g : Option ℕ) :
    mkSingleMat t g = (.ok ⟨.singleMat, t, ['b', 'l', 'r']⟩, some B) := by
  unfold mkSingleMat
  rw [if_neg (by simp [Tensor.ndim, ht]), mkContractable_batched _ _ _ rfl (by simp [ht]) g, ht]
  rfl

theorem mkOutputCore_ok (B O D E : ℕ) (t : Tensor K) (ht : t.shape = [B, O, D, E]) (g : Option ℕ) :
    mkOutputCore t g = (.ok ⟨.outputCore, t, ['b', 'o', 'l', 'r']⟩, some B) := by
  unfold mkOutputCore
  rw [if_neg (by simp [Tensor.ndim, ht]), mkContractable_batched _ _ _ rfl (by simp [ht]) g, ht]
  rfl

theorem mkOutputCore_expand (O D E : ℕ) (t : Tensor K) (ht : t.shape = [O, D, E]) (B : ℕ) :
    mkOutputCore t (some B) = (.ok ⟨.outputCore, ⟨B :: t.shape, fun idx => t.get (idx.drop 1)⟩, ['b', 'o', 'l', 'r']⟩, some B) := by
  unfold mkOutputCore
  rw [if_neg (by simp [Tensor.ndim, ht]), mkContractable_expand _ _ _ (by simp [ht]) (by simp) (Or.inr ⟨rfl, by simp [Tensor.ndim, ht]⟩)]
  rfl

theorem mkOutputCore_none (O D E : ℕ) (t : Tensor K) (ht : t.shape = [O, D, E]) :
    mkOutputCore t none = (.error .runtime, none) := by
  unfold mkOutputCore
  rw [if_neg (by simp [Tensor.ndim, ht]), mkContractable_expand _ _ _ (by simp [ht]) (by simp) (Or.inr ⟨rfl, by simp [Tensor.ndim, ht]⟩)]

/-- what a module of bond dimension `D` contributes -/
structure Made (D F O B : ℕ) [Semiring K] (x : Tensor K) (i : ℕ) (m : Module K) (c : Contractable K) : Prop where
  piece : Piece B c
  left : axis c 'l' = D
  right : axis c 'r' = D
  mid : ¬ HasOutput m → IsMid c
  out : HasOutput m → c.cls = .outputCore ∧ axis c 'o' = O
  hasL : 'l' ∈ c.bondStr
  hasR : 'r' ∈ c.bondStr
  mats : ∀ b < B, ∀ o < O, factors c b o = moduleMats D F x b o i m

theorem pickInput_many (x : Tensor K) (B N F i n : ℕ) (hx : x.shape = [B, N, F]) (hn : n ≠ 1) :
    (pickInput x i n).shape = [B, n, F] ∧ ∀ b s f, (pickInput x i n).get [b, s, f] = x.get [b, i + s, f] := by
  unfold pickInput
  rw [if_neg hn]
  refine ⟨by simp [Tensor.sliceAx, hx], ?_⟩
  intro b s f
  simp [Tensor.sliceAx]

theorem pickInput_one (x : Tensor K) (B N F i : ℕ) (hx : x.shape = [B, N, F]) :
    (pickInput x i 1).shape = [B, F] ∧ ∀ b f, (pickInput x i 1).get [b, f] = x.get [b, i, f] := by
  unfold pickInput
  rw [if_pos rfl]
  refine ⟨by simp [Tensor.select, hx], ?_⟩
  intro b f
  simp [Tensor.select]

theorem module_forward [CommSemiring K] (D F O B N i : ℕ) (x : Tensor K) (hx : x.shape = [B, N, F]) (m : Module K)
    (hf : Fits D F O m) (hs : ¬ ShortRegion m) (g : Option ℕ) (hg : IsOutputSite m → g = some B) :
    ∃ c, m.forward (pickInput x i m.len) g = (.ok c, some B) ∧ Made D F O B x i m c := by
  cases m with
  | inputRegion t bias =>
    obtain ⟨⟨n, hn, ht⟩, hb⟩ := hf
    have hlen : (Module.inputRegion t bias).len = n := by simp [Module.len, ht]
    have hn1 : n ≠ 1 := by
      intro h; apply hs; simp [ShortRegion, ht, h]
    obtain ⟨p1, p2⟩ := pickInput_many x B N F i n hx hn1
    rw [hlen]
    obtain ⟨y, y1, y2, y3⟩ := inputRegionMats_ok B n D F t _ bias ht p1 hb
    have hp := region_piece B n D y y2 hn
    refine ⟨_, ?_, hp, by simp [axis, y2], by simp [axis, y2], fun _ => Or.inl rfl, fun h => absurd h id, by simp, by simp, ?_⟩
    · simp only [Module.forward]
      rw [y1, CM.bind_ok (CM.lift_apply _ _), mkMatRegion_ok B n D y y2]
    · intro b hb' o _
      rw [region_factors B _ hp rfl]
      simp only [moduleMats, ht, List.getD_cons_zero, siteMats]
      have e1 : axis (⟨.matRegion, y, ['b', 's', 'l', 'r']⟩ : Contractable K) 's' = n := by simp [axis, y2]
      have e2 : axis (⟨.matRegion, y, ['b', 's', 'l', 'r']⟩ : Contractable K) 'l' = D := by simp [axis, y2]
      rw [e1, e2]
      refine List.map_congr_left ?_
      intro s hs'
      rw [y3 b hb' s (List.mem_range.1 hs')]
      congr 1
      funext f
      exact p2 b s f
  | mergedInput t =>
    obtain ⟨n, hn, ht⟩ := hf
    have hlen : (Module.mergedInput t).len = 2 * n := by simp [Module.len, ht]
    obtain ⟨p1, p2⟩ := pickInput_many x B N F i (2 * n) hx (by omega)
    rw [hlen]
    obtain ⟨y, y1, y2, y3⟩ := mergedInputMats_ok B n D F t _ ht p1
    have hp := region_piece B n D y y2 hn
    refine ⟨_, ?_, hp, by simp [axis, y2], by simp [axis, y2], fun _ => Or.inl rfl, fun h => absurd h id, by simp, by simp, ?_⟩
    · simp only [Module.forward]
      rw [y1, CM.bind_ok (CM.lift_apply _ _), mkMatRegion_ok B n D y y2]
    · intro b hb' o _
      rw [region_factors B _ hp rfl]
      simp only [moduleMats, ht, List.getD_cons_zero, siteMats]
      have e1 : axis (⟨.matRegion, y, ['b', 's', 'l', 'r']⟩ : Contractable K) 's' = n := by simp [axis, y2]
      have e2 : axis (⟨.matRegion, y, ['b', 's', 'l', 'r']⟩ : Contractable K) 'l' = D := by simp [axis, y2]
      rw [e1, e2]
      refine List.map_congr_left ?_
      intro s hs'
      rw [y3 b hb' s (List.mem_range.1 hs')]
      simp only [p2]
      rfl
  | inputSite t =>
    have ht : t.shape = [D, D, F] := hf
    obtain ⟨p1, p2⟩ := pickInput_one x B N F i hx
    obtain ⟨y, y1, y2, y3⟩ := inputSiteMat_ok B D F t _ ht p1
    have hp := single_piece B D D y y2
    refine ⟨_, ?_, hp, by simp [axis, y2], by simp [axis, y2], fun _ => Or.inr rfl, fun h => absurd h id, by simp, by simp, ?_⟩
    · simp only [Module.len, Module.forward]
      rw [y1, CM.bind_ok (CM.lift_apply _ _), mkSingleMat_ok B D D y y2]
    · intro b hb' o _
      rw [factors_single _ (by simp)]
      simp only [moduleMats, matOf, rows, cols, affMat]
      rw [if_pos (by simp), if_pos (by simp)]
      congr 1
      have e1 : axis (⟨.singleMat, y, ['b', 'l', 'r']⟩ : Contractable K) 'r' = D := by simp [axis, y2]
      have e2 : axis (⟨.singleMat, y, ['b', 'l', 'r']⟩ : Contractable K) 'l' = D := by simp [axis, y2]
      rw [e1, e2]
      refine mat_of_congr _ _ _ _ ?_
      intro a ha c hc
      simp [entry, place, y3 b hb' a ha c hc, p2]
  | outputSite t =>
    have ht : t.shape = [O, D, D] := hf
    have hg := hg trivial
    subst hg
    have y2 : (⟨B :: t.shape, fun idx => t.get (idx.drop 1)⟩ : Tensor K).shape = [B, O, D, D] := by simp [ht]
    have hp := core_piece B O D D _ y2
    refine ⟨_, ?_, hp, by simp [axis, ht], by simp [axis, ht], fun h => absurd trivial h, fun _ => ⟨rfl, by simp [axis, ht]⟩, by simp, by simp, ?_⟩
    · simp only [Module.forward]
      rw [mkOutputCore_expand O D D t ht B]
    · intro b hb' o _
      rw [factors_single _ (by simp)]
      simp only [moduleMats, matOf, rows, cols]
      rw [if_pos (by simp), if_pos (by simp)]
      congr 1
      simp only [axis, ht]
      simp [entry, place]
  | mergedOutput t lo =>
    have ht : t.shape = [O, D, D, F] := hf
    obtain ⟨p1, p2⟩ := pickInput_one x B N F i hx
    obtain ⟨y, y1, y2, y3⟩ := mergedOutputCore_ok B O D F t _ ht p1
    have hp := core_piece B O D D y y2
    refine ⟨_, ?_, hp, by simp [axis, y2], by simp [axis, y2], fun h => absurd trivial h, fun _ => ⟨rfl, by simp [axis, y2]⟩, by simp, by simp, ?_⟩
    · simp only [Module.len, Module.forward]
      rw [y1, CM.bind_ok (CM.lift_apply _ _), mkOutputCore_ok B O D D y y2]
    · intro b hb' o ho
      rw [factors_single _ (by simp)]
      simp only [moduleMats, matOf, rows, cols, affMat]
      rw [if_pos (by simp), if_pos (by simp)]
      congr 1
      have e1 : axis (⟨.outputCore, y, ['b', 'o', 'l', 'r']⟩ : Contractable K) 'r' = D := by simp [axis, y2]
      have e2 : axis (⟨.outputCore, y, ['b', 'o', 'l', 'r']⟩ : Contractable K) 'l' = D := by simp [axis, y2]
      rw [e1, e2]
      refine mat_of_congr _ _ _ _ ?_
      intro a ha c hc
      simp [entry, place, y3 b hb' o ho a ha c hc, p2]

end TorchMPS
