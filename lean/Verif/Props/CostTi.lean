import Verif.Lemmas.CostMpsLoop
import Verif.Model.CostTi
import Verif.Spec.CostTi
import Verif.Props.TiMps
/-
C106: the work of TI_MPS.forward.
-/
namespace TorchMPS
open Spec
variable {K : Type}

/-- C106: the evaluation whose work is counted is the evaluation: the same outputs, the same exceptions, the same state of the process, for all models and inputs. -/
theorem C106_run [CommRing K] (m : TiMps K) (inp : TiInput K) (g : Option ℕ) : (m.run inp).result g = m.forward inp g := by
  unfold TiMps.run TiMps.forward
  rw [CW.result_bind, CW.result_of]
  refine congrFun (congrArg _ ?_) g
  funext x
  rw [CW.result_bind, CW.result_of]
  congr 1
  funext core
  rw [CW.result_bind, CW.result_of]
  congr 1
  funext r
  rw [CW.result_bind, CW.result_of]
  congr 1
  funext c
  rw [CW.result_bind, CW.result_of]
  congr 1
  funext e
  rw [CW.result_bind, CW.result_of]
  congr 1
  funext t
  rw [CW.result_bind, listRun_result]
  congr 1
  funext o
  obtain ⟨o, o'⟩ := o
  simp only
  rw [CW.result_bind, CW.result_of]
  congr 1
  funext _
  rw [CW.result_bind, CW.result_of]
  congr 1
  funext _
  rw [CW.result_bind, CW.result_of]
  rfl

/-- terminal matrix -/
abbrev IsT (B O D n : ℕ) (c : Contractable K) : Prop := Obj B O D n .outputMat ['b', 'l', 'o'] c

section
variable [CommSemiring K] {B O D n : ℕ} {x y : Contractable K}

theorem work_MT (hx : IsM B O D n x) (hy : IsT B O D n y) (g : Option ℕ) :
    ∃ c, star x y g = (.ok c, some B) ∧ IsW B O D n c ∧ starWork x y = (B * (O * D ^ 2), 1) := by
  obtain ⟨c, c1, c2⟩ := mul_obj n hx hy trivial (by decide) (by decide) (by decide) (by decide) (by decide) g _ ['b', 'o', 'l'] (by decide) rfl
  refine ⟨c, c1, c2, ?_⟩
  rw [starWork_gen hx hy trivial, gmulWork_obj hx hy ['b', 'l', 'z'] ['b', 'z', 'o'] ['b', 'o', 'l'] rfl (by simp [szOf]) (by simp [szOf]),
    show (['b', 'l', 'z'] ++ ['b', 'z', 'o'] : List Char).dedup = ['l', 'b', 'z', 'o'] by decide]
  simp [szOf]
  ring

theorem work_ET (hx : IsE B O D n x) (hy : IsT B O D n y) (g : Option ℕ) :
    ∃ c, star x y g = (.ok c, some B) ∧ starWork x y = (B * (O * D), 1) := by
  obtain ⟨c, c1, c2⟩ := mul_obj n hx hy trivial (by decide) (by decide) (by decide) (by decide) (by decide) g _ ['b', 'o'] (by decide) rfl
  refine ⟨c, c1, ?_⟩
  rw [starWork_gen hx hy trivial, gmulWork_obj hx hy ['b', 'z'] ['b', 'z', 'o'] ['b', 'o'] rfl (by simp [szOf]) (by simp [szOf]),
    show (['b', 'z'] ++ ['b', 'z', 'o'] : List Char).dedup = ['b', 'z', 'o'] by decide]
  simp only [szOf, List.map_cons, List.map_nil, List.prod_cons, List.prod_nil]
  simp
  left
  ring

theorem work_RT (hx : IsR B O D n x) (hy : IsT B O D n y) (g : Option ℕ) : star x y g = (.error .type, g) := by
  refine C46_unsupported x y ?_ ?_ ?_ g <;> rw [hx.cls_eq, hy.cls_eq] <;> simp [CanMultiply]

theorem tiSerial_work {e r t : Contractable K} (he : IsE B O D n e) (hr : IsR B O D n r) (ht : IsT B O D n t) (g : Option ℕ) :
    listWork [e, r, t] false g = tiSerialWork B O D n := by
  rw [listWork_eq [e, r, t] [e, r, t] false g g rfl]
  obtain ⟨c, c1, c2, c3⟩ := work_ER he hr g
  obtain ⟨u, u1, u2⟩ := work_ET c2 ht (some B)
  have h1 := reduceWork_first 2 [e, r, t] [e] r t e r c [t] g (some B) rfl rfl (work_RT hr ht g) c1
  have h2 := reduceWork_last 1 [] c t u (some B) (some B) u1
  simp only [List.nil_append] at h2
  show (0 : Work) + reduceWork 3 [e, r, t] g = _
  rw [zero_add, h1, h2, reduceWork_one, c3, u2]
  rfl

theorem tiParallel_work {e r t : Contractable K} (he : IsE B O D n e) (hr : IsR B O D n r) (ht : IsT B O D n t) (hn : 1 ≤ n) (g : Option ℕ) :
    listWork [e, r, t] true g = tiParallelWork B O D n := by
  obtain ⟨m, m1, m2, m3⟩ := reduce_R hr hn g
  have i1 := reduce_other he (by decide) g
  have i3 := reduce_other ht (by decide) (some B)
  have hs := reduceItems_cons i1.1 i1.2 (reduceItems_cons m1 m3 (reduceItems_cons i3.1 i3.2 (⟨rfl, rfl⟩ : reduceItems [] (some B) = (.ok [], some B) ∧ itemsWork [] (some B) = (0, 0))))
  rw [listWork_eq [e, r, t] [e, m, t] true g (some B) hs.1]
  obtain ⟨c, c1, c2, c3⟩ := work_MT (m2 n) ht (some B)
  obtain ⟨u, u1, u2⟩ := work_EW he c2 (some B)
  have h1 := reduceWork_last 2 [e] m t c (some B) (some B) c1
  have h2 := reduceWork_last 1 [] e c u (some B) (some B) u1
  simp only [List.nil_append, List.singleton_append] at h1 h2
  show itemsWork [e, r, t] g + reduceWork 3 [e, m, t] (some B) = _
  rw [hs.2, h1, h2, reduceWork_one, c3, u2]
  unfold tiParallelWork
  refine Prod.ext ?_ ?_
  · show 0 + ((n - 1) * (B * D ^ 3) + (0 + 0)) + (B * (O * D ^ 2) + (B * (O * D) + 0)) = (n - 1) * (B * D ^ 3) + B * (O * D ^ 2) + B * (O * D)
    ring
  · show 0 + (Nat.clog 2 n + (0 + 0)) + (1 + (1 + 0)) = Nat.clog 2 n + 2
    ring
end

/-- C106: how much work an evaluation takes, for all sizes, parameters, accepted inputs and states of the process: the number of multiplications and the number of contractions
done one after the other. (It does not depend on the values; `n` is the length of the longest sequence.) -/
theorem C106_work [CommRing K] (m : TiMps K) (h : IsTi m) (inp : TiInput K) (B n : ℕ) (hi : TiAccepts m B n inp) (hn : 1 ≤ n) (g : Option ℕ) :
    (m.run inp).work g = (n * (B * m.bondDim ^ 2 * m.featureDim), 1) +
      (if m.parallel then tiParallelWork B m.outputDim m.bondDim n else tiSerialWork B m.outputDim m.bondDim n) := by
  obtain ⟨x, hf, hx, _⟩ := C69_accepted m B n inp hi
  obtain ⟨core, c1, c2, c3⟩ := expand_core m.bondDim m.featureDim n m.core h.core
  obtain ⟨bias, b1, b2, b3⟩ := ti_region m h n core c2
  obtain ⟨mats, m1, m2, m3⟩ := inputRegionMats_ok B n m.bondDim m.featureDim core x bias c2 hx b2
  set E : Contractable K := ⟨.edgeVec, ⟨[B, m.bondDim], fun idx => m.initVec.get (idx.drop 1)⟩, ['b', 'r']⟩ with hE
  set R : Contractable K := ⟨.matRegion, mats, ['b', 's', 'l', 'r']⟩ with hR
  set T : Contractable K := ⟨.outputMat, ⟨[B, m.bondDim, m.outputDim], fun idx => m.termMat.get (idx.drop 1)⟩, ['b', 'l', 'o']⟩ with hT
  have hfw : (Module.inputRegion core bias).forward x g = (.ok R, some B) := by
    simp only [Module.forward]
    rw [m1, CM.bind_ok (CM.lift_apply _ _), mkMatRegion_ok B n m.bondDim mats m2]
  have he : mkEdgeVec m.initVec true (some B) = (.ok E, some B) := mkEdgeVec_expand m.bondDim true m.initVec h.initVec B
  have ht : mkOutputMat m.termMat false (some B) = (.ok T, some B) := mkOutputMat_expand m.bondDim m.outputDim m.termMat h.termMat B
  have oE : IsE B m.outputDim m.bondDim n E := by
    refine ⟨edge_piece B m.bondDim true _ rfl, rfl, rfl, ?_⟩
    intro d hd
    simp only [List.mem_cons, List.not_mem_nil, or_false] at hd
    rcases hd with rfl | rfl <;> simp [axis, hE, szOf]
  have oR : IsR B m.outputDim m.bondDim n R := by
    refine ⟨region_piece B n m.bondDim mats m2 hn, rfl, rfl, ?_⟩
    intro d hd
    simp only [List.mem_cons, List.not_mem_nil, or_false] at hd
    rcases hd with rfl | rfl | rfl | rfl <;> simp [axis, hR, m2, szOf]
  have oT : IsT B m.outputDim m.bondDim n T := by
    refine ⟨terminal_piece B m.bondDim m.outputDim _ rfl, rfl, rfl, ?_⟩
    intro d hd
    simp only [List.mem_cons, List.not_mem_nil, or_false] at hd
    rcases hd with rfl | rfl | rfl <;> simp [axis, hT, szOf]
  have hw : (Module.inputRegion core bias).work x = (n * (B * m.bondDim ^ 2 * m.featureDim), 1) := by
    simp only [Module.work]
    rw [einsumWork_ok (fun c => if c = 'i' then m.featureDim else szOf B 1 m.bondDim n c) _ _ (by simp [c2, hx, szOf]),
      show ([['s', 'l', 'r', 'i'], ['b', 's', 'i']] : List (List Char)).flatten.dedup = ['l', 'r', 'b', 's', 'i'] by decide]
    simp [szOf]
    ring
  unfold TiMps.run
  rw [CW.work_bind _ _ g g x (by rw [CW.result_of, hf]; rfl), CW.work_bind _ _ g g core (by rw [CW.result_of, hx]; simp only [List.getD_cons_succ, List.getD_cons_zero]; rw [c1]; rfl),
    CW.work_bind _ _ g g _ (by rw [CW.result_of, b1]; rfl), CW.work_bind _ _ g (some B) R (by rw [CW.result_of]; exact hfw),
    CW.work_bind _ _ _ _ E (by rw [CW.result_of]; exact he), CW.work_bind _ _ _ _ T (by rw [CW.result_of]; exact ht), CW.work_bind_zero]
  · show (0 : Work) + ((0 : Work) + ((0 : Work) + ((Module.inputRegion core bias).work x + ((0 : Work) + ((0 : Work) + listWork [E, R, T] m.parallel (some B)))))) = _
    rw [zero_add, zero_add, zero_add, zero_add, zero_add, hw]
    congr 1
    cases m.parallel with
    | true => exact tiParallel_work oE oR oT hn _
    | false => exact tiSerial_work oE oR oT _
  · rintro ⟨o, o'⟩ g'
    refine CW.work_bind_zero _ _ _ ?_
    intro _ g''
    refine CW.work_bind_zero _ _ _ ?_
    intro _ g''
    exact CW.work_bind_zero _ _ _ (fun _ _ => rfl)

/-- C106: the serial evaluation never takes more multiplications than the parallel one, and the parallel one never more contractions one after the other than
the serial one; both give the same outputs. -/
theorem C106_compare [CommRing K] (ms mp : TiMps K) (h : IsTi ms) (hm : mp = { ms with parallel := true }) (hser : ms.parallel = false) (hD : 1 ≤ ms.bondDim)
    (hO : 1 ≤ ms.outputDim) (inp : TiInput K) (B n : ℕ) (hi : TiAccepts ms B n inp) (hn : 1 ≤ n) (g g' : Option ℕ) :
    ((ms.run inp).work g).1 ≤ ((mp.run inp).work g').1 ∧ ((mp.run inp).work g').2 ≤ ((ms.run inp).work g).2 ∧
    ∃ y y', (ms.forward inp g).1 = .ok y ∧ (mp.forward inp g').1 = .ok y' ∧ y.Eqv y' := by
  have hi' : TiAccepts mp B n inp := by
    rw [hm]
    cases inp <;> exact hi
  have hp : IsTi mp := by rw [hm]; exact ⟨h.core, h.initVec, h.termMat, h.bias, h.fixed⟩
  have w1 := C106_work ms h inp B n hi hn g
  have w2 := C106_work mp hp inp B n hi' hn g'
  have b2 : mp.outputDim = ms.outputDim := by rw [hm]
  have b3 : mp.bondDim = ms.bondDim := by rw [hm]
  have b4 : mp.featureDim = ms.featureDim := by rw [hm]
  have b6 : mp.parallel = true := by rw [hm]
  rw [hser] at w1
  rw [b2, b3, b4, b6] at w2
  simp only [Bool.false_eq_true, if_false, if_true] at w1 w2
  rw [w1, w2]
  refine ⟨Nat.add_le_add_left ?_ _, Nat.add_le_add_left ?_ _, ?_⟩
  · unfold tiSerialWork tiParallelWork
    obtain ⟨k, rfl⟩ : ∃ k, n = k + 1 := ⟨n - 1, by omega⟩
    simp only [Nat.add_sub_cancel]
    have a1 : B * ms.bondDim ^ 2 ≤ B * (ms.outputDim * ms.bondDim ^ 2) := Nat.mul_le_mul_left _ (Nat.le_mul_of_pos_left _ hO)
    have a2 : B * ms.bondDim ^ 2 ≤ B * ms.bondDim ^ 3 := Nat.mul_le_mul_left _ (Nat.pow_le_pow_right hD (by omega))
    have a3 := Nat.mul_le_mul_left k a2
    rw [Nat.add_mul, Nat.one_mul]
    omega
  · unfold tiSerialWork tiParallelWork
    have : Nat.clog 2 n ≤ n - 1 := by
      rw [Nat.clog_le_iff_le_pow (by omega)]
      have := Nat.lt_two_pow_self (n := n - 1)
      omega
    show Nat.clog 2 n + 2 ≤ n + 1
    omega
  · obtain ⟨y, y1, y2, y3⟩ := C66_value ms h inp B n hi hn g
    obtain ⟨y', z1, z2, z3⟩ := C66_value mp hp inp B n hi' hn g'
    refine ⟨y, y', by rw [y1], by rw [z1], ?_⟩
    refine ⟨by rw [y2, z2, b2], ?_⟩
    intro idx hidx
    rw [y2] at hidx
    obtain _ | ⟨b, _ | ⟨o, _ | ⟨_, _⟩⟩⟩ := idx <;> simp at hidx
    rw [y3 b hidx.1 o hidx.2, z3 b hidx.1 o (by rw [b2]; exact hidx.2)]
    subst hm
    rw [tiValue_parallel ms true, tiEntry_parallel ms true]

/-- C106: the multiplications of the serial evaluation: linear in the batch size and in the length of the longest sequence (padding counts), quadratic in the bond dimension. -/
theorem C106_serial [CommRing K] (m : TiMps K) (h : IsTi m) (hser : m.parallel = false) (inp : TiInput K) (B n : ℕ) (hi : TiAccepts m B n inp) (hn : 1 ≤ n) (g : Option ℕ) :
    ((m.run inp).work g).1 = B * (n * (m.featureDim + 1) * m.bondDim ^ 2 + m.outputDim * m.bondDim) := by
  rw [C106_work m h inp B n hi hn g, hser]
  simp only [Bool.false_eq_true, if_false]
  unfold tiSerialWork
  rw [Prod.fst_add]
  ring

/-- C106: padding is paid for: the sequences of a list evaluated one at a time never take more multiplications than the list evaluated at once. -/
theorem C106_padding [CommRing K] (m : TiMps K) (h : IsTi m) (hser : m.parallel = false) (ts : List (Tensor K)) (B n : ℕ) (hi : TiAccepts m B n (.list ts)) (hn : 1 ≤ n)
    (hl : ∀ t ∈ ts, 1 ≤ itemLen t) (g g' : Option ℕ) :
    (ts.map (fun t => ((m.run (.list [t])).work g').1)).sum ≤ ((m.run (.list ts)).work g).1 := by
  rw [C106_serial m h hser _ B n hi hn g]
  obtain ⟨h1, h2, h3, h4, h5⟩ := hi
  have key : ∀ t ∈ ts, ((m.run (.list [t])).work g').1 ≤ n * (m.featureDim + 1) * m.bondDim ^ 2 + m.outputDim * m.bondDim := by
    intro t ht
    have ha : TiAccepts m 1 (itemLen t) (.list [t]) := by
      refine ⟨rfl, ⟨t, by simp, rfl⟩, by simp, Or.inr (by simp), ?_⟩
      rcases h5 with h5 | h5
      · exact Or.inl (by simpa using h5 t ht)
      · refine Or.inr ⟨by simpa using h5.1 t ht, ?_⟩
        obtain ⟨b, hb, rfl⟩ := List.getElem_of_mem ht
        have h6 := h5.2
        have hb' : b < ts.length := hb
        unfold TiEmbeds at h6 ⊢
        cases hm : m.featureMap with
        | none => rw [hm] at h6; exact h6
        | some φ =>
          rw [hm] at h6
          simp only at h6 ⊢
          refine ⟨le_rfl, hl _ ht, ?_⟩
          intro b' hb2 i hi'
          have hle := h3 _ ht
          have := h6.2.2 b (by omega) i (by omega)
          obtain rfl : b' = 0 := by omega
          simpa [rawValue, hb', hi'] using this
    rw [C106_serial m h hser _ 1 (itemLen t) ha (hl t ht) g', Nat.one_mul]
    exact Nat.add_le_add_right (Nat.mul_le_mul_right _ (Nat.mul_le_mul_right _ (h3 t ht))) _
  rw [← h1]
  refine (List.sum_le_card_nsmul _ (n * (m.featureDim + 1) * m.bondDim ^ 2 + m.outputDim * m.bondDim) ?_).trans (by simp)
  intro a ha
  obtain ⟨t, ht, rfl⟩ := List.mem_map.1 ha
  exact key t ht

/-- a model with bond dimension 3, four outputs, feature dimension 2 and the fixed identity as bias -/
def tiWorkModel (par : Bool) : TiMps ℤ :=
  ⟨4, 3, 2, par, true, true, none, ⟨[3, 3, 2], fun _ => 1⟩, ⟨[3], fun _ => 1⟩, ⟨[3, 4], fun _ => 1⟩, some (eyeMat 3)⟩

theorem tiWorkModel_is (par : Bool) : IsTi (tiWorkModel par) := by
  refine ⟨rfl, rfl, rfl, fun _ => ⟨_, rfl, rfl⟩, ?_⟩
  intro _ _ l _ r _
  simp [tiWorkModel, tiBiasAt, eyeMat]

/-- two sequences, of lengths 10 and 2 -/
theorem tiWork_accepts (par : Bool) : TiAccepts (tiWorkModel par) 2 10 (.list [⟨[10], fun _ => 1⟩, ⟨[2], fun _ => 1⟩]) :=
  ⟨rfl, ⟨_, List.mem_cons_self, rfl⟩, by simp [itemLen], Or.inl ⟨rfl, rfl⟩, Or.inr ⟨by simp [itemLen], rfl⟩⟩

/-- `tiWorkModel` on sequences of lengths 10 and 2: serially 564 multiplications in 12 steps, in parallel 942 in 7; the sequences one at a time 348 -/
example (g : Option ℕ) : ((tiWorkModel false).run (.list [⟨[10], fun _ => 1⟩, ⟨[2], fun _ => 1⟩])).work g = (564, 12) ∧
    ((tiWorkModel true).run (.list [⟨[10], fun _ => 1⟩, ⟨[2], fun _ => 1⟩])).work g = (942, 7) ∧
    ((tiWorkModel false).run (.list [⟨[10], fun _ => 1⟩])).work g + ((tiWorkModel false).run (.list [⟨[2], fun _ => 1⟩])).work g = (348, 16) := by
  have a1 : TiAccepts (tiWorkModel false) 1 10 (.list [⟨[10], fun _ => 1⟩]) :=
    ⟨rfl, ⟨_, List.mem_cons_self, rfl⟩, by simp [itemLen], Or.inl ⟨rfl, rfl⟩, Or.inr ⟨by simp [itemLen], rfl⟩⟩
  have a2 : TiAccepts (tiWorkModel false) 1 2 (.list [⟨[2], fun _ => 1⟩]) :=
    ⟨rfl, ⟨_, List.mem_cons_self, rfl⟩, by simp [itemLen], Or.inl ⟨rfl, rfl⟩, Or.inr ⟨by simp [itemLen], rfl⟩⟩
  have hc : Nat.clog 2 10 = 4 := by decide +kernel
  rw [C106_work _ (tiWorkModel_is _) _ _ _ (tiWork_accepts _) (by omega), C106_work _ (tiWorkModel_is _) _ _ _ (tiWork_accepts _) (by omega),
    C106_work _ (tiWorkModel_is _) _ _ _ a1 (by omega), C106_work _ (tiWorkModel_is _) _ _ _ a2 (by omega)]
  simp [tiWorkModel, tiSerialWork, tiParallelWork, hc]

end TorchMPS
