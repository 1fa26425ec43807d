import Verif.Base.Einsum
/-
The index strings used by `torchmps/mps_base.py`, evaluated.
-/
namespace TorchMPS
variable {K : Type}

theorem einsum_bti_ide [CommSemiring K] (t core : Tensor K) (B T d D E : ℕ) (ht : t.shape = [B, T, d])
    (hc : core.shape = [d, D, E]) :
    ∃ o, einsum ["bti".toList, "ide".toList] "btde".toList [t, core] = .ok o ∧ o.shape = [B, T, D, E] ∧
      ∀ b < B, ∀ s < T, ∀ i < D, ∀ j < E, o.get [b, s, i, j] =
        ∑ k ∈ Finset.range d, t.get [b, s, k] * core.get [k, i, j] := by
  obtain ⟨o, h1, h2, h3⟩ := einsum_ok (K := K)
    (fun c => if c = 'b' then B else if c = 't' then T else if c = 'i' then d else if c = 'd' then D else E)
    ["bti".toList, "ide".toList] "btde".toList [t, core] rfl (by simp [ht, hc]) (by decide) (by decide)
  refine ⟨o, h1, by rw [h2]; rfl, ?_⟩
  intro b hb s hs i hi j hj
  rw [h3 _ (by simp [hb, hs, hi, hj])]
  have : (["bti".toList, "ide".toList].flatten.dedup).filter (fun c => c ∉ "btde".toList) = ['i'] := by decide
  rw [this]
  simp [sumOver, Env.ofOut, Env.set]

theorem einsum_bti_tide [CommSemiring K] (t core : Tensor K) (B T d D E : ℕ) (ht : t.shape = [B, T, d])
    (hc : core.shape = [T, d, D, E]) :
    ∃ o, einsum ["bti".toList, "tide".toList] "btde".toList [t, core] = .ok o ∧ o.shape = [B, T, D, E] ∧
      ∀ b < B, ∀ s < T, ∀ i < D, ∀ j < E, o.get [b, s, i, j] =
        ∑ k ∈ Finset.range d, t.get [b, s, k] * core.get [s, k, i, j] := by
  obtain ⟨o, h1, h2, h3⟩ := einsum_ok (K := K)
    (fun c => if c = 'b' then B else if c = 't' then T else if c = 'i' then d else if c = 'd' then D else E)
    ["bti".toList, "tide".toList] "btde".toList [t, core] rfl (by simp [ht, hc]) (by decide) (by decide)
  refine ⟨o, h1, by rw [h2]; rfl, ?_⟩
  intro b hb s hs i hi j hj
  rw [h3 _ (by simp [hb, hs, hi, hj])]
  have : (["bti".toList, "tide".toList].flatten.dedup).filter (fun c => c ∉ "btde".toList) = ['i'] := by decide
  rw [this]
  simp [sumOver, Env.ofOut, Env.set]

theorem einsum_bi_ide [CommSemiring K] (t core : Tensor K) (B d D E : ℕ) (ht : t.shape = [B, d])
    (hc : core.shape = [d, D, E]) :
    ∃ o, einsum ["bi".toList, "ide".toList] "bde".toList [t, core] = .ok o ∧ o.shape = [B, D, E] ∧
      ∀ b < B, ∀ i < D, ∀ j < E, o.get [b, i, j] =
        ∑ k ∈ Finset.range d, t.get [b, k] * core.get [k, i, j] := by
  obtain ⟨o, h1, h2, h3⟩ := einsum_ok (K := K)
    (fun c => if c = 'b' then B else if c = 'i' then d else if c = 'd' then D else E)
    ["bi".toList, "ide".toList] "bde".toList [t, core] rfl (by simp [ht, hc]) (by decide) (by decide)
  refine ⟨o, h1, by rw [h2]; rfl, ?_⟩
  intro b hb i hi j hj
  rw [h3 _ (by simp [hb, hi, hj])]
  have : (["bi".toList, "ide".toList].flatten.dedup).filter (fun c => c ∉ "bde".toList) = ['i'] := by decide
  rw [this]
  simp [sumOver, Env.ofOut, Env.set]

theorem einsum_transfer [CommSemiring K] (ct dm ct' : Tensor K) (d L R P Q : ℕ) (h1 : ct.shape = [d, L, R])
    (h2 : dm.shape = [L, P]) (h3 : ct'.shape = [d, P, Q]) :
    ∃ o, einsum ["ilr".toList, "lp".toList, "ipq".toList] "rq".toList [ct, dm, ct'] = .ok o ∧
      o.shape = [R, Q] ∧ ∀ r < R, ∀ q < Q, o.get [r, q] =
        ∑ l ∈ Finset.range L, ∑ i ∈ Finset.range d, ∑ p ∈ Finset.range P,
          ct.get [i, l, r] * (dm.get [l, p] * ct'.get [i, p, q]) := by
  obtain ⟨o, e1, e2, e3⟩ := einsum_ok (K := K)
    (fun c => if c = 'i' then d else if c = 'l' then L else if c = 'r' then R else if c = 'p' then P else Q)
    ["ilr".toList, "lp".toList, "ipq".toList] "rq".toList [ct, dm, ct'] rfl (by simp [h1, h2, h3])
    (by decide) (by decide)
  refine ⟨o, e1, by rw [e2]; rfl, ?_⟩
  intro r hr q hq
  rw [e3 _ (by simp [hr, hq])]
  have : (["ilr".toList, "lp".toList, "ipq".toList].flatten.dedup).filter (fun c => c ∉ "rq".toList) =
    ['l', 'i', 'p'] := by decide
  rw [this]
  simp [sumOver, Env.ofOut, Env.set]

theorem einsum_transfer_diag [CommSemiring K] (lam ct dm ct' : Tensor K) (d L R P Q : ℕ) (h0 : lam.shape = [d])
    (h1 : ct.shape = [d, L, R]) (h2 : dm.shape = [L, P]) (h3 : ct'.shape = [d, P, Q]) :
    ∃ o, einsum ["i".toList, "ilr".toList, "lp".toList, "ipq".toList] "rq".toList [lam, ct, dm, ct'] = .ok o ∧
      o.shape = [R, Q] ∧ ∀ r < R, ∀ q < Q, o.get [r, q] =
        ∑ l ∈ Finset.range L, ∑ i ∈ Finset.range d, ∑ p ∈ Finset.range P,
          lam.get [i] * (ct.get [i, l, r] * (dm.get [l, p] * ct'.get [i, p, q])) := by
  obtain ⟨o, e1, e2, e3⟩ := einsum_ok (K := K)
    (fun c => if c = 'i' then d else if c = 'l' then L else if c = 'r' then R else if c = 'p' then P else Q)
    ["i".toList, "ilr".toList, "lp".toList, "ipq".toList] "rq".toList [lam, ct, dm, ct'] rfl
    (by simp [h0, h1, h2, h3]) (by decide) (by decide)
  refine ⟨o, e1, by rw [e2]; rfl, ?_⟩
  intro r hr q hq
  rw [e3 _ (by simp [hr, hq])]
  have : (["i".toList, "ilr".toList, "lp".toList, "ipq".toList].flatten.dedup).filter
    (fun c => c ∉ "rq".toList) = ['l', 'i', 'p'] := by decide
  rw [this]
  simp [sumOver, Env.ofOut, Env.set]

theorem einsum_transfer_mat [CommSemiring K] (lam ct dm ct' : Tensor K) (d L R P Q : ℕ) (h0 : lam.shape = [d, d])
    (h1 : ct.shape = [d, L, R]) (h2 : dm.shape = [L, P]) (h3 : ct'.shape = [d, P, Q]) :
    ∃ o, einsum ["ij".toList, "ilr".toList, "lp".toList, "jpq".toList] "rq".toList [lam, ct, dm, ct'] = .ok o ∧
      o.shape = [R, Q] ∧ ∀ r < R, ∀ q < Q, o.get [r, q] =
        ∑ i ∈ Finset.range d, ∑ l ∈ Finset.range L, ∑ j ∈ Finset.range d, ∑ p ∈ Finset.range P,
          lam.get [i, j] * (ct.get [i, l, r] * (dm.get [l, p] * ct'.get [j, p, q])) := by
  obtain ⟨o, e1, e2, e3⟩ := einsum_ok (K := K)
    (fun c => if c = 'i' ∨ c = 'j' then d else if c = 'l' then L else if c = 'r' then R else
      if c = 'p' then P else Q)
    ["ij".toList, "ilr".toList, "lp".toList, "jpq".toList] "rq".toList [lam, ct, dm, ct'] rfl
    (by simp [h0, h1, h2, h3]) (by decide) (by decide)
  refine ⟨o, e1, by rw [e2]; rfl, ?_⟩
  intro r hr q hq
  rw [e3 _ (by simp [hr, hq])]
  have : (["ij".toList, "ilr".toList, "lp".toList, "jpq".toList].flatten.dedup).filter
    (fun c => c ∉ "rq".toList) = ['i', 'l', 'j', 'p'] := by decide
  rw [this]
  simp [sumOver, Env.ofOut, Env.set]

theorem einsum_final [CommSemiring K] (v dm w : Tensor K) (R Q : ℕ) (h1 : v.shape = [R])
    (h2 : dm.shape = [R, Q]) (h3 : w.shape = [Q]) :
    ∃ o, einsum ["r".toList, "rq".toList, "q".toList] [] [v, dm, w] = .ok o ∧
      o.shape = [] ∧ o.get [] =
        ∑ r ∈ Finset.range R, ∑ q ∈ Finset.range Q, v.get [r] * (dm.get [r, q] * w.get [q]) := by
  obtain ⟨o, e1, e2, e3⟩ := einsum_ok (K := K)
    (fun c => if c = 'r' then R else Q)
    ["r".toList, "rq".toList, "q".toList] [] [v, dm, w] rfl (by simp [h1, h2, h3]) (by decide) (by decide)
  refine ⟨o, e1, by rw [e2]; rfl, ?_⟩
  rw [e3 _ (by simp)]
  have : (["r".toList, "rq".toList, "q".toList].flatten.dedup).filter
    (fun c => c ∉ ([] : List Char)) = ['r', 'q'] := by decide
  rw [this]
  simp [sumOver, Env.ofOut, Env.set]

end TorchMPS
