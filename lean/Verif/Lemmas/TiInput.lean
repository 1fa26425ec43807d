import Verif.Lemmas.TiMps
import Verif.Props.MpsInput
/-
Lemmas on the input formatting of TI_MPS.
-/
namespace TorchMPS
open Spec
variable {K : Type}

theorem stackAll_shape (ts : List (Tensor K)) (r : Tensor K) (h : stackAll ts 0 = .ok r) :
    ts ≠ [] ∧ ∀ t ∈ ts, r.shape = ts.length :: t.shape := by
  cases ts with
  | nil => simp [stackAll] at h
  | cons t ts =>
    simp only [stackAll] at h
    split at h
    · rename_i hs
      cases h
      refine ⟨by simp, ?_⟩
      intro u hu
      rcases List.mem_cons.1 hu with rfl | hu
      · simp [Tensor.stack]
      · rw [hs u hu]
        simp [Tensor.stack]
    · cases h

theorem embedWith_inv (φ : K → Tensor K) (x e : Tensor K) (B n F : ℕ) (hx : x.shape = [B, n]) (h : embedWith φ x = .ok e)
    (hs : e.shape = [B, n, F]) : 1 ≤ B ∧ 1 ≤ n ∧ ∀ b < B, ∀ i < n, (φ (x.get [b, i])).shape = [F] := by
  unfold embedWith at h
  simp only [hx] at h
  obtain ⟨rows, h1, h2⟩ := bind_ok_inv h
  obtain ⟨l1, l2⟩ := mapM_ok_inv _ _ _ h1
  simp only [List.getD_cons_zero, List.getD_cons_succ, List.length_range] at l1 l2
  obtain ⟨s1, s2⟩ := stackAll_shape rows e h2
  have hB : 1 ≤ B := by
    rcases Nat.eq_zero_or_pos B with h0 | h0
    · rw [h0] at l1
      exact absurd (List.length_eq_zero_iff.1 l1) s1
    · exact h0
  have key : ∀ b < B, ∀ i < n, (φ (x.get [b, i])).shape = [F] := by
    intro b hb i hi
    have hb' : b < rows.length := by omega
    have h3 := l2 b hb hb'
    simp only [List.getElem_range] at h3
    obtain ⟨t1, t2⟩ := stackAll_shape _ _ h3
    have := t2 (φ (x.get [b, i])) (List.mem_map.2 ⟨i, List.mem_range.2 hi, rfl⟩)
    have h4 := s2 rows[b] (List.getElem_mem hb')
    rw [this, hs] at h4
    simp at h4
    exact h4.2.symm
  refine ⟨hB, ?_, key⟩
  have h3 := l2 0 (by omega) (by omega)
  simp only [List.getElem_range] at h3
  obtain ⟨t1, _⟩ := stackAll_shape _ _ h3
  rcases Nat.eq_zero_or_pos n with h0 | h0
  · rw [h0] at t1
    simp at t1
  · exact h0

theorem ti_embed_ok [One K] [Sub K] (m : TiMps K) (x : Tensor K) (B n : ℕ) (hx : x.shape = [B, n])
    (h : TiEmbeds m B n (fun b i => x.get [b, i])) :
    ∃ e, m.embedInput x = .ok e ∧ e.shape = [B, n, m.featureDim] ∧
      ∀ b < B, ∀ i < n, ∀ f, e.get [b, i, f] = tiFeature m (x.get [b, i]) f := by
  unfold TiMps.embedInput
  rw [assert_true _ (by simp [Tensor.ndim, hx])]
  simp only [bind_ok_except]
  unfold tiFeature
  unfold TiEmbeds at h
  cases hf : m.featureMap with
  | none =>
    rw [hf] at h
    simp only at h
    simp only [h]
    refine ⟨embedLinear x, by simp, by simp [embedLinear, hx], ?_⟩
    intro b _ i _ f
    simp [embedLinear]
  | some φ =>
    rw [hf] at h
    simp only at h
    obtain ⟨m1, m2, m3⟩ := h
    have h0 : x.shape.getD 0 0 = B := by simp [hx]
    have h1 : x.shape.getD 1 0 = n := by simp [hx]
    obtain ⟨e, e1, e2⟩ := embedWith_exists φ x m.featureDim (by omega) (by omega) (by rw [h0, h1]; exact m3)
    rw [h0, h1] at e2
    refine ⟨e, ?_, e2, ?_⟩
    · simp only [e1, bind_ok_except, h0, h1]
      rw [assert_true _ e2]
      rfl
    · intro b hb i hi f
      exact embedWith_get φ x e e1 b i f (by omega) (by omega)

theorem ti_embed_inv [One K] [Sub K] (m : TiMps K) (x e : Tensor K) (h : m.embedInput x = .ok e) :
    ∃ B n, x.shape = [B, n] ∧ TiEmbeds m B n (fun b i => x.get [b, i]) := by
  unfold TiMps.embedInput at h
  obtain ⟨_, h1, h⟩ := bind_ok_inv h
  rw [assert_ok_iff] at h1
  obtain ⟨B, n, hx⟩ := List.length_eq_two.1 h1
  refine ⟨B, n, hx, ?_⟩
  unfold TiEmbeds
  cases hf : m.featureMap with
  | none =>
    rw [hf] at h
    simp only at h ⊢
    split at h
    · cases h
    · rename_i h2
      exact not_not.1 h2
  | some φ =>
    rw [hf] at h
    simp only at h ⊢
    obtain ⟨a, h2, h⟩ := bind_ok_inv h
    obtain ⟨_, h3, h⟩ := bind_ok_inv h
    rw [assert_ok_iff] at h3
    exact embedWith_inv φ x a B n m.featureDim hx h2 (by rw [h3, hx]; rfl)

theorem foldl_max (l : List (Tensor K)) (a : ℕ) :
    let n := l.foldl (fun a t => max a (t.shape.getD 0 0)) a
    a ≤ n ∧ (∀ t ∈ l, itemLen t ≤ n) ∧ (n = a ∨ ∃ t ∈ l, itemLen t = n) := by
  induction l generalizing a with
  | nil => simp
  | cons t l ih =>
    obtain ⟨h1, h2, h3⟩ := ih (max a (t.shape.getD 0 0))
    simp only [List.foldl_cons]
    refine ⟨le_trans (le_max_left _ _) h1, ?_, ?_⟩
    · intro u hu
      rcases List.mem_cons.1 hu with rfl | hu
      · exact le_trans (le_max_right _ _) h1
      · exact h2 u hu
    · rcases h3 with h3 | ⟨u, hu, h3⟩
      · rcases max_choice a (t.shape.getD 0 0) with h | h
        · left
          rw [h3, h]
        · right
          exact ⟨t, by simp, by rw [h3, h]; rfl⟩
      · exact Or.inr ⟨u, by simp [hu], h3⟩

theorem maxLen_spec (ts : List (Tensor K)) (hne : ts ≠ []) : (∀ t ∈ ts, itemLen t ≤ maxLen ts) ∧ ∃ t ∈ ts, itemLen t = maxLen ts := by
  obtain ⟨h1, h2, h3⟩ := foldl_max ts 0
  refine ⟨h2, ?_⟩
  rcases h3 with h3 | h3
  · cases ts with
    | nil => exact absurd rfl hne
    | cons t ts =>
      refine ⟨t, by simp, ?_⟩
      have := h2 t (by simp)
      unfold maxLen
      rw [h3] at this ⊢
      omega
  · exact h3

theorem maxLen_eq (ts : List (Tensor K)) (n : ℕ) (h1 : ∃ t ∈ ts, itemLen t = n) (h2 : ∀ t ∈ ts, itemLen t ≤ n) : maxLen ts = n := by
  obtain ⟨t, ht, h⟩ := h1
  obtain ⟨a, u, hu, b⟩ := maxLen_spec ts (List.ne_nil_of_mem ht)
  have := a t ht
  have := h2 u hu
  omega

theorem collate_ok [Zero K] (m : TiMps K) (ts : List (Tensor K)) (modes n : ℕ) (rest : Shape) (hrest : rest = if modes = 2 then [m.featureDim] else [])
    (h1 : ∃ t ∈ ts, itemLen t = n) (h2 : ∀ t ∈ ts, itemLen t ≤ n)
    (h3 : (m.useBias = true ∧ m.fixedBias = true) ∨ ∀ t ∈ ts, itemLen t = n) (hsh : ∀ t ∈ ts, t.shape = itemLen t :: rest) :
    ∃ x, collate m ts modes = .ok x ∧ x.shape = ts.length :: n :: rest ∧
      ∀ b (hb : b < ts.length), ∀ i < n, ∀ idx, x.get (b :: i :: idx) = if i < itemLen ts[b] then ts[b].get (i :: idx) else 0 := by
  have hn := maxLen_eq ts n h1 h2
  unfold collate
  by_cases hp : m.useBias = true ∧ m.fixedBias = true
  · rw [if_pos hp]
    refine ⟨_, rfl, by simp [padSeqs, hn, hrest], ?_⟩
    intro b hb i hi idx
    simp [padSeqs, hb, itemLen]
  · rw [if_neg hp]
    have h3 := h3.resolve_left hp
    obtain ⟨t₀, ht₀, _⟩ := h1
    obtain ⟨r, r1, r2⟩ := stackAll_exists ts 0 (n :: rest) (List.ne_nil_of_mem ht₀) (by
      intro t ht
      rw [hsh t ht, h3 t ht])
    refine ⟨r, r1, by simpa using r2, ?_⟩
    intro b hb i hi idx
    rw [stackAll_ok ts 0 r r1 (b :: i :: idx) (by simpa using hb)]
    rw [if_pos (by rw [h3 _ (List.getElem_mem hb)]; exact hi)]
    simp

theorem collate_shape [Zero K] (m : TiMps K) (ts : List (Tensor K)) (modes : ℕ) (x : Tensor K) (hne : ts ≠ []) (hm : modes = 1 ∨ modes = 2)
    (hs : ∀ t ∈ ts, t.ndim = modes) (h : collate m ts modes = .ok x) : x.ndim = modes + 1 := by
  unfold collate at h
  split at h
  · cases h
    rcases hm with rfl | rfl <;> simp [padSeqs, Tensor.ndim]
  · obtain ⟨_, s2⟩ := stackAll_shape ts x h
    cases ts with
    | nil => exact absurd rfl hne
    | cons t ts =>
      have := s2 t (by simp)
      have h2 := hs t (by simp)
      unfold Tensor.ndim at h2 ⊢
      rw [this]
      simp [h2]

theorem ti_format_list [CommRing K] (m : TiMps K) (t₀ : Tensor K) (tl : List (Tensor K)) :
    m.formatInput (.list (t₀ :: tl)) = (do
      assert (t₀.ndim = 1 ∨ t₀.ndim = 2)
      assert (∀ s ∈ t₀ :: tl, s.ndim = t₀.ndim)
      assert (t₀.ndim = 1 ∨ ∀ s ∈ t₀ :: tl, s.shape.getD 1 0 = m.featureDim)
      if ¬ (m.useBias = true ∧ m.fixedBias = true) ∧ ∃ s ∈ t₀ :: tl, s.shape.getD 0 0 ≠ maxLen (t₀ :: tl) then .error .value
      else do
        let b ← collate m (t₀ :: tl) t₀.ndim
        m.embedIfRaw b) := rfl

theorem ti_format_batch [CommRing K] (m : TiMps K) (t : Tensor K) :
    m.formatInput (.batch t) = (do
      let t ← m.embedIfRaw t
      assert (t.ndim = 3)
      assert (t.shape.getD 2 0 = m.featureDim)
      return t) := rfl

theorem embedIfRaw_raw [One K] [Sub K] (m : TiMps K) (t : Tensor K) (h : t.ndim = 2) : m.embedIfRaw t = m.embedInput t := if_pos h
theorem embedIfRaw_not [One K] [Sub K] (m : TiMps K) (t : Tensor K) (h : t.ndim ≠ 2) : m.embedIfRaw t = .ok t := if_neg h

end TorchMPS
