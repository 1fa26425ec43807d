import Verif.Base.Tensor
/-
`torch.einsum`, from its index string.
-/
namespace TorchMPS
variable {K : Type}

/-- An assignment of index values to index letters. -/
abbrev Env := Char → ℕ

/-- `env` with letter `c` set to `i`. -/
def Env.set (env : Env) (c : Char) (i : ℕ) : Env := fun d => if d = c then i else env d

/-- the assignment given by output letters and an output index -/
def Env.ofOut : List Char → List ℕ → Env
  | c :: cs, i :: is => (Env.ofOut cs is).set c i
  | _, _ => fun _ => 0

/-- sum over all values of the letters `cs` -/
def sumOver [AddCommMonoid K] (size : Char → ℕ) : List Char → Env → (Env → K) → K
  | [], env, f => f env
  | c :: cs, env, f => ∑ i ∈ Finset.range (size c), sumOver size cs (env.set c i) f

/-- Size of an index letter: the first size other than 1 it is used with (size-1 axes broadcast). -/
def letterSize (uses : List (Char × ℕ)) (c : Char) : ℕ :=
  (((uses.filter (fun u => u.1 = c)).map Prod.snd).find? (· ≠ 1)).getD 1

/-- `torch.einsum("ins...->out", ops)`. Letters of one size (up to size-1 broadcasting) are required,
otherwise torch raises RuntimeError, as for a wrong number of operands or axes and for an output letter that
does not occur in an input or occurs twice. -/
def einsum [CommSemiring K] (ins : List (List Char)) (out : List Char) (ops : List (Tensor K)) :
    Except Err (Tensor K) :=
  let uses := (ins.zip ops).flatMap (fun p => p.1.zip p.2.shape)
  let inner := (ins.flatten.dedup).filter (fun c => c ∉ out)
  if ins.length = ops.length ∧ (∀ p ∈ ins.zip ops, p.1.length = p.2.ndim) ∧
      (∀ u ∈ uses, ∀ v ∈ uses, u.1 = v.1 → u.2 = 1 ∨ v.2 = 1 ∨ u.2 = v.2) ∧
      out.Nodup ∧ (∀ c ∈ out, c ∈ ins.flatten) then
    .ok ⟨out.map (letterSize uses), fun idx =>
      sumOver (letterSize uses) inner (Env.ofOut out idx) (fun env =>
        ((ins.zip ops).map (fun p => p.2.get (Tensor.clampIdx p.2.shape (p.1.map env)))).prod)⟩
  else .error .runtime

/-! ### The case where all sizes agree -/

theorem letterSize_eq (sz : Char → ℕ) (uses : List (Char × ℕ)) (h : ∀ u ∈ uses, u.2 = sz u.1)
    (c : Char) (hc : c ∈ uses.map Prod.fst) : letterSize uses c = sz c := by
  unfold letterSize
  have hall : ∀ n ∈ (uses.filter (fun u => u.1 = c)).map Prod.snd, n = sz c := by
    intro n hn
    obtain ⟨u, hu, rfl⟩ := List.mem_map.1 hn
    obtain ⟨hu, hc⟩ := List.mem_filter.1 hu
    rw [h u hu]; simp at hc; rw [hc]
  cases hf : ((uses.filter (fun u => u.1 = c)).map Prod.snd).find? (· ≠ 1) with
  | some n => exact hall n (List.mem_of_find?_eq_some hf)
  | none =>
    rw [List.find?_eq_none] at hf
    obtain ⟨u, hu, rfl⟩ := List.mem_map.1 hc
    have hm : u.2 ∈ (uses.filter (fun v => v.1 = u.1)).map Prod.snd :=
      List.mem_map.2 ⟨u, List.mem_filter.2 ⟨hu, by simp⟩, rfl⟩
    have := hf _ hm
    simp at this
    rw [← h u hu, this]; rfl

theorem sumOver_congr [AddCommMonoid K] (s₁ s₂ : Char → ℕ) (cs : List Char) (env : Env)
    (f g : Env → K) (hs : ∀ c ∈ cs, s₁ c = s₂ c)
    (P : Env → Prop) (hP : P env)
    (hset : ∀ env, P env → ∀ c ∈ cs, ∀ i < s₁ c, P (env.set c i))
    (hfg : ∀ env', P env' → (∀ c ∈ cs, env' c < s₁ c) → f env' = g env') :
    sumOver s₁ cs env f = sumOver s₂ cs env g := by
  suffices H : ∀ (cs' done : List Char) (env : Env), (∀ c ∈ cs', c ∈ cs) → P env →
      (∀ c ∈ done, env c < s₁ c) → (∀ c ∈ cs, c ∈ cs' ∨ c ∈ done) →
      sumOver s₁ cs' env f = sumOver s₂ cs' env g by
    exact H cs [] env (fun _ h => h) hP (by simp) (fun c h => Or.inl h)
  intro cs'
  induction cs' with
  | nil =>
    intro done env _ hP hd hc
    exact hfg env hP (fun c hc' => hd c ((hc c hc').resolve_left (by simp)))
  | cons c cs' ih =>
    intro done env hsub hP hd hc
    have hcm := hsub c (by simp)
    simp only [sumOver]
    rw [← hs c hcm]
    refine Finset.sum_congr rfl ?_
    intro i hi
    have hi := Finset.mem_range.1 hi
    refine ih (c :: done) _ (fun c' h => hsub c' (by simp [h])) (hset env hP c hcm i hi) ?_ ?_
    · intro d hd'
      unfold Env.set
      split
      · rename_i h; rw [h]; exact hi
      · rename_i h
        exact hd d ((List.mem_cons.1 hd').resolve_left h)
    · intro d hd'
      rcases hc d hd' with h | h
      · rcases List.mem_cons.1 h with rfl | h
        · right; simp
        · left; exact h
      · right; simp [h]

theorem Env.ofOut_lt (sz : Char → ℕ) (out : List Char) (idx : List ℕ)
    (h : InRange idx (out.map sz)) : ∀ c ∈ out, Env.ofOut out idx c < sz c := by
  induction out generalizing idx with
  | nil => simp
  | cons d out ih =>
    obtain _ | ⟨i, idx⟩ := idx
    · simp at h
    · simp only [List.map_cons, inRange_cons] at h
      intro c hc
      simp only [Env.ofOut, Env.set]
      split
      · rename_i he; rw [he]; exact h.1
      · rename_i he
        exact ih idx h.2 c ((List.mem_cons.1 hc).resolve_left he)

/-- When every operand has the shape prescribed by a size function on letters, `einsum` succeeds and its
entries are the plain sum of products. -/
theorem einsum_ok [CommSemiring K] (sz : Char → ℕ) (ins : List (List Char)) (out : List Char)
    (ops : List (Tensor K)) (hlen : ins.length = ops.length)
    (hsh : ∀ p ∈ ins.zip ops, p.2.shape = p.1.map sz) (hnd : out.Nodup)
    (hout : ∀ c ∈ out, c ∈ ins.flatten) :
    ∃ t, einsum ins out ops = .ok t ∧ t.shape = out.map sz ∧
      ∀ idx, InRange idx (out.map sz) → t.get idx =
        sumOver sz ((ins.flatten.dedup).filter (fun c => c ∉ out)) (Env.ofOut out idx)
          (fun env => ((ins.zip ops).map (fun p => p.2.get (p.1.map env))).prod) := by
  have huses : ∀ u ∈ (ins.zip ops).flatMap (fun p => p.1.zip p.2.shape), u.2 = sz u.1 := by
    intro u hu
    obtain ⟨p, hp, hu⟩ := List.mem_flatMap.1 hu
    rw [hsh p hp] at hu
    rw [List.zip_map_right, List.mem_map] at hu
    obtain ⟨⟨a, b⟩, hab, rfl⟩ := hu
    simp only [Prod.map_apply, id]
    have : a = b := by
      rw [List.zip_eq_zipWith, List.zipWith_self] at hab
      obtain ⟨x, _, hx⟩ := List.mem_map.1 hab
      simp at hx; rw [← hx.1, hx.2]
    rw [this]
  have hmem : ∀ c ∈ ins.flatten,
      c ∈ ((ins.zip ops).flatMap (fun p => p.1.zip p.2.shape)).map Prod.fst := by
    intro c hc
    obtain ⟨l, hl, hc⟩ := List.mem_flatten.1 hc
    obtain ⟨i, hi, rfl⟩ := List.mem_iff_getElem.1 hl
    have hi' : i < ops.length := hlen ▸ hi
    have hp : (ins[i], ops[i]) ∈ ins.zip ops := by
      refine List.mem_iff_getElem.2 ⟨i, by simp [hi, hi'], by simp⟩
    refine List.mem_map.2 ⟨(c, sz c), List.mem_flatMap.2 ⟨_, hp, ?_⟩, rfl⟩
    simp only
    rw [hsh _ hp, List.zip_map_right, List.mem_map]
    refine ⟨(c, c), ?_, rfl⟩
    rw [List.zip_eq_zipWith, List.zipWith_self]
    exact List.mem_map.2 ⟨c, hc, rfl⟩
  have hsize : ∀ c ∈ ins.flatten,
      letterSize ((ins.zip ops).flatMap (fun p => p.1.zip p.2.shape)) c = sz c :=
    fun c hc => letterSize_eq sz _ huses c (hmem c hc)
  have hcond : ins.length = ops.length ∧ (∀ p ∈ ins.zip ops, p.1.length = p.2.ndim) ∧
      (∀ u ∈ (ins.zip ops).flatMap (fun p => p.1.zip p.2.shape),
        ∀ v ∈ (ins.zip ops).flatMap (fun p => p.1.zip p.2.shape),
          u.1 = v.1 → u.2 = 1 ∨ v.2 = 1 ∨ u.2 = v.2) ∧
      out.Nodup ∧ (∀ c ∈ out, c ∈ ins.flatten) := by
    refine ⟨hlen, ?_, ?_, hnd, hout⟩
    · intro p hp
      unfold Tensor.ndim; rw [hsh p hp]; simp
    · intro u hu v hv huv
      right; right
      rw [huses u hu, huses v hv, huv]
  have hshape : out.map (letterSize ((ins.zip ops).flatMap (fun p => p.1.zip p.2.shape))) =
      out.map sz := List.map_congr_left (fun c hc => hsize c (hout c hc))
  unfold einsum
  simp only
  rw [if_pos hcond]
  refine ⟨_, rfl, hshape, ?_⟩
  intro idx hidx
  simp only
  have hin : ∀ c ∈ (ins.flatten.dedup).filter (fun c => c ∉ out), c ∈ ins.flatten := by
    intro c hc
    exact List.mem_dedup.1 (List.mem_filter.1 hc).1
  refine sumOver_congr _ _ _ _ _ _ (fun c hc => hsize c (hin c hc))
    (fun env => ∀ c ∈ out, env c < sz c) (Env.ofOut_lt sz out idx hidx) ?_ ?_
  · intro env hP c hc i hi d hd
    unfold Env.set
    split
    · rename_i he; rw [he, ← hsize c (hin c hc)]; exact hi
    · exact hP d hd
  · intro env hP hlt
    congr 1
    refine List.map_congr_left ?_
    intro p hp
    congr 1
    apply Tensor.clampIdx_of_inRange
    rw [hsh p hp]
    unfold InRange
    rw [List.forall₂_map_left_iff, List.forall₂_map_right_iff, List.forall₂_same]
    intro c hc
    have hcf : c ∈ ins.flatten := List.mem_flatten.2 ⟨p.1, (List.of_mem_zip hp).1, hc⟩
    by_cases ho : c ∈ out
    · exact hP c ho
    · rw [← hsize c hcf]
      exact hlt c (List.mem_filter.2 ⟨List.mem_dedup.2 hcf, by simpa using ho⟩)

end TorchMPS
