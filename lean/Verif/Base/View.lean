import Verif.Base.Einsum
import Mathlib.Algebra.BigOperators.Group.List.Basic
import Mathlib.Tactic.Ring
/-
`torch.Tensor.view` (row-major reshaping), and tensors read through index letters.
-/
namespace TorchMPS
variable {K : Type}

/-- Row-major position of a multi-index. -/
def ravel : Shape → List ℕ → ℕ
  | _ :: sh, i :: idx => i * sh.prod + ravel sh idx
  | _, _ => 0

/-- Multi-index at a row-major position. -/
def unravel : Shape → ℕ → List ℕ
  | [], _ => []
  | _ :: sh, k => (k / sh.prod) :: unravel sh (k % sh.prod)

/-- `t.view(shp)`: same entries in row-major order; RuntimeError when the number of entries differs.
(`view` can also fail on tensors whose memory layout does not allow it; not modelled.) -/
def Tensor.view (t : Tensor K) (shp : Shape) : Except Err (Tensor K) :=
  if shp.prod = t.shape.prod then .ok ⟨shp, fun idx => t.get (unravel t.shape (ravel shp idx))⟩
  else .error .runtime

theorem ravel_lt {sh : Shape} {idx : List ℕ} (h : InRange idx sh) : ravel sh idx < sh.prod := by
  induction h with
  | nil => simp [ravel]
  | @cons i n idx sh hi _ ih =>
    simp only [ravel, List.prod_cons]
    calc i * sh.prod + ravel sh idx < i * sh.prod + sh.prod := by omega
      _ = (i + 1) * sh.prod := by ring
      _ ≤ n * sh.prod := Nat.mul_le_mul_right _ hi

theorem unravel_inRange {sh : Shape} {k : ℕ} (h : k < sh.prod) : InRange (unravel sh k) sh := by
  induction sh generalizing k with
  | nil => simp [unravel]
  | cons n sh ih =>
    simp only [List.prod_cons] at h
    have hp : 0 < sh.prod := by
      rcases Nat.eq_zero_or_pos sh.prod with h0 | h0
      · rw [h0] at h; omega
      · exact h0
    simp only [unravel, inRange_cons]
    exact ⟨(Nat.div_lt_iff_lt_mul hp).2 h, ih (Nat.mod_lt _ hp)⟩

theorem unravel_ravel {sh : Shape} {idx : List ℕ} (h : InRange idx sh) :
    unravel sh (ravel sh idx) = idx := by
  induction h with
  | nil => rfl
  | @cons i n idx sh hi h ih =>
    have hl := ravel_lt h
    have hp : 0 < sh.prod := by omega
    simp only [ravel, unravel]
    rw [Nat.add_comm, Nat.add_mul_div_right _ _ hp, Nat.div_eq_of_lt hl, Nat.add_mul_mod_self_right,
      Nat.mod_eq_of_lt hl, ih]
    simp

theorem ravel_unravel {sh : Shape} {k : ℕ} (h : k < sh.prod) : ravel sh (unravel sh k) = k := by
  induction sh generalizing k with
  | nil => simp at h; simp [ravel, unravel, h]
  | cons n sh ih =>
    simp only [List.prod_cons] at h
    have hp : 0 < sh.prod := by
      rcases Nat.eq_zero_or_pos sh.prod with h0 | h0
      · rw [h0] at h; omega
      · exact h0
    simp only [unravel, ravel]
    rw [ih (Nat.mod_lt _ hp)]
    rw [Nat.mul_comm]; exact Nat.div_add_mod _ _

theorem ravel_append {s t : Shape} {a b : List ℕ} (ha : a.length = s.length) :
    ravel (s ++ t) (a ++ b) = ravel s a * t.prod + ravel t b := by
  induction s generalizing a with
  | nil =>
    have : a = [] := by simpa using ha
    subst this; simp [ravel]
  | cons n s ih =>
    obtain _ | ⟨i, a⟩ := a
    · simp at ha
    · simp only [List.cons_append, ravel]
      rw [ih (by simpa using ha), List.prod_append]
      ring

theorem unravel_append {s t : Shape} {i j : ℕ} (hi : i < s.prod) (hj : j < t.prod) :
    unravel (s ++ t) (i * t.prod + j) = unravel s i ++ unravel t j := by
  have h1 := unravel_inRange hi
  have h2 := unravel_inRange hj
  have h : ravel (s ++ t) (unravel s i ++ unravel t j) = i * t.prod + j := by
    rw [ravel_append h1.length_eq, ravel_unravel hi, ravel_unravel hj]
  rw [← h, unravel_ravel (h1.append h2)]

theorem unravel_length (sh : Shape) (k : ℕ) : (unravel sh k).length = sh.length := by
  induction sh generalizing k with
  | nil => rfl
  | cons n sh ih => simp [unravel, ih]

/-! ### Tensors read through index letters -/

/-- `t` has one axis per letter of `str`, of the sizes `sz`, and its entry where the letters have
the values `env` is `f env`. -/
def Tensor.Reads (sz : Char → ℕ) (t : Tensor K) (str : List Char) (f : Env → K) : Prop :=
  t.shape = str.map sz ∧ ∀ env : Env, (∀ c ∈ str, env c < sz c) → t.get (str.map env) = f env

theorem inRange_map (sz : Char → ℕ) (str : List Char) (env : Env) :
    InRange (str.map env) (str.map sz) ↔ ∀ c ∈ str, env c < sz c := by
  unfold InRange
  rw [List.forall₂_map_left_iff, List.forall₂_map_right_iff, List.forall₂_same]

theorem Env.ofOut_map (str : List Char) (env : Env) : ∀ c ∈ str, Env.ofOut str (str.map env) c = env c := by
  induction str with
  | nil => simp
  | cons d str ih =>
    intro c hc
    simp only [List.map_cons, Env.ofOut, Env.set]
    split
    · rename_i h; rw [h]
    · rename_i h; exact ih c ((List.mem_cons.1 hc).resolve_left h)

theorem Env.map_ofOut (str : List Char) (hnd : str.Nodup) (idx : List ℕ) (h : idx.length = str.length) :
    str.map (Env.ofOut str idx) = idx := by
  induction str generalizing idx with
  | nil => simp at h; simp [h]
  | cons d str ih =>
    obtain _ | ⟨i, idx⟩ := idx
    · simp at h
    · simp only [List.map_cons, Env.ofOut]
      rw [List.nodup_cons] at hnd
      congr 1
      · simp [Env.set]
      · refine Eq.trans ?_ (ih hnd.2 idx (by simpa using h))
        refine List.map_congr_left ?_
        intro c hc
        simp only [Env.set]
        rw [if_neg]
        rintro rfl; exact hnd.1 hc

/-- The sum only depends on the assignment at letters which are read. -/
theorem sumOver_env [AddCommMonoid K] (sz : Char → ℕ) (cs : List Char) (e₁ e₂ : Env) (f g : Env → K)
    (S : Set Char) (he : ∀ c ∈ S, c ∉ cs → e₁ c = e₂ c)
    (hfg : ∀ a b : Env, (∀ c ∈ S, a c = b c) → (∀ c ∈ cs, a c < sz c) → (∀ c ∉ cs, a c = e₁ c) → f a = g b) :
    sumOver sz cs e₁ f = sumOver sz cs e₂ g := by
  induction cs generalizing e₁ e₂ with
  | nil =>
    simp only [sumOver]
    exact hfg _ _ (fun c hc => he c hc (by simp)) (by simp) (by simp)
  | cons d cs ih =>
    simp only [sumOver]
    refine Finset.sum_congr rfl ?_
    intro i hi
    have hi := Finset.mem_range.1 hi
    refine ih _ _ ?_ ?_
    · intro c hc hcs
      by_cases hcd : c = d
      · simp [Env.set, hcd]
      · simp only [Env.set, if_neg hcd]
        exact he c hc (by simp [hcd, hcs])
    · intro a b hab hlt hout
      by_cases hd : d ∈ cs
      · refine hfg a b hab ?_ ?_
        · intro c hc
          rcases List.mem_cons.1 hc with rfl | hc
          · exact hlt c hd
          · exact hlt c hc
        · intro c hc
          simp only [List.mem_cons, not_or] at hc
          rw [hout c hc.2]; simp [Env.set, hc.1]
      · refine hfg a b hab ?_ ?_
        · intro c hc
          rcases List.mem_cons.1 hc with rfl | hc
          · rw [hout c hd]; simpa [Env.set] using hi
          · exact hlt c hc
        · intro c hc
          simp only [List.mem_cons, not_or] at hc
          rw [hout c hc.2]; simp [Env.set, hc.1]

/-- letters summed by `einsum ins out` -/
def innerLetters (ins : List (List Char)) (out : List Char) : List Char :=
  (ins.flatten.dedup).filter (fun c => c ∉ out)

theorem mem_innerLetters {ins : List (List Char)} {out : List Char} {c : Char} :
    c ∈ innerLetters ins out ↔ c ∈ ins.flatten ∧ c ∉ out := by
  simp [innerLetters]

/-- einsum of two tensors read through letters. -/
theorem einsum2_reads [CommSemiring K] (sz : Char → ℕ) (s₁ s₂ out : List Char) (t₁ t₂ : Tensor K)
    (f₁ f₂ : Env → K) (h₁ : t₁.Reads sz s₁ f₁) (h₂ : t₂.Reads sz s₂ f₂) (hnd : out.Nodup)
    (hout : ∀ c ∈ out, c ∈ s₁ ∨ c ∈ s₂) :
    ∃ t, einsum [s₁, s₂] out [t₁, t₂] = .ok t ∧
      t.Reads sz out (fun env => sumOver sz (innerLetters [s₁, s₂] out) env (fun e => f₁ e * f₂ e)) := by
  obtain ⟨t, e1, e2, e3⟩ := einsum_ok sz [s₁, s₂] out [t₁, t₂] rfl (by simp [h₁.1, h₂.1]) hnd (by simpa using hout)
  refine ⟨t, e1, e2, ?_⟩
  intro env henv
  rw [e3 _ ((inRange_map sz out env).2 henv)]
  refine sumOver_env sz _ _ _ _ _ {c | c ∈ s₁ ∨ c ∈ s₂} ?_ ?_
  · intro c hc hni
    have : c ∈ out := by
      by_contra hco
      exact hni (mem_innerLetters.2 ⟨by simpa using hc, hco⟩)
    exact Env.ofOut_map out env c this
  · intro a b hab hlt hae
    have hla : ∀ c, c ∈ s₁ ∨ c ∈ s₂ → a c < sz c := by
      intro c hc
      by_cases hco : c ∈ out
      · have : c ∉ innerLetters [s₁, s₂] out := by
          rw [mem_innerLetters]; simp [hco]
        rw [hae c this, Env.ofOut_map out env c hco]; exact henv c hco
      · exact hlt c (mem_innerLetters.2 ⟨by simpa using hc, hco⟩)
    have h1 : s₁.map a = s₁.map b := List.map_congr_left (fun c hc => hab c (Or.inl hc))
    have h2 : s₂.map a = s₂.map b := List.map_congr_left (fun c hc => hab c (Or.inr hc))
    simp only [List.zip_cons_cons, List.zip_nil_right, List.map_cons, List.map_nil, List.prod_cons,
      List.prod_nil, mul_one]
    rw [h1, h2, h₁.2 b (fun c hc => hab c (Or.inl hc) ▸ hla c (Or.inl hc)),
      h₂.2 b (fun c hc => hab c (Or.inr hc) ▸ hla c (Or.inr hc))]

/-- einsum of one tensor read through letters. -/
theorem einsum1_reads [CommSemiring K] (sz : Char → ℕ) (s out : List Char) (t₁ : Tensor K)
    (f : Env → K) (h₁ : t₁.Reads sz s f) (hnd : out.Nodup) (hout : ∀ c ∈ out, c ∈ s) :
    ∃ t, einsum [s] out [t₁] = .ok t ∧
      t.Reads sz out (fun env => sumOver sz (innerLetters [s] out) env f) := by
  obtain ⟨t, e1, e2, e3⟩ := einsum_ok sz [s] out [t₁] rfl (by simp [h₁.1]) hnd (by simpa using hout)
  refine ⟨t, e1, e2, ?_⟩
  intro env henv
  rw [e3 _ ((inRange_map sz out env).2 henv)]
  refine sumOver_env sz _ _ _ _ _ {c | c ∈ s} ?_ ?_
  · intro c hc hni
    have : c ∈ out := by
      by_contra hco
      exact hni (mem_innerLetters.2 ⟨by simpa using hc, hco⟩)
    exact Env.ofOut_map out env c this
  · intro a b hab hlt hae
    have hla : ∀ c, c ∈ s → a c < sz c := by
      intro c hc
      by_cases hco : c ∈ out
      · have : c ∉ innerLetters [s] out := by
          rw [mem_innerLetters]; simp [hco]
        rw [hae c this, Env.ofOut_map out env c hco]; exact henv c hco
      · exact hlt c (mem_innerLetters.2 ⟨by simpa using hc, hco⟩)
    have h1 : s.map a = s.map b := List.map_congr_left (fun c hc => hab c hc)
    simp only [List.zip_cons_cons, List.zip_nil_right, List.map_cons, List.map_nil, List.prod_cons,
      List.prod_nil, mul_one]
    rw [h1, h₁.2 b (fun c hc => hab c hc ▸ hla c hc)]

theorem innerLetters_nil {ins : List (List Char)} {out : List Char} (h : ∀ c ∈ ins.flatten, c ∈ out) :
    innerLetters ins out = [] := by
  rw [List.eq_nil_iff_forall_not_mem]
  intro c hc
  rw [mem_innerLetters] at hc
  exact hc.2 (h c hc.1)

theorem innerLetters_singleton {ins : List (List Char)} {out : List Char} (d : Char) (hd : d ∈ ins.flatten)
    (hdo : d ∉ out) (h : ∀ c ∈ ins.flatten, c = d ∨ c ∈ out) : innerLetters ins out = [d] := by
  have hnd : (innerLetters ins out).Nodup := (List.nodup_dedup _).filter _
  have hm : ∀ c, c ∈ innerLetters ins out ↔ c = d := by
    intro c
    rw [mem_innerLetters]
    constructor
    · rintro ⟨h1, h2⟩; exact (h c h1).resolve_right h2
    · rintro rfl; exact ⟨hd, hdo⟩
  have hp : List.Perm (innerLetters ins out) [d] := by
    rw [List.perm_ext_iff_of_nodup hnd (by simp)]
    intro c; rw [hm]; simp
  exact List.perm_singleton.1 hp

/-- every tensor with as many axes as (distinct) letters is read through them -/
theorem Tensor.reads_self (t : Tensor K) (str : List Char) (hnd : str.Nodup) (h : t.shape.length = str.length) :
    t.Reads (Env.ofOut str t.shape) str (fun env => t.get (str.map env)) :=
  ⟨(Env.map_ofOut str hnd _ h).symm, fun _ _ => rfl⟩

end TorchMPS
