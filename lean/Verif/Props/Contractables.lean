import Verif.Lemmas.Star
/-
C46: products of contractables.
-/
namespace TorchMPS
open Spec
variable {K : Type}

/-- C46: the product of two labelled contractables exists whenever the first has a right bond, the second a left
bond of the same size, the batch sizes agree and there are enough letters. It sums over exactly the common bond, at
equal batch index, and keeps all other indices apart: those of the first factor come first, then those of the second,
whatever letters they carry. -/
theorem C46_product [CommSemiring K] (x y : Contractable K) (hx : Labelled x) (hy : Labelled y)
    (hcls : CanMultiply x.cls y.cls) (hr : 'r' ∈ x.bondStr) (hl : 'l' ∈ y.bondStr)
    (hb : axis x 'b' = axis y 'b') (hbond : axis x 'r' = axis y 'l') (hlet : EnoughLetters x.bondStr y.bondStr)
    (g : Option ℕ) :
    ∃ c, star x y g = (.ok c, some (axis x 'b')) ∧ Labelled c ∧ c.cls = classFor c.bondStr ∧
      c.bondStr = 'b' :: (others c.bondStr ++ (if 'l' ∈ x.bondStr then ['l'] else []) ++
        (if 'r' ∈ y.bondStr then ['r'] else [])) ∧ axis c 'b' = axis x 'b' ∧
      ('l' ∈ c.bondStr ↔ 'l' ∈ x.bondStr) ∧ ('l' ∈ x.bondStr → axis c 'l' = axis x 'l') ∧
      ('r' ∈ c.bondStr ↔ 'r' ∈ y.bondStr) ∧ ('r' ∈ y.bondStr → axis c 'r' = axis y 'r') ∧
      others x.bondStr <+: others c.bondStr ∧
      (clashes x.bondStr y.bondStr = [] → others c.bondStr = others x.bondStr ++ others y.bondStr) ∧
      otherSizes c = otherSizes x ++ otherSizes y ∧
      ∀ b < axis x 'b', ∀ x1, InRange x1 (otherSizes x) → ∀ x2, InRange x2 (otherSizes y) →
        ∀ i, ('l' ∈ x.bondStr → i < axis x 'l') → ∀ j, ('r' ∈ y.bondStr → j < axis y 'r') →
          entry c b i j (x1 ++ x2) = ∑ k ∈ Finset.range (axis x 'r'), entry x b i k x1 * entry y b k j x2 := by
  obtain ⟨t, out, ρ, H, g1, g2⟩ := gmul_ok x y hx hy hr hl hb hbond hlet
  have hbm : 'b' ∈ out := by rw [H.out_eq]; simp
  have hoy : ∀ c ∈ (others y.bondStr).map ρ, c ≠ 'b' ∧ c ≠ 'l' ∧ c ≠ 'r' := by
    intro c hc
    have : c ∈ others out := by rw [H.others_eq]; exact List.mem_append_right _ hc
    exact (mem_others.1 this).2
  refine ⟨⟨classFor out, t, out⟩, ?_, ⟨by simp only; rw [H.out_eq]; rfl, H.nodup, H.lower, H.order⟩, rfl, ?_, ?_, ?_, ?_, ?_, ?_, ?_, ?_, ?_, ?_⟩
  · rw [star_dispatch x y hcls g _ (fun a b => g1 a b g) (fun a b => g2 a b g) (by simp)]; rfl
  · simp only
    rw [H.others_eq]
    exact H.out_eq
  · show t.shape.getD (out.idxOf 'b') 0 = _
    rw [← H.batch, H.out_eq]; simp
  · show 'l' ∈ out ↔ _
    rw [H.out_eq]
    constructor
    · intro h
      by_contra hn
      simp only [List.mem_cons, List.mem_append, or_assoc] at h
      rcases h with h | h | h | h | h
      · exact absurd h (by decide)
      · exact (mem_others.1 h).2.2.1 rfl
      · exact (hoy _ h).2.1 rfl
      · rw [if_neg hn] at h; simp at h
      · split at h <;> simp at h
    · intro h; simp [h]
  · exact H.left
  · show 'r' ∈ out ↔ _
    rw [H.out_eq]
    constructor
    · intro h
      by_contra hn
      simp only [List.mem_cons, List.mem_append, or_assoc] at h
      rcases h with h | h | h | h | h
      · exact absurd h (by decide)
      · exact (mem_others.1 h).2.2.2 rfl
      · exact (hoy _ h).2.2 rfl
      · split at h <;> simp at h
      · rw [if_neg hn] at h; simp at h
    · intro h; simp [h]
  · exact H.right
  · exact ⟨_, H.others_eq.symm⟩
  · intro hcl
    show others out = _
    rw [H.others_eq]
    congr 1
    conv_rhs => rw [← List.map_id (others y.bondStr)]
    refine List.map_congr_left ?_
    intro c hc
    refine H.keep c hc ?_
    intro hcx
    have : c ∈ clashes x.bondStr y.bondStr := by simp [clashes, hc, hcx]
    rw [hcl] at this; simp at this
  · exact H.sizes
  · intro b hb x1 hx1 x2 hx2 i hi j hj
    exact H.entries b hb x1 hx1 x2 hx2 i hi j hj

/-- C46: without a right bond in the first or a left bond in the second factor: AssertionError. -/
theorem C46_missing_bond [CommSemiring K] (x y : Contractable K) (hx : Labelled x) (hy : Labelled y)
    (hcls : CanMultiply x.cls y.cls) (h : 'r' ∉ x.bondStr ∨ 'l' ∉ y.bondStr) (g : Option ℕ) :
    star x y g = (.error .assertion, g) := by
  have hch : ∀ (s : List Char) (side : Char), s.head? = some 'b' → s.Nodup → (∀ d ∈ s, d ∈ lowercases) → side ∉ s →
      checkBonds s side = .error .assertion := by
    intro s side a1 a2 a3 a4
    unfold checkBonds
    rw [assert_true _ a1, assert_true _ (by rw [List.dedup_eq_self.2 a2]), assert_true _ a3, assert_false _ a4]
    rfl
  have hall : ∀ k : CM (Option (Contractable K)),
      (CM.lift (checkBonds x.bondStr 'r') >>= fun _ => CM.lift (checkBonds y.bondStr 'l') >>= fun _ => k) g =
        (.error .assertion, g) := by
    intro k
    by_cases hr : 'r' ∈ x.bondStr
    · rw [checkBonds_ok _ _ hx.batchFirst hx.distinct hx.lower hr, CM.bind_ok (CM.lift_apply _ _),
        hch _ _ hy.batchFirst hy.distinct hy.lower (h.resolve_left (by simp [hr])), CM.bind_err (CM.lift_apply _ _)]
    · rw [hch _ _ hx.batchFirst hx.distinct hx.lower hr, CM.bind_err (CM.lift_apply _ _)]
  refine (star_dispatch x y hcls g (.error .assertion, g) ?_ ?_ (by simp)).trans rfl
  · intro c1 c2
    unfold gmul
    rw [if_neg (by simp [c1, c2])]
    exact hall _
  · intro c1 c2
    unfold gmul
    rw [if_neg (by simp [c1, c2])]
    exact hall _

/-- C46: too few unused letters for the renaming: IndexError. -/
theorem C46_out_of_letters [CommSemiring K] (x y : Contractable K) (hx : Labelled x) (hy : Labelled y)
    (hcls : CanMultiply x.cls y.cls) (hr : 'r' ∈ x.bondStr) (hl : 'l' ∈ y.bondStr)
    (hlet : ¬ EnoughLetters x.bondStr y.bondStr) (g : Option ℕ) :
    star x y g = (.error .index, g) := by
  refine (star_dispatch x y hcls g (.error .index, g) ?_ ?_ (by simp)).trans rfl
  · intro c1 c2
    unfold gmul
    rw [if_neg (by simp [c1, c2])]
    simp only [Bool.false_eq_true, if_false]
    rw [checkBonds_ok _ _ hx.batchFirst hx.distinct hx.lower hr, checkBonds_ok _ _ hy.batchFirst hy.distinct hy.lower hl,
      mulStrings_err _ _ hx.distinct hy.distinct hlet, CM.bind_ok (CM.lift_apply _ _), CM.bind_ok (CM.lift_apply _ _),
      CM.bind_err (CM.lift_apply _ _)]
  · intro c1 c2
    unfold gmul
    rw [if_neg (by simp [c1, c2])]
    simp only [if_true]
    rw [checkBonds_ok _ _ hx.batchFirst hx.distinct hx.lower hr, checkBonds_ok _ _ hy.batchFirst hy.distinct hy.lower hl,
      mulStrings_err _ _ hx.distinct hy.distinct hlet, CM.bind_ok (CM.lift_apply _ _), CM.bind_ok (CM.lift_apply _ _),
      CM.bind_err (CM.lift_apply _ _)]

theorem zip_map_mem (s : List Char) (τ : Char → Char) (sh : Shape) (hl : sh.length = s.length)
    (c : Char) (hc : c ∈ s) : (τ c, sh.getD (s.idxOf c) 0) ∈ (s.map τ).zip sh := by
  have hi := List.idxOf_lt_length_iff.2 hc
  rw [List.mem_iff_getElem]
  refine ⟨s.idxOf c, by simp [hi, hl], ?_⟩
  rw [List.getElem_zip, List.getElem_map, List.getElem_idxOf, List.getD_eq_getElem?_getD,
    List.getElem?_eq_getElem (by rw [hl]; exact hi)]
  rfl

/-- C46: bonds (or batches) of different sizes, neither of them 1: RuntimeError. -/
theorem C46_size_mismatch [CommSemiring K] (x y : Contractable K) (hx : Labelled x) (hy : Labelled y)
    (hcls : CanMultiply x.cls y.cls) (hr : 'r' ∈ x.bondStr) (hl : 'l' ∈ y.bondStr)
    (hlet : EnoughLetters x.bondStr y.bondStr)
    (hne : (axis x 'r' ≠ axis y 'l' ∧ axis x 'r' ≠ 1 ∧ axis y 'l' ≠ 1) ∨
      (axis x 'b' ≠ axis y 'b' ∧ axis x 'b' ≠ 1 ∧ axis y 'b' ≠ 1)) (g : Option ℕ) :
    star x y g = (.error .runtime, g) := by
  have hbx : 'b' ∈ x.bondStr := List.mem_of_mem_head? hx.batchFirst
  have hby : 'b' ∈ y.bondStr := List.mem_of_mem_head? hy.batchFirst
  obtain ⟨t1, t2, out, ρ, σ, hms, H⟩ := mulStrings_spec x.bondStr y.bondStr hx.distinct hy.distinct hbx hr hl hlet
  have he : einsum [t1, t2] out [x.tensor, y.tensor] = .error .runtime := by
    unfold einsum
    simp only
    rw [if_neg]
    rintro ⟨_, _, h, _⟩
    have m1 : ∀ c ∈ x.bondStr, ((if c = 'r' then σ else c), axis x c) ∈
        (([t1, t2].zip [x.tensor, y.tensor]).flatMap (fun p => p.1.zip p.2.shape)) := by
      intro c hc
      have := zip_map_mem x.bondStr (fun c => if c = 'r' then σ else c) x.tensor.shape hx.order c hc
      rw [← H.t1_eq] at this
      simp only [List.zip_cons_cons, List.zip_nil_right, List.flatMap_cons, List.mem_append]
      left; exact this
    have m2 : ∀ c ∈ y.bondStr, ((if c = 'l' then σ else ρ c), axis y c) ∈
        (([t1, t2].zip [x.tensor, y.tensor]).flatMap (fun p => p.1.zip p.2.shape)) := by
      intro c hc
      have := zip_map_mem y.bondStr (fun c => if c = 'l' then σ else ρ c) y.tensor.shape hy.order c hc
      rw [← H.t2_eq] at this
      simp only [List.zip_cons_cons, List.zip_nil_right, List.flatMap_cons, List.mem_append]
      right; left; exact this
    rcases hne with ⟨n1, n2, n3⟩ | ⟨n1, n2, n3⟩
    · have := h _ (m1 'r' hr) _ (m2 'l' hl) (by simp)
      simp only at this
      tauto
    · have := h _ (m1 'b' hbx) _ (m2 'b' hby) (by
        rw [if_neg (by decide), if_neg (by decide), H.special 'b' hby (by simp)])
      simp only at this
      tauto
  refine (star_dispatch x y hcls g (.error .runtime, g) ?_ ?_ (by simp)).trans rfl
  · intro c1 c2
    unfold gmul
    rw [if_neg (by simp [c1, c2])]
    simp only [Bool.false_eq_true, if_false]
    rw [checkBonds_ok _ _ hx.batchFirst hx.distinct hx.lower hr, checkBonds_ok _ _ hy.batchFirst hy.distinct hy.lower hl,
      hms, CM.bind_ok (CM.lift_apply _ _), CM.bind_ok (CM.lift_apply _ _), CM.bind_ok (CM.lift_apply _ _)]
    simp only [he]
    rw [CM.bind_err (CM.lift_apply _ _)]
  · intro c1 c2
    unfold gmul
    rw [if_neg (by simp [c1, c2])]
    simp only [if_true]
    rw [checkBonds_ok _ _ hx.batchFirst hx.distinct hx.lower hr, checkBonds_ok _ _ hy.batchFirst hy.distinct hy.lower hl,
      hms, CM.bind_ok (CM.lift_apply _ _), CM.bind_ok (CM.lift_apply _ _), CM.bind_ok (CM.lift_apply _ _)]
    simp only [he]
    rw [CM.bind_err (CM.lift_apply _ _)]

/-- C46: all remaining pairs of classes (scalars and the special products of edge vectors apart) are
unsupported: TypeError. -/
theorem C46_unsupported [CommSemiring K] (x y : Contractable K) (hn : ¬ CanMultiply x.cls y.cls)
    (hs : x.cls ≠ .scalar ∧ y.cls ≠ .scalar)
    (he : ¬ (x.cls = .edgeVec ∧ y.cls = .edgeVec) ∧ ¬ (x.cls = .matRegion ∧ y.cls = .edgeVec) ∧
      ¬ (x.cls = .edgeVec ∧ y.cls = .matRegion)) (g : Option ℕ) :
    star x y g = (.error .type, g) := by
  unfold star
  cases hxc : x.cls <;> cases hyc : y.cls <;> simp only [hxc, hyc, CanMultiply, not_true_eq_false, ne_eq, not_false_eq_true,
      and_self, and_true, true_and, and_false, false_and, reduceCtorEq] at hn hs he <;>
    simp [orElse, mulMethod, rmulMethod, hxc, hyc, gmul, regionMul, edgeMul, overridesRmul, bind, CM.bind, CM.throw, pure,
      CM.pure]

/-- C46: multiplying by a scalar (from either side) multiplies every entry of the sample by the sample's
scalar and keeps class and labels. -/
theorem C46_scalar [CommSemiring K] (s c : Contractable K) (hs : s.cls = .scalar) (hsb : s.bondStr = ['b'])
    (hss : s.tensor.shape = [axis c 'b']) (hc : Labelled c) (hcs : ClassString c)
    (hcls : c.cls ≠ .edgeVec ∧ c.cls ≠ .outputMat ∧ c.cls ≠ .scalar) (g : Option ℕ) :
    ∃ t, star s c g = (.ok ⟨c.cls, t, c.bondStr⟩, some (axis c 'b')) ∧
      star c s g = (.ok ⟨c.cls, t, c.bondStr⟩, some (axis c 'b')) ∧ t.shape = c.tensor.shape ∧
      ∀ b < axis c 'b', ∀ idx, InRange (b :: idx) t.shape → t.get (b :: idx) = c.tensor.get (b :: idx) * s.tensor.get [b] := by
  have hbm : 'b' ∈ c.bondStr := List.mem_of_mem_head? hc.batchFirst
  have hR1 : c.tensor.Reads (axis c) c.bondStr (fun env => c.tensor.get (c.bondStr.map env)) :=
    ⟨(map_axis c hc.order hc.distinct).symm, fun _ _ => rfl⟩
  have hR2 : s.tensor.Reads (axis c) ['b'] (fun env => s.tensor.get [env 'b']) :=
    ⟨by rw [hss]; rfl, fun _ _ => rfl⟩
  obtain ⟨t, ht, hRt⟩ := einsum2_reads (axis c) c.bondStr ['b'] c.bondStr _ _ _ _ hR1 hR2 hc.distinct
    (fun d hd => Or.inl hd)
  have hin : innerLetters [c.bondStr, ['b']] c.bondStr = [] := innerLetters_nil (by
    intro d hd
    simp at hd
    rcases hd with hd | rfl
    · exact hd
    · exact hbm)
  have hsh : t.shape = c.tensor.shape := by rw [hRt.1, hR1.1]
  have hhead : t.shape.getD 0 0 = axis c 'b' := by
    rw [hsh]
    unfold axis
    have : c.bondStr.idxOf 'b' = 0 := by
      cases hcb : c.bondStr with
      | nil => rw [hcb] at hbm; simp at hbm
      | cons d l =>
        have := hc.batchFirst
        rw [hcb] at this
        simp at this
        simp [this]
    rw [this]
  have hlen : t.shape.length = c.bondStr.length := by rw [hsh, hc.order]
  have hsame : sameClass c t g = (.ok ⟨c.cls, t, c.bondStr⟩, some (axis c 'b')) := by
    unfold sameClass
    unfold ClassString at hcs
    rw [← hhead]
    cases hcc : c.cls <;> rw [hcc] at hcls hcs <;> simp only [ne_eq, reduceCtorEq, not_true_eq_false, not_false_eq_true, false_and,
      and_false, and_true] at hcls
    · exact mkContractable_batched _ _ _ hc.batchFirst hlen g
    · simp only at hcs
      simp only [mkMatRegion]
      have e1 : t.ndim = 4 := by unfold Tensor.ndim; rw [hlen, hcs.1]; rfl
      have e2 : t.shape.getD 2 0 = t.shape.getD 3 0 := by
        have h1 : axis c 'l' = t.shape.getD 2 0 := by unfold axis; rw [hsh, hcs.1]; rfl
        have h2 : axis c 'r' = t.shape.getD 3 0 := by unfold axis; rw [hsh, hcs.1]; rfl
        rw [← h1, ← h2]; exact hcs.2
      have e3 : ¬ ((t.ndim ≠ 3 ∧ t.ndim ≠ 4) ∨ t.shape.getD (t.ndim - 2) 0 ≠ t.shape.getD (t.ndim - 1) 0) := by
        rw [e1]
        rintro (h | h)
        · exact h.2 rfl
        · exact h e2
      rw [if_neg e3, hcs.1]
      exact mkContractable_batched _ _ _ rfl (by rw [hlen, hcs.1]) g
    · simp only at hcs
      simp only [mkOutputCore]
      have e1 : t.ndim = 4 := by unfold Tensor.ndim; rw [hlen, hcs]; rfl
      rw [if_neg (by rw [e1]; simp), hcs]
      exact mkContractable_batched _ _ _ rfl (by rw [hlen, hcs]) g
    · simp only at hcs
      simp only [mkSingleMat]
      have e1 : t.ndim = 3 := by unfold Tensor.ndim; rw [hlen, hcs]; rfl
      rw [if_neg (by rw [e1]; simp), hcs]
      exact mkContractable_batched _ _ _ rfl (by rw [hlen, hcs]) g
  have hsm : scalarMul s c g = (.ok (some ⟨c.cls, t, c.bondStr⟩), some (axis c 'b')) := by
    unfold scalarMul
    rw [ht, CM.bind_ok (CM.lift_apply _ _), CM.bind_ok hsame]
    rfl
  refine ⟨t, ?_, ?_, hsh, ?_⟩
  · unfold star
    rw [if_neg (by rw [hs]; exact fun h => hcls.2.2 h.symm), if_neg (by rw [hs]; simp)]
    refine orElse_some ?_
    unfold mulMethod
    rw [hs]
    exact hsm
  · unfold star
    rw [if_neg (by rw [hs]; exact hcls.2.2)]
    have hrm : rmulMethod s c g = (.ok (some ⟨c.cls, t, c.bondStr⟩), some (axis c 'b')) := by
      unfold rmulMethod
      rw [hs]
      exact hsm
    by_cases hcc : c.cls = .contractable
    · rw [if_pos ⟨hcc, by rw [hs]; rfl⟩]
      exact orElse_some hrm
    · rw [if_neg (by simp [hcc])]
      rw [orElse_none (g' := g)]
      · exact orElse_some hrm
      · unfold mulMethod
        cases hcc' : c.cls <;> rw [hcc'] at hcls hcc <;> simp only [ne_eq, reduceCtorEq, not_true_eq_false, not_false_eq_true, false_and,
          and_false, and_true] at hcls hcc
        · simp only [regionMul]; rw [if_pos (by rw [hs]; decide)]; rfl
        · simp only [gmul]; rw [if_pos (by rw [hs]; simp)]; rfl
        · simp only [gmul]; rw [if_pos (by rw [hs]; simp)]; rfl
  · intro b hb idx hidx
    obtain ⟨rest, hrest⟩ : ∃ rest, c.bondStr = 'b' :: rest := by
      cases hcb : c.bondStr with
      | nil => rw [hcb] at hbm; simp at hbm
      | cons d l =>
        have := hc.batchFirst
        rw [hcb] at this
        simp at this
        exact ⟨l, by rw [this]⟩
    have hlen2 : (b :: idx).length = c.bondStr.length := by rw [hidx.length_eq, hlen]
    have hmap := Env.map_ofOut c.bondStr hc.distinct (b :: idx) hlen2
    have hbv : Env.ofOut c.bondStr (b :: idx) 'b' = b := by
      rw [hrest]; simp [Env.ofOut, Env.set]
    rw [← hmap, hRt.2 _ ((inRange_map _ _ _).1 (by rw [hmap, ← hRt.1]; exact hidx)), hin]
    simp only [sumOver, hbv]

/-- C46: edge vectors and output matrices cannot be multiplied by a scalar, from either side: TypeError (their constructors need a
second argument, which `Scalar.__mul__` does not pass). -/
theorem C46_scalar_edge [CommSemiring K] (s c : Contractable K) (hs : s.cls = .scalar)
    (hss : s.tensor.shape = [axis c 'b']) (hc : Labelled c) (hcls : c.cls = .edgeVec ∨ c.cls = .outputMat) (g : Option ℕ) :
    star s c g = (.error .type, g) ∧ star c s g = (.error .type, g) := by
  have hR1 : c.tensor.Reads (axis c) c.bondStr (fun env => c.tensor.get (c.bondStr.map env)) :=
    ⟨(map_axis c hc.order hc.distinct).symm, fun _ _ => rfl⟩
  have hR2 : s.tensor.Reads (axis c) ['b'] (fun env => s.tensor.get [env 'b']) :=
    ⟨by rw [hss]; rfl, fun _ _ => rfl⟩
  obtain ⟨t, ht, -⟩ := einsum2_reads (axis c) c.bondStr ['b'] c.bondStr _ _ _ _ hR1 hR2 hc.distinct
    (fun d hd => Or.inl hd)
  have hsm : scalarMul s c g = (.error .type, g) := by
    unfold scalarMul
    rw [ht, CM.bind_ok (CM.lift_apply _ _)]
    unfold sameClass
    rcases hcls with h | h <;> rw [h] <;> rfl
  have hsm' : ∀ z, orElse (scalarMul s c) z g = (.error .type, g) := fun z => by
    unfold orElse
    rw [CM.bind_err hsm]
  rcases hcls with h | h
  · constructor
    · unfold star
      rw [if_neg (by rw [hs, h]; simp), if_neg (by rw [hs]; simp)]
      simp only [mulMethod, hs]
      exact hsm' _
    · unfold star
      rw [if_neg (by rw [hs, h]; simp), if_neg (by rw [h]; simp), orElse_none (g' := g)]
      · simp only [rmulMethod, hs]
        exact hsm' _
      · simp only [mulMethod, h, edgeMul]
        rw [if_pos (by rw [hs]; simp)]
        rfl
  · constructor
    · unfold star
      rw [if_neg (by rw [hs, h]; simp), if_neg (by rw [hs]; simp)]
      simp only [mulMethod, hs]
      exact hsm' _
    · unfold star
      rw [if_neg (by rw [hs, h]; simp), if_neg (by rw [h]; simp)]
      unfold orElse
      refine CM.bind_err ?_
      simp only [mulMethod, h]
      rw [if_pos (by rw [hs]; simp)]
      rfl

/-- scalars of a batch of two and an edge vector of length three meet the hypotheses -/
example : ∃ s c : Contractable ℤ, s.cls = .scalar ∧ s.tensor.shape = [axis c 'b'] ∧ Labelled c ∧ c.cls = .edgeVec :=
  ⟨⟨.scalar, ⟨[2], fun _ => 5⟩, ['b']⟩, ⟨.edgeVec, ⟨[2, 3], fun _ => 1⟩, ['b', 'r']⟩, rfl, rfl, ⟨rfl, by decide, by decide, rfl⟩, rfl⟩

/-- a concrete pair with a clashing letter `o` that meets the hypotheses -/
example : ∃ x y : Contractable ℤ, Labelled x ∧ Labelled y ∧ CanMultiply x.cls y.cls ∧ 'r' ∈ x.bondStr ∧
    'l' ∈ y.bondStr ∧ axis x 'b' = axis y 'b' ∧ axis x 'r' = axis y 'l' ∧ EnoughLetters x.bondStr y.bondStr ∧
    clashes x.bondStr y.bondStr = ['o'] :=
  ⟨⟨.outputCore, ⟨[2, 3, 4, 5], fun _ => 1⟩, ['b', 'o', 'l', 'r']⟩,
    ⟨.outputCore, ⟨[2, 3, 5, 4], fun _ => 1⟩, ['b', 'o', 'l', 'r']⟩,
    ⟨rfl, by decide, by decide, rfl⟩, ⟨rfl, by decide, by decide, rfl⟩, trivial, by decide, by decide, rfl, rfl,
    by unfold EnoughLetters; decide, by decide⟩

end TorchMPS
