import Verif.Model.CostMps
import Verif.Lemmas.Linear
/-
The work of the contractions of an MPS.
-/
namespace TorchMPS
open Spec
variable {K : Type}

theorem einsumWork_ok (sz : Char → ℕ) (ins : List (List Char)) (shapes : List Shape) (h : shapes = ins.map (fun s => s.map sz)) :
    einsumWork ins shapes = ((ins.flatten.dedup.map sz).prod, 1) := by
  subst h
  unfold einsumWork
  congr 2
  refine List.map_congr_left ?_
  intro c hc
  have hc : c ∈ ins.flatten := List.mem_dedup.1 hc
  refine letterSize_eq sz _ ?_ c ?_
  · intro u hu
    rw [List.mem_flatMap] at hu
    obtain ⟨p, hp, hu⟩ := hu
    rw [List.zip_map_right] at hp
    obtain ⟨q, hq, rfl⟩ := List.mem_map.1 hp
    have hq' : q.1 = q.2 := by
      rw [List.zip_eq_zipWith, List.zipWith_self] at hq
      obtain ⟨a, _, rfl⟩ := List.mem_map.1 hq
      rfl
    simp only [Prod.map, id] at hu
    rw [hq', List.zip_map_right] at hu
    obtain ⟨v, hv, rfl⟩ := List.mem_map.1 hu
    rw [List.zip_eq_zipWith, List.zipWith_self] at hv
    obtain ⟨a, _, rfl⟩ := List.mem_map.1 hv
    rfl
  · rw [List.mem_map]
    obtain ⟨s, hs, hc⟩ := List.mem_flatten.1 hc
    refine ⟨(c, sz c), ?_, rfl⟩
    rw [List.mem_flatMap]
    refine ⟨(s, s.map sz), ?_, ?_⟩
    · rw [List.zip_map_right, List.mem_map]
      refine ⟨(s, s), ?_, rfl⟩
      rw [List.zip_eq_zipWith, List.zipWith_self]
      exact List.mem_map.2 ⟨s, hs, rfl⟩
    · rw [List.zip_map_right, List.mem_map]
      refine ⟨(c, c), ?_, rfl⟩
      rw [List.zip_eq_zipWith, List.zipWith_self]
      exact List.mem_map.2 ⟨c, hc, rfl⟩

/-- the sizes of the letters in a model with batch size `B`, `O` outputs, a region of `n` sites, bond dimension `D` -/
def szOf (B O D n : ℕ) (c : Char) : ℕ := if c = 'b' then B else if c = 'o' then O else if c = 's' then n else D

/-- a contractable of a chain of known class, string and sizes -/
structure Obj (B O D n : ℕ) (cls : Cls) (s : List Char) (c : Contractable K) : Prop where
  piece : Piece B c
  cls_eq : c.cls = cls
  str : c.bondStr = s
  size : ∀ d ∈ s, axis c d = szOf B O D n d

theorem Obj.shape {B O D n : ℕ} {cls : Cls} {s : List Char} {c : Contractable K} (h : Obj B O D n cls s c) : c.tensor.shape = s.map (szOf B O D n) := by
  rw [← map_axis c h.piece.labelled.order h.piece.labelled.distinct, h.str]
  exact List.map_congr_left h.size

theorem Obj.sites {B O D n n' : ℕ} {cls : Cls} {s : List Char} {c : Contractable K} (h : Obj B O D n cls s c) (hs : 's' ∉ s) : Obj B O D n' cls s c := by
  refine ⟨h.piece, h.cls_eq, h.str, ?_⟩
  intro d hd
  rw [h.size d hd]
  unfold szOf
  have : d ≠ 's' := fun he => hs (he ▸ hd)
  simp [this]

theorem Obj.outs {B O D n : ℕ} {cls : Cls} {s : List Char} {c : Contractable K} (h : Obj B O D n cls s c) (hc : cls ≠ .matRegion) : TorchMPS.outs c = others s := by
  unfold TorchMPS.outs
  rw [h.cls_eq, if_neg hc, h.str]

theorem Obj.outOK {B O D n : ℕ} {cls : Cls} {s : List Char} {c : Contractable K} (h : Obj B O D n cls s c) (hc : cls ≠ .matRegion)
    (ho : others s = [] ∨ others s = ['o']) : OutOK O c := by
  unfold OutOK
  rw [h.outs hc]
  rcases ho with ho | ho
  · exact Or.inl ho
  · refine Or.inr ⟨ho, ?_⟩
    rw [h.size 'o' (mem_others.1 (by rw [ho]; simp)).1]
    simp [szOf]

/-- what comes out of a product -/
theorem merged_obj [CommSemiring K] {B O D n n' : ℕ} {cls cls' cls'' : Cls} {s s' s'' : List Char} {x y c : Contractable K} (hx : Obj B O D n cls s x)
    (hy : Obj B O D n' cls' s' y) (h : Merged B O x y c)
    (hs : s'' = 'b' :: (TorchMPS.outs x ++ TorchMPS.outs y ++ (if 'l' ∈ s then ['l'] else []) ++ (if 'r' ∈ s' then ['r'] else [])))
    (hc : cls'' = classFor s'') (ho : TorchMPS.outs x ++ TorchMPS.outs y = [] ∨ TorchMPS.outs x ++ TorchMPS.outs y = ['o']) (n'' : ℕ) : Obj B O D n'' cls'' s'' c := by
  have hstr : c.bondStr = s'' := by
    rw [h.str, hs, h.outs_eq, hx.str, hy.str]
  refine ⟨h.piece, by rw [h.cls, hstr, hc], hstr, ?_⟩
  intro d hd
  have hoc : OutOK O c := h.outOK
  unfold OutOK at hoc
  rw [h.outs_eq] at hoc
  rw [hs] at hd
  simp only [List.mem_cons, List.mem_append] at hd
  rcases hd with rfl | (hd | hd) | hd
  · rw [h.piece.batch]; simp [szOf]
  · have hd : d ∈ TorchMPS.outs x ++ TorchMPS.outs y := by simpa using hd
    rcases ho with ho | ho
    · rw [ho] at hd; simp at hd
    · rw [ho] at hd hoc
      simp at hd
      subst hd
      rcases hoc with hoc | hoc
      · simp at hoc
      · rw [hoc.2]; simp [szOf]
  · by_cases hl : 'l' ∈ s
    · rw [if_pos hl] at hd
      simp at hd
      subst hd
      rw [h.left (by rw [hx.str]; exact hl), hx.size _ hl]
      simp [szOf]
    · rw [if_neg hl] at hd; simp at hd
  · by_cases hr : 'r' ∈ s'
    · rw [if_pos hr] at hd
      simp at hd
      subst hd
      rw [h.right (by rw [hy.str]; exact hr), hy.size _ hr]
      simp [szOf]
    · rw [if_neg hr] at hd; simp at hd

/-- a product by contraction -/
theorem mul_obj [CommSemiring K] {B O D : ℕ} (n : ℕ) {cls cls' : Cls} {s s' : List Char} {x y : Contractable K} (hx : Obj B O D n cls s x)
    (hy : Obj B O D n cls' s' y) (hcan : CanMultiply cls cls') (hr : 'r' ∈ s) (hl : 'l' ∈ s') (ho : others s = [] ∨ others s = ['o'])
    (ho' : others s' = [] ∨ others s' = ['o']) (hone : others s = [] ∨ others s' = []) (g : Option ℕ) (cls'' : Cls) (s'' : List Char)
    (hs : s'' = 'b' :: (others s ++ others s' ++ (if 'l' ∈ s then ['l'] else []) ++ (if 'r' ∈ s' then ['r'] else []))) (hc : cls'' = classFor s'') :
    ∃ c, star x y g = (.ok c, some B) ∧ Obj B O D n cls'' s'' c := by
  have nx : cls ≠ .matRegion := by
    intro h; rw [h] at hcan; cases cls' <;> exact hcan
  have ny : cls' ≠ .matRegion := by
    intro h; rw [h] at hcan; cases cls <;> exact hcan
  obtain ⟨c, c1, c2⟩ := star_gen B O x y hx.piece hy.piece (by rw [hx.cls_eq, hy.cls_eq]; exact hcan) (by rw [hx.str]; exact hr) (by rw [hy.str]; exact hl)
    (by rw [hx.size _ hr, hy.size _ hl]; simp [szOf]) (hx.outOK nx ho) (hy.outOK ny ho') (by rw [hx.outs nx, hy.outs ny]; exact hone) g
  refine ⟨c, c1, merged_obj hx hy c2 (by rw [hx.outs nx, hy.outs ny]; exact hs) hc ?_ n⟩
  rw [hx.outs nx, hy.outs ny]
  rcases hone with h | h
  · rw [h]; simpa using ho'
  · rw [h]; simpa using ho

theorem gmulWork_obj {B O D n : ℕ} {cls cls' : Cls} {s s' : List Char} {x y : Contractable K} (hx : Obj B O D n cls s x)
    (hy : Obj B O D n cls' s' y) (t1 t2 out : List Char) (ht : mulStrings s s' = .ok (t1, t2, out)) (h1 : t1.map (szOf B O D n) = s.map (szOf B O D n))
    (h2 : t2.map (szOf B O D n) = s'.map (szOf B O D n)) : gmulWork x y = (((t1 ++ t2).dedup.map (szOf B O D n)).prod, 1) := by
  unfold gmulWork
  rw [hx.str, hy.str, ht]
  simp only
  rw [einsumWork_ok (szOf B O D n)]
  · simp
  · rw [hx.shape, hy.shape, ← h1, ← h2]; rfl

/-! ### The objects of an MPS -/

/-- left end vector -/
abbrev IsE (B O D n : ℕ) (c : Contractable K) : Prop := Obj B O D n .edgeVec ['b', 'r'] c
/-- right end vector -/
abbrev IsV (B O D n : ℕ) (c : Contractable K) : Prop := Obj B O D n .edgeVec ['b', 'l'] c
/-- region -/
abbrev IsR (B O D n : ℕ) (c : Contractable K) : Prop := Obj B O D n .matRegion ['b', 's', 'l', 'r'] c
/-- matrix -/
abbrev IsM (B O D n : ℕ) (c : Contractable K) : Prop := Obj B O D n .singleMat ['b', 'l', 'r'] c
/-- output core -/
abbrev IsC (B O D n : ℕ) (c : Contractable K) : Prop := Obj B O D n .outputCore ['b', 'o', 'l', 'r'] c
/-- everything from the output core to the right end -/
abbrev IsW (B O D n : ℕ) (c : Contractable K) : Prop := Obj B O D n .contractable ['b', 'o', 'l'] c

variable [CommSemiring K] {B O D n : ℕ} {x y : Contractable K}

theorem work_RV (hx : IsR B O D n x) (hy : IsV B O D n y) (g : Option ℕ) :
    ∃ c, star x y g = (.ok c, some B) ∧ IsV B O D n c ∧ starWork x y = (n * (B * D ^ 2), n) := by
  obtain ⟨c, c1, c2⟩ := star_region_edge B O x y hx.piece hy.piece hx.cls_eq hy.cls_eq hy.str
    (by rw [hx.size _ (by simp), hy.size _ (by simp)]; simp [szOf]) g
  have h1 : TorchMPS.outs x = [] := by unfold TorchMPS.outs; rw [if_pos hx.cls_eq]
  have h2 : TorchMPS.outs y = [] := by rw [hy.outs (by decide)]; rfl
  refine ⟨c, c1, merged_obj (cls'' := .edgeVec) (s'' := ['b', 'l']) hx hy c2 (by rw [h1, h2]; rfl) rfl (by rw [h1, h2]; exact Or.inl rfl) n, ?_⟩
  unfold starWork regionMulWork
  rw [if_pos hx.cls_eq, hx.shape]
  simp [szOf]
  ring

theorem work_ER (hx : IsE B O D n x) (hy : IsR B O D n y) (g : Option ℕ) :
    ∃ c, star x y g = (.ok c, some B) ∧ IsE B O D n c ∧ starWork x y = (n * (B * D ^ 2), n) := by
  obtain ⟨c, c1, c2⟩ := star_edge_region B O x y hx.piece hy.piece hy.cls_eq hx.cls_eq hx.str
    (by rw [hx.size _ (by simp), hy.size _ (by simp)]; simp [szOf]) g
  have h1 : TorchMPS.outs y = [] := by unfold TorchMPS.outs; rw [if_pos hy.cls_eq]
  have h2 : TorchMPS.outs x = [] := by rw [hx.outs (by decide)]; rfl
  refine ⟨c, c1, merged_obj (cls'' := .edgeVec) (s'' := ['b', 'r']) hx hy c2 (by rw [h1, h2]; rfl) rfl (by rw [h1, h2]; exact Or.inl rfl) n, ?_⟩
  unfold starWork regionMulWork
  rw [if_neg (by rw [hx.cls_eq]; decide), if_pos hy.cls_eq, hy.shape]
  simp [szOf]
  ring

omit [CommSemiring K] in
theorem starWork_gen {cls cls' : Cls} {s s' : List Char} (hx : Obj B O D n cls s x) (hy : Obj B O D n cls' s' y) (hcan : CanMultiply cls cls') :
    starWork x y = gmulWork x y := by
  unfold starWork
  rw [hx.cls_eq, hy.cls_eq]
  cases cls <;> cases cls' <;> first | exact absurd hcan id | simp

theorem work_CV (hx : IsC B O D n x) (hy : IsV B O D n y) (g : Option ℕ) :
    ∃ c, star x y g = (.ok c, some B) ∧ IsW B O D n c ∧ starWork x y = (B * (O * D ^ 2), 1) := by
  obtain ⟨c, c1, c2⟩ := mul_obj n hx hy trivial (by decide) (by decide) (by decide) (by decide) (by decide) g _ ['b', 'o', 'l'] (by decide) rfl
  refine ⟨c, c1, c2, ?_⟩
  rw [starWork_gen hx hy trivial, gmulWork_obj hx hy ['b', 'o', 'l', 'z'] ['b', 'z'] ['b', 'o', 'l'] rfl (by simp [szOf]) (by simp [szOf]),
    show (['b', 'o', 'l', 'z'] ++ ['b', 'z'] : List Char).dedup = ['o', 'l', 'b', 'z'] by decide]
  simp [szOf]
  ring

theorem work_MV (hx : IsM B O D n x) (hy : IsV B O D n y) (g : Option ℕ) :
    ∃ c, star x y g = (.ok c, some B) ∧ IsV B O D n c ∧ starWork x y = (B * D ^ 2, 1) := by
  obtain ⟨c, c1, c2⟩ := mul_obj n hx hy trivial (by decide) (by decide) (by decide) (by decide) (by decide) g _ ['b', 'l'] (by decide) rfl
  refine ⟨c, c1, c2, ?_⟩
  rw [starWork_gen hx hy trivial, gmulWork_obj hx hy ['b', 'l', 'z'] ['b', 'z'] ['b', 'l'] rfl (by simp [szOf]) (by simp [szOf]),
    show (['b', 'l', 'z'] ++ ['b', 'z'] : List Char).dedup = ['l', 'b', 'z'] by decide]
  simp [szOf]
  ring

theorem work_MW (hx : IsM B O D n x) (hy : IsW B O D n y) (g : Option ℕ) :
    ∃ c, star x y g = (.ok c, some B) ∧ IsW B O D n c ∧ starWork x y = (B * (O * D ^ 2), 1) := by
  obtain ⟨c, c1, c2⟩ := mul_obj n hx hy trivial (by decide) (by decide) (by decide) (by decide) (by decide) g _ ['b', 'o', 'l'] (by decide) rfl
  refine ⟨c, c1, c2, ?_⟩
  rw [starWork_gen hx hy trivial, gmulWork_obj hx hy ['b', 'l', 'z'] ['b', 'o', 'z'] ['b', 'o', 'l'] rfl (by simp [szOf]) (by simp [szOf]),
    show (['b', 'l', 'z'] ++ ['b', 'o', 'z'] : List Char).dedup = ['l', 'b', 'o', 'z'] by decide]
  simp [szOf]
  ring

theorem work_EW (hx : IsE B O D n x) (hy : IsW B O D n y) (g : Option ℕ) :
    ∃ c, star x y g = (.ok c, some B) ∧ starWork x y = (B * (O * D), 1) := by
  obtain ⟨c, c1, c2⟩ := mul_obj n hx hy trivial (by decide) (by decide) (by decide) (by decide) (by decide) g _ ['b', 'o'] (by decide) rfl
  refine ⟨c, c1, ?_⟩
  rw [starWork_gen hx hy trivial, gmulWork_obj hx hy ['b', 'z'] ['b', 'o', 'z'] ['b', 'o'] rfl (by simp [szOf]) (by simp [szOf]),
    show (['b', 'z'] ++ ['b', 'o', 'z'] : List Char).dedup = ['b', 'o', 'z'] by decide]
  simp [szOf]

theorem work_CM (hx : IsC B O D n x) (hy : IsM B O D n y) (g : Option ℕ) :
    ∃ c, star x y g = (.ok c, some B) ∧ IsC B O D n c ∧ starWork x y = (B * (O * D ^ 3), 1) := by
  obtain ⟨c, c1, c2⟩ := mul_obj n hx hy trivial (by decide) (by decide) (by decide) (by decide) (by decide) g _ ['b', 'o', 'l', 'r'] (by decide) rfl
  refine ⟨c, c1, c2, ?_⟩
  rw [starWork_gen hx hy trivial, gmulWork_obj hx hy ['b', 'o', 'l', 'z'] ['b', 'z', 'r'] ['b', 'o', 'l', 'r'] rfl (by simp [szOf]) (by simp [szOf]),
    show (['b', 'o', 'l', 'z'] ++ ['b', 'z', 'r'] : List Char).dedup = ['o', 'l', 'b', 'z', 'r'] by decide]
  simp [szOf]
  ring

theorem work_MC (hx : IsM B O D n x) (hy : IsC B O D n y) (g : Option ℕ) :
    ∃ c, star x y g = (.ok c, some B) ∧ IsC B O D n c ∧ starWork x y = (B * (O * D ^ 3), 1) := by
  obtain ⟨c, c1, c2⟩ := mul_obj n hx hy trivial (by decide) (by decide) (by decide) (by decide) (by decide) g _ ['b', 'o', 'l', 'r'] (by decide) rfl
  refine ⟨c, c1, c2, ?_⟩
  rw [starWork_gen hx hy trivial, gmulWork_obj hx hy ['b', 'l', 'z'] ['b', 'o', 'z', 'r'] ['b', 'o', 'l', 'r'] rfl (by simp [szOf]) (by simp [szOf]),
    show (['b', 'l', 'z'] ++ ['b', 'o', 'z', 'r'] : List Char).dedup = ['l', 'b', 'o', 'z', 'r'] by decide]
  simp [szOf]
  ring

theorem work_RW (hx : IsR B O D n x) (hy : IsW B O D n y) (g : Option ℕ) : star x y g = (.error .type, g) := by
  refine C46_unsupported x y ?_ ?_ ?_ g <;> rw [hx.cls_eq, hy.cls_eq] <;> simp [CanMultiply]

end TorchMPS
