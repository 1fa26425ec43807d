import Verif.Spec.Adaptive
/-
C90: the size of the change of the outputs made by a flip.
-/
namespace TorchMPS.Spec

/-- the Frobenius norm of a tensor with four axes -/
noncomputable def norm4 (n0 n1 n2 n3 : ℕ) (T : ℕ → ℕ → ℕ → ℕ → ℝ) : ℝ := Real.sqrt (dist4 n0 n1 n2 n3 T (fun _ _ _ _ => 0))

/-- the Frobenius norms of the (merged or lone) cores of a module, in order -/
noncomputable def moduleNorms (D F O : ℕ) : Module ℝ → List ℝ
  | .mergedInput t => (List.range (t.shape.getD 0 0)).map (fun s => norm4 D D F F (fun l r f f' => t.get [s, l, r, f, f']))
  | .mergedOutput t _ => [norm4 O D D F (fun o l r f => t.get [o, l, r, f])]
  | .inputSite t => [coreNorm D F (fun l r f => t.get [l, r, f])]
  | .outputSite t => [outNorm D O (fun o l r => t.get [o, l, r])]
  | .inputRegion _ _ => []

/-- root of the sum of the squares of the singular values dropped -/
noncomputable def droppedNorm (D : ℕ) (cutoff : ℝ) (sv : List ℝ) : ℝ :=
  Real.sqrt (∑ k ∈ Finset.Ico (kept D cutoff sv) sv.length, sv.getD k 0 ^ 2)

/-- what is dropped of each of the cores of a module; nothing of lone cores -/
noncomputable def moduleDrops (svd : Mat ℝ → SVD) (D : ℕ) (cutoff : ℝ) : Module ℝ → List ℝ
  | .mergedInput t => (List.range (t.shape.getD 0 0)).map (fun s => droppedNorm D cutoff (pairSvs svd (t.select 0 s)))
  | .mergedOutput t true => [droppedNorm D cutoff (outLeftSvs svd t)]
  | .mergedOutput t false => [droppedNorm D cutoff (outRightSvs svd t)]
  | .inputSite _ => [0]
  | .outputSite _ => [0]
  | .inputRegion _ _ => []

/-- the Euclidean norm of the feature vector of pixel `i` of sample `b` -/
noncomputable def featureNorm (F : ℕ) (e : Tensor ℝ) (b i : ℕ) : ℝ := Real.sqrt (∑ f ∈ Finset.range F, e.get [b, i, f] ^ 2)

/-- `∏ (N j + δ j) - ∏ N j`: how much a product of numbers of sizes `N j` can change if each is changed by `δ j`. -/
noncomputable def productChange (N δ : List ℝ) : ℝ := (List.zipWith (· + ·) N δ).prod - N.prod

end TorchMPS.Spec
