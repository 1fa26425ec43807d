import Verif.Model.RoundedMps
import Verif.Lemmas.ThreadsRun
/-
With exact arithmetic the programs of Model/RoundedMps.lean are those of the other model files.
-/
namespace TorchMPS
variable {K : Type}

theorem sumOver_envs [AddCommMonoid K] (size : Char → ℕ) (cs : List Char) (env : Env) (f : Env → K) :
    sumOver size cs env f = ((envsOver size cs env).map f).sum := by
  induction cs generalizing env with
  | nil => simp [sumOver, envsOver]
  | cons c cs ih =>
    simp only [sumOver, envsOver, ih]
    rw [List.map_flatMap]
    have : ∀ l : List ℕ, ((l.flatMap (fun i => (envsOver size cs (env.set c i)).map f))).sum = (l.map (fun i => ((envsOver size cs (env.set c i)).map f).sum)).sum := by
      intro l
      induction l with
      | nil => rfl
      | cons a l ih => simp [List.flatMap_cons, ih]
    rw [this]
    induction size c with
    | zero => simp
    | succ n ih => rw [Finset.sum_range_succ, List.range_succ, List.map_append, List.sum_append, ih]; simp

theorem einsum2_eq [CommSemiring K] (i j out : List Char) (a b : Tensor K) :
    einsum [i, j] out [a, b] = if EinOk [i, j] out [a, b] then
      .ok ⟨out.map (letterSize (einUses [i, j] [a, b])), fun idx =>
        (((envsOver (letterSize (einUses [i, j] [a, b])) (einInner [i, j] out) (Env.ofOut out idx)).map (fun env =>
          a.get (Tensor.clampIdx a.shape (i.map env)) * b.get (Tensor.clampIdx b.shape (j.map env)))).sum)⟩
      else .error .runtime := by
  unfold einsum
  simp only
  refine if_congr Iff.rfl ?_ rfl
  congr 2
  funext idx
  rw [sumOver_envs]
  simp only [List.zip_cons_cons, List.zip_nil_right, List.map_cons, List.map_nil, List.prod_cons, List.prod_nil, mul_one]
  rfl

theorem einsum1_eq [CommSemiring K] (i out : List Char) (a : Tensor K) :
    einsum [i] out [a] = if EinOk [i] out [a] then
      .ok ⟨out.map (letterSize (einUses [i] [a])), fun idx =>
        (((envsOver (letterSize (einUses [i] [a])) (einInner [i] out) (Env.ofOut out idx)).map (fun env =>
          a.get (Tensor.clampIdx a.shape (i.map env)))).sum)⟩
      else .error .runtime := by
  unfold einsum
  simp only
  refine if_congr Iff.rfl ?_ rfl
  congr 2
  funext idx
  rw [sumOver_envs]
  simp only [List.zip_cons_cons, List.zip_nil_right, List.map_cons, List.map_nil, List.prod_cons, List.prod_nil, mul_one]
  rfl

theorem sum_list_range [AddCommMonoid K] (n : ℕ) (f : ℕ → K) : ((List.range n).map f).sum = ∑ k ∈ Finset.range n, f k := by
  induction n with
  | zero => simp
  | succ n ih => rw [Finset.sum_range_succ, List.range_succ, List.map_append, List.sum_append, ih]; simp

namespace NetArith
variable [CommRing K]

theorem exact_ein2 (i j out : List Char) (a b : Tensor K) : (exactNet K).ein2 i j out a b = einsum [i, j] out [a, b] := by
  rw [einsum2_eq]
  unfold ein2
  refine if_congr Iff.rfl ?_ rfl
  congr 2
  funext idx
  simp only [exactNet, List.map_map]
  rfl

theorem exact_ein1 (i out : List Char) (a : Tensor K) : (exactNet K).ein1 i out a = einsum [i] out [a] := by
  rw [einsum1_eq]
  rfl

theorem exact_bmm (a b : Tensor K) : (exactNet K).bmm a b = Tensor.bmm a b := by
  unfold bmm Tensor.bmm
  split
  · rename_i B n m B' m' p h1 h2
    simp only [h1, h2]
    by_cases h : B = B' ∧ m = m'
    · rw [if_pos h, if_pos h]
      congr 2
      funext idx
      simp only [exactNet, List.map_map]
      exact sum_list_range _ _
    · rw [if_neg h, if_neg h]
  · rename_i h
    split
    · rename_i h1 h2
      exact absurd h2 (fun h2 => h _ _ _ _ _ _ h1 h2)
    · rfl

theorem exact_gmul (x y : Contractable K) (r : Bool) : (exactNet K).gmul x y r = TorchMPS.gmul x y r := by
  unfold gmul TorchMPS.gmul gmulCore
  simp only [exact_ein2]

theorem exact_regionApply (t : Tensor K) (r : Bool) (l : List ℕ) (v : Tensor K) : (exactNet K).regionApply t r l v = TorchMPS.regionApply t r l v := by
  induction l generalizing v with
  | nil => rfl
  | cons s l ih => simp only [regionApply, TorchMPS.regionApply, exact_bmm, ih]

theorem exact_regionMul (x y : Contractable K) (r : Bool) : (exactNet K).regionMul x y r = TorchMPS.regionMul x y r := by
  unfold regionMul TorchMPS.regionMul
  simp only [exact_regionApply]

theorem exact_regionLoop (n : ℕ) (t : Tensor K) (s : ℕ) : (exactNet K).regionLoop n t s = TorchMPS.regionLoop n t s := by
  induction n generalizing t s with
  | zero => rfl
  | succ n ih => simp only [regionLoop, TorchMPS.regionLoop, regionRound, TorchMPS.regionRound, exact_ein2, ih]

theorem exact_regionReduce (x : Contractable K) : (exactNet K).regionReduce x = TorchMPS.regionReduce x := by
  unfold regionReduce TorchMPS.regionReduce
  simp only [exact_regionLoop]

theorem exact_edgeMul (x y : Contractable K) : (exactNet K).edgeMul x y = TorchMPS.edgeMul x y := by
  unfold edgeMul TorchMPS.edgeMul
  simp only [exact_bmm]

theorem exact_scalarMul (x y : Contractable K) : (exactNet K).scalarMul x y = TorchMPS.scalarMul x y := by
  unfold scalarMul TorchMPS.scalarMul
  simp only [exact_ein2]

theorem exact_mulMethod (x y : Contractable K) : (exactNet K).mulMethod x y = TorchMPS.mulMethod x y := by
  unfold mulMethod TorchMPS.mulMethod
  cases x.cls <;> simp only [exact_regionMul, exact_gmul, exact_edgeMul, exact_scalarMul]

theorem exact_rmulMethod (x y : Contractable K) : (exactNet K).rmulMethod x y = TorchMPS.rmulMethod x y := by
  unfold rmulMethod TorchMPS.rmulMethod
  cases x.cls <;> simp only [exact_regionMul, exact_gmul, exact_scalarMul]

theorem exact_mulOp (x y : Contractable K) : (exactNet K).mulOp x y = TorchMPS.star x y := by
  unfold mulOp TorchMPS.star
  simp only [exact_mulMethod, exact_rmulMethod]

theorem exact_reduceItem (x : Contractable K) : (exactNet K).reduceItem x = TorchMPS.reduceItem x := by
  unfold reduceItem TorchMPS.reduceItem
  simp only [exact_regionReduce]

theorem exact_reduceItems (cs : List (Contractable K)) : (exactNet K).reduceItems cs = TorchMPS.reduceItems cs := by
  induction cs with
  | nil => rfl
  | cons c cs ih => simp only [reduceItems, TorchMPS.reduceItems, exact_reduceItem, ih]

theorem exact_mulLast (cs : List (Contractable K)) : (exactNet K).mulLast cs = TorchMPS.mulLast cs := by
  match cs with
  | [] => rfl
  | [_] => rfl
  | [a, b] => simp only [mulLast, TorchMPS.mulLast, exact_mulOp]
  | a :: b :: d :: cs => simp only [mulLast, TorchMPS.mulLast, exact_mulLast (b :: d :: cs)]

theorem exact_mulFirst (cs : List (Contractable K)) : (exactNet K).mulFirst cs = TorchMPS.mulFirst cs := by
  match cs with
  | [] => rfl
  | [_] => rfl
  | a :: b :: cs => simp only [mulFirst, TorchMPS.mulFirst, exact_mulOp]

theorem exact_reduceLoop (n : ℕ) (cs : List (Contractable K)) : (exactNet K).reduceLoop n cs = TorchMPS.reduceLoop n cs := by
  induction n generalizing cs with
  | zero => rfl
  | succ n ih => simp only [reduceLoop, TorchMPS.reduceLoop, exact_mulLast, exact_mulFirst, ih]

theorem exact_prepItems (cs : List (Contractable K)) (b : Bool) : (exactNet K).prepItems cs b = TorchMPS.prepItems cs b := by
  unfold prepItems TorchMPS.prepItems
  simp only [exact_reduceItems]

theorem exact_reduceList (cs : List (Contractable K)) (b : Bool) :
    (exactNet K).reduceList cs b = (do let p ← TorchMPS.reduceList cs b; pure p.1) := by
  unfold reduceList TorchMPS.reduceList
  simp only [exact_prepItems, exact_reduceLoop]
  refine CM.ext fun g => ?_
  simp only [CM.bind_apply, CM.bind]
  cases h : TorchMPS.prepItems cs b g with
  | mk r g' =>
    cases r with
    | error e => rfl
    | ok items =>
      simp only
      cases h' : TorchMPS.reduceLoop items.length items g' with
      | mk r g' =>
        cases r with
        | error e => rfl
        | ok res => cases res <;> rfl

theorem exact_addRegionBias (t : Tensor K) (b : Option (Tensor K)) : (exactNet K).addRegionBias t b = TorchMPS.addRegionBias t b := by
  cases b <;> rfl

theorem exact_moduleForward (m : Module K) (x : Tensor K) : (exactNet K).moduleForward m x = m.forward x := by
  cases m <;> simp only [moduleForward, Module.forward, inputRegionMats, TorchMPS.inputRegionMats, mergedInputMats, TorchMPS.mergedInputMats, inputSiteMat,
    TorchMPS.inputSiteMat, mergedOutputCore, TorchMPS.mergedOutputCore, exact_ein2, exact_addRegionBias]

theorem exact_runModules (x : Tensor K) (i : ℕ) (ms : List (Module K)) : (exactNet K).runModules x i ms = TorchMPS.runModules x i ms := by
  induction ms generalizing i with
  | nil => rfl
  | cons m ms ih => simp only [runModules, TorchMPS.runModules, exact_moduleForward, ih]

theorem exact_closeRing (cs : List (Contractable K)) : (exactNet K).closeRing cs = TorchMPS.closeRing cs := by
  unfold closeRing TorchMPS.closeRing
  simp only [exact_reduceList, exact_ein1, Threads.bind_fst]

theorem exact_closeOpen (cs : List (Contractable K)) (b : Bool) : (exactNet K).closeOpen cs b = TorchMPS.closeOpen cs b := by
  unfold closeOpen TorchMPS.closeOpen
  cases cs.head? with
  | none => rfl
  | some f =>
    cases cs.getLast? with
    | none => rfl
    | some l => simp only [exact_reduceList, Threads.bind_fst]

theorem exact_linearForward (ms : List (Module K)) (per par : Bool) (x : Tensor K) :
    (exactNet K).linearForward ms per par x = TorchMPS.linearForward ms per par x := by
  unfold linearForward TorchMPS.linearForward
  simp only [exact_runModules, exact_closeRing, exact_closeOpen]

theorem exact_mpsForward (m : MPS K) (x : Tensor K) : (exactNet K).mpsForward m x = m.forward x := by
  unfold mpsForward MPS.forward
  simp only [exact_linearForward]
  rfl

theorem exact_tiForward (m : TiMps K) (x : TiInput K) : (exactNet K).tiForward m x = m.forward x := by
  have hf : (exactNet K).tiFormat m x = m.formatInput x := by
    cases x <;> rfl
  unfold tiForward TiMps.forward tiRun
  simp only [exact_moduleForward, exact_reduceList, Threads.bind_fst, hf]

end NetArith
end TorchMPS
