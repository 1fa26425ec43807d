import Verif.Model.Threads
import Verif.Lemmas.Contractables
/-
Without interference the programs of Model/Threads.lean do what the functions of the other model files do.
-/
namespace TorchMPS
variable {K : Type} {α β : Type}

theorem CM.ext {x y : CM α} (h : ∀ g, x g = y g) : x = y := funext h

theorem CM.bind_apply (x : CM α) (f : α → CM β) (g : Option ℕ) : (x >>= f) g = CM.bind x f g := rfl

namespace Prog

theorem bind_def (p : Prog α) (f : α → Prog β) : (p >>= f) = p.bind f := rfl

theorem ret_bind (a : α) (f : α → Prog β) : ((Prog.ret (.ok a) : Prog α) >>= f) = f a := rfl
theorem lift_ok_bind (a : α) (f : α → Prog β) : ((Prog.lift (.ok a) : Prog α) >>= f) = f a := rfl
theorem lift_err_bind (e : Err) (f : α → Prog β) : ((Prog.lift (.error e) : Prog α) >>= f) = .ret (.error e) := rfl
theorem read_bind (k : Option ℕ → Prog α) (f : α → Prog β) : (Prog.read k >>= f) = .read (fun g => k g >>= f) := rfl
theorem write_bind (n : ℕ) (k : Prog α) (f : α → Prog β) : (Prog.write n k >>= f) = .write n (k >>= f) := rfl

theorem run_bind (p : Prog α) (f : α → Prog β) : (p >>= f).run = p.run >>= fun a => (f a).run := by
  refine CM.ext ?_
  induction p with
  | ret r => intro g; cases r <;> rfl
  | read k ih => intro g; exact ih g g
  | write n k ih => intro g; exact ih (some n)

theorem run_lift (x : Except Err α) : (Prog.lift x).run = CM.lift x := rfl
theorem run_throw (e : Err) : (Prog.throw e : Prog α).run = CM.throw e := rfl
theorem run_pure (a : α) : (pure a : Prog α).run = pure a := rfl

theorem run_ite (c : Prop) [Decidable c] (p q : Prog α) : (if c then p else q).run = if c then p.run else q.run := by
  split <;> rfl

theorem run_exceptType (p q : Prog α) : (p.exceptType q).run = CM.exceptType p.run q.run := by
  refine CM.ext ?_
  induction p with
  | ret r =>
    intro g
    cases r with
    | ok a => rfl
    | error e => cases e <;> rfl
  | read k ih => intro g; exact ih g g
  | write n k ih => intro g; exact ih (some n)

end Prog

open Prog
namespace Threads

theorem run_mkContractable (cls : Cls) (t : Tensor K) (s : List Char) :
    (mkContractable cls t s).run = TorchMPS.mkContractable cls t s := by
  refine CM.ext fun g => ?_
  unfold mkContractable TorchMPS.mkContractable
  simp only [Prog.run]
  split
  · rfl
  · split
    · cases g <;> rfl
    · split
      · rfl
      · split
        · rename_i h
          rw [h]
          rfl
        · rfl

theorem run_mkMatRegion (t : Tensor K) : (mkMatRegion t).run = TorchMPS.mkMatRegion t := by
  unfold mkMatRegion TorchMPS.mkMatRegion
  rw [run_ite, run_mkContractable, run_throw]
theorem run_mkOutputCore (t : Tensor K) : (mkOutputCore t).run = TorchMPS.mkOutputCore t := by
  unfold mkOutputCore TorchMPS.mkOutputCore
  rw [run_ite, run_mkContractable, run_throw]
theorem run_mkSingleMat (t : Tensor K) : (mkSingleMat t).run = TorchMPS.mkSingleMat t := by
  unfold mkSingleMat TorchMPS.mkSingleMat
  rw [run_ite, run_mkContractable, run_throw]
theorem run_mkOutputMat (t : Tensor K) (b : Bool) : (mkOutputMat t b).run = TorchMPS.mkOutputMat t b := by
  unfold mkOutputMat TorchMPS.mkOutputMat
  rw [run_ite, run_mkContractable, run_throw]
theorem run_mkEdgeVec (t : Tensor K) (b : Bool) : (mkEdgeVec t b).run = TorchMPS.mkEdgeVec t b := by
  unfold mkEdgeVec TorchMPS.mkEdgeVec
  rw [run_ite, run_mkContractable, run_throw]
theorem run_mkScalar (t : Tensor K) : (mkScalar t).run = TorchMPS.mkScalar t := by
  unfold mkScalar TorchMPS.mkScalar
  rw [run_ite, run_mkContractable, run_throw]

theorem run_wrapOut (t : Tensor K) (s : List Char) : (wrapOut t s).run = TorchMPS.wrapOut t s := by
  unfold wrapOut TorchMPS.wrapOut
  simp only [run_ite, run_mkEdgeVec, run_mkSingleMat, run_mkOutputCore, run_mkContractable]

theorem run_gmul [CommSemiring K] (a b : Contractable K) (r : Bool) : (gmul a b r).run = TorchMPS.gmul a b r := by
  unfold gmul TorchMPS.gmul
  simp only [run_ite, run_bind, run_lift, run_pure, run_wrapOut]

theorem run_regionMul [CommSemiring K] (a b : Contractable K) (r : Bool) : (regionMul a b r).run = TorchMPS.regionMul a b r := by
  unfold regionMul TorchMPS.regionMul
  simp only [run_ite, run_bind, run_lift, run_pure, run_throw, run_mkEdgeVec]

theorem run_regionReduce [CommSemiring K] (a : Contractable K) : (regionReduce a).run = TorchMPS.regionReduce a := by
  unfold regionReduce TorchMPS.regionReduce
  simp only [run_bind, run_lift, run_mkSingleMat]

theorem run_edgeMul [CommSemiring K] (a b : Contractable K) : (edgeMul a b).run = TorchMPS.edgeMul a b := by
  unfold edgeMul TorchMPS.edgeMul
  simp only [run_ite, run_bind, run_lift, run_pure, run_mkScalar]

theorem run_sameClass (a : Contractable K) (t : Tensor K) : (sameClass a t).run = TorchMPS.sameClass a t := by
  unfold sameClass TorchMPS.sameClass
  cases a.cls <;>
    simp only [run_mkContractable, run_mkMatRegion, run_mkOutputCore, run_mkSingleMat, run_mkScalar, run_throw]

theorem run_scalarMul [CommSemiring K] (a b : Contractable K) : (scalarMul a b).run = TorchMPS.scalarMul a b := by
  unfold scalarMul TorchMPS.scalarMul
  simp only [run_bind, run_lift, run_pure, run_sameClass]

theorem run_mulMethod [CommSemiring K] (a b : Contractable K) : (mulMethod a b).run = TorchMPS.mulMethod a b := by
  unfold mulMethod TorchMPS.mulMethod
  cases a.cls <;> simp only [run_regionMul, run_ite, run_throw, run_gmul, run_edgeMul, run_scalarMul]

theorem run_rmulMethod [CommSemiring K] (a b : Contractable K) : (rmulMethod a b).run = TorchMPS.rmulMethod a b := by
  unfold rmulMethod TorchMPS.rmulMethod
  cases a.cls <;> simp only [run_regionMul, run_ite, run_throw, run_gmul, run_scalarMul]

theorem run_orElse (x : Prog (Option (Contractable K))) (y : Prog (Contractable K)) :
    (orElse x y).run = TorchMPS.orElse x.run y.run := by
  unfold orElse TorchMPS.orElse
  rw [run_bind]
  congr 1
  funext o
  cases o <;> rfl

theorem run_star [CommSemiring K] (a b : Contractable K) : (star a b).run = TorchMPS.star a b := by
  unfold star TorchMPS.star
  simp only [run_ite, run_orElse, run_mulMethod, run_rmulMethod, run_throw]

theorem run_reduceItem [CommSemiring K] (a : Contractable K) : (reduceItem a).run = TorchMPS.reduceItem a := by
  unfold reduceItem TorchMPS.reduceItem
  simp only [run_ite, run_regionReduce, run_pure]

theorem run_reduceItems [CommSemiring K] (cs : List (Contractable K)) : (reduceItems cs).run = TorchMPS.reduceItems cs := by
  induction cs with
  | nil => rfl
  | cons c cs ih => simp only [reduceItems, TorchMPS.reduceItems, run_bind, run_reduceItem, ih, run_pure]

theorem run_mulLast [CommSemiring K] (cs : List (Contractable K)) : (mulLast cs).run = TorchMPS.mulLast cs := by
  match cs with
  | [] => rfl
  | [_] => rfl
  | [a, b] => simp only [mulLast, TorchMPS.mulLast, run_bind, run_star, run_pure]
  | a :: b :: d :: cs => simp only [mulLast, TorchMPS.mulLast, run_bind, run_mulLast (b :: d :: cs), run_pure]

theorem run_mulFirst [CommSemiring K] (cs : List (Contractable K)) : (mulFirst cs).run = TorchMPS.mulFirst cs := by
  match cs with
  | [] => rfl
  | [_] => rfl
  | a :: b :: cs => simp only [mulFirst, TorchMPS.mulFirst, run_bind, run_star, run_pure]

theorem run_reduceLoop [CommSemiring K] (n : ℕ) (cs : List (Contractable K)) : (reduceLoop n cs).run = TorchMPS.reduceLoop n cs := by
  induction n generalizing cs with
  | zero => rfl
  | succ n ih => simp only [reduceLoop, TorchMPS.reduceLoop, run_ite, run_bind, run_exceptType, run_mulLast, run_mulFirst, ih, run_pure]

theorem run_prepItems [CommSemiring K] (cs : List (Contractable K)) (b : Bool) : (prepItems cs b).run = TorchMPS.prepItems cs b := by
  unfold prepItems TorchMPS.prepItems
  simp only [run_ite, run_reduceItems, run_pure]

theorem bind_fst {γ : Type} (x : CM (α × β)) (f : α → CM γ) :
    ((do let p ← x; pure p.1) >>= f : CM γ) = (x >>= fun p => f p.1) := by
  refine CM.ext fun g => ?_
  simp only [CM.bind_apply, CM.bind]
  cases h : x g with
  | mk r g' => cases r <;> rfl

theorem run_reduceList [CommSemiring K] (cs : List (Contractable K)) (b : Bool) :
    (reduceList cs b).run = (do let p ← TorchMPS.reduceList cs b; pure p.1) := by
  unfold reduceList TorchMPS.reduceList
  simp only [run_bind, run_prepItems, run_reduceLoop]
  refine CM.ext fun g => ?_
  simp only [CM.bind_apply, CM.bind]
  cases h : TorchMPS.prepItems cs b g with
  | mk r g' =>
    cases r with
    | error e => rfl
    | ok items =>
      simp only
      cases h' : TorchMPS.reduceLoop items.length items g' with
      | mk r g' =>
        cases r with
        | error e => rfl
        | ok res => cases res <;> rfl

theorem run_moduleForward [CommSemiring K] (m : Module K) (x : Tensor K) : (moduleForward m x).run = m.forward x := by
  cases m <;> simp only [moduleForward, Module.forward, run_bind, run_lift, run_mkMatRegion, run_mkSingleMat, run_mkOutputCore]

theorem run_runModules [CommSemiring K] (x : Tensor K) (i : ℕ) (ms : List (Module K)) :
    (runModules x i ms).run = TorchMPS.runModules x i ms := by
  induction ms generalizing i with
  | nil => rfl
  | cons m ms ih => simp only [runModules, TorchMPS.runModules, run_bind, run_moduleForward, ih, run_pure]

theorem run_closeRing [CommSemiring K] (cs : List (Contractable K)) : (closeRing cs).run = TorchMPS.closeRing cs := by
  unfold closeRing TorchMPS.closeRing
  simp only [run_bind, run_reduceList, run_lift, bind_fst]

theorem run_closeOpen [CommSemiring K] (cs : List (Contractable K)) (b : Bool) : (closeOpen cs b).run = TorchMPS.closeOpen cs b := by
  unfold closeOpen TorchMPS.closeOpen
  cases cs.head? with
  | none => rfl
  | some f =>
    cases cs.getLast? with
    | none => rfl
    | some l => simp only [run_bind, run_reduceList, run_lift, run_mkEdgeVec, run_pure, bind_fst]

theorem run_linearForward [CommSemiring K] (ms : List (Module K)) (per par : Bool) (x : Tensor K) :
    (linearForward ms per par x).run = TorchMPS.linearForward ms per par x := by
  unfold linearForward TorchMPS.linearForward
  simp only [run_bind, run_lift, run_ite, run_runModules, run_closeRing, run_closeOpen]

theorem run_mpsForward [CommRing K] (m : MPS K) (x : Tensor K) : (mpsForward m x).run = m.forward x := by
  unfold mpsForward MPS.forward
  simp only [run_bind, run_lift, run_linearForward]

theorem run_tiForward [CommRing K] (m : TiMps K) (x : TiInput K) : (tiForward m x).run = m.forward x := by
  unfold tiForward TiMps.forward
  simp only [run_bind, run_lift, run_moduleForward, run_mkEdgeVec, run_mkOutputMat, run_reduceList, bind_fst, run_pure]

end Threads
end TorchMPS
