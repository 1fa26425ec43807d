import Verif.Lemmas.CostMps
import Verif.Lemmas.Mps
import Mathlib.Data.Nat.Log
/-
The work of the reductions of an MPS.
-/
namespace TorchMPS
open Spec
variable {K : Type} [CommSemiring K]

omit [CommSemiring K] in
theorem cw_ext {α : Type} {x y : CM α} (h : ∀ g, x g = y g) : x = y := funext h

omit [CommSemiring K] in
theorem CW.result_pure {α : Type} (a : α) : CW.result (Pure.pure a : CW α) = Pure.pure a := rfl

omit [CommSemiring K] in
theorem CW.result_of {α : Type} (w : Work) (x : CM α) : CW.result (CW.of w x) = x := rfl

omit [CommSemiring K] in
theorem CW.result_bind {α β : Type} (x : CW α) (f : α → CW β) : CW.result (x >>= f) = (CW.result x >>= fun a => CW.result (f a)) := by
  funext g
  show (CW.bind x f g).1 = CM.bind (CW.result x) (fun a => CW.result (f a)) g
  unfold CW.bind CM.bind CW.result
  rcases x g with ⟨⟨a | a, g'⟩, w⟩ <;> rfl

omit [CommSemiring K] in
theorem CW.work_bind {α β : Type} (x : CW α) (f : α → CW β) (g g' : Option ℕ) (a : α) (h : CW.result x g = (.ok a, g')) :
    CW.work (x >>= f) g = CW.work x g + CW.work (f a) g' := by
  show (CW.bind x f g).2 = _
  unfold CW.bind CW.work
  unfold CW.result at h
  rcases hx : x g with ⟨⟨b | b, g''⟩, w⟩
  · rw [hx] at h; simp at h
  · rw [hx] at h
    simp only [Prod.mk.injEq, Except.ok.injEq] at h
    obtain ⟨rfl, rfl⟩ := h
    rfl

omit [CommSemiring K] in
/-- when what follows does no work -/
theorem CW.work_bind_zero {α β : Type} (x : CW α) (f : α → CW β) (g : Option ℕ) (h : ∀ a g', CW.work (f a) g' = 0) :
    CW.work (x >>= f) g = CW.work x g := by
  show (CW.bind x f g).2 = _
  unfold CW.bind CW.work
  rcases hx : x g with ⟨⟨b | b, g''⟩, w⟩
  · rfl
  · show w + CW.work (f b) g'' = w
    rw [h]; exact add_zero _

theorem reduceRun_result (fuel : ℕ) (cs : List (Contractable K)) : CW.result (reduceRun fuel cs) = reduceLoop fuel cs := by
  induction fuel generalizing cs with
  | zero => rfl
  | succ fuel ih =>
    rw [reduceRun, reduceLoop]
    split
    · rw [CW.result_bind]
      simp only [ih]
      rfl
    · rfl

theorem regionRun_result (fuel : ℕ) (mats : Tensor K) (size : ℕ) : CW.result (regionRun fuel mats size) = CM.lift (regionLoop fuel mats size) := by
  induction fuel generalizing mats size with
  | zero => rfl
  | succ fuel ih =>
    rw [regionRun, regionLoop]
    split
    · rw [CW.result_bind, CW.result_of]
      simp only [ih]
      funext g
      show CM.bind _ _ g = _
      unfold CM.bind CM.lift
      rcases regionRound mats size with e | m <;> rfl
    · rfl

theorem itemRun_result (c : Contractable K) : CW.result (itemRun c) = reduceItem c := by
  unfold itemRun reduceItem regionReduce
  split
  · rw [CW.result_bind, regionRun_result]
    rfl
  · rfl

theorem itemsRun_result (cs : List (Contractable K)) : CW.result (itemsRun cs) = reduceItems cs := by
  induction cs with
  | nil => rfl
  | cons c cs ih =>
    rw [itemsRun, reduceItems, CW.result_bind, itemRun_result]
    congr 1
    funext a
    rw [CW.result_bind, ih]
    rfl

theorem prepRun_result (cs : List (Contractable K)) (par : Bool) : CW.result (prepRun cs par) = prepItems cs par := by
  unfold prepRun prepItems
  split
  · exact itemsRun_result cs
  · rfl

theorem listRun_result (cs : List (Contractable K)) (par : Bool) : CW.result (listRun cs par) = reduceList cs par := by
  unfold listRun reduceList
  rw [CW.result_bind, prepRun_result]
  congr 1
  funext items
  rw [CW.result_bind, reduceRun_result]
  congr 1
  funext res
  cases res <;> rfl

theorem modulesRun_result (x : Tensor K) (ind : ℕ) (ms : List (Module K)) : CW.result (modulesRun x ind ms) = runModules x ind ms := by
  induction ms generalizing ind with
  | nil => rfl
  | cons m ms ih =>
    rw [modulesRun, runModules, CW.result_bind, CW.result_of]
    congr 1
    funext c
    rw [CW.result_bind, ih]
    rfl

/-- work of the loop of `ContractableList.reduce` -/
def reduceWork (fuel : ℕ) (cs : List (Contractable K)) (g : Option ℕ) : Work := CW.work (reduceRun fuel cs) g
/-- work of `item.reduce()` -/
def itemWork (c : Contractable K) (g : Option ℕ) : Work := CW.work (itemRun c) g
/-- work of the reduction of all items -/
def itemsWork (cs : List (Contractable K)) (g : Option ℕ) : Work := CW.work (itemsRun cs) g
/-- work of `ContractableList.reduce` -/
def listWork (cs : List (Contractable K)) (par : Bool) (g : Option ℕ) : Work := CW.work (listRun cs par) g
/-- work of the rounds of `MatRegion.reduce` -/
def regionWork (fuel : ℕ) (mats : Tensor K) (size : ℕ) (g : Option ℕ) : Work := CW.work (regionRun fuel mats size) g

theorem listWork_eq (cs items : List (Contractable K)) (par : Bool) (g g' : Option ℕ) (h : prepItems cs par g = (.ok items, g')) :
    listWork cs par g = CW.work (prepRun cs par) g + reduceWork items.length items g' := by
  unfold listWork listRun
  rw [CW.work_bind _ _ _ _ _ (by rw [prepRun_result]; exact h), CW.work_bind_zero]
  · rfl
  · intro a g'
    unfold pickResult
    cases a <;> rfl

theorem lastWork_snoc (as : List (Contractable K)) (x r : Contractable K) : lastWork (as ++ [x, r]) = starWork x r := by
  induction as with
  | nil => simp only [List.nil_append, lastWork]
  | cons a as ih =>
    cases as with
    | nil => simp only [List.cons_append, List.nil_append, lastWork]
    | cons a' as =>
      cases as with
      | nil => simp only [List.cons_append, List.nil_append, lastWork]
      | cons a'' as =>
        simp only [List.cons_append, lastWork] at ih ⊢
        exact ih

theorem reduceWork_last (n : ℕ) (as : List (Contractable K)) (x r c : Contractable K) (g g' : Option ℕ)
    (h : star x r g = (.ok c, g')) : reduceWork (n + 1) (as ++ [x, r]) g = starWork x r + reduceWork n (as ++ [c]) g' := by
  have h1 := mulLast_ok as x r c g g' h
  have h2 : CM.exceptType (mulLast (as ++ [x, r])) (mulFirst (as ++ [x, r])) g = (.ok (as ++ [c]), g') := by
    unfold CM.exceptType
    rw [h1]
  unfold reduceWork
  rw [reduceRun, if_pos (by simp), CW.work_bind _ _ _ _ _ (show CW.result (roundRun _) g = _ from h2)]
  congr 1
  show roundWork _ _ = _
  unfold roundWork
  rw [h1]
  exact lastWork_snoc as x r

theorem reduceWork_first (n : ℕ) (cs as : List (Contractable K)) (x r y z c : Contractable K)
    (bs : List (Contractable K)) (g g' : Option ℕ)
    (he : cs = as ++ [x, r]) (hf : cs = y :: z :: bs) (h : star x r g = (.error .type, g)) (h2 : star y z g = (.ok c, g')) :
    reduceWork (n + 1) cs g = starWork y z + reduceWork n (c :: bs) g' := by
  have h1 : mulLast cs g = (.error .type, g) := by rw [he]; exact mulLast_err as x r g g _ h
  have h3 : CM.exceptType (mulLast cs) (mulFirst cs) g = (.ok (c :: bs), g') := by
    unfold CM.exceptType
    rw [h1]
    show mulFirst cs g = _
    rw [hf]
    simp only [mulFirst]
    rw [CM.bind_ok h2]; rfl
  unfold reduceWork
  rw [reduceRun, if_pos (by rw [hf]; simp), CW.work_bind _ _ _ _ _ (show CW.result (roundRun _) g = _ from h3)]
  congr 1
  show roundWork _ _ = _
  unfold roundWork
  rw [h1, hf]
  rfl

theorem reduceWork_one (n : ℕ) (c : Contractable K) (g : Option ℕ) : reduceWork n [c] g = (0, 0) := by
  cases n with
  | zero => rfl
  | succ n => unfold reduceWork; rw [reduceRun, if_neg (by simp)]; rfl

/-- the tree of products within a region -/
theorem regionWork_ok (fuel : ℕ) (t : Tensor K) (B n D : ℕ) (ht : t.shape = [B, n, D, D]) (hn : 1 ≤ n) (hf : n ≤ fuel) (g : Option ℕ) :
    regionWork fuel t n g = ((n - 1) * (B * D ^ 3), Nat.clog 2 n) := by
  induction fuel generalizing t n with
  | zero => omega
  | succ fuel ih =>
    unfold regionWork at ih ⊢
    rw [regionRun]
    by_cases h : 1 < n
    · obtain ⟨t', e1, e2, _⟩ := regionRound_ok t B n D ht
      have e1' : CW.result (CW.of (pairsWork t n) (CM.lift (regionRound t n))) g = (.ok t', g) := by rw [e1]; rfl
      rw [if_pos h, CW.work_bind _ _ _ _ _ e1']
      show pairsWork t n + _ = _
      unfold pairsWork
      rw [ih t' (n / 2 + n % 2) e2 (by omega) (by omega), einsumWork_ok (szOf B 1 D (n / 2)) _ _ (by simp [Tensor.sliceAx, ht, szOf]),
        show ([['b', 's', 'l', 'u'], ['b', 's', 'u', 'r']] : List (List Char)).flatten.dedup = ['l', 'b', 's', 'u', 'r'] by decide]
      rw [Prod.mk_add_mk]
      refine Prod.ext ?_ ?_
      · simp only [szOf, List.map_cons, List.map_nil, List.prod_cons, List.prod_nil]
        simp
        have : n - 1 = n / 2 + (n / 2 + n % 2 - 1) := by omega
        rw [this]
        ring
      · have hc : Nat.clog 2 n = Nat.clog 2 ((n + 1) / 2) + 1 := by
          rw [Nat.clog_of_two_le (by omega) (by omega)]; rfl
        have he : n / 2 + n % 2 = (n + 1) / 2 := by omega
        simp only [hc, he]
        omega
    · rw [if_neg h]
      have : n = 1 := by omega
      subst this
      simp
      rfl

variable {B O D n : ℕ} {x y : Contractable K}

theorem reduce_R (hx : IsR B O D n x) (hn : 1 ≤ n) (g : Option ℕ) :
    ∃ c, reduceItem x g = (.ok c, some B) ∧ (∀ m, IsM B O D m c) ∧ itemWork x g = ((n - 1) * (B * D ^ 3), Nat.clog 2 n) := by
  obtain ⟨c, c1, c2, c3, c4, c5, _⟩ := regionReduce_ok B x hx.piece hx.cls_eq g
  have hsh : x.tensor.shape = [B, n, D, D] := by rw [hx.shape]; simp [szOf]
  refine ⟨c, c1, ?_, ?_⟩
  · intro m
    have hs := mid_single_str B c c2 c3
    refine ⟨c2, c3, hs, ?_⟩
    intro d hd
    simp only [List.mem_cons, List.not_mem_nil, or_false] at hd
    rcases hd with rfl | rfl | rfl
    · rw [c2.batch]; simp [szOf]
    · rw [c4, hx.size _ (by simp)]; simp [szOf]
    · rw [c5, hx.size _ (by simp)]; simp [szOf]
  · unfold itemWork itemRun
    rw [if_pos hx.cls_eq, hsh, CW.work_bind_zero _ _ _ (fun _ _ => rfl)]
    exact regionWork_ok n x.tensor B n D hsh hn le_rfl g

theorem reduce_other {cls : Cls} {s : List Char} (hx : Obj B O D n cls s x) (hc : cls ≠ .matRegion) (g : Option ℕ) :
    reduceItem x g = (.ok x, g) ∧ itemWork x g = (0, 0) := by
  unfold reduceItem itemWork itemRun
  rw [hx.cls_eq, if_neg hc, if_neg hc]
  exact ⟨rfl, rfl⟩

theorem reduceItems_cons {c d : Contractable K} {cs ds : List (Contractable K)} {g g' g'' : Option ℕ} {w w' : Work} (h : reduceItem c g = (.ok d, g')) (hw : itemWork c g = w)
    (hs : reduceItems cs g' = (.ok ds, g'') ∧ itemsWork cs g' = w') : reduceItems (c :: cs) g = (.ok (d :: ds), g'') ∧ itemsWork (c :: cs) g = w + w' := by
  constructor
  · simp only [reduceItems]
    rw [CM.bind_ok h, CM.bind_ok hs.1]
    rfl
  · unfold itemsWork
    rw [itemsRun, CW.work_bind _ _ _ _ _ (by rw [itemRun_result]; exact h), CW.work_bind_zero _ _ _ (fun _ _ => rfl), ← hw, ← hs.2]
    rfl

/-! ### the modules -/

theorem forward_R (B N F D O n i : ℕ) (hn : 1 ≤ n) (hn1 : n ≠ 1) (x : Tensor K) (hx : x.shape = [B, N, F]) (t : Tensor K) (ht : t.shape = [n, D, D, F])
    (bias : Option (Tensor K)) (hf : Fits D F O (.inputRegion t bias)) (g : Option ℕ) :
    ∃ c, (Module.inputRegion t bias).forward (pickInput x i (Module.inputRegion t bias).len) g = (.ok c, some B) ∧ IsR B O D n c ∧
      (Module.inputRegion t bias).work (pickInput x i (Module.inputRegion t bias).len) = (n * (B * D ^ 2 * F), 1) := by
  obtain ⟨_, hb⟩ := hf
  have hlen : (Module.inputRegion t bias).len = n := by simp [Module.len, ht]
  obtain ⟨p1, p2⟩ := pickInput_many x B N F i n hx hn1
  rw [hlen]
  obtain ⟨y, y1, y2, y3⟩ := inputRegionMats_ok B n D F t _ bias ht p1 hb
  refine ⟨⟨.matRegion, y, ['b', 's', 'l', 'r']⟩, ?_, ⟨region_piece B n D y y2 hn, rfl, rfl, ?_⟩, ?_⟩
  · simp only [Module.forward]
    rw [y1, CM.bind_ok (CM.lift_apply _ _), mkMatRegion_ok B n D y y2]
  · intro d hd
    simp only [List.mem_cons, List.not_mem_nil, or_false] at hd
    rcases hd with rfl | rfl | rfl | rfl <;> simp [axis, y2, szOf]
  · simp only [Module.work]
    rw [einsumWork_ok (fun c => if c = 'i' then F else szOf B 1 D n c) _ _ (by simp [ht, p1, szOf]),
      show ([['s', 'l', 'r', 'i'], ['b', 's', 'i']] : List (List Char)).flatten.dedup = ['l', 'r', 'b', 's', 'i'] by decide]
    simp [szOf]
    ring

theorem forward_C (B D O n : ℕ) (x t : Tensor K) (ht : t.shape = [O, D, D]) :
    ∃ c, (Module.outputSite t).forward x (some B) = (.ok c, some B) ∧ IsC B O D n c ∧ (Module.outputSite t).work x = (0, 0) := by
  have h := mkOutputCore_expand O D D t ht B
  refine ⟨_, h, ⟨core_piece B O D D _ (by simp [ht]), rfl, rfl, ?_⟩, rfl⟩
  intro d hd
  simp only [List.mem_cons, List.not_mem_nil, or_false] at hd
  rcases hd with rfl | rfl | rfl | rfl <;> simp [axis, ht, szOf]

theorem withEnds_ok (B O D n : ℕ) (hD : 1 ≤ D) (cs : List (Contractable K)) (f l : Contractable K) (hf : cs.head? = some f) (hl : cs.getLast? = some l)
    (f1 : 'l' ∈ f.bondStr ∧ axis f 'l' = D) (l1 : 'r' ∈ l.bondStr ∧ axis l 'r' = D) :
    ∃ e r, withEnds cs (some B) = (.ok (e :: cs ++ [r]), some B) ∧ (∀ n, IsE B O D n e) ∧ ∀ n, IsV B O D n r := by
  let v : Tensor K := ⟨[D], fun idx => if idx.getD 0 0 = 0 then 1 else 0⟩
  have hv : endVec D = Except.ok v := by unfold endVec; rw [if_neg (by omega)]
  let e : Contractable K := ⟨.edgeVec, ⟨[B, D], fun idx => v.get (idx.drop 1)⟩, ['b', 'r']⟩
  let r : Contractable K := ⟨.edgeVec, ⟨[B, D], fun idx => v.get (idx.drop 1)⟩, ['b', 'l']⟩
  refine ⟨e, r, ?_, fun n => ⟨edge_piece B D true _ rfl, rfl, rfl, ?_⟩, fun n => ⟨edge_piece B D false _ rfl, rfl, rfl, ?_⟩⟩
  · unfold withEnds
    rw [hf, hl]
    simp only
    have b1 : bondSize f 'l' = .ok D := by
      unfold bondSize
      rw [if_pos f1.1]
      exact congrArg _ f1.2
    have b2 : bondSize l 'r' = .ok D := by
      unfold bondSize
      rw [if_pos l1.1]
      exact congrArg _ l1.2
    rw [b1, b2, CM.bind_ok (CM.lift_apply _ _), CM.bind_ok (CM.lift_apply _ _), hv, CM.bind_ok (CM.lift_apply _ _), CM.bind_ok (CM.lift_apply _ _)]
    rw [CM.bind_ok (mkEdgeVec_expand D true v rfl B), CM.bind_ok (mkEdgeVec_expand D false v rfl B)]
    rfl
  · intro d hd
    simp only [List.mem_cons, List.not_mem_nil, or_false] at hd
    rcases hd with rfl | rfl <;> simp [axis, e, szOf]
  · intro d hd
    simp only [List.mem_cons, List.not_mem_nil, or_false] at hd
    rcases hd with rfl | rfl <;> simp [axis, r, szOf]

theorem modulesRun_cons {x : Tensor K} {ind : ℕ} {m : Module K} {ms : List (Module K)} {g g' g'' : Option ℕ} {c : Contractable K} {cs : List (Contractable K)} {w w' : Work}
    (h : m.forward (pickInput x ind m.len) g = (.ok c, g')) (hw : m.work (pickInput x ind m.len) = w)
    (hs : modulesRun x (ind + m.len) ms g' = ((.ok cs, g''), w')) : modulesRun x ind (m :: ms) g = ((.ok (c :: cs), g''), w + w') := by
  rw [modulesRun]
  refine Prod.ext ?_ ?_
  · show CW.result (_ >>= _) g = _
    rw [CW.result_bind, CW.result_of, CM.bind_ok h, CW.result_bind]
    rw [CM.bind_ok (show CW.result (modulesRun x (ind + m.len) ms) g' = (.ok cs, g'') from congrArg Prod.fst hs)]
    rfl
  · show CW.work (_ >>= _) g = _
    rw [CW.work_bind _ _ _ _ _ (by rw [CW.result_of]; exact h), CW.work_bind_zero _ _ _ (fun _ _ => rfl)]
    show m.work _ + CW.work (modulesRun x (ind + m.len) ms) g' = _
    rw [hw]
    exact congrArg (w + ·) (congrArg Prod.snd hs)

/-- the list `withEnds` is what the model of the open contraction reduces -/
theorem closeOpen_withEnds (cs : List (Contractable K)) (par : Bool) (g : Option ℕ) :
    closeOpen cs par g = (withEnds cs >>= fun l => reduceList l par >>= fun c => (pure c.1.tensor : CM (Tensor K))) g := by
  have assoc : ∀ {α β γ : Type} (x : CM α) (f : α → CM β) (h : β → CM γ), ((x >>= f) >>= h) = (x >>= fun a => f a >>= h) := by
    intro α β γ x f h
    funext g
    show CM.bind (CM.bind x f) h g = CM.bind x (fun a => CM.bind (f a) h) g
    unfold CM.bind
    rcases x g with ⟨_ | _, _⟩ <;> rfl
  unfold closeOpen withEnds
  cases hf : cs.head? with
  | none => simp only; rfl
  | some f =>
    cases hl : cs.getLast? with
    | none => simp only; rfl
    | some l =>
      simp only [assoc]
      rfl

end TorchMPS
