import Verif.Lemmas.AdChain
/-
Merging: `mergeList` turns an unmerged chain into the merged one.
-/
namespace TorchMPS
open Spec
variable {K : Type}

theorem forall2_split {α β : Type} {R : α → β → Prop} {x y : List α} {l : List β} (h : List.Forall₂ R (x ++ y) l) :
    ∃ l1 l2, List.Forall₂ R x l1 ∧ List.Forall₂ R y l2 ∧ l = l1 ++ l2 := by
  induction x generalizing l with
  | nil => exact ⟨[], l, .nil, h, rfl⟩
  | cons a x ih =>
    cases h with
    | cons h1 h2 =>
      obtain ⟨l1, l2, g1, g2, rfl⟩ := ih h2
      exact ⟨_ :: l1, l2, .cons h1 g1, g2, rfl⟩

theorem forall2_mem {α β : Type} {R : α → β → Prop} {x : List α} {l : List β} (h : List.Forall₂ R x l) (b : β) (hb : b ∈ l) :
    ∃ a ∈ x, R a b := by
  induction h with
  | nil => simp at hb
  | cons g1 g2 ih =>
    rcases List.mem_cons.1 hb with rfl | hb
    · exact ⟨_, by simp, g1⟩
    · obtain ⟨κ, q1, q2⟩ := ih hb
      exact ⟨κ, by simp [q1], q2⟩

/-- the module holds what its kind says -/
def Fit [CommSemiring K] (D F O : ℕ) (a : Cores K) (κ : Kind) (m : Module K) : Prop := κ.Shaped D F O m ∧ κ.Holds D F O a m

/-- the kinds an input region is turned into -/
def regionKinds (off i len : ℕ) : List Kind :=
  (if off = 1 then [.site i] else []) ++ (if 2 ≤ len - off then [.pairs (i + off) ((len - off) / 2)] else []) ++
    (if (len - off) % 2 = 1 then [.site (i + len - 1)] else [])

/-- the kind of the merged pairs, if any -/
def pairsKind (i c : ℕ) : List Kind := if c = 0 then [] else [.pairs i c]

theorem mergeEven_ok [CommSemiring K] (D F O : ℕ) (a : Cores K) (i c : ℕ) (t : Tensor K) (hsh : t.shape = [2 * c, D, D, F])
    (hv : ∀ s < 2 * c, ∀ l < D, ∀ r < D, ∀ f < F, t.get [s, l, r, f] = a.A (i + s) l r f) :
    ∃ o, mergeEven t = .ok o ∧ List.Forall₂ (Fit D F O a) (pairsKind i c) o.toList := by
  unfold mergeEven pairsKind
  simp only [hsh, List.getD_cons_zero]
  by_cases hc : c = 0
  · rw [if_pos (by omega), if_pos hc]
    exact ⟨none, rfl, by simp⟩
  · rw [if_neg (by omega), if_neg hc]
    rw [assert_true _ (by omega)]
    simp only [bind_ok_except]
    have n1 : 2 * c / 2 = c := by omega
    have n2 : (2 * c + 1) / 2 = c := by omega
    rw [n1, n2]
    obtain ⟨p, h1, h2, h3⟩ := einsum_ok (K := K)
      (fun c' => if c' = 's' then c else if c' = 'i' ∨ c' = 'j' then F else D)
      [['s', 'l', 'u', 'i'], ['s', 'u', 'r', 'j']] ['s', 'l', 'r', 'i', 'j'] [t.sliceAx 0 0 2 c, t.sliceAx 0 1 2 c] rfl
      (by simp [hsh, Tensor.sliceAx]) (by decide) (by decide)
    have h2' : p.shape = [c, D, D, F, F] := by rw [h2]; rfl
    rw [h1]
    simp only [bind_ok_except]
    have : mkMergedInput p = .ok (.mergedInput p) := by
      unfold mkMergedInput
      rw [assert_true _ (by simp [Tensor.ndim, h2']), assert_true _ (by simp [h2']), assert_true _ (by simp [h2'])]
      rfl
    rw [this]
    refine ⟨some (.mergedInput p), rfl, ?_⟩
    simp only [Option.toList_some]
    refine .cons ⟨h2', ?_⟩ .nil
    intro s hs l hl r hr f hf f' hf'
    have e1 : ([['s', 'l', 'u', 'i'], ['s', 'u', 'r', 'j']].flatten.dedup).filter (fun c => c ∉ ['s', 'l', 'r', 'i', 'j']) = ['u'] := by
      decide
    rw [h3 _ (by simp [hs, hl, hr, hf, hf']), e1]
    simp only [sumOver]
    refine Finset.sum_congr (by simp) ?_
    intro u hu
    have hu : u < D := by simpa using hu
    simp [Env.ofOut, Env.set, Tensor.sliceAx]
    rw [hv (2 * s) (by omega) l hl u hu f hf, hv (1 + 2 * s) (by omega) u hu r hr f' hf']
    rw [show i + (1 + 2 * s) = i + 2 * s + 1 by ring]

theorem select_fit [CommSemiring K] (D F O : ℕ) (a : Cores K) (i len s : ℕ) (t : Tensor K) (hsh : t.shape = [len, D, D, F])
    (hv : ∀ s < len, ∀ l < D, ∀ r < D, ∀ f < F, t.get [s, l, r, f] = a.A (i + s) l r f) (hs : s < len) :
    Fit D F O a (.site (i + s)) (.inputSite (t.select 0 s)) := by
  refine ⟨by simp [Kind.Shaped, Tensor.select, hsh], ?_⟩
  intro l hl r hr f hf
  simp [Tensor.select, hv s hs l hl r hr f hf]

theorem pairsKind_eq (i q : ℕ) : (if 2 ≤ q then [Kind.pairs i (q / 2)] else []) = pairsKind i (q / 2) := by
  unfold pairsKind
  by_cases h : 2 ≤ q
  · rw [if_pos h, if_neg (by omega)]
  · rw [if_neg h, if_pos (by omega)]

theorem regionMerge_ok [CommSemiring K] (D F O : ℕ) (a : Cores K) (i len off : ℕ) (hoff : off ≤ 1) (hlen : 1 ≤ len) (t : Tensor K)
    (hsh : t.shape = [len, D, D, F])
    (hv : ∀ s < len, ∀ l < D, ∀ r < D, ∀ f < F, t.get [s, l, r, f] = a.A (i + s) l r f) :
    ∃ l, regionMerge t off = .ok l ∧ List.Forall₂ (Fit D F O a) (regionKinds off i len) l := by
  have hslice : ∀ st c, st + 2 * c ≤ len → ∃ o, mergeEven (t.sliceAx 0 st 1 (2 * c)) = .ok o ∧
      List.Forall₂ (Fit D F O a) (pairsKind (i + st) c) o.toList := by
    intro st c hst
    refine mergeEven_ok D F O a (i + st) c _ (by simp [Tensor.sliceAx, hsh]) ?_
    intro s hs l hl r hr f hf
    simp only [Tensor.sliceAx, List.getD_cons_zero, List.set_cons_zero]
    rw [hv _ (by omega) l hl r hr f hf, one_mul, add_assoc]
  unfold regionMerge regionKinds
  simp only [hsh, List.getD_cons_zero]
  rw [if_neg (by omega), pairsKind_eq]
  have h01 : off = 0 ∨ off = 1 := by omega
  rcases Nat.mod_two_eq_zero_or_one len with hpar | hpar <;> rcases h01 with rfl | rfl
  · rw [if_neg (by omega), if_neg (by omega), if_neg (by omega), if_neg (by omega), if_neg (by omega)]
    obtain ⟨o, h1, h2⟩ := mergeEven_ok D F O a i (len / 2) t (by rw [hsh, show 2 * (len / 2) = len by omega])
      (fun s hs => hv s (by omega))
    rw [h1]
    exact ⟨_, rfl, by simpa using h2⟩
  · rw [if_neg (by omega), if_pos rfl, if_pos rfl, if_pos (by omega)]
    obtain ⟨o, h1, h2⟩ := hslice 1 ((len - 2) / 2) (by omega)
    rw [show 2 * ((len - 2) / 2) = len - 2 by omega] at h1
    rw [h1]
    refine ⟨_, rfl, ?_⟩
    simp only [List.cons_append, List.nil_append]
    refine .cons (by simpa using select_fit D F O a i len 0 t hsh hv (by omega)) ?_
    rw [show (len - 2) / 2 = (len - 1) / 2 by omega] at h2
    refine List.rel_append h2 (.cons ?_ .nil)
    have := select_fit D F O a i len (len - 1) t hsh hv (by omega)
    rwa [show i + (len - 1) = i + len - 1 by omega] at this
  · rw [if_neg (by omega), if_neg (by omega), if_pos (by omega), if_neg (by omega), if_pos (by omega)]
    obtain ⟨o, h1, h2⟩ := hslice 0 ((len - 1) / 2) (by omega)
    rw [show 2 * ((len - 1) / 2) = len - 1 by omega] at h1
    rw [h1]
    refine ⟨_, rfl, ?_⟩
    simp only [List.nil_append]
    rw [show (len - 1) / 2 = (len - 0) / 2 by omega] at h2
    refine List.rel_append h2 (.cons ?_ .nil)
    have := select_fit D F O a i len (len - 1) t hsh hv (by omega)
    rwa [show i + (len - 1) = i + len - 1 by omega] at this
  · rw [if_pos (by omega), if_pos rfl, if_neg (by omega)]
    obtain ⟨o, h1, h2⟩ := hslice 1 ((len - 1) / 2) (by omega)
    rw [show 2 * ((len - 1) / 2) = len - 1 by omega] at h1
    rw [h1]
    refine ⟨_, rfl, ?_⟩
    simp only [List.cons_append, List.nil_append, List.append_nil]
    exact .cons (by simpa using select_fit D F O a i len 0 t hsh hv (by omega)) h2

/-- the kinds of the part of the chain before or after the output core -/
def partKinds (off i len : ℕ) : List Kind := if len = 0 then [] else regionKinds off i len

theorem regionKinds_one (off i : ℕ) (hoff : off ≤ 1) : regionKinds off i 1 = [.site i] := by
  have h01 : off = 0 ∨ off = 1 := by omega
  rcases h01 with rfl | rfl <;> simp [regionKinds]

/-- what a part becomes, and then the rest -/
theorem internalMerge_part [CommSemiring K] (D F O : ℕ) (a : Cores K) (i len s : ℕ) (P rest : List (Module K)) (hp : Part D F a i len P) :
    ∃ l, List.Forall₂ (Fit D F O a) (partKinds (s % 2) i len) l ∧
      internalMerge s (P ++ rest) = (internalMerge (s + len) rest).map (l ++ ·) := by
  have hs : s % 2 ≤ 1 := by omega
  cases hp with
  | none => exact ⟨[], .nil, by simp; cases internalMerge s rest <;> rfl⟩
  | site h =>
    obtain ⟨t, rfl, h2, h3⟩ := h
    refine ⟨[.inputSite t], ?_, ?_⟩
    · unfold partKinds
      rw [if_neg (by decide), regionKinds_one _ _ hs]
      exact .cons ⟨h2, h3⟩ .nil
    · simp only [List.cons_append, List.nil_append, internalMerge, Module.coreLen]
      cases internalMerge (s + 1) rest <;> rfl
  | region h =>
    obtain ⟨hl, t, b, rfl, h2, h3⟩ := h
    obtain ⟨l, k1, k2⟩ := regionMerge_ok D F O a i len (s % 2) hs hl t h2 h3
    refine ⟨l, ?_, ?_⟩
    · unfold partKinds
      rw [if_neg (by omega)]
      exact k2
    · simp only [List.cons_append, List.nil_append, internalMerge, Module.coreLen, h2, List.getD_cons_zero]
      rw [k1]
      cases internalMerge (s + len) rest <;> rfl

theorem internalMerge_chain [CommSemiring K] (D F O k n p : ℕ) (a : Cores K) (ms : List (Module K)) (h : Unmerged D F O k n a ms) :
    ∃ l, internalMerge p ms = .ok l ∧
      List.Forall₂ (Fit D F O a) (partKinds (p % 2) 0 k ++ .out :: partKinds ((p + k + 1) % 2) k (n - k)) l := by
  obtain ⟨L, m, R, rfl, h1, ⟨t, rfl, ht, hv⟩, h3⟩ := h
  obtain ⟨l1, a1, a2⟩ := internalMerge_part D F O a 0 k p L (.outputSite t :: R) h1
  obtain ⟨l2, b1, b2⟩ := internalMerge_part D F O a k (n - k) (p + k + 1) R [] h3
  rw [List.append_nil] at b2
  refine ⟨l1 ++ .outputSite t :: l2, ?_, ?_⟩
  · rw [a2]
    simp only [internalMerge, Module.coreLen, b2]
    show Except.map _ (Except.map _ (Except.ok [] ) >>= _) = _
    simp [Except.map]
  · exact List.rel_append a1 (.cons ⟨ht, hv⟩ b1)

/-- modules which never combine with each other when merging -/
def Module.isInput : Module K → Bool
  | .inputSite _ => true
  | .mergedInput _ => true
  | _ => false

/-- modules which never combine when merging unless next to an output core -/
def Module.isOutSite : Module K → Bool
  | .outputSite _ => true
  | _ => false

/-- bare pixel cores -/
def Module.isBare : Module K → Bool
  | .inputSite _ => true
  | _ => false

/-- number of cores of a list of modules -/
def coresLen (ms : List (Module K)) : ℕ := (ms.map Module.coreLen).sum

theorem combine_none_right [CommSemiring K] (a b : Module K) (ha : a.isOutSite = false) (hb : b.isOutSite = false) :
    combineCores true a b = .ok none := by
  cases a <;> cases b <;> first | rfl | simp [Module.isOutSite] at ha hb

theorem combine_none_bare [CommSemiring K] (a b : Module K) (ha : a.isBare = false) (hb : b.isBare = false) :
    combineCores true a b = .ok none := by
  cases a <;> cases b <;> first | rfl | simp [Module.isBare] at ha hb

theorem sweepRest_noOut [CommSemiring K] (p : ℕ) (ms : List (Module K)) (h : ∀ m ∈ ms, m.isOutSite = false) (s : ℕ) :
    sweepRest true p s ms = .ok ms := by
  induction ms generalizing s with
  | nil => rfl
  | cons a ms ih =>
    cases ms with
    | nil => rfl
    | cons b rest =>
      simp only [sweepRest]
      rw [combine_none_right a b (h a (by simp)) (h b (by simp))]
      simp only [bind_ok_except]
      rw [ih (fun m hm => h m (by simp [hm]))]
      rfl

/-- a stretch of modules before `b` is not changed, unless its last one can be merged with `b` -/
theorem sweepRest_pre [CommSemiring K] (p s : ℕ) (L : List (Module K)) (b : Module K) (T : List (Module K)) (hL : ∀ m ∈ L, m.isOutSite = false)
    (hlast : ∀ m ∈ L.getLast?, ∃ c, combineCores true m b = .ok c ∧ (c = none ∨ (s + coresLen L - m.coreLen) % 2 ≠ p)) :
    sweepRest true p s (L ++ b :: T) = (sweepRest true p (s + coresLen L) (b :: T)).map (L ++ ·) := by
  induction L generalizing s with
  | nil =>
    simp only [List.nil_append, coresLen, List.map_nil, List.sum_nil, Nat.add_zero]
    cases sweepRest true p s (b :: T) <;> rfl
  | cons x L ih =>
    cases L with
    | nil =>
      obtain ⟨c, h1, h2⟩ := hlast x (by simp)
      simp only [List.cons_append, List.nil_append, sweepRest, coresLen, List.map_cons, List.map_nil, List.sum_cons, List.sum_nil, Nat.add_zero]
      rw [h1]
      simp only [bind_ok_except]
      have hne : c ≠ none → p ≠ s % 2 := by
        intro hc
        have := h2.resolve_left hc
        simp only [coresLen, List.map_cons, List.map_nil, List.sum_cons, List.sum_nil, Nat.add_zero, Nat.add_sub_cancel] at this
        omega
      cases c with
      | none =>
        simp only
        cases sweepRest true p (s + x.coreLen) (b :: T) <;> rfl
      | some c =>
        simp only
        rw [if_pos ⟨trivial, hne (by simp)⟩]
        cases sweepRest true p (s + x.coreLen) (b :: T) <;> rfl
    | cons y L =>
      simp only [List.cons_append, sweepRest]
      rw [combine_none_right x y (hL x (by simp)) (hL y (by simp))]
      simp only [bind_ok_except]
      have h1 := ih (s + x.coreLen) (fun m hm => hL m (by simp [hm])) (by
        intro m hm
        obtain ⟨c, h1, h2⟩ := hlast m (by simpa using hm)
        refine ⟨c, h1, h2.imp id ?_⟩
        intro h
        have : s + x.coreLen + coresLen (y :: L) = s + coresLen (x :: y :: L) := by
          simp [coresLen, add_assoc]
        rw [this]
        exact h)
      rw [List.cons_append] at h1
      rw [h1]
      have : s + x.coreLen + coresLen (y :: L) = s + coresLen (x :: y :: L) := by
        simp [coresLen, add_assoc]
      rw [this]
      cases sweepRest true p (s + coresLen (x :: y :: L)) (b :: T) <;> rfl

theorem combine_out_left [CommSemiring K] (D F O : ℕ) (a : Cores K) (i : ℕ) (x y : Module K) (hx : Fit D F O a .out x) (hy : Fit D F O a (.site i) y) :
    ∃ m, combineCores true x y = .ok (some m) ∧ Fit D F O a (.mout i true) m := by
  obtain ⟨h1, h2⟩ := hx
  obtain ⟨k1, k2⟩ := hy
  cases x <;> first | exact h1.elim | skip
  cases y <;> first | exact k1.elim | skip
  rename_i x y
  have h1 : x.shape = [O, D, D] := h1
  have k1 : y.shape = [D, D, F] := k1
  obtain ⟨p, e1, e2, e3⟩ := einsum_ok (K := K)
    (fun c' => if c' = 'o' then O else if c' = 'i' then F else D)
    [['o', 'l', 'u'], ['u', 'r', 'i']] ['o', 'l', 'r', 'i'] [x, y] rfl
    (by simp [h1, k1]) (by decide) (by decide)
  have e2' : p.shape = [O, D, D, F] := by rw [e2]; rfl
  refine ⟨.mergedOutput p true, ?_, ⟨rfl, e2'⟩, ?_⟩
  · simp only [combineCores]
    rw [e1]
    simp only [bind_ok_except, mkMergedOutput]
    rw [assert_true _ (by simp [Tensor.ndim, e2'])]
    rfl
  · intro o ho l hl r hr f hf
    have h3 : ([['o', 'l', 'u'], ['u', 'r', 'i']].flatten.dedup).filter (fun c => c ∉ ['o', 'l', 'r', 'i']) = ['u'] := by decide
    rw [e3 _ (by simp [ho, hl, hr, hf]), h3]
    simp only [sumOver]
    refine Finset.sum_congr (by simp) ?_
    intro u hu
    have hu : u < D := by simpa using hu
    simp [Env.ofOut, Env.set]
    rw [h2 o ho l hl u hu, k2 u hu r hr f hf]

theorem combine_out_right [CommSemiring K] (D F O : ℕ) (a : Cores K) (i : ℕ) (x y : Module K) (hx : Fit D F O a (.site i) x) (hy : Fit D F O a .out y) :
    ∃ m, combineCores true x y = .ok (some m) ∧ Fit D F O a (.mout i false) m := by
  obtain ⟨h1, h2⟩ := hx
  obtain ⟨k1, k2⟩ := hy
  cases x <;> first | exact h1.elim | skip
  cases y <;> first | exact k1.elim | skip
  rename_i x y
  have h1 : x.shape = [D, D, F] := h1
  have k1 : y.shape = [O, D, D] := k1
  obtain ⟨p, e1, e2, e3⟩ := einsum_ok (K := K)
    (fun c' => if c' = 'o' then O else if c' = 'i' then F else D)
    [['l', 'u', 'i'], ['o', 'u', 'r']] ['o', 'l', 'r', 'i'] [x, y] rfl
    (by simp [h1, k1]) (by decide) (by decide)
  have e2' : p.shape = [O, D, D, F] := by rw [e2]; rfl
  refine ⟨.mergedOutput p false, ?_, ⟨rfl, e2'⟩, ?_⟩
  · simp only [combineCores]
    rw [e1]
    simp only [bind_ok_except, mkMergedOutput]
    rw [assert_true _ (by simp [Tensor.ndim, e2'])]
    rfl
  · intro o ho l hl r hr f hf
    have h3 : ([['l', 'u', 'i'], ['o', 'u', 'r']].flatten.dedup).filter (fun c => c ∉ ['o', 'l', 'r', 'i']) = ['u'] := by decide
    rw [e3 _ (by simp [ho, hl, hr, hf]), h3]
    simp only [sumOver]
    refine Finset.sum_congr (by simp) ?_
    intro u hu
    have hu : u < D := by simpa using hu
    simp [Env.ofOut, Env.set]
    rw [h2 l hl u hu f hf, k2 o ho u hu r hr]

/-- kinds of pixel modules -/
def Kind.isIn : Kind → Bool
  | .site _ => true
  | .pairs _ _ => true
  | _ => false

theorem fit_noOut [CommSemiring K] (D F O : ℕ) (a : Cores K) (κ : Kind) (m : Module K) (h : Fit D F O a κ m) (hk : κ ≠ .out) : m.isOutSite = false := by
  cases κ <;> cases m <;> first | exact h.1.elim | rfl | exact absurd rfl hk

theorem fits_noOut [CommSemiring K] (D F O : ℕ) (a : Cores K) (ks : List Kind) (ms : List (Module K)) (h : List.Forall₂ (Fit D F O a) ks ms)
    (hk : ∀ κ ∈ ks, κ ≠ .out) : ∀ m ∈ ms, m.isOutSite = false := by
  induction h with
  | nil => simp
  | cons h1 _ ih =>
    intro m hm
    rcases List.mem_cons.1 hm with rfl | hm
    · exact fit_noOut D F O a _ _ h1 (hk _ (by simp))
    · exact ih (fun κ hκ => hk κ (by simp [hκ])) m hm

theorem fits_cores [CommSemiring K] (D F O : ℕ) (a : Cores K) (ks : List Kind) (ms : List (Module K)) (h : List.Forall₂ (Fit D F O a) ks ms) :
    coresLen ms = (ks.map Kind.cores).sum := by
  induction h with
  | nil => rfl
  | cons h1 _ ih =>
    simp only [coresLen, List.map_cons, List.sum_cons] at ih ⊢
    rw [ih, (shaped_len D F O _ _ h1.1).2]

theorem partKinds_in (off i len : ℕ) : ∀ κ ∈ partKinds off i len, κ ≠ .out := by
  unfold partKinds regionKinds
  split_ifs <;> simp

theorem leftKinds_in (p q : ℕ) : ∀ κ ∈ leftKinds p q, κ ≠ .out := by
  unfold leftKinds
  split_ifs <;> simp

theorem rightKinds_in (i q : ℕ) : ∀ κ ∈ rightKinds i q, κ ≠ .out := by
  unfold rightKinds
  split_ifs <;> simp

theorem leftKinds_cores (p q : ℕ) (hp : p ≤ 1) (hq : q % 2 = p) : ((leftKinds p q).map Kind.cores).sum = q := by
  unfold leftKinds
  split_ifs <;> simp [Kind.cores] <;> omega

theorem partKinds_even (p k : ℕ) (hp : p ≤ 1) (hq : k % 2 = p) : partKinds p 0 k = leftKinds p k := by
  unfold partKinds regionKinds leftKinds
  by_cases h : k = 0
  · rw [if_pos h, if_neg (by omega), if_neg (by omega)]; rfl
  · rw [if_neg h, if_neg (c := (k - p) % 2 = 1) (by omega)]
    simp

theorem partKinds_odd (p k : ℕ) (hp : p ≤ 1) (hk : k ≠ 0) (hq : k % 2 ≠ p) : partKinds p 0 k = leftKinds p (k - 1) ++ [.site (k - 1)] := by
  unfold partKinds regionKinds leftKinds
  rw [if_neg hk, if_pos (c := (k - p) % 2 = 1) (by omega)]
  simp only [zero_add]
  congr 2
  by_cases h : 2 ≤ k - p
  · rw [if_pos h, if_pos (by omega), show (k - p) / 2 = (k - 1 - p) / 2 by omega]
  · rw [if_neg h, if_neg (by omega)]

theorem partKinds_zero (i q : ℕ) : partKinds 0 i q = rightKinds i q := by
  unfold partKinds regionKinds rightKinds
  by_cases h : q = 0
  · subst h; rfl
  · rw [if_neg h]
    simp

theorem partKinds_one (i q : ℕ) (hq : q ≠ 0) : partKinds 1 i q = .site i :: rightKinds (i + 1) (q - 1) := by
  unfold partKinds regionKinds rightKinds
  rw [if_neg hq, if_pos rfl]
  simp only [List.cons_append, List.nil_append]
  congr 4
  congr 1
  omega

theorem layout_length (p k n : ℕ) (hk : k ≤ n) (hp : p ≤ 1) (hn : 2 ≤ n) : 2 ≤ (layout p k n).length := by
  unfold layout leftKinds rightKinds
  split_ifs <;> simp <;> omega

/-- the first pass -/
theorem sweep_chain [CommSemiring K] (D F O p k n : ℕ) (hp : p ≤ 1) (hk : k ≤ n) (a : Cores K) (l : List (Module K))
    (h : List.Forall₂ (Fit D F O a) (partKinds (p % 2) 0 k ++ .out :: partKinds ((p + k + 1) % 2) k (n - k)) l) :
    ∃ l', sweepRest true p 0 l = .ok l' ∧ List.Forall₂ (Fit D F O a) (layout p k n) l' ∧
      (l'.length = l.length → l' = l) ∧ (l'.length ≠ l.length → ∀ m ∈ l', m.isOutSite = false) := by
  have hpm : p % 2 = p := by omega
  rw [hpm] at h
  by_cases hpar : k % 2 = p
  · rw [partKinds_even p k hp hpar, show (p + k + 1) % 2 = 1 by omega] at h
    have hlay : layout p k n = leftKinds p k ++ (if k < n then .mout k true :: rightKinds (k + 1) (n - k - 1) else [.out]) := if_pos hpar
    obtain ⟨L, R, hL, hR, rfl⟩ := forall2_split h
    cases hR with
    | @cons κ out ks R h1 h2 =>
      have hcL : coresLen L = k := by rw [fits_cores D F O a _ _ hL, leftKinds_cores p k hp hpar]
      have hLn := fits_noOut D F O a _ _ hL (leftKinds_in p k)
      have hpre := sweepRest_pre p 0 L out R hLn (by
        intro m hm
        obtain ⟨κ, q, hκ⟩ : ∃ κ ∈ leftKinds p k, Fit D F O a κ m := by
          exact forall2_mem hL _ (List.mem_of_mem_getLast? hm)
        cases κ with
        | site i =>
          obtain ⟨c, e1, _⟩ := combine_out_right D F O a i m out hκ h1
          refine ⟨some c, e1, Or.inr ?_⟩
          rw [hcL, (shaped_len D F O _ _ hκ.1).2]
          simp only [Kind.cores]
          have : m ∈ L := List.mem_of_mem_getLast? hm
          have : 1 ≤ coresLen L := by
            have hl := (shaped_len D F O _ _ hκ.1).2
            simp only [Kind.cores] at hl
            rw [← hl]
            unfold coresLen
            exact List.single_le_sum (by simp) _ (List.mem_map_of_mem (f := Module.coreLen) this)
          omega
        | pairs i c =>
          refine ⟨none, combine_none_bare _ _ ?_ ?_, Or.inl rfl⟩
          · cases m <;> first | exact hκ.1.elim | rfl
          · cases out <;> first | exact h1.1.elim | rfl
        | out =>
          exfalso
          exact leftKinds_in p k _ q rfl
        | mout i b =>
          refine ⟨none, combine_none_bare _ _ ?_ ?_, Or.inl rfl⟩
          · cases m <;> first | exact hκ.1.elim | rfl
          · cases out <;> first | exact h1.1.elim | rfl)
      rw [hpre, hcL, zero_add, hlay]
      by_cases hkn : k < n
      · rw [partKinds_one _ _ (by omega)] at h2
        rw [if_pos hkn]
        cases h2 with
        | @cons κ y ks R g1 g2 =>
          obtain ⟨m, e1, e2⟩ := combine_out_left D F O a k out y h1 g1
          have hRn := fits_noOut D F O a _ _ g2 (rightKinds_in _ _)
          simp only [sweepRest]
          rw [e1]
          simp only [bind_ok_except]
          rw [if_neg (by omega), assert_true _ (by
            right
            rw [(shaped_len D F O _ _ e2.1).2, (shaped_len D F O _ _ h1.1).2, (shaped_len D F O _ _ g1.1).2]
            rfl)]
          simp only [bind_ok_except]
          rw [sweepRest_noOut p R hRn]
          refine ⟨L ++ m :: R, rfl, List.rel_append hL (.cons e2 g2), ?_, ?_⟩
          · simp
          · intro _ m' hm'
            simp only [List.mem_append, List.mem_cons] at hm'
            rcases hm' with hm' | rfl | hm'
            · exact hLn m' hm'
            · exact fit_noOut D F O a _ _ e2 (by simp)
            · exact hRn m' hm'
      · have : n - k = 0 := by omega
        rw [this] at h2
        rw [if_neg hkn]
        cases h2
        exact ⟨L ++ [out], rfl, List.rel_append hL (.cons h1 .nil), fun _ => rfl, fun hx => absurd rfl hx⟩
  · rw [show (p + k + 1) % 2 = 0 by omega, partKinds_zero] at h
    by_cases hk0 : k = 0
    · subst hk0
      have hlay : layout p 0 n = .out :: rightKinds 0 n := by unfold layout; rw [if_neg hpar, if_pos rfl]
      rw [hlay]
      simp only [partKinds, if_pos, List.nil_append, Nat.sub_zero] at h
      cases h with
      | @cons κ out ks R h1 h2 =>
        have hin := rightKinds_in 0 n
        have hRn := fits_noOut D F O a _ _ h2 hin
        generalize rightKinds 0 n = rk at h2 hin
        refine ⟨out :: R, ?_, .cons h1 h2, fun _ => rfl, fun hx => absurd rfl hx⟩
        cases h2 with
        | nil => rfl
        | @cons κ y ks R g1 g2 =>
          simp only [sweepRest]
          have hc : ∃ c, combineCores true out y = .ok c := by
            cases κ with
            | site i =>
              obtain ⟨m, e1, _⟩ := combine_out_left D F O a i out y h1 g1
              exact ⟨_, e1⟩
            | out => exact absurd rfl (hin _ (by simp))
            | _ =>
              refine ⟨none, combine_none_bare _ _ ?_ ?_⟩
              · cases out <;> first | exact h1.1.elim | rfl
              · cases y <;> first | exact g1.1.elim | rfl
          obtain ⟨c, e1⟩ := hc
          rw [e1]
          simp only [bind_ok_except]
          rw [sweepRest_noOut p (y :: R) hRn]
          cases c with
          | none => rfl
          | some c =>
            simp only
            rw [if_pos ⟨trivial, by simp; omega⟩]
            rfl
    · have hlay : layout p k n = leftKinds p (k - 1) ++ .mout (k - 1) false :: rightKinds k (n - k) := by
        unfold layout; rw [if_neg hpar, if_neg hk0]
      rw [hlay]
      rw [partKinds_odd p k hp hk0 hpar, List.append_assoc] at h
      obtain ⟨L, R, hL, hR, rfl⟩ := forall2_split h
      cases hR with
      | @cons κ x ks R h1 h2 =>
        cases h2 with
        | @cons κ out ks R g1 g2 =>
          have hcL : coresLen L = k - 1 := by rw [fits_cores D F O a _ _ hL, leftKinds_cores p (k - 1) hp (by omega)]
          have hLn := fits_noOut D F O a _ _ hL (leftKinds_in p (k - 1))
          have hRn := fits_noOut D F O a _ _ g2 (rightKinds_in _ _)
          obtain ⟨m, e1, e2⟩ := combine_out_right D F O a (k - 1) x out h1 g1
          rw [sweepRest_pre p 0 L x (out :: R) hLn (by
            intro m hm
            exact ⟨none, combine_none_right _ _ (hLn m (List.mem_of_mem_getLast? hm)) (fit_noOut D F O a _ _ h1 (by simp)), Or.inl rfl⟩)]
          rw [hcL, zero_add]
          simp only [sweepRest]
          rw [e1]
          simp only [bind_ok_except]
          rw [if_neg (by omega), assert_true _ (by
            right
            rw [(shaped_len D F O _ _ e2.1).2, (shaped_len D F O _ _ h1.1).2, (shaped_len D F O _ _ g1.1).2]
            rfl)]
          simp only [bind_ok_except]
          rw [sweepRest_noOut p R hRn]
          refine ⟨L ++ m :: R, rfl, List.rel_append hL (.cons e2 g2), ?_, ?_⟩
          · simp
          · intro _ m' hm'
            simp only [List.mem_append, List.mem_cons] at hm'
            rcases hm' with hm' | rfl | hm'
            · exact hLn m' hm'
            · exact fit_noOut D F O a _ _ e2 (by simp)
            · exact hRn m' hm'

/-- Merging an unmerged chain of at least two pixels gives the merged chain. -/
theorem mergeList_ok' [CommSemiring K] (D F O p k n : ℕ) (hp : p ≤ 1) (hk : k ≤ n) (hn : 2 ≤ (layout p k n).length) (a : Cores K)
    (ms : List (Module K)) (h : Unmerged D F O k n a ms) : ∃ ms', mergeList p ms = .ok ms' ∧ MergedChain D F O p k n a ms' := by
  obtain ⟨l, h1, h2⟩ := internalMerge_chain D F O k n p a ms h
  obtain ⟨l', k1, k2, k3, k4⟩ := sweep_chain D F O p k n hp hk a l h2
  refine ⟨l', ?_, k2⟩
  unfold mergeList
  rw [assert_true _ (by omega), bind_ok_except, h1, bind_ok_except]
  have hlen' : 2 ≤ l'.length := by
    rw [k2.length_eq] at hn
    exact hn
  by_cases hlen : l'.length = l.length
  · have : l' = l := k3 hlen
    subst this
    simp only [sweeps, sweep]
    rw [if_neg (by omega), k1]
    simp only [bind_ok_except]
    rfl
  · have hl2 : 2 ≤ l.length := by
      by_contra hx
      have : l' = l := by
        match l, hx with
        | [], _ => simp [sweepRest] at k1; exact (Except.ok.inj k1).symm
        | [x], _ => simp [sweepRest] at k1; exact (Except.ok.inj k1).symm
        | _ :: _ :: _, hx => simp at hx
      exact hlen (by rw [this])
    obtain ⟨f, hf⟩ : ∃ f, l.length + 1 = f + 1 + 1 := ⟨l.length - 1, by omega⟩
    rw [hf]
    simp only [sweeps, sweep]
    rw [if_neg (by omega), k1]
    simp only [bind_ok_except]
    rw [if_neg hlen, if_neg (by omega), sweepRest_noOut p l' (k4 hlen)]
    simp only [bind_ok_except]
    rfl

theorem mergeList_ok [CommSemiring K] (D F O p k n : ℕ) (hp : p ≤ 1) (hk : k ≤ n) (hn : 2 ≤ n) (a : Cores K) (ms : List (Module K))
    (h : Unmerged D F O k n a ms) : ∃ ms', mergeList p ms = .ok ms' ∧ MergedChain D F O p k n a ms' :=
  mergeList_ok' D F O p k n hp hk (layout_length p k n hk hp hn) a ms h

/-- a chain which would be merged to a single module is lost -/
theorem mergeList_lost [CommSemiring K] (D F O p k n : ℕ) (hp : p ≤ 1) (hk : k ≤ n) (hn : 1 ≤ n) (hl : (layout p k n).length = 1) (a : Cores K)
    (ms : List (Module K)) (h : Unmerged D F O k n a ms) : mergeList p ms = .ok [] := by
  obtain ⟨l, h1, h2⟩ := internalMerge_chain D F O k n p a ms h
  obtain ⟨l', k1, k2, k3, k4⟩ := sweep_chain D F O p k n hp hk a l h2
  have hlen' : l'.length = 1 := by rw [← hl, k2.length_eq]
  have hlen : 2 ≤ l.length := by
    rw [← h2.length_eq]
    have h0 : ∀ off i len, off ≤ 1 → 1 ≤ len → 1 ≤ (partKinds off i len).length := by
      intro off i len ho hq
      have : off = 0 ∨ off = 1 := by omega
      unfold partKinds regionKinds
      rcases this with rfl | rfl <;> split_ifs <;> simp <;> omega
    simp only [List.length_append, List.length_cons]
    by_cases hk0 : 1 ≤ k
    · have := h0 (p % 2) 0 k (by omega) hk0
      omega
    · have := h0 ((p + k + 1) % 2) k (n - k) (by omega) (by omega)
      omega
  obtain ⟨f, hf⟩ : ∃ f, l.length + 1 = f + 1 + 1 + 1 := ⟨l.length - 2, by omega⟩
  unfold mergeList
  rw [assert_true _ (by omega), bind_ok_except, h1, bind_ok_except, hf]
  simp only [sweeps, sweep]
  rw [if_neg (by omega), k1]
  simp only [bind_ok_except]
  rw [if_neg (by omega), if_pos (by omega)]
  simp [hlen', bind_ok_except, pure, Except.pure]

end TorchMPS
