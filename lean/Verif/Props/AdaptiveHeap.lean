import Verif.Lemmas.AdaptiveHeap
import Verif.Spec.AdaptiveHeap
import Verif.Props.AdaptiveMore
/-
C86: the optimiser keeps working on the model, whatever is merged and unmerged.
-/
namespace TorchMPS
open Spec

theorem setList_self (v : AdRegion) (p : ℕ) : v = v.setList p (v.listAt p) := by
  unfold AdRegion.setList AdRegion.listAt
  split <;> rfl

theorem forall₂_retuned_trans {l l' l'' : List (Module ℝ)} (h : List.Forall₂ Retuned l l') (h' : List.Forall₂ Retuned l' l'') : List.Forall₂ Retuned l l'' := by
  induction h generalizing l'' with
  | nil => cases h'; exact .nil
  | cons h1 _ ih =>
    cases h' with
    | cons h2 h3 => exact .cons (retuned_trans h1 h2) (ih h3)

theorem sameUsed_trans {m m' m'' : AdMps} (h : SameUsed m m') (h' : SameUsed m' m'') : SameUsed m m'' := by
  obtain ⟨hp, l, hl, rfl⟩ := h
  obtain ⟨hp', l', hl', rfl⟩ := h'
  have h01 : m.region.offset = 0 ∨ m.region.offset = 1 := by omega
  refine ⟨hp, l', forall₂_retuned_trans hl ?_, ?_⟩
  · rcases h01 with h | h <;> simpa [inactive, withInactive, AdRegion.setList, AdRegion.listAt, h] using hl'
  · rcases h01 with h | h <;> simp [withInactive, AdRegion.setList, h]

theorem embedded_iff (m : MPS ℝ) (x e : Tensor ℝ) : Embedded m x e ↔ (followPath m.path x >>= m.embedInput) = .ok e := by
  unfold Embedded
  constructor
  · rintro ⟨x1, h1, h2⟩
    rw [h1]
    exact h2
  · intro h
    cases h1 : followPath m.path x with
    | error e' => rw [h1] at h; cases h
    | ok x1 => rw [h1] at h; exact ⟨x1, rfl, h⟩

theorem forward_same' (svd : Mat ℝ → SVD) (pop : List Char → Char) (m m' : AdMps) (hs : SameUsed m m') (x : Tensor ℝ) (g : Option ℕ)
    (hf : ¬ FailedFlip m (.call x) svd pop) : SameUsed (m.forward svd pop x g).2.1 (m'.forward svd pop x g).2.1 := by
  obtain ⟨hp, l, hl, rfl⟩ := hs
  have h01 : m.region.offset = 0 ∨ m.region.offset = 1 := by omega
  unfold AdMps.forward
  have em : (withInactive m l).mps = m.mps := rfl
  rw [em]
  cases hemb : (followPath m.mps.path x >>= m.mps.embedInput) with
  | error e => exact ⟨hp, l, hl, rfl⟩
  | ok e =>
    simp only [AdRegion.maybeFlip]
    have ec : (withInactive m l).region.counter = m.region.counter ∧ (withInactive m l).region.threshold = m.region.threshold := by
      rcases h01 with h | h <;> simp [withInactive, AdRegion.setList, h]
    rw [ec.1, ec.2]
    by_cases hdue : m.region.counter ≥ m.region.threshold
    · rw [if_pos hdue, if_pos hdue]
      obtain ⟨f1, f2⟩ := flip_same svd pop m.region hp l hl
      have er : (withInactive m l).region = m.region.setList (1 - m.region.offset) l := rfl
      rw [er]
      obtain ⟨a, ra, ha⟩ : ∃ a ra, m.region.flip svd pop = (a, ra) := ⟨_, _, rfl⟩
      obtain ⟨b, rb, hb⟩ : ∃ b rb, (m.region.setList (1 - m.region.offset) l).flip svd pop = (b, rb) := ⟨_, _, rfl⟩
      rw [ha, hb] at f1 f2 ⊢
      simp only at f1 f2
      subst f1
      cases a with
      | error er => exact absurd ⟨x, e, er, rfl, (embedded_iff _ _ _).2 hemb, hdue, by rw [ha]⟩ hf
      | ok nb =>
        obtain ⟨f3, f4⟩ := f2 nb rfl
        subst f3
        simp only
        have hb1 : (withInactive m l).bondList = m.bondList ∧ (withInactive m l).svList = m.svList := ⟨rfl, rfl⟩
        rw [hb1.1, hb1.2]
        cases linearForward (AdRegion.active { ra with counter := ra.counter + e.shape.getD 0 0 }) m.mps.periodic m.mps.parallel e g with
        | mk res g' =>
          cases res with
          | error er => exact sameUsed_refl _ f4
          | ok y =>
            simp only
            split <;> exact sameUsed_refl _ f4
    · rw [if_neg hdue, if_neg hdue]
      simp only
      have ea : AdRegion.active ⟨(withInactive m l).region.list0, (withInactive m l).region.list1, (withInactive m l).region.offset,
          (withInactive m l).region.stray, (withInactive m l).region.counter + e.shape.getD 0 0, (withInactive m l).region.threshold,
          (withInactive m l).region.cutoff⟩ =
          AdRegion.active { m.region with counter := m.region.counter + e.shape.getD 0 0 } := by
        rcases h01 with h | h <;> simp [withInactive, AdRegion.setList, AdRegion.active, AdRegion.listAt, h]
      rw [ea]
      cases linearForward (AdRegion.active { m.region with counter := m.region.counter + e.shape.getD 0 0 }) m.mps.periodic m.mps.parallel e g with
      | mk res g' =>
        cases res with
        | error er =>
          refine ⟨hp, l, hl, ?_⟩
          rcases h01 with h | h <;> simp [withInactive, AdRegion.setList, h]
        | ok y =>
          refine ⟨hp, l, hl, ?_⟩
          rcases h01 with h | h <;> simp [withInactive, AdRegion.setList, h]

theorem failedFlip_same (svd : Mat ℝ → SVD) (pop : List Char → Char) (m m' : AdMps) (hs : SameUsed m m') (s : PStep) :
    FailedFlip m s svd pop ↔ FailedFlip m' s svd pop := by
  obtain ⟨hp, l, hl, rfl⟩ := hs
  have h01 : m.region.offset = 0 ∨ m.region.offset = 1 := by omega
  have f1 := (flip_same svd pop m.region hp l hl).1
  have ec : (withInactive m l).region.counter = m.region.counter ∧ (withInactive m l).region.threshold = m.region.threshold := by
    rcases h01 with h | h <;> simp [withInactive, AdRegion.setList, h]
  have er : (withInactive m l).region = m.region.setList (1 - m.region.offset) l := rfl
  unfold FailedFlip
  rw [ec.1, ec.2, er, ← f1]
  exact Iff.rfl

theorem read_region (m : HMps) : (HMps.read m).region = m.region.read := rfl

/-- one call on the object and on its value -/
theorem forward_sim (svd : Mat ℝ → SVD) (pop : List Char → Char) (m : HMps) (hg : m.region.Good) (x : Tensor ℝ) (g : Option ℕ) :
    (m.forward svd pop x g).1 = ((HMps.read m).forward svd pop x g).1 ∧ (m.forward svd pop x g).2.2 = ((HMps.read m).forward svd pop x g).2.2 ∧
    SameUsed ((HMps.read m).forward svd pop x g).2.1 (HMps.read (m.forward svd pop x g).2.1) ∧
    (m.forward svd pop x g).2.1.region.list0 = m.region.list0 ∧ (m.forward svd pop x g).2.1.region.list1 = m.region.list1 ∧
    (m.forward svd pop x g).2.1.region.Good := by
  unfold HMps.forward AdMps.forward
  have em : (HMps.read m).mps = m.mps := rfl
  rw [em, read_region]
  cases (followPath m.mps.path x >>= m.mps.embedInput) with
  | error e => exact ⟨rfl, rfl, sameUsed_refl _ hg.offset, rfl, rfl, hg⟩
  | ok e =>
    have hc : m.region.read.counter = m.region.counter ∧ m.region.read.threshold = m.region.threshold := ⟨rfl, rfl⟩
    have hbl : (HMps.read m).bondList = m.bondList ∧ (HMps.read m).svList = m.svList := ⟨rfl, rfl⟩
    simp only [HRegion.maybeFlip, AdRegion.maybeFlip, hc.1, hc.2, hbl.1, hbl.2]
    by_cases hdue : m.region.counter ≥ m.region.threshold
    · rw [if_pos hdue, if_pos hdue]
      obtain ⟨f1, f2⟩ := flip_sim svd pop m.region hg
      obtain ⟨a, ra, ha⟩ : ∃ a ra, m.region.flip svd pop = (a, ra) := ⟨_, _, rfl⟩
      obtain ⟨b, rb, hb⟩ : ∃ b rb, m.region.read.flip svd pop = (b, rb) := ⟨_, _, rfl⟩
      rw [ha, hb] at f1 f2 ⊢
      simp only at f1 f2
      subst f1
      obtain ⟨i0, i1, gd, ⟨l, l1, l2⟩, ofs⟩ := f2
      have h01 : rb.offset = 0 ∨ rb.offset = 1 := by omega
      cases a with
      | error er => exact ⟨rfl, rfl, ⟨ofs, l, l1, by simp only [withInactive, HMps.read]; rw [← l2]; rfl⟩, i0, i1, gd⟩
      | ok nb =>
        simp only
        have hact : ∀ c, HRegion.active { ra with counter := c } = ra.active := fun c => rfl
        have hact' : ∀ c, AdRegion.active { rb with counter := c } = rb.active := fun c => rfl
        have hstray : ra.read.active = rb.active := by
          rw [l2]
          unfold AdRegion.active AdRegion.setList AdRegion.listAt
          rcases h01 with h | h <;> simp [h]
        rw [hact, hact', ← read_active, hstray]
        have hcnt : ra.counter = rb.counter := by
          have : ra.read.counter = rb.counter := by
            rw [l2]
            unfold AdRegion.setList
            rcases h01 with h | h <;> simp [h]
          exact this
        have key : ∀ (mps : MPS ℝ) (bl : List ℕ) (sl : List (Tensor ℝ)), SameUsed ⟨mps, { rb with counter := rb.counter + e.shape.getD 0 0 }, bl, sl⟩
            (HMps.read ⟨mps, { ra with counter := ra.counter + e.shape.getD 0 0 }, bl, sl⟩) := by
          intro mps bl sl
          refine ⟨ofs, l, l1, ?_⟩
          have : (HMps.read ⟨mps, { ra with counter := ra.counter + e.shape.getD 0 0 }, bl, sl⟩) =
              ⟨mps, { ra.read with counter := rb.counter + e.shape.getD 0 0 }, bl, sl⟩ := by
            rw [← hcnt]
            rfl
          rw [this, l2]
          unfold withInactive AdRegion.setList
          rcases h01 with h | h <;> simp [h]
        have gd' : HRegion.Good { ra with counter := ra.counter + e.shape.getD 0 0 } := ⟨gd.offset, gd.live, gd.nodup, gd.strays⟩
        cases linearForward rb.active m.mps.periodic m.mps.parallel e g with
        | mk res g' =>
          cases res with
          | error er => exact ⟨rfl, rfl, key _ _ _, i0, i1, gd'⟩
          | ok y =>
            simp only
            split
            · exact ⟨rfl, rfl, key _ _ _, i0, i1, gd'⟩
            · exact ⟨rfl, rfl, key _ _ _, i0, i1, gd'⟩
    · rw [if_neg hdue, if_neg hdue]
      simp only
      have hact : ∀ c, HRegion.active { m.region with counter := c } = m.region.active := fun c => rfl
      have hact' : AdRegion.active ⟨m.region.read.list0, m.region.read.list1, m.region.read.offset, m.region.read.stray,
          m.region.read.counter + e.shape.getD 0 0, m.region.read.threshold, m.region.read.cutoff⟩ = m.region.read.active := rfl
      rw [hact, hact', ← read_active]
      have gd' : HRegion.Good { m.region with counter := m.region.counter + e.shape.getD 0 0 } := ⟨hg.offset, hg.live, hg.nodup, hg.strays⟩
      cases linearForward m.region.read.active m.mps.periodic m.mps.parallel e g with
      | mk res g' =>
        cases res with
        | error er => exact ⟨rfl, rfl, sameUsed_refl _ hg.offset, rfl, rfl, gd'⟩
        | ok y => exact ⟨rfl, rfl, sameUsed_refl _ hg.offset, rfl, rfl, gd'⟩

/-! ### the optimiser -/

theorem assign_facts (h : Heap) (l : List ℕ) (ts : List (Tensor ℝ)) (hn : l.Nodup) :
    (assignTo h l ts).next = h.next ∧ (∀ j, j ∉ l → (assignTo h l ts).mem j = h.mem j) ∧ (assignTo h l ts).vals l = setTensors (h.vals l) ts := by
  induction l generalizing h ts with
  | nil => cases ts <;> exact ⟨rfl, fun _ _ => rfl, rfl⟩
  | cons i l ih =>
    cases ts with
    | nil => exact ⟨rfl, fun _ _ => rfl, rfl⟩
    | cons t ts =>
      obtain ⟨n1, n2⟩ := List.nodup_cons.1 hn
      obtain ⟨a, b, c⟩ := ih (h.write i ((h.mem i).setTensor t)) ts n2
      have hother : ∀ x, x ≠ i → (h.write i ((h.mem i).setTensor t)).mem x = h.mem x := fun x hx => Function.update_of_ne hx _ _
      simp only [assignTo]
      refine ⟨a, ?_, ?_⟩
      · intro x hx
        rw [b x (fun hc => hx (List.mem_cons_of_mem _ hc)), hother x (fun hc => hx (hc ▸ List.mem_cons_self))]
      · rw [vals_cons, c, b i n1, vals_cons]
        simp only [setTensors]
        congr 1
        · simp [Heap.write]
        · congr 1
          exact vals_congr _ _ _ (fun x hx => hother x (fun hc => n1 (hc ▸ hx)))

theorem setTensors_append (l l' : List (Module ℝ)) (ts : List (Tensor ℝ)) : setTensors (l ++ l') ts = setTensors l ts ++ setTensors l' (ts.drop l.length) := by
  induction l generalizing ts with
  | nil => cases ts <;> simp [setTensors]
  | cons m l ih =>
    cases ts with
    | nil => cases l' <;> simp [setTensors]
    | cons t ts => simp [setTensors, ih]

theorem setTensors_length (l : List (Module ℝ)) (ts : List (Tensor ℝ)) : (setTensors l ts).length = l.length := by
  induction l generalizing ts with
  | nil => cases ts <;> rfl
  | cons m l ih => cases ts <;> simp [setTensors, ih]

theorem setTensors_same (l l' : List (Module ℝ)) (ts : List (Tensor ℝ)) (h : List.Forall₂ Retuned l l') :
    List.Forall₂ Retuned (setTensors l ts) (setTensors l' ts) := by
  induction h generalizing ts with
  | nil => cases ts <;> exact .nil
  | @cons m m' l l' h1 h2 ih =>
    cases ts with
    | nil => exact .cons h1 h2
    | cons t ts =>
      refine .cons ?_ (ih ts)
      obtain ⟨t', _, rfl⟩ := h1
      have : (m.setTensor t').setTensor t = m.setTensor t := by cases m <;> rfl
      rw [this]
      exact retuned_one _

theorem setParams_same (m m' : AdMps) (hs : SameUsed m m') (ts : List (Tensor ℝ)) : SameUsed (setParams m ts) (setParams m' ts) := by
  obtain ⟨hp, l, hl, rfl⟩ := hs
  have h01 : m.region.offset = 0 ∨ m.region.offset = 1 := by omega
  rcases h01 with h | h
  · have hl' : List.Forall₂ Retuned m.region.list1 l := by simpa [inactive, AdRegion.listAt, h] using hl
    refine ⟨hp, setTensors l (ts.drop m.region.list0.length), ?_, ?_⟩
    · simpa [inactive, AdRegion.listAt, setParams, h] using setTensors_same _ _ _ hl'
    · simp [setParams, withInactive, AdRegion.setList, h]
  · have hl' : List.Forall₂ Retuned m.region.list0 l := by simpa [inactive, AdRegion.listAt, h] using hl
    refine ⟨hp, setTensors l ts, ?_, ?_⟩
    · simpa [inactive, AdRegion.listAt, setParams, h] using setTensors_same _ _ _ hl'
    · simp [setParams, withInactive, AdRegion.setList, h, hl'.length_eq]

theorem assign_read (m : HMps) (hg : m.region.Good) (hst : m.region.stray = none) (ts : List (Tensor ℝ)) :
    HMps.read { m with region := { m.region with heap := assignTo m.region.heap (m.region.list0 ++ m.region.list1) ts } } = setParams (HMps.read m) ts := by
  obtain ⟨_, _, c⟩ := assign_facts m.region.heap (m.region.list0 ++ m.region.list1) ts hg.nodup
  rw [vals_append, vals_append, setTensors_append, vals_length] at c
  obtain ⟨c1, c2⟩ := List.append_inj c (by rw [vals_length, setTensors_length, vals_length])
  unfold HMps.read setParams
  simp only [c1, c2, hst, vals_length]
  rfl

/-- the lists of modules after a step -/
theorem step_lists (svd : Mat ℝ → SVD) (pop : List Char → Char) (m : HMps) (hg : m.region.Good) (P : List ℕ) (hP : P.Nodup) (g : Option ℕ) (s : PStep) :
    (hStep svd pop P m g s).2.1.region.list0 = m.region.list0 ∧ (hStep svd pop P m g s).2.1.region.list1 = m.region.list1 ∧
      (hStep svd pop P m g s).2.1.region.Good := by
  cases s with
  | call x =>
    obtain ⟨_, _, _, f4, f5, f6⟩ := forward_sim svd pop m hg x g
    exact ⟨f4, f5, f6⟩
  | optimise ts =>
    have a := (assign_facts m.region.heap P ts hP).1
    exact ⟨rfl, rfl, hg.offset, fun i hi => by simp only [hStep]; rw [a]; exact hg.live i hi, hg.nodup, fun l hl i hi => by simp only [hStep]; rw [a]; exact hg.strays l hl i hi⟩
  | batch g' => exact ⟨rfl, rfl, hg⟩
  | feature φ =>
    simp only [hStep]
    cases m.mps.registerFeatureMap φ with
    | error e => exact ⟨rfl, rfl, hg⟩
    | ok mps' => exact ⟨rfl, rfl, hg⟩

theorem proper_good {m : HMps} (h : Proper m) : m.region.Good := ⟨h.offset, h.live, h.nodup, fun l hl => by rw [h.stray] at hl; cases hl⟩

theorem flip_stray (svd : Mat ℝ → SVD) (pop : List Char → Char) (r r' : AdRegion) (b : List BondEntry) (h : r.flip svd pop = (.ok b, r')) :
    r'.stray = none := by
  unfold AdRegion.flip at h
  split at h
  · simp at h
  · simp only at h
    split at h
    · simp at h
    · split at h
      · simp at h
      · simp only [Prod.mk.injEq] at h
        obtain ⟨_, rfl⟩ := h
        rfl

theorem forward_stray (svd : Mat ℝ → SVD) (pop : List Char → Char) (m : AdMps) (hst : m.region.stray = none) (x : Tensor ℝ) (g : Option ℕ)
    (hf : ¬ FailedFlip m (.call x) svd pop) : (m.forward svd pop x g).2.1.region.stray = none := by
  unfold AdMps.forward
  cases hemb : (followPath m.mps.path x >>= m.mps.embedInput) with
  | error e => exact hst
  | ok e =>
    simp only [AdRegion.maybeFlip]
    by_cases hdue : m.region.counter ≥ m.region.threshold
    · rw [if_pos hdue]
      obtain ⟨a, ra, ha⟩ : ∃ a ra, m.region.flip svd pop = (a, ra) := ⟨_, _, rfl⟩
      rw [ha]
      cases a with
      | error er => exact absurd ⟨x, e, er, rfl, (embedded_iff _ _ _).2 hemb, hdue, by rw [ha]⟩ hf
      | ok nb =>
        have hs := flip_stray svd pop m.region ra nb ha
        simp only
        cases linearForward (AdRegion.active { ra with counter := ra.counter + e.shape.getD 0 0 }) m.mps.periodic m.mps.parallel e g with
        | mk res g' =>
          cases res with
          | error er => exact hs
          | ok y =>
            simp only
            split <;> exact hs
    · rw [if_neg hdue]
      simp only
      cases linearForward (AdRegion.active { m.region with counter := m.region.counter + e.shape.getD 0 0 }) m.mps.periodic m.mps.parallel e g with
      | mk res g' => cases res <;> exact hst

theorem sameUsed_stray {m m' : AdMps} (h : SameUsed m m') : m'.region.stray = m.region.stray ∧ m'.region.offset = m.region.offset := by
  obtain ⟨_, l, _, rfl⟩ := h
  unfold withInactive AdRegion.setList
  split <;> exact ⟨rfl, rfl⟩

theorem step_proper (svd : Mat ℝ → SVD) (pop : List Char → Char) (m : HMps) (h : Proper m) (P : List ℕ) (hP : P.Nodup) (g : Option ℕ) (s : PStep)
    (hf : ¬ FailedFlip (HMps.read m) s svd pop) : Proper (hStep svd pop P m g s).2.1 := by
  have hg := (step_lists svd pop m (proper_good h) P hP g s).2.2
  refine ⟨hg.offset, hg.live, hg.nodup, ?_⟩
  cases s with
  | call x =>
    obtain ⟨_, _, f3, _⟩ := forward_sim svd pop m (proper_good h) x g
    have h1 := forward_stray svd pop (HMps.read m) (by simp [HMps.read, h.stray]) x g hf
    have h2 := (sameUsed_stray f3).1
    rw [h1] at h2
    simpa [HMps.read, hStep] using h2
  | optimise ts => exact h.stray
  | batch g' => exact h.stray
  | feature φ =>
    simp only [hStep]
    cases m.mps.registerFeatureMap φ <;> exact h.stray

/-- C86: whatever a program does - calls with and without flips, failing calls, failing flips, training steps - the two merged lists consist of the same objects. -/
theorem C86_objects (svd : Mat ℝ → SVD) (pop : List Char → Char) (m : HMps) (h : Proper m) (P : List ℕ) (hP : P.Nodup) (g : Option ℕ) (ss : List PStep) :
    (hRun svd pop P m g ss).region.list0 = m.region.list0 ∧ (hRun svd pop P m g ss).region.list1 = m.region.list1 := by
  have hg := proper_good h
  clear h
  induction ss generalizing m g with
  | nil => exact ⟨rfl, rfl⟩
  | cons s ss ih =>
    obtain ⟨a, b, c⟩ := step_lists svd pop m hg P hP g s
    obtain ⟨i1, i2⟩ := ih (hStep svd pop P m g s).2.1 (hStep svd pop P m g s).2.2 c
    exact ⟨i1.trans a, i2.trans b⟩

theorem params_eq (m : HMps) (h : Proper m) : m.region.parameters = m.region.listAt m.region.offset ++ m.region.listAt (1 - m.region.offset) := by
  obtain ⟨a, b, c⟩ := List.nodup_append.1 h.nodup
  have hd : List.Disjoint m.region.list1.reverse m.region.list0.reverse := fun i hi hi' =>
    c i (List.mem_reverse.1 hi') i (List.mem_reverse.1 hi) rfl
  have a' := List.nodup_reverse.2 a
  have b' := List.nodup_reverse.2 b
  have h01 : m.region.offset = 0 ∨ m.region.offset = 1 := by have := h.offset; omega
  unfold HRegion.parameters HRegion.active
  rw [h.stray]
  simp only [Option.getD_none]
  rcases h01 with h | h
  · rw [h]
    show ((m.region.list0 ++ m.region.list0 ++ m.region.list1).reverse).dedup.reverse = m.region.list0 ++ m.region.list1
    rw [List.reverse_append, List.reverse_append, List.Disjoint.dedup_append (by
      intro i hi hi'
      rcases List.mem_append.1 hi' with hx | hx <;> exact hd hi hx), b'.dedup,
      List.Subset.dedup_append_right (fun _ hx => hx), a'.dedup, List.reverse_append, List.reverse_reverse, List.reverse_reverse]
  · rw [h]
    show ((m.region.list1 ++ m.region.list0 ++ m.region.list1).reverse).dedup.reverse = m.region.list1 ++ m.region.list0
    rw [List.reverse_append, List.reverse_append, List.Subset.dedup_append_right (by
      intro x hx
      exact List.mem_append_right _ hx), List.Disjoint.dedup_append hd.symm, a'.dedup, b'.dedup, List.reverse_append, List.reverse_reverse,
      List.reverse_reverse]

/-- C86: as long as no flip fails, `parameters()` returns the same parameter objects as at the beginning; their order is that of the list in use followed by the other one, so it
changes with every flip. -/
theorem C86_parameters (svd : Mat ℝ → SVD) (pop : List Char → Char) (m : HMps) (h : Proper m) (P : List ℕ) (hP : P.Nodup) (g : Option ℕ) (ss : List PStep)
    (hu : Unbroken svd pop P m g ss) :
    (hRun svd pop P m g ss).region.parameters.Perm m.region.parameters ∧
    (hRun svd pop P m g ss).region.parameters =
      if (hRun svd pop P m g ss).region.offset = 0 then m.region.list0 ++ m.region.list1 else m.region.list1 ++ m.region.list0 := by
  obtain ⟨o1, o2⟩ := C86_objects svd pop m h P hP g ss
  have hp : Proper (hRun svd pop P m g ss) := by
    clear o1 o2
    induction ss generalizing m g with
    | nil => exact h
    | cons s ss ih => exact ih _ (step_proper svd pop m h P hP g s hu.1) _ hu.2
  have e1 := params_eq _ hp
  have e2 := params_eq _ h
  have perm : ∀ n : HMps, Proper n → (n.region.listAt n.region.offset ++ n.region.listAt (1 - n.region.offset)).Perm (n.region.list0 ++ n.region.list1) := by
    intro n hn
    have h01 : n.region.offset = 0 ∨ n.region.offset = 1 := by have := hn.offset; omega
    rcases h01 with h | h <;> rw [h]
    · exact List.Perm.refl _
    · exact List.perm_append_comm
  constructor
  · rw [e1, e2]
    refine (perm _ hp).trans ?_
    rw [o1, o2]
    exact (perm m h).symm
  · rw [e1]
    have h01 : (hRun svd pop P m g ss).region.offset = 0 ∨ (hRun svd pop P m g ss).region.offset = 1 := by have := hp.offset; omega
    rcases h01 with h | h <;> rw [h]
    · exact (congrArg₂ _ o1 o2)
    · exact (congrArg₂ _ o2 o1)

/-- C86: training through the list of parameters taken at the beginning is training of the model: all results are those of the model of which every part is a value and an
optimiser step replaces the values of all parameters. Programs go on after exceptions, up to the first flip which fails. -/
theorem C86_results (svd : Mat ℝ → SVD) (pop : List Char → Char) (m : HMps) (h : Proper m) (g : Option ℕ) (ss : List PStep) :
    hResults svd pop (m.region.list0 ++ m.region.list1) m g ss = vResults svd pop (HMps.read m) g ss := by
  have key : ∀ (ss : List PStep) (m : HMps) (v : AdMps) (g : Option ℕ), Proper m → SameUsed v (HMps.read m) →
      hResults svd pop (m.region.list0 ++ m.region.list1) m g ss = vResults svd pop v g ss := by
    intro ss
    induction ss with
    | nil => intro m v g _ _; rfl
    | cons s ss ih =>
      intro m v g hp hs
      have hP := hp.nodup
      simp only [hResults, vResults]
      have hff := failedFlip_same svd pop v (HMps.read m) hs s
      have main : (hStep svd pop (m.region.list0 ++ m.region.list1) m g s).1 = (vStep svd pop v g s).1 ∧ (¬ FailedFlip v s svd pop →
          (hStep svd pop (m.region.list0 ++ m.region.list1) m g s).2.2 = (vStep svd pop v g s).2.2 ∧
          SameUsed (vStep svd pop v g s).2.1 (HMps.read (hStep svd pop (m.region.list0 ++ m.region.list1) m g s).2.1)) := by
        cases s with
        | call x =>
          obtain ⟨f1, f2, f3, _⟩ := forward_sim svd pop m (proper_good hp) x g
          obtain ⟨e1, e2, _⟩ := forward_same svd pop v (HMps.read m) hs x g
          simp only [hStep, vStep]
          exact ⟨by rw [f1, e1], fun hf => ⟨by rw [f2, e2], sameUsed_trans (forward_same' svd pop v (HMps.read m) hs x g hf) f3⟩⟩
        | optimise ts =>
          simp only [hStep, vStep]
          refine ⟨trivial, fun _ => ⟨trivial, ?_⟩⟩
          rw [assign_read m (proper_good hp) hp.stray ts]
          exact setParams_same v (HMps.read m) hs ts
        | batch g' => exact ⟨rfl, fun _ => ⟨rfl, hs⟩⟩
        | feature φ =>
          obtain ⟨q, l, hl, e⟩ := hs
          have em : m.mps = v.mps := by
            have : (HMps.read m).mps = (withInactive v l).mps := by rw [e]
            exact this
          simp only [hStep, vStep]
          rw [em]
          cases v.mps.registerFeatureMap φ with
          | error er => exact ⟨rfl, fun _ => ⟨rfl, q, l, hl, e⟩⟩
          | ok mps' =>
            refine ⟨rfl, fun _ => ⟨rfl, q, l, hl, ?_⟩⟩
            have : HMps.read { m with mps := mps' } = { HMps.read m with mps := mps' } := rfl
            simp only [this, e]
            rfl
      obtain ⟨m1, m2⟩ := main
      rw [m1]
      congr 1
      by_cases hf : FailedFlip v s svd pop
      · rw [if_pos hf, if_pos (hff.1 hf)]
      · rw [if_neg hf, if_neg (fun hc => hf (hff.2 hc))]
        obtain ⟨m3, m4⟩ := m2 hf
        obtain ⟨l1, l2, _⟩ := step_lists svd pop m (proper_good hp) _ hP g s
        have := ih (hStep svd pop (m.region.list0 ++ m.region.list1) m g s).2.1 _ (hStep svd pop (m.region.list0 ++ m.region.list1) m g s).2.2
          (step_proper svd pop m hp _ hP g s (fun hc => hf (hff.2 hc))) m4
        rw [l1, l2] at this
        rw [this, m3]
  exact key ss m (HMps.read m) g h (sameUsed_refl _ h.offset)

/-! ### construction -/

theorem sim_ok {h : Heap} {l : List ℕ} {x : Except Err (List ℕ × Heap)} {y : Except Err (List (Module ℝ))} {ms : List (Module ℝ)} (hs : Sim h l x y)
    (hy : y = .ok ms) : ∃ ids h', x = .ok (ids, h') ∧ Got h l ids h' ms := by
  subst hy
  match x, hs with
  | .ok (ids, h'), hs => exact ⟨ids, h', rfl, hs⟩

/-- the modules before merging: regions and one output core -/
theorem init_classes (d : Draws) (n O D F k : ℕ) (std : ℝ) (ms : List (Module ℝ)) (h : initModules d n O D F k std false true = .ok ms) (m : Module ℝ) (hm : m ∈ ms) :
    (∃ t b, m = .inputRegion t b) ∨ ∃ t, m = .outputSite t := by
  have hreg : ∀ (noise : List ℕ → ℝ) (len : ℕ) (im : InitMethod) (P : List (Module ℝ)), initRegion noise len D F im false = .ok P → ∀ m ∈ P, ∃ t b, m = .inputRegion t b := by
    intro noise len im P hP m hm
    unfold initRegion at hP
    split at hP
    · cases hP
      exact absurd hm List.not_mem_nil
    · obtain ⟨t, _, hP⟩ := bind_ok_inv hP
      obtain ⟨r, hr, hP⟩ := bind_ok_inv hP
      cases hP
      rw [List.mem_singleton] at hm
      subst hm
      unfold mkInputRegion at hr
      obtain ⟨_, _, hr⟩ := bind_ok_inv hr
      obtain ⟨_, _, hr⟩ := bind_ok_inv hr
      cases hr
      exact ⟨_, _, rfl⟩
  unfold initModules at h
  obtain ⟨left, hleft, h⟩ := bind_ok_inv h
  obtain ⟨t, _, h⟩ := bind_ok_inv h
  obtain ⟨right, hright, h⟩ := bind_ok_inv h
  cases h
  rcases List.mem_append.1 hm with hm | hm
  · exact Or.inl (hreg _ _ _ _ hleft m hm)
  · rcases List.mem_cons.1 hm with rfl | hm
    · exact Or.inr ⟨t, rfl⟩
    · exact Or.inl (hreg _ _ _ _ hright m hm)

theorem layout_lone_out (k n : ℕ) (hn : 1 ≤ n) (h0 : Kind.out ∈ layout 0 k n) (h1 : Kind.out ∈ layout 1 k n) : False := by
  have lk : ∀ p q, Kind.out ∉ leftKinds p q := by
    intro p q hc
    unfold leftKinds at hc
    rcases List.mem_append.1 hc with hc | hc <;> split at hc <;> simp at hc
  have rk : ∀ p q, Kind.out ∉ rightKinds p q := by
    intro p q hc
    unfold rightKinds at hc
    rcases List.mem_append.1 hc with hc | hc <;> split at hc <;> simp at hc
  have main : ∀ p, p ≤ 1 → Kind.out ∈ layout p k n → (k % 2 = p ∧ ¬ k < n) ∨ (k % 2 ≠ p ∧ k = 0) := by
    intro p _ h
    unfold layout at h
    split at h
    · rename_i hk
      rcases List.mem_append.1 h with h | h
      · exact absurd h (lk _ _)
      · split at h
        · rcases List.mem_cons.1 h with h | h
          · cases h
          · exact absurd h (rk _ _)
        · rename_i hkn
          exact Or.inl ⟨hk, hkn⟩
    · rename_i hk
      split at h
      · rename_i hk0
        exact Or.inr ⟨hk, hk0⟩
      · rcases List.mem_append.1 h with h | h
        · exact absurd h (lk _ _)
        · rcases List.mem_cons.1 h with h | h
          · cases h
          · exact absurd h (rk _ _)
  have a := main 0 (by omega) h0
  have b := main 1 (by omega) h1
  omega

theorem shape_out (D F O p k n : ℕ) (ms : List (Module ℝ)) (h : MergedShape D F O p k n ms) (m : Module ℝ) (hm : m ∈ ms) (hc : (∃ t b, m = .inputRegion t b) ∨ ∃ t, m = .outputSite t) :
    Kind.out ∈ layout p k n := by
  unfold MergedShape at h
  generalize layout p k n = ks at h ⊢
  induction h with
  | nil => exact absurd hm List.not_mem_nil
  | @cons κ m' ks ms h1 h2 ih =>
    rcases List.mem_cons.1 hm with rfl | hm
    · rcases hc with ⟨t, b, rfl⟩ | ⟨t, rfl⟩ <;> cases κ <;> first | exact h1.elim | exact List.mem_cons_self
    · exact List.mem_cons_of_mem _ (ih hm)

/-- C86: a new adaptive model has two lists of distinct module objects, whose values are those of the value model (C59), and its parameters are those of `module_list_0`
followed by those of `module_list_1`. -/
theorem C86_construction (d : Draws) (a : MpsArgs) (cutoff : ℝ) (threshold k : ℕ) (hk : k ≤ a.inputDim) (hn : 2 ≤ a.inputDim)
    (hl : a.labelSite = some (k : ℤ) ∨ (a.labelSite = none ∧ k = a.inputDim / 2)) (path : Option (List ℤ))
    (hp : checkPath a.path a.inputDim = .ok path) :
    ∃ m, HMps.init d a cutoff threshold = .ok m ∧ AdMps.init d a cutoff threshold = .ok (HMps.read m) ∧ Proper m ∧
      m.region.parameters = m.region.list0 ++ m.region.list1 := by
  obtain ⟨ms, h1, h2⟩ := init_unmerged d a.inputDim a.outputDim a.bondDim a.featureDim k a.initStd hk
  obtain ⟨l0, p1, p2⟩ := mergeList_ok a.bondDim a.featureDim a.outputDim 0 k a.inputDim (by omega) hk hn _ ms h2
  obtain ⟨l1, q1, q2⟩ := mergeList_ok a.bondDim a.featureDim a.outputDim 1 k a.inputDim (by omega) hk hn _ ms h2
  have hlen := (merged_facts _ _ _ 0 k a.inputDim (by omega) hk (by omega) l0 (merged_shape p2)).2.2.2.1
  have hcl := init_classes d a.inputDim a.outputDim a.bondDim a.featureDim k a.initStd ms h1
  obtain ⟨u, hu⟩ : ∃ u, Heap.alloc ⟨0, fun _ => .outputSite ⟨[], fun _ => 0⟩⟩ ms = u := ⟨_, rfl⟩
  have gu := alloc_got ms ⟨0, fun _ => .outputSite ⟨[], fun _ => 0⟩⟩
  rw [hu] at gu
  have s0 := mergeList_sim u.2 0 u.1 gu.live gu.nodup
  rw [gu.vals] at s0
  obtain ⟨i0, g0, e0, got0⟩ := sim_ok s0 p1
  have lu := live_grows got0.grows gu.live
  have s1 := mergeList_sim g0 1 u.1 lu gu.nodup
  rw [vals_grows got0.grows gu.live, gu.vals] at s1
  obtain ⟨i1, g1, e1, got1⟩ := sim_ok s1 q1
  have v0 : g1.vals i0 = l0 := (vals_grows got1.grows got0.live).trans got0.vals
  have hdis : ∀ i ∈ i0, ∀ j ∈ i1, i ≠ j := by
    intro i hi j hj hij
    subst hij
    have hx : i < g0.next := got0.live i hi
    have hmem : i ∈ u.1 := by
      rcases got1.origin i hj with hc | hc
      · exact hc
      · omega
    have hv : g1.mem i ∈ ms := by
      have : u.2.mem i ∈ u.2.vals u.1 := List.mem_map_of_mem hmem
      rw [gu.vals] at this
      rwa [got1.grows.2 i hx, got0.grows.2 i (gu.live i hmem)]
    have c0 : g1.mem i ∈ l0 := by
      rw [← v0]
      exact List.mem_map_of_mem hi
    have c1 : g1.mem i ∈ l1 := by
      rw [← got1.vals]
      exact List.mem_map_of_mem hj
    exact layout_lone_out k a.inputDim (by omega) (shape_out _ _ _ _ _ _ _ (merged_shape p2) _ c0 (hcl _ hv))
      (shape_out _ _ _ _ _ _ _ (merged_shape q2) _ c1 (hcl _ hv))
  have hP : Proper ⟨⟨a.inputDim, a.outputDim, a.bondDim, a.featureDim, a.periodic, a.parallel, path, none, []⟩, ⟨g1, i0, i1, 0, none, 0, threshold, cutoff⟩,
      initBonds a.inputDim a.bondDim a.periodic, List.replicate (a.inputDim + 2) ⟨[a.bondDim], fun _ => -1⟩⟩ := by
    refine ⟨Nat.zero_le _, ?_, List.nodup_append.2 ⟨got0.nodup, got1.nodup, hdis⟩, rfl⟩
    intro i hi
    rcases List.mem_append.1 hi with hi | hi
    · exact lt_of_lt_of_le (got0.live i hi) got1.grows.1
    · exact got1.live i hi
  refine ⟨_, ?_, ?_, hP, params_eq _ hP⟩
  · unfold HMps.init HRegion.init
    rw [label_ok a.inputDim k hk a.labelSite hl, bind_ok_except, h1, bind_ok_except, hu]
    simp only [e0, bind_ok_except, e1]
    simp only [pure, Except.pure, Except.bind, bind]
    rw [assert_true (modulesLen (g1.vals (HRegion.active ⟨g1, i0, i1, 0, none, 0, threshold, cutoff⟩)) = a.inputDim) (by
      show modulesLen (g1.vals i0) = a.inputDim
      rw [v0]
      exact hlen), hp]
  · unfold AdMps.init AdRegion.init
    rw [label_ok a.inputDim k hk a.labelSite hl, bind_ok_except, h1, bind_ok_except, p1, bind_ok_except, q1, bind_ok_except]
    simp only [pure, Except.pure, Except.bind, bind]
    rw [assert_true (modulesLen (AdRegion.active ⟨l0, l1, 0, none, 0, threshold, cutoff⟩) = a.inputDim) hlen, hp]
    simp only [HMps.read, v0, got1.vals]
    rfl

/-- A program on a new model with `input_dim` 4, `label_site` 1 and `merge_threshold` 0: the hypotheses of the theorems are met, the first call flips, and the parameters are listed in
another order afterwards. -/
example (d : Draws) (x : Tensor ℝ) (hx : x.shape = [3, 4, 2]) (g : Option ℕ) (ts : List (Tensor ℝ)) : ∃ m, HMps.init d exAdArgs (1 / 10) 0 = .ok m ∧ Proper m ∧
    Unbroken someSvd popHead m.region.parameters m g [.call x, .optimise ts] ∧
    (hRun someSvd popHead m.region.parameters m g [.call x, .optimise ts]).region.parameters = m.region.list1 ++ m.region.list0 := by
  obtain ⟨hm, e1, e2, e3, e4⟩ := C86_construction d exAdArgs (1 / 10) 0 1 (by decide) (by decide) (Or.inl rfl) none rfl
  obtain ⟨m, h1, h2, h3, hper, h4, h5, h6, hfm, h7, h8, h9, h10, h11, h12, h13, h14⟩ := exAd_facts someSvd someSvd_spec d (1 / 10) (by norm_num) 0
  obtain rfl : HMps.read hm = m := by
    rw [e2] at h1
    exact Except.ok.inj h1
  have he : Embedded (HMps.read hm).mps x x := by
    refine ⟨x, by rw [h5]; rfl, ?_⟩
    unfold MPS.embedInput
    rw [assert_true _ (Or.inr (by simp [Tensor.ndim, hx])), assert_true _ (by simp [hx, h4])]
    simp [Tensor.ndim, hx, h6]
    rfl
  obtain ⟨y, y1, y2, y3, y4⟩ := C64_untrained someSvd someSvd_spec popHead popHead_mem 1 (HMps.read hm) h2 (by rw [h3]) _ h10 (by rw [h7]; omega) h11 (by rw [h9]; norm_num) h14 h12 h13
    x x he g (Or.inl le_rfl)
  have hf : ¬ FailedFlip (HMps.read hm) (.call x) someSvd popHead := by
    rintro ⟨x', e', er, hx', hemb, hdue, hflip⟩
    cases hx'
    unfold AdMps.forward at y1
    rw [(embedded_iff _ _ _).1 hemb] at y1
    simp only [AdRegion.maybeFlip] at y1
    rw [if_pos hdue] at y1
    generalize (HMps.read hm).region.flip someSvd popHead = z at y1 hflip
    obtain ⟨z1, z2⟩ := z
    simp only at hflip
    subst hflip
    simp at y1
  have hP : (hm.region.parameters).Nodup := by
    rw [e4]
    exact e3.nodup
  have hun : Unbroken someSvd popHead hm.region.parameters hm g [.call x, .optimise ts] := by
    refine ⟨hf, ?_, trivial⟩
    rintro ⟨x', e', er, hx', _⟩
    cases hx'
  refine ⟨hm, e1, e3, hun, ?_⟩
  rw [(C86_parameters someSvd popHead hm e3 _ hP g _ hun).2]
  have ho : (hRun someSvd popHead hm.region.parameters hm g [.call x, .optimise ts]).region.offset = 1 := by
    show (hm.forward someSvd popHead x g).2.1.region.offset = 1
    obtain ⟨_, _, f3, _⟩ := forward_sim someSvd popHead hm (proper_good e3) x g
    have := (sameUsed_stray f3).2
    rw [y2] at this
    have h0 : (HMps.read hm).region.offset = 0 := by
      obtain ⟨m', c1, _, _, _, _, _, _, _, _, _, c2, _⟩ := C59_construction d exAdArgs (1 / 10) 0 1 (by decide) (by decide) (Or.inl rfl) none rfl
      rw [e2] at c1
      rw [Except.ok.inj c1]
      exact c2
    rw [h0] at this
    exact this
  rw [if_neg (by rw [ho]; omega)]

end TorchMPS
