import Verif.Model.LmeProblem
import Mathlib.Data.List.Sort
import Mathlib.Data.List.NodupEquivFin
import Mathlib.Data.List.Nodup
import Mathlib.Data.Nat.Cast.Basic
import Mathlib.Tactic.Linarith

/-!
# Lemmas about lists used for `lme/problems.py`
-/

namespace Verif

theorem mapM_ok {α β : Type*} (l : List α) (f : α → Except PyErr β) (h : α → β) (hf : ∀ a ∈ l, f a = .ok (h a)) : l.mapM f = .ok (l.map h) := by
  induction l with
  | nil => rfl
  | cons a l ih =>
    rw [List.mapM_cons, hf a (by simp), ih fun b hb => hf b (by simp [hb])]
    rfl

theorem mapM_map_ok {α β γ : Type*} (l : List γ) (t : γ → α) (f : α → Except PyErr β) (h : γ → β) (hf : ∀ a ∈ l, f (t a) = .ok (h a)) :
    (l.map t).mapM f = .ok (l.map h) := by
  induction l with
  | nil => rfl
  | cons a l ih =>
    rw [List.map_cons, List.mapM_cons, hf a (by simp), ih fun b hb => hf b (by simp [hb])]
    rfl

theorem mapM_ok_inv {α β : Type*} (l : List α) (f : α → Except PyErr β) (r : List β) (h : l.mapM f = .ok r) :
    List.Forall₂ (fun a b => f a = .ok b) l r := by
  induction l generalizing r with
  | nil => cases h; exact .nil
  | cons a l ih =>
    rw [List.mapM_cons] at h
    cases hfa : f a with
    | error e => rw [hfa] at h; cases h
    | ok b =>
      rw [hfa] at h
      cases hl : l.mapM f with
      | error e => rw [hl] at h; cases h
      | ok r' =>
        rw [hl] at h
        cases h
        exact .cons hfa (ih r' hl)

/-- Entries of a row whose label passes a test, in order. -/
def selectBy {α : Type*} (test : String → Bool) (labels : List String) (vals : List α) : List α :=
  ((labels.zip vals).filter fun lv => test lv.1).map Prod.snd

theorem selectBy_cons {α : Type*} (test : String → Bool) (l : String) (ls : List String) (a : α) (vals : List α) :
    selectBy test (l :: ls) (a :: vals) = if test l then a :: selectBy test ls vals else selectBy test ls vals := by
  unfold selectBy
  rw [List.zip_cons_cons, List.filter_cons]
  split_ifs <;> rfl

theorem isFixed_GROUP : isFixed GROUP = false := by decide
theorem isFixed_VARIANCE : isFixed VARIANCE = false := by decide
theorem isFixed_FIXED : isFixed FIXED = true := by decide
theorem isFixed_RANDOM : isFixed RANDOM = false := by decide
theorem isFixed_FIXED_RANDOM : isFixed FIXED_RANDOM = true := by decide
theorem isRandom_GROUP : isRandom GROUP = false := by decide
theorem isRandom_VARIANCE : isRandom VARIANCE = false := by decide
theorem isRandom_FIXED : isRandom FIXED = false := by decide
theorem isRandom_RANDOM : isRandom RANDOM = true := by decide
theorem isRandom_FIXED_RANDOM : isRandom FIXED_RANDOM = true := by decide

theorem zip_ofFn {α : Type*} {p : ℕ} (labels : List String) (h : labels.length = p) (f : Fin p → α) :
    labels.zip (List.ofFn f) = (List.finRange p).map fun i : Fin p => (labels.getD i "", f i) := by
  apply List.ext_getElem
  · simp [h]
  · intro i h1 h2
    simp at h1
    simp [h1]

theorem labelIdx_map {α : Type*} {p : ℕ} (labels : List String) (h : labels.length = p) (test : String → Bool) (f : Fin p → α) :
    (labelIdx labels test).map f = selectBy test labels (List.ofFn f) := by
  unfold selectBy labelIdx
  rw [zip_ofFn labels h, List.filter_map, List.map_map]
  rfl

theorem labels_eq {p : ℕ} (labels : List String) (h : labels.length = p) : labels = (List.finRange p).map fun i : Fin p => labels.getD i "" := by
  apply List.ext_getElem
  · simp [h]
  · intro i h1 h2
    simp [h1]

theorem labelIdx_length {p : ℕ} (labels : List String) (h : labels.length = p) (test : String → Bool) :
    (labelIdx (p := p) labels test).length = labels.countP test := by
  conv_rhs => rw [labels_eq labels h]
  rw [List.countP_map, List.countP_eq_length_filter]
  rfl

theorem mem_labelIdx {p : ℕ} (labels : List String) (test : String → Bool) (i : Fin p) :
    i ∈ labelIdx labels test ↔ test (labels.getD i "") = true := by
  simp [labelIdx]

theorem labelIdx_singleton {p : ℕ} (labels : List String) (h : labels.length = p) (l : String) :
    (∃ g : Fin p, labelIdx labels (· = l) = [g]) ↔ labels.count l = 1 := by
  rw [List.count_eq_countP]
  have := labelIdx_length labels h (· = l)
  have e : labels.countP (fun x => decide (x = l)) = labels.countP (fun x => x == l) := by
    congr 1
  rw [← e, ← this]
  exact (List.length_eq_one_iff).symm

section
variable {K : Type*} [LinearOrder K]

theorem groupRows_mem {N : ℕ} (v : Vec K N) (l : K) (r : Fin N) : r ∈ groupRows v l ↔ v r = l := by simp [groupRows]

theorem groupRows_sorted {N : ℕ} (v : Vec K N) (l : K) : (groupRows v l).Pairwise (· < ·) :=
  (List.pairwise_lt_finRange N).filter _

theorem uniqueLabels_mem {N : ℕ} (v : Vec K N) (l : K) : l ∈ uniqueLabels v ↔ ∃ r, v r = l := by
  unfold uniqueLabels
  rw [Finset.mem_sort]
  simp

theorem uniqueLabels_sorted {N : ℕ} (v : Vec K N) : (uniqueLabels v).Pairwise (· < ·) :=
  (Finset.sortedLT_sort _).pairwise

theorem order_perm {N : ℕ} (v : Vec K N) : ((uniqueLabels v).flatMap (groupRows v)).Perm (List.finRange N) := by
  apply (List.perm_ext_iff_of_nodup _ (List.nodup_finRange N)).2
  · intro r
    simp only [List.mem_flatMap, groupRows_mem, uniqueLabels_mem, List.mem_finRange, iff_true]
    exact ⟨v r, ⟨r, rfl⟩, rfl⟩
  · rw [List.nodup_flatMap]
    refine ⟨fun l _ => (groupRows_sorted v l).imp ne_of_lt, ?_⟩
    refine (uniqueLabels_sorted v).imp fun {a b} hab => ?_
    intro r ha hb
    rw [groupRows_mem] at ha hb
    exact absurd (ha.symm.trans hb) (ne_of_lt hab)

theorem groupRows_map_label {N : ℕ} (v : Vec K N) (l : K) : (groupRows v l).map v = List.replicate (groupRows v l).length l := by
  rw [List.eq_replicate_iff]
  refine ⟨by simp, fun b hb => ?_⟩
  obtain ⟨r, hr, rfl⟩ := List.mem_map.1 hb
  exact (groupRows_mem v l r).1 hr

end

theorem argsortNat_map (o : List ℕ) {N : ℕ} (ho : o.Perm (List.range N)) : (argsortNat o).map (fun i => o.getD i 0) = List.range N := by
  have h1 : ((argsortNat o).map (fun i => o.getD i 0)).Perm o := by
    have e : (List.range o.length).map (fun i => o.getD i 0) = o := by
      apply List.ext_getElem
      · simp
      · intro i h1 h2
        simp [h2]
    conv_rhs => rw [← e]
    exact (List.mergeSort_perm _ _).map _
  have h2 : ((argsortNat o).map (fun i => o.getD i 0)).Pairwise (· ≤ ·) := by
    rw [List.pairwise_map]
    have := List.pairwise_mergeSort (le := fun a b : ℕ => decide (o.getD a 0 ≤ o.getD b 0)) (by simp; intros; omega) (by simp; intros; omega) (List.range o.length)
    exact this.imp (by simp)
  exact (h1.trans ho).eq_of_pairwise (fun a b _ _ h1 h2 => le_antisymm h1 h2) h2 ((List.pairwise_lt_range).imp le_of_lt)

theorem takeIdx_argsort {α : Type*} {N : ℕ} (o : List (Fin N)) (ho : o.Perm (List.finRange N)) (F : Fin N → α) :
    takeIdx (o.map F) (argsortNat (o.map Fin.val)) = .ok (List.ofFn F) := by
  have ho' : (o.map Fin.val).Perm (List.range N) := by
    have := ho.map Fin.val
    rwa [List.map_coe_finRange_eq_range] at this
  have hlen : o.length = N := by simpa using ho.length_eq
  have hmem : ∀ i ∈ argsortNat (o.map Fin.val), i < o.length := by
    intro i hi
    have := (List.mergeSort_perm _ _).mem_iff.1 hi
    simpa using this
  unfold takeIdx
  have key := argsortNat_map (o.map Fin.val) ho'
  rcases Nat.eq_zero_or_pos N with h0 | h0
  · subst h0
    have : o = [] := List.eq_nil_of_length_eq_zero hlen
    subst this
    simp [argsortNat]
    rfl
  · rw [mapM_ok _ _ (fun i => F (o.getD i ⟨0, h0⟩))]
    · congr 1
      have e : (argsortNat (o.map Fin.val)).map (fun i => o.getD i ⟨0, h0⟩) = List.finRange N := by
        apply List.map_injective_iff.2 Fin.val_injective
        rw [List.map_map, List.map_coe_finRange_eq_range, ← key]
        apply List.map_congr_left
        intro i hi
        have := hmem i hi
        simp [this]
      rw [List.ofFn_eq_map, ← e, List.map_map]
      rfl
    · intro i hi
      have := hmem i hi
      simp [this]

section
variable {K : Type*} [Field K] [LinearOrder K]

/-- The column loop of `to_x_y` restores a row from its design rows. -/
theorem fillRow_select (g v : K) (f z : List K) (labels : List String) (vals : List K) (fc rc : ℕ) (hlen : labels.length = vals.length)
    (hknown : ∀ l ∈ labels, isKnown l = true)
    (hg : ∀ lv ∈ labels.zip vals, lv.1 = GROUP → lv.2 = g) (hv : ∀ lv ∈ labels.zip vals, lv.1 = VARIANCE → lv.2 = v)
    (hf : f.drop fc = selectBy isFixed labels vals) (hz : z.drop rc = selectBy isRandom labels vals) :
    fillRow g v f z labels fc rc = .ok vals := by
  induction labels generalizing vals fc rc with
  | nil =>
    cases vals with
    | nil => rfl
    | cons a vals => simp at hlen
  | cons l ls ih =>
    cases vals with
    | nil => simp at hlen
    | cons a vals =>
      have ih' := fun fc rc => ih vals fc rc (by simpa using hlen) (fun l hl => hknown l (by simp [hl])) (fun lv hlv => hg lv (by simp [hlv])) (fun lv hlv => hv lv (by simp [hlv]))
      have drop1 : ∀ (w : List K) (c : ℕ) (t : List K), w.drop c = a :: t → w[c]? = some a ∧ w.drop (c + 1) = t := by
        intro w c t h
        have h0 : (w.drop c)[0]? = some a := by rw [h]; rfl
        rw [List.getElem?_drop] at h0
        refine ⟨by simpa using h0, ?_⟩
        rw [← List.drop_drop, h]; rfl
      have hk := hknown l (by simp)
      rw [selectBy_cons] at hf hz
      rw [fillRow]
      by_cases h1 : l = GROUP
      · subst h1
        rw [if_pos rfl, ih' fc rc (by simpa [isFixed_GROUP] using hf) (by simpa [isRandom_GROUP] using hz)]
        have := hg (GROUP, a) (by simp) rfl
        simp only at this
        subst this; rfl
      rw [if_neg h1]
      by_cases h2 : l = FIXED
      · subst h2
        obtain ⟨e1, e2⟩ := drop1 f fc _ (by simpa [isFixed_FIXED, isFixed_FIXED_RANDOM] using hf)
        rw [if_pos rfl, e1]
        simp only
        rw [ih' (fc + 1) rc e2 (by simpa [isRandom_FIXED] using hz)]
        rfl
      rw [if_neg h2]
      by_cases h3 : l = RANDOM
      · subst h3
        obtain ⟨e1, e2⟩ := drop1 z rc _ (by simpa [isRandom_RANDOM, isRandom_FIXED_RANDOM] using hz)
        rw [if_pos rfl, e1]
        simp only
        rw [ih' fc (rc + 1) (by simpa [isFixed_RANDOM] using hf) e2]
        rfl
      rw [if_neg h3]
      by_cases h4 : l = FIXED_RANDOM
      · subst h4
        obtain ⟨e1, e2⟩ := drop1 f fc _ (by simpa [isFixed_FIXED, isFixed_FIXED_RANDOM] using hf)
        obtain ⟨e3, e4⟩ := drop1 z rc _ (by simpa [isRandom_RANDOM, isRandom_FIXED_RANDOM] using hz)
        rw [if_pos rfl, e1]
        simp only
        rw [ih' (fc + 1) (rc + 1) e2 e4]
        rfl
      rw [if_neg h4]
      have h5 : l = VARIANCE := by simpa [isKnown, h1, h2, h3, h4] using hk
      subst h5
      rw [if_pos rfl, ih' fc rc (by simpa [isFixed_VARIANCE] using hf) (by simpa [isRandom_VARIANCE] using hz)]
      have := hv (VARIANCE, a) (by simp) rfl
      simp only at this
      subst this; rfl

end

end Verif
