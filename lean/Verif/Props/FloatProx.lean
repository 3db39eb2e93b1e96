import Verif.Props.Floats
import Mathlib.Data.Fintype.Card
import Mathlib.Data.Set.Card

/-!
# Constraints, budgets and shrinkage in floating-point arithmetic (C131)
-/

namespace Verif

open FArith

/-- Not below zero: the test `v < 0` fails (it also fails for a NaN). -/
def NotNeg (v : Flt) : Prop := ¬ v.lt 0

theorem notNeg_fin {r : ℝ} : NotNeg (.fin r) ↔ 0 ≤ r := not_lt
theorem notNeg_pinf : NotNeg .pinf := fun h => h
theorem notNeg_nan : NotNeg .nan := fun h => h
theorem notNeg_ninf : ¬ NotNeg .ninf := fun h => h trivial

theorem notNeg_of_le {v : Flt} (h : Flt.le 0 v) : NotNeg v := by
  rcases le_zero_cases h with rfl | ⟨r, hr, rfl⟩
  · exact notNeg_pinf
  · exact notNeg_fin.2 hr

section
variable (A : FArith)

theorem notNeg_ofReal {r : ℝ} (h : 0 ≤ r) : NotNeg (A.ofReal r) := notNeg_of_le (le_zero_ofReal A h)

theorem notNeg_infTimes {r : ℝ} (h : 0 ≤ r) : NotNeg (infTimes r) := by
  unfold infTimes
  split_ifs with h1 h2
  · exact notNeg_pinf
  · linarith
  · exact notNeg_nan

theorem notNeg_mul {v w : Flt} (hv : NotNeg v) (hw : NotNeg w) : NotNeg (A.mul v w) := by
  cases v with
  | fin a =>
    have ha := notNeg_fin.1 hv
    cases w with
    | fin b => exact notNeg_ofReal A (mul_nonneg ha (notNeg_fin.1 hw))
    | pinf => exact notNeg_infTimes ha
    | ninf => exact absurd hw notNeg_ninf
    | nan => exact notNeg_nan
  | pinf =>
    cases w with
    | fin b => exact notNeg_infTimes (notNeg_fin.1 hw)
    | pinf => exact notNeg_pinf
    | ninf => exact absurd hw notNeg_ninf
    | nan => exact notNeg_nan
  | ninf => exact absurd hv notNeg_ninf
  | nan => cases w <;> exact notNeg_nan

theorem notNeg_clip (v : Flt) : NotNeg v.clip0 := by
  cases v with
  | fin r => exact notNeg_fin.2 (le_max_right _ _)
  | pinf => exact notNeg_pinf
  | ninf => exact notNeg_fin.2 le_rfl
  | nan => exact notNeg_nan

theorem rnd_nonpos {r : ℝ} (h : r ≤ 0) : A.rnd r ≤ 0 := by
  have := A.mono h
  rwa [A.rnd_zero] at this

/-- Clipping a rounded number that is not positive gives an exact zero. -/
theorem clip_ofReal_nonpos {r : ℝ} (h : r ≤ 0) : (A.ofReal r).clip0 = .fin 0 := by
  have h1 := rnd_nonpos A h
  unfold FArith.ofReal
  split_ifs with h2 h3
  · show Flt.fin (max _ _) = _
    rw [max_eq_right h1]
  · linarith
  · rfl

theorem sub_zero_notNeg {v : Flt} (h : NotNeg v) : NotNeg (A.sub v (.fin 0)) := by
  cases v with
  | fin r =>
    refine notNeg_ofReal A ?_
    have := notNeg_fin.1 h
    linarith
  | pinf => exact notNeg_pinf
  | ninf => exact absurd h notNeg_ninf
  | nan => exact notNeg_nan

theorem flSoft_notNeg {t x : Flt} (ht : NotNeg t) (hx : NotNeg x) : NotNeg (flSoft A t x) := by
  unfold flSoft
  cases x with
  | ninf => exact absurd hx notNeg_ninf
  | nan => exact notNeg_nan
  | pinf =>
    cases t with
    | ninf => exact absurd ht notNeg_ninf
    | fin b => exact notNeg_pinf
    | pinf => exact notNeg_nan
    | nan => exact notNeg_nan
  | fin a =>
    cases t with
    | ninf => exact absurd ht notNeg_ninf
    | nan => exact notNeg_nan
    | pinf => exact sub_zero_notNeg A (notNeg_fin.2 le_rfl)
    | fin b =>
      have ha := notNeg_fin.1 hx
      have hb := notNeg_fin.1 ht
      have e : (A.sub (Flt.fin a).neg (.fin b)).clip0 = .fin 0 := clip_ofReal_nonpos A (by linarith)
      rw [e]
      exact sub_zero_notNeg A (notNeg_clip _)

/-- A number of the format. -/
def IsRep (r : ℝ) : Prop := A.rnd r = r ∧ ((|r| : ℝ) : WithTop ℝ) ≤ A.big

theorem ofReal_rep {r : ℝ} (h : IsRep A r) : A.ofReal r = .fin r := by
  unfold FArith.ofReal
  rw [h.1, if_pos h.2]

theorem rep_zero : IsRep A 0 := ⟨A.rnd_zero, by rw [abs_zero]; exact le_trans (WithTop.coe_le_coe.2 zero_le_one) A.one_le_big⟩

/-- Clipping the rounded difference of `r` and something not negative: a number of the format between 0 and `r`. -/
theorem clip_sub {r t : ℝ} (hr : IsRep A r) (h0 : 0 ≤ r) (ht : 0 ≤ t) : ∃ s, (A.ofReal (r + -t)).clip0 = .fin s ∧ IsRep A s ∧ 0 ≤ s ∧ s ≤ r := by
  rcases le_total (r + -t) 0 with h | h
  · exact ⟨0, clip_ofReal_nonpos A h, rep_zero A, le_rfl, h0⟩
  · have h1 : A.rnd (r + -t) ≤ r := by
      have := A.mono (show r + -t ≤ r by linarith)
      rwa [hr.1] at this
    have h2 := A.rnd_nonneg h
    have h3 : ((|A.rnd (r + -t)| : ℝ) : WithTop ℝ) ≤ A.big := by
      refine le_trans (WithTop.coe_le_coe.2 ?_) hr.2
      rwa [abs_of_nonneg h2, abs_of_nonneg h0]
    refine ⟨A.rnd (r + -t), ?_, ⟨A.idem _, h3⟩, h2, h1⟩
    unfold FArith.ofReal
    rw [if_pos h3]
    show Flt.fin (max _ _) = _
    rw [max_eq_left h2]

theorem sub_zero_rep {s : ℝ} (h : IsRep A s) : A.sub (.fin s) (.fin 0) = .fin s := by
  show A.ofReal (s + -0) = _
  rw [neg_zero, add_zero, ofReal_rep A h]

theorem zero_sub_rep {s : ℝ} (h : IsRep A s) : A.sub (.fin 0) (.fin s) = .fin (-s) := by
  show A.ofReal (0 + -s) = _
  rw [zero_add, A.ofReal_neg, ofReal_rep A h]
  rfl

/-- **C131 (shrinkage).** The soft threshold of a number, in every format: a number of the format between 0 and the argument (no sign change, no growth), exactly 0 when the argument is within the
threshold, exactly the argument when the threshold is 0. -/
theorem C131_soft {r : ℝ} (hr : IsRep A r) {t : Flt} (ht : NotNeg t) (hnan : t ≠ .nan) :
    ∃ s, flSoft A t (.fin r) = .fin s ∧ IsRep A s ∧ (0 ≤ r → 0 ≤ s ∧ s ≤ r) ∧ (r ≤ 0 → r ≤ s ∧ s ≤ 0) ∧
      ((Flt.fin |r|).le t → s = 0) ∧ (t = .fin 0 → s = r) := by
  unfold flSoft
  cases t with
  | nan => exact absurd rfl hnan
  | ninf => exact absurd ht notNeg_ninf
  | pinf =>
    refine ⟨0, ?_, rep_zero A, fun h => ⟨le_rfl, h⟩, fun h => ⟨h, le_rfl⟩, fun _ => rfl, fun h => by cases h⟩
    exact sub_zero_rep A (rep_zero A)
  | fin t =>
    have ht := notNeg_fin.1 ht
    rcases le_total 0 r with h0 | h0
    · obtain ⟨s, h1, h2, h3, h4⟩ := clip_sub A hr h0 ht
      have e1 : (A.sub (.fin r) (.fin t)).clip0 = .fin s := h1
      have e2 : (A.sub (Flt.fin r).neg (.fin t)).clip0 = .fin 0 := clip_ofReal_nonpos A (by linarith)
      rw [e1, e2]
      refine ⟨s, sub_zero_rep A h2, h2, fun _ => ⟨h3, h4⟩, fun h => ?_, fun h => ?_, fun h => ?_⟩
      · have : r = 0 := le_antisymm h h0
        subst this
        exact ⟨h3, h4⟩
      · have h : |r| ≤ t := h
        rw [abs_of_nonneg h0] at h
        have := clip_ofReal_nonpos A (show r + -t ≤ 0 by linarith)
        rw [this] at h1
        cases h1
        rfl
      · cases h
        rw [neg_zero, add_zero, ofReal_rep A hr] at h1
        have h1 : Flt.fin (max r 0) = .fin s := h1
        rw [max_eq_left h0] at h1
        cases h1
        rfl
    · have hr' : IsRep A (-r) := ⟨by rw [A.odd, hr.1], by rw [abs_neg]; exact hr.2⟩
      obtain ⟨s, h1, h2, h3, h4⟩ := clip_sub A hr' (by linarith) ht
      have e1 : (A.sub (.fin r) (.fin t)).clip0 = .fin 0 := clip_ofReal_nonpos A (by linarith)
      have e2 : (A.sub (Flt.fin r).neg (.fin t)).clip0 = .fin s := h1
      rw [e1, e2]
      refine ⟨-s, zero_sub_rep A h2, ⟨by rw [A.odd, h2.1], by rw [abs_neg]; exact h2.2⟩, fun h => ?_, fun _ => ⟨by linarith, by linarith⟩, fun h => ?_, fun h => ?_⟩
      · have : r = 0 := le_antisymm h0 h
        subst this
        exact ⟨by linarith, by linarith⟩
      · have h : |r| ≤ t := h
        rw [abs_of_nonpos h0] at h
        have := clip_ofReal_nonpos A (show -r + -t ≤ 0 by linarith)
        rw [this] at h1
        cases h1
        exact neg_zero
      · cases h
        rw [neg_zero, add_zero, ofReal_rep A hr'] at h1
        have h1 : Flt.fin (max (-r) 0) = .fin s := h1
        rw [max_eq_left (by linarith)] at h1
        cases h1
        exact neg_neg r

/-- The argument 1 with the threshold one half, and with the threshold 2. -/
example : ∃ s, flSoft truncArith (.fin (1 / 2)) (.fin 1) = .fin s ∧ 0 ≤ s ∧ s ≤ 1 := by
  obtain ⟨s, h1, -, h2, -⟩ := C131_soft truncArith (r := 1) ⟨truncArith.one, by rw [abs_one]; exact truncArith.one_le_big⟩ (t := .fin (1 / 2)) (notNeg_fin.2 (by norm_num)) (by simp)
  exact ⟨s, h1, h2 (by norm_num)⟩

example : flSoft truncArith (.fin 2) (.fin 1) = .fin 0 := by
  obtain ⟨s, h1, -, -, -, h2, -⟩ := C131_soft truncArith (r := 1) ⟨truncArith.one, by rw [abs_one]; exact truncArith.one_le_big⟩ (t := .fin 2) (notNeg_fin.2 (by norm_num)) (by simp)
  rw [h1, h2]
  show |(1 : ℝ)| ≤ 2
  rw [abs_one]
  norm_num

theorem elastic_den {alpha eps : Flt} (ha : NotNeg alpha) (he : NotNeg eps) :
    A.add 1 (A.mul alpha eps) = .nan ∨ A.add 1 (A.mul alpha eps) = .pinf ∨ ∃ d, 1 ≤ d ∧ A.add 1 (A.mul alpha eps) = .fin d := by
  have h := notNeg_mul A ha he
  generalize A.mul alpha eps = v at h
  cases v with
  | nan => exact .inl rfl
  | pinf => exact .inr (.inl rfl)
  | ninf => exact absurd h notNeg_ninf
  | fin b =>
    right
    have hb := notNeg_fin.1 h
    show A.ofReal (1 + b) = _ ∨ ∃ d, 1 ≤ d ∧ A.ofReal (1 + b) = _
    have h1 : 1 ≤ A.rnd (1 + b) := by
      have := A.mono (show 1 ≤ 1 + b by linarith)
      rwa [A.one] at this
    unfold FArith.ofReal
    by_cases h2 : ((|A.rnd (1 + b)| : ℝ) : WithTop ℝ) ≤ A.big
    · rw [if_pos h2]
      exact .inr ⟨_, h1, rfl⟩
    · rw [if_neg h2, if_pos (by linarith)]
      exact .inl rfl

theorem div_den_notNeg {v d : Flt} (hv : NotNeg v) (hd : d = .nan ∨ d = .pinf ∨ ∃ r, 1 ≤ r ∧ d = .fin r) : NotNeg (A.div v d) := by
  rcases hd with rfl | rfl | ⟨r, hr, rfl⟩
  · cases v <;> exact notNeg_nan
  · cases v with
    | fin a => exact notNeg_fin.2 le_rfl
    | pinf => exact notNeg_nan
    | ninf => exact absurd hv notNeg_ninf
    | nan => exact notNeg_nan
  · cases v with
    | fin a =>
      show NotNeg (if r = 0 then _ else _)
      rw [if_neg (by linarith)]
      exact notNeg_ofReal A (div_nonneg (notNeg_fin.1 hv) (by linarith))
    | pinf =>
      show NotNeg (if r < 0 then _ else _)
      rw [if_neg (by linarith)]
      exact notNeg_pinf
    | ninf => exact absurd hv notNeg_ninf
    | nan => exact notNeg_nan

/-- **C131 (shrinkage of the elastic wrapper).** The division by `1 + alpha * eps` keeps the sign and does not enlarge, in every format. -/
theorem C131_elastic {r : ℝ} (hr : IsRep A r) {alpha eps : Flt} (ha : NotNeg alpha) (he : NotNeg eps) (hnan : A.mul alpha eps ≠ .nan) {n : ℕ} (x : Vec Flt n) (i : Fin n) (hx : x i = .fin r) :
    ∃ s, flElastic A eps none x alpha i = .fin s ∧ IsRep A s ∧ (0 ≤ r → 0 ≤ s ∧ s ≤ r) ∧ (r ≤ 0 → r ≤ s ∧ s ≤ 0) := by
  have hden : A.add 1 (A.mul alpha eps) ≠ .nan := by
    intro h
    have h' := notNeg_mul A ha he
    revert h h' hnan
    generalize A.mul alpha eps = v
    intro hnan h h'
    cases v with
    | nan => exact hnan rfl
    | ninf => exact notNeg_ninf h'
    | pinf => cases h
    | fin b =>
      have h : A.ofReal (1 + b) = .nan := h
      unfold FArith.ofReal at h
      split_ifs at h
  unfold flElastic
  simp only [hx]
  rcases elastic_den A ha he with h | h | ⟨d, hd, h⟩
  · exact absurd h hden
  · rw [h]
    exact ⟨0, rfl, rep_zero A, fun h => ⟨le_rfl, h⟩, fun h => ⟨h, le_rfl⟩⟩
  rw [h]
  have hle : |r / d| ≤ |r| := by
    rw [abs_div, abs_of_pos (show 0 < d by linarith)]
    exact div_le_self (abs_nonneg r) hd
  have habs : |A.rnd (r / d)| ≤ |r| := by
    rw [A.abs_rnd]
    have := A.mono hle
    rwa [← A.abs_rnd r, hr.1] at this
  have hbig : ((|A.rnd (r / d)| : ℝ) : WithTop ℝ) ≤ A.big := le_trans (WithTop.coe_le_coe.2 habs) hr.2
  refine ⟨A.rnd (r / d), ?_, ⟨A.idem _, hbig⟩, fun h0 => ?_, fun h0 => ?_⟩
  · show (if d = 0 then _ else _) = _
    rw [if_neg (by linarith)]
    unfold FArith.ofReal
    rw [if_pos hbig]
  · have h1 := A.rnd_nonneg (div_nonneg h0 (show 0 ≤ d by linarith))
    rw [abs_of_nonneg h1, abs_of_nonneg h0] at habs
    exact ⟨h1, habs⟩
  · have h1 := rnd_nonpos A (div_nonpos_of_nonpos_of_nonneg h0 (show 0 ≤ d by linarith))
    rw [abs_of_nonpos h1, abs_of_nonpos h0] at habs
    exact ⟨by linarith, h1⟩

/-- The default elastic parameters of the mixed models on the number 1. -/
example : ∃ s, flElastic truncArith (.fin 1) none (fun _ : Fin 2 => .fin 1) (.fin 1) 0 = .fin s ∧ 0 ≤ s ∧ s ≤ 1 := by
  have hm : truncArith.mul (.fin 1) (.fin 1) ≠ .nan := by
    show truncArith.ofReal (1 * 1) ≠ _
    rw [one_mul, ofReal_one]
    intro h
    cases h
  obtain ⟨s, h1, -, h2, -⟩ := C131_elastic truncArith (r := 1) ⟨truncArith.one, by rw [abs_one]; exact truncArith.one_le_big⟩ (alpha := .fin 1) (eps := .fin 1)
    (notNeg_fin.2 (by norm_num)) (notNeg_fin.2 (by norm_num)) hm (fun _ : Fin 2 => .fin 1) 0 rfl
  exact ⟨s, h1, h2 (by norm_num)⟩

/-! ### Regularizers and whole runs -/

/-- The regularizers the models put together (`linear/models.py`, `lme/models.py`), apart from SCAD: a penalty inside any number of wrappers. -/
inductive FlReg (n : ℕ) where
  | dummy
  | l0 (rank : Vec Flt n → Equiv.Perm (Fin n)) (nnz : Option ℤ)
  | l1 (lam : Flt) (weights : Option (Vec Flt n))
  | cad (rho lam : Flt) (weights : Option (Vec Flt n))
  | positive (pos : Fin n → Bool) (other : FlReg n)
  | elastic (eps : Flt) (other : FlReg n)

namespace FlReg

variable {n : ℕ}

/-- Its proximal operator. -/
noncomputable def prox : FlReg n → Vec Flt n → Flt → Vec Flt n
  | dummy => flDummy
  | l0 rank nnz => flL0 rank nnz
  | l1 lam w => flL1 A lam w
  | cad rho lam w => flCad A rho lam w
  | positive pos r => flPositive pos (some (prox r))
  | elastic eps r => flElastic A eps (some (prox r))

/-- No parameter is negative. -/
def Ok : FlReg n → Prop
  | dummy => True
  | l0 _ _ => True
  | l1 lam w => NotNeg lam ∧ ∀ v, w = some v → ∀ i, NotNeg (v i)
  | cad _ lam w => NotNeg lam ∧ ∀ v, w = some v → ∀ i, NotNeg (v i)
  | positive _ r => r.Ok
  | elastic eps r => NotNeg eps ∧ r.Ok

/-- The coordinates under a positivity constraint. -/
def guards : FlReg n → Fin n → Bool
  | positive pos r, i => pos i || r.guards i
  | elastic _ r, i => r.guards i
  | _, _ => false

/-- The number of non-zero coordinates asked for. -/
def budget : FlReg n → Option ℤ
  | l0 _ nnz => nnz
  | positive _ r => r.budget
  | elastic _ r => r.budget
  | _ => none

end FlReg

variable {n : ℕ}

theorem prox_keeps (T : FlReg n) (hT : T.Ok) (x : Vec Flt n) (alpha : Flt) (ha : NotNeg alpha) (i : Fin n) (hx : NotNeg (x i)) : NotNeg (T.prox A x alpha i) := by
  induction T generalizing x alpha with
  | dummy => exact hx
  | l0 rank nnz =>
    show NotNeg (if _ then _ else _)
    split_ifs
    · exact hx
    · exact notNeg_fin.2 le_rfl
  | l1 lam w =>
    cases w with
    | none => exact flSoft_notNeg A (notNeg_mul A ha hT.1) hx
    | some v => exact flSoft_notNeg A (notNeg_mul A (notNeg_mul A ha (hT.2 v rfl i)) hT.1) hx
  | cad rho lam w =>
    cases w with
    | none =>
      unfold FlReg.prox flCad
      simp only
      split_ifs
      · exact flSoft_notNeg A (notNeg_mul A ha hT.1) hx
      · exact hx
    | some v =>
      unfold FlReg.prox flCad
      simp only
      split_ifs
      · exact flSoft_notNeg A (notNeg_mul A (notNeg_mul A (hT.2 v rfl i) ha) hT.1) hx
      · exact hx
  | positive pos r ih =>
    refine ih hT _ _ ha ?_
    show NotNeg (if _ then _ else _)
    split_ifs
    · exact notNeg_clip _
    · exact hx
  | elastic eps r ih =>
    exact ih hT.2 _ _ (div_den_notNeg A ha (elastic_den A ha hT.1)) (div_den_notNeg A hx (elastic_den A ha hT.1))

theorem prox_guards (T : FlReg n) (hT : T.Ok) (x : Vec Flt n) (alpha : Flt) (ha : NotNeg alpha) (i : Fin n) (hi : T.guards i = true) : NotNeg (T.prox A x alpha i) := by
  induction T generalizing x alpha with
  | dummy => cases hi
  | l0 rank nnz => cases hi
  | l1 lam w => cases hi
  | cad rho lam w => cases hi
  | positive pos r ih =>
    rcases (Bool.or_eq_true _ _).mp hi with h | h
    · refine prox_keeps A r hT _ _ ha i ?_
      show NotNeg (if _ then _ else _)
      rw [if_pos h]
      exact notNeg_clip _
    · exact ih hT _ _ ha h
  | elastic eps r ih => exact ih hT.2 _ _ (div_den_notNeg A ha (elastic_den A ha hT.1)) hi

theorem kmax_count (rank : Vec Flt n → Equiv.Perm (Fin n)) (x : Vec Flt n) (k : ℤ) : Set.ncard {i | flKMax rank x k i ≠ 0} ≤ k.toNat := by
  have hsub : {i | flKMax rank x k i ≠ 0} ⊆ (rank x) ⁻¹' {j | 0 < k ∧ (n : ℤ) - k ≤ j.val} := by
    intro i hi
    by_contra h
    exact hi (if_neg h)
  refine le_trans (Set.ncard_le_ncard hsub (Set.toFinite _)) ?_
  rw [← Set.ncard_image_of_injective _ (rank x).injective, Equiv.image_preimage]
  by_cases hk : 0 < k
  · have : {j : Fin n | 0 < k ∧ (n : ℤ) - k ≤ j.val} ⊆ (fun j : Fin n => j) '' {j : Fin n | n - k.toNat ≤ j.val} := by
      rintro j ⟨-, h⟩
      exact ⟨j, by show n - k.toNat ≤ j.val; omega, rfl⟩
    refine le_trans (Set.ncard_le_ncard this (Set.toFinite _)) ?_
    rw [Set.image_id']
    rw [← Set.ncard_image_of_injective _ (Fin.val_injective (n := n))]
    have h2 : (Fin.val '' {j : Fin n | n - k.toNat ≤ j.val}) ⊆ ↑(Finset.Ico (n - k.toNat) n) := by
      rintro _ ⟨j, hj, rfl⟩
      simp only [Finset.coe_Ico, Set.mem_Ico]
      exact ⟨hj, j.isLt⟩
    refine le_trans (Set.ncard_le_ncard h2 (Finset.finite_toSet _)) ?_
    rw [Set.ncard_coe_finset, Nat.card_Ico]
    omega
  · have : {j : Fin n | 0 < k ∧ (n : ℤ) - k ≤ j.val} = ∅ := by
      ext j
      simp [hk]
    rw [this, Set.ncard_empty]
    exact Nat.zero_le _

theorem prox_budget (T : FlReg n) {k : ℤ} (hk : T.budget = some k) (x : Vec Flt n) (alpha : Flt) : Set.ncard {i | T.prox A x alpha i ≠ 0} ≤ k.toNat := by
  induction T generalizing x alpha with
  | dummy => cases hk
  | l0 rank nnz =>
    have hk : nnz = some k := hk
    subst hk
    exact kmax_count rank x k
  | l1 lam w => cases hk
  | cad rho lam w => cases hk
  | positive pos r ih => exact ih hk _ _
  | elastic eps r ih => exact ih hk _ _

theorem flLineSearch_nonneg (P : FlProblem n) (x d : Vec Flt n) (s : ℝ) (hs : 0 ≤ s) : 0 ≤ flLineSearch A P x d s := by
  induction hm : ⌈Real.logb (4 / 3) (s * 10 ^ 15)⌉₊ using Nat.strong_induction_on generalizing s with
  | _ m ih =>
    rw [flLineSearch]
    split_ifs with h1 h2
    · exact hs
    · exact ih _ (hm ▸ fl_halving A s h1) _ (A.rnd_nonneg (by linarith)) rfl
    · exact hs

/-- **C131.** At the end of every run of at least one pass, in every format, with every oracle (rounded, overflowing, returning NaN), with every step policy: no coordinate under a
positivity constraint is below zero, and at most the asked number of coordinates differ from zero, exactly. -/
theorem C131_run (T : FlReg n) (hT : T.Ok) (value : Vec Flt n → Flt) (grad : Vec Flt n → Vec Flt n) (cfg : FlCfg) (hstep : 0 ≤ cfg.fixedStepLen) (x0 : Vec Flt n)
    (hit : 0 < (flOptimize A ⟨value, grad, T.prox A⟩ cfg x0).iteration) :
    (∀ i, T.guards i = true → ¬ ((flOptimize A ⟨value, grad, T.prox A⟩ cfg x0).x i).lt 0) ∧
      ∀ k, T.budget = some k → Set.ncard {i | (flOptimize A ⟨value, grad, T.prox A⟩ cfg x0).x i ≠ 0} ≤ k.toNat := by
  obtain ⟨-, hx, -⟩ := C130_report_partial A ⟨value, grad, T.prox A⟩ cfg x0
  obtain ⟨j, hj⟩ := Nat.exists_eq_succ_of_ne_zero hit.ne'
  rw [hj, Function.iterate_succ_apply'] at hx
  have hb : ∃ y s, 0 ≤ s ∧ (flOptimize A ⟨value, grad, T.prox A⟩ cfg x0).x = T.prox A y (.fin s) := by
    rw [hx]
    unfold flBody
    simp only
    split_ifs
    · exact ⟨_, _, flLineSearch_nonneg A _ _ _ _ hstep, rfl⟩
    · exact ⟨_, _, hstep, rfl⟩
  obtain ⟨y, s, hs, e⟩ := hb
  rw [e]
  exact ⟨fun i hi => prox_guards A T hT _ _ (notNeg_fin.2 hs) i hi, fun k hk => prox_budget A T hk _ _⟩

/-- The regularizer of the L0 mixed model on two fixed effects and two random effects, the default step policy, an arbitrary oracle, started at ones. -/
example (value : Vec Flt 4 → Flt) (grad : Vec Flt 4 → Vec Flt 4) :
    let T : FlReg 4 := .elastic (.fin 1) (.positive (fun i => decide (2 ≤ i.val)) (.l0 (fun _ => Equiv.refl _) (some 2)))
    let r := flOptimize truncArith ⟨value, grad, T.prox truncArith⟩ ⟨.fin 0, 10, "line-search", 1⟩ fun _ => 1
    (¬ (r.x 2).lt 0 ∧ ¬ (r.x 3).lt 0) ∧ Set.ncard {i | r.x i ≠ 0} ≤ 2 := by
  intro T r
  have hit : 0 < r.iteration :=
    (C130_report_partial truncArith ⟨value, grad, T.prox truncArith⟩ ⟨.fin 0, 10, "line-search", 1⟩ fun _ => 1).2.2.2.2 (by norm_num) (by norm_num) ⟨0, rfl⟩ ⟨fun _ => 1, rfl⟩
  obtain ⟨h1, h2⟩ := C131_run truncArith T ⟨notNeg_fin.2 (by norm_num), trivial⟩ value grad ⟨.fin 0, 10, "line-search", 1⟩ (by norm_num) (fun _ => 1) hit
  exact ⟨⟨h1 2 rfl, h1 3 rfl⟩, h2 2 rfl⟩

end

end Verif
