import Verif.Model.Regularizers
import Verif.Spec.Prox
import Mathlib.Tactic.Linarith
import Mathlib.Tactic.Ring
import Mathlib.Tactic.FieldSimp
import Mathlib.Tactic.Positivity
import Mathlib.Algebra.Order.BigOperators.Group.Finset

/-! Scalar facts about soft-thresholding, CAD and SCAD. -/

namespace Verif

variable {K : Type*} [Field K] [LinearOrder K] [IsStrictOrderedRing K]

theorem soft_of_ge {t x : K} (ht : 0 ≤ t) (h : t ≤ x) : soft t x = x - t := by
  unfold soft clip0
  rw [max_eq_left (by linarith), max_eq_right (by linarith)]; ring

theorem soft_of_le_neg {t x : K} (ht : 0 ≤ t) (h : x ≤ -t) : soft t x = x + t := by
  unfold soft clip0
  rw [max_eq_right (by linarith), max_eq_left (by linarith)]; ring

theorem soft_of_abs_le {t x : K} (h : |x| ≤ t) : soft t x = 0 := by
  obtain ⟨h1, h2⟩ := abs_le.1 h
  unfold soft clip0
  rw [max_eq_right (by linarith), max_eq_right (by linarith)]; ring

theorem soft_cases {t : K} (x : K) (ht : 0 ≤ t) :
    (t < x ∧ soft t x = x - t) ∨ (x < -t ∧ soft t x = x + t) ∨ (|x| ≤ t ∧ soft t x = 0) := by
  by_cases h1 : t < x
  · exact Or.inl ⟨h1, soft_of_ge ht h1.le⟩
  · by_cases h2 : x < -t
    · exact Or.inr (Or.inl ⟨h2, soft_of_le_neg ht h2.le⟩)
    · have : |x| ≤ t := abs_le.2 ⟨by linarith, by linarith⟩
      exact Or.inr (Or.inr ⟨this, soft_of_abs_le this⟩)

theorem soft_zero (x : K) : soft 0 x = x := by
  rcases soft_cases x (le_refl (0 : K)) with ⟨_, h⟩ | ⟨_, h⟩ | ⟨h1, h⟩
  · simpa using h
  · simpa using h
  · have : x = 0 := by simpa using h1
    rw [h, this]

theorem soft_neg (t x : K) : soft t (-x) = -soft t x := by
  unfold soft; rw [neg_neg]; ring

/-- Strong-convexity inequality of the soft-thresholding problem. -/
theorem soft_strong (t x u : K) (ht : 0 ≤ t) :
    t * |soft t x| + (soft t x - x) ^ 2 / 2 + (u - soft t x) ^ 2 / 2 ≤ t * |u| + (u - x) ^ 2 / 2 := by
  have hu1 := le_abs_self u
  have hu2 := neg_abs_le u
  rcases soft_cases x ht with ⟨h, hs⟩ | ⟨h, hs⟩ | ⟨h, hs⟩
  · rw [hs, abs_of_pos (by linarith : 0 < x - t)]
    nlinarith
  · rw [hs, abs_of_neg (by linarith : x + t < 0)]
    nlinarith
  · rw [hs, abs_zero]
    obtain ⟨h1, h2⟩ := abs_le.1 h
    rcases le_or_gt 0 u with h0 | h0
    · rw [abs_of_nonneg h0]; nlinarith
    · rw [abs_of_neg h0]; nlinarith

theorem soft_isProx (t x u : K) (ht : 0 ≤ t) :
    t * |soft t x| + (soft t x - x) ^ 2 / 2 ≤ t * |u| + (u - x) ^ 2 / 2 := by
  have := soft_strong t x u ht
  have := sq_nonneg (u - soft t x)
  linarith

theorem soft_eq_zero_iff {t x : K} (ht : 0 ≤ t) : soft t x = 0 ↔ |x| ≤ t := by
  constructor
  · intro h0
    rcases soft_cases x ht with ⟨h, hs⟩ | ⟨h, hs⟩ | ⟨h, hs⟩
    · rw [hs] at h0; linarith
    · rw [hs] at h0; linarith
    · exact h
  · exact soft_of_abs_le

/-- Between `0` and `x`. -/
def Shrinks (x z : K) : Prop := (0 ≤ z ∧ z ≤ x) ∨ (x ≤ z ∧ z ≤ 0)

theorem Shrinks.abs_le {x z : K} (h : Shrinks x z) : |z| ≤ |x| := by
  rcases h with ⟨h1, h2⟩ | ⟨h1, h2⟩
  · rw [abs_of_nonneg h1, abs_of_nonneg (h1.trans h2)]; exact h2
  · rw [abs_of_nonpos h2, abs_of_nonpos (h1.trans h2)]; linarith

theorem Shrinks.sign {x z : K} (h : Shrinks x z) : 0 ≤ x * z := by
  rcases h with ⟨h1, h2⟩ | ⟨h1, h2⟩
  · exact mul_nonneg (h1.trans h2) h1
  · exact mul_nonneg_of_nonpos_of_nonpos (h1.trans h2) h2

theorem Shrinks.refl (x : K) : Shrinks x x := by
  rcases le_total 0 x with h | h
  · exact Or.inl ⟨h, le_refl _⟩
  · exact Or.inr ⟨le_refl _, h⟩

theorem Shrinks.zero (x : K) : Shrinks x 0 := by
  rcases le_total 0 x with h | h
  · exact Or.inl ⟨le_refl _, h⟩
  · exact Or.inr ⟨h, le_refl _⟩

theorem Shrinks.nonneg {x z : K} (h : Shrinks x z) (hx : 0 ≤ x) : 0 ≤ z := by
  rcases h with ⟨h1, _⟩ | ⟨h1, _⟩
  · exact h1
  · linarith

theorem soft_shrinks {t : K} (x : K) (ht : 0 ≤ t) : Shrinks x (soft t x) := by
  rcases soft_cases x ht with ⟨h, hs⟩ | ⟨h, hs⟩ | ⟨_, hs⟩
  · left; rw [hs]; constructor <;> linarith
  · right; rw [hs]; constructor <;> linarith
  · rw [hs]; exact Shrinks.zero x

theorem soft_firm {t : K} (x y : K) (ht : 0 ≤ t) :
    (soft t x - soft t y) ^ 2 ≤ (soft t x - soft t y) * (x - y) := by
  have hx := soft_strong t x (soft t y) ht
  have hy := soft_strong t y (soft t x) ht
  nlinarith

/-! ### CAD -/

/-- CAD, inputs below the cut-off. -/
theorem cad_small (t rho x u : K) (ht : 0 ≤ t) (hx : |x| ≤ rho) :
    t * min |soft t x| rho + (soft t x - x) ^ 2 / 2 ≤ t * min |u| rho + (u - x) ^ 2 / 2 := by
  have hs : |soft t x| ≤ rho := (soft_shrinks x ht).abs_le.trans hx
  rw [min_eq_left hs]
  rcases le_total |u| rho with hu | hu
  · rw [min_eq_left hu]; exact soft_isProx t x u ht
  · rw [min_eq_right hu]
    have h1 := soft_isProx t x x ht
    have h2 : t * |x| ≤ t * rho := mul_le_mul_of_nonneg_left hx ht
    have h3 := sq_nonneg (u - x)
    have h4 : (x - x) ^ 2 / 2 = 0 := by simp
    linarith

theorem sq_abs_sub_le (u x : K) : (|x| - |u|) ^ 2 ≤ (u - x) ^ 2 := by
  have h : |x| * |u| ≥ x * u := by rw [← abs_mul]; exact le_abs_self _
  have h1 := sq_abs x
  have h2 := sq_abs u
  nlinarith

/-- CAD, inputs beyond the competing band are rightly left alone. -/
theorem cad_large (t rho x u : K) (ht : 0 ≤ t) (hx : rho + t / 2 ≤ |x|) :
    t * min |x| rho + (x - x) ^ 2 / 2 ≤ t * min |u| rho + (u - x) ^ 2 / 2 := by
  have hx' : rho ≤ |x| := by linarith
  rw [min_eq_right hx', sub_self]
  have hsq := sq_abs_sub_le u x
  rcases le_total |u| rho with hu | hu
  · rw [min_eq_left hu]
    have h0 : 0 ≤ rho - |u| := by linarith
    have h1 : (rho - |u| + t / 2) ^ 2 ≤ (|x| - |u|) ^ 2 := by
      apply pow_le_pow_left₀ (by linarith)
      linarith
    have h2 := sq_nonneg (rho - |u| - t / 2)
    nlinarith
  · rw [min_eq_right hu]
    have := sq_nonneg (u - x)
    simp; linarith

/-- CAD, inside the band soft-thresholding is strictly better than keeping the input. -/
theorem cad_band (t rho x : K) (hx1 : rho < |x|) (hx2 : |x| < rho + t / 2) (ht : t ≤ |x|) :
    t * min |soft t x| rho + (soft t x - x) ^ 2 / 2 < t * min |x| rho + (x - x) ^ 2 / 2 := by
  have ht0 : 0 < t := by linarith
  rw [min_eq_right hx1.le, sub_self]
  have hle : min |soft t x| rho ≤ |soft t x| := min_le_left _ _
  have hmul : t * min |soft t x| rho ≤ t * |soft t x| := mul_le_mul_of_nonneg_left hle ht0.le
  have habs : |soft t x| = |x| - t := by
    rcases le_total 0 x with h | h
    · rw [abs_of_nonneg h] at *
      rw [soft_of_ge ht0.le ht, abs_of_nonneg (by linarith)]
    · rw [abs_of_nonpos h] at *
      rw [soft_of_le_neg ht0.le (by linarith), abs_of_nonpos (by linarith)]; ring
  have hd : (soft t x - x) ^ 2 = t ^ 2 := by
    rcases le_total 0 x with h | h
    · rw [abs_of_nonneg h] at *
      rw [soft_of_ge ht0.le ht]; ring
    · rw [abs_of_nonpos h] at *
      rw [soft_of_le_neg ht0.le (by linarith)]; ring
  rw [hd]
  rw [habs] at hmul
  nlinarith

/-! ### SCAD -/

/-- The derivative of the SCAD penalty on `[0, ∞)`. -/
def scadSlope (rho sigma z : K) : K :=
  if z < sigma then sigma else if z ≤ rho * sigma then (rho * sigma - z) / (rho - 1) else 0

theorem scadTerm_abs (rho sigma w x : K) : scadTerm rho sigma w |x| = scadTerm rho sigma w x := by
  unfold scadTerm; rw [abs_abs, sq_abs]

theorem scadTerm_weight (rho sigma w x : K) : scadTerm rho sigma w x = w * scadTerm rho sigma 1 x := by
  unfold scadTerm; split_ifs <;> ring

/-- `2(rho-1) S(u) + u^2`, piecewise. -/
theorem scad_pieces (rho sigma u : K) (hr : 1 < rho) (hs : 0 ≤ sigma) (hu : 0 ≤ u) :
    (u < sigma ∧ scadTerm rho sigma 1 u = sigma * u ∧ scadSlope rho sigma u = sigma) ∨
    (sigma ≤ u ∧ u ≤ rho * sigma ∧ scadTerm rho sigma 1 u * (2 * (rho - 1)) = -u ^ 2 + 2 * rho * sigma * u - sigma ^ 2 ∧
      scadSlope rho sigma u * (rho - 1) = rho * sigma - u) ∨
    (sigma ≤ u ∧ rho * sigma < u ∧ scadTerm rho sigma 1 u = sigma ^ 2 * (rho + 1) / 2 ∧ scadSlope rho sigma u = 0) := by
  have hr' : rho - 1 ≠ 0 := by intro h; linarith
  unfold scadTerm scadSlope
  rw [abs_of_nonneg hu]
  by_cases h1 : u < sigma
  · left; simp [h1]
  · have h1' : sigma ≤ u := not_lt.1 h1
    by_cases h2 : u ≤ rho * sigma
    · right; left
      refine ⟨h1', h2, ?_, ?_⟩
      · simp only [h1, if_false, h1', h2, and_self, if_true, one_mul]
        field_simp
      · simp only [h1, if_false, h2, if_true]
        field_simp
    · right; right
      refine ⟨h1', not_le.1 h2, ?_, ?_⟩
      · simp [h1, h2]
      · simp [h1, h2]

/-- SCAD is weakly convex on `[0, ∞)` with modulus `1/(rho-1)`. -/
theorem scad_weak_convex (rho sigma u z : K) (hr : 1 < rho) (hs : 0 ≤ sigma) (hu : 0 ≤ u) (hz : 0 ≤ z) :
    2 * (rho - 1) * (scadTerm rho sigma 1 z + scadSlope rho sigma z * (u - z)) - (u - z) ^ 2
      ≤ 2 * (rho - 1) * scadTerm rho sigma 1 u := by
  have hr0 : 0 < rho - 1 := by linarith
  rcases scad_pieces rho sigma u hr hs hu with ⟨a1, a2, _⟩ | ⟨a1, a2, a3, _⟩ | ⟨a1, a2, a3, _⟩ <;>
  rcases scad_pieces rho sigma z hr hs hz with ⟨b1, b2, b3⟩ | ⟨b1, b2, b3, b4⟩ | ⟨b1, b2, b3, b4⟩
  · rw [a2, b2, b3]; nlinarith [sq_nonneg (u - z)]
  · rw [a2]
    have : 2 * (rho - 1) * (scadTerm rho sigma 1 z + scadSlope rho sigma z * (u - z)) =
      (-z ^ 2 + 2 * rho * sigma * z - sigma ^ 2) + 2 * (rho * sigma - z) * (u - z) := by
      rw [← b3, ← b4]; ring
    rw [this]
    nlinarith [sq_nonneg (sigma - u)]
  · rw [a2, b3, b4]
    nlinarith [mul_nonneg hs hr0.le, sq_nonneg (sigma - u), mul_nonneg hr0.le hs, mul_nonneg (sub_nonneg.2 a1.le) (sub_nonneg.2 b2.le)]
  · rw [b2, b3]
    have : 2 * (rho - 1) * scadTerm rho sigma 1 u = -u ^ 2 + 2 * rho * sigma * u - sigma ^ 2 := by rw [← a3]; ring
    rw [this]
    nlinarith [mul_nonneg (sub_nonneg.2 b1.le) (sub_nonneg.2 a1)]
  · have h1 : 2 * (rho - 1) * scadTerm rho sigma 1 u = -u ^ 2 + 2 * rho * sigma * u - sigma ^ 2 := by rw [← a3]; ring
    have h2 : 2 * (rho - 1) * (scadTerm rho sigma 1 z + scadSlope rho sigma z * (u - z)) =
      (-z ^ 2 + 2 * rho * sigma * z - sigma ^ 2) + 2 * (rho * sigma - z) * (u - z) := by
      rw [← b3, ← b4]; ring
    rw [h1, h2]
    nlinarith
  · have h1 : 2 * (rho - 1) * scadTerm rho sigma 1 u = -u ^ 2 + 2 * rho * sigma * u - sigma ^ 2 := by rw [← a3]; ring
    rw [h1, b3, b4]
    nlinarith [mul_nonneg (sub_nonneg.2 a2) (sub_nonneg.2 b2.le), sq_nonneg (rho * sigma - z)]
  · rw [a3, b2, b3]
    nlinarith [mul_nonneg (sub_nonneg.2 b1.le) (sub_nonneg.2 a2.le), sq_nonneg (sigma * rho - sigma), sq_nonneg (u - rho * sigma), sq_nonneg (u - z), sq_nonneg (z - sigma)]
  · have h2 : 2 * (rho - 1) * (scadTerm rho sigma 1 z + scadSlope rho sigma z * (u - z)) =
      (-z ^ 2 + 2 * rho * sigma * z - sigma ^ 2) + 2 * (rho * sigma - z) * (u - z) := by
      rw [← b3, ← b4]; ring
    rw [h2, a3]
    nlinarith [sq_nonneg (rho * sigma - u)]
  · rw [a3, b3, b4]; nlinarith [sq_nonneg (u - z)]

/-- The optimality certificate used for SCAD: `x - z` is `ae` times a (sub)slope at `z`. -/
theorem scad_certificate (rho sigma ae x z u : K) (hr : 1 < rho) (hs : 0 ≤ sigma) (hae : 0 ≤ ae)
    (hz : 0 ≤ z) (hzx : z ≤ x) (hcase : x - z = ae * scadSlope rho sigma z ∨ (z = 0 ∧ x ≤ ae * scadSlope rho sigma 0)) :
    2 * (rho - 1) * (ae * scadTerm rho sigma 1 z + (z - x) ^ 2 / 2) + (rho - 1 - ae) * (u - z) ^ 2
      ≤ 2 * (rho - 1) * (ae * scadTerm rho sigma 1 u + (u - x) ^ 2 / 2) := by
  have hr0 : 0 < rho - 1 := by linarith
  have hw := scad_weak_convex rho sigma |u| z hr hs (abs_nonneg u) hz
  rw [scadTerm_abs] at hw
  have hw' := mul_le_mul_of_nonneg_left hw hae
  have hsq : u ^ 2 = |u| ^ 2 := (sq_abs u).symm
  have hd : 0 ≤ |u| - u := sub_nonneg.2 (le_abs_self u)
  have hu0 := abs_nonneg u
  have key : 2 * (rho - 1) * (ae * scadTerm rho sigma 1 z + (z - x) ^ 2 / 2) + (rho - 1 - ae) * (|u| - z) ^ 2
      ≤ 2 * (rho - 1) * (ae * scadTerm rho sigma 1 u + (|u| - x) ^ 2 / 2) := by
    rcases hcase with h | ⟨h1, h2⟩
    · have h3 : ae * scadSlope rho sigma z * (|u| - z) = (x - z) * (|u| - z) := by rw [h]
      nlinarith
    · subst h1
      have h3 : x * |u| ≤ ae * scadSlope rho sigma 0 * |u| := mul_le_mul_of_nonneg_right h2 hu0
      nlinarith
  have hcross : (rho - 1 - ae) * (2 * z * (|u| - u)) ≤ (rho - 1) * (2 * x * (|u| - u)) := by
    have h1 : z * (|u| - u) ≤ x * (|u| - u) := mul_le_mul_of_nonneg_right hzx hd
    have h2 : 0 ≤ z * (|u| - u) := mul_nonneg hz hd
    nlinarith
  nlinarith

theorem npSign_neg (x : K) : npSign (-x) = -npSign x := by
  unfold npSign
  rcases lt_trichotomy x 0 with h | h | h
  · simp [h, not_lt.2 h.le]
  · simp [h]
  · simp [h, not_lt.2 h.le]

theorem scadProx1_neg (rho sigma w ae x z : K) (h : scadProx1 rho sigma w ae x = .ok z) :
    scadProx1 rho sigma w ae (-x) = .ok (-z) := by
  unfold scadProx1 at *
  rw [abs_neg, npSign_neg, soft_neg]
  split_ifs at h ⊢ <;> simp_all
  rw [← h]; ring

/-- SCAD prox for non-negative inputs in the strongly convex regime. -/
theorem scadProx1_pos (rho sigma w ae x : K) (hr : 1 < rho) (hs : 0 ≤ sigma) (hae : 0 ≤ ae) (hlt : ae < rho - 1)
    (hw : w ≠ 0) (hx : 0 ≤ x) :
    ∃ z, scadProx1 rho sigma w ae x = .ok z ∧ 0 ≤ z ∧ z ≤ x ∧
      (x - z = ae * scadSlope rho sigma z ∨ (z = 0 ∧ x ≤ ae * scadSlope rho sigma 0)) := by
  have hmax : max rho (1 + ae) = rho := max_eq_left (by linarith)
  have hd : 0 < rho - 1 - ae := by linarith
  have hr0 : 0 < rho - 1 := by linarith
  unfold scadProx1
  rw [hmax, abs_of_nonneg hx]
  simp only [hw, if_false]
  by_cases h1 : x > rho * sigma
  · refine ⟨x, by simp [h1], hx, le_refl _, Or.inl ?_⟩
    have hsx : ¬ x < sigma := by nlinarith
    unfold scadSlope
    simp [hsx, not_le.2 h1]
  · have h1' : x ≤ rho * sigma := not_lt.1 h1
    by_cases h2 : sigma * (1 + ae) ≤ x
    · have hmid : npSign x * rho * sigma * ae = rho * sigma * ae := by
        rcases hx.lt_or_eq with h | h
        · simp [npSign, h]
        · have : sigma = 0 := by
            have : sigma * (1 + ae) ≤ 0 := by rw [h]; exact h2
            nlinarith
          simp [this]
      set z := ((rho - 1) * x - rho * sigma * ae) / (rho - 1 - ae) with hzdef
      have hzmul : z * (rho - 1 - ae) = (rho - 1) * x - rho * sigma * ae := by
        rw [hzdef]; field_simp
      have hz1 : sigma ≤ z := by
        rw [hzdef, le_div_iff₀ hd]; nlinarith
      have hz2 : z ≤ rho * sigma := by
        rw [hzdef, div_le_iff₀ hd]; nlinarith
      have hslope : scadSlope rho sigma z * (rho - 1) = rho * sigma - z := by
        unfold scadSlope
        rw [if_neg (not_lt.2 hz1), if_pos hz2]; field_simp
      have hxz : x - z = ae * scadSlope rho sigma z := by
        have : (x - z) * (rho - 1) = ae * scadSlope rho sigma z * (rho - 1) := by
          rw [mul_assoc, hslope]; linarith
        exact mul_right_cancel₀ hr0.ne' this
      have hsl0 : 0 ≤ scadSlope rho sigma z := by
        by_contra hneg
        push Not at hneg
        nlinarith
      refine ⟨z, ?_, hs.trans hz1, ?_, Or.inl hxz⟩
      · simp only [h1, if_false, h2, h1', and_self, if_true, hd.ne', hmid, hzdef]
      · have := mul_nonneg hae hsl0
        linarith
    · have h2' : x < sigma * (1 + ae) := not_le.1 h2
      have hspos : 0 < sigma := by
        rcases hs.lt_or_eq with h | h
        · exact h
        · rw [← h] at h2'; simp at h2'; linarith
      have hslope0 : scadSlope rho sigma 0 = sigma := by simp [scadSlope, hspos]
      have hsa : 0 ≤ sigma * ae := mul_nonneg hs hae
      refine ⟨soft (sigma * ae) x, by simp [h1, h2], ?_⟩
      rcases soft_cases x hsa with ⟨h, h3⟩ | ⟨h, h3⟩ | ⟨h, h3⟩
      · rw [h3]
        refine ⟨by linarith, by linarith, Or.inl ?_⟩
        have : x - sigma * ae < sigma := by linarith
        simp [scadSlope, this]; ring
      · linarith
      · rw [h3]
        refine ⟨le_refl _, hx, Or.inr ⟨rfl, ?_⟩⟩
        rw [hslope0]; rw [abs_of_nonneg hx] at h; linarith

/-- Exactness of the SCAD prox, with the quadratic growth which gives uniqueness. -/
theorem scadProx1_strong (rho sigma w ae x : K) (hr : 1 < rho) (hs : 0 ≤ sigma) (hae : 0 ≤ ae) (hlt : ae < rho - 1)
    (hw : w ≠ 0) :
    ∃ z, scadProx1 rho sigma w ae x = .ok z ∧ Shrinks x z ∧ ∀ u,
      2 * (rho - 1) * (ae * scadTerm rho sigma 1 z + (z - x) ^ 2 / 2) + (rho - 1 - ae) * (u - z) ^ 2
        ≤ 2 * (rho - 1) * (ae * scadTerm rho sigma 1 u + (u - x) ^ 2 / 2) := by
  rcases le_total 0 x with hx | hx
  · obtain ⟨z, h1, h2, h3, h4⟩ := scadProx1_pos rho sigma w ae x hr hs hae hlt hw hx
    exact ⟨z, h1, Or.inl ⟨h2, h3⟩, fun u => scad_certificate rho sigma ae x z u hr hs hae h2 h3 h4⟩
  · obtain ⟨z, h1, h2, h3, h4⟩ := scadProx1_pos rho sigma w ae (-x) hr hs hae hlt hw (by linarith)
    refine ⟨-z, ?_, Or.inr ⟨by linarith, by linarith⟩, fun u => ?_⟩
    · have := scadProx1_neg _ _ _ _ _ _ h1
      rwa [neg_neg] at this
    · have := scad_certificate rho sigma ae (-x) z (-u) hr hs hae h2 h3 h4
      rw [← scadTerm_abs rho sigma 1 (-z), ← scadTerm_abs rho sigma 1 u, abs_neg, scadTerm_abs]
      rw [← scadTerm_abs rho sigma 1 (-u), abs_neg] at this
      have e1 : (-z - x) ^ 2 = (z - -x) ^ 2 := by ring
      have e2 : (u - x) ^ 2 = (-u - -x) ^ 2 := by ring
      have e3 : (u - -z) ^ 2 = (-u - z) ^ 2 := by ring
      rw [e1, e2, e3]
      exact this

end Verif
