import Mathlib.Probability.Distributions.Gaussian.Real
import Mathlib.MeasureTheory.Integral.Pi
import Mathlib.MeasureTheory.Integral.Prod
import Mathlib.Analysis.SpecialFunctions.Gaussian.GaussianIntegral
import Verif.Lemmas.RankOne

/-!
# Integrals of Gaussian densities over Gaussian random effects
-/

open Matrix MeasureTheory ProbabilityTheory
open scoped NNReal

namespace Verif

noncomputable section

/-- The density of `N(0, A)` without the factor `(2π)^(-n/2)`. -/
def dens {n : ℕ} (A : Matrix (Fin n) (Fin n) ℝ) (r : Fin n → ℝ) : ℝ := Real.exp (-(1 / 2 * (r ⬝ᵥ (A⁻¹ *ᵥ r)))) / √A.det

theorem integral_exp_quadratic {c : ℝ} (hc : 0 < c) (a b : ℝ) :
    ∫ t : ℝ, Real.exp (-(1 / 2 * (a - 2 * b * t + c * t ^ 2))) = Real.exp (-(1 / 2 * (a - b ^ 2 / c))) * √(2 * Real.pi / c) := by
  have e : ∀ t : ℝ, Real.exp (-(1 / 2 * (a - 2 * b * t + c * t ^ 2))) = Real.exp (-(1 / 2 * (a - b ^ 2 / c))) * Real.exp (-(c / 2) * (t - b / c) ^ 2) := fun t => by
    rw [← Real.exp_add]
    congr 1
    field_simp
    ring
  simp_rw [e]
  rw [integral_const_mul, integral_sub_right_eq_self (fun t => Real.exp (-(c / 2) * t ^ 2)), integral_gaussian]
  congr 2
  field_simp

theorem integral_gaussianReal_exp (γ : ℝ≥0) {c : ℝ} (hc : 0 ≤ c) (a b : ℝ) :
    ∫ t, Real.exp (-(1 / 2 * (a - 2 * b * t + c * t ^ 2))) ∂gaussianReal 0 γ =
      Real.exp (-(1 / 2 * (a - γ * b ^ 2 / (1 + γ * c)))) / √(1 + γ * c) := by
  by_cases hγ : γ = 0
  · subst hγ
    rw [gaussianReal_zero_var, integral_dirac]
    simp
  · have hγ' : (0 : ℝ) < γ := lt_of_le_of_ne γ.2 fun h => hγ (NNReal.coe_eq_zero.1 h.symm)
    rw [integral_gaussianReal_eq_integral_smul hγ]
    have e : ∀ t : ℝ, gaussianPDFReal 0 γ t • Real.exp (-(1 / 2 * (a - 2 * b * t + c * t ^ 2))) =
        (√(2 * Real.pi * γ))⁻¹ * Real.exp (-(1 / 2 * (a - 2 * b * t + (c + 1 / γ) * t ^ 2))) := fun t => by
      rw [gaussianPDFReal, smul_eq_mul, mul_assoc, ← Real.exp_add]
      congr 2
      field_simp
      ring
    simp_rw [e]
    have hc' : 0 < c + 1 / (γ : ℝ) := by positivity
    have h1 : (0 : ℝ) < 1 + γ * c := by positivity
    rw [integral_const_mul, integral_exp_quadratic hc', show b ^ 2 / (c + 1 / (γ : ℝ)) = γ * b ^ 2 / (1 + γ * c) by field_simp; ring,
      show 2 * Real.pi / (c + 1 / (γ : ℝ)) = 2 * Real.pi * γ / (1 + γ * c) by field_simp; ring,
      Real.sqrt_div (by positivity)]
    have : √(2 * Real.pi * γ) ≠ 0 := by positivity
    field_simp

variable {n : ℕ} {A : Matrix (Fin n) (Fin n) ℝ}

theorem posDef_rankOne_nonneg (hA : A.PosDef) (z : Fin n → ℝ) {t : ℝ} (ht : 0 ≤ t) : (rankOne A z t).PosDef := by
  refine hA.add_posSemidef ?_
  have h : (vecMulVec z z).PosSemidef := by
    have := Matrix.posSemidef_vecMulVec_self_star z
    simpa using this
  exact h.smul ht

theorem integral_dens_rankOne (hA : A.PosDef) (z r : Fin n → ℝ) (γ : ℝ≥0) :
    ∫ t, dens A (r - t • z) ∂gaussianReal 0 γ = dens (rankOne A z γ) r := by
  have hc := inv_quad_nonneg hA z
  have h1 : (0 : ℝ) < 1 + γ * (z ⬝ᵥ (A⁻¹ *ᵥ z)) := by positivity
  have e : ∀ t : ℝ, dens A (r - t • z) = (√A.det)⁻¹ *
      Real.exp (-(1 / 2 * (r ⬝ᵥ (A⁻¹ *ᵥ r) - 2 * (z ⬝ᵥ (A⁻¹ *ᵥ r)) * t + z ⬝ᵥ (A⁻¹ *ᵥ z) * t ^ 2))) := fun t => by
    rw [dens, div_eq_inv_mul]
    congr 3
    simp only [Matrix.mulVec_sub, Matrix.mulVec_smul, sub_dotProduct, dotProduct_sub, smul_dotProduct, dotProduct_smul, smul_eq_mul]
    rw [posDef_inv_symm_dot hA r z]
    ring
  simp_rw [e]
  rw [integral_const_mul, integral_gaussianReal_exp γ hc, dens, rankOne_det hA, Real.sqrt_mul hA.det_pos.le, rankOne_inv hA z h1.ne']
  simp only [Matrix.sub_mulVec, Matrix.smul_mulVec, dotProduct_sub, dotProduct_smul, smul_eq_mul, vecMulVec_mulVec]
  have e2 : (A⁻¹ *ᵥ z) ⬝ᵥ r = z ⬝ᵥ (A⁻¹ *ᵥ r) := by rw [dotProduct_comm, posDef_inv_symm_dot hA]
  rw [e2, posDef_inv_symm_dot hA r z, MulOpposite.smul_eq_mul_unop, MulOpposite.unop_op, ← pow_two]
  have : √A.det ≠ 0 := (Real.sqrt_pos.2 hA.det_pos).ne'
  have : √(1 + γ * (z ⬝ᵥ (A⁻¹ *ᵥ z))) ≠ 0 := (Real.sqrt_pos.2 h1).ne'
  rw [show (γ : ℝ) * (z ⬝ᵥ (A⁻¹ *ᵥ r)) ^ 2 / (1 + γ * (z ⬝ᵥ (A⁻¹ *ᵥ z))) = γ / (1 + γ * (z ⬝ᵥ (A⁻¹ *ᵥ z))) * (z ⬝ᵥ (A⁻¹ *ᵥ r)) ^ 2 by ring]
  field_simp

theorem dens_nonneg (A : Matrix (Fin n) (Fin n) ℝ) (r : Fin n → ℝ) : 0 ≤ dens A r := by
  unfold dens
  positivity

theorem dens_le (hA : A.PosDef) (r : Fin n → ℝ) : dens A r ≤ 1 / √A.det := by
  unfold dens
  have := inv_quad_nonneg hA r
  gcongr
  rw [Real.exp_le_one_iff]
  linarith

theorem continuous_dens (A : Matrix (Fin n) (Fin n) ℝ) : Continuous (dens A) := by
  unfold dens
  fun_prop

theorem integrable_of_bounded {α : Type*} [MeasurableSpace α] {μ : Measure α} [IsFiniteMeasure μ] {f : α → ℝ} (hf : Measurable f) (C : ℝ) (h : ∀ x, |f x| ≤ C) : Integrable f μ :=
  Integrable.of_bound hf.aestronglyMeasurable C (.of_forall h)

/-- The sum of the covariance of the errors and of the random effects. -/
theorem posDef_margin {q : ℕ} (hA : A.PosDef) (Z : Matrix (Fin n) (Fin q) ℝ) {γ : Fin q → ℝ} (hγ : ∀ j, 0 ≤ γ j) : (Z * diagonal γ * Zᵀ + A).PosDef := by
  rw [add_comm]
  refine hA.add_posSemidef ?_
  have := (PosSemidef.diagonal hγ).mul_mul_conjTranspose_same Z
  rwa [conjTranspose_eq_transpose_of_trivial] at this

theorem margin_succ {q : ℕ} (A : Matrix (Fin n) (Fin n) ℝ) (Z : Matrix (Fin n) (Fin (q + 1)) ℝ) (γ : Fin (q + 1) → ℝ) :
    Z * diagonal γ * Zᵀ + A = rankOne (Z.submatrix id Fin.succ * diagonal (fun j => γ j.succ) * (Z.submatrix id Fin.succ)ᵀ + A) (fun i => Z i 0) (γ 0) := by
  ext i k
  have h : ∀ {q : ℕ} (Z : Matrix (Fin n) (Fin q) ℝ) (γ : Fin q → ℝ), (Z * diagonal γ * Zᵀ) i k = ∑ j, Z i j * γ j * Z k j := fun Z γ => by
    rw [Matrix.mul_apply]
    simp only [Matrix.mul_diagonal, Matrix.transpose_apply]
  simp only [rankOne, Matrix.add_apply, h, Matrix.smul_apply, vecMulVec_apply, Matrix.submatrix_apply, id_eq, smul_eq_mul]
  rw [Fin.sum_univ_succ]
  ring

/-- Integrating the density of the errors over independent Gaussian random effects gives the density of the marginal distribution. -/
theorem integral_dens {q : ℕ} (hA : A.PosDef) (Z : Matrix (Fin n) (Fin q) ℝ) (γ : Fin q → ℝ≥0) (r : Fin n → ℝ) :
    ∫ u, dens A (r - Z *ᵥ u) ∂Measure.pi (fun j => gaussianReal 0 (γ j)) = dens (Z * diagonal (fun j => (γ j : ℝ)) * Zᵀ + A) r := by
  induction q generalizing r with
  | zero =>
    have : Z * diagonal (fun j => (γ j : ℝ)) * Zᵀ = 0 := by
      ext i k
      simp [Matrix.mul_apply]
    rw [this, zero_add]
    have e : ∀ u : Fin 0 → ℝ, dens A (r - Z *ᵥ u) = dens A r := fun u => by
      congr 1
      funext i
      simp
    simp_rw [e]
    simp
  | succ q ih =>
    obtain ⟨z0, hz0⟩ : ∃ z0 : Fin n → ℝ, z0 = fun i => Z i 0 := ⟨_, rfl⟩
    obtain ⟨Z', hZ'⟩ : ∃ Z', Z' = Z.submatrix id Fin.succ := ⟨_, rfl⟩
    have e : ∀ (t : ℝ) (u : Fin q → ℝ), Z *ᵥ (Fin.cons t u : Fin (q + 1) → ℝ) = t • z0 + Z' *ᵥ u := fun t u => by
      funext i
      simp only [Matrix.mulVec, dotProduct, Fin.sum_univ_succ, Fin.cons_zero, Fin.cons_succ, Pi.add_apply, Pi.smul_apply, smul_eq_mul, hz0, hZ', Matrix.submatrix_apply, id_eq]
      ring
    have hmeas : Measurable fun x : ℝ × (Fin q → ℝ) => dens A (r - (x.1 • z0 + Z' *ᵥ x.2)) := by
      refine Continuous.measurable ((continuous_dens A).comp ?_)
      fun_prop
    have step : ∀ t : ℝ, ∫ u, dens A (r - (t • z0 + Z' *ᵥ u)) ∂Measure.pi (fun j : Fin q => gaussianReal 0 (γ j.succ)) =
        dens (Z' * diagonal (fun j => (γ j.succ : ℝ)) * Z'ᵀ + A) (r - t • z0) := fun t => by
      have := ih Z' (fun j => γ j.succ) (r - t • z0)
      rw [← this]
      simp_rw [sub_sub]
    have hpd : (Z' * diagonal (fun j : Fin q => (γ j.succ : ℝ)) * Z'ᵀ + A).PosDef := posDef_margin hA Z' fun j => NNReal.coe_nonneg _
    calc ∫ u, dens A (r - Z *ᵥ u) ∂Measure.pi (fun j => gaussianReal 0 (γ j))
        = ∫ x : ℝ × (Fin q → ℝ), dens A (r - (x.1 • z0 + Z' *ᵥ x.2)) ∂(gaussianReal 0 (γ 0)).prod (Measure.pi fun j : Fin q => gaussianReal 0 (γ j.succ)) := by
          rw [← ((measurePreserving_piFinSuccAbove (fun j : Fin (q + 1) => gaussianReal 0 (γ j)) 0).symm).integral_comp']
          refine integral_congr_ae (.of_forall fun x => ?_)
          simp only [MeasurableEquiv.piFinSuccAbove_symm_apply, Fin.insertNthEquiv, Fin.insertNth_zero, Equiv.coe_fn_mk]
          rw [← e]
          rfl
      _ = ∫ t, ∫ u, dens A (r - (t • z0 + Z' *ᵥ u)) ∂Measure.pi (fun j : Fin q => gaussianReal 0 (γ j.succ)) ∂gaussianReal 0 (γ 0) := by
          refine integral_prod _ (integrable_of_bounded hmeas (1 / √A.det) fun x => ?_)
          rw [abs_of_nonneg (dens_nonneg _ _)]
          exact dens_le hA _
      _ = ∫ t, dens (Z' * diagonal (fun j => (γ j.succ : ℝ)) * Z'ᵀ + A) (r - t • z0) ∂gaussianReal 0 (γ 0) := by
          simp_rw [step]
      _ = _ := by
          rw [integral_dens_rankOne hpd, margin_succ A Z, ← hZ', ← hz0]

/-! ## The distribution of one random effect given the data -/

theorem integral_gaussianReal_tilt (γ : ℝ≥0) {c : ℝ} (hc : 0 ≤ c) (a b : ℝ) (φ : ℝ → ℝ) :
    ∫ t, φ t * Real.exp (-(1 / 2 * (a - 2 * b * t + c * t ^ 2))) ∂gaussianReal 0 γ =
      Real.exp (-(1 / 2 * (a - γ * b ^ 2 / (1 + γ * c)))) / √(1 + γ * c) *
        ∫ t, φ t ∂gaussianReal (γ * b / (1 + γ * c)) (γ / (1 + γ * c.toNNReal)) := by
  by_cases hγ : γ = 0
  · subst hγ
    simp [gaussianReal_zero_var, integral_dirac, mul_comm]
  · have hγ' : (0 : ℝ) < γ := lt_of_le_of_ne γ.2 fun h => hγ (NNReal.coe_eq_zero.1 h.symm)
    have h1 : (0 : ℝ) < 1 + γ * c := by positivity
    have hv : γ / (1 + γ * c.toNNReal) ≠ 0 := div_ne_zero hγ (by positivity)
    rw [integral_gaussianReal_eq_integral_smul hγ, integral_gaussianReal_eq_integral_smul hv, ← integral_const_mul]
    refine integral_congr_ae (.of_forall fun t => ?_)
    simp only [gaussianPDFReal, smul_eq_mul, NNReal.coe_div, NNReal.coe_add, NNReal.coe_one, NNReal.coe_mul, Real.coe_toNNReal c hc]
    have e1 : √(2 * Real.pi * (γ / (1 + γ * c))) = √(2 * Real.pi * γ) / √(1 + γ * c) := by
      rw [← mul_div_assoc, Real.sqrt_div (by positivity)]
    have e2 : Real.exp (-(t - 0) ^ 2 / (2 * γ)) * Real.exp (-(1 / 2 * (a - 2 * b * t + c * t ^ 2))) =
        Real.exp (-(1 / 2 * (a - γ * b ^ 2 / (1 + γ * c)))) * Real.exp (-(t - γ * b / (1 + γ * c)) ^ 2 / (2 * (γ / (1 + γ * c)))) := by
      rw [← Real.exp_add, ← Real.exp_add]
      congr 1
      field_simp
      ring
    rw [e1, inv_div]
    have h2 : √(1 + γ * c) ≠ 0 := (Real.sqrt_pos.2 h1).ne'
    have h3 : √(2 * Real.pi * γ) ≠ 0 := by positivity
    calc _ = (√(2 * Real.pi * γ))⁻¹ * φ t * (Real.exp (-(t - 0) ^ 2 / (2 * γ)) * Real.exp (-(1 / 2 * (a - 2 * b * t + c * t ^ 2)))) := by ring
      _ = _ := by
        rw [e2]
        field_simp

theorem rankOne_inv_quad (hA : A.PosDef) (z r : Fin n → ℝ) {t : ℝ} (ht : 0 ≤ t) :
    z ⬝ᵥ ((rankOne A z t)⁻¹ *ᵥ r) = z ⬝ᵥ (A⁻¹ *ᵥ r) / (1 + t * (z ⬝ᵥ (A⁻¹ *ᵥ z))) := by
  have hc := inv_quad_nonneg hA z
  have h1 : (0 : ℝ) < 1 + t * (z ⬝ᵥ (A⁻¹ *ᵥ z)) := by positivity
  rw [rankOne_inv hA z h1.ne', Matrix.sub_mulVec, Matrix.smul_mulVec, vecMulVec_mulVec, dotProduct_sub, dotProduct_smul, dotProduct_smul, MulOpposite.smul_eq_mul_unop, MulOpposite.unop_op,
    show (A⁻¹ *ᵥ z) ⬝ᵥ r = z ⬝ᵥ (A⁻¹ *ᵥ r) by rw [dotProduct_comm, posDef_inv_symm_dot hA], smul_eq_mul]
  field_simp
  ring

theorem integral_dens_rankOne_tilt (hA : A.PosDef) (z r : Fin n → ℝ) (γ : ℝ≥0) (φ : ℝ → ℝ) :
    ∫ t, φ t * dens A (r - t • z) ∂gaussianReal 0 γ = dens (rankOne A z γ) r *
      ∫ t, φ t ∂gaussianReal (γ * (z ⬝ᵥ ((rankOne A z γ)⁻¹ *ᵥ r))) (γ * (1 - γ * (z ⬝ᵥ ((rankOne A z γ)⁻¹ *ᵥ z)))).toNNReal := by
  have hc := inv_quad_nonneg hA z
  have h1 : (0 : ℝ) < 1 + γ * (z ⬝ᵥ (A⁻¹ *ᵥ z)) := by positivity
  rw [← integral_dens_rankOne hA]
  have e : ∀ t : ℝ, dens A (r - t • z) = (√A.det)⁻¹ *
      Real.exp (-(1 / 2 * (r ⬝ᵥ (A⁻¹ *ᵥ r) - 2 * (z ⬝ᵥ (A⁻¹ *ᵥ r)) * t + z ⬝ᵥ (A⁻¹ *ᵥ z) * t ^ 2))) := fun t => by
    rw [dens, div_eq_inv_mul]
    congr 3
    simp only [Matrix.mulVec_sub, Matrix.mulVec_smul, sub_dotProduct, dotProduct_sub, smul_dotProduct, dotProduct_smul, smul_eq_mul]
    rw [posDef_inv_symm_dot hA r z]
    ring
  simp_rw [e, mul_left_comm (φ _)]
  rw [integral_const_mul, integral_const_mul, integral_gaussianReal_tilt γ hc, integral_gaussianReal_exp γ hc, rankOne_inv_quad hA z r γ.coe_nonneg, rankOne_inv_quad hA z z γ.coe_nonneg, ← mul_assoc]
  have e1 : (γ : ℝ) * (z ⬝ᵥ (A⁻¹ *ᵥ r) / (1 + γ * (z ⬝ᵥ (A⁻¹ *ᵥ z)))) = γ * (z ⬝ᵥ (A⁻¹ *ᵥ r)) / (1 + γ * (z ⬝ᵥ (A⁻¹ *ᵥ z))) := by ring
  have e2 : ((γ : ℝ) * (1 - γ * (z ⬝ᵥ (A⁻¹ *ᵥ z) / (1 + γ * (z ⬝ᵥ (A⁻¹ *ᵥ z)))))).toNNReal = γ / (1 + γ * (z ⬝ᵥ (A⁻¹ *ᵥ z)).toNNReal) := by
    have : (γ : ℝ) * (1 - γ * (z ⬝ᵥ (A⁻¹ *ᵥ z) / (1 + γ * (z ⬝ᵥ (A⁻¹ *ᵥ z))))) = ((γ / (1 + γ * (z ⬝ᵥ (A⁻¹ *ᵥ z)).toNNReal) : ℝ≥0) : ℝ) := by
      rw [NNReal.coe_div, NNReal.coe_add, NNReal.coe_mul, NNReal.coe_one, Real.coe_toNNReal _ hc]
      field_simp
      ring
    rw [this, Real.toNNReal_coe]
  rw [e2, e1]

theorem margin_succAbove {q : ℕ} (A : Matrix (Fin n) (Fin n) ℝ) (Z : Matrix (Fin n) (Fin (q + 1)) ℝ) (γ : Fin (q + 1) → ℝ) (j : Fin (q + 1)) :
    Z * diagonal γ * Zᵀ + A =
      rankOne (Z.submatrix id j.succAbove * diagonal (fun k => γ (j.succAbove k)) * (Z.submatrix id j.succAbove)ᵀ + A) (fun i => Z i j) (γ j) := by
  ext i k
  have h : ∀ {q : ℕ} (Z : Matrix (Fin n) (Fin q) ℝ) (γ : Fin q → ℝ), (Z * diagonal γ * Zᵀ) i k = ∑ j, Z i j * γ j * Z k j := fun Z γ => by
    rw [Matrix.mul_apply]
    simp only [Matrix.mul_diagonal, Matrix.transpose_apply]
  simp only [rankOne, Matrix.add_apply, h, Matrix.smul_apply, vecMulVec_apply, Matrix.submatrix_apply, id_eq, smul_eq_mul]
  rw [Fin.sum_univ_succAbove _ j]
  ring

/-- The distribution of one random effect given the data is normal. -/
theorem integral_dens_tilt {q : ℕ} (hA : A.PosDef) (Z : Matrix (Fin n) (Fin q) ℝ) (γ : Fin q → ℝ≥0) (r : Fin n → ℝ) (j : Fin q) (φ : ℝ → ℝ)
    (hφ : Integrable φ (gaussianReal 0 (γ j))) :
    ∫ u, φ (u j) * dens A (r - Z *ᵥ u) ∂Measure.pi (fun j => gaussianReal 0 (γ j)) = dens (Z * diagonal (fun j => (γ j : ℝ)) * Zᵀ + A) r *
      ∫ t, φ t ∂gaussianReal (γ j * ((fun i => Z i j) ⬝ᵥ ((Z * diagonal (fun j => (γ j : ℝ)) * Zᵀ + A)⁻¹ *ᵥ r)))
        (γ j * (1 - γ j * ((fun i => Z i j) ⬝ᵥ ((Z * diagonal (fun j => (γ j : ℝ)) * Zᵀ + A)⁻¹ *ᵥ fun i => Z i j)))).toNNReal := by
  cases q with
  | zero => exact j.elim0
  | succ q =>
    obtain ⟨z0, hz0⟩ : ∃ z0 : Fin n → ℝ, z0 = fun i => Z i j := ⟨_, rfl⟩
    obtain ⟨Z', hZ'⟩ : ∃ Z', Z' = Z.submatrix id j.succAbove := ⟨_, rfl⟩
    have e : ∀ (t : ℝ) (u : Fin q → ℝ), Z *ᵥ (j.insertNth t u : Fin (q + 1) → ℝ) = t • z0 + Z' *ᵥ u := fun t u => by
      funext i
      simp only [Matrix.mulVec, dotProduct, Fin.sum_univ_succAbove _ j, Fin.insertNth_apply_same, Fin.insertNth_apply_succAbove, Pi.add_apply, Pi.smul_apply, smul_eq_mul, hz0, hZ',
        Matrix.submatrix_apply, id_eq]
      ring
    have hmeas : Measurable fun x : ℝ × (Fin q → ℝ) => dens A (r - (x.1 • z0 + Z' *ᵥ x.2)) := by
      refine Continuous.measurable ((continuous_dens A).comp ?_)
      fun_prop
    have step : ∀ t : ℝ, ∫ u, φ t * dens A (r - (t • z0 + Z' *ᵥ u)) ∂Measure.pi (fun k : Fin q => gaussianReal 0 (γ (j.succAbove k))) =
        φ t * dens (Z' * diagonal (fun k => (γ (j.succAbove k) : ℝ)) * Z'ᵀ + A) (r - t • z0) := fun t => by
      rw [integral_const_mul]
      have := integral_dens hA Z' (fun k => γ (j.succAbove k)) (r - t • z0)
      rw [← this]
      simp_rw [sub_sub]
    have hpd : (Z' * diagonal (fun k : Fin q => (γ (j.succAbove k) : ℝ)) * Z'ᵀ + A).PosDef := posDef_margin hA Z' fun k => NNReal.coe_nonneg _
    calc ∫ u, φ (u j) * dens A (r - Z *ᵥ u) ∂Measure.pi (fun j => gaussianReal 0 (γ j))
        = ∫ x : ℝ × (Fin q → ℝ), φ x.1 * dens A (r - (x.1 • z0 + Z' *ᵥ x.2)) ∂(gaussianReal 0 (γ j)).prod (Measure.pi fun k : Fin q => gaussianReal 0 (γ (j.succAbove k))) := by
          rw [← ((measurePreserving_piFinSuccAbove (fun k : Fin (q + 1) => gaussianReal 0 (γ k)) j).symm).integral_comp']
          refine integral_congr_ae (.of_forall fun x => ?_)
          simp only [MeasurableEquiv.piFinSuccAbove_symm_apply, Fin.insertNthEquiv, Equiv.coe_fn_mk, Fin.insertNth_apply_same]
          rw [← e]
      _ = ∫ t, ∫ u, φ t * dens A (r - (t • z0 + Z' *ᵥ u)) ∂Measure.pi (fun k : Fin q => gaussianReal 0 (γ (j.succAbove k))) ∂gaussianReal 0 (γ j) := by
          refine integral_prod _ ?_
          have h1 : Integrable (fun x : ℝ × (Fin q → ℝ) => φ x.1) ((gaussianReal 0 (γ j)).prod (Measure.pi fun k : Fin q => gaussianReal 0 (γ (j.succAbove k)))) := hφ.comp_fst _
          refine h1.mul_bdd (c := 1 / √A.det) hmeas.aestronglyMeasurable (.of_forall fun x => ?_)
          rw [Real.norm_eq_abs, abs_of_nonneg (dens_nonneg _ _)]
          exact dens_le hA _
      _ = ∫ t, φ t * dens (Z' * diagonal (fun k => (γ (j.succAbove k) : ℝ)) * Z'ᵀ + A) (r - t • z0) ∂gaussianReal 0 (γ j) := by
          simp_rw [step]
      _ = _ := by
          rw [integral_dens_rankOne_tilt hpd, margin_succAbove A Z _ j, ← hZ', ← hz0]

/-- The product of normal densities is the density of the diagonal covariance. -/
theorem prod_gaussianPDFReal (y m : Fin n → ℝ) (l : Fin n → ℝ≥0) (hl : ∀ i, 0 < l i) :
    ∏ i, gaussianPDFReal (m i) (l i) (y i) = (√(2 * Real.pi) ^ n)⁻¹ * dens (diagonal fun i => (l i : ℝ)) (y - m) := by
  have hl' : ∀ i, (0 : ℝ) < l i := fun i => hl i
  have hinv : (diagonal fun i => (l i : ℝ))⁻¹ = diagonal fun i => (l i : ℝ)⁻¹ := by
    refine Matrix.inv_eq_right_inv ?_
    rw [diagonal_mul_diagonal, ← diagonal_one]
    congr 1
    funext i
    exact mul_inv_cancel₀ (hl' i).ne'
  have hdet : (diagonal fun i => (l i : ℝ)).det = ∏ i, (l i : ℝ) := det_diagonal
  have hs : √(∏ i, (l i : ℝ)) = ∏ i, √(l i : ℝ) := by
    refine Finset.induction_on (Finset.univ : Finset (Fin n)) (by simp) fun i s hi ih => ?_
    rw [Finset.prod_insert hi, Finset.prod_insert hi, Real.sqrt_mul (hl' i).le, ih]
  rw [dens, hinv, hdet, hs]
  simp only [gaussianPDFReal]
  rw [Finset.prod_mul_distrib, ← Real.exp_sum, Finset.prod_inv_distrib]
  have e1 : ∏ i, √(2 * Real.pi * (l i : ℝ)) = √(2 * Real.pi) ^ n * ∏ i, √(l i : ℝ) := by
    simp_rw [fun i => Real.sqrt_mul (show (0 : ℝ) ≤ 2 * Real.pi by positivity) (l i : ℝ)]
    rw [Finset.prod_mul_distrib]
    simp
  have e2 : ∑ i, -(y i - m i) ^ 2 / (2 * (l i : ℝ)) = -(1 / 2 * ((y - m) ⬝ᵥ ((diagonal fun i => (l i : ℝ)⁻¹) *ᵥ (y - m)))) := by
    simp only [mulVec_diagonal, dotProduct, Pi.sub_apply]
    rw [Finset.mul_sum, ← Finset.sum_neg_distrib]
    refine Finset.sum_congr rfl fun i _ => ?_
    have := (hl' i).ne'
    field_simp
  rw [e1, e2, mul_inv]
  ring

end

end Verif
