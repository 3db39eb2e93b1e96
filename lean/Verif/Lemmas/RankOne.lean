import Mathlib.Analysis.Calculus.Deriv.Inv
import Mathlib.Analysis.SpecialFunctions.Log.Deriv
import Mathlib.LinearAlgebra.Matrix.PosDef
import Mathlib.LinearAlgebra.Matrix.SchurComplement
import Mathlib.Algebra.Order.Star.Real
import Mathlib.Tactic.Linarith
import Mathlib.Tactic.FieldSimp
import Mathlib.Tactic.LinearCombination

/-!
# Rank-one perturbations of a positive definite matrix and their derivatives
-/

open Matrix Filter Topology

namespace Verif

variable {n : ℕ} {A : Matrix (Fin n) (Fin n) ℝ}

/-- `A + t z zᵀ`. -/
def rankOne (A : Matrix (Fin n) (Fin n) ℝ) (z : Fin n → ℝ) (t : ℝ) : Matrix (Fin n) (Fin n) ℝ :=
  A + t • vecMulVec z z

theorem posDef_transpose_eq (hA : A.PosDef) : Aᵀ = A := by
  have := hA.isHermitian
  rwa [Matrix.IsHermitian, conjTranspose_eq_transpose_of_trivial] at this

theorem posDef_inv_transpose_eq (hA : A.PosDef) : (A⁻¹)ᵀ = A⁻¹ := by
  rw [Matrix.transpose_nonsing_inv, posDef_transpose_eq hA]

theorem posDef_det_unit (hA : A.PosDef) : IsUnit A.det := (Matrix.isUnit_iff_isUnit_det _).1 hA.isUnit

theorem posDef_inv_symm_dot (hA : A.PosDef) (u v : Fin n → ℝ) : u ⬝ᵥ (A⁻¹ *ᵥ v) = v ⬝ᵥ (A⁻¹ *ᵥ u) := by
  conv_lhs => rw [Matrix.dotProduct_mulVec, ← posDef_inv_transpose_eq hA, Matrix.vecMul_transpose,
    dotProduct_comm]

/-- The set of step sizes for which the perturbation stays positive definite contains a neighbourhood of 0. -/
theorem eventually_small (a : ℝ) : ∀ᶠ t in 𝓝 (0 : ℝ), |t| * a < 1 := by
  have : Continuous fun t : ℝ => |t| * a := by fun_prop
  have h := this.tendsto 0
  simp only [abs_zero, zero_mul] at h
  exact h.eventually (gt_mem_nhds one_pos)

theorem inv_quad_nonneg (hA : A.PosDef) (z : Fin n → ℝ) : 0 ≤ z ⬝ᵥ (A⁻¹ *ᵥ z) := by
  have := hA.inv.posSemidef.dotProduct_mulVec_nonneg z
  simpa using this

theorem rankOne_posDef (hA : A.PosDef) (z : Fin n → ℝ) {t : ℝ} (ht : |t| * (z ⬝ᵥ (A⁻¹ *ᵥ z)) < 1) :
    (rankOne A z t).PosDef := by
  set a := z ⬝ᵥ (A⁻¹ *ᵥ z) with ha
  refine PosDef.of_dotProduct_mulVec_pos ?_ fun x hx => ?_
  · rw [Matrix.IsHermitian, conjTranspose_eq_transpose_of_trivial, rankOne, Matrix.transpose_add,
      Matrix.transpose_smul, transpose_vecMulVec, posDef_transpose_eq hA]
  · have e1 : star x ⬝ᵥ (rankOne A z t *ᵥ x) = x ⬝ᵥ (A *ᵥ x) + t * (z ⬝ᵥ x) ^ 2 := by
      rw [star_trivial, rankOne, Matrix.add_mulVec, dotProduct_add, Matrix.smul_mulVec, dotProduct_smul,
        vecMulVec_mulVec, dotProduct_smul, smul_eq_mul, dotProduct_comm x z]
      simp only [MulOpposite.smul_eq_mul_unop, MulOpposite.unop_op]
      ring
    rw [e1]
    have hpos : 0 < x ⬝ᵥ (A *ᵥ x) := by simpa using hA.dotProduct_mulVec_pos hx
    rcases le_or_gt 0 t with h0 | h0
    · have := mul_nonneg h0 (sq_nonneg (z ⬝ᵥ x))
      linarith
    · by_cases hy : z ⬝ᵥ x = 0
      · rw [hy]; simpa using hpos
      · rw [abs_of_neg h0] at ht
        -- (x - s w)ᵀ A (x - s w) ≥ 0 with w = A⁻¹ z, s = -t (zᵀ x)
        set y := z ⬝ᵥ x with hyd
        set s := -t * y with hs
        have hq : 0 ≤ (x - s • (A⁻¹ *ᵥ z)) ⬝ᵥ (A *ᵥ (x - s • (A⁻¹ *ᵥ z))) := by
          simpa using hA.posSemidef.dotProduct_mulVec_nonneg (x - s • (A⁻¹ *ᵥ z))
        have hw : A *ᵥ (A⁻¹ *ᵥ z) = z := by
          rw [Matrix.mulVec_mulVec, Matrix.mul_nonsing_inv _ (posDef_det_unit hA), Matrix.one_mulVec]
        have hw2 : (A⁻¹ *ᵥ z) ⬝ᵥ (A *ᵥ x) = y := by
          rw [Matrix.dotProduct_mulVec, ← posDef_transpose_eq hA, Matrix.vecMul_transpose,
            posDef_transpose_eq hA, hw]
        have e2 : (x - s • (A⁻¹ *ᵥ z)) ⬝ᵥ (A *ᵥ (x - s • (A⁻¹ *ᵥ z)))
            = x ⬝ᵥ (A *ᵥ x) - 2 * s * y + s ^ 2 * a := by
          rw [Matrix.mulVec_sub, Matrix.mulVec_smul, hw, sub_dotProduct, dotProduct_sub, dotProduct_sub,
            smul_dotProduct, smul_dotProduct, dotProduct_smul, dotProduct_smul, hw2, dotProduct_comm x z,
            dotProduct_comm (A⁻¹ *ᵥ z) z, ← ha, ← hyd]
          simp only [smul_eq_mul]
          ring
        rw [e2, hs] at hq
        have hy2 : 0 < y ^ 2 := by positivity
        have h5 : 0 < -t * y ^ 2 * (1 - -t * a) := mul_pos (mul_pos (by linarith) hy2) (by linarith)
        nlinarith [hq, h5]

theorem one_add_pos {a t : ℝ} (ha : 0 ≤ a) (ht : |t| * a < 1) : 0 < 1 + t * a := by
  have := neg_abs_le t
  nlinarith

theorem rankOne_inv (hA : A.PosDef) (z : Fin n → ℝ) {t : ℝ} (ht : 1 + t * (z ⬝ᵥ (A⁻¹ *ᵥ z)) ≠ 0) :
    (rankOne A z t)⁻¹ =
      A⁻¹ - (t / (1 + t * (z ⬝ᵥ (A⁻¹ *ᵥ z)))) • vecMulVec (A⁻¹ *ᵥ z) (A⁻¹ *ᵥ z) := by
  set a := z ⬝ᵥ (A⁻¹ *ᵥ z) with ha
  refine Matrix.inv_eq_right_inv ?_
  have hw : A *ᵥ (A⁻¹ *ᵥ z) = z := by
    rw [Matrix.mulVec_mulVec, Matrix.mul_nonsing_inv _ (posDef_det_unit hA), Matrix.one_mulVec]
  have hz : z ᵥ* A⁻¹ = A⁻¹ *ᵥ z := by
    conv_lhs => rw [← posDef_inv_transpose_eq hA, Matrix.vecMul_transpose]
  rw [rankOne, Matrix.add_mul, Matrix.mul_sub, Matrix.mul_sub, Matrix.mul_nonsing_inv _ (posDef_det_unit hA),
    Matrix.mul_smul, mul_vecMulVec, hw, Matrix.smul_mul, vecMulVec_mul, hz, Matrix.mul_smul, Matrix.smul_mul,
    vecMulVec_mul, vecMul_vecMulVec, ← ha, vecMulVec_smul]
  ext i j
  simp only [Matrix.add_apply, Matrix.sub_apply, Matrix.smul_apply, smul_eq_mul]
  field_simp
  ring

theorem rankOne_det (hA : A.PosDef) (z : Fin n → ℝ) (t : ℝ) :
    (rankOne A z t).det = A.det * (1 + t * (z ⬝ᵥ (A⁻¹ *ᵥ z))) := by
  have h := Matrix.det_add_replicateCol_mul_replicateRow (ι := Unit) (posDef_det_unit hA) (t • z) z
  have e1 : replicateCol Unit (t • z) * replicateRow Unit z = t • vecMulVec z z := by
    ext i j
    simp [Matrix.mul_apply, vecMulVec_apply, mul_assoc]
  have e2 : (1 + replicateRow Unit z * A⁻¹ * replicateCol Unit (t • z)).det
      = 1 + t * (z ⬝ᵥ (A⁻¹ *ᵥ z)) := by
    rw [Matrix.det_unique, Matrix.add_apply, Matrix.one_apply_eq, Matrix.mul_assoc]
    congr 1
    have : A⁻¹ * replicateCol Unit (t • z) = replicateCol Unit (t • (A⁻¹ *ᵥ z)) := by
      ext i j
      have := congrFun (Matrix.mulVec_smul A⁻¹ t z) i
      simpa [Matrix.mul_apply, Matrix.mulVec, dotProduct] using this
    rw [this, Matrix.mul_apply]
    simp only [replicateRow_apply, replicateCol_apply, Pi.smul_apply, smul_eq_mul, dotProduct, Finset.mul_sum]
    exact Finset.sum_congr rfl fun i _ => by ring
  rw [rankOne, ← e1, h, e2]

theorem hasDerivAt_frac (a : ℝ) : HasDerivAt (fun t : ℝ => t / (1 + t * a)) 1 0 := by
  have h1 : HasDerivAt (fun t : ℝ => t) 1 0 := hasDerivAt_id 0
  have h2 : HasDerivAt (fun t : ℝ => 1 + t * a) (1 * a) 0 := (h1.mul_const a).const_add 1
  have h3 := h1.div h2 (by simp)
  convert! h3 using 1
  simp

/-- Derivative of a bilinear form of the inverse. -/
theorem hasDerivAt_inv_form (hA : A.PosDef) (z u v : Fin n → ℝ) :
    HasDerivAt (fun t => u ⬝ᵥ ((rankOne A z t)⁻¹ *ᵥ v))
      (-((z ⬝ᵥ (A⁻¹ *ᵥ u)) * (z ⬝ᵥ (A⁻¹ *ᵥ v)))) 0 := by
  set a := z ⬝ᵥ (A⁻¹ *ᵥ z) with ha
  have hev : (fun t => u ⬝ᵥ ((rankOne A z t)⁻¹ *ᵥ v)) =ᶠ[𝓝 0]
      fun t => u ⬝ᵥ (A⁻¹ *ᵥ v) - t / (1 + t * a) * ((z ⬝ᵥ (A⁻¹ *ᵥ u)) * (z ⬝ᵥ (A⁻¹ *ᵥ v))) := by
    filter_upwards [eventually_small a] with t ht
    have hne := (one_add_pos (inv_quad_nonneg hA z) ht).ne'
    rw [rankOne_inv hA z hne, Matrix.sub_mulVec, dotProduct_sub, Matrix.smul_mulVec, dotProduct_smul,
      vecMulVec_mulVec, dotProduct_smul, ← ha]
    simp only [MulOpposite.smul_eq_mul_unop, MulOpposite.unop_op, smul_eq_mul]
    rw [posDef_inv_symm_dot hA u z, dotProduct_comm (A⁻¹ *ᵥ z) v, posDef_inv_symm_dot hA v z]
  refine HasDerivAt.congr_of_eventuallyEq ?_ hev
  have := ((hasDerivAt_frac a).mul_const ((z ⬝ᵥ (A⁻¹ *ᵥ u)) * (z ⬝ᵥ (A⁻¹ *ᵥ v)))).const_sub
    (u ⬝ᵥ (A⁻¹ *ᵥ v))
  simpa using this

/-- Derivative of the log-determinant. -/
theorem hasDerivAt_logdet (hA : A.PosDef) (z : Fin n → ℝ) :
    HasDerivAt (fun t => Real.log (rankOne A z t).det) (z ⬝ᵥ (A⁻¹ *ᵥ z)) 0 := by
  set a := z ⬝ᵥ (A⁻¹ *ᵥ z) with ha
  have h1 : HasDerivAt (fun t : ℝ => A.det * (1 + t * a)) (A.det * (1 * a)) 0 :=
    (((hasDerivAt_id (0 : ℝ)).mul_const a).const_add 1).const_mul A.det
  have hdet : A.det ≠ 0 := (posDef_det_unit hA).ne_zero
  have h2 := h1.log (by simpa using hdet)
  have e : (fun t => Real.log (rankOne A z t).det) = fun t => Real.log (A.det * (1 + t * a)) := by
    funext t
    rw [rankOne_det hA]
  rw [e]
  convert! h2 using 1
  simp only [zero_mul, add_zero, mul_one, one_mul]
  field_simp

end Verif
