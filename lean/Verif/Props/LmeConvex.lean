import Mathlib.Analysis.Matrix.PosDef
import Mathlib.Analysis.Convex.Function
import Verif.Props.LmeValue

/-!
# C111 (the relaxed mixed-effects loss is convex for enough relaxation), C80 (optimality of the inner solver)
-/

open Matrix

namespace Verif

variable {p q : ℕ}

/-! ## Matrix inequalities -/

theorem log_det_le_trace {n : ℕ} {M : Matrix (Fin n) (Fin n) ℝ} (hM : M.PosDef) : Real.log M.det ≤ M.trace - n := by
  have h1 : M.det = ∏ i, hM.isHermitian.eigenvalues i := by simpa using hM.isHermitian.det_eq_prod_eigenvalues
  have h2 : M.trace = ∑ i, hM.isHermitian.eigenvalues i := by simpa using hM.isHermitian.trace_eq_sum_eigenvalues
  rw [h1, h2, Real.log_prod fun i _ => (hM.eigenvalues_pos i).ne']
  calc ∑ i, Real.log (hM.isHermitian.eigenvalues i) ≤ ∑ i, (hM.isHermitian.eigenvalues i - 1) :=
        Finset.sum_le_sum fun i _ => Real.log_le_sub_one_of_pos (hM.eigenvalues_pos i)
    _ = _ := by simp

/-- Concavity of `log det`. -/
theorem log_det_concave {n : ℕ} {A B C : Matrix (Fin n) (Fin n) ℝ} (hA : A.PosDef) (hB : B.PosDef) (hC : Cᵀ * C = B⁻¹) :
    Real.log A.det ≤ Real.log B.det + (B⁻¹ * (A - B)).trace := by
  have hu : IsUnit B.det := posDef_det_unit hB
  have hCu : IsUnit C := by
    rw [Matrix.isUnit_iff_isUnit_det]
    have : C.det * C.det = (B⁻¹).det := by rw [← hC, Matrix.det_mul, Matrix.det_transpose]
    have h2 : (B⁻¹).det ≠ 0 := (posDef_det_unit hB.inv).ne_zero
    rw [isUnit_iff_ne_zero]
    intro h0
    rw [h0, zero_mul] at this
    exact h2 this.symm
  have hM : (C * A * Cᵀ).PosDef := by
    have := hA.mul_mul_conjTranspose_same (B := C) (Matrix.vecMul_injective_of_isUnit hCu)
    simpa using this
  have h := log_det_le_trace hM
  have e1 : (C * A * Cᵀ).det = A.det / B.det := by
    rw [Matrix.det_mul, Matrix.det_mul, mul_comm C.det, mul_assoc, mul_comm C.det, ← Matrix.det_mul, hC, Matrix.det_nonsing_inv, Ring.inverse_eq_inv', div_eq_mul_inv]
  have e2 : (C * A * Cᵀ).trace = (B⁻¹ * A).trace := by
    rw [Matrix.trace_mul_comm, ← Matrix.mul_assoc, hC]
  rw [e1, e2, Real.log_div hA.det_pos.ne' hB.det_pos.ne'] at h
  rw [Matrix.mul_sub, Matrix.trace_sub, Matrix.nonsing_inv_mul _ hu, Matrix.trace_one, Fintype.card_fin]
  linarith

/-- `r A⁻¹ r ≥ 2 w r - w A w`. -/
theorem inv_form_ge {n : ℕ} {A : Matrix (Fin n) (Fin n) ℝ} (hA : A.PosDef) (r w : Fin n → ℝ) :
    2 * (w ⬝ᵥ r) - w ⬝ᵥ (A *ᵥ w) ≤ r ⬝ᵥ (A⁻¹ *ᵥ r) := by
  have h := posDef_inv_nonneg hA (r - A *ᵥ w)
  have hu := posDef_det_unit hA
  have e : A⁻¹ *ᵥ (A *ᵥ w) = w := by rw [Matrix.mulVec_mulVec, Matrix.nonsing_inv_mul _ hu, Matrix.one_mulVec]
  have e2 : (A *ᵥ w) ⬝ᵥ (A⁻¹ *ᵥ r) = w ⬝ᵥ r := by
    rw [posDef_inv_symm_dot hA, e, dotProduct_comm]
  rw [Matrix.mulVec_sub, e, sub_dotProduct, dotProduct_sub, dotProduct_sub, e2, dotProduct_comm r w, dotProduct_comm (A *ᵥ w) w] at h
  linarith

/-- A smaller matrix has a larger inverse. -/
theorem inv_form_le {n : ℕ} {A B : Matrix (Fin n) (Fin n) ℝ} (hA : A.PosDef) (hB : B.PosDef) (h : ∀ w, w ⬝ᵥ (B *ᵥ w) ≤ w ⬝ᵥ (A *ᵥ w)) (r : Fin n → ℝ) :
    r ⬝ᵥ (A⁻¹ *ᵥ r) ≤ r ⬝ᵥ (B⁻¹ *ᵥ r) := by
  have h1 := inv_form_ge hB r (A⁻¹ *ᵥ r)
  have h2 := h (A⁻¹ *ᵥ r)
  have e : A *ᵥ (A⁻¹ *ᵥ r) = r := by rw [Matrix.mulVec_mulVec, Matrix.mul_nonsing_inv _ (posDef_det_unit hA), Matrix.one_mulVec]
  rw [e] at h2
  rw [dotProduct_comm (A⁻¹ *ᵥ r) r] at h1 h2
  linarith

/-! ## One group -/

theorem margCov_sub (g : LmeGroup p q) (gamma gamma' : Vec ℝ q) : margCov g gamma' - margCov g gamma = g.z * diagonal (gamma' - gamma) * g.zᵀ := by
  unfold margCov
  have : diagonal (gamma' - gamma) = diagonal gamma' - diagonal gamma := by
    ext i j
    by_cases h : i = j <;> simp [h, Matrix.diagonal_apply]
  rw [this, Matrix.mul_sub, Matrix.sub_mul]
  abel

theorem zdz_form (g : LmeGroup p q) (d : Vec ℝ q) (u w : Fin g.n → ℝ) :
    u ⬝ᵥ ((g.z * diagonal d * g.zᵀ) *ᵥ w) = ∑ j, d j * ((g.zcol j ⬝ᵥ u) * (g.zcol j ⬝ᵥ w)) := by
  rw [← Matrix.mulVec_mulVec, ← Matrix.mulVec_mulVec, Matrix.dotProduct_mulVec, dotProduct]
  refine Finset.sum_congr rfl fun j _ => ?_
  rw [Matrix.mulVec_diagonal]
  have e1 : (u ᵥ* g.z) j = g.zcol j ⬝ᵥ u := by
    simp only [Matrix.vecMul, dotProduct, LmeGroup.zcol, mul_comm]
  have e2 : (g.zᵀ *ᵥ w) j = g.zcol j ⬝ᵥ w := by
    simp only [Matrix.mulVec, dotProduct, LmeGroup.zcol, Matrix.transpose_apply]
  rw [e1, e2]
  ring

/-- `z_jᵀ Λ⁻¹ z_j`, the squared length of column `j` in units of the noise. -/
noncomputable def noiseNorm (g : LmeGroup p q) (j : Fin q) : ℝ := ∑ i, g.z i j ^ 2 / g.l i

theorem noiseNorm_nonneg {g : LmeGroup p q} (hl : ∀ i, 0 < g.l i) (j : Fin q) : 0 ≤ noiseNorm g j :=
  Finset.sum_nonneg fun i _ => div_nonneg (sq_nonneg _) (hl i).le

theorem margCov_inv_le {g : LmeGroup p q} (hl : ∀ i, 0 < g.l i) {gamma : Vec ℝ q} (hg : ∀ j, 0 ≤ gamma j) (j : Fin q) :
    g.zcol j ⬝ᵥ ((margCov g gamma)⁻¹ *ᵥ g.zcol j) ≤ noiseNorm g j := by
  have hB : (diagonal g.l).PosDef := PosDef.diagonal hl
  refine (inv_form_le (margCov_posDef g gamma hl hg) hB (fun w => ?_) _).trans ?_
  · unfold margCov
    rw [Matrix.add_mulVec, dotProduct_add, zdz_form]
    have : 0 ≤ ∑ j, gamma j * ((g.zcol j ⬝ᵥ w) * (g.zcol j ⬝ᵥ w)) := Finset.sum_nonneg fun j _ => mul_nonneg (hg j) (mul_self_nonneg _)
    linarith
  · have e : (diagonal g.l)⁻¹ = diagonal fun i => (g.l i)⁻¹ := by
      refine Matrix.inv_eq_right_inv ?_
      rw [Matrix.diagonal_mul_diagonal, ← Matrix.diagonal_one]
      congr 1
      funext i
      exact mul_inv_cancel₀ (hl i).ne'
    rw [e]
    simp only [dotProduct, Matrix.mulVec_diagonal, LmeGroup.zcol, noiseNorm]
    refine le_of_eq (Finset.sum_congr rfl fun i _ => ?_)
    rw [div_eq_mul_inv]
    ring

theorem margCov_inv_cross {g : LmeGroup p q} (hl : ∀ i, 0 < g.l i) {gamma : Vec ℝ q} (hg : ∀ j, 0 ≤ gamma j) (j k : Fin q) :
    (g.zcol j ⬝ᵥ ((margCov g gamma)⁻¹ *ᵥ g.zcol k)) ^ 2 ≤ noiseNorm g j * noiseNorm g k := by
  have hpd := margCov_posDef g gamma hl hg
  have key : ∀ u w : Fin g.n → ℝ, u ⬝ᵥ ((margCov g gamma)⁻¹ *ᵥ w) = ∑ i, (lmeElInv g gamma *ᵥ u) i * (lmeElInv g gamma *ᵥ w) i := by
    intro u w
    rw [← lmeElInv_mul hpd, ← Matrix.mulVec_mulVec, Matrix.dotProduct_mulVec, Matrix.vecMul_transpose]
    rfl
  have h1 := margCov_inv_le hl hg j
  have h2 := margCov_inv_le hl hg k
  rw [key] at h1 h2 ⊢
  refine (Finset.sum_mul_sq_le_sq_mul_sq _ _ _).trans ?_
  simp only [← pow_two] at h1 h2
  exact mul_le_mul h1 h2 (Finset.sum_nonneg fun i _ => sq_nonneg _) (noiseNorm_nonneg hl j)

theorem log_det_ge {g : LmeGroup p q} (hl : ∀ i, 0 < g.l i) {gamma gamma' : Vec ℝ q} (hg : ∀ j, 0 ≤ gamma j) (hg' : ∀ j, 0 ≤ gamma' j) :
    Real.log (margCov g gamma).det + ∑ j, (gamma' j - gamma j) * (g.zcol j ⬝ᵥ ((margCov g gamma)⁻¹ *ᵥ g.zcol j))
      - (∑ j, noiseNorm g j ^ 2) * ∑ j, (gamma' j - gamma j) ^ 2 ≤ Real.log (margCov g gamma').det := by
  have hpd := margCov_posDef g gamma hl hg
  have hpd' := margCov_posDef g gamma' hl hg'
  have h1 := log_det_concave hpd hpd' (lmeElInv_mul hpd')
  have etr : ((margCov g gamma')⁻¹ * (margCov g gamma - margCov g gamma')).trace
      = ∑ j, (gamma j - gamma' j) * (g.zcol j ⬝ᵥ ((margCov g gamma')⁻¹ *ᵥ g.zcol j)) := by
    rw [margCov_sub, ← Matrix.mul_assoc, Matrix.trace_mul_comm, ← Matrix.mul_assoc, ← Matrix.mul_assoc, Matrix.trace]
    refine Finset.sum_congr rfl fun j _ => ?_
    rw [Matrix.diag_apply, Matrix.mul_diagonal, zT_form, Pi.sub_apply, mul_comm]
  rw [etr] at h1
  have hres : ∀ j, g.zcol j ⬝ᵥ ((margCov g gamma)⁻¹ *ᵥ g.zcol j) - g.zcol j ⬝ᵥ ((margCov g gamma')⁻¹ *ᵥ g.zcol j)
      = ∑ k, (gamma' k - gamma k) * ((g.zcol k ⬝ᵥ ((margCov g gamma)⁻¹ *ᵥ g.zcol j)) * (g.zcol k ⬝ᵥ ((margCov g gamma')⁻¹ *ᵥ g.zcol j))) := by
    intro j
    have e : (margCov g gamma)⁻¹ - (margCov g gamma')⁻¹ = (margCov g gamma)⁻¹ * (margCov g gamma' - margCov g gamma) * (margCov g gamma')⁻¹ := by
      rw [Matrix.mul_sub, Matrix.sub_mul, Matrix.mul_assoc, Matrix.mul_nonsing_inv _ (posDef_det_unit hpd'), Matrix.mul_one,
        Matrix.nonsing_inv_mul _ (posDef_det_unit hpd), Matrix.one_mul]
    rw [← dotProduct_sub, ← Matrix.sub_mulVec, e, ← Matrix.mulVec_mulVec, ← Matrix.mulVec_mulVec, posDef_inv_symm_dot hpd, dotProduct_comm, margCov_sub, zdz_form]
    rfl
  have hbd : ∀ j, (gamma' j - gamma j) * (g.zcol j ⬝ᵥ ((margCov g gamma)⁻¹ *ᵥ g.zcol j)) - (gamma' j - gamma j) * (g.zcol j ⬝ᵥ ((margCov g gamma')⁻¹ *ᵥ g.zcol j))
      ≤ ∑ k, (|gamma' j - gamma j| * noiseNorm g j) * (|gamma' k - gamma k| * noiseNorm g k) := by
    intro j
    rw [← mul_sub, hres j, Finset.mul_sum]
    refine Finset.sum_le_sum fun k _ => ?_
    have c1 := margCov_inv_cross hl hg k j
    have c2 := margCov_inv_cross hl hg' k j
    have hab : |(g.zcol k ⬝ᵥ ((margCov g gamma)⁻¹ *ᵥ g.zcol j)) * (g.zcol k ⬝ᵥ ((margCov g gamma')⁻¹ *ᵥ g.zcol j))| ≤ noiseNorm g k * noiseNorm g j := by
      rw [abs_le]
      constructor <;> nlinarith [sq_nonneg (g.zcol k ⬝ᵥ ((margCov g gamma)⁻¹ *ᵥ g.zcol j) - g.zcol k ⬝ᵥ ((margCov g gamma')⁻¹ *ᵥ g.zcol j)),
        sq_nonneg (g.zcol k ⬝ᵥ ((margCov g gamma)⁻¹ *ᵥ g.zcol j) + g.zcol k ⬝ᵥ ((margCov g gamma')⁻¹ *ᵥ g.zcol j))]
    calc _ ≤ |(gamma' j - gamma j) * ((gamma' k - gamma k) * ((g.zcol k ⬝ᵥ ((margCov g gamma)⁻¹ *ᵥ g.zcol j)) * (g.zcol k ⬝ᵥ ((margCov g gamma')⁻¹ *ᵥ g.zcol j))))| := le_abs_self _
      _ = |gamma' j - gamma j| * |gamma' k - gamma k| * |(g.zcol k ⬝ᵥ ((margCov g gamma)⁻¹ *ᵥ g.zcol j)) * (g.zcol k ⬝ᵥ ((margCov g gamma')⁻¹ *ᵥ g.zcol j))| := by
          rw [abs_mul, abs_mul (gamma' k - gamma k), mul_assoc]
      _ ≤ |gamma' j - gamma j| * |gamma' k - gamma k| * (noiseNorm g k * noiseNorm g j) := mul_le_mul_of_nonneg_left hab (mul_nonneg (abs_nonneg _) (abs_nonneg _))
      _ = _ := by ring
  have hsum := Finset.sum_le_sum fun j (_ : j ∈ Finset.univ) => hbd j
  rw [Finset.sum_sub_distrib] at hsum
  have hcs := Finset.sum_mul_sq_le_sq_mul_sq Finset.univ (fun j => |gamma' j - gamma j|) (noiseNorm g)
  simp only [sq_abs] at hcs
  have e2 : ∑ j, ∑ k, (|gamma' j - gamma j| * noiseNorm g j) * (|gamma' k - gamma k| * noiseNorm g k) = (∑ j, |gamma' j - gamma j| * noiseNorm g j) ^ 2 := by
    rw [pow_two, Finset.sum_mul_sum]
  rw [e2] at hsum
  have e3 : ∑ j, (gamma j - gamma' j) * (g.zcol j ⬝ᵥ ((margCov g gamma')⁻¹ *ᵥ g.zcol j)) = -∑ j, (gamma' j - gamma j) * (g.zcol j ⬝ᵥ ((margCov g gamma')⁻¹ *ᵥ g.zcol j)) := by
    rw [← Finset.sum_neg_distrib]
    exact Finset.sum_congr rfl fun j _ => by ring
  rw [e3] at h1
  linarith

/-- The negative log-likelihood of a group lies above its tangent, up to a quadratic term in the variances. -/
theorem groupNLL_tangent {g : LmeGroup p q} (hl : ∀ i, 0 < g.l i) {gamma gamma' : Vec ℝ q} (hg : ∀ j, 0 ≤ gamma j) (hg' : ∀ j, 0 ≤ gamma' j) (beta beta' : Vec ℝ p) :
    groupNLL g beta gamma + (-(g.xᵀ *ᵥ ((margCov g gamma)⁻¹ *ᵥ residual g beta))) ⬝ᵥ (beta' - beta) + nllGradGamma g beta gamma ⬝ᵥ (gamma' - gamma)
      - 1 / 2 * (∑ j, noiseNorm g j ^ 2) * ∑ j, (gamma' j - gamma j) ^ 2 ≤ groupNLL g beta' gamma' := by
  have hpd := margCov_posDef g gamma hl hg
  have hpd' := margCov_posDef g gamma' hl hg'
  have h1 := log_det_ge hl hg hg'
  have h2 := inv_form_ge hpd' (residual g beta') ((margCov g gamma)⁻¹ *ᵥ residual g beta)
  obtain ⟨w, hw⟩ : ∃ w, w = (margCov g gamma)⁻¹ *ᵥ residual g beta := ⟨_, rfl⟩
  have hΩw : margCov g gamma *ᵥ w = residual g beta := by
    rw [hw, Matrix.mulVec_mulVec, Matrix.mul_nonsing_inv _ (posDef_det_unit hpd), Matrix.one_mulVec]
  have e1 : w ⬝ᵥ (margCov g gamma' *ᵥ w) = w ⬝ᵥ residual g beta + ∑ j, (gamma' j - gamma j) * (g.zcol j ⬝ᵥ w) ^ 2 := by
    have : margCov g gamma' = margCov g gamma + (margCov g gamma' - margCov g gamma) := by abel
    rw [this, Matrix.add_mulVec, dotProduct_add, hΩw, margCov_sub, zdz_form]
    simp only [pow_two, Pi.sub_apply]
  have e2 : w ⬝ᵥ residual g beta' = w ⬝ᵥ residual g beta - (g.xᵀ *ᵥ w) ⬝ᵥ (beta' - beta) := by
    have : residual g beta' = residual g beta - g.x *ᵥ (beta' - beta) := by
      rw [residual_eq, residual_eq, Matrix.mulVec_sub]
      abel
    rw [this, dotProduct_sub, Matrix.dotProduct_mulVec, Matrix.mulVec_transpose]
  rw [← hw] at h2
  rw [e1, e2] at h2
  have e3 : nllGradGamma g beta gamma ⬝ᵥ (gamma' - gamma) = 1 / 2 * ∑ j, (gamma' j - gamma j) * (g.zcol j ⬝ᵥ ((margCov g gamma)⁻¹ *ᵥ g.zcol j))
      - 1 / 2 * ∑ j, (gamma' j - gamma j) * (g.zcol j ⬝ᵥ w) ^ 2 := by
    rw [Finset.mul_sum, Finset.mul_sum, ← Finset.sum_sub_distrib]
    refine Finset.sum_congr rfl fun j _ => ?_
    rw [nllGradGamma, zT_form, zT_vec, ← hw, Pi.sub_apply]
    ring
  have e4 : residual g beta ⬝ᵥ ((margCov g gamma)⁻¹ *ᵥ residual g beta) = w ⬝ᵥ residual g beta := by rw [← hw, dotProduct_comm]
  unfold groupNLL
  rw [e3, e4, ← hw, neg_dotProduct]
  linarith

/-! ## All groups -/

/-- The relaxation `lg` that makes the relaxed loss convex: the sum of `(z_jᵀ Λ⁻¹ z_j)²` over all groups and random effects. -/
noncomputable def relaxationNeeded (D : List (LmeGroup p q)) : ℝ := (D.map fun g => ∑ j, (∑ i, g.z i j ^ 2 / g.l i) ^ 2).sum

theorem marginalNLL_tangent {D : List (LmeGroup p q)} (hD : PosVar D) {gamma gamma' : Vec ℝ q} (hg : ∀ j, 0 ≤ gamma j) (hg' : ∀ j, 0 ≤ gamma' j) (beta beta' : Vec ℝ p) :
    marginalNLL D beta gamma + (D.map fun g => -(g.xᵀ *ᵥ ((margCov g gamma)⁻¹ *ᵥ residual g beta))).sum ⬝ᵥ (beta' - beta)
      + (D.map fun g => nllGradGamma g beta gamma).sum ⬝ᵥ (gamma' - gamma) - 1 / 2 * relaxationNeeded D * ∑ j, (gamma' j - gamma j) ^ 2 ≤ marginalNLL D beta' gamma' := by
  induction D with
  | nil => simp [marginalNLL, relaxationNeeded]
  | cons g D ih =>
    have h1 := groupNLL_tangent (hD g List.mem_cons_self) hg hg' beta beta'
    have h2 := ih fun g' h' => hD g' (List.mem_cons_of_mem _ h')
    simp only [marginalNLL, relaxationNeeded, noiseNorm, List.map_cons, List.sum_cons, add_dotProduct] at h1 h2 ⊢
    nlinarith [h1, h2]

theorem prior_tangent (P : LmeInstPrior ℝ p q) (hP : P.Reachable) (beta beta' : Vec ℝ p) (gamma gamma' : Vec ℝ q) :
    P.loss beta gamma + P.gradientBeta beta gamma ⬝ᵥ (beta' - beta) + P.gradientGamma beta gamma ⬝ᵥ (gamma' - gamma) ≤ P.loss beta' gamma' := by
  obtain ⟨e1, n1⟩ := P.expansion_beta hP gamma'
  obtain ⟨e2, n2⟩ := P.expansion_gamma hP beta
  have h1 := quadraticExpansion_iff.1 e1 beta (beta' - beta)
  have h2 := quadraticExpansion_iff.1 e2 gamma (gamma' - gamma)
  have k1 := n1 (beta' - beta)
  have k2 := n2 (gamma' - gamma)
  rw [quadSum_eq] at k1 k2
  rw [add_sub_cancel] at h1 h2
  have e : P.gradientBeta beta gamma' = P.gradientBeta beta gamma := by cases P <;> rfl
  simp only [e] at h1
  linarith

theorem sqDist_tangent {n : ℕ} (x x' t : Vec ℝ n) : ∑ i, (x' i - t i) ^ 2 = ∑ i, (x i - t i) ^ 2 + 2 * ((x - t) ⬝ᵥ (x' - x)) + ∑ i, (x' i - x i) ^ 2 := by
  simp only [dotProduct, Finset.mul_sum, ← Finset.sum_add_distrib]
  refine Finset.sum_congr rfl fun i _ => ?_
  simp only [Pi.sub_apply]
  ring

/-- **C111**, tangents: for all data with positive noise, priors, relaxed variables and relaxation constants, the relaxed loss at nonnegative variances lies above its tangents plus
`lb/2 |beta' - beta|² + (lg - c)/2 |gamma' - gamma|²`, where `c` is the sum of `(z_jᵀ Λ⁻¹ z_j)²` over all groups and random effects. The tangents are those of the gradients the oracle returns. -/
theorem C111_tangent (D : List (LmeGroup p q)) (hD : PosVar D) (P : LmeInstPrior ℝ p q) (hP : P.Reachable) (S : Sr3Params)
    (beta beta' tbeta : Vec ℝ p) (gamma gamma' tgamma : Vec ℝ q) (hg : ∀ j, 0 ≤ gamma j) (hg' : ∀ j, 0 ≤ gamma' j) :
    ∃ v v' gb gg, lmeSr3Loss D P S beta gamma tbeta tgamma = .ok v ∧ lmeSr3Loss D P S beta' gamma' tbeta tgamma = .ok v' ∧
      lmeSr3GradientBeta D P S beta gamma tbeta = .ok gb ∧ lmeSr3GradientGamma D P S beta gamma tgamma = .ok gg ∧
      v + ∑ i, gb i * (beta' i - beta i) + ∑ j, gg j * (gamma' j - gamma j) + S.lb / 2 * ∑ i, (beta' i - beta i) ^ 2
        + (S.lg - (D.map fun g => ∑ j, (∑ i, g.z i j ^ 2 / g.l i) ^ 2).sum) / 2 * ∑ j, (gamma' j - gamma j) ^ 2 ≤ v' := by
  have hd := inDomain_of_nonneg hD hg
  have hd' := inDomain_of_nonneg hD hg'
  refine ⟨_, _, (D.map fun g => -(g.xᵀ *ᵥ ((margCov g gamma)⁻¹ *ᵥ residual g beta))).sum + P.gradientBeta beta gamma + S.lb • (beta - tbeta),
    (D.map fun g => nllGradGamma g beta gamma).sum + P.gradientGamma beta gamma + S.lg • (gamma - tgamma), lmeSr3Loss_ok hd, lmeSr3Loss_ok hd', ?_, ?_, ?_⟩
  · unfold lmeSr3GradientBeta
    rw [lmeGradientBeta_ok.2 ⟨hd, rfl⟩]
    rfl
  · unfold lmeSr3GradientGamma
    rw [lmeGradientGamma_ok'.2 ⟨hd, rfl⟩]
    rfl
  · have h1 := marginalNLL_tangent hD hg hg' beta beta'
    have h2 := prior_tangent P hP beta beta' gamma gamma'
    have h3 := sqDist_tangent beta beta' tbeta
    have h4 := sqDist_tangent gamma gamma' tgamma
    have e1 : ∀ {n : ℕ} (u x y : Vec ℝ n), ∑ i, u i * (x i - y i) = u ⬝ᵥ (x - y) := fun u x y => rfl
    rw [e1, e1, add_dotProduct, add_dotProduct, add_dotProduct, add_dotProduct, smul_dotProduct, smul_dotProduct]
    unfold lmeRelaxedLoss
    rw [h3, h4]
    unfold relaxationNeeded at h1
    simp only [smul_eq_mul]
    nlinarith [h1, h2]

/-- **C111**: if the relaxation `lg` is at least the sum of `(z_jᵀ Λ⁻¹ z_j)²` over all groups and random effects, the relaxed loss is a convex function of `(beta, gamma)` on the nonnegative variances,
for all data with positive noise, priors and relaxed variables. -/
theorem C111_convex (D : List (LmeGroup p q)) (hD : PosVar D) (P : LmeInstPrior ℝ p q) (hP : P.Reachable) (S : Sr3Params) (hlb : 0 ≤ S.lb)
    (hlg : (D.map fun g => ∑ j, (∑ i, g.z i j ^ 2 / g.l i) ^ 2).sum ≤ S.lg) (tbeta : Vec ℝ p) (tgamma : Vec ℝ q) :
    ∃ f : Vec ℝ p × Vec ℝ q → ℝ, (∀ w, (∀ j, 0 ≤ w.2 j) → lmeSr3Loss D P S w.1 w.2 tbeta tgamma = .ok (f w)) ∧ ConvexOn ℝ {w | ∀ j, 0 ≤ w.2 j} f := by
  refine ⟨fun w => lmeRelaxedLoss D P S w.1 w.2 tbeta tgamma, fun w hw => lmeSr3Loss_ok (inDomain_of_nonneg hD hw), ?_, ?_⟩
  · intro u hu w hw a b ha hb _ j
    exact add_nonneg (mul_nonneg ha (hu j)) (mul_nonneg hb (hw j))
  · intro u hu w hw a b ha hb hab
    have hm : ∀ j, 0 ≤ (a • u + b • w).2 j := fun j => add_nonneg (mul_nonneg ha (hu j)) (mul_nonneg hb (hw j))
    obtain ⟨v, v1, gb, gg, e1, e2, e3, e4, h1⟩ := C111_tangent D hD P hP S (a • u + b • w).1 u.1 tbeta (a • u + b • w).2 u.2 tgamma hm hu
    obtain ⟨v', v2, gb', gg', e1', e2', e3', e4', h2⟩ := C111_tangent D hD P hP S (a • u + b • w).1 w.1 tbeta (a • u + b • w).2 w.2 tgamma hm hw
    rw [e1] at e1'
    rw [e3] at e3'
    rw [e4] at e4'
    cases e1'; cases e3'; cases e4'
    rw [lmeSr3Loss_ok (inDomain_of_nonneg hD hm)] at e1
    rw [lmeSr3Loss_ok (inDomain_of_nonneg hD hu)] at e2
    rw [lmeSr3Loss_ok (inDomain_of_nonneg hD hw)] at e2'
    cases e1; cases e2; cases e2'
    have n1 : 0 ≤ S.lb / 2 * ∑ i, (u.1 i - (a • u + b • w).1 i) ^ 2 := mul_nonneg (by linarith) (Finset.sum_nonneg fun i _ => sq_nonneg _)
    have n2 : 0 ≤ S.lb / 2 * ∑ i, (w.1 i - (a • u + b • w).1 i) ^ 2 := mul_nonneg (by linarith) (Finset.sum_nonneg fun i _ => sq_nonneg _)
    have n3 : 0 ≤ (S.lg - (D.map fun g => ∑ j, (∑ i, g.z i j ^ 2 / g.l i) ^ 2).sum) / 2 * ∑ j, (u.2 j - (a • u + b • w).2 j) ^ 2 :=
      mul_nonneg (by linarith) (Finset.sum_nonneg fun i _ => sq_nonneg _)
    have n4 : 0 ≤ (S.lg - (D.map fun g => ∑ j, (∑ i, g.z i j ^ 2 / g.l i) ^ 2).sum) / 2 * ∑ j, (w.2 j - (a • u + b • w).2 j) ^ 2 :=
      mul_nonneg (by linarith) (Finset.sum_nonneg fun i _ => sq_nonneg _)
    have z1 : a * ∑ i, gb i * (u.1 i - (a • u + b • w).1 i) + b * ∑ i, gb i * (w.1 i - (a • u + b • w).1 i) = 0 := by
      rw [Finset.mul_sum, Finset.mul_sum, ← Finset.sum_add_distrib]
      refine Finset.sum_eq_zero fun i _ => ?_
      have : b = 1 - a := by linarith
      simp only [Prod.fst_add, Prod.smul_fst, Pi.add_apply, Pi.smul_apply, smul_eq_mul, this]
      ring
    have z2 : a * ∑ i, gg i * (u.2 i - (a • u + b • w).2 i) + b * ∑ i, gg i * (w.2 i - (a • u + b • w).2 i) = 0 := by
      rw [Finset.mul_sum, Finset.mul_sum, ← Finset.sum_add_distrib]
      refine Finset.sum_eq_zero fun i _ => ?_
      have : b = 1 - a := by linarith
      simp only [Prod.snd_add, Prod.smul_snd, Pi.add_apply, Pi.smul_apply, smul_eq_mul, this]
      ring
    have k1 := mul_le_mul_of_nonneg_left h1 ha
    have k2 := mul_le_mul_of_nonneg_left h2 hb
    have m1 := mul_nonneg ha n1
    have m2 := mul_nonneg hb n2
    have m3 := mul_nonneg ha n3
    have m4 := mul_nonneg hb n4
    simp only [smul_eq_mul]
    have hv : ∀ x : ℝ, x = a * x + b * x := fun x => by rw [← add_mul, hab, one_mul]
    rw [hv (lmeRelaxedLoss D P S (a • u + b • w).1 (a • u + b • w).2 tbeta tgamma)]
    nlinarith [k1, k2, m1, m2, m3, m4, z1, z2]

/-- One observation `y` with unit noise and one random effect. -/
def obsGroup (y : ℝ) : LmeGroup 0 1 where
  n := 1
  x := Matrix.of fun _ j => j.elim0
  y := fun _ => y
  z := Matrix.of fun _ _ => 1
  l := fun _ => 1

theorem obsGroup_posVar (y : ℝ) : PosVar [obsGroup y] := by
  intro g hg i
  obtain rfl := List.mem_singleton.1 hg
  exact one_pos

theorem obsGroup_cov (y t : ℝ) : margCov (obsGroup y) ![t] = (diagonal fun _ => t + 1 : Matrix (Fin 1) (Fin 1) ℝ) := by
  have key : ((Matrix.of fun _ _ => 1 : Matrix (Fin 1) (Fin 1) ℝ) * diagonal ![t] * (Matrix.of fun _ _ => 1 : Matrix (Fin 1) (Fin 1) ℝ)ᵀ + diagonal fun _ => 1)
      = diagonal fun _ => t + 1 := by
    ext i j
    fin_cases i; fin_cases j
    rw [Matrix.add_apply, Matrix.mul_apply]
    simp [Matrix.mul_apply]
  exact key

theorem obsGroup_inv {t : ℝ} (ht : 0 ≤ t) : ((diagonal fun _ => t + 1 : Matrix (Fin 1) (Fin 1) ℝ))⁻¹ = diagonal fun _ => (t + 1)⁻¹ := by
  have hne : t + 1 ≠ 0 := by linarith
  refine Matrix.inv_eq_right_inv ?_
  rw [Matrix.diagonal_mul_diagonal]
  simp [hne]

theorem obsGroup_residual (y : ℝ) : residual (obsGroup y) ![] = (fun _ => y : Vec ℝ 1) := by
  funext i
  unfold residual
  change y - ∑ k : Fin 0, _ = y
  simp

theorem obsGroup_nll (y : ℝ) {t : ℝ} (ht : 0 ≤ t) :
    marginalNLL [obsGroup y] ![] ![t] = y ^ 2 / (2 * (t + 1)) + 1 / 2 * Real.log (t + 1) := by
  have hne : t + 1 ≠ 0 := by linarith
  unfold marginalNLL
  simp only [List.map_cons, List.map_nil, List.sum_cons, List.sum_nil, add_zero]
  unfold groupNLL
  rw [obsGroup_cov, obsGroup_residual]
  have key : 1 / 2 * ((fun _ => y : Vec ℝ 1) ⬝ᵥ ((diagonal fun _ => t + 1 : Matrix (Fin 1) (Fin 1) ℝ)⁻¹ *ᵥ fun _ => y))
      + 1 / 2 * Real.log (diagonal fun _ => t + 1 : Matrix (Fin 1) (Fin 1) ℝ).det
      = y ^ 2 / (2 * (t + 1)) + 1 / 2 * Real.log (t + 1) := by
    rw [obsGroup_inv ht, Matrix.det_diagonal]
    simp [Matrix.mulVec_diagonal, dotProduct]
    field_simp
  exact key

/-- Non-vacuity of C111: here the bound is `1`. -/
example (y : ℝ) : PosVar [obsGroup y] ∧ ([obsGroup y].map fun g => ∑ j, (∑ i, g.z i j ^ 2 / g.l i) ^ 2).sum = 1 := by
  refine ⟨obsGroup_posVar y, ?_⟩
  simp only [List.map_cons, List.map_nil, List.sum_cons, List.sum_nil]
  change ∑ _j : Fin 1, (∑ _i : Fin 1, (1 : ℝ) ^ 2 / 1) ^ 2 + 0 = 1
  simp

/-- The relaxation in C111 is needed: with `lg = 1/10` the relaxed loss of one observation `0` is larger at the variance 1 than the mean of its values at 0 and 2. -/
theorem C111_needs_relaxation : ∃ v0 v1 v2,
    lmeSr3Loss [obsGroup 0] .nonInformative ⟨1 / 10, 1 / 10⟩ ![] ![0] ![] ![0] = .ok v0 ∧ lmeSr3Loss [obsGroup 0] .nonInformative ⟨1 / 10, 1 / 10⟩ ![] ![1] ![] ![0] = .ok v1 ∧
    lmeSr3Loss [obsGroup 0] .nonInformative ⟨1 / 10, 1 / 10⟩ ![] ![2] ![] ![0] = .ok v2 ∧ 1 / 2 * v0 + 1 / 2 * v2 < v1 := by
  have hl : ∀ t : ℝ, 0 ≤ t → lmeSr3Loss [obsGroup 0] .nonInformative ⟨1 / 10, 1 / 10⟩ ![] ![t] ![] ![0] = .ok (1 / 2 * Real.log (t + 1) + 1 / 20 * t ^ 2) := by
    intro t ht
    rw [lmeSr3Loss_ok (inDomain_of_nonneg (obsGroup_posVar 0) (by intro j; fin_cases j; exact ht))]
    unfold lmeRelaxedLoss
    rw [obsGroup_nll 0 ht]
    congr 1
    have e : ∑ j : Fin 1, ((![t] : Vec ℝ 1) j - (![0] : Vec ℝ 1) j) ^ 2 = t ^ 2 := by simp
    have e' : (LmeInstPrior.nonInformative : LmeInstPrior ℝ 0 1).loss ![] ![t] = 0 := rfl
    rw [e, e', Finset.sum_of_isEmpty]
    ring
  refine ⟨_, _, _, hl 0 le_rfl, hl 1 zero_le_one, hl 2 zero_le_two, ?_⟩
  have h1 : Real.log (4 / 3) ≥ 1 - (4 / 3)⁻¹ := Real.one_sub_inv_le_log_of_pos (by norm_num)
  have h2 : Real.log (4 / 3) = 2 * Real.log 2 - Real.log 3 := by
    rw [Real.log_div (by norm_num) (by norm_num), show (4 : ℝ) = 2 ^ 2 by norm_num, Real.log_pow]
    norm_num
  norm_num at h1 ⊢
  linarith

/-! ## C80 -/

theorem dot_le_norms {ι : Type*} [Fintype ι] (x y : ι → ℝ) : ∑ i, x i * y i ≤ √(∑ i, x i ^ 2) * √(∑ i, y i ^ 2) := Real.sum_mul_le_sqrt_mul_sqrt _ _ _

theorem dot_le_quad {ι : Type*} [Fintype ι] {m : ℝ} (hm : 0 < m) (x y : ι → ℝ) : ∑ i, x i * y i ≤ (∑ i, x i ^ 2) / (2 * m) + m / 2 * ∑ i, y i ^ 2 := by
  rw [Finset.sum_div, Finset.mul_sum, ← Finset.sum_add_distrib]
  refine Finset.sum_le_sum fun i _ => ?_
  have h : x i ^ 2 / (2 * m) + m / 2 * y i ^ 2 - x i * y i = (x i - m * y i) ^ 2 / (2 * m) := by
    field_simp
    ring
  have : 0 ≤ (x i - m * y i) ^ 2 / (2 * m) := by positivity
  linarith

/-- How the loop of the inner solver ends. -/
theorem ipLoop_exit (D : List (LmeGroup p q)) (P : LmeInstPrior ℝ p q) (c : IpCfg p q) :
    ∀ (n : ℕ) (s r : IpState p q), (c.nIter - s.iteration).toNat = n → ipLoop D P c s = .ok r →
      r.stepLen = 0 ∨ c.nIter ≤ r.iteration ∨ ∃ F, ipF D P r = .ok F ∧ ¬ ((c.tol < npNorm F ∨ c.tol < r.mu) ∧ ipMoved c.tol r) := by
  intro n
  induction n using Nat.strong_induction_on with
  | _ n ih =>
    intro s r hn h
    unfold ipLoop at h
    split_ifs at h with h1
    · cases hF : ipF D P s with
      | error e => rw [hF] at h; cases h
      | ok F =>
        rw [hF] at h
        simp only at h
        split_ifs at h with h2
        · cases hs : ipStep D P c s F with
          | error e => rw [hs] at h; cases h
          | ok s' =>
            rw [hs] at h
            refine ih _ ?_ _ r rfl h
            rw [← hn]
            simp only
            have := h1.2
            push_cast
            omega
        · cases h
          exact Or.inr (Or.inr ⟨F, hF, h2⟩)
    · cases h
      by_cases h0 : s.stepLen = 0
      · exact Or.inl h0
      · exact Or.inr (Or.inl (not_lt.1 fun hlt => h1 ⟨h0, hlt⟩))

/-- **C80**, the gap: for positive noise, a Gaussian or non-informative prior, the default settings, `lb > 0`, a relaxation `lg` above the bound of C111, at least one random effect and nonnegative
starting variances, `value_function` returns, and the value exceeds the relaxed loss at any `(beta', gamma')` with nonnegative variances by at most
`|F|² / (2m) + √q |F| + q mu`, where `F, mu` are the local variables of the inner solver when its loop ends and `m` is the smaller of `lb` and the distance of `lg` from that bound.
From positive starting variances, the loop ends with `|F| ≤ tol` and `mu ≤ tol` unless the budget is exhausted or no variable moved by more than `tol` in the last pass.
Missing: those two ways to end, starting variances with zeros (false, see `C80_violated`), and small `lg`, for which the relaxed loss need not be convex. -/
theorem C80_gap_partial (D : List (LmeGroup p q)) (hD : PosVar D) (P : LmeInstPrior ℝ p q) (hP : P.Reachable) (c : IpCfg p q) (hc : c.Plain) (o : IpOracle p q) (m : ℝ) (hm : 0 < m)
    (hlb : m ≤ o.S.lb) (hlg : (D.map fun g => ∑ j, (∑ i, g.z i j ^ 2 / g.l i) ^ 2).sum + m ≤ o.S.lg) (hq : 0 < q) (tbeta : Vec ℝ p) (tgamma : Vec ℝ q)
    (hg : ∀ j, 0 ≤ (ipStart c o ((2 : ℝ) • tbeta) ((2 : ℝ) • tgamma)).2 j) :
    ∃ v o' s F, lmeSr3ValueFunction D P c o tbeta tgamma = .ok (v, o') ∧
      ipLoop D P c (ipInit c o ((2 : ℝ) • tbeta) ((2 : ℝ) • tgamma) tbeta tgamma) = .ok s ∧ ipF D P s = .ok F ∧
      (∀ (beta' : Vec ℝ p) (gamma' : Vec ℝ q) l, (∀ j, 0 ≤ gamma' j) → lmeSr3Loss D P o.S beta' gamma' tbeta tgamma = .ok l →
        v ≤ l + npNorm F ^ 2 / (2 * m) + √q * npNorm F + q * s.mu) ∧
      ((∀ j, 0 < (ipStart c o ((2 : ℝ) • tbeta) ((2 : ℝ) • tgamma)).2 j) → (s.iteration : ℤ) < c.nIter → ipMoved c.tol s → npNorm F ≤ c.tol ∧ s.mu ≤ c.tol) := by
  have hlb0 : 0 < o.S.lb := hm.trans_le hlb
  have hn0 : 0 ≤ (D.map fun g => ∑ j, (∑ i, g.z i j ^ 2 / g.l i) ^ 2).sum := by
    refine List.sum_nonneg fun x hx => ?_
    obtain ⟨g, -, rfl⟩ := List.mem_map.1 hx
    exact Finset.sum_nonneg fun j _ => sq_nonneg _
  have hlg0 : 0 ≤ o.S.lg := by linarith
  obtain ⟨I, hI⟩ : ∃ I : IpState p q → Prop, I = fun s => (∀ j, 0 < s.v j) ∧ (∀ j, 0 ≤ s.gamma j) ∧ 0 < s.S.lb ∧ 0 ≤ s.S.lg := ⟨_, rfl⟩
  have h0 : I (ipInit c o ((2 : ℝ) • tbeta) ((2 : ℝ) • tgamma) tbeta tgamma) := by
    rw [hI]
    exact ⟨fun j => one_pos, hg, hlb0, hlg0⟩
  have hst : ∀ s F, I s → ∃ s', ipStep D P c s F = .ok s' ∧ I { s' with iteration := s.iteration + 1 } := by
    intro s F hs
    rw [hI] at hs
    obtain ⟨h1, h2, h3, h4⟩ := hs
    obtain ⟨s', k1, k2⟩ := ipStep_total hD hP hc.default (F := F) h1 h2 h3 h4
    exact ⟨s', k1, by rw [hI]; exact k2⟩
  have hFt : ∀ s, I s → ∃ F, ipF D P s = .ok F := by
    intro s hs
    rw [hI] at hs
    exact ipF_total hD hP hs.2.1
  obtain ⟨s, hs⟩ := ipLoop_total D P c I hFt (fun s F h _ _ => hst s F h) _ _ rfl h0
  have hIs : I s := by
    refine ipLoop_inv D P c I ?_ _ _ s rfl h0 hs
    intro a F a' ha _ _ ha'
    obtain ⟨b, hb, hIb⟩ := hst a F ha
    rw [ha'] at hb
    cases hb
    exact hIb
  obtain ⟨F, hF⟩ := hFt s hIs
  rw [hI] at hIs
  obtain ⟨hv, hgam, -, -⟩ := hIs
  obtain ⟨e1, e2, e3⟩ := ipLoop_relaxed hc.reg hc.increaseLambdas hs
  change s.tbeta = tbeta at e1
  change s.tgamma = tgamma at e2
  change s.S = o.S at e3
  have hfind : lmeFindIp D P c o ((2 : ℝ) • tbeta) ((2 : ℝ) • tgamma) tbeta tgamma
      = .ok (⟨s.beta, s.gamma, s.tbeta, s.tgamma⟩, ⟨s.S, if c.warmStart then some (s.beta, s.gamma) else o.warm⟩) := by
    unfold lmeFindIp
    rw [if_neg hq.ne', hs]
    rfl
  have hval : lmeSr3ValueFunction D P c o tbeta tgamma
      = .ok (lmeRelaxedLoss D P o.S s.beta s.gamma tbeta tgamma, ⟨s.S, if c.warmStart then some (s.beta, s.gamma) else o.warm⟩) := by
    unfold lmeSr3ValueFunction
    rw [hfind]
    change (lmeSr3Loss D P s.S s.beta s.gamma s.tbeta s.tgamma >>= _) = _
    rw [e1, e2, e3, lmeSr3Loss_ok (inDomain_of_nonneg hD hgam)]
    rfl
  refine ⟨_, _, s, F, hval, hs, hF, ?_, ?_⟩
  · intro beta' gamma' l hg' hl
    obtain ⟨v, v', gb, gg, k1, k2, k3, k4, ht⟩ := C111_tangent D hD P hP o.S s.beta beta' tbeta s.gamma gamma' tgamma hgam hg'
    rw [hl] at k2
    cases k2
    rw [lmeSr3Loss_ok (inDomain_of_nonneg hD hgam)] at k1
    cases k1
    unfold ipF at hF
    rw [e1, e2, e3, k3, k4] at hF
    cases hF
    obtain ⟨F, hFd⟩ : ∃ F : Fin q ⊕ (Fin p ⊕ Fin q) → ℝ, F = Sum.elim (fun j => s.v j * s.gamma j - s.mu) (Sum.elim gb (gg - s.v)) := ⟨_, rfl⟩
    have hN : npNorm F ^ 2 = ∑ j, (s.v j * s.gamma j - s.mu) ^ 2 + (∑ i, gb i ^ 2 + ∑ j, (gg j - s.v j) ^ 2) := by
      unfold npNorm
      rw [Real.sq_sqrt (Finset.sum_nonneg fun i _ => sq_nonneg _), Fintype.sum_sum_type, Fintype.sum_sum_type, hFd]
      rfl
    have hNn : 0 ≤ npNorm F := Real.sqrt_nonneg _
    have b1 := dot_le_quad hm gb (fun i => s.beta i - beta' i)
    have b2 := dot_le_quad hm (fun j => gg j - s.v j) (fun j => s.gamma j - gamma' j)
    have b3 : ∑ j, (s.v j * s.gamma j - s.mu) ≤ √q * npNorm F := by
      have h := dot_le_norms (fun j => s.v j * s.gamma j - s.mu) (fun _ : Fin q => (1 : ℝ))
      simp only [mul_one, one_pow, Finset.sum_const, Finset.card_univ, Fintype.card_fin, nsmul_eq_mul] at h
      refine h.trans ?_
      rw [mul_comm]
      refine mul_le_mul_of_nonneg_left ?_ (Real.sqrt_nonneg _)
      refine Real.sqrt_le_iff.2 ⟨hNn, ?_⟩
      rw [hN]
      have : 0 ≤ ∑ i, gb i ^ 2 + ∑ j, (gg j - s.v j) ^ 2 := add_nonneg (Finset.sum_nonneg fun i _ => sq_nonneg _) (Finset.sum_nonneg fun i _ => sq_nonneg _)
      linarith
    have b4 : ∑ j, s.v j * (s.gamma j - gamma' j) ≤ √q * npNorm F + q * s.mu := by
      have : ∑ j, s.v j * (s.gamma j - gamma' j) ≤ ∑ j, ((s.v j * s.gamma j - s.mu) + s.mu) := by
        refine Finset.sum_le_sum fun j _ => ?_
        have := mul_nonneg (hv j).le (hg' j)
        linarith
      rw [Finset.sum_add_distrib] at this
      simp only [Finset.sum_const, Finset.card_univ, Fintype.card_fin, nsmul_eq_mul] at this
      linarith
    have s1 : ∑ i, gb i * (beta' i - s.beta i) = - ∑ i, gb i * (s.beta i - beta' i) := by
      rw [← Finset.sum_neg_distrib]
      exact Finset.sum_congr rfl fun i _ => by ring
    have s2 : ∑ j, gg j * (gamma' j - s.gamma j) = - (∑ j, (gg j - s.v j) * (s.gamma j - gamma' j) + ∑ j, s.v j * (s.gamma j - gamma' j)) := by
      rw [← Finset.sum_add_distrib, ← Finset.sum_neg_distrib]
      exact Finset.sum_congr rfl fun i _ => by ring
    have s3 : ∑ i, (beta' i - s.beta i) ^ 2 = ∑ i, (s.beta i - beta' i) ^ 2 := Finset.sum_congr rfl fun i _ => by ring
    have s4 : ∑ j, (gamma' j - s.gamma j) ^ 2 = ∑ j, (s.gamma j - gamma' j) ^ 2 := Finset.sum_congr rfl fun i _ => by ring
    rw [s1, s2, s3, s4] at ht
    have d1 : 0 ≤ ∑ i, (s.beta i - beta' i) ^ 2 := Finset.sum_nonneg fun i _ => sq_nonneg _
    have d2 : 0 ≤ ∑ j, (s.gamma j - gamma' j) ^ 2 := Finset.sum_nonneg fun i _ => sq_nonneg _
    have d3 := mul_le_mul_of_nonneg_right hlb d1
    have d4 := mul_le_mul_of_nonneg_right (show m ≤ o.S.lg - (D.map fun g => ∑ j, (∑ i, g.z i j ^ 2 / g.l i) ^ 2).sum by linarith) d2
    have b5 : (∑ i, gb i ^ 2) / (2 * m) + (∑ j, (gg j - s.v j) ^ 2) / (2 * m) ≤ npNorm F ^ 2 / (2 * m) := by
      rw [← add_div, hN]
      refine div_le_div_of_nonneg_right ?_ (by positivity)
      have : 0 ≤ ∑ j, (s.v j * s.gamma j - s.mu) ^ 2 := Finset.sum_nonneg fun i _ => sq_nonneg _
      linarith
    rw [← hFd]
    linarith
  · intro hpos hit hmv
    have hJ : (∀ j, 0 < s.v j) ∧ (∀ j, 0 < s.gamma j) ∧ s.stepLen ≠ 0 := by
      refine ipLoop_inv D P c (fun s => (∀ j, 0 < s.v j) ∧ (∀ j, 0 < s.gamma j) ∧ s.stepLen ≠ 0) ?_ _ _ s rfl ⟨fun j => one_pos, hpos, one_ne_zero⟩ hs
      rintro a F a' ⟨h1, h2, -⟩ - - ha
      obtain ⟨dF, d, step, -, -, k3, k4, -, k5, k6, -⟩ := ipStep_ok ha
      obtain ⟨M, hM, hM0, -, -, p1, p2, -⟩ := C63_any_direction a.v a.gamma (fun j => d (.inl j)) (fun j => d (.inr (.inr j))) h1 h2
      unfold ipStepLen at k3
      rw [hc.lineSearch, ← hM] at k3
      cases k3
      refine ⟨fun j => ?_, fun j => ?_, ?_⟩
      · change 0 < a'.v j
        rw [k4]
        exact p1 j
      · change 0 < a'.gamma j
        rw [k5]
        exact p2 j
      · change a'.stepLen ≠ 0
        rw [k6]
        positivity
    rcases ipLoop_exit D P c _ _ s rfl hs with h | h | ⟨F', h, h'⟩
    · exact absurd h hJ.2.2
    · omega
    · rw [hF] at h
      cases h
      by_contra hne
      refine h' ⟨?_, hmv⟩
      rcases not_and_or.1 hne with h | h
      · exact Or.inl (not_le.1 h)
      · exact Or.inr (not_le.1 h)

/-- **C80** without random effects: for positive noise, no prior and `lb > 0`, `value_function` is exactly the minimum of the relaxed loss.
Missing: priors, which `optimal_beta` ignores (C58). -/
theorem C80_no_random_partial (D : List (LmeGroup p 0)) (hD : PosVar D) (c : IpCfg p 0) (o : IpOracle p 0) (hlb : 0 < o.S.lb) (tbeta : Vec ℝ p) (tgamma : Vec ℝ 0) :
    ∃ v o' b, lmeSr3ValueFunction D .nonInformative c o tbeta tgamma = .ok (v, o') ∧ lmeSr3Loss D .nonInformative o.S b tgamma tbeta tgamma = .ok v ∧
      ∀ b' gamma' l, lmeSr3Loss D .nonInformative o.S b' gamma' tbeta tgamma = .ok l → v ≤ l ∧ (l = v → b' = b) := by
  have hd : InDomain D tgamma := inDomain_of_nonneg hD fun j => j.elim0
  obtain ⟨b, h1, h2⟩ := (C58_optimal_beta_partial D tgamma hd).2 o.S tbeta tgamma hlb
  refine ⟨_, o, b, ?_, lmeSr3Loss_ok hd, ?_⟩
  · unfold lmeSr3ValueFunction lmeFindIp
    rw [if_pos rfl, h1]
    change (lmeSr3Loss D .nonInformative o.S b tgamma tbeta tgamma >>= _) = _
    rw [lmeSr3Loss_ok hd]
    rfl
  · intro b' gamma' l hl
    obtain rfl : gamma' = tgamma := Subsingleton.elim _ _
    by_cases hb : b' = b
    · subst hb
      rw [lmeSr3Loss_ok hd] at hl
      cases hl
      exact ⟨le_rfl, fun _ => rfl⟩
    · obtain ⟨v, v', k1, k2, k3⟩ := h2 b' hb
      rw [lmeSr3Loss_ok hd] at k1
      cases k1
      rw [hl] at k2
      cases k2
      exact ⟨k3.le, fun h => absurd h k3.ne'⟩

/-- Non-vacuity: one observation and one fixed effect. -/
example : PosVar [({ n := 1, x := Matrix.of fun _ _ => 1, y := fun _ => 3, z := Matrix.of fun _ j => j.elim0, l := fun _ => 1 } : LmeGroup 1 0)] := by
  intro g hg i
  obtain rfl := List.mem_singleton.1 hg
  exact one_pos

/-- Non-vacuity of `C80_gap_partial`: one observation, `lb = lg = 2`, `m = 1`, started from the variance 2. -/
example (y : ℝ) : (defaultCfg 0 1).Plain ∧ (1 : ℝ) ≤ 2 ∧ ([obsGroup y].map fun g => ∑ j, (∑ i, g.z i j ^ 2 / g.l i) ^ 2).sum + 1 ≤ 2 ∧
    (∀ j, 0 < (ipStart (defaultCfg 0 1) (⟨⟨2, 2⟩, none⟩ : IpOracle 0 1) ((2 : ℝ) • ![]) ((2 : ℝ) • ![1])).2 j) := by
  refine ⟨⟨rfl, rfl, rfl, rfl⟩, by norm_num, ?_, fun j => ?_⟩
  · simp only [List.map_cons, List.map_nil, List.sum_cons, List.sum_nil]
    change ∑ _j : Fin 1, (∑ _i : Fin 1, (1 : ℝ) ^ 2 / 1) ^ 2 + 0 + 1 ≤ 2
    norm_num
  · fin_cases j
    simp [ipStart, defaultCfg]

end Verif
