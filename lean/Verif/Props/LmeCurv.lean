import Verif.Props.LmeConvex

/-!
# The curvature of the marginal negative log-likelihood

An upper bound that complements `marginalNLL_tangent`: at a point whose likelihood is known the negative log-likelihood lies below a parabola with an explicit curvature. It is used by C124 and C125.
-/

open Matrix

namespace Verif

variable {p q : ℕ}

/-- The log-determinant lies below its tangents. -/
theorem log_det_le {g : LmeGroup p q} (hl : ∀ i, 0 < g.l i) {gamma gamma' : Vec ℝ q} (hg : ∀ j, 0 ≤ gamma j) (hg' : ∀ j, 0 ≤ gamma' j) :
    Real.log (margCov g gamma').det ≤ Real.log (margCov g gamma).det + ∑ j, (gamma' j - gamma j) * (g.zcol j ⬝ᵥ ((margCov g gamma)⁻¹ *ᵥ g.zcol j)) := by
  have hpd := margCov_posDef g gamma hl hg
  have hpd' := margCov_posDef g gamma' hl hg'
  have h1 := log_det_concave hpd' hpd (lmeElInv_mul hpd)
  have etr : ((margCov g gamma)⁻¹ * (margCov g gamma' - margCov g gamma)).trace
      = ∑ j, (gamma' j - gamma j) * (g.zcol j ⬝ᵥ ((margCov g gamma)⁻¹ *ᵥ g.zcol j)) := by
    rw [margCov_sub, ← Matrix.mul_assoc, Matrix.trace_mul_comm, ← Matrix.mul_assoc, ← Matrix.mul_assoc, Matrix.trace]
    refine Finset.sum_congr rfl fun j _ => ?_
    rw [Matrix.diag_apply, Matrix.mul_diagonal, zT_form, Pi.sub_apply, mul_comm]
  rwa [etr] at h1

/-- The determinant is at least that of the noise. -/
theorem log_det_noise {g : LmeGroup p q} (hl : ∀ i, 0 < g.l i) {gamma : Vec ℝ q} (hg : ∀ j, 0 ≤ gamma j) : ∑ i, Real.log (g.l i) ≤ Real.log (margCov g gamma).det := by
  have h := log_det_le hl hg (gamma' := 0) fun _ => le_rfl
  have e : margCov g 0 = diagonal g.l := by simp [margCov]
  rw [e, Matrix.det_diagonal, Real.log_prod fun i _ => (hl i).ne'] at h
  have h2 : ∑ j, ((0 : Vec ℝ q) j - gamma j) * (g.zcol j ⬝ᵥ ((margCov g gamma)⁻¹ *ᵥ g.zcol j)) ≤ 0 :=
    Finset.sum_nonpos fun j _ => mul_nonpos_of_nonpos_of_nonneg (by simpa using hg j) (posDef_inv_nonneg (margCov_posDef g gamma hl hg) _)
  linarith

/-- Any quadratic form of the inverse covariance is at most that of the inverse noise. -/
theorem margCov_inv_form_le {g : LmeGroup p q} (hl : ∀ i, 0 < g.l i) {gamma : Vec ℝ q} (hg : ∀ j, 0 ≤ gamma j) (r : Fin g.n → ℝ) :
    r ⬝ᵥ ((margCov g gamma)⁻¹ *ᵥ r) ≤ ∑ i, r i ^ 2 / g.l i := by
  have hB : (diagonal g.l).PosDef := PosDef.diagonal hl
  refine (inv_form_le (margCov_posDef g gamma hl hg) hB (fun w => ?_) _).trans ?_
  · unfold margCov
    rw [Matrix.add_mulVec, dotProduct_add, zdz_form]
    have : 0 ≤ ∑ j, gamma j * ((g.zcol j ⬝ᵥ w) * (g.zcol j ⬝ᵥ w)) := Finset.sum_nonneg fun j _ => mul_nonneg (hg j) (mul_self_nonneg _)
    linarith
  · have e : (diagonal g.l)⁻¹ = diagonal fun i => (g.l i)⁻¹ := by
      refine Matrix.inv_eq_right_inv ?_
      rw [Matrix.diagonal_mul_diagonal, ← Matrix.diagonal_one]
      congr 1
      funext i
      exact mul_inv_cancel₀ (hl i).ne'
    rw [e]
    simp only [dotProduct, Matrix.mulVec_diagonal]
    refine le_of_eq (Finset.sum_congr rfl fun i _ => ?_)
    rw [div_eq_mul_inv]
    ring

theorem zcol_inv_residual {g : LmeGroup p q} (hl : ∀ i, 0 < g.l i) {gamma : Vec ℝ q} (hg : ∀ j, 0 ≤ gamma j) (j : Fin q) (r : Fin g.n → ℝ) :
    (g.zcol j ⬝ᵥ ((margCov g gamma)⁻¹ *ᵥ r)) ^ 2 ≤ noiseNorm g j * (r ⬝ᵥ ((margCov g gamma)⁻¹ *ᵥ r)) := by
  have hpd := margCov_posDef g gamma hl hg
  have key : ∀ u w : Fin g.n → ℝ, u ⬝ᵥ ((margCov g gamma)⁻¹ *ᵥ w) = ∑ i, (lmeElInv g gamma *ᵥ u) i * (lmeElInv g gamma *ᵥ w) i := by
    intro u w
    rw [← lmeElInv_mul hpd, ← Matrix.mulVec_mulVec, Matrix.dotProduct_mulVec, Matrix.vecMul_transpose]
    rfl
  have h1 := margCov_inv_le hl hg j
  rw [key] at h1
  rw [key, key]
  refine (Finset.sum_mul_sq_le_sq_mul_sq _ _ _).trans ?_
  simp only [← pow_two] at h1 ⊢
  exact mul_le_mul_of_nonneg_right h1 (Finset.sum_nonneg fun i _ => sq_nonneg _)

/-- The quadratic form of a positive definite inverse, completed at any point. -/
theorem inv_form_complete {n : ℕ} {A : Matrix (Fin n) (Fin n) ℝ} (hA : A.PosDef) (r w : Fin n → ℝ) :
    r ⬝ᵥ (A⁻¹ *ᵥ r) = 2 * (w ⬝ᵥ r) - w ⬝ᵥ (A *ᵥ w) + (r - A *ᵥ w) ⬝ᵥ (A⁻¹ *ᵥ (r - A *ᵥ w)) := by
  have hu := posDef_det_unit hA
  have e : A⁻¹ *ᵥ (A *ᵥ w) = w := by rw [Matrix.mulVec_mulVec, Matrix.nonsing_inv_mul _ hu, Matrix.one_mulVec]
  have e2 : (A *ᵥ w) ⬝ᵥ (A⁻¹ *ᵥ r) = w ⬝ᵥ r := by
    rw [posDef_inv_symm_dot hA, e, dotProduct_comm]
  rw [Matrix.mulVec_sub, e, sub_dotProduct, dotProduct_sub, dotProduct_sub, e2, dotProduct_comm r w, dotProduct_comm (A *ᵥ w) w]
  ring

theorem sum_prod_sq_le {ι κ : Type} [Fintype ι] [Fintype κ] (a x : ι → ℝ) (b y : κ → ℝ) :
    (∑ i, a i * x i + ∑ j, b j * y j) ^ 2 ≤ (∑ i, a i ^ 2 + ∑ j, b j ^ 2) * (∑ i, x i ^ 2 + ∑ j, y j ^ 2) := by
  have := Finset.sum_mul_sq_le_sq_mul_sq (Finset.univ : Finset (ι ⊕ κ)) (Sum.elim a b) (Sum.elim x y)
  simpa [Fintype.sum_sum_type] using this

/-- The negative log-likelihood of a group lies below a parabola whose curvature depends on the current fit of the group only. -/
theorem groupNLL_upper {g : LmeGroup p q} (hl : ∀ i, 0 < g.l i) {gamma gamma' : Vec ℝ q} (hg : ∀ j, 0 ≤ gamma j) (hg' : ∀ j, 0 ≤ gamma' j) (beta beta' : Vec ℝ p) :
    groupNLL g beta' gamma' ≤ groupNLL g beta gamma + (-(g.xᵀ *ᵥ ((margCov g gamma)⁻¹ *ᵥ residual g beta))) ⬝ᵥ (beta' - beta) + nllGradGamma g beta gamma ⬝ᵥ (gamma' - gamma)
      + 1 / 2 * ((∑ i, (∑ k, g.x i k ^ 2) / g.l i) + (residual g beta ⬝ᵥ ((margCov g gamma)⁻¹ *ᵥ residual g beta)) * ∑ j, noiseNorm g j ^ 2)
        * (∑ k, (beta' k - beta k) ^ 2 + ∑ j, (gamma' j - gamma j) ^ 2) := by
  have hpd := margCov_posDef g gamma hl hg
  have hpd' := margCov_posDef g gamma' hl hg'
  have h1 := log_det_le hl hg hg'
  obtain ⟨w, hw⟩ : ∃ w, w = (margCov g gamma)⁻¹ *ᵥ residual g beta := ⟨_, rfl⟩
  have h2 := inv_form_complete hpd' (residual g beta') w
  have hΩw : margCov g gamma *ᵥ w = residual g beta := by
    rw [hw, Matrix.mulVec_mulVec, Matrix.mul_nonsing_inv _ (posDef_det_unit hpd), Matrix.one_mulVec]
  have e0 : margCov g gamma' = margCov g gamma + (margCov g gamma' - margCov g gamma) := by abel
  have e1 : w ⬝ᵥ (margCov g gamma' *ᵥ w) = w ⬝ᵥ residual g beta + ∑ j, (gamma' j - gamma j) * (g.zcol j ⬝ᵥ w) ^ 2 := by
    rw [e0, Matrix.add_mulVec, dotProduct_add, hΩw, margCov_sub, zdz_form]
    simp only [pow_two, Pi.sub_apply]
  have er : residual g beta' = residual g beta - g.x *ᵥ (beta' - beta) := by
    rw [residual_eq, residual_eq, Matrix.mulVec_sub]
    abel
  have e2 : w ⬝ᵥ residual g beta' = w ⬝ᵥ residual g beta - (g.xᵀ *ᵥ w) ⬝ᵥ (beta' - beta) := by
    rw [er, dotProduct_sub, Matrix.dotProduct_mulVec, Matrix.mulVec_transpose]
  have e3 : nllGradGamma g beta gamma ⬝ᵥ (gamma' - gamma) = 1 / 2 * ∑ j, (gamma' j - gamma j) * (g.zcol j ⬝ᵥ ((margCov g gamma)⁻¹ *ᵥ g.zcol j))
      - 1 / 2 * ∑ j, (gamma' j - gamma j) * (g.zcol j ⬝ᵥ w) ^ 2 := by
    rw [Finset.mul_sum, Finset.mul_sum, ← Finset.sum_sub_distrib]
    refine Finset.sum_congr rfl fun j _ => ?_
    rw [nllGradGamma, zT_form, zT_vec, ← hw, Pi.sub_apply]
    ring
  have e4 : residual g beta ⬝ᵥ ((margCov g gamma)⁻¹ *ᵥ residual g beta) = w ⬝ᵥ residual g beta := by rw [← hw, dotProduct_comm]
  -- the remainder
  have e5 : ∀ i, (residual g beta' - margCov g gamma' *ᵥ w) i = -(∑ k, g.x i k * (beta' k - beta k) + ∑ j, (g.z i j * (g.zcol j ⬝ᵥ w)) * (gamma' j - gamma j)) := by
    intro i
    rw [e0, Matrix.add_mulVec, hΩw, er, margCov_sub, ← Matrix.mulVec_mulVec, ← Matrix.mulVec_mulVec]
    simp only [Pi.sub_apply, Pi.add_apply]
    have : (g.z *ᵥ (diagonal (gamma' - gamma) *ᵥ (g.zᵀ *ᵥ w))) i = ∑ j, (g.z i j * (g.zcol j ⬝ᵥ w)) * (gamma' j - gamma j) := by
      unfold mulVec dotProduct
      refine Finset.sum_congr rfl fun j _ => ?_
      have : ∑ k, diagonal (gamma' - gamma) j k * ∑ i, g.zᵀ k i * w i = (gamma' j - gamma j) * ∑ i, g.z i j * w i := by
        rw [Finset.sum_eq_single j]
        · simp
        · intro k _ hk
          rw [Matrix.diagonal_apply_ne _ hk.symm, zero_mul]
        · simp
      change g.z i j * (∑ k, diagonal (gamma' - gamma) j k * ∑ i, g.zᵀ k i * w i) = _
      rw [this]
      simp only [LmeGroup.zcol]
      ring
    rw [this]
    have : (g.x *ᵥ (beta' - beta)) i = ∑ k, g.x i k * (beta' k - beta k) := rfl
    rw [this]
    ring
  have h3 : (residual g beta' - margCov g gamma' *ᵥ w) ⬝ᵥ ((margCov g gamma')⁻¹ *ᵥ (residual g beta' - margCov g gamma' *ᵥ w)) ≤
      ((∑ i, (∑ k, g.x i k ^ 2) / g.l i) + (w ⬝ᵥ residual g beta) * ∑ j, noiseNorm g j ^ 2) * (∑ k, (beta' k - beta k) ^ 2 + ∑ j, (gamma' j - gamma j) ^ 2) := by
    have hS : 0 ≤ ∑ k, (beta' k - beta k) ^ 2 + ∑ j, (gamma' j - gamma j) ^ 2 :=
      add_nonneg (Finset.sum_nonneg fun _ _ => sq_nonneg _) (Finset.sum_nonneg fun _ _ => sq_nonneg _)
    refine (margCov_inv_form_le hl hg' _).trans ?_
    calc _ ≤ ∑ i, (∑ k, g.x i k ^ 2 + ∑ j, (g.z i j * (g.zcol j ⬝ᵥ w)) ^ 2) * (∑ k, (beta' k - beta k) ^ 2 + ∑ j, (gamma' j - gamma j) ^ 2) / g.l i := by
          refine Finset.sum_le_sum fun i _ => ?_
          rw [e5 i, neg_sq]
          exact div_le_div_of_nonneg_right (sum_prod_sq_le _ _ _ _) (hl i).le
      _ = ((∑ i, (∑ k, g.x i k ^ 2) / g.l i) + ∑ j, (g.zcol j ⬝ᵥ w) ^ 2 * noiseNorm g j) * (∑ k, (beta' k - beta k) ^ 2 + ∑ j, (gamma' j - gamma j) ^ 2) := by
          have : ∑ j, (g.zcol j ⬝ᵥ w) ^ 2 * noiseNorm g j = ∑ i, (∑ j, (g.z i j * (g.zcol j ⬝ᵥ w)) ^ 2) / g.l i := by
            simp only [noiseNorm, Finset.mul_sum, Finset.sum_div]
            rw [Finset.sum_comm]
            refine Finset.sum_congr rfl fun i _ => Finset.sum_congr rfl fun j _ => ?_
            rw [mul_pow]
            ring
          rw [this, ← Finset.sum_add_distrib, Finset.sum_mul]
          refine Finset.sum_congr rfl fun i _ => ?_
          ring
      _ ≤ _ := by
          refine mul_le_mul_of_nonneg_right ?_ hS
          refine add_le_add le_rfl ?_
          rw [Finset.mul_sum]
          refine Finset.sum_le_sum fun j _ => ?_
          have := zcol_inv_residual hl hg j (residual g beta)
          rw [e4, ← hw] at this
          calc _ ≤ noiseNorm g j * (w ⬝ᵥ residual g beta) * noiseNorm g j := mul_le_mul_of_nonneg_right this (noiseNorm_nonneg hl j)
            _ = _ := by ring
  rw [e1, e2] at h2
  unfold groupNLL
  rw [e3, e4, ← hw, neg_dotProduct]
  linarith

/-! ## All groups -/

/-- The curvature due to the fixed effects: the sum of `x² / l` over all observations and fixed effects. -/
noncomputable def fixedCurvature (D : List (LmeGroup p q)) : ℝ := (D.map fun g => ∑ i, (∑ k, g.x i k ^ 2) / g.l i).sum

/-- The least value the negative log-likelihood can take on account of the noise: half the sum of `log l`. -/
noncomputable def noiseFloor (D : List (LmeGroup p q)) : ℝ := 1 / 2 * (D.map fun g => ∑ i, Real.log (g.l i)).sum

theorem fixedCurvature_nonneg {D : List (LmeGroup p q)} (hD : PosVar D) : 0 ≤ fixedCurvature D := by
  refine List.sum_nonneg fun a ha => ?_
  obtain ⟨g, hg, rfl⟩ := List.mem_map.1 ha
  exact Finset.sum_nonneg fun i _ => div_nonneg (Finset.sum_nonneg fun _ _ => sq_nonneg _) (hD g hg i).le

theorem relaxationNeeded_nonneg (D : List (LmeGroup p q)) : 0 ≤ relaxationNeeded D := by
  refine List.sum_nonneg fun a ha => ?_
  obtain ⟨g, hg, rfl⟩ := List.mem_map.1 ha
  exact Finset.sum_nonneg fun i _ => sq_nonneg _

/-- The sum of the quadratic forms of the residuals is bounded by the likelihood. -/
theorem residual_forms {D : List (LmeGroup p q)} (hD : PosVar D) {gamma : Vec ℝ q} (hg : ∀ j, 0 ≤ gamma j) (beta : Vec ℝ p) :
    (D.map fun g => residual g beta ⬝ᵥ ((margCov g gamma)⁻¹ *ᵥ residual g beta)).sum ≤ 2 * (marginalNLL D beta gamma - noiseFloor D) := by
  induction D with
  | nil => simp [marginalNLL, noiseFloor]
  | cons g D ih =>
    have h1 := log_det_noise (hD g List.mem_cons_self) hg
    have h2 := ih fun g' h' => hD g' (List.mem_cons_of_mem _ h')
    simp only [marginalNLL, noiseFloor, groupNLL, List.map_cons, List.sum_cons] at h2 ⊢
    linarith

theorem residual_form_nonneg {D : List (LmeGroup p q)} (hD : PosVar D) {gamma : Vec ℝ q} (hg : ∀ j, 0 ≤ gamma j) (beta : Vec ℝ p) {g : LmeGroup p q} (h : g ∈ D) :
    0 ≤ residual g beta ⬝ᵥ ((margCov g gamma)⁻¹ *ᵥ residual g beta) := posDef_inv_nonneg (margCov_posDef g gamma (hD g h) hg) _

/-- The likelihood is bounded. -/
theorem noiseFloor_le {D : List (LmeGroup p q)} (hD : PosVar D) {gamma : Vec ℝ q} (hg : ∀ j, 0 ≤ gamma j) (beta : Vec ℝ p) : noiseFloor D ≤ marginalNLL D beta gamma := by
  have h := residual_forms hD hg beta
  have h0 : 0 ≤ (D.map fun g => residual g beta ⬝ᵥ ((margCov g gamma)⁻¹ *ᵥ residual g beta)).sum := by
    refine List.sum_nonneg fun a ha => ?_
    obtain ⟨g, hgD, rfl⟩ := List.mem_map.1 ha
    exact residual_form_nonneg hD hg beta hgD
  linarith

theorem sum_mul_le_mul_sum {ι : Type} (l : List ι) (a b : ι → ℝ) (ha : ∀ i ∈ l, 0 ≤ a i) (hb : ∀ i ∈ l, 0 ≤ b i) :
    (l.map fun i => a i * b i).sum ≤ (l.map a).sum * (l.map b).sum := by
  induction l with
  | nil => simp
  | cons i l ih =>
    have h := ih (fun j hj => ha j (List.mem_cons_of_mem _ hj)) fun j hj => hb j (List.mem_cons_of_mem _ hj)
    have h1 : 0 ≤ (l.map a).sum := List.sum_nonneg fun x hx => by
      obtain ⟨j, hj, rfl⟩ := List.mem_map.1 hx
      exact ha j (List.mem_cons_of_mem _ hj)
    have h2 : 0 ≤ (l.map b).sum := List.sum_nonneg fun x hx => by
      obtain ⟨j, hj, rfl⟩ := List.mem_map.1 hx
      exact hb j (List.mem_cons_of_mem _ hj)
    have := ha i List.mem_cons_self
    have := hb i List.mem_cons_self
    simp only [List.map_cons, List.sum_cons]
    nlinarith [mul_nonneg (ha i List.mem_cons_self) h2, mul_nonneg (hb i List.mem_cons_self) h1]

/-- The negative log-likelihood lies below a parabola: at a point where it is at most `v` the curvature is at most `fixedCurvature + 2 (v - noiseFloor) relaxationNeeded`, against all points with nonnegative variances. -/
theorem marginalNLL_upper {D : List (LmeGroup p q)} (hD : PosVar D) {gamma gamma' : Vec ℝ q} (hg : ∀ j, 0 ≤ gamma j) (hg' : ∀ j, 0 ≤ gamma' j) (beta beta' : Vec ℝ p) {v : ℝ}
    (hv : marginalNLL D beta gamma ≤ v) :
    marginalNLL D beta' gamma' ≤ marginalNLL D beta gamma + (D.map fun g => -(g.xᵀ *ᵥ ((margCov g gamma)⁻¹ *ᵥ residual g beta))).sum ⬝ᵥ (beta' - beta)
      + (D.map fun g => nllGradGamma g beta gamma).sum ⬝ᵥ (gamma' - gamma)
      + 1 / 2 * (fixedCurvature D + 2 * (v - noiseFloor D) * relaxationNeeded D) * (∑ k, (beta' k - beta k) ^ 2 + ∑ j, (gamma' j - gamma j) ^ 2) := by
  have hS : 0 ≤ ∑ k, (beta' k - beta k) ^ 2 + ∑ j, (gamma' j - gamma j) ^ 2 :=
    add_nonneg (Finset.sum_nonneg fun _ _ => sq_nonneg _) (Finset.sum_nonneg fun _ _ => sq_nonneg _)
  obtain ⟨S, hSe⟩ : ∃ S, S = ∑ k, (beta' k - beta k) ^ 2 + ∑ j, (gamma' j - gamma j) ^ 2 := ⟨_, rfl⟩
  have key : marginalNLL D beta' gamma' ≤ marginalNLL D beta gamma + (D.map fun g => -(g.xᵀ *ᵥ ((margCov g gamma)⁻¹ *ᵥ residual g beta))).sum ⬝ᵥ (beta' - beta)
      + (D.map fun g => nllGradGamma g beta gamma).sum ⬝ᵥ (gamma' - gamma)
      + 1 / 2 * (fixedCurvature D + (D.map fun g => (residual g beta ⬝ᵥ ((margCov g gamma)⁻¹ *ᵥ residual g beta)) * ∑ j, (∑ i, g.z i j ^ 2 / g.l i) ^ 2).sum) * S := by
    clear hv
    induction D with
    | nil => simp [marginalNLL, fixedCurvature]
    | cons g D ih =>
      have h1 := groupNLL_upper (hD g List.mem_cons_self) hg hg' beta beta'
      have h2 := ih fun g' h' => hD g' (List.mem_cons_of_mem _ h')
      rw [← hSe] at h1
      simp only [marginalNLL, fixedCurvature, noiseNorm, List.map_cons, List.sum_cons, add_dotProduct] at h1 h2 ⊢
      nlinarith [h1, h2]
  rw [← hSe] at hS ⊢
  refine key.trans ?_
  refine add_le_add le_rfl ?_
  refine mul_le_mul_of_nonneg_right (mul_le_mul_of_nonneg_left (add_le_add le_rfl ?_) (by norm_num)) hS
  refine (sum_mul_le_mul_sum D _ _ (fun g h => residual_form_nonneg hD hg beta h) fun g _ => Finset.sum_nonneg fun _ _ => sq_nonneg _).trans ?_
  refine mul_le_mul_of_nonneg_right ?_ (relaxationNeeded_nonneg D)
  have := residual_forms hD hg beta
  linarith

end Verif
