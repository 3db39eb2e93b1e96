import Verif.Props.LmePull

/-!
# C210: the SR3 oracle reports a smaller uncertainty of the fixed effects
-/

open Matrix

namespace Verif

variable {p q : ℕ}

theorem smul_one_form (c : ℝ) (b : Vec ℝ p) : b ⬝ᵥ ((c • (1 : Matrix (Fin p) (Fin p) ℝ)) *ᵥ b) = c * ∑ i, b i ^ 2 := by
  rw [Matrix.smul_mulVec, Matrix.one_mulVec, dotProduct_smul, smul_eq_mul]
  congr 1
  exact Finset.sum_congr rfl fun i _ => (sq _).symm

theorem nonnegForm_dot {H : Matrix (Fin p) (Fin p) ℝ} (h : NonnegForm H) (v : Vec ℝ p) : 0 ≤ v ⬝ᵥ (H *ᵥ v) := by
  refine (h v).trans (le_of_eq ?_)
  simp only [dotProduct, Matrix.mulVec, Finset.mul_sum, mul_assoc]

theorem smul_one_posDef {c : ℝ} (hc : 0 < c) : (c • (1 : Matrix (Fin p) (Fin p) ℝ)).PosDef := Matrix.PosDef.one.smul hc

/-- The flip probabilities of the smaller of two covariances are smaller. -/
theorem flip_le_of_form {H H' : Matrix (Fin p) (Fin p) ℝ} (hpd : H.PosDef) (hpd' : H'.PosDef) (hform : ∀ b, b ⬝ᵥ (H *ᵥ b) ≤ b ⬝ᵥ (H' *ᵥ b)) (beta : Vec ℝ p) :
    ∃ f f', lmeFlipProbabilities (.ok H) beta = .ok f ∧ lmeFlipProbabilities (.ok H') beta = .ok f' ∧ ∀ i, f' i ≤ f i := by
  refine ⟨_, _, flip_ok hpd beta, flip_ok hpd' beta, fun i => ?_⟩
  have hdiag : H'⁻¹ i i ≤ H⁻¹ i i := by
    have := inv_form_le hpd' hpd hform (Pi.single i 1)
    rwa [diag_entry_form, diag_entry_form] at this
  refine stdNormalCdf_strictMono.monotone ?_
  rw [neg_div, neg_div]
  exact neg_le_neg (div_le_div_of_nonneg_left (abs_nonneg _) (Real.sqrt_pos.2 hpd'.inv.diag_pos) (Real.sqrt_le_sqrt hdiag))

theorem sr3Hessian_posDef {D : List (LmeGroup p q)} (hD : PosVar D) {P : LmeInstPrior ℝ p q} (hP : P.Reachable) {gamma : Vec ℝ q} (hg : ∀ j, 0 ≤ gamma j) :
    ∃ H, lmeHessianBeta D P gamma = .ok H ∧ Hᵀ = H ∧ NonnegForm H ∧
      ∀ S : Sr3Params, 0 < S.lb → lmeSr3HessianBeta D P S gamma = .ok (H + S.lb • 1) ∧ (H + S.lb • (1 : Matrix (Fin p) (Fin p) ℝ)).PosDef := by
  obtain ⟨⟨-, -, H, -, -, hH, -, hsy, hnn⟩, -⟩ := C55_beta_derivatives D P hP ⟨0, 0⟩ gamma (inDomain_of_nonneg hD hg) 0 0
  refine ⟨H, hH, hsy, hnn, fun S hS => ⟨?_, ?_⟩⟩
  · unfold lmeSr3HessianBeta
    rw [hH]
    rfl
  · refine PosDef.of_dotProduct_mulVec_pos ?_ fun v hv => ?_
    · rw [IsHermitian, conjTranspose_eq_transpose_of_trivial, transpose_add, hsy, transpose_smul, transpose_one]
    · have h1 := (smul_one_posDef hS).dotProduct_mulVec_pos hv
      rw [star_trivial] at h1 ⊢
      rw [Matrix.add_mulVec, dotProduct_add]
      exact add_pos_of_nonneg_of_pos (nonnegForm_dot hnn v) h1

/-- **C210**: with a positive relaxation constant the SR3 oracle's `covariance_beta` returns a symmetric matrix for every list of groups with positive observation variances (collinear features
included), all nonnegative variances and every instantiated prior, with `bᵀ C b ≤ ‖b‖² / lb` and positive variances of at most `1/lb`. It does not increase, in any direction, when `lb` grows, nor do the sign flip
probabilities. -/
theorem C210_sr3 (D : List (LmeGroup p q)) (hD : PosVar D) (P : LmeInstPrior ℝ p q) (hP : P.Reachable) (gamma : Vec ℝ q) (hg : ∀ j, 0 ≤ gamma j) (S S' : Sr3Params) (hS : 0 < S.lb) (hSS : S.lb ≤ S'.lb) :
    ∃ C C', lmeCovarianceBeta (lmeSr3HessianBeta D P S gamma) = .ok C ∧ lmeCovarianceBeta (lmeSr3HessianBeta D P S' gamma) = .ok C' ∧
      Cᵀ = C ∧ (∀ b : Vec ℝ p, b ⬝ᵥ (C *ᵥ b) ≤ (∑ i, b i ^ 2) / S.lb) ∧ (∀ i, 0 < C i i ∧ C i i ≤ 1 / S.lb) ∧ (∀ b : Vec ℝ p, b ⬝ᵥ (C' *ᵥ b) ≤ b ⬝ᵥ (C *ᵥ b)) ∧
      ∀ beta : Vec ℝ p, ∃ f f', lmeFlipProbabilities (lmeSr3HessianBeta D P S gamma) beta = .ok f ∧ lmeFlipProbabilities (lmeSr3HessianBeta D P S' gamma) beta = .ok f' ∧ ∀ i, f' i ≤ f i := by
  obtain ⟨H, -, hsy, hnn, hall⟩ := sr3Hessian_posDef hD hP hg
  obtain ⟨h1, hp1⟩ := hall S hS
  obtain ⟨h2, hp2⟩ := hall S' (hS.trans_le hSS)
  have hform : ∀ b : Vec ℝ p, b ⬝ᵥ ((H + S.lb • 1) *ᵥ b) ≤ b ⬝ᵥ ((H + S'.lb • 1) *ᵥ b) := fun b => by
    rw [Matrix.add_mulVec, Matrix.add_mulVec, dotProduct_add, dotProduct_add, smul_one_form, smul_one_form]
    have := mul_le_mul_of_nonneg_right hSS (Finset.sum_nonneg fun i (_ : i ∈ Finset.univ) => sq_nonneg (b i))
    linarith
  have hbound : ∀ b : Vec ℝ p, b ⬝ᵥ ((H + S.lb • (1 : Matrix (Fin p) (Fin p) ℝ))⁻¹ *ᵥ b) ≤ (∑ i, b i ^ 2) / S.lb := fun b => by
    have := inv_form_le hp1 (smul_one_posDef hS) (fun w => by
      rw [Matrix.add_mulVec, dotProduct_add]
      have := nonnegForm_dot hnn w
      linarith) b
    have e : (S.lb • (1 : Matrix (Fin p) (Fin p) ℝ))⁻¹ = S.lb⁻¹ • 1 := by
      refine Matrix.inv_eq_right_inv ?_
      rw [Matrix.smul_mul, Matrix.one_mul, smul_smul, mul_inv_cancel₀ hS.ne', one_smul]
    rw [e, smul_one_form] at this
    rwa [div_eq_inv_mul]
  rw [h1, h2]
  refine ⟨_, _, npInv_ok.2 ⟨posDef_det_unit hp1, rfl⟩, npInv_ok.2 ⟨posDef_det_unit hp2, rfl⟩, ?_, hbound, fun i => ⟨hp1.inv.diag_pos, ?_⟩, inv_form_le hp2 hp1 hform,
    flip_le_of_form hp1 hp2 hform⟩
  · rw [transpose_nonsing_inv, transpose_add, hsy, transpose_smul, transpose_one]
  · have := hbound (Pi.single i 1)
    rw [diag_entry_form] at this
    refine this.trans (le_of_eq ?_)
    congr 1
    rw [Finset.sum_eq_single i (fun j _ hj => by rw [Pi.single_eq_of_ne hj, zero_pow two_ne_zero]) (fun h => absurd (Finset.mem_univ i) h), Pi.single_eq_same, one_pow]

/-- **C210**: where the plain oracle's `covariance_beta` returns, the one of the SR3 oracle is not larger, in any direction, and its sign flip probabilities are not larger either. -/
theorem C210_plain (D : List (LmeGroup p q)) (hD : PosVar D) (P : LmeInstPrior ℝ p q) (hP : P.Reachable) (gamma : Vec ℝ q) (hg : ∀ j, 0 ≤ gamma j) (S : Sr3Params) (hS : 0 < S.lb)
    (C : Matrix (Fin p) (Fin p) ℝ) (hC : lmeCovarianceBeta (lmeHessianBeta D P gamma) = .ok C) :
    ∃ C', lmeCovarianceBeta (lmeSr3HessianBeta D P S gamma) = .ok C' ∧ (∀ b : Vec ℝ p, b ≠ 0 → b ⬝ᵥ (C' *ᵥ b) < b ⬝ᵥ (C *ᵥ b)) ∧
      ∀ beta : Vec ℝ p, ∃ f f', lmeFlipProbabilities (lmeHessianBeta D P gamma) beta = .ok f ∧ lmeFlipProbabilities (lmeSr3HessianBeta D P S gamma) beta = .ok f' ∧ ∀ i, f' i ≤ f i := by
  obtain ⟨H, h0, hsy, hnn, hall⟩ := sr3Hessian_posDef hD hP hg
  obtain ⟨h1, hp1⟩ := hall S hS
  unfold lmeCovarianceBeta at hC
  rw [h0] at hC
  obtain ⟨hu, rfl⟩ := npInv_ok.1 hC
  have hpd := posDef_of_nonneg_of_det hsy hnn hu.ne_zero
  rw [h0, h1]
  refine ⟨_, npInv_ok.2 ⟨posDef_det_unit hp1, rfl⟩, fun b hb => ?_, flip_le_of_form hpd hp1 fun b => ?_⟩
  · set A := H + S.lb • (1 : Matrix (Fin p) (Fin p) ℝ) with hA
    have hne : A⁻¹ *ᵥ b ≠ 0 := fun h => hb (by
      have := congrArg (fun w => A *ᵥ w) h
      simpa [Matrix.mulVec_mulVec, Matrix.mul_nonsing_inv _ (posDef_det_unit hp1)] using this)
    have h2 := inv_form_ge hpd b (A⁻¹ *ᵥ b)
    rw [dotProduct_comm (A⁻¹ *ᵥ b) b] at h2
    have e : A *ᵥ (A⁻¹ *ᵥ b) = b := by rw [Matrix.mulVec_mulVec, Matrix.mul_nonsing_inv _ (posDef_det_unit hp1), Matrix.one_mulVec]
    have h3 : (A⁻¹ *ᵥ b) ⬝ᵥ (H *ᵥ (A⁻¹ *ᵥ b)) + (A⁻¹ *ᵥ b) ⬝ᵥ ((S.lb • (1 : Matrix (Fin p) (Fin p) ℝ)) *ᵥ (A⁻¹ *ᵥ b)) = b ⬝ᵥ (A⁻¹ *ᵥ b) := by
      rw [← dotProduct_add, ← Matrix.add_mulVec, ← hA, e, dotProduct_comm]
    have h4 := (smul_one_posDef (p := p) hS).dotProduct_mulVec_pos hne
    rw [star_trivial] at h4
    linarith
  · rw [Matrix.add_mulVec, dotProduct_add, smul_one_form]
    have := mul_nonneg hS.le (Finset.sum_nonneg fun i (_ : i ∈ Finset.univ) => sq_nonneg (b i))
    linarith

/-- Non-vacuity: the example group with the relaxation constant two. -/
example : ∃ C C', lmeCovarianceBeta (lmeHessianBeta [exGroup] .nonInformative ![1]) = .ok C ∧ lmeCovarianceBeta (lmeSr3HessianBeta [exGroup] .nonInformative ⟨2, 1⟩ ![1]) = .ok C' ∧ C' 0 0 < C 0 0 := by
  obtain ⟨H, hH, hne⟩ := exGroup_hessian
  have hC : lmeCovarianceBeta (lmeHessianBeta [exGroup] .nonInformative ![1]) = .ok H⁻¹ := by
    unfold lmeCovarianceBeta
    rw [hH]
    exact npInv_ok.2 ⟨isUnit_iff_ne_zero.2 hne, rfl⟩
  obtain ⟨C', h, hd, -⟩ := C210_plain [exGroup] exGroup_posVar .nonInformative trivial ![1] (fun j => by fin_cases j; norm_num) ⟨2, 1⟩ two_pos _ hC
  have := hd (Pi.single 0 1) (fun h => by have := congrFun h 0; simp at this)
  rw [diag_entry_form, diag_entry_form] at this
  exact ⟨_, C', hC, h, this⟩

/-- One observation, two equal features: the plain Hessian is singular, the SR3 covariance exists. -/
example : ∃ C, lmeCovarianceBeta (lmeSr3HessianBeta [(⟨1, Matrix.of fun _ _ => 1, fun _ => 3, Matrix.of fun _ _ => 1, fun _ => 1⟩ : LmeGroup 2 1)] .nonInformative ⟨2, 1⟩ ![1]) = .ok C ∧
    C 0 0 ≤ 1 / 2 := by
  obtain ⟨C, -, h, -, -, -, hd, -⟩ := C210_sr3 [(⟨1, Matrix.of fun _ _ => 1, fun _ => 3, Matrix.of fun _ _ => 1, fun _ => 1⟩ : LmeGroup 2 1)]
    (fun g hg => by rw [List.mem_singleton.1 hg]; exact fun _ => one_pos) .nonInformative trivial ![1] (fun j => by fin_cases j; norm_num) ⟨2, 1⟩ ⟨2, 1⟩ two_pos le_rfl
  exact ⟨C, h, (hd 0).2⟩

end Verif
