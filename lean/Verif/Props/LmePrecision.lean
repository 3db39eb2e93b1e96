import Verif.Props.LmeTrade
import Verif.Props.LmeFlip

/-!
# C208: more groups and smaller variances make the fixed effects more precise
-/

open Matrix

namespace Verif

variable {p q : ℕ}

theorem kernel_form (D : List (LmeGroup p q)) (gamma : Vec ℝ q) (b : Vec ℝ p) :
    b ⬝ᵥ ((D.map fun g => g.xᵀ * (margCov g gamma)⁻¹ * g.x).sum *ᵥ b) = (D.map fun g => (g.x *ᵥ b) ⬝ᵥ ((margCov g gamma)⁻¹ *ᵥ (g.x *ᵥ b))).sum := by
  induction D with
  | nil => simp
  | cons g D ih =>
    rw [List.map_cons, List.sum_cons, Matrix.add_mulVec, dotProduct_add, ih, List.map_cons, List.sum_cons, ← Matrix.mulVec_mulVec, ← Matrix.mulVec_mulVec,
      Matrix.dotProduct_mulVec b, Matrix.vecMul_transpose]

theorem diag_entry_form {n : ℕ} (A : Matrix (Fin n) (Fin n) ℝ) (i : Fin n) : (Pi.single i 1 : Fin n → ℝ) ⬝ᵥ (A *ᵥ Pi.single i 1) = A i i := by
  simp

/-- The Hessian with more groups and smaller variances is larger. -/
theorem hessian_form_le {D E : List (LmeGroup p q)} (hD : PosVar D) (hE : PosVar E) {P : LmeInstPrior ℝ p q} {gamma gamma' : Vec ℝ q} (hg : ∀ j, 0 ≤ gamma' j) (hle : ∀ j, gamma' j ≤ gamma j)
    {H H' : Matrix (Fin p) (Fin p) ℝ} (h : lmeHessianBeta D P gamma = .ok H) (h' : lmeHessianBeta (D ++ E) P gamma' = .ok H') (b : Vec ℝ p) : b ⬝ᵥ (H *ᵥ b) ≤ b ⬝ᵥ (H' *ᵥ b) := by
  obtain ⟨-, rfl⟩ := lmeHessianBeta_ok.1 h
  obtain ⟨-, rfl⟩ := lmeHessianBeta_ok.1 h'
  rw [Matrix.add_mulVec, Matrix.add_mulVec, dotProduct_add, dotProduct_add, kernel_form, kernel_form, List.map_append, List.sum_append]
  have h1 : (D.map fun g => (g.x *ᵥ b) ⬝ᵥ ((margCov g gamma)⁻¹ *ᵥ (g.x *ᵥ b))).sum ≤ (D.map fun g => (g.x *ᵥ b) ⬝ᵥ ((margCov g gamma')⁻¹ *ᵥ (g.x *ᵥ b))).sum :=
    List.sum_le_sum fun g hgD => quad_antitone (hD g hgD) hg hle _
  have h2 : 0 ≤ (E.map fun g => (g.x *ᵥ b) ⬝ᵥ ((margCov g gamma')⁻¹ *ᵥ (g.x *ᵥ b))).sum := by
    refine List.sum_nonneg fun v hv => ?_
    obtain ⟨g, hgE, rfl⟩ := List.mem_map.1 hv
    exact posDef_inv_nonneg (margCov_posDef g gamma' (hE g hgE) hg) _
  linarith

/-- **C208**: if `covariance_beta` returns for some groups with positive observation variances, nonnegative variances and any instantiated prior, it also returns
after further groups are added and variances are made smaller (not negative), and the covariance is not larger: for every combination `b` of the
fixed effects, `bᵀ C' b ≤ bᵀ C b`. The sign flip probabilities of all coefficients are then not larger either. -/
theorem C208_precision (D E : List (LmeGroup p q)) (hD : PosVar D) (hE : PosVar E) (P : LmeInstPrior ℝ p q) (hP : P.Reachable) (gamma gamma' : Vec ℝ q) (hg : ∀ j, 0 ≤ gamma' j)
    (hle : ∀ j, gamma' j ≤ gamma j) (C : Matrix (Fin p) (Fin p) ℝ) (hC : lmeCovarianceBeta (lmeHessianBeta D P gamma) = .ok C) :
    ∃ C', lmeCovarianceBeta (lmeHessianBeta (D ++ E) P gamma') = .ok C' ∧ (∀ b : Vec ℝ p, b ⬝ᵥ (C' *ᵥ b) ≤ b ⬝ᵥ (C *ᵥ b)) ∧ (∀ i, 0 < C' i i ∧ C' i i ≤ C i i) ∧
      ∀ beta : Vec ℝ p, ∃ f f', lmeFlipProbabilities (lmeHessianBeta D P gamma) beta = .ok f ∧ lmeFlipProbabilities (lmeHessianBeta (D ++ E) P gamma') beta = .ok f' ∧ ∀ i, f' i ≤ f i := by
  have hg0 : ∀ j, 0 ≤ gamma j := fun j => (hg j).trans (hle j)
  have hDE : PosVar (D ++ E) := fun g h => (List.mem_append.1 h).elim (hD g) (hE g)
  obtain ⟨⟨-, -, H, -, -, hH, -, hsy, hnn⟩, -⟩ := C55_beta_derivatives D P hP ⟨0, 0⟩ gamma (inDomain_of_nonneg hD hg0) 0 0
  obtain ⟨⟨-, -, H', -, -, hH', -, hsy', hnn'⟩, -⟩ := C55_beta_derivatives (D ++ E) P hP ⟨0, 0⟩ gamma' (inDomain_of_nonneg hDE hg) 0 0
  unfold lmeCovarianceBeta at hC
  rw [hH] at hC
  obtain ⟨hu, rfl⟩ := npInv_ok.1 hC
  have hpd := posDef_of_nonneg_of_det hsy hnn hu.ne_zero
  have hform := hessian_form_le hD hE hg hle hH hH'
  have hpd' : H'.PosDef := by
    refine PosDef.of_dotProduct_mulVec_pos (by rwa [IsHermitian, conjTranspose_eq_transpose_of_trivial]) fun v hv => ?_
    rw [star_trivial]
    have := hpd.dotProduct_mulVec_pos hv
    rw [star_trivial] at this
    exact this.trans_le (hform v)
  have hinv : ∀ b : Vec ℝ p, b ⬝ᵥ (H'⁻¹ *ᵥ b) ≤ b ⬝ᵥ (H⁻¹ *ᵥ b) := inv_form_le hpd' hpd hform
  have hdiag : ∀ i, H'⁻¹ i i ≤ H⁻¹ i i := fun i => by
    have := hinv (Pi.single i 1)
    rwa [diag_entry_form, diag_entry_form] at this
  refine ⟨H'⁻¹, ?_, hinv, fun i => ⟨hpd'.inv.diag_pos, hdiag i⟩, fun beta => ?_⟩
  · unfold lmeCovarianceBeta
    rw [hH']
    exact npInv_ok.2 ⟨posDef_det_unit hpd', rfl⟩
  · refine ⟨_, _, by rw [hH]; exact flip_ok hpd beta, by rw [hH']; exact flip_ok hpd' beta, fun i => ?_⟩
    refine stdNormalCdf_strictMono.monotone ?_
    rw [neg_div, neg_div]
    exact neg_le_neg (div_le_div_of_nonneg_left (abs_nonneg _) (Real.sqrt_pos.2 hpd'.inv.diag_pos) (Real.sqrt_le_sqrt (hdiag i)))

/-- Non-vacuity of C208: the example group twice, variance one half instead of one. -/
example : ∃ C C', lmeCovarianceBeta (lmeHessianBeta [exGroup] .nonInformative ![1]) = .ok C ∧ lmeCovarianceBeta (lmeHessianBeta ([exGroup] ++ [exGroup]) .nonInformative ![1 / 2]) = .ok C' ∧
    C' 0 0 ≤ C 0 0 := by
  obtain ⟨H, hH, hne⟩ := exGroup_hessian
  have hC : lmeCovarianceBeta (lmeHessianBeta [exGroup] .nonInformative ![1]) = .ok H⁻¹ := by
    unfold lmeCovarianceBeta
    rw [hH]
    exact npInv_ok.2 ⟨isUnit_iff_ne_zero.2 hne, rfl⟩
  obtain ⟨C', h, -, hd, -⟩ := C208_precision [exGroup] [exGroup] exGroup_posVar exGroup_posVar .nonInformative trivial ![1] ![1 / 2] (fun j => by fin_cases j; simp)
    (fun j => by fin_cases j; norm_num) _ hC
  exact ⟨_, C', hC, h, (hd 0).2⟩

end Verif
