import Verif.Props.LmeIntegral
import Verif.Props.LmeCond
import Mathlib.Probability.Moments.Variance

/-!
# The true parameters minimise the expected loss (C142)
-/

open Matrix MeasureTheory ProbabilityTheory

namespace Verif

noncomputable section

/-- `tr W - n - log det W ≥ 0` for positive definite `W`, with equality only for the identity. -/
theorem trace_sub_logdet {n : ℕ} {W : Matrix (Fin n) (Fin n) ℝ} (hW : W.PosDef) :
    0 ≤ W.trace - n - Real.log W.det ∧ (W.trace - n - Real.log W.det = 0 → W = 1) := by
  have hH := hW.isHermitian
  have hpos : ∀ i, 0 < hH.eigenvalues i := fun i => hW.eigenvalues_pos i
  have htr : W.trace = ∑ i, hH.eigenvalues i := by
    have := hH.trace_eq_sum_eigenvalues
    simpa using this
  have hdet : Real.log W.det = ∑ i, Real.log (hH.eigenvalues i) := by
    have := hH.det_eq_prod_eigenvalues
    rw [this, ← Real.log_prod fun i _ => (hpos i).ne']
    simp
  have hsum : W.trace - n - Real.log W.det = ∑ i, (hH.eigenvalues i - 1 - Real.log (hH.eigenvalues i)) := by
    rw [htr, hdet, Finset.sum_sub_distrib, Finset.sum_sub_distrib]
    simp
  have hnn : ∀ i, 0 ≤ hH.eigenvalues i - 1 - Real.log (hH.eigenvalues i) := fun i => by
    have := Real.log_le_sub_one_of_pos (hpos i)
    linarith
  rw [hsum]
  refine ⟨Finset.sum_nonneg fun i _ => hnn i, fun h0 => ?_⟩
  have hone : ∀ i, hH.eigenvalues i = 1 := fun i => by
    by_contra hne
    have h1 := (Finset.sum_eq_zero_iff_of_nonneg fun i _ => hnn i).1 h0 i (Finset.mem_univ i)
    have := Real.log_lt_sub_one_of_pos (hpos i) hne
    linarith
  have hsp := hH.spectral_theorem
  have hd : (diagonal (RCLike.ofReal ∘ hH.eigenvalues) : Matrix (Fin n) (Fin n) ℝ) = 1 := by
    rw [← diagonal_one]
    congr 1
    funext i
    simp [hone i]
  rw [hd] at hsp
  simpa using hsp

/-- The Kullback-Leibler divergence of centred normal distributions is nonnegative and vanishes only for equal covariances. -/
theorem cov_divergence {n : ℕ} {S T : Matrix (Fin n) (Fin n) ℝ} (hS : S.PosDef) (hT : T.PosDef) :
    0 ≤ (S⁻¹ * T).trace - n - (Real.log T.det - Real.log S.det) ∧ ((S⁻¹ * T).trace - n - (Real.log T.det - Real.log S.det) = 0 → T = S) := by
  obtain ⟨L, hL⟩ := exists_isCholesky hS
  have hu := hL.isUnit_det
  have hLL : L * L⁻¹ = 1 := mul_nonsing_inv _ hu
  have hW : (L⁻¹ * T * (L⁻¹)ᵀ).PosDef := by
    have h := hT.mul_mul_conjTranspose_same (B := L⁻¹) (by
      have : IsUnit L⁻¹ := (isUnit_iff_isUnit_det _).2 (by rw [isUnit_nonsing_inv_det_iff]; exact hu)
      exact vecMul_injective_of_isUnit this)
    rwa [conjTranspose_eq_transpose_of_trivial] at h
  have htr : (L⁻¹ * T * (L⁻¹)ᵀ).trace = (S⁻¹ * T).trace := by
    have h := hL.invT_mul_inv
    rw [trtriInv_eq] at h
    rw [trace_mul_comm, ← Matrix.mul_assoc, h]
  have hdS : S.det = L.det ^ 2 := by
    rw [← hL.mul_transpose, det_mul, det_transpose, pow_two]
  have hdW : Real.log (L⁻¹ * T * (L⁻¹)ᵀ).det = Real.log T.det - Real.log S.det := by
    rw [← Real.log_div hT.det_pos.ne' hS.det_pos.ne', hdS]
    congr 1
    rw [det_mul, det_mul, det_transpose, det_nonsing_inv, Ring.inverse_eq_inv']
    field_simp
  have h := trace_sub_logdet hW
  rw [htr, hdW] at h
  refine ⟨h.1, fun h0 => ?_⟩
  have h1 := h.2 h0
  calc T = L * (L⁻¹ * T * (L⁻¹)ᵀ) * Lᵀ := by
        rw [← Matrix.mul_assoc, ← Matrix.mul_assoc, hLL, Matrix.one_mul, Matrix.mul_assoc, ← transpose_mul, hLL, transpose_one, Matrix.mul_one]
    _ = S := by rw [h1, Matrix.mul_one, hL.mul_transpose]

variable {Ω : Type*} [MeasurableSpace Ω] {p q : ℕ}

/-- A group whose design is known and whose observations are random (the observations stored in `g` are not used). -/
structure RandGroup (Ω : Type*) (p q : ℕ) where
  g : LmeGroup p q
  Y : Ω → Fin g.n → ℝ

/-- The group observed in the outcome `ω`. -/
def RandGroup.at (r : RandGroup Ω p q) (ω : Ω) : LmeGroup p q := { r.g with y := r.Y ω }

/-- The observations have the mean and the covariance of the mixed model `y = X β + Z u + ε`, `cov u = diag γ`, `cov ε = diag l`. -/
structure RandGroup.Follows (r : RandGroup Ω p q) (μ : Measure Ω) (beta : Vec ℝ p) (gamma : Vec ℝ q) : Prop where
  sq : ∀ i, MemLp (fun ω => r.Y ω i) 2 μ
  mean : ∀ i, ∫ ω, r.Y ω i ∂μ = ∑ k, r.g.x i k * beta k
  cov : ∀ i j, cov[fun ω => r.Y ω i, fun ω => r.Y ω j; μ] = (∑ k, r.g.z i k * gamma k * r.g.z j k) + if i = j then r.g.l i else 0

theorem fisher_margCov_apply (g : LmeGroup p q) (gamma : Vec ℝ q) (i j : Fin g.n) :
    margCov g gamma i j = (∑ k, g.z i k * gamma k * g.z j k) + if i = j then g.l i else 0 := by
  rw [margCov, Matrix.add_apply, Matrix.mul_apply, diagonal_apply]
  simp only [Matrix.mul_diagonal, Matrix.transpose_apply]

variable {μ : Measure Ω} [IsProbabilityMeasure μ]

/-- The expected loss of a group. -/
theorem expected_groupNLL (r : RandGroup Ω p q) {beta0 : Vec ℝ p} {gamma0 : Vec ℝ q} (h : r.Follows μ beta0 gamma0) (beta : Vec ℝ p) (gamma : Vec ℝ q) :
    Integrable (fun ω => groupNLL (r.at ω) beta gamma) μ ∧
      ∫ ω, groupNLL (r.at ω) beta gamma ∂μ = 1 / 2 * (((margCov r.g gamma)⁻¹ * margCov r.g gamma0).trace
        + (r.g.x *ᵥ (beta0 - beta)) ⬝ᵥ ((margCov r.g gamma)⁻¹ *ᵥ (r.g.x *ᵥ (beta0 - beta)))) + 1 / 2 * Real.log (margCov r.g gamma).det := by
  obtain ⟨A, hA⟩ : ∃ A : Matrix (Fin r.g.n) (Fin r.g.n) ℝ, A = (margCov r.g gamma)⁻¹ := ⟨_, rfl⟩
  obtain ⟨d, hd⟩ : ∃ d : Fin r.g.n → ℝ, d = r.g.x *ᵥ (beta0 - beta) := ⟨_, rfl⟩
  rw [← hA, ← hd]
  have hL2 : ∀ i, MemLp (fun ω => r.Y ω i - ∑ k, r.g.x i k * beta k) 2 μ := fun i => (h.sq i).sub (memLp_const _)
  have hm : ∀ i, ∫ ω, (r.Y ω i - ∑ k, r.g.x i k * beta k) ∂μ = d i := fun i => by
    rw [integral_sub ((h.sq i).integrable (by norm_num)) (integrable_const _), h.mean, integral_const, hd]
    simp [mulVec, dotProduct, mul_sub]
  have hc : ∀ i j, ∫ ω, (r.Y ω i - ∑ k, r.g.x i k * beta k) * (r.Y ω j - ∑ k, r.g.x j k * beta k) ∂μ = margCov r.g gamma0 i j + d i * d j := fun i j => by
    have h1 := covariance_eq_sub (hL2 i) (hL2 j)
    rw [covariance_sub_const_left ((h.sq i).integrable (by norm_num)), covariance_sub_const_right ((h.sq j).integrable (by norm_num)), h.cov, ← fisher_margCov_apply, hm, hm] at h1
    have h2 : ∫ ω, (r.Y ω i - ∑ k, r.g.x i k * beta k) * (r.Y ω j - ∑ k, r.g.x j k * beta k) ∂μ =
      μ[(fun ω => r.Y ω i - ∑ k, r.g.x i k * beta k) * fun ω => r.Y ω j - ∑ k, r.g.x j k * beta k] := rfl
    rw [h2]
    linarith
  have hI : ∀ i j, Integrable (fun ω => (r.Y ω i - ∑ k, r.g.x i k * beta k) * (r.Y ω j - ∑ k, r.g.x j k * beta k)) μ := fun i j => (hL2 i).integrable_mul (hL2 j)
  have hq : ∀ ω, groupNLL (r.at ω) beta gamma = 1 / 2 * (∑ i, ∑ j, A i j * ((r.Y ω i - ∑ k, r.g.x i k * beta k) * (r.Y ω j - ∑ k, r.g.x j k * beta k)))
      + 1 / 2 * Real.log (margCov r.g gamma).det := fun ω => by
    change 1 / 2 * ((fun i => r.Y ω i - ∑ k, r.g.x i k * beta k) ⬝ᵥ ((margCov r.g gamma)⁻¹ *ᵥ fun i => r.Y ω i - ∑ k, r.g.x i k * beta k)) + 1 / 2 * Real.log (margCov r.g gamma).det = _
    rw [← hA]
    congr 2
    simp only [dotProduct, mulVec, Finset.mul_sum]
    refine Finset.sum_congr rfl fun i _ => Finset.sum_congr rfl fun j _ => ?_
    ring
  have hI2 : Integrable (fun ω => ∑ i, ∑ j, A i j * ((r.Y ω i - ∑ k, r.g.x i k * beta k) * (r.Y ω j - ∑ k, r.g.x j k * beta k))) μ :=
    integrable_finset_sum _ fun i _ => integrable_finset_sum _ fun j _ => (hI i j).const_mul _
  have : ∀ i, ∫ ω, ∑ j, A i j * ((r.Y ω i - ∑ k, r.g.x i k * beta k) * (r.Y ω j - ∑ k, r.g.x j k * beta k)) ∂μ = ∑ j, A i j * (margCov r.g gamma0 i j + d i * d j) := fun i => by
    rw [integral_finset_sum _ fun j _ => (hI i j).const_mul _]
    refine Finset.sum_congr rfl fun j _ => ?_
    rw [integral_const_mul, hc]
  have hint : ∫ ω, ∑ i, ∑ j, A i j * ((r.Y ω i - ∑ k, r.g.x i k * beta k) * (r.Y ω j - ∑ k, r.g.x j k * beta k)) ∂μ = ∑ i, ∑ j, A i j * (margCov r.g gamma0 i j + d i * d j) := by
    refine (integral_finset_sum _ fun i _ => ?_).trans (Finset.sum_congr rfl fun i _ => this i)
    exact integrable_finset_sum _ fun j _ => (hI i j).const_mul _
  have hsym : ∀ i j, margCov r.g gamma0 i j = margCov r.g gamma0 j i := fun i j => by
    rw [fisher_margCov_apply, fisher_margCov_apply]
    congr 1
    · exact Finset.sum_congr rfl fun k _ => by ring
    · by_cases hij : i = j
      · subst hij; rfl
      · rw [if_neg hij, if_neg (Ne.symm hij)]
  have e1 : ∑ i, ∑ j, A i j * (margCov r.g gamma0 i j + d i * d j) = (A * margCov r.g gamma0).trace + d ⬝ᵥ (A *ᵥ d) := by
    simp only [Matrix.trace, Matrix.diag, Matrix.mul_apply, dotProduct, mulVec, Finset.mul_sum, mul_add, Finset.sum_add_distrib]
    congr 1
    · exact Finset.sum_congr rfl fun i _ => Finset.sum_congr rfl fun j _ => by rw [hsym i j]
    · exact Finset.sum_congr rfl fun i _ => Finset.sum_congr rfl fun j _ => by ring
  rw [e1] at hint
  have hfun : (fun ω => groupNLL (r.at ω) beta gamma) = fun ω => 1 / 2 * (∑ i, ∑ j, A i j * ((r.Y ω i - ∑ k, r.g.x i k * beta k) * (r.Y ω j - ∑ k, r.g.x j k * beta k)))
      + 1 / 2 * Real.log (margCov r.g gamma).det := funext hq
  rw [hfun]
  refine ⟨(hI2.const_mul _).add (integrable_const _), ?_⟩
  rw [integral_add (hI2.const_mul _) (integrable_const _), integral_const_mul, integral_const, hint]
  simp

/-- The expected loss of a group is smallest at the true parameters. -/
theorem expected_groupNLL_min (r : RandGroup Ω p q) {beta0 : Vec ℝ p} {gamma0 : Vec ℝ q} (h : r.Follows μ beta0 gamma0) (hl : ∀ i, 0 < r.g.l i) (h0 : ∀ j, 0 ≤ gamma0 j) (beta : Vec ℝ p)
    {gamma : Vec ℝ q} (hg : ∀ j, 0 ≤ gamma j) :
    ∫ ω, groupNLL (r.at ω) beta0 gamma0 ∂μ ≤ ∫ ω, groupNLL (r.at ω) beta gamma ∂μ ∧
      (∫ ω, groupNLL (r.at ω) beta0 gamma0 ∂μ = ∫ ω, groupNLL (r.at ω) beta gamma ∂μ →
        r.g.x *ᵥ beta = r.g.x *ᵥ beta0 ∧ r.g.z * diagonal gamma * r.g.zᵀ = r.g.z * diagonal gamma0 * r.g.zᵀ) := by
  have hS : (margCov r.g gamma).PosDef := posDef_margin (posDef_diag hl) _ hg
  have hT : (margCov r.g gamma0).PosDef := posDef_margin (posDef_diag hl) _ h0
  rw [(expected_groupNLL r h beta gamma).2, (expected_groupNLL r h beta0 gamma0).2, sub_self, mulVec_zero, zero_dotProduct, nonsing_inv_mul _ ((isUnit_iff_isUnit_det _).1 hT.isUnit), trace_one]
  obtain ⟨hd1, hd2⟩ := cov_divergence hS hT
  have hqp := inv_quad_nonneg hS (r.g.x *ᵥ (beta0 - beta))
  rw [Fintype.card_fin]
  refine ⟨by linarith, fun he => ?_⟩
  have h1 : margCov r.g gamma0 = margCov r.g gamma := hd2 (by linarith)
  have h2 : (r.g.x *ᵥ (beta0 - beta)) ⬝ᵥ ((margCov r.g gamma)⁻¹ *ᵥ (r.g.x *ᵥ (beta0 - beta))) = 0 := by linarith
  refine ⟨?_, ?_⟩
  · have h3 : r.g.x *ᵥ (beta0 - beta) = 0 := by
      by_contra hne
      have := hS.inv.dotProduct_mulVec_pos hne
      simp only [star_trivial] at this
      linarith
    rw [mulVec_sub, sub_eq_zero] at h3
    exact h3.symm
  · exact (add_right_cancel h1).symm

/-- **C142**: whatever the distribution of the observations is, as long as they have the mean and the covariance of the mixed model with parameters `beta0`, `gamma0`, the expectation of the oracle's loss is
smallest at these parameters. Other parameters with nonnegative variances have the same expected loss if and only if they give every group the same mean and the same covariance; if the columns of the
fixed effects are linearly independent over all groups, the fixed effects are then the true ones. (Non-vacuity: example at the end of `Props/LmeGenDensity.lean`, two groups with normal effects and errors.) -/
theorem C142_truth_minimises (R : List (RandGroup Ω p q)) (beta0 : Vec ℝ p) (gamma0 : Vec ℝ q) (hR : ∀ r ∈ R, r.Follows μ beta0 gamma0) (hl : ∀ r ∈ R, ∀ i, 0 < r.g.l i)
    (h0 : ∀ j, 0 ≤ gamma0 j) (beta : Vec ℝ p) (gamma : Vec ℝ q) (hg : ∀ j, 0 ≤ gamma j) :
    ∃ L0 L : Ω → ℝ, (∀ ω, lmeLoss (R.map fun r => r.at ω) .nonInformative beta0 gamma0 = .ok (L0 ω)) ∧ (∀ ω, lmeLoss (R.map fun r => r.at ω) .nonInformative beta gamma = .ok (L ω)) ∧
      Integrable L0 μ ∧ Integrable L μ ∧ ∫ ω, L0 ω ∂μ ≤ ∫ ω, L ω ∂μ ∧
      (∫ ω, L0 ω ∂μ = ∫ ω, L ω ∂μ ↔ ∀ r ∈ R, r.g.x *ᵥ beta = r.g.x *ᵥ beta0 ∧ r.g.z * diagonal gamma * r.g.zᵀ = r.g.z * diagonal gamma0 * r.g.zᵀ) ∧
      ((∀ b : Vec ℝ p, (∀ r ∈ R, r.g.x *ᵥ b = 0) → b = 0) → ∫ ω, L0 ω ∂μ = ∫ ω, L ω ∂μ → beta = beta0) := by
  have hok : ∀ (beta : Vec ℝ p) (gamma : Vec ℝ q), (∀ j, 0 ≤ gamma j) → ∀ ω,
      lmeLoss (R.map fun r => r.at ω) .nonInformative beta gamma = .ok ((R.map fun r => groupNLL (r.at ω) beta gamma).sum) := by
    intro beta gamma hg ω
    have hD : PosVar (R.map fun r => r.at ω) := by
      intro g hgm
      obtain ⟨r, hr, rfl⟩ := List.mem_map.1 hgm
      exact hl r hr
    have h1 := (C54_loss_is_marginal_likelihood (R.map fun r => r.at ω) .nonInformative beta gamma).1 hD hg
    rw [h1]
    congr 1
    rw [List.map_map]
    have : LmeInstPrior.loss (.nonInformative : LmeInstPrior ℝ p q) beta gamma = 0 := rfl
    rw [this, add_zero]
    rfl
  have key : Integrable (fun ω => (R.map fun r => groupNLL (r.at ω) beta0 gamma0).sum) μ ∧ Integrable (fun ω => (R.map fun r => groupNLL (r.at ω) beta gamma).sum) μ ∧
      ∫ ω, (R.map fun r => groupNLL (r.at ω) beta0 gamma0).sum ∂μ ≤ ∫ ω, (R.map fun r => groupNLL (r.at ω) beta gamma).sum ∂μ ∧
      (∫ ω, (R.map fun r => groupNLL (r.at ω) beta0 gamma0).sum ∂μ = ∫ ω, (R.map fun r => groupNLL (r.at ω) beta gamma).sum ∂μ →
        ∀ r ∈ R, r.g.x *ᵥ beta = r.g.x *ᵥ beta0 ∧ r.g.z * diagonal gamma * r.g.zᵀ = r.g.z * diagonal gamma0 * r.g.zᵀ) := by
    clear hok
    induction R with
    | nil =>
      simp only [List.map_nil, List.sum_nil]
      exact ⟨integrable_const _, integrable_const _, le_rfl, fun _ r hr => by cases hr⟩
    | cons r R ih =>
      obtain ⟨i1, i2, i3, i4⟩ := ih (fun r hr => hR r (List.mem_cons_of_mem _ hr)) (fun r hr => hl r (List.mem_cons_of_mem _ hr))
      have hr := hR r List.mem_cons_self
      have j1 := (expected_groupNLL r hr beta0 gamma0).1
      have j2 := (expected_groupNLL r hr beta gamma).1
      obtain ⟨j3, j4⟩ := expected_groupNLL_min r hr (hl r List.mem_cons_self) h0 beta hg
      simp only [List.map_cons, List.sum_cons]
      rw [integral_add j1 i1, integral_add j2 i2]
      refine ⟨j1.add i1, j2.add i2, add_le_add j3 i3, fun he r' hr' => ?_⟩
      rcases List.mem_cons.1 hr' with rfl | hr'
      · exact j4 (by linarith)
      · exact i4 (by linarith) r' hr'
  refine ⟨_, _, hok beta0 gamma0 h0, hok beta gamma hg, key.1, key.2.1, key.2.2.1, ⟨key.2.2.2, fun h => ?_⟩, fun hind he => ?_⟩
  · congr 1
    funext ω
    congr 1
    refine List.map_congr_left fun r hr => ?_
    obtain ⟨h1, h2⟩ := h r hr
    have e1 : ∀ b : Vec ℝ p, residual (r.at ω) b = r.Y ω - r.g.x *ᵥ b := fun b => rfl
    have e2 : ∀ c : Vec ℝ q, margCov (r.at ω) c = r.g.z * diagonal c * r.g.zᵀ + diagonal r.g.l := fun c => rfl
    unfold groupNLL
    rw [e1, e1, e2, e2, h1, h2]
  · have h1 := key.2.2.2 he
    have := hind (beta - beta0) fun r hr => by rw [mulVec_sub, (h1 r hr).1, sub_self]
    exact sub_eq_zero.1 this

end

end Verif
