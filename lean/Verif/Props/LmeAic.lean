import Mathlib.Analysis.Matrix.PosDef
import Mathlib.LinearAlgebra.Matrix.SchurComplement
import Verif.Props.LmeHat
import Verif.Props.LmeIc
import Verif.Props.LmeCov
import Verif.Lemmas.RankOne

/-!
# The conditional likelihood, effective degrees of freedom and the conditional AIC (C96-C98)
-/

open Matrix

namespace Verif

noncomputable section

variable {p q : ℕ}

/-- Negative log-likelihood of the observations of a group given its random effects, up to `n/2 log 2π`. -/
def condNLL (g : LmeGroup p q) (beta : Vec ℝ p) (u : Vec ℝ q) : ℝ :=
  1 / 2 * ∑ i, (residual g beta i - ∑ j, g.z i j * u j) ^ 2 / g.l i + 1 / 2 * ∑ i, Real.log (g.l i)

/-! ## C96 -/

/-- The determinant of a matrix dominating the identity is at least one. -/
theorem one_le_det {n : ℕ} {A : Matrix (Fin n) (Fin n) ℝ} (h : (A - 1).PosSemidef) : 1 ≤ A.det := by
  have hA : A.IsHermitian := by
    have := h.isHermitian.add (Matrix.isHermitian_one (n := Fin n) (α := ℝ))
    rwa [sub_add_cancel] at this
  have hdet : A.det = ∏ i, hA.eigenvalues i := by simpa using hA.det_eq_prod_eigenvalues
  rw [hdet]
  refine Finset.prod_induction _ (fun x : ℝ => 1 ≤ x) (fun a b ha hb => one_le_mul_of_one_le_of_one_le ha hb) le_rfl
    fun i _ => ?_
  set v : Fin n → ℝ := ⇑(hA.eigenvectorBasis i) with hv
  have e1 : A *ᵥ v = hA.eigenvalues i • v := hA.mulVec_eigenvectorBasis i
  have hv0 : v ≠ 0 := by
    intro h0
    refine hA.eigenvectorBasis.orthonormal.ne_zero i ?_
    ext k
    exact congrFun h0 k
  have hpos : 0 < v ⬝ᵥ v := by
    have h1 : 0 ≤ v ⬝ᵥ v := Finset.sum_nonneg fun k _ => mul_self_nonneg (v k)
    exact lt_of_le_of_ne h1 fun h => hv0 (dotProduct_self_eq_zero.1 h.symm)
  have h2 : 0 ≤ v ⬝ᵥ ((A - 1) *ᵥ v) := by simpa using h.dotProduct_mulVec_nonneg v
  rw [Matrix.sub_mulVec, Matrix.one_mulVec, e1, dotProduct_sub, dotProduct_smul, smul_eq_mul] at h2
  nlinarith

theorem demargTerm_eq (g : LmeGroup p q) (beta : Vec ℝ p) (u : Vec ℝ q) :
    demargTerm beta (g, u) = condNLL g beta u := by
  unfold demargTerm condNLL
  simp only [residual_eq]
  rfl

theorem det_margCov {g : LmeGroup p q} (hl : ∀ i, 0 < g.l i) (gamma : Vec ℝ q) :
    (margCov g gamma).det = (∏ i, g.l i) * (1 + diagonal gamma * g.zᵀ * diagonal (fun i => 1 / g.l i) * g.z).det := by
  have e : margCov g gamma = diagonal g.l * (1 + diagonal (fun i => 1 / g.l i) * g.z * (diagonal gamma * g.zᵀ)) := by
    have : diagonal g.l * diagonal (fun i => 1 / g.l i) = 1 := by
      rw [Matrix.diagonal_mul_diagonal, ← Matrix.diagonal_one]
      congr 1
      funext i
      exact mul_one_div_cancel (hl i).ne'
    rw [Matrix.mul_add, Matrix.mul_one, ← Matrix.mul_assoc, ← Matrix.mul_assoc (diagonal g.l), this, Matrix.one_mul,
      add_comm, ← Matrix.mul_assoc]
    rfl
  rw [e, Matrix.det_mul, Matrix.det_diagonal, Matrix.det_one_add_mul_comm, ← Matrix.mul_assoc]

/-- The marginal likelihood of a group is the conditional one at the predicted random effects, plus their penalty and
half the log-determinant of the shrinkage. -/
theorem groupNLL_split {g : LmeGroup p q} (hl : ∀ i, 0 < g.l i) {gamma : Vec ℝ q} (hg : ∀ j, 0 ≤ gamma j)
    (beta : Vec ℝ p) : groupNLL g beta gamma = condNLL g beta (blup g beta gamma)
      + (1 / 2 * ∑ j, (if gamma j = 0 then 0 else blup g beta gamma j ^ 2 / gamma j)
        + 1 / 2 * Real.log (1 + diagonal gamma * g.zᵀ * diagonal (fun i => 1 / g.l i) * g.z).det) := by
  have hpd := margCov_posDef g gamma hl hg
  set w := (margCov g gamma)⁻¹ *ᵥ residual g beta with hw
  have h1 : ∀ i, residual g beta i - ∑ j, g.z i j * blup g beta gamma j = g.l i * w i := by
    intro i
    have := z_blup hpd beta i
    simp only [Matrix.mulVec, dotProduct] at this
    rw [this]
    simp only [hw, Matrix.mulVec, dotProduct]
    ring
  have h2 : ∀ j, (if gamma j = 0 then 0 else blup g beta gamma j ^ 2 / gamma j) = gamma j * ((g.zᵀ *ᵥ w) j) ^ 2 := by
    intro j
    rw [blup_apply]
    split_ifs with h0
    · rw [h0, zero_mul]
    · rw [← hw]
      field_simp
  have h3 : ∑ i, (g.l i * w i) ^ 2 / g.l i + ∑ j, gamma j * ((g.zᵀ *ᵥ w) j) ^ 2 = residual g beta ⬝ᵥ w := by
    have hr : residual g beta = margCov g gamma *ᵥ w := by
      rw [hw, Matrix.mulVec_mulVec, Matrix.mul_nonsing_inv _ (posDef_det_unit hpd), Matrix.one_mulVec]
    rw [hr]
    unfold margCov
    rw [Matrix.add_mulVec, add_dotProduct, add_comm]
    congr 1
    · rw [← Matrix.mulVec_mulVec, ← Matrix.mulVec_mulVec, dotProduct_comm, Matrix.dotProduct_mulVec,
        ← Matrix.mulVec_transpose]
      simp only [dotProduct, Matrix.mulVec_diagonal]
      exact Finset.sum_congr rfl fun j _ => by ring
    · simp only [dotProduct, Matrix.mulVec_diagonal]
      refine Finset.sum_congr rfl fun i _ => ?_
      have := (hl i).ne'
      field_simp
  have h4 : Real.log (margCov g gamma).det = ∑ i, Real.log (g.l i)
      + Real.log (1 + diagonal gamma * g.zᵀ * diagonal (fun i => 1 / g.l i) * g.z).det := by
    have hd := hpd.det_pos
    rw [det_margCov hl] at hd ⊢
    have hp : 0 < ∏ i, g.l i := Finset.prod_pos fun i _ => hl i
    rw [Real.log_mul hp.ne' (pos_of_mul_pos_right hd hp.le).ne', Real.log_prod fun i _ => (hl i).ne']
  unfold groupNLL condNLL
  simp only [h1, h2]
  rw [h4, ← hw, ← h3]
  ring

theorem shrinkage_det {g : LmeGroup p q} (hl : ∀ i, 0 < g.l i) {gamma : Vec ℝ q} (hg : ∀ j, 0 ≤ gamma j) :
    1 ≤ (1 + diagonal gamma * g.zᵀ * diagonal (fun i => 1 / g.l i) * g.z).det := by
  have e : (1 + diagonal gamma * g.zᵀ * diagonal (fun i => 1 / g.l i) * g.z).det
      = (1 + (diagonal (fun j => Real.sqrt (gamma j)) * g.zᵀ * diagonal (fun i => 1 / g.l i) * g.z
        * diagonal (fun j => Real.sqrt (gamma j)))).det := by
    have : diagonal gamma = diagonal (fun j => Real.sqrt (gamma j)) * diagonal (fun j => Real.sqrt (gamma j)) := by
      rw [Matrix.diagonal_mul_diagonal]
      congr 1
      funext j
      exact (Real.mul_self_sqrt (hg j)).symm
    rw [this, Matrix.mul_assoc, Matrix.mul_assoc, Matrix.mul_assoc, Matrix.det_one_add_mul_comm]
    simp only [Matrix.mul_assoc]
  rw [e]
  refine one_le_det ?_
  rw [add_sub_cancel_left]
  have h1 := (PosSemidef.diagonal (n := Fin g.n) (d := fun i => 1 / g.l i)
    (fun i => (one_div_pos.2 (hl i)).le)).conjTranspose_mul_mul_same (g.z * diagonal fun j => Real.sqrt (gamma j))
  rw [Matrix.conjTranspose_eq_transpose_of_trivial, Matrix.transpose_mul, Matrix.diagonal_transpose] at h1
  simpa only [Matrix.mul_assoc] using h1

/-- **C96**: for positive observation variances and variances of random effects that are zero or above the threshold of
`optimal_random_effects`, the de-marginalized loss is the conditional negative log-likelihood at the predicted random
effects plus the prior; adding the penalty of the random effects and half the log-determinant of the shrinkage gives the
marginal loss.  So it never exceeds the marginal loss, and without random effects the two agree. -/
theorem C96_demarginalized (D : List (LmeGroup p q)) (hD : PosVar D) (P : LmeInstPrior ℝ p q) (beta : Vec ℝ p)
    (gamma : Vec ℝ q) (hm : MaskExact gamma) :
    ∃ us v w, lmeRandomEffects D beta gamma = .ok us ∧ lmeDemarginalizedLoss D P beta gamma = .ok v ∧
      lmeLoss D P beta gamma = .ok w ∧
      v = (List.zipWith (fun g u => 1 / 2 * ∑ i, (residual g beta i - ∑ j, g.z i j * u j) ^ 2 / g.l i
        + 1 / 2 * ∑ i, Real.log (g.l i)) D us).sum + P.loss beta gamma ∧
      w = v + (List.zipWith (fun g u => 1 / 2 * ∑ j, (if gamma j = 0 then 0 else u j ^ 2 / gamma j)
        + 1 / 2 * Real.log (1 + diagonal gamma * g.zᵀ * diagonal (fun i => 1 / g.l i) * g.z).det) D us).sum ∧
      v ≤ w ∧ ((∀ j, gamma j = 0) → v = w) := by
  have hz : ∀ f : LmeGroup p q → Vec ℝ q → ℝ, (List.zipWith f D (D.map fun g => blup g beta gamma)).sum
      = (D.map fun g => f g (blup g beta gamma)).sum := by
    intro f
    rw [List.zipWith_map_right]
    simp [List.zipWith_self]
  have hv : lmeDemarginalizedLoss D P beta gamma
      = .ok ((D.map fun g => condNLL g beta (blup g beta gamma)).sum + P.loss beta gamma) := by
    unfold lmeDemarginalizedLoss
    rw [lmeRecalculate_ok.2 ⟨inDomain_of_nonneg hD hm.nonneg, rfl⟩, lmeRandomEffects_eq hD hm]
    change Except.ok (((D.zip (D.map fun g => blup g beta gamma)).map (demargTerm beta)).sum + P.loss beta gamma) = _
    rw [zip_map_self, List.map_map]
    simp only [Function.comp_def, demargTerm_eq]
  have hw : marginalNLL D beta gamma = (D.map fun g => condNLL g beta (blup g beta gamma)).sum
      + (D.map fun g => (1 / 2 * ∑ j, (if gamma j = 0 then 0 else blup g beta gamma j ^ 2 / gamma j)
        + 1 / 2 * Real.log (1 + diagonal gamma * g.zᵀ * diagonal (fun i => 1 / g.l i) * g.z).det)).sum := by
    unfold marginalNLL
    rw [← List.sum_map_add]
    congr 1
    exact List.map_congr_left fun g hg => groupNLL_split (hD g hg) hm.nonneg beta
  refine ⟨_, _, _, lmeRandomEffects_eq hD hm beta, hv,
    lmeLoss_ok.2 ⟨inDomain_of_nonneg hD hm.nonneg, rfl⟩, ?_, ?_, ?_, ?_⟩
  · rw [hz]
    rfl
  · rw [hz, hw]
    ring
  · rw [hw]
    have : 0 ≤ (D.map fun g => (1 / 2 * ∑ j, (if gamma j = 0 then 0 else blup g beta gamma j ^ 2 / gamma j)
        + 1 / 2 * Real.log (1 + diagonal gamma * g.zᵀ * diagonal (fun i => 1 / g.l i) * g.z).det)).sum := by
      refine List.sum_nonneg fun x hx => ?_
      obtain ⟨g, hg, rfl⟩ := List.mem_map.1 hx
      have h1 := Real.log_nonneg (shrinkage_det (hD g hg) hm.nonneg)
      have h2 : 0 ≤ ∑ j, (if gamma j = 0 then 0 else blup g beta gamma j ^ 2 / gamma j) :=
        Finset.sum_nonneg fun j _ => by
          split_ifs
          · exact le_rfl
          · exact div_nonneg (sq_nonneg _) (hm.nonneg j)
      positivity
    linarith
  · intro h0
    rw [hw]
    have : (D.map fun g => (1 / 2 * ∑ j, (if gamma j = 0 then 0 else blup g beta gamma j ^ 2 / gamma j)
        + 1 / 2 * Real.log (1 + diagonal gamma * g.zᵀ * diagonal (fun i => 1 / g.l i) * g.z).det)).sum = 0 := by
      refine List.sum_eq_zero fun x hx => ?_
      obtain ⟨g, hg, rfl⟩ := List.mem_map.1 hx
      have hz0 : diagonal gamma = 0 := by
        rw [show gamma = 0 from funext h0]
        exact Matrix.diagonal_zero
      simp [h0, hz0]
    linarith

/-- C96 on a concrete problem with a random effect. -/
example : ∃ v w, lmeDemarginalizedLoss [exGroup] .nonInformative ![1] ![1] = .ok v ∧
    lmeLoss [exGroup] .nonInformative ![1] ![1] = .ok w ∧ v ≤ w := by
  obtain ⟨-, v, w, -, h1, h2, -, -, h3, -⟩ := C96_demarginalized [exGroup] exGroup_posVar .nonInformative ![1] ![1]
    (by intro j; fin_cases j; right; norm_num)
  exact ⟨v, w, h1, h2, h3⟩

/-! ## C98 -/

section Ddf

variable (D : List (LmeGroup p q)) (gamma : Vec ℝ q)

/-- The stacked design matrix of the fixed effects. -/
def bigX : Matrix (LmeRow D) (Fin p) ℝ := Matrix.of fun r k => (D.get r.1).x r.2 k

/-- The covariance of all observations. -/
def bigV : Matrix (LmeRow D) (LmeRow D) ℝ := blockDiagonal' fun i => margCov (D.get i) gamma

/-- Its inverse. -/
def bigW : Matrix (LmeRow D) (LmeRow D) ℝ := blockDiagonal' fun i => (margCov (D.get i) gamma)⁻¹

/-- The contribution of the random effects to the covariance. -/
def bigG : Matrix (LmeRow D) (LmeRow D) ℝ :=
  blockDiagonal' fun i => (D.get i).z * diagonal gamma * (D.get i).zᵀ

/-- The observation variances. -/
def bigL : LmeRow D → ℝ := fun r => (D.get r.1).l r.2

variable {D gamma}

theorem hatGammaBlock_eq {g : LmeGroup p q} (hl : ∀ i, 0 < g.l i) (hm : MaskExact gamma) :
    hatGammaBlock g gamma = g.z * diagonal gamma * g.zᵀ * (margCov g gamma)⁻¹ := by
  classical
  refine Matrix.ext_of_mulVec_single fun i => ?_
  generalize (Pi.single i 1 : Fin g.n → ℝ) = b
  have hu : IsUnit (reKernel g gamma).det := (Matrix.isUnit_iff_isUnit_det _).1 (reKernel_posDef g gamma hl hm).isUnit
  rw [hatGammaBlock_mulVec hu]
  have h1 := lmeRandomEffect_eq (g := { g with y := b }) (gamma := gamma) hl hm 0
  have h2 := (lmeRandomEffect_ok.1 h1).2
  have hr : residual { g with y := b } (0 : Vec ℝ p) = b := by
    funext k
    simp [residual]
  have hx : LmeGroup.xi { g with y := b } (0 : Vec ℝ p) = b := by rw [xi_eq_residual, hr]
  rw [hx] at h2
  have h3 : scatterMask gamma ((reKernel g gamma)⁻¹ *ᵥ (((g.zMasked gamma)ᵀ * diagonal (fun i => 1 / g.l i)) *ᵥ b))
      = blup { g with y := b } 0 gamma := h2.symm
  rw [h3]
  unfold blup
  rw [hr]
  simp only [← Matrix.mulVec_mulVec]
  rfl

theorem bigW_mul_bigV (hd : InDomain D gamma) : bigW D gamma * bigV D gamma = 1 := by
  unfold bigW bigV
  rw [← Matrix.blockDiagonal'_mul, ← Matrix.blockDiagonal'_one]
  congr 1
  funext i
  exact Matrix.nonsing_inv_mul _ (posDef_det_unit (hd _ (List.get_mem D i)))

theorem bigV_mul_bigW (hd : InDomain D gamma) : bigV D gamma * bigW D gamma = 1 :=
  mul_eq_one_comm.1 (bigW_mul_bigV hd)

theorem bigV_eq : bigV D gamma = bigG D gamma + diagonal (bigL D) := by
  have e : blockDiagonal' (fun i => diagonal (D.get i).l) = diagonal (bigL D) := by
    convert! Matrix.blockDiagonal'_diagonal (fun i : Fin D.length => (D.get i).l) using 1
  rw [← e]
  unfold bigV bigG
  rw [← Matrix.blockDiagonal'_add]
  rfl

theorem bigW_transpose : (bigW D gamma)ᵀ = bigW D gamma := by
  unfold bigW
  rw [Matrix.blockDiagonal'_transpose]
  congr 1
  funext i
  exact margCov_inv_symm _ _

theorem bigX_mul_bigW (k' : Fin p) (i : Fin D.length) (k : Fin (D.get i).n) :
    ((bigX D)ᵀ * bigW D gamma) k' ⟨i, k⟩ = ((D.get i).xᵀ * (margCov (D.get i) gamma)⁻¹) k' k := by
  rw [Matrix.mul_apply, Matrix.mul_apply, Fintype.sum_sigma, Finset.sum_eq_single i]
  · refine Finset.sum_congr rfl fun l _ => ?_
    unfold bigW bigX
    rw [Matrix.blockDiagonal'_apply_eq]
    rfl
  · intro j _ hj
    refine Finset.sum_eq_zero fun l _ => ?_
    unfold bigW
    rw [Matrix.blockDiagonal'_apply_ne _ _ _ hj, mul_zero]
  · exact fun h => absurd (Finset.mem_univ i) h

theorem hatBeta_eq (hd : InDomain D gamma) (kinv : Matrix (Fin p) (Fin p) ℝ) :
    hatBeta D gamma kinv = bigX D * (kinv * ((bigX D)ᵀ * bigW D gamma)) := by
  ext r ⟨i, k⟩
  have e : (lmeElInv (D.get i) gamma * (D.get i).x)ᵀ * lmeElInv (D.get i) gamma
      = (D.get i).xᵀ * (margCov (D.get i) gamma)⁻¹ := by
    rw [Matrix.transpose_mul, Matrix.mul_assoc, lmeElInv_mul (hd _ (List.get_mem D i))]
  change ((D.get r.1).x * (kinv * ((lmeElInv (D.get i) gamma * (D.get i).x)ᵀ * lmeElInv (D.get i) gamma))) r.2 k = _
  rw [e, Matrix.mul_apply, Matrix.mul_apply]
  refine Finset.sum_congr rfl fun a _ => ?_
  rw [Matrix.mul_apply, Matrix.mul_apply]
  congr 1
  exact Finset.sum_congr rfl fun b _ => by rw [bigX_mul_bigW]

theorem kernel_eq (hd : InDomain D gamma) :
    ((D.map (lmeFact gamma)).map hessBetaTerm).sum = (bigX D)ᵀ * bigW D gamma * bigX D := by
  rw [List.map_map, list_sum_eq_fin]
  ext a b
  rw [Matrix.sum_apply, Matrix.mul_apply, Fintype.sum_sigma]
  refine Finset.sum_congr rfl fun i _ => ?_
  rw [Function.comp_apply, hessBetaTerm_eq (hd _ (List.get_mem D i)), Matrix.mul_apply]
  refine Finset.sum_congr rfl fun k _ => ?_
  rw [bigX_mul_bigW]
  rfl

/-- The weights of the residuals, `V⁻¹ - V⁻¹ X (Xᵀ V⁻¹ X)⁻¹ Xᵀ V⁻¹`. -/
def bigM (D : List (LmeGroup p q)) (gamma : Vec ℝ q) : Matrix (LmeRow D) (LmeRow D) ℝ :=
  bigW D gamma - bigW D gamma * (bigX D * (((bigX D)ᵀ * bigW D gamma * bigX D)⁻¹ * ((bigX D)ᵀ * bigW D gamma)))

theorem bigM_transpose : (bigM D gamma)ᵀ = bigM D gamma := by
  have hk : ((bigX D)ᵀ * bigW D gamma * bigX D)ᵀ = (bigX D)ᵀ * bigW D gamma * bigX D := by
    rw [Matrix.transpose_mul, Matrix.transpose_mul, Matrix.transpose_transpose, bigW_transpose, Matrix.mul_assoc]
  unfold bigM
  rw [Matrix.transpose_sub, Matrix.transpose_mul, Matrix.transpose_mul, Matrix.transpose_mul, Matrix.transpose_mul,
    Matrix.transpose_transpose, bigW_transpose, Matrix.transpose_nonsing_inv, hk]
  simp only [Matrix.mul_assoc]

theorem bigM_idem (hd : InDomain D gamma) (hu : IsUnit ((bigX D)ᵀ * bigW D gamma * bigX D).det) :
    bigM D gamma * bigV D gamma * bigM D gamma = bigM D gamma := by
  have h1 := bigW_mul_bigV hd
  have hk := Matrix.nonsing_inv_mul _ hu
  unfold bigM
  generalize ((bigX D)ᵀ * bigW D gamma * bigX D)⁻¹ = K at hk ⊢
  generalize bigX D = X at hk ⊢
  generalize bigW D gamma = W at h1 hk ⊢
  generalize bigV D gamma = V at h1 ⊢
  have e1 : (W - W * (X * (K * (Xᵀ * W)))) * V = 1 - W * (X * (K * Xᵀ)) := by
    rw [Matrix.sub_mul, h1]
    simp only [Matrix.mul_assoc, h1, Matrix.mul_one]
  have e2 : (1 - W * (X * (K * Xᵀ))) * (W - W * (X * (K * (Xᵀ * W)))) = W - W * (X * (K * (Xᵀ * W)))
      - (W * (X * (K * (Xᵀ * W))) - W * (X * ((K * (Xᵀ * W * X)) * (K * (Xᵀ * W))))) := by
    rw [Matrix.sub_mul, Matrix.one_mul, Matrix.mul_sub]
    simp only [Matrix.mul_assoc]
  rw [e1, e2, hk, Matrix.one_mul, sub_self, sub_zero]

theorem bigV_posSemidef (hd : InDomain D gamma) (v : LmeRow D → ℝ) : 0 ≤ v ⬝ᵥ (bigV D gamma *ᵥ v) := by
  simp only [dotProduct]
  rw [Fintype.sum_sigma]
  refine Finset.sum_nonneg fun i _ => ?_
  have := (hd _ (List.get_mem D i)).posSemidef.dotProduct_mulVec_nonneg fun k => v ⟨i, k⟩
  simp only [bigV, blockDiagonal'_mulVec]
  simpa [dotProduct] using this

theorem bigW_nonneg (hd : InDomain D gamma) (v : LmeRow D → ℝ) : 0 ≤ v ⬝ᵥ (bigW D gamma *ᵥ v) := by
  have h := bigV_posSemidef hd (bigW D gamma *ᵥ v)
  rwa [Matrix.mulVec_mulVec, bigV_mul_bigW hd, Matrix.one_mulVec, dotProduct_comm] at h

/-- `M` is dominated by `V⁻¹`. -/
theorem bigM_le (hd : InDomain D gamma) (hu : IsUnit ((bigX D)ᵀ * bigW D gamma * bigX D).det) (v : LmeRow D → ℝ) :
    0 ≤ v ⬝ᵥ ((bigW D gamma - bigM D gamma) *ᵥ v) := by
  set K := (bigX D)ᵀ * bigW D gamma * bigX D with hK
  set t := ((bigX D)ᵀ * bigW D gamma) *ᵥ v with ht
  have e1 : v ⬝ᵥ ((bigW D gamma - bigM D gamma) *ᵥ v) = t ⬝ᵥ (K⁻¹ *ᵥ t) := by
    unfold bigM
    rw [sub_sub_cancel, ← hK, ← Matrix.mulVec_mulVec, ← Matrix.mulVec_mulVec, ← Matrix.mulVec_mulVec, ← ht,
      Matrix.mulVec_mulVec, Matrix.dotProduct_mulVec, ← Matrix.mulVec_transpose, Matrix.transpose_mul, bigW_transpose, ← ht]
  have e2 : t = K *ᵥ (K⁻¹ *ᵥ t) := by rw [Matrix.mulVec_mulVec, Matrix.mul_nonsing_inv _ hu, Matrix.one_mulVec]
  have e3 : (K *ᵥ (K⁻¹ *ᵥ t)) ⬝ᵥ (K⁻¹ *ᵥ t) = (bigX D *ᵥ (K⁻¹ *ᵥ t)) ⬝ᵥ (bigW D gamma *ᵥ (bigX D *ᵥ (K⁻¹ *ᵥ t))) := by
    generalize K⁻¹ *ᵥ t = s
    rw [hK, dotProduct_comm, Matrix.mul_assoc, ← Matrix.mulVec_mulVec, Matrix.dotProduct_mulVec,
      ← Matrix.mulVec_transpose, Matrix.transpose_transpose, ← Matrix.mulVec_mulVec]
  have e4 : t ⬝ᵥ (K⁻¹ *ᵥ t) = (K *ᵥ (K⁻¹ *ᵥ t)) ⬝ᵥ (K⁻¹ *ᵥ t) := by rw [← e2]
  rw [e1, e4, e3]
  exact bigW_nonneg hd _

theorem bigM_nonneg (hd : InDomain D gamma) (hu : IsUnit ((bigX D)ᵀ * bigW D gamma * bigX D).det)
    (v : LmeRow D → ℝ) : 0 ≤ v ⬝ᵥ (bigM D gamma *ᵥ v) := by
  rw [← bigM_idem hd hu, Matrix.mul_assoc, ← Matrix.mulVec_mulVec, Matrix.dotProduct_mulVec, ← Matrix.mulVec_transpose,
    bigM_transpose, ← Matrix.mulVec_mulVec]
  exact bigV_posSemidef hd _

/-- The stacked design matrix of the random effects of all groups. -/
def bigZ (D : List (LmeGroup p q)) : Matrix (LmeRow D) (Fin D.length × Fin q) ℝ :=
  Matrix.of fun r c => if r.1 = c.1 then (D.get r.1).z r.2 c.2 else 0

theorem bigG_eq : bigG D gamma = bigZ D * diagonal (fun c => gamma c.2) * (bigZ D)ᵀ := by
  ext ⟨i, k⟩ ⟨i', k'⟩
  rw [Matrix.mul_apply, Fintype.sum_prod_type, Finset.sum_eq_single i]
  · by_cases h : i = i'
    · subst h
      unfold bigG
      rw [Matrix.blockDiagonal'_apply_eq, Matrix.mul_apply]
      refine Finset.sum_congr rfl fun j _ => ?_
      rw [Matrix.mul_diagonal, Matrix.mul_diagonal]
      simp [bigZ]
    · unfold bigG
      rw [Matrix.blockDiagonal'_apply_ne _ _ _ h]
      refine (Finset.sum_eq_zero fun j _ => ?_).symm
      simp [bigZ, Ne.symm h]
  · intro b _ hb
    refine Finset.sum_eq_zero fun j _ => ?_
    rw [Matrix.mul_diagonal]
    simp [bigZ, Ne.symm hb]
  · exact fun h => absurd (Finset.mem_univ i) h

theorem bigG_trace_nonneg (hg : ∀ j, 0 ≤ gamma j) {M : Matrix (LmeRow D) (LmeRow D) ℝ}
    (hM : ∀ v, 0 ≤ v ⬝ᵥ (M *ᵥ v)) : 0 ≤ (bigG D gamma * M).trace := by
  rw [bigG_eq, Matrix.mul_assoc, Matrix.mul_assoc, Matrix.trace_mul_comm, Matrix.mul_assoc, Matrix.trace]
  refine Finset.sum_nonneg fun c _ => ?_
  rw [Matrix.diag_apply, Matrix.diagonal_mul]
  refine mul_nonneg (hg c.2) ?_
  have := hM fun r => bigZ D r c
  convert! this using 1
  rw [Matrix.mul_assoc, Matrix.mul_apply]
  rfl

/-- Trace of the part of the hat matrix of a group: at most the number of random effects in use. -/
theorem hatGamma_trace {g : LmeGroup p q} (hl : ∀ i, 0 < g.l i) (hg : ∀ j, 0 ≤ gamma j) :
    (g.z * diagonal gamma * g.zᵀ * (margCov g gamma)⁻¹).trace ≤ Nat.card {j // gamma j ≠ 0} := by
  classical
  have hpd := margCov_posDef g gamma hl hg
  rw [Matrix.mul_assoc, Matrix.mul_assoc, Matrix.trace_mul_comm, Matrix.mul_assoc, Matrix.trace]
  have h1 : ∀ j, (diagonal gamma * (g.zᵀ * (margCov g gamma)⁻¹ * g.z)).diag j ≤ if gamma j ≠ 0 then 1 else 0 := by
    intro j
    rw [Matrix.diag_apply, Matrix.diagonal_mul]
    by_cases h0 : gamma j = 0
    · rw [h0, zero_mul, if_neg (not_not.2 rfl)]
    · rw [if_pos h0]
      set z : Fin g.n → ℝ := fun i => g.z i j with hz
      set w := (margCov g gamma)⁻¹ *ᵥ z with hw
      have ea : (g.zᵀ * (margCov g gamma)⁻¹ * g.z) j j = z ⬝ᵥ w := by
        rw [Matrix.mul_assoc, Matrix.mul_apply]
        rfl
      have ez : margCov g gamma *ᵥ w = z := by
        rw [hw, Matrix.mulVec_mulVec, Matrix.mul_nonsing_inv _ (posDef_det_unit hpd), Matrix.one_mulVec]
      have e1 : (margCov g gamma *ᵥ w) ⬝ᵥ w = ∑ j, gamma j * ((g.zᵀ *ᵥ w) j) ^ 2 + ∑ i, g.l i * w i ^ 2 := by
        unfold margCov
        rw [Matrix.add_mulVec, add_dotProduct]
        congr 1
        · rw [← Matrix.mulVec_mulVec, ← Matrix.mulVec_mulVec, dotProduct_comm, Matrix.dotProduct_mulVec,
            ← Matrix.mulVec_transpose]
          simp only [dotProduct, Matrix.mulVec_diagonal]
          exact Finset.sum_congr rfl fun j _ => by ring
        · simp only [dotProduct, Matrix.mulVec_diagonal]
          exact Finset.sum_congr rfl fun i _ => by ring
      have e2 : gamma j * ((g.zᵀ *ᵥ w) j) ^ 2 ≤ ∑ j, gamma j * ((g.zᵀ *ᵥ w) j) ^ 2 :=
        Finset.single_le_sum (f := fun j => gamma j * ((g.zᵀ *ᵥ w) j) ^ 2)
          (fun j _ => mul_nonneg (hg j) (sq_nonneg _)) (Finset.mem_univ j)
      have e3 : 0 ≤ ∑ i, g.l i * w i ^ 2 := Finset.sum_nonneg fun i _ => mul_nonneg (hl i).le (sq_nonneg _)
      have e4 : (g.zᵀ *ᵥ w) j = z ⬝ᵥ w := rfl
      rw [ez] at e1
      rw [e4] at e2
      rw [ea]
      have hpos := lt_of_le_of_ne (hg j) (Ne.symm h0)
      have e5 : gamma j * (z ⬝ᵥ w) ^ 2 ≤ z ⬝ᵥ w := by linarith
      by_contra hc
      nlinarith
  refine (Finset.sum_le_sum fun j _ => h1 j).trans (le_of_eq ?_)
  rw [Finset.sum_boole, Nat.card_eq_fintype_card, Fintype.card_subtype]

theorem ddf_eq (hD : PosVar D) (hm : MaskExact gamma) {rho : ℝ} (h : lmeDdf D gamma = .ok rho) :
    IsUnit ((bigX D)ᵀ * bigW D gamma * bigX D).det ∧
      rho = (p : ℝ) + (bigG D gamma * bigM D gamma).trace ∧
      rho = (D.map fun g => (g.n : ℝ)).sum - (diagonal (bigL D) * bigM D gamma).trace := by
  unfold lmeDdf at h
  obtain ⟨H, h1, h2⟩ := ebind_ok.1 h
  cases h2
  obtain ⟨hd, hu, -, rfl⟩ := lmeHatMatrix_ok.1 h1
  rw [kernel_eq hd] at hu ⊢
  have hG : (blockDiagonal' fun i => hatGammaBlock (D.get i) gamma) = bigG D gamma * bigW D gamma := by
    unfold bigG bigW
    rw [← Matrix.blockDiagonal'_mul]
    congr 1
    funext i
    exact hatGammaBlock_eq (hD _ (List.get_mem D i)) hm
  rw [hatBeta_eq hd, hG]
  have hM : bigG D gamma * bigM D gamma = bigG D gamma * bigW D gamma - bigG D gamma * bigW D gamma
      * (bigX D * (((bigX D)ᵀ * bigW D gamma * bigX D)⁻¹ * ((bigX D)ᵀ * bigW D gamma))) := by
    unfold bigM
    rw [Matrix.mul_sub]
    simp only [Matrix.mul_assoc]
  have ht : (bigX D * (((bigX D)ᵀ * bigW D gamma * bigX D)⁻¹ * ((bigX D)ᵀ * bigW D gamma))).trace = p := by
    rw [Matrix.trace_mul_comm, Matrix.mul_assoc, Matrix.nonsing_inv_mul _ hu, Matrix.trace_one, Fintype.card_fin]
  refine ⟨hu, ?_, ?_⟩
  · rw [add_sub_assoc, ← hM, Matrix.trace_add, ht]
  · have hL : diagonal (bigL D) = bigV D gamma - bigG D gamma := by rw [bigV_eq, add_sub_cancel_left]
    have hVM : bigV D gamma * bigM D gamma
        = 1 - bigX D * (((bigX D)ᵀ * bigW D gamma * bigX D)⁻¹ * ((bigX D)ᵀ * bigW D gamma)) := by
      unfold bigM
      rw [Matrix.mul_sub, ← Matrix.mul_assoc, bigV_mul_bigW hd, Matrix.one_mul]
    rw [add_sub_assoc, ← hM, hL, Matrix.sub_mul, Matrix.trace_sub, hVM, Matrix.trace_sub, Matrix.trace_add,
      Matrix.trace_one, list_sum_eq_fin, Fintype.card_sigma]
    simp only [Fintype.card_fin]
    push_cast
    ring

/-- **C98**: for positive observation variances and variances of random effects that are zero or above the threshold, the
effective degrees of freedom are computed exactly when the fixed effects are identified; they are at least the number of
fixed effects, at most the number of observations, and exceed the number of fixed effects by at most one for every group
and every random effect with nonzero variance (so without random effects they are the number of fixed effects). -/
theorem C98_degrees_of_freedom (D : List (LmeGroup p q)) (hD : PosVar D) (gamma : Vec ℝ q) (hm : MaskExact gamma) :
    ((∃ rho, lmeDdf D gamma = .ok rho) ↔
      IsUnit (D.map fun g : LmeGroup p q => g.xᵀ * (g.z * diagonal gamma * g.zᵀ + diagonal g.l)⁻¹ * g.x).sum.det) ∧
    ∀ rho, lmeDdf D gamma = .ok rho → (p : ℝ) ≤ rho ∧ rho ≤ (D.map fun g => (g.n : ℝ)).sum ∧
      rho ≤ (p : ℝ) + D.length * Nat.card {j // gamma j ≠ 0} := by
  classical
  have hd := inDomain_of_nonneg hD hm.nonneg
  have hk : ((D.map (lmeFact gamma)).map hessBetaTerm).sum
      = (D.map fun g : LmeGroup p q => g.xᵀ * (g.z * diagonal gamma * g.zᵀ + diagonal g.l)⁻¹ * g.x).sum := by
    rw [List.map_map]
    congr 1
    exact List.map_congr_left fun g hg => hessBetaTerm_eq (hd g hg)
  constructor
  · constructor
    · rintro ⟨rho, h⟩
      obtain ⟨H, h1, -⟩ := ebind_ok.1 h
      rw [← hk]
      exact (lmeHatMatrix_ok.1 h1).2.1
    · intro hu
      rw [← hk] at hu
      refine ⟨_, ebind_ok.2 ⟨_, lmeHatMatrix_ok.2 ⟨hd, hu, fun g hg =>
        (Matrix.isUnit_iff_isUnit_det _).1 (reKernel_posDef g gamma (hD g hg) hm).isUnit, rfl⟩, rfl⟩⟩
  · intro rho h
    obtain ⟨hu, h1, h2⟩ := ddf_eq hD hm h
    have hM := bigM_nonneg hd hu
    refine ⟨?_, ?_, ?_⟩
    · have := bigG_trace_nonneg (D := D) hm.nonneg hM
      linarith
    · have : 0 ≤ (diagonal (bigL D) * bigM D gamma).trace := by
        refine Finset.sum_nonneg fun r _ => ?_
        rw [Matrix.diag_apply, Matrix.diagonal_mul]
        refine mul_nonneg (hD _ (List.get_mem D r.1) r.2).le ?_
        have := hM (Pi.single r 1)
        simpa using this
      linarith
    · have e1 : (bigG D gamma * bigM D gamma).trace ≤ (bigG D gamma * bigW D gamma).trace := by
        have e : bigG D gamma * bigW D gamma - bigG D gamma * bigM D gamma = bigG D gamma * (bigW D gamma - bigM D gamma) := by
          rw [Matrix.mul_sub]
        have := bigG_trace_nonneg (D := D) (M := bigW D gamma - bigM D gamma) hm.nonneg (bigM_le hd hu)
        rw [← e, Matrix.trace_sub] at this
        linarith
      have e2 : (bigG D gamma * bigW D gamma).trace ≤ D.length * Nat.card {j // gamma j ≠ 0} := by
        unfold bigG bigW
        rw [← Matrix.blockDiagonal'_mul, Matrix.trace_blockDiagonal']
        refine (Finset.sum_le_sum fun i _ => hatGamma_trace (hD _ (List.get_mem D i)) hm.nonneg).trans (le_of_eq ?_)
        simp
      linarith

/-- C98 on a concrete problem: one fixed effect, two observations, one random effect. -/
example : ∃ rho, lmeDdf [exGroup] ![1] = .ok rho ∧ 1 ≤ rho ∧ rho ≤ 2 := by
  have hm : MaskExact (![1] : Vec ℝ 1) := by intro j; fin_cases j; right; norm_num
  obtain ⟨h1, h2⟩ := C98_degrees_of_freedom [exGroup] exGroup_posVar ![1] hm
  have hd : InDomain [exGroup] (![1] : Vec ℝ 1) := inDomain_of_nonneg exGroup_posVar hm.nonneg
  have hu := exGroup_kernel ![1] hm.nonneg
  rw [List.map_cons, List.map_nil, List.map_cons, List.map_nil, hessBetaTerm_eq (hd _ List.mem_cons_self)] at hu
  obtain ⟨rho, h⟩ := h1.2 hu
  obtain ⟨h3, -, h4⟩ := h2 rho h
  have hc : Nat.card {j // (![1] : Vec ℝ 1) j ≠ 0} = 1 := by
    rw [Nat.card_eq_fintype_card, Fintype.card_subtype]
    simp
  rw [hc] at h4
  refine ⟨rho, h, by simpa using h3, ?_⟩
  norm_num at h4
  linarith

/-- Without random effects the degrees of freedom are the number of fixed effects. -/
example (D : List (LmeGroup p q)) (hD : PosVar D) (rho : ℝ) (h : lmeDdf D 0 = .ok rho) : rho = p := by
  have hm : MaskExact (0 : Vec ℝ q) := fun j => Or.inl rfl
  obtain ⟨h1, -, h2⟩ := (C98_degrees_of_freedom D hD 0 hm).2 rho h
  have hc : Nat.card {j // (0 : Vec ℝ q) j ≠ 0} = 0 := by simp
  rw [hc] at h2
  push_cast at h2
  linarith

end Ddf

/-! ## C97 -/

/-- Penalty of the conditional AIC with its correction for finite samples, `n / (n - p - 2) (ρ - (ρ - p) / (n - p))`. -/
def caicPenalty (n p rho : ℝ) : ℝ := n / (n - p - 2) * (rho - (rho - p) / (n - p))

theorem lmeVaida_cond_ok {D : List (LmeGroup p q)} {P : LmeInstPrior ℝ p q} {tol : ℝ} {beta : Vec ℝ p}
    {gamma : Vec ℝ q} {v : ℝ} : lmeVaida D P tol false beta gamma = .ok v ↔
      ((lmeNumObs D : ℝ) - countGe tol beta - 2 ≠ 0 ∧ (lmeNumObs D : ℝ) - countGe tol beta ≠ 0) ∧
      ∃ rho w, lmeDdf D gamma = .ok rho ∧ lmeDemarginalizedLoss D P beta gamma = .ok w ∧
        v = 2 * w + 2 * caicPenalty (lmeNumObs D) (countGe tol beta) rho * ((countGe tol beta : ℝ) + countGe tol gamma) := by
  have e : lmeVaida D P tol false beta gamma = (lmeDdf D gamma >>= fun rho => lmeDemarginalizedLoss D P beta gamma >>=
      fun w => if (lmeNumObs D : ℝ) - countGe tol beta - 2 = 0 ∨ (lmeNumObs D : ℝ) - countGe tol beta = 0 then .error .nan else .ok (2 * w + 2 * (lmeNumObs D : ℝ) / ((lmeNumObs D : ℝ) - countGe tol beta - 2)
        * (rho - (rho - countGe tol beta) / ((lmeNumObs D : ℝ) - countGe tol beta))
        * ((countGe tol beta : ℝ) + countGe tol gamma))) := rfl
  have e' : ∀ n a r c : ℝ, 2 * n / a * r * c = 2 * (n / a * r) * c := by intros; ring
  rw [e, ebind_ok]
  constructor
  · rintro ⟨rho, h1, h⟩
    obtain ⟨w, h2, h3⟩ := ebind_ok.1 h
    split_ifs at h3 with h0
    refine ⟨not_or.1 h0, rho, w, h1, h2, ?_⟩
    rw [← Except.ok.inj h3, e']
    rfl
  · rintro ⟨h0, rho, w, h1, h2, rfl⟩
    refine ⟨rho, h1, ebind_ok.2 ⟨w, h2, ?_⟩⟩
    rw [if_neg (not_or.2 h0), e']
    rfl

theorem caicPenalty_pos {n p rho : ℝ} (hp : 0 < p) (hn : p + 2 < n) (hr : p ≤ rho) : 0 < caicPenalty n p rho := by
  unfold caicPenalty
  refine mul_pos (div_pos (by linarith) (by linarith)) ?_
  have : (rho - p) / (n - p) ≤ rho - p := div_le_self (by linarith) (by linarith)
  linarith

/-- **C97** is violated by the conditional version, the default, on every problem with at least one fixed and one random
effect, more than `p + 2` observations and the default tolerance `0`: whatever the data, the value returned is strictly
larger than the criterion, since the penalty is multiplied by the number of parameters once more. -/
theorem C97_conditional_violated (D : List (LmeGroup p q)) (hD : PosVar D) (P : LmeInstPrior ℝ p q) (beta : Vec ℝ p)
    (gamma : Vec ℝ q) (hm : MaskExact gamma) (hp : 0 < p) (hq : 0 < q) (hn : p + 2 < (D.map fun g => g.n).sum)
    (v : ℝ) (hv : lmeVaida D P 0 false beta gamma = .ok v) :
    ∃ rho w, lmeDdf D gamma = .ok rho ∧ lmeDemarginalizedLoss D P beta gamma = .ok w ∧
      let n : ℝ := ((D.map fun g => g.n).sum : ℕ)
      2 * w + 2 * (n / (n - p - 2) * (rho - (rho - p) / (n - p))) < v := by
  obtain ⟨-, rho, w, h1, h2, rfl⟩ := lmeVaida_cond_ok.1 hv
  refine ⟨rho, w, h1, h2, ?_⟩
  have h3 := ((C98_degrees_of_freedom D hD gamma hm).2 rho h1).1
  have hn' : (p : ℝ) + 2 < ((D.map fun g => g.n).sum : ℕ) := by exact_mod_cast hn
  have hpos := caicPenalty_pos (by exact_mod_cast hp) hn' h3
  rw [countGe_zero, countGe_zero]
  change 2 * w + 2 * caicPenalty _ p rho < 2 * w + 2 * caicPenalty ((D.map fun g => g.n).sum : ℕ) p rho * ((p : ℝ) + q)
  have hp1 : (1 : ℝ) ≤ p := by exact_mod_cast hp
  have hq1 : (1 : ℝ) ≤ q := by exact_mod_cast hq
  nlinarith

/-- **C97**, the part that holds: the marginal version is the AIC with its small-sample correction for the number of
parameters at or above the tolerance; the conditional version is the conditional AIC when exactly one parameter is
counted and its denominators are not zero (otherwise the code returns `inf` or `nan`).  Both are computed from the likelihoods of C54 and C96.  What is missing: the conditional version for any other
number of parameters, where `C97_conditional_violated` shows it is wrong. -/
theorem C97_aic_partial (D : List (LmeGroup p q)) (P : LmeInstPrior ℝ p q) (tol : ℝ) (beta : Vec ℝ p) (gamma : Vec ℝ q)
    (hd : InDomain D gamma) :
    let n : ℝ := ((D.map fun g => g.n).sum : ℕ)
    let k : ℝ := Nat.card {i // tol ≤ |beta i|}
    let l : ℝ := Nat.card {j // tol ≤ |gamma j|}
    (0 < n - k - l - 1 → lmeVaida D P tol true beta gamma
      = .ok (2 * (marginalNLL D beta gamma + P.loss beta gamma) + 2 * (n / (n - k - l - 1)) * (k + l))) ∧
    (n - k - l - 1 ≤ 0 → lmeVaida D P tol true beta gamma
      = .ok (2 * (marginalNLL D beta gamma + P.loss beta gamma) + 2 * (k + l))) ∧
    (k + l = 1 → ∀ v, lmeVaida D P tol false beta gamma = .ok v ↔ (n - k - 2 ≠ 0 ∧ n - k ≠ 0) ∧
      ∃ rho w, lmeDdf D gamma = .ok rho ∧ lmeDemarginalizedLoss D P beta gamma = .ok w ∧
        v = 2 * w + 2 * (n / (n - k - 2) * (rho - (rho - k) / (n - k)))) := by
  classical
  have hc : ∀ {n : ℕ} (v : Vec ℝ n), Nat.card {i // tol ≤ |v i|} = countGe tol v := by
    intro n v
    unfold countGe
    rw [Nat.card_eq_fintype_card, Fintype.card_subtype]
  intro n k l
  have hk : k = countGe tol beta := by simp only [k, hc]
  have hl : l = countGe tol gamma := by simp only [l, hc]
  have hn : n = lmeNumObs D := rfl
  rw [lmeVaida_marg_eq hd, ← hk, ← hl, ← hn]
  refine ⟨fun h => by rw [if_pos h], fun h => by rw [if_neg (not_lt.2 h), mul_one], fun h v => ?_⟩
  rw [lmeVaida_cond_ok, ← hk, ← hl, ← hn, h]
  simp only [mul_one]
  rfl

/-- C97 on a concrete problem: two groups of two observations, one fixed and one random effect; the conditional criterion
is returned and is wrong. -/
example : ∃ rho w v, lmeDdf [exGroup, exGroup] ![1] = .ok rho ∧
    lmeDemarginalizedLoss [exGroup, exGroup] .nonInformative ![1] ![1] = .ok w ∧
    lmeVaida [exGroup, exGroup] .nonInformative 0 false ![1] ![1] = .ok v ∧
    2 * w + 2 * (4 / (4 - 1 - 2) * (rho - (rho - 1) / (4 - 1))) < v := by
  have hm : MaskExact (![1] : Vec ℝ 1) := by intro j; fin_cases j; right; norm_num
  have hD : PosVar [exGroup, exGroup] := by
    intro g hg
    have : g = exGroup := by simpa using hg
    rw [this]
    exact exGroup_posVar _ List.mem_cons_self
  have hd : InDomain [exGroup] (![1] : Vec ℝ 1) := inDomain_of_nonneg exGroup_posVar hm.nonneg
  have hu := exGroup_kernel ![1] hm.nonneg
  rw [List.map_cons, List.map_nil, List.map_cons, List.map_nil, hessBetaTerm_eq (hd _ List.mem_cons_self),
    List.sum_cons, List.sum_nil, add_zero, Matrix.det_fin_one, isUnit_iff_ne_zero] at hu
  obtain ⟨rho, h⟩ := (C98_degrees_of_freedom _ hD ![1] hm).1.2 (by
    rw [List.map_cons, List.map_cons, List.map_nil, List.sum_cons, List.sum_cons, List.sum_nil, add_zero,
      Matrix.det_fin_one, isUnit_iff_ne_zero, Matrix.add_apply]
    intro h0
    refine hu ?_
    change _ + _ = (0 : ℝ) at h0
    exact add_self_eq_zero.1 h0)
  obtain ⟨-, w, -, -, hw, -⟩ := C96_demarginalized _ hD .nonInformative ![1] ![1] hm
  have hv := (lmeVaida_cond_ok (tol := 0)).2 ⟨by
    have hn4 : ((lmeNumObs [exGroup, exGroup] : ℕ) : ℝ) = 4 := by
      change ((2 + (2 + 0) : ℕ) : ℝ) = 4
      norm_num
    rw [countGe_zero, hn4]
    norm_num, rho, w, h, hw, rfl⟩
  obtain ⟨rho', w', h1, h2, h3⟩ := C97_conditional_violated _ hD .nonInformative ![1] ![1] hm one_pos one_pos
    (by change 1 + 2 < 2 + (2 + 0); norm_num) _ hv
  rw [h] at h1
  rw [hw] at h2
  cases Except.ok.inj h1
  cases Except.ok.inj h2
  refine ⟨rho, w, _, h, hw, hv, ?_⟩
  have hn : ((([exGroup, exGroup].map fun g => g.n).sum : ℕ) : ℝ) = 4 := by
    change ((2 + (2 + 0) : ℕ) : ℝ) = 4
    norm_num
  simp only [hn, Nat.cast_one] at h3
  exact h3

/-- The marginal criterion on a concrete problem: two observations, two parameters. -/
example : lmeVaida [exGroup] .nonInformative 0 true ![1] ![1]
    = .ok (2 * (marginalNLL [exGroup] ![1] ![1] + (LmeInstPrior.nonInformative).loss ![1] ![1]) + 2 * (1 + 1)) := by
  have hg : ∀ j, 0 ≤ (![1] : Vec ℝ 1) j := by intro j; fin_cases j; simp
  have h := (C97_aic_partial [exGroup] .nonInformative 0 ![1] ![1] (inDomain_of_nonneg exGroup_posVar hg)).2.1
  have hc : ∀ v : Vec ℝ 1, Nat.card {i // 0 ≤ |v i|} = 1 := by
    intro v
    simp
  have hn : ((([exGroup].map fun g => g.n).sum : ℕ) : ℝ) = 2 := by
    change ((2 + 0 : ℕ) : ℝ) = 2
    norm_num
  simp only [hc, hn] at h
  push_cast at h
  exact h (by norm_num)

end

end Verif
