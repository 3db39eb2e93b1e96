import Verif.Lemmas.GaussInt
import Verif.Props.LmeBlup

/-!
# C137, C138: the likelihood as an integral over the random effects, and their distribution given the data
-/

open Matrix MeasureTheory ProbabilityTheory
open scoped NNReal

namespace Verif

noncomputable section

variable {p q : ℕ}

/-- The density of the observations of a group when the random effects are `u`: `y_i ~ N(x_i β + z_i u, l_i)`, independent. -/
def groupDensity (g : LmeGroup p q) (beta : Vec ℝ p) (u : Fin q → ℝ) : ℝ :=
  ∏ i, gaussianPDFReal (∑ k, g.x i k * beta k + ∑ j, g.z i j * u j) (g.l i).toNNReal (g.y i)

/-- The distribution of the random effects: `u_j ~ N(0, γ_j)`, independent. -/
def effectLaw (gamma : Fin q → ℝ≥0) : Measure (Fin q → ℝ) := Measure.pi fun j => gaussianReal 0 (gamma j)

theorem groupDensity_eq (g : LmeGroup p q) (hl : ∀ i, 0 < g.l i) (beta : Vec ℝ p) (u : Fin q → ℝ) :
    groupDensity g beta u = (√(2 * Real.pi) ^ g.n)⁻¹ * dens (diagonal g.l) (residual g beta - g.z *ᵥ u) := by
  unfold groupDensity
  rw [prod_gaussianPDFReal g.y _ _ fun i => Real.toNNReal_pos.2 (hl i)]
  have e1 : (fun i => ((g.l i).toNNReal : ℝ)) = g.l := funext fun i => Real.coe_toNNReal _ (hl i).le
  rw [e1]
  congr 2
  funext i
  simp only [Pi.sub_apply, residual, Matrix.mulVec, dotProduct]
  ring

theorem posDef_diag {n : ℕ} {l : Fin n → ℝ} (hl : ∀ i, 0 < l i) : (diagonal l).PosDef := PosDef.diagonal hl

theorem integral_groupDensity (g : LmeGroup p q) (hl : ∀ i, 0 < g.l i) (beta : Vec ℝ p) (gamma : Fin q → ℝ≥0) :
    ∫ u, groupDensity g beta u ∂effectLaw gamma = (√(2 * Real.pi) ^ g.n)⁻¹ * dens (margCov g fun j => gamma j) (residual g beta) := by
  simp_rw [groupDensity_eq g hl]
  unfold effectLaw
  rw [integral_const_mul, integral_dens (posDef_diag hl)]
  rfl

theorem dens_margCov (g : LmeGroup p q) (hl : ∀ i, 0 < g.l i) (beta : Vec ℝ p) (gamma : Fin q → ℝ≥0) :
    dens (margCov g fun j => gamma j) (residual g beta) = Real.exp (-groupNLL g beta fun j => gamma j) := by
  have hpd : (margCov g fun j => (gamma j : ℝ)).PosDef := posDef_margin (posDef_diag hl) g.z fun j => (gamma j).coe_nonneg
  rw [dens, groupNLL, neg_add, Real.exp_add, div_eq_mul_inv]
  congr 1
  rw [Real.sqrt_eq_rpow, Real.rpow_def_of_pos hpd.det_pos, ← Real.exp_neg]
  ring_nf

/-- **C137**: the loss of the mixed-effects oracle is minus the logarithm of the likelihood of the data under `y = X β + Z u + ε`, `u ~ N(0, diag γ)`, `ε ~ N(0, diag l)`, with the random effects
integrated out, up to the constant `(2π)^(n/2)` and the prior. Variances may be zero. -/
theorem C137_likelihood (D : List (LmeGroup p q)) (hD : PosVar D) (P : LmeInstPrior ℝ p q) (beta : Vec ℝ p) (gamma : Fin q → ℝ≥0) :
    ∃ v, lmeLoss D P beta (fun j => gamma j) = .ok v ∧
      Real.exp (-(v - P.loss beta fun j => gamma j)) = (D.map fun g => √(2 * Real.pi) ^ g.n *
        ∫ u, ∏ i, gaussianPDFReal (∑ k, g.x i k * beta k + ∑ j, g.z i j * u j) (g.l i).toNNReal (g.y i) ∂Measure.pi fun j => gaussianReal 0 (gamma j)).prod := by
  refine ⟨_, (C54_loss_is_marginal_likelihood D P beta _).1 hD fun j => (gamma j).coe_nonneg, ?_⟩
  rw [add_sub_cancel_right]
  change Real.exp (-(D.map fun g => groupNLL g beta fun j => gamma j).sum) = (D.map fun g => √(2 * Real.pi) ^ g.n * ∫ u, groupDensity g beta u ∂effectLaw gamma).prod
  induction D with
  | nil => simp
  | cons g D ih =>
    have hg := hD g List.mem_cons_self
    rw [List.map_cons, List.map_cons, List.sum_cons, List.prod_cons, neg_add, Real.exp_add, ih fun g' h => hD g' (List.mem_cons_of_mem _ h), integral_groupDensity g hg, dens_margCov g hg,
      mul_inv_cancel_left₀ (by positivity)]

/-- C137 on a concrete problem: the likelihood of two observations with one random effect of variance 1. -/
example : ∃ v, lmeLoss [exGroup] .nonInformative ![1] (fun _ => ((1 : ℝ≥0) : ℝ)) = .ok v ∧ 0 < Real.exp (-v) := by
  obtain ⟨v, hv, -⟩ := C137_likelihood [exGroup] exGroup_posVar .nonInformative ![1] (fun _ => 1)
  exact ⟨v, hv, Real.exp_pos _⟩

/-- **C138**: the random effects returned for a group are the means of their distribution given the data; more precisely, given the data the random effect `j` of the group is normal with the
returned value as its mean and variance `γ_j (1 - γ_j z_jᵀ Ω⁻¹ z_j)`. Stated with densities: the integral of `φ(u_j)` times the density of the data over the distribution of the random effects
is the likelihood times the integral of `φ` over that normal distribution. Taking `φ = id` gives the mean. -/
theorem C138_posterior (D : List (LmeGroup p q)) (hD : PosVar D) (beta : Vec ℝ p) (gamma : Fin q → ℝ≥0) (hm : MaskExact fun j => (gamma j : ℝ)) :
    ∃ us, lmeRandomEffects D beta (fun j => gamma j) = .ok us ∧
      List.Forall₂ (fun (g : LmeGroup p q) (u : Vec ℝ q) =>
        0 < ∫ w, groupDensity g beta w ∂effectLaw gamma ∧
        (∀ j, ∫ w, w j * groupDensity g beta w ∂effectLaw gamma = (∫ w, groupDensity g beta w ∂effectLaw gamma) * u j) ∧
        ∀ (j : Fin q) (φ : ℝ → ℝ), Measurable φ → (∃ C, ∀ t, |φ t| ≤ C) →
          ∫ w, φ (w j) * groupDensity g beta w ∂effectLaw gamma = (∫ w, groupDensity g beta w ∂effectLaw gamma) *
            ∫ t, φ t ∂gaussianReal (u j)
              (gamma j * (1 - gamma j * ((fun i => g.z i j) ⬝ᵥ ((g.z * diagonal (fun j => (gamma j : ℝ)) * g.zᵀ + diagonal g.l)⁻¹ *ᵥ fun i => g.z i j)))).toNNReal) D us := by
  obtain ⟨us, hus, hall⟩ := C59_random_effects D hD beta (fun j => gamma j) hm
  refine ⟨us, hus, ?_⟩
  clear hus
  induction hall with
  | nil => exact .nil
  | @cons g u D us hgu _ ih =>
    refine .cons ?_ (ih fun g' h => hD g' (List.mem_cons_of_mem _ h))
    have hl := hD g List.mem_cons_self
    have hu : ∀ j, u j = gamma j * ((fun i => g.z i j) ⬝ᵥ ((g.z * diagonal (fun j => (gamma j : ℝ)) * g.zᵀ + diagonal g.l)⁻¹ *ᵥ residual g beta)) := fun j => by
      rw [hgu.1, mulVec_diagonal]
      rfl
    have key : ∀ (j : Fin q) (φ : ℝ → ℝ), Integrable φ (gaussianReal 0 (gamma j)) →
          ∫ w, φ (w j) * groupDensity g beta w ∂effectLaw gamma = (∫ w, groupDensity g beta w ∂effectLaw gamma) *
            ∫ t, φ t ∂gaussianReal (u j)
              (gamma j * (1 - gamma j * ((fun i => g.z i j) ⬝ᵥ ((g.z * diagonal (fun j => (gamma j : ℝ)) * g.zᵀ + diagonal g.l)⁻¹ *ᵥ fun i => g.z i j)))).toNNReal := fun j φ hφ => by
      rw [integral_groupDensity g hl]
      simp_rw [groupDensity_eq g hl, mul_left_comm (φ _)]
      unfold effectLaw
      rw [integral_const_mul, integral_dens_tilt (posDef_diag hl) g.z gamma _ j φ hφ, ← mul_assoc, hu j]
      rfl
    refine ⟨?_, fun j => ?_, fun j φ hφ ⟨C, hC⟩ => key j φ (integrable_of_bounded hφ C hC)⟩
    · rw [integral_groupDensity g hl, dens_margCov g hl]
      positivity
    · rw [key j (fun t => t) ?_, integral_id_gaussianReal]
      exact (memLp_id_gaussianReal 1).integrable le_rfl

/-- C138 on a concrete problem. -/
example : ∃ u : Vec ℝ 1, lmeRandomEffects [exGroup] ![1] (fun _ => ((1 : ℝ≥0) : ℝ)) = .ok [u] ∧
    ∫ w, w 0 * groupDensity exGroup ![1] w ∂effectLaw (fun _ => 1) = (∫ w, groupDensity exGroup ![1] w ∂effectLaw fun _ => 1) * u 0 := by
  obtain ⟨us, h, h2⟩ := C138_posterior [exGroup] exGroup_posVar ![1] (fun _ => 1) (by intro j; right; norm_num)
  cases h2 with
  | cons hu hnil =>
    cases hnil
    exact ⟨_, h, hu.2.1 0⟩

end

end Verif
