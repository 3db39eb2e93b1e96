import Verif.Lemmas.GaussPost
import Verif.Props.LmeFlip

/-!
# C139: the normal law behind the sign flip probabilities is the posterior of the fixed effects
-/

open Matrix MeasureTheory ProbabilityTheory
open scoped ENNReal

namespace Verif

variable {p q : ℕ}

/-- **C139**: let the prior be reachable, `gamma` in the domain, the Hessian in the fixed effects nonsingular and `beta` a
minimiser of the loss at this `gamma`.  Then `exp(-loss)` can be normalised to a probability density on the fixed effects (the
posterior given the variances, by C137 and the definition of the priors); the i-th coefficient has under it the normal law
with mean `beta i` and the i-th diagonal entry of the inverse Hessian as its variance (for every Borel set `B`); and
`flip_probabilities_beta` returns for every nonzero coefficient its posterior probability to have the opposite sign. -/
theorem C139_posterior (D : List (LmeGroup p q)) (P : LmeInstPrior ℝ p q) (hP : P.Reachable) (gamma : Vec ℝ q) (hd : InDomain D gamma)
    (H : Matrix (Fin p) (Fin p) ℝ) (hH : lmeHessianBeta D P gamma = .ok H) (hdet : H.det ≠ 0)
    (loss : Vec ℝ p → ℝ) (hloss : ∀ b, lmeLoss D P b gamma = .ok (loss b)) (beta : Vec ℝ p) (hmin : ∀ b, loss beta ≤ loss b) :
    ∃ Z : ℝ, 0 < Z ∧ (∫⁻ b : Fin p → ℝ, ENNReal.ofReal (Real.exp (-loss b))) = ENNReal.ofReal Z ∧
      (∀ (i : Fin p) (B : Set ℝ), MeasurableSet B →
        (∫⁻ b in {b : Fin p → ℝ | b i ∈ B}, ENNReal.ofReal (Real.exp (-loss b) / Z)) = gaussianReal (beta i) (H⁻¹ i i).toNNReal B) ∧
      ∃ f, lmeFlipProbabilities (lmeHessianBeta D P gamma) beta = .ok f ∧
        ∀ i, beta i ≠ 0 → (∫⁻ b in {b : Fin p → ℝ | b i * beta i < 0}, ENNReal.ofReal (Real.exp (-loss b) / Z)) = ENNReal.ofReal (f i) := by
  obtain ⟨⟨l, G, H', hl, -, hH', hexp, hsy, hnn⟩, -⟩ := C55_beta_derivatives D P hP ⟨0, 0⟩ gamma hd 0 0
  cases hH.symm.trans hH'
  obtain rfl : l = loss := funext fun b => Except.ok.inj ((hl b).symm.trans (hloss b))
  have hpd := posDef_of_nonneg_of_det hsy hnn hdet
  have hv : ∀ i, 0 < H⁻¹ i i := fun i => hpd.inv.diag_pos
  have hu : IsUnit H.det := isUnit_iff_ne_zero.2 hdet
  -- the gradient vanishes
  have hG : G beta = 0 := by
    by_contra hne
    have h := hmin (beta + (-(H⁻¹ *ᵥ G beta)))
    rw [hexp, quadSum_eq] at h
    have e1 : ∑ i, G beta i * (-(H⁻¹ *ᵥ G beta)) i = -(G beta ⬝ᵥ (H⁻¹ *ᵥ G beta)) := by
      simp [dotProduct]
    have e2 : (-(H⁻¹ *ᵥ G beta)) ⬝ᵥ (H *ᵥ (-(H⁻¹ *ᵥ G beta))) = G beta ⬝ᵥ (H⁻¹ *ᵥ G beta) := by
      rw [mulVec_neg, neg_dotProduct, dotProduct_neg, neg_neg, mulVec_mulVec, mul_nonsing_inv _ hu, one_mulVec, dotProduct_comm]
    have e3 : 0 < G beta ⬝ᵥ (H⁻¹ *ᵥ G beta) := by
      have := hpd.inv.dotProduct_mulVec_pos hne
      rwa [star_trivial] at this
    rw [e1, e2] at h
    linarith
  have hq : ∀ v, l (beta + v) = l beta + 1 / 2 * (v ⬝ᵥ (H *ᵥ v)) := fun v => by
    rw [hexp, quadSum_eq, hG]
    simp
  have hlm : Measurable l := by
    have : l = fun b => l beta + 1 / 2 * ((b - beta) ⬝ᵥ (H *ᵥ (b - beta))) := by
      funext b
      rw [← hq, add_sub_cancel]
    rw [this]
    refine Continuous.measurable ?_
    fun_prop
  obtain ⟨⟨h1, h2⟩, h3⟩ := lintegral_quadratic_marginal hpd l beta hq
  set I : ℝ≥0∞ := ∫⁻ b : Fin p → ℝ, ENNReal.ofReal (Real.exp (-l b)) with hI
  have hZ : 0 < I.toReal := ENNReal.toReal_pos h1 h2
  have hmain : ∀ (i : Fin p) (B : Set ℝ), MeasurableSet B →
      (∫⁻ b in {b : Fin p → ℝ | b i ∈ B}, ENNReal.ofReal (Real.exp (-l b) / I.toReal)) = gaussianReal (beta i) (H⁻¹ i i).toNNReal B := by
    intro i B hB
    have hmB : MeasurableSet {b : Fin p → ℝ | b i ∈ B} := measurable_pi_apply i hB
    have h := h3 i (B.indicator 1) (measurable_one.indicator hB)
    rw [lintegral_indicator_one hB] at h
    have e : ∀ b, ENNReal.ofReal (Real.exp (-l b) / I.toReal) = ENNReal.ofReal (Real.exp (-l b)) * I⁻¹ := fun b => by
      rw [ENNReal.ofReal_div_of_pos hZ, ENNReal.ofReal_toReal h2, ENNReal.div_eq_inv_mul, mul_comm]
    simp_rw [e]
    rw [← lintegral_indicator hmB]
    have e' : ∀ b : Fin p → ℝ, {b : Fin p → ℝ | b i ∈ B}.indicator (fun b => ENNReal.ofReal (Real.exp (-l b)) * I⁻¹) b
        = (B.indicator 1 (b i) * ENNReal.ofReal (Real.exp (-l b))) * I⁻¹ := fun b => by
      by_cases hb : b i ∈ B <;> simp [Set.indicator, hb]
    simp_rw [e']
    rw [lintegral_mul_const' _ _ (ENNReal.inv_ne_top.2 h1), h, mul_assoc, ENNReal.mul_inv_cancel h1 h2, mul_one]
  refine ⟨I.toReal, hZ, (ENNReal.ofReal_toReal h2).symm, hmain, _, by rw [hH]; exact flip_ok hpd beta, fun i hi => ?_⟩
  have hB : MeasurableSet {t : ℝ | t * beta i < 0} := measurableSet_lt (measurable_id.mul_const _) measurable_const
  refine (hmain i _ hB).trans ?_
  rw [← flip_mass _ _ (hv i) hi, ofReal_measureReal]

/-- C139 on the example: the Hessian is nonsingular and the loss has a minimiser. -/
example : ∃ (H : Matrix (Fin 1) (Fin 1) ℝ) (loss : Vec ℝ 1 → ℝ) (beta : Vec ℝ 1), lmeHessianBeta [exGroup] .nonInformative ![1] = .ok H ∧ H.det ≠ 0 ∧
    (∀ b, lmeLoss [exGroup] .nonInformative b ![1] = .ok (loss b)) ∧ ∀ b, loss beta ≤ loss b := by
  have hd : InDomain [exGroup] ![1] := inDomain_of_nonneg exGroup_posVar (by intro j; fin_cases j; simp)
  obtain ⟨H, hH, hne⟩ := exGroup_hessian
  obtain ⟨⟨l, G, H', hl, -, hH', hexp, hsy, hnn⟩, -⟩ := C55_beta_derivatives [exGroup] .nonInformative trivial ⟨0, 0⟩ ![1] hd 0 0
  cases hH.symm.trans hH'
  have hu : IsUnit H.det := isUnit_iff_ne_zero.2 hne
  have hpd := posDef_of_nonneg_of_det hsy hnn hne
  refine ⟨H, l, -(H⁻¹ *ᵥ G 0), hH, hne, hl, fun b => ?_⟩
  have e1 := hexp 0 (-(H⁻¹ *ᵥ G 0))
  have e2 := hexp 0 b
  rw [zero_add, quadSum_eq] at e1 e2
  have h := hpd.posSemidef.dotProduct_mulVec_nonneg (b + H⁻¹ *ᵥ G 0)
  have hsw : (H⁻¹ *ᵥ G 0) ⬝ᵥ (H *ᵥ b) = G 0 ⬝ᵥ b := by
    rw [dotProduct_mulVec, ← mulVec_transpose, hsy, mulVec_mulVec, mul_nonsing_inv _ hu, one_mulVec]
  rw [star_trivial, mulVec_add, mulVec_mulVec, mul_nonsing_inv _ hu, one_mulVec, add_dotProduct, dotProduct_add, dotProduct_add, hsw, dotProduct_comm b (G 0), dotProduct_comm (H⁻¹ *ᵥ G 0) (G 0)] at h
  rw [mulVec_neg, neg_dotProduct, dotProduct_neg, neg_neg, mulVec_mulVec, mul_nonsing_inv _ hu, one_mulVec, dotProduct_comm (H⁻¹ *ᵥ G 0) (G 0)] at e1
  have s1 : ∑ i, G 0 i * (-(H⁻¹ *ᵥ G 0)) i = -(G 0 ⬝ᵥ (H⁻¹ *ᵥ G 0)) := by simp [dotProduct]
  have s2 : ∑ i, G 0 i * b i = G 0 ⬝ᵥ b := rfl
  rw [s1] at e1
  rw [s2] at e2
  linarith

end Verif
