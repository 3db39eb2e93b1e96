import Verif.Props.LmeHenderson
import Verif.Props.LmeScaleVar

/-!
# C214: without variances a mixed model is weighted least squares
-/

open Matrix

namespace Verif

variable {p q : ℕ}

theorem groupNLL_zero {g : LmeGroup p q} (hl : ∀ i, 0 < g.l i) (beta : Vec ℝ p) :
    groupNLL g beta 0 = 1 / 2 * ∑ r, (g.y r - ∑ k, g.x r k * beta k) ^ 2 / g.l r + 1 / 2 * ∑ r, Real.log (g.l r) := by
  have e : margCov g 0 = diagonal g.l := by simp [margCov]
  have hinv : (diagonal g.l)⁻¹ = diagonal fun r => (g.l r)⁻¹ := by
    refine Matrix.inv_eq_right_inv ?_
    rw [diagonal_mul_diagonal, ← diagonal_one]
    exact congrArg _ (funext fun r => mul_inv_cancel₀ (hl r).ne')
  unfold groupNLL
  rw [e, hinv, det_diagonal, Real.log_prod fun r _ => (hl r).ne']
  congr 2
  simp only [dotProduct, mulVec_diagonal]
  refine Finset.sum_congr rfl fun r _ => ?_
  unfold residual
  ring

/-- **C214**: with all variances zero the loss is the weighted sum of squared residuals (plus a constant and the prior), the random effects are zero for all fixed effects, and `optimal_beta`, where it returns,
satisfies the weighted normal equations and is the only minimiser of the weighted sum of squared residuals. -/
theorem C214_zero (D : List (LmeGroup p q)) (hD : PosVar D) (P : LmeInstPrior ℝ p q) :
    (∀ beta, lmeLoss D P beta 0 = .ok ((D.map fun g => 1 / 2 * ∑ r, (g.y r - ∑ k, g.x r k * beta k) ^ 2 / g.l r + 1 / 2 * ∑ r, Real.log (g.l r)).sum + P.loss beta 0)) ∧
    (∀ beta, lmeRandomEffects D beta 0 = .ok (D.map fun _ => 0)) ∧
    ∀ beta, lmeOptimalBeta D 0 = .ok beta →
      (∀ k, (D.map fun g => ∑ r, g.x r k * ((g.y r - ∑ k, g.x r k * beta k) / g.l r)).sum = 0) ∧
      ∀ beta', beta' ≠ beta → (D.map fun g => ∑ r, (g.y r - ∑ k, g.x r k * beta k) ^ 2 / g.l r).sum < (D.map fun g => ∑ r, (g.y r - ∑ k, g.x r k * beta' k) ^ 2 / g.l r).sum := by
  have hm : MaskExact (0 : Vec ℝ q) := fun j => Or.inl rfl
  have hre : ∀ beta, lmeRandomEffects D beta 0 = .ok (D.map fun _ => 0) := fun beta => by
    rw [lmeRandomEffects_eq hD hm]
    exact congrArg _ (List.map_congr_left fun g _ => funext fun j => blup_zero g beta rfl)
  refine ⟨fun beta => lmeLoss_ok.2 ⟨inDomain_of_nonneg hD fun _ => le_rfl, ?_⟩, hre, fun beta hb => ?_⟩
  · unfold marginalNLL
    rw [List.map_congr_left fun g hg => groupNLL_zero (hD g hg) beta]
  · obtain ⟨us, h1, -, h3, h4⟩ := C206_henderson D hD 0 hm beta hb
    have hus : us = D.map fun _ => 0 := Except.ok.inj (h1.symm.trans (hre beta))
    have hzip : D.zip us = D.map fun g => (g, (0 : Vec ℝ q)) := by
      rw [hus]
      exact zip_map_pair D _
    have hcrit : ∀ b : Vec ℝ p, ((D.map fun g => (g, (0 : Vec ℝ q))).map fun gu => blupCriterion gu.1 b 0 gu.2).sum = 1 / 2 * (D.map fun g => ∑ r, (g.y r - ∑ k, g.x r k * b k) ^ 2 / g.l r).sum := fun b => by
      rw [List.map_map, ← List.sum_map_mul_left]
      congr 1
      refine List.map_congr_left fun g _ => ?_
      simp [blupCriterion, residual]
    refine ⟨fun k => ?_, fun beta' hne => ?_⟩
    · have := h3 k
      rw [hzip, List.map_map] at this
      simpa [Function.comp_def] using this
    · have := h4 beta' us (by rw [hus, List.length_map]) (fun u hu j _ => by
        rw [hus] at hu
        obtain ⟨g, -, rfl⟩ := List.mem_map.1 hu
        rfl) (fun h => hne (Prod.mk.inj h).1)
      rw [hzip, hcrit, hcrit] at this
      linarith

/-- Non-vacuity: observations `1` and `3` with an intercept; the estimate is their mean. -/
example : ∃ beta : Vec ℝ 1, lmeOptimalBeta [hendersonGroup] 0 = .ok beta ∧ beta 0 = 2 := by
  obtain ⟨beta, hb⟩ : ∃ beta, lmeOptimalBeta [hendersonGroup] 0 = .ok beta := by
    refine ⟨_, lmeOptimalBeta_ok.2 ⟨inDomain_of_nonneg hendersonGroup_pos fun _ => le_rfl, (kernel_unit_iff hendersonGroup_pos fun _ => le_rfl).2 fun b hb => ?_, rfl⟩⟩
    have h1 := congrFun (hb hendersonGroup List.mem_cons_self) (0 : Fin 2)
    change ∑ j : Fin 1, (1 : ℝ) * b j = 0 at h1
    funext j
    rw [Subsingleton.elim j 0]
    simpa using h1
  refine ⟨beta, hb, ?_⟩
  have h := ((C214_zero [hendersonGroup] hendersonGroup_pos .nonInformative).2.2 beta hb).1 0
  rw [List.map_singleton, List.sum_singleton] at h
  change ∑ r : Fin 2, (1 : ℝ) * (((![1, 3] : Vec ℝ 2) r - ∑ k : Fin 1, 1 * beta k) / 1) = 0 at h
  simp [Fin.sum_univ_two] at h
  linarith

end Verif
