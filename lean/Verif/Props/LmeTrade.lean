import Verif.Props.LmeHenderson
import Verif.Props.LmeCurv

/-!
# C207: larger variances explain more and cost more
-/

open Matrix

namespace Verif

variable {p q : ℕ}

/-- The same groups with observations that the fixed effects explain exactly. -/
def explained (D : List (LmeGroup p q)) (beta : Vec ℝ p) : List (LmeGroup p q) := D.map fun g => { g with y := fun r => ∑ k, g.x r k * beta k }

theorem quad_antitone {g : LmeGroup p q} (hl : ∀ i, 0 < g.l i) {gamma gamma' : Vec ℝ q} (hg : ∀ j, 0 ≤ gamma j) (hle : ∀ j, gamma j ≤ gamma' j) (r : Fin g.n → ℝ) :
    r ⬝ᵥ ((margCov g gamma')⁻¹ *ᵥ r) ≤ r ⬝ᵥ ((margCov g gamma)⁻¹ *ᵥ r) := by
  refine inv_form_le (margCov_posDef g gamma' hl fun j => (hg j).trans (hle j)) (margCov_posDef g gamma hl hg) (fun w => ?_) r
  unfold margCov
  rw [Matrix.add_mulVec, dotProduct_add, Matrix.add_mulVec, dotProduct_add, zdz_form, zdz_form]
  have : ∑ j, gamma j * ((g.zcol j ⬝ᵥ w) * (g.zcol j ⬝ᵥ w)) ≤ ∑ j, gamma' j * ((g.zcol j ⬝ᵥ w) * (g.zcol j ⬝ᵥ w)) :=
    Finset.sum_le_sum fun j _ => mul_le_mul_of_nonneg_right (hle j) (mul_self_nonneg _)
  linarith

theorem log_det_monotone {g : LmeGroup p q} (hl : ∀ i, 0 < g.l i) {gamma gamma' : Vec ℝ q} (hg : ∀ j, 0 ≤ gamma j) (hle : ∀ j, gamma j ≤ gamma' j) :
    Real.log (margCov g gamma).det ≤ Real.log (margCov g gamma').det := by
  have hg' : ∀ j, 0 ≤ gamma' j := fun j => (hg j).trans (hle j)
  have h := log_det_le hl hg' hg
  have h0 : ∑ j, (gamma j - gamma' j) * (g.zcol j ⬝ᵥ ((margCov g gamma')⁻¹ *ᵥ g.zcol j)) ≤ 0 :=
    Finset.sum_nonpos fun j _ => mul_nonpos_of_nonpos_of_nonneg (sub_nonpos.2 (hle j)) (posDef_inv_nonneg (margCov_posDef g gamma' hl hg') _)
  linarith

theorem explained_pos {D : List (LmeGroup p q)} (hD : PosVar D) (beta : Vec ℝ p) : PosVar (explained D beta) := by
  intro g hg
  obtain ⟨g', hg', rfl⟩ := List.mem_map.1 hg
  exact hD g' hg'

/-- Loss of the explained observations and the difference to it. -/
theorem explained_loss (D : List (LmeGroup p q)) (beta : Vec ℝ p) (gamma : Vec ℝ q) :
    marginalNLL (explained D beta) beta gamma = (D.map fun g => 1 / 2 * Real.log (margCov g gamma).det).sum ∧
    marginalNLL D beta gamma - marginalNLL (explained D beta) beta gamma = (D.map fun g => 1 / 2 * (residual g beta ⬝ᵥ ((margCov g gamma)⁻¹ *ᵥ residual g beta))).sum := by
  have h1 : marginalNLL (explained D beta) beta gamma = (D.map fun g => 1 / 2 * Real.log (margCov g gamma).det).sum := by
    unfold marginalNLL explained
    rw [List.map_map]
    congr 1
    refine List.map_congr_left fun g _ => ?_
    have hr : residual { g with y := fun r => ∑ k, g.x r k * beta k } beta = 0 := funext fun i => sub_self _
    rw [Function.comp_apply, groupNLL, hr, zero_dotProduct, mul_zero, zero_add]
    rfl
  refine ⟨h1, ?_⟩
  rw [h1]
  unfold marginalNLL
  induction D with
  | nil => simp
  | cons a l ih =>
    simp only [List.map_cons, List.sum_cons]
    rw [← ih (by
      unfold marginalNLL explained
      rw [List.map_map]
      congr 1
      refine List.map_congr_left fun g _ => ?_
      have hr : residual { g with y := fun r => ∑ k, g.x r k * beta k } beta = 0 := funext fun i => sub_self _
      rw [Function.comp_apply, groupNLL, hr, zero_dotProduct, mul_zero, zero_add]
      rfl)]
    unfold groupNLL
    ring

/-- **C207**: increase some variances (componentwise). The loss of observations that the fixed effects explain exactly does not decrease; what the
residuals add to it stays nonnegative and does not increase. For every list of groups with positive observation variances,
fixed effects and nonnegative variances. -/
theorem C207_trade (D : List (LmeGroup p q)) (hD : PosVar D) (beta : Vec ℝ p) (gamma gamma' : Vec ℝ q) (hg : ∀ j, 0 ≤ gamma j) (hle : ∀ j, gamma j ≤ gamma' j) :
    ∃ l0 l0' l l', lmeLoss (explained D beta) .nonInformative beta gamma = .ok l0 ∧ lmeLoss (explained D beta) .nonInformative beta gamma' = .ok l0' ∧
      lmeLoss D .nonInformative beta gamma = .ok l ∧ lmeLoss D .nonInformative beta gamma' = .ok l' ∧
      l0 ≤ l0' ∧ 0 ≤ l' - l0' ∧ l' - l0' ≤ l - l0 := by
  have hg' : ∀ j, 0 ≤ gamma' j := fun j => (hg j).trans (hle j)
  have hD0 := explained_pos hD beta
  have e : ∀ c, (LmeInstPrior.nonInformative : LmeInstPrior ℝ p q).loss beta c = 0 := fun _ => rfl
  refine ⟨_, _, _, _, lmeLoss_ok.2 ⟨inDomain_of_nonneg hD0 hg, rfl⟩, lmeLoss_ok.2 ⟨inDomain_of_nonneg hD0 hg', rfl⟩,
    lmeLoss_ok.2 ⟨inDomain_of_nonneg hD hg, rfl⟩, lmeLoss_ok.2 ⟨inDomain_of_nonneg hD hg', rfl⟩, ?_, ?_, ?_⟩
  · rw [e, e, add_zero, add_zero, (explained_loss D beta gamma).1, (explained_loss D beta gamma').1]
    exact List.sum_le_sum fun g hgD => by have := log_det_monotone (hD g hgD) hg hle; linarith
  · rw [e, add_zero, add_zero, (explained_loss D beta gamma').2]
    refine List.sum_nonneg fun v hv => ?_
    obtain ⟨g, hgD, rfl⟩ := List.mem_map.1 hv
    have := posDef_inv_nonneg (margCov_posDef g gamma' (hD g hgD) hg') (residual g beta)
    linarith
  · rw [e, e, add_zero, add_zero, add_zero, add_zero, (explained_loss D beta gamma).2, (explained_loss D beta gamma').2]
    exact List.sum_le_sum fun g hgD => by have := quad_antitone (hD g hgD) hg hle (residual g beta); linarith

/-- Observations that the fixed effects explain exactly are best explained without variances: the loss is smallest at variance zero. -/
theorem C207_explained (D : List (LmeGroup p q)) (hD : PosVar D) (beta : Vec ℝ p) (hy : ∀ g ∈ D, ∀ r, g.y r = ∑ k, g.x r k * beta k)
    (beta' : Vec ℝ p) (gamma : Vec ℝ q) (hg : ∀ j, 0 ≤ gamma j) :
    ∃ l l', lmeLoss D .nonInformative beta 0 = .ok l ∧ lmeLoss D .nonInformative beta' gamma = .ok l' ∧ l ≤ l' := by
  have e : ∀ b c, (LmeInstPrior.nonInformative : LmeInstPrior ℝ p q).loss b c = 0 := fun _ _ => rfl
  refine ⟨_, _, lmeLoss_ok.2 ⟨inDomain_of_nonneg hD fun _ => le_rfl, rfl⟩, lmeLoss_ok.2 ⟨inDomain_of_nonneg hD hg, rfl⟩, ?_⟩
  rw [e, e, add_zero, add_zero]
  unfold marginalNLL
  refine List.sum_le_sum fun g hgD => ?_
  have hr : residual g beta = 0 := funext fun i => sub_eq_zero.2 (hy g hgD i)
  unfold groupNLL
  rw [hr, zero_dotProduct, mul_zero, zero_add]
  have h1 := posDef_inv_nonneg (margCov_posDef g gamma (hD g hgD) hg) (residual g beta')
  have h2 := log_det_monotone (hD g hgD) (gamma := 0) (fun _ => le_rfl) hg
  linarith

/-- Non-vacuity of C207: the group of C206 with variance one and three. -/
example : ∃ l0 l0' l l', lmeLoss (explained [hendersonGroup] ![2]) .nonInformative ![2] ![1] = .ok l0 ∧ lmeLoss (explained [hendersonGroup] ![2]) .nonInformative ![2] ![3] = .ok l0' ∧
      lmeLoss [hendersonGroup] .nonInformative ![2] ![1] = .ok l ∧ lmeLoss [hendersonGroup] .nonInformative ![2] ![3] = .ok l' ∧
      l0 ≤ l0' ∧ 0 ≤ l' - l0' ∧ l' - l0' ≤ l - l0 :=
  C207_trade _ hendersonGroup_pos _ _ _ (fun j => by fin_cases j; simp) (fun j => by fin_cases j; norm_num)

/-- Non-vacuity of the second part: the explained observations of the same group. -/
example (beta' gamma : Vec ℝ 1) (hg : ∀ j, 0 ≤ gamma j) : ∃ l l', lmeLoss (explained [hendersonGroup] ![2]) .nonInformative ![2] 0 = .ok l ∧
    lmeLoss (explained [hendersonGroup] ![2]) .nonInformative beta' gamma = .ok l' ∧ l ≤ l' :=
  C207_explained _ (explained_pos hendersonGroup_pos _) _ (fun g hg r => by
    obtain ⟨g', -, rfl⟩ := List.mem_map.1 hg
    rfl) beta' gamma hg

end Verif
