import Verif.Props.LmeFitTotal
import Verif.Props.LmeConvex

/-!
# The EM initializer: property C113
-/

namespace Verif

open Matrix

variable {p q : ℕ}

theorem lmeInitialize_em {D : List (LmeGroup p q)} {ob : Vec ℝ q → Vec ℝ p → Except PyErr (Vec ℝ p)} {beta b : Vec ℝ p}
    {gamma g : Vec ℝ q} (h : lmeInitialize (some "EM") D ob beta gamma = .ok (b, g)) :
    ob gamma beta = .ok b ∧ ∃ us, lmeRandomEffects D b gamma = .ok us ∧ g = fun j => (us.map fun u => u j ^ 2).sum / (D.length : ℝ) := by
  unfold lmeInitialize at h
  rw [if_pos rfl] at h
  obtain ⟨b', h1, h⟩ := ebind_ok.1 h
  obtain ⟨us, h2, h⟩ := ebind_ok.1 h
  cases h
  exact ⟨h1, us, h2, rfl⟩

/-- The variances of the EM start. -/
theorem em_gamma {D : List (LmeGroup p q)} (hD : PosVar D) {b : Vec ℝ p} {gamma : Vec ℝ q} (hm : MaskExact gamma)
    {us : List (Vec ℝ q)} (hus : lmeRandomEffects D b gamma = .ok us) (j : Fin q) :
    (us.map fun u => u j ^ 2).sum = (D.map fun G =>
      (gamma j * (G.zᵀ *ᵥ ((G.z * diagonal gamma * G.zᵀ + diagonal G.l)⁻¹ *ᵥ residual G b)) j) ^ 2).sum := by
  obtain ⟨us', hus', hF⟩ := C59_random_effects D hD b gamma hm
  rw [hus'] at hus
  cases hus
  clear hus' hD
  induction hF with
  | nil => rfl
  | cons h _ ih =>
    rw [List.map_cons, List.map_cons, List.sum_cons, List.sum_cons, ih, h.1, Matrix.mulVec_diagonal]

/-- The part of **C113** that holds, for plain models: the fixed effects of the EM start are the only minimiser of the
likelihood part of the loss at the given variances, the new variances are the mean squares over the groups of the
predictions of the random effects at those fixed effects, so they are nonnegative, and effects without variance stay
without. Missing: that the loss at the new variances is not larger, see `C113_em_start_violated`. -/
theorem C113_em_start_partial (D : List (LmeGroup p q)) (hD : PosVar D) (beta : Vec ℝ p) (gamma : Vec ℝ q) (hm : MaskExact gamma)
    (b : Vec ℝ p) (g : Vec ℝ q) (h : lmeInitialize (some "EM") D (fun g _ => lmeOptimalBeta D g) beta gamma = .ok (b, g)) :
    (∀ b', b' ≠ b → ∃ v v', lmeLoss D .nonInformative b gamma = .ok v ∧ lmeLoss D .nonInformative b' gamma = .ok v' ∧ v < v') ∧
      (∀ j, g j = (D.map fun G =>
        (gamma j * (G.zᵀ *ᵥ ((G.z * diagonal gamma * G.zᵀ + diagonal G.l)⁻¹ *ᵥ residual G b)) j) ^ 2).sum / D.length) ∧
      (∀ j, 0 ≤ g j) ∧ ∀ j, gamma j = 0 → g j = 0 := by
  obtain ⟨h1, us, h2, rfl⟩ := lmeInitialize_em h
  refine ⟨(C58_optimal_beta_partial D gamma (inDomain_of_nonneg hD hm.nonneg)).1 b h1, fun j => ?_, fun j => ?_, fun j hj => ?_⟩
  · simp only [em_gamma hD hm h2 j]
  · refine div_nonneg (List.sum_nonneg fun v hv => ?_) (Nat.cast_nonneg _)
    obtain ⟨u, -, rfl⟩ := List.mem_map.1 hv
    exact sq_nonneg _
  · simp only [em_gamma hD hm h2 j, hj, zero_mul]
    simp

/-- The part of **C113** that holds, for SR3 models: the start always exists, its fixed effects are the only minimiser of the
relaxed loss at the given variances and the given (relaxed) fixed effects, and its variances are as for plain models. -/
theorem C113_em_start_sr3_partial (D : List (LmeGroup p q)) (hD : PosVar D) (S : Sr3Params) (hS : 0 < S.lb) (beta : Vec ℝ p)
    (gamma : Vec ℝ q) (hm : MaskExact gamma) :
    ∃ b g, lmeInitialize (some "EM") D (fun g b => lmeSr3OptimalBeta D S g b) beta gamma = .ok (b, g) ∧
      (∀ (tgamma : Vec ℝ q) (b' : Vec ℝ p), b' ≠ b → ∃ v v', lmeSr3Loss D .nonInformative S b gamma beta tgamma = .ok v ∧
        lmeSr3Loss D .nonInformative S b' gamma beta tgamma = .ok v' ∧ v < v') ∧
      (∀ j, g j = (D.map fun G =>
        (gamma j * (G.zᵀ *ᵥ ((G.z * diagonal gamma * G.zᵀ + diagonal G.l)⁻¹ *ᵥ residual G b)) j) ^ 2).sum / D.length) ∧
      (∀ j, 0 ≤ g j) ∧ ∀ j, gamma j = 0 → g j = 0 := by
  have hd := inDomain_of_nonneg hD hm.nonneg
  obtain ⟨b, hb, -⟩ := (C58_optimal_beta_partial D gamma hd).2 S beta gamma hS
  obtain ⟨us, hus⟩ := lmeRandomEffects_total hD b hm.nonneg
  refine ⟨b, fun j => (us.map fun u => u j ^ 2).sum / D.length, ?_, fun tgamma b' hne => ?_, fun j => ?_, fun j => ?_, fun j hj => ?_⟩
  · unfold lmeInitialize
    rw [if_pos rfl]
    exact ebind_ok.2 ⟨b, hb, ebind_ok.2 ⟨us, hus, rfl⟩⟩
  · obtain ⟨b2, hb2, h⟩ := (C58_optimal_beta_partial D gamma hd).2 S beta tgamma hS
    rw [hb] at hb2
    cases hb2
    exact h b' hne
  · simp only [em_gamma hD hm hus j]
  · refine div_nonneg (List.sum_nonneg fun v hv => ?_) (Nat.cast_nonneg _)
    obtain ⟨u, -, rfl⟩ := List.mem_map.1 hv
    exact sq_nonneg _
  · simp only [em_gamma hD hm hus j, hj, zero_mul]
    simp

/-- The part of **C113** that holds, for whole fits: the solver of a plain model with `initializer="EM"` that returns does what the model without an initializer does from
the optimal fixed effects and the mean squares. -/
theorem C113_fit_start_partial (M : LmeModelCfg) (hM : M.sr3 = none) (hi : M.initializer = some "EM") (D : List (LmeGroup p q)) (hD : PosVar D) (Pr : LmeInstPrior ℝ p q)
    (R : Regularizer ℝ (p + q)) (beta : Vec ℝ p) (gamma : Vec ℝ q) (hm : MaskExact gamma) (r : Vec ℝ (p + q) × Logger (PyVal ℝ (p + q)))
    (hr : lmeOptimize M D Pr R beta gamma = .ok r) :
    ∃ b g, lmeOptimize { M with initializer := none } D Pr R b g = .ok r ∧
      (∀ b', b' ≠ b → ∃ v v', lmeLoss D .nonInformative b gamma = .ok v ∧ lmeLoss D .nonInformative b' gamma = .ok v' ∧ v < v') ∧
      (∀ j, g j = (D.map fun G =>
        (gamma j * (G.zᵀ *ᵥ ((G.z * diagonal gamma * G.zᵀ + diagonal G.l)⁻¹ *ᵥ residual G b)) j) ^ 2).sum / D.length) := by
  obtain ⟨sr3, _, _, _, _, initializer, _, _, _, _, _⟩ := M
  simp only at hM hi
  subst hM
  subst hi
  unfold lmeOptimize at hr
  simp only at hr
  obtain ⟨⟨b, g⟩, h1, h2⟩ := ebind_ok.1 hr
  obtain ⟨e1, e2, -, -⟩ := C113_em_start_partial D hD beta gamma hm b g h1
  refine ⟨b, g, ?_, e1, e2⟩
  unfold lmeOptimize
  simp only
  exact ebind_ok.2 ⟨(b, g), by unfold lmeInitialize; rw [if_neg (by simp)], h2⟩

/-- The part of **C113** that holds, for whole fits of SR3 models: with `initializer="EM"` the model does, result and exceptions, what it does without an initializer from the
fixed effects optimal for the relaxed loss and the mean squares. -/
theorem C113_fit_start_sr3_partial (M : LmeModelCfg) (s : LmeSr3Cfg) (hM : M.sr3 = some s) (hell : 0 < s.ell) (hi : M.initializer = some "EM") (D : List (LmeGroup p q))
    (hD : PosVar D) (Pr : LmeInstPrior ℝ p q) (R : Regularizer ℝ (p + q)) (beta : Vec ℝ p) (gamma : Vec ℝ q) (hm : MaskExact gamma) :
    ∃ b g, lmeOptimize M D Pr R beta gamma = lmeOptimize { M with initializer := none } D Pr R b g ∧
      (∀ (tgamma : Vec ℝ q) (b' : Vec ℝ p), b' ≠ b → ∃ v v', lmeSr3Loss D .nonInformative ⟨s.ell, s.ell⟩ b gamma beta tgamma = .ok v ∧
        lmeSr3Loss D .nonInformative ⟨s.ell, s.ell⟩ b' gamma beta tgamma = .ok v' ∧ v < v') ∧
      (∀ j, g j = (D.map fun G =>
        (gamma j * (G.zᵀ *ᵥ ((G.z * diagonal gamma * G.zᵀ + diagonal G.l)⁻¹ *ᵥ residual G b)) j) ^ 2).sum / D.length) := by
  obtain ⟨sr3, _, _, _, _, initializer, _, _, _, _, _⟩ := M
  simp only at hM hi
  subst hM
  subst hi
  obtain ⟨b, g, h1, e1, e2, -, -⟩ := C113_em_start_sr3_partial D hD ⟨s.ell, s.ell⟩ hell beta gamma hm
  refine ⟨b, g, ?_, e1, e2⟩
  have h0 : lmeInitialize none D (fun g b => lmeSr3OptimalBeta D ⟨s.ell, s.ell⟩ g b) b g = .ok (b, g) := by
    unfold lmeInitialize
    rw [if_neg (by simp)]
  unfold lmeOptimize
  simp only [h0, h1]
  rfl

/-- The EM start of one observation `y` with unit noise and one random effect. -/
theorem obsGroup_em (y : ℝ) {t : ℝ} (ht : 1e-10 < t) :
    lmeInitialize (some "EM") [obsGroup y] (fun g _ => lmeOptimalBeta [obsGroup y] g) ![] ![t] = .ok (![], ![(t * y / (t + 1)) ^ 2]) := by
  have h0 : 0 < t := lt_trans (by norm_num) ht
  have hm : MaskExact (![t] : Vec ℝ 1) := by
    intro j
    fin_cases j
    exact .inr ht
  have hD := obsGroup_posVar y
  have hb : lmeOptimalBeta [obsGroup y] ![t] = .ok (![] : Vec ℝ 0) := by
    unfold lmeOptimalBeta
    refine ebind_ok.2 ⟨_, lmeKernelTail_ok.2 ⟨inDomain_of_nonneg hD hm.nonneg, rfl⟩, npSolve_ok.2 ⟨?_, ?_⟩⟩
    · rw [Matrix.det_isEmpty]
      exact isUnit_one
    · exact Subsingleton.elim _ _
  obtain ⟨us, hus⟩ := lmeRandomEffects_total hD (![] : Vec ℝ 0) hm.nonneg
  unfold lmeInitialize
  rw [if_pos rfl]
  refine ebind_ok.2 ⟨_, hb, ebind_ok.2 ⟨us, hus, ?_⟩⟩
  refine congrArg Except.ok (Prod.ext rfl ?_)
  funext j
  fin_cases j
  change (us.map fun u => u 0 ^ 2).sum / ([obsGroup y].length : ℝ) = (t * y / (t + 1)) ^ 2
  rw [em_gamma hD hm hus 0]
  simp only [List.map_cons, List.map_nil, List.sum_cons, List.sum_nil, add_zero, List.length_cons, List.length_nil]
  have hc := obsGroup_cov y t
  unfold margCov at hc
  rw [obsGroup_residual, hc]
  have key : ((![t] : Vec ℝ 1) 0 * ((Matrix.of fun _ _ => 1 : Matrix (Fin 1) (Fin 1) ℝ)ᵀ *ᵥ
      ((diagonal fun _ => t + 1 : Matrix (Fin 1) (Fin 1) ℝ)⁻¹ *ᵥ fun _ => y)) 0) ^ 2 / ((0 + 1 : ℕ) : ℝ) = (t * y / (t + 1)) ^ 2 := by
    rw [obsGroup_inv h0.le]
    simp [Matrix.mulVec_diagonal, Matrix.mulVec, dotProduct]
    ring
  exact key

/-- **C113** is violated: the predictions are shrunk towards zero and the code leaves out their conditional variances, so
the EM start can have a larger loss than the start it replaces: for one observation `7/4` with unit noise and one random effect
and the default start (variance one). -/
theorem C113_em_start_violated : ∃ b g v v',
    lmeInitialize (some "EM") [obsGroup (7 / 4)] (fun g _ => lmeOptimalBeta [obsGroup (7 / 4)] g) ![] ![1] = .ok (b, g) ∧
      lmeLoss [obsGroup (7 / 4)] .nonInformative ![] ![1] = .ok v ∧ lmeLoss [obsGroup (7 / 4)] .nonInformative b g = .ok v' ∧ v < v' := by
  have hl : ∀ t : ℝ, 0 ≤ t → lmeLoss [obsGroup (7 / 4)] .nonInformative ![] ![t] = .ok ((7 / 4) ^ 2 / (2 * (t + 1)) + 1 / 2 * Real.log (t + 1)) := by
    intro t ht
    refine lmeLoss_ok.2 ⟨inDomain_of_nonneg (obsGroup_posVar _) (by intro j; fin_cases j; exact ht), ?_⟩
    rw [obsGroup_nll _ ht]
    change _ = _ + (0 : ℝ)
    rw [add_zero]
  refine ⟨_, _, _, _, obsGroup_em (7 / 4) (t := 1) (by norm_num), hl 1 zero_le_one, hl _ (sq_nonneg _), ?_⟩
  have h1 : Real.log (128 / 113) ≤ 128 / 113 - 1 := Real.log_le_sub_one_of_pos (by norm_num)
  have h2 : Real.log (128 / 113) = Real.log 2 - Real.log (113 / 64) := by
    rw [← Real.log_div (by norm_num) (by norm_num)]
    norm_num
  norm_num at h1 h2 ⊢
  linarith

/-- Non-vacuity of C113: the start of one observation. -/
example (y : ℝ) : PosVar [obsGroup y] ∧ MaskExact (![1] : Vec ℝ 1) ∧
    lmeInitialize (some "EM") [obsGroup y] (fun g _ => lmeOptimalBeta [obsGroup y] g) ![] ![1] = .ok (![], ![(1 * y / (1 + 1)) ^ 2]) :=
  ⟨obsGroup_posVar y, fun j => by fin_cases j; exact .inr (by norm_num), obsGroup_em y (by norm_num)⟩

end Verif
