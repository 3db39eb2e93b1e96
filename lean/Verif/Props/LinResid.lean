import Verif.Props.LinSupport
import Verif.Props.LinAgree

/-!
# C216: residuals of converged linear fits

Consequences of the optimality conditions (C150) users rely on when they read residuals: an unpenalised feature is
nearly uncorrelated with the residuals, with an unpenalised intercept they nearly sum to zero, and the inner product
of the fitted values and the residuals is nearly the penalty.
-/

namespace Verif

/-- **C216**, free features: a feature whose weight or whose strength is zero is uncorrelated with the residuals up to the tolerance of the fit. -/
theorem C216_free (M : LinModelCfg) (hs : M.sr3 = none) (P : LinProblem ℝ) (hn : 0 < P.n) (x0 : Option (Vec ℝ P.n)) (warm : Bool) (w : Option (Vec ℝ P.n))
    (lam : ℝ) (hreg : LassoLike (M.regularizer P.n (w.getD fun _ => 1)) lam (w.getD fun _ => 1))
    (L : ℝ) (hL : ∀ h : Vec ℝ P.n, ∑ r, (∑ j, P.a r j * h j) ^ 2 ≤ L * ∑ j, h j ^ 2) (hr : StepRule M.solver L)
    (x : Vec ℝ P.n) (Lf : Logger (PyVal ℝ P.n)) (h : linFit M P x0 warm w = .ok (x, Lf)) (hc : Lf.get "converged" = .ok (.atom (.bool true)))
    (j : Fin P.n) (hj : lam * (w.getD fun _ => 1) j = 0) :
    |∑ r, P.a r j * (P.b r - ∑ i, P.a r i * x i)| ≤ M.tol * (1 / stepFloor M.solver L + L) := by
  obtain ⟨z, -, -, -, hz⟩ := C150_stationary M hs P hn x0 warm w lam hreg L hL hr x Lf h hc j
  rwa [hj, zero_mul, sub_zero] at hz

/-- **C216**, intercept: with an unpenalised column of ones the residuals sum to zero up to the tolerance of the fit. -/
theorem C216_intercept (M : LinModelCfg) (hs : M.sr3 = none) (P : LinProblem ℝ) (hn : 0 < P.n) (x0 : Option (Vec ℝ P.n)) (warm : Bool) (w : Option (Vec ℝ P.n))
    (lam : ℝ) (hreg : LassoLike (M.regularizer P.n (w.getD fun _ => 1)) lam (w.getD fun _ => 1))
    (L : ℝ) (hL : ∀ h : Vec ℝ P.n, ∑ r, (∑ j, P.a r j * h j) ^ 2 ≤ L * ∑ j, h j ^ 2) (hr : StepRule M.solver L)
    (x : Vec ℝ P.n) (Lf : Logger (PyVal ℝ P.n)) (h : linFit M P x0 warm w = .ok (x, Lf)) (hc : Lf.get "converged" = .ok (.atom (.bool true)))
    (j : Fin P.n) (hj : lam * (w.getD fun _ => 1) j = 0) (hone : ∀ r, P.a r j = 1) :
    |(∑ r, P.b r) - ∑ r, ∑ i, P.a r i * x i| ≤ M.tol * (1 / stepFloor M.solver L + L) := by
  have h1 := C216_free M hs P hn x0 warm w lam hreg L hL hr x Lf h hc j hj
  simp only [hone, one_mul] at h1
  rwa [← Finset.sum_sub_distrib]

/-- **C216**, penalty: the inner product of the fitted values and the residuals is the penalty of the coefficients, up to the tolerance of the fit times the sum of their absolute values. -/
theorem C216_penalty (M : LinModelCfg) (hs : M.sr3 = none) (P : LinProblem ℝ) (hn : 0 < P.n) (x0 : Option (Vec ℝ P.n)) (warm : Bool) (w : Option (Vec ℝ P.n))
    (lam : ℝ) (hreg : LassoLike (M.regularizer P.n (w.getD fun _ => 1)) lam (w.getD fun _ => 1))
    (L : ℝ) (hL : ∀ h : Vec ℝ P.n, ∑ r, (∑ j, P.a r j * h j) ^ 2 ≤ L * ∑ j, h j ^ 2) (hr : StepRule M.solver L)
    (x : Vec ℝ P.n) (Lf : Logger (PyVal ℝ P.n)) (h : linFit M P x0 warm w = .ok (x, Lf)) (hc : Lf.get "converged" = .ok (.atom (.bool true))) :
    |(∑ r, (∑ i, P.a r i * x i) * (P.b r - ∑ i, P.a r i * x i)) - lam * (∑ j, (w.getD fun _ => 1) j * |x j|)| ≤ M.tol * (1 / stepFloor M.solver L + L) * ∑ j, |x j| := by
  have hk := C150_stationary M hs P hn x0 warm w lam hreg L hL hr x Lf h hc
  choose z hz hp hm hb using hk
  have hzx : ∀ j, z j * x j = |x j| := fun j => by
    rcases lt_trichotomy (x j) 0 with h0 | h0 | h0
    · rw [hm j h0, abs_of_neg h0]; ring
    · rw [h0]; simp
    · rw [hp j h0, abs_of_pos h0]; ring
  have e : (∑ r, (∑ i, P.a r i * x i) * (P.b r - ∑ i, P.a r i * x i)) - lam * ∑ j, (w.getD fun _ => 1) j * |x j|
      = ∑ j, ((∑ r, P.a r j * (P.b r - ∑ i, P.a r i * x i)) - lam * (w.getD fun _ => 1) j * z j) * x j := by
    have e1 : ∑ r, (∑ i, P.a r i * x i) * (P.b r - ∑ i, P.a r i * x i) = ∑ j, (∑ r, P.a r j * (P.b r - ∑ i, P.a r i * x i)) * x j := by
      simp only [Finset.sum_mul]
      rw [Finset.sum_comm]
      exact Finset.sum_congr rfl fun j _ => Finset.sum_congr rfl fun r _ => by ring
    rw [e1, Finset.mul_sum, ← Finset.sum_sub_distrib]
    refine Finset.sum_congr rfl fun j _ => ?_
    rw [← hzx j]
    ring
  rw [e, Finset.mul_sum]
  refine (Finset.abs_sum_le_sum_abs _ _).trans (Finset.sum_le_sum fun j _ => ?_)
  rw [abs_mul]
  exact mul_le_mul_of_nonneg_right (hb j) (abs_nonneg _)

/-- Two observations of an intercept and one feature. -/
def interProblem : LinProblem ℝ := ⟨2, 2, !![1, 1; 1, -1], ![4, 2], 1, none, .none⟩

theorem inter_design (h : Vec ℝ 2) : ∑ r, (∑ j, (!![1, 1; 1, -1] : Matrix (Fin 2) (Fin 2) ℝ) r j * h j) ^ 2 ≤ 2 * ∑ j, h j ^ 2 := by
  simp [Fin.sum_univ_two]
  nlinarith

/-- Non-vacuity: an L1 fit with a free intercept converges; its residuals sum to zero up to `22e-5`, and the penalty identity holds. -/
example : ∃ (N : ℤ) (x : Vec ℝ 2) (Lf : Logger (PyVal ℝ 2)), linFit (lassoModel N) interProblem none false (some ![0, 1]) = .ok (x, Lf) ∧
    |(∑ r, (![4, 2] : Vec ℝ 2) r) - ∑ r, ∑ i, (!![1, 1; 1, -1] : Matrix (Fin 2) (Fin 2) ℝ) r i * x i| ≤ 1 / 10 ^ 5 * (1 / (1 / 20) + 2) ∧
    |(∑ r, (∑ i, (!![1, 1; 1, -1] : Matrix (Fin 2) (Fin 2) ℝ) r i * x i) * ((![4, 2] : Vec ℝ 2) r - ∑ i, (!![1, 1; 1, -1] : Matrix (Fin 2) (Fin 2) ℝ) r i * x i))
      - 1 * (∑ j, (![0, 1] : Vec ℝ 2) j * |x j|)| ≤ 1 / 10 ^ 5 * (1 / (1 / 20) + 2) * ∑ j, |x j| := by
  have hr : ∀ N, StepRule (lassoModel N).solver 2 := fun N =>
    ⟨by norm_num [lassoModel, LinModelCfg.solver, LinModelCfg.step], two_pos, by norm_num [lassoModel, LinModelCfg.solver]⟩
  have hf : ∀ N, stepFloor (lassoModel N).solver 2 = 1 / 20 := fun N => by
    norm_num [stepFloor, lassoModel, LinModelCfg.solver, LinModelCfg.step]
  have hw : ∀ i, 0 ≤ (![0, 1] : Vec ℝ 2) i := fun i => by fin_cases i <;> simp
  obtain ⟨N, hN⟩ := exists_nat_gt (1 + 2 * (5 / 100) * lassoObjective interProblem.a interProblem.b 1 (![0, 1] : Vec ℝ 2) (fun _ => 1) / (1 / 10 ^ 5) ^ 2)
  obtain ⟨x, Lf, h, hc⟩ := C104_converges (lassoModel N) rfl rfl rfl (by simp [lassoModel]) interProblem none false (some ![0, 1]) 1
    (Or.inr ⟨rfl, zero_le_one, hw⟩) 2 inter_design (hr _) (by norm_num [lassoModel]) (by
      simp only [lassoModel, LinModelCfg.step, fitStart]
      exact hN)
  refine ⟨N, x, Lf, h, ?_⟩
  have := C216_intercept (lassoModel N) rfl interProblem two_pos none false (some ![0, 1]) 1 (Or.inr ⟨rfl, zero_le_one, hw⟩) 2 inter_design (hr _) x Lf h hc
    (0 : Fin 2) (mul_zero (1 : ℝ)) (fun r => by
      change (!![1, 1; 1, -1] : Matrix (Fin 2) (Fin 2) ℝ) (r : Fin 2) 0 = 1
      revert r
      exact Fin.forall_fin_two.2 ⟨rfl, rfl⟩)
  have h2 := C216_penalty (lassoModel N) rfl interProblem two_pos none false (some ![0, 1]) 1 (Or.inr ⟨rfl, zero_le_one, hw⟩) 2 inter_design (hr _) x Lf h hc
  rw [hf] at this h2
  exact ⟨this, h2⟩

end Verif
