import Verif.Props.LinConverge
import Mathlib.MeasureTheory.Integral.Bochner.Basic
import Mathlib.MeasureTheory.Function.L2Space
import Mathlib.Probability.Distributions.Gaussian.Real

/-!
# Converged convex linear fits are close to the true coefficients (C149)
-/

open MeasureTheory

namespace Verif

noncomputable section

/-- A root bound: `κ D² / 2 ≤ c D + s` bounds `D`. -/
theorem quad_root_bound {k c s D : ℝ} (hk : 0 < k) (hc : 0 ≤ c) (hs : 0 ≤ s) (h : k / 2 * D ^ 2 ≤ c * D + s) : D ≤ 2 / k * c + √(2 * s / k) := by
  by_contra hlt
  push Not at hlt
  have hr : 0 ≤ √(2 * s / k) := Real.sqrt_nonneg _
  have hr2 : √(2 * s / k) ^ 2 = 2 * s / k := Real.sq_sqrt (by positivity)
  obtain ⟨r, hr'⟩ : ∃ r, r = √(2 * s / k) := ⟨_, rfl⟩
  rw [← hr'] at hlt hr hr2
  have hs' : s = k / 2 * r ^ 2 := by rw [hr2]; field_simp
  have h1 : 2 * c + k * r < k * D := by
    have := mul_lt_mul_of_pos_left hlt hk
    have e : k * (2 / k * c + r) = 2 * c + k * r := by field_simp
    linarith
  have hD : r < D := by
    have h0 : 0 ≤ 2 / k * c := by positivity
    linarith
  nlinarith [mul_pos hk (sub_pos.2 hD), mul_nonneg hr hk.le]

variable {m n : ℕ}

/-- The basic inequality of penalised least squares. -/
theorem lasso_basic (A : Matrix (Fin m) (Fin n) ℝ) (b e : Vec ℝ m) (lam : ℝ) (w x xs : Vec ℝ n) (gap : ℝ) (hb : ∀ r, b r = (∑ j, A r j * xs j) + e r)
    (h : lassoObjective A b lam w x ≤ lassoObjective A b lam w xs + gap) :
    (∑ r, (∑ j, A r j * (x j - xs j)) ^ 2) / 2 ≤ (∑ j, (∑ r, A r j * e r) * (x j - xs j)) + lam * ∑ i, w i * (|xs i| - |x i|) + gap := by
  have e1 : ∀ r, ((∑ j, A r j * x j) - b r) ^ 2 = (∑ j, A r j * (x j - xs j)) ^ 2 - 2 * (e r * ∑ j, A r j * (x j - xs j)) + e r ^ 2 := fun r => by
    have : ∑ j, A r j * (x j - xs j) = (∑ j, A r j * x j) - ∑ j, A r j * xs j := by
      rw [← Finset.sum_sub_distrib]
      exact Finset.sum_congr rfl fun j _ => by ring
    rw [this, hb]
    ring
  have e2 : ∀ r, ((∑ j, A r j * xs j) - b r) ^ 2 = e r ^ 2 := fun r => by rw [hb]; ring
  have e3 : ∑ j, (∑ r, A r j * e r) * (x j - xs j) = ∑ r, e r * ∑ j, A r j * (x j - xs j) := by
    simp only [Finset.sum_mul, Finset.mul_sum]
    rw [Finset.sum_comm]
    exact Finset.sum_congr rfl fun r _ => Finset.sum_congr rfl fun j _ => by ring
  have e4 : lam * ∑ i, w i * (|xs i| - |x i|) = lam * (∑ i, w i * |xs i|) - lam * ∑ i, w i * |x i| := by
    rw [← mul_sub, ← Finset.sum_sub_distrib]
    congr 1
    exact Finset.sum_congr rfl fun i _ => by ring
  unfold lassoObjective at h
  simp only [e1, e2, Finset.sum_add_distrib, Finset.sum_sub_distrib, ← Finset.mul_sum] at h
  rw [e3, e4]
  linarith

/-- **C149**, prediction error: if no feature correlates with the errors by more than the strength of its penalty, a converged fit without penalty or with the L1 penalty predicts the true means with a squared
error of at most four times the penalty of the true coefficients, up to the tolerance of the solver. -/
theorem C149_prediction (M : LinModelCfg) (hs : M.sr3 = none) (P : LinProblem ℝ) (hn : 0 < P.n) (x0 : Option (Vec ℝ P.n)) (warm : Bool)
    (w : Option (Vec ℝ P.n)) (lam : ℝ) (hreg : LassoLike (M.regularizer P.n (w.getD fun _ => 1)) lam (w.getD fun _ => 1))
    (L : ℝ) (hL : ∀ h : Vec ℝ P.n, ∑ r, (∑ j, P.a r j * h j) ^ 2 ≤ L * ∑ j, h j ^ 2) (hr : StepRule M.solver L)
    (x : Vec ℝ P.n) (Lf : Logger (PyVal ℝ P.n)) (h : linFit M P x0 warm w = .ok (x, Lf)) (hc : Lf.get "converged" = .ok (.atom (.bool true)))
    (xs : Vec ℝ P.n) (e : Vec ℝ P.m) (hb : ∀ r, P.b r = (∑ j, P.a r j * xs j) + e r) (he : ∀ j, |∑ r, P.a r j * e r| ≤ lam * (w.getD fun _ => 1) j) :
    ∑ r, (∑ j, P.a r j * (x j - xs j)) ^ 2 ≤ 4 * (lam * ∑ i, (w.getD fun _ => 1) i * |xs i|)
      + (M.tol ^ 2 + 2 * M.tol * √(∑ j, (x j - xs j) ^ 2)) / stepFloor M.solver L := by
  have h1 := lasso_basic P.a P.b e lam _ x xs _ hb (C102_accuracy M hs P hn x0 warm w lam hreg L hL hr x Lf h hc xs)
  have h2 : ∑ j, (∑ r, P.a r j * e r) * (x j - xs j) + lam * ∑ i, (w.getD fun _ => 1) i * (|xs i| - |x i|) ≤ 2 * (lam * ∑ i, (w.getD fun _ => 1) i * |xs i|) := by
    simp only [Finset.mul_sum]
    rw [← Finset.sum_add_distrib]
    refine Finset.sum_le_sum fun j _ => ?_
    have h3 : (∑ r, P.a r j * e r) * (x j - xs j) ≤ lam * (w.getD fun _ => 1) j * (|x j| + |xs j|) := by
      refine (le_abs_self _).trans ?_
      rw [abs_mul]
      exact mul_le_mul (he j) (abs_sub _ _) (abs_nonneg _) ((abs_nonneg _).trans (he j))
    linarith
  have e3 : (M.tol ^ 2 + 2 * M.tol * √(∑ j, (x j - xs j) ^ 2)) / stepFloor M.solver L = 2 * ((M.tol ^ 2 / 2 + M.tol * √(∑ j, (x j - xs j) ^ 2)) / stepFloor M.solver L) := by ring
  rw [e3]
  linarith

/-- **C149**, estimation error: if the design bounds lengths below, `κ ‖h‖² ≤ ‖A h‖²`, a converged fit differs from the true coefficients by at most
`2/κ (‖Aᵀ e‖ + lam ‖w‖ + tol/t)` plus `tol/√(tκ)`, where `t` is the smallest step length the run may use. -/
theorem C149_error (M : LinModelCfg) (hs : M.sr3 = none) (P : LinProblem ℝ) (hn : 0 < P.n) (x0 : Option (Vec ℝ P.n)) (warm : Bool)
    (w : Option (Vec ℝ P.n)) (lam : ℝ) (hreg : LassoLike (M.regularizer P.n (w.getD fun _ => 1)) lam (w.getD fun _ => 1))
    (L : ℝ) (hL : ∀ h : Vec ℝ P.n, ∑ r, (∑ j, P.a r j * h j) ^ 2 ≤ L * ∑ j, h j ^ 2) (hr : StepRule M.solver L) (htol : 0 ≤ M.tol)
    (x : Vec ℝ P.n) (Lf : Logger (PyVal ℝ P.n)) (h : linFit M P x0 warm w = .ok (x, Lf)) (hc : Lf.get "converged" = .ok (.atom (.bool true)))
    (xs : Vec ℝ P.n) (e : Vec ℝ P.m) (hb : ∀ r, P.b r = (∑ j, P.a r j * xs j) + e r)
    (k : ℝ) (hk : 0 < k) (hK : ∀ h : Vec ℝ P.n, k * ∑ j, h j ^ 2 ≤ ∑ r, (∑ j, P.a r j * h j) ^ 2) :
    √(∑ j, (x j - xs j) ^ 2) ≤ 2 / k * (√(∑ j, (∑ r, P.a r j * e r) ^ 2) + lam * √(∑ j, (w.getD fun _ => 1) j ^ 2) + M.tol / stepFloor M.solver L)
      + M.tol / √(stepFloor M.solver L * k) := by
  have hfl := stepFloor_pos hr
  have hlam : 0 ≤ lam := by
    rcases hreg with ⟨-, h0⟩ | ⟨-, h0, -⟩
    · exact h0.ge
    · exact h0
  have hlw : ∀ i, 0 ≤ lam * (w.getD fun _ => 1) i := fun i => by
    rcases hreg with ⟨-, h0⟩ | ⟨-, h0, h1⟩
    · simp [h0]
    · exact mul_nonneg h0 (h1 i)
  have h1 := lasso_basic P.a P.b e lam _ x xs _ hb (C102_accuracy M hs P hn x0 warm w lam hreg L hL hr x Lf h hc xs)
  have h2 := hK fun j => x j - xs j
  obtain ⟨D, hD⟩ : ∃ D, D = √(∑ j, (x j - xs j) ^ 2) := ⟨_, rfl⟩
  have hD2 : D ^ 2 = ∑ j, (x j - xs j) ^ 2 := by rw [hD]; exact Real.sq_sqrt (Finset.sum_nonneg fun j _ => sq_nonneg _)
  have hcs : ∀ u : Vec ℝ P.n, ∑ j, u j * (x j - xs j) ≤ √(∑ j, u j ^ 2) * D := fun u => by
    rw [hD]
    exact Real.sum_mul_le_sqrt_mul_sqrt _ _ _
  have h3 : lam * ∑ i, (w.getD fun _ => 1) i * (|xs i| - |x i|) ≤ lam * √(∑ j, (w.getD fun _ => 1) j ^ 2) * D := by
    have h4 : ∑ i, lam * (w.getD fun _ => 1) i * (|xs i| - |x i|) ≤ ∑ i, lam * (w.getD fun _ => 1) i * |x i - xs i| :=
      Finset.sum_le_sum fun i _ => mul_le_mul_of_nonneg_left (by rw [abs_sub_comm]; exact abs_sub_abs_le_abs_sub _ _) (hlw i)
    have h5 : ∑ i, (w.getD fun _ => 1) i * |x i - xs i| ≤ √(∑ j, (w.getD fun _ => 1) j ^ 2) * D := by
      have h6 := Real.sum_mul_le_sqrt_mul_sqrt Finset.univ (w.getD fun _ => 1) fun i => |x i - xs i|
      simp only [sq_abs] at h6
      rw [hD]
      exact h6
    have h7 := mul_le_mul_of_nonneg_left h5 hlam
    simp only [mul_assoc, ← Finset.mul_sum] at h4
    rw [mul_assoc]
    linarith
  have h8 := hcs fun j => ∑ r, P.a r j * e r
  rw [← hD] at h1 ⊢
  obtain ⟨T, hT⟩ : ∃ T, T = stepFloor M.solver L := ⟨_, rfl⟩
  rw [← hT] at h1 hfl ⊢
  have h9 : k / 2 * D ^ 2 ≤ (√(∑ j, (∑ r, P.a r j * e r) ^ 2) + lam * √(∑ j, (w.getD fun _ => 1) j ^ 2) + M.tol / T) * D + M.tol ^ 2 / (2 * T) := by
    have e1 : (M.tol ^ 2 / 2 + M.tol * D) / T = M.tol ^ 2 / (2 * T) + M.tol / T * D := by field_simp
    rw [e1] at h1
    rw [hD2]
    linarith
  refine (quad_root_bound hk ?_ ?_ h9).trans (le_of_eq ?_)
  · have := mul_nonneg hlam (Real.sqrt_nonneg (∑ j, (w.getD fun _ => 1) j ^ 2))
    positivity
  · positivity
  · congr 1
    have e2 : 2 * (M.tol ^ 2 / (2 * T)) / k = M.tol ^ 2 / (T * k) := by field_simp
    rw [e2, Real.sqrt_div (sq_nonneg _), Real.sqrt_sq htol]

variable {Ω : Type*} [MeasurableSpace Ω] {μ : Measure Ω} [IsProbabilityMeasure μ]

/-- Chebyshev's inequality for the correlations of the features with uncorrelated errors. -/
theorem correlation_markov (A : Matrix (Fin m) (Fin n) ℝ) (e : Ω → Vec ℝ m) (he : ∀ r, MemLp (fun ω => e ω r) 2 μ) (sigma : ℝ) (hvar : ∀ r, ∫ ω, e ω r ^ 2 ∂μ ≤ sigma ^ 2)
    (hcov : ∀ r r', r ≠ r' → ∫ ω, e ω r * e ω r' ∂μ = 0) (rho : ℝ) (hrho : 0 < rho) :
    μ {ω | rho ^ 2 ≤ ∑ j, (∑ r, A r j * e ω r) ^ 2} ≤ ENNReal.ofReal (sigma ^ 2 * (∑ r, ∑ j, A r j ^ 2) / rho ^ 2) := by
  have hI : ∀ r r', Integrable (fun ω => e ω r * e ω r') μ := fun r r' => (he r).integrable_mul (he r')
  have hsq : ∀ ω, ∑ j, (∑ r, A r j * e ω r) ^ 2 = ∑ j, ∑ r, ∑ r', A r j * A r' j * (e ω r * e ω r') := fun ω => by
    refine Finset.sum_congr rfl fun j _ => ?_
    rw [pow_two, Finset.sum_mul_sum]
    exact Finset.sum_congr rfl fun r _ => Finset.sum_congr rfl fun r' _ => by ring
  have hint : Integrable (fun ω => ∑ j, (∑ r, A r j * e ω r) ^ 2) μ := by
    simp only [hsq]
    exact integrable_finsetSum _ fun j _ => integrable_finsetSum _ fun r _ => integrable_finsetSum _ fun r' _ => (hI r r').const_mul _
  have hle : ∫ ω, ∑ j, (∑ r, A r j * e ω r) ^ 2 ∂μ ≤ sigma ^ 2 * ∑ r, ∑ j, A r j ^ 2 := by
    simp only [hsq]
    rw [integral_finsetSum _ fun j _ => integrable_finsetSum _ fun r _ => integrable_finsetSum _ fun r' _ => (hI r r').const_mul _, Finset.sum_comm, Finset.mul_sum]
    refine Finset.sum_le_sum fun j _ => ?_
    rw [integral_finsetSum _ fun r _ => integrable_finsetSum _ fun r' _ => (hI r r').const_mul _, Finset.mul_sum]
    refine Finset.sum_le_sum fun r _ => ?_
    rw [integral_finsetSum _ fun r' _ => (hI r r').const_mul _, Finset.sum_eq_single r]
    · rw [integral_const_mul]
      have h1 : ∫ ω, e ω r * e ω r ∂μ = ∫ ω, e ω r ^ 2 ∂μ := by simp only [pow_two]
      rw [h1]
      nlinarith [mul_le_mul_of_nonneg_left (hvar r) (sq_nonneg (A r j))]
    · intro r' _ hne
      rw [integral_const_mul, hcov r r' hne.symm, mul_zero]
    · intro h
      exact absurd (Finset.mem_univ _) h
  have hmark := mul_meas_ge_le_integral_of_nonneg (μ := μ) (f := fun ω => ∑ j, (∑ r, A r j * e ω r) ^ 2) (Filter.Eventually.of_forall fun ω => Finset.sum_nonneg fun j _ => sq_nonneg _) hint (rho ^ 2)
  rw [← ofReal_measureReal]
  refine ENNReal.ofReal_le_ofReal ?_
  rw [le_div_iff₀ (by positivity), mul_comm]
  exact hmark.trans hle

/-- **C149**, with random errors: if the errors are uncorrelated with mean square at most `σ²`, then except with probability `σ² ‖A‖² / ρ²` every converged fit of the observed data differs from the true
coefficients by at most `2/κ (ρ + lam ‖w‖ + tol/t)` plus `tol/√(tκ)`. -/
theorem C149_probability (M : LinModelCfg) (hs : M.sr3 = none) (hn : 0 < n) (x0 : Option (Vec ℝ n)) (warm : Bool) (A : Matrix (Fin m) (Fin n) ℝ)
    (w : Option (Vec ℝ n)) (lam : ℝ) (hreg : LassoLike (M.regularizer n (w.getD fun _ => 1)) lam (w.getD fun _ => 1))
    (L : ℝ) (hL : ∀ h : Vec ℝ n, ∑ r, (∑ j, A r j * h j) ^ 2 ≤ L * ∑ j, h j ^ 2) (hr : StepRule M.solver L) (htol : 0 ≤ M.tol)
    (xs : Vec ℝ n) (e : Ω → Vec ℝ m) (he : ∀ r, MemLp (fun ω => e ω r) 2 μ) (sigma : ℝ) (hvar : ∀ r, ∫ ω, e ω r ^ 2 ∂μ ≤ sigma ^ 2)
    (hcov : ∀ r r', r ≠ r' → ∫ ω, e ω r * e ω r' ∂μ = 0) (k : ℝ) (hk : 0 < k) (hK : ∀ h : Vec ℝ n, k * ∑ j, h j ^ 2 ≤ ∑ r, (∑ j, A r j * h j) ^ 2) (rho : ℝ) (hrho : 0 < rho) :
    μ {ω | ∃ x Lf, linFit M ⟨m, n, A, fun r => (∑ j, A r j * xs j) + e ω r, 1, none, .none⟩ x0 warm w = .ok (x, Lf) ∧ Lf.get "converged" = .ok (.atom (.bool true)) ∧
      2 / k * (rho + lam * √(∑ j, (w.getD fun _ => 1) j ^ 2) + M.tol / stepFloor M.solver L) + M.tol / √(stepFloor M.solver L * k) < √(∑ j, (x j - xs j) ^ 2)}
      ≤ ENNReal.ofReal (sigma ^ 2 * (∑ r, ∑ j, A r j ^ 2) / rho ^ 2) := by
  have hsub : {ω | ∃ x Lf, linFit M ⟨m, n, A, fun r => (∑ j, A r j * xs j) + e ω r, 1, none, .none⟩ x0 warm w = .ok (x, Lf) ∧ Lf.get "converged" = .ok (.atom (.bool true)) ∧
      2 / k * (rho + lam * √(∑ j, (w.getD fun _ => 1) j ^ 2) + M.tol / stepFloor M.solver L) + M.tol / √(stepFloor M.solver L * k) < √(∑ j, (x j - xs j) ^ 2)}
      ⊆ {ω | rho ^ 2 ≤ ∑ j, (∑ r, A r j * e ω r) ^ 2} := by
    rintro ω ⟨x, Lf, h, hc, hlt⟩
    by_contra hno
    have hno' : ∑ j, (∑ r, A r j * e ω r) ^ 2 < rho ^ 2 := not_le.1 hno
    have h1 := C149_error M hs ⟨m, n, A, fun r => (∑ j, A r j * xs j) + e ω r, 1, none, .none⟩ hn x0 warm w lam hreg L hL hr htol x Lf h hc xs (e ω) (fun r => rfl) k hk hK
    have h2 : √(∑ j, (∑ r, A r j * e ω r) ^ 2) ≤ rho := Real.sqrt_le_iff.2 ⟨hrho.le, hno'.le⟩
    have h3 := mul_le_mul_of_nonneg_left (add_le_add_left (add_le_add_left h2 (lam * √(∑ j, (w.getD fun _ => 1) j ^ 2))) (M.tol / stepFloor M.solver L)) (by positivity : 0 ≤ 2 / k)
    exact absurd (hlt.trans_le h1) (not_lt.2 (add_le_add_left h3 _))
  exact (measure_mono hsub).trans (correlation_markov A e he sigma hvar hcov rho hrho)

/-- Two features observed without correlation: `b = (5, 0) + e`. -/
def twoProblem (e : Vec ℝ 2) : LinProblem ℝ := ⟨2, 2, 1, fun r => (∑ j, (1 : Matrix (Fin 2) (Fin 2) ℝ) r j * (![5, 0] : Vec ℝ 2) j) + e r, 1, none, .none⟩

theorem two_design (h : Vec ℝ 2) : ∑ r, (∑ j, (1 : Matrix (Fin 2) (Fin 2) ℝ) r j * h j) ^ 2 = ∑ j, h j ^ 2 := by
  simp [Matrix.one_apply]

theorem lassoModel_rule (N : ℤ) : StepRule (lassoModel N).solver 1 :=
  ⟨by norm_num [lassoModel, LinModelCfg.solver, LinModelCfg.step], one_pos, by norm_num [lassoModel, LinModelCfg.solver]⟩

theorem lassoModel_floor (N : ℤ) : stepFloor (lassoModel N).solver 1 = 1 / 20 := by
  norm_num [stepFloor, lassoModel, LinModelCfg.solver, LinModelCfg.step]

/-- With the default arguments and a large enough budget the fit converges. -/
theorem two_converges (e : Vec ℝ 2) : ∃ (N : ℤ) (x : Vec ℝ 2) (Lf : Logger (PyVal ℝ 2)), linFit (lassoModel N) (twoProblem e) none false none = .ok (x, Lf) ∧
    Lf.get "converged" = .ok (.atom (.bool true)) := by
  obtain ⟨N, hN⟩ := exists_nat_gt (1 + 2 * (5 / 100) * lassoObjective (twoProblem e).a (twoProblem e).b 1 (fun _ => 1) (fun _ => 1) / (1 / 10 ^ 5) ^ 2)
  refine ⟨N, C104_converges (lassoModel N) rfl rfl rfl (by simp [lassoModel]) (twoProblem e) none false none 1
    (Or.inr ⟨rfl, zero_le_one, fun _ => zero_le_one⟩) 1 (fun h => ((two_design h).trans (one_mul _).symm).le) (lassoModel_rule _) ?_ ?_⟩
  · norm_num [lassoModel]
  · simpa [lassoModel, LinModelCfg.step, fitStart] using hN

/-- Non-vacuity of C149: a converged fit of two features with errors `(1/10, -1/10)` and the default tolerance; the bounds hold with all constants evaluated. -/
example : ∃ (N : ℤ) (x : Vec ℝ 2) (Lf : Logger (PyVal ℝ 2)), linFit (lassoModel N) (twoProblem ![1 / 10, -1 / 10]) none false none = .ok (x, Lf) ∧
    Lf.get "converged" = .ok (.atom (.bool true)) ∧
    √(∑ j, (x j - (![5, 0] : Vec ℝ 2) j) ^ 2) ≤ 2 * (√(1 / 50) + √2 + 1 / 5000) + 1 / 10 ^ 5 / √(1 / 20) ∧
    ∑ r, (∑ j, (1 : Matrix (Fin 2) (Fin 2) ℝ) r j * (x j - (![5, 0] : Vec ℝ 2) j)) ^ 2 ≤ 20 + (1 / 10 ^ 10 + 2 / 10 ^ 5 * √(∑ j, (x j - (![5, 0] : Vec ℝ 2) j) ^ 2)) / (1 / 20) := by
  obtain ⟨N, x, Lf, h, hc⟩ := two_converges ![1 / 10, -1 / 10]
  have hL : ∀ h : Vec ℝ 2, ∑ r, (∑ j, (1 : Matrix (Fin 2) (Fin 2) ℝ) r j * h j) ^ 2 ≤ 1 * ∑ j, h j ^ 2 := fun h => ((two_design h).trans (one_mul _).symm).le
  refine ⟨N, x, Lf, h, hc, ?_, ?_⟩
  · have h1 := C149_error (lassoModel N) rfl (twoProblem ![1 / 10, -1 / 10]) two_pos none false none 1 (Or.inr ⟨rfl, zero_le_one, fun _ => zero_le_one⟩) 1 hL (lassoModel_rule N)
      (by norm_num [lassoModel]) x Lf h hc ![5, 0] ![1 / 10, -1 / 10] (fun r => rfl) 1 one_pos fun h => ((two_design h).trans (one_mul _).symm).ge
    rw [lassoModel_floor] at h1
    have e1 : ∑ j : Fin 2, (∑ r : Fin 2, (1 : Matrix (Fin 2) (Fin 2) ℝ) r j * (![1 / 10, -1 / 10] : Vec ℝ 2) r) ^ 2 = 1 / 50 := by
      simp [Matrix.one_apply, Fin.sum_univ_two]; norm_num
    have e2 : ∑ j : Fin 2, ((none : Option (Vec ℝ 2)).getD fun _ => 1) j ^ 2 = 2 := by simp
    refine h1.trans (le_of_eq ?_)
    show 2 / 1 * (√(∑ j : Fin 2, (∑ r : Fin 2, (1 : Matrix (Fin 2) (Fin 2) ℝ) r j * (![1 / 10, -1 / 10] : Vec ℝ 2) r) ^ 2) + 1 * √(∑ j : Fin 2, ((none : Option (Vec ℝ 2)).getD fun _ => 1) j ^ 2) +
      1 / 10 ^ 5 / (1 / 20)) + 1 / 10 ^ 5 / √(1 / 20 * 1) = _
    rw [e1, e2]
    norm_num
  · have h1 := C149_prediction (lassoModel N) rfl (twoProblem ![1 / 10, -1 / 10]) two_pos none false none 1 (Or.inr ⟨rfl, zero_le_one, fun _ => zero_le_one⟩) 1 hL (lassoModel_rule N)
      x Lf h hc ![5, 0] ![1 / 10, -1 / 10] (fun r => rfl) (fun j => by
        show |∑ r : Fin 2, (1 : Matrix (Fin 2) (Fin 2) ℝ) r j * (![1 / 10, -1 / 10] : Vec ℝ 2) r| ≤ 1 * 1
        have hj : j = (0 : Fin 2) ∨ j = (1 : Fin 2) := by revert j; show ∀ j : Fin 2, j = 0 ∨ j = 1; decide
        rcases hj with rfl | rfl <;> simp [Matrix.one_apply, Fin.sum_univ_two] <;> norm_num [abs_le])
    rw [lassoModel_floor] at h1
    refine h1.trans (le_of_eq ?_)
    show 4 * (1 * ∑ i : Fin 2, 1 * |(![5, 0] : Vec ℝ 2) i|) + ((1 / 10 ^ 5) ^ 2 + 2 * (1 / 10 ^ 5) * √(∑ j, (x j - (![5, 0] : Vec ℝ 2) j) ^ 2)) / (1 / 20) = _
    rw [Fin.sum_univ_two]
    norm_num

/-- Independent normal errors are uncorrelated. -/
theorem gaussian_errors (v : NNReal) : (∀ r : Fin m, MemLp (fun ω : Fin m → ℝ => ω r) 2 (Measure.pi fun _ => ProbabilityTheory.gaussianReal 0 v)) ∧
    (∀ r : Fin m, ∫ ω : Fin m → ℝ, ω r ^ 2 ∂(Measure.pi fun _ => ProbabilityTheory.gaussianReal 0 v) = v) ∧
    ∀ r r' : Fin m, r ≠ r' → ∫ ω : Fin m → ℝ, ω r * ω r' ∂(Measure.pi fun _ => ProbabilityTheory.gaussianReal 0 v) = 0 := by
  obtain ⟨μ, hμ⟩ : ∃ μ : Measure (Fin m → ℝ), μ = Measure.pi fun _ => ProbabilityTheory.gaussianReal 0 v := ⟨_, rfl⟩
  have hp : IsProbabilityMeasure μ := by rw [hμ]; infer_instance
  have hev : ∀ k, MeasurePreserving (fun ω : Fin m → ℝ => ω k) μ (ProbabilityTheory.gaussianReal 0 v) := fun k => by
    rw [hμ]
    exact measurePreserving_eval (fun _ => ProbabilityTheory.gaussianReal 0 v) k
  have hmean : ∀ k, ∫ ω, ω k ∂μ = 0 := fun k => by
    have h2 := integral_map (μ := μ) (hev k).measurable.aemeasurable (f := fun x : ℝ => x) (by fun_prop)
    rw [(hev k).map_eq, ProbabilityTheory.integral_id_gaussianReal] at h2
    exact h2.symm
  rw [← hμ]
  refine ⟨fun r => (ProbabilityTheory.memLp_id_gaussianReal 2).comp_measurePreserving (hev r), fun r => ?_, fun r r' hne => ?_⟩
  · have h2 := integral_map (μ := μ) (hev r).measurable.aemeasurable (f := fun x : ℝ => x ^ 2) (by fun_prop)
    rw [← h2, (hev r).map_eq]
    have h3 : ProbabilityTheory.variance id (ProbabilityTheory.gaussianReal 0 v) = v := ProbabilityTheory.variance_fun_id_gaussianReal (μ := 0) (v := v)
    rw [ProbabilityTheory.variance_eq_sub (ProbabilityTheory.memLp_id_gaussianReal 2)] at h3
    simpa using h3
  · have h1 : ProbabilityTheory.iIndepFun (fun k (ω : Fin m → ℝ) => ω k) μ := by
      rw [hμ]
      exact ProbabilityTheory.iIndepFun_pi (X := fun _ x => x) fun _ => measurable_id.aemeasurable
    have h2 := (h1.indepFun hne).integral_fun_mul_eq_mul_integral (hev r).measurable.aestronglyMeasurable (hev r').measurable.aestronglyMeasurable
    rw [h2, hmean, zero_mul]

/-- Non-vacuity of C149 with random errors: independent normal errors of variance `1/1000`; a converged fit misses the truth by more than `4.5` with probability at most `0.2`. -/
example (N : ℤ) : (Measure.pi fun _ => ProbabilityTheory.gaussianReal 0 (1 / 1000)) {e : Fin 2 → ℝ | ∃ x Lf, linFit (lassoModel N) (twoProblem e) none false none = .ok (x, Lf) ∧
    Lf.get "converged" = .ok (.atom (.bool true)) ∧ 2 / 1 * (1 / 10 + 1 * √2 + 1 / 10 ^ 5 / (1 / 20)) + 1 / 10 ^ 5 / √(1 / 20 * 1) < √(∑ j, (x j - (![5, 0] : Vec ℝ 2) j) ^ 2)} ≤ ENNReal.ofReal (2 / 10) := by
  obtain ⟨h1, h2, h3⟩ := gaussian_errors (m := 2) (1 / 1000)
  have h := C149_probability (μ := Measure.pi fun _ : Fin 2 => ProbabilityTheory.gaussianReal 0 (1 / 1000)) (lassoModel N) rfl two_pos none false (1 : Matrix (Fin 2) (Fin 2) ℝ) none 1
    (Or.inr ⟨rfl, zero_le_one, fun _ => zero_le_one⟩) 1 (fun h => ((two_design h).trans (one_mul _).symm).le) (lassoModel_rule N) (by norm_num [lassoModel]) ![5, 0] (fun e => e) h1 (√(1 / 1000))
    (fun r => by rw [h2, Real.sq_sqrt (by norm_num)]; norm_num) h3 1 one_pos (fun h => ((two_design h).trans (one_mul _).symm).ge) (1 / 10) (by norm_num)
  rw [lassoModel_floor] at h
  have e2 : ∑ j : Fin 2, ((none : Option (Vec ℝ 2)).getD fun _ => 1) j ^ 2 = 2 := by simp
  rw [e2] at h
  refine h.trans (ENNReal.ofReal_le_ofReal (le_of_eq ?_))
  rw [Real.sq_sqrt (by norm_num)]
  simp [Matrix.one_apply, Fin.sum_univ_two]
  norm_num

end

end Verif
