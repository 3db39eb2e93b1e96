import Verif.Props.LinRate
import Mathlib.Topology.Algebra.Order.Field
import Mathlib.Order.Filter.AtTopBot.Field

/-!
# C159: how far relaxed linear fits are from the fits without relaxation
-/

namespace Verif

open Matrix Filter Topology

variable {m n : ℕ}

/-- Moving from `v` to `x` multiplies the residual sum of squares plus the relaxation term at most by `1 + L / el`. -/
theorem residual_relaxed (A : Matrix (Fin m) (Fin n) ℝ) (b : Vec ℝ m) (el : ℝ) (hel : 0 < el) (L : ℝ) (hL0 : 0 ≤ L)
    (hL : ∀ h : Vec ℝ n, ∑ r, (∑ j, A r j * h j) ^ 2 ≤ L * ∑ j, h j ^ 2) (v x : Vec ℝ n) :
    ∑ r, ((∑ j, A r j * x j) - b r) ^ 2 ≤ (1 + L / el) * (∑ r, ((∑ j, A r j * v j) - b r) ^ 2 + el * ∑ j, (v j - x j) ^ 2) := by
  have h1 := hL fun j => x j - v j
  have h2 : ∑ j, (x j - v j) ^ 2 = ∑ j, (v j - x j) ^ 2 := Finset.sum_congr rfl fun j _ => by ring
  rw [h2] at h1
  obtain ⟨D, hD⟩ : ∃ D, D = ∑ j, (v j - x j) ^ 2 := ⟨_, rfl⟩
  rw [← hD] at h1 ⊢
  have h3 : ∀ r, (∑ j, A r j * x j) - b r = ((∑ j, A r j * v j) - b r) + ∑ j, A r j * (x j - v j) := fun r => by
    simp only [mul_sub, Finset.sum_sub_distrib]
    ring
  rcases hL0.eq_or_lt with h0 | hpos
  · have h4 : ∀ r, ∑ j, A r j * (x j - v j) = 0 := by
      rw [← h0, zero_mul] at h1
      have h5 := (Finset.sum_eq_zero_iff_of_nonneg fun r _ => sq_nonneg (∑ j, A r j * (x j - v j))).1 (le_antisymm h1 (Finset.sum_nonneg fun r _ => sq_nonneg _))
      exact fun r => pow_eq_zero_iff (two_ne_zero) |>.1 (h5 r (Finset.mem_univ r))
    have hD0 : 0 ≤ D := hD ▸ Finset.sum_nonneg fun j _ => sq_nonneg _
    simp only [h3, h4, ← h0, add_zero, zero_div, one_mul]
    nlinarith
  · have h4 : ∀ r, ((∑ j, A r j * x j) - b r) ^ 2 ≤ (1 + L / el) * ((∑ j, A r j * v j) - b r) ^ 2 + (1 + el / L) * (∑ j, A r j * (x j - v j)) ^ 2 := fun r => by
      rw [h3 r]
      generalize (∑ j, A r j * v j) - b r = p
      generalize ∑ j, A r j * (x j - v j) = q
      have h5 : 0 ≤ (L * p - el * q) ^ 2 / (L * el) := div_nonneg (sq_nonneg _) (mul_pos hpos hel).le
      have h6 : (L * p - el * q) ^ 2 / (L * el) = L / el * p ^ 2 - 2 * (p * q) + el / L * q ^ 2 := by
        field_simp
        ring
      nlinarith
    have h5 := Finset.sum_le_sum fun r (_ : r ∈ Finset.univ) => h4 r
    rw [Finset.sum_add_distrib, ← Finset.mul_sum, ← Finset.mul_sum] at h5
    have h6 : (1 + el / L) * ∑ r, (∑ j, A r j * (x j - v j)) ^ 2 ≤ (1 + L / el) * (el * D) := by
      have h7 : (1 + L / el) * (el * D) = (1 + el / L) * (L * D) := by
        field_simp
        ring
      rw [h7]
      exact mul_le_mul_of_nonneg_left h1 (by positivity)
    linarith [mul_add (1 + L / el) (∑ r, ((∑ j, A r j * v j) - b r) ^ 2) (el * D)]

/-- **C159**, any penalty: let `g ≥ 0` be any penalty on any set `D` of admissible coefficients (a sparsity budget, for instance), and let `x`, with its auxiliary vector `v`, come within
`eps` of the minimum of the relaxed objective. Then the objective without relaxation at `x` is at most `1 + L / el` times its minimum plus `eps`; `L` bounds the quadratic form of `AᵀA`. -/
theorem C159_any_penalty (A : Matrix (Fin m) (Fin n) ℝ) (b : Vec ℝ m) (el : ℝ) (hel : 0 < el) (L : ℝ) (hL0 : 0 ≤ L)
    (hL : ∀ h : Vec ℝ n, ∑ r, (∑ j, A r j * h j) ^ 2 ≤ L * ∑ j, h j ^ 2) (D : Set (Vec ℝ n)) (g : Vec ℝ n → ℝ) (hg : ∀ x ∈ D, 0 ≤ g x) (eps : ℝ)
    (v x : Vec ℝ n) (hx : x ∈ D)
    (hmin : ∀ v' : Vec ℝ n, ∀ u ∈ D, (∑ r, ((∑ j, A r j * v j) - b r) ^ 2) / 2 + el * (∑ j, (v j - x j) ^ 2) / 2 + g x ≤
      (∑ r, ((∑ j, A r j * v' j) - b r) ^ 2) / 2 + el * (∑ j, (v' j - u j) ^ 2) / 2 + g u + eps) (u : Vec ℝ n) (hu : u ∈ D) :
    (∑ r, ((∑ j, A r j * x j) - b r) ^ 2) / 2 + g x ≤ (1 + L / el) * ((∑ r, ((∑ j, A r j * u j) - b r) ^ 2) / 2 + g u + eps) := by
  have h1 := hmin u u hu
  have h2 : ∑ j, (u j - u j) ^ 2 = 0 := by simp
  rw [h2, mul_zero, zero_div, add_zero] at h1
  have h3 := residual_relaxed A b el hel L hL0 hL v x
  have h4 := hg x hx
  have h5 : 0 ≤ L / el := by positivity
  have h6 := mul_le_mul_of_nonneg_left h1 (by linarith : 0 ≤ 1 + L / el)
  nlinarith [mul_nonneg h5 h4]

/-- **C159**, converged SR3 fits without penalty or with L1: the objective without relaxation is within the factor `1 + L / el` of its minimum, up to the tolerance. -/
theorem C159_converged (M : LinModelCfg) (el : ℝ) (hel : 0 < el) (hs : M.sr3 = some (el, false)) (P : LinProblem ℝ) (hcm : P.c = 1) (hn : 0 < P.n)
    (x0 : Option (Vec ℝ P.n)) (warm : Bool) (w : Option (Vec ℝ P.n))
    (lam : ℝ) (hreg : LassoLike (M.regularizer P.n (w.getD fun _ => 1)) lam (w.getD fun _ => 1)) (hr : StepRule M.solver el)
    (L : ℝ) (hL0 : 0 ≤ L) (hL : ∀ h : Vec ℝ P.n, ∑ r, (∑ j, P.a r j * h j) ^ 2 ≤ L * ∑ j, h j ^ 2)
    (x : Vec ℝ P.n) (Lf : Logger (PyVal ℝ P.n)) (h : linFit M P x0 warm w = .ok (x, Lf)) (hc : Lf.get "converged" = .ok (.atom (.bool true))) (u : Vec ℝ P.n) :
    lassoObjective P.a P.b lam (w.getD fun _ => 1) x ≤ (1 + L / el) * (lassoObjective P.a P.b lam (w.getD fun _ => 1) u +
      (M.tol ^ 2 / 2 + M.tol * √(∑ j, (x j - u j) ^ 2)) / stepFloor M.solver el) := by
  obtain ⟨-, -, -, -, -, hpen⟩ := hreg.exact
  obtain ⟨v, hv⟩ := C102_accuracy_sr3 M el hel hs P hcm hn x0 warm w lam hreg hr x Lf h hc
  have h1 := hv u u
  have h2 : ∑ j, (u j - u j) ^ 2 = 0 := by simp
  unfold relaxedLassoObjective at h1
  rw [h2, mul_zero, zero_div, add_zero] at h1
  have h3 := residual_relaxed P.a P.b el hel L hL0 hL v x
  have h4 := hpen x
  have h5 : 0 ≤ L / el := by positivity
  have h6 := mul_le_mul_of_nonneg_left h1 (by linarith : 0 ≤ 1 + L / el)
  unfold lassoObjective
  nlinarith [mul_nonneg h5 h4]

/-- **C159**, after `k` iterations. -/
theorem C159_rate (M : LinModelCfg) (el : ℝ) (hel : 0 < el) (hs : M.sr3 = some (el, false)) (P : LinProblem ℝ) (hcm : P.c = 1)
    (x0 : Option (Vec ℝ P.n)) (warm : Bool) (w : Option (Vec ℝ P.n))
    (lam : ℝ) (hreg : LassoLike (M.regularizer P.n (w.getD fun _ => 1)) lam (w.getD fun _ => 1)) (hr : StepRule M.solver el)
    (L : ℝ) (hL0 : 0 ≤ L) (hL : ∀ h : Vec ℝ P.n, ∑ r, (∑ j, P.a r j * h j) ^ 2 ≤ L * ∑ j, h j ^ 2)
    (x : Vec ℝ P.n) (Lf : Logger (PyVal ℝ P.n)) (h : linFit M P x0 warm w = .ok (x, Lf)) :
    ∃ k : ℕ, Lf.get "iteration" = .ok (.atom (.int k)) ∧ ∀ u, 0 < k →
      lassoObjective P.a P.b lam (w.getD fun _ => 1) x ≤ (1 + L / el) * (lassoObjective P.a P.b lam (w.getD fun _ => 1) u +
        (∑ j, (fitStart x0 warm j - u j) ^ 2) / (2 * stepFloor M.solver el * k)) := by
  obtain ⟨-, -, -, -, -, hpen⟩ := hreg.exact
  obtain ⟨k, hk, v, hv⟩ := C103_rate_sr3 M el hel hs P hcm x0 warm w lam hreg hr x Lf h
  refine ⟨k, hk, fun u hk0 => ?_⟩
  have h1 := hv u u hk0
  have h2 : ∑ j, (u j - u j) ^ 2 = 0 := by simp
  unfold relaxedLassoObjective at h1
  rw [h2, mul_zero, zero_div, add_zero] at h1
  have h3 := residual_relaxed P.a P.b el hel L hL0 hL v x
  have h4 := hpen x
  have h5 : 0 ≤ L / el := by positivity
  have h6 := mul_le_mul_of_nonneg_left h1 (by linarith : 0 ≤ 1 + L / el)
  unfold lassoObjective
  nlinarith [mul_nonneg h5 h4]

/-- **C159**, the minimisers: with independent features the minimiser `x` of the relaxed L1 objective is within `√(2 L F(xs) / (el mu))` of the minimiser `xs` without relaxation. -/
theorem C159_distance (A : Matrix (Fin m) (Fin n) ℝ) (b : Vec ℝ m) (el : ℝ) (hel : 0 < el) (L : ℝ) (hL0 : 0 ≤ L)
    (hL : ∀ h : Vec ℝ n, ∑ r, (∑ j, A r j * h j) ^ 2 ≤ L * ∑ j, h j ^ 2) (lam : ℝ) (hlam : 0 ≤ lam) (w : Vec ℝ n) (hw : ∀ i, 0 ≤ w i)
    (mu : ℝ) (hA : ∀ h : Vec ℝ n, mu * ∑ j, h j ^ 2 ≤ ∑ r, (∑ j, A r j * h j) ^ 2)
    (xs : Vec ℝ n) (hxs : ∀ u, lassoObjective A b lam w xs ≤ lassoObjective A b lam w u)
    (v x : Vec ℝ n) (hx : ∀ v' u, relaxedLassoObjective A b el lam w v x ≤ relaxedLassoObjective A b el lam w v' u) :
    mu * ∑ j, (x j - xs j) ^ 2 ≤ 2 * L * lassoObjective A b lam w xs / el := by
  have hreg : LassoLike (l1Regularizer lam (some w)) lam w := .inr ⟨rfl, hlam, hw⟩
  obtain ⟨-, -, -, hconvex, -, hpen⟩ := hreg.exact
  obtain ⟨hb, -⟩ := linLoss_belowParabola A b L hL
  have ha := linLoss_aboveParabola A b mu hA
  have hobj : ∀ u, linValueFunction A b .nonInformative u + lam * ∑ i, w i * |u i| = lassoObjective A b lam w u := by
    intro u
    have := (C31_linear_oracle A b (.nonInformative : InstPrior ℝ n) trivial).2.2.1 u
    change linLoss A b _ u + _ = _
    rw [this]
    unfold lassoObjective leastSquares
    simp [InstPrior.loss]
  have h1 := quadratic_growth _ _ L mu hb ha _ hconvex xs _ rfl (fun v gv hgv => by
    rw [← WithTop.coe_inj.1 hgv, hobj, hobj]
    exact hxs v) x _ rfl
  rw [hobj, hobj] at h1
  have h2 := C159_any_penalty A b el hel L hL0 hL Set.univ (fun u => lam * ∑ i, w i * |u i|) (fun u _ => hpen u) 0 v x trivial
    (fun v' u _ => by rw [add_zero]; exact hx v' u) xs trivial
  have h3 : lassoObjective A b lam w x ≤ (1 + L / el) * (lassoObjective A b lam w xs + 0) := h2
  have h4 : 2 * L * lassoObjective A b lam w xs / el = 2 * (L / el * lassoObjective A b lam w xs) := by ring
  rw [h4]
  linarith

/-- **C159**, the limit: as `el` grows, minimisers of the relaxed objective tend to the minimiser without relaxation. -/
theorem C159_limit (A : Matrix (Fin m) (Fin n) ℝ) (b : Vec ℝ m) (lam : ℝ) (hlam : 0 ≤ lam) (w : Vec ℝ n) (hw : ∀ i, 0 ≤ w i)
    (mu : ℝ) (hmu : 0 < mu) (hA : ∀ h : Vec ℝ n, mu * ∑ j, h j ^ 2 ≤ ∑ r, (∑ j, A r j * h j) ^ 2)
    (xs : Vec ℝ n) (hxs : ∀ u, lassoObjective A b lam w xs ≤ lassoObjective A b lam w u)
    (v x : ℝ → Vec ℝ n) (hx : ∀ el, 0 < el → ∀ v' u, relaxedLassoObjective A b el lam w (v el) (x el) ≤ relaxedLassoObjective A b el lam w v' u) :
    Tendsto x atTop (𝓝 xs) := by
  obtain ⟨L, hL⟩ : ∃ L, L = ∑ r, ∑ j, A r j ^ 2 := ⟨_, rfl⟩
  have hL0 : 0 ≤ L := hL ▸ Finset.sum_nonneg fun r _ => Finset.sum_nonneg fun j _ => sq_nonneg _
  have hLb : ∀ h : Vec ℝ n, ∑ r, (∑ j, A r j * h j) ^ 2 ≤ L * ∑ j, h j ^ 2 := fun h => by
    rw [hL, Finset.sum_mul]
    exact Finset.sum_le_sum fun r _ => Finset.sum_mul_sq_le_sq_mul_sq _ _ _
  rw [tendsto_pi_nhds]
  intro i
  rw [tendsto_iff_dist_tendsto_zero]
  have h1 : Tendsto (fun el : ℝ => √(2 * L * lassoObjective A b lam w xs / mu / el)) atTop (𝓝 0) := by
    rw [← Real.sqrt_zero]
    exact (Real.continuous_sqrt.tendsto 0).comp (tendsto_const_nhds.div_atTop tendsto_id)
  refine squeeze_zero' (Eventually.of_forall fun _ => dist_nonneg) ?_ h1
  filter_upwards [eventually_gt_atTop 0] with el hel
  have h2 := C159_distance A b el hel L hL0 hLb lam hlam w hw mu hA xs hxs (v el) (x el) (hx el hel)
  rw [Real.dist_eq]
  refine Real.le_sqrt_of_sq_le ?_
  rw [sq_abs]
  have h3 : (x el i - xs i) ^ 2 ≤ ∑ j, (x el j - xs j) ^ 2 := Finset.single_le_sum (f := fun j => (x el j - xs j) ^ 2) (fun j _ => sq_nonneg _) (Finset.mem_univ i)
  have h4 : 2 * L * lassoObjective A b lam w xs / mu / el = 2 * L * lassoObjective A b lam w xs / el / mu := by ring
  rw [h4, le_div_iff₀ hmu]
  nlinarith

/-- Non-vacuity: one feature, one answer `5`, `lam = 1`, `el = 1`. The relaxed objective is minimised by `x = 3` (with `v = 4`), where the objective without relaxation is `5`; its minimum,
at `4`, is `9/2`. -/
example : (∀ v' u : Vec ℝ 1, relaxedLassoObjective (1 : Matrix (Fin 1) (Fin 1) ℝ) (fun _ => 5) 1 1 (fun _ => 1) (fun _ => 4) (fun _ => 3) ≤
      relaxedLassoObjective (1 : Matrix (Fin 1) (Fin 1) ℝ) (fun _ => 5) 1 1 (fun _ => 1) v' u) ∧
    (∀ u : Vec ℝ 1, lassoObjective (1 : Matrix (Fin 1) (Fin 1) ℝ) (fun _ => 5) 1 (fun _ => 1) (fun _ => 4) ≤ lassoObjective (1 : Matrix (Fin 1) (Fin 1) ℝ) (fun _ => 5) 1 (fun _ => 1) u) ∧
    lassoObjective (1 : Matrix (Fin 1) (Fin 1) ℝ) (fun _ => 5) 1 (fun _ => 1) (fun _ => 3) = 5 ∧
    lassoObjective (1 : Matrix (Fin 1) (Fin 1) ℝ) (fun _ => 5) 1 (fun _ => 1) (fun _ => 4) = 9 / 2 := by
  have e3 : |(3 : ℝ)| = 3 := abs_of_pos (by norm_num)
  have e4 : |(4 : ℝ)| = 4 := abs_of_pos (by norm_num)
  refine ⟨fun v' u => ?_, fun u => ?_, ?_, ?_⟩
  · simp only [relaxedLassoObjective, Finset.univ_unique, Fin.default_eq_zero, Finset.sum_singleton, Matrix.one_apply_eq, e3]
    nlinarith [le_abs_self (u 0), sq_nonneg (v' 0 - 4), sq_nonneg (v' 0 - 4 - (u 0 - 3))]
  · simp only [lassoObjective, Finset.univ_unique, Fin.default_eq_zero, Finset.sum_singleton, Matrix.one_apply_eq, e4]
    nlinarith [le_abs_self (u 0), sq_nonneg (u 0 - 4)]
  · simp only [lassoObjective, Finset.univ_unique, Fin.default_eq_zero, Finset.sum_singleton, Matrix.one_apply_eq, e3]
    norm_num
  · simp only [lassoObjective, Finset.univ_unique, Fin.default_eq_zero, Finset.sum_singleton, Matrix.one_apply_eq, e4]
    norm_num

/-- Non-vacuity of the statements on fits: `LinearL1ModelSR3(lam=1)` meets `StepRule` for its default step (C157 has the same example for `idProblem`), and `L = 1` bounds the quadratic
form of `idProblem`. -/
example : StepRule ({ lassoModel 1000 with sr3 := some (1, false) } : LinModelCfg).solver 1 ∧
    ∀ h : Vec ℝ idProblem.n, ∑ r, (∑ j, idProblem.a r j * h j) ^ 2 ≤ 1 * ∑ j, h j ^ 2 := by
  refine ⟨⟨?_, one_pos, ?_⟩, fun h => ?_⟩
  · simp [LinModelCfg.solver, LinModelCfg.step, lassoModel]
  · simp only [LinModelCfg.solver, lassoModel, if_true]
    norm_num
  · rw [one_mul]
    refine (Finset.sum_congr rfl fun r _ => ?_).le
    change (∑ j, (1 : Matrix (Fin 2) (Fin 2) ℝ) r j * (h : Vec ℝ 2) j) ^ 2 = _
    congr 1
    exact congrFun (Matrix.one_mulVec (h : Vec ℝ 2)) r

end Verif
