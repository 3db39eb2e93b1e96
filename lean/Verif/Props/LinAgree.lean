import Verif.Props.LinSupport
import Verif.Props.LinSr3Stat

/-!
# C213: converged convex linear fits agree
-/

namespace Verif

variable {m n : ℕ}

theorem lasso_midpoint (A : Matrix (Fin m) (Fin n) ℝ) (b : Vec ℝ m) {lam : ℝ} {w : Vec ℝ n} (hl : lam = 0 ∨ (0 ≤ lam ∧ ∀ i, 0 ≤ w i)) (x y : Vec ℝ n) :
    lassoObjective A b lam w (fun i => (x i + y i) / 2) ≤ (lassoObjective A b lam w x + lassoObjective A b lam w y) / 2 - (∑ r, ((∑ j, A r j * x j) - ∑ j, A r j * y j) ^ 2) / 8 := by
  unfold lassoObjective
  have e1 : ∀ r, ∑ j, A r j * ((x j + y j) / 2) = ((∑ j, A r j * x j) + ∑ j, A r j * y j) / 2 := fun r => by
    rw [← Finset.sum_add_distrib, Finset.sum_div]
    exact Finset.sum_congr rfl fun j _ => by ring
  have e2 : ∑ r, ((∑ j, A r j * ((x j + y j) / 2)) - b r) ^ 2
      = (∑ r, ((∑ j, A r j * x j) - b r) ^ 2) / 2 + (∑ r, ((∑ j, A r j * y j) - b r) ^ 2) / 2 - (∑ r, ((∑ j, A r j * x j) - ∑ j, A r j * y j) ^ 2) / 4 := by
    rw [Finset.sum_div, Finset.sum_div, Finset.sum_div, ← Finset.sum_add_distrib, ← Finset.sum_sub_distrib]
    refine Finset.sum_congr rfl fun r _ => ?_
    rw [e1]
    ring
  have h3 : lam * ∑ i, w i * |(x i + y i) / 2| ≤ (lam * ∑ i, w i * |x i| + lam * ∑ i, w i * |y i|) / 2 := by
    rcases hl with rfl | ⟨h0, hw⟩
    · simp
    · have : ∑ i, w i * |(x i + y i) / 2| ≤ ((∑ i, w i * |x i|) + ∑ i, w i * |y i|) / 2 := by
        rw [← Finset.sum_add_distrib, Finset.sum_div]
        refine Finset.sum_le_sum fun i _ => ?_
        rw [abs_div, abs_two]
        have := mul_le_mul_of_nonneg_left (abs_add_le (x i) (y i)) (hw i)
        linarith
      have := mul_le_mul_of_nonneg_left this h0
      linarith
  rw [e2]
  linarith

theorem half_distance (x y : Vec ℝ n) : √(∑ j, (x j - (x j + y j) / 2) ^ 2) = √(∑ j, (x j - y j) ^ 2) / 2 := by
  have e : ∑ j, (x j - (x j + y j) / 2) ^ 2 = (∑ j, (x j - y j) ^ 2) / 2 ^ 2 := by
    rw [Finset.sum_div]
    exact Finset.sum_congr rfl fun j _ => by ring
  rw [e, Real.sqrt_div (Finset.sum_nonneg fun j _ => sq_nonneg _), Real.sqrt_sq two_pos.le]

/-- **C213**: two fits of the same problem, without penalty or with the same L1 penalty and weights, from different starts and with different solver settings, both reporting `converged = True`: the fitted values agree up to
an explicit multiple of the tolerances and the distance of the coefficients (which need not be unique). -/
theorem C213_fitted (M M' : LinModelCfg) (hs : M.sr3 = none) (hs' : M'.sr3 = none) (P : LinProblem ℝ) (hn : 0 < P.n) (x0 x0' : Option (Vec ℝ P.n)) (warm warm' : Bool)
    (w : Option (Vec ℝ P.n)) (lam : ℝ) (hreg : LassoLike (M.regularizer P.n (w.getD fun _ => 1)) lam (w.getD fun _ => 1)) (hreg' : LassoLike (M'.regularizer P.n (w.getD fun _ => 1)) lam (w.getD fun _ => 1))
    (L : ℝ) (hL : ∀ h : Vec ℝ P.n, ∑ r, (∑ j, P.a r j * h j) ^ 2 ≤ L * ∑ j, h j ^ 2) (hr : StepRule M.solver L) (hr' : StepRule M'.solver L)
    (x x' : Vec ℝ P.n) (Lf Lf' : Logger (PyVal ℝ P.n)) (h : linFit M P x0 warm w = .ok (x, Lf)) (hc : Lf.get "converged" = .ok (.atom (.bool true)))
    (h' : linFit M' P x0' warm' w = .ok (x', Lf')) (hc' : Lf'.get "converged" = .ok (.atom (.bool true))) :
    ∑ r, ((∑ j, P.a r j * x j) - ∑ j, P.a r j * x' j) ^ 2 ≤
      4 * ((M.tol ^ 2 / 2 + M.tol * (√(∑ j, (x j - x' j) ^ 2) / 2)) / stepFloor M.solver L + (M'.tol ^ 2 / 2 + M'.tol * (√(∑ j, (x j - x' j) ^ 2) / 2)) / stepFloor M'.solver L) := by
  have h1 := C102_accuracy M hs P hn x0 warm w lam hreg L hL hr x Lf h hc fun i => (x i + x' i) / 2
  have h2 := C102_accuracy M' hs' P hn x0' warm' w lam hreg' L hL hr' x' Lf' h' hc' fun i => (x i + x' i) / 2
  have h3 := lasso_midpoint P.a P.b (lam := lam) (w := w.getD fun _ => 1) (by
    rcases hreg with ⟨-, h0⟩ | ⟨-, h0, hw⟩
    · exact Or.inl h0
    · exact Or.inr ⟨h0, hw⟩) x x'
  have e2 : √(∑ j, (x' j - (x j + x' j) / 2) ^ 2) = √(∑ j, (x j - x' j) ^ 2) / 2 := by
    have := half_distance x' x
    rw [show (∑ j, (x' j - (x j + x' j) / 2) ^ 2) = ∑ j, (x' j - (x' j + x j) / 2) ^ 2 from Finset.sum_congr rfl fun j _ => by ring, this,
      show (∑ j, (x' j - x j) ^ 2) = ∑ j, (x j - x' j) ^ 2 from Finset.sum_congr rfl fun j _ => by ring]
  rw [half_distance] at h1
  rw [e2] at h2
  linarith

theorem quad_bound {mu a b d : ℝ} (hmu : 0 < mu) (ha : 0 ≤ a) (hb : 0 ≤ b) (h : mu * d ^ 2 ≤ 4 * (a + b * d)) : d ≤ 4 * b / mu + 2 * √(a / mu) := by
  by_contra hc
  have hc := not_le.1 hc
  have hs : 0 ≤ 4 * b / mu := by positivity
  have ht : 0 ≤ 2 * √(a / mu) := by positivity
  have e1 : mu * (4 * b / mu) = 4 * b := by field_simp
  have e2 : mu * (2 * √(a / mu)) ^ 2 = 4 * a := by
    rw [mul_pow, Real.sq_sqrt (by positivity)]
    field_simp
    ring
  have h1 : 2 * √(a / mu) < d - 4 * b / mu := by linarith
  have h2 : 2 * √(a / mu) ≤ d := by linarith
  have hd : 0 < d := by linarith
  have h3 : (2 * √(a / mu)) ^ 2 < d * (d - 4 * b / mu) := by
    rw [sq]
    exact (mul_le_mul_of_nonneg_right h2 ht).trans_lt (mul_lt_mul_of_pos_left h1 hd)
  have h4 := mul_lt_mul_of_pos_left h3 hmu
  have e3 : mu * (d * (d - 4 * b / mu)) = mu * d ^ 2 - mu * (4 * b / mu) * d := by ring
  rw [e2, e3, e1] at h4
  linarith

/-- **C213**: if in addition no direction of the coefficients is invisible in the data (`mu ‖h‖² ≤ ‖A h‖²`), the coefficients agree up to the tolerances. -/
theorem C213_coefficients (M M' : LinModelCfg) (hs : M.sr3 = none) (hs' : M'.sr3 = none) (P : LinProblem ℝ) (hn : 0 < P.n) (x0 x0' : Option (Vec ℝ P.n)) (warm warm' : Bool)
    (w : Option (Vec ℝ P.n)) (lam : ℝ) (hreg : LassoLike (M.regularizer P.n (w.getD fun _ => 1)) lam (w.getD fun _ => 1)) (hreg' : LassoLike (M'.regularizer P.n (w.getD fun _ => 1)) lam (w.getD fun _ => 1))
    (L : ℝ) (hL : ∀ h : Vec ℝ P.n, ∑ r, (∑ j, P.a r j * h j) ^ 2 ≤ L * ∑ j, h j ^ 2) (hr : StepRule M.solver L) (hr' : StepRule M'.solver L)
    (x x' : Vec ℝ P.n) (Lf Lf' : Logger (PyVal ℝ P.n)) (h : linFit M P x0 warm w = .ok (x, Lf)) (hc : Lf.get "converged" = .ok (.atom (.bool true)))
    (h' : linFit M' P x0' warm' w = .ok (x', Lf')) (hc' : Lf'.get "converged" = .ok (.atom (.bool true)))
    (mu : ℝ) (hmu : 0 < mu) (hmuA : ∀ h : Vec ℝ P.n, mu * ∑ j, h j ^ 2 ≤ ∑ r, (∑ j, P.a r j * h j) ^ 2) :
    √(∑ j, (x j - x' j) ^ 2) ≤ 4 * ((M.tol / stepFloor M.solver L + M'.tol / stepFloor M'.solver L) / 2) / mu
      + 2 * √((M.tol ^ 2 / stepFloor M.solver L + M'.tol ^ 2 / stepFloor M'.solver L) / 2 / mu) := by
  have hf := stepFloor_pos hr
  have hf' := stepFloor_pos hr'
  obtain ⟨htol, -⟩ := lasso_last_step M hs P hn x0 warm w lam hreg L hL hr x Lf h hc
  obtain ⟨htol', -⟩ := lasso_last_step M' hs' P hn x0' warm' w lam hreg' L hL hr' x' Lf' h' hc'
  have h1 := C213_fitted M M' hs hs' P hn x0 x0' warm warm' w lam hreg hreg' L hL hr hr' x x' Lf Lf' h hc h' hc'
  have h2 := hmuA fun j => x j - x' j
  have e : ∀ r, ∑ j, P.a r j * (x j - x' j) = (∑ j, P.a r j * x j) - ∑ j, P.a r j * x' j := fun r => by
    rw [← Finset.sum_sub_distrib]
    exact Finset.sum_congr rfl fun j _ => by ring
  simp only [e] at h2
  refine quad_bound hmu (by positivity) (by positivity) ?_
  rw [Real.sq_sqrt (Finset.sum_nonneg fun j _ => sq_nonneg _)]
  refine (h2.trans h1).trans (le_of_eq ?_)
  ring

theorem relaxed_midpoint (A : Matrix (Fin m) (Fin n) ℝ) (b : Vec ℝ m) {el lam : ℝ} {w : Vec ℝ n} (hl : lam = 0 ∨ (0 ≤ lam ∧ ∀ i, 0 ≤ w i)) (x y v v' : Vec ℝ n) :
    relaxedLassoObjective A b el lam w (fun i => (v i + v' i) / 2) (fun i => (x i + y i) / 2)
      ≤ (relaxedLassoObjective A b el lam w v x + relaxedLassoObjective A b el lam w v' y) / 2 - (∑ r, ((∑ j, A r j * v j) - ∑ j, A r j * v' j) ^ 2) / 8
        - el * (∑ j, ((v j - v' j) - (x j - y j)) ^ 2) / 8 := by
  have h1 := lasso_midpoint A b (lam := 0) (w := w) (Or.inl rfl) v v'
  have h2 := lasso_midpoint (0 : Matrix (Fin 0) (Fin n) ℝ) 0 hl x y
  unfold lassoObjective at h1 h2
  unfold relaxedLassoObjective
  have e : ∑ j, ((v j + v' j) / 2 - (x j + y j) / 2) ^ 2 = (∑ j, (v j - x j) ^ 2) / 2 + (∑ j, (v' j - y j) ^ 2) / 2 - (∑ j, ((v j - v' j) - (x j - y j)) ^ 2) / 4 := by
    rw [Finset.sum_div, Finset.sum_div, Finset.sum_div, ← Finset.sum_add_distrib, ← Finset.sum_sub_distrib]
    exact Finset.sum_congr rfl fun j _ => by ring
  rw [e]
  simp only [Finset.univ_eq_empty, Finset.sum_empty, zero_mul] at h1 h2
  nlinarith

/-- **C213**, SR3: two converged fits of the relaxed models with the same relaxation weight agree in the same way. -/
theorem C213_sr3 (M M' : LinModelCfg) (el : ℝ) (hel : 0 < el) (hs : M.sr3 = some (el, false)) (hs' : M'.sr3 = some (el, false)) (P : LinProblem ℝ) (hcm : P.c = 1) (hn : 0 < P.n)
    (x0 x0' : Option (Vec ℝ P.n)) (warm warm' : Bool) (w : Option (Vec ℝ P.n)) (lam : ℝ)
    (hreg : LassoLike (M.regularizer P.n (w.getD fun _ => 1)) lam (w.getD fun _ => 1)) (hreg' : LassoLike (M'.regularizer P.n (w.getD fun _ => 1)) lam (w.getD fun _ => 1))
    (L : ℝ) (hL0 : 0 < L) (hL : ∀ h : Vec ℝ P.n, ∑ r, (∑ j, P.a r j * h j) ^ 2 ≤ L * ∑ j, h j ^ 2) (hr : StepRule M.solver el) (hr' : StepRule M'.solver el)
    (x x' : Vec ℝ P.n) (Lf Lf' : Logger (PyVal ℝ P.n)) (h : linFit M P x0 warm w = .ok (x, Lf)) (hc : Lf.get "converged" = .ok (.atom (.bool true)))
    (h' : linFit M' P x0' warm' w = .ok (x', Lf')) (hc' : Lf'.get "converged" = .ok (.atom (.bool true))) :
    ∑ r, ((∑ j, P.a r j * x j) - ∑ j, P.a r j * x' j) ^ 2 ≤
      4 * (1 + L / el) * ((M.tol ^ 2 / 2 + M.tol * (√(∑ j, (x j - x' j) ^ 2) / 2)) / stepFloor M.solver el + (M'.tol ^ 2 / 2 + M'.tol * (√(∑ j, (x j - x' j) ^ 2) / 2)) / stepFloor M'.solver el) := by
  obtain ⟨v, h1⟩ := C102_accuracy_sr3 M el hel hs P hcm hn x0 warm w lam hreg hr x Lf h hc
  obtain ⟨v', h2⟩ := C102_accuracy_sr3 M' el hel hs' P hcm hn x0' warm' w lam hreg' hr' x' Lf' h' hc'
  replace h1 := h1 (fun i => (x i + x' i) / 2) (fun i => (v i + v' i) / 2)
  replace h2 := h2 (fun i => (x i + x' i) / 2) (fun i => (v i + v' i) / 2)
  have h3 := relaxed_midpoint P.a P.b (el := el) (lam := lam) (w := w.getD fun _ => 1) (by
    rcases hreg with ⟨-, h0⟩ | ⟨-, h0, hw⟩
    · exact Or.inl h0
    · exact Or.inr ⟨h0, hw⟩) x x' v v'
  have e2 : √(∑ j, (x' j - (x j + x' j) / 2) ^ 2) = √(∑ j, (x j - x' j) ^ 2) / 2 := by
    have := half_distance x' x
    rw [show (∑ j, (x' j - (x j + x' j) / 2) ^ 2) = ∑ j, (x' j - (x' j + x j) / 2) ^ 2 from Finset.sum_congr rfl fun j _ => by ring, this,
      show (∑ j, (x' j - x j) ^ 2) = ∑ j, (x j - x' j) ^ 2 from Finset.sum_congr rfl fun j _ => by ring]
  rw [half_distance] at h1
  rw [e2] at h2
  have hLd := hL fun j => (v j - v' j) - (x j - x' j)
  have eA : ∀ r, ∑ j, P.a r j * ((v j - v' j) - (x j - x' j)) = ((∑ j, P.a r j * v j) - ∑ j, P.a r j * v' j) - ((∑ j, P.a r j * x j) - ∑ j, P.a r j * x' j) := fun r => by
    rw [← Finset.sum_sub_distrib, ← Finset.sum_sub_distrib, ← Finset.sum_sub_distrib]
    exact Finset.sum_congr rfl fun j _ => by ring
  simp only [eA] at hLd
  have hc0 : 0 < L / el := div_pos hL0 hel
  have hrow : ∀ p s : ℝ, s ^ 2 ≤ (1 + L / el) * p ^ 2 + (1 + el / L) * (p - s) ^ 2 := fun p s => by
    have e1 : L / el * (el / L) = 1 := by field_simp
    have h0 : 0 < el / L := div_pos hel hL0
    -- the difference is a square over a positive number
    have h4 : 0 ≤ (el / L) * ((L / el) * p + (p - s)) ^ 2 := by positivity
    have h5 : (el / L) * ((L / el) * p + (p - s)) ^ 2 = (L / el * (el / L)) * (L / el) * p ^ 2 + 2 * (L / el * (el / L)) * (p * (p - s)) + (el / L) * (p - s) ^ 2 := by ring
    rw [e1] at h5
    nlinarith
  have hsum : ∑ r, ((∑ j, P.a r j * x j) - ∑ j, P.a r j * x' j) ^ 2 ≤ (1 + L / el) * (∑ r, ((∑ j, P.a r j * v j) - ∑ j, P.a r j * v' j) ^ 2)
      + (1 + el / L) * ∑ r, (((∑ j, P.a r j * v j) - ∑ j, P.a r j * v' j) - ((∑ j, P.a r j * x j) - ∑ j, P.a r j * x' j)) ^ 2 := by
    rw [Finset.mul_sum, Finset.mul_sum, ← Finset.sum_add_distrib]
    exact Finset.sum_le_sum fun r _ => hrow _ _
  have h6 : (1 + el / L) * ∑ r, (((∑ j, P.a r j * v j) - ∑ j, P.a r j * v' j) - ((∑ j, P.a r j * x j) - ∑ j, P.a r j * x' j)) ^ 2
      ≤ (1 + L / el) * (el * ∑ j, ((v j - v' j) - (x j - x' j)) ^ 2) := by
    refine (mul_le_mul_of_nonneg_left hLd (by positivity)).trans (le_of_eq ?_)
    field_simp
    ring
  have h7 := mul_le_mul_of_nonneg_left (show (∑ r, ((∑ j, P.a r j * v j) - ∑ j, P.a r j * v' j) ^ 2) + el * ∑ j, ((v j - v' j) - (x j - x' j)) ^ 2 ≤ _ from
    show _ ≤ 4 * ((M.tol ^ 2 / 2 + M.tol * (√(∑ j, (x j - x' j) ^ 2) / 2)) / stepFloor M.solver el + (M'.tol ^ 2 / 2 + M'.tol * (√(∑ j, (x j - x' j) ^ 2) / 2)) / stepFloor M'.solver el) by linarith)
    (show 0 ≤ 1 + L / el by positivity)
  calc _ ≤ _ := hsum
    _ ≤ _ := add_le_add_right h6 _
    _ = (1 + L / el) * ((∑ r, ((∑ j, P.a r j * v j) - ∑ j, P.a r j * v' j) ^ 2) + el * ∑ j, ((v j - v' j) - (x j - x' j)) ^ 2) := by ring
    _ ≤ _ := h7
    _ = _ := by ring

/-- From every start the fit of the example problem converges with a large enough budget. -/
theorem two_converges_from (e v : Vec ℝ 2) : ∃ (N : ℤ) (x : Vec ℝ 2) (Lf : Logger (PyVal ℝ 2)), linFit (lassoModel N) (twoProblem e) (some v) true none = .ok (x, Lf) ∧
    Lf.get "converged" = .ok (.atom (.bool true)) := by
  obtain ⟨N, hN⟩ := exists_nat_gt (1 + 2 * (5 / 100) * lassoObjective (twoProblem e).a (twoProblem e).b 1 (fun _ => 1) v / (1 / 10 ^ 5) ^ 2)
  refine ⟨N, C104_converges (lassoModel N) rfl rfl rfl (by simp [lassoModel]) (twoProblem e) (some v) true none 1
    (Or.inr ⟨rfl, zero_le_one, fun _ => zero_le_one⟩) 1 (fun h => ((two_design h).trans (one_mul _).symm).le) (lassoModel_rule _) ?_ ?_⟩
  · norm_num [lassoModel]
  · simp only [lassoModel, LinModelCfg.step, fitStart]
    exact hN

/-- Non-vacuity of C213: fits from the default start and from `(100, -7)`, tolerance `1e-5`. -/
example : ∃ (N N' : ℤ) (x x' : Vec ℝ 2) (Lf Lf' : Logger (PyVal ℝ 2)), linFit (lassoModel N) (twoProblem ![1 / 10, -1 / 10]) none false none = .ok (x, Lf) ∧
    linFit (lassoModel N') (twoProblem ![1 / 10, -1 / 10]) (some ![100, -7]) true none = .ok (x', Lf') ∧
    √(∑ j, (x j - x' j) ^ 2) ≤ 4 * ((1 / 10 ^ 5 / (1 / 20) + 1 / 10 ^ 5 / (1 / 20)) / 2) / 1 + 2 * √(((1 / 10 ^ 5) ^ 2 / (1 / 20) + (1 / 10 ^ 5) ^ 2 / (1 / 20)) / 2 / 1) := by
  obtain ⟨N, x, Lf, h, hc⟩ := two_converges ![1 / 10, -1 / 10]
  obtain ⟨N', x', Lf', h', hc'⟩ := two_converges_from ![1 / 10, -1 / 10] ![100, -7]
  refine ⟨N, N', x, x', Lf, Lf', h, h', ?_⟩
  have := C213_coefficients (lassoModel N) (lassoModel N') rfl rfl (twoProblem ![1 / 10, -1 / 10]) two_pos none (some ![100, -7]) false true none 1
    (Or.inr ⟨rfl, zero_le_one, fun _ => zero_le_one⟩) (Or.inr ⟨rfl, zero_le_one, fun _ => zero_le_one⟩) 1 (fun h => ((two_design h).trans (one_mul _).symm).le) (lassoModel_rule N) (lassoModel_rule N')
    x x' Lf Lf' h hc h' hc' 1 one_pos (fun h => ((one_mul _).trans (two_design h).symm).le)
  rw [lassoModel_floor, lassoModel_floor] at this
  exact this

/-- From every start the SR3 fit of the example problem converges with a large enough budget. -/
theorem two_converges_sr3 (e v : Vec ℝ 2) : ∃ (N : ℤ) (x : Vec ℝ 2) (Lf : Logger (PyVal ℝ 2)), linFit (sr3Model N) (twoProblem e) (some v) true none = .ok (x, Lf) ∧
    Lf.get "converged" = .ok (.atom (.bool true)) := by
  obtain ⟨N, hN⟩ := exists_nat_gt (1 + 2 * (1 / 10) * lassoObjective (twoProblem e).a (twoProblem e).b 1 (fun _ => 1) v / (1 / 10 ^ 5) ^ 2)
  refine ⟨N, C104_converges_sr3 (sr3Model N) 10 (by norm_num) rfl rfl rfl (by simp [sr3Model, lassoModel]) (twoProblem e) rfl (some v) true none 1
    (Or.inr ⟨rfl, zero_le_one, fun _ => zero_le_one⟩) (sr3Model_rule _) (by norm_num [sr3Model, lassoModel]) ?_⟩
  have es : (sr3Model N).step = 1 / 10 := by norm_num [sr3Model, lassoModel, LinModelCfg.step]
  rw [es]
  exact hN

/-- Non-vacuity of C213 for SR3: fits from `(0, 0)` and from `(100, -7)` with relaxation weight `10`. -/
example : ∃ (N N' : ℤ) (x x' : Vec ℝ 2) (Lf Lf' : Logger (PyVal ℝ 2)), linFit (sr3Model N) (twoProblem ![1 / 10, -1 / 10]) (some ![0, 0]) true none = .ok (x, Lf) ∧
    linFit (sr3Model N') (twoProblem ![1 / 10, -1 / 10]) (some ![100, -7]) true none = .ok (x', Lf') ∧
    ∑ r, ((∑ j, (1 : Matrix (Fin 2) (Fin 2) ℝ) r j * x j) - ∑ j, (1 : Matrix (Fin 2) (Fin 2) ℝ) r j * x' j) ^ 2
      ≤ 4 * (1 + 1 / 10) * (((1 / 10 ^ 5) ^ 2 / 2 + 1 / 10 ^ 5 * (√(∑ j, (x j - x' j) ^ 2) / 2)) / (1 / 20) + ((1 / 10 ^ 5) ^ 2 / 2 + 1 / 10 ^ 5 * (√(∑ j, (x j - x' j) ^ 2) / 2)) / (1 / 20)) := by
  obtain ⟨N, x, Lf, h, hc⟩ := two_converges_sr3 ![1 / 10, -1 / 10] ![0, 0]
  obtain ⟨N', x', Lf', h', hc'⟩ := two_converges_sr3 ![1 / 10, -1 / 10] ![100, -7]
  refine ⟨N, N', x, x', Lf, Lf', h, h', ?_⟩
  have := C213_sr3 (sr3Model N) (sr3Model N') 10 (by norm_num) rfl rfl (twoProblem ![1 / 10, -1 / 10]) rfl two_pos (some ![0, 0]) (some ![100, -7]) true true none 1
    (Or.inr ⟨rfl, zero_le_one, fun _ => zero_le_one⟩) (Or.inr ⟨rfl, zero_le_one, fun _ => zero_le_one⟩) 1 one_pos (fun h => ((two_design h).trans (one_mul _).symm).le) (sr3Model_rule N) (sr3Model_rule N')
    x x' Lf Lf' h hc h' hc'
  rw [sr3Model_floor, sr3Model_floor] at this
  exact this

end Verif
