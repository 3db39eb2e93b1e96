import Verif.Props.LinSr3Stat

/-!
# The strength of the L1 penalty in linear models: monotone paths (C201) and the strength at which everything is dropped (C202)
-/

open Matrix

namespace Verif

noncomputable section

/-- Two strengths of the same penalty, each minimised up to an error. -/
theorem path_gap {f1 f2 h1 h2 lam1 lam2 e1 e2 : ℝ} (hl0 : 0 ≤ lam1) (hl : lam1 < lam2) (H1 : f1 + lam1 * h1 ≤ f2 + lam1 * h2 + e1) (H2 : f2 + lam2 * h2 ≤ f1 + lam2 * h1 + e2) :
    h2 ≤ h1 + (e1 + e2) / (lam2 - lam1) ∧ f1 ≤ f2 + e1 + lam1 * ((e1 + e2) / (lam2 - lam1)) := by
  have hd : 0 < lam2 - lam1 := sub_pos.2 hl
  have h3 : h2 - h1 ≤ (e1 + e2) / (lam2 - lam1) := by
    rw [le_div_iff₀ hd]
    nlinarith
  have h4 := mul_le_mul_of_nonneg_left h3 hl0
  constructor
  · linarith
  · nlinarith

theorem lassoLike_nonneg {n : ℕ} {R : Regularizer ℝ n} {lam : ℝ} {w : Vec ℝ n} (h : LassoLike R lam w) : 0 ≤ lam := by
  rcases h with ⟨-, h⟩ | ⟨-, h, -⟩
  · exact h.ge
  · exact h

/-- **C201**, plain models: of two converged fits of the same problem with the same weights the one with the stronger penalty has the smaller weighted sum of absolute coefficients, and the one with
the weaker penalty the smaller sum of squared residuals, up to the stopping errors. The two fits may use different tolerances, step rules, budgets and starts. -/
theorem C201_plain (P : LinProblem ℝ) (hn : 0 < P.n) (w : Option (Vec ℝ P.n)) (L : ℝ) (hL : ∀ h : Vec ℝ P.n, ∑ r, (∑ j, P.a r j * h j) ^ 2 ≤ L * ∑ j, h j ^ 2)
    (M1 M2 : LinModelCfg) (hs1 : M1.sr3 = none) (hs2 : M2.sr3 = none) (lam1 lam2 : ℝ) (hl : lam1 < lam2)
    (hreg1 : LassoLike (M1.regularizer P.n (w.getD fun _ => 1)) lam1 (w.getD fun _ => 1)) (hreg2 : LassoLike (M2.regularizer P.n (w.getD fun _ => 1)) lam2 (w.getD fun _ => 1))
    (hr1 : StepRule M1.solver L) (hr2 : StepRule M2.solver L) (s1 s2 : Option (Vec ℝ P.n)) (warm1 warm2 : Bool)
    (x1 x2 : Vec ℝ P.n) (L1 L2 : Logger (PyVal ℝ P.n)) (h1 : linFit M1 P s1 warm1 w = .ok (x1, L1)) (h2 : linFit M2 P s2 warm2 w = .ok (x2, L2))
    (hc1 : L1.get "converged" = .ok (.atom (.bool true))) (hc2 : L2.get "converged" = .ok (.atom (.bool true)))
    (e1 e2 : ℝ) (he1 : (M1.tol ^ 2 / 2 + M1.tol * √(∑ j, (x1 j - x2 j) ^ 2)) / stepFloor M1.solver L ≤ e1)
    (he2 : (M2.tol ^ 2 / 2 + M2.tol * √(∑ j, (x1 j - x2 j) ^ 2)) / stepFloor M2.solver L ≤ e2) :
    ∑ j, (w.getD fun _ => 1) j * |x2 j| ≤ ∑ j, (w.getD fun _ => 1) j * |x1 j| + (e1 + e2) / (lam2 - lam1) ∧
    (∑ r, ((∑ j, P.a r j * x1 j) - P.b r) ^ 2) / 2 ≤ (∑ r, ((∑ j, P.a r j * x2 j) - P.b r) ^ 2) / 2 + e1 + lam1 * ((e1 + e2) / (lam2 - lam1)) := by
  have H1 := C102_accuracy M1 hs1 P hn s1 warm1 w lam1 hreg1 L hL hr1 x1 L1 h1 hc1 x2
  have H2 := C102_accuracy M2 hs2 P hn s2 warm2 w lam2 hreg2 L hL hr2 x2 L2 h2 hc2 x1
  have hsym : ∑ j, (x2 j - x1 j) ^ 2 = ∑ j, (x1 j - x2 j) ^ 2 := Finset.sum_congr rfl fun j _ => by ring
  rw [hsym] at H2
  unfold lassoObjective at H1 H2
  exact path_gap (lassoLike_nonneg hreg1) hl (by linarith) (by linarith)

/-- **C201**, models with relaxation (not practical): the same, with the residual of the best relaxed coefficients in place of the residual. -/
theorem C201_sr3 (P : LinProblem ℝ) (hcm : P.c = 1) (hn : 0 < P.n) (w : Option (Vec ℝ P.n)) (el : ℝ) (hel : 0 < el)
    (M1 M2 : LinModelCfg) (hs1 : M1.sr3 = some (el, false)) (hs2 : M2.sr3 = some (el, false)) (lam1 lam2 : ℝ) (hl : lam1 < lam2)
    (hreg1 : LassoLike (M1.regularizer P.n (w.getD fun _ => 1)) lam1 (w.getD fun _ => 1)) (hreg2 : LassoLike (M2.regularizer P.n (w.getD fun _ => 1)) lam2 (w.getD fun _ => 1))
    (hr1 : StepRule M1.solver el) (hr2 : StepRule M2.solver el) (s1 s2 : Option (Vec ℝ P.n)) (warm1 warm2 : Bool)
    (x1 x2 : Vec ℝ P.n) (L1 L2 : Logger (PyVal ℝ P.n)) (h1 : linFit M1 P s1 warm1 w = .ok (x1, L1)) (h2 : linFit M2 P s2 warm2 w = .ok (x2, L2))
    (hc1 : L1.get "converged" = .ok (.atom (.bool true))) (hc2 : L2.get "converged" = .ok (.atom (.bool true)))
    (e1 e2 : ℝ) (he1 : (M1.tol ^ 2 / 2 + M1.tol * √(∑ j, (x1 j - x2 j) ^ 2)) / stepFloor M1.solver el ≤ e1)
    (he2 : (M2.tol ^ 2 / 2 + M2.tol * √(∑ j, (x1 j - x2 j) ^ 2)) / stepFloor M2.solver el ≤ e2) :
    ∑ j, (w.getD fun _ => 1) j * |x2 j| ≤ ∑ j, (w.getD fun _ => 1) j * |x1 j| + (e1 + e2) / (lam2 - lam1) ∧
    ∃ v1 : Vec ℝ P.n, ∀ v2 : Vec ℝ P.n, (∑ r, ((∑ j, P.a r j * v1 j) - P.b r) ^ 2) / 2 + el * (∑ j, (v1 j - x1 j) ^ 2) / 2 ≤
      (∑ r, ((∑ j, P.a r j * v2 j) - P.b r) ^ 2) / 2 + el * (∑ j, (v2 j - x2 j) ^ 2) / 2 + e1 + lam1 * ((e1 + e2) / (lam2 - lam1)) := by
  obtain ⟨v1, H1⟩ := C102_accuracy_sr3 M1 el hel hs1 P hcm hn s1 warm1 w lam1 hreg1 hr1 x1 L1 h1 hc1
  obtain ⟨v2, H2⟩ := C102_accuracy_sr3 M2 el hel hs2 P hcm hn s2 warm2 w lam2 hreg2 hr2 x2 L2 h2 hc2
  have hsym : ∑ j, (x2 j - x1 j) ^ 2 = ∑ j, (x1 j - x2 j) ^ 2 := Finset.sum_congr rfl fun j _ => by ring
  have A1 := H1 x2 v2
  have A2 := H2 x1 v1
  rw [hsym] at A2
  unfold relaxedLassoObjective at A1 A2
  have A := path_gap (lassoLike_nonneg hreg1) hl (f1 := (∑ r, ((∑ j, P.a r j * v1 j) - P.b r) ^ 2) / 2 + el * (∑ j, (v1 j - x1 j) ^ 2) / 2)
    (f2 := (∑ r, ((∑ j, P.a r j * v2 j) - P.b r) ^ 2) / 2 + el * (∑ j, (v2 j - x2 j) ^ 2) / 2) (h1 := ∑ j, (w.getD fun _ => 1) j * |x1 j|) (h2 := ∑ j, (w.getD fun _ => 1) j * |x2 j|) (e1 := e1) (e2 := e2) (by linarith) (by linarith)
  refine ⟨A.1, v1, fun v2' => ?_⟩
  have A3 := H2 x2 v2'
  have B1 := H1 x2 v2'
  unfold relaxedLassoObjective at A3 B1
  have A4 := mul_le_mul_of_nonneg_left A.1 (lassoLike_nonneg hreg1)
  nlinarith

/-! ## C202 -/

/-- If the correlations with a monotone residual balance the penalty and the penalty exceeds the correlations at zero, all coefficients are zero. -/
theorem all_dropped {n : ℕ} (x g c p z : Vec ℝ n) (dl : ℝ) (hmono : ∑ j, x j * g j ≤ ∑ j, x j * c j) (hz : ∀ j, (0 < x j → z j = 1) ∧ (x j < 0 → z j = -1)) (hk : ∀ j, |g j - p j * z j| ≤ dl)
    (hp : ∀ j, |c j| + dl < p j) : x = 0 := by
  have h1 : ∀ j, (p j - dl) * |x j| ≤ x j * g j := fun j => by
    have h2 := abs_le.1 (hk j)
    rcases lt_trichotomy (x j) 0 with h | h | h
    · rw [abs_of_neg h]
      rw [(hz j).2 h] at h2
      nlinarith
    · simp [h]
    · rw [abs_of_pos h]
      rw [(hz j).1 h] at h2
      nlinarith
  have h3 : ∀ j, x j * c j ≤ |c j| * |x j| := fun j => by
    rw [mul_comm, ← abs_mul]
    exact le_abs_self _
  have h4 : ∑ j, (p j - dl - |c j|) * |x j| ≤ 0 := by
    have h5 := (Finset.sum_le_sum fun j (_ : j ∈ Finset.univ) => h1 j).trans (hmono.trans (Finset.sum_le_sum fun j _ => h3 j))
    have h6 : ∑ j, (p j - dl - |c j|) * |x j| = ∑ j, (p j - dl) * |x j| - ∑ j, |c j| * |x j| := by
      rw [← Finset.sum_sub_distrib]
      exact Finset.sum_congr rfl fun j _ => by ring
    rw [h6]
    linarith
  have h7 := (Finset.sum_eq_zero_iff_of_nonneg fun j _ => mul_nonneg (by linarith [hp j] : 0 ≤ p j - dl - |c j|) (abs_nonneg (x j))).1
    (le_antisymm h4 (Finset.sum_nonneg fun j _ => mul_nonneg (by linarith [hp j] : 0 ≤ p j - dl - |c j|) (abs_nonneg (x j))))
  funext j
  rcases mul_eq_zero.1 (h7 j (Finset.mem_univ _)) with h | h
  · linarith [hp j]
  · exact abs_eq_zero.1 h

/-- Exchanging the sums of a bilinear form. -/
theorem sum_exchange {m n : ℕ} (A : Matrix (Fin m) (Fin n) ℝ) (x : Vec ℝ n) (s : Vec ℝ m) : ∑ j, x j * ∑ r, A r j * s r = ∑ r, (∑ j, A r j * x j) * s r := by
  simp only [Finset.mul_sum, Finset.sum_mul]
  rw [Finset.sum_comm]
  exact Finset.sum_congr rfl fun r _ => Finset.sum_congr rfl fun j _ => by ring

/-- **C202**, plain models: a converged fit drops all features if the penalty of each exceeds its correlation with the observations by more than the stopping error `tol (1/t + L)`, and it keeps at
least one feature if the correlation of one of them exceeds its penalty by more than this error. -/
theorem C202_plain (M : LinModelCfg) (hs : M.sr3 = none) (P : LinProblem ℝ) (hn : 0 < P.n) (x0 : Option (Vec ℝ P.n)) (warm : Bool) (w : Option (Vec ℝ P.n))
    (lam : ℝ) (hreg : LassoLike (M.regularizer P.n (w.getD fun _ => 1)) lam (w.getD fun _ => 1))
    (L : ℝ) (hL : ∀ h : Vec ℝ P.n, ∑ r, (∑ j, P.a r j * h j) ^ 2 ≤ L * ∑ j, h j ^ 2) (hr : StepRule M.solver L)
    (x : Vec ℝ P.n) (Lf : Logger (PyVal ℝ P.n)) (h : linFit M P x0 warm w = .ok (x, Lf)) (hc : Lf.get "converged" = .ok (.atom (.bool true))) :
    ((∀ j, |∑ r, P.a r j * P.b r| + M.tol * (1 / stepFloor M.solver L + L) < lam * (w.getD fun _ => 1) j) → x = 0) ∧
    ((∃ j, lam * (w.getD fun _ => 1) j + M.tol * (1 / stepFloor M.solver L + L) < |∑ r, P.a r j * P.b r|) → x ≠ 0) := by
  choose z hz1 hzp hzm hk using fun j => C150_stationary M hs P hn x0 warm w lam hreg L hL hr x Lf h hc j
  constructor
  · intro hp
    refine all_dropped x (fun j => ∑ r, P.a r j * (P.b r - ∑ i, P.a r i * x i)) (fun j => ∑ r, P.a r j * P.b r) (fun j => lam * (w.getD fun _ => 1) j) z _ ?_ (fun j => ⟨hzp j, hzm j⟩) hk hp
    rw [sum_exchange, sum_exchange, ← sub_nonneg, ← Finset.sum_sub_distrib]
    exact Finset.sum_nonneg fun r _ => by nlinarith [sq_nonneg (∑ j, P.a r j * x j)]
  · rintro ⟨j, hj⟩ rfl
    have h1 := hk j
    simp only [Pi.zero_apply, mul_zero, Finset.sum_const_zero, sub_zero] at h1
    have hlw : 0 ≤ lam * (w.getD fun _ => 1) j := by
      rcases hreg with ⟨-, h0⟩ | ⟨-, h0, h1⟩
      · simp [h0]
      · exact mul_nonneg h0 (h1 j)
    have h2 : |lam * (w.getD fun _ => 1) j * z j| ≤ lam * (w.getD fun _ => 1) j := by
      rw [abs_mul, abs_of_nonneg hlw]
      exact mul_le_of_le_one_right hlw (hz1 j)
    have h3 := abs_sub_abs_le_abs_sub (∑ r, P.a r j * P.b r) (lam * (w.getD fun _ => 1) j * z j)
    linarith

/-- **C202**, models with relaxation (not practical): the same with `el v0` in place of the correlations, `v0` being the relaxed coefficients belonging to zero. -/
theorem C202_sr3 (M : LinModelCfg) (el : ℝ) (hel : 0 < el) (hs : M.sr3 = some (el, false)) (P : LinProblem ℝ) (hcm : P.c = 1) (hn : 0 < P.n) (x0 : Option (Vec ℝ P.n)) (warm : Bool)
    (w : Option (Vec ℝ P.n)) (lam : ℝ) (hreg : LassoLike (M.regularizer P.n (w.getD fun _ => 1)) lam (w.getD fun _ => 1)) (hr : StepRule M.solver el)
    (x : Vec ℝ P.n) (Lf : Logger (PyVal ℝ P.n)) (h : linFit M P x0 warm w = .ok (x, Lf)) (hc : Lf.get "converged" = .ok (.atom (.bool true)))
    (v0 : Vec ℝ P.n) (hv0 : ∀ j, ∑ r, P.a r j * (P.b r - ∑ i, P.a r i * v0 i) = el * v0 j) :
    ((∀ j, el * |v0 j| + M.tol * (1 / stepFloor M.solver el + el) < lam * (w.getD fun _ => 1) j) → x = 0) ∧
    ((∃ j, lam * (w.getD fun _ => 1) j + M.tol * (1 / stepFloor M.solver el + el) < el * |v0 j|) → x ≠ 0) := by
  obtain ⟨htol, v, hv, hz⟩ := C152_stationary M el hel hs P hcm hn x0 warm w lam hreg hr x Lf h hc
  choose z hz1 hzp hzm hk using hz
  -- the difference of the relaxed coefficients
  obtain ⟨d, hd⟩ : ∃ d : Vec ℝ P.n, ∀ j, d j = v j - v0 j := ⟨fun j => v j - v0 j, fun _ => rfl⟩
  have hdr : ∀ r, ∑ i, P.a r i * d i = ∑ i, P.a r i * v i - ∑ i, P.a r i * v0 i := fun r => by
    rw [← Finset.sum_sub_distrib]
    exact Finset.sum_congr rfl fun i _ => by rw [hd]; ring
  have hdx : ∀ j, ∑ r, P.a r j * ∑ i, P.a r i * d i = el * (x j - d j) := fun j => by
    have e : ∑ r, P.a r j * ∑ i, P.a r i * d i = ∑ r, P.a r j * (P.b r - ∑ i, P.a r i * v0 i) - ∑ r, P.a r j * (P.b r - ∑ i, P.a r i * v i) := by
      rw [← Finset.sum_sub_distrib]
      exact Finset.sum_congr rfl fun r _ => by rw [hdr]; ring
    rw [e, hv0, hv, hd]
    ring
  have hpos : 0 ≤ ∑ j, d j * (el * (x j - d j)) := by
    rw [← Finset.sum_congr rfl fun j _ => congrArg (d j * ·) (hdx j), sum_exchange]
    exact Finset.sum_nonneg fun r _ => mul_self_nonneg _
  constructor
  · intro hp
    refine all_dropped x (fun j => el * (v j - x j)) (fun j => el * v0 j) (fun j => lam * (w.getD fun _ => 1) j) z _ ?_ (fun j => ⟨hzp j, hzm j⟩) hk
      (fun j => by rw [abs_mul, abs_of_pos hel]; exact hp j)
    rw [← sub_nonneg, ← Finset.sum_sub_distrib]
    refine hpos.trans (Finset.sum_le_sum fun j _ => ?_)
    have e : v j = d j + v0 j := by rw [hd]; ring
    rw [e]
    nlinarith [mul_nonneg hel.le (sq_nonneg (x j - d j))]
  · rintro ⟨j, hj⟩ rfl
    have hd0 : d = 0 := by
      have h1 : ∑ j, d j ^ 2 ≤ 0 := by
        have h2 : ∑ j, d j * (el * ((0 : Vec ℝ P.n) j - d j)) = -el * ∑ j, d j ^ 2 := by
          rw [Finset.mul_sum]
          exact Finset.sum_congr rfl fun j _ => by simp only [Pi.zero_apply]; ring
        rw [h2] at hpos
        by_contra hcon
        push Not at hcon
        nlinarith [mul_pos hel hcon]
      have h3 := (Finset.sum_eq_zero_iff_of_nonneg fun j _ => sq_nonneg (d j)).1 (le_antisymm h1 (Finset.sum_nonneg fun j _ => sq_nonneg (d j)))
      funext j
      exact pow_eq_zero_iff two_ne_zero |>.1 (h3 j (Finset.mem_univ _))
    have hvj : v j = v0 j := by
      have := hd j
      rw [hd0] at this
      simp only [Pi.zero_apply] at this
      linarith
    have h1 := hk j
    simp only [Pi.zero_apply, sub_zero, hvj] at h1
    have hlw : 0 ≤ lam * (w.getD fun _ => 1) j := by
      rcases hreg with ⟨-, h0⟩ | ⟨-, h0, h1⟩
      · simp [h0]
      · exact mul_nonneg h0 (h1 j)
    have h2 : |lam * (w.getD fun _ => 1) j * z j| ≤ lam * (w.getD fun _ => 1) j := by
      rw [abs_mul, abs_of_nonneg hlw]
      exact mul_le_of_le_one_right hlw (hz1 j)
    have h3 := abs_sub_abs_le_abs_sub (el * v0 j) (lam * (w.getD fun _ => 1) j * z j)
    rw [abs_mul el, abs_of_pos hel] at h3
    linarith

/-! ## Examples -/

/-- `LinearL1Model(lam=lam)` with a larger iteration limit. -/
def pathModel (lam : ℝ) (N : ℤ) : LinModelCfg := { lassoModel N with regularizer := fun _ w => l1Regularizer lam (some w) }

/-- `LinearL1ModelSR3(lam=lam, el=10)` with a larger iteration limit. -/
def pathModelSr3 (lam : ℝ) (N : ℤ) : LinModelCfg := { sr3Model N with regularizer := fun _ w => l1Regularizer lam (some w) }

theorem pathModel_converges (lam : ℝ) (hlam : 0 ≤ lam) (e : Vec ℝ 2) : ∃ (N : ℤ) (x : Vec ℝ 2) (Lf : Logger (PyVal ℝ 2)), linFit (pathModel lam N) (twoProblem e) none false none = .ok (x, Lf) ∧
    Lf.get "converged" = .ok (.atom (.bool true)) := by
  obtain ⟨N, hN⟩ := exists_nat_gt (1 + 2 * (5 / 100) * lassoObjective (twoProblem e).a (twoProblem e).b lam (fun _ => 1) (fun _ => 1) / (1 / 10 ^ 5) ^ 2)
  refine ⟨N, C104_converges (pathModel lam N) rfl rfl rfl (by simp [pathModel, lassoModel]) (twoProblem e) none false none lam
    (Or.inr ⟨rfl, hlam, fun _ => zero_le_one⟩) 1 (fun h => ((two_design h).trans (one_mul _).symm).le) (lassoModel_rule N) ?_ ?_⟩
  · norm_num [pathModel, lassoModel]
  · simpa [pathModel, lassoModel, LinModelCfg.step, fitStart] using hN

theorem pathModelSr3_converges (lam : ℝ) (hlam : 0 ≤ lam) (e : Vec ℝ 2) : ∃ (N : ℤ) (x : Vec ℝ 2) (Lf : Logger (PyVal ℝ 2)), linFit (pathModelSr3 lam N) (twoProblem e) none false none = .ok (x, Lf) ∧
    Lf.get "converged" = .ok (.atom (.bool true)) := by
  obtain ⟨N, hN⟩ := exists_nat_gt (1 + 2 * (1 / 10) * lassoObjective (twoProblem e).a (twoProblem e).b lam (fun _ => 1) (fun _ => 1) / (1 / 10 ^ 5) ^ 2)
  refine ⟨N, C104_converges_sr3 (pathModelSr3 lam N) 10 (by norm_num) rfl rfl rfl (by simp [pathModelSr3, sr3Model, lassoModel]) (twoProblem e) rfl none false none lam
    (Or.inr ⟨rfl, hlam, fun _ => zero_le_one⟩) (sr3Model_rule N) ?_ ?_⟩
  · norm_num [pathModelSr3, sr3Model, lassoModel]
  · have e : (pathModelSr3 lam N).step = 1 / 10 := by norm_num [pathModelSr3, sr3Model, lassoModel, LinModelCfg.step]
    rw [e]
    simpa [pathModelSr3, sr3Model, lassoModel, fitStart] using hN

/-- Non-vacuity of C201: strengths `1` and `2`, with and without relaxation, on two features with the answers `(5, 0)`. -/
example : (∃ (N N' : ℤ) (x x' : Vec ℝ 2) (Lf Lf' : Logger (PyVal ℝ 2)), linFit (pathModel 1 N) (twoProblem 0) none false none = .ok (x, Lf) ∧ linFit (pathModel 2 N') (twoProblem 0) none false none = .ok (x', Lf') ∧
      ∑ j, 1 * |x' j| ≤ ∑ j, 1 * |x j| + 40 * ((1 / 10 ^ 5) ^ 2 / 2 + 1 / 10 ^ 5 * √(∑ j, (x j - x' j) ^ 2))) ∧
    ∃ (N N' : ℤ) (x x' : Vec ℝ 2) (Lf Lf' : Logger (PyVal ℝ 2)), linFit (pathModelSr3 1 N) (twoProblem 0) none false none = .ok (x, Lf) ∧ linFit (pathModelSr3 2 N') (twoProblem 0) none false none = .ok (x', Lf') ∧
      ∑ j, 1 * |x' j| ≤ ∑ j, 1 * |x j| + 40 * ((1 / 10 ^ 5) ^ 2 / 2 + 1 / 10 ^ 5 * √(∑ j, (x j - x' j) ^ 2)) := by
  constructor
  · obtain ⟨N, x, Lf, h, hc⟩ := pathModel_converges 1 one_pos.le 0
    obtain ⟨N', x', Lf', h', hc'⟩ := pathModel_converges 2 two_pos.le 0
    refine ⟨N, N', x, x', Lf, Lf', h, h', ?_⟩
    have A := (C201_plain (twoProblem 0) two_pos none 1 (fun h => ((two_design h).trans (one_mul _).symm).le) (pathModel 1 N) (pathModel 2 N') rfl rfl 1 2 one_lt_two
      (Or.inr ⟨rfl, one_pos.le, fun _ => zero_le_one⟩) (Or.inr ⟨rfl, two_pos.le, fun _ => zero_le_one⟩) (lassoModel_rule N) (lassoModel_rule N') none none false false x x' Lf Lf' h h' hc hc' _ _ le_rfl le_rfl).1
    have f1 : stepFloor (pathModel 1 N).solver 1 = 1 / 20 := lassoModel_floor N
    have f2 : stepFloor (pathModel 2 N').solver 1 = 1 / 20 := lassoModel_floor N'
    rw [f1, f2] at A
    change ∑ j : Fin 2, 1 * |x' j| ≤ ∑ j : Fin 2, 1 * |x j| + (((1 / 10 ^ 5) ^ 2 / 2 + 1 / 10 ^ 5 * √(∑ j : Fin 2, (x j - x' j) ^ 2)) / (1 / 20) +
      ((1 / 10 ^ 5) ^ 2 / 2 + 1 / 10 ^ 5 * √(∑ j : Fin 2, (x j - x' j) ^ 2)) / (1 / 20)) / (2 - 1) at A
    refine A.trans (le_of_eq ?_)
    ring
  · obtain ⟨N, x, Lf, h, hc⟩ := pathModelSr3_converges 1 one_pos.le 0
    obtain ⟨N', x', Lf', h', hc'⟩ := pathModelSr3_converges 2 two_pos.le 0
    refine ⟨N, N', x, x', Lf, Lf', h, h', ?_⟩
    have A := (C201_sr3 (twoProblem 0) rfl two_pos none 10 (by norm_num) (pathModelSr3 1 N) (pathModelSr3 2 N') rfl rfl 1 2 one_lt_two
      (Or.inr ⟨rfl, one_pos.le, fun _ => zero_le_one⟩) (Or.inr ⟨rfl, two_pos.le, fun _ => zero_le_one⟩) (sr3Model_rule N) (sr3Model_rule N') none none false false x x' Lf Lf' h h' hc hc' _ _ le_rfl le_rfl).1
    have f1 : stepFloor (pathModelSr3 1 N).solver 10 = 1 / 20 := sr3Model_floor N
    have f2 : stepFloor (pathModelSr3 2 N').solver 10 = 1 / 20 := sr3Model_floor N'
    rw [f1, f2] at A
    change ∑ j : Fin 2, 1 * |x' j| ≤ ∑ j : Fin 2, 1 * |x j| + (((1 / 10 ^ 5) ^ 2 / 2 + 1 / 10 ^ 5 * √(∑ j : Fin 2, (x j - x' j) ^ 2)) / (1 / 20) +
      ((1 / 10 ^ 5) ^ 2 / 2 + 1 / 10 ^ 5 * √(∑ j : Fin 2, (x j - x' j) ^ 2)) / (1 / 20)) / (2 - 1) at A
    refine A.trans (le_of_eq ?_)
    ring

/-- Non-vacuity of C202: on two features with the answers `(5, 0)` the strength `24/5` drops everything with the relaxation `el = 10` and keeps a feature without relaxation; the strength `6` drops
everything without relaxation and the strength `4` keeps a feature with it. -/
example : (∃ (N : ℤ) (x : Vec ℝ 2) (Lf : Logger (PyVal ℝ 2)), linFit (pathModel (24 / 5) N) (twoProblem 0) none false none = .ok (x, Lf) ∧ x ≠ 0) ∧
    (∃ (N : ℤ) (x : Vec ℝ 2) (Lf : Logger (PyVal ℝ 2)), linFit (pathModelSr3 (24 / 5) N) (twoProblem 0) none false none = .ok (x, Lf) ∧ x = 0) ∧
    (∃ (N : ℤ) (x : Vec ℝ 2) (Lf : Logger (PyVal ℝ 2)), linFit (pathModel 6 N) (twoProblem 0) none false none = .ok (x, Lf) ∧ x = 0) ∧
    ∃ (N : ℤ) (x : Vec ℝ 2) (Lf : Logger (PyVal ℝ 2)), linFit (pathModelSr3 4 N) (twoProblem 0) none false none = .ok (x, Lf) ∧ x ≠ 0 := by
  have h01 : ∀ j : Fin 2, j = 0 ∨ j = 1 := by decide
  have hcor0 : ∑ r : Fin 2, (twoProblem 0).a r (0 : Fin 2) * (twoProblem 0).b r = 5 := by
    simp [twoProblem, Matrix.one_apply]
  have hcor1 : ∑ r : Fin 2, (twoProblem 0).a r (1 : Fin 2) * (twoProblem 0).b r = 0 := by
    simp [twoProblem, Matrix.one_apply]
  have hv0 : ∀ j : Fin 2, ∑ r : Fin 2, (twoProblem 0).a r j * ((twoProblem 0).b r - ∑ i : Fin 2, (twoProblem 0).a r i * (![5 / 11, 0] : Vec ℝ 2) i) = 10 * (![5 / 11, 0] : Vec ℝ 2) j := fun j => by
    rcases h01 j with rfl | rfl <;> simp [twoProblem, Matrix.one_apply, Fin.sum_univ_two]
    norm_num
  have plain : ∀ lam : ℝ, 0 ≤ lam → ∃ (N : ℤ) (x : Vec ℝ 2) (Lf : Logger (PyVal ℝ 2)), linFit (pathModel lam N) (twoProblem 0) none false none = .ok (x, Lf) ∧ (5 + 21 / 10 ^ 5 < lam → x = 0) ∧
      (lam + 21 / 10 ^ 5 < 5 → x ≠ 0) := by
    intro lam hlam
    obtain ⟨N, x, Lf, h, hc⟩ := pathModel_converges lam hlam 0
    have A := C202_plain (pathModel lam N) rfl (twoProblem 0) two_pos none false none lam (Or.inr ⟨rfl, hlam, fun _ => zero_le_one⟩) 1
      (fun h => ((two_design h).trans (one_mul _).symm).le) (lassoModel_rule N) x Lf h hc
    have f1 : stepFloor (pathModel lam N).solver 1 = 1 / 20 := lassoModel_floor N
    have f2 : (pathModel lam N).tol = 1 / 10 ^ 5 := rfl
    rw [f1, f2] at A
    refine ⟨N, x, Lf, h, fun hl => A.1 fun j => ?_, fun hl => A.2 ⟨(0 : Fin 2), ?_⟩⟩
    · show _ < lam * 1
      rcases h01 j with rfl | rfl
      · refine lt_of_le_of_lt (add_le_add (congrArg abs hcor0).le le_rfl) ?_
        norm_num at hl ⊢
        linarith
      · refine lt_of_le_of_lt (add_le_add (congrArg abs hcor1).le le_rfl) ?_
        norm_num at hl ⊢
        linarith
    · show lam * 1 + _ < _
      refine lt_of_lt_of_eq ?_ (congrArg abs hcor0).symm
      norm_num at hl ⊢
      linarith
  have relaxed : ∀ lam : ℝ, 0 ≤ lam → ∃ (N : ℤ) (x : Vec ℝ 2) (Lf : Logger (PyVal ℝ 2)), linFit (pathModelSr3 lam N) (twoProblem 0) none false none = .ok (x, Lf) ∧ (50 / 11 + 30 / 10 ^ 5 < lam → x = 0) ∧
      (lam + 30 / 10 ^ 5 < 50 / 11 → x ≠ 0) := by
    intro lam hlam
    obtain ⟨N, x, Lf, h, hc⟩ := pathModelSr3_converges lam hlam 0
    have A := C202_sr3 (pathModelSr3 lam N) 10 (by norm_num) rfl (twoProblem 0) rfl two_pos none false none lam (Or.inr ⟨rfl, hlam, fun _ => zero_le_one⟩) (sr3Model_rule N) x Lf h hc ![5 / 11, 0] hv0
    have f1 : stepFloor (pathModelSr3 lam N).solver 10 = 1 / 20 := sr3Model_floor N
    have f2 : (pathModelSr3 lam N).tol = 1 / 10 ^ 5 := rfl
    rw [f1, f2] at A
    have e0 : |(![5 / 11, 0] : Vec ℝ 2) 0| = 5 / 11 := abs_of_pos (by norm_num)
    have e1 : |(![5 / 11, 0] : Vec ℝ 2) 1| = 0 := abs_zero
    refine ⟨N, x, Lf, h, fun hl => A.1 fun j => ?_, fun hl => A.2 ⟨(0 : Fin 2), ?_⟩⟩
    · show 10 * |(![5 / 11, 0] : Vec ℝ 2) j| + _ < lam * 1
      rcases h01 j with rfl | rfl
      · rw [e0]
        norm_num at hl ⊢
        linarith
      · rw [e1]
        norm_num at hl ⊢
        linarith
    · show lam * 1 + _ < 10 * |(![5 / 11, 0] : Vec ℝ 2) 0|
      rw [e0]
      norm_num at hl ⊢
      linarith
  obtain ⟨N1, x1, L1, h1, -, k1⟩ := plain (24 / 5) (by norm_num)
  obtain ⟨N2, x2, L2, h2, k2, -⟩ := relaxed (24 / 5) (by norm_num)
  obtain ⟨N3, x3, L3, h3, k3, -⟩ := plain 6 (by norm_num)
  obtain ⟨N4, x4, L4, h4, -, k4⟩ := relaxed 4 (by norm_num)
  exact ⟨⟨N1, x1, L1, h1, k1 (by norm_num)⟩, ⟨N2, x2, L2, h2, k2 (by norm_num)⟩, ⟨N3, x3, L3, h3, k3 (by norm_num)⟩, N4, x4, L4, h4, k4 (by norm_num)⟩

end

end Verif
