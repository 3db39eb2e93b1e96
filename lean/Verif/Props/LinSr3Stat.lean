import Verif.Props.LinSupport

/-!
# Optimality conditions, error bounds and support of converged L1 fits with relaxation (C152)
-/

open Matrix

namespace Verif

noncomputable section

variable {m n : ℕ}

/-- The last step of a converged run. -/
theorem run_last_step_prox {σ : Type} (hn : 0 < n) (o : Oracle ℝ n σ) (R : Regularizer ℝ n) (f : Vec ℝ n → ℝ) (gr : Vec ℝ n → Vec ℝ n) (hf : o.Values f) (hgr : o.Grads gr) (L : ℝ)
    (hb : BelowParabola f gr L) (prox : Vec ℝ n → ℝ → Vec ℝ n) (hp : ∀ y t, R.prox y t = .ok (prox y t)) (cfg : PGDCfg ℝ) (hr : StepRule cfg L) (x0 : Vec ℝ n) (Lg : Logger (PyVal ℝ n))
    (s s' : σ) (x : Vec ℝ n) (Lf : Logger (PyVal ℝ n)) (h : pgdOptimize o R cfg x0 Lg s = .ok ((x, Lf), s')) (hc : Lf.get "converged" = .ok (.atom (.bool true))) :
    0 ≤ cfg.tol ∧ ∃ (t : ℝ) (y : Vec ℝ n), stepFloor cfg L ≤ t ∧ ∑ j, (x j - y j) ^ 2 ≤ cfg.tol ^ 2 ∧ x = prox (fun i => y i - t * gr y i) t := by
  obtain ⟨k, X, Ls, s1, L1, -, -, hk, hcv, hit, hsteps, -, hend⟩ := pgdOptimize_trace o R cfg _ _
    (fun x _ x' _ => ∃ t, stepFloor cfg L ≤ t ∧ x' = prox (fun i => x i - t * gr x i) t)
    (fun x it L' s x' L'' s' hbd => by
      obtain ⟨gv, s1, t, s2, hgv, hst, hpx', -⟩ := pgdBody_ok _ _ _ _ _ _ _ _ _ _ _ hbd
      obtain ⟨s3, hgv'⟩ := hgr x s
      rw [hgv'] at hgv
      obtain ⟨rfl, rfl⟩ := Prod.mk.inj (Except.ok.inj hgv)
      obtain ⟨hlo, -, -⟩ := chooseStep_bounds o R f hf gr _ hb prox hp cfg hr x _ _ t hst
      rw [hp] at hpx'
      exact ⟨t, hlo, (Except.ok.inj hpx').symm⟩) _ _ _ _ h
  rw [(Logger.add_get hit).2 _ (by decide), (Logger.add_get hcv).1] at hc
  have hlt : (k : ℤ) < cfg.maxIter := by
    have h3 : decide ((k : ℤ) < cfg.maxIter) = true := by injection hc with h1; injection h1 with h1; injection h1
    exact of_decide_eq_true h3
  cases k with
  | zero => exact absurd ⟨Or.inl hn, by simpa using hlt⟩ hend
  | succ j =>
    have hfar : ¬ farApart cfg.tol (some (X j)) (X (j + 1)) := fun hf => hend ⟨hf, by simpa using hlt⟩
    simp only [farApart, not_or, not_lt] at hfar
    obtain ⟨t, hlo, hx⟩ := hsteps j (by omega)
    rw [hk] at hx hfar
    exact ⟨hfar.1, t, X j, hlo, hfar.2, hx⟩

/-- The last step of a converged run with a lasso-like regularizer. -/
theorem run_last_step {σ : Type} (hn : 0 < n) (o : Oracle ℝ n σ) (R : Regularizer ℝ n) (f : Vec ℝ n → ℝ) (gr : Vec ℝ n → Vec ℝ n) (hf : o.Values f) (hgr : o.Grads gr) (L : ℝ) (hb : BelowParabola f gr L)
    (lam : ℝ) (w : Vec ℝ n) (hreg : LassoLike R lam w) (cfg : PGDCfg ℝ) (hr : StepRule cfg L) (x0 : Vec ℝ n) (Lg : Logger (PyVal ℝ n))
    (s s' : σ) (x : Vec ℝ n) (Lf : Logger (PyVal ℝ n)) (h : pgdOptimize o R cfg x0 Lg s = .ok ((x, Lf), s')) (hc : Lf.get "converged" = .ok (.atom (.bool true))) :
    0 ≤ cfg.tol ∧ ∃ (t : ℝ) (y : Vec ℝ n), stepFloor cfg L ≤ t ∧ ∑ j, (x j - y j) ^ 2 ≤ cfg.tol ^ 2 ∧ ∀ j, x j = soft (t * (lam * w j)) (y j - t * gr y j) := by
  obtain ⟨prox, hp, hpx⟩ : ∃ prox : Vec ℝ n → ℝ → Vec ℝ n, (∀ y t, R.prox y t = .ok (prox y t)) ∧ ∀ y t j, prox y t j = soft (t * (lam * w j)) (y j) := by
    rcases hreg with ⟨h0, h1⟩ | ⟨h0, -, -⟩
    · refine ⟨fun y _ => y, fun _ _ => by rw [h0]; rfl, fun y t j => ?_⟩
      rw [h1, zero_mul, mul_zero, soft_zero]
    · refine ⟨fun y t i => soft (t * w i * lam) (y i), fun _ _ => by rw [h0]; rfl, fun y t j => ?_⟩
      show soft _ _ = _
      congr 1
      ring
  obtain ⟨htol, t, y, hlo, hd, hx⟩ := run_last_step_prox hn o R f gr hf hgr L hb prox hp cfg hr x0 Lg s s' x Lf h hc
  exact ⟨htol, t, y, hlo, hd, fun i => by rw [hx, hpx]⟩

/-- A coordinate of `BᵀB d` is at most the curvature times the length of `d`. -/
theorem gram_coord_le {ι : Type*} [Fintype ι] (B : Matrix ι (Fin n) ℝ) (L : ℝ) (hL : ∀ h : Vec ℝ n, ∑ r, (∑ j, B r j * h j) ^ 2 ≤ L * ∑ j, h j ^ 2) (d : Vec ℝ n) (T : ℝ) (hT : 0 ≤ T)
    (hd : ∑ j, d j ^ 2 ≤ T ^ 2) (j : Fin n) : |∑ r, B r j * ∑ i, B r i * d i| ≤ L * T := by
  have hcol : ∑ r, B r j ^ 2 ≤ L := by
    have h2 := hL (Pi.single j 1)
    have h3 : ∑ i, (Pi.single j (1 : ℝ) : Vec ℝ n) i ^ 2 = 1 := by
      rw [Finset.sum_eq_single j]
      · simp
      · intro i _ hi; simp [hi]
      · intro hi; exact absurd (Finset.mem_univ _) hi
    rw [h3, mul_one] at h2
    refine le_trans (le_of_eq ?_) h2
    refine Finset.sum_congr rfl fun r _ => ?_
    congr 1
    rw [Finset.sum_eq_single j]
    · simp
    · intro i _ hi; simp [hi]
    · intro hi; exact absurd (Finset.mem_univ _) hi
  have hLnn : 0 ≤ L := (Finset.sum_nonneg fun r _ => sq_nonneg _).trans hcol
  refine abs_le_of_sq_le_sq ?_ (mul_nonneg hLnn hT)
  refine (Finset.sum_mul_sq_le_sq_mul_sq Finset.univ (fun r => B r j) (fun r => ∑ i, B r i * d i)).trans ?_
  have h4 := (hL d).trans (mul_le_mul_of_nonneg_left hd hLnn)
  calc (∑ r, B r j ^ 2) * ∑ r, (∑ i, B r i * d i) ^ 2 ≤ L * (L * T ^ 2) :=
        mul_le_mul hcol h4 (Finset.sum_nonneg fun r _ => sq_nonneg _) hLnn
    _ = (L * T) ^ 2 := by ring

/-- The curvature of the value function of the relaxed problem. -/
theorem sr3F_bound (A : Matrix (Fin m) (Fin n) ℝ) (el : ℝ) (hel : 0 < el) (h : Vec ℝ n) : ∑ r, (∑ j, sr3F A 1 el r j * h j) ^ 2 ≤ el * ∑ j, h j ^ 2 := by
  have h1 : 1 / 2 * normSq (sr3F A 1 el *ᵥ h) = sr3Value A 0 1 el h := by simp [sr3Value]
  have h2 := (C32_value_is_partial_min A 0 el hel h).1 0
  simp only [relaxedLoss, leastSquares, Pi.zero_apply, mul_zero, Finset.sum_const_zero, sub_zero, zero_sub, neg_sq] at h2
  rw [← h1] at h2
  simp only [zero_pow two_ne_zero, Finset.sum_const_zero, zero_div, zero_add] at h2
  have h3 : normSq (sr3F A 1 el *ᵥ h) = ∑ r, (∑ j, sr3F A 1 el r j * h j) ^ 2 := rfl
  rw [h3] at h2
  linarith

/-- **C152**, optimality conditions: for a converged fit of an SR3 model without penalty or with the L1 penalty there are relaxed coefficients `v` such that the correlations of the features with the residual of
`v` are exactly `el (v - x)`, and these are, up to `tol (1/t + el)`, `lam w_j` times the sign of `x_j` if `x_j` is not zero and at most `lam w_j` in absolute value if `x_j` is exactly zero. -/
theorem C152_stationary (M : LinModelCfg) (el : ℝ) (hel : 0 < el) (hs : M.sr3 = some (el, false)) (P : LinProblem ℝ) (hcm : P.c = 1) (hn : 0 < P.n)
    (x0 : Option (Vec ℝ P.n)) (warm : Bool) (w : Option (Vec ℝ P.n))
    (lam : ℝ) (hreg : LassoLike (M.regularizer P.n (w.getD fun _ => 1)) lam (w.getD fun _ => 1)) (hr : StepRule M.solver el)
    (x : Vec ℝ P.n) (Lf : Logger (PyVal ℝ P.n)) (h : linFit M P x0 warm w = .ok (x, Lf)) (hc : Lf.get "converged" = .ok (.atom (.bool true))) :
    0 ≤ M.tol ∧ ∃ v : Vec ℝ P.n, (∀ j, ∑ r, P.a r j * (P.b r - ∑ i, P.a r i * v i) = el * (v j - x j)) ∧
      ∀ j, ∃ z : ℝ, |z| ≤ 1 ∧ (0 < x j → z = 1) ∧ (x j < 0 → z = -1) ∧ |el * (v j - x j) - lam * (w.getD fun _ => 1) j * z| ≤ M.tol * (1 / stepFloor M.solver el + el) := by
  have hfl := stepFloor_pos hr
  have hlw : ∀ i, 0 ≤ lam * (w.getD fun _ => 1) i := fun i => by
    rcases hreg with ⟨-, h0⟩ | ⟨-, h0, h1⟩
    · simp [h0]
    · exact mul_nonneg h0 (h1 i)
  unfold linFit at h
  simp only [hs, hcm] at h
  cases hm : M.prior with
  | gaussian params => rw [hm] at h; cases h
  | none =>
    rw [hm] at h
    simp only at h
    by_cases hdet : (sr3H P.a 1 el).det = 0
    · rw [if_pos hdet] at h; cases h
    rw [if_neg hdet] at h
    simp only [Bool.false_eq_true, if_false] at h
    obtain ⟨⟨⟨x', Ly⟩, sy⟩, hy, h⟩ := except_bind_ok.1 h
    obtain ⟨Lz, hLz, h⟩ := except_bind_ok.1 h
    cases h
    rw [logIC_keeps _ _ _ _ hLz _ (by decide) (by decide)] at hc
    obtain ⟨hb, -⟩ := sr3_belowParabola P.a P.b el hel
    obtain ⟨htol, t, y, hlo, hd, hx⟩ := run_last_step hn (sr3Oracle P.a P.b 1 el false) _ (sr3Value P.a P.b 1 el) (sr3Gradient P.a P.b 1 el)
      (fun x s => ⟨s, sr3Oracle_value _ _ _ hel.le x s⟩) (fun x s => ⟨s, sr3Oracle_grad _ _ _ hel.le x s⟩) el hb lam _ hreg M.solver hr _ _ _ _ _ _ hy hc
    show 0 ≤ M.tol ∧ ∃ v : Vec ℝ P.n, (∀ j, ∑ r, P.a r j * (P.b r - ∑ i, P.a r i * v i) = el * (v j - x' j)) ∧
      ∀ j, ∃ z : ℝ, |z| ≤ 1 ∧ (0 < x' j → z = 1) ∧ (x' j < 0 → z = -1) ∧ |el * (v j - x' j) - lam * (w.getD fun _ => 1) j * z| ≤ M.tol * (1 / stepFloor M.solver el + el)
    have htol' : 0 ≤ M.tol := htol
    have hd' : ∑ j, (x' j - y j) ^ 2 ≤ M.tol ^ 2 := hd
    have ht : 0 < t := hfl.trans_le hlo
    have hgrad := (C33_gradient_exact_smooth P.a P.b el hel).2
    have hposdef : (P.aᵀ * P.a + el • (1 : Matrix (Fin P.n) (Fin P.n) ℝ)).det ≠ 0 := by
      have e : sr3H P.a 1 el = P.aᵀ * P.a + el • 1 := by simp [sr3H]
      rw [← e]; exact hdet
    refine ⟨htol', (P.aᵀ * P.a + el • (1 : Matrix (Fin P.n) (Fin P.n) ℝ))⁻¹ *ᵥ (P.aᵀ *ᵥ P.b + el • x'), fun j => ?_, fun j => ?_⟩
    · obtain ⟨v, hv⟩ : ∃ v, v = (P.aᵀ * P.a + el • (1 : Matrix (Fin P.n) (Fin P.n) ℝ))⁻¹ *ᵥ (P.aᵀ *ᵥ P.b + el • x') := ⟨_, rfl⟩
      rw [← hv]
      have h1 : (P.aᵀ * P.a + el • (1 : Matrix (Fin P.n) (Fin P.n) ℝ)) *ᵥ v = P.aᵀ *ᵥ P.b + el • x' := by
        rw [hv, mulVec_mulVec, Matrix.mul_nonsing_inv _ (isUnit_iff_ne_zero.2 hposdef), one_mulVec]
      have h2 := congrFun h1 j
      rw [add_mulVec, smul_mulVec, one_mulVec, ← mulVec_mulVec] at h2
      have h3 : (∑ r, P.a r j * ∑ i, P.a r i * v i) + el * v j = (∑ r, P.a r j * P.b r) + el * x' j := h2
      simp only [mul_sub, Finset.sum_sub_distrib]
      linarith
    · obtain ⟨z, hz, hp, hmn, he⟩ := soft_kkt (y j - t * sr3Gradient P.a P.b 1 el y j) (mul_nonneg ht.le (hlw j))
      rw [← hx j] at hp hmn he
      refine ⟨z, hz, hp, hmn, ?_⟩
      obtain ⟨v, hv⟩ : ∃ v, v = (P.aᵀ * P.a + el • (1 : Matrix (Fin P.n) (Fin P.n) ℝ))⁻¹ *ᵥ (P.aᵀ *ᵥ P.b + el • x') := ⟨_, rfl⟩
      rw [← hv]
      have h1 : el * (v j - x' j) = -sr3Gradient P.a P.b 1 el x' j := by
        rw [hgrad x', ← hv]
        simp only [Pi.smul_apply, Pi.sub_apply, smul_eq_mul]
        ring
      have h2 : sr3Gradient P.a P.b 1 el x' j = sr3Gradient P.a P.b 1 el y j + ∑ r, sr3F P.a 1 el r j * ∑ i, sr3F P.a 1 el r i * (x' i - y i) := by
        have e : sr3Gradient P.a P.b 1 el x' - sr3Gradient P.a P.b 1 el y = (sr3F P.a 1 el)ᵀ *ᵥ (sr3F P.a 1 el *ᵥ (x' - y)) := by
          unfold sr3Gradient
          rw [← mulVec_sub, sub_sub_sub_cancel_right, ← mulVec_sub]
        have e' := congrFun e j
        have e'' : sr3Gradient P.a P.b 1 el x' j - sr3Gradient P.a P.b 1 el y j = ∑ r, sr3F P.a 1 el r j * ∑ i, sr3F P.a 1 el r i * (x' i - y i) := e'
        linarith
      have h3 := gram_coord_le (sr3F P.a 1 el) el (sr3F_bound P.a el hel) (fun i => x' i - y i) M.tol htol' hd' j
      have h4 : |y j - x' j| ≤ M.tol := by
        refine abs_le_of_sq_le_sq ?_ htol'
        refine le_trans ?_ hd'
        rw [show (y j - x' j) ^ 2 = (x' j - y j) ^ 2 by ring]
        exact Finset.single_le_sum (f := fun j => (x' j - y j) ^ 2) (fun i _ => sq_nonneg _) (Finset.mem_univ j)
      have h5 : |(y j - x' j) / t| ≤ M.tol / stepFloor M.solver el := by
        rw [abs_div, abs_of_pos ht]
        exact div_le_div₀ htol' h4 hfl hlo
      have e3 : (y j - x' j) / t = sr3Gradient P.a P.b 1 el y j + lam * (w.getD fun _ => 1) j * z := by
        rw [div_eq_iff ht.ne']
        linarith
      have e4 : el * (v j - x' j) - lam * (w.getD fun _ => 1) j * z = -((y j - x' j) / t) - ∑ r, sr3F P.a 1 el r j * ∑ i, sr3F P.a 1 el r i * (x' i - y i) := by
        rw [h1, h2, e3]; ring
      rw [e4]
      have h6 := abs_sub (-((y j - x' j) / t)) (∑ r, sr3F P.a 1 el r j * ∑ i, sr3F P.a 1 el r i * (x' i - y i))
      rw [abs_neg] at h6
      refine h6.trans ((add_le_add h5 h3).trans (le_of_eq ?_))
      ring

/-- **C152**, estimation error: with data `b = A x* + e` and `κ ‖h‖² ≤ ‖A h‖²`, the coefficients of a converged SR3 fit differ from the true ones by at most
`(‖Aᵀe‖ + ‖lam w + δ‖)/κ + ‖lam w + δ‖/el`, with `δ = tol (1/t + el)` the accuracy of the solver. -/
theorem C152_error (M : LinModelCfg) (el : ℝ) (hel : 0 < el) (hs : M.sr3 = some (el, false)) (P : LinProblem ℝ) (hcm : P.c = 1) (hn : 0 < P.n)
    (x0 : Option (Vec ℝ P.n)) (warm : Bool) (w : Option (Vec ℝ P.n))
    (lam : ℝ) (hreg : LassoLike (M.regularizer P.n (w.getD fun _ => 1)) lam (w.getD fun _ => 1)) (hr : StepRule M.solver el)
    (x : Vec ℝ P.n) (Lf : Logger (PyVal ℝ P.n)) (h : linFit M P x0 warm w = .ok (x, Lf)) (hc : Lf.get "converged" = .ok (.atom (.bool true)))
    (xs : Vec ℝ P.n) (e : Vec ℝ P.m) (hb : ∀ r, P.b r = (∑ j, P.a r j * xs j) + e r)
    (k : ℝ) (hk : 0 < k) (hK : ∀ h : Vec ℝ P.n, k * ∑ j, h j ^ 2 ≤ ∑ r, (∑ j, P.a r j * h j) ^ 2) :
    √(∑ j, (x j - xs j) ^ 2) ≤ (√(∑ j, (∑ r, P.a r j * e r) ^ 2) + √(∑ j, (lam * (w.getD fun _ => 1) j + M.tol * (1 / stepFloor M.solver el + el)) ^ 2)) / k
      + √(∑ j, (lam * (w.getD fun _ => 1) j + M.tol * (1 / stepFloor M.solver el + el)) ^ 2) / el := by
  obtain ⟨htol, v, hv, hz⟩ := C152_stationary M el hel hs P hcm hn x0 warm w lam hreg hr x Lf h hc
  obtain ⟨dl, hdl⟩ : ∃ dl, dl = M.tol * (1 / stepFloor M.solver el + el) := ⟨_, rfl⟩
  rw [← hdl] at hz ⊢
  have hlw : ∀ i, 0 ≤ lam * (w.getD fun _ => 1) i := fun i => by
    rcases hreg with ⟨-, h0⟩ | ⟨-, h0, h1⟩
    · simp [h0]
    · exact mul_nonneg h0 (h1 i)
  have hu : ∀ j, |el * (v j - x j)| ≤ lam * (w.getD fun _ => 1) j + dl := fun j => by
    obtain ⟨z, hz1, -, -, hz2⟩ := hz j
    have h1 : |lam * (w.getD fun _ => 1) j * z| ≤ lam * (w.getD fun _ => 1) j := by
      rw [abs_mul, abs_of_nonneg (hlw j)]
      exact mul_le_of_le_one_right (hlw j) hz1
    have h2 := abs_add_le (el * (v j - x j) - lam * (w.getD fun _ => 1) j * z) (lam * (w.getD fun _ => 1) j * z)
    rw [sub_add_cancel] at h2
    linarith
  have hu2 : √(∑ j, (el * (v j - x j)) ^ 2) ≤ √(∑ j, (lam * (w.getD fun _ => 1) j + dl) ^ 2) := by
    refine Real.sqrt_le_sqrt (Finset.sum_le_sum fun j _ => ?_)
    rw [← sq_abs (el * (v j - x j))]
    exact pow_le_pow_left₀ (abs_nonneg _) (hu j) 2
  obtain ⟨B, hB⟩ : ∃ B, B = √(∑ j, (lam * (w.getD fun _ => 1) j + dl) ^ 2) := ⟨_, rfl⟩
  rw [← hB] at hu2 ⊢
  -- the relaxed coefficients
  have h1 : ∑ r, (∑ j, P.a r j * (v j - xs j)) ^ 2 = ∑ j, ((∑ r, P.a r j * e r) - el * (v j - x j)) * (v j - xs j) := by
    have e1 : ∀ j, (∑ r, P.a r j * e r) - el * (v j - x j) = ∑ r, P.a r j * ∑ i, P.a r i * (v i - xs i) := fun j => by
      rw [← hv j, ← Finset.sum_sub_distrib]
      refine Finset.sum_congr rfl fun r _ => ?_
      have : ∑ i, P.a r i * (v i - xs i) = (∑ i, P.a r i * v i) - ∑ i, P.a r i * xs i := by
        rw [← Finset.sum_sub_distrib]
        exact Finset.sum_congr rfl fun i _ => by ring
      rw [hb, this]
      ring
    simp only [e1, Finset.sum_mul]
    rw [Finset.sum_comm]
    refine Finset.sum_congr rfl fun r _ => ?_
    rw [pow_two, Finset.mul_sum]
    exact Finset.sum_congr rfl fun j _ => by ring
  obtain ⟨D, hD⟩ : ∃ D, D = √(∑ j, (v j - xs j) ^ 2) := ⟨_, rfl⟩
  have hD0 : 0 ≤ D := by rw [hD]; exact Real.sqrt_nonneg _
  have hD2 : D ^ 2 = ∑ j, (v j - xs j) ^ 2 := by rw [hD]; exact Real.sq_sqrt (Finset.sum_nonneg fun j _ => sq_nonneg _)
  have h2 : k * D ^ 2 ≤ (√(∑ j, (∑ r, P.a r j * e r) ^ 2) + B) * D := by
    rw [hD2]
    refine (hK fun j => v j - xs j).trans ?_
    rw [h1]
    have c1 := Real.sum_mul_le_sqrt_mul_sqrt Finset.univ (fun j => ∑ r, P.a r j * e r) (fun j => v j - xs j)
    have c2 := Real.sum_mul_le_sqrt_mul_sqrt Finset.univ (fun j => -(el * (v j - x j))) (fun j => v j - xs j)
    simp only [neg_sq] at c2
    rw [← hD] at c1 c2
    have c3 := mul_le_mul_of_nonneg_right hu2 hD0
    have e2 : ∑ j, ((∑ r, P.a r j * e r) - el * (v j - x j)) * (v j - xs j) = ∑ j, (∑ r, P.a r j * e r) * (v j - xs j) + ∑ j, -(el * (v j - x j)) * (v j - xs j) := by
      rw [← Finset.sum_add_distrib]
      exact Finset.sum_congr rfl fun j _ => by ring
    rw [e2]
    linarith
  have h3 : D ≤ (√(∑ j, (∑ r, P.a r j * e r) ^ 2) + B) / k := by
    rw [le_div_iff₀ hk]
    rcases hD0.eq_or_lt with h0 | h0
    · rw [← h0, zero_mul, hB]
      positivity
    · have h4 : D * (D * k) ≤ D * (√(∑ j, (∑ r, P.a r j * e r) ^ 2) + B) := by linarith
      exact le_of_mul_le_mul_left h4 h0
  have h4 : √(∑ j, (x j - v j) ^ 2) ≤ B / el := by
    rw [le_div_iff₀ hel]
    refine le_trans (le_of_eq ?_) hu2
    have e3 : ∑ j, (el * (v j - x j)) ^ 2 = el ^ 2 * ∑ j, (x j - v j) ^ 2 := by
      rw [Finset.mul_sum]
      exact Finset.sum_congr rfl fun j _ => by ring
    rw [e3, Real.sqrt_mul (sq_nonneg _), Real.sqrt_sq hel.le, mul_comm]
  have h5 : √(∑ j, (x j - xs j) ^ 2) ≤ √(∑ j, (x j - v j) ^ 2) + √(∑ j, (v j - xs j) ^ 2) := by
    have h6 := norm_add_le (WithLp.toLp 2 fun j => x j - v j : EuclideanSpace ℝ (Fin P.n)) (WithLp.toLp 2 fun j => v j - xs j : EuclideanSpace ℝ (Fin P.n))
    rw [EuclideanSpace.norm_eq, EuclideanSpace.norm_eq, EuclideanSpace.norm_eq] at h6
    simpa [Real.norm_eq_abs, sq_abs] using h6
  rw [← hD] at h5
  linarith

/-- **C152**, support: under the conditions of C151, with the bias of the relaxation added to the accuracy of the solver, the coefficients of a converged SR3 fit with the L1 penalty are exactly zero
outside the true features, miss the true coefficients by at most `2 lam / c` and have the signs of all larger ones. -/
theorem C152_support (M : LinModelCfg) (el : ℝ) (hel : 0 < el) (hs : M.sr3 = some (el, false)) (P : LinProblem ℝ) (hcm : P.c = 1) (hn : 0 < P.n)
    (x0 : Option (Vec ℝ P.n)) (warm : Bool)
    (lam : ℝ) (hlam : 0 < lam) (hreg : LassoLike (M.regularizer P.n fun _ => 1) lam fun _ => 1) (hr : StepRule M.solver el)
    (x : Vec ℝ P.n) (Lf : Logger (PyVal ℝ P.n)) (h : linFit M P x0 warm none = .ok (x, Lf)) (hc : Lf.get "converged" = .ok (.atom (.bool true)))
    (xs : Vec ℝ P.n) (e : Vec ℝ P.m) (hb : ∀ r, P.b r = (∑ j, P.a r j * xs j) + e r) (S : Finset (Fin P.n)) (hS : ∀ j, j ∉ S → xs j = 0)
    (L : ℝ) (hL : ∀ h : Vec ℝ P.n, ∑ r, (∑ j, P.a r j * h j) ^ 2 ≤ L * ∑ j, h j ^ 2)
    (c theta : ℝ) (hcp : 0 < c) (hdiag : ∀ j, c ≤ ∑ r, P.a r j ^ 2) (hoff : ∀ j k, j ≠ k → |∑ r, P.a r j * P.a r k| ≤ theta) (hth : 0 ≤ theta) (hcard : 16 * S.card * theta ≤ c)
    (he : ∀ j, |∑ r, P.a r j * e r| + (M.tol * (1 / stepFloor M.solver el + el) + L * (√P.n * (lam + M.tol * (1 / stepFloor M.solver el + el)) / el)) ≤ lam / 2) :
    (∀ j, j ∉ S → x j = 0) ∧ (∀ j, |x j - xs j| ≤ 2 * lam / c) ∧ (∀ j, 2 * lam / c < |xs j| → 0 < x j * xs j) := by
  obtain ⟨htol, v, hv, hz⟩ := C152_stationary M el hel hs P hcm hn x0 warm none lam hreg hr x Lf h hc
  simp only [Option.getD_none, mul_one] at hz
  have hfl := stepFloor_pos hr
  obtain ⟨dl, hdl⟩ : ∃ dl, dl = M.tol * (1 / stepFloor M.solver el + el) := ⟨_, rfl⟩
  have hdl0 : 0 ≤ dl := by rw [hdl]; positivity
  rw [← hdl] at hz he
  have hu : ∀ j, |v j - x j| ≤ (lam + dl) / el := fun j => by
    obtain ⟨z, hz1, -, -, hz2⟩ := hz j
    have h1 : |lam * z| ≤ lam := by
      rw [abs_mul, abs_of_pos hlam]
      exact mul_le_of_le_one_right hlam.le hz1
    have h2 := abs_add_le (el * (v j - x j) - lam * z) (lam * z)
    rw [sub_add_cancel, abs_mul, abs_of_pos hel] at h2
    rw [le_div_iff₀ hel]
    linarith
  have hsq : ∑ j, (v j - x j) ^ 2 ≤ (√P.n * (lam + dl) / el) ^ 2 := by
    have h1 : ∑ j : Fin P.n, (v j - x j) ^ 2 ≤ ∑ _j : Fin P.n, ((lam + dl) / el) ^ 2 := Finset.sum_le_sum fun j _ => by
      rw [← sq_abs]
      exact pow_le_pow_left₀ (abs_nonneg _) (hu j) 2
    refine h1.trans (le_of_eq ?_)
    rw [Finset.sum_const, Finset.card_univ, Fintype.card_fin, nsmul_eq_mul, mul_div_assoc, mul_pow, Real.sq_sqrt (Nat.cast_nonneg _)]
  have hbias := gram_coord_le P.a L hL (fun j => v j - x j) (√P.n * (lam + dl) / el) (by positivity) hsq
  have hmain := support_of_kkt P.a lam c theta (dl + L * (√P.n * (lam + dl) / el)) hlam hcp hth x xs (fun j => ∑ r, P.a r j * e r) S hdiag hoff hS hcard he fun j => by
    obtain ⟨z, h1, h2, h3, h4⟩ := hz j
    refine ⟨z, h1, h2, h3, ?_⟩
    have e1 : ∑ k, (∑ r, P.a r j * P.a r k) * (x k - xs k) = ∑ r, P.a r j * ∑ k, P.a r k * (x k - xs k) := by
      simp only [Finset.sum_mul, Finset.mul_sum]
      rw [Finset.sum_comm]
      exact Finset.sum_congr rfl fun r _ => Finset.sum_congr rfl fun k _ => by ring
    have e2 : el * (v j - x j) = (∑ r, P.a r j * e r) - (∑ r, P.a r j * ∑ k, P.a r k * (x k - xs k)) - ∑ r, P.a r j * ∑ k, P.a r k * (v k - x k) := by
      rw [← hv j, ← Finset.sum_sub_distrib, ← Finset.sum_sub_distrib]
      refine Finset.sum_congr rfl fun r _ => ?_
      have e3 : ∑ i, P.a r i * (x i - xs i) = (∑ i, P.a r i * x i) - ∑ i, P.a r i * xs i := by
        rw [← Finset.sum_sub_distrib]
        exact Finset.sum_congr rfl fun i _ => by ring
      have e4 : ∑ i, P.a r i * (v i - x i) = (∑ i, P.a r i * v i) - ∑ i, P.a r i * x i := by
        rw [← Finset.sum_sub_distrib]
        exact Finset.sum_congr rfl fun i _ => by ring
      rw [hb, e3, e4]
      ring
    rw [e1]
    have e5 : (∑ r, P.a r j * ∑ k, P.a r k * (x k - xs k)) - ∑ r, P.a r j * e r + lam * z = -(el * (v j - x j) - lam * z) - ∑ r, P.a r j * ∑ k, P.a r k * (v k - x k) := by
      rw [e2]; ring
    rw [e5]
    refine (abs_sub _ _).trans ?_
    rw [abs_neg]
    exact add_le_add h4 (hbias j)
  refine ⟨hmain.1, hmain.2, fun j hj => ?_⟩
  have h1 := abs_lt.1 ((hmain.2 j).trans_lt hj)
  rcases lt_or_ge (xs j) 0 with hneg | hpos
  · rw [abs_of_neg hneg] at h1
    exact mul_pos_of_neg_of_neg (by linarith) hneg
  · rw [abs_of_nonneg hpos] at h1
    have h2 : 0 < xs j := by
      rcases hpos.eq_or_lt with h0 | h0
      · rw [← h0, abs_zero] at hj
        exact absurd hj (not_lt.2 (by positivity))
      · exact h0
    exact mul_pos (by linarith) h2

/-- **C104**, SR3: a fit with relaxation without penalty or with the L1 penalty returns and reports `converged = True` whenever the iteration budget exceeds
`1 + 2 s F(x0) / tol²`, with `s` the first step length and `F(x0)` the objective of the plain model at the start. -/
theorem C104_converges_sr3 (M : LinModelCfg) (el : ℝ) (hel : 0 < el) (hs : M.sr3 = some (el, false)) (hpr : M.prior = .none) (hk : M.loggerKind = .tuple) (hks : M.loggerKeys.Nodup)
    (P : LinProblem ℝ) (hcm : P.c = 1) (x0 : Option (Vec ℝ P.n)) (warm : Bool)
    (w : Option (Vec ℝ P.n)) (lam : ℝ) (hreg : LassoLike (M.regularizer P.n (w.getD fun _ => 1)) lam (w.getD fun _ => 1))
    (hr : StepRule M.solver el) (htol : 0 < M.tol)
    (hmax : 1 + 2 * M.step * lassoObjective P.a P.b lam (w.getD fun _ => 1) (fitStart x0 warm) / M.tol ^ 2 < M.maxIter) :
    ∃ x Lf, linFit M P x0 warm w = .ok (x, Lf) ∧ Lf.get "converged" = .ok (.atom (.bool true)) := by
  have hdet := sr3H_one_det P.a el hel
  obtain ⟨x, Lf, s', Lz, h, hz, hfit⟩ : ∃ x Lf s' Lz, pgdOptimize (sr3Oracle P.a P.b 1 el false) (M.regularizer P.n (w.getD fun _ => 1)) M.solver (if warm then x0.getD fun _ => 1 else fun _ => 1)
      (Logger.init .tuple M.loggerKeys) () = .ok ((x, Lf), s') ∧ logIC Lf (sr3Aic P.a P.b x) (sr3Bic P.a P.b x) = .ok Lz ∧ linFit M P x0 warm w = .ok (x, Lz) := by
    obtain ⟨prox, hp, -, -, ⟨g, hv⟩, -⟩ := hreg.exact
    obtain ⟨x, Lf, s', h⟩ := C16_returns (sr3Oracle P.a P.b 1 el false) (M.regularizer P.n (w.getD fun _ => 1)) _ _ _
      (fun x s => ⟨s, sr3Oracle_value _ _ _ hel.le x s⟩) (fun x s => ⟨s, sr3Oracle_grad _ _ _ hel.le x s⟩) hv (fun y t => ⟨_, hp y t⟩) M.solver (if warm then x0.getD fun _ => 1 else fun _ => 1) _
      (Logger.good_init M.loggerKeys hks) ()
    obtain ⟨L', hL'⟩ := logIC_ok Lf (sr3Aic P.a P.b x) (sr3Bic P.a P.b x)
    refine ⟨x, Lf, s', L', h, hL', ?_⟩
    unfold linFit
    simp only [hs, hpr, hk, hcm]
    rw [if_neg hdet]
    simp only [Bool.false_eq_true, if_false]
    exact except_bind_ok.2 ⟨_, h, except_bind_ok.2 ⟨_, hL', rfl⟩⟩
  obtain ⟨prox, hp, hexact, hconvex, -, hpen⟩ := hreg.exact
  obtain ⟨hb, ht⟩ := sr3_belowParabola P.a P.b el hel
  obtain ⟨k, hc, -, -, -, h3⟩ := run_bounds (sr3Oracle P.a P.b 1 el false) _ (sr3Value P.a P.b 1 el) (sr3Gradient P.a P.b 1 el)
    (fun x s => ⟨s, sr3Oracle_value _ _ _ hel.le x s⟩) (fun x s => ⟨s, sr3Oracle_grad _ _ _ hel.le x s⟩) el hb ht _ hconvex prox hp hexact M.solver hr _ _ _ _ _ _ h
  refine ⟨x, Lz, hfit, ?_⟩
  rw [logIC_keeps _ _ _ _ hz _ (by decide) (by decide), hc]
  have h5 := h3 htol _ 0 rfl (fun v gv hgv => by
    rw [← WithTop.coe_inj.1 hgv]
    have h6 : 0 ≤ sr3Value P.a P.b 1 el v := by
      rw [← ((C32_value_is_partial_min P.a P.b el hel v).2 _).2 rfl]
      unfold relaxedLoss leastSquares
      positivity
    have := hpen v
    linarith)
  have h6 : sr3Value P.a P.b 1 el (fitStart x0 warm) + lam * ∑ i, (w.getD fun _ => 1) i * |fitStart x0 warm i| ≤ lassoObjective P.a P.b lam (w.getD fun _ => 1) (fitStart x0 warm) := by
    have h7 := (C32_value_is_partial_min P.a P.b el hel (fitStart x0 warm)).1 (fitStart x0 warm)
    unfold relaxedLoss leastSquares at h7
    simp only [sub_self, zero_pow two_ne_zero, Finset.sum_const_zero, mul_zero] at h7
    unfold lassoObjective
    linarith
  have hst : 0 ≤ M.step := hr.1.le
  have h7 : ((k : ℝ) - 1) * M.tol ^ 2 ≤ 2 * M.step * lassoObjective P.a P.b lam (w.getD fun _ => 1) (fitStart x0 warm) := by
    have h8 : ((k : ℝ) - 1) * M.tol ^ 2 ≤ 2 * M.step * (sr3Value P.a P.b 1 el (fitStart x0 warm) + lam * ∑ i, (w.getD fun _ => 1) i * |fitStart x0 warm i| - 0) := h5
    rw [sub_zero] at h8
    exact h8.trans (mul_le_mul_of_nonneg_left h6 (by positivity))
  have h4 : (k : ℝ) - 1 ≤ 2 * M.step * lassoObjective P.a P.b lam (w.getD fun _ => 1) (fitStart x0 warm) / M.tol ^ 2 := by
    rw [le_div_iff₀ (by positivity)]; exact h7
  have h8 : (k : ℝ) < M.maxIter := by linarith
  have h9 : (k : ℤ) < M.maxIter := by exact_mod_cast h8
  have h10 : (k : ℤ) < M.solver.maxIter := h9
  simp [h10]

/-- `LinearL1ModelSR3(lam=1, el=10)` with the other arguments at their defaults and a given budget of iterations. -/
def sr3Model (N : ℤ) : LinModelCfg := { lassoModel N with sr3 := some (10, false) }

theorem sr3Model_rule (N : ℤ) : StepRule (sr3Model N).solver 10 :=
  ⟨by norm_num [sr3Model, lassoModel, LinModelCfg.solver, LinModelCfg.step], by norm_num, by norm_num [sr3Model, lassoModel, LinModelCfg.solver]⟩

theorem sr3Model_floor (N : ℤ) : stepFloor (sr3Model N).solver 10 = 1 / 20 := by
  norm_num [stepFloor, sr3Model, lassoModel, LinModelCfg.solver, LinModelCfg.step]

/-- Non-vacuity of C104 for SR3 and of C152: a fit with relaxation weight `10` of two features, of which one matters, with errors `(1/10, -1/10)` and the default tolerance; with a large enough
budget it converges, the coefficient of the other feature is exactly zero, and the first one obeys the error bounds. -/
example : ∃ (N : ℤ) (x : Vec ℝ 2) (Lf : Logger (PyVal ℝ 2)), linFit (sr3Model N) (twoProblem ![1 / 10, -1 / 10]) none false none = .ok (x, Lf) ∧
    Lf.get "converged" = .ok (.atom (.bool true)) ∧ x 1 = 0 ∧ |x 0 - 5| ≤ 2 ∧ 0 < x 0 ∧
    √(∑ j, (x j - (![5, 0] : Vec ℝ 2) j) ^ 2) ≤ √(1 / 50) + 11 / 10 * √(2 * (1 + 3 / 10 ^ 4) ^ 2) := by
  obtain ⟨N, hN⟩ := exists_nat_gt (1 + 2 * (1 / 10) * lassoObjective (twoProblem ![1 / 10, -1 / 10]).a (twoProblem ![1 / 10, -1 / 10]).b 1 (fun _ => 1) (fun _ => 1) / (1 / 10 ^ 5) ^ 2)
  have hL : ∀ h : Vec ℝ 2, ∑ r, (∑ j, (1 : Matrix (Fin 2) (Fin 2) ℝ) r j * h j) ^ 2 ≤ 1 * ∑ j, h j ^ 2 := fun h => ((two_design h).trans (one_mul _).symm).le
  obtain ⟨x, Lf, h, hc⟩ : ∃ (x : Vec ℝ 2) (Lf : Logger (PyVal ℝ 2)), linFit (sr3Model N) (twoProblem ![1 / 10, -1 / 10]) none false none = .ok (x, Lf) ∧
      Lf.get "converged" = .ok (.atom (.bool true)) := C104_converges_sr3 (sr3Model N) 10 (by norm_num) rfl rfl rfl (by simp [sr3Model, lassoModel]) (twoProblem ![1 / 10, -1 / 10]) rfl none false none 1
    (Or.inr ⟨rfl, zero_le_one, fun _ => zero_le_one⟩) (sr3Model_rule _) (by norm_num [sr3Model, lassoModel]) (by
      have e : (sr3Model N).step = 1 / 10 := by norm_num [sr3Model, lassoModel, LinModelCfg.step]
      rw [e]
      simpa [sr3Model, lassoModel, fitStart] using hN)
  have h01 : ∀ j : Fin 2, j = 0 ∨ j = 1 := by decide
  have hs2 : √(2 : ℝ) ≤ 3 / 2 := by
    rw [show (3 / 2 : ℝ) = √((3 / 2) ^ 2) by rw [Real.sqrt_sq (by norm_num)]]
    exact Real.sqrt_le_sqrt (by norm_num)
  obtain ⟨h1, h2, h3⟩ := C152_support (sr3Model N) 10 (by norm_num) rfl (twoProblem ![1 / 10, -1 / 10]) rfl two_pos none false 1 one_pos (Or.inr ⟨rfl, zero_le_one, fun _ => zero_le_one⟩) (sr3Model_rule N)
    x Lf h hc ![5, 0] ![1 / 10, -1 / 10] (fun r => rfl) {(0 : Fin 2)} (fun j hj => by
      rcases h01 j with rfl | rfl
      · exact absurd (Finset.mem_singleton_self _) hj
      · rfl) 1 hL 1 0 one_pos (fun j => by
      show (1 : ℝ) ≤ ∑ r : Fin 2, (1 : Matrix (Fin 2) (Fin 2) ℝ) r j ^ 2
      rcases h01 j with rfl | rfl <;> simp [Matrix.one_apply, Fin.sum_univ_two]) (fun j k hjk => by
      show |∑ r : Fin 2, (1 : Matrix (Fin 2) (Fin 2) ℝ) r j * (1 : Matrix (Fin 2) (Fin 2) ℝ) r k| ≤ 0
      rcases h01 j with rfl | rfl <;> rcases h01 k with rfl | rfl
      · exact absurd rfl hjk
      · simp [Matrix.one_apply, Fin.sum_univ_two]
      · simp [Matrix.one_apply, Fin.sum_univ_two]
      · exact absurd rfl hjk) le_rfl (by simp) (fun j => by
      rw [sr3Model_floor]
      show |∑ r : Fin 2, (1 : Matrix (Fin 2) (Fin 2) ℝ) r j * (![1 / 10, -1 / 10] : Vec ℝ 2) r| + (1 / 10 ^ 5 * (1 / (1 / 20) + 10) + 1 * (√((2 : ℕ) : ℝ) * (1 + 1 / 10 ^ 5 * (1 / (1 / 20) + 10)) / 10)) ≤ 1 / 2
      have h4 : |∑ r : Fin 2, (1 : Matrix (Fin 2) (Fin 2) ℝ) r j * (![1 / 10, -1 / 10] : Vec ℝ 2) r| ≤ 1 / 10 := by
        rcases h01 j with rfl | rfl <;> simp [Matrix.one_apply, Fin.sum_univ_two] <;> norm_num [abs_le]
      rw [Nat.cast_ofNat]
      norm_num at h4 ⊢
      linarith)
  refine ⟨N, x, Lf, h, hc, h1 (1 : Fin 2) (fun hh => absurd (Finset.mem_singleton.1 hh) (show ¬ (1 : Fin 2) = 0 by decide)), ?_, ?_, ?_⟩
  · have h4 : |x 0 - 5| ≤ 2 * 1 / 1 := h2 (0 : Fin 2)
    linarith
  · have h4 : 0 < x 0 * 5 := h3 (0 : Fin 2) (by show 2 * (1 : ℝ) / 1 < |5|; norm_num)
    linarith
  · have h4 := C152_error (sr3Model N) 10 (by norm_num) rfl (twoProblem ![1 / 10, -1 / 10]) rfl two_pos none false none 1 (Or.inr ⟨rfl, zero_le_one, fun _ => zero_le_one⟩) (sr3Model_rule N)
      x Lf h hc ![5, 0] ![1 / 10, -1 / 10] (fun r => rfl) 1 one_pos fun h => ((two_design h).trans (one_mul _).symm).ge
    rw [sr3Model_floor] at h4
    have e1 : ∑ j : Fin 2, (∑ r : Fin 2, (1 : Matrix (Fin 2) (Fin 2) ℝ) r j * (![1 / 10, -1 / 10] : Vec ℝ 2) r) ^ 2 = 1 / 50 := by
      simp [Matrix.one_apply, Fin.sum_univ_two]; norm_num
    have e2 : ∑ j : Fin 2, (1 * ((none : Option (Vec ℝ 2)).getD fun _ => 1) j + 1 / 10 ^ 5 * (1 / (1 / 20) + 10)) ^ 2 = 2 * (1 + 3 / 10 ^ 4) ^ 2 := by
      rw [Fin.sum_univ_two]
      norm_num
    refine h4.trans (le_of_eq ?_)
    show (√(∑ j : Fin 2, (∑ r : Fin 2, (1 : Matrix (Fin 2) (Fin 2) ℝ) r j * (![1 / 10, -1 / 10] : Vec ℝ 2) r) ^ 2) +
      √(∑ j : Fin 2, (1 * ((none : Option (Vec ℝ 2)).getD fun _ => 1) j + 1 / 10 ^ 5 * (1 / (1 / 20) + 10)) ^ 2)) / 1 +
      √(∑ j : Fin 2, (1 * ((none : Option (Vec ℝ 2)).getD fun _ => 1) j + 1 / 10 ^ 5 * (1 / (1 / 20) + 10)) ^ 2) / 10 = _
    rw [e1, e2]
    ring

end

end Verif
