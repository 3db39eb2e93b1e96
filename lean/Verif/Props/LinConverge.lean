import Verif.Props.Converge
import Verif.Props.LinModels

/-!
# C102 (accuracy of converged fits), C103 (rate), C104 (termination), C105 (fixed steps) for the linear models without penalty and with the L1 penalty
-/

namespace Verif

open Matrix

variable {m n : ℕ}

/-! ## Vocabulary -/

/-- The regularizer of `SimpleLinearModel` (no penalty, `lam = 0`) or of `LinearL1Model` with strength `lam` and non-negative weights `w`. -/
def LassoLike (R : Regularizer ℝ n) (lam : ℝ) (w : Vec ℝ n) : Prop :=
  (R = dummyRegularizer ∧ lam = 0) ∨ (R = l1Regularizer lam (some w) ∧ 0 ≤ lam ∧ ∀ i, 0 ≤ w i)

/-- The lasso objective `1/2 ‖A x - b‖² + lam ∑ w_i |x_i|`, written out. -/
noncomputable def lassoObjective (A : Matrix (Fin m) (Fin n) ℝ) (b : Vec ℝ m) (lam : ℝ) (w x : Vec ℝ n) : ℝ :=
  (∑ r, ((∑ j, A r j * x j) - b r) ^ 2) / 2 + lam * ∑ i, w i * |x i|

/-- The relaxed (SR3) lasso objective of the pair `(v, x)`, written out. -/
noncomputable def relaxedLassoObjective (A : Matrix (Fin m) (Fin n) ℝ) (b : Vec ℝ m) (el lam : ℝ) (w v x : Vec ℝ n) : ℝ :=
  (∑ r, ((∑ j, A r j * v j) - b r) ^ 2) / 2 + el * (∑ j, (v j - x j) ^ 2) / 2 + lam * ∑ i, w i * |x i|

/-! ## The penalty -/

theorem l1Penalty_convex (lam : ℝ) (hlam : 0 ≤ lam) (w : Vec ℝ n) (hw : ∀ i, 0 ≤ w i) : ConvexPenalty (l1Penalty lam w) := by
  intro u v a b s hu hv hs0 hs1
  simp only [l1Penalty, WithTop.coe_inj, WithTop.coe_le_coe] at hu hv ⊢
  subst hu hv
  have h1 : ∑ i, w i * |u i + s * (v i - u i)| ≤ (∑ i, w i * |u i|) + s * ((∑ i, w i * |v i|) - ∑ i, w i * |u i|) := by
    rw [← Finset.sum_sub_distrib, Finset.mul_sum, ← Finset.sum_add_distrib]
    refine Finset.sum_le_sum fun i _ => ?_
    have h2 : |u i + s * (v i - u i)| ≤ |(1 - s) * u i| + |s * v i| := by
      rw [show u i + s * (v i - u i) = (1 - s) * u i + s * v i by ring]; exact abs_add_le _ _
    rw [abs_mul, abs_mul, abs_of_nonneg hs0, abs_of_nonneg (by linarith : 0 ≤ 1 - s)] at h2
    have h3 := mul_le_mul_of_nonneg_left h2 (hw i)
    linarith
  have h2 := mul_le_mul_of_nonneg_left h1 hlam
  linarith

/-- The prox of a lasso-like regularizer is exact for the true penalty. -/
theorem LassoLike.exact {R : Regularizer ℝ n} {lam : ℝ} {w : Vec ℝ n} (h : LassoLike R lam w) :
    ∃ prox : Vec ℝ n → ℝ → Vec ℝ n, (∀ y t, R.prox y t = .ok (prox y t)) ∧ (∀ y t, 0 < t → IsProxOf (l1Penalty lam w) t y (prox y t)) ∧
      ConvexPenalty (l1Penalty lam w) ∧ (∃ g : Vec ℝ n → WithTop ℝ, ∀ x, R.value x = .ok (g x)) ∧ ∀ x : Vec ℝ n, 0 ≤ lam * ∑ i, w i * |x i| := by
  rcases h with ⟨rfl, rfl⟩ | ⟨rfl, hlam, hw⟩
  · refine ⟨fun y _ => y, fun _ _ => rfl, fun y t ht => ⟨0, by simp [l1Penalty], fun u gu hu => ?_⟩, ?_, ⟨fun _ => 0, fun _ => rfl⟩, by simp⟩
    · simp only [l1Penalty, zero_mul, WithTop.coe_inj] at hu
      subst hu
      have h1 : normSq (y - y) = 0 := by simp [normSq]
      have h2 : 0 ≤ normSq (u - y) := Finset.sum_nonneg fun i _ => sq_nonneg _
      rw [h1]
      linarith
    · intro u v a b s hu hv _ _
      simp only [l1Penalty, zero_mul, WithTop.coe_inj, WithTop.coe_le_coe] at hu hv ⊢
      subst hu hv
      simp
  · refine ⟨fun y t i => soft (t * w i * lam) (y i), fun _ _ => rfl, fun y t ht => ?_, l1Penalty_convex lam hlam w hw,
      ⟨fun x => ((∑ i, w i * |x i| : ℝ) : WithTop ℝ), fun _ => rfl⟩,
      fun x => mul_nonneg hlam (Finset.sum_nonneg fun i _ => mul_nonneg (hw i) (abs_nonneg _))⟩
    obtain ⟨⟨z, hz, hex⟩, -⟩ := C03_l1_prox_unique_min lam w y t hlam hw ht.le
    cases hz
    exact hex.isProxOf

/-! ## The smooth parts -/

theorem linLoss_belowParabola (A : Matrix (Fin m) (Fin n) ℝ) (b : Vec ℝ m) (L : ℝ) (hL : ∀ h : Vec ℝ n, ∑ r, (∑ j, A r j * h j) ^ 2 ≤ L * ∑ j, h j ^ 2) :
    BelowParabola (linValueFunction A b .nonInformative) (linGradientValueFunction A b .nonInformative) L ∧
      (∀ x, AboveTangent (linValueFunction A b .nonInformative) (linGradientValueFunction A b .nonInformative x) x) := by
  obtain ⟨hexp, hpsd, -, -, htan⟩ := C31_linear_oracle A b (.nonInformative : InstPrior ℝ n) trivial
  refine ⟨fun x z => ?_, fun x v => htan x v⟩
  have h1 := hexp x (z - x)
  rw [add_sub_cancel, form_eq_dot] at h1
  have h2 : (z - x) ⬝ᵥ linHessian A (.nonInformative : InstPrior ℝ n) *ᵥ (z - x) = ∑ r, (∑ j, A r j * (z j - x j)) ^ 2 := by
    unfold linHessian
    rw [show (InstPrior.nonInformative : InstPrior ℝ n).hessian = 0 from rfl, add_zero, ← mulVec_mulVec, ← mulVec_dot, ← normSq_eq_dot]
    rfl
  rw [h2] at h1
  change linLoss A b _ z ≤ linLoss A b _ x + (∑ i, linGradient A b _ x i * (z i - x i)) + _
  have h3 := hL (z - x)
  simp only [Pi.sub_apply] at h1 h3
  rw [h1]
  linarith

theorem sr3_belowParabola (A : Matrix (Fin m) (Fin n) ℝ) (b : Vec ℝ m) (el : ℝ) (hel : 0 < el) :
    BelowParabola (sr3Value A b 1 el) (sr3Gradient A b 1 el) el ∧ (∀ x, AboveTangent (sr3Value A b 1 el) (sr3Gradient A b 1 el x) x) := by
  obtain ⟨⟨q, -, hq, hexp⟩, -⟩ := C33_gradient_exact_smooth A b el hel
  refine ⟨fun x z => ?_, fun x v => ?_⟩
  · have h1 := hexp x (z - x)
    have h2 := (hq (z - x)).2
    rw [add_sub_cancel] at h1
    simp only [Pi.sub_apply] at h1 h2
    linarith
  · have h1 := hexp x (v - x)
    have h2 := (hq (v - x)).1
    rw [add_sub_cancel] at h1
    simp only [Pi.sub_apply] at h1
    linarith

/-! ## The fits -/

/-- Logging the information criteria does not touch other entries. -/
theorem logIC_keeps {n : ℕ} (L L' : Logger (PyVal ℝ n)) (a b : ℝ) (h : logIC L a b = .ok L') (k : String) (h1 : k ≠ "aic") (h2 : k ≠ "bic") :
    L'.get k = L.get k := by
  unfold logIC at h
  by_cases h3 : "aic" ∈ L.keys
  · simp only [h3, if_true] at h
    obtain ⟨L1, hL1, h⟩ := except_bind_ok.1 h
    rw [← (Logger.add_get hL1).2 k h1]
    by_cases h4 : "bic" ∈ L1.keys
    · simp only [h4, if_true] at h
      exact (Logger.add_get h).2 k h2
    · simp only [h4, if_false] at h
      cases h; rfl
  · simp only [h3, if_false] at h
    obtain ⟨L1, hL1, h⟩ := except_bind_ok.1 h
    cases hL1
    by_cases h4 : "bic" ∈ L.keys
    · simp only [h4, if_true] at h
      exact (Logger.add_get h).2 k h2
    · simp only [h4, if_false] at h
      cases h; rfl

/-- The starting point of a fit: all ones, or the one given by the caller when `warm_start` is set. -/
def fitStart {n : ℕ} (x0 : Option (Vec ℝ n)) (warm : Bool) : Vec ℝ n := if warm then x0.getD fun _ => 1 else fun _ => 1

theorem linFit_plain_bounds (M : LinModelCfg) (hs : M.sr3 = none) (P : LinProblem ℝ) (x0 : Option (Vec ℝ P.n)) (warm : Bool) (w : Option (Vec ℝ P.n))
    (lam : ℝ) (hreg : LassoLike (M.regularizer P.n (w.getD fun _ => 1)) lam (w.getD fun _ => 1))
    (L : ℝ) (hL : ∀ h : Vec ℝ P.n, ∑ r, (∑ j, P.a r j * h j) ^ 2 ≤ L * ∑ j, h j ^ 2) (hr : StepRule M.solver L)
    (x : Vec ℝ P.n) (Lf : Logger (PyVal ℝ P.n)) (h : linFit M P x0 warm w = .ok (x, Lf)) :
    ∃ k : ℕ, Lf.get "converged" = .ok (.atom (.bool (decide ((k : ℤ) < M.maxIter)))) ∧ Lf.get "iteration" = .ok (.atom (.int k)) ∧
      ((k : ℤ) < M.maxIter → 0 < P.n → ∀ u, lassoObjective P.a P.b lam (w.getD fun _ => 1) x ≤ lassoObjective P.a P.b lam (w.getD fun _ => 1) u +
        (M.tol ^ 2 / 2 + M.tol * √(∑ j, (x j - u j) ^ 2)) / stepFloor M.solver L) ∧
      (0 < k → ∀ u, lassoObjective P.a P.b lam (w.getD fun _ => 1) x ≤ lassoObjective P.a P.b lam (w.getD fun _ => 1) u +
        (∑ j, (fitStart x0 warm j - u j) ^ 2) / (2 * stepFloor M.solver L * k)) ∧
      (0 < M.tol → ((k : ℝ) - 1) * M.tol ^ 2 ≤ 2 * M.step * lassoObjective P.a P.b lam (w.getD fun _ => 1) (fitStart x0 warm)) := by
  unfold linFit at h
  simp only [hs] at h
  obtain ⟨pr, hpr, h⟩ := except_bind_ok.1 h
  have hpr' : pr = .nonInformative := by
    unfold linOracleInstantiate at hpr
    cases hm : M.prior with
    | none => rw [hm] at hpr; cases hpr; rfl
    | gaussian params => rw [hm] at hpr; simp [gaussInstantiateArg] at hpr
  subst hpr'
  obtain ⟨⟨⟨y, Ly⟩, sy⟩, hy, h⟩ := except_bind_ok.1 h
  obtain ⟨Lz, hLz, h⟩ := except_bind_ok.1 h
  cases h
  obtain ⟨prox, hp, hexact, hconvex, -, hpen⟩ := hreg.exact
  obtain ⟨hb, ht⟩ := linLoss_belowParabola P.a P.b L hL
  obtain ⟨k, hc, hit, h1, h2, h3⟩ := run_bounds (linOracle P.a P.b .nonInformative) _ (linValueFunction P.a P.b .nonInformative)
    (linGradientValueFunction P.a P.b .nonInformative) (fun x s => ⟨s, rfl⟩) (fun x s => ⟨s, rfl⟩) L hb ht _ hconvex prox hp hexact M.solver hr _ _ _ _ _ _ hy
  have hobj : ∀ u, linValueFunction P.a P.b .nonInformative u + lam * ∑ i, (w.getD fun _ => 1) i * |u i| =
      lassoObjective P.a P.b lam (w.getD fun _ => 1) u := by
    intro u
    have := (C31_linear_oracle P.a P.b (.nonInformative : InstPrior ℝ P.n) trivial).2.2.1 u
    change linLoss P.a P.b _ u + _ = _
    rw [this]
    unfold lassoObjective leastSquares
    simp [InstPrior.loss]
  refine ⟨k, ?_, ?_, fun hlt hn u => ?_, fun hk u => ?_, fun htol => ?_⟩
  · rw [logIC_keeps _ _ _ _ hLz _ (by decide) (by decide)]; exact hc
  · rw [logIC_keeps _ _ _ _ hLz _ (by decide) (by decide)]; exact hit
  · obtain ⟨gx, hgx, h4⟩ := h1 hlt hn
    have h5 := h4 u _ rfl
    rw [show gx = lam * ∑ i, (w.getD fun _ => 1) i * |y i| from (WithTop.coe_inj.1 hgx).symm, hobj, hobj] at h5
    exact h5
  · obtain ⟨gx, hgx, h4⟩ := h2 hk
    have h5 := h4 u _ rfl
    rw [show gx = lam * ∑ i, (w.getD fun _ => 1) i * |y i| from (WithTop.coe_inj.1 hgx).symm, hobj, hobj] at h5
    exact h5
  · have h5 := h3 htol _ 0 rfl (fun v gv hgv => by
      rw [← WithTop.coe_inj.1 hgv]
      have e := (C31_linear_oracle P.a P.b (.nonInformative : InstPrior ℝ P.n) trivial).2.2.1 v
      have h6 : 0 ≤ linValueFunction P.a P.b .nonInformative v := by
        change 0 ≤ linLoss P.a P.b _ v
        rw [e]
        simp only [InstPrior.loss, add_zero, leastSquares]
        exact div_nonneg (Finset.sum_nonneg fun i _ => sq_nonneg _) (by norm_num)
      have := hpen v
      linarith)
    rw [hobj, sub_zero] at h5
    exact h5

/-- The value function of the relaxation plus the penalty, as a minimum of the relaxed lasso objective. -/
theorem sr3Value_lasso (A : Matrix (Fin m) (Fin n) ℝ) (b : Vec ℝ m) (el lam : ℝ) (hel : 0 < el) (w x : Vec ℝ n) :
    (∃ v, relaxedLassoObjective A b el lam w v x = sr3Value A b 1 el x + lam * ∑ i, w i * |x i|) ∧
      ∀ v, sr3Value A b 1 el x + lam * ∑ i, w i * |x i| ≤ relaxedLassoObjective A b el lam w v x := by
  obtain ⟨h1, h2⟩ := C32_value_is_partial_min A b el hel x
  refine ⟨⟨(Aᵀ * A + el • 1)⁻¹ *ᵥ (Aᵀ *ᵥ b + el • x), ?_⟩, fun v => ?_⟩
  · rw [← (h2 _).2 rfl]
    rfl
  · have := h1 v
    unfold relaxedLoss leastSquares at this
    unfold relaxedLassoObjective
    linarith

theorem linFit_sr3_bounds (M : LinModelCfg) (el : ℝ) (hel : 0 < el) (hs : M.sr3 = some (el, false)) (P : LinProblem ℝ) (hc : P.c = 1)
    (x0 : Option (Vec ℝ P.n)) (warm : Bool) (w : Option (Vec ℝ P.n))
    (lam : ℝ) (hreg : LassoLike (M.regularizer P.n (w.getD fun _ => 1)) lam (w.getD fun _ => 1)) (hr : StepRule M.solver el)
    (x : Vec ℝ P.n) (Lf : Logger (PyVal ℝ P.n)) (h : linFit M P x0 warm w = .ok (x, Lf)) :
    ∃ k : ℕ, Lf.get "converged" = .ok (.atom (.bool (decide ((k : ℤ) < M.maxIter)))) ∧ Lf.get "iteration" = .ok (.atom (.int k)) ∧
      ∃ v, ((k : ℤ) < M.maxIter → 0 < P.n → ∀ u v', relaxedLassoObjective P.a P.b el lam (w.getD fun _ => 1) v x ≤
        relaxedLassoObjective P.a P.b el lam (w.getD fun _ => 1) v' u +
          (M.tol ^ 2 / 2 + M.tol * √(∑ j, (x j - u j) ^ 2)) / stepFloor M.solver el) ∧
      (0 < k → ∀ u v', relaxedLassoObjective P.a P.b el lam (w.getD fun _ => 1) v x ≤ relaxedLassoObjective P.a P.b el lam (w.getD fun _ => 1) v' u +
        (∑ j, (fitStart x0 warm j - u j) ^ 2) / (2 * stepFloor M.solver el * k)) := by
  unfold linFit at h
  simp only [hs, hc] at h
  cases hm : M.prior with
  | gaussian params => rw [hm] at h; cases h
  | none =>
    rw [hm] at h
    simp only at h
    by_cases hdet : (sr3H P.a 1 el).det = 0
    · rw [if_pos hdet] at h; cases h
    rw [if_neg hdet] at h
    simp only [Bool.false_eq_true, if_false] at h
    obtain ⟨⟨⟨y, Ly⟩, sy⟩, hy, h⟩ := except_bind_ok.1 h
    obtain ⟨Lz, hLz, h⟩ := except_bind_ok.1 h
    cases h
    obtain ⟨prox, hp, hexact, hconvex, -, hpen⟩ := hreg.exact
    obtain ⟨hb, ht⟩ := sr3_belowParabola P.a P.b el hel
    obtain ⟨k, hc, hit, h1, h2, -⟩ := run_bounds (sr3Oracle P.a P.b 1 el false) _ (sr3Value P.a P.b 1 el) (sr3Gradient P.a P.b 1 el)
      (fun x s => ⟨s, sr3Oracle_value _ _ _ hel.le x s⟩) (fun x s => ⟨s, sr3Oracle_grad _ _ _ hel.le x s⟩) el hb ht _ hconvex prox hp hexact M.solver hr _ _ _ _ _ _ hy
    obtain ⟨v, hv⟩ := (sr3Value_lasso P.a P.b el lam hel (w.getD fun _ => 1) y).1
    refine ⟨k, ?_, ?_, v, fun hlt hn u v' => ?_, fun hk u v' => ?_⟩
    · rw [logIC_keeps _ _ _ _ hLz _ (by decide) (by decide)]; exact hc
    · rw [logIC_keeps _ _ _ _ hLz _ (by decide) (by decide)]; exact hit
    · obtain ⟨gx, hgx, h4⟩ := h1 hlt hn
      have h5 := h4 u _ rfl
      rw [show gx = lam * ∑ i, (w.getD fun _ => 1) i * |y i| from (WithTop.coe_inj.1 hgx).symm] at h5
      have h6 := (sr3Value_lasso P.a P.b el lam hel (w.getD fun _ => 1) u).2 v'
      rw [hv]
      refine h5.trans ?_
      exact add_le_add h6 le_rfl
    · obtain ⟨gx, hgx, h4⟩ := h2 hk
      have h5 := h4 u _ rfl
      rw [show gx = lam * ∑ i, (w.getD fun _ => 1) i * |y i| from (WithTop.coe_inj.1 hgx).symm] at h5
      have h6 := (sr3Value_lasso P.a P.b el lam hel (w.getD fun _ => 1) u).2 v'
      rw [hv]
      refine h5.trans ?_
      exact add_le_add h6 le_rfl

/-! ## C102 -/

/-- **C102**, plain models: if a fit without penalty or with the L1 penalty reports `converged = True`, its objective exceeds the objective at any point `u`
by at most `(tol²/2 + tol ‖x - u‖) / t`, where `t` is the smallest step length the run may use. -/
theorem C102_accuracy (M : LinModelCfg) (hs : M.sr3 = none) (P : LinProblem ℝ) (hn : 0 < P.n) (x0 : Option (Vec ℝ P.n)) (warm : Bool)
    (w : Option (Vec ℝ P.n)) (lam : ℝ) (hreg : LassoLike (M.regularizer P.n (w.getD fun _ => 1)) lam (w.getD fun _ => 1))
    (L : ℝ) (hL : ∀ h : Vec ℝ P.n, ∑ r, (∑ j, P.a r j * h j) ^ 2 ≤ L * ∑ j, h j ^ 2) (hr : StepRule M.solver L)
    (x : Vec ℝ P.n) (Lf : Logger (PyVal ℝ P.n)) (h : linFit M P x0 warm w = .ok (x, Lf)) (hc : Lf.get "converged" = .ok (.atom (.bool true)))
    (u : Vec ℝ P.n) :
    lassoObjective P.a P.b lam (w.getD fun _ => 1) x ≤ lassoObjective P.a P.b lam (w.getD fun _ => 1) u +
      (M.tol ^ 2 / 2 + M.tol * √(∑ j, (x j - u j) ^ 2)) / stepFloor M.solver L := by
  obtain ⟨k, h1, -, h2, -⟩ := linFit_plain_bounds M hs P x0 warm w lam hreg L hL hr x Lf h
  rw [hc] at h1
  have h3 : true = decide ((k : ℤ) < M.maxIter) := by injection h1 with h1; injection h1 with h1; injection h1
  exact h2 (of_decide_eq_true h3.symm) hn u

/-- **C102**, SR3 models: the same for the relaxed objective, minimised over both of its variables. -/
theorem C102_accuracy_sr3 (M : LinModelCfg) (el : ℝ) (hel : 0 < el) (hs : M.sr3 = some (el, false)) (P : LinProblem ℝ) (hcm : P.c = 1) (hn : 0 < P.n)
    (x0 : Option (Vec ℝ P.n)) (warm : Bool) (w : Option (Vec ℝ P.n))
    (lam : ℝ) (hreg : LassoLike (M.regularizer P.n (w.getD fun _ => 1)) lam (w.getD fun _ => 1)) (hr : StepRule M.solver el)
    (x : Vec ℝ P.n) (Lf : Logger (PyVal ℝ P.n)) (h : linFit M P x0 warm w = .ok (x, Lf)) (hc : Lf.get "converged" = .ok (.atom (.bool true))) :
    ∃ v, ∀ u v', relaxedLassoObjective P.a P.b el lam (w.getD fun _ => 1) v x ≤ relaxedLassoObjective P.a P.b el lam (w.getD fun _ => 1) v' u +
      (M.tol ^ 2 / 2 + M.tol * √(∑ j, (x j - u j) ^ 2)) / stepFloor M.solver el := by
  obtain ⟨k, h1, -, v, h2, -⟩ := linFit_sr3_bounds M el hel hs P hcm x0 warm w lam hreg hr x Lf h
  rw [hc] at h1
  have h3 : true = decide ((k : ℤ) < M.maxIter) := by injection h1 with h1; injection h1 with h1; injection h1
  exact ⟨v, h2 (of_decide_eq_true h3.symm) hn⟩

/-! ## C103 -/

/-- **C103**, plain models: after `k` iterations the objective exceeds the objective at any point `u` by at most `‖x0 - u‖² / (2 t k)`. -/
theorem C103_rate (M : LinModelCfg) (hs : M.sr3 = none) (P : LinProblem ℝ) (x0 : Option (Vec ℝ P.n)) (warm : Bool)
    (w : Option (Vec ℝ P.n)) (lam : ℝ) (hreg : LassoLike (M.regularizer P.n (w.getD fun _ => 1)) lam (w.getD fun _ => 1))
    (L : ℝ) (hL : ∀ h : Vec ℝ P.n, ∑ r, (∑ j, P.a r j * h j) ^ 2 ≤ L * ∑ j, h j ^ 2) (hr : StepRule M.solver L)
    (x : Vec ℝ P.n) (Lf : Logger (PyVal ℝ P.n)) (h : linFit M P x0 warm w = .ok (x, Lf)) :
    ∃ k : ℕ, Lf.get "iteration" = .ok (.atom (.int k)) ∧ ∀ u, 0 < k →
      lassoObjective P.a P.b lam (w.getD fun _ => 1) x ≤ lassoObjective P.a P.b lam (w.getD fun _ => 1) u +
        (∑ j, (fitStart x0 warm j - u j) ^ 2) / (2 * stepFloor M.solver L * k) := by
  obtain ⟨k, -, h1, -, h2, -⟩ := linFit_plain_bounds M hs P x0 warm w lam hreg L hL hr x Lf h
  exact ⟨k, h1, fun u hk => h2 hk u⟩

/-- **C103**, SR3 models. -/
theorem C103_rate_sr3 (M : LinModelCfg) (el : ℝ) (hel : 0 < el) (hs : M.sr3 = some (el, false)) (P : LinProblem ℝ) (hcm : P.c = 1)
    (x0 : Option (Vec ℝ P.n)) (warm : Bool) (w : Option (Vec ℝ P.n))
    (lam : ℝ) (hreg : LassoLike (M.regularizer P.n (w.getD fun _ => 1)) lam (w.getD fun _ => 1)) (hr : StepRule M.solver el)
    (x : Vec ℝ P.n) (Lf : Logger (PyVal ℝ P.n)) (h : linFit M P x0 warm w = .ok (x, Lf)) :
    ∃ k : ℕ, Lf.get "iteration" = .ok (.atom (.int k)) ∧ ∃ v, ∀ u v', 0 < k →
      relaxedLassoObjective P.a P.b el lam (w.getD fun _ => 1) v x ≤ relaxedLassoObjective P.a P.b el lam (w.getD fun _ => 1) v' u +
        (∑ j, (fitStart x0 warm j - u j) ^ 2) / (2 * stepFloor M.solver el * k) := by
  obtain ⟨k, -, h1, v, -, h2⟩ := linFit_sr3_bounds M el hel hs P hcm x0 warm w lam hreg hr x Lf h
  exact ⟨k, h1, v, fun u v' hk => h2 hk u v'⟩

/-! ## C104 -/

/-- **C104**: a plain fit without penalty or with the L1 penalty returns and reports `converged = True` whenever the iteration budget exceeds
`1 + 2 s F(x0) / tol²`, with `s` the first step length and `F(x0)` the objective at the start. -/
theorem C104_converges (M : LinModelCfg) (hs : M.sr3 = none) (hpr : M.prior = .none) (hk : M.loggerKind = .tuple) (hks : M.loggerKeys.Nodup)
    (P : LinProblem ℝ) (x0 : Option (Vec ℝ P.n)) (warm : Bool)
    (w : Option (Vec ℝ P.n)) (lam : ℝ) (hreg : LassoLike (M.regularizer P.n (w.getD fun _ => 1)) lam (w.getD fun _ => 1))
    (L : ℝ) (hL : ∀ h : Vec ℝ P.n, ∑ r, (∑ j, P.a r j * h j) ^ 2 ≤ L * ∑ j, h j ^ 2) (hr : StepRule M.solver L) (htol : 0 < M.tol)
    (hmax : 1 + 2 * M.step * lassoObjective P.a P.b lam (w.getD fun _ => 1) (fitStart x0 warm) / M.tol ^ 2 < M.maxIter) :
    ∃ x Lf, linFit M P x0 warm w = .ok (x, Lf) ∧ Lf.get "converged" = .ok (.atom (.bool true)) := by
  obtain ⟨x, Lf, h⟩ : ∃ x Lf, linFit M P x0 warm w = .ok (x, Lf) := by
    obtain ⟨prox, hp, -, -, ⟨g, hv⟩, -⟩ := hreg.exact
    unfold linFit
    simp only [hs, hpr, hk, linOracleInstantiate]
    obtain ⟨x, Lf, s', h⟩ := C16_returns (linOracle P.a P.b .nonInformative) (M.regularizer P.n (w.getD fun _ => 1)) _ _ _
      (fun x s => ⟨s, rfl⟩) (fun x s => ⟨s, rfl⟩) hv (fun y t => ⟨_, hp y t⟩) M.solver (if warm then x0.getD fun _ => 1 else fun _ => 1) _
      (Logger.good_init M.loggerKeys hks) ()
    obtain ⟨L', hL'⟩ := logIC_ok Lf (linAic P.a P.b .nonInformative x) (linBic P.a P.b .nonInformative x)
    exact ⟨x, L', except_bind_ok.2 ⟨_, rfl, except_bind_ok.2 ⟨_, h, except_bind_ok.2 ⟨_, hL', rfl⟩⟩⟩⟩
  obtain ⟨k, h1, -, -, -, h2⟩ := linFit_plain_bounds M hs P x0 warm w lam hreg L hL hr x Lf h
  refine ⟨x, Lf, h, ?_⟩
  have h3 := h2 htol
  have h4 : (k : ℝ) - 1 ≤ 2 * M.step * lassoObjective P.a P.b lam (w.getD fun _ => 1) (fitStart x0 warm) / M.tol ^ 2 := by
    rw [le_div_iff₀ (by positivity)]; exact h3
  have h5 : (k : ℝ) < M.maxIter := by linarith
  have h6 : (k : ℤ) < M.maxIter := by exact_mod_cast h5
  rw [h1]
  simp [h6]

/-- The sum of the squared entries bounds the curvature. -/
theorem frobenius_bound (A : Matrix (Fin m) (Fin n) ℝ) (h : Vec ℝ n) :
    ∑ r, (∑ j, A r j * h j) ^ 2 ≤ (∑ r, ∑ j, A r j ^ 2) * ∑ j, h j ^ 2 := by
  rw [Finset.sum_mul]
  exact Finset.sum_le_sum fun r _ => Finset.sum_mul_sq_le_sq_mul_sq Finset.univ (fun j => A r j) h

/-- The default constructor arguments of `LinearL1Model(lam=1)` with a given budget of iterations. -/
noncomputable def lassoModel (maxIter : ℤ) : LinModelCfg where
  sr3 := none
  tol := 1 / 10 ^ 5
  maxIter := maxIter
  stepping := "line-search"
  fixedStepLen := none
  prior := .none
  loggerKind := .tuple
  loggerKeys := ["converged"]
  regularizer := fun _ w => l1Regularizer 1 (some w)

/-- Non-vacuity of C102-C104: with the default arguments (line search from `5e-2`, tolerance `1e-5`), every problem whose data are not all zero and not huge meets the
hypotheses, and for a large enough budget the fit does converge. -/
example (P : LinProblem ℝ) (h0 : 0 < ∑ r, ∑ j, P.a r j ^ 2) (h1 : ∑ r, ∑ j, P.a r j ^ 2 ≤ 10 ^ 14) :
    ∃ (maxIter : ℤ) (x : Vec ℝ P.n) (Lf : Logger (PyVal ℝ P.n)), linFit (lassoModel maxIter) P none false none = .ok (x, Lf) ∧
      Lf.get "converged" = .ok (.atom (.bool true)) := by
  obtain ⟨N, hN⟩ := exists_nat_gt (1 + 2 * (5 / 100) * lassoObjective P.a P.b 1 (fun _ => 1) (fun _ => 1) / (1 / 10 ^ 5) ^ 2)
  refine ⟨N, C104_converges (lassoModel N) rfl rfl rfl (by simp [lassoModel]) P none false none 1
    (Or.inr ⟨rfl, zero_le_one, fun _ => zero_le_one⟩) _ (frobenius_bound P.a) ⟨?_, h0, ?_⟩ ?_ ?_⟩
  · norm_num [lassoModel, LinModelCfg.solver, LinModelCfg.step]
  · simpa [lassoModel, LinModelCfg.solver] using h1
  · norm_num [lassoModel]
  · simpa [lassoModel, LinModelCfg.step, fitStart] using hN

/-- Non-vacuity of C102 and C103 for SR3: the default step length `1/el` obeys the step rule with either stepping policy. -/
example (el : ℝ) (h0 : 0 < el) (h1 : el ≤ 10 ^ 14) (maxIter : ℤ) (st : String) :
    StepRule ({ lassoModel maxIter with sr3 := some (el, false), stepping := st } : LinModelCfg).solver el := by
  refine ⟨?_, h0, ?_⟩
  · simp [LinModelCfg.solver, LinModelCfg.step, lassoModel, h0.ne', h0]
  · simp only [LinModelCfg.solver, LinModelCfg.step, lassoModel, h0.ne', if_false]
    split_ifs
    · exact h1
    · exact le_rfl

/-! ## C105 -/

/-- `SimpleLinearModel(stepping="fixed", max_iter_solver=N)` with the other arguments at their defaults. -/
noncomputable def fixedModel (N : ℕ) : LinModelCfg where
  sr3 := none
  tol := 1 / 10 ^ 5
  maxIter := N
  stepping := "fixed"
  fixedStepLen := none
  prior := .none
  loggerKind := .tuple
  loggerKeys := ["converged"]
  regularizer := fun _ _ => dummyRegularizer

/-- One observation `0` and one feature `10`. -/
def tenProblem : LinProblem ℝ := ⟨1, 1, fun _ _ => 10, fun _ => 0, 1, none, .none⟩

theorem ten_gradient (x : Vec ℝ tenProblem.n) (i : Fin tenProblem.n) :
    linGradientValueFunction tenProblem.a tenProblem.b InstPrior.nonInformative x i = 100 * x i := by
  have hi : i = (⟨0, one_pos⟩ : Fin 1) := Subsingleton.elim (α := Fin 1) _ _
  rw [hi]
  show ∑ r : Fin 1, (10 : ℝ) * ((∑ j : Fin 1, (10 : ℝ) * x j) - 0) + 0 = 100 * x (0 : Fin 1)
  rw [Fin.sum_univ_one, Fin.sum_univ_one]
  ring

/-- **C105** is violated: with `stepping="fixed"` and the default step length the iterates of a least squares problem with one feature move away from the solution `0`
by the factor `4` in every iteration. The fit returns, for every budget `N`, the coefficient `(-4)^N` and reports `converged = False`. -/
theorem C105_fixed_violated (N : ℕ) : ∃ Lf, linFit (fixedModel N) tenProblem none false none = .ok (fun _ => (-4) ^ N, Lf) ∧
    Lf.get "converged" = .ok (.atom (.bool false)) := by
  obtain ⟨x, Lf, h⟩ := linFit_plain_returns (fixedModel N) rfl rfl rfl (by simp [fixedModel]) (fun _ _ _ => 0) (fun _ _ _ => rfl) (fun _ _ y _ => ⟨y, rfl⟩)
    tenProblem none false none
  have h' := h
  unfold linFit at h
  simp only [fixedModel, linOracleInstantiate] at h
  obtain ⟨pr, hpr, h⟩ := except_bind_ok.1 h
  cases hpr
  obtain ⟨⟨⟨y, Ly⟩, sy⟩, hy, h⟩ := except_bind_ok.1 h
  obtain ⟨Lz, hLz, h⟩ := except_bind_ok.1 h
  cases h
  obtain ⟨k, X, Ls, s1, L1, -, h0, hk, hc, hit, hsteps, hguards, hend⟩ := pgdOptimize_trace _ _ _ _ _
    (fun x _ x' _ => x' = fun i => -4 * x i)
    (fun x it L s x' L' s' hb => by
      obtain ⟨g, s1, step, s2, hg, hst, hp, _⟩ := pgdBody_ok _ _ _ _ _ _ _ _ _ _ _ hb
      cases hg
      unfold chooseStep at hst
      split_ifs at hst with hls
      · exact absurd hls (by simp [LinModelCfg.solver])
      obtain ⟨rfl, -⟩ := pure_ok.1 hst
      simp only [LinModelCfg.solver, LinModelCfg.step] at hp
      have e : (fun i => x i - 5 / 100 * linGradientValueFunction tenProblem.a tenProblem.b InstPrior.nonInformative x i) = x' := by
        simpa [dummyRegularizer] using hp
      rw [← e]
      funext i
      rw [ten_gradient]
      ring) _ _ _ _ hy
  have hX : ∀ i ≤ k, X i = fun _ => (-4 : ℝ) ^ i := by
    intro i
    induction i with
    | zero => intro _; rw [h0]; simp
    | succ i ih =>
      intro hi
      rw [hsteps i (by omega), ih (by omega)]
      funext j
      rw [pow_succ]; ring
  have hkN : k = N := by
    have h1 : k ≤ N := by
      cases k with
      | zero => omega
      | succ j =>
        have := (hguards j (by omega)).2
        simp [LinModelCfg.solver] at this
        omega
    rcases h1.lt_or_eq with h2 | h2
    · exfalso
      refine hend ⟨?_, by simpa [LinModelCfg.solver] using h2⟩
      cases k with
      | zero => exact Or.inl one_pos
      | succ j =>
        refine Or.inr ?_
        simp only [hX (j + 1) le_rfl, hX j (by omega)]
        have e : normSq ((fun _ => (-4 : ℝ) ^ (j + 1)) - (fun _ => (-4 : ℝ) ^ j) : Vec ℝ 1) = 25 * 16 ^ j := by
          simp only [normSq, Pi.sub_apply, Fin.sum_univ_one]
          rw [show ((-4 : ℝ) ^ (j + 1) - (-4) ^ j) ^ 2 = 25 * ((-4) ^ j) ^ 2 by rw [pow_succ]; ring, ← pow_mul, mul_comm j 2, pow_mul]
          norm_num
        have h3 : (1 : ℝ) ≤ 16 ^ j := one_le_pow₀ (by norm_num)
        refine lt_of_lt_of_eq ?_ e.symm
        norm_num [LinModelCfg.solver]
        linarith
    · exact h2
  have hyX : y = fun _ => (-4 : ℝ) ^ N := by rw [← hk, hX k le_rfl, hkN]
  refine ⟨Lf, ?_, ?_⟩
  · rw [h', ← hyX]
  · rw [logIC_keeps _ _ _ _ hLz _ (by decide) (by decide), (Logger.add_get hit).2 _ (by decide), (Logger.add_get hc).1, hkN]
    simp [LinModelCfg.solver]

/-- **C105**, what holds: with fixed steps of the default length `5e-2` every problem whose squared entries sum to at most `20` is fitted with `converged = True`, if the budget is large enough. -/
theorem C105_fixed_partial (P : LinProblem ℝ) (h0 : 0 < ∑ r, ∑ j, P.a r j ^ 2) (h1 : ∑ r, ∑ j, P.a r j ^ 2 ≤ 20) :
    ∃ N0 : ℕ, ∀ N ≥ N0, ∃ x Lf, linFit (fixedModel N) P none false none = .ok (x, Lf) ∧ Lf.get "converged" = .ok (.atom (.bool true)) := by
  obtain ⟨N0, hN0⟩ := exists_nat_gt (1 + 2 * (5 / 100) * lassoObjective P.a P.b 0 (fun _ => 1) (fun _ => 1) / (1 / 10 ^ 5) ^ 2)
  refine ⟨N0, fun N hN => C104_converges (fixedModel N) rfl rfl rfl (by simp [fixedModel]) P none false none 0
    (Or.inl ⟨rfl, rfl⟩) _ (frobenius_bound P.a) ⟨?_, h0, ?_⟩ ?_ ?_⟩
  · norm_num [fixedModel, LinModelCfg.solver, LinModelCfg.step]
  · simp only [fixedModel, LinModelCfg.solver, LinModelCfg.step]
    split_ifs with hls
    · exact absurd hls (by decide)
    · rw [le_div_iff₀ h0]
      exact (mul_le_mul_of_nonneg_left h1 (by norm_num)).trans (by norm_num)
  · norm_num [fixedModel]
  · have h2 : (N0 : ℝ) ≤ N := by exact_mod_cast hN
    have h3 := hN0.trans_le h2
    simpa [fixedModel, LinModelCfg.step, fitStart] using h3

/-- Non-vacuity of the partial C105: two features. -/
example : 0 < ∑ r, ∑ j, (!![1, 2; 0, 3] : Matrix (Fin 2) (Fin 2) ℝ) r j ^ 2 ∧ ∑ r, ∑ j, (!![1, 2; 0, 3] : Matrix (Fin 2) (Fin 2) ℝ) r j ^ 2 ≤ 20 := by
  simp [Fin.sum_univ_two]; norm_num

end Verif
