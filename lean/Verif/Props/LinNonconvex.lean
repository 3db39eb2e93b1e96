import Verif.Props.LinL0
import Verif.Props.Exact

/-!
# Convergence of linear fits with nonconvex penalties and fixed steps (C154)
-/

open Matrix

namespace Verif

noncomputable section

variable {m n : ℕ} {σ : Type}

/-- A run with fixed steps ends with a result if the proximal operator does at this step length. -/
theorem returns_fixed (o : Oracle ℝ n σ) (R : Regularizer ℝ n) (f : Vec ℝ n → ℝ) (gr : Vec ℝ n → Vec ℝ n) (g : Vec ℝ n → WithTop ℝ)
    (hf : o.Values f) (hgr : o.Grads gr) (hg : ∀ x, R.value x = .ok (g x)) (cfg : PGDCfg ℝ) (hst : cfg.stepping ≠ "line-search") (hp : ∀ y, ∃ z, R.prox y cfg.fixedStepLen = .ok z)
    (x0 : Vec ℝ n) (L : Logger (PyVal ℝ n)) (hL : L.Good) (s : σ) :
    ∃ x Lf s', pgdOptimize o R cfg x0 L s = .ok ((x, Lf), s') := by
  have hloop : ∀ (x : Vec ℝ n) (xprev : Option (Vec ℝ n)) (it : ℕ) (L : Logger (PyVal ℝ n)), L.Good → ∀ s,
      ∃ r s', pgdLoop o R cfg x0 x xprev it L s = .ok (r, s') ∧ r.2.2.Good := by
    intro x xprev it L
    induction x, xprev, it, L using pgdLoop.induct (cfg := cfg) with
    | case1 x xprev it L hgd ih =>
      intro hL s
      rw [pgdLoop, dif_pos hgd]
      obtain ⟨s1, h1⟩ := hgr x s
      have h2 : chooseStep o R cfg x (-(gr x)) s1 = .ok (cfg.fixedStepLen, s1) := by
        unfold chooseStep
        rw [if_neg hst]
        rfl
      obtain ⟨x', hx'⟩ := hp (x + cfg.fixedStepLen • -(gr x))
      obtain ⟨L', s3, h3, hL', _⟩ := logBlock_returns o R f g hf hg L hL x'
        (localsIter x0 x (-(gr x)) (x + cfg.fixedStepLen • -(gr x)) x' cfg.fixedStepLen (it + 1)) s1
      have hb : pgdBody o R cfg x0 x it L s = .ok ((x', L'), s3) := by
        unfold pgdBody
        exact bind_ok.2 ⟨_, s1, h1, bind_ok.2 ⟨_, s1, h2, bind_ok.2 ⟨x', s1, callReg_ok.2 ⟨hx', rfl⟩, bind_ok.2 ⟨L', s3, h3, rfl⟩⟩⟩⟩
      obtain ⟨r, s', hr, hrg⟩ := ih (x', L') hL' s3
      exact ⟨r, s', bind_ok.2 ⟨_, _, hb, hr⟩, hrg⟩
    | case2 x xprev it L hgd =>
      intro hL s
      rw [pgdLoop, dif_neg hgd]
      exact ⟨_, s, rfl, hL⟩
  obtain ⟨L0, s0, h0, hL0, _⟩ := logBlock_returns o R f g hf hg L hL x0 (localsInit x0) s
  obtain ⟨r, s1, h1, hr⟩ := hloop x0 none 0 L0 hL0 s0
  obtain ⟨L1, h2, hL1, _⟩ := hr.add "converged" (.atom (.bool (decide ((r.2.1 : ℤ) < cfg.maxIter))))
  obtain ⟨L2, h3, _⟩ := hL1.add "iteration" (.atom (.int r.2.1))
  refine ⟨r.1, L2, s1, ?_⟩
  unfold pgdOptimize
  exact bind_ok.2 ⟨L0, s0, h0, bind_ok.2 ⟨r, s1, h1, bind_ok.2 ⟨L1, s1, callReg_ok.2 ⟨h2, rfl⟩,
    bind_ok.2 ⟨L2, s1, callReg_ok.2 ⟨h3, rfl⟩, rfl⟩⟩⟩⟩

/-- One step with an exact proximal operator, without convexity of the penalty. -/
theorem exact_step_le (f : Vec ℝ n → ℝ) (gr : Vec ℝ n → Vec ℝ n) (L : ℝ) (hb : BelowParabola f gr L) (g : Vec ℝ n → WithTop ℝ) (s : ℝ) (hs : 0 < s) (x z : Vec ℝ n)
    (hz : IsProxOf g s (fun i => x i - s * gr x i) z) : ∃ gz : ℝ, g z = gz ∧ ∀ (u : Vec ℝ n) (gu : ℝ), g u = gu →
      f z + gz + (1 / s - L) / 2 * normSq (z - x) ≤ f x + (∑ i, gr x i * (u i - x i)) + gu + normSq (u - x) / (2 * s) := by
  obtain ⟨gz, hgz, hmin⟩ := hz
  refine ⟨gz, hgz, fun u gu hgu => ?_⟩
  have h1 := hmin u gu hgu
  have e : ∀ v : Vec ℝ n, normSq (v - fun i => x i - s * gr x i) = normSq (v - x) + 2 * s * (∑ i, gr x i * (v i - x i)) + s ^ 2 * ∑ i, gr x i ^ 2 := fun v => by
    simp only [normSq, Pi.sub_apply, Finset.mul_sum, ← Finset.sum_add_distrib]
    exact Finset.sum_congr rfl fun i _ => by ring
  rw [e, e] at h1
  have h2 := hb x z
  have h3 : normSq (z - x) = ∑ i, (z i - x i) ^ 2 := rfl
  rw [← h3] at h2
  have h4 : gz + (∑ i, gr x i * (z i - x i)) + 1 / s / 2 * normSq (z - x) ≤ gu + (∑ i, gr x i * (u i - x i)) + normSq (u - x) / (2 * s) := by
    have h5 : s * (gz + (∑ i, gr x i * (z i - x i)) + 1 / s / 2 * normSq (z - x)) ≤ s * (gu + (∑ i, gr x i * (u i - x i)) + normSq (u - x) / (2 * s)) := by
      have e1 : s * (gz + (∑ i, gr x i * (z i - x i)) + 1 / s / 2 * normSq (z - x)) = s * gz + s * (∑ i, gr x i * (z i - x i)) + normSq (z - x) / 2 := by field_simp
      have e2 : s * (gu + (∑ i, gr x i * (u i - x i)) + normSq (u - x) / (2 * s)) = s * gu + s * (∑ i, gr x i * (u i - x i)) + normSq (u - x) / 2 := by field_simp
      rw [e1, e2]
      linarith
    exact le_of_mul_le_mul_left h5 hs
  linarith

/-- The number of iterations of a run with fixed steps below the inverse curvature and an exact proximal operator. -/
theorem run_fixed_bound (o : Oracle ℝ n σ) (R : Regularizer ℝ n) (f : Vec ℝ n → ℝ) (gr : Vec ℝ n → Vec ℝ n) (hgr : o.Grads gr)
    (L : ℝ) (hb : BelowParabola f gr L) (hconv : ∀ x, AboveTangent f (gr x) x) (g : Vec ℝ n → WithTop ℝ) (cfg : PGDCfg ℝ) (hst : cfg.stepping ≠ "line-search")
    (hs : 0 < cfg.fixedStepLen) (hsL : cfg.fixedStepLen * L < 1) (hex : ∀ y, ∃ z, R.prox y cfg.fixedStepLen = .ok z ∧ IsProxOf g cfg.fixedStepLen y z)
    (B : ℝ) (hB : ∀ (v : Vec ℝ n) (gv : ℝ), g v = gv → B ≤ f v + gv) (htol : 0 < cfg.tol) (u : Vec ℝ n) (gu : ℝ) (hgu : g u = gu) (x0 : Vec ℝ n) (Lg : Logger (PyVal ℝ n))
    (s s' : σ) (x : Vec ℝ n) (Lf : Logger (PyVal ℝ n)) (h : pgdOptimize o R cfg x0 Lg s = .ok ((x, Lf), s')) :
    ∃ k : ℕ, Lf.get "converged" = .ok (.atom (.bool (decide ((k : ℤ) < cfg.maxIter)))) ∧
      ((k : ℝ) - 2) * (cfg.tol ^ 2 * (1 / cfg.fixedStepLen - L) / 2) ≤ f u + gu + normSq (u - x0) / (2 * cfg.fixedStepLen) - B := by
  have hgap : 0 < 1 / cfg.fixedStepLen - L := by
    rw [sub_pos, lt_div_iff₀ hs, mul_comm]
    exact hsL
  obtain ⟨k, X, Ls, s1, L1, -, h0, hk, hcv, hit, hsteps, hguards, -⟩ := pgdOptimize_trace o R cfg _ _
    (fun x _ x' _ => IsProxOf g cfg.fixedStepLen (fun i => x i - cfg.fixedStepLen * gr x i) x')
    (fun x it L' s x' L'' s' hbd => by
      obtain ⟨gv, s1, t, s2, hgv, hstp, hpx', -⟩ := pgdBody_ok _ _ _ _ _ _ _ _ _ _ _ hbd
      obtain ⟨s3, hgv'⟩ := hgr x s
      rw [hgv'] at hgv
      obtain ⟨rfl, rfl⟩ := Prod.mk.inj (Except.ok.inj hgv)
      unfold chooseStep at hstp
      rw [if_neg hst] at hstp
      obtain ⟨rfl, -⟩ := pure_ok.1 hstp
      obtain ⟨z, hz, hpz⟩ := hex (fun i => x i - cfg.fixedStepLen * gr x i)
      rw [hz] at hpx'
      rw [← Except.ok.inj hpx']
      exact hpz) _ _ _ _ h
  refine ⟨k, by rw [(Logger.add_get hit).2 _ (by decide), (Logger.add_get hcv).1], ?_⟩
  have hG : ∀ i, ∃ gi : ℝ, 1 ≤ i → i ≤ k → g (X i) = gi := by
    intro i
    by_cases hi : 1 ≤ i ∧ i ≤ k
    · obtain ⟨j, rfl⟩ : ∃ j, i = j + 1 := ⟨i - 1, by omega⟩
      obtain ⟨gz, hgz, -⟩ := hsteps j (by omega)
      exact ⟨gz, fun _ _ => hgz⟩
    · exact ⟨0, fun h1 h2 => absurd ⟨h1, h2⟩ hi⟩
  choose G hG using hG
  have hnn : 0 ≤ f u + gu + normSq (u - x0) / (2 * cfg.fixedStepLen) - B := by
    have h1 := hB u gu hgu
    have h2 : 0 ≤ normSq (u - x0) / (2 * cfg.fixedStepLen) := div_nonneg (Finset.sum_nonneg fun i _ => sq_nonneg _) (by positivity)
    linarith
  obtain ⟨c, hc⟩ : ∃ c, c = cfg.tol ^ 2 * (1 / cfg.fixedStepLen - L) / 2 := ⟨_, rfl⟩
  have hc0 : 0 < c := by rw [hc]; positivity
  rw [← hc]
  have hfirst : 1 ≤ k → f (X 1) + G 1 ≤ f u + gu + normSq (u - x0) / (2 * cfg.fixedStepLen) := fun h1k => by
    obtain ⟨gz, hgz, h1⟩ := exact_step_le f gr L hb g _ hs _ _ (hsteps 0 (by omega))
    have e := hG 1 le_rfl h1k
    rw [show X (0 + 1) = X 1 from rfl] at hgz h1
    rw [hgz] at e
    obtain rfl := WithTop.coe_inj.1 e
    have h2 := h1 u gu hgu
    rw [h0] at h2
    have h3 := hconv x0 u
    have h4 : 0 ≤ (1 / cfg.fixedStepLen - L) / 2 * normSq (X 1 - x0) := mul_nonneg (by linarith) (Finset.sum_nonneg fun i _ => sq_nonneg _)
    linarith
  have hdesc : ∀ i, i + 1 < k → f (X (i + 1)) + G (i + 1) + i * c ≤ f (X 1) + G 1 := by
    intro i
    induction i with
    | zero => intro _; simp
    | succ i ih =>
      intro hi
      have h1 := ih (by omega)
      obtain ⟨gz, hgz, h2⟩ := exact_step_le f gr L hb g _ hs _ _ (hsteps (i + 1) (by omega))
      have e := hG (i + 1 + 1) (by omega) (by omega)
      rw [hgz] at e
      obtain rfl := WithTop.coe_inj.1 e
      have h3 := h2 (X (i + 1)) (G (i + 1)) (hG (i + 1) (by omega) (by omega))
      have h4 : normSq (X (i + 1) - X (i + 1)) = 0 := by simp [normSq]
      have h5 : ∑ j, gr (X (i + 1)) j * (X (i + 1) j - X (i + 1) j) = 0 := by simp
      rw [h4, h5, zero_div] at h3
      have h6 := (hguards (i + 1 + 1) (by omega)).1
      have h7 : cfg.tol ^ 2 < normSq (X (i + 1 + 1) - X (i + 1)) := by
        rcases h6 with h6 | h6
        · exact absurd h6 (not_lt.2 htol.le)
        · exact h6
      have h8 := mul_le_mul_of_nonneg_left h7.le (by linarith : 0 ≤ (1 / cfg.fixedStepLen - L) / 2)
      have h9 : c = (1 / cfg.fixedStepLen - L) / 2 * cfg.tol ^ 2 := by rw [hc]; ring
      rw [← h9] at h8
      push_cast
      linarith
  rcases Nat.lt_or_ge k 2 with hk2 | hk2
  · have h1 : (k : ℝ) - 2 ≤ 0 := by
      have : (k : ℝ) < 2 := by exact_mod_cast hk2
      linarith
    exact (mul_nonpos_of_nonpos_of_nonneg h1 hc0.le).trans hnn
  · obtain ⟨i, rfl⟩ : ∃ i, k = i + 2 := ⟨k - 2, by omega⟩
    have h1 := hdesc i (by omega)
    have h2 := hfirst (by omega)
    have h3 := hB (X (i + 1)) (G (i + 1)) (hG (i + 1) (by omega) (by omega))
    push_cast
    linarith

/-- **C154**, plain models: with fixed steps shorter than the inverse curvature, a fit with any nonnegative penalty whose proximal operator is exact at the step length returns and reports `converged = True`
whenever the budget of iterations exceeds `2 + (2 F(u) + ‖u - x0‖²/s) / ((1/s - L) tol²)` for some point `u` (for instance `u = 0`). -/
theorem C154_converges (M : LinModelCfg) (hs : M.sr3 = none) (hpr : M.prior = .none) (hk : M.loggerKind = .tuple) (hks : M.loggerKeys.Nodup) (hst : M.stepping ≠ "line-search")
    (P : LinProblem ℝ) (x0 : Option (Vec ℝ P.n)) (warm : Bool) (w : Option (Vec ℝ P.n)) (hs0 : 0 < M.step)
    (L : ℝ) (hL : ∀ h : Vec ℝ P.n, ∑ r, (∑ j, P.a r j * h j) ^ 2 ≤ L * ∑ j, h j ^ 2) (hsL : M.step * L < 1) (htol : 0 < M.tol)
    (hex : ∀ y, (M.regularizer P.n (w.getD fun _ => 1)).ExactAt M.step y) (hnn : ∀ v (gv : ℝ), (M.regularizer P.n (w.getD fun _ => 1)).value v = .ok gv → 0 ≤ gv)
    (u : Vec ℝ P.n) (gu : ℝ) (hgu : (M.regularizer P.n (w.getD fun _ => 1)).value u = .ok gu)
    (hmax : 2 + (∑ r, ((∑ j, P.a r j * u j) - P.b r) ^ 2 + 2 * gu + (∑ j, (u j - fitStart x0 warm j) ^ 2) / M.step) / ((1 / M.step - L) * M.tol ^ 2) < M.maxIter) :
    ∃ x Lf, linFit M P x0 warm w = .ok (x, Lf) ∧ Lf.get "converged" = .ok (.atom (.bool true)) := by
  obtain ⟨g, hg, -⟩ := hex 0
  have hex' : ∀ y, ∃ z, (M.regularizer P.n (w.getD fun _ => 1)).prox y M.step = .ok z ∧ IsProxOf g M.step y z := fun y => by
    obtain ⟨g', hg', z, hz, hp⟩ := hex y
    have e : g' = g := funext fun v => Except.ok.inj ((hg' v).symm.trans (hg v))
    rw [e] at hp
    exact ⟨z, hz, hp⟩
  obtain ⟨x, Lf, s', h⟩ := returns_fixed (linOracle P.a P.b .nonInformative) (M.regularizer P.n (w.getD fun _ => 1)) _ _ g
    (fun x s => ⟨s, rfl⟩) (fun x s => ⟨s, rfl⟩) hg M.solver hst (fun y => (hex' y).imp fun z hz => hz.1) (if warm then x0.getD fun _ => 1 else fun _ => 1) _
    (Logger.good_init M.loggerKeys hks) ()
  obtain ⟨L', hL'⟩ := logIC_ok Lf (linAic P.a P.b .nonInformative x) (linBic P.a P.b .nonInformative x)
  refine ⟨x, L', ?_, ?_⟩
  · unfold linFit
    simp only [hs, hpr, hk, linOracleInstantiate]
    exact except_bind_ok.2 ⟨_, rfl, except_bind_ok.2 ⟨_, h, except_bind_ok.2 ⟨_, hL', rfl⟩⟩⟩
  · rw [logIC_keeps _ _ _ _ hL' _ (by decide) (by decide)]
    have hval : ∀ v, linValueFunction P.a P.b .nonInformative v = (∑ r, ((∑ j, P.a r j * v j) - P.b r) ^ 2) / 2 := fun v => by
      have e := (C31_linear_oracle P.a P.b (.nonInformative : InstPrior ℝ P.n) trivial).2.2.1 v
      change linLoss P.a P.b _ v = _
      rw [e]
      simp only [InstPrior.loss, add_zero, leastSquares]
    obtain ⟨hb, ht⟩ := linLoss_belowParabola P.a P.b L hL
    obtain ⟨k, hc, hbd⟩ := run_fixed_bound (linOracle P.a P.b .nonInformative) _ (linValueFunction P.a P.b .nonInformative) (linGradientValueFunction P.a P.b .nonInformative) (fun x s => ⟨s, rfl⟩)
      L hb ht g M.solver hst hs0 hsL hex' 0 (fun v gv hgv => by
        have h1 := hnn v gv (by rw [hg, hgv])
        rw [hval]
        have : 0 ≤ ∑ r, ((∑ j, P.a r j * v j) - P.b r) ^ 2 := Finset.sum_nonneg fun r _ => sq_nonneg _
        linarith) htol u gu (Except.ok.inj ((hg u).symm.trans hgu)) _ _ _ _ _ _ h
    rw [hc]
    have hbd' : ((k : ℝ) - 2) * (M.tol ^ 2 * (1 / M.step - L) / 2) ≤ linValueFunction P.a P.b .nonInformative u + gu + (∑ j, (u j - fitStart x0 warm j) ^ 2) / (2 * M.step) - 0 := hbd
    rw [hval, sub_zero] at hbd'
    have hgap : 0 < (1 / M.step - L) * M.tol ^ 2 := by
      refine mul_pos ?_ (by positivity)
      rw [sub_pos, lt_div_iff₀ hs0, mul_comm]
      exact hsL
    have h4 : (k : ℝ) - 2 ≤ (∑ r, ((∑ j, P.a r j * u j) - P.b r) ^ 2 + 2 * gu + (∑ j, (u j - fitStart x0 warm j) ^ 2) / M.step) / ((1 / M.step - L) * M.tol ^ 2) := by
      rw [le_div_iff₀ hgap]
      have e : (∑ j, (u j - fitStart x0 warm j) ^ 2) / M.step = 2 * ((∑ j, (u j - fitStart x0 warm j) ^ 2) / (2 * M.step)) := by field_simp
      rw [e]
      linarith
    have h8 : (k : ℝ) < M.maxIter := by linarith
    have h9 : (k : ℤ) < M.maxIter := by exact_mod_cast h8
    have h10 : (k : ℤ) < M.solver.maxIter := h9
    simp [h10]

/-- The proximal operator of the L0 penalty with nonzero weights is exact. -/
theorem l0_exactAt (k : ℕ) (as : ArgSort (Fin n) ℝ) (ws : L0Weights ℝ n) (hw : ∀ i, ws.w i ≠ 0) (t : ℝ) (y : Vec ℝ n) :
    (l0Regularizer (some (k : ℤ)) as (some ws)).ExactAt t y := by
  obtain ⟨hp, ⟨T, hT, -, h0, -⟩, hbest⟩ := l0_keepsLargest k as ws hw y t
  have hval : ∀ v : Vec ℝ n, (l0Regularizer (some (k : ℤ)) as (some ws)).value v = .ok (if numNonzero v ≤ k then 0 else ⊤) := fun v => by
    split_ifs with hv
    · exact (C01_l0_value (k : ℤ) as (some ws) v).1 (by exact_mod_cast hv)
    · exact (C01_l0_value (k : ℤ) as (some ws) v).2.1 (by exact_mod_cast not_le.1 hv)
  refine ⟨_, hval, _, hp, 0, ?_, fun u gu hgu => ?_⟩
  · have h1 : numNonzero (maskedKMax (participation ws.w) ws.as y k) ≤ T.card := by
      unfold numNonzero
      rw [← Set.ncard_coe_finset]
      refine Set.ncard_le_ncard (fun i hi => ?_) (Finset.finite_toSet _)
      by_contra h2
      exact hi (h0 i h2)
    exact if_pos (h1.trans (hT.le.trans (min_le_left _ _)))
  · have hu : numNonzero u ≤ k := by
      by_contra hcon
      exact WithTop.top_ne_coe ((if_neg hcon).symm.trans hgu)
    have hgu0 : gu = 0 := by
      have h1 : (0 : WithTop ℝ) = gu := (if_pos hu).symm.trans hgu
      exact_mod_cast h1.symm
    rw [hgu0]
    have := hbest u hu
    have e : ∀ v : Vec ℝ n, normSq (v - y) = ∑ i, (v i - y i) ^ 2 := fun v => rfl
    rw [e, e]
    linarith

/-- **C154**, SR3 models (not practical): as for plain models, with `el` as the curvature. -/
theorem C154_converges_sr3 (M : LinModelCfg) (el : ℝ) (hel : 0 < el) (hs : M.sr3 = some (el, false)) (hpr : M.prior = .none) (hk : M.loggerKind = .tuple) (hks : M.loggerKeys.Nodup)
    (hst : M.stepping ≠ "line-search") (P : LinProblem ℝ) (hcm : P.c = 1) (x0 : Option (Vec ℝ P.n)) (warm : Bool) (w : Option (Vec ℝ P.n)) (hs0 : 0 < M.step) (hsL : M.step * el < 1) (htol : 0 < M.tol)
    (hex : ∀ y, (M.regularizer P.n (w.getD fun _ => 1)).ExactAt M.step y) (hnn : ∀ v (gv : ℝ), (M.regularizer P.n (w.getD fun _ => 1)).value v = .ok gv → 0 ≤ gv)
    (u : Vec ℝ P.n) (gu : ℝ) (hgu : (M.regularizer P.n (w.getD fun _ => 1)).value u = .ok gu)
    (hmax : 2 + (∑ r, ((∑ j, P.a r j * u j) - P.b r) ^ 2 + 2 * gu + (∑ j, (u j - fitStart x0 warm j) ^ 2) / M.step) / ((1 / M.step - el) * M.tol ^ 2) < M.maxIter) :
    ∃ x Lf, linFit M P x0 warm w = .ok (x, Lf) ∧ Lf.get "converged" = .ok (.atom (.bool true)) := by
  have hdet := sr3H_one_det P.a el hel
  obtain ⟨g, hg, -⟩ := hex 0
  have hex' : ∀ y, ∃ z, (M.regularizer P.n (w.getD fun _ => 1)).prox y M.step = .ok z ∧ IsProxOf g M.step y z := fun y => by
    obtain ⟨g', hg', z, hz, hp⟩ := hex y
    have e : g' = g := funext fun v => Except.ok.inj ((hg' v).symm.trans (hg v))
    rw [e] at hp
    exact ⟨z, hz, hp⟩
  obtain ⟨x, Lf, s', h⟩ := returns_fixed (sr3Oracle P.a P.b 1 el false) (M.regularizer P.n (w.getD fun _ => 1)) _ _ g
    (fun x s => ⟨s, sr3Oracle_value _ _ _ hel.le x s⟩) (fun x s => ⟨s, sr3Oracle_grad _ _ _ hel.le x s⟩) hg M.solver hst (fun y => (hex' y).imp fun z hz => hz.1)
    (if warm then x0.getD fun _ => 1 else fun _ => 1) _ (Logger.good_init M.loggerKeys hks) ()
  obtain ⟨L', hL'⟩ := logIC_ok Lf (sr3Aic P.a P.b x) (sr3Bic P.a P.b x)
  refine ⟨x, L', ?_, ?_⟩
  · unfold linFit
    simp only [hs, hpr, hk, hcm]
    rw [if_neg hdet]
    simp only [Bool.false_eq_true, if_false]
    exact except_bind_ok.2 ⟨_, h, except_bind_ok.2 ⟨_, hL', rfl⟩⟩
  · rw [logIC_keeps _ _ _ _ hL' _ (by decide) (by decide)]
    obtain ⟨hb, ht⟩ := sr3_belowParabola P.a P.b el hel
    obtain ⟨k, hc, hbd⟩ := run_fixed_bound (sr3Oracle P.a P.b 1 el false) _ (sr3Value P.a P.b 1 el) (sr3Gradient P.a P.b 1 el) (fun x s => ⟨s, sr3Oracle_grad _ _ _ hel.le x s⟩)
      el hb ht g M.solver hst hs0 hsL hex' 0 (fun v gv hgv => by
        have h1 := hnn v gv (by rw [hg, hgv])
        have h6 : 0 ≤ sr3Value P.a P.b 1 el v := by
          rw [← ((C32_value_is_partial_min P.a P.b el hel v).2 _).2 rfl]
          unfold relaxedLoss leastSquares
          positivity
        linarith) htol u gu (Except.ok.inj ((hg u).symm.trans hgu)) _ _ _ _ _ _ h
    rw [hc]
    have hbd' : ((k : ℝ) - 2) * (M.tol ^ 2 * (1 / M.step - el) / 2) ≤ sr3Value P.a P.b 1 el u + gu + (∑ j, (u j - fitStart x0 warm j) ^ 2) / (2 * M.step) - 0 := hbd
    rw [sub_zero] at hbd'
    have h7 := (C32_value_is_partial_min P.a P.b el hel u).1 u
    unfold relaxedLoss leastSquares at h7
    simp only [sub_self, zero_pow two_ne_zero, Finset.sum_const_zero, mul_zero] at h7
    have hgap : 0 < (1 / M.step - el) * M.tol ^ 2 := by
      refine mul_pos ?_ (by positivity)
      rw [sub_pos, lt_div_iff₀ hs0, mul_comm]
      exact hsL
    have h4 : (k : ℝ) - 2 ≤ (∑ r, ((∑ j, P.a r j * u j) - P.b r) ^ 2 + 2 * gu + (∑ j, (u j - fitStart x0 warm j) ^ 2) / M.step) / ((1 / M.step - el) * M.tol ^ 2) := by
      rw [le_div_iff₀ hgap]
      have e : (∑ j, (u j - fitStart x0 warm j) ^ 2) / M.step = 2 * ((∑ j, (u j - fitStart x0 warm j) ^ 2) / (2 * M.step)) := by field_simp
      rw [e]
      linarith
    have h8 : (k : ℝ) < M.maxIter := by linarith
    have h9 : (k : ℤ) < M.maxIter := by exact_mod_cast h8
    have h10 : (k : ℤ) < M.solver.maxIter := h9
    simp [h10]

/-- **C154** for `LinearL0Model(nnz=k)` and `LinearSCADModel`, from their default start: the bound with `u = 0`. For SCAD the step length must satisfy `step * lam * w < rho - 1`, the regime in which its
proximal operator is exact (C06). -/
theorem C154_classes (pen : LinPenalty) (a : LinArgs) (hpr : a.prior = .none) (hk : a.loggerKind = .tuple) (hks : a.loggerKeys.Nodup) (hst : a.stepping ≠ "line-search")
    (P : LinProblem ℝ) (w : Option (Vec ℝ P.n)) (hs0 : 0 < (linClass pen false a).step)
    (L : ℝ) (hL : ∀ h : Vec ℝ P.n, ∑ r, (∑ j, P.a r j * h j) ^ 2 ≤ L * ∑ j, h j ^ 2) (hsL : (linClass pen false a).step * L < 1) (htol : 0 < a.tol)
    (hpen : (∃ (k : ℕ) (sort : NpSort), pen = .l0 (some k) sort ∧ ∀ i, (w.getD fun _ => 1) i ≠ 0) ∨
      ∃ lam rho sigma : ℝ, pen = .scad lam rho sigma ∧ 1 < rho ∧ 0 ≤ sigma ∧ 0 ≤ lam ∧ ∀ i, 0 ≤ (w.getD fun _ => 1) i ∧ (linClass pen false a).step * lam * (w.getD fun _ => 1) i < rho - 1)
    (hmax : 2 + (∑ r, P.b r ^ 2 + P.n / (linClass pen false a).step) / ((1 / (linClass pen false a).step - L) * a.tol ^ 2) < a.maxIter) :
    ∃ x Lf, linFit (linClass pen false a) P none false w = .ok (x, Lf) ∧ Lf.get "converged" = .ok (.atom (.bool true)) := by
  have hb : 2 + (∑ r, ((∑ j, P.a r j * (0 : Vec ℝ P.n) j) - P.b r) ^ 2 + 2 * 0 + (∑ j, ((0 : Vec ℝ P.n) j - fitStart none false j) ^ 2) / (linClass pen false a).step) /
      ((1 / (linClass pen false a).step - L) * (linClass pen false a).tol ^ 2) < (linClass pen false a).maxIter := by
    simpa [linClass, fitStart] using hmax
  rcases hpen with ⟨k, sort, rfl, hw⟩ | ⟨lam, rho, sigma, rfl, hrho, hsg, hlam, hw⟩
  · refine C154_converges (linClass (.l0 (some k) sort) false a) rfl hpr hk hks hst P none false w hs0 L hL hsL htol (fun y => l0_exactAt k (sort.all P.n) ⟨w.getD fun _ => 1, sort.sub P.n _⟩ hw _ y) (fun v gv hv => ?_) 0 0 ?_ hb
    · have hv' : (l0Regularizer (some (k : ℤ)) (sort.all P.n) (some ⟨w.getD fun _ => 1, sort.sub P.n _⟩)).value v = .ok (gv : WithTop ℝ) := hv
      unfold l0Regularizer at hv'
      simp only at hv'
      split_ifs at hv' with h1
      · exact absurd (Except.ok.inj hv') WithTop.top_ne_coe
      · have h2 : (0 : WithTop ℝ) = gv := Except.ok.inj hv'
        exact (show gv = 0 by exact_mod_cast h2.symm).ge
    · refine (C01_l0_value (k : ℤ) (sort.all P.n) (some ⟨w.getD fun _ => 1, sort.sub P.n _⟩) 0).1 ?_
      simp [numNonzero]
  · have hterm : ∀ i (v : ℝ), 0 ≤ scadTerm rho sigma ((w.getD fun _ => 1) i) v := fun i v => by
      have h1 := scadTerm_mono rho sigma ((w.getD fun _ => 1) i) hrho hsg (hw i).1 (a := 0) (b := v) (by rw [abs_zero]; exact abs_nonneg _)
      have h2 : scadTerm rho sigma ((w.getD fun _ => 1) i) 0 = 0 := by
        unfold scadTerm
        rcases hsg.eq_or_lt with h0 | h0
        · rw [← h0]; simp
        · rw [if_pos (by rw [abs_zero]; exact h0)]; simp
      linarith
    refine C154_converges (linClass (.scad lam rho sigma) false a) rfl hpr hk hks hst P none false w hs0 L hL hsL htol
      (fun y => (C06_scad_exact_partial rho sigma lam _ (some (w.getD fun _ => 1)) y hrho hsg hlam hs0.le (fun i => (hw i).1) fun i => (hw i).2).1) (fun v gv hv => ?_) 0 0 ?_ hb
    · have hv' : ((lam * ∑ i, scadTerm rho sigma ((w.getD fun _ => 1) i) (v i) : ℝ) : WithTop ℝ) = gv := Except.ok.inj hv
      rw [← WithTop.coe_inj.1 hv']
      exact mul_nonneg hlam (Finset.sum_nonneg fun i _ => hterm i _)
    · show Except.ok ((lam * ∑ i, scadTerm rho sigma ((w.getD fun _ => 1) i) (0 : ℝ) : ℝ) : WithTop ℝ) = _
      have h3 : ∀ i, scadTerm rho sigma ((w.getD fun _ => 1) i) 0 = 0 := fun i => by
        unfold scadTerm
        rcases hsg.eq_or_lt with h0 | h0
        · rw [← h0]; simp
        · rw [if_pos (by rw [abs_zero]; exact h0)]; simp
      simp [h3]

/-- Non-vacuity of C153 and C154: `LinearL0Model(nnz=1, stepping="fixed", fixed_step_len=0.5)` on two features, of which one matters, with errors `(1/10, -1/10)`: with a large enough budget the fit converges,
selects the right feature and no other, and misses its coefficient by less than `1/5`. -/
example (sort : NpSort) : ∃ (N : ℤ) (x : Vec ℝ 2) (Lf : Logger (PyVal ℝ 2)),
    linFit (linClass (.l0 (some 1) sort) false { stepping := "fixed", fixedStepLen := some (1 / 2), maxIter := N }) (twoProblem ![1 / 10, -1 / 10]) none false none = .ok (x, Lf) ∧
    Lf.get "converged" = .ok (.atom (.bool true)) ∧ x 1 = 0 ∧ |x 0 - 5| ≤ 1 / 5 ∧ 0 < x 0 := by
  obtain ⟨N, hN⟩ := exists_nat_gt (2 + (∑ r, (twoProblem ![1 / 10, -1 / 10]).b r ^ 2 + 2 / (1 / 2)) / ((1 / (1 / 2) - 1) * (1 / 10 ^ 5) ^ 2) : ℝ)
  have hL : ∀ h : Vec ℝ 2, ∑ r, (∑ j, (1 : Matrix (Fin 2) (Fin 2) ℝ) r j * h j) ^ 2 ≤ 1 * ∑ j, h j ^ 2 := fun h => ((two_design h).trans (one_mul _).symm).le
  obtain ⟨a, ha⟩ : ∃ a : LinArgs, a = { stepping := "fixed", fixedStepLen := some (1 / 2), maxIter := N } := ⟨_, rfl⟩
  have hstep : (linClass (.l0 (some 1) sort) false a).step = 1 / 2 := by rw [ha]; norm_num [linClass, LinModelCfg.step]
  have hfloor : stepFloor (linClass (.l0 (some 1) sort) false a).solver 1 = 1 / 2 := by
    have h1 : (linClass (.l0 (some 1) sort) false a).solver.stepping = "fixed" := by rw [ha]; rfl
    unfold stepFloor
    rw [h1, if_neg (by decide)]
    exact hstep
  obtain ⟨x, Lf, h, hc⟩ : ∃ (x : Vec ℝ 2) (Lf : Logger (PyVal ℝ 2)), linFit (linClass (.l0 (some 1) sort) false a) (twoProblem ![1 / 10, -1 / 10]) none false none = .ok (x, Lf) ∧
      Lf.get "converged" = .ok (.atom (.bool true)) := C154_classes (.l0 (some 1) sort) a (by rw [ha]) (by rw [ha]) (by rw [ha]; simp) (by rw [ha]; show "fixed" ≠ "line-search"; decide) (twoProblem ![1 / 10, -1 / 10]) none
    (by rw [hstep]; norm_num) 1 hL (by rw [hstep]; norm_num) (by rw [ha]; norm_num) (Or.inl ⟨1, sort, rfl, fun i => one_ne_zero⟩) (by
      rw [hstep]
      have e : (twoProblem ![1 / 10, -1 / 10]).n = 2 := rfl
      rw [e, ha]
      simpa using hN)
  have h01 : ∀ j : Fin 2, j = 0 ∨ j = 1 := by decide
  have hone : ∀ i, (fun _ => 1 : Vec ℝ 2) i ≠ 0 := fun i => one_ne_zero
  obtain ⟨h1, h2, h3⟩ := C153_support (linClass (.l0 (some 1) sort) false a) rfl (twoProblem ![1 / 10, -1 / 10]) two_pos none false none 1 one_le_two _
    (l0_keepsLargest 1 (sort.all 2) ⟨fun _ => 1, sort.sub 2 _⟩ hone) 1 hL ⟨by show 0 < (linClass (.l0 (some 1) sort) false a).step; rw [hstep]; norm_num, one_pos, by
      have h1 : (linClass (.l0 (some 1) sort) false a).solver.stepping = "fixed" := by rw [ha]; rfl
      rw [h1, if_neg (by decide)]
      show (linClass (.l0 (some 1) sort) false a).step ≤ _
      rw [hstep]; norm_num⟩
    x Lf h hc ![5, 0] ![1 / 10, -1 / 10] (fun r => rfl) {(0 : Fin 2)} (fun j hj => by
      rcases h01 j with rfl | rfl
      · exact absurd (Finset.mem_singleton_self _) hj
      · rfl) le_rfl 1 0 (11 / 100) one_pos (fun j => by
      show (1 : ℝ) ≤ ∑ r : Fin 2, (1 : Matrix (Fin 2) (Fin 2) ℝ) r j ^ 2
      rcases h01 j with rfl | rfl <;> simp [Matrix.one_apply, Fin.sum_univ_two]) (fun j k hjk => by
      show |∑ r : Fin 2, (1 : Matrix (Fin 2) (Fin 2) ℝ) r j * (1 : Matrix (Fin 2) (Fin 2) ℝ) r k| ≤ 0
      rcases h01 j with rfl | rfl <;> rcases h01 k with rfl | rfl
      · exact absurd rfl hjk
      · simp [Matrix.one_apply, Fin.sum_univ_two]
      · simp [Matrix.one_apply, Fin.sum_univ_two]
      · exact absurd rfl hjk) le_rfl (by simp) (fun j => by
      rw [hfloor]
      have htol : (linClass (.l0 (some 1) sort) false a).tol = 1 / 10 ^ 5 := by rw [ha]; rfl
      rw [htol]
      show |∑ r : Fin 2, (1 : Matrix (Fin 2) (Fin 2) ℝ) r j * (![1 / 10, -1 / 10] : Vec ℝ 2) r| + 1 / 10 ^ 5 * (1 / (1 / 2) + 1) ≤ 11 / 100
      have h4 : |∑ r : Fin 2, (1 : Matrix (Fin 2) (Fin 2) ℝ) r j * (![1 / 10, -1 / 10] : Vec ℝ 2) r| ≤ 1 / 10 := by
        rcases h01 j with rfl | rfl <;> simp [Matrix.one_apply, Fin.sum_univ_two] <;> norm_num [abs_le]
      norm_num at h4 ⊢
      linarith) (fun j hj => by
      rw [hfloor, Finset.mem_singleton.1 hj]
      show 8 / 7 * (1 + 1 / (1 * (1 / 2))) * (11 / 100) / 1 < |(5 : ℝ)|
      norm_num)
  refine ⟨N, x, Lf, by rw [← ha]; exact h, hc, ?_, ?_, ?_⟩
  · by_contra hne
    exact absurd (Finset.mem_singleton.1 ((h3 rfl (1 : Fin 2)).1 hne)) (show ¬ (1 : Fin 2) = 0 by decide)
  · have h4 : |x 0 - 5| ≤ 16 / 15 * (11 / 100) / 1 := h1 (0 : Fin 2)
    norm_num at h4 ⊢
    linarith
  · have h4 : 0 < x 0 * 5 := h2 (0 : Fin 2) (Finset.mem_singleton_self _)
    linarith

end

end Verif
