import Verif.Props.Tighter

/-!
# C189 for the models: smaller tolerances and larger iteration limits
-/

namespace Verif

open Matrix

/-- A linear model with other stopping parameters. -/
def LinModelCfg.stopping (M : LinModelCfg) (tol : ℝ) (maxIter : ℤ) : LinModelCfg := { M with tol := tol, maxIter := maxIter }

/-- The oracle of a linear model that is fitted by the proximal gradient solver. -/
theorem linFit_oracle (M : LinModelCfg) (hsr : ∀ el, M.sr3 ≠ some (el, true)) (P : LinProblem ℝ) (x0 : Option (Vec ℝ P.n)) (warm : Bool) (w : Option (Vec ℝ P.n)) (tol : ℝ) (mi : ℤ)
    (r : Vec ℝ P.n × Logger (PyVal ℝ P.n)) (h : linFit (M.stopping tol mi) P x0 warm w = .ok r) :
    ∃ (o : Oracle ℝ P.n Unit) (A B : Vec ℝ P.n → ℝ), (M.sr3 = none → o = linOracle P.a P.b .nonInformative) ∧ (∀ el, M.sr3 = some (el, false) → o = sr3Oracle P.a P.b P.c el false) ∧
      ∀ (t : ℝ) (i : ℤ), linFit (M.stopping t i) P x0 warm w = (do
        let r ← pgdOptimize o (M.regularizer P.n (w.getD fun _ => 1)) (M.stopping t i).solver (fitStart x0 warm) (Logger.init M.loggerKind M.loggerKeys) ()
        let L' ← logIC r.1.2 (A r.1.1) (B r.1.1)
        return (r.1.1, L')) := by
  obtain ⟨sr3, tol0, maxIter, stepping, fsl, prior, kind, keys, reg⟩ := M
  unfold LinModelCfg.stopping at h ⊢
  cases sr3 with
  | none =>
    unfold linFit at h
    obtain ⟨pr, hpr, -⟩ := except_bind_ok.1 h
    have hpr' : pr = .nonInformative := by
      unfold linOracleInstantiate at hpr
      cases prior with
      | none => cases hpr; rfl
      | gaussian params => simp [gaussInstantiateArg] at hpr
    subst hpr'
    refine ⟨_, linAic P.a P.b .nonInformative, linBic P.a P.b .nonInformative, fun _ => rfl, fun el h => (by cases h), fun t i => ?_⟩
    unfold linFit
    dsimp only at hpr ⊢
    rw [hpr]
    rfl
  | some s =>
    obtain ⟨el, practical⟩ := s
    cases practical with
    | true => exact absurd rfl (hsr el)
    | false =>
      cases prior with
      | gaussian params => unfold linFit at h; cases h
      | none =>
        refine ⟨_, sr3Aic P.a P.b, sr3Bic P.a P.b, fun h => (by cases h), fun el h => (by cases h; rfl), fun t i => ?_⟩
        unfold linFit at h ⊢
        dsimp only at h ⊢
        by_cases hd : (sr3H P.a P.c el).det = 0
        · rw [if_pos hd] at h; cases h
        · rw [if_neg hd]
          rfl

theorem stopping_stricter (M : LinModelCfg) {t1 t2 : ℝ} {i1 i2 : ℤ} (ht : t2 ≤ t1) (hi : i1 ≤ i2) : Stricter (M.stopping t2 i2).solver (M.stopping t1 i1).solver :=
  ⟨ht, hi, rfl, rfl⟩

/-- **C189** for linear models with the proximal gradient solver (all but the practical SR3 ones): if the fit with the smaller tolerance and the larger iteration limit returns `x2` then the other fit
returns, with at most as many iterations; it returns `x2` if it made as many; its log is the beginning of the other log, and its coefficients are its last logged point. -/
theorem C189_linear (M : LinModelCfg) (hsr : ∀ el, M.sr3 ≠ some (el, true)) (hkind : M.loggerKind = .tuple) (hkeys : M.loggerKeys.Nodup) (P : LinProblem ℝ) (x0 : Option (Vec ℝ P.n)) (warm : Bool)
    (w : Option (Vec ℝ P.n)) (t1 t2 : ℝ) (i1 i2 : ℤ) (ht : t2 ≤ t1) (hi : i1 ≤ i2) (x2 : Vec ℝ P.n) (L2 : Logger (PyVal ℝ P.n)) (h : linFit (M.stopping t2 i2) P x0 warm w = .ok (x2, L2)) :
    ∃ x1 L1 k1 k2, linFit (M.stopping t1 i1) P x0 warm w = .ok (x1, L1) ∧ L1.get "iteration" = .ok (.atom (.int (k1 : ℕ))) ∧ L2.get "iteration" = .ok (.atom (.int (k2 : ℕ))) ∧ k1 ≤ k2 ∧
      (k1 = k2 → x1 = x2) ∧
      (∀ key ∈ M.loggerKeys, key ∉ ["iteration", "converged", "aic", "bic"] → ∃ l l', L1.get key = .ok (.list l) ∧ L2.get key = .ok (.list (l ++ l'))) ∧
      ∀ l, L1.get "x" = .ok (.list l) → l.getLast? = some (.vec x1) := by
  obtain ⟨o, A, B, -, -, e⟩ := linFit_oracle M hsr P x0 warm w t2 i2 _ h
  rw [e] at h
  rw [hkind] at e h
  obtain ⟨⟨⟨xr, Lr⟩, _⟩, h1, h⟩ := except_bind_ok.1 h
  obtain ⟨L', h2, h⟩ := except_bind_ok.1 h
  cases h
  obtain ⟨x1, L1, s1, k1, k2, a1, a2, a3, a4, a5, a6, a7, -⟩ := C189_solver o _ _ (M.stopping t1 i1).solver (stopping_stricter M ht hi) _ _ _ hkeys _ _ _ h1
  obtain ⟨M1, m1⟩ := logIC_ok L1 (A x1) (B x1)
  refine ⟨x1, M1, k1, k2, ?_, ?_, ?_, a4, a5, fun key hkey hk => ?_, fun l hl => a7 l ?_⟩
  · rw [e]
    exact except_bind_ok.2 ⟨_, a1, except_bind_ok.2 ⟨M1, m1, rfl⟩⟩
  · rw [logIC_keeps _ _ _ _ m1 _ (by decide) (by decide), a2]
  · rw [logIC_keeps _ _ _ _ h2 _ (by decide) (by decide), a3]
  · simp only [List.mem_cons, List.not_mem_nil, or_false, not_or] at hk
    rw [logIC_keeps _ _ _ _ m1 _ hk.2.2.1 hk.2.2.2, logIC_keeps _ _ _ _ h2 _ hk.2.2.1 hk.2.2.2]
    exact a6 key hkey hk.1 hk.2.1
  · rwa [logIC_keeps _ _ _ _ m1 _ (by decide) (by decide)] at hl

/-- One pass of the solver on a convex problem: the objective does not increase, and the distance to a minimiser does not either. -/
theorem convex_pass {n : ℕ} (o : Oracle ℝ n Unit) (R : Regularizer ℝ n) (f : Vec ℝ n → ℝ) (gr : Vec ℝ n → Vec ℝ n) (hf : o.Values f) (hgr : o.Grads gr)
    (L : ℝ) (hb : BelowParabola f gr L) (hconv : ∀ x, AboveTangent f (gr x) x) (g : Vec ℝ n → ℝ) (hg : ConvexPenalty fun x => (g x : WithTop ℝ)) (prox : Vec ℝ n → ℝ → Vec ℝ n)
    (hp : ∀ y t, R.prox y t = .ok (prox y t)) (hexact : ∀ y t, 0 < t → IsProxOf (fun x => (g x : WithTop ℝ)) t y (prox y t)) (cfg : PGDCfg ℝ) (hr : StepRule cfg L)
    (x0 x x' : Vec ℝ n) (it : ℕ) (Lg Lg' : Logger (PyVal ℝ n)) (s s' : Unit) (h : pgdBody o R cfg x0 x it Lg s = .ok ((x', Lg'), s')) :
    f x' + g x' ≤ f x + g x ∧ ∀ u, (∀ v, f u + g u ≤ f v + g v) → ∑ j, (x' j - u j) ^ 2 ≤ ∑ j, (x j - u j) ^ 2 := by
  obtain ⟨gv, s1, t, s2, hgv, hst, hpx, -⟩ := pgdBody_ok _ _ _ _ _ _ _ _ _ _ _ h
  obtain ⟨s3, hgv'⟩ := hgr x s
  rw [hgv'] at hgv
  obtain ⟨rfl, rfl⟩ := Prod.mk.inj (Except.ok.inj hgv)
  obtain ⟨hlo, hhi, hsd⟩ := chooseStep_bounds o R f hf gr _ hb prox hp cfg hr x _ _ t hst
  rw [hp] at hpx
  obtain rfl := Except.ok.inj hpx
  have htp : 0 < t := (stepFloor_pos hr).trans_le hlo
  obtain ⟨gz, h1, h2⟩ := step_compare f gr hconv _ hg t htp x _ (hexact _ t htp) hsd
  have h3 : gz = g (prox (fun i => x i - t * gr x i) t) := (WithTop.coe_inj.1 h1).symm
  subst h3
  have nn : ∀ v : Vec ℝ n, 0 ≤ normSq v := fun v => Finset.sum_nonneg fun i _ => sq_nonneg _
  refine ⟨?_, fun u hu => ?_⟩
  · have h4 := h2 x _ rfl
    have h5 : normSq (x - x) = 0 := by simp [normSq]
    have h6 := nn (prox (fun i => x i - t * gr x i) t - x)
    by_contra hc
    push Not at hc
    have := mul_pos (mul_pos two_pos htp) (sub_pos.2 hc)
    linarith
  · have h4 := h2 u _ rfl
    have h5 := mul_nonneg (mul_pos two_pos htp).le (sub_nonneg.2 (hu (prox (fun i => x i - t * gr x i) t)))
    have : normSq (prox (fun i => x i - t * gr x i) t - u) ≤ normSq (x - u) := by linarith
    exact this

/-- **C189**, consequence for plain linear models without penalty or with the L1 penalty: the fit with the smaller tolerance and the larger iteration limit has an objective at most as large, and is
at least as near to every minimiser. -/
theorem C189_lasso (M : LinModelCfg) (hs : M.sr3 = none) (hkind : M.loggerKind = .tuple) (hkeys : M.loggerKeys.Nodup) (P : LinProblem ℝ) (x0 : Option (Vec ℝ P.n)) (warm : Bool)
    (w : Option (Vec ℝ P.n)) (lam : ℝ) (hreg : LassoLike (M.regularizer P.n (w.getD fun _ => 1)) lam (w.getD fun _ => 1)) (Lc : ℝ)
    (hL : ∀ h : Vec ℝ P.n, ∑ r, (∑ j, P.a r j * h j) ^ 2 ≤ Lc * ∑ j, h j ^ 2) (hr : StepRule M.solver Lc)
    (t1 t2 : ℝ) (i1 i2 : ℤ) (ht : t2 ≤ t1) (hi : i1 ≤ i2) (x1 x2 : Vec ℝ P.n) (L1 L2 : Logger (PyVal ℝ P.n)) (h1 : linFit (M.stopping t1 i1) P x0 warm w = .ok (x1, L1))
    (h2 : linFit (M.stopping t2 i2) P x0 warm w = .ok (x2, L2)) :
    lassoObjective P.a P.b lam (w.getD fun _ => 1) x2 ≤ lassoObjective P.a P.b lam (w.getD fun _ => 1) x1 ∧
    ∀ u, (∀ v, lassoObjective P.a P.b lam (w.getD fun _ => 1) u ≤ lassoObjective P.a P.b lam (w.getD fun _ => 1) v) → ∑ j, (x2 j - u j) ^ 2 ≤ ∑ j, (x1 j - u j) ^ 2 := by
  obtain ⟨o, A, B, ho, -, e⟩ := linFit_oracle M (by rw [hs]; rintro el ⟨⟩) P x0 warm w t2 i2 _ h2
  rw [ho hs, hkind] at e
  rw [e] at h1 h2
  obtain ⟨⟨⟨xr, Lr⟩, _⟩, r2, h2⟩ := except_bind_ok.1 h2
  obtain ⟨L', -, h2⟩ := except_bind_ok.1 h2
  cases h2
  obtain ⟨⟨⟨xs, Ls⟩, _⟩, r1, h1⟩ := except_bind_ok.1 h1
  obtain ⟨L'', -, h1⟩ := except_bind_ok.1 h1
  cases h1
  obtain ⟨y1, M1, s1, k1, k2, a1, -, -, -, -, -, -, a8⟩ := C189_solver _ _ _ (M.stopping t1 i1).solver (stopping_stricter M ht hi) _ _ _ hkeys _ _ _ r2
  cases a1.symm.trans r1
  obtain ⟨prox, hp, hexact, hconvex, -, hpen⟩ := hreg.exact
  obtain ⟨hb, htan⟩ := linLoss_belowParabola P.a P.b Lc hL
  have hobj : ∀ u, linValueFunction P.a P.b .nonInformative u + lam * ∑ i, (w.getD fun _ => 1) i * |u i| = lassoObjective P.a P.b lam (w.getD fun _ => 1) u := by
    intro u
    have := (C31_linear_oracle P.a P.b (.nonInformative : InstPrior ℝ P.n) trivial).2.2.1 u
    change linLoss P.a P.b _ u + _ = _
    rw [this]
    unfold lassoObjective leastSquares
    simp [InstPrior.loss]
  refine a8 (fun a b => lassoObjective P.a P.b lam (w.getD fun _ => 1) b ≤ lassoObjective P.a P.b lam (w.getD fun _ => 1) a ∧
    ∀ u, (∀ v, lassoObjective P.a P.b lam (w.getD fun _ => 1) u ≤ lassoObjective P.a P.b lam (w.getD fun _ => 1) v) → ∑ j, (b j - u j) ^ 2 ≤ ∑ j, (a j - u j) ^ 2)
    (fun a => ⟨le_rfl, fun u _ => le_rfl⟩) (fun a b c h1 h2 => ⟨h2.1.trans h1.1, fun u hu => (h2.2 u hu).trans (h1.2 u hu)⟩) fun x it L s x' L' s' hb' => ?_
  have := convex_pass (linOracle P.a P.b .nonInformative) _ (linValueFunction P.a P.b .nonInformative) (linGradientValueFunction P.a P.b .nonInformative) (fun x s => ⟨s, rfl⟩)
    (fun x s => ⟨s, rfl⟩) Lc hb htan (fun x => lam * ∑ i, (w.getD fun _ => 1) i * |x i|) hconvex prox hp hexact (M.stopping t2 i2).solver hr _ _ _ _ _ _ _ _ hb'
  simpa only [hobj] using this

/-- **C189**, the same for the SR3 models: the partial minimum over the auxiliary variable of the relaxed objective does not increase. -/
theorem C189_lasso_sr3 (M : LinModelCfg) (el : ℝ) (hel : 0 < el) (hs : M.sr3 = some (el, false)) (hkind : M.loggerKind = .tuple) (hkeys : M.loggerKeys.Nodup) (P : LinProblem ℝ) (hcm : P.c = 1)
    (x0 : Option (Vec ℝ P.n)) (warm : Bool) (w : Option (Vec ℝ P.n)) (lam : ℝ) (hreg : LassoLike (M.regularizer P.n (w.getD fun _ => 1)) lam (w.getD fun _ => 1)) (hr : StepRule M.solver el)
    (t1 t2 : ℝ) (i1 i2 : ℤ) (ht : t2 ≤ t1) (hi : i1 ≤ i2) (x1 x2 : Vec ℝ P.n) (L1 L2 : Logger (PyVal ℝ P.n)) (h1 : linFit (M.stopping t1 i1) P x0 warm w = .ok (x1, L1))
    (h2 : linFit (M.stopping t2 i2) P x0 warm w = .ok (x2, L2)) :
    ∃ v2, ∀ v1, relaxedLassoObjective P.a P.b el lam (w.getD fun _ => 1) v2 x2 ≤ relaxedLassoObjective P.a P.b el lam (w.getD fun _ => 1) v1 x1 := by
  obtain ⟨o, A, B, -, ho, e⟩ := linFit_oracle M (by rw [hs]; rintro el ⟨⟩) P x0 warm w t2 i2 _ h2
  rw [ho el hs, hkind, hcm] at e
  rw [e] at h1 h2
  obtain ⟨⟨⟨xr, Lr⟩, _⟩, r2, h2⟩ := except_bind_ok.1 h2
  obtain ⟨L', -, h2⟩ := except_bind_ok.1 h2
  cases h2
  obtain ⟨⟨⟨xs, Ls⟩, _⟩, r1, h1⟩ := except_bind_ok.1 h1
  obtain ⟨L'', -, h1⟩ := except_bind_ok.1 h1
  cases h1
  obtain ⟨y1, M1, s1, k1, k2, a1, -, -, -, -, -, -, a8⟩ := C189_solver _ _ _ (M.stopping t1 i1).solver (stopping_stricter M ht hi) _ _ _ hkeys _ _ _ r2
  cases a1.symm.trans r1
  obtain ⟨prox, hp, hexact, hconvex, -, hpen⟩ := hreg.exact
  obtain ⟨hb, htan⟩ := sr3_belowParabola P.a P.b el hel
  have key := a8 (fun a b => sr3Value P.a P.b 1 el b + lam * ∑ i, (w.getD fun _ => 1) i * |b i| ≤ sr3Value P.a P.b 1 el a + lam * ∑ i, (w.getD fun _ => 1) i * |a i|)
    (fun a => le_rfl) (fun a b c h1 h2 => h2.trans h1) fun x it L s x' L' s' hb' =>
      (convex_pass (sr3Oracle P.a P.b 1 el false) _ (sr3Value P.a P.b 1 el) (sr3Gradient P.a P.b 1 el) (fun x s => ⟨s, sr3Oracle_value _ _ _ hel.le x s⟩)
        (fun x s => ⟨s, sr3Oracle_grad _ _ _ hel.le x s⟩) el hb htan (fun x => lam * ∑ i, (w.getD fun _ => 1) i * |x i|) hconvex prox hp hexact (M.stopping t2 i2).solver hr _ _ _ _ _ _ _ _ hb').1
  obtain ⟨v, hv⟩ := (sr3Value_lasso P.a P.b el lam hel (w.getD fun _ => 1) xr).1
  refine ⟨v, fun v1 => ?_⟩
  rw [hv]
  exact key.trans ((sr3Value_lasso P.a P.b el lam hel (w.getD fun _ => 1) _).2 v1)

/-- A mixed-effects model with other stopping parameters. -/
def LmeModelCfg.stopping (M : LmeModelCfg) (tol : ℝ) (maxIter : ℤ) : LmeModelCfg := { M with tol := tol, maxIter := maxIter }

/-- **C189** for mixed-effects models, relaxed or not, with the proximal gradient solver: of two fits of the same problem from the same state that return their logs, the one with the larger
tolerance and the smaller iteration limit makes at most as many iterations; if as many then the coefficients are the same; its lists are the beginnings of the lists of the other log, and its
coefficients are its last logged point.  The practical SR3 models do not use the stopping parameters of the solver: their fits are the same. -/
theorem C189_mixed (M : LmeModelCfg) (hkind : M.loggerKind = .tuple) (hkeys : M.loggerKeys.Nodup) (st : LmeState) (P : LmeProblem ℝ) (a : LmeFitArgs) (t1 t2 : ℝ) (i1 i2 : ℤ) (ht : t2 ≤ t1)
    (hi : i1 ≤ i2) (c1 c2 : LmeCoef) (L1 L2 : Logger (PyVal ℝ (P.numFixed + P.numRandom))) (h1 : lmeFitProblem (M.stopping t1 i1) st P a = (.ok L1, some c1))
    (h2 : lmeFitProblem (M.stopping t2 i2) st P a = (.ok L2, some c2)) :
    ((∃ s, M.sr3 = some s ∧ s.practical = true) → c1 = c2 ∧ L1 = L2) ∧
    ((∀ s, M.sr3 = some s → s.practical = false) →
      ∃ k1 k2, L1.get "iteration" = .ok (.atom (.int (k1 : ℕ))) ∧ L2.get "iteration" = .ok (.atom (.int (k2 : ℕ))) ∧ k1 ≤ k2 ∧ (k1 = k2 → c1 = c2) ∧
        (∀ key ∈ M.loggerKeys, key ∉ ["iteration", "converged", "vaida_aic", "vaida_aic_marginalized", "jones_bic", "muller_ic", "flip_probabilities_beta"] →
          ∃ l l', L1.get key = .ok (.list l) ∧ L2.get key = .ok (.list (l ++ l'))) ∧
        ∀ l, L1.get "x" = .ok (.list l) → ∃ x, l.getLast? = some (.vec x) ∧ c1.beta = List.ofFn (xBeta x) ∧ c1.gamma = List.ofFn (xGamma x)) := by
  obtain ⟨sr3, tol, maxIter, stepping, fsl, init, prior, eps, reg, kind, keys⟩ := M
  dsimp only at hkind
  subst hkind
  constructor
  · rintro ⟨s, hs, hpr⟩
    dsimp only at hs
    subst hs
    have e : lmeFitProblem (LmeModelCfg.stopping ⟨some s, tol, maxIter, stepping, fsl, init, prior, eps, reg, .tuple, keys⟩ t1 i1) st P a =
        lmeFitProblem (LmeModelCfg.stopping ⟨some s, tol, maxIter, stepping, fsl, init, prior, eps, reg, .tuple, keys⟩ t2 i2) st P a := by
      have eo : ∀ t i, lmeOptimize (p := P.numFixed) (q := P.numRandom) (LmeModelCfg.stopping ⟨some s, tol, maxIter, stepping, fsl, init, prior, eps, reg, .tuple, keys⟩ t i) =
          lmeOptimize (p := P.numFixed) (q := P.numRandom) (LmeModelCfg.stopping ⟨some s, tol, maxIter, stepping, fsl, init, prior, eps, reg, .tuple, keys⟩ t1 i1) := by
        intro t i
        funext D Pr R b g
        unfold lmeOptimize LmeModelCfg.stopping
        dsimp only
        simp only [hpr, if_true]
      have et : ∀ t i, (LmeModelCfg.stopping ⟨some s, tol, maxIter, stepping, fsl, init, prior, eps, reg, .tuple, keys⟩ t i).solverTol = 1e-4 := by
        intro t i
        unfold LmeModelCfg.solverTol LmeModelCfg.stopping
        simp only [hpr, if_true]
      unfold lmeFitProblem
      rw [show lmeFitCore (LmeModelCfg.stopping ⟨some s, tol, maxIter, stepping, fsl, init, prior, eps, reg, .tuple, keys⟩ t1 i1) st P a =
        lmeFitCore (LmeModelCfg.stopping ⟨some s, tol, maxIter, stepping, fsl, init, prior, eps, reg, .tuple, keys⟩ t2 i2) st P a from (by
          unfold lmeFitCore
          rw [eo t2 i2]
          rfl), et, et]
      rfl
    rw [e] at h1
    cases h1.symm.trans h2
    exact ⟨rfl, rfl⟩
  · intro hsr
    have run : ∀ t i c (L : Logger (PyVal ℝ (P.numFixed + P.numRandom))), lmeFitProblem (LmeModelCfg.stopping ⟨sr3, tol, maxIter, stepping, fsl, init, prior, eps, reg, .tuple, keys⟩ t i) st P a = (.ok L, some c) →
        ∃ x L0, lmeFitCore (LmeModelCfg.stopping ⟨sr3, tol, maxIter, stepping, fsl, init, prior, eps, reg, .tuple, keys⟩ t i) st P a = .ok (c, x, L0) ∧
          ∀ k ∉ ["vaida_aic", "vaida_aic_marginalized", "jones_bic", "muller_ic", "flip_probabilities_beta"], L.get k = L0.get k := by
      intro t i c L h
      unfold lmeFitProblem at h
      split at h
      · cases h
      · rename_i r hc
        obtain ⟨cf, x, L0⟩ := r
        simp only [Prod.mk.injEq, Option.some.injEq] at h
        obtain ⟨hl, rfl⟩ := h
        obtain ⟨D', -, hl⟩ := ebind_ok.1 hl
        obtain ⟨Pr', -, hl⟩ := ebind_ok.1 hl
        exact ⟨x, L0, hc, fun k hk => lmeLogCriteria_other hl hk⟩
    obtain ⟨x1, M1, hc1, g1⟩ := run _ _ _ _ h1
    obtain ⟨x2, M2, hc2, g2⟩ := run _ _ _ _ h2
    obtain ⟨m, Pr, w, base, D, beta, gamma, us, per, q1, q2, q3, q4, q5, q6, q7, q8, q9, q10, e1⟩ := lmeFitCore_ok hc1
    obtain ⟨m', Pr', w', base', D', beta', gamma', us', per', p1, p2, p3, p4, p5, p6, p7, p8, p9, p10, e2⟩ := lmeFitCore_ok hc2
    cases q1.symm.trans p1
    cases q2.symm.trans p2
    cases q3.symm.trans p3
    cases q4.symm.trans p4
    cases q5.symm.trans p5
    cases q6.symm.trans p6
    cases q7.symm.trans p7
    have opt : ∃ (σ : Type) (o : Oracle ℝ (P.numFixed + P.numRandom) σ) (s : σ) (b : Vec ℝ (P.numFixed + P.numRandom)) (cfg : ℝ → ℤ → PGDCfg ℝ),
        (∀ t i, cfg t i = (LmeModelCfg.stopping ⟨sr3, tol, maxIter, stepping, fsl, init, prior, eps, reg, .tuple, keys⟩ t i).solver) ∧
        ∀ t i, lmeOptimize (LmeModelCfg.stopping ⟨sr3, tol, maxIter, stepping, fsl, init, prior, eps, reg, .tuple, keys⟩ t i) D Pr (wrapReg P.numFixed P.numRandom eps base) beta gamma =
          (pgdOptimize o (wrapReg P.numFixed P.numRandom eps base) (cfg t i) b (Logger.init .tuple keys) s >>= fun r => pure r.1) := by
      unfold lmeOptimize at q8
      cases sr3 with
      | none =>
        obtain ⟨bg, hbg, -⟩ := ebind_ok.1 q8
        refine ⟨Unit, lmeOracle D Pr, (), joinX bg.1 bg.2, _, fun t i => rfl, fun t i => ?_⟩
        unfold lmeOptimize
        dsimp only [LmeModelCfg.stopping] at hbg ⊢
        rw [hbg]
        rfl
      | some s =>
        obtain ⟨bg, hbg, -⟩ := ebind_ok.1 q8
        refine ⟨_, lmeSr3Oracle D Pr (s.ip P.numFixed P.numRandom), ⟨⟨s.ell, s.ell⟩, none⟩, joinX bg.1 bg.2, _, fun t i => rfl, fun t i => ?_⟩
        unfold lmeOptimize
        dsimp only [LmeModelCfg.stopping] at hbg ⊢
        rw [hbg]
        simp only [hsr s rfl, Bool.false_eq_true, if_false]
        rfl
    obtain ⟨σ, o, s, b, cfg, hcfg, opt⟩ := opt
    have q8' := (opt t1 i1).symm.trans q8
    have p8' := (opt t2 i2).symm.trans p8
    obtain ⟨⟨⟨y1, N1⟩, u1⟩, r1, ey⟩ := ebind_ok.1 q8'
    cases ey
    obtain ⟨⟨⟨y2, N2⟩, u2⟩, r2, ey⟩ := ebind_ok.1 p8'
    cases ey
    obtain ⟨z1, K1, v1, k1, k2, a1, a2, a3, a4, a5, a6, a7, -⟩ := C189_solver o _ _ (cfg t1 i1) (by rw [hcfg, hcfg]; exact ⟨ht, hi, rfl, rfl⟩) _ _ _ hkeys _ _ _ r2
    cases a1.symm.trans r1
    refine ⟨k1, k2, ?_, ?_, a4, fun e => ?_, fun key hkey hk => ?_, fun l hl => ?_⟩
    · rw [g1 _ (by decide), a2]
    · rw [g2 _ (by decide), a3]
    · cases a5 e
      cases q9.symm.trans p9
      cases q10.symm.trans p10
      rw [e1, e2]
    · have hk1 := hk
      simp only [List.mem_cons, List.not_mem_nil, or_false, not_or] at hk
      have hk2 : key ∉ ["vaida_aic", "vaida_aic_marginalized", "jones_bic", "muller_ic", "flip_probabilities_beta"] := fun hm => hk1 (List.mem_cons_of_mem _ (List.mem_cons_of_mem _ hm))
      rw [g1 _ hk2, g2 _ hk2]
      exact a6 key hkey hk.1 hk.2.1
    · rw [g1 _ (by decide)] at hl
      exact ⟨_, a7 l hl, by rw [e1], by rw [e1]⟩

theorem robust_stopping {M : LmeModelCfg} (h : M.Robust) (t : ℝ) (i : ℤ) : (M.stopping t i).Robust :=
  ⟨⟨⟨h.adm.1, h.adm.2, h.adm.3, h.adm.4⟩, h.kind, h.keys, h.sr3, h.scad⟩, h.init, h.vaida, h.flip⟩

/-- A case of `C189_linear` and `C189_lasso`: the lasso model, any problem with a non-zero design that is not huge. -/
example (P : LinProblem ℝ) (h0 : 0 < ∑ r, ∑ j, P.a r j ^ 2) (h1 : ∑ r, ∑ j, P.a r j ^ 2 ≤ 10 ^ 14) :
    ∃ x1 x2 L1 L2, linFit ((lassoModel 5).stopping (1 / 10) 50) P none false none = .ok (x1, L1) ∧ linFit ((lassoModel 5).stopping (1 / 1000) 5000) P none false none = .ok (x2, L2) ∧
      lassoObjective P.a P.b 1 (fun _ => 1) x2 ≤ lassoObjective P.a P.b 1 (fun _ => 1) x1 := by
  obtain ⟨x2, L2, h2⟩ := linFit_plain_returns ((lassoModel 5).stopping (1 / 1000) 5000) rfl rfl rfl (by simp [lassoModel, LinModelCfg.stopping]) (fun _ w x => ((∑ i, w i * |x i| : ℝ) : WithTop ℝ))
    (fun _ _ _ => rfl) (fun _ _ _ _ => ⟨_, rfl⟩) P none false none
  obtain ⟨x1, L1, k1, k2, h3, -⟩ := C189_linear (lassoModel 5) (by rintro el ⟨⟩) rfl (by simp [lassoModel]) P none false none (1 / 10) (1 / 1000) 50 5000 (by norm_num) (by norm_num) x2 L2 h2
  refine ⟨x1, x2, L1, L2, h3, h2, (C189_lasso (lassoModel 5) rfl rfl (by simp [lassoModel]) P none false none 1 (Or.inr ⟨rfl, zero_le_one, fun _ => zero_le_one⟩) _ (frobenius_bound P.a) ⟨?_, h0, ?_⟩
    (1 / 10) (1 / 1000) 50 5000 (by norm_num) (by norm_num) x1 x2 L1 L2 h3 h2).1⟩
  · norm_num [lassoModel, LinModelCfg.solver, LinModelCfg.step]
  · simpa [lassoModel, LinModelCfg.solver] using h1

/-- A case of `C189_mixed`: every class with its defaults, relaxed or not, on the example table. -/
example (sort : NpSort) (cl : LmeClassName) (sr3 : Bool) : ∃ (P : LmeProblem ℝ) (L1 L2 : Logger (PyVal ℝ (P.numFixed + P.numRandom))) (c1 c2 : LmeCoef) (k1 k2 : ℕ),
    lmeFitProblem ((lmeDefaultModel sort cl sr3).stopping (1 / 10) 50) none P {} = (.ok L1, some c1) ∧
    lmeFitProblem ((lmeDefaultModel sort cl sr3).stopping (1 / 1000) 5000) none P {} = (.ok L2, some c2) ∧
    L1.get "iteration" = .ok (.atom (.int k1)) ∧ L2.get "iteration" = .ok (.atom (.int k2)) ∧ k1 ≤ k2 := by
  obtain ⟨P, hP⟩ := exTab_ok' true true ![26, 20]
  obtain ⟨_, _, feW, reW, -, -, hlen, -, -, -, -, -, hf, hr', hPe⟩ := lmeFromXY_ok exTab (some ![26, 20]) none exTabLabels true true none none P hP
  have e1 : P.feWeights = [1, 1] := by rw [hPe]; cases hf; rfl
  have e2 : P.reWeights = [1, 1] := by rw [hPe]; cases hr'; rfl
  have hM0 := lmeDefaultModel_robust sort cl sr3
  have hw1 : ∀ w, ({} : LmeFitArgs).feWeights.getD P.feWeights = w → w.length = fixedCount exTabLabels true ∧ ∀ v ∈ w, v = 0 ∨ v = 1 := by
    rintro w rfl
    simp only [Option.getD_none, e1]
    exact ⟨rfl, by simp⟩
  have hw2 : ∀ w, ({} : LmeFitArgs).reWeights.getD P.reWeights = w → w.length = randomCount exTabLabels true ∧ ∀ v ∈ w, v = 0 ∨ v = 1 := by
    rintro w rfl
    simp only [Option.getD_none, e2]
    exact ⟨rfl, by simp⟩
  have fit : ∀ t i, ∃ L c, lmeFitProblem ((lmeDefaultModel sort cl sr3).stopping t i) none P {} = (.ok L, some c) := by
    intro t i
    obtain ⟨L, c, h, -⟩ := C83_fit_problem_returns _ (robust_stopping hM0 t i) none exTab ![26, 20] none exTabLabels true true none none P hP exTab_positive
      ⟨.nonInformative, by cases cl <;> rfl⟩ {} (by simp) (by simp) hw1 hw2
    exact ⟨L, c, h⟩
  obtain ⟨L1, c1, h1⟩ := fit (1 / 10) 50
  obtain ⟨L2, c2, h2⟩ := fit (1 / 1000) 5000
  obtain ⟨k1, k2, a1, a2, a3, -⟩ := (C189_mixed (lmeDefaultModel sort cl sr3) hM0.kind hM0.keys none P {} (1 / 10) (1 / 1000) 50 5000 (by norm_num) (by norm_num) c1 c2 L1 L2 h1 h2).2
    (fun s hs => by
      cases sr3
      · cases hs
      · cases hs; rfl)
  exact ⟨P, L1, L2, c1, c2, k1, k2, h1, h2, a1, a2, a3⟩

end Verif
