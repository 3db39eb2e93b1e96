import Verif.Props.LmeTrap
import Verif.Props.LmeConvex

/-!
# Practical SR3 fits and the end of the inner solver: properties C114 and C115
-/

namespace Verif

open Matrix

variable {N k p q : ℕ}

/-! ## C115: how the inner solver stops -/

theorem ipStep_prev {D : List (LmeGroup p q)} {P : LmeInstPrior ℝ p q} {c : IpCfg p q} {s s' : IpState p q}
    {F : Fin q ⊕ (Fin p ⊕ Fin q) → ℝ} (h : ipStep D P c s F = .ok s') :
    s'.prev = some (s.beta, s.gamma, s.tbeta, s.tgamma) ∧ s'.iteration = s.iteration + 1 ∧
      (c.increaseLambdas = false → s'.conv = s.conv) := by
  unfold ipStep at h
  obtain ⟨dF, h1, h⟩ := ebind_ok.1 h
  obtain ⟨d, h2, h⟩ := ebind_ok.1 h
  obtain ⟨step, h3, h⟩ := ebind_ok.1 h
  by_cases h4 : c.target * ((s.gamma + step • fun j => d (.inr (.inr j))) ⬝ᵥ (s.v + step • fun j => d (.inl j))) / q <
      npNorm (fun j => (s.gamma + step • fun j => d (.inr (.inr j))) j * (s.v + step • fun j => d (.inl j)) j
        - ((s.gamma + step • fun j => d (.inr (.inr j))) ⬝ᵥ (s.v + step • fun j => d (.inl j))) / q)
  · rw [if_pos h4] at h
    cases h
    exact ⟨rfl, rfl, fun _ => rfl⟩
  · rw [if_neg h4] at h
    obtain ⟨t, h6, h⟩ := ebind_ok.1 h
    cases h
    refine ⟨rfl, rfl, fun h => ?_⟩
    simp [h]

/-- The passes of the loop. -/
theorem ipLoop_trace (D : List (LmeGroup p q)) (P : LmeInstPrior ℝ p q) (c : IpCfg p q) :
    ∀ (m : ℕ) (s r : IpState p q), (c.nIter - s.iteration).toNat = m → ipLoop D P c s = .ok r →
      ∃ (n : ℕ) (f : ℕ → IpState p q), f 0 = s ∧ f n = r ∧
        (∀ k < n, (f k).stepLen ≠ 0 ∧ ((f k).iteration : ℤ) < c.nIter ∧ ipMoved c.tol (f k) ∧
          ∃ F, ipF D P (f k) = .ok F ∧ (c.tol < npNorm F ∨ c.tol < (f k).mu) ∧ ipStep D P c (f k) F = .ok (f (k + 1))) := by
  intro m
  induction m using Nat.strong_induction_on with
  | _ m ih =>
    intro s r hm h
    unfold ipLoop at h
    split_ifs at h with h1
    · cases hF : ipF D P s with
      | error e => rw [hF] at h; cases h
      | ok F =>
        rw [hF] at h
        simp only at h
        split_ifs at h with h2
        · cases hs : ipStep D P c s F with
          | error e => rw [hs] at h; cases h
          | ok s' =>
            rw [hs] at h
            have e : { s' with iteration := s.iteration + 1 } = s' := by
              rw [← (ipStep_prev hs).2.1]
            simp only at h
            rw [e] at h
            obtain ⟨n, f, f0, fn, hf⟩ := ih _ (by
              rw [← hm, (ipStep_prev hs).2.1]
              have := h1.2
              push_cast
              omega) s' r rfl h
            refine ⟨n + 1, fun k => Nat.casesOn k s f, rfl, fn, fun k hk => ?_⟩
            cases k with
            | zero => exact ⟨h1.1, h1.2, h2.2, F, hF, h2.1, hs.trans (congrArg Except.ok f0.symm)⟩
            | succ k => exact hf k (by omega)
        · cases h
          exact ⟨0, fun _ => s, rfl, rfl, fun k hk => absurd hk (by omega)⟩
    · cases h
      exact ⟨0, fun _ => s, rfl, rfl, fun k hk => absurd hk (by omega)⟩

/-- **C115**: without line search and increasing relaxation constants, from positive variances, `find_optimal_parameters_ip` makes
a number `n` of passes within the budget and returns the values after the last of them. It goes on only while the residual or
`mu` is above the tolerance and one of the four variables (the two original and the two relaxed ones) moved by more than the tolerance in the last
pass; it stops if the budget is exhausted, if the residual and `mu` are within the tolerance, or if none of the four variables moved by more than the
tolerance in the last pass. -/
theorem C115_stops (D : List (LmeGroup p q)) (P : LmeInstPrior ℝ p q) (c : IpCfg p q) (hls : c.lineSearch = none)
    (hinc : c.increaseLambdas = false) (o : IpOracle p q) (hq : q ≠ 0) (beta tbeta : Vec ℝ p) (gamma tgamma : Vec ℝ q)
    (hg : ∀ j, 0 < (ipStart c o beta gamma).2 j) (r : IpResult p q) (o' : IpOracle p q)
    (h : lmeFindIp D P c o beta gamma tbeta tgamma = .ok (r, o')) :
    ∃ (n : ℕ) (f : ℕ → IpState p q), f 0 = ipInit c o beta gamma tbeta tgamma ∧ r = ⟨(f n).beta, (f n).gamma, (f n).tbeta, (f n).tgamma⟩ ∧
      (n : ℤ) ≤ max c.nIter 0 ∧
      (∀ k < n, ∃ F, ipF D P (f k) = .ok F ∧ (c.tol < npNorm F ∨ c.tol < (f k).mu) ∧ ipStep D P c (f k) F = .ok (f (k + 1))) ∧
      (∀ k, k + 1 < n → c.tol < npNorm ((f (k + 1)).beta - (f k).beta) ∨ c.tol < npNorm ((f (k + 1)).gamma - (f k).gamma) ∨
        c.tol < npNorm ((f (k + 1)).tbeta - (f k).tbeta) ∨ c.tol < npNorm ((f (k + 1)).tgamma - (f k).tgamma)) ∧
      (c.nIter ≤ n ∨ (∃ F, ipF D P (f n) = .ok F ∧ npNorm F ≤ c.tol ∧ (f n).mu ≤ c.tol) ∨
        ∃ k, n = k + 1 ∧ npNorm ((f n).beta - (f k).beta) ≤ c.tol ∧ npNorm ((f n).gamma - (f k).gamma) ≤ c.tol ∧
          npNorm ((f n).tbeta - (f k).tbeta) ≤ c.tol ∧ npNorm ((f n).tgamma - (f k).tgamma) ≤ c.tol) := by
  unfold lmeFindIp at h
  rw [if_neg hq] at h
  obtain ⟨s, hs, h⟩ := ebind_ok.1 h
  cases h
  obtain ⟨n, f, f0, fn, hf⟩ := ipLoop_trace D P c _ _ s rfl hs
  have hexit := ipLoop_exit D P c _ _ s rfl hs
  -- bookkeeping
  have hb : ∀ k, k ≤ n → (f k).iteration = k ∧ (f k).conv = false ∧ (∀ j, 0 < (f k).v j) ∧ (∀ j, 0 < (f k).gamma j) ∧ (f k).stepLen ≠ 0 := by
    intro k
    induction k with
    | zero =>
      intro _
      rw [f0]
      exact ⟨rfl, rfl, fun _ => one_pos, hg, one_ne_zero⟩
    | succ k ih =>
      intro hk
      obtain ⟨i1, i2, i3, i4, -⟩ := ih (by omega)
      obtain ⟨-, -, -, F, -, -, hst⟩ := hf k (by omega)
      obtain ⟨-, e2, e3⟩ := ipStep_prev hst
      obtain ⟨dF, d, step, -, -, hl, ev, -, eg, es, -⟩ := ipStep_ok hst
      obtain ⟨m, hm, hm0, -, -, h5, h6, -⟩ := C63_any_direction (f k).v (f k).gamma (fun j => d (.inl j)) (fun j => d (.inr (.inr j))) i3 i4
      rw [← hm] at hl
      unfold ipStepLen at hl
      rw [hls] at hl
      have hstep : step = 0.99 * m := (Except.ok.inj hl).symm
      refine ⟨by rw [e2, i1], by rw [e3 hinc, i2], fun j => ?_, fun j => ?_, ?_⟩
      · rw [ev, hstep]; exact h5 j
      · rw [eg, hstep]; exact h6 j
      · rw [es, hstep]
        exact mul_ne_zero (by norm_num) hm0.ne'
  have hn0 := hb n le_rfl
  have hprev : ∀ k < n, (f (k + 1)).prev = some ((f k).beta, (f k).gamma, (f k).tbeta, (f k).tgamma) := by
    intro k hk
    obtain ⟨-, -, -, F, -, -, hst⟩ := hf k hk
    exact (ipStep_prev hst).1
  refine ⟨n, f, f0, by rw [fn], ?_, fun k hk => (hf k hk).2.2.2, fun k hk => ?_, ?_⟩
  · rcases Nat.eq_zero_or_pos n with h0 | h0
    · rw [h0]; exact le_max_right _ _
    · have h1 := (hf (n - 1) (by omega)).2.1
      rw [(hb (n - 1) (by omega)).1] at h1
      refine le_max_of_le_left ?_
      omega
  · have hm := (hf (k + 1) hk).2.2.1
    unfold ipMoved at hm
    rw [hprev k (by omega)] at hm
    simp only [(hb (k + 1) (by omega)).2.1, Bool.false_eq_true, or_false] at hm
    tauto
  · rw [fn] at hn0
    rcases hexit with h1 | h1 | ⟨F, hF, h1⟩
    · exact absurd h1 hn0.2.2.2.2
    · rw [hn0.1] at h1
      exact .inl h1
    · right
      rw [not_and_or] at h1
      rcases h1 with h1 | h1
      · left
        rw [not_or] at h1
        exact ⟨F, by rw [fn]; exact hF, not_lt.1 h1.1, by rw [fn]; exact not_lt.1 h1.2⟩
      · right
        cases n with
        | zero =>
          exfalso
          apply h1
          rw [← fn, f0]
          trivial
        | succ k =>
          refine ⟨k, rfl, ?_⟩
          have hp := hprev k (by omega)
          unfold ipMoved at h1
          rw [← fn, hp] at h1
          simp only [not_or, not_lt] at h1
          exact ⟨h1.2.2.1, h1.2.2.2.1, h1.1, h1.2.1⟩

/-- Non-vacuity of C115: the settings of a practical fit, and a call that returns. -/
example (y : ℝ) : ∃ r o', (defaultCfg 0 1).lineSearch = none ∧ (defaultCfg 0 1).increaseLambdas = false ∧
    (∀ j, 0 < (ipStart (defaultCfg 0 1) (⟨⟨2, 2⟩, none⟩ : IpOracle 0 1) ![] ![1]).2 j) ∧
    lmeFindIp [obsGroup y] .nonInformative (defaultCfg 0 1) ⟨⟨2, 2⟩, none⟩ ![] ![1] ![] ![1] = .ok (r, o') := by
  obtain ⟨r, o', h, -⟩ := C81_inner_solver_total [obsGroup y] (obsGroup_posVar y) .nonInformative trivial (defaultCfg 0 1) (defaultCfg_default 0 1)
    ⟨⟨2, 2⟩, none⟩ (by norm_num) (by norm_num) ![] ![] ![1] ![1] (by intro j; fin_cases j; simp [ipStart, defaultCfg])
  exact ⟨r, o', rfl, rfl, by intro j; fin_cases j; simp [ipStart, defaultCfg], h⟩

/-! ## C114: practical fits return regularized points -/

/-- A practical fit returns its start or an output of the prox with step one. -/
theorem lmeOptimize_practical {M : LmeModelCfg} {s : LmeSr3Cfg} (hs : M.sr3 = some s) (hpr : s.practical = true)
    (hinit : M.initializer ≠ some "EM") {D : List (LmeGroup p q)} {Pr : LmeInstPrior ℝ p q} {R : Regularizer ℝ (p + q)} {beta : Vec ℝ p}
    {gamma : Vec ℝ q} {x : Vec ℝ (p + q)} {L : Logger (PyVal ℝ (p + q))} (h : lmeOptimize M D Pr R beta gamma = .ok (x, L)) :
    (xBeta x = beta ∧ xGamma x = gamma) ∨ ∃ y, R.prox y 1 = .ok x := by
  unfold lmeOptimize at h
  simp only [hs, hpr, if_true] at h
  obtain ⟨bg, hbg, h⟩ := ebind_ok.1 h
  unfold lmeInitialize at hbg
  rw [if_neg hinit] at hbg
  cases hbg
  obtain ⟨⟨⟨x', L'⟩, o'⟩, hr, h⟩ := ebind_ok.1 h
  cases h
  unfold fakeOptimize at hr
  obtain ⟨x1, s1, h1, hr1⟩ := bind_ok.1 hr
  obtain ⟨L1, s2, -, hr2⟩ := bind_ok.1 hr1
  obtain ⟨L2, s3, -, hr3⟩ := bind_ok.1 hr2
  cases hr3
  simp only at h1
  unfold lmeSr3FindOptimal at h1
  rw [xBeta_join, xGamma_join] at h1
  cases h2 : lmeFindIp D Pr (s.ipPractical R) ⟨⟨s.ell, s.ell⟩, none⟩ ((2 : ℝ) • beta) ((2 : ℝ) • gamma) beta gamma with
  | error e => rw [h2] at h1; cases h1
  | ok res =>
    rw [h2] at h1
    cases h1
    refine lmeFindIp_tgamma (r := res.1) (fun t => (xBeta (joinX t.1 t.2) = beta ∧ xGamma (joinX t.1 t.2) = gamma) ∨
      ∃ y, R.prox y 1 = .ok (joinX t.1 t.2)) ?_ ?_ h2
    · exact .inl ⟨xBeta_join _ _, xGamma_join _ _⟩
    · intro prox hreg x t hxt
      cases hreg
      refine .inr ⟨joinX x.1 x.2, ?_⟩
      change (R.prox (joinX x.1 x.2) 1).map (fun x => (xBeta x, xGamma x)) = .ok t at hxt
      cases hz : R.prox (joinX x.1 x.2) 1 with
      | error e => rw [hz] at hxt; cases hxt
      | ok z =>
        rw [hz] at hxt
        cases hxt
        congr 1
        funext i
        refine Fin.addCases (fun i => ?_) (fun i => ?_) i
        · unfold joinX xBeta; rw [Fin.append_left]
        · unfold joinX xGamma; rw [Fin.append_right]

/-- The part of **C114** that holds: a practical L0 fit returns its start unchanged, or coefficients within the budgets that respect the
hierarchy (as in C74). Missing: the first case cannot be excluded, see `C114_practical_violated`. -/
theorem C114_practical_partial (M : LmeModelCfg) (nb ng : Option ℤ) (sort : NpSort) (hreg : M.reg = .l0 nb ng sort) (s : LmeSr3Cfg)
    (hs : M.sr3 = some s) (hpr : s.practical = true) (hinit : M.initializer ≠ some "EM") (st : LmeState)
    (x : Matrix (Fin N) (Fin k) ℝ) (y : Vec ℝ N) (labels : List String) (ffi fri : Bool)
    (columns mustFe mustRe : Option (List String)) (a : LmeFitArgs) (c : LmeCoef) (P : LmeProblem ℝ)
    (hP : lmeFromXY x (some y) columns labels ffi fri mustFe mustRe = .ok P)
    (hlen : (a.feWeights.getD P.feWeights).length = fixedCount labels ffi)
    (h : lmeFit M st x y (some labels) ffi fri columns mustFe mustRe a = (.ok (), some c)) :
    (c.beta = a.beta.getD (List.replicate (fixedCount labels ffi) 1) ∧ c.gamma = a.gamma.getD (List.replicate (randomCount labels fri) 1)) ∨
    ((∀ n, nb = some n → (c.beta.countP (· ≠ 0) : ℤ) ≤ max n ((a.feWeights.getD P.feWeights).countP (· = 0))) ∧
    (∀ n, ng = some n → (c.gamma.countP (· ≠ 0) : ℤ) ≤ max n ((a.reWeights.getD P.reWeights).countP (· = 0))) ∧
    ∃ F R : List (Option (Fin k)),
      (∀ g ∈ P.fixedFeatures, ∀ row ∈ g, ∃ r, row = F.map fun s => s.elim 1 (x r)) ∧
      (∀ g ∈ P.randomFeatures, ∃ rows, g = .rows rows ∧ ∀ row ∈ rows, ∃ r, row = R.map fun s => s.elim 1 (x r)) ∧
      F.length = c.beta.length ∧ R.length = c.gamma.length ∧ F.Nodup ∧ R.Nodup ∧
      ∀ (i j : ℕ) (s : Option (Fin k)), F[i]? = some s → R[j]? = some s →
        (a.reWeights.getD P.reWeights)[j]? ≠ some 0 → c.beta[i]? = some 0 → c.gamma[j]? = some 0) := by
  obtain ⟨_, _, _, _, -, -, -, -, -, -, -, -, -, -, hPe⟩ := lmeFromXY_ok x (some y) columns labels ffi fri mustFe mustRe P hP
  have hF := numFixed_eq P ffi fri (by rw [hPe])
  have hR := numRandom_eq P ffi fri (by rw [hPe])
  have hcl : P.columnLabels = labels := by rw [hPe]
  rw [hcl, ← fixedCount_eq] at hF
  rw [hcl, ← randomCount_eq] at hR
  have hst : lmeStart st P a = (a.beta.getD (List.replicate P.numFixed 1), a.gamma.getD (List.replicate P.numRandom 1)) := by
    unfold lmeStart
    simp only [sklearnCheckTruth, Bool.and_false, Bool.false_eq_true, if_false]
    cases st <;> rfl
  refine l0_coef M nb ng sort hreg st x y labels ffi fri columns mustFe mustRe a c P hP
    (fun b g => b = a.beta.getD (List.replicate (fixedCount labels ffi) 1) ∧ g = a.gamma.getD (List.replicate (randomCount labels fri) 1))
    (fun D Pr R beta gamma vec L hb hg _ hopt => ?_) hlen h
  rcases lmeOptimize_practical hs hpr hinit hopt with ⟨e1, e2⟩ | ⟨y, hy⟩
  · left
    rw [e1, e2, hb, hg, hst, hF, hR]
    exact ⟨rfl, rfl⟩
  · exact .inr ⟨y, 1, hy⟩

theorem exFixed_ok (y : Vec ℝ 2) : ∃ P, lmeFromXY exTab (some y) none ["group", "fixed", "fixed", "variance"] false false none none = .ok P := by
  refine lmeFromXY_succeeds exTab (some y) none ["group", "fixed", "fixed", "variance"] false false none none 0 3 (by decide) (by decide) rfl (by decide)
    (by simp) ?_ ?_ (.inl rfl) (by simp) _ _ rfl rfl
  · intro r; fin_cases r <;> simp [exTab]
  · intro r; fin_cases r
    · exact ⟨1, by simp [exTab]⟩
    · exact ⟨0, by simp [exTab]⟩

/-- **C114** is violated: a practical L0 model that may select one of two fixed effects, fitted to a table without random effects, returns both
coefficients equal to one, whatever the observations are. -/
theorem C114_practical_violated (sort : NpSort) (y : Vec ℝ 2) : ∃ c, lmeFit (exModel (some (exSr3 true)) 100 (.l0 (some 1) none sort)) none exTab y
    (some ["group", "fixed", "fixed", "variance"]) false false none none none {} = (.ok (), some c) ∧ c.beta.countP (· ≠ 0) = 2 := by
  obtain ⟨P, hP⟩ := exFixed_ok y
  obtain ⟨c, hc, -⟩ := C83_fit_returns _ (exModel_robust (some (exSr3 true)) (by
      intro s hs
      cases hs
      exact ⟨by norm_num [exSr3], rfl⟩) 100 (.l0 (some 1) none sort) trivial (by simp)) rfl none exTab
    y ["group", "fixed", "fixed", "variance"] false false P hP (by
      intro v hv r
      fin_cases v
      · exact absurd hv (by decide)
      · exact absurd hv (by decide)
      · exact absurd hv (by decide)
      · fin_cases r <;> simp [exTab]) none none (by simp) (by simp) false
  refine ⟨c, hc, ?_⟩
  rw [C89_no_random_effects _ (by simp [exModel]) _ rfl rfl none _ _ _ _ _ (by decide) _ _ _ _ c hc]
  have : fixedCount ["group", "fixed", "fixed", "variance"] false = 2 := by decide
  rw [this]
  simp

/-- Before the first pass whose number is a multiple of `update_prox_every`, the relaxed variables are those of the start. -/
theorem ipLoop_no_prox {D : List (LmeGroup p q)} {P : LmeInstPrior ℝ p q} {c : IpCfg p q} (hk : c.updateProxEvery ≤ 0 ∨ c.nIter < c.updateProxEvery)
    {s r : IpState p q} (h0 : s.iteration = 0) (h : ipLoop D P c s = .ok r) : r.tbeta = s.tbeta ∧ r.tgamma = s.tgamma := by
  refine ipLoop_inv D P c (fun r => r.tbeta = s.tbeta ∧ r.tgamma = s.tgamma) ?_ _ _ r rfl ⟨rfl, rfl⟩ h
  rintro a F a' ⟨e1, e2⟩ hit - ha
  obtain ⟨dF, d, step, -, -, -, -, -, -, -, -, k⟩ := ipStep_ok ha
  change a'.tbeta = _ ∧ a'.tgamma = _
  rcases k with ⟨-, k1, k2, -, -⟩ | ⟨-, k1, -⟩
  · rw [k1, k2]; exact ⟨e1, e2⟩
  · unfold ipProx at k1
    have hold : Except.ok (a.tbeta, a.tgamma) = (Except.ok (a'.tbeta, a'.tgamma) : Except PyErr (Vec ℝ p × Vec ℝ q)) := by
      cases hreg : c.reg with
      | none => rw [hreg] at k1; exact k1
      | some prox =>
        rw [hreg] at k1
        simp only at k1
        rwa [if_neg] at k1
        rintro ⟨hp, hm⟩
        rcases hk with hk | hk
        · omega
        · rw [Int.emod_eq_of_lt (by positivity) (by push_cast; omega)] at hm
          omega
    simp only [Except.ok.injEq, Prod.mk.injEq] at hold
    exact ⟨hold.1.symm.trans e1, hold.2.symm.trans e2⟩

/-- **C114** is violated by every practical model, with whatever regularizer, whose `update_prox_every` is not positive or larger than `max_iter_oracle`: no pass ends with a
projection, and the fit returns the start, whatever the data are. -/
theorem C114_schedule_violated (M : LmeModelCfg) (s : LmeSr3Cfg) (hs : M.sr3 = some s) (hpr : s.practical = true) (hinit : M.initializer ≠ some "EM")
    (hk : s.updateProxEvery ≤ 0 ∨ s.maxIterOracle < s.updateProxEvery) (st : LmeState) (x : Matrix (Fin N) (Fin k) ℝ) (y : Vec ℝ N) (labels : List String)
    (ffi fri : Bool) (columns mustFe mustRe : Option (List String)) (a : LmeFitArgs) (c : LmeCoef)
    (h : lmeFit M st x y (some labels) ffi fri columns mustFe mustRe a = (.ok (), some c)) :
    c.beta = a.beta.getD (List.replicate (fixedCount labels ffi) 1) ∧ c.gamma = a.gamma.getD (List.replicate (randomCount labels fri) 1) := by
  obtain ⟨P, coef, v, L0, hP, hc, hcore⟩ := lmeFit_ok h
  cases hc
  obtain ⟨_, _, _, _, -, -, -, -, -, -, -, -, -, -, hPe⟩ := lmeFromXY_ok x (some y) columns labels ffi fri mustFe mustRe P hP
  have hF := numFixed_eq P ffi fri (by rw [hPe])
  have hR := numRandom_eq P ffi fri (by rw [hPe])
  have hcl : P.columnLabels = labels := by rw [hPe]
  rw [hcl, ← fixedCount_eq] at hF
  rw [hcl, ← randomCount_eq] at hR
  have hst : lmeStart st P a = (a.beta.getD (List.replicate P.numFixed 1), a.gamma.getD (List.replicate P.numRandom 1)) := by
    unfold lmeStart
    simp only [sklearnCheckTruth, Bool.and_false, Bool.false_eq_true, if_false]
    cases st <;> rfl
  obtain ⟨m, Pr, w, base, D, beta, gamma, us, per, -, -, -, -, -, hbeta, hgamma, hr, -, -, hcoef⟩ := lmeFitCore_ok hcore
  rw [hst] at hbeta hgamma
  have e1 : a.beta.getD (List.replicate P.numFixed 1) = List.ofFn beta := (asVec_ok.1 hbeta).symm
  have e2 : a.gamma.getD (List.replicate P.numRandom 1) = List.ofFn gamma := (asVec_ok.1 hgamma).symm
  rw [← hF, ← hR, hcoef, e1, e2]
  unfold lmeOptimize at hr
  simp only [hs, hpr, if_true] at hr
  obtain ⟨bg, hbg, hr⟩ := ebind_ok.1 hr
  unfold lmeInitialize at hbg
  rw [if_neg hinit] at hbg
  cases hbg
  obtain ⟨⟨⟨x', L'⟩, o'⟩, hr, h⟩ := ebind_ok.1 hr
  cases h
  unfold fakeOptimize at hr
  obtain ⟨x1, s1, h1, hr1⟩ := bind_ok.1 hr
  obtain ⟨L1, s2, -, hr2⟩ := bind_ok.1 hr1
  obtain ⟨L2, s3, -, hr3⟩ := bind_ok.1 hr2
  cases hr3
  simp only at h1
  unfold lmeSr3FindOptimal at h1
  rw [xBeta_join, xGamma_join] at h1
  cases h2 : lmeFindIp D Pr (s.ipPractical (wrapReg P.numFixed P.numRandom M.elasticEps base)) ⟨⟨s.ell, s.ell⟩, none⟩ ((2 : ℝ) • beta) ((2 : ℝ) • gamma) beta gamma with
  | error e => rw [h2] at h1; cases h1
  | ok res =>
    rw [h2] at h1
    cases h1
    have key : res.1.tbeta = beta ∧ res.1.tgamma = gamma := by
      unfold lmeFindIp at h2
      by_cases hq : P.numRandom = 0
      · rw [if_pos hq] at h2
        obtain ⟨b, -, h2⟩ := ebind_ok.1 h2
        cases h2
        exact ⟨rfl, rfl⟩
      · rw [if_neg hq] at h2
        obtain ⟨b, hb, h2⟩ := ebind_ok.1 h2
        cases h2
        exact ipLoop_no_prox hk rfl hb
    simp only [xBeta_join, xGamma_join, key.1, key.2]
    exact ⟨trivial, trivial⟩

/-- Non-vacuity: a practical L1 model with `update_prox_every=1001` and 1000 inner iterations fits every target. -/
example (y : Vec ℝ 2) : ∃ c, lmeFit (exModel (some { exSr3 true with updateProxEvery := 1001 }) 100 (.l1 3)) none exTab y (some exTabLabels) true true none none none {} =
    (.ok (), some c) ∧ c.beta = [1, 1] ∧ c.gamma = [1, 1] := by
  obtain ⟨P, hP⟩ := exTab_ok' true true y
  obtain ⟨c, hc, -⟩ := C83_fit_returns _ (exModel_robust (some { exSr3 true with updateProxEvery := 1001 }) (by
      intro s hs
      cases hs
      exact ⟨by norm_num [exSr3], rfl⟩) 100 (.l1 3) (by norm_num [LmeReg.Admissible]) (by simp)) rfl none exTab y exTabLabels true true P hP exTab_positive none none
    (by simp) (by simp) false
  obtain ⟨h1, h2⟩ := C114_schedule_violated _ { exSr3 true with updateProxEvery := 1001 } rfl rfl (by simp [exModel]) (.inr (by norm_num [exSr3])) none exTab y exTabLabels true true
    none none none _ c hc
  exact ⟨c, hc, h1.trans (by rw [show fixedCount exTabLabels true = 2 by decide]; rfl), h2.trans (by rw [show randomCount exTabLabels true = 2 by decide]; rfl)⟩

end Verif
